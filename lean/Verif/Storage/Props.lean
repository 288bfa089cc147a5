import Verif.Storage.Blocks
/-!
# Arguments copied by a batch (C76)
-/

namespace Verif.Storage

/-! ## Batches that exist, entries in flight -/

structure InvD (s : St) (tr : List Ev) : Prop where
  born : ∀ b B, s.bat b = .live B → (.born b ∈ tr ∨ ∃ c, .moved c b ∈ tr) ∧ .died b ∉ tr
  unborn : ∀ b, s.nbt ≤ b → .died b ∉ tr
  fly : ∀ p q b es a, tr = p ++ .submitted b es :: q → some a ∈ es → (∀ c, .moved b c ∉ q) → .died b ∉ q →
    ∃ B n, s.bat b = .live B ∧ B.stale = false ∧ n ∈ B.nodes ∧ n.elem.buf = some a

theorem split_append {α : Type} {tr e p q : List α} {x : α} (h : tr ++ e = p ++ x :: q) :
    (∃ q', tr = p ++ x :: q' ∧ q = q' ++ e) ∨ x ∈ e ∧ ∃ e1, e = e1 ++ x :: q ∧ p = tr ++ e1 := by
  rcases List.append_eq_append_iff.1 h with ⟨a, h1, h2⟩ | ⟨a, h1, h2⟩
  · exact .inr ⟨by rw [h2]; simp, a, h2, h1⟩
  · cases a with
    | nil =>
      simp only [List.append_nil, List.nil_append] at h1 h2
      exact .inr ⟨by rw [← h2]; simp, [], by simp [← h2], by simp [h1]⟩
    | cons y ys =>
      simp only [List.cons_append, List.cons.injEq] at h2
      exact .inl ⟨ys, by rw [h1, h2.1], h2.2⟩

/-- a step that submits nothing keeps what is in flight, if it keeps the nodes of batches neither moved nor destroyed by it -/
theorem fly_keep {s s' : St} {tr e : List Ev} (h : InvD s tr) (hns : ∀ b es, Ev.submitted b es ∉ e)
    (hk : ∀ b B, s.bat b = .live B → (∀ c, .moved b c ∉ e) → .died b ∉ e → ∃ B', s'.bat b = .live B' ∧ B'.stale = B.stale ∧ ∀ n ∈ B.nodes, n ∈ B'.nodes) :
    ∀ p q b es a, tr ++ e = p ++ .submitted b es :: q → some a ∈ es → (∀ c, .moved b c ∉ q) → .died b ∉ q →
      ∃ B n, s'.bat b = .live B ∧ B.stale = false ∧ n ∈ B.nodes ∧ n.elem.buf = some a := by
  intro p q b es a heq ha hm hd
  rcases split_append heq with ⟨q', h1, rfl⟩ | ⟨h1, _⟩
  · obtain ⟨B, n, g1, g2, g3, g4⟩ := h.fly p q' b es a h1 ha (fun c hc => hm c (by simp [hc])) (fun hc => hd (by simp [hc]))
    obtain ⟨B', k1, k2, k3⟩ := hk b B g1 (fun c hc => hm c (by simp [hc])) (fun hc => hd (by simp [hc]))
    exact ⟨B', n, k1, by rw [k2]; exact g2, k3 n g3, g4⟩
  · exact absurd h1 (hns b es)

theorem InvD.good {s s' : St} {l : Label} {tr e : List Ev} (hA : InvA s) (hB : InvB s tr) (h : InvD s tr) (g : Good s l s' e) : InvD s' (tr ++ e) := by
  have hl := fun b B hb => hA.lt (b := b) (B := B) hb
  cases g with
  | userRes =>
    refine ⟨fun b B hb => ?_, fun b hb => ?_, fly_keep h (by simp) (fun b B hb _ _ => ⟨B, hb, rfl, fun _ h => h⟩)⟩
    · simpa using h.born b B hb
    · simpa using h.unborn b hb
  | dropRes r hu hn =>
    refine ⟨fun b B hb => ?_, fun b hb => ?_, fly_keep h (by simp) (fun b B hb _ _ => ⟨B, hb, rfl, fun _ h => h⟩)⟩
    · simpa using h.born b B hb
    · simpa using h.unborn b hb
  | newUser r ha hu =>
    refine ⟨fun b B hb => ?_, fun b hb => ?_, fly_keep h (by simp) (fun b B hb _ _ => ⟨B, ?_, rfl, fun _ h => h⟩)⟩
    · simp only [upd_apply] at hb
      split at hb
      · rename_i hbn
        subst hbn
        have := h.unborn s.nbt (Nat.le_refl _)
        simp [this]
      · have := h.born b B hb
        simp; grind
    · have := h.unborn b (Nat.le_of_succ_le hb)
      simpa using this
    · have := hl b B hb
      simp only [upd_apply]; rw [if_neg (by omega)]; exact hb
  | newOwn =>
    refine ⟨fun b B hb => ?_, fun b hb => ?_, fly_keep h (by simp) (fun b B hb _ _ => ⟨B, ?_, rfl, fun _ h => h⟩)⟩
    · simp only [upd_apply] at hb
      split at hb
      · rename_i hbn
        subst hbn
        have := h.unborn s.nbt (Nat.le_refl _)
        simp [this]
      · have := h.born b B hb
        simp; grind
    · have := h.unborn b (Nat.le_of_succ_le hb)
      simpa using this
    · have := hl b B hb
      simp only [upd_apply]; rw [if_neg (by omega)]; exact hb
  | prepN b B hb hst =>
    refine ⟨fun c C hc => ?_, fun c hc => by simpa using h.unborn c hc, fly_keep h (by simp) (fun c C hc _ _ => ?_)⟩
    · simp only [upd_apply] at hc
      split at hc
      · rename_i hcb; subst hcb; simpa using h.born c B hb
      · simpa using h.born c C hc
    · simp only [upd_apply]
      split
      · rename_i hcb; subst hcb; rw [hb] at hc; simp at hc; subst hc
        exact ⟨_, rfl, rfl, fun _ h => h⟩
      · exact ⟨C, hc, rfl, fun _ h => h⟩
  | prepS b v B hb hst =>
    refine ⟨fun c C hc => ?_, fun c hc => by simpa using h.unborn c hc, fly_keep h (by simp) (fun c C hc _ _ => ?_)⟩
    · simp only [upd_apply] at hc
      split at hc
      · rename_i hcb; subst hcb; simpa using h.born c B hb
      · simpa using h.born c C hc
    · simp only [upd_apply]
      split
      · rename_i hcb; subst hcb; rw [hb] at hc; simp at hc; subst hc
        exact ⟨_, rfl, rfl, fun _ h => List.mem_append_left _ h⟩
      · exact ⟨C, hc, rfl, fun _ h => h⟩
  | timeout b v B hb hst =>
    refine ⟨fun c C hc => ?_, fun c hc => by simpa using h.unborn c hc, fly_keep h (by simp) (fun c C hc _ _ => ?_)⟩
    · simp only [upd_apply] at hc
      split at hc
      · rename_i hcb; subst hcb; simpa using h.born c B hb
      · simpa using h.born c C hc
    · simp only [upd_apply]
      split
      · rename_i hcb; subst hcb; rw [hb] at hc; simp at hc; subst hc
        exact ⟨_, rfl, rfl, fun _ h => List.mem_append_left _ h⟩
      · exact ⟨C, hc, rfl, fun _ h => h⟩
  | move b B hb =>
    refine ⟨fun c C hc => ?_, fun c hc => ?_, fly_keep h (by simp) (fun c C hc hm _ => ?_)⟩
    · simp only [upd_apply] at hc
      split at hc
      · rename_i hcb; subst hcb
        have := h.born c B hb
        simp; grind
      · split at hc
        · rename_i hcn; subst hcn
          have := h.unborn s.nbt (Nat.le_refl _)
          simp [this]
        · have := h.born c C hc
          simp; grind
    · have := h.unborn c (Nat.le_of_succ_le hc)
      simpa using this
    · have hcb : c ≠ b := by rintro rfl; exact hm s.nbt (by simp)
      have := hl c C hc
      simp only [upd_apply]
      rw [if_neg hcb, if_neg (by omega)]
      exact ⟨C, hc, rfl, fun _ h => h⟩
  | destroy b B hb blk' hx al hal =>
    have hev : ∀ x ∈ dropEvs B.la B.nodes ++ (B.own.toList.map .resGone ++ [.died b]), (∀ c, x ≠ .born c) ∧ (∀ c d, x ≠ .moved c d) ∧ (∀ c es, x ≠ .submitted c es) ∧ ∀ c, x = .died c → c = b := by
      intro x hx
      simp only [List.mem_append] at hx
      rcases hx with hx | hx | hx
      · obtain ⟨n, _, hn⟩ := List.mem_flatMap.1 hx
        simp only [dropEv, List.mem_append, List.mem_flatMap, List.mem_cons, List.not_mem_nil, or_false] at hn
        rcases hn with ⟨a, _, rfl | rfl⟩ | rfl <;> simp
      · obtain ⟨r, _, rfl⟩ := List.mem_map.1 hx
        simp
      · simp at hx; subst hx; simp
    have hdied : .died b ∈ dropEvs B.la B.nodes ++ (B.own.toList.map .resGone ++ [.died b]) := by simp
    have hbn := hl b B hb
    refine ⟨fun c C hc => ?_, fun c hc => ?_, fly_keep h (fun c es hc => (hev _ hc).2.2.1 c es rfl) (fun c C hc _ hd => ?_)⟩
    · simp only [upd_apply] at hc
      split at hc
      · simp at hc
      · rename_i hcb
        obtain ⟨k1, k2⟩ := h.born c C hc
        refine ⟨?_, ?_⟩
        · rcases k1 with k1 | ⟨d, k1⟩
          · exact .inl (List.mem_append_left _ k1)
          · exact .inr ⟨d, List.mem_append_left _ k1⟩
        · rw [List.mem_append]
          rintro (k | k)
          · exact k2 k
          · exact hcb ((hev _ k).2.2.2 c rfl)
    · rw [List.mem_append]
      simp only at hc
      rintro (k | k)
      · exact h.unborn c hc k
      · have := (hev _ k).2.2.2 c rfl; omega
    · have hcb : c ≠ b := by rintro rfl; exact hd hdied
      simp only [upd_apply]
      rw [if_neg hcb]
      exact ⟨C, hc, rfl, fun _ h => h⟩
  | execute b a B hb hst hr => simpa using (⟨h.born, h.unborn, h.fly⟩ : InvD { s with aw := upd s.aw a (some b) } tr)
  | copyAw a a' => simpa using (⟨h.born, h.unborn, h.fly⟩ : InvD { s with aw := upd s.aw a' (s.aw a) } tr)
  | suspend a b B ha hb hst hr =>
    refine ⟨fun c C hc => by simpa using h.born c C hc, fun c hc => by simpa using h.unborn c hc, ?_⟩
    intro p q c es x heq hx hm hd
    rcases split_append heq with ⟨q', h1, rfl⟩ | ⟨h1, e1, h2, h3⟩
    · exact h.fly p q' c es x h1 hx (fun d hc => hm d (by simp [hc])) (fun hc => hd (by simp [hc]))
    · simp only [List.mem_singleton, Ev.submitted.injEq] at h1
      obtain ⟨rfl, rfl⟩ := h1
      obtain ⟨k1, _⟩ := hB.refs c B hb hst
      have : ∀ {l w : List (Option Nat)}, All2 (Ref s.mem B.nodes) l w → some x ∈ l → ∃ n ∈ B.nodes, n.elem.buf = some x := by
        intro l
        induction l with
        | nil => intro w _ hx; simp at hx
        | cons y ys ih =>
          intro w hw hx
          cases w with
          | nil => simp [All2] at hw
          | cons z zs =>
            rcases List.mem_cons.1 hx with rfl | hx
            · cases z with
              | none => simp [All2, Ref] at hw
              | some v => exact hw.1.1
            · exact ih hw.2 hx
      obtain ⟨n, hn, hnx⟩ := this k1 hx
      exact ⟨B, n, hb, hst, hn, hnx⟩

theorem reach_D {s : St} {tr : List Ev} (h : (M true).Reaches s tr) : InvD s tr :=
  Machine.Reaches.inv' (I := InvD) (by constructor <;> simp [M, init])
    (fun _ _ _ _ _ hr hi hs => hi.good (reach_A hr) (reach_B hr) (step_good (reach_A hr) hs)) h

/-! ## The theorems -/

variable {s : St} {tr : List Ev}

/-- C76 (safety): a user who keeps to the discipline (move construction included) never runs into undefined behaviour: no use of memory after it was given back or of a destroyed resource,
no memory given back to the wrong resource, no access to an empty batch. -/
theorem batch_memory_safe_partial (h : (M true).Reaches s tr) : s.ub = false := (reach_A h).ub

theorem readable_of {s : St} {tr : List Ev} (h : (M true).Reaches s tr) {b a v : Nat} {B : Batch} {n : Node} (hb : s.bat b = .live B) (hst : B.stale = false) (hn : n ∈ B.nodes) (hna : n.elem.buf = some a)
    (hm : .made a v ∈ tr) : Readable tr a v := by
  have hA := reach_A h
  have hC := reach_C h
  obtain ⟨h1, a', w, h2, h3, h4, h5, h6⟩ := hA.node b B n hb hn
  rw [hna] at h2
  simp only [Option.some.injEq] at h2
  subst h2
  refine ⟨hm, ?_, ⟨B.la, ?_, ?_⟩, ?_⟩
  · have := hC.gone0 a (by simp [h3])
    exact List.count_eq_zero.1 this
  · exact (hC.alloc a B.la).2 ⟨h5, by simp [h3]⟩
  · intro hg
    have := (hC.res B.la hg).1
    rw [((hA.shape b B hb).2.2.2.1 hst).1] at this
    simp at this
  · intro r hr
    have := hC.free a r
    simp only [h3, Bool.true_eq_false, false_and, and_false, if_false] at this
    exact List.count_eq_zero.1 this hr

/-- C76: as long as a batch exists, each of its entries refers to a readable copy of exactly the argument that was passed for it, in the order of the calls with the time-out last —
also after the batch has been moved (move construction) any number of times. -/
theorem copied_arguments_readable_partial (h : (M true).Reaches s tr) (b : Nat) (B : Batch) (hb : s.bat b = .live B) : All2 (Right tr) B.refs (want tr b).entries := by
  have hB := reach_B h
  have hC := reach_C h
  cases hst : B.stale with
  | true =>
    rw [hB.stale b B hb hst, ((reach_A h).shape b B hb).2.2.1 hst |>.2.2]
    simp [Want.entries, All2]
  | false =>
    refine all2_mono ?_ (hB.refs b B hb hst).1
    intro x y hr
    match x, y, hr with
    | none, none, _ => trivial
    | some a, some v, ⟨⟨n, hn, hna⟩, hv⟩ => exact readable_of h hb hst hn hna (hC.val a v hv)

/-- a run to an event: the state in which it happens -/
theorem at_submit (h : (M true).Reaches s tr) {p q : List Ev} {b : Nat} {es : List (Option Nat)} (htr : tr = p ++ .submitted b es :: q) :
    ∃ s' B, (M true).Reaches s' p ∧ s'.bat b = .live B ∧ B.refs = es := by
  suffices ∀ {s tr}, (M true).Reaches s tr → ∀ p q, tr = p ++ .submitted b es :: q → ∃ s' B, (M true).Reaches s' p ∧ s'.bat b = .live B ∧ B.refs = es from this h p q htr
  intro s tr h
  refine Machine.Reaches.inv' (I := fun _ tr => ∀ p q, tr = p ++ .submitted b es :: q → ∃ s' B, (M true).Reaches s' p ∧ s'.bat b = .live B ∧ B.refs = es) (by intro p q hh; simp at hh) ?_ h
  intro s tr l s' e hr hi hs p q htr
  rcases split_append htr with ⟨q', h1, _⟩ | ⟨h1, e1, h2, h3⟩
  · exact hi p q' h1
  · cases step_good (reach_A hr) hs with
    | suspend a c B ha hb hst hrr =>
      simp only [List.mem_singleton, Ev.submitted.injEq] at h1
      obtain ⟨rfl, rfl⟩ := h1
      have : e1 = [] := by cases e1 with
        | nil => rfl
        | cons y ys => simp at h2
      subst this
      exact ⟨s, B, by simpa [h3] using hr, hb, rfl⟩
    | destroy c B hb blk' hx al hal =>
      exfalso
      simp only [List.mem_append] at h1
      rcases h1 with hx | hx | hx
      · obtain ⟨n, _, hn⟩ := List.mem_flatMap.1 hx
        simp [dropEv] at hn
      · simp at hx
      · simp at hx
    | _ => simp at h1

/-- C76: what co_await hands to the kernel refers, entry by entry, to readable copies of the arguments asked for. -/
theorem submitted_arguments_partial (h : (M true).Reaches s tr) {p q : List Ev} {b : Nat} {es : List (Option Nat)} (htr : tr = p ++ .submitted b es :: q) :
    All2 (Right p) es (want p b).entries := by
  obtain ⟨s', B, h1, h2, rfl⟩ := at_submit h htr
  exact copied_arguments_readable_partial h1 b B h2

/-- C76: … and they stay readable at the same addresses for as long as the batch is neither destroyed nor moved from: whatever else happens, until the operation is over. -/
theorem in_flight_arguments_partial (h : (M true).Reaches s tr) {p q : List Ev} {b : Nat} {es : List (Option Nat)} (htr : tr = p ++ .submitted b es :: q)
    (hm : ∀ c, .moved b c ∉ q) (hd : .died b ∉ q) : All2 (Right tr) es (want p b).entries := by
  have hD := reach_D h
  have hfly := fun a ha => hD.fly p q b es a htr ha hm hd
  have hp := submitted_arguments_partial h htr
  generalize (want p b).entries = w at hp
  have : ∀ (l w : List (Option Nat)), All2 (Right p) l w → (∀ x ∈ l, x ∈ es) → All2 (Right tr) l w := by
    intro l
    induction l with
    | nil => intro w hw _; cases w with | nil => trivial | cons => simp [All2] at hw
    | cons y ys ih =>
      intro w hw hs
      cases w with
      | nil => simp [All2] at hw
      | cons z zs =>
        refine ⟨?_, ih zs hw.2 (fun x hx => hs x (by simp [hx]))⟩
        match y, z, hw.1, hs y (by simp) with
        | none, none, _, _ => trivial
        | some a, some v, hr, hmem =>
          obtain ⟨B, n, k1, k2, k3, k4⟩ := hfly a hmem
          exact readable_of h k1 k2 k3 k4 (by rw [htr]; exact List.mem_append_left _ hr.1)
  exact this es w hp (fun x hx => hx)

/-- C76: no copy is destroyed twice, no memory given back twice or to another resource than it came from. -/
theorem freed_at_most_once_partial (h : (M true).Reaches s tr) (a : Nat) :
    tr.count (.gone a) ≤ 1 ∧ ∀ r, tr.count (.free a r) ≤ 1 ∧ (.free a r ∈ tr → .alloc a r ∈ tr) := by
  have hC := reach_C h
  refine ⟨?_, fun r => ⟨?_, fun hf => ?_⟩⟩
  · by_cases hm : ∃ v, Ev.made a v ∈ tr
    · obtain ⟨v, hv⟩ := hm
      cases hl : (s.mem.blk a).live with
      | true => rw [hC.gone0 a hl]; simp
      | false => rw [hC.gone1 a v hv hl]; simp
    · rw [hC.goneN a (fun v hv => hm ⟨v, hv⟩)]; simp
  · rw [hC.free a r]; split <;> simp
  · have hc := hC.free a r
    split at hc
    · rename_i hh
      exact (hC.alloc a r).2 ⟨hh.1, hh.2.2.symm⟩
    · exact absurd hf (List.count_eq_zero.1 hc)

/-- C76: when all batches have been destroyed, every copy has been destroyed exactly once and all memory given back exactly once. -/
theorem all_freed_partial (h : (M true).Reaches s tr) (hall : ∀ b, (.born b ∈ tr ∨ ∃ c, .moved c b ∈ tr) → .died b ∈ tr) (a : Nat) :
    (∀ v, .made a v ∈ tr → tr.count (.gone a) = 1) ∧ ∀ r, .alloc a r ∈ tr → tr.count (.free a r) = 1 := by
  have hA := reach_A h
  have hC := reach_C h
  have hD := reach_D h
  have hdead : (s.mem.blk a).live = false := by
    cases hl : (s.mem.blk a).live with
    | false => rfl
    | true =>
      obtain ⟨b, B, hb, _⟩ := hA.held a hl
      obtain ⟨k1, k2⟩ := hD.born b B hb
      exact absurd (hall b k1) k2
  refine ⟨fun v hv => hC.gone1 a v hv hdead, fun r hr => ?_⟩
  obtain ⟨h1, h2⟩ := (hC.alloc a r).1 hr
  rw [hC.free a r, if_pos ⟨h1, hdead, h2.symm⟩]

/-- C76: destroying a batch destroys and frees all of its copies at once. -/
theorem destroy_frees_partial (h : (M true).Reaches s tr) {b : Nat} {B : Batch} (hb : s.bat b = .live B) {s' : St} {e : List Ev} (hs : (M true).step s (.destroy b) = some (s', e))
    {a : Nat} (ha : some a ∈ B.refs) : (tr ++ e).count (.gone a) = 1 ∧ ∃ r, (tr ++ e).count (.free a r) = 1 := by
  have hr := copied_arguments_readable_partial h b B hb
  have hst : B.stale = false := by
    cases hst : B.stale with
    | false => rfl
    | true => rw [((reach_A h).shape b B hb).2.2.1 hst |>.2.2] at ha; simp at ha
  obtain ⟨k1, _⟩ := (reach_B h).refs b B hb hst
  have key : ∀ {l w : List (Option Nat)}, All2 (Ref s.mem B.nodes) l w → some a ∈ l → (∃ n ∈ B.nodes, n.elem.buf = some a) ∧ ∃ v, (s.mem.blk a).val = some v := by
    intro l
    induction l with
    | nil => intro w _ hx; simp at hx
    | cons y ys ih =>
      intro w hw hx
      cases w with
      | nil => simp [All2] at hw
      | cons z zs =>
        rcases List.mem_cons.1 hx with rfl | hx
        · cases z with
          | none => simp [All2, Ref] at hw
          | some v => exact ⟨hw.1.1, v, hw.1.2⟩
        · exact ih hw.2 hx
  obtain ⟨⟨n, hn, hna⟩, v, hv⟩ := key k1 ha
  have hmade := (reach_C h).val a v hv
  have hin : a ∈ addrs B.nodes := List.mem_flatMap.2 ⟨n, hn, by simp [nodeAddrs, hna]⟩
  have hg := step_good (reach_A h) hs
  have hC' := reach_C (h.step hs)
  have hdead : (s'.mem.blk a).live = false := by
    cases hg with
    | destroy _ B' hb' blk' hx al hal =>
      rw [hb] at hb'
      simp only [Slot.live.injEq] at hb'
      subst hb'
      simp [hx, hin]
  refine ⟨hC'.gone1 a v (List.mem_append_left _ hmade) hdead, (s'.mem.blk a).res, ?_⟩
  rw [hC'.free a _, if_pos ⟨(hC'.made a v (List.mem_append_left _ hmade)).1, hdead, rfl⟩]

/-- a batch with three arguments and a time-out, moved, executed, with another batch using a resource of the user's, everything destroyed in the end -/
example : ∃ s tr, (M true).Reaches s tr ∧ .submitted 1 [some 1, none, some 5, some 3] ∈ tr ∧ .made 5 30 ∈ tr ∧ tr.count (.gone 5) = 1 ∧ (want tr 0).ops = [] ∧
    (∀ b, (.born b ∈ tr ∨ ∃ c, .moved c b ∈ tr) → .died b ∈ tr) :=
  ⟨_, [.resMade 1, .born 0, .alloc 0 1, .alloc 1 1, .made 1 10, .prepped 0 (some 10), .prepped 0 none, .alloc 2 1, .alloc 3 1, .made 3 20, .timed 0 20, .moved 0 1, .alloc 4 1, .alloc 5 1, .made 5 30,
    .prepped 1 (some 30), .resMade 2, .born 2, .alloc 6 2, .alloc 7 2, .made 7 7, .prepped 2 (some 7), .moved 2 3, .submitted 1 [some 1, none, some 5, some 3], .died 0, .gone 1, .free 1 1, .free 0 1,
    .gone 3, .free 3 1, .free 2 1, .gone 5, .free 5 1, .free 4 1, .resGone 1, .died 1, .gone 7, .free 7 2, .free 6 2, .died 3, .died 2, .resGone 2], ⟨[.new none, .prep 0 (some 10), .prep 0 none, .timeout 0 20, .moveCtor 0, .prep 1 (some 30), .userRes, .new (some 2), .prep 2 (some 7), .moveCtor 2,
    .execute 1 5, .copyAw 5 6, .suspend 6, .destroy 0, .destroy 1, .destroy 3, .destroy 2, .dropRes 2], rfl⟩, by decide, by decide, by decide, by decide, by
      intro b
      simp
      grind⟩

/-! ## What goes wrong without the discipline -/

/-- C76 refuted for move assignment: assigning to a batch that has its own memory resource is undefined behaviour, whatever the two batches hold: the resource is destroyed first
and used afterwards. -/
theorem move_assign_refuted (h : (M true).Reaches s tr) {b c r : Nat} {B C : Batch} (hbc : b ≠ c) (hb : s.bat b = .live B) (hc : s.bat c = .live C) (ho : B.own = some r) (hC : C.stale = false) :
    (M false).step s (.moveAssign b c) = some ({ s with ub := true }, []) := by
  have hA := reach_A h
  obtain ⟨_, _, b3, b4, _⟩ := hA.shape b B hb
  have hBs : B.stale = false := by
    cases hst : B.stale with
    | false => rfl
    | true => rw [(b3 hst).1] at ho; simp at ho
  obtain ⟨_, _, _, c4, _⟩ := hA.shape c C hc
  have hr : r = B.la ∧ s.mem.user r = false := by
    rcases (b4 hBs).2 with ⟨k, k'⟩ | ⟨k, _⟩
    · rw [ho] at k; simp at k; subst k; exact ⟨rfl, k'⟩
    · rw [ho] at k; simp at k
  have hne : B.la ≠ C.la := by
    intro heq
    rcases (c4 hC).2 with ⟨k, _⟩ | ⟨_, k⟩
    · exact hbc (hA.uniq b c B C r hb hc ho (by rw [k, ← heq, hr.1]))
    · rw [← heq, ← hr.1, hr.2] at k; simp at k
  simp [M, step, hA.ub, stepLive, hb, hc, ho, hbc, hne, hr.1]

/-- C76 refuted for move assignment between batches on resources of the user's: the element destroys its object but keeps the memory of another resource, which is then given back to the wrong one. -/
theorem move_assign_user_refuted (x y : Nat) : ∃ s tr s' tr', (M false).Reaches s tr ∧ .gone 1 ∈ tr ∧ .free 1 1 ∉ tr ∧ (∀ b, .died b ∉ tr) ∧
    (M false).step s (.destroy 0) = some (s', tr') ∧ s'.ub = true :=
  ⟨_, [.resMade 1, .resMade 2, .born 0, .born 1, .alloc 0 1, .alloc 1 1, .made 1 x, .prepped 0 (some x), .alloc 2 2, .alloc 3 2, .made 3 y, .prepped 1 (some y), .gone 1, .moved 1 0],
    _, _, ⟨[.userRes, .userRes, .new (some 1), .new (some 2), .prep 0 (some x), .prep 1 (some y), .moveAssign 0 1], rfl⟩, by simp, by simp, by simp, rfl, rfl⟩

/-- C76 refuted for awaitables: co_await on a single-operation awaitable that has been moved (move constructor: the batch inside is moved, the pointer to its entries copied) is undefined behaviour,
whatever it holds. -/
theorem moved_awaitable_refuted (h : (M true).Reaches s tr) {a a' b : Nat} {B : Batch} (ha : s.aw a = some b) (hb : s.bat b = .live B) :
    ∃ s' tr', (M false).runFrom s [.moveCtor b, .copyAw a a', .suspend a'] = some (s', tr') ∧ s'.ub = true := by
  have hA := reach_A h
  have := hA.lt hb
  refine ⟨{ s with nbt := s.nbt + 1, bat := upd (upd s.bat s.nbt (.live B)) b (.live { B with own := none, nodes := [], refs := [], stale := true }), aw := upd s.aw a' (some b), ub := true }, [.moved b s.nbt], ?_, rfl⟩
  simp [Machine.runFrom, M, step, hA.ub, stepLive, hb, ha]

/-- C76 refuted for moved-from batches: with a time-out set the flag stays behind without the entry, and the next prep_* is undefined behaviour; and without a time-out the memory resource belongs to the other
batch, so that prep_* after its destruction is undefined behaviour. -/
theorem moved_from_reuse_refuted (x y z : Nat) :
    (∃ s tr s' e, (M false).Reaches s tr ∧ .moved 0 1 ∈ tr ∧ (M false).step s (.prep 0 (some z)) = some (s', e) ∧ s'.ub = true ∧ .died 1 ∉ tr) ∧
    (∃ s tr s' e, (M false).Reaches s tr ∧ .moved 0 1 ∈ tr ∧ (M false).step s (.prep 0 (some z)) = some (s', e) ∧ s'.ub = true ∧ ∀ v, .timed 0 v ∉ tr) := by
  refine ⟨⟨_, [.resMade 1, .born 0, .alloc 0 1, .alloc 1 1, .made 1 x, .prepped 0 (some x), .alloc 2 1, .alloc 3 1, .made 3 y, .timed 0 y, .moved 0 1],
      _, _, ⟨[.new none, .prep 0 (some x), .timeout 0 y, .moveCtor 0], rfl⟩, by simp, rfl, rfl, by simp⟩,
    ⟨_, [.resMade 1, .born 0, .alloc 0 1, .alloc 1 1, .made 1 x, .prepped 0 (some x), .moved 0 1, .gone 1, .free 1 1, .free 0 1, .resGone 1, .died 1],
      _, _, ⟨[.new none, .prep 0 (some x), .moveCtor 0, .destroy 1], rfl⟩, by simp, rfl, rfl, by simp⟩⟩

/-- the hypotheses of `move_assign_refuted` and `moved_awaitable_refuted` are met: two batches, one executed -/
example : ∃ s tr B C, (M true).Reaches s tr ∧ s.bat 0 = .live B ∧ s.bat 1 = .live C ∧ B.own = some 1 ∧ C.stale = false ∧ s.aw 7 = some 0 :=
  ⟨_, _, _, _, ⟨[.new none, .new none, .prep 0 (some 3), .prep 1 (some 4), .execute 0 7], rfl⟩, rfl, rfl, rfl, rfl, rfl⟩

end Verif.Storage
