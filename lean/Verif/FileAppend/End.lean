import Verif.FileAppend.Life
/-!
# C115: theorems about results and the end of the object
-/

namespace Verif.FileAppend
open Machine

variable {s s' : St} {l : Lbl} {e tr : List Ev}

theorem no_prefix_of_gone {p : List Ev} {em : List Mutex.Ev} {x : Ev} (h : p ++ [x] <+: gone em) : ∃ t, x = .gone t := by
  obtain ⟨t, ht, -⟩ := mem_gone (h.subset (by simp : x ∈ p ++ [x]))
  exact ⟨t, ht⟩

/-- A call writes only between its beginning and the delivery of its result. -/
theorem append_within_call (h : machine.Reaches s tr) : WithinCall tr := by
  refine Reaches.inv' (M := machine) (fun _ tr => WithinCall tr) ?_ ?_ h
  · intro p t k hp; exact absurd hp not_concat_prefix_nil
  · intro s tr l s' e hr ih hs p t k hp
    rcases concat_prefix_append_cases hp with h1 | ⟨p', h1, rfl⟩
    · exact ih p t k h1
    · have hw := reaches_w hr
      rcases step_cases hs with ⟨rfl, rfl, -⟩ | ⟨h2, -⟩
      · have := h1.subset (by simp : Ev.wrote t k ∈ p' ++ [Ev.wrote t k]); simp at this
      · clear hs
        have hmem := h1.subset (by simp : Ev.wrote t k ∈ p' ++ [Ev.wrote t k])
        cases l with
        | lock ml =>
          simp only [stepLive] at h2
          split at h2
          · split at h2
            · simp only [Option.some.injEq, Prod.mk.injEq] at h2
              obtain ⟨rfl, rfl⟩ := h2
              obtain ⟨u, hu⟩ := no_prefix_of_gone h1
              cases hu
            · cases h2
          · cases h2
        | done u j =>
          simp only [stepLive] at h2
          split at h2
          · rename_i left hpc
            split at h2
            · simp only [Option.some.injEq, Prod.mk.injEq] at h2
              obtain ⟨rfl, rfl⟩ := h2
              simp only [List.mem_singleton, Ev.wrote.injEq] at hmem
              obtain ⟨rfl, rfl⟩ := hmem
              have hp' : p' = [] := by
                have := h1.length_le
                simp only [List.length_append, List.length_singleton] at this
                exact List.eq_nil_of_length_eq_zero (by omega)
              subst hp'
              rw [List.append_nil]
              refine ⟨⟨_, hw.ca t (by rw [hpc]; simp)⟩, fun ok hok => ?_⟩
              have := hw.de t ok hok
              rw [hpc] at this; cases this
            · cases h2
          · cases h2
        | _ =>
          simp only [stepLive] at h2
          (repeat' split at h2) <;> simp only [Option.some.injEq, Prod.mk.injEq, reduceCtorEq] at h2 <;> obtain ⟨rfl, rfl⟩ := h2 <;> simp at hmem

/-- when a result is delivered -/
theorem deliver_state (hs : step s l = some (s', e)) {p' : List Ev} {t : Nat} {ok : Bool} (h1 : p' ++ [Ev.delivered t ok] <+: e) : p' = [] ∧ s.phase t = .over ok := by
  have hmem := h1.subset (by simp : Ev.delivered t ok ∈ p' ++ [Ev.delivered t ok])
  rcases step_cases hs with ⟨rfl, rfl, -⟩ | ⟨h2, -⟩
  · simp at hmem
  · clear hs
    cases l with
    | lock ml =>
      simp only [stepLive] at h2
      split at h2
      · split at h2
        · simp only [Option.some.injEq, Prod.mk.injEq] at h2
          obtain ⟨rfl, rfl⟩ := h2
          obtain ⟨u, hu⟩ := no_prefix_of_gone h1
          cases hu
        · cases h2
      · cases h2
    | deliver u =>
      simp only [stepLive] at h2
      split at h2
      · rename_i ok' hpc
        simp only [Option.some.injEq, Prod.mk.injEq] at h2
        obtain ⟨rfl, rfl⟩ := h2
        simp only [List.mem_singleton, Ev.delivered.injEq] at hmem
        obtain ⟨rfl, rfl⟩ := hmem
        have := h1.length_le
        simp only [List.length_append, List.length_singleton] at this
        exact ⟨List.eq_nil_of_length_eq_zero (by omega), hpc⟩
      · cases h2
    | _ =>
      simp only [stepLive] at h2
      (repeat' split at h2) <;> simp only [Option.some.injEq, Prod.mk.injEq, reduceCtorEq] at h2 <;> obtain ⟨rfl, rfl⟩ := h2 <;> simp at hmem

/-- The result says whether a write of the call has failed, whatever the other calls do. -/
theorem append_honest (h : machine.Reaches s tr) : Honest tr := by
  refine Reaches.inv' (M := machine) (fun _ tr => Honest tr) ?_ ?_ h
  · intro p t k hp; exact absurd hp not_concat_prefix_nil
  · intro s tr l s' e hr ih hs p t ok hp
    rcases concat_prefix_append_cases hp with h1 | ⟨p', h1, rfl⟩
    · exact ih p t ok h1
    · have hw := reaches_w hr
      obtain ⟨rfl, h2⟩ := deliver_state hs h1
      rw [List.append_nil]
      cases ok
      · simp only [Bool.false_eq_true, false_iff, Decidable.not_not]; exact hw.fo t h2
      · refine ⟨fun _ hf => ?_, fun _ => rfl⟩
        rcases hw.fa t hf with h3 | h3 <;> rw [h2] at h3 <;> cases h3

/-- A call that succeeds has written as many bytes as its buffer has, up to multiples of 2^64: once, if no write was short, and not fewer in any case (see C45 for what short writes do). -/
theorem append_total_partial (h : machine.Reaches s tr) : ∀ p t n, p ++ [Ev.delivered t true] <+: tr → Ev.called t n ∈ p →
    total t p % 2 ^ 64 = n ∧ n ≤ total t p ∧ (total t p ≤ n ∨ n + 2 ^ 64 ≤ total t p) := by
  have key : ∀ p t n, p ++ [Ev.delivered t true] <+: tr → Ev.called t n ∈ p → total t p % 2 ^ 64 = n := by
    refine Reaches.inv' (M := machine) (fun _ tr => ∀ p t n, p ++ [Ev.delivered t true] <+: tr → Ev.called t n ∈ p → total t p % 2 ^ 64 = n) ?_ ?_ h
    · intro p t n hp; exact absurd hp not_concat_prefix_nil
    · intro s tr l s' e hr ih hs p t n hp
      rcases concat_prefix_append_cases hp with h1 | ⟨p', h1, rfl⟩
      · exact ih p t n h1
      · have hw := reaches_w hr
        obtain ⟨rfl, h2⟩ := deliver_state hs h1
        rw [List.append_nil]
        intro hc
        rw [hw.ov t h2, (hw.cs t n hc).2]
  intro p t n h1 h2
  have := key p t n h1 h2
  refine ⟨this, ?_, ?_⟩ <;> omega

/-- the calls whose frames are gone do not touch the lock -/
structure V (s : St) (tr : List Ev) : Prop where
  go : ∀ t, Ev.gone t ∈ tr → s.phase t = .leaving ∧ s.m.pc t = .idle
  al : s.alive = false → ∀ t, s.phase t = .out ∨ s.phase t = .leaving ∧ s.m.pc t = .idle
  ud : Ev.undefined ∉ tr
  dd : s.alive = false → Ev.destroyed ∈ tr

theorem lock_idle {ml : Mutex.Lbl} {m' : Mutex.St} {em : List Mutex.Ev} (h : I s tr) (hm : may s ml = true) (hs : Mutex.step false s.m ml = some (m', em)) :
    (∀ t, s.phase t = .leaving ∧ s.m.pc t = .idle → entered s em t = .leaving ∧ m'.pc t = .idle) ∧ (∀ t, Mutex.Ev.returned t ∈ em → entered s em t = .leaving ∧ m'.pc t = .idle) ∧
      (s.phase ml.agent = .leaving ∧ s.m.pc ml.agent ≠ .idle ∨ s.phase ml.agent ≠ .leaving ∧ s.phase ml.agent ≠ .out) := by
  obtain ⟨mt, hi⟩ := h.mi
  have hrq := hi.relQ
  have hf := h.ph
  have hl1 : ∀ t, s.m.pc t = .rel1 → s.phase t = .leaving := by
    intro t ht
    have := hf t
    cases hp : s.phase t <;> simp_all [Fits]
  have hl3 : ∀ t, s.m.pc t = .rel3 → s.phase t = .leaving := by
    intro t ht
    have := hf t
    cases hp : s.phase t <;> simp_all [Fits]
  clear hi h
  cases ml with
  | wake t =>
    simp only [Mutex.step] at hs
    split at hs
    · rename_i u hu
      simp only [Option.some.injEq, Prod.mk.injEq] at hs
      obtain ⟨rfl, rfl⟩ := hs
      have h4 := (hrq t u hu).1
      have h5 := hf t
      have h6 : s.phase t = .leaving := by cases hp : s.phase t <;> simp_all [Fits]
      refine ⟨fun v hv => ?_, fun v hv => ?_, ?_⟩
      · simp only [entered, upd_apply]; grind
      · simp only [entered, upd_apply, List.mem_cons, List.not_mem_nil, or_false, reduceCtorEq, false_or, Mutex.Ev.returned.injEq] at hv ⊢; subst hv; grind
      · simp only [Mutex.Lbl.agent]; grind
    · cases hs
  | _ =>
    rename_i t
    simp only [Mutex.step] at hs
    simp only [may, decide_eq_true_eq, reduceCtorEq, Bool.false_eq_true] at hm
    all_goals
      have h5 := hf ‹_›
      (repeat' split at hs) <;> simp only [Option.some.injEq, Prod.mk.injEq, reduceCtorEq] at hs <;> obtain ⟨rfl, rfl⟩ := hs <;>
      refine ⟨fun v hv => ?_, fun v hv => ?_, ?_⟩ <;> (try simp only [entered, upd_apply, Mutex.Lbl.agent, List.mem_cons, List.not_mem_nil, or_false, reduceCtorEq, false_or, Mutex.Ev.returned.injEq] at hv ⊢) <;>
      (try simp only [Mutex.Lbl.agent]) <;> (try subst hv) <;> grind [Fits]

/-- If the object is destroyed only when the frames of all calls are gone, nothing uses it afterwards. -/
theorem no_use_after_frames_partial (h : machine.Reaches s tr) (hd : DestroyedAfterFrames tr) : Ev.undefined ∉ tr := by
  have key : ∀ s tr, machine.Reaches s tr → DestroyedAfterFrames tr → V s tr := by
    intro s tr h
    refine Reaches.inv' (M := machine) (fun s tr => DestroyedAfterFrames tr → V s tr) ?_ ?_ h
    · intro _; constructor <;> simp [machine, init]
    · intro s tr l s' e hr ih hs hd
      have hd0 : DestroyedAfterFrames tr := by
        intro p q hpq
        obtain ⟨h1, h2⟩ := hd p (q ++ e) (by rw [← hpq]; simp)
        exact ⟨h1, fun t n hc => h2 t n (List.mem_append_left _ hc)⟩
      have hv := ih hd0
      have hI := reaches_inv hr
      have hw := reaches_w hr
      rcases step_cases hs with ⟨rfl, rfl, -, ha, hu, q, hq⟩ | ⟨h2, -, h3⟩
      · exfalso
        have hal := hv.al ha
        cases l with
        | lock ml =>
          simp only [stepLive] at hq
          split at hq
          · rename_i hg
            split at hq
            · rename_i m' em hm
              have := (lock_idle hI hg hm).2.2
              rcases hal ml.agent with h4 | ⟨h4, h5⟩ <;> grind
            · cases hq
          · cases hq
        | test t =>
          simp only [stepLive] at hq
          split at hq
          · rename_i left hp
            rcases hal t with h4 | ⟨h4, -⟩ <;> rw [hp] at h4 <;> cases h4
          · cases hq
        | _ => cases hu
      · clear hs
        cases l with
        | lock ml =>
          simp only [stepLive] at h2
          split at h2
          · rename_i hg
            split at h2
            · rename_i m' em hm
              simp only [Option.some.injEq, Prod.mk.injEq] at h2
              obtain ⟨rfl, rfl⟩ := h2
              obtain ⟨g1, g2, -⟩ := lock_idle hI hg hm
              refine ⟨fun t ht => ?_, fun ha t => ?_, fun hu => ?_, fun ha => List.mem_append_left _ (hv.dd ha)⟩
              · rw [List.mem_append] at ht
                rcases ht with ht | ht
                · exact g1 t (hv.go t ht)
                · obtain ⟨u, hu, hu2⟩ := mem_gone ht
                  cases hu
                  exact g2 t hu2
              · rcases hv.al ha t with h4 | h4
                · left
                  show entered s em t = .out
                  rcases phase_after_lock hI hg hm t with g | ⟨g | g, -⟩
                  · rw [g]; exact h4
                  all_goals rw [h4] at g; cases g
                · exact Or.inr (g1 t h4)
              · rw [List.mem_append] at hu
                rcases hu with hu | hu
                · exact hv.ud hu
                · obtain ⟨u, hu, -⟩ := mem_gone hu
                  cases hu
            · cases h2
          · cases h2
        | destroy =>
          simp only [stepLive] at h2
          split at h2
          · simp only [Option.some.injEq, Prod.mk.injEq] at h2
            obtain ⟨rfl, rfl⟩ := h2
            obtain ⟨h4, -⟩ := hd tr [] rfl
            refine ⟨fun t ht => ?_, fun _ t => ?_, ?_, fun _ => by simp⟩
            · simp only [List.mem_append, List.mem_singleton, reduceCtorEq, or_false] at ht; exact hv.go t ht
            · by_cases hp : s.phase t = .out
              · exact Or.inl hp
              · exact Or.inr (hv.go t (h4 t _ (hw.ca t hp)))
            · simp only [List.mem_append, List.mem_singleton, reduceCtorEq, or_false]; exact hv.ud
          · cases h2
        | call t n =>
          simp only [stepLive] at h2
          split at h2
          · rename_i hg
            simp only [Option.some.injEq, Prod.mk.injEq] at h2
            obtain ⟨rfl, rfl⟩ := h2
            have hal : s.alive = true := by
              cases ha : s.alive
              · obtain ⟨p, q, hpq⟩ := List.append_of_mem (hv.dd ha)
                exact absurd (by simp) ((hd p (q ++ [.called t n]) (by rw [hpq]; simp)).2 t n)
              · rfl
            refine ⟨fun v ht => ?_, fun ha => ?_, ?_, fun ha => ?_⟩
            · simp only [List.mem_append, List.mem_singleton, reduceCtorEq, or_false] at ht
              obtain ⟨h4, h5⟩ := hv.go v ht
              refine ⟨?_, h5⟩
              simp only [upd_apply]
              split
              · subst v; rw [hg.1] at h4; cases h4
              · exact h4
            · simp only [hal, Bool.true_eq_false] at ha
            · simp only [List.mem_append, List.mem_singleton, reduceCtorEq, or_false]; exact hv.ud
            · simp only [hal, Bool.true_eq_false] at ha
          · cases h2
        | _ =>
          simp only [stepLive] at h2
          (repeat' split at h2) <;> simp only [Option.some.injEq, Prod.mk.injEq, reduceCtorEq] at h2 <;> obtain ⟨rfl, rfl⟩ := h2 <;>
          obtain ⟨go, al, ud, dd⟩ := hv <;> clear hd hd0 ih hI hw <;>
          constructor <;> (try simp only [List.mem_append, List.mem_singleton, List.append_nil, reduceCtorEq, or_false, upd_apply]) <;> grind
  exact (key s tr h hd).ud

end Verif.FileAppend
