import Verif.Timer.Proofs
import Mathlib.Data.List.Sort
/-!
# Properties of the timer and of sleeping (C29, C30, C31, C32, C33)

All theorems are for any number of threads, any interleaving, any requests and any implementation
`lib` of the standard library's heap functions.
-/

namespace Verif.Timer

variable {lib : HeapLib} {n : Nat}

/-- Requests have different ids. -/
theorem asked_unique {s : St} {tr : List Ev} (h : (machine lib n).Reaches s tr) :
    ∀ {t id now due t' now' due'}, Ev.asked t id now due ∈ tr → Ev.asked t' id now' due' ∈ tr →
      t = t' ∧ now = now' ∧ due = due' := by
  intro t id now due t' now' due'
  refine Machine.Reaches.inv' (M := machine lib n)
    (fun _ tr => ∀ t id now due t' now' due', Ev.asked t id now due ∈ tr → Ev.asked t' id now' due' ∈ tr →
      t = t' ∧ now = now' ∧ due = due') (by simp) ?_ h t id now due t' now' due'
  clear h s tr t id now due t' now' due'
  intro s tr l s' e hr ih hs t id now due t' now' due' h1 h2
  have hi := inv_of_reaches hr
  change step lib n s l = some (s', e) at hs
  have hfresh : ∀ t now due, Ev.asked t s.next now due ∉ tr := fun t now due hm =>
    Nat.lt_irrefl _ ((hi.asked s.next).1 ⟨t, now, due, hm⟩)
  have hcase : (∀ t i nw due, Ev.asked t i nw due ∉ e) ∨ ∃ t0 nw0 due0, e = [Ev.asked t0 s.next nw0 due0] := by
    cases l with
    | askFor t d =>
      simp only [step] at hs
      split at hs
      · simp only [Option.some.injEq, Prod.mk.injEq] at hs; obtain ⟨rfl, rfl⟩ := hs; exact Or.inr ⟨_, _, _, rfl⟩
      · simp at hs
    | askUntil t d =>
      simp only [step] at hs
      split at hs
      · simp only [Option.some.injEq, Prod.mk.injEq] at hs; obtain ⟨rfl, rfl⟩ := hs; exact Or.inr ⟨_, _, _, rfl⟩
      · simp at hs
    | _ => left; simp only [step] at hs; grind
  rcases hcase with hc | ⟨t0, nw0, due0, rfl⟩
  · have e1 : Ev.asked t id now due ∈ tr := by simpa [hc] using h1
    have e2 : Ev.asked t' id now' due' ∈ tr := by simpa [hc] using h2
    exact ih _ _ _ _ _ _ _ e1 e2
  · simp only [List.mem_append, List.mem_singleton, Ev.asked.injEq] at h1 h2
    rcases h1 with h1 | ⟨rfl, rfl, rfl, rfl⟩
    · rcases h2 with h2 | ⟨rfl, rfl, rfl, rfl⟩
      · exact ih _ _ _ _ _ _ _ h1 h2
      · exact absurd h1 (hfresh _ _ _)
    · rcases h2 with h2 | ⟨rfl, -, rfl, rfl⟩
      · exact absurd h2 (hfresh _ _ _)
      · exact ⟨rfl, rfl, rfl⟩

/-! ### C29, C32 -/

/-- **C29/C32.**  A task is never resumed before the time it asked for, with `sleep_for` as with `sleep_until`. -/
theorem timer_never_early (s : St) (tr : List Ev) (h : (machine lib n).Reaches s tr)
    (t id : Nat) (now due c : Int) (ha : Ev.asked t id now due ∈ tr) (hr : Ev.resumed id c ∈ tr) : due ≤ c := by
  obtain ⟨t0, nw, due0, hm, hle⟩ := (inv_of_reaches h).early id c hr
  obtain ⟨-, -, rfl⟩ := asked_unique h ha hm
  exact hle

/-- **C29/C30.**  A sleeping task is resumed at most once, and is never both resumed and destroyed. -/
theorem timer_at_most_once (s : St) (tr : List Ev) (h : (machine lib n).Reaches s tr) (id : Nat) :
    endings id tr ≤ 1 := total_le (inv_of_reaches h) id

/-- **C29.**  A pass of thread `t`'s timer that looked at the clock at `now` leaves no task behind whose deadline is
`now` or earlier: each of them has been resumed (or, after a quick stop, destroyed) by the end of the pass. -/
theorem timer_pass_wakes_all_due (s : St) (tr : List Ev) (h : (machine lib n).Reaches s tr) :
    ∀ p t now, p ++ [.passed t now] <+: tr →
      ∀ id tp, Ev.added t id tp ∈ p → tp ≤ now → endings id p = 1 := by
  refine Machine.Reaches.inv' (M := machine lib n)
    (fun _ tr => ∀ p t now, p ++ [.passed t now] <+: tr →
      ∀ id tp, Ev.added t id tp ∈ p → tp ≤ now → endings id p = 1) ?_ ?_ h
  · intro p t now hp; exact absurd hp not_concat_prefix_nil
  clear h s tr
  intro s tr l s' e hr ih hs p t now hp id tp hadd hle
  have hi' := inv_of_reaches (hr.step hs)
  have hi := inv_of_reaches hr
  change step lib n s l = some (s', e) at hs
  rcases concat_prefix_append_cases hp with h | ⟨q, hq, rfl⟩
  · exact ih p t now h id tp hadd hle
  · have hm : Ev.passed t now ∈ e := hq.subset (by simp)
    cases l with
    | passEnd t' =>
      simp only [step] at hs
      split at hs
      · rename_i htn
        split at hs
        · rename_i now' hpc
          simp only [Option.some.injEq, Prod.mk.injEq] at hs; obtain ⟨rfl, rfl⟩ := hs
          have hx : t = t' ∧ now = now' := by simpa using hm
          obtain ⟨rfl, rfl⟩ := hx
          have hqe : q = (popDue lib now (s.heap t).length (s.heap t)).2.map (fun x => Ev.resumed x.id s.clock) := by
            rw [concat_prefix_concat_iff] at hq
            rcases hq with hq | ⟨hq, -⟩
            · have := hq.subset (show Ev.passed t now ∈ q ++ [Ev.passed t now] by simp)
              simp at this
            · exact hq
          have hadd' : Ev.added t id tp ∈ tr := by
            rcases List.mem_append.1 hadd with h | h
            · exact h
            · rw [hqe] at h; simp at h
          have hle1 := total_le hi' id
          rw [← List.append_assoc, endings_append, ← hqe] at hle1
          rcases hi.added t id tp hadd' with ⟨ha, hb⟩ | hb
          · have hperm := popDue_perm lib now (s.heap t).length (s.heap t)
            have hrest := popDue_rest lib now (s.heap t).length (s.heap t) (hi.heapOk t) (Nat.le_refl _)
            rw [← hperm.mem_iff] at hb
            rcases List.mem_append.1 hb with hb | hb
            · have := hrest _ hb; simp only at this; omega
            · have hcnt : 1 ≤ endings id q := by
                rw [hqe, endings_resumed, Nat.succ_le_iff, List.count_pos_iff]
                exact List.mem_map.2 ⟨_, hb, rfl⟩
              have := endings_append id tr q
              omega
          · have := endings_append id tr q
            omega
        · simp at hs
      · simp at hs
    | _ => simp only [step] at hs; grind

/-- **C29 (order).**  The tasks a pass resumes are handed to the scheduler in order of *decreasing* deadline: with distinct
deadlines, in exactly the reverse of the order in which they were due. -/
theorem timer_pass_order (s s' : St) (tr e : List Ev) (t : Nat) (h : (machine lib n).Reaches s tr)
    (hs : (machine lib n).step s (.passEnd t) = some (s', e)) :
    ∃ ps : List (Nat × Int), resumedIds e = ps.map Prod.fst ∧ (∀ x ∈ ps, Ev.added t x.1 x.2 ∈ tr) ∧
      ps.Pairwise fun a b => b.2 ≤ a.2 := by
  have hi := inv_of_reaches h
  change step lib n s (.passEnd t) = some (s', e) at hs
  simp only [step] at hs
  split at hs
  · split at hs
    · rename_i now hpc
      simp only [Option.some.injEq, Prod.mk.injEq] at hs; obtain ⟨rfl, rfl⟩ := hs
      have hperm := popDue_perm lib now (s.heap t).length (s.heap t)
      have hsort := popDue_sorted lib now (s.heap t).length (s.heap t) (hi.heapOk t)
      generalize (popDue lib now (s.heap t).length (s.heap t)).2 = ps at *
      refine ⟨ps.map fun x => (x.id, x.tp), ?_, ?_, ?_⟩
      · have : ∀ c : Int, resumedIds (ps.map (fun x => Ev.resumed x.id c) ++ [Ev.passed t now]) = ps.map E.id := by
          intro c
          simp only [resumedIds, List.filterMap_append, List.filterMap_map]
          induction ps <;> simp_all [Function.comp_def]
        rw [this]; simp [Function.comp_def]
      · intro x hx
        obtain ⟨y, hy, rfl⟩ := List.mem_map.1 hx
        have hy' : y ∈ s.heap t := hperm.mem_iff.1 (List.mem_append_right _ hy)
        exact (hi.dueH t y hy').2
      · rw [List.pairwise_map]; exact hsort
    · simp at hs
  · simp at hs

/-! ### Zero, negative and past deadlines (C32) -/

/-- A deadline that had passed when it was asked for is not in the future of the timer either. -/
theorem past_due {s : St} {tr : List Ev} (h : (machine lib n).Reaches s tr) :
    (∀ t id d, (s.pc t = .awaiting id d ∨ s.pc t = .adding id d) →
      ∀ t0 nw due, Ev.asked t0 id nw due ∈ tr → due ≤ nw → d ≤ 0) ∧
    (∀ t, ∀ x ∈ s.heap t, ∀ t0 nw due, Ev.asked t0 x.id nw due ∈ tr → due ≤ nw →
      x.tp ≤ s.clock ∧ ∀ now, s.pc t = .passing now → x.tp ≤ now) := by
  refine Machine.Reaches.inv' (M := machine lib n) (fun s tr =>
    (∀ t id d, (s.pc t = .awaiting id d ∨ s.pc t = .adding id d) →
      ∀ t0 nw due, Ev.asked t0 id nw due ∈ tr → due ≤ nw → d ≤ 0) ∧
    (∀ t, ∀ x ∈ s.heap t, ∀ t0 nw due, Ev.asked t0 x.id nw due ∈ tr → due ≤ nw →
      x.tp ≤ s.clock ∧ ∀ now, s.pc t = .passing now → x.tp ≤ now)) (by simp [machine, init]) ?_ h
  clear h s tr
  intro s tr l s' e hr ih hs
  have hi := inv_of_reaches hr
  obtain ⟨ih1, ih2⟩ := ih
  change step lib n s l = some (s', e) at hs
  have hfresh : ∀ t now due, Ev.asked t s.next now due ∉ tr := fun t now due hm =>
    Nat.lt_irrefl _ ((hi.asked s.next).1 ⟨t, now, due, hm⟩)
  have hpcid : ∀ t id d, (s.pc t = .awaiting id d ∨ s.pc t = .adding id d) → id ≠ s.next := by
    intro t id d hp hc
    subst hc
    have : ∃ t0 nw due, Ev.asked t0 s.next nw due ∈ tr := by
      rcases hp with hp | hp
      · obtain ⟨a, b, c, h, -⟩ := hi.dueA _ _ _ hp; exact ⟨a, b, c, h⟩
      · obtain ⟨a, b, c, h, -⟩ := hi.dueB _ _ _ hp; exact ⟨a, b, c, h⟩
    obtain ⟨a, b, c, h⟩ := this
    exact hfresh _ _ _ h
  have hheapid : ∀ t, ∀ x ∈ s.heap t, x.id ≠ s.next := by
    intro t x hx hc
    obtain ⟨⟨a, b, c, h, -⟩, -⟩ := hi.dueH t x hx
    rw [hc] at h; exact hfresh _ _ _ h
  cases l with
  | tick d =>
    simp only [step, Option.some.injEq, Prod.mk.injEq] at hs; obtain ⟨rfl, rfl⟩ := hs
    simp only [List.append_nil]
    refine ⟨ih1, ?_⟩
    intro t x hx t0 nw due ha hle
    have := ih2 t x hx t0 nw due ha hle
    exact ⟨by have h := this.1; show _ ≤ s.clock + _; omega, this.2⟩
  | prep t =>
    simp only [step] at hs
    split at hs
    · split at hs <;> simp only [Option.some.injEq, Prod.mk.injEq] at hs <;> obtain ⟨rfl, rfl⟩ := hs
      · refine ⟨?_, ?_⟩
        · intro t' id d hp t0 nw due ha; exact ih1 t' id d hp t0 nw due (by simpa using ha)
        · intro t' x hx t0 nw due ha; exact ih2 t' x hx t0 nw due (by simpa using ha)
      · refine ⟨?_, ?_⟩
        · intro t' id d hp t0 nw due ha; exact ih1 t' id d hp t0 nw due (by simpa using ha)
        · intro t' x hx t0 nw due ha
          simp only [upd_apply] at hx
          split at hx
          · simp at hx
          · exact ih2 t' x hx t0 nw due (by simpa using ha)
    · simp at hs
  | askFor t d =>
    simp only [step] at hs
    split at hs
    · rename_i hc
      simp only [Option.some.injEq, Prod.mk.injEq] at hs; obtain ⟨rfl, rfl⟩ := hs
      refine ⟨?_, ?_⟩
      · intro t' id d' hp t0 nw due ha hle
        simp only [upd_apply] at hp
        split at hp
        · simp at hp
          obtain ⟨rfl, rfl⟩ := hp
          simp [hfresh] at ha
          omega
        · have := hpcid _ _ _ hp
          exact ih1 t' id d' hp t0 nw due (by simpa [this] using ha) hle
      · intro t' x hx t0 nw due ha hle
        have := hheapid _ _ hx
        have h2 := ih2 t' x hx t0 nw due (by simpa [this] using ha) hle
        refine ⟨h2.1, ?_⟩
        intro now; simp only [upd_apply]; split
        · simp
        · exact h2.2 now
    · simp at hs
  | askUntil t tp =>
    simp only [step] at hs
    split at hs
    · rename_i hc
      simp only [Option.some.injEq, Prod.mk.injEq] at hs; obtain ⟨rfl, rfl⟩ := hs
      refine ⟨?_, ?_⟩
      · intro t' id d' hp t0 nw due ha hle
        simp only [upd_apply] at hp
        split at hp
        · simp at hp
          obtain ⟨rfl, rfl⟩ := hp
          simp [hfresh] at ha
          split <;> omega
        · have := hpcid _ _ _ hp
          exact ih1 t' id d' hp t0 nw due (by simpa [this] using ha) hle
      · intro t' x hx t0 nw due ha hle
        have := hheapid _ _ hx
        have h2 := ih2 t' x hx t0 nw due (by simpa [this] using ha) hle
        refine ⟨h2.1, ?_⟩
        intro now; simp only [upd_apply]; split
        · simp
        · exact h2.2 now
    · simp at hs
  | await t =>
    simp only [step] at hs
    split at hs
    · split at hs
      · rename_i id d hpc
        have main : ∀ q e, (q = .idle ∨ q = .adding id d) → (∀ t0 i nw due, Ev.asked t0 i nw due ∉ e) →
            (∀ t' i d', ((upd s.pc t q) t' = .awaiting i d' ∨ (upd s.pc t q) t' = .adding i d') →
              ∀ t0 nw due, Ev.asked t0 i nw due ∈ tr ++ e → due ≤ nw → d' ≤ 0) ∧
            (∀ t', ∀ x ∈ s.heap t', ∀ t0 nw due, Ev.asked t0 x.id nw due ∈ tr ++ e → due ≤ nw →
              x.tp ≤ s.clock ∧ ∀ now, (upd s.pc t q) t' = .passing now → x.tp ≤ now) := by
          intro q e hq he
          refine ⟨?_, ?_⟩
          · intro t' i d' hp t0 nw due ha
            have ha : Ev.asked t0 i nw due ∈ tr := by simpa [he] using ha
            simp only [upd_apply] at hp
            split at hp
            · rcases hq with rfl | rfl
              · simp at hp
              · simp at hp
                obtain ⟨rfl, rfl⟩ := hp
                exact ih1 t id d (Or.inl hpc) t0 nw due ha
            · exact ih1 t' i d' hp t0 nw due ha
          · intro t' x hx t0 nw due ha hle
            have ha : Ev.asked t0 x.id nw due ∈ tr := by simpa [he] using ha
            have h2 := ih2 t' x hx t0 nw due ha hle
            refine ⟨h2.1, ?_⟩
            intro now; simp only [upd_apply]; split
            · rcases hq with rfl | rfl <;> simp
            · exact h2.2 now
        split at hs
        · simp only [Option.some.injEq, Prod.mk.injEq] at hs; obtain ⟨rfl, rfl⟩ := hs
          exact main _ _ (Or.inl rfl) (by simp)
        · split at hs
          · simp only [Option.some.injEq, Prod.mk.injEq] at hs; obtain ⟨rfl, rfl⟩ := hs
            exact main _ _ (Or.inl rfl) (by simp)
          · simp only [Option.some.injEq, Prod.mk.injEq] at hs; obtain ⟨rfl, rfl⟩ := hs
            exact main _ _ (Or.inr rfl) (by simp)
      · simp at hs
    · simp at hs
  | push t =>
    simp only [step] at hs
    split at hs
    · split at hs
      · rename_i id d hpc
        split at hs
        · simp only [Option.some.injEq, Prod.mk.injEq] at hs; obtain ⟨rfl, rfl⟩ := hs
          refine ⟨?_, ?_⟩
          · intro t' i d' hp t0 nw due ha
            simp only [upd_apply] at hp
            split at hp
            · simp at hp
            · exact ih1 t' i d' hp t0 nw due (by simpa using ha)
          · intro t' x hx t0 nw due ha hle
            have ha2 : Ev.asked t0 x.id nw due ∈ tr := by simpa using ha
            simp only [upd_apply] at hx
            split at hx
            · rename_i htt; subst htt
              refine ⟨?_, by simp⟩
              rw [(lib.push_perm _ _).mem_iff] at hx
              rcases List.mem_cons.1 hx with rfl | hx
              · have := ih1 t' id d (Or.inr hpc) t0 nw due ha2 hle
                dsimp only; omega
              · exact (ih2 t' x hx t0 nw due ha2 hle).1
            · rename_i htt
              have h2 := ih2 t' x hx t0 nw due ha2 hle
              refine ⟨h2.1, ?_⟩
              intro now; simp only [upd_apply, htt, if_false]; exact h2.2 now
        · simp only [Option.some.injEq, Prod.mk.injEq] at hs; obtain ⟨rfl, rfl⟩ := hs
          refine ⟨?_, ?_⟩
          · intro t' id d hp t0 nw due ha; exact ih1 t' id d hp t0 nw due (by simpa using ha)
          · intro t' x hx t0 nw due ha; exact ih2 t' x hx t0 nw due (by simpa using ha)
      · simp at hs
    · simp at hs
  | passBegin t =>
    simp only [step] at hs
    split at hs
    · rename_i hc
      split at hs
      · split at hs
        · simp only [Option.some.injEq, Prod.mk.injEq] at hs; obtain ⟨rfl, rfl⟩ := hs
          refine ⟨?_, ?_⟩
          · intro t' id d hp t0 nw due ha; exact ih1 t' id d hp t0 nw due (by simpa using ha)
          · intro t' x hx t0 nw due ha; exact ih2 t' x hx t0 nw due (by simpa using ha)
        · simp only [Option.some.injEq, Prod.mk.injEq] at hs; obtain ⟨rfl, rfl⟩ := hs
          refine ⟨?_, ?_⟩
          · intro t' id d hp t0 nw due ha
            simp only [upd_apply] at hp
            split at hp
            · simp at hp
            · exact ih1 t' id d hp t0 nw due (by simpa using ha)
          · intro t' x hx t0 nw due ha hle
            have h2 := ih2 t' x hx t0 nw due (by simpa using ha) hle
            refine ⟨h2.1, ?_⟩
            intro now; simp only [upd_apply]; split
            · intro hh; injection hh with hh; rw [← hh]; exact h2.1
            · exact h2.2 now
      · simp only [Option.some.injEq, Prod.mk.injEq] at hs; obtain ⟨rfl, rfl⟩ := hs
        refine ⟨?_, ?_⟩
        · intro t' id d hp t0 nw due ha; exact ih1 t' id d hp t0 nw due (by simpa using ha)
        · intro t' x hx t0 nw due ha; exact ih2 t' x hx t0 nw due (by simpa using ha)
    · simp at hs
  | passEnd t =>
    simp only [step] at hs
    split at hs
    · split at hs
      · rename_i now hpc
        simp only [Option.some.injEq, Prod.mk.injEq] at hs; obtain ⟨rfl, rfl⟩ := hs
        have hperm := popDue_perm lib now (s.heap t).length (s.heap t)
        refine ⟨?_, ?_⟩
        · intro t' i d' hp t0 nw due ha
          simp only [upd_apply] at hp
          split at hp
          · simp at hp
          · exact ih1 t' i d' hp t0 nw due (by simpa using ha)
        · intro t' x hx t0 nw due ha hle
          have ha2 : Ev.asked t0 x.id nw due ∈ tr := by simpa using ha
          simp only [upd_apply] at hx
          split at hx
          · rename_i htt; subst htt
            refine ⟨?_, by simp⟩
            exact (ih2 t' x (hperm.mem_iff.1 (List.mem_append_left _ hx)) t0 nw due ha2 hle).1
          · rename_i htt
            have h2 := ih2 t' x hx t0 nw due ha2 hle
            refine ⟨h2.1, ?_⟩
            intro now; simp only [upd_apply, htt, if_false]; exact h2.2 now
      · simp at hs
    · simp at hs
  | stop =>
    simp only [step] at hs
    split at hs
    · simp only [Option.some.injEq, Prod.mk.injEq] at hs; obtain ⟨rfl, rfl⟩ := hs
      refine ⟨?_, ?_⟩
      · intro t' id d hp t0 nw due ha; exact ih1 t' id d hp t0 nw due (by simpa using ha)
      · intro t' x hx t0 nw due ha; exact ih2 t' x hx t0 nw due (by simpa using ha)
    · simp at hs
  | quickStop =>
    simp only [step] at hs
    split at hs
    · simp only [Option.some.injEq, Prod.mk.injEq] at hs; obtain ⟨rfl, rfl⟩ := hs
      refine ⟨?_, by simp⟩
      intro t' id d hp t0 nw due ha; exact ih1 t' id d hp t0 nw due (by simpa using ha)
    · simp at hs
  | destroy =>
    simp only [step] at hs
    split at hs
    · simp only [Option.some.injEq, Prod.mk.injEq] at hs; obtain ⟨rfl, rfl⟩ := hs
      refine ⟨?_, by simp⟩
      intro t' id d hp t0 nw due ha; exact ih1 t' id d hp t0 nw due (by simpa using ha)
    · simp at hs

/-- **C32.**  A task that asks for a zero or negative duration or a time in the past is not suspended for ever: either it goes on
without the timer, or it is resumed by the very next pass of its thread's timer. -/
theorem sleep_past_is_resumed (s : St) (tr : List Ev) (h : (machine lib n).Reaches s tr) :
    ∀ p t c, p ++ [.passed t c] <+: tr →
      ∀ t0 id nw due tp, Ev.asked t0 id nw due ∈ p → due ≤ nw → Ev.added t id tp ∈ p → endings id p = 1 := by
  refine Machine.Reaches.inv' (M := machine lib n)
    (fun _ tr => ∀ p t c, p ++ [.passed t c] <+: tr →
      ∀ t0 id nw due tp, Ev.asked t0 id nw due ∈ p → due ≤ nw → Ev.added t id tp ∈ p → endings id p = 1) ?_ ?_ h
  · intro p t now hp; exact absurd hp not_concat_prefix_nil
  clear h s tr
  intro s tr l s' e hr ih hs p t now hp t0 id nw due tp hask hle hadd
  have hpast := past_due hr
  have hr' := hr.step hs
  have hi := inv_of_reaches hr
  change step lib n s l = some (s', e) at hs
  rcases concat_prefix_append_cases hp with h | ⟨q, hq, rfl⟩
  · exact ih p t now h t0 id nw due tp hask hle hadd
  · have hm : Ev.passed t now ∈ e := hq.subset (by simp)
    have hall := timer_pass_wakes_all_due s' (tr ++ e) hr' (tr ++ q) t now hp
    cases l with
    | passEnd t' =>
      simp only [step] at hs
      split at hs
      · split at hs
        · rename_i now' hpc
          simp only [Option.some.injEq, Prod.mk.injEq] at hs; obtain ⟨rfl, rfl⟩ := hs
          have hx : t = t' ∧ now = now' := by simpa using hm
          obtain ⟨rfl, rfl⟩ := hx
          have hqe : q = (popDue lib now (s.heap t).length (s.heap t)).2.map (fun x => Ev.resumed x.id s.clock) := by
            rw [concat_prefix_concat_iff] at hq
            rcases hq with hq | ⟨hq, -⟩
            · have := hq.subset (show Ev.passed t now ∈ q ++ [Ev.passed t now] by simp)
              simp at this
            · exact hq
          have hadd' : Ev.added t id tp ∈ tr := by
            rcases List.mem_append.1 hadd with h | h
            · exact h
            · rw [hqe] at h; simp at h
          have hask' : Ev.asked t0 id nw due ∈ tr := by
            rcases List.mem_append.1 hask with h | h
            · exact h
            · rw [hqe] at h; simp at h
          rcases hi.added t id tp hadd' with ⟨ha, hb⟩ | hb
          · exact hall id tp hadd ((hpast.2 t _ hb t0 nw due hask' hle).2 now hpc)
          · have h1 := total_le (inv_of_reaches hr') id
            rw [← List.append_assoc, endings_append, ← hqe] at h1
            have h2 := endings_append id tr q
            omega
        · simp at hs
      · simp at hs
    | _ => simp only [step] at hs; grind

/-! ### C30 -/

/-- **C30.**  When stop has been requested and no pass is in progress, the timer hands no suspended task to the scheduler
any more, whatever happens next: only awaits that never reached the timer (a zero duration) go on. -/
theorem timer_silent_after_stop (s : St) (tr : List Ev) (h : (machine lib n).Reaches s tr)
    (hst : Ev.stopped ∈ tr) (hnp : ∀ t now, s.pc t ≠ .passing now)
    (ls : List Lbl) (s' : St) (e : List Ev) (hrun : (machine lib n).runFrom s ls = some (s', e)) :
    ∀ id c, Ev.resumed id c ∈ e → ∀ t tp, Ev.added t id tp ∉ tr ++ e := by
  have key : ∀ (ls : List Lbl) (s : St) (tr : List Ev) (s' : St) (e e0 : List Ev),
      (machine lib n).Reaches s (tr ++ e0) → s.stop = true → (∀ t now, s.pc t ≠ .passing now) →
      (∀ id c, Ev.resumed id c ∈ e0 → ∀ t tp, Ev.added t id tp ∉ tr ++ e0) →
      (machine lib n).runFrom s ls = some (s', e) →
      ∀ id c, Ev.resumed id c ∈ e0 ++ e → ∀ t tp, Ev.added t id tp ∉ tr ++ (e0 ++ e) := by
    intro ls
    induction ls with
    | nil =>
      intro s tr s' e e0 _ _ _ h4 hrun
      simp only [Machine.runFrom, Option.some.injEq, Prod.mk.injEq] at hrun
      obtain ⟨rfl, rfl⟩ := hrun
      simpa using h4
    | cons l ls ih =>
      intro s tr s' e e0 h1 h2 h3 h4 hrun
      simp only [Machine.runFrom] at hrun
      cases hst : (machine lib n).step s l with
      | none => simp [hst] at hrun
      | some p =>
        obtain ⟨s2, e2⟩ := p
        simp only [hst] at hrun
        cases hrn : (machine lib n).runFrom s2 ls with
        | none => simp [hrn] at hrun
        | some q =>
          obtain ⟨s3, e3⟩ := q
          simp only [hrn, Option.some.injEq, Prod.mk.injEq] at hrun
          obtain ⟨rfl, rfl⟩ := hrun
          have hr2 := h1.step hst
          rw [List.append_assoc] at hr2
          have hi := inv_of_reaches h1
          have hi2 := inv_of_reaches hr2
          have hstep : step lib n s l = some (s2, e2) := hst
          have goal : s2.stop = true ∧ (∀ t now, s2.pc t ≠ .passing now) ∧
              (∀ id c, Ev.resumed id c ∈ e0 ++ e2 → ∀ t tp, Ev.added t id tp ∉ tr ++ (e0 ++ e2)) := by
            have quiet : (∀ id c, Ev.resumed id c ∉ e2) → (∀ t id tp, Ev.added t id tp ∉ e2) →
                (∀ id c, Ev.resumed id c ∈ e0 ++ e2 → ∀ t tp, Ev.added t id tp ∉ tr ++ (e0 ++ e2)) := by
              intro ha hb id c hm t tp hm2
              have hm : Ev.resumed id c ∈ e0 := by simpa [ha] using hm
              have hm2 : Ev.added t id tp ∈ tr ++ e0 := by
                rw [← List.append_assoc] at hm2
                rcases List.mem_append.1 hm2 with h | h
                · exact h
                · exact absurd h (hb _ _ _)
              exact h4 id c hm t tp hm2
            have hpcne : ∀ t q, (∀ now, q ≠ .passing now) → ∀ t' now, upd s.pc t q t' ≠ .passing now := by
              intro t q hq t' now
              simp only [upd_apply]; split
              · exact hq now
              · exact h3 t' now
            cases l with
            | await t =>
              simp only [step] at hstep
              split at hstep
              · rename_i htn
                split at hstep
                · rename_i id d hpc
                  split at hstep
                  · simp only [Option.some.injEq, Prod.mk.injEq] at hstep; obtain ⟨rfl, rfl⟩ := hstep
                    refine ⟨h2, hpcne _ _ (by simp), ?_⟩
                    intro i c hm t' tp hm2
                    have hm3 : Ev.added t' i tp ∈ tr ++ e0 := by simpa using hm2
                    rcases List.mem_append.1 hm with hm | hm
                    · exact h4 i c hm t' tp hm3
                    · simp at hm
                      obtain ⟨rfl, rfl⟩ := hm
                      have hmem := pcIds_mem (n := n) (pc := s.pc) (t := t) (id := i) htn (by simp [hpc, pcId])
                      have htot := hi.total i
                      rcases hi.added t' i tp hm3 with ⟨ha, hb⟩ | hb
                      · have := hIds_mem ha hb
                        simp only at this
                        split at htot <;> omega
                      · split at htot <;> omega
                  · try simp only [h2, if_true] at hstep
                    simp only [Option.some.injEq, Prod.mk.injEq] at hstep; obtain ⟨rfl, rfl⟩ := hstep
                    exact ⟨by first | exact h2 | rfl, hpcne _ _ (by simp), quiet (by simp) (by simp)⟩
                · simp at hstep
              · simp at hstep
            | push t =>
              simp only [step] at hstep
              split at hstep
              · rename_i htn
                split at hstep
                · rename_i id d hpc
                  split at hstep
                  · simp only [Option.some.injEq, Prod.mk.injEq] at hstep; obtain ⟨rfl, rfl⟩ := hstep
                    refine ⟨h2, hpcne _ _ (by simp), ?_⟩
                    intro i c hm t' tp hm2
                    have hmr : Ev.resumed i c ∈ e0 := by simpa using hm
                    rw [← List.append_assoc] at hm2
                    rcases List.mem_append.1 hm2 with hm2 | hm2
                    · exact h4 i c hmr t' tp hm2
                    · simp at hm2
                      obtain ⟨rfl, rfl, rfl⟩ := hm2
                      have hmem := pcIds_mem (n := n) (pc := s.pc) (t := t') (id := i) htn (by simp [hpc, pcId])
                      have htot := hi.total i
                      have hend : 1 ≤ endings i (tr ++ e0) := by
                        simp only [endings]
                        rw [Nat.succ_le_iff, List.countP_pos_iff]
                        exact ⟨Ev.resumed i c, by simp [hmr], by simp [ending]⟩
                      split at htot <;> omega
                  · simp only [Option.some.injEq, Prod.mk.injEq] at hstep; obtain ⟨rfl, rfl⟩ := hstep
                    exact ⟨h2, h3, quiet (by simp) (by simp)⟩
                · simp at hstep
              · simp at hstep
            | passEnd t =>
              simp only [step] at hstep
              split at hstep
              · split at hstep
                · rename_i hpc; exact absurd hpc (h3 _ _)
                · simp at hstep
              · simp at hstep
            | passBegin t =>
              simp only [step] at hstep
              split at hstep
              · split at hstep
                · try simp only [h2, if_true] at hstep
                  simp only [Option.some.injEq, Prod.mk.injEq] at hstep; obtain ⟨rfl, rfl⟩ := hstep
                  exact ⟨h2, h3, quiet (by simp) (by simp)⟩
                · simp only [Option.some.injEq, Prod.mk.injEq] at hstep; obtain ⟨rfl, rfl⟩ := hstep
                  exact ⟨h2, h3, quiet (by simp) (by simp)⟩
              · simp at hstep
            | askFor t d =>
              simp only [step] at hstep
              split at hstep
              · simp only [Option.some.injEq, Prod.mk.injEq] at hstep; obtain ⟨rfl, rfl⟩ := hstep
                exact ⟨h2, hpcne _ _ (by simp), quiet (by simp) (by simp)⟩
              · simp at hstep
            | askUntil t d =>
              simp only [step] at hstep
              split at hstep
              · simp only [Option.some.injEq, Prod.mk.injEq] at hstep; obtain ⟨rfl, rfl⟩ := hstep
                exact ⟨h2, hpcne _ _ (by simp), quiet (by simp) (by simp)⟩
              · simp at hstep
            | tick d =>
              simp only [step] at hstep
              simp only [Option.some.injEq, Prod.mk.injEq] at hstep; obtain ⟨rfl, rfl⟩ := hstep
              exact ⟨h2, h3, quiet (by simp) (by simp)⟩
            | prep t =>
              simp only [step] at hstep
              split at hstep
              · split at hstep <;> simp only [Option.some.injEq, Prod.mk.injEq] at hstep <;> obtain ⟨rfl, rfl⟩ := hstep <;>
                  exact ⟨h2, h3, quiet (by simp) (by simp)⟩
              · simp at hstep
            | stop =>
              simp only [step] at hstep
              split at hstep
              · simp only [Option.some.injEq, Prod.mk.injEq] at hstep; obtain ⟨rfl, rfl⟩ := hstep
                exact ⟨rfl, h3, quiet (by simp) (by simp)⟩
              · simp at hstep
            | quickStop =>
              simp only [step] at hstep
              split at hstep
              · simp only [Option.some.injEq, Prod.mk.injEq] at hstep; obtain ⟨rfl, rfl⟩ := hstep
                exact ⟨rfl, h3, quiet (by simp) (by simp)⟩
              · simp at hstep
            | destroy =>
              simp only [step] at hstep
              split at hstep
              · simp only [Option.some.injEq, Prod.mk.injEq] at hstep; obtain ⟨rfl, rfl⟩ := hstep
                exact ⟨h2, h3, quiet (by simp) (by simp)⟩
              · simp at hstep
          obtain ⟨g1, g2, g3⟩ := goal
          have := ih s2 tr s3 e3 (e0 ++ e2) hr2 g1 g2 g3 hrn
          simpa [List.append_assoc] using this
  have := key ls s tr s' e [] (by simpa using h) ((inv_of_reaches h).stop hst) hnp (by simp) hrun
  simpa using this

/-- **C30.**  When the timer is gone, every await that was ever made has come to exactly one end: it was resumed, refused or
destroyed, once. -/
theorem timer_nothing_leaks (s : St) (tr : List Ev) (h : (machine lib n).Reaches s tr)
    (he : Ev.ended ∈ tr) (id : Nat) (ha : Asked id tr) : endings id tr = 1 := by
  have hi := inv_of_reaches h
  have hd := hi.over.1 he
  obtain ⟨hr, hpc⟩ := hi.overE hd
  have ht := hi.total id
  have h1 : (hIds s.regs s.heap) = [] := by rw [hr]; rfl
  have h2 : pcIds n s.pc = [] := by
    simp only [pcIds, hpc, pcId]; exact flatMap_nil' _
  rw [h1, h2, if_pos ((hi.asked id).1 ha)] at ht
  simpa using ht

/-! ### C31 -/

/-- Only prepared threads (worker threads) sleep or poll. -/
def OnlyPrepared (tr : List Ev) : Prop :=
  (∀ p t id nw due, p ++ [.asked t id nw due] <+: tr → .prepared t ∈ p) ∧
  (∀ p t, p ++ [.polled t] <+: tr → .prepared t ∈ p)

theorem OnlyPrepared.mono {a b : List Ev} (h : OnlyPrepared b) (hp : a <+: b) : OnlyPrepared a :=
  ⟨fun p t id nw due hh => h.1 p t id nw due (hh.trans hp), fun p t hh => h.2 p t (hh.trans hp)⟩

/-- **C31 (partial).**  If only threads that have prepared their timer sleep and poll, there is no undefined behaviour. Missing:
sleeping on any other thread, see `timer_foreign_thread_refuted`. -/
theorem timer_no_ub_partial (s : St) (tr : List Ev) (h : (machine lib n).Reaches s tr) (ho : OnlyPrepared tr) :
    Ev.ub ∉ tr := by
  have key : OnlyPrepared tr → (Ev.ub ∉ tr ∧ (s.dead = false → ∀ t, Ev.prepared t ∈ tr → t ∈ s.regs) ∧
      (∀ t, s.pc t ≠ .idle → t ∈ s.regs)) := by
    refine Machine.Reaches.inv' (M := machine lib n) (fun s tr => OnlyPrepared tr →
      (Ev.ub ∉ tr ∧ (s.dead = false → ∀ t, Ev.prepared t ∈ tr → t ∈ s.regs) ∧
      (∀ t, s.pc t ≠ .idle → t ∈ s.regs))) ?_ ?_ h
    · intro _; simp [machine, init]
    clear h s tr ho
    intro s tr l s' e hr ih hs ho
    obtain ⟨i1, i2, i3⟩ := ih (ho.mono (List.prefix_append _ _))
    have hi := inv_of_reaches hr
    change step lib n s l = some (s', e) at hs
    have hpcr : ∀ t q, (t ∈ s.regs ∨ q = .idle) → ∀ t', upd s.pc t q t' ≠ .idle → t' ∈ s.regs := by
      intro t q hq t'
      simp only [upd_apply]; split
      · rename_i htt; subst htt
        rcases hq with h | rfl
        · intro _; exact h
        · simp
      · exact i3 t'
    cases l with
    | tick d =>
      simp only [step] at hs
      simp only [Option.some.injEq, Prod.mk.injEq] at hs; obtain ⟨rfl, rfl⟩ := hs
      rw [List.append_nil]; exact ⟨i1, i2, i3⟩
    | prep t =>
      simp only [step] at hs
      split at hs
      · split at hs <;> simp only [Option.some.injEq, Prod.mk.injEq] at hs <;> obtain ⟨rfl, rfl⟩ := hs
        · rename_i htr
          refine ⟨by simpa using i1, ?_, i3⟩
          intro hd t' hm
          rcases List.mem_append.1 hm with hm | hm
          · exact i2 hd t' hm
          · simp at hm; subst hm; exact htr
        · refine ⟨by simpa using i1, ?_, ?_⟩
          · intro hd t' hm
            rcases List.mem_append.1 hm with hm | hm
            · simp [i2 hd t' hm]
            · simp at hm; subst hm; simp
          · intro t' hh; simp [i3 t' hh]
      · simp at hs
    | askFor t d =>
      simp only [step] at hs
      split at hs
      · rename_i hc
        simp only [Option.some.injEq, Prod.mk.injEq] at hs; obtain ⟨rfl, rfl⟩ := hs
        have := ho.1 tr _ _ _ _ (List.prefix_refl _)
        refine ⟨by simpa using i1, ?_, hpcr _ _ (Or.inl (i2 hc.2.1 t this))⟩
        intro hd t' hm; exact i2 hd t' (by simpa using hm)
      · simp at hs
    | askUntil t d =>
      simp only [step] at hs
      split at hs
      · rename_i hc
        simp only [Option.some.injEq, Prod.mk.injEq] at hs; obtain ⟨rfl, rfl⟩ := hs
        have := ho.1 tr _ _ _ _ (List.prefix_refl _)
        refine ⟨by simpa using i1, ?_, hpcr _ _ (Or.inl (i2 hc.2.1 t this))⟩
        intro hd t' hm; exact i2 hd t' (by simpa using hm)
      · simp at hs
    | await t =>
      simp only [step] at hs
      split at hs
      · split at hs
        · rename_i id d hpc
          have htr := i3 t (by simp [hpc])
          split at hs
          · simp only [Option.some.injEq, Prod.mk.injEq] at hs; obtain ⟨rfl, rfl⟩ := hs
            exact ⟨by simpa using i1, fun hd t' hm => i2 hd t' (by simpa using hm), hpcr _ _ (Or.inr rfl)⟩
          · split at hs
            · simp only [Option.some.injEq, Prod.mk.injEq] at hs; obtain ⟨rfl, rfl⟩ := hs
              exact ⟨by simpa using i1, fun hd t' hm => i2 hd t' (by simpa using hm), hpcr _ _ (Or.inr rfl)⟩
            · simp only [Option.some.injEq, Prod.mk.injEq] at hs; obtain ⟨rfl, rfl⟩ := hs
              exact ⟨by simpa using i1, fun hd t' hm => i2 hd t' (by simpa using hm), hpcr _ _ (Or.inl htr)⟩
        · simp at hs
      · simp at hs
    | push t =>
      simp only [step] at hs
      split at hs
      · split at hs
        · rename_i id d hpc
          have htr := i3 t (by simp [hpc])
          simp only [htr, if_true] at hs
          simp only [Option.some.injEq, Prod.mk.injEq] at hs; obtain ⟨rfl, rfl⟩ := hs
          exact ⟨by simpa using i1, fun hd t' hm => i2 hd t' (by simpa using hm), hpcr _ _ (Or.inr rfl)⟩
        · simp at hs
      · simp at hs
    | passBegin t =>
      simp only [step] at hs
      split at hs
      · rename_i hc
        have hpol : (tr ++ [Ev.polled t]) <+: (tr ++ e) → t ∈ s.regs := fun hh => i2 hc.2.1 t (ho.2 tr t hh)
        split at hs
        · rename_i htr
          split at hs <;> simp only [Option.some.injEq, Prod.mk.injEq] at hs <;> obtain ⟨rfl, rfl⟩ := hs
          · exact ⟨by simpa using i1, fun hd t' hm => i2 hd t' (by simpa using hm), i3⟩
          · exact ⟨by simpa using i1, fun hd t' hm => i2 hd t' (by simpa using hm), hpcr _ _ (Or.inl htr)⟩
        · rename_i htr
          simp only [Option.some.injEq, Prod.mk.injEq] at hs; obtain ⟨rfl, rfl⟩ := hs
          exact absurd (hpol ⟨[Ev.ub], by simp⟩) htr
      · simp at hs
    | passEnd t =>
      simp only [step] at hs
      split at hs
      · split at hs
        · simp only [Option.some.injEq, Prod.mk.injEq] at hs; obtain ⟨rfl, rfl⟩ := hs
          exact ⟨by simpa using i1, fun hd t' hm => i2 hd t' (by simpa using hm), hpcr _ _ (Or.inr rfl)⟩
        · simp at hs
      · simp at hs
    | stop =>
      simp only [step] at hs
      split at hs
      · simp only [Option.some.injEq, Prod.mk.injEq] at hs; obtain ⟨rfl, rfl⟩ := hs
        exact ⟨by simpa using i1, fun hd t' hm => i2 hd t' (by simpa using hm), i3⟩
      · simp at hs
    | quickStop =>
      simp only [step] at hs
      split at hs
      · simp only [Option.some.injEq, Prod.mk.injEq] at hs; obtain ⟨rfl, rfl⟩ := hs
        exact ⟨by simpa using i1, fun hd t' hm => i2 hd t' (by simpa using hm), i3⟩
      · simp at hs
    | destroy =>
      simp only [step] at hs
      split at hs
      · rename_i hc
        simp only [Option.some.injEq, Prod.mk.injEq] at hs; obtain ⟨rfl, rfl⟩ := hs
        refine ⟨by simpa using i1, by simp, ?_⟩
        intro t' hh; exact absurd (allIdle_pc hc.2 hi.pcLt t') hh
      · simp at hs
  exact (key ho).1

/-! ### C33 -/

theorem minSleep_le (ds : List (Option Int)) (d : Int) (h : some d ∈ ds) : ∃ m, minSleep ds = some m ∧ m ≤ d := by
  induction ds with
  | nil => simp at h
  | cons a ds ih =>
    rw [minSleep]
    rcases List.mem_cons.1 h with rfl | h
    · cases minSleep ds with
      | none => exact ⟨d, rfl, by omega⟩
      | some b => simp only [minOpt]; split <;> exact ⟨_, rfl, by omega⟩
    · obtain ⟨m, hm, hle⟩ := ih h
      rw [hm]
      cases a with
      | none => exact ⟨m, rfl, hle⟩
      | some a => simp only [minOpt]; split <;> exact ⟨_, rfl, by omega⟩

/-- **C33.**  An idle worker decides to wait no longer than the latch (500 ms) and, unless the timer was stopped, not past the
deadline of any task sleeping on its own timer, and no longer than any other loop allows. -/
theorem worker_never_oversleeps (s : St) (tr : List Ev) (h : (machine lib n).Reaches s tr) (latch : Int) (t : Nat)
    (others : List (Option Int)) :
    workerWait latch s t others ≤ latch ∧
    (∀ d, some d ∈ others → workerWait latch s t others ≤ d) ∧
    (s.stop = false → ∀ id tp, Ev.added t id tp ∈ tr → endings id tr = 0 →
      s.clock + workerWait latch s t others ≤ tp) := by
  have hi := inv_of_reaches h
  have hmin : ∀ d, some d ∈ timerMaxSleep s t :: others → workerWait latch s t others ≤ d := by
    intro d hd
    obtain ⟨m, hm, hle⟩ := minSleep_le _ d hd
    simp only [workerWait, hm]
    split <;> omega
  refine ⟨?_, fun d hd => hmin d (List.mem_cons_of_mem _ hd), ?_⟩
  · simp only [workerWait]
    split
    · omega
    · split <;> omega
  · intro hst id tp ha h0
    rcases hi.added t id tp ha with ⟨-, hm⟩ | h1
    · have hok := hi.heapOk t
      cases hh : s.heap t with
      | nil => rw [hh] at hm; simp at hm
      | cons x r =>
        rw [hh] at hm hok
        have hx : x.tp ≤ tp := by
          rcases List.mem_cons.1 hm with rfl | hm
          · exact Int.le_refl _
          · exact lib.front x r hok _ hm
        have := hmin (x.tp - s.clock) (by simp [timerMaxSleep, hst, hh])
        omega
    · omega

/-! ### Concrete cases and refutations -/

/-- A sorted vector is a heap: the hypotheses on the standard library can be met. -/
def sortedLib : HeapLib where
  IsHeap h := h.Pairwise fun a b => a.tp ≤ b.tp
  push h e := h.filter (fun x => x.tp ≤ e.tp) ++ e :: h.filter (fun x => ! decide (x.tp ≤ e.tp))
  pop _ h := h
  nil := List.Pairwise.nil
  front x h hh := (List.pairwise_cons.1 hh).1
  push_heap h e hh := by
    rw [List.pairwise_append]
    refine ⟨hh.filter _, ?_, ?_⟩
    · rw [List.pairwise_cons]
      refine ⟨?_, hh.filter _⟩
      intro a ha; simp at ha; omega
    · intro a ha b hb
      simp at ha hb
      rcases hb with rfl | hb <;> omega
  push_perm h e := by
    refine List.perm_middle.trans (List.Perm.cons e ?_)
    exact List.filter_append_perm _ _
  pop_heap x h hh := (List.pairwise_cons.1 hh).2
  pop_perm _ h := List.Perm.refl h

/-- Two tasks due at 5 and 10 are sleeping when a pass looks at the clock at 20. -/
def demoRun : List Lbl :=
  [.prep 0, .askFor 0 5, .await 0, .push 0, .askUntil 0 10, .await 0, .push 0, .tick 20, .passBegin 0, .passEnd 0]

example : ((machine sortedLib 1).run demoRun).map (fun r => r.2) = some
    [.prepared 0, .asked 0 0 0 5, .added 0 0 5, .asked 0 1 0 10, .added 0 1 10, .polled 0, .resumed 1 20, .resumed 0 20,
     .passed 0 20] := by decide

/-- **C29 (the order of a pass) is false of this code**: the task due at 10 is handed over before the task due at 5. -/
theorem timer_deadline_order_refuted :
    ∃ (s : St) (tr : List Ev), (machine sortedLib 1).Reaches s tr ∧
      Ev.added 0 0 5 ∈ tr ∧ Ev.added 0 1 10 ∈ tr ∧ resumedIds tr = [1, 0] := by
  cases h : (machine sortedLib 1).run demoRun with
  | none => exact absurd h (by decide)
  | some r =>
    have : ((machine sortedLib 1).run demoRun).map (fun r => r.2) = some
      [.prepared 0, .asked 0 0 0 5, .added 0 0 5, .asked 0 1 0 10, .added 0 1 10, .polled 0, .resumed 1 20,
       .resumed 0 20, .passed 0 20] := by decide
    rw [h] at this
    refine ⟨r.1, r.2, ⟨demoRun, h⟩, ?_⟩
    simp only [Option.map_some, Option.some.injEq] at this
    rw [this]
    decide

/-- **C31 is false of this code**: a task that sleeps on a thread that is not a worker makes the program dereference
a null pointer. -/
theorem timer_foreign_thread_refuted :
    ∃ (s : St) (tr : List Ev), (machine sortedLib 2).Reaches s tr ∧ Ev.prepared 0 ∈ tr ∧ Ev.ub ∈ tr :=
  ⟨_, _, ⟨[.prep 0, .askFor 1 5, .await 1, .push 1], rfl⟩, by decide, by decide⟩

/-- Hypotheses of the theorems on stop are met: one task is sleeping when the timer is stopped and destroyed. -/
example : ∃ (s : St) (tr : List Ev), (machine sortedLib 1).Reaches s tr ∧ Ev.stopped ∈ tr ∧ Ev.ended ∈ tr ∧
    Asked 0 tr ∧ Ev.destroyed 0 ∈ tr :=
  ⟨_, _, ⟨[.prep 0, .askFor 0 5, .await 0, .push 0, .stop, .tick 9, .passBegin 0, .destroy], rfl⟩,
    by decide, by decide, ⟨0, 0, 5, by decide⟩, by decide⟩

/-- A negative duration is resumed by the next pass. -/
example : ∃ (s : St) (tr : List Ev), (machine sortedLib 1).Reaches s tr ∧ Ev.asked 0 0 0 (-3) ∈ tr ∧ Ev.resumed 0 0 ∈ tr :=
  ⟨_, _, ⟨[.prep 0, .askFor 0 (-3), .await 0, .push 0, .passBegin 0, .passEnd 0], rfl⟩, by decide, by decide⟩

end Verif.Timer
