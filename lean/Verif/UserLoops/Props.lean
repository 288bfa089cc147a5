import Verif.UserLoops.Model
/-!
# C34: user event loops
-/

namespace Verif.UserLoops

/-! ### Polling -/

/-- A pass that began after `p` and has seen `q` since, and is at position `rem` of `loops`. -/
def PassOK (loops : List Nat) (t : Nat) (rem : Option Nat) (acc : Bool) (p q : List Ev) : Prop :=
  (∀ i, rem = some i → polledBy t q = loops.take i) ∧ (rem = none → polledBy t q = []) ∧
  (rem = none ↔ Ev.quickStopped ∈ p) ∧ (Ev.ub ∉ p → loops = addedLoops p) ∧ acc = (answersTo t q).any id

structure PInv (s : St) (tr : List Ev) : Prop where
  loops : Ev.ub ∉ tr → s.loops = addedLoops tr
  clean : s.cleaning = true ↔ Ev.quickStopped ∈ tr
  rd : ∀ t, t ∈ s.readers ↔ s.pc t ≠ none
  pass : ∀ t rem acc, s.pc t = some (rem, acc) → ∃ p q, tr = p ++ .passBegan t :: q ∧ Ev.passBegan t ∉ q ∧
    PassOK s.loops t rem acc p q

theorem polledBy_append (t : Nat) (a b : List Ev) : polledBy t (a ++ b) = polledBy t a ++ polledBy t b := by
  simp [polledBy]

theorem answersTo_append (t : Nat) (a b : List Ev) : answersTo t (a ++ b) = answersTo t a ++ answersTo t b := by
  simp [answersTo]

theorem addedLoops_append (a b : List Ev) : addedLoops (a ++ b) = addedLoops a ++ addedLoops b := by
  simp [addedLoops]

theorem pass_ext {tr e : List Ev} {loops : List Nat} {t : Nat} {rem : Option Nat} {acc : Bool}
    (h : ∃ p q, tr = p ++ .passBegan t :: q ∧ Ev.passBegan t ∉ q ∧ PassOK loops t rem acc p q)
    (h1 : Ev.passBegan t ∉ e) (h2 : polledBy t e = []) (h3 : answersTo t e = []) :
    ∃ p q, tr ++ e = p ++ .passBegan t :: q ∧ Ev.passBegan t ∉ q ∧ PassOK loops t rem acc p q := by
  obtain ⟨p, q, rfl, hq, a, b, c, d, f⟩ := h
  refine ⟨p, q ++ e, by simp, by simp [hq, h1], ?_, ?_, c, d, ?_⟩
  · rw [polledBy_append, h2]; simpa using a
  · rw [polledBy_append, h2]; simpa using b
  · rw [answersTo_append, h3]; simpa using f

theorem polledBy_map_prep (t : Nat) (f : Nat → Ev) (hf : ∀ x, polledBy t [f x] = []) (ls : List Nat) :
    polledBy t (ls.map f) = [] := by
  induction ls with
  | nil => rfl
  | cons x ls ih =>
    have : f x :: List.map f ls = [f x] ++ ls.map f := rfl
    rw [List.map_cons, this, polledBy_append, hf, ih]; rfl

theorem answersTo_map_prep (t : Nat) (f : Nat → Ev) (hf : ∀ x, answersTo t [f x] = []) (ls : List Nat) :
    answersTo t (ls.map f) = [] := by
  induction ls with
  | nil => rfl
  | cons x ls ih =>
    have : f x :: List.map f ls = [f x] ++ ls.map f := rfl
    rw [List.map_cons, this, answersTo_append, hf, ih]; rfl

theorem addedLoops_map (f : Nat → Ev) (hf : ∀ x, addedLoops [f x] = []) (ls : List Nat) :
    addedLoops (ls.map f) = [] := by
  induction ls with
  | nil => rfl
  | cons x ls ih =>
    have : f x :: List.map f ls = [f x] ++ ls.map f := rfl
    rw [List.map_cons, this, addedLoops_append, hf, ih]; rfl

theorem pinv_of_reaches {s : St} {tr : List Ev} (h : machine.Reaches s tr) : PInv s tr := by
  refine Machine.Reaches.inv (M := machine) PInv ?_ ?_ h
  · constructor <;> simp [machine, init, addedLoops]
  clear h s tr
  intro s tr l s' e ih hs
  change step s l = some (s', e) at hs
  cases l with
  | prep t =>
    simp only [step] at hs
    split at hs <;> simp only [Option.some.injEq, Prod.mk.injEq, reduceCtorEq] at hs
    obtain ⟨rfl, rfl⟩ := hs
    refine ⟨?_, ?_, ih.rd, ?_⟩
    · intro hu
      have h0 : Ev.ub ∉ tr := fun hc => hu (by simp [hc])
      have h1 := addedLoops_map (Ev.loopPrep · t) (fun _ => rfl) s.loops
      have h2 : addedLoops (Ev.prepared t :: s.loops.map (Ev.loopPrep · t)) = [] := h1
      rw [addedLoops_append, h2]; simpa using ih.loops h0
    · rw [ih.clean]; simp
    · intro t' rem acc hp
      refine pass_ext (ih.pass t' rem acc hp) (by simp) ?_ ?_
      · exact polledBy_map_prep t' (Ev.loopPrep · t) (fun _ => rfl) s.loops
      · exact answersTo_map_prep t' (Ev.loopPrep · t) (fun _ => rfl) s.loops
  | addLoop l =>
    simp only [step] at hs
    split at hs
    · split at hs <;> simp only [Option.some.injEq, Prod.mk.injEq] at hs <;> obtain ⟨rfl, rfl⟩ := hs
      · refine ⟨by simp, ?_, ih.rd, ?_⟩
        · rw [ih.clean]; simp
        · intro t' rem acc hp
          exact pass_ext (ih.pass t' rem acc hp) (by simp) rfl rfl
      · rename_i hrd _
        refine ⟨?_, ?_, ih.rd, ?_⟩
        · intro hu
          have h0 : Ev.ub ∉ tr := fun hc => hu (by simp [hc])
          have h1 := addedLoops_map (Ev.loopPrep l ·) (fun _ => rfl) s.attrs
          have h2 : addedLoops (Ev.added l :: s.attrs.map (Ev.loopPrep l ·)) = [l] ++ addedLoops (s.attrs.map (Ev.loopPrep l ·)) := rfl
          rw [addedLoops_append, h2, h1]; simpa using ih.loops h0
        · rw [ih.clean]; simp
        · intro t' rem acc hp
          have := (ih.rd t').2 (by dsimp only at hp; rw [hp]; simp)
          rw [hrd] at this; simp at this
    · simp at hs
  | exit t =>
    simp only [step] at hs
    split at hs <;> simp only [Option.some.injEq, Prod.mk.injEq, reduceCtorEq] at hs
    obtain ⟨rfl, rfl⟩ := hs
    refine ⟨?_, ?_, ih.rd, ?_⟩
    · intro hu
      rw [addedLoops_append]; simpa [addedLoops] using ih.loops (fun hc => hu (by simp [hc]))
    · rw [ih.clean]; simp
    · intro t' rem acc hp
      exact pass_ext (ih.pass t' rem acc hp) (by simp) rfl rfl
  | passBegin t =>
    simp only [step] at hs
    split at hs <;> simp only [Option.some.injEq, Prod.mk.injEq, reduceCtorEq] at hs
    rename_i hc
    obtain ⟨rfl, rfl⟩ := hs
    refine ⟨?_, ?_, ?_, ?_⟩
    · intro hu
      rw [addedLoops_append]; simpa [addedLoops] using ih.loops (fun hc => hu (by simp [hc]))
    · rw [ih.clean]; simp
    · intro t'
      have := ih.rd t'
      simp only [upd_apply, List.mem_cons]
      grind
    · intro t' rem acc hp
      dsimp only at hp
      by_cases ht : t' = t
      · subst ht
        simp only [upd_same, Option.some.injEq, Prod.mk.injEq] at hp
        obtain ⟨rfl, rfl⟩ := hp
        refine ⟨tr, [], by simp, by simp, ?_, by simp [polledBy], ?_, ih.loops, by simp [answersTo]⟩
        · intro i hi; split at hi <;> simp at hi; subst hi; simp [polledBy]
        · rw [← ih.clean]; cases s.cleaning <;> simp
      · rw [upd_ne _ _ ht] at hp
        exact pass_ext (ih.pass t' rem acc hp) (by simp; exact ht) rfl rfl
  | poll t r =>
    simp only [step] at hs
    split at hs
    · split at hs <;> simp only [Option.some.injEq, Prod.mk.injEq, reduceCtorEq] at hs
      rename_i i ac hpc _ l hl
      obtain ⟨rfl, rfl⟩ := hs
      refine ⟨?_, ?_, ?_, ?_⟩
      · intro hu
        rw [addedLoops_append]; simpa [addedLoops] using ih.loops (fun hc => hu (by simp [hc]))
      · rw [ih.clean]; simp
      · intro t'
        have := ih.rd t'
        simp only [upd_apply]
        grind
      · intro t' rem acc hp
        dsimp only at hp
        by_cases ht : t' = t
        · subst ht
          simp only [upd_same, Option.some.injEq, Prod.mk.injEq] at hp
          obtain ⟨rfl, rfl⟩ := hp
          obtain ⟨p, q, rfl, hq, a, b, c, d, f⟩ := ih.pass _ _ _ hpc
          have e1 : polledBy t' [Ev.polled t' l r] = [l] := by simp [polledBy]
          have e2 : answersTo t' [Ev.polled t' l r] = [r] := by simp [answersTo]
          refine ⟨p, q ++ [.polled t' l r], by simp, by simp [hq], ?_, by simp, by simpa using c, d, ?_⟩
          · intro j hj
            simp only [Option.some.injEq] at hj
            subst hj
            rw [polledBy_append, e1, a i rfl, List.take_add_one, hl]; rfl
          · rw [answersTo_append, e2, f]; simp [Bool.or_comm]
        · rw [upd_ne _ _ ht] at hp
          refine pass_ext (ih.pass t' rem acc hp) (by simp) ?_ ?_
          · simp [polledBy, Ne.symm ht]
          · simp [answersTo, Ne.symm ht]
    · simp at hs
  | passEnd t =>
    have key : ∀ ac, PInv { s with pc := upd s.pc t none, readers := s.readers.filter (· ≠ t) }
        (tr ++ [.passEnded t ac]) := by
      intro ac
      refine ⟨?_, ?_, ?_, ?_⟩
      · intro hu
        rw [addedLoops_append]; simpa [addedLoops] using ih.loops (fun hc => hu (by simp [hc]))
      · rw [ih.clean]; simp
      · intro t'
        have := ih.rd t'
        simp only [upd_apply, List.mem_filter]
        grind
      · intro t' rem acc hp
        dsimp only at hp
        by_cases ht : t' = t
        · subst ht; simp at hp
        · rw [upd_ne _ _ ht] at hp
          exact pass_ext (ih.pass t' rem acc hp) (by simp) rfl rfl
    simp only [step] at hs
    split at hs
    · split at hs <;> simp only [Option.some.injEq, Prod.mk.injEq, reduceCtorEq] at hs
      obtain ⟨rfl, rfl⟩ := hs
      exact key _
    · simp only [Option.some.injEq, Prod.mk.injEq] at hs
      obtain ⟨rfl, rfl⟩ := hs
      exact key _
    · simp at hs
  | stop =>
    simp only [step, Option.some.injEq, Prod.mk.injEq] at hs
    obtain ⟨rfl, rfl⟩ := hs
    refine ⟨?_, ?_, ih.rd, ?_⟩
    · intro hu
      rw [addedLoops_append, addedLoops_map Ev.loopStop (fun _ => rfl)]
      simpa using ih.loops (fun hc => hu (by simp [hc]))
    · rw [ih.clean]; simp
    · intro t' rem acc hp
      refine pass_ext (ih.pass t' rem acc hp) (by simp) ?_ ?_
      · exact polledBy_map_prep t' Ev.loopStop (fun _ => rfl) s.loops
      · exact answersTo_map_prep t' Ev.loopStop (fun _ => rfl) s.loops
  | quickStop =>
    simp only [step, Option.some.injEq, Prod.mk.injEq] at hs
    obtain ⟨rfl, rfl⟩ := hs
    refine ⟨?_, by simp, ih.rd, ?_⟩
    · intro hu
      have h2 : addedLoops (Ev.quickStopped :: s.loops.map Ev.loopQuickStop) = [] :=
        addedLoops_map Ev.loopQuickStop (fun _ => rfl) s.loops
      rw [addedLoops_append, h2]
      simpa using ih.loops (fun hc => hu (by simp [hc]))
    · intro t' rem acc hp
      refine pass_ext (ih.pass t' rem acc hp) (by simp) ?_ ?_
      · exact polledBy_map_prep t' Ev.loopQuickStop (fun _ => rfl) s.loops
      · exact answersTo_map_prep t' Ev.loopQuickStop (fun _ => rfl) s.loops

/-- **C34.**  A finished pass of thread `t` that began after the history `p` has polled exactly the loops added in `p`, each
once and in the order they were added (none, if quick_stop was requested in `p`), and answers whether some loop
answered true. -/
theorem pass_polls_every_loop (s : St) (tr : List Ev) (h : machine.Reaches s tr) (p q : List Ev) (t : Nat) (r : Bool)
    (hp : p ++ .passBegan t :: q ++ [.passEnded t r] <+: tr) (hq : Ev.passBegan t ∉ q) (hu : Ev.ub ∉ p) :
    polledBy t q = (if Ev.quickStopped ∈ p then [] else addedLoops p) ∧ r = (answersTo t q).any id := by
  revert p q t r
  refine Machine.Reaches.inv' (M := machine) (fun _ tr => ∀ p q t r, p ++ .passBegan t :: q ++ [.passEnded t r] <+: tr →
    Ev.passBegan t ∉ q → Ev.ub ∉ p →
    polledBy t q = (if Ev.quickStopped ∈ p then [] else addedLoops p) ∧ r = (answersTo t q).any id) ?_ ?_ h
  · intro p q t r hp; exact absurd hp not_concat_prefix_nil
  clear h s tr
  intro s tr l s' e hr ih hs p q t r hp hq hu
  have hi := pinv_of_reaches hr
  change step s l = some (s', e) at hs
  rcases concat_prefix_append_cases hp with hp | ⟨q', hq', hpq⟩
  · exact ih p q t r hp hq hu
  cases l <;> simp only [step] at hs
  case passEnd t' =>
    have key : ∀ rem acc, s.pc t' = some (rem, acc) → (∀ i, rem = some i → s.loops.length ≤ i) →
        e = [.passEnded t' acc] → polledBy t q = (if Ev.quickStopped ∈ p then [] else addedLoops p) ∧
          r = (answersTo t q).any id := by
      rintro rem acc hpc hrem rfl
      obtain ⟨rfl, he⟩ := concat_prefix_cons hq' (by simp)
      simp only [Ev.passEnded.injEq] at he
      obtain ⟨rfl, rfl⟩ := he
      obtain ⟨p1, q1, h1, hq1, a, b, c, d, f⟩ := hi.pass _ _ _ hpc
      rw [List.append_nil, h1] at hpq
      obtain ⟨rfl, rfl⟩ := last_split_self hpq hq1 hq
      refine ⟨?_, f⟩
      split
      · rename_i hqs; exact b (c.2 hqs)
      · rename_i hqs
        cases hrm : rem with
        | none => exact absurd (c.1 hrm) hqs
        | some i => rw [a i hrm, List.take_of_length_le (hrem i hrm), d hu]
    split at hs
    · split at hs <;> simp only [Option.some.injEq, Prod.mk.injEq, reduceCtorEq] at hs
      exact key _ _ (by assumption) (by simpa using by assumption) hs.2.symm
    · simp only [Option.some.injEq, Prod.mk.injEq] at hs
      exact key _ _ (by assumption) (by simp) hs.2.symm
    · simp at hs
  all_goals
    exfalso
    have hm : Ev.passEnded t r ∈ e := hq'.subset (by simp)
    clear hp hq' hpq ih hi
    (repeat' split at hs) <;> simp only [Option.some.injEq, Prod.mk.injEq, reduceCtorEq] at hs <;>
      (obtain ⟨rfl, rfl⟩ := hs; simp at hm)

/-! ### Preparation -/

theorem count_map_prep_l (ls : List Nat) (t l' t' : Nat) :
    (ls.map (Ev.loopPrep · t)).count (.loopPrep l' t') = if t = t' then ls.count l' else 0 := by
  induction ls with
  | nil => simp
  | cons x ls ih =>
    simp only [List.map_cons, List.count_cons, ih, beq_iff_eq, Ev.loopPrep.injEq]
    grind

theorem count_map_prep_t (ts : List Nat) (l l' t' : Nat) :
    (ts.map (Ev.loopPrep l ·)).count (.loopPrep l' t') = if l = l' then ts.count t' else 0 := by
  induction ts with
  | nil => simp
  | cons x ls ih =>
    simp only [List.map_cons, List.count_cons, ih, beq_iff_eq, Ev.loopPrep.injEq]
    grind

theorem count_other (ls : List Nat) (f : Nat → Ev) (x : Ev) (h : ∀ y, f y ≠ x) : (ls.map f).count x = 0 := by
  rw [List.count_eq_zero]
  simp [h]

/-- **C34.**  If every worker thread announces itself at most once and every loop is added at most once, in any order and
any interleaving with passes, then loop `l` has been prepared exactly once for thread `t` if both are known, and not at
all otherwise. -/
theorem loop_prepared_exactly_once (s : St) (tr : List Ev) (h : machine.Reaches s tr)
    (h1 : ∀ t, tr.count (.prepared t) ≤ 1) (h2 : ∀ l, tr.count (.added l) ≤ 1) (hu : Ev.ub ∉ tr) (l t : Nat) :
    preps l t tr = if Ev.added l ∈ tr ∧ Ev.prepared t ∈ tr then 1 else 0 := by
  have key : (∀ t, tr.count (.prepared t) ≤ 1) → (∀ l, tr.count (.added l) ≤ 1) → Ev.ub ∉ tr →
      (∀ t, s.attrs.count t = tr.count (.prepared t)) ∧ (∀ l, s.loops.count l = tr.count (.added l)) ∧
      ∀ l t, preps l t tr = tr.count (.added l) * tr.count (.prepared t) := by
    refine Machine.Reaches.inv (M := machine) (fun s tr => (∀ t, tr.count (.prepared t) ≤ 1) →
      (∀ l, tr.count (.added l) ≤ 1) → Ev.ub ∉ tr →
      (∀ t, s.attrs.count t = tr.count (.prepared t)) ∧ (∀ l, s.loops.count l = tr.count (.added l)) ∧
      ∀ l t, preps l t tr = tr.count (.added l) * tr.count (.prepared t)) ?_ ?_ h
    · intro _ _ _; simp [machine, init, preps]
    clear h s tr h1 h2 hu
    intro s tr lb s' e ih hs h1 h2 hu
    simp only [preps, List.count_append] at h1 h2 ih ⊢
    obtain ⟨i1, i2, i3⟩ := ih (fun t => by have := h1 t; omega) (fun l => by have := h2 l; omega)
      (fun hc => hu (by simp [hc]))
    change step s lb = some (s', e) at hs
    cases lb with
    | prep t =>
      simp only [step] at hs
      split at hs <;> simp only [Option.some.injEq, Prod.mk.injEq, reduceCtorEq] at hs
      obtain ⟨rfl, rfl⟩ := hs
      have ht := h1 t
      have hz : tr.count (.prepared t) = 0 := by simp only [List.count_cons, beq_self_eq_true, if_true] at ht; omega
      have hnot : t ∉ s.attrs := by
        have := i1 t; rw [hz] at this; exact List.count_eq_zero.1 this
      have c1 : ∀ t', (s.loops.map (Ev.loopPrep · t)).count (.prepared t') = 0 := fun t' => count_other _ _ _ (by simp)
      have c2 : ∀ t', (s.loops.map (Ev.loopPrep · t)).count (.added t') = 0 := fun t' => count_other _ _ _ (by simp)
      refine ⟨?_, ?_, ?_⟩
      · intro t'
        simp only [hnot, if_false, List.count_append, List.count_cons, c1, i1, List.count_nil]
        grind
      · intro l'
        simp only [List.count_cons, c2, i2]; simp
      · intro l' t'
        simp only [List.count_cons, count_map_prep_l, c1, c2, i3, i2]
        by_cases htt : t = t'
        · subst htt; simp [hz]
        · simp [htt]
    | addLoop l =>
      simp only [step] at hs
      split at hs
      · split at hs <;> simp only [Option.some.injEq, Prod.mk.injEq] at hs <;> obtain ⟨rfl, rfl⟩ := hs
        · exact absurd (by simp) hu
        · have hl := h2 l
          have hz : tr.count (.added l) = 0 := by simp only [List.count_cons, beq_self_eq_true, if_true] at hl; omega
          have c1 : ∀ t', (s.attrs.map (Ev.loopPrep l ·)).count (.prepared t') = 0 := fun t' => count_other _ _ _ (by simp)
          have c2 : ∀ t', (s.attrs.map (Ev.loopPrep l ·)).count (.added t') = 0 := fun t' => count_other _ _ _ (by simp)
          refine ⟨?_, ?_, ?_⟩
          · intro t'
            simp only [List.count_cons, c1, i1]; simp
          · intro l'
            simp only [List.count_append, List.count_cons, c2, i2, List.count_nil]
            grind
          · intro l' t'
            simp only [List.count_cons, count_map_prep_t, c1, c2, i3, i1]
            by_cases htt : l = l'
            · subst htt; simp [hz]
            · simp [htt]
      · simp at hs
    | stop =>
      simp only [step, Option.some.injEq, Prod.mk.injEq] at hs
      obtain ⟨rfl, rfl⟩ := hs
      have c : ∀ x, (∀ y, Ev.loopStop y ≠ x) → (s.loops.map Ev.loopStop).count x = 0 := fun x hx => count_other _ _ _ hx
      simp only [c (.prepared _) (by simp), c (.added _) (by simp), c (.loopPrep _ _) (by simp)]
      exact ⟨i1, i2, i3⟩
    | quickStop =>
      simp only [step, Option.some.injEq, Prod.mk.injEq] at hs
      obtain ⟨rfl, rfl⟩ := hs
      have c : ∀ x, (∀ y, Ev.loopQuickStop y ≠ x) → (s.loops.map Ev.loopQuickStop).count x = 0 := fun x hx => count_other _ _ _ hx
      simp only [List.count_cons, c (.prepared _) (by simp), c (.added _) (by simp), c (.loopPrep _ _) (by simp)]
      exact ⟨i1, i2, i3⟩
    | exit t =>
      simp only [step] at hs
      split at hs <;> simp only [Option.some.injEq, Prod.mk.injEq, reduceCtorEq] at hs
      obtain ⟨rfl, rfl⟩ := hs
      simp only [List.count_cons, List.count_nil]; exact ⟨i1, i2, i3⟩
    | passBegin t =>
      simp only [step] at hs
      split at hs <;> simp only [Option.some.injEq, Prod.mk.injEq, reduceCtorEq] at hs
      obtain ⟨rfl, rfl⟩ := hs
      simp only [List.count_cons, List.count_nil]; exact ⟨i1, i2, i3⟩
    | poll t r =>
      simp only [step] at hs
      (repeat' split at hs) <;> simp only [Option.some.injEq, Prod.mk.injEq, reduceCtorEq] at hs
      obtain ⟨rfl, rfl⟩ := hs
      simp only [List.count_cons, List.count_nil]; exact ⟨i1, i2, i3⟩
    | passEnd t =>
      simp only [step] at hs
      (repeat' split at hs) <;> simp only [Option.some.injEq, Prod.mk.injEq, reduceCtorEq] at hs <;>
      (obtain ⟨rfl, rfl⟩ := hs
       simp only [List.count_cons, List.count_nil]; exact ⟨i1, i2, i3⟩)
  obtain ⟨-, -, k⟩ := key h1 h2 hu
  rw [k]
  have := h1 t; have := h2 l
  have a1 : Ev.prepared t ∈ tr ↔ 0 < tr.count (.prepared t) := List.count_pos_iff.symm
  have a2 : Ev.added l ∈ tr ↔ 0 < tr.count (.added l) := List.count_pos_iff.symm
  simp only [a1, a2]
  rcases (by omega : tr.count (.added l) = 0 ∨ tr.count (.added l) = 1) with h | h <;>
  rcases (by omega : tr.count (.prepared t) = 0 ∨ tr.count (.prepared t) = 1) with h' | h' <;> simp [h, h']

/-- **C34.**  While no announced worker thread is gone, add_loop uses no dangling pointer. -/
theorem add_loop_safe (s : St) (tr : List Ev) (h : machine.Reaches s tr)
    (hx : ∀ p l t, p ++ [.added l] <+: tr → Ev.prepared t ∈ p → Ev.exited t ∉ p) : Ev.ub ∉ tr := by
  have key : (∀ p l t, p ++ [.added l] <+: tr → Ev.prepared t ∈ p → Ev.exited t ∉ p) →
      Ev.ub ∉ tr ∧ (∀ t ∈ s.attrs, Ev.prepared t ∈ tr) ∧ (∀ t ∈ s.gone, Ev.exited t ∈ tr) := by
    refine Machine.Reaches.inv (M := machine) (fun s tr =>
      (∀ p l t, p ++ [.added l] <+: tr → Ev.prepared t ∈ p → Ev.exited t ∉ p) →
      Ev.ub ∉ tr ∧ (∀ t ∈ s.attrs, Ev.prepared t ∈ tr) ∧ (∀ t ∈ s.gone, Ev.exited t ∈ tr)) ?_ ?_ h
    · intro _; simp [machine, init]
    clear h s tr hx
    intro s tr lb s' e ih hs hx
    obtain ⟨i1, i2, i3⟩ := ih (fun p l t hp => hx p l t (hp.trans (List.prefix_append _ _)))
    change step s lb = some (s', e) at hs
    cases lb with
    | addLoop l =>
      simp only [step] at hs
      split at hs
      · split at hs <;> simp only [Option.some.injEq, Prod.mk.injEq] at hs <;> obtain ⟨rfl, rfl⟩ := hs
        · rename_i hg
          obtain ⟨t, ha, hb⟩ := hg
          exact absurd (i3 t hb) (hx tr l t (by simp [List.prefix_append_right_inj]) (i2 t ha))
        · refine ⟨by simp [i1], ?_, ?_⟩
          · intro t ht; simp [i2 t ht]
          · intro t ht; simp [i3 t ht]
      · simp at hs
    | _ => simp only [step] at hs; grind
  exact (key hx).1

/-- **C34, what fails.**  After an announced worker thread has ended (the pool was stopped) add_loop dereferences a pointer
to that thread's dead attributes. -/
theorem add_loop_after_exit_refuted :
    ∃ (s : St) (tr : List Ev), machine.Reaches s tr ∧ Ev.ub ∈ tr :=
  ⟨_, _, ⟨[.prep 0, .exit 0, .addLoop 7], rfl⟩, by decide⟩

/-- **C33.**  The sleep proposed by the user loops is the smallest of their answers and 10 s. -/
theorem maxSleep_is_min (ds : List Int) :
    (∀ d ∈ ds, maxSleep ds ≤ d) ∧ maxSleep ds ≤ 10000 ∧ (maxSleep ds = 10000 ∨ maxSleep ds ∈ ds) := by
  have : ∀ (ds : List Int) (a : Int), (∀ d ∈ ds, ds.foldl (fun r d => if r < d then r else d) a ≤ d) ∧
      ds.foldl (fun r d => if r < d then r else d) a ≤ a ∧
      (ds.foldl (fun r d => if r < d then r else d) a = a ∨ ds.foldl (fun r d => if r < d then r else d) a ∈ ds) := by
    intro ds
    induction ds with
    | nil => intro a; simp
    | cons x ds ih =>
      intro a
      simp only [List.foldl_cons]
      have := ih (if a < x then a else x)
      obtain ⟨h1, h2, h3⟩ := this
      refine ⟨?_, ?_, ?_⟩
      · intro d hd
        rcases List.mem_cons.1 hd with rfl | hd
        · refine Int.le_trans h2 ?_; split <;> omega
        · exact h1 d hd
      · refine Int.le_trans h2 ?_; split <;> omega
      · rcases h3 with h3 | h3
        · split at h3 <;> simp [*]
        · exact Or.inr (List.mem_cons_of_mem _ h3)
  exact this ds 10000

/-- The hypotheses are met: a thread and two loops in mixed order, two passes, a quick stop. -/
example : ∃ (s : St) (tr : List Ev), machine.Reaches s tr ∧ (∀ t, tr.count (.prepared t) ≤ 1) ∧
    (∀ l, tr.count (.added l) ≤ 1) ∧ Ev.ub ∉ tr ∧ preps 7 0 tr = 1 ∧ preps 8 0 tr = 1 ∧ Ev.passEnded 0 true ∈ tr := by
  refine ⟨_, _, ⟨[.addLoop 7, .prep 0, .addLoop 8, .passBegin 0, .poll 0 true, .poll 0 false, .passEnd 0, .quickStop,
    .passBegin 0, .passEnd 0], rfl⟩, ?_, ?_, by decide, by decide, by decide, by decide⟩
  · intro t; simp [List.count_cons, machine, init]; try grind
  · intro t; simp [List.count_cons, machine, init]; try grind

end Verif.UserLoops
