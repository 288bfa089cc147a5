import Verif.Fly.Proofs
/-!
# Properties of `task_on_the_fly` (C11)
-/

namespace Verif.Fly

/-- How often hand-over `k` was resumed, destroyed or explicitly abandoned. -/
def consumptions (k : Nat) (tr : List Ev) : Nat :=
  tr.count (.resumed k) + tr.count (.destroyed k) + tr.count (.abandoned k)

theorem consumptions_eq_uses (k : Nat) (tr : List Ev) : consumptions k tr = uses k tr := by
  unfold consumptions uses
  induction tr with
  | nil => rfl
  | cons x tr ih =>
    simp only [List.count_cons, List.countP_cons, ← ih]
    cases x <;> simp [Ev.consumes] <;> grind

/-- **C11 (1).**  Along any sequence of operations on any number of `task_on_the_fly`
objects, each handed-over coroutine is resumed, destroyed or abandoned at most once in
total, and only if it was handed over. -/
theorem fly_at_most_once (s : St) (tr : List Ev) (h : machine.Reaches s tr) (k : Nat) :
    consumptions k tr ≤ 1 ∧ (Ev.handed k ∉ tr → consumptions k tr = 0) := by
  have hi := inv_of_reaches h
  rw [consumptions_eq_uses]
  constructor
  · by_cases hk : k < s.next
    · by_cases hc : ∀ d, claimOf (s.obj d) ≠ some k
      · exact Nat.le_of_eq (hi.lin.done k hk hc)
      · rw [Classical.not_forall] at hc
        obtain ⟨d, hd⟩ := hc
        have := (hi.lin.live d k (Classical.not_not.1 hd)).2
        omega
    · have := hi.lin.fresh k (by omega)
      omega
  · intro hn
    rw [hi.handed] at hn
    exact hi.lin.fresh k (by omega)

/-- **C11 (2).**  Nothing leaks: once all objects are destroyed, every hand-over has been
consumed exactly once. -/
theorem fly_no_leak (s : St) (tr : List Ev) (h : machine.Reaches s tr)
    (hgone : ∀ d, s.obj d = none) (k : Nat) (hk : Ev.handed k ∈ tr) :
    tr.count (.handed k) = 1 ∧ consumptions k tr = 1 := by
  have hi := inv_of_reaches h
  rw [consumptions_eq_uses]
  constructor
  · have := hi.once k
    have := List.count_pos_iff.2 hk
    omega
  · apply hi.lin.done k ((hi.handed k).1 hk)
    intro d; simp [hgone d, claimOf]

/-- **C11 (3).**  No undefined behaviour as long as no object is made from a null handle and
`operator()` is only used on objects whose `valid()` is true. -/
theorem fly_no_ub (ls : List Lbl) (s : St) (tr : List Ev) (h : machine.run ls = some (s, tr))
    (h1 : ∀ d, Lbl.mkNull d ∉ ls)
    (h2 : ∀ xs d ys s0 tr0, ls = xs ++ .invoke d :: ys → machine.run xs = some (s0, tr0) →
      valid s0 d = true) : Ev.ub ∉ tr := by
  suffices H : ∀ (ys xs : List Lbl) (s0 : St) (tr0 : List Ev) (s1 : St) (tr1 : List Ev), ls = xs ++ ys →
      machine.run xs = some (s0, tr0) → NoNullOwner s0 → machine.runFrom s0 ys = some (s1, tr1) →
      Ev.ub ∉ tr1 from H ls [] init [] s tr rfl rfl (by intro d o hd; simp [init] at hd) h
  intro ys
  induction ys with
  | nil =>
    intro xs s0 tr0 s1 tr1 _ _ _ hr
    simp only [Machine.runFrom, Option.some.injEq, Prod.mk.injEq] at hr
    rw [← hr.2]; simp
  | cons l ys ih =>
    intro xs s0 tr0 s1 tr1 hls hxs hn hr
    simp only [Machine.runFrom] at hr
    cases hst : machine.step s0 l with
    | none => simp [hst] at hr
    | some p =>
      obtain ⟨s', e⟩ := p
      simp only [hst] at hr
      cases hr2 : machine.runFrom s' ys with
      | none => simp [hr2] at hr
      | some q =>
        simp only [hr2, Option.some.injEq, Prod.mk.injEq] at hr
        obtain ⟨hn', hub⟩ := noNull_step s0 l s' e hn
          (by rintro d rfl; exact h1 d (by rw [hls]; simp))
          (by rintro d rfl; exact h2 xs d ys s0 tr0 hls hxs) hst
        have hxs' : machine.run (xs ++ [l]) = some (s', tr0 ++ e) := by
          unfold Machine.run at hxs ⊢
          rw [Machine.runFrom_append, hxs]
          simp [Machine.runFrom, hst]
        have := ih (xs ++ [l]) s' (tr0 ++ e) q.1 q.2 (by simp [hls]) hxs' hn' hr2
        rw [← hr.2]
        simp [hub, this]

/-- The guard of (3) is needed: an owning object made from a null handle is undefined
behaviour at its destruction (destroying a null coroutine handle). -/
theorem fly_null_handle_refuted : ∃ s tr, machine.Reaches s tr ∧ Ev.ub ∈ tr ∧
    ∀ l ∈ ([.mkNull 0, .dtor 0] : List Lbl), ∀ d, l ≠ .invoke d :=
  ⟨_, _, ⟨[.mkNull 0, .dtor 0], rfl⟩, by decide, by simp⟩

/-- Non-vacuity: moves, an overwriting assignment, a self-assignment, a resumption and
destructions; 4 hand-overs, all objects gone at the end. -/
def sample : List Lbl :=
  [.mk 0, .mk 1, .mk 2, .mkDefault 4, .moveCtor 3 0, .moveAssign 1 2, .moveAssign 4 3, .invoke 4,
   .mk 5, .moveAssign 5 5, .dtor 0, .dtor 1, .dtor 2, .dtor 3, .dtor 4, .dtor 5]

example : (machine.run sample).map (·.2) = some
    [.handed 0, .handed 1, .handed 2, .destroyed 1, .resumed 0, .handed 3, .destroyed 3,
     .destroyed 2] := rfl

example : ∃ s tr, machine.Reaches s tr ∧ (∀ d, s.obj d = none) ∧ Ev.handed 3 ∈ tr := by
  refine ⟨_, _, ⟨sample, rfl⟩, ?_, by decide⟩
  intro d
  simp only [machine, init]
  simp only [upd_apply]
  grind

/-- The hypotheses of (3) are met by a run that resumes a moved handle. -/
example : ∃ s tr, machine.run [.mk 0, .moveCtor 1 0, .invoke 1] = some (s, tr) ∧
    Ev.resumed 0 ∈ tr ∧ ∃ s0 tr0, machine.run [.mk 0, .moveCtor 1 0] = some (s0, tr0) ∧ valid s0 1 = true :=
  ⟨_, _, rfl, by decide, _, _, rfl, rfl⟩

/-- `operator()` of a valid object resumes the coroutine that was handed over last to it and leaves the object without it; of any other object it is undefined behaviour, which nothing follows. -/
theorem fly_invoke {s s' : St} {d : Nat} {e : List Ev} (hs : step s (.invoke d) = some (s', e)) :
    (valid s d = true → ∃ k, e = [.resumed k] ∧ valid s' d = false ∧ s'.dead = false) ∧ (valid s d = false → e = [.ub] ∧ ∀ l, step s' l = none) := by
  simp only [step] at hs
  split at hs
  · cases hs
  · rename_i hd
    cases ho : s.obj d with
    | none => simp [ho] at hs
    | some o =>
      obtain ⟨h, b⟩ := o
      cases b <;> cases h <;> simp only [ho, Option.some.injEq, Prod.mk.injEq] at hs <;> obtain ⟨rfl, rfl⟩ := hs <;> simp [valid, ho, step, disown, hd]

/-- Undefined behaviour has no other source than that and destroying (or assigning to) an object made from a null handle. -/
theorem fly_ub_source {s s' : St} {l : Lbl} {e : List Ev} (hs : step s l = some (s', e)) (hu : Ev.ub ∈ e) :
    (∃ d, l = .invoke d ∧ valid s d = false) ∨ ∃ d, (l = .dtor d ∨ ∃ src, l = .moveAssign d src) ∧ s.obj d = some { h := none, owns := true } := by
  simp only [step] at hs
  split at hs
  · cases hs
  · cases l with
    | invoke d =>
      refine Or.inl ⟨d, rfl, ?_⟩
      cases ho : s.obj d with
      | none => simp [ho] at hs
      | some o =>
        obtain ⟨h, b⟩ := o
        cases b <;> cases h <;> simp only [ho, Option.some.injEq, Prod.mk.injEq] at hs <;> obtain ⟨rfl, rfl⟩ := hs <;> simp_all [valid]
    | dtor d =>
      refine Or.inr ⟨d, Or.inl rfl, ?_⟩
      cases ho : s.obj d with
      | none => simp [ho] at hs
      | some o =>
        obtain ⟨h, b⟩ := o
        cases b <;> cases h <;> simp only [ho, destroy, Option.some.injEq, Prod.mk.injEq] at hs <;> obtain ⟨rfl, rfl⟩ := hs <;> simp_all
    | moveAssign d src =>
      refine Or.inr ⟨d, Or.inr ⟨src, rfl⟩, ?_⟩
      simp only at hs
      (repeat' split at hs) <;> simp only [Option.some.injEq, Prod.mk.injEq, reduceCtorEq] at hs <;> obtain ⟨rfl, rfl⟩ := hs
      rename_i od _ hod _ _ _ _
      obtain ⟨h, b⟩ := od
      cases b <;> cases h <;> simp_all [destroy]
    | _ =>
      simp only at hs
      (repeat' split at hs) <;> simp only [Option.some.injEq, Prod.mk.injEq, reduceCtorEq] at hs <;> (try obtain ⟨rfl, rfl⟩ := hs) <;> grind

end Verif.Fly
