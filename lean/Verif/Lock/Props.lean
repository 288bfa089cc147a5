import Verif.Lock.Proofs
/-!
# Properties of `unique_lock` / `shared_lock` (C04, C60)
-/

namespace Verif.Lock

/-- How often acquisition `k` occurs as acquired / as released in the trace. -/
def timesAcquired (k : Nat) (tr : List Ev) : Nat :=
  tr.countP fun e => match e with | .acquired j _ => j == k | _ => false
def timesReleased (k : Nat) (tr : List Ev) : Nat :=
  tr.countP fun e => match e with | .released j _ => j == k | _ => false

theorem timesReleased_eq (k : Nat) (tr : List Ev) : timesReleased k tr = uses k tr := by
  unfold timesReleased uses
  congr 1

theorem timesAcquired_eq (k : Nat) (tr : List Ev) : timesAcquired k tr = tr.countP (Ev.isAcquire k) := by
  unfold timesAcquired
  congr 1

/-- **C04 (1).**  Along any sequence of constructions, moves, assignments (self-assignment
included), unlocks, re-locks and destructions of any number of lock objects, every
acquisition is released at most once, only if it was acquired, and on the mutex it was
acquired on. -/
theorem lock_released_at_most_once (s : St) (tr : List Ev) (h : machine.Reaches s tr) (k : Nat) :
    timesReleased k tr ≤ timesAcquired k tr ∧ timesAcquired k tr ≤ 1 ∧
    ∀ m, Ev.released k m ∈ tr → Ev.acquired k m ∈ tr := by
  have hi := inv_of_reaches h
  rw [timesReleased_eq, timesAcquired_eq, hi.acq]
  refine ⟨?_, by split <;> omega, hi.rel k⟩
  by_cases hk : k < s.next
  · simp only [hk, if_true]
    by_cases hc : ∀ d, claimOf (s.obj d) ≠ some k
    · exact Nat.le_of_eq (hi.lin.done k hk hc)
    · rw [Classical.not_forall] at hc
      obtain ⟨d, hd⟩ := hc
      have := (hi.lin.live d k (Classical.not_not.1 hd)).2
      omega
  · have := hi.lin.fresh k (by omega)
    simp [hk, this]

/-- **C04 (2).**  Once all lock objects are destroyed every acquisition has been released
exactly once. -/
theorem lock_no_leak (s : St) (tr : List Ev) (h : machine.Reaches s tr)
    (hgone : ∀ d, s.obj d = none) (k : Nat) : timesReleased k tr = timesAcquired k tr := by
  have hi := inv_of_reaches h
  rw [timesReleased_eq, timesAcquired_eq, hi.acq]
  by_cases hk : k < s.next
  · simp only [hk, if_true]
    exact hi.lin.done k hk (by intro d; simp [hgone d, claimOf])
  · simp only [hk, if_false]
    exact hi.lin.fresh k (by omega)

/-- **C04 (3).**  An acquisition that is not yet released is claimed by exactly one lock
object, which refers to the right mutex and answers `owns_lock() = true`. -/
theorem lock_unreleased_has_unique_owner (s : St) (tr : List Ev) (h : machine.Reaches s tr)
    (k m : Nat) (ha : Ev.acquired k m ∈ tr) (hr : timesReleased k tr = 0) :
    ∃ d, ownsLock s d = true ∧ (∃ o, s.obj d = some o ∧ o.tok = k ∧ o.mutex = some m) ∧
      ∀ d' o', s.obj d' = some o' → o'.owns = true → o'.mutex.isSome → o'.tok = k → d' = d := by
  have hi := inv_of_reaches h
  rw [timesReleased_eq] at hr
  have hk : k < s.next := by
    have h1 := hi.acq k
    have : 0 < tr.countP (Ev.isAcquire k) := by
      rw [List.countP_pos_iff]; exact ⟨_, ha, by simp [Ev.isAcquire]⟩
    split at h1 <;> omega
  by_cases hc : ∀ d, claimOf (s.obj d) ≠ some k
  · have := hi.lin.done k hk hc; omega
  · rw [Classical.not_forall] at hc
    obtain ⟨d, hd⟩ := hc
    have hd := Classical.not_not.1 hd
    refine ⟨d, ?_, ?_, ?_⟩
    · unfold ownsLock; unfold claimOf at hd; split at hd <;> simp_all
    · unfold claimOf at hd
      split at hd
      · rename_i m' k' hobj
        simp only [Option.some.injEq] at hd; subst hd
        have := hi.mtx d _ m' hobj rfl rfl
        exact ⟨_, hobj, rfl, by rw [hi.acq_unique this ha]⟩
      · simp at hd
    · intro d' o' h1 h2 h3 h4
      apply hi.lin.inj d' d k _ hd
      obtain ⟨m', hm'⟩ := Option.isSome_iff_exists.1 h3
      cases o' with | mk a b c => simp at h2 h4 hm'; subst h2 h4 hm'; simp [h1, claimOf]

/-- Two acquisitions of different mutexes, moves, an overwriting and a self assignment, a
re-lock, all destroyed. -/
def sample : List Lbl :=
  [.grant 0 7, .grant 1 8, .moveCtor 2 0, .moveAssign 1 2, .moveAssign 1 1, .relock 1,
   .relock 0, .dtor 0, .dtor 1, .dtor 2]

example : (machine.run sample).map (·.2) = some
    [.acquired 0 7, .acquired 1 8, .released 1 8, .released 0 7, .acquired 2 7, .threw,
     .released 2 7] := rfl

example : ∃ s tr, machine.Reaches s tr ∧ (∀ d, s.obj d = none) ∧ Ev.acquired 2 7 ∈ tr := by
  refine ⟨_, _, ⟨sample, rfl⟩, ?_, by decide⟩
  intro d
  simp only [machine, init]
  simp only [upd_apply]
  grind

/-- **C60, refuted.**  A default-constructed lock answers `owns_lock() = true` although it
never owned anything. -/
theorem owns_lock_refuted :
    ∃ s tr d, machine.Reaches s tr ∧ ownsLock s d = true ∧ ∀ k m, Ev.acquired k m ∉ tr :=
  ⟨_, _, 0, ⟨[.mkDefault 0], rfl⟩, rfl, by simp⟩

/-- **C60, partial.**  Missing: default-constructed locks.  In histories without them,
`owns_lock()` is true only if the object refers to a mutex and owns an acquisition of that
mutex that is not yet released; two objects never own the same acquisition. -/
theorem owns_lock_truthful_partial (ls : List Lbl) (s : St) (tr : List Ev)
    (h : machine.run ls = some (s, tr)) (hd : ∀ d, Lbl.mkDefault d ∉ ls) (d : Nat)
    (ho : ownsLock s d = true) :
    ∃ k m o, s.obj d = some o ∧ o.mutex = some m ∧ Ev.acquired k m ∈ tr ∧
      timesReleased k tr = 0 ∧
      ∀ d' o', s.obj d' = some o' → ownsLock s d' = true → o'.tok = k → d' = d := by
  have hh : Honest s := by
    suffices H : ∀ (ys : List Lbl) (s0 s1 : St) (tr1 : List Ev), (∀ d, Lbl.mkDefault d ∉ ys) → Honest s0 →
        machine.runFrom s0 ys = some (s1, tr1) → Honest s1 from
      H ls init s tr hd (by intro d o hd; simp [init] at hd) h
    intro ys
    induction ys with
    | nil =>
      intro s0 s1 tr1 _ h0 hr
      simp only [Machine.runFrom, Option.some.injEq, Prod.mk.injEq] at hr
      rw [← hr.1]; exact h0
    | cons l ys ih =>
      intro s0 s1 tr1 hl h0 hr
      simp only [Machine.runFrom] at hr
      cases hst : machine.step s0 l with
      | none => simp [hst] at hr
      | some p =>
        obtain ⟨s', e⟩ := p
        simp only [hst] at hr
        cases hr2 : machine.runFrom s' ys with
        | none => simp [hr2] at hr
        | some q =>
          simp only [hr2, Option.some.injEq, Prod.mk.injEq] at hr
          have h1 := honest_step s0 l s' e h0 (by rintro d rfl; exact hl d (by simp)) hst
          rw [← hr.1]
          exact ih s' q.1 q.2 (fun d hm => hl d (by simp [hm])) h1 hr2
  have hi := inv_of_reaches ⟨ls, h⟩
  unfold ownsLock at ho
  split at ho
  · rename_i o hobj
    obtain ⟨m, hm⟩ := Option.isSome_iff_exists.1 (hh d o hobj ho)
    have hcl : claimOf (s.obj d) = some o.tok := by
      cases o with | mk a b c => simp at ho hm; subst ho hm; simp [hobj, claimOf]
    refine ⟨o.tok, m, o, hobj, hm, hi.mtx d o m hobj hm ho, ?_, ?_⟩
    · rw [timesReleased_eq]
      exact (hi.lin.live d o.tok hcl).2
    · intro d' o' h1 h2 h3
      apply hi.lin.inj d' d o.tok _ hcl
      have h2' : o'.owns = true := by simpa [ownsLock, h1] using h2
      obtain ⟨m', hm'⟩ := Option.isSome_iff_exists.1 (hh d' o' h1 h2')
      cases o' with | mk a b c => simp at h2' hm' h3; subst h2' hm' h3; simp [h1, claimOf]
  · simp at ho

example : ∃ s tr, machine.run [.grant 0 7, .moveCtor 1 0] = some (s, tr) ∧ ownsLock s 1 = true ∧
    ownsLock s 0 = false := ⟨_, _, rfl, rfl, rfl⟩

end Verif.Lock
