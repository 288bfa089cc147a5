import Verif.WaitGroup.Proofs
import Mathlib.Tactic.IntervalCases
/-!
# Properties of `koios::wait_group` (C23)
-/

namespace Verif.WaitGroup

/-- **C23 (1).**  Every interleaving: per `wait()` one answer, every suspended task is woken
at most once per suspension, and only suspended tasks are woken. -/
theorem wait_group_well_behaved (s : St) (tr : List Ev) (h : machine.Reaches s tr) :
    WellBehaved tr := by
  intro t
  rw [(inv_of_reaches h).life t]
  simp

/-- **C23 (2).**  `wait()` goes on without suspension only if the count is zero (modulo the
range of `size_t`). -/
theorem wait_group_passes_only_at_zero_mod (s : St) (tr : List Ev) (h : machine.Reaches s tr)
    (p : List Ev) (t : Nat) (hp : p ++ [.passed t] <+: tr) : count p % 2 ^ 64 = 0 :=
  passed_mod h p t hp

/-- ... and exactly zero if `done()` is used properly. -/
theorem wait_group_passes_only_at_zero (s : St) (tr : List Ev) (h : machine.Reaches s tr)
    (hu : UnitDones tr) : PassesOnlyAtZero tr := by
  intro p t hp
  have h1 := passed_mod h p t hp
  have hpre : p <+: tr := (List.prefix_append _ _).trans hp
  have h2 := count_nonneg (hu.mono hpre)
  have h3 := hu.2 p hpre
  omega

/-- **C23 (3), refuted: `done(2)`.**  Two units added, a task waits, `done(2)` takes the count
to zero in one step: nobody is woken, since `done` tests for the old value 1. -/
theorem wait_group_done_n_refuted :
    ∃ s tr, machine.Reaches s tr ∧ count tr = 0 ∧ Quiet tr ∧ life 1 tr = some .asleep ∧
      (∀ t n, Ev.doneCalled t n ∈ tr → t = 2 ∧ n = 2) := by
  refine ⟨_, _, ⟨[.add 2, .wait 1, .suspend 1, .done 2 2], rfl⟩, rfl, ?_, rfl, by simp⟩
  intro t
  by_cases h1 : t = 1
  · subst h1; exact Or.inr rfl
  · by_cases h2 : t = 2
    · subst h2; exact Or.inl rfl
    · left; simp [life, lifeStep, Ne.symm h1, Ne.symm h2]

/-- **C23 (3), refuted: race.**  Even with proper use of `done()`: the last `done()` finds the
waiter queue empty because the waiter, having seen the count at 1, has not yet registered. -/
theorem wait_group_lost_wakeup_refuted :
    ∃ s tr, machine.Reaches s tr ∧ UnitDones tr ∧ ¬ NoLostWakeup tr := by
  refine ⟨_, [.added 1, .asked 1, .doneCalled 2 1, .doneReturned 2, .slept 1],
    ⟨[.add 1, .wait 1, .done 2 1, .drained 2, .suspend 1], rfl⟩, ⟨?_, ?_⟩, ?_⟩
  · intro p t n hp
    rw [List.prefix_iff_eq_take] at hp
    rcases p with _ | ⟨a, _ | ⟨b, _ | ⟨c, _ | ⟨d, _ | ⟨e, p⟩⟩⟩⟩⟩ <;> simp_all
    decide
  · intro p hp
    rw [List.prefix_iff_eq_take] at hp
    rw [hp]
    have : ∀ n, n < 6 → count (List.take n [.added 1, .asked 1, .doneCalled 2 1, .doneReturned 2, .slept 1])
      < 2 ^ 64 := by decide
    by_cases hl : p.length < 6
    · exact this _ hl
    · rw [List.take_of_length_le (by simp; omega)]; decide
  · intro h
    refine h ?_ rfl 1 rfl
    intro t
    by_cases h1 : t = 1
    · subst h1; exact Or.inr rfl
    · by_cases h2 : t = 2
      · subst h2; exact Or.inl rfl
      · left; simp [life, lifeStep, Ne.symm h1, Ne.symm h2]

/-- **C23 (4), refuted.**  A task can be woken although the count is not zero: while a `done()`
is still draining, new work is added and a new waiter registers. -/
theorem wait_group_woken_early_refuted :
    ∃ s tr, machine.Reaches s tr ∧ ¬ WokenOnlyAtZero tr := by
  refine ⟨_, _, ⟨[.add 1, .done 2 1, .add 1, .wait 3, .suspend 3, .dequeue 2 3, .wake 2], rfl⟩, ?_⟩
  intro h
  have := h [.added 1, .doneCalled 2 1, .added 1, .asked 3, .slept 3] 3 ⟨[], rfl⟩
  revert this; decide

/-- **C23 (3), partial.**  Missing: `done(n)` with `n ≠ 1`, and tasks that register when the count
has already reached zero (the race above).  Otherwise nobody is left asleep at count zero. -/
theorem wait_group_no_lost_wakeup_partial (s : St) (tr : List Ev) (h : machine.Reaches s tr)
    (hu : UnitDones tr) (hp : SleepsOnlyWhilePositive tr) : NoLostWakeup tr := by
  intro hq hc t ht
  have hi := inv_of_reaches h
  have hcov := covered_of_reaches h hu hp
  have hpc : ∀ u, (s.pc u).isWaking = false := by
    intro u
    have := hq u
    rw [hi.life u] at this
    cases hp : s.pc u <;> simp [hp, Pc.life] at this <;> rfl
  have htq : s.pc t = .queued := by
    rw [hi.life t] at ht
    cases hp : s.pc t <;> simp [hp, Pc.life] at ht <;> rfl
  rcases hi.whereQ t htq with hm | ⟨w, hw⟩
  · rcases hcov (by rintro h; simp [h] at hm) with h | ⟨u, hu⟩
    · omega
    · simp [hpc u] at hu
  · have := hpc w; simp [hw, Pc.isWaking] at this

/-- **C23 (4), partial.**  Missing: `add()` concurrent with a `done()` in progress.  Otherwise
tasks are woken only at count zero. -/
theorem wait_group_woken_only_at_zero_partial (s : St) (tr : List Ev) (h : machine.Reaches s tr)
    (hu : UnitDones tr) (hp : NoAddDuringDone tr) : WokenOnlyAtZero tr :=
  (waking_zero h hu hp).2

/-- Non-vacuity: two workers, two waiters, all hypotheses met, both waiters woken. -/
def orderly : List Lbl :=
  [.add 2, .wait 1, .suspend 1, .wait 2, .suspend 2, .done 3 1, .done 4 1,
   .dequeue 4 1, .wake 4, .dequeue 4 2, .wake 4, .drained 4, .wait 5]

example : ∃ s tr, machine.Reaches s tr ∧ Ev.woken 1 ∈ tr ∧ Ev.woken 2 ∈ tr ∧ Ev.passed 5 ∈ tr :=
  ⟨_, _, ⟨orderly, rfl⟩, by decide, by decide, by decide⟩

def orderlyTrace : List Ev :=
  [.added 2, .asked 1, .slept 1, .asked 2, .slept 2, .doneCalled 3 1, .doneReturned 3,
   .doneCalled 4 1, .woken 1, .woken 2, .doneReturned 4, .asked 5, .passed 5]

example : (machine.run orderly).map (·.2) = some orderlyTrace := rfl

theorem orderly_prefix {p : List Ev} {x : Ev} (hp : p ++ [x] <+: orderlyTrace) :
    ∃ n, n < 13 ∧ p = orderlyTrace.take n ∧ orderlyTrace[n]? = some x := by
  have hlen : p.length + 1 ≤ 13 := by simpa [orderlyTrace] using hp.length_le
  obtain ⟨q, hq⟩ := hp
  refine ⟨p.length, by omega, ?_, ?_⟩
  · rw [← hq]; simp
  · rw [← hq]; simp

theorem orderly_hyps : UnitDones orderlyTrace ∧ SleepsOnlyWhilePositive orderlyTrace ∧
    NoAddDuringDone orderlyTrace := by
  refine ⟨⟨?_, ?_⟩, ?_, ?_⟩
  · intro p t n hp
    obtain ⟨k, hk, rfl, hx⟩ := orderly_prefix hp
    interval_cases k <;> simp [orderlyTrace] at hx <;> exact ⟨hx.2.symm, by decide⟩
  · intro p hp
    rcases List.eq_nil_or_concat p with rfl | ⟨p', x, rfl⟩
    · decide
    · rw [List.concat_eq_append] at hp ⊢
      obtain ⟨k, hk, rfl, hx⟩ := orderly_prefix hp
      have : ∀ k, k < 13 → count (orderlyTrace.take (k+1)) < 2 ^ 64 := by decide
      have := this k hk
      rwa [List.take_add_one, hx] at this
  · intro p t hp
    obtain ⟨k, hk, rfl, hx⟩ := orderly_prefix hp
    interval_cases k <;> simp [orderlyTrace] at hx <;> simp [orderlyTrace, count, countStep]
  · intro p n hp
    obtain ⟨k, hk, rfl, hx⟩ := orderly_prefix hp
    interval_cases k <;> simp [orderlyTrace] at hx <;> simp [orderlyTrace, life]

end Verif.WaitGroup
