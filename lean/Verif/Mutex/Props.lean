import Verif.Mutex.ProofsWake
/-!
# Properties of `koios::mutex` (C01, C02, C03)
-/

namespace Verif.Mutex

/-- **C01.** In every execution, for any number of tasks and any interleaving, even with
spurious "empty" answers of the waiter queue (`weak`), a lock is granted only when every
earlier grant has been released. -/
theorem mutex_mutual_exclusion (weak : Bool) (s : St) (tr : List Ev)
    (h : (machine weak).Reaches s tr) : MutualExclusion tr :=
  (inv_of_reaches h).mutex

/-- A contended run: 1 holds, 2 and 3 queue up, the lock passes 1 → 3 → 2. -/
def contended : List Lbl :=
  [.acquire 1, .acquire 2, .suspend 2, .acquire 3, .tryAcquire 4, .suspend 3,
   .unlock 1, .retake 1, .dequeue 1 3, .wake 1, .resume 3,
   .unlock 3, .retake 3, .dequeue 3 2, .wake 3, .resume 2]

/-- The trace of `contended`. -/
def contendedTrace : List Ev :=
  [.asked 1, .granted 1, .asked 2, .slept 2, .asked 3, .tryAsked 4, .refused 4, .slept 3,
   .released 1, .woken 3, .returned 1, .granted 3,
   .released 3, .woken 2, .returned 3, .granted 2]

/-- Non-vacuity: the contended run exists. -/
example : ∃ s, (machine false).Reaches s contendedTrace :=
  ⟨_, contended, rfl⟩

/-- The specification is not trivially true. -/
example : ¬ MutualExclusion [.granted 1, .granted 2] := by
  intro h
  exact h [.granted 1] 2 (List.prefix_refl _) 1 ⟨[], [], rfl, by simp⟩

/-- **C03.** In every execution every task's events follow the life cycle of `lifeStep`:
each `acquire` is answered by at most one grant, a suspended task is woken at most once per
suspension and only then granted, `try_acquire` answers at once. -/
theorem mutex_life_cycle (weak : Bool) (s : St) (tr : List Ev)
    (h : (machine weak).Reaches s tr) : WellBehaved tr := by
  intro t
  rw [(inv_of_reaches h).life t]
  simp

/-- **C03**, hand-over: a task is woken only when no grant is open and no other task is
being resumed as owner, so a woken task is the next owner. -/
theorem mutex_woken_is_next_owner (weak : Bool) (s : St) (tr : List Ev)
    (h : (machine weak).Reaches s tr) (t : Nat) (ht : life t tr = some .wakened) :
    ∀ u, u ≠ t → life u tr ≠ some .holding ∧ life u tr ≠ some .wakened := by
  have hi := inv_of_reaches h
  intro u hut
  rw [hi.life] at ht ⊢
  have ht' : s.pc t = .woken := by
    cases hp : s.pc t <;> simp [hp, Pc.life] at ht <;> rfl
  constructor <;> intro hu <;> apply hut
  all_goals
    apply hi.uniq u t _ (by simp [ht', Pc.owns])
    cases hp : s.pc u <;> simp [hp, Pc.life] at hu <;> rfl

example : ∃ s tr, (machine false).Reaches s tr ∧ life 3 tr = some .wakened :=
  ⟨_, _, ⟨contended.take 10, rfl⟩, rfl⟩

/-- **C02, refuted.**  The code loses wake-ups: task 2 fails `await_ready` while 1 holds,
1 releases and finds nobody queued, then 2 enqueues itself.  Everything is quiet, the
mutex is free, 2 sleeps, and nothing but a fresh `acquire`/`try_acquire` call by another
task can ever happen. -/
theorem mutex_lost_wakeup_refuted :
    ∃ s tr, (machine false).Reaches s tr ∧ ¬ NoLostWakeup tr ∧
      life 2 tr = some .asleep ∧
      ∀ l s' e, (machine false).step s l = some (s', e) →
        ∃ t, t ≠ 2 ∧ (l = .acquire t ∨ l = .tryAcquire t) := by
  refine ⟨_, _, ⟨[.acquire 1, .acquire 2, .unlock 1, .retake 1, .dequeueNone 1, .clear 1,
    .suspend 2], rfl⟩, ?_, rfl, ?_⟩
  · intro h
    refine h ?_ 2 rfl
    intro t
    by_cases h1 : t = 1
    · subst h1; exact Or.inl rfl
    · by_cases h2 : t = 2
      · subst h2; exact Or.inr rfl
      · left
        simp [life, lifeStep, Ne.symm h1, Ne.symm h2]
  · intro l s' e hst
    have hpc : ∀ t, (upd (upd (upd (upd (upd (upd (upd (fun _ => Pc.idle) 1 .holding)
      2 .missed) 1 .rel1) 1 .rel2) 1 .rel3) 1 .idle) 2 .queued) t
        = if t = 2 then Pc.queued else Pc.idle := by
      intro t
      simp only [upd_apply]
      grind
    cases l with
    | acquire t =>
      simp only [machine, step, init] at hst
      rw [hpc] at hst
      by_cases h2 : t = 2
      · simp [h2] at hst
      · exact ⟨t, h2, Or.inl rfl⟩
    | tryAcquire t =>
      simp only [machine, step, init] at hst
      rw [hpc] at hst
      by_cases h2 : t = 2
      · simp [h2] at hst
      · exact ⟨t, h2, Or.inr rfl⟩
    | suspend t => simp only [machine, step, init] at hst; rw [hpc] at hst; grind
    | resume t => simp only [machine, step, init] at hst; rw [hpc] at hst; grind
    | unlock t => simp only [machine, step, init] at hst; rw [hpc] at hst; grind
    | retake t => simp only [machine, step, init] at hst; rw [hpc] at hst; grind
    | dequeue t w => simp only [machine, step, init] at hst; rw [hpc] at hst; grind
    | dequeueNone t => simp only [machine, step, init] at hst; rw [hpc] at hst; grind
    | wake t => simp only [machine, step, init] at hst; rw [hpc] at hst; grind
    | clear t => simp only [machine, step, init] at hst; rw [hpc] at hst; grind

/-- **C02, partial.**  Missing for the full property: executions in which a task goes to
sleep at a moment when nobody holds the lock (the window between a failed `await_ready`
and the enqueue).  In all others no wake-up is ever lost (linearizable waiter queue). -/
theorem mutex_no_lost_wakeup_partial (s : St) (tr : List Ev)
    (h : (machine false).Reaches s tr) (hh : SleepsOnlyWhileHeld tr) : NoLostWakeup tr := by
  intro hquiet t hasleep
  have hi := inv_of_reaches h
  have hc := covered_of_reaches h hh
  have hpc : ∀ u, s.pc u = .idle ∨ s.pc u = .queued := by
    intro u
    have := hquiet u
    rw [hi.life u] at this
    cases hp : s.pc u <;> simp [hp, Pc.life] at this ⊢
  have htq : s.pc t = .queued := by
    rw [hi.life t] at hasleep
    cases hp : s.pc t <;> simp [hp, Pc.life] at hasleep <;> rfl
  rcases hi.whereQ t htq with hq | ⟨v, hv⟩
  · obtain ⟨_, u, hu⟩ := hc (by rintro h; simp [h] at hq)
    rcases hpc u with h | h <;> simp [h, Pc.willLook] at hu
  · rcases hpc v with h | h <;> simp [h] at hv

/-- **C02, partial (single worker thread).**  If calls on the mutex do not overlap in
time, no wake-up is lost. -/
theorem mutex_no_lost_wakeup_single_worker_partial (s : St) (tr : List Ev)
    (h : (machine false).Reaches s tr) (hh : CallsDoNotOverlap tr) : NoLostWakeup tr :=
  mutex_no_lost_wakeup_partial s tr h (missed_sees_owner h hh).1

/-- A run with contention that meets the hypothesis of the partial theorems and ends quiet. -/
def orderly : List Lbl :=
  [.acquire 1, .acquire 2, .suspend 2,
   .unlock 1, .retake 1, .dequeue 1 2, .wake 1, .resume 2,
   .unlock 2, .retake 2, .dequeueNone 2, .clear 2]

example : ∃ s tr, (machine false).Reaches s tr ∧ SleepsOnlyWhileHeld tr ∧ Ev.slept 2 ∈ tr := by
  refine ⟨_, _, ⟨orderly, rfl⟩, ?_, by decide⟩
  intro p t hp
  refine ⟨1, Or.inl ?_⟩
  have : p = [.asked 1, .granted 1, .asked 2] := by
    obtain ⟨q, hq⟩ := hp
    rcases p with _ | ⟨a, _ | ⟨b, _ | ⟨c, _ | ⟨d, p⟩⟩⟩⟩ <;> simp at hq
    · simp [hq]
    · obtain ⟨_, _, _, _, hq⟩ := hq
      exfalso
      have : Ev.slept t ∈ p ++ Ev.slept t :: q := by simp
      rw [hq] at this
      simp at this
  subst this
  rfl

instance (l : Option Life) : Decidable (inCall l) := by unfold inCall; infer_instance

/-- The task an event is about. -/
def Ev.who : Ev → Nat
  | .asked t | .tryAsked t | .refused t | .granted t | .slept t | .woken t | .released t
  | .returned t => t

theorem life_of_absent (t : Nat) : ∀ (tr : List Ev), (∀ e ∈ tr, e.who ≠ t) → ∀ l,
    tr.foldl (fun l e => l.bind (lifeStep t · e)) (some l) = some l
  | [], _, _ => rfl
  | e :: tr, h, l => by
    have h1 : lifeStep t l e = some l := by
      have := h e (by simp)
      cases e <;> simp [Ev.who] at this <;> simp [lifeStep, this]
    simp only [List.foldl_cons, Option.bind_some, h1]
    exact life_of_absent t tr (fun e he => h e (by simp [he])) l

/-- Non-vacuity of the single-worker theorem: a contended run without overlapping calls. -/
example : ∃ s tr, (machine false).Reaches s tr ∧ CallsDoNotOverlap tr ∧ Ev.slept 2 ∈ tr := by
  refine ⟨_, _, ⟨orderly, rfl⟩, ?_, by decide⟩
  intro p hp t u ht hu
  have hpt := hp
  rw [List.prefix_iff_eq_take] at hp
  have key : ∀ v, inCall (life v p) → v = 1 ∨ v = 2 := by
    intro v hv
    by_cases h : v = 1 ∨ v = 2
    · exact h
    · exfalso
      have : life v p = some .out := by
        apply life_of_absent
        intro e he
        have hm := hpt.subset he
        intro hw
        subst hw
        apply h
        simp only [List.nil_append, List.cons_append, List.mem_cons, List.not_mem_nil, or_false] at hm
        rcases hm with rfl|rfl|rfl|rfl|rfl|rfl|rfl|rfl|rfl|rfl <;> simp [Ev.who]
      rw [this] at hv
      revert hv; decide
  have hlen : p.length < 11 := Nat.lt_succ_of_le hpt.length_le
  generalize p.length = n at hp hlen
  have chk : ∀ n, n < 11 → ∀ t ∈ [1, 2], ∀ u ∈ [1, 2],
      inCall (life t (([.asked 1, .granted 1, .asked 2, .slept 2, .released 1, .woken 2, .returned 1,
        .granted 2, .released 2, .returned 2] : List Ev).take n)) →
      inCall (life u (([.asked 1, .granted 1, .asked 2, .slept 2, .released 1, .woken 2, .returned 1,
        .granted 2, .released 2, .returned 2] : List Ev).take n)) → t = u := by decide
  refine chk n hlen t (by simpa using key t ht) u (by simpa using key u hu) ?_ ?_
  · rw [hp] at ht; exact ht
  · rw [hp] at hu; exact hu

end Verif.Mutex
