import Verif.WaitGroup.LiveSpec
import Verif.WaitGroup.Zero
import Mathlib.Data.List.Perm.Subperm
/-!
# C104: every `wait()` is answered in the end
-/

namespace Verif.WaitGroup

/-- who did it, for each kind of event -/
def askedBy : Ev → Option Nat | .asked t => some t | _ => none
def sleptBy : Ev → Option Nat | .slept t => some t | _ => none
def wokenBy : Ev → Option Nat | .woken t => some t | _ => none
def calledBy : Ev → Option Nat | .doneCalled t _ => some t | _ => none
def returnedBy : Ev → Option Nat | .doneReturned t => some t | _ => none

def num (f : Ev → Option Nat) (t : Nat) (tr : List Ev) : Nat := tr.countP (fun e => f e == some t)

theorem num_cons (f : Ev → Option Nat) (t : Nat) (x : Ev) (tr : List Ev) : num f t (x :: tr) = num f t tr + if f x = some t then 1 else 0 := by
  simp [num, List.countP_cons]

theorem num_total {f g : Ev → Option Nat} {tr : List Ev} (h : ∀ t, num f t tr ≤ num g t tr) :
    (tr.filterMap f).length ≤ (tr.filterMap g).length := by
  have hc : ∀ (k : Ev → Option Nat) t, (tr.filterMap k).count t = num k t tr := by
    intro k t
    rw [List.count_eq_countP, List.countP_filterMap, num]
    congr 1
    funext e
    cases k e <;> simp
  refine (List.subperm_ext_iff.2 ?_).length_le
  intro t _
  rw [hc, hc]
  exact h t

/-- What a legal life says about the numbers of events. -/
theorem nums_of_life (t : Nat) : ∀ (tr : List Ev) (l l' : Life), tr.foldl (fun l e => l.bind (lifeStep t · e)) (some l) = some l' →
    num askedBy t tr + (if l = .asking then 1 else 0) ≥ num sleptBy t tr ∧
    num sleptBy t tr + (if l = .asleep then 1 else 0) = num wokenBy t tr + (if l' = .asleep then 1 else 0) ∧
    num calledBy t tr + (if l = .inDone then 1 else 0) = num returnedBy t tr + (if l' = .inDone then 1 else 0) ∧
    tr.countP (isAsked t) + (if l = .asking ∨ l = .asleep then 1 else 0) = tr.countP (isAnswer t) + (if l' = .asking ∨ l' = .asleep then 1 else 0) := by
  intro tr
  induction tr with
  | nil =>
    intro l l' h
    simp only [List.foldl_nil, Option.some.injEq] at h
    subst h
    simp [num]
  | cons x tr ih =>
    intro l l' h
    simp only [List.foldl_cons, Option.bind_some] at h
    cases hx : lifeStep t l x with
    | none =>
      rw [hx] at h
      have hn : ∀ tr : List Ev, tr.foldl (fun l e => l.bind (lifeStep t · e)) none = none := by
        intro tr; induction tr <;> simp_all
      rw [hn] at h; simp at h
    | some l1 =>
      rw [hx] at h
      obtain ⟨h1, h2, h3, h4⟩ := ih l1 l' h
      clear ih h
      simp only [num_cons, List.countP_cons]
      generalize num askedBy t tr = a1, num sleptBy t tr = a2, num wokenBy t tr = a3, num calledBy t tr = a4, num returnedBy t tr = a5 at *
      generalize tr.countP (isAsked t) = a6, tr.countP (isAnswer t) = a7 at *
      cases x <;> simp only [lifeStep] at hx <;>
        simp only [askedBy, sleptBy, wokenBy, calledBy, returnedBy, isAsked, isAnswer, beq_iff_eq, Option.some.injEq, reduceCtorEq, Bool.false_eq_true, if_false] <;> grind

def Lbl.isDequeue : Lbl → Bool
  | .dequeue _ _ => true
  | _ => false

/-- the steps, counted by what they leave in the trace -/
theorem steps_run {ls : List Lbl} : ∀ {s0 s : St} {tr : List Ev}, machine.runFrom s0 ls = some (s, tr) →
    ls.countP Lbl.isDequeue + s.queue.length = s0.queue.length + (tr.filterMap sleptBy).length ∧
    ls.length ≤ ls.countP Lbl.isDequeue + tr.countP isAdd + tr.countP isDoneCall + (tr.filterMap returnedBy).length +
      tr.countP isWaitCall + (tr.filterMap sleptBy).length + (tr.filterMap wokenBy).length := by
  induction ls with
  | nil =>
    intro s0 s tr h
    simp only [Machine.runFrom, Option.some.injEq, Prod.mk.injEq] at h
    obtain ⟨rfl, rfl⟩ := h
    simp
  | cons l ls ih =>
    intro s0 s tr h
    simp only [Machine.runFrom] at h
    split at h
    · simp at h
    · rename_i s1 e hs
      split at h
      · simp at h
      · rename_i s2 es h2
        simp only [Option.some.injEq, Prod.mk.injEq] at h
        obtain ⟨rfl, rfl⟩ := h
        obtain ⟨h3, h4⟩ := ih h2
        simp only [List.countP_append, List.filterMap_append, List.length_append, List.countP_cons, List.length_cons]
        change step s0 l = some (s1, e) at hs
        cases l <;> simp only [step] at hs <;> (repeat' split at hs) <;> simp only [Option.some.injEq, Prod.mk.injEq, reduceCtorEq] at hs <;>
          obtain ⟨rfl, rfl⟩ := hs <;>
          simp only [List.countP_cons, List.countP_nil, List.filterMap_cons, List.filterMap_nil, List.length_cons, List.length_nil, List.length_append,
            Lbl.isDequeue, isAdd, isDoneCall, isWaitCall, returnedBy, sleptBy, wokenBy, Bool.false_eq_true, if_true, if_false] at h3 h4 ⊢
        all_goals first
          | (constructor <;> omega)
          | (rename_i hc
             have := List.length_erase_of_mem hc.2
             have := List.length_pos_of_mem hc.2
             constructor <;> omega)

/-- **C104.**  Nobody waits actively: in every interleaving, an execution with `a` calls of add(), `d` calls of done() and `w` calls of wait() has at most `a + 2 d + 4 w` steps (atomic operations,
queue operations, wake-ups). -/
theorem wait_group_terminates (ls : List Lbl) (s : St) (tr : List Ev) (h : machine.run ls = some (s, tr)) :
    ls.length ≤ tr.countP isAdd + 2 * tr.countP isDoneCall + 4 * tr.countP isWaitCall := by
  have hr : machine.Reaches s tr := ⟨ls, h⟩
  have hl := (inv_of_reaches hr).life
  have hn := fun t => nums_of_life t tr .out _ (hl t)
  obtain ⟨h1, h2⟩ := steps_run (s0 := machine.init) h
  have h3 : (tr.filterMap returnedBy).length ≤ (tr.filterMap calledBy).length := num_total fun t => by have := (hn t).2.2.1; simp only [reduceCtorEq, if_false] at this; omega
  have h4 : (tr.filterMap sleptBy).length ≤ (tr.filterMap askedBy).length := num_total fun t => by have := (hn t).1; simp only [reduceCtorEq, if_false] at this; omega
  have h5 : (tr.filterMap wokenBy).length ≤ (tr.filterMap sleptBy).length := num_total fun t => by have := (hn t).2.1; simp only [reduceCtorEq, if_false] at this; omega
  have h6 : (tr.filterMap calledBy).length = tr.countP isDoneCall := by
    rw [List.length_filterMap_eq_countP]
    congr 1; funext e; cases e <;> rfl
  have h7 : (tr.filterMap askedBy).length = tr.countP isWaitCall := by
    rw [List.length_filterMap_eq_countP]
    congr 1; funext e; cases e <;> rfl
  have h8 : machine.init.queue.length = 0 := rfl
  omega

/-- a new call, rather than a step of what is going on -/
def Lbl.isCall : Lbl → Bool
  | .add _ | .done _ _ | .wait _ => true
  | _ => false

/-- **C104.**  As long as a call is in progress, something happens. -/
theorem wait_group_progress (s : St) (tr : List Ev) (h : machine.Reaches s tr) (hq : ¬ Quiet tr) :
    ∃ l s' e, l.isCall = false ∧ machine.step s l = some (s', e) := by
  have hi := inv_of_reaches h
  simp only [Quiet, Classical.not_forall, not_or] at hq
  obtain ⟨t, h1, h2⟩ := hq
  rw [hi.life t] at h1 h2
  cases hp : s.pc t <;> simp [hp, Pc.life] at h1 h2
  · exact ⟨.suspend t, _, _, rfl, by simp [machine, step, hp]; exact ⟨rfl, rfl⟩⟩
  · cases hqu : s.queue with
    | nil => exact ⟨.drained t, _, _, rfl, by simp [machine, step, hp, hqu]; exact ⟨rfl, rfl⟩⟩
    | cons u q => exact ⟨.dequeue t u, _, _, rfl, by simp [machine, step, hp, hqu]; exact ⟨rfl, rfl⟩⟩
  · exact ⟨.wake t, _, _, rfl, by simp [machine, step, hp]; exact ⟨rfl, rfl⟩⟩

/-- **C104.**  When nothing can happen any more except new calls, the count is zero, done() was used with its default argument and no task registered when the count was zero already, every wait()
has been answered and every done() has returned. -/
theorem wait_group_all_served_partial (s : St) (tr : List Ev) (h : machine.Reaches s tr) (hu : UnitDones tr) (hp : SleepsOnlyWhilePositive tr) (hz : count tr = 0)
    (hend : ∀ l s' e, machine.step s l = some (s', e) → l.isCall = true) : AllServed tr := by
  have hq : Quiet tr := by
    apply Classical.byContradiction
    intro hq
    obtain ⟨l, s', e, h1, h2⟩ := wait_group_progress s tr h hq
    have := hend l s' e h2
    simp [h1] at this
  have hn := wait_group_no_lost_wakeup_partial s tr h hu hp hq hz
  intro t
  have hl : life t tr = some .out := (hq t).resolve_right (hn t)
  refine ⟨?_, hl⟩
  have := (nums_of_life t tr .out .out hl).2.2.2
  simpa using this

/-- a split of `tr ++ e` after a `doneCalled` lies in `tr` or in `e` -/
theorem called_split {tr e p q : List Ev} {t n : Nat} (h : tr ++ e = p ++ .doneCalled t n :: q) :
    (∃ q', tr = p ++ .doneCalled t n :: q' ∧ q = q' ++ e) ∨ (∃ p', p = tr ++ p' ∧ e = p' ++ .doneCalled t n :: q) := by
  rw [List.append_eq_append_iff] at h
  rcases h with ⟨a, h1, h2⟩ | ⟨a, h1, h2⟩
  · exact Or.inr ⟨a, h1, h2⟩
  · cases a with
    | nil => exact Or.inr ⟨[], by simpa using h1.symm, by simpa using h2.symm⟩
    | cons y a =>
      simp only [List.cons_append, List.cons.injEq] at h2
      obtain ⟨rfl, h2⟩ := h2
      exact Or.inl ⟨a, h1, h2⟩

theorem inDone_of_split {p q : List Ev} {t n : Nat} (hl : life t (p ++ .doneCalled t n :: q) ≠ none) (hq : .doneReturned t ∉ q) :
    life t (p ++ .doneCalled t n :: q) = some .inDone := by
  induction q using List.reverseRecOn with
  | nil =>
    rw [life_append] at hl ⊢
    simp only [List.foldl_cons, List.foldl_nil] at hl ⊢
    cases h : life t p <;> simp only [h, Option.bind_none, Option.bind_some, lifeStep, ne_eq, not_true_eq_false, if_false] at hl ⊢
    grind
  | append_singleton q x ih =>
    have hx : p ++ .doneCalled t n :: (q ++ [x]) = (p ++ .doneCalled t n :: q) ++ [x] := by simp
    rw [hx, life_append] at hl ⊢
    simp only [List.foldl_cons, List.foldl_nil] at hl ⊢
    have h1 : life t (p ++ .doneCalled t n :: q) ≠ none := by
      intro h; rw [h] at hl; simp at hl
    rw [ih h1 (by intro hm; exact hq (List.mem_append_left _ hm))] at hl ⊢
    simp only [List.mem_append, List.mem_cons, List.not_mem_nil, or_false] at hq
    cases x <;> simp only [Option.bind_some, lifeStep] at hl ⊢ <;> grind

def pending (s : St) (u : Nat) : Nat := if s.pc u = .missed ∨ s.pc u = .queued then 1 else 0

/-- at every moment of a `done()`: the woken and the pending ones were waiting when it was called -/
def Waits (s : St) (tr : List Ev) : Prop :=
  ∀ p q t n, tr = p ++ .doneCalled t n :: q → .doneReturned t ∉ q → ∀ u,
    q.countP (isWoken u) + pending s u ≤ if life u p = some .asking ∨ life u p = some .asleep then 1 else 0

theorem waits_step {s s' : St} {tr e : List Ev} {l : Lbl} (hi : Inv s tr) (hz : ∀ t, (s.pc t).isWaking = true → count tr = 0) (hw : Waits s tr)
    (hs : step s l = some (s', e)) : Waits s' (tr ++ e) := by
  intro p q t n heq hq u
  rcases called_split heq with ⟨q', h1, rfl⟩ | ⟨p', rfl, h2⟩
  · have hq1 : .doneReturned t ∉ q' := fun hm => hq (List.mem_append_left _ hm)
    have hq2 : .doneReturned t ∉ e := fun hm => hq (List.mem_append_right _ hm)
    have h2 := hw p q' t n h1 hq1 u
    have h3 : life t tr = some .inDone := by
      rw [h1]
      refine inDone_of_split ?_ hq1
      rw [← h1, hi.life t]; simp
    have h4 : (s.pc t).isWaking = true := by
      rw [hi.life t] at h3
      cases hp : s.pc t <;> simp [hp, Pc.life] at h3 <;> rfl
    have h5 : s.cnt = 0 := by have := hi.cnt; rw [hz t h4] at this; omega
    rw [List.countP_append]
    have hwk := hi.waker
    clear hz hw h1 hq heq h3 h4
    generalize (if life u p = some .asking ∨ life u p = some .asleep then 1 else 0) = R at *
    cases l <;> simp only [step] at hs <;> (repeat' split at hs) <;> simp only [Option.some.injEq, Prod.mk.injEq, reduceCtorEq] at hs <;>
      obtain ⟨rfl, rfl⟩ := hs <;>
      simp only [List.countP_cons, List.countP_nil, isWoken, beq_iff_eq, Bool.false_eq_true, if_false, pending, upd_apply] at h2 ⊢ <;> grind
  · have h3 : q = [] := by
      cases l <;> simp only [step] at hs <;> (repeat' split at hs) <;> simp only [Option.some.injEq, Prod.mk.injEq, reduceCtorEq] at hs <;>
        obtain ⟨rfl, rfl⟩ := hs <;> rcases p' with _ | ⟨a, _ | ⟨b, p'⟩⟩ <;> simp at h2 <;> grind
    subst h3
    have h4 : p' = [] ∧ ∀ v, v ≠ t → s'.pc v = s.pc v := by
      cases l <;> simp only [step] at hs <;> (repeat' split at hs) <;> simp only [Option.some.injEq, Prod.mk.injEq, reduceCtorEq] at hs <;>
        obtain ⟨rfl, rfl⟩ := hs <;> rcases p' with _ | ⟨a, _ | ⟨b, p'⟩⟩ <;> simp at h2 <;> grind [upd_apply]
    have h5 : s'.pc t ≠ .missed ∧ s'.pc t ≠ .queued := by
      cases l <;> simp only [step] at hs <;> (repeat' split at hs) <;> simp only [Option.some.injEq, Prod.mk.injEq, reduceCtorEq] at hs <;>
        obtain ⟨rfl, rfl⟩ := hs <;> rcases p' with _ | ⟨a, _ | ⟨b, p'⟩⟩ <;> simp at h2 <;> grind [upd_apply]
    obtain ⟨rfl, h4⟩ := h4
    simp only [List.append_nil, List.countP_nil, Nat.zero_add, pending]
    by_cases hut : u = t
    · subst hut; simp [h5.1, h5.2]
    · rw [h4 u hut, hi.life u]
      cases hp : s.pc u <;> simp [Pc.life]

/-- **C104.**  If nothing is added while a done() is in progress, done() does work only for those who were waiting when it was called: its loop ends after at most one round for each of them. -/
theorem wait_group_done_bounded_partial (s : St) (tr : List Ev) (h : machine.Reaches s tr) (hu : UnitDones tr) (hp : NoAddDuringDone tr) : DoneWakesTheWaiters tr := by
  suffices hh : UnitDones tr → NoAddDuringDone tr → Waits s tr ∧ DoneWakesTheWaiters tr from (hh hu hp).2
  clear hu hp
  refine h.inv' (fun s tr => UnitDones tr → NoAddDuringDone tr → Waits s tr ∧ DoneWakesTheWaiters tr) ?_ ?_
  · intro _ _
    constructor
    · intro p q t n h1; simp at h1
    · intro p q t n h1; simp at h1
  · intro s tr l s' e hr ih hs hu hp
    have hu0 := hu.mono (List.prefix_append tr e)
    have hp0 := hp.mono (List.prefix_append tr e)
    obtain ⟨ih1, ih2⟩ := ih hu0 hp0
    have hw := waits_step (inv_of_reaches hr) (waking_zero hr hu0 hp0).1 ih1 hs
    refine ⟨hw, ?_⟩
    intro p q t n hpre hq u
    by_cases hin : p ++ .doneCalled t n :: q <+: tr
    · exact ih2 p q t n hin hq u
    · obtain ⟨r, hr'⟩ := hpre
      have heq : tr ++ e = p ++ .doneCalled t n :: (q ++ r) := by rw [← hr']; simp
      by_cases hm : .doneReturned t ∈ r
      · -- the rest of this step holds the return: nobody is woken by it
        have hnw : (.doneReturned t ∈ e) → e.countP (isWoken u) = 0 := by
          intro hme
          change step s l = some (s', e) at hs
          cases l <;> simp only [step] at hs <;> (repeat' split at hs) <;> simp only [Option.some.injEq, Prod.mk.injEq, reduceCtorEq] at hs <;>
            obtain ⟨rfl, rfl⟩ := hs <;> simp [isWoken] at hme ⊢
        rcases called_split heq with ⟨q', h1, h2⟩ | ⟨p', h1, h2⟩
        · rw [List.append_eq_append_iff] at h2
          rcases h2 with ⟨a, h3, h4⟩ | ⟨a, h3, h4⟩
          · exfalso
            apply hin
            rw [h1, h3]
            exact ⟨a, by simp⟩
          · have h5 := hnw (h4 ▸ List.mem_append_right _ hm)
            rw [h4, List.countP_append] at h5
            have h6 := ih2 p q' t n (h1 ▸ List.prefix_rfl) (fun h => hq (h3 ▸ List.mem_append_left _ h)) u
            rw [h3, List.countP_append]
            omega
        · have h5 := hnw (h2 ▸ by simp [hm])
          rw [h2] at h5
          simp only [List.countP_append, List.countP_cons] at h5
          omega
      · have := hw p (q ++ r) t n heq (by simp [hq, hm]) u
        rw [List.countP_append] at this
        omega

/-- `done(1)` of 2 is in its loop, the count is 1 again -/
def Late (s : St) : Prop := s.cnt = 1 ∧ s.queue = [] ∧ s.pc 2 = .waking ∧ s.pc 3 = .idle

def late : List Lbl := [.wait 3, .suspend 3, .dequeue 2 3, .wake 2]

def lateTrace : List Ev := [.asked 3, .slept 3, .woken 3]

theorem late_step {s : St} (h : Late s) : ∃ s', machine.runFrom s late = some (s', lateTrace) ∧ Late s' := by
  obtain ⟨h1, h2, h3, h4⟩ := h
  refine ⟨_, by simp [late, Machine.runFrom, machine, step, upd_apply, h1, h2, h3, h4]; exact ⟨rfl, rfl⟩, ?_⟩
  simp [Late, upd_apply, h1]

theorem late_run (k : Nat) : ∀ s, Late s → ∃ ls s', machine.runFrom s ls = some (s', (List.replicate k lateTrace).flatten) ∧ Late s' := by
  induction k with
  | zero => intro s h; exact ⟨[], s, rfl, h⟩
  | succ k ih =>
    intro s h
    obtain ⟨s1, h1, h2⟩ := late_step h
    obtain ⟨ls, s2, h3, h4⟩ := ih s1 h2
    refine ⟨late ++ ls, s2, ?_, h4⟩
    rw [Machine.runFrom_append, h1]
    simp [h3, List.replicate_succ]

/-- **C104, what fails.**  One add() after the count has reached zero, and a task that calls wait() again and again keeps done() in its loop for ever: for every `k` there is an execution in which a
done() that is still in progress has served `k` calls of wait() that were made after it (each let through although the count is not zero). -/
theorem wait_group_done_unbounded_refuted (k : Nat) : ∃ s tr, machine.Reaches s (.added 1 :: .doneCalled 2 1 :: .added 1 :: tr) ∧
    life 2 (.added 1 :: .doneCalled 2 1 :: .added 1 :: tr) = some .inDone ∧ tr.countP (isAsked 3) = k ∧ tr.countP (isWoken 3) = k := by
  obtain ⟨ls, s', h1, h2⟩ := late_run k { cnt := 1, queue := [], pc := upd (fun _ => .idle) 2 .waking } (by simp [Late, upd_apply])
  have hr : machine.Reaches s' (.added 1 :: .doneCalled 2 1 :: .added 1 :: (List.replicate k lateTrace).flatten) := by
    refine ⟨[.add 1, .done 2 1, .add 1] ++ ls, ?_⟩
    have h0 : machine.runFrom init [.add 1, .done 2 1, .add 1] =
      some ({ cnt := 1, queue := [], pc := upd (fun _ => .idle) 2 .waking }, [.added 1, .doneCalled 2 1, .added 1]) := rfl
    change machine.runFrom init _ = _
    rw [Machine.runFrom_append, h0]
    simp [h1]
  have hc : ∀ (f : Ev → Bool) k, (List.replicate k lateTrace).flatten.countP f = k * lateTrace.countP f := by
    intro f k
    induction k with
    | zero => simp
    | succ k ih => rw [List.replicate_succ, List.flatten_cons, List.countP_append, ih, Nat.add_mul]; omega
  refine ⟨s', _, hr, ?_, ?_, ?_⟩
  · rw [(inv_of_reaches hr).life 2, h2.2.2.1]; rfl
  · rw [hc]; simp [lateTrace, isAsked]
  · rw [hc]; simp [lateTrace, isWoken]

/-- An execution with two waiters that meets the hypotheses and ends: everybody is served. -/
theorem live_nontrivial : ∃ s, machine.Reaches s orderlyTrace ∧ UnitDones orderlyTrace ∧ SleepsOnlyWhilePositive orderlyTrace ∧ NoAddDuringDone orderlyTrace ∧
    count orderlyTrace = 0 ∧ Ev.slept 2 ∈ orderlyTrace ∧ ∀ l s' e, machine.step s l = some (s', e) → l.isCall = true := by
  refine ⟨_, ⟨orderly, rfl⟩, orderly_hyps.1, orderly_hyps.2.1, orderly_hyps.2.2, rfl, by decide, ?_⟩
  intro l s' e hs
  cases l <;> simp only [machine, step, init, upd_apply, Lbl.isCall] at hs ⊢ <;> grind

end Verif.WaitGroup
