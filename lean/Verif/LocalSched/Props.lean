import Verif.LocalSched.Model
import Verif.Common.AtEvent
import Mathlib.Data.List.Range
/-!
# C56
-/

namespace Verif.LocalSched

/-- loop frames and task frames alternate; the innermost loop's queue may hold the task of its own enqueue() call, nothing else is ever waiting -/
def Shape : List Frame → Prop
  | [] => True
  | .loop _ :: rest => (∀ t r, rest ≠ .loop t :: r) ∧ Shape rest
  | .task _ :: rest => (∃ t r, rest = .loop t :: r) ∧ Shape rest

def live (s : St) (t : Nat) : Nat := s.stack.countP fun | .task x => x == t | _ => false
def timesStarted (t : Nat) (tr : List Ev) : Nat := tr.count (.started t)
def timesStopped (t : Nat) (tr : List Ev) : Nat := tr.countP fun | .stopped x _ => x == t | _ => false
def timesReturned (t : Nat) (tr : List Ev) : Nat := tr.count (.returned t)
def loops (s : St) (t : Nat) : Nat := s.stack.countP fun | .loop x => x == t | _ => false

structure Inv (s : St) (tr : List Ev) : Prop where
  shape : Shape s.stack
  queue : s.queue = [] ∨ ∃ t r, s.stack = .loop t :: r ∧ s.queue = [t]
  enq : enqueuedTasks tr = List.range s.next
  fifo : enqueuedTasks tr = startedTasks tr ++ s.queue
  bal : ∀ t, timesStarted t tr = timesStopped t tr + live s t
  ret : ∀ t, (if t < s.next then 1 else 0) = timesReturned t tr + loops s t

theorem inv_step (s : St) (tr : List Ev) (l : Lbl) (s' : St) (e : List Ev) (h : Inv s tr) (hs : step s l = some (s', e)) : Inv s' (tr ++ e) := by
  obtain ⟨shape, queue, enq, fifo, bal, ret⟩ := h
  cases l with
  | enqueue =>
    simp only [step] at hs
    split at hs <;> simp only [Option.some.injEq, Prod.mk.injEq, reduceCtorEq] at hs
    rename_i hst
    obtain ⟨rfl, rfl⟩ := hs
    have hq : s.queue = [] := by
      rcases queue with h | ⟨t, r, h, -⟩
      · exact h
      · exact absurd h (hst t r)
    constructor <;> (try dsimp only)
    · exact ⟨hst, shape⟩
    · right; exact ⟨_, _, rfl, by simp [hq]⟩
    · simp [enqueuedTasks] at enq ⊢; rw [enq, List.range_succ]
    · simp [enqueuedTasks, startedTasks] at fifo ⊢; rw [fifo, List.append_assoc]
    · intro t; have := bal t; simp [timesStarted, timesStopped, live] at this ⊢; omega
    · intro t; have := ret t
      simp only [timesReturned, loops, List.count_append, List.countP_cons] at this ⊢
      simp at this ⊢
      grind
  | loop =>
    simp only [step] at hs
    split at hs <;> (try simp only [reduceCtorEq] at hs)
    rename_i t rest hst
    split at hs <;> simp only [Option.some.injEq, Prod.mk.injEq, reduceCtorEq] at hs <;> obtain ⟨rfl, rfl⟩ := hs
    · rename_i hq
      rw [hst] at shape
      constructor <;> (try dsimp only)
      · exact shape.2
      · exact Or.inl hq
      · simp [enqueuedTasks] at enq ⊢; rw [enq]
      · simp [enqueuedTasks, startedTasks] at fifo ⊢; rw [fifo]
      · intro a; have := bal a; simp [timesStarted, timesStopped, live, hst] at this ⊢; omega
      · intro a; have := ret a
        simp only [timesReturned, loops, hst, List.count_append, List.countP_cons] at this ⊢
        simp [List.count_singleton] at this ⊢
        grind
    · rename_i h q hq
      rcases queue with hq' | ⟨t', r', h1, h2⟩
      · simp [hq'] at hq
      rw [hst] at h1; cases h1
      rw [h2] at hq; cases hq
      constructor <;> (try dsimp only)
      · rw [hst] at shape ⊢; exact ⟨⟨_, _, rfl⟩, shape⟩
      · exact Or.inl rfl
      · simp [enqueuedTasks] at enq ⊢; rw [enq]
      · simp [enqueuedTasks, startedTasks] at fifo ⊢; rw [fifo, h2]
      · intro a; have := bal a
        simp only [timesStarted, timesStopped, live, List.count_append, List.countP_append, List.countP_cons] at this ⊢
        simp [List.count_singleton] at this ⊢
        grind
      · intro a; have := ret a; simp [timesReturned, loops] at this ⊢; omega
  | leave threw =>
    simp only [step] at hs
    split at hs <;> simp only [Option.some.injEq, Prod.mk.injEq, reduceCtorEq] at hs
    rename_i h rest hst
    obtain ⟨rfl, rfl⟩ := hs
    have hq : s.queue = [] := by
      rcases queue with h | ⟨t, r, h, -⟩
      · exact h
      · rw [hst] at h; cases h
    rw [hst] at shape
    constructor <;> (try dsimp only)
    · exact shape.2
    · exact Or.inl hq
    · simp [enqueuedTasks] at enq ⊢; rw [enq]
    · simp [enqueuedTasks, startedTasks] at fifo ⊢; rw [fifo]
    · intro a; have := bal a
      simp only [timesStarted, timesStopped, live, hst, List.count_append, List.countP_append, List.countP_cons] at this ⊢
      simp at this ⊢
      grind
    · intro a; have := ret a; simp [timesReturned, loops, hst] at this ⊢; omega

theorem reach_inv {s : St} {tr : List Ev} (h : machine.Reaches s tr) : Inv s tr :=
  Machine.Reaches.inv (M := machine) Inv
    ⟨trivial, Or.inl rfl, rfl, rfl, by simp [timesStarted, timesStopped, live, machine, init], by simp [timesReturned, loops, machine, init]⟩
    (fun s tr l s' e hi hs => inv_step s tr l s' e hi hs) h

theorem step_single (s : St) (l : Lbl) (s' : St) (e : List Ev) (hs : machine.step s l = some (s', e)) : e.length ≤ 1 := by
  simp only [machine] at hs
  cases l <;> simp only [step] at hs <;> (repeat' split at hs) <;>
    simp only [Option.some.injEq, Prod.mk.injEq, reduceCtorEq] at hs <;> obtain ⟨rfl, rfl⟩ := hs <;> simp

/-- **C56.**  Tasks start in the order in which they were enqueued, each at most once, whatever tasks enqueue while they run. -/
theorem local_fifo (s : St) (tr : List Ev) (h : machine.Reaches s tr) :
    startedTasks tr <+: enqueuedTasks tr ∧ (enqueuedTasks tr).Nodup := by
  have hi := reach_inv h
  exact ⟨⟨_, hi.fifo.symm⟩, by rw [hi.enq]; exact List.nodup_range⟩

/-- **C56.**  When the scheduler is left (no call is active), every enqueued task was started exactly once and is not running any more. -/
theorem local_all_done (s : St) (tr : List Ev) (h : machine.Reaches s tr) (hq : s.stack = []) :
    startedTasks tr = enqueuedTasks tr ∧ ∀ t, Ev.enqueued t ∈ tr → timesStopped t tr = 1 ∧ timesReturned t tr = 1 := by
  have hi := reach_inv h
  have he : s.queue = [] := by
    rcases hi.queue with h | ⟨t, r, h, -⟩
    · exact h
    · rw [hq] at h; cases h
  have hf := hi.fifo
  rw [he, List.append_nil] at hf
  refine ⟨hf.symm, fun t ht => ?_⟩
  have hm : t ∈ enqueuedTasks tr := by
    unfold enqueuedTasks; rw [List.mem_filterMap]; exact ⟨_, ht, rfl⟩
  have hlt : t < s.next := by rw [hi.enq] at hm; exact List.mem_range.1 hm
  have h1 := hi.bal t
  have h2 := hi.ret t
  simp only [live, loops, hq, List.countP_nil, if_pos hlt] at h1 h2
  refine ⟨?_, h2.symm⟩
  rw [Nat.add_zero] at h1
  rw [← h1]
  have hc : timesStarted t tr = (startedTasks tr).count t := by
    unfold timesStarted startedTasks
    clear * -
    induction tr with
    | nil => rfl
    | cons x xs ih =>
      cases x <;> simp [List.count_cons, ih]
  rw [hc, ← hf, hi.enq]
  rw [List.nodup_range.count, if_pos (List.mem_range.2 hlt)]

/-- **C56.**  enqueue() is synchronous: when the call returns, its task and every task enqueued before have been started and nothing waits. -/
theorem local_synchronous (s : St) (tr : List Ev) (h : machine.Reaches s tr) (p q : List Ev) (t : Nat) (hx : tr = p ++ .returned t :: q) :
    startedTasks p = enqueuedTasks p ∧ Ev.started t ∈ p := by
  obtain ⟨s1, l, s2, hr, hs⟩ := h.at_event_single step_single hx
  have hi := reach_inv hr
  simp only [machine] at hs
  cases l <;> simp only [step] at hs <;> (repeat' split at hs) <;>
    simp only [Option.some.injEq, Prod.mk.injEq, reduceCtorEq, List.cons.injEq, Ev.returned.injEq, and_true, and_false] at hs
  rename_i t' rest hst _ hq
  obtain ⟨-, rfl⟩ := hs
  have hf := hi.fifo
  rw [hq, List.append_nil] at hf
  refine ⟨hf.symm, ?_⟩
  have hret := hi.ret t'
  have hpos : 0 < loops s1 t' := by simp [loops, hst]
  have hlt : t' < s1.next := by
    by_contra hc; rw [if_neg hc] at hret; omega
  have : t' ∈ startedTasks p := by rw [← hf, hi.enq]; exact List.mem_range.2 hlt
  unfold startedTasks at this
  rw [List.mem_filterMap] at this
  obtain ⟨x, hx1, hx2⟩ := this
  cases x <;> simp at hx2
  subst hx2; exact hx1

/-- **C56.**  No call is stuck: while calls are active the innermost one can go on; in particular an exception never leaves enqueue(). -/
theorem local_progress (s : St) (tr : List Ev) (_ : machine.Reaches s tr) (hne : s.stack ≠ []) :
    ∃ l s' e, l ≠ .enqueue ∧ machine.step s l = some (s', e) := by
  cases hst : s.stack with
  | nil => exact absurd hst hne
  | cons f rest =>
    cases f with
    | task t => exact ⟨.leave true, _, _, by simp, by simp only [machine, step, hst]; rfl⟩
    | loop t =>
      cases hq : s.queue with
      | nil => exact ⟨.loop, _, _, by simp, by simp only [machine, step, hst, hq]; rfl⟩
      | cons a q => exact ⟨.loop, _, _, by simp, by simp only [machine, step, hst, hq]; rfl⟩

/-- a task that enqueues two others and throws -/
example : ∃ s, machine.Reaches s [.enqueued 0, .started 0, .enqueued 1, .started 1, .stopped 1 false, .returned 1, .enqueued 2, .started 2, .stopped 2 true, .returned 2,
    .stopped 0 true, .returned 0] ∧ s.stack = [] :=
  ⟨_, ⟨[.enqueue, .loop, .enqueue, .loop, .leave false, .loop, .enqueue, .loop, .leave true, .loop, .leave true, .loop], rfl⟩, rfl⟩

end Verif.LocalSched
