import Verif.Common.Machine
import Verif.Common.Trace
/-!
# `std_queue_wrapper` (include/koios/std_queue_wrapper.h 20-67), property C21

Every member function is one critical section of `m_lock`, so a history of concurrent calls
is a list of atomic operations.  (The move constructor, 55-58, hands the whole content over
without a lock; it is used only before the pool starts and is not modelled.)
-/

namespace Verif.StdQueue

/-- API events; tasks are numbers. -/
inductive Ev where
  | enqueued (x : Nat)
  | dequeued (x : Option Nat)
  | sized (n : Nat)
  | wasEmpty (b : Bool)
  deriving DecidableEq, Repr

inductive Lbl where
  | enqueue (x : Nat)   -- (28-32)
  | dequeue             -- (34-41)
  | empty               -- (43-47)
  | size                -- (49-53)
  deriving DecidableEq, Repr

/-- `m_q` (61), front first. -/
def step (q : List Nat) : Lbl → Option (List Nat × List Ev)
  | .enqueue x => some (q ++ [x], [.enqueued x])
  | .dequeue =>
    match q with
    | [] => some ([], [.dequeued none])
    | x :: q => some (q, [.dequeued (some x)])
  | .empty => some (q, [.wasEmpty q.isEmpty])
  | .size => some (q, [.sized q.length])

def machine : Machine (List Nat) Lbl Ev := { init := [], step := step }

/-! ## Specification: what was put in, what came out, in order -/

def ins (tr : List Ev) : List Nat := tr.filterMap fun | .enqueued x => some x | _ => none
def outs (tr : List Ev) : List Nat := tr.filterMap fun | .dequeued x => x | _ => none

/-- FIFO: the sequence taken out is a prefix of the sequence put in, an empty answer is given
only if everything was taken out, and size/empty report the difference. -/
def FifoSpec (tr : List Ev) : Prop :=
  outs tr <+: ins tr ∧
  (∀ p, p ++ [.dequeued none] <+: tr → outs p = ins p) ∧
  (∀ p n, p ++ [.sized n] <+: tr → (outs p).length + n = (ins p).length) ∧
  (∀ p b, p ++ [.wasEmpty b] <+: tr → (b = true ↔ outs p = ins p))

/-! ## Proof -/

theorem main (q : List Nat) (tr : List Ev) (h : machine.Reaches q tr) : ins tr = outs tr ++ q := by
  refine h.inv (fun q tr => ins tr = outs tr ++ q) (by rfl) ?_
  intro s tr l s' e ih hs
  change step s l = some (s', e) at hs
  cases l with
  | enqueue x =>
    simp only [step, Option.some.injEq, Prod.mk.injEq] at hs
    obtain ⟨rfl, rfl⟩ := hs
    simp only [ins, outs, List.filterMap_append] at ih ⊢
    simp [ih]
  | dequeue =>
    cases s with
    | nil =>
      simp only [step, Option.some.injEq, Prod.mk.injEq] at hs
      obtain ⟨rfl, rfl⟩ := hs
      simp only [ins, outs, List.filterMap_append] at ih ⊢
      simp [ih]
    | cons x q =>
      simp only [step, Option.some.injEq, Prod.mk.injEq] at hs
      obtain ⟨rfl, rfl⟩ := hs
      simp only [ins, outs, List.filterMap_append] at ih ⊢
      simp [ih]
  | empty =>
    simp only [step, Option.some.injEq, Prod.mk.injEq] at hs
    obtain ⟨rfl, rfl⟩ := hs
    simp only [ins, outs, List.filterMap_append] at ih ⊢
    simp [ih]
  | size =>
    simp only [step, Option.some.injEq, Prod.mk.injEq] at hs
    obtain ⟨rfl, rfl⟩ := hs
    simp only [ins, outs, List.filterMap_append] at ih ⊢
    simp [ih]

theorem step_single (q : List Nat) (l : Lbl) : ∃ q' x, step q l = some (q', [x]) := by
  cases l with
  | dequeue => cases q <;> exact ⟨_, _, rfl⟩
  | _ => exact ⟨_, _, rfl⟩

/-- Every one-event prefix of a trace is reached with some state that answers with that event. -/
theorem at_prefix {q : List Nat} {tr : List Ev} (h : machine.Reaches q tr) :
    ∀ p x, p ++ [x] <+: tr → ∃ q0 l q1, machine.Reaches q0 p ∧ step q0 l = some (q1, [x]) := by
  obtain ⟨ls, hl⟩ := h
  induction ls using List.reverseRecOn generalizing q tr with
  | nil =>
    intro p x hp
    simp [Machine.run, Machine.runFrom] at hl
    obtain ⟨_, rfl⟩ := hl
    have := hp.length_le
    simp at this
  | append_singleton ls l ih =>
    obtain ⟨s1, t1, t2, h1, h2, rfl⟩ := Machine.run_prefix_state hl
    obtain ⟨q', y, hy⟩ := step_single s1 l
    have hr : machine.runFrom s1 [l] = some (q', [y]) := by
      have hy' : machine.step s1 l = some (q', [y]) := hy
      simp [Machine.runFrom, hy']
    rw [hr] at h2
    simp only [Option.some.injEq, Prod.mk.injEq] at h2
    obtain ⟨_, rfl⟩ := h2
    intro p x hp
    rw [concat_prefix_concat_iff] at hp
    rcases hp with hp | ⟨rfl, rfl⟩
    · exact ih h1 p x hp
    · exact ⟨s1, l, q', ⟨ls, h1⟩, hy⟩

/-! ## Property -/

/-- **C21.**  `std_queue_wrapper` is a linearizable FIFO queue. -/
theorem std_queue_fifo (q : List Nat) (tr : List Ev) (h : machine.Reaches q tr) : FifoSpec tr := by
  refine ⟨⟨q, (main q tr h).symm⟩, ?_, ?_, ?_⟩
  · intro p hp
    obtain ⟨q0, l, q1, h0, hst⟩ := at_prefix h p _ hp
    have := main q0 p h0
    cases l with
    | dequeue => cases q0 with
      | nil => simpa using this.symm
      | cons x q => simp [step] at hst
    | _ => simp [step] at hst
  · intro p n hp
    obtain ⟨q0, l, q1, h0, hst⟩ := at_prefix h p _ hp
    have := main q0 p h0
    cases l with
    | dequeue => cases q0 <;> simp [step] at hst
    | size =>
      simp [step] at hst
      rw [this, List.length_append, hst.2]
    | _ => simp [step] at hst
  · intro p b hp
    obtain ⟨q0, l, q1, h0, hst⟩ := at_prefix h p _ hp
    have := main q0 p h0
    cases l with
    | dequeue => cases q0 <;> simp [step] at hst
    | empty =>
      simp [step] at hst
      rw [this, ← hst.2]
      cases q0 <;> simp
    | _ => simp [step] at hst

example : (machine.run [.enqueue 5, .enqueue 6, .size, .dequeue, .enqueue 7, .dequeue, .dequeue,
    .dequeue, .empty]).map (·.2) = some [.enqueued 5, .enqueued 6, .sized 2, .dequeued (some 5),
      .enqueued 7, .dequeued (some 6), .dequeued (some 7), .dequeued none, .wasEmpty true] := rfl

end Verif.StdQueue
