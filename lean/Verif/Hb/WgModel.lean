import Verif.Hb.WgSpec
import Verif.Hb.MutexModel
/-!
# koios::wait_group under the C++ memory model (include/koios/wait_group.h 14-66)

Views as in `Verif.Hb.MutexModel`.  `m_count` has a history of messages (value, view), oldest first: its modification order.  A read-modify-write reads the last
message and appends one, which continues the release sequence; a load may read *any* message (more than C++'s coherence allows).

Usage: task 0 has made the first `add(k)`, k ≥ 1, before any other task knows the group.  A task owes the `done()`s it holds credits for; `add` is called by a task that
owes at least one; credits may be handed to a started task.  (Without this the count may reach 0 early: see `Verif.WaitGroup`.)
-/

namespace Verif.Hb.Wg

/-- The memory orders of the operations on m_count. -/
structure Orders where
  subAcq : Bool       -- fetch_sub in done() acquires (wait_group.h 22)
  subRel : Bool       -- ... releases (22)
  loadAcq : Bool      -- the load in ready() acquires (30)
  deriving DecidableEq, Repr

/-- memory_order_acq_rel (22), memory_order_acquire (30); add() is relaxed (17). -/
def code : Orders := ⟨true, true, true⟩

inductive Pc where
  | fresh             -- not started
  | run
  | missed            -- await_ready was false
  | queued            -- in m_waitings
  | ready             -- woken, in the scheduler's queue
  | back              -- wait() has returned
  | waking            -- in wake_up_all()
  deriving DecidableEq, Repr

structure St where
  pc : Nat → Pc
  owners : List Nat          -- one entry per done() owed
  hist : List (Nat × View)   -- the messages of m_count but the last
  last : Nat × View          -- the last one
  n : Nat                    -- results written so far
  view : Nat → View
  queue : List Nat
  queueV : Nat → View
  readyV : Nat → View

inductive Lbl where
  | spawn (t u c : Nat)      -- t starts u and hands c of its credits to it
  | add (t k : Nat)          -- add(k) (15-18)
  | write (t : Nat)
  | done (t : Nat)           -- done(): the fetch_sub (22)
  | wakeOne (t u : Nat)      -- wake_up_all: dequeues and wakes u (57-64)
  | wakeEnd (t : Nat)
  | check (u i : Nat)        -- wait(): await_ready reads the i-th message (28-31, 39-42)
  | checkLast (u : Nat)      -- ... the last message
  | suspend (u : Nat)        -- await_suspend (44-47)
  | resume (u : Nat)
  | read (u i : Nat)         -- a task whose wait() has returned reads result i
  deriving DecidableEq, Repr

/-- Removes c entries of t. -/
def take (t : Nat) : Nat → List Nat → List Nat
  | 0, l => l
  | c + 1, l => take t c (l.erase t)

/-- ready() with a message read (28-31), in await_ready (39-42). -/
def check (o : Orders) (s : St) (u : Nat) (m : Nat × View) : St × List Ev :=
  let v := if o.loadAcq = true then (s.view u).join m.2 else s.view u
  if m.1 = 0 then ({ s with pc := upd s.pc u .back, view := upd s.view u v }, [.returned u])
  else ({ s with pc := upd s.pc u .missed, view := upd s.view u v }, [])

def step (o : Orders) (s : St) : Lbl → Option (St × List Ev)
  | .spawn t u c =>
    if s.pc t = .run ∧ s.pc u = .fresh ∧ c ≤ s.owners.count t then
      some ({ s with
        pc := upd s.pc u .run
        owners := take t c s.owners ++ List.replicate c u
        view := upd s.view u ((s.view u).join (s.view t)) }, [])
    else none
  | .add t k =>
    if s.pc t = .run ∧ t ∈ s.owners then
      some ({ s with
        owners := s.owners ++ List.replicate k t
        hist := s.hist ++ [s.last]
        last := (s.last.1 + k, s.last.2) }, [])
    else none
  | .write t =>
    if s.pc t = .run ∧ t ∈ s.owners then
      some ({ s with n := s.n + 1, view := upd s.view t (fun i => s.view t i || i == s.n) }, [.wrote t s.n])
    else none
  | .done t =>
    if s.pc t = .run ∧ t ∈ s.owners then
      some ({ s with
        pc := if s.last.1 = 1 then upd s.pc t .waking else s.pc
        owners := s.owners.erase t
        hist := s.hist ++ [s.last]
        last := (s.last.1 - 1, if o.subRel = true then s.last.2.join (s.view t) else s.last.2)
        view := if o.subAcq = true then upd s.view t ((s.view t).join s.last.2) else s.view }, [])
    else none
  | .wakeOne t u =>
    if s.pc t = .waking ∧ u ∈ s.queue ∧ s.pc u = .queued then
      some ({ s with
        pc := upd s.pc u .ready
        queue := s.queue.erase u
        view := upd s.view t ((s.view t).join (s.queueV u))
        readyV := upd s.readyV u ((s.view t).join (s.queueV u)) }, [])
    else none
  | .wakeEnd t => if s.pc t = .waking then some ({ s with pc := upd s.pc t .run }, []) else none
  | .check u i =>
    if s.pc u = .run then
      match s.hist[i]? with
      | none => none
      | some m => some (check o s u m)
    else none
  | .checkLast u => if s.pc u = .run then some (check o s u s.last) else none
  | .suspend u =>
    if s.pc u = .missed then
      some ({ s with pc := upd s.pc u .queued, queue := s.queue ++ [u], queueV := upd s.queueV u (s.view u) }, [])
    else none
  | .resume u =>
    if s.pc u = .ready then
      some ({ s with pc := upd s.pc u .back, view := upd s.view u ((s.view u).join (s.readyV u)) }, [.returned u])
    else none
  | .read u i =>
    if s.pc u = .back ∧ i < s.n then some (s, [if s.view u i = true then .saw u i else .stale u i]) else none

/-- After the first add(k) by task 0. -/
def init (k : Nat) : St :=
  ⟨fun t => if t = 0 then .run else .fresh, List.replicate k 0, [], (k, View.empty), 0, fun _ => View.empty, [], fun _ => View.empty, fun _ => View.empty⟩

def machine (o : Orders) (k : Nat) : Machine St Lbl Ev := ⟨init k, step o⟩

end Verif.Hb.Wg
