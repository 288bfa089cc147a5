import Verif.Mutex.Model
import Verif.WaitGroup.Model
import Verif.EndToEnd.Spec
/-!
# The program of `Spec` on a runtime with `W` workers

A composition of the models of the parts: the mutex (`Verif.Mutex.step`, every atomic operation of include/koios/coroutine_mutex.h and src/coroutine_mutex.cc), the wait_group
(`Verif.WaitGroup.step`, include/koios/wait_group.h), and a scheduler whose workers take any ready task when they are idle and run it until it suspends or ends
(src/thread_pool.cc 72-114; the queues are one bag because of work stealing, see `Pool` and `WSQ`).  A task acts only while a worker runs it; a woken task is ready
(src/waiting_handle.cc 12-23).  Task 0 is main, task t ≥ 1 is job t, a lazy_task that `run()` hands to the scheduler (include/koios/task.h 124-150, 291).

Simplified: x is sequentially consistent (justified by C87, C88: the accesses of this program are ordered by happens-before); nobody stops the runtime; a suspension and
the return of the worker to its loop are one step; the waiter queues are linearizable.
-/

namespace Verif.EndToEnd

/-- Where a task is in the program text of `Spec`. -/
inductive Prog where
  | unborn
  | begun        -- job: created, up to having the lock
  | loaded       -- y = x has happened
  | stored       -- x = f(t, y) has happened
  | releasing    -- in unlock() or after it
  | signalling   -- in done() or after it
  | over
  | mBegin       -- main: before add(n)
  | mSpawning    -- before wait()
  | mWaiting     -- in co_await wg.wait()
  | mOver
  deriving DecidableEq, Repr

structure St (S : Type) where
  mx : Mutex.St
  wg : WaitGroup.St
  x : S
  loc : Nat → S                -- y of each job
  prog : Nat → Prog
  spawned : Nat                -- main has created jobs 1..spawned
  ready : List Nat
  on : Nat → Option Nat        -- the task a worker runs

inductive Lbl where
  | take (w t : Nat)                    -- an idle worker takes a ready task
  | lock (w : Nat) (l : Mutex.Lbl)
  | group (w t : Nat) (l : WaitGroup.Lbl)
  | load (w t : Nat)
  | store (w t : Nat)
  | finish (w t : Nat)
  | spawn (w : Nat)
  | read (w : Nat)
  deriving DecidableEq, Repr

/-- Which operations of the mutex the program makes where. -/
def mayLock (p : Prog) : Mutex.Lbl → Bool
  | .acquire _ | .suspend _ | .resume _ => decide (p = .begun)
  | .tryAcquire _ => false
  | .unlock _ => decide (p = .stored)
  | .retake _ | .dequeue _ _ | .dequeueNone _ | .wake _ | .clear _ => decide (p = .releasing)

def lockProg (p : Prog) : Mutex.Lbl → Prog
  | .unlock _ => .releasing
  | _ => p

/-- The worker is free again after a suspension. -/
def lockOn (on : Nat → Option Nat) (w : Nat) : Mutex.Lbl → Nat → Option Nat
  | .suspend _ => upd on w none
  | _ => on

def lockWoken : Mutex.Ev → Option Nat
  | .woken u => some u
  | _ => none

/-- Which operations of the wait_group task `t` makes where. -/
def mayGroup (n spawned t : Nat) (m : Mutex.Pc) (p : Prog) : WaitGroup.Lbl → Bool
  | .add k => decide (p = .mBegin ∧ k = n)
  | .wait u => decide (p = .mSpawning ∧ u = t ∧ spawned = n)
  | .suspend u => decide (p = .mWaiting ∧ u = t)
  | .done u k => decide (p = .releasing ∧ m = .idle ∧ u = t ∧ k = 1)
  | .dequeue u _ | .wake u | .drained u => decide (p = .signalling ∧ u = t)

def groupProg (p : Prog) : WaitGroup.Lbl → Prog
  | .add _ => .mSpawning
  | .wait _ => .mWaiting
  | .done _ _ => .signalling
  | _ => p

def groupOn (on : Nat → Option Nat) (w : Nat) : WaitGroup.Lbl → Nat → Option Nat
  | .suspend _ => upd on w none
  | _ => on

def groupWoken : WaitGroup.Ev → Option Nat
  | .woken u => some u
  | _ => none

def step {S : Type} (f : Nat → S → S) (n W : Nat) (s : St S) : Lbl → Option (St S × List (Ev S))
  | .take w t =>
    if w < W ∧ s.on w = none ∧ t ∈ s.ready then some ({ s with on := upd s.on w (some t), ready := s.ready.erase t }, []) else none
  | .lock w l =>
    if s.on w = some l.agent ∧ mayLock (s.prog l.agent) l = true then
      match Mutex.step false s.mx l with
      | some (mx', e) =>
        some ({ s with mx := mx', prog := upd s.prog l.agent (lockProg (s.prog l.agent) l), on := lockOn s.on w l, ready := s.ready ++ e.filterMap lockWoken }, e.map .lock)
      | none => none
    else none
  | .group w t l =>
    if s.on w = some t ∧ mayGroup n s.spawned t (s.mx.pc t) (s.prog t) l = true then
      match WaitGroup.step s.wg l with
      | some (wg', e) =>
        some ({ s with wg := wg', prog := upd s.prog t (groupProg (s.prog t) l), on := groupOn s.on w l, ready := s.ready ++ e.filterMap groupWoken }, e.map .group)
      | none => none
    else none
  | .load w t =>
    if s.on w = some t ∧ s.prog t = .begun ∧ s.mx.pc t = .holding then some ({ s with loc := upd s.loc t s.x, prog := upd s.prog t .loaded }, []) else none
  | .store w t =>
    if s.on w = some t ∧ s.prog t = .loaded then some ({ s with x := f t (s.loc t), prog := upd s.prog t .stored }, [.wrote t]) else none
  | .finish w t =>
    if s.on w = some t ∧ s.prog t = .signalling ∧ s.wg.pc t = .idle then some ({ s with on := upd s.on w none, prog := upd s.prog t .over }, []) else none
  | .spawn w =>
    if s.on w = some 0 ∧ s.prog 0 = .mSpawning ∧ s.spawned < n then
      some ({ s with spawned := s.spawned + 1, ready := s.ready ++ [s.spawned + 1], prog := upd s.prog (s.spawned + 1) .begun }, [])
    else none
  | .read w =>
    if s.on w = some 0 ∧ s.prog 0 = .mWaiting ∧ s.wg.pc 0 = .idle then some ({ s with on := upd s.on w none, prog := upd s.prog 0 .mOver }, [.total s.x]) else none

def init {S : Type} (x0 : S) : St S where
  mx := Mutex.init
  wg := WaitGroup.init
  x := x0
  loc := fun _ => x0
  prog := upd (fun _ => .unborn) 0 .mBegin
  spawned := 0
  ready := [0]
  on := fun _ => none

def machine {S : Type} (f : Nat → S → S) (x0 : S) (n W : Nat) : Machine (St S) Lbl (Ev S) := ⟨init x0, step f n W⟩

end Verif.EndToEnd
