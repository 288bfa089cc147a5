import Verif.TcpServer.Spec
import Verif.Common.Machine
/-!
# Model of tcp_server (include/koios/tcp_server.h 29-106, src/tcp_server.cc 37-79)

`n` workers.  The wait group is modelled with the same granularity as in `WaitGroup` (wait_group.h), the accepts by their possible results.  Accept loops are lazy tasks: between
`launched` and `began` they wait in a worker's queue.

Simplified: the wait group's counter does not wrap (it is at most n); start() is called once (its documentation demands it); the callback's task is not followed after its start.
-/

namespace Verif.TcpServer

inductive SPc where
  | before
  | launching (k : Nat)    -- start(): in the loop over consumer_attrs() (61-65)
  | started
  | failed
  deriving DecidableEq, Repr

/-- an accept loop (69-98) -/
inductive LPc where
  | absent
  | queued                 -- run(*attr) has enqueued it
  | testing                -- before flag.stop_requested() (76)
  | ready                  -- the flag was not set
  | accepting              -- co_await uring::accept (79)
  | holding (c : Nat)      -- accret holds a connection (92)
  | leaving                -- the flag was set; before wg_handler's destructor
  | draining               -- wait_group::done: the counter has become 0, in wake_up_all (wait_group.h 56-63)
  | gone
  deriving DecidableEq, Repr

/-- a caller of is_stop() or until_done_async() -/
inductive CPc where
  | idle
  | isStop2                -- is_stop(): stop was requested, before m_wait_stop.ready()
  | until1                 -- until_done_async(): the same, inside its is_stop()
  | until2                 -- before m_wait_stop.wait()'s await_ready
  | missed                 -- await_ready answered false
  | queued                 -- suspended in m_waitings
  deriving DecidableEq, Repr

structure St where
  spc : SPc
  loop : Nat → LPc
  count : Nat              -- m_wait_stop.m_count
  queue : List Nat         -- m_wait_stop.m_waitings
  cpc : Nat → CPc
  stop : Bool              -- m_stop_src
  nextc : Nat
  alive : Bool
  ub : Bool

inductive AcceptRes where
  | client                 -- the accept's own completion, with a connection
  | overtaken              -- the time-out's completion came first although a connection was accepted
  | timeout                -- ETIME
  | error                  -- any other error
  deriving DecidableEq, Repr

inductive Lbl where
  | start (ok : Bool)
  | launch
  | begin (i : Nat)
  | test (i : Nat)
  | submit (i : Nat)
  | accepted (i : Nat) (r : AcceptRes)
  | callback (i : Nat)
  | leave (i : Nat)
  | wake (i u : Nat)
  | drained (i : Nat)
  | stop
  | isStop (u : Nat)
  | untilDone (u : Nat)
  | read (u : Nat)
  | enqueue (u : Nat)
  | destroy
  deriving DecidableEq, Repr

/-- does the label access the server object (its members)? -/
def touches : Lbl → Bool
  | .start _ | .launch | .begin _ | .submit _ | .leave _ | .wake _ _ | .drained _ | .stop | .isStop _ | .untilDone _ | .read _ | .enqueue _ => true
  | _ => false

def stepLive (n : Nat) (s : St) : Lbl → Option (St × List Ev)
  -- start (56-66): bind, listen
  | .start ok =>
    if s.spc = .before then
      if ok = true then some ({ s with spc := .launching 0 }, [.startCalled]) else some ({ s with spc := .failed }, [.startFailed])
    else none
  | .launch =>
    match s.spc with
    | .launching k =>
      if k < n then some ({ s with spc := .launching (k + 1), loop := upd s.loop k .queued }, [.launched k])
      else some ({ s with spc := .started }, [.startReturned])
    | _ => none
  -- wg_handler's constructor (75)
  | .begin i => if s.loop i = .queued then some ({ s with loop := upd s.loop i .testing, count := s.count + 1 }, [.began i]) else none
  | .test i =>
    if s.loop i = .testing then
      if s.stop = true then some ({ s with loop := upd s.loop i .leaving }, []) else some ({ s with loop := upd s.loop i .ready }, [])
    else none
  | .submit i => if s.loop i = .ready then some ({ s with loop := upd s.loop i .accepting }, [.acceptBegan i]) else none
  | .accepted i r =>
    if s.loop i = .accepting then
      match r with
      | .client => some ({ s with loop := upd s.loop i (.holding s.nextc), nextc := s.nextc + 1 }, [.connected s.nextc])
      | .overtaken => some ({ s with loop := upd s.loop i .testing, nextc := s.nextc + 1 }, [.overtaken s.nextc])
      | .timeout => some ({ s with loop := upd s.loop i .testing }, [])
      | .error => some ({ s with loop := upd s.loop i .testing }, [])
    else none
  -- make_lazy(userdefined, client).run() (93)
  | .callback i =>
    match s.loop i with
    | .holding c => some ({ s with loop := upd s.loop i .testing }, [.called c])
    | _ => none
  -- wg_handler's destructor: wait_group::done (wait_group.h 20-26)
  | .leave i =>
    if s.loop i = .leaving then
      if s.count = 1 then some ({ s with loop := upd s.loop i .draining, count := 0 }, [.left i])
      else some ({ s with loop := upd s.loop i .gone, count := s.count - 1 }, [.left i])
    else none
  | .wake i u =>
    if s.loop i = .draining ∧ u ∈ s.queue then
      some ({ s with queue := s.queue.erase u, cpc := upd s.cpc u .idle }, [.untilReturned u])
    else none
  | .drained i => if s.loop i = .draining ∧ s.queue = [] then some ({ s with loop := upd s.loop i .gone }, []) else none
  -- stop (tcp_server.cc 69-72)
  | .stop => some ({ s with stop := true }, [.stopCalled])
  -- is_stop (60-67): the flag first
  | .isStop u =>
    if s.cpc u = .idle then
      if s.stop = true then some ({ s with cpc := upd s.cpc u .isStop2 }, []) else some (s, [.isStop u false])
    else none
  -- until_done_async (74-79), until_done_blk (53-58)
  | .untilDone u =>
    if s.cpc u = .idle then
      if s.stop = true then some ({ s with cpc := upd s.cpc u .until1 }, [.untilCalled u]) else some ({ s with cpc := upd s.cpc u .until2 }, [.untilCalled u])
    else none
  -- wait_group::ready (wait_group.h 28-31)
  | .read u =>
    match s.cpc u with
    | .isStop2 => some ({ s with cpc := upd s.cpc u .idle }, [.isStop u (decide (s.count = 0))])
    | .until1 => if s.count = 0 then some ({ s with cpc := upd s.cpc u .idle }, [.untilReturned u]) else some ({ s with cpc := upd s.cpc u .until2 }, [])
    | .until2 => if s.count = 0 then some ({ s with cpc := upd s.cpc u .idle }, [.untilReturned u]) else some ({ s with cpc := upd s.cpc u .missed }, [])
    | _ => none
  | .enqueue u => if s.cpc u = .missed then some ({ s with cpc := upd s.cpc u .queued, queue := s.queue ++ [u] }, []) else none
  | .destroy => some ({ s with alive := false }, [.destroyed])

/-- the destructor runs once; using the object afterwards is undefined, and nothing is known after that -/
def step (n : Nat) (s : St) (l : Lbl) : Option (St × List Ev) :=
  if s.ub = true then none
  else if s.alive = true then stepLive n s l
  else if l = .destroy then none
  else if touches l = true then (stepLive n s l).map fun r => ({ r.1 with ub := true }, [.undefined])
  else stepLive n s l

def init : St := ⟨.before, fun _ => .absent, 0, [], fun _ => .idle, false, 0, true, false⟩
def machine (n : Nat) : Machine St Lbl Ev := ⟨init, step n⟩

end Verif.TcpServer
