import Verif.TcpMove.Spec
import Verif.Common.Machine
/-!
# Model of moving a tcp_server (src/tcp_server.cc 44-52, include/koios/tcp_server.h 56-98)

The members that matter: the listening socket, the stop state (std::stop_source shares it with the tokens; a moved-from one has none), the wait group.  An accept loop is a coroutine that holds
`this` and a token.

Simplified: what `TcpServer` models in detail (the time-outs, errors and hand-over of an accept, callers that wait) is left out: an accept on a socket yields a connection or nothing,
until_done returns when the wait group is at zero (is_stop(), await_ready or woken).  start() is called once for a server and not on a moved-from object; it is one action for each loop.
-/

namespace Verif.TcpMove

structure Obj where
  alive : Bool
  sock : Bool          -- m_sockfd is the listening socket, not -1
  src : Option Nat     -- m_stop_src: its stop state
  count : Nat          -- m_wait_stop
  deriving DecidableEq, Repr

inductive Pc where
  | queued             -- run(*attr) has enqueued it
  | testing            -- before flag.stop_requested() (76)
  | ready
  | accepting (good : Bool)   -- good: m_sockfd was a socket when the accept was submitted
  | leaving
  | gone
  deriving DecidableEq, Repr

structure Loop where
  this : Nat
  tok : Option Nat
  pc : Pc
  deriving DecidableEq, Repr

structure St where
  no : Nat
  obj : Nat → Obj
  nl : Nat
  loop : Nat → Loop
  stopped : Nat → Bool
  nextc : Nat
  ub : Bool

inductive Lbl where
  | create
  | move (a : Nat)
  | launch (o : Nat)
  | begin (i : Nat)
  | test (i : Nat)
  | submit (i : Nat)
  | complete (i : Nat) (conn : Bool)
  | leave (i : Nat)
  | stop (o : Nat)
  | isStop (o : Nat)
  | untilDone (o : Nat)
  | destroy (o : Nat)
  deriving DecidableEq, Repr

/-- The object that the action of an accept loop uses: `this->m_sockfd`, the wait group that its guard refers to.  (Users use objects that exist, see the guards below.) -/
def Lbl.uses (s : St) : Lbl → Option Nat
  | .begin i => some (s.loop i).this
  | .submit i => some (s.loop i).this
  | .leave i => some (s.loop i).this
  | _ => none

/-- stop_source::stop_requested() -/
def requested (s : St) : Option Nat → Bool
  | some k => s.stopped k
  | none => false

def setPc (s : St) (i : Nat) (pc : Pc) : St := { s with loop := upd s.loop i { s.loop i with pc := pc } }

def stepLive (s : St) : Lbl → Option (St × List Ev)
  -- the constructor (37-42); stop state `no` is made by m_stop_src's
  | .create => some ({ s with no := s.no + 1, obj := upd s.obj s.no ⟨true, false, some s.no, 0⟩ }, [.created s.no])
  -- the move constructor (44-52): socket and stop source are moved; m_wait_stop is not mentioned, so it is a new one
  | .move a =>
    if a < s.no ∧ (s.obj a).alive = true then
      some ({ s with no := s.no + 1, obj := upd (upd s.obj a { s.obj a with sock := false, src := none }) s.no ⟨true, (s.obj a).sock, (s.obj a).src, 0⟩ }, [.moved a s.no])
    else none
  -- start (56-66): the socket; this->tcp_loop(m_stop_src.get_token(), callback).run(*attr)
  | .launch o =>
    if o < s.no ∧ (s.obj o).alive = true ∧ (s.obj o).src ≠ none then
      some ({ s with obj := upd s.obj o { s.obj o with sock := true }, nl := s.nl + 1, loop := upd s.loop s.nl ⟨o, (s.obj o).src, .queued⟩ }, [.launched o s.nl])
    else none
  -- wg_handler (75)
  | .begin i =>
    if i < s.nl ∧ (s.loop i).pc = .queued then
      some ({ setPc s i .testing with obj := upd s.obj (s.loop i).this { s.obj (s.loop i).this with count := (s.obj (s.loop i).this).count + 1 } }, [.began i])
    else none
  | .test i =>
    if i < s.nl ∧ (s.loop i).pc = .testing then some (setPc s i (if requested s (s.loop i).tok then .leaving else .ready), []) else none
  -- uring::accept(m_sockfd, 50ms) (79)
  | .submit i => if i < s.nl ∧ (s.loop i).pc = .ready then some (setPc s i (.accepting (s.obj (s.loop i).this).sock), [.acceptBegan i]) else none
  | .complete i conn =>
    if i < s.nl then
      match (s.loop i).pc with
      | .accepting true => if conn then some ({ setPc s i .testing with nextc := s.nextc + 1 }, [.connected i s.nextc]) else some (setPc s i .testing, [])
      | .accepting false => some (setPc s i .testing, [.noSocket i])
      | _ => none
    else none
  | .leave i =>
    if i < s.nl ∧ (s.loop i).pc = .leaving then
      some ({ setPc s i .gone with obj := upd s.obj (s.loop i).this { s.obj (s.loop i).this with count := (s.obj (s.loop i).this).count - 1 } }, [.left i])
    else none
  -- stop (69-72)
  | .stop o =>
    if o < s.no ∧ (s.obj o).alive = true then
      match (s.obj o).src with
      | some k => some ({ s with stopped := upd s.stopped k true }, [.stopCalled o])
      | none => some (s, [.stopCalled o])
    else none
  -- is_stop (60-67)
  | .isStop o => if o < s.no ∧ (s.obj o).alive = true then some (s, [.isStop o (requested s (s.obj o).src && (s.obj o).count == 0)]) else none
  -- until_done (53-58, 74-79)
  | .untilDone o => if o < s.no ∧ (s.obj o).alive = true ∧ (s.obj o).count = 0 then some (s, [.untilReturned o]) else none
  | .destroy o => if o < s.no ∧ (s.obj o).alive = true then some ({ s with obj := upd s.obj o { s.obj o with alive := false } }, [.destroyed o]) else none

/-- Using a destroyed object is undefined behaviour. -/
def step (s : St) (l : Lbl) : Option (St × List Ev) :=
  if s.ub = true then none
  else
    match stepLive s l with
    | none => none
    | some p => if (l.uses s).any fun o => !(s.obj o).alive then some ({ s with ub := true }, [.undefined]) else some p

def init : St where
  no := 0
  obj := fun _ => ⟨true, false, none, 0⟩
  nl := 0
  loop := fun _ => ⟨0, none, .queued⟩
  stopped := fun _ => false
  nextc := 0
  ub := false

def machine : Machine St Lbl Ev := ⟨init, step⟩

end Verif.TcpMove
