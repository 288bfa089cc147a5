import Verif.Common.Machine
import Verif.OpBatch.Spec
/-!
# Model of `op_batch` / `op_batch_rep` / `ioret_for_any_base` and of the linked entries of io_uring

The first part is the library: include/koios/iouring_op_batch_rep.h, src/iouring_op_batch_rep.cc, src/iouring_op_batch.cc,
src/iouring_op_batch_execute_aw.cc, src/iouring_ioret.cc, include/koios/iouring_single_op_aw.h.
The second part is the kernel, an assumption taken from io_uring_enter(2) and io_uring_prep_link_timeout(3).
-/

namespace Verif.OpBatch

/-- An io_uring_sqe; `link` is IOSQE_IO_LINK, `ud` the user_data. -/
structure Sqe where
  kind : Kind
  link : Bool
  ud : Nat
  deriving DecidableEq, Repr

/-- ioret_for_any_base (iouring_ioret.h 23-37): `ret` and `m_errno` -/
structure Ret where
  ret : Int
  err : Int
  deriving DecidableEq, Repr

/-- op_batch_rep -/
structure Rep where
  sqes : List Sqe
  rets : List Ret
  tmo : Bool                 -- m_was_timeout_set
  deriving DecidableEq, Repr

/-- iouring_op_batch_rep.h 29-34 -/
def fresh : Rep := ⟨[], [], false⟩

/-- get_sqe (iouring_op_batch_rep.cc 12-17) followed by writing `x` through the returned pointer.
`none`: `prev(end())` of an empty vector is undefined behaviour. -/
def getSqe (b : Rep) (x : Sqe) : Option Rep :=
  if b.tmo = false then some { b with sqes := b.sqes ++ [x] }
  else if b.sqes = [] then none
  else some { b with sqes := b.sqes.dropLast ++ [x] ++ b.sqes.drop (b.sqes.length - 1) }

/-- every prep_* of iouring_op_batch.cc 34-355: `get_sqe(); io_uring_prep_…; flags |= IOSQE_IO_LINK`
(io_uring_prep_… sets flags and user_data to 0) -/
def prep (b : Rep) (op : Nat) : Option Rep := getSqe b ⟨.op op, true, 0⟩

/-- op_batch::timeout (iouring_op_batch.cc 357-388; duration overload iouring_op_batch.h 313-318).
The address of the time stamp is replaced by its value: m_peripheral is a std::list and keeps the object in place. -/
def timeout (b : Rep) : Option Nat → Option Rep
  | none => some b
  | some tp =>
    if b.tmo then
      if b.sqes = [] then none
      else some { b with sqes := b.sqes.dropLast ++ [⟨.timeout tp, false, 0⟩], tmo := true }
    else (getSqe b ⟨.timeout tp, false, 0⟩).map fun b' => { b' with tmo := true }

/-- op_batch::clear (iouring_op_batch.h 320, iouring_op_batch_rep.h 65); `none`: the assertion fails -/
def clear (b : Rep) : Option Rep := if b.rets = [] then none else some { b with sqes := [] }

def call (b : Rep) : Call → Option Rep
  | .prep op => prep b op
  | .timeout tp => timeout b tp

/-- a sequence of calls on a fresh batch -/
def build (cs : List Call) : Option Rep := cs.foldlM call fresh

/-- execute() asserts a non-empty batch (iouring_op_batch.cc 18); await_suspend (iouring_op_batch_execute_aw.cc 14-27) sets the
user data of all entries and removes the link flag of the last one.  The entries are then copied to the ring in order
(iouring.cc 112-116). -/
def submit (b : Rep) (addr : Nat) : Option (List Sqe) :=
  if b.sqes = [] then none
  else
    let s := b.sqes.map fun x => { x with ud := addr }
    some (s.dropLast ++ (s.drop (s.length - 1)).map fun x => { x with link := false })

/-- ioret_for_any_base(ioret) (iouring_ioret.cc 12-21); `stale` is the value of the thread's errno at that moment -/
def mkRet (stale ret : Int) : Ret :=
  if ret < 0 then (if ret = -1 ∧ stale ≠ 0 then ⟨ret, stale⟩ else ⟨ret, -ret⟩) else ⟨ret, 0⟩

/-- error_code().value() (iouring_ioret.cc 23-29); 0 is success -/
def errorCode (r : Ret) : Int := if 0 ≤ r.ret then 0 else r.err

/-- nbytes_delivered (iouring_ioret.cc 31-36) -/
def nbytesDelivered (r : Ret) : Int := if 0 ≤ r.ret then r.ret else 0

/-- add_ret (iouring_op_batch_rep.h 62) -/
def addRet (b : Rep) (stale ret : Int) : Rep := { b with rets := b.rets ++ [mkRet stale ret] }

/-- all_success (iouring_op_batch.cc 390-398) of a batch with results -/
def allSuccess (b : Rep) : Bool :=
  (b.rets.take (b.rets.length - (if b.tmo then 1 else 0))).all (errorCode · == 0)

/-- is_timeout (iouring_op_batch.cc 400-408); `none`: back() of an empty vector -/
def isTimeout (b : Rep) : Option Bool :=
  if b.tmo = false then some false else b.rets.getLast?.map fun r => errorCode r != ECANCELED

/-- timeout_req_ec (iouring_op_batch.cc 410-414) -/
def timeoutReqEc (b : Rep) : Option Int :=
  if b.tmo = false then some 0 else b.rets.getLast?.map errorCode

/-- await_resume of every single-operation awaiter (iouring_single_op_aw.h 32-35): the first result -/
def singleResult (b : Rep) : Option Ret := b.rets.head?

/-! ### The kernel

One submission is a list of entries.  An entry is started when its predecessor does not link to it or has finished successfully.
If the predecessor failed, it is cancelled.  A time-out entry is armed as soon as the entry before it is running; when it expires it
asks for the cancellation of that entry, which may come too late.  The two results are reported in any order.  When the entry
before it finishes first, the time-out is cancelled. -/

inductive Phase where
  | waiting | running | canceling | armed | fired
  | done (ok : Bool)               -- ok: the link to the next entry is not severed
  deriving DecidableEq, Repr

def Phase.isDone : Phase → Bool
  | .done _ => true
  | _ => false

structure KSt where
  ph : Nat → Phase
  now : Nat

inductive KLbl where
  | start (i : Nat)
  | arm (i : Nat)
  | fire (i : Nat)
  | report (i : Nat) (late : Bool)          -- a time-out that has fired reports -ETIME (or -EALREADY)
  | cancelled (i : Nat)                     -- an operation whose cancellation was requested is cancelled
  | sever (i : Nat)                         -- cancelled because of its predecessor
  | finish (i : Nat) (res : Int) (short : Bool)   -- outside world: operation i finishes; `short`: a short transfer
  | tick                                    -- outside world: time passes
  deriving DecidableEq, Repr

/-- the steps the kernel takes on its own -/
def KLbl.own : KLbl → Bool
  | .finish _ _ _ => false
  | .tick => false
  | _ => true

def isTimeoutEntry (x : Sqe) : Bool := match x.kind with | .timeout _ => true | .op _ => false

/-- the entry before `i` links to `i` -/
def linkedTo (sq : List Sqe) (i : Nat) : Bool :=
  match i with
  | 0 => false
  | j + 1 => match sq[j]? with | some y => y.link | none => false

def kstep (sq : List Sqe) (s : KSt) : KLbl → Option (KSt × List KEv)
  | .start i =>
    match sq[i]? with
    | none => none
    | some x =>
      if isTimeoutEntry x = false ∧ s.ph i = .waiting ∧ (linkedTo sq i = false ∨ s.ph (i - 1) = .done true) then
        some ({ s with ph := upd s.ph i .running }, [.began i])
      else none
  | .arm i =>
    match sq[i]? with
    | none => none
    | some x =>
      if isTimeoutEntry x = true ∧ s.ph i = .waiting ∧ linkedTo sq i = true ∧ s.ph (i - 1) = .running then
        some ({ s with ph := upd s.ph i .armed }, [])
      else none
  | .fire i =>
    match sq[i]? with
    | some ⟨.timeout tp, _, _⟩ =>
      if s.ph i = .armed ∧ tp ≤ s.now ∧ s.ph (i - 1) = .running then
        some ({ s with ph := upd (upd s.ph (i - 1) .canceling) i .fired }, [])
      else none
    | _ => none
  | .report i late =>
    if s.ph i = .fired then
      some ({ s with ph := upd s.ph i (.done false) }, [.cqe i (if late then -114 else -ETIME)])
    else none
  | .cancelled i =>
    if s.ph i = .canceling then some ({ s with ph := upd s.ph i (.done false) }, [.cqe i (-ECANCELED)]) else none
  | .sever i =>
    match sq[i]? with
    | none => none
    | some x =>
      if (isTimeoutEntry x = false ∧ s.ph i = .waiting ∧ linkedTo sq i = true ∧ s.ph (i - 1) = .done false) ∨
         (isTimeoutEntry x = true ∧ (s.ph i = .waiting ∨ s.ph i = .armed) ∧
            (linkedTo sq i = false ∨ (s.ph (i - 1)).isDone = true)) then
        some ({ s with ph := upd s.ph i (.done false) }, [.cqe i (-ECANCELED)])
      else none
  | .finish i res short =>
    if s.ph i = .running ∨ s.ph i = .canceling then
      some ({ s with ph := upd s.ph i (.done (decide (0 ≤ res) && !short)) }, [.cqe i res])
    else none
  | .tick => some ({ s with now := s.now + 1 }, [])

def chain (sq : List Sqe) : Machine KSt KLbl KEv := { init := ⟨fun _ => .waiting, 0⟩, step := kstep sq }

/-- The kernel has nothing left to do on its own: it waits for the outside world. -/
def Settled (sq : List Sqe) (s : KSt) : Prop := ∀ l : KLbl, l.own = true → kstep sq s l = none

end Verif.OpBatch
