import Verif.Storage.Spec
/-!
# Model of the memory behind `op_batch` and the single-operation awaitables

include/koios/iouring_op_peripheral.h, src/iouring_op_peripheral.cc, include/koios/iouring_op_batch.h 50-63 and 348-352,
include/koios/iouring_op_batch_rep.h 29-36, include/koios/iouring_op_batch_execute_aw.h, src/iouring_op_batch_execute_aw.cc, include/koios/iouring_single_op_aw.h 16-40,
src/iouring_single_op_aw.cc, and the uses in src/iouring_op_batch.cc.

`disc`: the user keeps to the discipline: no move assignment of batches, no prep_*/timeout/execute on a moved-from batch, no execute() on an empty one, co_await only while the batch `execute()` was called on is there
and has not been moved from, a memory resource given to a batch outlives it.  Without `disc` everything the types allow is possible.

From the standard library: `std::list` keeps its nodes in place, gives its nodes away on move construction and on move assignment between equal allocators, and assigns element by element
between different ones; `polymorphic_allocator` does not propagate on assignment and compares resources; members are destroyed in reverse order of declaration.
Comparing, allocating or deallocating through a destroyed resource, giving memory back to another resource than it came from, and reading memory after it was given back are undefined behaviour.

Simplified: addresses and resource numbers are never reused; the storage of the two vectors of op_batch_rep is not followed (entries are copied to the ring, their own address is never handed out);
allocation does not fail; the default resource (number 0) is new_delete_resource; clear() is in `OpBatch` (C39).
-/

namespace Verif.Storage

/-- a piece of memory: the resource it came from, the argument copy living in it, whether it has not been given back -/
structure Blk where
  res : Nat
  val : Option Nat
  live : Bool
  deriving DecidableEq, Repr

structure Mem where
  nr : Nat               -- number of resources ever constructed
  alive : Nat → Bool
  user : Nat → Bool      -- constructed by the user (or by op_aw_base), not by op_batch
  nb : Nat               -- number of allocations so far
  blk : Nat → Blk

/-- memory_resource::allocate -/
def Mem.allocate (m : Mem) (r : Nat) : Option (Mem × Nat × List Ev) :=
  if m.alive r then some ({ m with nb := m.nb + 1, blk := upd m.blk m.nb ⟨r, none, true⟩ }, m.nb, [.alloc m.nb r]) else none

/-- placement new (iouring_op_peripheral.h 27) -/
def Mem.construct (m : Mem) (a v : Nat) : Mem × List Ev :=
  ({ m with blk := upd m.blk a { m.blk a with val := some v } }, [.made a v])

/-- the deleter (iouring_op_peripheral.h 28-33) -/
def Mem.destruct (m : Mem) (a : Nat) : Option (Mem × List Ev) :=
  if (m.blk a).live && m.alive (m.blk a).res && (m.blk a).val.isSome then some ({ m with blk := upd m.blk a { m.blk a with val := none } }, [.gone a]) else none

/-- memory_resource::deallocate -/
def Mem.deallocate (m : Mem) (r a : Nat) : Option (Mem × List Ev) :=
  if m.alive r && (m.blk a).live && (m.blk a).res == r then some ({ m with blk := upd m.blk a { m.blk a with live := false } }, [.free a r]) else none

/-- op_peripheral_element: m_alloc and m_buffer (iouring_op_peripheral.h 45-47) -/
structure Elem where
  alloc : Nat
  buf : Option Nat
  deriving DecidableEq, Repr

/-- a node of `m_objs` -/
structure Node where
  blk : Nat
  elem : Elem
  deriving DecidableEq, Repr

/-- delete_this (iouring_op_peripheral.cc 36-43) -/
def deleteThis (m : Mem) (e : Elem) : Option (Mem × List Ev) :=
  match e.buf with
  | none => some (m, [])
  | some a => m.destruct a

/-- ~op_peripheral_element (iouring_op_peripheral.cc 29-34); deallocate(nullptr, 0) still goes through the resource -/
def dropElem (m : Mem) (e : Elem) : Option (Mem × List Ev) :=
  match deleteThis m e with
  | none => none
  | some (m1, e1) =>
    match e.buf with
    | none => if m1.alive e.alloc then some (m1, e1) else none
    | some a =>
      match m1.deallocate e.alloc a with
      | none => none
      | some (m2, e2) => some (m2, e1 ++ e2)

/-- std::list removes a node: the element is destroyed, then the node given back -/
def dropNode (m : Mem) (la : Nat) (n : Node) : Option (Mem × List Ev) :=
  if (m.blk n.blk).live && m.alive (m.blk n.blk).res then
    match dropElem m n.elem with
    | none => none
    | some (m1, e1) =>
      match m1.deallocate la n.blk with
      | none => none
      | some (m2, e2) => some (m2, e1 ++ e2)
  else none

/-- clear() or the destructor of `m_objs` -/
def dropNodes (m : Mem) (la : Nat) : List Node → Option (Mem × List Ev)
  | [] => some (m, [])
  | n :: ns =>
    match dropNode m la n with
    | none => none
    | some (m1, e1) =>
      match dropNodes m1 la ns with
      | none => none
      | some (m2, e2) => some (m2, e1 ++ e2)

/-- op_peripheral::add (iouring_op_peripheral.h 62-71) with the constructor of the element (25-35): the node from the list's allocator, the buffer from `m_mr` -/
def add (m : Mem) (la mr v : Nat) : Option (Mem × Node × Nat × List Ev) :=
  match m.allocate la with
  | none => none
  | some (m1, nb, e1) =>
    match m1.allocate mr with
    | none => none
    | some (m2, a, e2) => some ((m2.construct a v).1, ⟨nb, ⟨mr, some a⟩⟩, a, e1 ++ e2 ++ (m2.construct a v).2)

/-- move constructor of the element (iouring_op_peripheral.cc 12-18): m_alloc is default-initialised; second component: what is left of the source -/
def Elem.moveCtor (e : Elem) : Elem × Elem := (⟨0, e.buf⟩, { e with buf := none })

/-- move assignment of the element (iouring_op_peripheral.cc 20-27); the old buffer is not given back -/
def Elem.moveAssign (m : Mem) (t e : Elem) : Option (Mem × Elem × Elem × List Ev) :=
  match deleteThis m t with
  | none => none
  | some (m1, ev) => some (m1, { t with buf := e.buf }, { e with buf := none }, ev)

/-- assignment of `m_objs` element by element (different resources): result, what is left of the source -/
def assignNodes (m : Mem) (la : Nat) : List Node → List Node → Option (Mem × List Node × List Node × List Ev)
  | ts, [] =>
    match dropNodes m la ts with
    | none => none
    | some (m1, ev) => some (m1, [], [], ev)
  | [], n :: ns =>
    if (m.blk n.blk).live && m.alive (m.blk n.blk).res then
      match m.allocate la with
      | none => none
      | some (m1, nb, e1) =>
        match assignNodes m1 la [] ns with
        | none => none
        | some (m2, ts, ss, e2) => some (m2, ⟨nb, n.elem.moveCtor.1⟩ :: ts, ⟨n.blk, n.elem.moveCtor.2⟩ :: ss, e1 ++ e2)
    else none
  | t :: ts, n :: ns =>
    if (m.blk n.blk).live && m.alive (m.blk n.blk).res && (m.blk t.blk).live && m.alive (m.blk t.blk).res then
      match Elem.moveAssign m t.elem n.elem with
      | none => none
      | some (m1, te, ne, e1) =>
        match assignNodes m1 la ts ns with
        | none => none
        | some (m2, ts', ss, e2) => some (m2, ⟨t.blk, te⟩ :: ts', ⟨n.blk, ne⟩ :: ss, e1 ++ e2)
    else none

/-- op_batch (iouring_op_batch.h 348-352) -/
structure Batch where
  own : Option Nat           -- m_mbr
  mr : Nat                   -- m_mr, m_rep.m_mr, m_peripheral.m_mr
  la : Nat                   -- the allocator of m_objs, m_sqes and m_rets
  nodes : List Node          -- m_peripheral.m_objs
  refs : List (Option Nat)   -- m_rep.m_sqes: the address each entry carries
  tmo : Bool                 -- m_rep.m_was_timeout_set
  stale : Bool               -- (ghost) moved from
  deriving DecidableEq, Repr

inductive Slot where
  | unborn
  | live (B : Batch)
  | dead

/-- op_batch_rep::get_sqe (iouring_op_batch_rep.cc 12-17) and filling the entry in; `none`: prev(end()) of an empty vector -/
def getSqe (B : Batch) (x : Option Nat) : Option Batch :=
  if B.tmo = false then some { B with refs := B.refs ++ [x] }
  else if B.refs = [] then none
  else some { B with refs := B.refs.dropLast ++ [x] ++ B.refs.drop (B.refs.length - 1) }

/-- the entry timeout() writes to: back() or get_sqe() (iouring_op_batch.cc 363-366) -/
def tmoSqe (B : Batch) (a : Nat) : Option Batch :=
  if B.tmo then
    if B.refs = [] then none else some { B with refs := B.refs.dropLast ++ [some a] }
  else some { B with refs := B.refs ++ [some a], tmo := true }

structure St where
  mem : Mem
  nbt : Nat
  bat : Nat → Slot
  aw : Nat → Option Nat      -- op_batch_execute_aw::m_rep: the batch whose rep it points to
  ub : Bool

inductive Label where
  | userRes                        -- the user (or op_aw_base) constructs a memory resource
  | dropRes (r : Nat)              -- … and destroys it
  | new (mr : Option Nat)          -- op_batch(mr)
  | prep (b : Nat) (v : Option Nat)
  | timeout (b v : Nat)
  | moveCtor (b : Nat)             -- op_batch(std::move(b)); with the member m_rep of the awaitable copied (copyAw) this is the move constructor of read_write_aw etc.
  | moveAssign (b c : Nat)         -- b = std::move(c)
  | destroy (b : Nat)
  | execute (b a : Nat)            -- the awaitable object `a` is made by b.execute(), or is the op_batch_execute_aw base of a single-operation awaitable (iouring_single_op_aw.cc 11-19)
  | copyAw (a a' : Nat)            -- the implicit copy/move of op_batch_execute_aw
  | suspend (a : Nat)              -- co_await on `a`

def usesRes (r : Nat) : Slot → Bool
  | .live B => B.la == r || B.mr == r
  | _ => false

/-- outer `none`: not possible; inner `none`: undefined behaviour (or a failed assertion) -/
def stepLive (disc : Bool) (s : St) : Label → Option (Option (St × List Ev))
  | .userRes =>
    some (some ({ s with mem := { s.mem with nr := s.mem.nr + 1, alive := upd s.mem.alive s.mem.nr true, user := upd s.mem.user s.mem.nr true } }, [.resMade s.mem.nr]))
  | .dropRes r =>
    if r = 0 ∨ s.mem.alive r = false ∨ s.mem.user r = false then none
    else if disc && (List.range s.nbt).any (fun b => usesRes r (s.bat b)) then none
    else some (some ({ s with mem := { s.mem with alive := upd s.mem.alive r false } }, [.resGone r]))
  -- iouring_op_batch.h 53-60
  | .new (some r) =>
    if s.mem.alive r && s.mem.user r then
      some (some ({ s with nbt := s.nbt + 1, bat := upd s.bat s.nbt (.live ⟨none, r, r, [], [], false, false⟩) }, [.born s.nbt]))
    else none
  | .new none =>
    some (some ({ s with mem := { s.mem with nr := s.mem.nr + 1, alive := upd s.mem.alive s.mem.nr true }, nbt := s.nbt + 1,
                         bat := upd s.bat s.nbt (.live ⟨some s.mem.nr, s.mem.nr, s.mem.nr, [], [], false, false⟩) }, [.resMade s.mem.nr, .born s.nbt]))
  -- prep_* (iouring_op_batch.cc 34-355)
  | .prep b v =>
    match s.bat b with
    | .live B =>
      if disc && B.stale then none
      else match v with
        | none =>
          if s.mem.alive B.la then
            match getSqe B none with
            | none => some none
            | some B' => some (some ({ s with bat := upd s.bat b (.live B') }, [.prepped b none]))
          else some none
        | some v =>
          match add s.mem B.la B.mr v with
          | none => some none
          | some (m, n, a, e) =>
            match getSqe B (some a) with
            | none => some none
            | some B' => some (some ({ s with mem := m, bat := upd s.bat b (.live { B' with nodes := B.nodes ++ [n] }) }, e ++ [.prepped b (some v)]))
    | _ => none
  -- timeout (iouring_op_batch.cc 357-388)
  | .timeout b v =>
    match s.bat b with
    | .live B =>
      if disc && B.stale then none
      else match add s.mem B.la B.mr v with
        | none => some none
        | some (m, n, a, e) =>
          match tmoSqe B a with
          | none => some none
          | some B' => some (some ({ s with mem := m, bat := upd s.bat b (.live { B' with nodes := B.nodes ++ [n] }) }, e ++ [.timed b v]))
    | _ => none
  -- iouring_op_batch.h 61: members are moved one by one; pointers and the flag are copied, unique_ptr and containers taken over
  | .moveCtor b =>
    match s.bat b with
    | .live B =>
      some (some ({ s with nbt := s.nbt + 1, bat := upd (upd s.bat s.nbt (.live B)) b (.live { B with own := none, nodes := [], refs := [], stale := true }) }, [.moved b s.nbt]))
    | _ => none
  -- iouring_op_batch.h 62: first m_mbr (the old resource dies), then m_mr, m_rep, m_peripheral
  | .moveAssign b c =>
    if disc || b == c then none
    else match s.bat b, s.bat c with
      | .live B, .live C =>
        let m0 : Mem := match B.own with
          | none => s.mem
          | some r => { s.mem with alive := upd s.mem.alive r false }
        let e0 : List Ev := match B.own with
          | none => []
          | some r => [.resGone r]
        if B.la = C.la then
          match dropNodes m0 B.la B.nodes with
          | none => some none
          | some (m1, e1) =>
            some (some ({ s with mem := m1, bat := upd (upd s.bat b (.live { C with la := B.la })) c (.live { C with own := none, nodes := [], refs := [], stale := true }) }, e0 ++ e1 ++ [.moved c b]))
        else if m0.alive B.la && m0.alive C.la then     -- the resources are compared
          match assignNodes m0 B.la B.nodes C.nodes with
          | none => some none
          | some (m1, ts, ss, e1) =>
            some (some ({ s with mem := m1, bat := upd (upd s.bat b (.live { C with la := B.la, nodes := ts })) c (.live { C with own := none, nodes := ss, refs := [], stale := true }) }, e0 ++ e1 ++ [.moved c b]))
        else some none
      | _, _ => none
  -- the implicit destructor: m_peripheral, m_rep, then m_mbr
  | .destroy b =>
    match s.bat b with
    | .live B =>
      match dropNodes s.mem B.la B.nodes with
      | none => some none
      | some (m1, e1) =>
        match B.own with
        | none => some (some ({ s with mem := m1, bat := upd s.bat b .dead }, e1 ++ [.died b]))
        | some r => some (some ({ s with mem := { m1 with alive := upd m1.alive r false }, bat := upd s.bat b .dead }, e1 ++ [.resGone r, .died b]))
    | _ => none
  -- iouring_op_batch.cc 14-20: asserts that the batch is not empty
  | .execute b a =>
    match s.bat b with
    | .live B =>
      if disc && (B.stale || B.refs.isEmpty) then none
      else if B.refs = [] then some none
      else some (some ({ s with aw := upd s.aw a (some b) }, []))
    | _ => none
  | .copyAw a a' => some (some ({ s with aw := upd s.aw a' (s.aw a) }, []))
  -- iouring_op_batch_execute_aw.cc 14-26: set_user_data, back(), add_event
  | .suspend a =>
    match s.aw a with
    | none => none
    | some b =>
      match s.bat b with
      | .live B =>
        if disc && B.stale then none
        else if B.refs = [] then some none
        else some (some (s, [.submitted b B.refs]))
      | _ => if disc then none else some none

def init : St := ⟨⟨1, fun r => r == 0, fun r => r == 0, 0, fun _ => ⟨0, none, false⟩⟩, 0, fun _ => .unborn, fun _ => none, false⟩

def step (disc : Bool) (s : St) (l : Label) : Option (St × List Ev) :=
  if s.ub then none
  else match stepLive disc s l with
    | none => none
    | some none => some ({ s with ub := true }, [])
    | some (some p) => some p

/-- the machine -/
def M (disc : Bool) : Machine St Label Ev := ⟨init, step disc⟩

end Verif.Storage
