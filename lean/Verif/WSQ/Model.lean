import Verif.Common.Machine
import Verif.WSQ.Spec
/-!
# Model of `koios::work_stealing_queue` (include/koios/work_stealing_queue.h)

`m_queues` is an atomic shared_ptr to a map thread id -> queue.  Maps are association lists with
unique keys, queues are numbered, their contents live in `content`.  A published map is never
modified (111-119 copies it), so a snapshot is a value.  The order in which the hash map is
iterated is left open: labels choose the next entry.  One label per operation on `m_queues`
or on one underlying queue (linearizable, any dequeue order).
With `spur = true` a `dequeue` of an underlying queue may fail although it is not empty (as
moodycamel's `try_dequeue` may under concurrency).
-/

namespace Verif.WSQ

abbrev Map := List (Nat × Nat)

/-- Where a caller is inside of a member function. -/
inductive Pc where
  | idle
  | spin (o : Op)                  -- before `m_queues.load()` (102) / `exchange(nullptr)` (114)
  | addStore (tid : Nat) (m : Map) -- 116-118: owns the old map, `m_queues` is null
  | enqPush (tid : Nat) (m : Map)  -- 68-72, with the snapshot
  | deqOwn (tid : Nat) (m : Map)   -- 44, with the snapshot
  | steal (rest : List Nat)        -- 49-53: queues not tried yet
  | sizing (rest : List Nat) (acc : Nat) -- 80-83
  | dead                           -- after undefined behaviour
  deriving DecidableEq, Repr

structure St where
  pub     : Option Map          -- m_queues (127)
  content : Nat → List Nat
  pc      : Nat → Pc
  nextQ   : Nat                 -- next queue (make_queue, 108)
  next    : Nat                 -- next task number

inductive Lbl where
  | call (a : Nat) (o : Op)
  | load (a : Nat)          -- successful iteration of the spin loop
  | store (a : Nat)         -- `m_queues.store(new_hashmap)` (118)
  | push (a i : Nat)        -- `queues.at(tid)->enqueue` (72) into queue `i`
  | take (a i x : Nat)      -- `q->dequeue()` (44, 51) on queue `i` yields `x`
  | miss (a i : Nat)        -- `q->dequeue()` on queue `i` yields nullopt
  | count (a i : Nat)       -- `result += q->size()` (82)
  | finish (a : Nat)        -- end of the loop, return (55, 84)
  | crash (a : Nat)         -- `queues.begin()->first` of an empty map (70), or
                            -- `queues[tid]->` for an unknown `tid` (44: a null pointer)
  deriving DecidableEq, Repr

def keys (m : Map) : List Nat := m.map Prod.fst
def qids (m : Map) : List Nat := m.map Prod.snd

/-- `dup_queues` + `insert` (116-117): insert does not overwrite an existing entry. -/
def addKey (m : Map) (tid q : Nat) : Map := if tid ∈ keys m then m else (tid, q) :: m

/-- What a successful load leads to. -/
def afterLoad (m : Map) : Op → Pc
  | .add tid => .addStore tid m
  | .enq tid => .enqPush tid m
  | .deq tid => .deqOwn tid m
  | .size => .sizing (qids m) 0

/-- `exchange(nullptr)` (114) empties `m_queues`, `load()` (102) does not. -/
def pubAfterLoad (m : Map) : Op → Option Map
  | .add _ => none
  | _ => some m

def step (spur : Bool) (s : St) : Lbl → Option (St × List Ev)
  | .call a o =>
    if s.pc a = .idle then some ({ s with pc := upd s.pc a (.spin o) }, [.called a o]) else none
  | .load a =>
    match s.pc a, s.pub with
    | .spin o, some m => some ({ s with pub := pubAfterLoad m o, pc := upd s.pc a (afterLoad m o) }, [])
    | _, _ => none
  | .store a =>
    match s.pc a with
    | .addStore tid m =>
      some ({ s with pub := some (addKey m tid s.nextQ), nextQ := s.nextQ + 1, pc := upd s.pc a .idle },
        [.added a tid])
    | _ => none
  | .push a i =>
    match s.pc a with
    | .enqPush tid m =>
      if (tid, i) ∈ m ∨ (tid ∉ keys m ∧ i ∈ qids m) then
        some ({ s with content := upd s.content i (s.content i ++ [s.next]), next := s.next + 1,
                       pc := upd s.pc a .idle }, [.enqueued a s.next])
      else none
    | _ => none
  | .take a i x =>
    match s.pc a with
    | .deqOwn tid m =>
      if (tid, i) ∈ m ∧ x ∈ s.content i then
        some ({ s with content := upd s.content i ((s.content i).erase x), pc := upd s.pc a .idle },
          [.got a x])
      else none
    | .steal rest =>
      if i ∈ rest ∧ x ∈ s.content i then
        some ({ s with content := upd s.content i ((s.content i).erase x), pc := upd s.pc a .idle },
          [.got a x])
      else none
    | _ => none
  | .miss a i =>
    match s.pc a with
    | .deqOwn tid m =>
      if (tid, i) ∈ m ∧ (spur = true ∨ s.content i = []) then
        some ({ s with pc := upd s.pc a (.steal (qids m)) }, [])
      else none
    | .steal rest =>
      if i ∈ rest ∧ (spur = true ∨ s.content i = []) then
        some ({ s with pc := upd s.pc a (.steal (rest.erase i)) }, [])
      else none
    | _ => none
  | .count a i =>
    match s.pc a with
    | .sizing rest acc =>
      if i ∈ rest then
        some ({ s with pc := upd s.pc a (.sizing (rest.erase i) (acc + (s.content i).length)) }, [])
      else none
    | _ => none
  | .finish a =>
    match s.pc a with
    | .steal [] => some ({ s with pc := upd s.pc a .idle }, [.gotNone a])
    | .sizing [] acc => some ({ s with pc := upd s.pc a .idle }, [.sizeIs a acc])
    | _ => none
  | .crash a =>
    match s.pc a with
    | .enqPush _ m =>
      if m = [] then some ({ s with pc := upd s.pc a .dead }, [.ub a]) else none
    | .deqOwn tid m =>
      if tid ∉ keys m then some ({ s with pc := upd s.pc a .dead }, [.ub a]) else none
    | _ => none

/-- A fresh queue: an empty map (127). -/
def init : St :=
  { pub := some [], content := fun _ => [], pc := fun _ => .idle, nextQ := 0, next := 0 }

def machine (spur : Bool) : Machine St Lbl Ev := { init := init, step := step spur }

/-- The caller of a label. -/
def Lbl.agent : Lbl → Nat
  | .call a _ | .load a | .store a | .push a _ | .take a _ _ | .miss a _ | .count a _ | .finish a
  | .crash a => a

end Verif.WSQ
