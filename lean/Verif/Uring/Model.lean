import Verif.Common.Machine
import Verif.Uring.Spec
/-!
# Model of the io_uring event loop of one worker thread (include/koios/iouring.h, src/iouring.cc),
of `op_batch_execute_aw` (src/iouring_op_batch_execute_aw.cc) and of the result vector of `op_batch_rep`
(include/koios/iouring_op_batch_rep.h 62-65)

The loop object is `thread_local`, so exactly one thread calls it.  The kernel is an agent of its own: it takes
any part of the submission ring, completes operations in any order at any time with any result, exactly once each.
A coroutine is identified by its address; addresses may be reused after a coroutine was resumed or destroyed.  A batch
object `r` holds a number of operations and the results.  User contract built into the guards: a coroutine that is suspended
in a batch executes nothing else, and a batch is not touched while it is executing.
-/

namespace Verif.Uring

/-- op_batch_rep: number of sqes and m_rets -/
structure Rep where
  n : Nat
  rets : List Int
  deriving DecidableEq, Repr

/-- an entry of m_opreps; `b` is a ghost name of this execution -/
structure Op where
  c : Nat
  r : Nat
  b : Nat
  deriving DecidableEq, Repr

/-- a submission entry: user_data (the coroutine address), ghost name of the execution, index in the batch -/
structure Sqe where
  c : Nat
  b : Nat
  i : Nat
  deriving DecidableEq, Repr

/-- a completion entry: user_data, ghost name, result -/
structure Cqe where
  c : Nat
  b : Nat
  res : Int
  deriving DecidableEq, Repr

structure St where
  reps : Nat → Rep
  ops : List Op             -- m_opreps
  sq : List Sqe             -- submission ring
  kern : List Sqe           -- operations the kernel is working on
  cq : List Cqe             -- completions not yet processed, oldest first
  vis : Nat                 -- how many of them are in the completion ring; the others are in the kernel's overflow list
  poll : Option Nat         -- inside of do_occured_nonblk: iterations left
  miss : Nat                -- m_num_mis_shot (unsigned, 32 bit)
  stoped : Bool             -- m_stoped
  cleaning : Bool           -- iouring_event_loop::m_cleaning
  dead : Bool               -- the loop object is destroyed, or undefined behaviour has happened
  next : Nat

inductive Lbl where
  | newBatch (r n : Nat)             -- a fresh op_batch with n operations
  | clear (r : Nat)                  -- op_batch::clear
  | prep (r : Nat)                   -- one more operation
  | exec (c r acc : Nat)             -- co_await r.execute() by c; io_uring_submit takes at most acc entries
  | complete (j : Nat) (res : Int)   -- the kernel completes the j-th operation it is working on
  | pollBegin
  | deal                             -- one iteration
  | pollEnd
  | stopHere                         -- iouring_event_loop::stop by this thread (iouring.h 105)
  | stopElsewhere                    -- stop by another thread: m_impl is thread_local
  | quickStop                        -- quick_stop by this thread (iouring.cc 164-169)
  | destroy                          -- ~iouring_event_loop_perthr
  deriving DecidableEq, Repr

/-- default number of entries, iouring.h 37 -/
def entries : Nat := 1024

/-- entries of the completion ring: io_uring_queue_init without IORING_SETUP_CQSIZE makes it twice as large (io_uring_setup(2)) -/
def cqEntries : Nat := 2048

def idle (s : St) : Bool := s.dead == false && s.poll == none
def inFlight (s : St) (r : Nat) : Bool := s.ops.any (·.r == r)

def step (s : St) : Lbl → Option (St × List Ev)
  | .newBatch r n =>
    if s.dead = false ∧ inFlight s r = false then some ({ s with reps := upd s.reps r ⟨n, []⟩ }, []) else none
  | .clear r =>
    -- iouring_op_batch_rep.h 65: `m_sqes.clear(); toolpex_assert(!m_rets.empty());` m_rets is kept
    if s.dead = false ∧ inFlight s r = false then
      if (s.reps r).rets = [] then some ({ s with dead := true }, [.cleared 0, .ub])
      else some ({ s with reps := upd s.reps r ⟨0, (s.reps r).rets⟩ }, [.cleared (s.reps r).rets.length])
    else none
  | .prep r =>
    if s.dead = false ∧ inFlight s r = false then
      some ({ s with reps := upd s.reps r ⟨(s.reps r).n + 1, (s.reps r).rets⟩ }, [])
    else none
  | .exec c r acc =>
    if idle s ∧ inFlight s r = false ∧ (∀ o ∈ s.ops, o.c ≠ c) then
      let n := (s.reps r).n
      let ev := Ev.submitted c s.next n (s.reps r).rets.length s.sq.length
      -- iouring_op_batch_execute_aw.cc 18: `m_rep->back()` of an empty batch
      if n = 0 then some ({ s with dead := true, next := s.next + 1 }, [ev, .ub])
      -- iouring.cc 110: the task handle is dropped
      else if s.stoped then some ({ s with next := s.next + 1 }, [.refused c s.next])
      -- 114-115: io_uring_get_sqe returns null if the ring is full
      else if entries < s.sq.length + n then some ({ s with dead := true, next := s.next + 1 }, [ev, .ub])
      else
        -- 111-116; io_uring_submit enters the kernel, which moves what fits from the overflow list to the ring (liburing: the flag IORING_SQ_CQ_OVERFLOW)
        let sq' := s.sq ++ (List.range n).map (⟨c, s.next, ·⟩)
        some ({ s with ops := s.ops ++ [⟨c, r, s.next⟩], miss := 1, sq := sq'.drop acc, kern := s.kern ++ sq'.take acc,
                       vis := min cqEntries s.cq.length, next := s.next + 1 }, [ev])
    else none
  | .complete j res =>
    if s.dead = false then
      match s.kern[j]? with
      | some x =>
        -- the kernel puts the entry into the ring if there is room and no earlier one waits in the overflow list
        if s.vis = s.cq.length ∧ s.vis < cqEntries then
          some ({ s with kern := s.kern.eraseIdx j, cq := s.cq ++ [⟨x.c, x.b, res⟩], vis := s.vis + 1 }, [.completed x.b x.i res])
        else
          some ({ s with kern := s.kern.eraseIdx j, cq := s.cq ++ [⟨x.c, x.b, res⟩] }, [.completed x.b x.i res, .overflowed x.b])
      | none => none
    else none
  | .pollBegin =>
    -- do_occured_nonblk 70-80; io_uring_cq_ready counts the entries of the ring
    if idle s then
      if s.stoped then some (s, [])
      else if s.vis = 0 then some ({ s with miss := (2 * s.miss) % 2 ^ 32 }, [.pollBegan false s.cq.length, .polled])
      else some ({ s with miss := 1, poll := some s.vis }, [.pollBegan true (s.cq.length - s.vis)])
    else none
  | .deal =>
    if s.dead = false then
      match s.poll with
      | some (k + 1) =>
        match s.cq with
        | [] => some ({ s with poll := some 0 }, [])           -- 86-89
        | x :: rest =>
          -- dealwith_cqe 49-65
          match s.ops.find? (·.c == x.c) with
          | none => some ({ s with dead := true }, [.ub])      -- toolpex_assert(it != m_opreps.end())
          | some o =>
            if (s.reps o.r).rets.length + 1 = (s.reps o.r).n then
              some ({ s with reps := upd s.reps o.r ⟨(s.reps o.r).n, (s.reps o.r).rets ++ [x.res]⟩, cq := rest, vis := s.vis - 1,
                             ops := s.ops.filter (·.c != x.c), poll := some k },
                [.resumed o.c o.b ((s.reps o.r).rets ++ [x.res])])
            else
              some ({ s with reps := upd s.reps o.r ⟨(s.reps o.r).n, (s.reps o.r).rets ++ [x.res]⟩, cq := rest, vis := s.vis - 1,
                             poll := some k }, [])
      | _ => none
    else none
  | .pollEnd => if s.dead = false ∧ s.poll = some 0 then some ({ s with poll := none }, [.polled]) else none
  | .stopHere =>
    if idle s then some ({ s with cleaning := true, stoped := true }, [.cleaned, .stopped]) else none
  | .stopElsewhere => if s.dead = false then some ({ s with cleaning := true }, [.cleaned]) else none
  | .quickStop => if idle s then some ({ s with stoped := true }, [.stopped]) else none
  | .destroy =>
    if idle s then
      some ({ s with dead := true, ops := [], sq := [], kern := [], cq := [], vis := 0 },
        s.ops.map (fun o => .destroyed o.c o.b) ++ [.ended])
    else none

def init : St :=
  { reps := fun _ => ⟨0, []⟩, ops := [], sq := [], kern := [], cq := [], vis := 0, poll := none, miss := 1, stoped := false,
    cleaning := false, dead := false, next := 0 }

def machine : Machine St Lbl Ev := { init := init, step := step }

/-- iouring_event_loop::max_sleep_duration (iouring.cc 171-178 and 119-125, iouring.h 69), in milliseconds:
`m_opreps.empty() * static_cast<size_t>(m_num_mis_shot - 1u) * 25ms`, at most 200 ms. -/
def maxSleep (s : St) : Nat :=
  if s.cleaning then 10000
  else min 200 ((if s.ops = [] then 1 else 0) * ((s.miss + (2 ^ 32 - 1)) % 2 ^ 32) * 25)

end Verif.Uring
