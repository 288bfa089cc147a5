import Verif.Common.Machine
import Verif.Timer.Spec
/-!
# Model of the timer (include/koios/timer.h, src/timer.cc) and of sleeping (include/koios/this_task.h 24-70)

One `timer_event_loop` object, `n` threads (worker threads and others), a clock that may advance at
any moment.  Simplifications: the clock (`high_resolution_clock`) is monotone and is the clock given to
`sleep_until`; time arithmetic does not overflow; `std::push_heap` / `std::pop_heap` are any functions
meeting the C++ standard (`HeapLib`); a lambda of `add_event` and its critical section are one step,
because `m_ptrs_lock` is held shared throughout and only the thread itself uses its heap.
-/

namespace Verif.Timer

/-- struct timer_event (timer.h 33-43); `id` stands for the coroutine handle. -/
structure E where
  tp : Int
  id : Nat
  deriving DecidableEq, Repr

/-- The C++ standard's contract of `std::push_heap`/`std::pop_heap` with `std::greater` ([alg.heap.operations]),
as used by timer.cc 44-50 and 73-83.  The vector is a list, front first. -/
structure HeapLib where
  IsHeap : List E → Prop
  /-- emplace_back followed by push_heap -/
  push : List E → E → List E
  /-- what is in front of the popped element after pop_heap of `x :: h` -/
  pop : E → List E → List E
  nil : IsHeap []
  front : ∀ x h, IsHeap (x :: h) → ∀ y ∈ h, x.tp ≤ y.tp
  push_heap : ∀ h e, IsHeap h → IsHeap (push h e)
  push_perm : ∀ h e, (push h e).Perm (e :: h)
  pop_heap : ∀ x h, IsHeap (x :: h) → IsHeap (pop x h)
  pop_perm : ∀ x h, (pop x h).Perm h

/-- The while loop of do_occured_nonblk (timer.cc 44-50): (the heap before heap_end, the popped events from
heap_end on).  Each pop_heap puts the popped event at the end of the shrinking range, so the
event popped last comes first. The first argument bounds the iterations (the length of the vector). -/
def popDue (lib : HeapLib) (now : Int) : Nat → List E → List E × List E
  | 0, h => (h, [])
  | _ + 1, [] => ([], [])
  | k + 1, x :: h =>
    if x.tp ≤ now then
      ((popDue lib now k (lib.pop x h)).1, (popDue lib now k (lib.pop x h)).2 ++ [x])
    else (x :: h, [])

inductive PC where
  | idle
  | awaiting (id : Nat) (d : Int)   -- sleep_await constructed, before await_ready (this_task.h 33-36)
  | adding (id : Nat) (d : Int)     -- in add_event after the is_cleanning check (timer.h 148)
  | passing (now : Int)             -- in do_occured_nonblk after the clock and the stop token were read
  deriving DecidableEq, Repr

structure St where
  clock : Int
  regs  : List Nat          -- keys of m_impl_ptrs
  heap  : Nat → List E      -- m_timer_heap of each thread
  pc    : Nat → PC
  stop  : Bool              -- m_stop_src
  next  : Nat
  dead  : Bool              -- the timer_event_loop was destroyed

inductive Lbl where
  | tick (d : Nat)
  | prep (t : Nat)                 -- thread_specific_preparation (timer.h 176-185)
  | askFor (t : Nat) (d : Int)     -- this_task::sleep_for(d) (this_task.h 54-57)
  | askUntil (t : Nat) (tp : Int)  -- this_task::sleep_until(tp) (64-70)
  | await (t : Nat)                -- await_ready / await_suspend up to the is_cleanning check
  | push (t : Nat)                 -- cur_thread_ptr + add_event_impl
  | passBegin (t : Nat)            -- do_occured_nonblk (timer.cc 20-35)
  | passEnd (t : Nat)              -- (38-58)
  | stop                           -- timer_event_loop::stop (timer.h 171)
  | quickStop                      -- timer_event_loop::quick_stop (timer.cc 99-108)
  | destroy                        -- ~timer_event_loop
  deriving DecidableEq, Repr

/-- No thread is inside of do_occured_nonblk, i.e. holds m_ptrs_lock shared. -/
def unlocked (n : Nat) (s : St) : Bool :=
  (List.range n).all fun t => match s.pc t with | .passing _ => false | _ => true

def allIdle (n : Nat) (s : St) : Bool := (List.range n).all fun t => decide (s.pc t = .idle)

def pendingIds (s : St) : List Nat := s.regs.flatMap fun t => (s.heap t).map E.id

def step (lib : HeapLib) (n : Nat) (s : St) : Lbl → Option (St × List Ev)
  | .tick d => some ({ s with clock := s.clock + d }, [])
  | .prep t =>
    -- unordered_map::insert keeps an existing entry
    if t < n ∧ s.dead = false ∧ unlocked n s then
      if t ∈ s.regs then some (s, [.prepared t])
      else some ({ s with regs := s.regs ++ [t], heap := upd s.heap t [] }, [.prepared t])
    else none
  | .askFor t d =>
    if t < n ∧ s.dead = false ∧ s.pc t = .idle then
      some ({ s with pc := upd s.pc t (.awaiting s.next d), next := s.next + 1 },
        [.asked t s.next s.clock (s.clock + d)])
    else none
  | .askUntil t tp =>
    if t < n ∧ s.dead = false ∧ s.pc t = .idle then
      some ({ s with pc := upd s.pc t (.awaiting s.next (if tp - s.clock > 0 then tp - s.clock else 0)),
                     next := s.next + 1 },
        [.asked t s.next s.clock tp])
    else none
  | .await t =>
    if t < n then
      match s.pc t with
      | .awaiting id d =>
        if d = 0 then some ({ s with pc := upd s.pc t .idle }, [.resumed id s.clock])   -- await_ready
        else if s.stop then some ({ s with pc := upd s.pc t .idle }, [.refused id])     -- timer.h 148-155
        else some ({ s with pc := upd s.pc t (.adding id d) }, [])
      | _ => none
    else none
  | .push t =>
    if t < n then
      match s.pc t with
      | .adding id d =>
        -- cur_thread_ptr (timer.h 192-206): `m_impl_ptrs[id]` creates a null entry for an unknown thread
        if t ∈ s.regs then
          some ({ s with pc := upd s.pc t .idle, heap := upd s.heap t (lib.push (s.heap t) ⟨s.clock + d, id⟩) },
            [.added t id (s.clock + d)])
        else some (s, [.ub])
      | _ => none
    else none
  | .passBegin t =>
    if t < n ∧ s.dead = false ∧ s.pc t = .idle then
      if t ∈ s.regs then
        if s.stop then some (s, [.polled t])
        else some ({ s with pc := upd s.pc t (.passing s.clock) }, [.polled t])
      else some (s, [.polled t, .ub])
    else none
  | .passEnd t =>
    if t < n then
      match s.pc t with
      | .passing now =>
        some ({ s with pc := upd s.pc t .idle, heap := upd s.heap t (popDue lib now (s.heap t).length (s.heap t)).1 },
          (popDue lib now (s.heap t).length (s.heap t)).2.map (fun x => .resumed x.id s.clock) ++ [.passed t now])
      | _ => none
    else none
  | .stop => if s.dead = false then some ({ s with stop := true }, [.stopped]) else none
  | .quickStop =>
    if s.dead = false ∧ unlocked n s then
      some ({ s with stop := true, heap := fun _ => [] }, (pendingIds s).map .destroyed ++ [.stopped])
    else none
  | .destroy =>
    if s.dead = false ∧ allIdle n s then
      some ({ s with dead := true, regs := [], heap := fun _ => [] }, (pendingIds s).map .destroyed ++ [.ended])
    else none

def init : St :=
  { clock := 0, regs := [], heap := fun _ => [], pc := fun _ => .idle, stop := false, next := 0, dead := false }

def machine (lib : HeapLib) (n : Nat) : Machine St Lbl Ev := { init := init, step := step lib n }

/-! ## Sleeping of a worker (thread_pool.cc 79-83, event_loop.h 131-143, timer.h 161-168 and 94-100) -/

/-- timer_event_loop::max_sleep_duration; `none` is nanoseconds::max(). -/
def timerMaxSleep (s : St) (t : Nat) : Option Int :=
  if s.stop then none
  else
    match s.heap t with
    | [] => none
    | x :: _ => some (x.tp - s.clock)

/-- The smaller of two durations; `none` is the maximal duration. -/
def minOpt : Option Int → Option Int → Option Int
  | none, m => m
  | some a, none => some a
  | some a, some b => some (if b < a then b else a)

/-- std::ranges::min_element over the loops' answers (event_loop.h 134-142). -/
def minSleep : List (Option Int) → Option Int
  | [] => none
  | d :: ds => minOpt d (minSleep ds)

/-- `waiting_latch < max_waiting_time ? waiting_latch : max_waiting_time` (thread_pool.cc 81-83);
`others` are the answers of the other loops. -/
def workerWait (latch : Int) (s : St) (t : Nat) (others : List (Option Int)) : Int :=
  match minSleep (timerMaxSleep s t :: others) with
  | none => latch
  | some m => if latch < m then latch else m

end Verif.Timer
