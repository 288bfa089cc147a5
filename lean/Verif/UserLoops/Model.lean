import Verif.Common.Machine
import Verif.UserLoops.Spec
/-!
# Model of user_event_loops (include/koios/user_event_loops.h, src/user_event_loop.cc)

Any number of threads and loops.  Simplifications: `m_cleanning` is written under the shared lock
(user_event_loop.cc 33-34); the data race with its readers is taken as an atomic access.  A user loop's member
functions return (they are arbitrary otherwise; the answer of a poll is part of the label).
-/

namespace Verif.UserLoops

structure St where
  attrs : List Nat                            -- keys of m_attrs
  loops : List Nat                            -- m_loops
  cleaning : Bool                             -- m_cleanning
  pc : Nat → Option (Option Nat × Bool)       -- thread t inside of do_occured_nonblk: position in m_loops (none: returning), result
  readers : List Nat                          -- who holds m_mutex shared
  gone : List Nat                             -- threads whose per_consumer_attr is dead (thread_pool.cc 60-64: a local of consumer)

inductive Lbl where
  | prep (t : Nat)
  | addLoop (l : Nat)
  | exit (t : Nat)
  | passBegin (t : Nat)
  | poll (t : Nat) (r : Bool)
  | passEnd (t : Nat)
  | stop
  | quickStop
  deriving DecidableEq, Repr

def step (s : St) : Lbl → Option (St × List Ev)
  | .prep t =>
    -- user_event_loop.cc 12-20 (unique lock; unordered_map::insert keeps an existing entry)
    if s.readers = [] ∧ t ∉ s.gone then
      some ({ s with attrs := if t ∈ s.attrs then s.attrs else s.attrs ++ [t] },
        .prepared t :: s.loops.map (.loopPrep · t))
    else none
  | .addLoop l =>
    -- 74-82 (unique lock; *attrp of a thread that is gone dangles)
    if s.readers = [] then
      if ∃ t ∈ s.attrs, t ∈ s.gone then some (s, [.added l, .ub])
      else some ({ s with loops := s.loops ++ [l] }, .added l :: s.attrs.map (.loopPrep l ·))
    else none
  | .exit t =>
    if s.pc t = none ∧ t ∉ s.gone then some ({ s with gone := t :: s.gone }, [.exited t]) else none
  | .passBegin t =>
    -- 62-66
    if s.pc t = none ∧ t ∉ s.gone then
      some ({ s with pc := upd s.pc t (some (if s.cleaning then none else some 0, false)), readers := t :: s.readers },
        [.passBegan t])
    else none
  | .poll t r =>
    -- 67-70
    match s.pc t with
    | some (some i, acc) =>
      match s.loops[i]? with
      | some l => some ({ s with pc := upd s.pc t (some (some (i + 1), r || acc)) }, [.polled t l r])
      | none => none
    | _ => none
  | .passEnd t =>
    match s.pc t with
    | some (some i, acc) =>
      if s.loops.length ≤ i then
        some ({ s with pc := upd s.pc t none, readers := s.readers.filter (· ≠ t) }, [.passEnded t acc])
      else none
    | some (none, acc) =>
      some ({ s with pc := upd s.pc t none, readers := s.readers.filter (· ≠ t) }, [.passEnded t acc])
    | none => none
  | .stop => some (s, s.loops.map .loopStop)                                                  -- 22-29
  | .quickStop => some ({ s with cleaning := true }, .quickStopped :: s.loops.map .loopQuickStop)  -- 31-39

def init : St :=
  { attrs := [], loops := [], cleaning := false, pc := fun _ => none, readers := [], gone := [] }

def machine : Machine St Lbl Ev := { init := init, step := step }

/-- user_event_loops::max_sleep_duration (50-60), in milliseconds; the argument are the loops' answers. -/
def maxSleep (ds : List Int) : Int := ds.foldl (fun result d => if result < d then result else d) 10000

end Verif.UserLoops
