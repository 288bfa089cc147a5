import Verif.Deadline.Spec
/-!
# Model of the arithmetic of sleep_for / sleep_until (include/koios/this_task.h 24-70, include/koios/timer.h 69-73)

Durations have a 64-bit count and a period of `unit` nanoseconds (1 for nanoseconds, 10^9 for seconds, ...; periods that are no multiple of a
nanosecond, and floating point counts, are not modelled).  Clocks count nanoseconds (high_resolution_clock, system_clock and steady_clock of
libstdc++).  Signed overflow is undefined behaviour.
-/

namespace Verif.Deadline

/-- A 64-bit result. -/
def int64 (x : Int) : Option Int := if -9223372036854775808 ≤ x ∧ x ≤ 9223372036854775807 then some x else none

/-- timer_event_loop_impl::add_event(dura, task) (timer.h 69-73) at `now`: `now + dura`, where operator+ converts dura to nanoseconds. -/
def addEvent (unit : Nat) (d now : Int) : Outcome :=
  match int64 (d * unit) with
  | none => .undefined
  | some ns => match int64 (now + ns) with
    | none => .undefined
    | some tp => .until tp

/-- sleep_for(d) (this_task.h 54-57): await_ready (33-36), await_suspend (38-41) at `now`. -/
def sleepFor (unit : Nat) (d now : Int) : Outcome := if d = 0 then .ready else addEvent unit d now

/-- sleep_until(tp) (this_task.h 64-70) called at `now`, awaited at `now'`; `tp` counts `unit`s. -/
def sleepUntil (unit : Nat) (tp now now' : Int) : Outcome :=
  match int64 (tp * unit) with
  | none => .undefined
  | some t => match int64 (t - now) with
    | none => .undefined
    | some dura => sleepFor 1 (if dura > 0 then dura else 0) now'

end Verif.Deadline
