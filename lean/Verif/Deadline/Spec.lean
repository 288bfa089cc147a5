/-!
# What a user relies on about the time a sleep ends (C85)

`sleep_for(d)` called at `now` ends when the clock shows `now + d` or later, `sleep_until(tp)` when it shows `tp` or later, whatever `d` and
`tp` are; in particular a sleep for the longest duration the type can express does not end at once.  All times are in nanoseconds, as
integers; what the program computes with are 64-bit numbers.
-/

namespace Verif.Deadline

/-- The value fits into the 64-bit signed integers of std::chrono. -/
def Fits (x : Int) : Prop := -9223372036854775808 ≤ x ∧ x ≤ 9223372036854775807

/-- `time_point::max()`, `nanoseconds::max()` -/
def longest : Int := 9223372036854775807

/-- What becomes of a request to sleep. -/
inductive Outcome where
  | ready                  -- it does not suspend
  | until (tp : Int)       -- it is entered into the timer with this deadline
  | undefined              -- signed overflow
  deriving DecidableEq, Repr

end Verif.Deadline
