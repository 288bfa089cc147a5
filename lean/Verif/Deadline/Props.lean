import Verif.Deadline.Model
/-!
# C85: sleeping for any time
-/

namespace Verif.Deadline

theorem int64_fits {x : Int} (h : Fits x) : int64 x = some x := by
  unfold Fits at h
  simp [int64, h]

theorem int64_not {x : Int} (h : ¬ Fits x) : int64 x = none := by
  unfold Fits at h
  simp [int64, h]

/-- Full claim: sleep_for(d) ends at `now + d` for every d.  Proved when the end of the sleep (and the duration) can be expressed in 64 bits;
missing: see `sleepFor_refuted`. -/
theorem sleepFor_partial {unit : Nat} {d now : Int} (hd : Fits (d * unit)) (he : Fits (now + d * unit)) (h0 : d ≠ 0) :
    sleepFor unit d now = .until (now + d * unit) := by
  simp [sleepFor, addEvent, h0, int64_fits hd, int64_fits he]

/-- Every duration of which the end cannot be expressed is undefined behaviour; in particular `sleep_for(nanoseconds::max())`, at any time
after 1970. -/
theorem sleepFor_refuted {unit : Nat} {d now : Int} (h : ¬ Fits (d * unit) ∨ ¬ Fits (now + d * unit)) (h0 : d ≠ 0) :
    sleepFor unit d now = .undefined := by
  simp only [sleepFor, h0, if_false, addEvent]
  by_cases hd : Fits (d * unit)
  · simp [int64_fits hd, int64_not (h.resolve_left (fun hn => hn hd))]
  · simp [int64_not hd]

theorem sleepFor_max_refuted {now : Int} (hn : 0 < now) : sleepFor 1 longest now = .undefined := by
  refine sleepFor_refuted (.inr ?_) (by simp [longest])
  unfold Fits longest
  omega

/-- Full claim: sleep_until(tp) does not end before `tp`, and not later than needed.  Proved when `tp`, its distance from now, and the deadline
computed from it fit: a past (or present) `tp` does not suspend; otherwise the deadline is `tp` plus the time between the call and the
`co_await`, which is never early.  Missing: see `sleepUntil_max_refuted`, `sleepUntil_min_refuted`. -/
theorem sleepUntil_partial {unit : Nat} {tp now now' : Int} (h1 : Fits (tp * unit)) (h2 : Fits (tp * unit - now)) (h3 : now ≤ now')
    (h4 : Fits (tp * unit + (now' - now))) :
    (tp * unit ≤ now → sleepUntil unit tp now now' = .ready) ∧
    (now < tp * unit → ∃ t, sleepUntil unit tp now now' = .until t ∧ tp * unit ≤ t ∧ t = tp * unit + (now' - now)) := by
  simp only [sleepUntil, int64_fits h1, int64_fits h2]
  constructor
  · intro h
    have : ¬ (tp * unit - now > 0) := by omega
    rw [if_neg this]
    simp [sleepFor]
  · intro h
    have h5 : tp * unit - now > 0 := by omega
    simp only [h5, if_true]
    refine ⟨tp * unit + (now' - now), ?_, by omega, rfl⟩
    have h6 : (tp * unit - now) * ((1 : Nat) : Int) = tp * unit - now := by omega
    rw [sleepFor_partial (by rw [h6]; exact h2) (by rw [h6, show now' + (tp * unit - now) = tp * unit + (now' - now) by omega]; exact h4)
      (by omega), h6]
    congr 1
    omega

/-- `sleep_until(time_point::max())`, the usual way to sleep for ever, is undefined behaviour unless the clock has not moved between the call
and the `co_await`. -/
theorem sleepUntil_max_refuted {now now' : Int} (h0 : 0 ≤ now) (h1 : now < now') (hm : now ≤ longest - 1) :
    sleepUntil 1 longest now now' = .undefined := by
  unfold longest at hm ⊢
  have a1 : Fits (9223372036854775807 * ((1 : Nat) : Int)) := by unfold Fits; omega
  have a2 : Fits (9223372036854775807 * ((1 : Nat) : Int) - now) := by unfold Fits; omega
  simp only [sleepUntil, int64_fits a1, int64_fits a2]
  have h5 : 9223372036854775807 * ((1 : Nat) : Int) - now > 0 := by omega
  simp only [h5, if_true]
  refine sleepFor_refuted (.inr ?_) (by omega)
  unfold Fits
  omega

/-- `sleep_until(time_point::min())`, which lies in the past, does not return at once: it is undefined behaviour at any time after 1970. -/
theorem sleepUntil_min_refuted {now now' : Int} (h0 : 0 < now) : sleepUntil 1 (-longest - 1) now now' = .undefined := by
  unfold longest
  have a1 : Fits ((-9223372036854775807 - 1) * ((1 : Nat) : Int)) := by unfold Fits; omega
  have a2 : ¬ Fits ((-9223372036854775807 - 1) * ((1 : Nat) : Int) - now) := by unfold Fits; omega
  simp only [sleepUntil, int64_fits a1, int64_not a2]

/-- A sleep for 10 years in hours, today. -/
theorem sleepFor_nontrivial : Fits (87600 * (3600000000000 : Nat)) ∧ Fits (1750000000000000000 + 87600 * (3600000000000 : Nat)) ∧
    sleepFor 3600000000000 87600 1750000000000000000 = .until 2065360000000000000 := by
  refine ⟨by unfold Fits; omega, by unfold Fits; omega, by decide⟩

/-- ... until the year 2100, given in seconds; the co_await comes 1 ms after the call. -/
theorem sleepUntil_nontrivial : Fits (4102444800 * (1000000000 : Nat)) ∧ Fits (4102444800 * (1000000000 : Nat) - 1750000000000000000) ∧
    Fits (4102444800 * (1000000000 : Nat) + (1750000000001000000 - 1750000000000000000)) ∧
    sleepUntil 1000000000 4102444800 1750000000000000000 1750000000001000000 = .until 4102444800001000000 := by
  refine ⟨by unfold Fits; omega, by unfold Fits; omega, by unfold Fits; omega, by decide⟩

end Verif.Deadline
