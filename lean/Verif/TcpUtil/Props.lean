import Verif.TcpUtil.Model
import Verif.Common.AtEvent
/-!
# C58
-/

namespace Verif.TcpUtil

/-- what has happened so far, by program counter -/
def Inv (timeout : Int) (s : St) (tr : List Ev) : Prop :=
  match s.pc with
  | .begin => tr = []
  | .query | .sleeping => ∃ (n : Int) (rs : List Round), tr = .clock n :: rs.flatMap Round.events ∧ s.deadline = n + timeout * ms ∧ ∀ r ∈ rs, r.Ok s.deadline
  | .test => ∃ (n : Int) (rs : List Round) (k : Nat), tr = .clock n :: rs.flatMap Round.events ++ [.queue k] ∧ s.deadline = n + timeout * ms ∧ (∀ r ∈ rs, r.Ok s.deadline) ∧ 0 < k
  | .done => Correct timeout tr

theorem inv_step (timeout : Int) (s : St) (tr : List Ev) (l : Lbl) (s' : St) (e : List Ev) (h : Inv timeout s tr) (hs : step timeout s l = some (s', e)) :
    Inv timeout s' (tr ++ e) := by
  cases l with
  | clock n =>
    simp only [step] at hs
    split at hs
    · rename_i hpc
      simp only [Option.some.injEq, Prod.mk.injEq] at hs; obtain ⟨rfl, rfl⟩ := hs
      simp only [Inv, hpc] at h ⊢
      subst h
      exact ⟨n, [], rfl, rfl, by simp⟩
    · rename_i hpc
      simp only [Inv, hpc] at h
      obtain ⟨m, rs, k, rfl, hd, hok, hk⟩ := h
      split at hs <;> simp only [Option.some.injEq, Prod.mk.injEq] at hs <;> obtain ⟨rfl, rfl⟩ := hs
      · rename_i hlt
        refine ⟨m, rs ++ [⟨k, n⟩], by simp [Round.events], hd, ?_⟩
        intro r hr
        rcases List.mem_append.1 hr with hr | hr
        · exact hok r hr
        · rw [List.mem_singleton.1 hr]; exact ⟨hk, hlt⟩
      · rename_i hlt
        simp only [hd, ms] at hok hlt
        refine ⟨m, rs, [.queue k, .clock n, .returned false 0], by simp, hok, .late k n hk (by omega)⟩
    · simp at hs
  | queue k =>
    simp only [step] at hs
    split at hs
    · rename_i hpc
      simp only [Inv, hpc] at h
      obtain ⟨m, rs, rfl, hd, hok⟩ := h
      split at hs <;> simp only [Option.some.injEq, Prod.mk.injEq] at hs <;> obtain ⟨rfl, rfl⟩ := hs
      · rename_i hk; subst hk
        simp only [hd, ms] at hok
        exact ⟨m, rs, [.queue 0, .returned true 0], by simp, hok, .empty⟩
      · exact ⟨m, rs, k, rfl, hd, hok, by omega⟩
    · simp at hs
  | error e' =>
    simp only [step] at hs
    split at hs
    · rename_i hpc
      simp only [Inv, hpc] at h
      obtain ⟨m, rs, rfl, hd, hok⟩ := h
      split at hs <;> simp only [Option.some.injEq, Prod.mk.injEq, reduceCtorEq] at hs
      obtain ⟨rfl, rfl⟩ := hs
      rename_i he
      simp only [hd, ms] at hok
      exact ⟨m, rs, [.ioctlError e', .returned false e'], by simp, hok, .error e' he⟩
    · simp at hs
  | wake =>
    simp only [step] at hs
    split at hs
    · rename_i hpc
      simp only [Option.some.injEq, Prod.mk.injEq] at hs; obtain ⟨rfl, rfl⟩ := hs
      simpa only [Inv, hpc, List.append_nil] using h
    · simp at hs

theorem reach_inv {timeout : Int} {s : St} {tr : List Ev} (h : (machine timeout).Reaches s tr) : Inv timeout s tr :=
  Machine.Reaches.inv (M := machine timeout) (Inv timeout) rfl (fun s tr l s' e hi hs => inv_step timeout s tr l s' e hi hs) h

theorem events_no_return (rs : List Round) (r : Bool) (ec : Nat) : Ev.returned r ec ∉ rs.flatMap Round.events := by
  simp [Round.events]

/-- a trace with an answer is complete -/
theorem returned_done {timeout : Int} {s : St} {tr : List Ev} (h : (machine timeout).Reaches s tr) {r : Bool} {ec : Nat} (hr : Ev.returned r ec ∈ tr) :
    Correct timeout tr := by
  have hi := reach_inv h
  cases hp : s.pc <;> simp only [Inv, hp] at hi
  · subst hi; simp at hr
  · obtain ⟨n, rs, rfl, -⟩ := hi
    simp [Round.events] at hr
  · obtain ⟨n, rs, k, rfl, -⟩ := hi
    simp [Round.events] at hr
  · obtain ⟨n, rs, rfl, -⟩ := hi
    simp [Round.events] at hr
  · exact hi

/-- **C58.**  For every sequence of queue lengths, errors and clock values: an execution that has answered is correct - it looked at the send queue at least once, slept 1 ms only
while something was unsent and the sleep would end before the deadline, and answered for the stated reason. -/
theorem deplete_correct (timeout : Int) (s : St) (tr : List Ev) (h : (machine timeout).Reaches s tr) (r : Bool) (ec : Nat) (hr : Ev.returned r ec ∈ tr) :
    Correct timeout tr := returned_done h hr

/-- **C58.**  `true` is answered only when the send queue has just been observed empty. -/
theorem deplete_true (timeout : Int) (s : St) (tr : List Ev) (h : (machine timeout).Reaches s tr) (ec : Nat) (hr : Ev.returned true ec ∈ tr) :
    ec = 0 ∧ ∃ p, tr = p ++ [.queue 0, .returned true 0] := by
  obtain ⟨n, rs, fin, rfl, -, hf⟩ := returned_done h hr
  have hm : Ev.returned true ec ∈ fin := by simpa [Round.events] using hr
  cases hf with
  | empty => simp at hm; exact ⟨hm, _, rfl⟩
  | error e he => simp at hm
  | late k n hk hn => simp at hm

/-- **C58.**  An ioctl error is reported and ends the wait at once. -/
theorem deplete_error (timeout : Int) (s : St) (tr : List Ev) (h : (machine timeout).Reaches s tr) (e : Nat) (he : Ev.ioctlError e ∈ tr) :
    ∃ p, tr = p ++ [.ioctlError e, .returned false e] := by
  have hi := reach_inv h
  cases hp : s.pc <;> simp only [Inv, hp] at hi
  · subst hi; simp at he
  · obtain ⟨n, rs, rfl, -⟩ := hi
    simp [Round.events] at he
  · obtain ⟨n, rs, k, rfl, -⟩ := hi
    simp [Round.events] at he
  · obtain ⟨n, rs, rfl, -⟩ := hi
    simp [Round.events] at he
  · obtain ⟨n, rs, fin, rfl, -, hf⟩ := hi
    have hm : Ev.ioctlError e ∈ fin := by simpa [Round.events] using he
    cases hf with
    | empty => simp at hm
    | error e' he' => simp at hm; subst hm; exact ⟨_, rfl⟩
    | late k n hk hn => simp at hm

/-- the clock shows at least one ms more after every sleep -/
def ClockAdvances (tr : List Ev) : Prop :=
  ∀ (p : List Ev) (m n : Int) (q : List Ev), tr = .clock m :: p ++ .clock n :: q → m + p.countP isSleep * 1000000 ≤ n

theorem sleeps_events (rs : List Round) : (rs.flatMap Round.events).countP isSleep = rs.length := by
  induction rs with
  | nil => rfl
  | cons r rs ih => rw [List.flatMap_cons, List.countP_append, ih]; simp [Round.events, isSleep]; omega

/-- **C58.**  If sleeping takes time, the wait is bounded: fewer sleeps than the time-out has milliseconds (none at all for time-outs of 0 and 1 ms). -/
theorem deplete_bounded (timeout : Int) (s : St) (tr : List Ev) (h : (machine timeout).Reaches s tr) (hc : ClockAdvances tr) :
    tr.countP isSleep = 0 ∨ (tr.countP isSleep : Int) < timeout := by
  have key : ∀ (n : Int) (rs : List Round) (fin : List Ev), tr = .clock n :: rs.flatMap Round.events ++ fin → (∀ r ∈ rs, r.Ok (n + timeout * 1000000)) → fin.countP isSleep = 0 →
      tr.countP isSleep = 0 ∨ (tr.countP isSleep : Int) < timeout := by
    intro n rs fin htr hok hfin
    have hcount : tr.countP isSleep = rs.length := by
      rw [htr, List.cons_append, List.countP_cons_of_neg (by simp [isSleep]), List.countP_append, sleeps_events, hfin]; rfl
    rw [hcount]
    rcases List.eq_nil_or_concat rs with rfl | ⟨rs', r, rfl⟩
    · left; rfl
    · right
      rw [List.concat_eq_append] at *
      have hr := hok r (by simp)
      have := hc (rs'.flatMap Round.events ++ [.queue r.unsent]) n r.now (.slept :: fin) (by rw [htr]; simp [Round.events])
      rw [List.countP_append, sleeps_events] at this
      simp [isSleep] at this
      unfold Round.Ok at hr
      simp
      omega
  have hi := reach_inv h
  cases hp : s.pc <;> simp only [Inv, hp] at hi
  · subst hi; left; rfl
  · obtain ⟨n, rs, h1, h2, h3⟩ := hi
    exact key n rs [] (by simpa using h1) (by rw [h2] at h3; exact h3) rfl
  · obtain ⟨n, rs, k, h1, h2, h3, -⟩ := hi
    exact key n rs _ h1 (by rw [h2] at h3; exact h3) rfl
  · obtain ⟨n, rs, h1, h2, h3⟩ := hi
    exact key n rs [] (by simpa using h1) (by rw [h2] at h3; exact h3) rfl
  · obtain ⟨n, rs, fin, h1, h2, h3⟩ := hi
    refine key n rs fin h1 h2 ?_
    cases h3 <;> rfl

/-- **C58.**  The wait never gets stuck by itself: until it has answered, the next query, clock reading or wake-up is taken. -/
theorem deplete_progress (timeout : Int) (s : St) (tr : List Ev) (h : (machine timeout).Reaches s tr) (hr : ∀ r ec, Ev.returned r ec ∉ tr) (n : Int) (k : Nat) :
    ∃ l s' e, (l = .clock n ∨ l = .queue k ∨ l = .wake) ∧ (machine timeout).step s l = some (s', e) := by
  have hi := reach_inv h
  cases hp : s.pc with
  | begin => exact ⟨.clock n, _, _, by simp, by simp only [machine, step, hp]; rfl⟩
  | query =>
    by_cases hk : k = 0
    · exact ⟨.queue k, _, _, by simp, by simp only [machine, step, hp, if_pos hk]; rfl⟩
    · exact ⟨.queue k, _, _, by simp, by simp only [machine, step, hp, if_neg hk]; rfl⟩
  | test =>
    by_cases hk : n + ms < s.deadline
    · exact ⟨.clock n, _, _, by simp, by simp only [machine, step, hp, if_pos hk]; rfl⟩
    · exact ⟨.clock n, _, _, by simp, by simp only [machine, step, hp, if_neg hk]; rfl⟩
  | sleeping => exact ⟨.wake, _, _, by simp, by simp only [machine, step, hp]; rfl⟩
  | done =>
    simp only [Inv, hp] at hi
    obtain ⟨m, rs, fin, rfl, -, hf⟩ := hi
    cases hf with
    | empty => exact absurd (by simp) (hr true 0)
    | error e he => exact absurd (by simp) (hr false e)
    | late k n hk hn => exact absurd (by simp) (hr false 0)

/-- two sleeps, then empty -/
example : ∃ s, (machine 5).Reaches s [.clock 10, .queue 7, .clock 20, .slept, .queue 3, .clock 1000100, .slept, .queue 0, .returned true 0] :=
  ⟨_, [.clock 10, .queue 7, .clock 20, .wake, .queue 3, .clock 1000100, .wake, .queue 0], rfl⟩
/-- the default time-out of 0 ms: one look -/
example : ∃ s, (machine 0).Reaches s [.clock 10, .queue 7, .clock 20, .returned false 0] := ⟨_, [.clock 10, .queue 7, .clock 20], rfl⟩
example : ClockAdvances [.clock 10, .queue 7, .clock 20, .slept, .queue 3, .clock 1000100, .slept, .queue 0, .returned true 0] := by
  intro p m n q h
  simp only [List.cons_append, List.cons.injEq, Ev.clock.injEq] at h
  obtain ⟨rfl, h⟩ := h
  rcases p with _ | ⟨a, _ | ⟨b, _ | ⟨c, _ | ⟨d, _ | ⟨e, _ | ⟨f, _ | ⟨g, _ | ⟨i, p⟩⟩⟩⟩⟩⟩⟩⟩ <;>
    simp at h <;> grind [List.countP_cons, List.countP_nil, isSleep]

end Verif.TcpUtil
