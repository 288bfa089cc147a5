import Verif.Err.Model
/-!
# C93: an operation that failed is reported as that failure

`xs` with `f xs … = none` is a history after which the call is still under way; then the next operation fails.
-/

namespace Verif.Err

/-- number of bytes delivered by the operations of a history -/
def delivered : List (Bool × Ans) → Nat
  | [] => 0
  | (_, .done n) :: as => n + delivered as
  | _ :: as => delivered as

theorem fill_run (xs ys : List (Bool × Ans)) (left wrote : Nat) (ec : Code) (h : fill xs left wrote ec = none) :
    ∃ l, l ≠ 0 ∧ ec.val = 0 ∧ fill (xs ++ ys) left wrote ec = fill ys l (wrote + delivered xs) ec := by
  induction xs generalizing left wrote with
  | nil =>
    simp only [fill] at h
    split at h
    · simp at h
    · exact ⟨left, by grind, by grind, by simp [delivered]⟩
  | cons x xs ih =>
    obtain ⟨t, a⟩ := x
    simp only [fill] at h
    split at h
    · simp at h
    · rename_i hc
      cases a with
      | done n =>
        obtain ⟨l, h1, h2, h3⟩ := ih _ _ h
        refine ⟨l, h1, h2, ?_⟩
        rw [List.cons_append, fill, if_neg hc, h3, delivered, Nat.add_assoc]
      | fail e he => simp only at h; split at h <;> simp at h
      | threw x => simp only at h; split at h <;> simp at h

/-- **C93, functions with an error code.**  If recv_fill_buffer or read_fill_buffer is called with a clear error code and an
operation fails (with anything but a time-out) before the deadline, it returns at once, the error code is that of the failed operation,
and the number is that of the bytes delivered before.  A time-out is not an error. -/
theorem fill_blames (xs ys : List (Bool × Ans)) (left e : Nat) (he : e ≠ 0) (h : fill xs left 0 success = none) :
    ∃ o, fill (xs ++ (true, .fail e he) :: ys) left 0 success = some o ∧
      tellOut o = if e = 62 then .fine (delivered xs) else .code ⟨.system, e⟩ (delivered xs) := by
  obtain ⟨l, h1, h2, h3⟩ := fill_run xs ((true, .fail e he) :: ys) left 0 success h
  rw [h3, fill, if_neg (by simp [h1, h2])]
  by_cases h62 : e = 62
  · exact ⟨_, by rw [if_pos h62], by simp [tellOut, success, h62]⟩
  · exact ⟨_, by rw [if_neg h62], by simp [tellOut, sys, he, h62]⟩

/-- **C93, no false alarms.**  If a fill function that was called with a clear error code reports an error, then one of its
operations failed with it or threw. -/
theorem fill_no_false_alarm (xs : List (Bool × Ans)) (left wrote : Nat) (ec : Code) (o : Out) (hec : ec.val = 0)
    (h : fill xs left wrote ec = some o) (ho : ¬ (tellOut o).silent) :
    (∃ e he n, (true, Ans.fail e he) ∈ xs ∧ tellOut o = .code ⟨.system, e⟩ n) ∨
    ∃ x, (true, Ans.threw x) ∈ xs := by
  induction xs generalizing left wrote with
  | nil =>
    simp only [fill] at h
    split at h
    · simp only [Option.some.injEq] at h; subst h
      exact absurd ⟨wrote, by simp [tellOut, hec]⟩ ho
    · simp at h
  | cons x xs ih =>
    obtain ⟨t, a⟩ := x
    simp only [fill] at h
    split at h
    · simp only [Option.some.injEq] at h; subst h
      exact absurd ⟨wrote, by simp [tellOut, hec]⟩ ho
    · rename_i hc
      have ht : t = true := by simp only [not_or] at hc; simpa using hc.2.2
      subst ht
      cases a with
      | done n =>
        rcases ih _ _ h with ⟨e, he, n, h1, h2⟩ | ⟨x, h1⟩
        · exact Or.inl ⟨e, he, n, List.mem_cons_of_mem _ h1, h2⟩
        · exact Or.inr ⟨x, List.mem_cons_of_mem _ h1⟩
      | fail e he =>
        simp only at h
        split at h
        · simp only [Option.some.injEq] at h; subst h
          exact absurd ⟨wrote, by simp [tellOut, hec]⟩ ho
        · simp only [Option.some.injEq] at h; subst h
          exact Or.inl ⟨e, he, wrote, List.mem_cons_self, by simp [tellOut, sys, he]⟩
      | threw x => exact Or.inr ⟨x, List.mem_cons_self⟩

theorem appendAll_run (xs ys : List Ans) (left : Nat) (ec : Code) (h : appendAll xs left ec = none) :
    ∃ l ec', l ≠ 0 ∧ (xs = [] ∧ ec' = ec ∨ xs ≠ [] ∧ ec' = success) ∧ appendAll (xs ++ ys) left ec = appendAll ys l ec' := by
  induction xs generalizing left ec with
  | nil =>
    simp only [appendAll] at h
    split at h
    · simp at h
    · rename_i hl; exact ⟨left, ec, hl, Or.inl ⟨rfl, rfl⟩, rfl⟩
  | cons a xs ih =>
    simp only [appendAll] at h
    split at h
    · simp at h
    · rename_i hl
      cases a with
      | done n =>
        obtain ⟨l, ec', h1, h2, h3⟩ := ih _ _ h
        refine ⟨l, ec', h1, Or.inr ⟨by simp, ?_⟩, ?_⟩
        · rcases h2 with ⟨-, h2⟩ | ⟨-, h2⟩ <;> exact h2
        · rw [List.cons_append, appendAll, if_neg hl, h3]
      | fail e he => simp at h
      | threw x => simp at h

/-- **C93, functions with an error code.**  append_all, whatever the error code was before, reports the error of the operation that
failed; an exception of the operation goes to the caller unchanged. -/
theorem append_all_blames (xs ys : List Ans) (left : Nat) (ec : Code) (h : appendAll xs left ec = none) :
    (∀ e he, ∃ o, appendAll (xs ++ .fail e he :: ys) left ec = some o ∧ (tellOut o).blames ⟨.system, e⟩) ∧
    (∀ x, ∃ o, appendAll (xs ++ .threw x :: ys) left ec = some o ∧ tellOut o = toldExc x) := by
  constructor
  · intro e he
    obtain ⟨l, ec', h1, -, h3⟩ := appendAll_run xs (.fail e he :: ys) left ec h
    exact ⟨_, by rw [h3, appendAll, if_neg h1], Or.inr ⟨0, by simp [tellOut, sys, he]⟩⟩
  · intro x
    obtain ⟨l, ec', h1, -, h3⟩ := appendAll_run xs (.threw x :: ys) left ec h
    exact ⟨_, by rw [h3, appendAll, if_neg h1], by simp [tellOut]⟩

/-- **C93, functions with an error code.**  append_all with a non-empty buffer that returns and says success (whatever the error code was
before) has had only successful operations, and they took all the bytes. -/
theorem append_all_success (xs : List Ans) (left n : Nat) (ec : Code) (hl : left ≠ 0) (o : Out) (h : appendAll xs left ec = some o)
    (ho : tellOut o = .fine n) : ∃ (ys : List Nat) (zs : List Ans), xs = ys.map .done ++ zs ∧ left ≤ ys.sum := by
  induction xs generalizing left ec with
  | nil => simp [appendAll, hl] at h
  | cons a xs ih =>
    simp only [appendAll, hl, if_false] at h
    cases a with
    | done k =>
      by_cases hk : left - k = 0
      · exact ⟨[k], xs, rfl, by simp; omega⟩
      · obtain ⟨ys, zs, h1, h3⟩ := ih _ _ hk h
        exact ⟨k :: ys, zs, by rw [h1]; rfl, by simp; omega⟩
    | fail e he =>
      simp only [Option.some.injEq] at h; subst h
      simp [tellOut, sys, he] at ho
    | threw x =>
      simp only [Option.some.injEq] at h; subst h
      simp only [tellOut, toldExc] at ho
      split at ho <;> simp at ho

/-- **C93, no false alarms.**  If append_all with a non-empty buffer reports an error, one of its operations failed with it or threw it. -/
theorem append_all_no_false_alarm (xs : List Ans) (left : Nat) (ec : Code) (hl : left ≠ 0) (o : Out) (h : appendAll xs left ec = some o)
    (ho : ¬ (tellOut o).silent) :
    (∃ e he, Ans.fail e he ∈ xs ∧ tellOut o = .code ⟨.system, e⟩ 0) ∨ ∃ x, Ans.threw x ∈ xs ∧ tellOut o = toldExc x := by
  induction xs generalizing left ec with
  | nil => simp [appendAll, hl] at h
  | cons a xs ih =>
    simp only [appendAll, hl, if_false] at h
    cases a with
    | done k =>
      by_cases hk : left - k = 0
      · have : o = ⟨success, .ok 0⟩ := by
          simp only [hk] at h
          cases xs <;> simp [appendAll] at h <;> exact h.symm
        subst this
        exact absurd ⟨0, by simp [tellOut, success]⟩ ho
      · rcases ih _ _ hk h with ⟨e, he, h1, h2⟩ | ⟨x, h1, h2⟩
        · exact Or.inl ⟨e, he, List.mem_cons_of_mem _ h1, h2⟩
        · exact Or.inr ⟨x, List.mem_cons_of_mem _ h1, h2⟩
    | fail e he =>
      simp only [Option.some.injEq] at h; subst h
      exact Or.inl ⟨e, he, List.mem_cons_self, by simp [tellOut, sys, he]⟩
    | threw x =>
      simp only [Option.some.injEq] at h; subst h
      exact Or.inr ⟨x, List.mem_cons_self, by simp [tellOut]⟩

/-- **C93, throwing functions.**  append_all without an error code throws if an operation fails; what() is the
message of the operation's error. -/
theorem append_all_throws (xs ys : List Ans) (left e : Nat) (he : e ≠ 0) (h : appendAll xs left success = none) :
    ∃ x, appendAllThrowing (xs ++ .fail e he :: ys) left = some (.error x) ∧ x.what = some ⟨.system, e⟩ := by
  obtain ⟨l, ec', h1, -, h3⟩ := appendAll_run xs (.fail e he :: ys) left success h
  exact ⟨uringOf (sys e), by simp [appendAllThrowing, h3, appendAll, h1, sys, he], rfl⟩

/-- **C93, throwing functions.**  recv_fill_buffer and read_fill_buffer without an error code throw if an operation fails, unless it timed
out or was cancelled; what() is the message of the operation's error. -/
theorem fill_throws (xs ys : List (Bool × Ans)) (left e : Nat) (he : e ≠ 0) (h : fill xs left 0 success = none)
    (h1 : e ≠ 62) (h2 : e ≠ 125) :
    ∃ x, fillThrowing (xs ++ (true, .fail e he) :: ys) left = some (.error x) ∧ x.what = some ⟨.system, e⟩ := by
  obtain ⟨l, h3, h4, h5⟩ := fill_run xs ((true, .fail e he) :: ys) left 0 success h
  refine ⟨uringOf (sys e), ?_, rfl⟩
  rw [fillThrowing, h5, fill, if_neg (by simp [h3, h4]), if_neg h1]
  simp [sys, he, h2]

/-- the error code of the exception, if there is one -/
def codeOfThrown : Option (Except Exc Nat) → Option Code
  | some (.error x) => x.code
  | _ => none

/-- **C93, what fails.**  Whatever the error, error_code() of the exception thrown by append_all, recv_fill_buffer, read_fill_buffer,
get_fd, get_client, number_canceled is success: the code is stored in the base class and read from a member that hides it. -/
theorem exception_code_refuted (xs : List Ans) (zs : List (Bool × Ans)) (left e : Nat) (he : e ≠ 0)
    (hx : appendAll xs left success = none) (hz : fill zs left 0 success = none) :
    codeOfThrown (appendAllThrowing (xs ++ [.fail e he]) left) = some success ∧
    (e ≠ 62 → e ≠ 125 → codeOfThrown (fillThrowing (zs ++ [(true, .fail e he)]) left) = some success) ∧
    codeOfThrown (some (fromResult (.fail e he))) = some success := by
  refine ⟨?_, ?_, rfl⟩
  · obtain ⟨l, ec', h1, -, h3⟩ := appendAll_run xs [.fail e he] left success hx
    simp [appendAllThrowing, h3, appendAll, h1, sys, he, codeOfThrown, uringOf, Exc.code]
  · intro h1 h2
    obtain ⟨l, h3, h4, h5⟩ := fill_run zs [(true, .fail e he)] left 0 success hz
    rw [fillThrowing, h5, fill, if_neg (by simp [h3, h4]), if_neg h1]
    simp [sys, he, h2, codeOfThrown, uringOf, Exc.code]

/-- **C93, what fails.**  A cancelled operation is not reported by the throwing fill functions: the caller gets a short count. -/
theorem cancel_silent_refuted (zs : List (Bool × Ans)) (left : Nat) (hz : fill zs left 0 success = none) :
    fillThrowing (zs ++ [(true, .fail 125 (by decide))]) left = some (.ok (delivered zs)) := by
  obtain ⟨l, h3, h4, h5⟩ := fill_run zs [(true, .fail 125 (by decide))] left 0 success hz
  rw [fillThrowing, h5, fill, if_neg (by simp [h3, h4])]
  simp [sys]

/-- **C93, what fails.**  If the runtime is stopped during recv_fill_buffer, the bytes that were already taken from the stream are
reported as 0 bytes (the error code says that there was an exception). -/
theorem fill_stop_loses_count_refuted (zs : List (Bool × Ans)) (left : Nat) (hz : fill zs left 0 success = none) :
    ∃ o, fill (zs ++ [(true, .threw plainMsg)]) left 0 success = some o ∧ tellOut o = .code ⟨.koios, 1⟩ 0 := by
  obtain ⟨l, h3, h4, h5⟩ := fill_run zs [(true, .threw plainMsg)] left 0 success hz
  rw [h5, fill, if_neg (by simp [h3, h4])]
  exact ⟨_, rfl, rfl⟩

/-- **C93, what fails.**  A caller that uses its error code again: the fill functions do nothing and report the old error, and append_all of
an empty buffer reports the old error although nothing failed. -/
theorem reused_code_refuted (zs : List (Bool × Ans)) (xs : List Ans) (left : Nat) (old : Code) (h : old.isError) :
    (∃ o, fill zs left 0 old = some o ∧ tellOut o = .code old 0) ∧ ∃ o, appendAll xs 0 old = some o ∧ (tellOut o).blames old := by
  have h' : old.val ≠ 0 := h
  constructor
  · cases zs with
    | nil => exact ⟨⟨old, .ok 0⟩, by simp [fill, h'], by simp [tellOut, h']⟩
    | cons z zs => obtain ⟨t, a⟩ := z; exact ⟨⟨old, .ok 0⟩, by simp [fill, h'], by simp [tellOut, h']⟩
  · cases xs with
    | nil => exact ⟨⟨old, .ok 0⟩, by simp [appendAll], Or.inr ⟨0, by simp [tellOut, h']⟩⟩
    | cons a xs => exact ⟨⟨old, .ok 0⟩, by simp [appendAll], Or.inr ⟨0, by simp [tellOut, h']⟩⟩

/-- **C93, append_async.**  The code of a failing write is returned; if the runtime was stopped the exception goes to the caller. -/
theorem append_async_blames (left : Nat) (ys : List Ans) (hasEc : Bool) (hl : left ≠ 0) :
    (∀ e he, ∃ o, appendAsync (.fail e he :: ys) left hasEc = some o ∧ (tellOut o).blames ⟨.system, e⟩) ∧
    ∃ o, appendAsync (.threw plainMsg :: ys) left hasEc = some o ∧ tellOut o = .exc ⟨.koios, 1⟩ := by
  constructor
  · intro e he
    exact ⟨⟨sys e, .ok 0⟩, by simp [appendAsync, appendAsyncLoop, hl], Or.inr ⟨0, by simp [tellOut, sys, he]⟩⟩
  · exact ⟨⟨success, .error plainMsg⟩, by simp [appendAsync, appendAsyncLoop, hl, plainMsg], by simp [tellOut, toldExc, plainMsg, Exc.code]⟩

/-- **C93, what fails.**  If an operation inside append_async threw a uring_exception, the answer would depend on an uninitialized
member: success, or an unspecific code, but never the error `c`. -/
theorem append_async_handler_refuted (left : Nat) (ys : List Ans) (hl : left ≠ 0) (c : Code) (hc : c.cat = .system) :
    (∃ o, appendAsync (.threw (uringOf c) :: ys) left true = some o ∧ (tellOut o).silent) ∧
    (∃ o, appendAsync (.threw (uringOf c) :: ys) left false = some o ∧ ¬ (tellOut o).blames c) := by
  have hc' : (⟨.koios, 1⟩ : Code) ≠ c := fun h => by rw [← h] at hc; cases hc
  refine ⟨⟨⟨success, .ok 0⟩, by simp [appendAsync, appendAsyncLoop, hl, uringOf], 0, by simp [tellOut, success]⟩,
    ⟨⟨⟨.koios, 1⟩, .ok 0⟩, by simp [appendAsync, appendAsyncLoop, hl, uringOf], ?_⟩⟩
  simp [tellOut, Told.blames, hc']

/-- A case: 3 of 10 bytes are received, then the connection is reset (104). -/
theorem err_nontrivial :
    fill [(true, .done 3)] 10 0 success = none ∧
    (∃ o, fill [(true, .done 3), (true, .fail 104 (by decide))] 10 0 success = some o ∧ tellOut o = .code ⟨.system, 104⟩ 3) ∧
    appendAll [.done 3] 10 success = none :=
  ⟨by decide, ⟨_, rfl, by decide⟩, by decide⟩

private theorem append_loop_done {left : Nat} (hl : left < 2 ^ 64) : ∀ (ns : List Nat) (rest : List Ans), ns.sum = left →
    appendAsyncLoop (ns.map .done ++ rest) left success = some ⟨success, .ok 0⟩ := by
  intro ns
  induction ns generalizing left with
  | nil => intro rest h; simp at h; subst h; cases rest <;> simp [appendAsyncLoop]
  | cons n ns ih =>
    intro rest h
    simp only [List.sum_cons] at h
    by_cases h0 : left = 0
    · subst h0; simp [appendAsyncLoop]
    · simp only [List.map_cons, List.cons_append, appendAsyncLoop, h0, if_false]
      have e : (left + (2 ^ 64 - n)) % 2 ^ 64 = left - n := by omega
      rw [e]; exact ih (by omega) rest (by omega)

/-- append_async: when the kernel takes the buffer in pieces that add up to it, the caller is told success, whatever the further answers would be; an empty buffer needs no answer. -/
theorem appendAsync_success {left : Nat} (hl : left < 2 ^ 64) (ns : List Nat) (rest : List Ans) (hs : ns.sum = left) (hasEc : Bool) :
    ∃ o, appendAsync (ns.map .done ++ rest) left hasEc = some o ∧ tellOut o = .fine 0 :=
  ⟨⟨success, .ok 0⟩, by simp only [appendAsync, append_loop_done hl ns rest hs, Option.map_some], by simp [tellOut, success]⟩

/-- ... and it does not end while something is left and no answer has come. -/
theorem appendAsync_waits {left : Nat} (hl : left < 2 ^ 64) (ns : List Nat) (hs : ns.sum < left) (hasEc : Bool) : appendAsync (ns.map .done) left hasEc = none := by
  have key : ∀ (ns : List Nat) (left : Nat), left < 2 ^ 64 → ns.sum < left → appendAsyncLoop (ns.map .done) left success = none := by
    intro ns
    induction ns with
    | nil => intro left _ h; simp at h; simp [appendAsyncLoop]; omega
    | cons n ns ih =>
      intro left hl h
      simp only [List.sum_cons] at h
      have h0 : left ≠ 0 := by omega
      simp only [List.map_cons, appendAsyncLoop, h0, if_false]
      have e : (left + (2 ^ 64 - n)) % 2 ^ 64 = left - n := by omega
      rw [e]; exact ih _ (by omega) (by omega)
  simp [appendAsync, key ns left hl hs]

/-- Non-vacuity: ten bytes taken in three pieces. -/
example : ∃ o, appendAsync [.done 4, .done 5, .done 1, .threw plainMsg] 10 true = some o ∧ tellOut o = .fine 0 :=
  appendAsync_success (left := 10) (by omega) [4, 5, 1] [.threw plainMsg] rfl true

end Verif.Err
