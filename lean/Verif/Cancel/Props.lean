import Verif.OpBatch.Props
/-!
# C42: cancelling operations; error codes of exceptions

The library: src/iouring_op_functions.cc 301-321, src/iouring_op_batch.cc 137-203, src/iouring_ioret.cc 38-70,
include/koios/exceptions.h 26-127.  The kernel (assumption, io_uring_prep_cancel(3)): a cancel entry matches outstanding requests by user
data, or all of them with CANCEL_ANY; it cancels the first match and reports 0 (-ENOENT if there is none), or, with CANCEL_ALL or
CANCEL_ANY, all matches and reports their number.
-/

namespace Verif.Cancel
open Verif.OpBatch

/-- an outstanding request -/
structure Req where
  id : Nat
  ud : Nat
  fd : Nat
  deriving DecidableEq, Repr

/-- a cancel entry: key, IORING_ASYNC_CANCEL_ALL, IORING_ASYNC_CANCEL_ANY -/
structure CSqe where
  key : Nat
  all : Bool
  any : Bool
  deriving DecidableEq, Repr

def CSqe.hits (c : CSqe) (r : Req) : Bool := c.any || r.ud == c.key

/-- the kernel: what stays outstanding, and the result -/
def kernel (c : CSqe) (rs : List Req) : List Req × Int :=
  if c.all || c.any then (rs.filter (fun r => !c.hits r), (rs.countP c.hits : Nat))
  else if rs.any c.hits then (rs.eraseP c.hits, 0) else (rs, -2)

/-- op_batch::prep_cancel_any(fd, userdata) and (fd), iouring_op_batch.cc 137-167: the fd is stored, but without
IORING_ASYNC_CANCEL_FD it means nothing -/
def prepCancelAny (_fd ud : Nat) : CSqe := ⟨ud, false, true⟩
/-- op_batch::prep_cancel_all, 169-185 -/
def prepCancelAll (ud : Nat) : CSqe := ⟨ud, true, false⟩
/-- op_batch::prep_cancel_first, 187-203 -/
def prepCancelFirst (ud : Nat) : CSqe := ⟨ud, false, false⟩

/-- uring::cancel_any, iouring_op_functions.cc 301-307 -/
def cancelAny (fd ud : Nat) : CSqe := if ud ≠ 0 then prepCancelAny fd ud else prepCancelAny fd 0
/-- uring::cancel_first, 309-314 -/
def cancelFirst (ud : Nat) : CSqe := prepCancelFirst ud
/-- uring::cancel_all, 316-321: it calls prep_cancel_first -/
def cancelAll (ud : Nat) : CSqe := prepCancelFirst ud

/-- an exception of the uring layer: exceptions.h 98-127, the member of koios::exception and the member of uring_exception that
hides it; error codes as numbers, 0 is "no error" -/
structure Exc where
  base : Int
  own : Int

/-- uring_exception(error_code): only the base class is given the code, exceptions.h 113-116 -/
def uringException (ec : Int) : Exc := ⟨ec, 0⟩
/-- uring_exception::error_code, 119-122 -/
def Exc.errorCode (e : Exc) : Int := e.own
/-- koios::exception::error_code, 52-55, for the exceptions that do not override it -/
def Exc.baseErrorCode (e : Exc) : Int := e.base

/-- ioret_for_posix_fd_result::get_fd (iouring_ioret.cc 38-47), get_client 55-62, number_canceled 64-70 -/
def getFd (r : Ret) : Except Exc Int :=
  if errorCode r ≠ 0 then .error (uringException (errorCode r)) else .ok r.ret

/-! ### Theorems -/

theorem countP_eraseP (p : Req → Bool) (l : List Req) : (l.eraseP p).countP p = l.countP p - 1 := by
  induction l with
  | nil => rfl
  | cons x l ih =>
    by_cases h : p x = true
    · rw [List.eraseP_cons_of_pos h, List.countP_cons_of_pos h]; omega
    · rw [List.eraseP_cons_of_neg h, List.countP_cons_of_neg h, List.countP_cons_of_neg h, ih]

/-- `r` is the first request of coroutine `ud`. -/
def FirstOf (ud : Nat) (rs : List Req) (r : Req) : Prop :=
  ∃ a b, rs = a ++ r :: b ∧ r.ud = ud ∧ ∀ x ∈ a, x.ud ≠ ud

/-- **C42.**  cancel_first(ud) cancels the first outstanding operation with that user data and nothing else. -/
theorem cancel_first_correct (ud : Nat) (rs : List Req) (r : Req) (h : FirstOf ud rs r) :
    ∃ a b, rs = a ++ r :: b ∧ (kernel (cancelFirst ud) rs).1 = a ++ b := by
  obtain ⟨a, b, rfl, hr, ha⟩ := h
  refine ⟨a, b, rfl, ?_⟩
  have h1 : (cancelFirst ud).hits r = true := by simp [CSqe.hits, cancelFirst, prepCancelFirst, hr]
  have h2 : ∀ x ∈ a, ¬ (cancelFirst ud).hits x = true := by
    intro x hx; simp [CSqe.hits, cancelFirst, prepCancelFirst, ha x hx]
  rw [kernel, if_neg (by simp [cancelFirst, prepCancelFirst]), if_pos (by simp [h1])]
  simp only
  rw [List.eraseP_append_right _ h2, List.eraseP_cons_of_pos h1]

/-- **C42.**  If there is no such operation, cancel_first cancels nothing and reports an error. -/
theorem cancel_first_none (ud : Nat) (rs : List Req) (h : ∀ r ∈ rs, r.ud ≠ ud) (stale : Int) :
    (kernel (cancelFirst ud) rs).1 = rs ∧ errorCode (mkRet stale (kernel (cancelFirst ud) rs).2) = 2 := by
  have : (rs.any (cancelFirst ud).hits) = false := by
    rw [List.any_eq_false]; intro x hx; simp [CSqe.hits, cancelFirst, prepCancelFirst, h x hx]
  rw [kernel, if_neg (by simp [cancelFirst, prepCancelFirst]), this]
  simp [mkRet, errorCode]

/-- **C42, op_batch.**  prep_cancel_all(ud) cancels exactly the operations with that user data and reports their number. -/
theorem batch_cancel_all_correct (ud : Nat) (rs : List Req) :
    (∀ r, r ∈ (kernel (prepCancelAll ud) rs).1 ↔ r ∈ rs ∧ r.ud ≠ ud) ∧
    (kernel (prepCancelAll ud) rs).2 = (rs.countP (·.ud == ud) : Nat) := by
  rw [kernel, if_pos (by simp [prepCancelAll])]
  refine ⟨fun r => by simp [CSqe.hits, prepCancelAll], ?_⟩
  have : (prepCancelAll ud).hits = fun r => r.ud == ud := by funext r; simp [CSqe.hits, prepCancelAll]
  rw [this]

/-- **C42, what fails.**  Whenever two or more operations with the user data are outstanding, uring::cancel_all(ud) leaves one of
them uncancelled. -/
theorem cancel_all_refuted (ud : Nat) (rs : List Req) (h : 2 ≤ rs.countP (·.ud == ud)) :
    ∃ r ∈ (kernel (cancelAll ud) rs).1, r.ud = ud := by
  have hh : (cancelAll ud).hits = fun r => r.ud == ud := by
    funext r; simp [CSqe.hits, cancelAll, prepCancelFirst]
  rw [kernel, if_neg (by simp [cancelAll, prepCancelFirst])]
  split
  · simp only [hh]
    have h1 : 0 < (rs.eraseP (fun r => r.ud == ud)).countP (·.ud == ud) := by
      rw [countP_eraseP]; omega
    obtain ⟨r, hr, h2⟩ := List.countP_pos_iff.1 h1
    exact ⟨r, hr, by simpa using h2⟩
  · obtain ⟨r, hr, h2⟩ := List.countP_pos_iff.1 (by omega : 0 < rs.countP (·.ud == ud))
    exact ⟨r, hr, by simpa using h2⟩

/-- **C42, cancel_all when it works.**  At most one operation with the user data is outstanding: none is left, others stay. -/
theorem cancel_all_single_partial (ud : Nat) (rs : List Req) (h : rs.countP (·.ud == ud) ≤ 1) (r : Req) :
    r ∈ (kernel (cancelAll ud) rs).1 ↔ r ∈ rs ∧ r.ud ≠ ud := by
  have hh : (cancelAll ud).hits = fun r => r.ud == ud := by
    funext r; simp [CSqe.hits, cancelAll, prepCancelFirst]
  rw [kernel, if_neg (by simp [cancelAll, prepCancelFirst])]
  split
  · simp only [hh]
    constructor
    · intro hr
      refine ⟨List.mem_of_mem_eraseP hr, fun h2 => ?_⟩
      have h3 : 0 < (rs.eraseP (fun r => r.ud == ud)).countP (·.ud == ud) :=
        List.countP_pos_iff.2 ⟨r, hr, by simpa using h2⟩
      rw [countP_eraseP] at h3
      omega
    · rintro ⟨h1, h2⟩
      exact (List.mem_eraseP_of_neg (by simpa using h2)).2 h1
  · rename_i hn
    rw [hh] at hn
    simp at hn
    simp only
    exact ⟨fun hr => ⟨hr, hn r hr⟩, fun hr => hr.1⟩

/-- **C42, what fails.**  cancel_any(fd, ud) cancels every outstanding operation of the thread, whatever its fd and user data. -/
theorem cancel_any_refuted (fd ud : Nat) (rs : List Req) : (kernel (cancelAny fd ud) rs).1 = [] := by
  have : ∀ r, (cancelAny fd ud).hits r = true := by
    intro r; simp only [cancelAny]; split <;> simp [CSqe.hits, prepCancelAny]
  rw [kernel, if_pos (by simp only [cancelAny]; split <;> simp [prepCancelAny])]
  simp [this]

/-- **C42, what fails.**  An operation was cancelled by cancel_first, and number_canceled() is 0. -/
theorem number_canceled_refuted : ∃ rs : List Req, (kernel (cancelFirst 1) rs).1.length + 1 = rs.length ∧
    ∀ stale, nbytesDelivered (mkRet stale (kernel (cancelFirst 1) rs).2) = 0 :=
  ⟨[⟨0, 1, 0⟩], by decide, fun _ => rfl⟩

/-- **C42.**  get_fd()/get_client() return a descriptor exactly if the operation succeeded, and then the kernel's. -/
theorem get_fd_iff (stale r fd : Int) : (∃ v, getFd (mkRet stale r) = .ok v ∧ v = fd) ↔ 0 ≤ r ∧ fd = r := by
  have h1 := errorCode_mkRet stale r
  have h2 : (mkRet stale r).ret = r := by simp only [mkRet]; (repeat' split) <;> rfl
  simp only [getFd]
  split
  · rename_i hc
    simp
    intro h3 _; exact hc (h1.2 h3)
  · rename_i hc
    simp at hc
    have := h1.1 hc
    simp [h2, this, eq_comm]

/-- **C42, what fails.**  Whatever failed, the exception thrown by get_fd/get_client/number_canceled/append_all/connect_get_sock says
"no error". -/
theorem exception_loses_code_refuted (stale r : Int) (h : r < 0) :
    ∃ e, getFd (mkRet stale r) = .error e ∧ e.errorCode = 0 ∧ e.baseErrorCode ≠ 0 := by
  have h1 : errorCode (mkRet stale r) ≠ 0 := by rw [ne_eq, errorCode_mkRet]; omega
  refine ⟨uringException (errorCode (mkRet stale r)), ?_, rfl, h1⟩
  simp only [getFd, if_pos h1]

/-- hypotheses are met -/
example : FirstOf 1 [⟨0, 2, 0⟩, ⟨1, 1, 0⟩, ⟨2, 1, 3⟩] ⟨1, 1, 0⟩ ∧ 2 ≤ [Req.mk 0 2 0, ⟨1, 1, 0⟩, ⟨2, 1, 3⟩].countP (·.ud == 1) :=
  ⟨⟨[⟨0, 2, 0⟩], [⟨2, 1, 3⟩], rfl, rfl, by simp⟩, by decide⟩

end Verif.Cancel
