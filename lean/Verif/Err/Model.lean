import Verif.Err.Spec
/-!
# Model of the way errors take through the library's layers

koios::exception, uring_exception, socket_exception (include/koios/exceptions.h 25-64, 98-142); append_all, recv_fill_buffer,
read_fill_buffer and their throwing overloads (src/iouring_awaitables.cc 61-216); unique_file_state::append_async
(src/unique_file_state.cc 23-47); the throwing members of the results (src/iouring_ioret.cc 38-70).

Only the errors and the numbers of bytes are modelled; the bytes are the subject of C43-C45.  As in `Verif.Stream` a function is
run against the list of answers of its environment; `none`: the list has ended and the function is still running.
-/

namespace Verif.Err

/-- An exception object. -/
inductive Exc where
  | plain (ec : Code)                    -- koios::exception or a class that does not override error_code(): m_ec
  | uring (base own : Code)              -- uring_exception, socket_exception: koios::exception::m_ec and the member that hides it
  | foreign                              -- not a koios::exception
  deriving DecidableEq, Repr

/-- koios::exception{}, koios::exception{string}: exceptions.h 28-36; thread_pool_stopped_exception 70-82 -/
def plainMsg : Exc := .plain ⟨.koios, 1⟩

/-- uring_exception(error_code) 113-116, socket_exception 138-141: the code is given to the base class; the own member is
default-constructed -/
def uringOf (c : Code) : Exc := .uring c success

/-- error_code() of the dynamic type: exceptions.h 52-55, 119-122 -/
def Exc.code : Exc → Option Code
  | .plain c => some c
  | .uring _ own => some own
  | .foreign => none

/-- the code whose message what() is: exceptions.h 38-41, 48 (`m_msg` of the base class) -/
def Exc.what : Exc → Option Code
  | .plain c => some c
  | .uring b _ => some b
  | .foreign => none

/-- The answer of the environment to one operation. -/
inductive Ans where
  | done (n : Nat)                       -- n bytes
  | fail (e : Nat) (h : e ≠ 0)           -- error_code() of the result is e
  | threw (x : Exc)                      -- co_await of the operation throws (event_loop.h 75: the runtime was stopped)
  deriving DecidableEq, Repr

/-- error_code() of a result: iouring_ioret.cc 23-29 -/
def sys (e : Nat) : Code := ⟨.system, e⟩

/-- How a call of a function with an error_code& parameter ends: the parameter, and the value returned or the exception. -/
structure Out where
  ec : Code
  res : Except Exc Nat
  deriving Repr

/-- append_all with an error code (iouring_awaitables.cc 73-86).  An exception goes through: the coroutine has no handler (noexcept
of a coroutine concerns the call only, the exception is delivered by co_await). -/
def appendAll : List Ans → Nat → Code → Option Out
  | [], left, ec => if left = 0 then some ⟨ec, .ok 0⟩ else none
  | a :: as, left, ec =>
    if left = 0 then some ⟨ec, .ok 0⟩
    else match a with
      | .done n => appendAll as (left - n) success
      | .fail e _ => some ⟨sys e, .ok 0⟩
      | .threw x => some ⟨ec, .error x⟩

/-- append_all without an error code (61-71) -/
def appendAllThrowing (as : List Ans) (left : Nat) : Option (Except Exc Nat) :=
  (appendAll as left success).map fun o =>
    match o.res with
    | .error x => .error x
    | .ok n => if o.ec.val ≠ 0 then .error (uringOf o.ec) else .ok n

/-- recv_fill_buffer and read_fill_buffer with an error code (104-156) and after_read_or_recv (88-102); the Boolean of an answer:
`system_clock::now() < timeout` before the operation. -/
def fill : List (Bool × Ans) → Nat → Nat → Code → Option Out
  | [], left, wrote, ec => if ec.val ≠ 0 ∨ left = 0 then some ⟨ec, .ok wrote⟩ else none
  | (inTime, a) :: as, left, wrote, ec =>
    if ec.val ≠ 0 ∨ left = 0 ∨ inTime = false then some ⟨ec, .ok wrote⟩
    else match a with
      | .done n => fill as (left - n) (wrote + n) ec
      | .fail e _ => if e = 62 then some ⟨ec, .ok wrote⟩ else some ⟨sys e, .ok wrote⟩
      | .threw x => match x.code with
        | some c => some ⟨c, .ok 0⟩              -- 120-124: catch (const koios::exception&)
        | none => some ⟨⟨.koios, 1⟩, .ok 0⟩      -- 125-129: catch (...)

/-- recv_fill_buffer and read_fill_buffer without an error code (170-216): std_canceled_ec() is ECANCELED = 125 -/
def fillThrowing (as : List (Bool × Ans)) (left : Nat) : Option (Except Exc Nat) :=
  (fill as left 0 success).map fun o =>
    match o.res with
    | .error x => .error x
    | .ok n => if o.ec.val ≠ 0 ∧ o.ec ≠ ⟨.system, 125⟩ then .error (uringOf o.ec) else .ok n

/-- the loop of unique_file_state::append_async (unique_file_state.cc 27-39) with a 64-bit `left` -/
def appendAsyncLoop : List Ans → Nat → Code → Option Out
  | [], left, ec => if left = 0 then some ⟨ec, .ok 0⟩ else none
  | a :: as, left, ec =>
    if left = 0 then some ⟨ec, .ok 0⟩
    else match a with
      | .done n => appendAsyncLoop as ((left + (2 ^ 64 - n)) % 2 ^ 64) success
      | .fail e _ => some ⟨sys e, .ok 0⟩
      | .threw x => some ⟨ec, .error x⟩

/-- unique_file_state::append_async with its handler (40-46), which is for uring_exception only; `hasEc` is the value of the
uninitialized member m_has_ec.  The code that is returned is `ec` of the result. -/
def appendAsync (as : List Ans) (left : Nat) (hasEc : Bool) : Option Out :=
  (appendAsyncLoop as left success).map fun o =>
    match o.res with
    | .ok _ => o
    | .error (.uring _ own) => ⟨if hasEc = true then own else ⟨.koios, 1⟩, .ok 0⟩
    | .error _ => o

/-- get_fd, get_client, number_canceled of a result (iouring_ioret.cc 38-70); `ret`: what the kernel answered -/
def fromResult : Ans → Except Exc Nat
  | .done n => .ok n
  | .fail e _ => .error (uringOf (sys e))
  | .threw x => .error x

/-! ### What the caller sees -/

def toldExc (x : Exc) : Told := match x.code with
  | some c => .exc c
  | none => .excOther

def tellThrowing : Except Exc Nat → Told
  | .ok n => .fine n
  | .error x => toldExc x

def tellOut (o : Out) : Told := match o.res with
  | .ok n => if o.ec.val = 0 then .fine n else .code o.ec n
  | .error x => toldExc x

end Verif.Err
