import Verif.Common.Trace
/-!
# What a user relies on when several tasks append to one file (C115)

`t` names calls of append_async on one unique_file_state.
-/

namespace Verif.FileAppend

inductive Ev where
  | called (t n : Nat)           -- append_async is called with a buffer of n bytes
  | wrote (t k : Nat)            -- the file grows by k bytes of the buffer of t
  | failed (t : Nat)             -- a write of t fails: nothing is written
  | delivered (t : Nat) (ok : Bool)   -- the caller of t gets its result; ok: no error
  | gone (t : Nat)               -- the coroutine frame of t has been destroyed, its lock with it
  | destroyed                    -- the unique_file_state
  | undefined                    -- a destroyed unique_file_state is used
  deriving DecidableEq, Repr

/-- The bytes of one append are together in the file: between two writes of a call no other call writes. -/
def Contiguous (tr : List Ev) : Prop :=
  ∀ p q r t a b, p ++ Ev.wrote t a :: (q ++ Ev.wrote t b :: r) = tr → ∀ u c, Ev.wrote u c ∈ q → u = t

/-- Nothing is written by a call before it is made or after its result has been delivered. -/
def WithinCall (tr : List Ev) : Prop :=
  ∀ p t k, p ++ [Ev.wrote t k] <+: tr → (∃ n, Ev.called t n ∈ p) ∧ ∀ ok, Ev.delivered t ok ∉ p

/-- Results tell errors: true only without a failed write. -/
def Honest (tr : List Ev) : Prop := ∀ p t ok, p ++ [Ev.delivered t ok] <+: tr → (ok = true ↔ Ev.failed t ∉ p)

/-- The object is destroyed only after every call has delivered its result, and not used afterwards. -/
def DestroyedAfterResults (tr : List Ev) : Prop :=
  ∀ p q, p ++ Ev.destroyed :: q = tr → (∀ t n, Ev.called t n ∈ p → ∃ ok, Ev.delivered t ok ∈ p) ∧ ∀ t n, Ev.called t n ∉ q

/-- The object is destroyed only when the frames of all calls are gone, and not used afterwards. -/
def DestroyedAfterFrames (tr : List Ev) : Prop :=
  ∀ p q, p ++ Ev.destroyed :: q = tr → (∀ t n, Ev.called t n ∈ p → Ev.gone t ∈ p) ∧ ∀ t n, Ev.called t n ∉ q

/-- number of bytes that call t has written -/
def total (t : Nat) : List Ev → Nat
  | [] => 0
  | .wrote u k :: tr => (if u = t then k else 0) + total t tr
  | _ :: tr => total t tr

end Verif.FileAppend
