import Verif.Future.Spec
/-!
# What a consumer relies on about the data behind a future (C89)

Everything the producer did before it stored the result (filling the buffer whose address it returns, say) is visible to the consumer once the
future has told it that the result is there.
-/

namespace Verif.Hb.Fut

/-- Writes are numbered 0, 1, 2, ...; each is a write that happens before the producer's next step. -/
inductive Ev where
  | fut (e : Future.Ev)     -- an event of the future
  | wrote (i : Nat)         -- the producer writes location i
  | saw (i : Nat)           -- the consumer reads location i and sees the write
  | stale (i : Nat)         -- the consumer reads location i, but the write does not happen before the read: a data race
  deriving DecidableEq, Repr

/-- The future tells its consumer that the result is there: ready() is true, or the value, or the exception, is delivered by get_nonblk(),
co_await or get(). -/
def tells : Ev → Bool
  | .fut (.readyRet true) | .fut (.nonblkRet (.res _)) | .fut (.awaitRet (.res _)) | .fut (.getRet (.res _)) => true
  | _ => false

/-- A read made after the future has told so does not miss a write made before the result was stored. -/
def ResultVisible (tr : List Ev) : Prop :=
  ∀ p i, p ++ [.stale i] <+: tr → (∃ x ∈ p, tells x = true) →
    ¬ ∃ q r, q ++ [.fut (.produced r)] <+: p ∧ .wrote i ∈ q

end Verif.Hb.Fut
