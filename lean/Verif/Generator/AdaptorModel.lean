import Verif.Common.Machine
/-!
# Model of the generator adaptors (include/koios/generator.h 247-392)

A source generator is what C26 says about it: request number `i` is answered by `src i`, a value or
nullopt.  Nothing is assumed about it here; the theorems assume `Closed src` (nullopt for ever after
the first nullopt), which is part of C26.  Each `co_await ...next_value_async()` and each `co_yield`
is a suspension point, so it is one step; the consumer of an adaptor may stop asking at any point,
which is why the theorems speak of all reachable states.
-/

namespace Verif.Adaptor

variable {α : Type}

inductive Ev (α : Type) where
  | yielded (v : α)
  | finished                -- the adaptor's body ended: its consumer gets nullopt
  deriving DecidableEq, Repr

/-- All adaptors are driven by repeatedly resuming them. -/
inductive Lbl where
  | go
  deriving DecidableEq, Repr

/-! ## unique_impl (247-270) -/

inductive UPc (α : Type) where
  | start              -- (250)
  | loop (cmp : α)     -- (256) compared_opt holds `cmp`
  | last               -- resumed after the last co_yield (260): compared_opt = {}, loop condition fails
  | done
  deriving DecidableEq, Repr

structure USt (α : Type) where
  pc : UPc α
  i  : Nat             -- number of requests made to the source
  deriving DecidableEq, Repr

def ustep (eq : α → α → Bool) (src : Nat → Option α) (s : USt α) : Lbl → Option (USt α × List (Ev α))
  | .go =>
    match s.pc with
    | .start =>
      match src s.i with
      | none => some ({ pc := .done, i := s.i + 1 }, [.finished])
      | some a => some ({ pc := .loop a, i := s.i + 1 }, [])
    | .loop a =>
      match src s.i with
      | none => some ({ pc := .last, i := s.i + 1 }, [.yielded a])
      | some b =>
        if eq a b then some ({ pc := .loop a, i := s.i + 1 }, [])
        else some ({ pc := .loop b, i := s.i + 1 }, [.yielded a])
    | .last => some ({ s with pc := .done }, [.finished])
    | .done => none

def unique (eq : α → α → Bool) (src : Nat → Option α) : Machine (USt α) Lbl (Ev α) :=
  { init := { pc := .start, i := 0 }, step := ustep eq src }

/-! ## merge (358-392) -/

inductive MPc (α : Type) where
  | start1
  | start2 (l : Option α)
  | loop (l r : Option α)
  | fetchL (r : Option α)    -- resumed after co_yield of the left value (371, 382)
  | fetchR (l : Option α)    -- (376, 387)
  | done
  deriving DecidableEq, Repr

structure MSt (α : Type) where
  pc : MPc α
  i  : Nat   -- requests made to lhs
  j  : Nat   -- requests made to rhs
  deriving DecidableEq, Repr

def mstep (comp : α → α → Bool) (lhs rhs : Nat → Option α) (s : MSt α) :
    Lbl → Option (MSt α × List (Ev α))
  | .go =>
    match s.pc with
    | .start1 => some ({ s with pc := .start2 (lhs s.i), i := s.i + 1 }, [])
    | .start2 l => some ({ s with pc := .loop l (rhs s.j), j := s.j + 1 }, [])
    | .loop (some a) (some b) =>
      if comp a b then some ({ s with pc := .fetchL (some b) }, [.yielded a])
      else some ({ s with pc := .fetchR (some a) }, [.yielded b])
    | .loop (some a) none => some ({ s with pc := .fetchL none }, [.yielded a])
    | .loop none (some b) => some ({ s with pc := .fetchR none }, [.yielded b])
    | .loop none none => some ({ s with pc := .done }, [.finished])
    | .fetchL r => some ({ s with pc := .loop (lhs s.i) r, i := s.i + 1 }, [])
    | .fetchR l => some ({ s with pc := .loop l (rhs s.j), j := s.j + 1 }, [])
    | .done => none

def merge (comp : α → α → Bool) (lhs rhs : Nat → Option α) : Machine (MSt α) Lbl (Ev α) :=
  { init := { pc := .start1, i := 0, j := 0 }, step := mstep comp lhs rhs }

/-! ## to<Container>() and to(iterator) (272-296, 305-352)

The four variants run the same loop; `push_back` / `*iter++ =` is the event `yielded` here, the
container after the loop is the list of pushed values in order. -/

structure TSt where
  i : Nat
  done : Bool
  deriving DecidableEq, Repr

def tstep (src : Nat → Option α) (s : TSt) : Lbl → Option (TSt × List (Ev α))
  | .go =>
    if s.done then none
    else
      match src s.i with
      | some v => some ({ s with i := s.i + 1 }, [.yielded v])
      | none => some ({ i := s.i + 1, done := true }, [.finished])

def collect (src : Nat → Option α) : Machine TSt Lbl (Ev α) :=
  { init := { i := 0, done := false }, step := tstep src }

end Verif.Adaptor
