import Verif.Common.Machine
/-!
# What a user of `op_batch` and of the single operations relies on for the arguments they pass (C76)

The arguments the library copies (path strings, socket addresses, time stamps) stay readable for the kernel, at an address that does not change, for as long as the batch exists;
afterwards each copy is destroyed exactly once and its memory given back exactly once, to the memory resource it came from.
-/

namespace Verif.Storage

/-- What happens. Addresses, memory resources and batch objects are numbered in the order of their creation. -/
inductive Ev where
  | resMade (r : Nat)                -- a memory resource is constructed
  | resGone (r : Nat)                -- … and destroyed, with all the memory it handed out
  | alloc (a r : Nat)                -- memory at `a` is obtained from resource `r`
  | free (a r : Nat)                 -- memory at `a` is given back to resource `r`
  | made (a v : Nat)                 -- a copy of the argument `v` is constructed at `a`
  | gone (a : Nat)                   -- the object at `a` is destroyed
  | born (b : Nat)                   -- a batch is constructed
  | moved (b c : Nat)                -- batch `c` is move-constructed from batch `b`
  | died (b : Nat)                   -- a batch is destroyed
  | prepped (b : Nat) (v : Option Nat) -- prep_*(…) is called on `b`; `some v`: with an argument the library has to copy
  | timed (b v : Nat)                -- timeout(v) is called on `b`
  | submitted (b : Nat) (es : List (Option Nat)) -- the entries of `b` go to the kernel; `some a`: an entry refers to address `a`
  deriving DecidableEq, Repr

/-- Memory at `a` holds a copy of `v` that may be read: it was constructed and not destroyed, and the memory was given back neither by itself nor with its whole resource. -/
def Readable (tr : List Ev) (a v : Nat) : Prop :=
  .made a v ∈ tr ∧ .gone a ∉ tr ∧ (∃ r, .alloc a r ∈ tr ∧ .resGone r ∉ tr) ∧ ∀ r, .free a r ∉ tr

/-- What has been asked of a batch: the operations in order, and the time-out. -/
structure Want where
  ops : List (Option Nat) := []
  tmo : Option Nat := none
  deriving DecidableEq, Repr

def Want.entries (w : Want) : List (Option Nat) := w.ops ++ w.tmo.toList.map some

def Want.next (w : Nat → Want) : Ev → Nat → Want
  | .prepped b v => upd w b { w b with ops := (w b).ops ++ [v] }
  | .timed b v => upd w b { w b with tmo := some v }
  | .moved b c => upd (upd w c (w b)) b {}
  | _ => w

/-- What has been asked of batch `b` so far; a move hands it over. -/
def want (tr : List Ev) (b : Nat) : Want := tr.foldl Want.next (fun _ => {}) b

/-- An entry handed to the kernel is right: it refers to a readable copy of the argument asked for, or no argument was to be copied. -/
def Right (tr : List Ev) : Option Nat → Option Nat → Prop
  | some a, some v => Readable tr a v
  | none, none => True
  | _, _ => False

/-- Two lists of the same length whose members are related one by one. -/
def All2 {α β : Type} (R : α → β → Prop) : List α → List β → Prop
  | [], [] => True
  | x :: xs, y :: ys => R x y ∧ All2 R xs ys
  | _, _ => False

end Verif.Storage
