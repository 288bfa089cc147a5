import Verif.Nest.Spec
/-!
# When a program ends, if only sleeping takes time (C113)

`done b [] t`: when the body `b` that begins at time `t` ends: tasks created in it run beside it, `co_await` waits for the end of a task, `sleep_for(d)` takes `d`, everything else takes no time.
No worker, queue or timer occurs in this file.
-/

namespace Verif.ForkJoin
open Verif.Nest (Body Exc Res)

/-- When a local task ends: it has begun and ends at `f`, or it is lazy and ends at `g t` when it is started at `t`. -/
inductive When where
  | at (f : Nat)
  | after (g : Nat → Nat)

def When.due : When → Nat → Nat
  | .at f, _ => f
  | .after g, now => g now

/-- What a body knows of a local task: its result, whether the result was consumed, when it ends. -/
structure Kid where
  res : Res
  got : Bool
  when : When

def Kid.start (x : Kid) (now : Nat) : Kid := { x with when := .at (x.when.due now) }

def done : Body → List Kid → Nat → Nat
  | .ret _, _, now => now
  | .throw _, _, now => now
  | .spawn lz c rest, env, now => done rest (env ++ [⟨Nest.den c [], false, if lz then .after fun t => done c [] t else .at (done c [] now)⟩]) now
  | .start i rest, env, now =>
    match env[i]? with
    | none => done rest env now
    | some x => done rest (env.set i (x.start now)) now
  | .await i k, env, now =>
    match env[i]? with
    | none => done (k (.exc .hasBeenGot)) env now
    | some x => done (k (if x.got then .exc .hasBeenGot else x.res)) (env.set i { x.start now with got := true }) (max now (x.when.due now))
  | .yield rest, env, now => done rest env now
  | .sleep d rest, env, now => done rest env (now + d)

/-- Two tasks that sleep 5 and 3 side by side need 5, one after the other 8. -/
example : done (.spawn true (.sleep 5 (.ret 1)) (.start 0 (.sleep 3 (.await 0 fun _ => .ret 2)))) [] 0 = 5 := rfl
example : done (.spawn true (.sleep 5 (.ret 1)) (.sleep 3 (.await 0 fun _ => .ret 2))) [] 0 = 8 := rfl

/-- Pointwise later. -/
inductive EL : List Kid → List Kid → Prop
  | nil : EL [] []
  | cons {x y : Kid} {xs ys : List Kid} : x.res = y.res → x.got = y.got → (∀ n n', n ≤ n' → x.when.due n ≤ y.when.due n') → EL xs ys → EL (x :: xs) (y :: ys)

theorem EL.get {xs ys : List Kid} (h : EL xs ys) (i : Nat) :
    (xs[i]? = none ∧ ys[i]? = none) ∨ ∃ x y, xs[i]? = some x ∧ ys[i]? = some y ∧ x.res = y.res ∧ x.got = y.got ∧ ∀ n n', n ≤ n' → x.when.due n ≤ y.when.due n' := by
  induction h generalizing i with
  | nil => exact Or.inl ⟨rfl, rfl⟩
  | @cons x y xs ys h1 h2 h3 _ ih =>
    cases i with
    | zero => exact Or.inr ⟨x, y, rfl, rfl, h1, h2, h3⟩
    | succ i => simpa using ih i

theorem EL.set {xs ys : List Kid} (h : EL xs ys) (i : Nat) {x y : Kid} (h1 : x.res = y.res) (h2 : x.got = y.got) (h3 : ∀ n n', n ≤ n' → x.when.due n ≤ y.when.due n') : EL (xs.set i x) (ys.set i y) := by
  induction h generalizing i with
  | nil => exact .nil
  | cons h4 h5 h6 h7 ih =>
    cases i with
    | zero => exact .cons h1 h2 h3 h7
    | succ i => exact .cons h4 h5 h6 (ih i)

theorem EL.snoc {xs ys : List Kid} (h : EL xs ys) {x y : Kid} (h1 : x.res = y.res) (h2 : x.got = y.got) (h3 : ∀ n n', n ≤ n' → x.when.due n ≤ y.when.due n') : EL (xs ++ [x]) (ys ++ [y]) := by
  induction h with
  | nil => exact .cons h1 h2 h3 .nil
  | cons h4 h5 h6 _ ih => exact .cons h4 h5 h6 ih

/-- What begins later, with tasks that end later, ends later. -/
theorem done_mono (b : Body) : ∀ {xs ys : List Kid}, EL xs ys → ∀ {n n' : Nat}, n ≤ n' → done b xs n ≤ done b ys n' := by
  induction b with
  | ret => intro xs ys _ n n' h; exact h
  | throw => intro xs ys _ n n' h; exact h
  | spawn lz c rest ih1 ih2 =>
    intro xs ys hE n n' h
    simp only [done]
    have h0 : ∀ m m', m ≤ m' → (if lz then When.after fun t => done c [] t else .at (done c [] n)).due m ≤ (if lz then When.after fun t => done c [] t else .at (done c [] n')).due m' := by
      intro m m' hm
      cases lz
      · exact ih1 .nil h
      · exact ih1 .nil hm
    exact ih2 (hE.snoc (x := ⟨Nest.den c [], false, if lz then When.after fun t => done c [] t else .at (done c [] n)⟩) (y := ⟨Nest.den c [], false, if lz then When.after fun t => done c [] t else .at (done c [] n')⟩) rfl rfl h0) h
  | await i k ih =>
    intro xs ys hE n n' h
    simp only [done]
    rcases hE.get i with ⟨h1, h2⟩ | ⟨x, y, h1, h2, h3, h4, h5⟩ <;> rw [h1, h2]
    · exact ih _ hE h
    · have := h5 n n' h
      simp only [h3, h4]
      refine ih _ (hE.set i (x := { x.start n with got := true }) (y := { y.start n' with got := true }) h3 rfl fun _ _ _ => this) ?_
      omega
  | start i rest ih =>
    intro xs ys hE n n' h
    simp only [done]
    rcases hE.get i with ⟨h1, h2⟩ | ⟨x, y, h1, h2, h3, h4, h5⟩ <;> rw [h1, h2]
    · exact ih hE h
    · exact ih (hE.set i (x := x.start n) (y := y.start n') h3 h4 fun _ _ _ => h5 n n' h) h
  | yield rest ih => intro xs ys hE n n' h; exact ih hE h
  | sleep d rest ih => intro xs ys hE n n' h; exact ih hE (Nat.add_le_add_right h d)

/-- Nothing ends before it begins. -/
theorem done_ge (b : Body) : ∀ (xs : List Kid) (n : Nat), n ≤ done b xs n := by
  induction b with
  | ret => intro xs n; exact Nat.le_refl n
  | throw => intro xs n; exact Nat.le_refl n
  | spawn lz c rest ih1 ih2 => intro xs n; exact ih2 _ n
  | await i k ih =>
    intro xs n
    simp only [done]
    split
    · exact ih _ _ n
    · exact Nat.le_trans (Nat.le_max_left ..) (ih _ _ _)
  | start i rest ih =>
    intro xs n
    simp only [done]
    split <;> exact ih _ n
  | yield rest ih => intro xs n; exact ih xs n
  | sleep d rest ih => intro xs n; exact Nat.le_trans (Nat.le_add_right n d) (ih xs _)

end Verif.ForkJoin
