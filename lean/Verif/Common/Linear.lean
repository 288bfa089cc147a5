import Verif.Common.Machine
/-!
# Linear tokens

Reusable invariant for RAII handles: `claim d` is the token that object `d` is responsible
for, `next` the next fresh token, `used k` how often token `k` has been consumed.
Proof infrastructure only; nothing here models code.
-/

namespace Verif

structure Linear (claim : Nat → Option Nat) (next : Nat) (used : Nat → Nat) : Prop where
  inj : ∀ d d' k, claim d = some k → claim d' = some k → d = d'
  live : ∀ d k, claim d = some k → k < next ∧ used k = 0
  done : ∀ k, k < next → (∀ d, claim d ≠ some k) → used k = 1
  fresh : ∀ k, next ≤ k → used k = 0

namespace Linear

variable {claim : Nat → Option Nat} {next : Nat} {used : Nat → Nat}

theorem init : Linear (fun _ => none) 0 (fun _ => 0) := by
  constructor <;> simp

theorem congr {claim' : Nat → Option Nat} {used' : Nat → Nat} (h : Linear claim next used)
    (h1 : ∀ d, claim' d = claim d) (h2 : ∀ k, used' k = used k) : Linear claim' next used' := by
  have e1 : claim' = claim := funext h1
  have e2 : used' = used := funext h2
  rw [e1, e2]; exact h

theorem new (h : Linear claim next used) (d : Nat) (hd : claim d = none) :
    Linear (upd claim d (some next)) (next + 1) used := by
  obtain ⟨a, b, c, e⟩ := h
  constructor
  · intro x y k hx hy
    simp only [upd_apply] at hx hy
    have := b x k; have := b y k; have := a x y k
    grind
  · intro x k hx
    simp only [upd_apply] at hx
    have := b x k; have := e next
    grind
  · intro k hk hall
    have hkn : k ≠ next := by
      rintro rfl; exact hall d (by simp)
    apply c k (by omega)
    intro x hx
    apply hall x
    simp only [upd_apply]
    grind
  · intro k hk; exact e k (by omega)

theorem move (h : Linear claim next used) (d s : Nat) (hd : claim d = none) (hne : d ≠ s) :
    Linear (upd (upd claim d (claim s)) s none) next used := by
  obtain ⟨a, b, c, e⟩ := h
  constructor
  · intro x y k hx hy
    simp only [upd_apply] at hx hy
    have := a x y k; have := a s x k; have := a s y k
    grind
  · intro x k hx
    simp only [upd_apply] at hx
    have := b x k; have := b s k
    grind
  · intro k hk hall
    apply c k hk
    intro x hx
    by_cases hxs : x = s
    · subst hxs
      apply hall d
      simp [upd_apply, hne, hx]
    · apply hall x
      have : x ≠ d := by rintro rfl; simp [hd] at hx
      simp [upd_apply, hxs, this, hx]
  · exact e

theorem use (h : Linear claim next used) (d k : Nat) (hd : claim d = some k) :
    Linear (upd claim d none) next (fun j => used j + if j = k then 1 else 0) := by
  obtain ⟨a, b, c, e⟩ := h
  constructor
  · intro x y j hx hy
    simp only [upd_apply] at hx hy
    have := a x y j
    grind
  · intro x j hx
    simp only [upd_apply] at hx
    have := b x j; have := a d x j
    grind
  · intro j hj hall
    by_cases hjk : j = k
    · subst hjk; simp [(b d j hd).2]
    · simp only [hjk, if_false, Nat.add_zero]
      apply c j hj
      intro x hx
      apply hall x
      have : x ≠ d := by rintro rfl; rw [hd] at hx; grind
      simp [upd_apply, this, hx]
  · intro j hj
    have := b d k hd
    have h2 := e j hj
    simp only [h2]
    have : j ≠ k := by omega
    simp [this]

end Linear
end Verif
