import Verif.Common.Machine
import Verif.Common.Trace
/-!
# Prefixes of traces
-/

namespace Verif.Machine
variable {σ Λ ε : Type}

/-- If every step emits at most one event, every prefix of a trace is a trace. -/
theorem Reaches.prefix_single {M : Machine σ Λ ε} (h1 : ∀ s l s' e, M.step s l = some (s', e) → e.length ≤ 1) {s : σ} {tr p : List ε}
    (h : M.Reaches s tr) (hp : p <+: tr) : ∃ s', M.Reaches s' p := by
  refine Reaches.inv' (M := M) (fun _ tr => ∀ p, p <+: tr → ∃ s', M.Reaches s' p) ?_ ?_ h p hp
  · clear hp p
    intro p hp
    rw [List.prefix_nil] at hp
    subst hp
    exact ⟨_, Reaches.init M⟩
  · clear hp p
    intro s tr l s' e hr hI hs p hp
    have hl := h1 _ _ _ _ hs
    match e, hl with
    | [], _ => exact hI p (by simpa using hp)
    | [x], _ =>
      rcases prefix_concat_iff.1 hp with hp | rfl
      · exact hI p hp
      · exact ⟨_, hr.step hs⟩

end Verif.Machine
