import Verif.Common.Machine
import Verif.Common.Trace
/-!
# The step at which an event of a trace happened
-/

namespace Verif.Machine

variable {σ Λ ε : Type}

/-- Every event of a trace was emitted by some step, from a state whose trace is what precedes that step's events. -/
theorem Reaches.at_event {M : Machine σ Λ ε} {s : σ} {tr : List ε} (h : M.Reaches s tr) {pre post : List ε} {x : ε}
    (hx : tr = pre ++ x :: post) :
    ∃ s1 tr1 l s2 e q, M.Reaches s1 tr1 ∧ M.step s1 l = some (s2, e) ∧ q ++ [x] <+: e ∧ pre = tr1 ++ q := by
  have key : pre ++ [x] <+: tr → ∃ s1 tr1 l s2 e q, M.Reaches s1 tr1 ∧ M.step s1 l = some (s2, e) ∧ q ++ [x] <+: e ∧ pre = tr1 ++ q := by
    refine Reaches.inv' (M := M) (fun _ tr => pre ++ [x] <+: tr → ∃ s1 tr1 l s2 e q, M.Reaches s1 tr1 ∧
      M.step s1 l = some (s2, e) ∧ q ++ [x] <+: e ∧ pre = tr1 ++ q) ?_ ?_ h
    · intro hp; exact absurd hp not_concat_prefix_nil
    · intro s tr l s' e hr ih hs hp
      rcases concat_prefix_append_cases hp with hp | ⟨q, hq, hpq⟩
      · exact ih hp
      · exact ⟨s, tr, l, s', e, q, hr, hs, hq, hpq⟩
  exact key ⟨post, by simp [hx]⟩

/-- The same if every step emits at most one event. -/
theorem Reaches.at_event_single {M : Machine σ Λ ε} (h1 : ∀ s l s' e, M.step s l = some (s', e) → e.length ≤ 1)
    {s : σ} {tr : List ε} (h : M.Reaches s tr) {pre post : List ε} {x : ε} (hx : tr = pre ++ x :: post) :
    ∃ s1 l s2, M.Reaches s1 pre ∧ M.step s1 l = some (s2, [x]) := by
  obtain ⟨s1, tr1, l, s2, e, q, hr, hs, hq, hpre⟩ := h.at_event hx
  have hl := h1 _ _ _ _ hs
  have hlen := hq.length_le
  simp at hlen
  have hq0 : q = [] := by cases q with
    | nil => rfl
    | cons a q => simp at hlen; omega
  subst hq0
  have he : e = [x] := by
    cases e with
    | nil => simp at hq
    | cons a e => cases e with
      | nil => simp at hq; rw [hq]
      | cons b e => simp at hl
  subst he
  exact ⟨s1, l, s2, by simpa [hpre] using hr, hs⟩

end Verif.Machine
