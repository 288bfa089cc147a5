import Verif.Nest.Proofs
import Verif.Common.Trace
/-!
# C14: results and exceptions propagate to the consumer through any nesting

All theorems: every root body `b` (any depth, any continuations, any mix of eager and lazy
children), every interleaving.
-/

namespace Verif.Nest

open Machine

theorem inv_reaches {b : Body} {s : St} {tr : List Ev} (h : (machine b).Reaches s tr) :
    ∃ R, Inv b s R ∧ (∀ t r, Ev.finished t r ∈ tr → t < s.n ∧ r = R t) ∧
      (∀ t r, t < s.n → (s.tk t).st = .fin r → Ev.finished t r ∈ tr) := by
  refine Reaches.inv (M := machine b) (fun s tr => ∃ R, Inv b s R ∧
      (∀ t r, Ev.finished t r ∈ tr → t < s.n ∧ r = R t) ∧
      (∀ t r, t < s.n → (s.tk t).st = .fin r → Ev.finished t r ∈ tr)) ?_ ?_ h
  · exact ⟨_, inv_init b, by simp, by simp [machine, init]⟩
  · rintro s tr t s' e ⟨R, hI, h1, h2⟩ hs
    obtain ⟨R', hI', _, hR, hn, hf, _⟩ := step_inv hI hs
    refine ⟨R', hI', ?_, ?_⟩
    · intro u r hu
      rcases List.mem_append.1 hu with hu | hu
      · obtain ⟨a, rfl⟩ := h1 u r hu; exact ⟨by omega, (hR u a).symm⟩
      · obtain ⟨a, rfl⟩ := hf u r hu; exact ⟨by omega, (hR u a).symm⟩
    · intro u r hu hfin
      rcases step_fin (show step s t = some (s', e) from hs) hu hfin with ⟨a, c⟩ | a
      · exact List.mem_append_left _ (h2 u r a c)
      · exact List.mem_append_right _ a

/-- **C14**: the result delivered to the consumer of the root task - value or exception - is the one
the direct reading of the program gives. -/
theorem nest_result {b : Body} {s : St} {tr : List Ev} (h : (machine b).Reaches s tr) {r : Res}
    (hr : Ev.finished 0 r ∈ tr) : r = result b := by
  obtain ⟨R, hI, h1, _⟩ := inv_reaches h
  rw [(h1 0 r hr).2, hI.root]; rfl

/-- Whatever the schedule, an execution has at most `work b []` actions. -/
theorem nest_terminates {b : Body} {ls : List Nat} {s : St} {tr : List Ev}
    (h : (machine b).run ls = some (s, tr)) : ls.length ≤ work b [] := by
  have key : ∀ (ls : List Nat) (s s' : St) (tr : List Ev) (R : Nat → Res), Inv b s R →
      (machine b).runFrom s ls = some (s', tr) → ls.length ≤ total R s := by
    intro ls
    induction ls with
    | nil => intros; exact Nat.zero_le _
    | cons l ls ih =>
      intro s s' tr R hI hr
      simp only [runFrom] at hr
      split at hr
      · cases hr
      · rename_i s1 e1 h1
        split at hr
        · cases hr
        · rename_i s2 e2 h2
          obtain ⟨R', hI', hlt, _⟩ := step_inv hI h1
          have := ih s1 _ _ R' hI' h2
          simp only [List.length_cons]; omega
  have := key ls _ _ _ _ (inv_init b) h
  refine this.trans (Nat.le_of_eq ?_)
  simp [total, init, left]

/-- As long as the root has not delivered its result somebody can act: no consumer is forgotten. -/
theorem nest_no_deadlock {b : Body} {s : St} {tr : List Ev} (h : (machine b).Reaches s tr)
    (hr : ∀ r, Ev.finished 0 r ∉ tr) : ∃ t, (machine b).step s t ≠ none := by
  obtain ⟨R, hI, _, h2⟩ := inv_reaches h
  refine progress hI s.n 0 hI.pos (by omega) hI.rootS ?_
  intro hE
  cases hst : (s.tk 0).st with
  | fin r => exact hr r (h2 0 r hI.pos hst)
  | _ => rw [hst] at hE; exact hE

/-- **C14**: an execution that has come to its end has delivered the result of the direct reading. -/
theorem nest_completes {b : Body} {s : St} {tr : List Ev} (h : (machine b).Reaches s tr)
    (hend : ∀ t, (machine b).step s t = none) : Ev.finished 0 (result b) ∈ tr := by
  apply Classical.byContradiction
  intro hn
  obtain ⟨t, ht⟩ := nest_no_deadlock h fun r hr => hn (nest_result h hr ▸ hr)
  exact ht (hend t)

/-- Every `co_await` yields exactly what the awaited body ended with, and only after it ended. -/
theorem nest_await_yields_child_result {b : Body} {s : St} {tr : List Ev} (h : (machine b).Reaches s tr) :
    ∀ p t c r, p ++ [Ev.got t c r] <+: tr → Ev.finished c r ∈ p := by
  refine Reaches.inv' (M := machine b)
    (fun _ tr => ∀ p t c r, p ++ [Ev.got t c r] <+: tr → Ev.finished c r ∈ p) ?_ ?_ h
  · intro p t c r hp; exact absurd hp not_concat_prefix_nil
  · intro s tr t s' e hreach ih hs p u c r hp
    obtain ⟨R, hI, _, h2⟩ := inv_reaches hreach
    rcases concat_prefix_append_cases hp with hp | ⟨q, hq, rfl⟩
    · exact ih p u c r hp
    · have hmem : Ev.got u c r ∈ e := hq.subset (by simp)
      have hs' : step s t = some (s', e) := hs
      refine List.mem_append_left _ (h2 c r ?_ ?_)
      · obtain ⟨_, _, _, _, _, _, hg⟩ := step_inv hI hs'
        exact (hg u c r hmem).1
      · exact step_got hs' hmem

/-- If the callers around a body let exceptions pass, the direct reading of the nest is the exception. -/
theorem result_nested_exc (e : Exc) (ks : List (Bool × (Res → Body)))
    (hks : ∀ x ∈ ks, x.2 (.exc e) = .throw e) :
    ∀ b, result b = .exc e → result (nested b ks) = .exc e := by
  induction ks with
  | nil => intro b hb; exact hb
  | cons x ks ih =>
    intro b hb
    obtain ⟨lz, k⟩ := x
    refine ih (fun y hy => hks y (List.mem_cons_of_mem _ hy)) _ ?_
    have hk : k (.exc e) = .throw e := hks (lz, k) (by simp)
    have hb' : den b [] = .exc e := hb
    simp [result, call, den, hb', hk]

/-- **C14**: an exception raised at the bottom of a nest of any depth, none of whose callers catches
it, is what the consumer at the top gets - in every completed execution, and nothing else ever. -/
theorem nest_exception_propagates (e : Exc) (ks : List (Bool × (Res → Body)))
    (hks : ∀ x ∈ ks, x.2 (.exc e) = .throw e) {s : St} {tr : List Ev}
    (h : (machine (nested (.throw e) ks)).Reaches s tr) :
    (∀ r, Ev.finished 0 r ∈ tr → r = .exc e) ∧
    ((∀ t, (machine (nested (.throw e) ks)).step s t = none) → Ev.finished 0 (.exc e) ∈ tr) := by
  have hr := result_nested_exc e ks hks (.throw e) rfl
  refine ⟨fun r h1 => (nest_result h h1).trans hr, fun hend => ?_⟩
  have := nest_completes h hend
  rwa [hr] at this

/-- A body that lets exceptions pass. -/
def passOn : Res → Body
  | .val v => .ret (v + 1)
  | .exc e => .throw e

/-- Three levels, lazy and eager: the exception arrives, the run is complete. -/
example : ∃ s tr, (machine (nested (.throw (.user 7)) [(false, passOn), (true, passOn)])).Reaches s tr ∧
    Ev.finished 0 (.exc (.user 7)) ∈ tr ∧ Ev.got 1 2 (.exc (.user 7)) ∈ tr :=
  ⟨_, _, ⟨[0, 0, 1, 2, 1, 1, 0, 0], rfl⟩, by decide⟩

/-- A caller that catches: the consumer gets the value instead. -/
example : result (call false (.throw (.user 7)) fun | .val v => .ret v | .exc _ => .ret 0) = .val 0 := rfl

end Verif.Nest
