import Verif.Fly.Model
import Verif.Common.Linear
/-!
# Helper lemmas for `task_on_the_fly`
-/

namespace Verif.Fly

/-- Does the event consume hand-over `k`? -/
def Ev.consumes (k : Nat) : Ev → Bool
  | .resumed j | .destroyed j | .abandoned j => j == k
  | _ => false

/-- The token an object is responsible for. -/
def claimOf : Option Obj → Option Nat
  | some { h := some k, owns := true } => some k
  | _ => none

def uses (k : Nat) (tr : List Ev) : Nat := tr.countP (Ev.consumes k)

structure Inv (s : St) (tr : List Ev) : Prop where
  lin : Linear (fun d => claimOf (s.obj d)) s.next (fun k => uses k tr)
  handed : ∀ k, Ev.handed k ∈ tr ↔ k < s.next
  once : ∀ k, tr.count (.handed k) ≤ 1

@[simp] theorem claimOf_disown (o : Obj) : claimOf (some (disown o)) = none := by
  cases o with | mk h owns => cases h <;> simp [disown, claimOf]

theorem uses_append (k : Nat) (tr e : List Ev) : uses k (tr ++ e) = uses k tr + uses k e := by
  simp [uses, List.countP_append]

theorem inv_init : Inv init [] := by
  refine ⟨Linear.init.congr ?_ ?_, by simp [init], by simp⟩ <;> simp [init, claimOf, uses]

theorem claim_upd (obj : Nat → Option Obj) (d : Nat) (o : Option Obj) (x : Nat) :
    claimOf (upd obj d o x) = upd (fun d => claimOf (obj d)) d (claimOf o) x := by
  simp only [upd_apply]; split <;> rfl

/-- After `destroy()` in slot `d` the invariant holds with the slot unclaimed. -/
theorem lin_destroy {s : St} {tr : List Ev} (h : Inv s tr) {d : Nat} {o : Obj}
    (ho : s.obj d = some o) (o' : Option Obj) (ho' : claimOf o' = none) :
    Linear (fun x => claimOf (upd s.obj d o' x)) s.next (fun k => uses k (tr ++ (destroy o).2)) := by
  cases hc : claimOf (s.obj d) with
  | none =>
    refine h.lin.congr ?_ ?_
    · intro x; simp only [upd_apply]; split
      · rename_i e; subst e; rw [ho', hc]
      · rfl
    · intro k
      rw [uses_append]
      have : uses k (destroy o).2 = 0 := by
        rw [ho] at hc
        unfold destroy
        cases o with | mk h owns => cases h <;> cases owns <;> simp_all [claimOf, uses, Ev.consumes]
      omega
  | some k =>
    have hl := h.lin.use d k hc
    refine hl.congr ?_ ?_
    · intro x; rw [claim_upd, ho']
    · intro j
      rw [uses_append]
      rw [ho] at hc
      cases o with | mk h owns =>
        cases h <;> cases owns <;> simp [claimOf] at hc
        subst hc
        simp only [destroy, uses, Ev.consumes, List.countP_cons, if_true, List.countP_nil]; grind

theorem destroy_handed (o : Obj) (k : Nat) : Ev.handed k ∉ (destroy o).2 := by
  unfold destroy
  cases o with | mk h owns => cases h <;> cases owns <;> simp

theorem destroy_count (o : Obj) (k : Nat) : (destroy o).2.count (.handed k) = 0 :=
  List.count_eq_zero.2 (destroy_handed o k)

theorem claimOf_destroy (o : Obj) : claimOf (some (destroy o).1) = none := by
  unfold destroy
  cases o with | mk h owns => cases h <;> cases owns <;> simp [claimOf]

theorem inv_step (s : St) (tr : List Ev) (l : Lbl) (s' : St) (e : List Ev)
    (h : Inv s tr) (hst : step s l = some (s', e)) : Inv s' (tr ++ e) := by
  unfold step at hst
  split at hst
  · simp at hst
  cases l with
  | mkDefault d =>
    dsimp only at hst
    split at hst
    · rename_i hd
      simp only [Option.some.injEq, Prod.mk.injEq] at hst
      obtain ⟨rfl, rfl⟩ := hst
      rw [List.append_nil]
      refine ⟨h.lin.congr ?_ (fun _ => rfl), h.handed, h.once⟩
      intro x; simp only [upd_apply]; split
      · rename_i e; subst e; simp [hd, claimOf]
      · rfl
    · simp at hst
  | mkNull d =>
    dsimp only at hst
    split at hst
    · rename_i hd
      simp only [Option.some.injEq, Prod.mk.injEq] at hst
      obtain ⟨rfl, rfl⟩ := hst
      rw [List.append_nil]
      refine ⟨h.lin.congr ?_ (fun _ => rfl), h.handed, h.once⟩
      intro x; simp only [upd_apply]; split
      · rename_i e; subst e; simp [hd, claimOf]
      · rfl
    · simp at hst
  | mk d =>
    dsimp only at hst
    split at hst
    · rename_i hd
      simp only [Option.some.injEq, Prod.mk.injEq] at hst
      obtain ⟨rfl, rfl⟩ := hst
      refine ⟨(h.lin.new d (by simp [hd, claimOf])).congr ?_ ?_, ?_, ?_⟩
      · intro x; rw [claim_upd]; rfl
      · intro k; rw [uses_append]; simp [uses, Ev.consumes]
      · intro k
        have := h.handed k
        simp only [List.mem_append, List.mem_singleton, Ev.handed.injEq, this]
        omega
      · intro k
        have h1 := h.once k
        rw [List.count_append, List.count_singleton]
        by_cases hk : k = s.next
        · subst hk
          have : tr.count (.handed s.next) = 0 := by
            rw [List.count_eq_zero, h.handed]; omega
          simp [this]
        · have hne : (Ev.handed s.next == Ev.handed k) = false := by
            simp; exact fun e => hk e.symm
          simp [hne]; exact h1
    · simp at hst
  | moveCtor d src =>
    dsimp only at hst
    split at hst
    · rename_i o hd hsrc
      simp only [Option.some.injEq, Prod.mk.injEq] at hst
      obtain ⟨rfl, rfl⟩ := hst
      rw [List.append_nil]
      have hne : d ≠ src := by rintro rfl; simp [hd] at hsrc
      refine ⟨(h.lin.move d src (by simp [hd, claimOf]) hne).congr ?_ (fun _ => rfl), h.handed, h.once⟩
      intro x
      simp only [upd_apply]
      by_cases h1 : x = d
      · subst h1; simp [hne, hsrc]
      · by_cases h2 : x = src
        · subst h2; simp [h1]
        · simp [h1, h2]
    · simp at hst
  | moveAssign d src =>
    dsimp only at hst
    split at hst
    · rename_i od os hd hsrc
      split at hst
      · rename_i o2 ho2
        simp only [Option.some.injEq, Prod.mk.injEq] at hst
        obtain ⟨rfl, rfl⟩ := hst
        have h1 := lin_destroy h hd (some (destroy od).1) (claimOf_destroy od)
        refine ⟨?_, ?_, ?_⟩
        · by_cases hne : d = src
          · subst hne
            refine h1.congr ?_ (fun _ => rfl)
            intro x
            simp only [upd_same, Option.some.injEq] at ho2
            subst ho2
            simp only [upd_apply]
            by_cases hx : x = d
            · subst hx; simp
            · simp [hx]
          · refine (h1.move d src (by simp [claimOf_destroy]) hne).congr ?_ (fun _ => rfl)
            intro x
            simp only [upd_apply] at ho2 ⊢
            by_cases hx : x = d
            · subst hx; simp [hne, Ne.symm hne] at ho2 ⊢; simp [ho2]
            · by_cases hx2 : x = src
              · subst hx2; simp [hx]
              · simp [hx, hx2]
        · intro k
          have := h.handed k
          have := destroy_handed od k
          simp_all
        · intro k; rw [List.count_append, destroy_count]; exact h.once k
      · simp at hst
    · simp at hst
  | invoke d =>
    dsimp only at hst
    split at hst
    · rename_i o ho
      split at hst
      · rename_i k h1 h2
        simp only [Option.some.injEq, Prod.mk.injEq] at hst
        obtain ⟨rfl, rfl⟩ := hst
        have hc : claimOf (s.obj d) = some k := by
          rw [ho]; cases o with | mk hh oo => simp_all [claimOf]
        refine ⟨(h.lin.use d k hc).congr ?_ ?_, ?_, ?_⟩
        · intro x; rw [claim_upd]; simp
        · intro j; rw [uses_append]; simp [uses, Ev.consumes, List.countP_cons]; grind
        · intro j; simpa using h.handed j
        · intro j; simpa [List.count_append] using h.once j
      · simp only [Option.some.injEq, Prod.mk.injEq] at hst
        obtain ⟨rfl, rfl⟩ := hst
        refine ⟨h.lin.congr (fun _ => rfl) ?_, ?_, ?_⟩
        · intro j; rw [uses_append]; simp [uses, Ev.consumes]
        · intro j; simpa using h.handed j
        · intro j; simpa [List.count_append] using h.once j
    · simp at hst
  | giveUp d =>
    dsimp only at hst
    split at hst
    · rename_i o ho
      simp only [Option.some.injEq, Prod.mk.injEq] at hst
      obtain ⟨rfl, rfl⟩ := hst
      split
      · rename_i k h1 h2
        have hc : claimOf (s.obj d) = some k := by
          rw [ho]; cases o with | mk hh oo => simp_all [claimOf]
        refine ⟨(h.lin.use d k hc).congr ?_ ?_, ?_, ?_⟩
        · intro x; rw [claim_upd]; simp
        · intro j; rw [uses_append]; simp [uses, Ev.consumes, List.countP_cons]; grind
        · intro j; simpa using h.handed j
        · intro j; simpa [List.count_append] using h.once j
      · rename_i hno
        rw [List.append_nil]
        have hc : claimOf (s.obj d) = none := by
          rw [ho]; cases o with | mk hh oo => cases hh <;> cases oo <;> simp_all [claimOf]
        refine ⟨h.lin.congr ?_ (fun _ => rfl), h.handed, h.once⟩
        intro x; simp only [upd_apply]; split
        · rename_i e; subst e; simp [hc]
        · rfl
    · simp at hst
  | dtor d =>
    dsimp only at hst
    split at hst
    · rename_i o ho
      simp only [Option.some.injEq, Prod.mk.injEq] at hst
      obtain ⟨rfl, rfl⟩ := hst
      refine ⟨lin_destroy h ho none rfl, ?_, ?_⟩
      · intro k
        have := h.handed k
        have := destroy_handed o k
        simp_all
      · intro k; rw [List.count_append, destroy_count]; exact h.once k
    · simp at hst

theorem inv_of_reaches {s : St} {tr : List Ev} (h : machine.Reaches s tr) : Inv s tr :=
  h.inv Inv inv_init inv_step

/-- Objects holding a null handle with the ownership flag set. -/
def NoNullOwner (s : St) : Prop := ∀ d o, s.obj d = some o → o.owns = true → o.h.isSome = true

theorem noNull_step (s : St) (l : Lbl) (s' : St) (e : List Ev) (h : NoNullOwner s)
    (hl : ∀ d, l ≠ .mkNull d) (hv : ∀ d, l = .invoke d → valid s d = true)
    (hst : step s l = some (s', e)) : NoNullOwner s' ∧ Ev.ub ∉ e := by
  have key : ∀ d o, s.obj d = some o → Ev.ub ∉ (destroy o).2 := by
    intro d o ho
    have := h d o ho
    unfold destroy
    cases o with | mk hh oo => cases hh <;> cases oo <;> simp_all
  have key2 : ∀ d o, s.obj d = some o → (destroy o).1.owns = true → (destroy o).1.h.isSome = true := by
    intro d o ho
    unfold destroy
    cases o with | mk hh oo => cases hh <;> cases oo <;> simp_all
  unfold step at hst
  split at hst
  · simp at hst
  cases l with
  | mkNull d => exact absurd rfl (hl d)
  | mkDefault d =>
    dsimp only at hst
    split at hst
    · simp only [Option.some.injEq, Prod.mk.injEq] at hst
      obtain ⟨rfl, rfl⟩ := hst
      refine ⟨?_, by simp⟩
      intro x o hx; simp only [upd_apply] at hx
      have := h x o
      grind
    · simp at hst
  | mk d =>
    dsimp only at hst
    split at hst
    · simp only [Option.some.injEq, Prod.mk.injEq] at hst
      obtain ⟨rfl, rfl⟩ := hst
      refine ⟨?_, by simp⟩
      intro x o hx; simp only [upd_apply] at hx
      have := h x o
      grind
    · simp at hst
  | moveCtor d src =>
    dsimp only at hst
    split at hst
    · rename_i o hd hsrc
      simp only [Option.some.injEq, Prod.mk.injEq] at hst
      obtain ⟨rfl, rfl⟩ := hst
      refine ⟨?_, by simp⟩
      intro x o' hx; simp only [upd_apply] at hx
      have := h x o'
      have := h src o
      grind [disown]
    · simp at hst
  | moveAssign d src =>
    dsimp only at hst
    split at hst
    · rename_i od os hd hsrc
      split at hst
      · rename_i o2 ho2
        simp only [Option.some.injEq, Prod.mk.injEq] at hst
        obtain ⟨rfl, rfl⟩ := hst
        refine ⟨?_, key d od hd⟩
        have h3 := key2 d od hd
        intro x o' hx
        simp only [upd_apply] at hx ho2
        have := h x o'
        have := h src o2
        grind [disown]
      · simp at hst
    · simp at hst
  | invoke d =>
    have hvd := hv d rfl
    dsimp only at hst
    split at hst
    · rename_i o ho
      simp only [valid, ho, Bool.and_eq_true] at hvd
      split at hst
      · simp only [Option.some.injEq, Prod.mk.injEq] at hst
        obtain ⟨rfl, rfl⟩ := hst
        refine ⟨?_, by simp⟩
        intro x o' hx
        simp only [upd_apply] at hx
        have := h x o'
        grind [disown]
      · rename_i hno
        obtain ⟨k, hk⟩ := Option.isSome_iff_exists.1 hvd.2
        exact absurd hk (hno k hvd.1)
    · simp at hst
  | giveUp d =>
    dsimp only at hst
    split at hst
    · rename_i o ho
      simp only [Option.some.injEq, Prod.mk.injEq] at hst
      obtain ⟨rfl, rfl⟩ := hst
      constructor
      · intro x o' hx
        simp only [upd_apply] at hx
        have := h x o'
        grind [disown]
      · split <;> simp
    · simp at hst
  | dtor d =>
    dsimp only at hst
    split at hst
    · rename_i o ho
      simp only [Option.some.injEq, Prod.mk.injEq] at hst
      obtain ⟨rfl, rfl⟩ := hst
      refine ⟨?_, key d o ho⟩
      intro x o' hx
      simp only [upd_apply] at hx
      have := h x o'
      grind
    · simp at hst

end Verif.Fly
