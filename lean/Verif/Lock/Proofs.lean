import Verif.Lock.Model
import Verif.Common.Linear
/-!
# Helper lemmas for the RAII locks
-/

namespace Verif.Lock

def Ev.isRelease (k : Nat) : Ev → Bool
  | .released j _ => j == k
  | _ => false

def Ev.isAcquire (k : Nat) : Ev → Bool
  | .acquired j _ => j == k
  | _ => false

def claimOf : Option Obj → Option Nat
  | some { mutex := some _, owns := true, tok := k } => some k
  | _ => none

def uses (k : Nat) (tr : List Ev) : Nat := tr.countP (Ev.isRelease k)

structure Inv (s : St) (tr : List Ev) : Prop where
  lin : Linear (fun d => claimOf (s.obj d)) s.next (fun k => uses k tr)
  acq : ∀ k, tr.countP (Ev.isAcquire k) = if k < s.next then 1 else 0
  mtx : ∀ d o m, s.obj d = some o → o.mutex = some m → o.owns = true → Ev.acquired o.tok m ∈ tr
  rel : ∀ k m, Ev.released k m ∈ tr → Ev.acquired k m ∈ tr

@[simp] theorem claimOf_movedFrom (o : Obj) : claimOf (some (movedFrom o)) = none := by
  simp [movedFrom, claimOf]

theorem uses_append (k : Nat) (tr e : List Ev) : uses k (tr ++ e) = uses k tr + uses k e := by
  simp [uses, List.countP_append]

theorem inv_init : Inv init [] := by
  refine ⟨Linear.init.congr ?_ ?_, by simp [init], by simp [init], by simp⟩ <;> simp [init, claimOf, uses]

theorem claim_upd (obj : Nat → Option Obj) (d : Nat) (o : Option Obj) (x : Nat) :
    claimOf (upd obj d o x) = upd (fun d => claimOf (obj d)) d (claimOf o) x := by
  simp only [upd_apply]; split <;> rfl

theorem claimOf_unlock (o : Obj) : claimOf (some (unlock o).1) = none := by
  unfold unlock
  cases o with | mk m owns k => cases m <;> cases owns <;> simp [claimOf]

theorem lin_unlock {s : St} {tr : List Ev} (h : Inv s tr) {d : Nat} {o : Obj}
    (ho : s.obj d = some o) (o' : Option Obj) (ho' : claimOf o' = none) :
    Linear (fun x => claimOf (upd s.obj d o' x)) s.next (fun k => uses k (tr ++ (unlock o).2)) := by
  cases hc : claimOf (s.obj d) with
  | none =>
    refine h.lin.congr ?_ ?_
    · intro x; simp only [upd_apply]; split
      · rename_i e; subst e; rw [ho', hc]
      · rfl
    · intro k
      rw [uses_append]
      have : uses k (unlock o).2 = 0 := by
        rw [ho] at hc
        unfold unlock
        cases o with | mk m owns t => cases m <;> cases owns <;> simp [claimOf] at hc <;> simp [uses]
      omega
  | some k =>
    have hl := h.lin.use d k hc
    refine hl.congr ?_ ?_
    · intro x; rw [claim_upd, ho']
    · intro j
      rw [uses_append]
      rw [ho] at hc
      cases o with | mk m owns t =>
        cases m <;> cases owns <;> simp [claimOf] at hc
        subst hc
        simp only [unlock, uses, Ev.isRelease, List.countP_cons, if_true, List.countP_nil]; grind

theorem unlock_acq (o : Obj) (k : Nat) : (unlock o).2.countP (Ev.isAcquire k) = 0 := by
  unfold unlock
  cases o with | mk m owns t => cases m <;> cases owns <;> simp [Ev.isAcquire]

theorem unlock_mem (o : Obj) (k m : Nat) : (Ev.released k m ∈ (unlock o).2 →
    o.mutex = some m ∧ o.owns = true ∧ o.tok = k) ∧ Ev.acquired k m ∉ (unlock o).2 := by
  unfold unlock
  cases o with | mk m owns t => cases m <;> cases owns <;> simp <;> grind

theorem unlock_obj (o : Obj) : (unlock o).1.mutex = o.mutex ∧
    ((unlock o).1.owns = true → o.mutex = none) := by
  unfold unlock
  cases o with | mk m owns t => cases m <;> cases owns <;> simp

theorem unlock_owns (o : Obj) : (unlock o).1.owns = true → o.owns = true := by
  unfold unlock
  cases o with | mk m owns t => cases m <;> cases owns <;> simp

theorem rel_unlock {s : St} {tr : List Ev} (h : Inv s tr) {d : Nat} {o : Obj}
    (ho : s.obj d = some o) :
    ∀ k m, Ev.released k m ∈ tr ++ (unlock o).2 → Ev.acquired k m ∈ tr ++ (unlock o).2 := by
  intro k m hm
  rw [List.mem_append] at hm
  rcases hm with hm | hm
  · simp [h.rel k m hm]
  · obtain ⟨a, b, c⟩ := (unlock_mem o k m).1 hm
    have := h.mtx d o m ho a b
    rw [c] at this
    simp [this]

theorem acq_unlock {s : St} {tr : List Ev} (h : Inv s tr) (o : Obj) (k : Nat) :
    (tr ++ (unlock o).2).countP (Ev.isAcquire k) = if k < s.next then 1 else 0 := by
  rw [List.countP_append, unlock_acq, h.acq]; rfl

/-- A fresh acquisition stored in slot `d`. -/
theorem inv_new {s : St} {tr : List Ev} (h : Inv s tr) (d m : Nat)
    (hd : claimOf (s.obj d) = none) :
    Inv { s with obj := upd s.obj d (some { mutex := some m, owns := true, tok := s.next }),
                 next := s.next + 1 } (tr ++ [.acquired s.next m]) := by
  refine ⟨(h.lin.new d hd).congr ?_ ?_, ?_, ?_, ?_⟩
  · intro x; rw [claim_upd]; rfl
  · intro k; rw [uses_append]; simp [uses, Ev.isRelease]
  · intro k
    rw [List.countP_append, h.acq]
    simp only [List.countP_cons, List.countP_nil, Ev.isAcquire, beq_iff_eq]
    split <;> split <;> split <;> omega
  · intro x o m' hx hm ho
    dsimp only at hx
    simp only [upd_apply] at hx
    split at hx
    · simp only [Option.some.injEq] at hx; subst hx
      simp only [Option.some.injEq] at hm; subst hm
      simp
    · simp [h.mtx x o m' hx hm ho]
  · intro k m' hm
    simp at hm
    simp [h.rel k m' hm]

theorem inv_step (s : St) (tr : List Ev) (l : Lbl) (s' : St) (e : List Ev)
    (h : Inv s tr) (hst : step s l = some (s', e)) : Inv s' (tr ++ e) := by
  unfold step at hst
  split at hst
  · simp at hst
  cases l with
  | mkDefault d =>
    dsimp only at hst
    split at hst
    · rename_i hd
      simp only [Option.some.injEq, Prod.mk.injEq] at hst
      obtain ⟨rfl, rfl⟩ := hst
      rw [List.append_nil]
      refine ⟨h.lin.congr ?_ (fun _ => rfl), h.acq, ?_, h.rel⟩
      · intro x; simp only [upd_apply]; split
        · rename_i e; subst e; simp [hd, claimOf]
        · rfl
      · intro x o m hx
        simp only [upd_apply] at hx
        have := h.mtx x o m
        grind
    · simp at hst
  | grant d m =>
    dsimp only at hst
    split at hst
    · rename_i hd
      simp only [Option.some.injEq, Prod.mk.injEq] at hst
      obtain ⟨rfl, rfl⟩ := hst
      exact inv_new h d m (by simp [hd, claimOf])
    · simp at hst
  | moveCtor d src =>
    dsimp only at hst
    split at hst
    · rename_i o hd hsrc
      simp only [Option.some.injEq, Prod.mk.injEq] at hst
      obtain ⟨rfl, rfl⟩ := hst
      rw [List.append_nil]
      have hne : d ≠ src := by rintro rfl; simp [hd] at hsrc
      refine ⟨(h.lin.move d src (by simp [hd, claimOf]) hne).congr ?_ (fun _ => rfl), h.acq, ?_, h.rel⟩
      · intro x
        simp only [upd_apply]
        by_cases h1 : x = d
        · subst h1; simp [hne, hsrc]
        · by_cases h2 : x = src
          · subst h2; simp [h1]
          · simp [h1, h2]
      · intro x o' m hx
        simp only [upd_apply] at hx
        have := h.mtx x o' m
        have := h.mtx src o m
        grind [movedFrom]
    · simp at hst
  | moveAssign d src =>
    dsimp only at hst
    split at hst
    · rename_i od os hd hsrc
      split at hst
      · rename_i o2 ho2
        simp only [Option.some.injEq, Prod.mk.injEq] at hst
        obtain ⟨rfl, rfl⟩ := hst
        have h1 := lin_unlock h hd (some (unlock od).1) (claimOf_unlock od)
        refine ⟨?_, acq_unlock h od, ?_, rel_unlock h hd⟩
        · by_cases hne : d = src
          · subst hne
            refine h1.congr ?_ (fun _ => rfl)
            intro x
            simp only [upd_same, Option.some.injEq] at ho2
            subst ho2
            simp only [upd_apply]
            by_cases hx : x = d
            · subst hx; simp
            · simp [hx]
          · refine (h1.move d src (by simp [claimOf_unlock]) hne).congr ?_ (fun _ => rfl)
            intro x
            simp only [upd_apply] at ho2 ⊢
            by_cases hx : x = d
            · subst hx; simp [hne, Ne.symm hne] at ho2 ⊢; simp [ho2]
            · by_cases hx2 : x = src
              · subst hx2; simp [hx]
              · simp [hx, hx2]
        · intro x o' m hx hm ho
          simp only [upd_apply] at hx ho2
          rw [List.mem_append]
          have h3 := unlock_obj od
          have := h.mtx x o' m
          have := h.mtx src o2 m
          grind [movedFrom]
      · simp at hst
    · simp at hst
  | unlock d =>
    dsimp only at hst
    split at hst
    · rename_i o ho
      simp only [Option.some.injEq, Prod.mk.injEq] at hst
      obtain ⟨rfl, rfl⟩ := hst
      refine ⟨lin_unlock h ho _ (claimOf_unlock o), acq_unlock h o, ?_, rel_unlock h ho⟩
      intro x o' m hx hm hw
      simp only [upd_apply] at hx
      rw [List.mem_append]
      have h3 := unlock_obj o
      have := h.mtx x o' m
      grind
    · simp at hst
  | dtor d =>
    dsimp only at hst
    split at hst
    · rename_i o ho
      simp only [Option.some.injEq, Prod.mk.injEq] at hst
      obtain ⟨rfl, rfl⟩ := hst
      refine ⟨lin_unlock h ho none rfl, acq_unlock h o, ?_, rel_unlock h ho⟩
      intro x o' m hx hm hw
      simp only [upd_apply] at hx
      rw [List.mem_append]
      have := h.mtx x o' m
      grind
    · simp at hst
  | relock d =>
    dsimp only at hst
    split at hst
    · rename_i o ho
      split at hst
      · simp only [Option.some.injEq, Prod.mk.injEq] at hst
        obtain ⟨rfl, rfl⟩ := hst
        refine ⟨h.lin.congr (fun _ => rfl) ?_, ?_, ?_, ?_⟩
        · intro k; rw [uses_append]; simp [uses, Ev.isRelease]
        · intro k; rw [List.countP_append, h.acq]; simp [Ev.isAcquire]
        · intro x o' m hx hm hw; simp [h.mtx x o' m hx hm hw]
        · intro k m hm; simp at hm; simp [h.rel k m hm]
      · rename_i m hm
        split at hst
        · simp only [Option.some.injEq, Prod.mk.injEq] at hst
          obtain ⟨rfl, rfl⟩ := hst
          refine ⟨h.lin.congr (fun _ => rfl) ?_, ?_, ?_, ?_⟩
          · intro k; rw [uses_append]; simp [uses, Ev.isRelease]
          · intro k; rw [List.countP_append, h.acq]; simp [Ev.isAcquire]
          · intro x o' m hx hm hw; simp [h.mtx x o' m hx hm hw]
          · intro k m hm; simp at hm; simp [h.rel k m hm]
        · rename_i how
          simp only [Option.some.injEq, Prod.mk.injEq] at hst
          obtain ⟨rfl, rfl⟩ := hst
          have := inv_new h d m (by rw [ho]; cases o with | mk a b c => simp at how; subst how; cases a <;> simp [claimOf])
          cases o with | mk a b c => simp at hm; subst hm; exact this
    · simp at hst
  | tryRelock d ok =>
    dsimp only at hst
    split at hst
    · rename_i o ho
      split at hst
      · simp only [Option.some.injEq, Prod.mk.injEq] at hst
        obtain ⟨rfl, rfl⟩ := hst
        refine ⟨h.lin.congr (fun _ => rfl) ?_, ?_, ?_, ?_⟩
        · intro k; rw [uses_append]; simp [uses, Ev.isRelease]
        · intro k; rw [List.countP_append, h.acq]; simp [Ev.isAcquire]
        · intro x o' m hx hm hw; simp [h.mtx x o' m hx hm hw]
        · intro k m hm; simp at hm; simp [h.rel k m hm]
      · rename_i m hm
        split at hst
        · simp only [Option.some.injEq, Prod.mk.injEq] at hst
          obtain ⟨rfl, rfl⟩ := hst
          refine ⟨h.lin.congr (fun _ => rfl) ?_, ?_, ?_, ?_⟩
          · intro k; rw [uses_append]; simp [uses, Ev.isRelease]
          · intro k; rw [List.countP_append, h.acq]; simp [Ev.isAcquire]
          · intro x o' m hx hm hw; simp [h.mtx x o' m hx hm hw]
          · intro k m hm; simp at hm; simp [h.rel k m hm]
        · rename_i how
          split at hst
          · simp only [Option.some.injEq, Prod.mk.injEq] at hst
            obtain ⟨rfl, rfl⟩ := hst
            have := inv_new h d m (by rw [ho]; cases o with | mk a b c => simp at how; subst how; cases a <;> simp [claimOf])
            cases o with | mk a b c => simp at hm; subst hm; exact this
          · simp only [Option.some.injEq, Prod.mk.injEq] at hst
            obtain ⟨rfl, rfl⟩ := hst
            simpa using h
    · simp at hst

theorem inv_of_reaches {s : St} {tr : List Ev} (h : machine.Reaches s tr) : Inv s tr :=
  h.inv Inv inv_init inv_step

/-- No object claims ownership without a mutex. -/
def Honest (s : St) : Prop := ∀ d o, s.obj d = some o → o.owns = true → o.mutex.isSome = true

theorem honest_step (s : St) (l : Lbl) (s' : St) (e : List Ev) (h : Honest s)
    (hl : ∀ d, l ≠ .mkDefault d) (hst : step s l = some (s', e)) : Honest s' := by
  unfold step at hst
  split at hst
  · simp at hst
  intro x o' hx hw
  cases l with
  | mkDefault d => exact absurd rfl (hl d)
  | grant d m =>
    dsimp only at hst
    split at hst
    · simp only [Option.some.injEq, Prod.mk.injEq] at hst
      obtain ⟨rfl, rfl⟩ := hst
      simp only [upd_apply] at hx
      have := h x o'
      grind
    · simp at hst
  | moveCtor d src =>
    dsimp only at hst
    split at hst
    · rename_i o hd hsrc
      simp only [Option.some.injEq, Prod.mk.injEq] at hst
      obtain ⟨rfl, rfl⟩ := hst
      simp only [upd_apply] at hx
      have := h x o'
      have := h src o
      grind [movedFrom]
    · simp at hst
  | moveAssign d src =>
    dsimp only at hst
    split at hst
    · rename_i od os hd hsrc
      split at hst
      · rename_i o2 ho2
        simp only [Option.some.injEq, Prod.mk.injEq] at hst
        obtain ⟨rfl, rfl⟩ := hst
        simp only [upd_apply] at hx ho2
        have h3 := unlock_obj od
        have h4 := unlock_owns od
        have := h x o'
        have := h d od hd
        have := h src o2
        have h5 : (unlock od).1.owns = true → False := by
          intro a
          have b := h3.2 a
          have c := this
          have e := h d od hd (h4 a)
          simp [b] at e
        split at hx
        · split at ho2
          · simp only [Option.some.injEq] at hx ho2; subst hx; subst ho2; exact absurd hw (by simpa using h5)
          · simp only [Option.some.injEq] at hx; subst hx; exact h src o2 ho2 hw
        · split at hx
          · simp only [Option.some.injEq] at hx; subst hx; simp [movedFrom] at hw
          · exact h x o' hx hw
      · simp at hst
    · simp at hst
  | unlock d =>
    dsimp only at hst
    split at hst
    · rename_i o ho
      simp only [Option.some.injEq, Prod.mk.injEq] at hst
      obtain ⟨rfl, rfl⟩ := hst
      simp only [upd_apply] at hx
      have h3 := unlock_obj o
      have := h x o'
      have := h d o
      grind [unlock]
    · simp at hst
  | dtor d =>
    dsimp only at hst
    split at hst
    · simp only [Option.some.injEq, Prod.mk.injEq] at hst
      obtain ⟨rfl, rfl⟩ := hst
      simp only [upd_apply] at hx
      have := h x o'
      grind
    · simp at hst
  | relock d =>
    dsimp only at hst
    have := h x o'
    split at hst
    · split at hst
      · simp only [Option.some.injEq, Prod.mk.injEq] at hst
        obtain ⟨rfl, rfl⟩ := hst
        exact h x o' hx hw
      · split at hst <;> simp only [Option.some.injEq, Prod.mk.injEq] at hst <;>
          obtain ⟨rfl, rfl⟩ := hst
        · exact h x o' hx hw
        · simp only [upd_apply] at hx
          grind
    · simp at hst
  | tryRelock d ok =>
    dsimp only at hst
    have := h x o'
    split at hst
    · split at hst
      · simp only [Option.some.injEq, Prod.mk.injEq] at hst
        obtain ⟨rfl, rfl⟩ := hst
        exact h x o' hx hw
      · split at hst
        · simp only [Option.some.injEq, Prod.mk.injEq] at hst
          obtain ⟨rfl, rfl⟩ := hst
          exact h x o' hx hw
        · split at hst <;> simp only [Option.some.injEq, Prod.mk.injEq] at hst <;>
            obtain ⟨rfl, rfl⟩ := hst
          · simp only [upd_apply] at hx
            grind
          · exact h x o' hx hw
    · simp at hst

theorem eq_of_countP_le_one {α : Type} (p : α → Bool) {l : List α} (h : l.countP p ≤ 1) {a b : α}
    (ha : a ∈ l) (hb : b ∈ l) (pa : p a = true) (pb : p b = true) : a = b := by
  induction l with
  | nil => simp at ha
  | cons x l ih =>
    rw [List.countP_cons] at h
    have key : ∀ c, c ∈ l → p c = true → 0 < l.countP p := fun c hc hp =>
      List.countP_pos_iff.2 ⟨c, hc, hp⟩
    rw [List.mem_cons] at ha hb
    rcases ha with rfl | ha <;> rcases hb with rfl | hb
    · rfl
    · have := key b hb pb; rw [if_pos pa] at h; omega
    · have := key a ha pa; rw [if_pos pb] at h; omega
    · exact ih (by omega) ha hb

theorem Inv.acq_unique {s : St} {tr : List Ev} (h : Inv s tr) {k m m' : Nat}
    (h1 : Ev.acquired k m ∈ tr) (h2 : Ev.acquired k m' ∈ tr) : m = m' := by
  have := eq_of_countP_le_one (Ev.isAcquire k) (l := tr) (by rw [h.acq]; split <;> omega) h1 h2
    (by simp [Ev.isAcquire]) (by simp [Ev.isAcquire])
  simpa using this

end Verif.Lock
