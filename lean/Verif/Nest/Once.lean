import Verif.Nest.Props
/-!
# C14: every body ends at most once, every result is consumed at most once
-/

namespace Verif.Nest
open Machine

structure Eff (s s' : St) (e : List Ev) : Prop where
  fin : ∀ u r, u < s.n → (s.tk u).st = .fin r → (s'.tk u).st = .fin r
  fe : ∀ u r, Ev.finished u r ∈ e → e = [.finished u r] ∧ (∀ r', (s.tk u).st ≠ .fin r') ∧ u < s.n ∧ (s'.tk u).st = .fin r
  ge : ∀ u c r, Ev.got u c r ∈ e → e = [.got u c r] ∧ u < s.n ∧ ∃ i : Nat, (s.tk u).kids[i]? = some (c, false) ∧ (s'.tk u).kids[i]? = some (c, true)
  kt : ∀ (u c i : Nat), u < s.n → (s.tk u).kids[i]? = some (c, true) → (s'.tk u).kids[i]? = some (c, true)
  n : s.n ≤ s'.n

variable {b : Body} {s s' : St} {R : Nat → Res} {t : Nat} {e : List Ev}

theorem eff_setRun {bd : Body} (h : ∀ r, (s.tk t).st ≠ .fin r) : Eff s (setSt s t (.run bd)) [] := by
  constructor
  · intro u r hu; simp only [setSt, upd_apply]; split
    · rename_i q; rw [q]; intro hf; exact absurd hf (h r)
    · exact id
  · simp
  · simp
  · intro u c i hu hk; simp only [setSt, upd_apply]; split
    · rename_i q; rw [← q]; exact hk
    · exact hk
  · exact Nat.le_refl _

theorem eff_start {c : Nat} {s1 : St} (h : Eff s s1 []) : Eff s (ensureStarted s1 c) [] := by
  unfold ensureStarted
  split
  · rename_i bd hc
    constructor
    · intro u r hu hf
      have := h.fin u r hu hf
      simp only [setSt, upd_apply]; split
      · rename_i q; rw [q, hc] at this; cases this
      · exact this
    · simp
    · simp
    · intro u d i hu hk
      have := h.kt u d i hu hk
      simp only [setSt, upd_apply]; split
      · rename_i q; rw [← q]; exact this
      · exact this
    · exact h.n
  · exact h

theorem eff_wait {c i : Nat} {k : Res → Body} {s1 : St} (h : Eff s s1 []) (ht : ∀ r, (s.tk t).st ≠ .fin r) :
    Eff s { setSt s1 t (.wait i k) with tk := upd (setSt s1 t (.wait i k)).tk c { (setSt s1 t (.wait i k)).tk c with waiter := some t } } [] := by
  have e1 : ∀ u, (upd (setSt s1 t (.wait i k)).tk c { (setSt s1 t (.wait i k)).tk c with waiter := some t } u).st = if u = t then .wait i k else (s1.tk u).st := by
    intro u; simp only [setSt, upd_apply]; grind
  have e2 : ∀ u, (upd (setSt s1 t (.wait i k)).tk c { (setSt s1 t (.wait i k)).tk c with waiter := some t } u).kids = (s1.tk u).kids := by
    intro u; simp only [setSt, upd_apply]; grind
  constructor <;> simp only [e1, e2]
  · intro u r hu hf
    rw [if_neg]; exact h.fin u r hu hf
    rintro rfl; exact ht r hf
  · simp
  · simp
  · exact h.kt
  · exact h.n

theorem eff_finish {r : Res} {bd : Body} (h : Inv b s R) (ht : t < s.n) (hst : (s.tk t).st = .run bd) : Eff s (finish s t r) [.finished t r] := by
  have hw : ∀ p, (s.tk t).waiter = some p → p ≠ t ∧ ∃ i k, (s.tk p).st = .wait i k := by
    intro p hp
    obtain ⟨_, i, k, h1, _⟩ := h.wtr t ht p hp
    refine ⟨?_, i, k, h1⟩
    rintro rfl
    rw [hst] at h1; cases h1
  have e2 : ∀ u, ((finish s t r).tk u).kids = (s.tk u).kids := by
    intro u; unfold finish
    cases hq : (s.tk t).waiter with
    | none => simp only [setSt, upd_apply]; split <;> simp_all
    | some p =>
      simp only [setSt]
      split
      · simp only [upd_apply]; grind
      · simp only [upd_apply]; grind
  have e1 : ((finish s t r).tk t).st = .fin r := by
    unfold finish
    cases hq : (s.tk t).waiter with
    | none => simp [setSt]
    | some p => simp only [setSt]; split <;> simp
  have e3 : ∀ u r', u ≠ t → (s.tk u).st = .fin r' → ((finish s t r).tk u).st = .fin r' := by
    intro u r' hut hf
    unfold finish
    cases hq : (s.tk t).waiter with
    | none => simp only [setSt, upd_ne _ _ hut]; exact hf
    | some p =>
      obtain ⟨hpt, i, k, h1⟩ := hw p hq
      have hup : u ≠ p := by rintro rfl; rw [hf] at h1; cases h1
      simp only [setSt, upd_ne _ _ hpt, h1, upd_ne _ _ hut, upd_ne _ _ hup]; exact hf
  constructor
  · intro u r' hu hf
    exact e3 u r' (by rintro rfl; rw [hst] at hf; cases hf) hf
  · intro u r' hm
    simp only [List.mem_singleton, Ev.finished.injEq] at hm
    obtain ⟨rfl, rfl⟩ := hm
    refine ⟨rfl, ?_, ht, e1⟩
    rw [hst]; intro r'' hc; cases hc
  · simp
  · intro u c i _ hk; rw [e2]; exact hk
  · rw [finish_n]

theorem eff_spawn {lz : Bool} {c rest : Body} (ht : t < s.n) (hst : (s.tk t).st = .run (.spawn lz c rest)) : Eff s (spawn s t lz c rest) [] := by
  constructor
  · intro u r hu hf
    simp only [spawn]
    rw [upd_ne _ _ (by omega), upd_ne _ _ (by rintro rfl; rw [hst] at hf; cases hf)]; exact hf
  · simp
  · simp
  · intro u d i hu hk
    simp only [spawn]
    rw [upd_ne _ _ (by omega)]
    simp only [upd_apply]; split
    · subst u
      simp only
      have : i < (s.tk t).kids.length := by rw [List.getElem?_eq_some_iff] at hk; exact hk.1
      rw [List.getElem?_append_left this]; exact hk
    · exact hk
  · simp [spawn]

theorem eff_take {i c : Nat} {k : Res → Body} {r : Res} (ht : t < s.n) (hst : ∀ r, (s.tk t).st ≠ .fin r) (hk : (s.tk t).kids[i]? = some (c, false)) :
    Eff s (take s t i c k r).1 (take s t i c k r).2 := by
  simp only [take]
  have hi : i < (s.tk t).kids.length := by rw [List.getElem?_eq_some_iff] at hk; exact hk.1
  constructor
  · intro u r' hu hf
    simp only
    rw [upd_ne _ _ (by rintro rfl; exact hst r' hf)]; exact hf
  · simp
  · intro u d r' hm
    simp only [List.mem_singleton, Ev.got.injEq] at hm
    obtain ⟨rfl, rfl, rfl⟩ := hm
    exact ⟨rfl, ht, i, hk, by simp [hi]⟩
  · intro u d j hu hj
    simp only [upd_apply]; split
    · subst u
      simp only [List.getElem?_set]
      split
      · rename_i q; subst q; rw [hk] at hj; simp at hj
      · exact hj
    · exact hj
  · exact Nat.le_refl _

theorem step_eff (h : Inv b s R) (hs : step s t = some (s', e)) : Eff s s' e := by
  unfold step at hs
  split at hs
  · rename_i ht
    split at hs
    · rename_i v hst
      simp only [Option.some.injEq, Prod.mk.injEq] at hs
      obtain ⟨rfl, rfl⟩ := hs
      exact eff_finish h ht hst
    · rename_i v hst
      simp only [Option.some.injEq, Prod.mk.injEq] at hs
      obtain ⟨rfl, rfl⟩ := hs
      exact eff_finish h ht hst
    · rename_i hst
      simp only [Option.some.injEq, Prod.mk.injEq] at hs
      obtain ⟨rfl, rfl⟩ := hs
      exact eff_spawn ht hst
    · rename_i i k hst
      have hnf : ∀ r, (s.tk t).st ≠ .fin r := by intro r hc; rw [hst] at hc; cases hc
      split at hs
      · simp only [Option.some.injEq, Prod.mk.injEq] at hs
        obtain ⟨rfl, rfl⟩ := hs
        exact eff_setRun hnf
      · simp only [Option.some.injEq, Prod.mk.injEq] at hs
        obtain ⟨rfl, rfl⟩ := hs
        exact eff_setRun hnf
      · rename_i c hk
        split at hs
        · rename_i r hc
          simp only [Option.some.injEq] at hs
          have := eff_take (k := k) (r := r) ht hnf hk
          rw [hs] at this; exact this
        · simp only [Option.some.injEq, Prod.mk.injEq] at hs
          obtain ⟨rfl, rfl⟩ := hs
          refine eff_wait (s1 := ensureStarted s c) (eff_start ?_) hnf
          exact ⟨fun _ _ _ h => h, by simp, by simp, fun _ _ _ _ h => h, Nat.le_refl _⟩
    · rename_i i rest hst
      have hnf : ∀ r, (s.tk t).st ≠ .fin r := by intro r hc; rw [hst] at hc; cases hc
      split at hs
      · simp only [Option.some.injEq, Prod.mk.injEq] at hs
        obtain ⟨rfl, rfl⟩ := hs
        exact eff_setRun hnf
      · simp only [Option.some.injEq, Prod.mk.injEq] at hs
        obtain ⟨rfl, rfl⟩ := hs
        exact eff_start (eff_setRun hnf)
    · rename_i rest hst
      simp only [Option.some.injEq, Prod.mk.injEq] at hs
      obtain ⟨rfl, rfl⟩ := hs
      exact eff_setRun (by intro r hc; rw [hst] at hc; cases hc)
    · rename_i d rest hst
      simp only [Option.some.injEq, Prod.mk.injEq] at hs
      obtain ⟨rfl, rfl⟩ := hs
      exact eff_setRun (by intro r hc; rw [hst] at hc; cases hc)
    · rename_i i k hst
      have hnf : ∀ r, (s.tk t).st ≠ .fin r := by intro r hc; rw [hst] at hc; cases hc
      obtain ⟨c, r, hk, hc⟩ := h.woken t ht i k hst
      simp only [hk, hc, Option.some.injEq] at hs
      have := eff_take (k := k) (r := r) ht hnf hk
      rw [hs] at this; exact this
    · cases hs
  · cases hs

/-- What the trace says of the state. -/
theorem reaches_eff {b : Body} {s : St} {tr : List Ev} (h : (machine b).Reaches s tr) :
    (∀ u r, Ev.finished u r ∈ tr → u < s.n ∧ (s.tk u).st = .fin r) ∧ (∀ u c r, Ev.got u c r ∈ tr → u < s.n ∧ ∃ i : Nat, (s.tk u).kids[i]? = some (c, true)) := by
  refine Reaches.inv' (M := machine b) (fun s tr => (∀ u r, Ev.finished u r ∈ tr → u < s.n ∧ (s.tk u).st = .fin r) ∧ (∀ u c r, Ev.got u c r ∈ tr → u < s.n ∧ ∃ i : Nat, (s.tk u).kids[i]? = some (c, true))) ?_ ?_ h
  · simp
  · rintro s tr t s' e hr ⟨h1, h2⟩ hs
    obtain ⟨R, hI, _⟩ := inv_reaches hr
    have hE := step_eff hI hs
    have hn := hE.n
    constructor
    · intro u r hm
      rcases List.mem_append.1 hm with hm | hm
      · obtain ⟨a, c⟩ := h1 u r hm; exact ⟨by omega, hE.fin u r a c⟩
      · obtain ⟨_, _, a, c⟩ := hE.fe u r hm; exact ⟨by omega, c⟩
    · intro u c r hm
      rcases List.mem_append.1 hm with hm | hm
      · obtain ⟨a, i, d⟩ := h2 u c r hm; exact ⟨by omega, i, hE.kt u c i a d⟩
      · obtain ⟨_, a, i, _, d⟩ := hE.ge u c r hm; exact ⟨by omega, i, d⟩

/-- A body ends at most once. -/
theorem nest_ends_once {b : Body} {s : St} {tr : List Ev} (h : (machine b).Reaches s tr) :
    ∀ p t r r', p ++ [Ev.finished t r] <+: tr → Ev.finished t r' ∉ p := by
  refine Reaches.inv' (M := machine b) (fun _ tr => ∀ p t r r', p ++ [Ev.finished t r] <+: tr → Ev.finished t r' ∉ p) ?_ ?_ h
  · intro p t r r' hp; exact absurd hp not_concat_prefix_nil
  · intro s tr l s' e hr ih hs p t r r' hp
    obtain ⟨R, hI, _⟩ := inv_reaches hr
    have hE := step_eff hI hs
    rcases concat_prefix_append_cases hp with hp | ⟨q, hq, rfl⟩
    · exact ih p t r r' hp
    · obtain ⟨he, hnf, _⟩ := hE.fe t r (hq.subset (by simp))
      rw [he] at hq
      have hq0 : q = [] := by
        have := hq.length_le
        simp only [List.length_append, List.length_singleton] at this
        exact List.length_eq_zero_iff.1 (by omega)
      subst hq0
      rw [List.append_nil]
      intro hm
      exact hnf r' ((reaches_eff hr).1 t r' hm).2

/-- A result is delivered at most once, to one `co_await`. -/
theorem nest_got_once {b : Body} {s : St} {tr : List Ev} (h : (machine b).Reaches s tr) :
    ∀ p t t' c r r', p ++ [Ev.got t c r] <+: tr → Ev.got t' c r' ∉ p := by
  refine Reaches.inv' (M := machine b) (fun _ tr => ∀ p t t' c r r', p ++ [Ev.got t c r] <+: tr → Ev.got t' c r' ∉ p) ?_ ?_ h
  · intro p t t' c r r' hp; exact absurd hp not_concat_prefix_nil
  · intro s tr l s' e hr ih hs p t t' c r r' hp
    obtain ⟨R, hI, _⟩ := inv_reaches hr
    have hE := step_eff hI hs
    rcases concat_prefix_append_cases hp with hp | ⟨q, hq, rfl⟩
    · exact ih p t t' c r r' hp
    · obtain ⟨he, htn, i, hk, _⟩ := hE.ge t c r (hq.subset (by simp))
      rw [he] at hq
      have hq0 : q = [] := by
        have := hq.length_le
        simp only [List.length_append, List.length_singleton] at this
        exact List.length_eq_zero_iff.1 (by omega)
      subst hq0
      rw [List.append_nil]
      intro hm
      obtain ⟨htn', i', hk'⟩ := (reaches_eff hr).2 t' c r' hm
      obtain ⟨rfl, rfl⟩ := hI.uniq t t' htn htn' _ _ _ _ _ hk hk'
      rw [hk] at hk'; simp at hk'

end Verif.Nest
