import Verif.Nest.Model
import Mathlib.Algebra.BigOperators.Group.Finset.Basic
import Mathlib.Algebra.BigOperators.Intervals
import Mathlib.Algebra.Order.BigOperators.Group.Finset
/-! # Invariants of nested tasks -/

namespace Verif.Nest

/-- The local tasks of a body with the results they are bound to have. -/
def envOf (R : Nat → Res) (kids : List (Nat × Bool)) : List (Res × Bool) :=
  kids.map fun p => (R p.1, p.2)

@[simp] theorem envOf_nil (R) : envOf R [] = [] := rfl
theorem envOf_append (R k c g) : envOf R (k ++ [(c, g)]) = envOf R k ++ [(R c, g)] := by simp [envOf]
theorem envOf_get (R : Nat → Res) (kids : List (Nat × Bool)) (i : Nat) :
    (envOf R kids)[i]? = kids[i]?.map fun p => (R p.1, p.2) := by
  simp [envOf]
theorem envOf_set (R kids i c g) : envOf R (kids.set i (c, g)) = (envOf R kids).set i (R c, g) := by
  simp [envOf, List.map_set]
theorem envOf_congr {R R' : Nat → Res} {kids : List (Nat × Bool)}
    (h : ∀ (i c : Nat) (g : Bool), kids[i]? = some (c, g) → R' c = R c) : envOf R' kids = envOf R kids := by
  simp only [envOf, List.map_inj_left]
  rintro ⟨c, g⟩ hm
  obtain ⟨i, hi⟩ := List.mem_iff_getElem?.1 hm
  simp [h i c g hi]

def TSt.started : TSt → Prop
  | .fresh _ => False
  | _ => True

def TSt.ended : TSt → Prop
  | .fin _ => True
  | _ => False

/-- The result a task in this state is bound to have. -/
def promised (R : Nat → Res) (T : Tk) : Res :=
  match T.st with
  | .fresh b => den b []
  | .run b => den b (envOf R T.kids)
  | .wait i k => den (.await i k) (envOf R T.kids)
  | .woken i k => den (.await i k) (envOf R T.kids)
  | .fin r => r

structure Inv (b : Body) (s : St) (R : Nat → Res) : Prop where
  pos : 0 < s.n
  root : R 0 = den b []
  rootS : (s.tk 0).st.started
  prom : ∀ t, t < s.n → R t = promised R (s.tk t)
  fresh : ∀ t, t < s.n → ∀ c, (s.tk t).st = .fresh c → (s.tk t).kids = []
  wait : ∀ t, t < s.n → ∀ i k, (s.tk t).st = .wait i k →
    ∃ c, (s.tk t).kids[i]? = some (c, false) ∧ (s.tk c).waiter = some t ∧
      ¬ (s.tk c).st.ended ∧ (s.tk c).st.started
  woken : ∀ t, t < s.n → ∀ i k, (s.tk t).st = .woken i k →
    ∃ c r, (s.tk t).kids[i]? = some (c, false) ∧ (s.tk c).st = .fin r
  kid : ∀ t, t < s.n → ∀ (i c : Nat) (g : Bool), (s.tk t).kids[i]? = some (c, g) → t < c ∧ c < s.n
  uniq : ∀ t t', t < s.n → t' < s.n → ∀ (i i' c : Nat) (g g' : Bool), (s.tk t).kids[i]? = some (c, g) →
    (s.tk t').kids[i']? = some (c, g') → t = t' ∧ i = i'
  wtr : ∀ c, c < s.n → ∀ t, (s.tk c).waiter = some t → t < s.n ∧ ∃ i k, (s.tk t).st = .wait i k ∧
    (s.tk t).kids[i]? = some (c, false)

theorem inv_init (b : Body) : Inv b (init b) (fun _ => den b []) where
  pos := Nat.one_pos
  root := rfl
  rootS := trivial
  prom := by intro t _; simp [init, promised]
  fresh := by simp [init]
  wait := by simp [init]
  woken := by simp [init]
  kid := by simp [init]
  uniq := by simp [init]
  wtr := by simp [init]

/-- Work left in one task. -/
def left (R : Nat → Res) (T : Tk) : Nat :=
  match T.st with
  | .fresh b => work b []
  | .run b => work b (envOf R T.kids)
  | .wait i k => work (.await i k) (envOf R T.kids) - 1
  | .woken i k => work (.await i k) (envOf R T.kids) - 1
  | .fin _ => 0

def total (R : Nat → Res) (s : St) : Nat := ∑ t ∈ Finset.range s.n, left R (s.tk t)

theorem total_lt {R : Nat → Res} {s s' : St} (hn : s'.n = s.n)
    (hle : ∀ t, t < s.n → left R (s'.tk t) ≤ left R (s.tk t))
    {t0 : Nat} (h0 : t0 < s.n) (hlt : left R (s'.tk t0) < left R (s.tk t0)) :
    total R s' < total R s := by
  unfold total
  rw [hn]
  exact Finset.sum_lt_sum (fun t ht => hle t (Finset.mem_range.1 ht)) ⟨t0, Finset.mem_range.2 h0, hlt⟩

theorem work_pos (b env) : 0 < work b env := by
  cases b <;> simp only [work] <;> (try split) <;> omega

section steps
variable {b : Body} {s : St} {R : Nat → Res} {t : Nat}

theorem finish_step {r : Res} {bd : Body} (h : Inv b s R) (ht : t < s.n) (hst : (s.tk t).st = .run bd)
    (hr : den bd (envOf R (s.tk t).kids) = r) :
    Inv b (finish s t r) R ∧ total R (finish s t r) < total R s := by
  have hpr := h.prom t ht
  simp only [promised, hst, hr] at hpr
  have hl : left R (s.tk t) > 0 := by simp only [left, hst]; exact work_pos _ _
  cases hw : (s.tk t).waiter with
  | none =>
    have hf : finish s t r = setSt s t (.fin r) := by simp [finish, hw]
    rw [hf]
    refine ⟨?_, total_lt rfl ?_ ht ?_⟩
    · constructor <;> try simp only [setSt, upd_apply]
      · exact h.pos
      · exact h.root
      · have := h.rootS; split <;> simp_all [TSt.started]
      · intro u hu
        have := h.prom u hu
        split
        · subst u; simp [promised, hpr]
        · exact this
      · have := h.fresh; grind
      · have := h.wait; have := h.kid; grind
      · have := h.woken; grind
      · have := h.kid; grind
      · have := h.uniq; grind
      · have := h.wtr; grind
    · intro u hu; simp only [setSt, upd_apply]; split <;> simp [left]
    · simp only [setSt, upd_apply, if_true]; simpa [left] using hl
  | some p =>
    obtain ⟨hp, i, k, hwait, hkid⟩ := h.wtr t ht p hw
    have hpt : p ≠ t := by grind
    have hf : finish s t r =
        { s with tk := upd (upd s.tk p { s.tk p with st := .woken i k }) t { s.tk t with st := .fin r, waiter := none } } := by
      simp only [finish, hw, setSt, upd_apply, hpt, if_false, hwait, if_true]
      congr 1
      funext x
      simp only [upd_apply]
      grind
    rw [hf]
    refine ⟨?_, total_lt rfl ?_ ht ?_⟩
    · constructor <;> try simp only [upd_apply]
      · exact h.pos
      · exact h.root
      · have := h.rootS; grind [TSt.started]
      · intro u hu
        have := h.prom u hu
        split
        · subst u; simp [promised, hpr]
        · split
          · subst u; simp only [promised, hwait] at this; simpa [promised] using this
          · exact this
      · have := h.fresh; grind
      · intro u hu i' k' hu'
        have hut : u ≠ t := by rintro rfl; simp at hu'
        have hup : u ≠ p := by rintro rfl; simp [hut] at hu'
        simp only [hut, hup, if_false] at hu' ⊢
        obtain ⟨d, e1, e2, e3, e4⟩ := h.wait u hu i' k' hu'
        have hdt : d ≠ t := by rintro rfl; exact hup (h.uniq u p hu hp _ _ _ _ _ e1 hkid).1
        refine ⟨d, e1, ?_⟩
        simp only [hdt, if_false]
        split
        · subst d; exact ⟨e2, by simp [TSt.ended], by simp [TSt.started]⟩
        · exact ⟨e2, e3, e4⟩
      · have := h.woken; grind
      · have := h.kid; grind
      · have := h.uniq; grind
      · have := h.wtr; grind
    · intro u hu; simp only [upd_apply]
      split
      · simp [left]
      · split
        · subst u; simp [left, hwait]
        · simp
    · simp only [upd_apply, if_true]; simpa [left] using hl

theorem setRun_step {bd bd' : Body} (h : Inv b s R) (ht : t < s.n) (hst : (s.tk t).st = .run bd)
    (hr : den bd (envOf R (s.tk t).kids) = den bd' (envOf R (s.tk t).kids))
    (hw : work bd' (envOf R (s.tk t).kids) < work bd (envOf R (s.tk t).kids)) :
    Inv b (setSt s t (.run bd')) R ∧ total R (setSt s t (.run bd')) < total R s := by
  refine ⟨?_, total_lt rfl ?_ ht ?_⟩
  · constructor <;> try simp only [setSt, upd_apply]
    · exact h.pos
    · exact h.root
    · have := h.rootS; grind [TSt.started]
    · intro u hu
      have := h.prom u hu
      split
      · subst u; simp only [promised, hst] at this; simp [promised, this, hr]
      · exact this
    · have := h.fresh; grind
    · have := h.wait; have := h.kid; grind [TSt.started, TSt.ended]
    · have := h.woken; grind
    · have := h.kid; grind
    · have := h.uniq; grind
    · have := h.wtr; grind
  · intro u hu; simp only [setSt, upd_apply]; split
    · subst u; simp only [left, hst]; omega
    · simp
  · simp only [setSt, upd_apply, if_true]; simpa [left, hst] using hw

/-- Starting a task changes nothing about what it is bound to do. -/
theorem start_inv {c : Nat} (h : Inv b s R) (hc : c < s.n) : Inv b (ensureStarted s c) R ∧ total R (ensureStarted s c) = total R s := by
  unfold ensureStarted
  cases hst : (s.tk c).st with
  | fresh bd =>
    have hf := h.fresh c hc bd hst
    constructor
    · constructor <;> try simp only [setSt, upd_apply]
      · exact h.pos
      · exact h.root
      · have := h.rootS; grind [TSt.started]
      · intro u hu
        have := h.prom u hu
        split
        · subst u; simp only [promised, hst] at this; simp [promised, this, hf]
        · exact this
      · have := h.fresh; grind
      · have := h.wait; have := h.kid; grind [TSt.started, TSt.ended]
      · have := h.woken; grind
      · have := h.kid; grind
      · have := h.uniq; grind
      · have := h.wtr; grind
    · unfold total
      apply Finset.sum_congr rfl
      intro u _
      simp only [setSt, upd_apply]
      split
      · subst u; simp [left, hst, hf]
      · rfl
  | _ => exact ⟨h, rfl⟩

theorem spawn_step {lz : Bool} {c rest : Body} (h : Inv b s R) (ht : t < s.n)
    (hst : (s.tk t).st = .run (.spawn lz c rest)) :
    Inv b (spawn s t lz c rest) (upd R s.n (den c [])) ∧
      total (upd R s.n (den c [])) (spawn s t lz c rest) < total R s := by
  have htn : t ≠ s.n := by omega
  have hR : ∀ u, u < s.n → upd R s.n (den c []) u = R u := by intro u hu; rw [upd_ne]; omega
  have henv : ∀ u, u < s.n → envOf (upd R s.n (den c [])) (s.tk u).kids = envOf R (s.tk u).kids := by
    intro u hu
    apply envOf_congr
    intro i d g hd
    exact hR d (h.kid u hu i d g hd).2
  have hother : ∀ u, u < s.n → u ≠ t → (spawn s t lz c rest).tk u = s.tk u := by
    intro u hu hut
    simp only [spawn]
    rw [upd_ne _ _ (by omega), upd_ne _ _ hut]
  have hself : (spawn s t lz c rest).tk t =
      { s.tk t with st := .run rest, kids := (s.tk t).kids ++ [(s.n, false)] } := by
    simp only [spawn]; rw [upd_ne _ _ htn, upd_same]
  have hnew : (spawn s t lz c rest).tk s.n =
      { st := if lz then .fresh c else .run c, kids := [], waiter := none } := by
    simp [spawn]
  have hprom : ∀ u, u < s.n → promised (upd R s.n (den c [])) (s.tk u) = promised R (s.tk u) := by
    intro u hu; simp only [promised, henv u hu]
  have hleft : ∀ u, u < s.n → left (upd R s.n (den c [])) (s.tk u) = left R (s.tk u) := by
    intro u hu; simp only [left, henv u hu]
  have hnn : (spawn s t lz c rest).n = s.n + 1 := rfl
  constructor
  · constructor
    · simp [spawn]
    · rw [hR 0 h.pos]; exact h.root
    · have := h.rootS
      by_cases h0 : 0 = t
      · rw [h0, hself]; trivial
      · rw [hother 0 h.pos h0]; exact this
    · intro u hu
      by_cases h1 : u = s.n
      · subst h1; rw [hnew]; cases lz <;> simp [promised]
      · have hu' : u < s.n := by rw [hnn] at hu; omega
        rw [hR u hu', h.prom u hu']
        by_cases h2 : u = t
        · subst h2
          rw [hself]
          simp only [promised, hst, envOf_append, den, henv u hu', upd_same]
        · rw [hother u hu' h2, hprom u hu']
    · intro u hu d hd
      by_cases h1 : u = s.n
      · subst h1; rw [hnew]
      · have hu' : u < s.n := by rw [hnn] at hu; omega
        by_cases h2 : u = t
        · subst h2; rw [hself] at hd; cases hd
        · rw [hother u hu' h2] at hd ⊢; exact h.fresh u hu' d hd
    · intro u hu i k hd
      by_cases h1 : u = s.n
      · subst h1; rw [hnew] at hd; cases lz <;> simp at hd
      · have hu' : u < s.n := by rw [hnn] at hu; omega
        by_cases h2 : u = t
        · subst h2; rw [hself] at hd; cases hd
        · rw [hother u hu' h2] at hd ⊢
          obtain ⟨d, e1, e2, e3, e4⟩ := h.wait u hu' i k hd
          have hdn := (h.kid u hu' i d _ e1).2
          refine ⟨d, e1, ?_⟩
          by_cases h3 : d = t
          · subst h3; rw [hself]; simp [e2, TSt.ended, TSt.started]
          · rw [hother d hdn h3]; exact ⟨e2, e3, e4⟩
    · intro u hu i k hd
      by_cases h1 : u = s.n
      · subst h1; rw [hnew] at hd; cases lz <;> simp at hd
      · have hu' : u < s.n := by rw [hnn] at hu; omega
        by_cases h2 : u = t
        · subst h2; rw [hself] at hd; cases hd
        · rw [hother u hu' h2] at hd ⊢
          obtain ⟨d, r, e1, e2⟩ := h.woken u hu' i k hd
          have hdn := (h.kid u hu' i d _ e1).2
          refine ⟨d, r, e1, ?_⟩
          by_cases h3 : d = t
          · subst h3; rw [hst] at e2; cases e2
          · rw [hother d hdn h3]; exact e2
    · intro u hu i d g hd
      by_cases h1 : u = s.n
      · subst h1; rw [hnew] at hd; simp at hd
      · have hu' : u < s.n := by rw [hnn] at hu; omega
        by_cases h2 : u = t
        · subst h2; rw [hself] at hd
          have := h.kid u hu'
          simp only at hd
          rw [List.getElem?_append] at hd
          split at hd
          · have := this i d g hd; rw [hnn]; omega
          · have : d = s.n := by
              rw [List.getElem?_singleton] at hd; split at hd <;> simp at hd; exact hd.1.symm
            rw [hnn]; omega
        · rw [hother u hu' h2] at hd
          have := h.kid u hu' i d g hd
          rw [hnn]; omega
    · intro u u' hu hu' i i' d g g' hd hd'
      have key : ∀ u i d g, u < (spawn s t lz c rest).n → ((spawn s t lz c rest).tk u).kids[i]? = some (d, g) →
          (u < s.n ∧ (s.tk u).kids[i]? = some (d, g)) ∨ (u = t ∧ i = (s.tk t).kids.length ∧ d = s.n) := by
        clear hu hu' hd hd'
        intro u i d g hu hd
        by_cases h1 : u = s.n
        · subst h1; rw [hnew] at hd; simp at hd
        · have hu' : u < s.n := by rw [hnn] at hu; omega
          by_cases h2 : u = t
          · subst h2; rw [hself] at hd
            simp only at hd
            rw [List.getElem?_append] at hd
            split at hd
            · exact .inl ⟨hu', hd⟩
            · rw [List.getElem?_singleton] at hd
              right
              split at hd <;> simp at hd
              refine ⟨rfl, by omega, hd.1.symm⟩
          · rw [hother u hu' h2] at hd; exact .inl ⟨hu', hd⟩
      rcases key u i d g hu hd with ⟨a1, a2⟩ | ⟨a1, a2, a3⟩ <;>
        rcases key u' i' d g' hu' hd' with ⟨b1, b2⟩ | ⟨b1, b2, b3⟩
      · exact h.uniq u u' a1 b1 i i' d g g' a2 b2
      · have := (h.kid u a1 i d g a2).2; omega
      · have := (h.kid u' b1 i' d g' b2).2; omega
      · exact ⟨by rw [a1, b1], by rw [a2, b2]⟩
    · intro d hd u hu
      by_cases h1 : d = s.n
      · subst h1; rw [hnew] at hu; cases hu
      · have hd' : d < s.n := by rw [hnn] at hd; omega
        have hw : (s.tk d).waiter = some u := by
          by_cases h2 : d = t
          · subst h2; rw [hself] at hu; exact hu
          · rw [hother d hd' h2] at hu; exact hu
        obtain ⟨e1, i, k, e2, e3⟩ := h.wtr d hd' u hw
        have hut : u ≠ t := by rintro rfl; rw [hst] at e2; cases e2
        refine ⟨by rw [hnn]; omega, i, k, ?_⟩
        rw [hother u e1 hut]; exact ⟨e2, e3⟩
  · unfold total
    rw [hnn, Finset.sum_range_succ, hnew]
    have e1 : left (upd R s.n (den c [])) { st := if lz then .fresh c else .run c, kids := [], waiter := none }
        = work c [] := by cases lz <;> simp [left]
    rw [e1]
    have e2 : ∑ u ∈ Finset.range s.n, left (upd R s.n (den c [])) ((spawn s t lz c rest).tk u) + (1 + work c [])
        = ∑ u ∈ Finset.range s.n, left R (s.tk u) := by
      have ht' : t ∈ Finset.range s.n := Finset.mem_range.2 ht
      rw [← Finset.add_sum_erase _ _ ht', ← Finset.add_sum_erase (Finset.range s.n) (fun u => left R (s.tk u)) ht']
      have e3 : ∑ u ∈ (Finset.range s.n).erase t, left (upd R s.n (den c [])) ((spawn s t lz c rest).tk u)
          = ∑ u ∈ (Finset.range s.n).erase t, left R (s.tk u) := by
        apply Finset.sum_congr rfl
        intro u hu
        have hm := Finset.mem_erase.1 hu
        have hun := Finset.mem_range.1 hm.2
        rw [hother u hun hm.1, hleft u hun]
      rw [e3, hself]
      simp only [left, hst, work, envOf_append, henv t ht, upd_same]
      omega
    omega

theorem take_step {i c : Nat} {k : Res → Body} {r : Res} (h : Inv b s R) (ht : t < s.n)
    (hst : (s.tk t).st = .run (.await i k) ∨ (s.tk t).st = .woken i k)
    (hk : (s.tk t).kids[i]? = some (c, false)) (hc : (s.tk c).st = .fin r) :
    Inv b (take s t i c k r).1 R ∧ total R (take s t i c k r).1 < total R s := by
  have hcn := h.kid t ht i c false hk
  have hct : c ≠ t := by omega
  have hr : R c = r := by have := h.prom c hcn.2; simpa [promised, hc] using this
  have hden : den (.await i k) (envOf R (s.tk t).kids) = den (k r) ((envOf R (s.tk t).kids).set i (r, true)) := by
    simp only [den, envOf_get, hk, Option.map_some, hr]
  have hwork : work (.await i k) (envOf R (s.tk t).kids) = 2 + work (k r) ((envOf R (s.tk t).kids).set i (r, true)) := by
    simp only [work, envOf_get, hk, Option.map_some, hr]
  have hset : ∀ (i' d : Nat) (g : Bool), ((s.tk t).kids.set i (c, true))[i']? = some (d, g) →
      ∃ g', (s.tk t).kids[i']? = some (d, g') ∧ (i' ≠ i → g' = g) := by
    intro i' d g hd
    rw [List.getElem?_set] at hd
    split at hd
    · rename_i hii; subst hii
      split at hd <;> simp at hd
      exact ⟨false, by rw [hk, hd.1], by simp⟩
    · exact ⟨g, hd, fun _ => rfl⟩
  simp only [take]
  refine ⟨?_, total_lt rfl ?_ ht ?_⟩
  · constructor <;> try simp only [upd_apply]
    · exact h.pos
    · exact h.root
    · have := h.rootS; grind [TSt.started]
    · intro u hu
      have := h.prom u hu
      split
      · subst u
        have hp : R t = den (.await i k) (envOf R (s.tk t).kids) := by
          rw [this]; rcases hst with hst | hst <;> simp [promised, hst]
        simp only [promised, envOf_set, hr]
        rw [hp, hden]
      · exact this
    · have := h.fresh; grind
    · intro u hu i' k' hu'
      have hut : u ≠ t := by rintro rfl; simp at hu'
      simp only [hut, if_false] at hu' ⊢
      obtain ⟨d, e1, e2, e3, e4⟩ := h.wait u hu i' k' hu'
      refine ⟨d, e1, ?_⟩
      split
      · subst d; exact ⟨e2, by simp [TSt.ended], by simp [TSt.started]⟩
      · exact ⟨e2, e3, e4⟩
    · intro u hu i' k' hu'
      have hut : u ≠ t := by rintro rfl; simp at hu'
      simp only [hut, if_false] at hu' ⊢
      obtain ⟨d, r', e1, e2⟩ := h.woken u hu i' k' hu'
      refine ⟨d, r', e1, ?_⟩
      have : d ≠ t := by rintro rfl; rcases hst with hst | hst <;> rw [hst] at e2 <;> cases e2
      simp [this, e2]
    · intro u hu i' d g hd
      split at hd
      · subst u
        obtain ⟨g', e, _⟩ := hset i' d g hd
        exact h.kid t ht i' d g' e
      · exact h.kid u hu i' d g hd
    · intro u u' hu hu' i1 i2 d g g' hd hd'
      have key : ∀ (u i' : Nat) (g : Bool), u < s.n → ((if u = t then { s.tk t with st := .run (k r), kids := (s.tk t).kids.set i (c, true) } else s.tk u) : Tk).kids[i']? = some (d, g) →
          ∃ g', (s.tk u).kids[i']? = some (d, g') := by
        intro u i' g hu hd
        split at hd
        · subst u; obtain ⟨g', e, _⟩ := hset i' d g hd; exact ⟨g', e⟩
        · exact ⟨g, hd⟩
      obtain ⟨g1, e1⟩ := key u i1 g hu hd
      obtain ⟨g2, e2⟩ := key u' i2 g' hu' hd'
      exact h.uniq u u' hu hu' i1 i2 d g1 g2 e1 e2
    · intro d hd u hu
      have hw : (s.tk d).waiter = some u := by split at hu <;> simp_all
      obtain ⟨e1, i', k', e2, e3⟩ := h.wtr d hd u hw
      have hut : u ≠ t := by rintro rfl; rcases hst with hst | hst <;> rw [hst] at e2 <;> cases e2
      refine ⟨e1, i', k', ?_⟩
      simp only [hut, if_false]; exact ⟨e2, e3⟩
  · intro u hu; simp only [upd_apply]; split
    · subst u
      rcases hst with hst | hst <;> simp only [left, hst, envOf_set, hwork, hr] <;> omega
    · simp
  · simp only [upd_apply, if_true]
    rcases hst with hst | hst <;> simp only [left, hst, envOf_set, hwork, hr] <;> omega

/-- `await_suspend` on a child that has not ended. -/
def suspendOn (s : St) (t i c : Nat) (k : Res → Body) : St :=
  let s2 := setSt (ensureStarted s c) t (.wait i k)
  { s2 with tk := upd s2.tk c { s2.tk c with waiter := some t } }

theorem suspend_step {i c : Nat} {k : Res → Body} (h : Inv b s R) (ht : t < s.n)
    (hst : (s.tk t).st = .run (.await i k))
    (hk : (s.tk t).kids[i]? = some (c, false)) (hc : ¬ (s.tk c).st.ended) :
    Inv b (suspendOn s t i c k) R ∧ total R (suspendOn s t i c k) < total R s := by
  have hcn := h.kid t ht i c false hk
  have hct : c ≠ t := by omega
  obtain ⟨st', hst'⟩ : ∃ st' : TSt, st' = (match (s.tk c).st with | .fresh b => .run b | x => x) := ⟨_, rfl⟩
  have hsus : suspendOn s t i c k =
      { s with tk := upd (upd s.tk t { s.tk t with st := .wait i k }) c { s.tk c with st := st', waiter := some t } } := by
    simp only [suspendOn, ensureStarted]
    cases hs : (s.tk c).st <;> simp only [hs] at hst' <;> subst hst' <;> simp only [setSt] <;> congr 1 <;>
      funext x <;> simp only [upd_apply] <;> grind
  have hstS : st'.started := by
    rw [hst']; cases hs : (s.tk c).st <;> simp [TSt.started]
  have hstE : ¬ st'.ended := by
    rw [hst']; cases hs : (s.tk c).st <;> simp_all [TSt.ended]
  have hprom : promised R { s.tk c with st := st', waiter := some t } = promised R (s.tk c) := by
    have hf := h.fresh c hcn.2
    rw [hst']; simp only [promised]
    cases hs : (s.tk c).st <;> simp
    rw [hf _ hs]; rfl
  have hleft : left R { s.tk c with st := st', waiter := some t } = left R (s.tk c) := by
    have hf := h.fresh c hcn.2
    rw [hst']; simp only [left]
    cases hs : (s.tk c).st <;> simp
    rw [hf _ hs]; rfl
  have hnf : ∀ d, st' ≠ .fresh d := by intro d hd; rw [hd] at hstS; exact hstS
  have hwt : ∀ i k, st' = .wait i k → (s.tk c).st = .wait i k := by
    intro i k hd; rw [hst'] at hd; cases hs : (s.tk c).st <;> simp_all
  have hwk : ∀ i k, st' = .woken i k → (s.tk c).st = .woken i k := by
    intro i k hd; rw [hst'] at hd; cases hs : (s.tk c).st <;> simp_all
  have hwt' : ∀ i k, (s.tk c).st = .wait i k → st' = .wait i k := by
    intro i k hd; rw [hst', hd]
  have hpos : work (.await i k) (envOf R (s.tk t).kids) > 0 := work_pos _ _
  rw [hsus]
  refine ⟨?_, total_lt rfl ?_ ht ?_⟩
  · constructor <;> try simp only [upd_apply]
    · exact h.pos
    · exact h.root
    · have := h.rootS; split
      · exact hstS
      · split <;> simp_all [TSt.started]
    · intro u hu
      have := h.prom u hu
      split
      · subst u; rw [hprom]; exact this
      · split
        · subst u; simp only [promised, hst] at this; simpa [promised] using this
        · exact this
    · have := h.fresh; grind
    · intro u hu i' k' hu'
      by_cases huc : u = c
      · subst u
        simp only [if_true] at hu' ⊢
        obtain ⟨d, e1, e2, e3, e4⟩ := h.wait c hcn.2 i' k' (hwt _ _ hu')
        have := h.kid c hcn.2 i' d _ e1
        have hdc : d ≠ c := by omega
        have hdt : d ≠ t := by omega
        refine ⟨d, e1, ?_⟩
        simp only [hdc, hdt, if_false]; exact ⟨e2, e3, e4⟩
      · simp only [huc, if_false] at hu' ⊢
        by_cases hut : u = t
        · subst u
          simp only [if_true, TSt.wait.injEq] at hu' ⊢
          obtain ⟨rfl, rfl⟩ := hu'
          refine ⟨c, hk, ?_⟩
          simp [hstS, hstE]
        · simp only [hut, if_false] at hu' ⊢
          obtain ⟨d, e1, e2, e3, e4⟩ := h.wait u hu i' k' hu'
          have hdc : d ≠ c := by
            rintro rfl
            exact hut (h.uniq u t hu ht i' i d _ _ e1 hk).1
          refine ⟨d, e1, ?_⟩
          simp only [hdc, if_false]
          split
          · subst d; exact ⟨e2, by simp [TSt.ended], by simp [TSt.started]⟩
          · exact ⟨e2, e3, e4⟩
    · intro u hu i' k' hu'
      have hold : (s.tk u).st = .woken i' k' := by
        split at hu'
        · subst u; exact hwk _ _ hu'
        · split at hu'
          · cases hu'
          · exact hu'
      obtain ⟨d, r, e1, e2⟩ := h.woken u hu i' k' hold
      have hdc : d ≠ c := by rintro rfl; rw [e2] at hc; exact hc trivial
      have hdt : d ≠ t := by rintro rfl; rw [hst] at e2; cases e2
      refine ⟨d, r, ?_, by simp [hdc, hdt, e2]⟩
      split
      · subst u; exact e1
      · split
        · subst u; exact e1
        · exact e1
    · have := h.kid; grind
    · have := h.uniq; grind
    · intro d hd u hu
      by_cases hdc : d = c
      · subst d
        simp only [if_true, Option.some.injEq] at hu
        subst hu
        refine ⟨ht, i, k, ?_⟩
        simp [hct.symm, hk]
      · simp only [hdc, if_false] at hu
        have hw : (s.tk d).waiter = some u := by split at hu <;> simp_all
        obtain ⟨e1, i', k', e2, e3⟩ := h.wtr d hd u hw
        have hut : u ≠ t := by rintro rfl; rw [hst] at e2; cases e2
        refine ⟨e1, i', k', ?_⟩
        by_cases huc : u = c
        · subst u; simp only [if_true]; exact ⟨hwt' _ _ e2, e3⟩
        · simp only [huc, hut, if_false]; exact ⟨e2, e3⟩
  · intro u hu; simp only [upd_apply]; split
    · subst u; rw [hleft]
    · split
      · subst u; simp only [left, hst]; omega
      · simp
  · simp only [upd_apply, hct.symm, if_false, if_true, left, hst]
    omega

/-- One action keeps the invariant (for a table of results extended by the new task) and uses up
work. -/
theorem step_inv {s' : St} {e : List Ev} (h : Inv b s R) (hs : step s t = some (s', e)) :
    ∃ R', Inv b s' R' ∧ total R' s' < total R s ∧ (∀ u, u < s.n → R' u = R u) ∧ s.n ≤ s'.n ∧
      (∀ u r, Ev.finished u r ∈ e → u < s.n ∧ r = R u) ∧
      (∀ u d r, Ev.got u d r ∈ e → d < s.n ∧ r = R d) := by
  unfold step at hs
  split at hs
  · rename_i ht
    split at hs
    · rename_i v hst
      simp only [Option.some.injEq, Prod.mk.injEq] at hs
      obtain ⟨rfl, rfl⟩ := hs
      have := finish_step (r := .val v) h ht hst (by simp [den])
      have hpr := h.prom t ht
      simp only [promised, hst, den] at hpr
      refine ⟨R, this.1, this.2, fun _ _ => rfl, ?_, by grind, by grind⟩
      simp only [finish, setSt]; grind
    · rename_i v hst
      simp only [Option.some.injEq, Prod.mk.injEq] at hs
      obtain ⟨rfl, rfl⟩ := hs
      have := finish_step (r := .exc v) h ht hst (by simp [den])
      have hpr := h.prom t ht
      simp only [promised, hst, den] at hpr
      refine ⟨R, this.1, this.2, fun _ _ => rfl, ?_, by grind, by grind⟩
      simp only [finish, setSt]; grind
    · rename_i hst
      simp only [Option.some.injEq, Prod.mk.injEq] at hs
      obtain ⟨rfl, rfl⟩ := hs
      have := spawn_step h ht hst
      refine ⟨_, this.1, this.2, ?_, ?_, by grind, by grind⟩
      · intro u hu; rw [upd_ne]; omega
      · simp [spawn]
    · rename_i i k hst
      split at hs
      · rename_i hk
        simp only [Option.some.injEq, Prod.mk.injEq] at hs
        obtain ⟨rfl, rfl⟩ := hs
        have := setRun_step (bd' := k (.exc .hasBeenGot)) h ht hst (by simp [den, envOf_get, hk]) (by simp [work, envOf_get, hk])
        exact ⟨R, this.1, this.2, fun _ _ => rfl, Nat.le_refl _, by grind, by grind⟩
      · rename_i hk
        simp only [Option.some.injEq, Prod.mk.injEq] at hs
        obtain ⟨rfl, rfl⟩ := hs
        have := setRun_step (bd' := k (.exc .hasBeenGot)) h ht hst (by simp [den, envOf_get, hk]) (by simp [work, envOf_get, hk])
        exact ⟨R, this.1, this.2, fun _ _ => rfl, Nat.le_refl _, by grind, by grind⟩
      · rename_i c hk
        have hcn := h.kid t ht i c false hk
        split at hs
        · rename_i r hc
          simp only [Option.some.injEq] at hs
          have hev : e = [.got t c r] := by simp only [take, Prod.mk.injEq] at hs; exact hs.2.symm
          have hs1 : s' = (take s t i c k r).1 := by rw [hs]
          subst hs1
          have := take_step h ht (.inl hst) hk hc
          have hpr := h.prom c hcn.2
          simp only [promised, hc] at hpr
          exact ⟨R, this.1, this.2, fun _ _ => rfl, Nat.le_refl _, by grind, by grind⟩
        · rename_i hc
          simp only [Option.some.injEq, Prod.mk.injEq] at hs
          obtain ⟨rfl, rfl⟩ := hs
          have := suspend_step h ht hst hk (by cases hq : (s.tk c).st <;> simp_all [TSt.ended])
          refine ⟨R, this.1, this.2, fun _ _ => rfl, ?_, by grind, by grind⟩
          simp only [setSt, ensureStarted]; grind
    · rename_i i rest hst
      have h1 := setRun_step (bd' := rest) h ht hst (by simp [den]) (by simp [work])
      split at hs
      · simp only [Option.some.injEq, Prod.mk.injEq] at hs
        obtain ⟨rfl, rfl⟩ := hs
        exact ⟨R, h1.1, h1.2, fun _ _ => rfl, Nat.le_refl _, by grind, by grind⟩
      · rename_i c g hk
        simp only [Option.some.injEq, Prod.mk.injEq] at hs
        obtain ⟨rfl, rfl⟩ := hs
        have hcn := h.kid t ht i c g hk
        have h2 := start_inv h1.1 (c := c) hcn.2
        refine ⟨R, h2.1, by rw [h2.2]; exact h1.2, fun _ _ => rfl, ?_, by grind, by grind⟩
        simp only [ensureStarted, setSt]; grind
    · rename_i rest hst
      simp only [Option.some.injEq, Prod.mk.injEq] at hs
      obtain ⟨rfl, rfl⟩ := hs
      have h1 := setRun_step (bd' := rest) h ht hst (by simp [den]) (by simp [work])
      exact ⟨R, h1.1, h1.2, fun _ _ => rfl, Nat.le_refl _, by grind, by grind⟩
    · rename_i d rest hst
      simp only [Option.some.injEq, Prod.mk.injEq] at hs
      obtain ⟨rfl, rfl⟩ := hs
      have h1 := setRun_step (bd' := rest) h ht hst (by simp [den]) (by simp [work])
      exact ⟨R, h1.1, h1.2, fun _ _ => rfl, Nat.le_refl _, by grind, by grind⟩
    · rename_i i k hst
      obtain ⟨c, r, hk, hc⟩ := h.woken t ht i k hst
      have hcn := h.kid t ht i c false hk
      simp only [hk, hc, Option.some.injEq] at hs
      have hev : e = [.got t c r] := by simp only [take, Prod.mk.injEq] at hs; exact hs.2.symm
      have hs1 : s' = (take s t i c k r).1 := by rw [hs]
      subst hs1
      have := take_step h ht (.inr hst) hk hc
      have hpr := h.prom c hcn.2
      simp only [promised, hc] at hpr
      exact ⟨R, this.1, this.2, fun _ _ => rfl, Nat.le_refl _, by grind, by grind⟩
    · cases hs
  · cases hs

end steps

theorem finish_fin {s : St} {t u : Nat} {r r' : Res} (h : ((finish s t r).tk u).st = .fin r') :
    (u = t ∧ r' = r) ∨ (s.tk u).st = .fin r' := by
  simp only [finish] at h
  by_cases hut : u = t
  · subst hut
    left
    refine ⟨rfl, ?_⟩
    split at h
    · simp [setSt] at h; exact h.symm
    · split at h
      · simp [setSt] at h; exact h.symm
      · simp [setSt] at h; exact h.symm
  · right
    split at h
    · simpa [setSt, upd_ne _ _ hut] using h
    · split at h
      · simp only [upd_ne _ _ hut] at h
        rename_i p _ _ _ _ _
        by_cases hup : u = p
        · subst hup; simp at h
        · simpa [upd_ne _ _ hup, setSt, upd_ne _ _ hut] using h
      · simpa [setSt, upd_ne _ _ hut] using h

theorem finish_n (s : St) (t : Nat) (r : Res) : (finish s t r).n = s.n := by
  simp only [finish]
  split
  · rfl
  · split <;> rfl

theorem start_fin {s : St} {c u : Nat} {r : Res} (h : ((ensureStarted s c).tk u).st = .fin r) :
    (s.tk u).st = .fin r ∧ (ensureStarted s c).n = s.n := by
  unfold ensureStarted at h ⊢
  split at h
  · simp only [setSt, upd_apply] at h
    split at h
    · cases h
    · exact ⟨h, rfl⟩
  · exact ⟨h, rfl⟩

/-- A result is there only if it was there before or has just been announced. -/
theorem step_fin {s s' : St} {t u : Nat} {e : List Ev} {r : Res} (hs : step s t = some (s', e))
    (hu : u < s'.n) (h : (s'.tk u).st = .fin r) :
    (u < s.n ∧ (s.tk u).st = .fin r) ∨ Ev.finished u r ∈ e := by
  unfold step at hs
  split at hs
  · rename_i ht
    split at hs
    · simp only [Option.some.injEq, Prod.mk.injEq] at hs
      obtain ⟨rfl, rfl⟩ := hs
      rw [finish_n] at hu
      rcases finish_fin h with ⟨rfl, rfl⟩ | h
      · right; simp
      · exact .inl ⟨hu, h⟩
    · simp only [Option.some.injEq, Prod.mk.injEq] at hs
      obtain ⟨rfl, rfl⟩ := hs
      rw [finish_n] at hu
      rcases finish_fin h with ⟨rfl, rfl⟩ | h
      · right; simp
      · exact .inl ⟨hu, h⟩
    · rename_i lz c rest hst
      simp only [Option.some.injEq, Prod.mk.injEq] at hs
      obtain ⟨rfl, rfl⟩ := hs
      left
      simp only [spawn, upd_apply] at h hu
      split at h
      · cases lz <;> simp at h
      · split at h
        · cases h
        · exact ⟨by omega, h⟩
    · rename_i i k hst
      left
      split at hs
      · simp only [Option.some.injEq, Prod.mk.injEq] at hs
        obtain ⟨rfl, rfl⟩ := hs
        simp only [setSt, upd_apply] at h hu
        split at h
        · cases h
        · exact ⟨hu, h⟩
      · simp only [Option.some.injEq, Prod.mk.injEq] at hs
        obtain ⟨rfl, rfl⟩ := hs
        simp only [setSt, upd_apply] at h hu
        split at h
        · cases h
        · exact ⟨hu, h⟩
      · rename_i c hk
        split at hs
        · simp only [take, Option.some.injEq, Prod.mk.injEq] at hs
          obtain ⟨rfl, rfl⟩ := hs
          simp only [upd_apply] at h hu
          split at h
          · cases h
          · exact ⟨hu, h⟩
        · simp only [Option.some.injEq, Prod.mk.injEq] at hs
          obtain ⟨rfl, rfl⟩ := hs
          simp only [ensureStarted] at h hu
          split at h
          · rename_i hc
            simp only [setSt, hc, upd_apply] at h hu
            grind
          · rename_i hc
            have : s.n = (match (s.tk c).st with
              | .fresh b => setSt s c (.run b)
              | _ => s).n := by split <;> rfl
            simp only [setSt, upd_apply] at h
            refine ⟨by rw [this]; exact hu, ?_⟩
            grind
    · rename_i i rest hst
      left
      split at hs
      · simp only [Option.some.injEq, Prod.mk.injEq] at hs
        obtain ⟨rfl, rfl⟩ := hs
        simp only [setSt, upd_apply] at h hu
        split at h
        · cases h
        · exact ⟨hu, h⟩
      · rename_i c g hk
        simp only [Option.some.injEq, Prod.mk.injEq] at hs
        obtain ⟨rfl, rfl⟩ := hs
        obtain ⟨h, hn⟩ := start_fin h
        rw [hn] at hu
        simp only [setSt, upd_apply] at h hu
        split at h
        · cases h
        · exact ⟨hu, h⟩
    · simp only [Option.some.injEq, Prod.mk.injEq] at hs
      obtain ⟨rfl, rfl⟩ := hs
      left
      simp only [setSt, upd_apply] at h hu
      split at h
      · cases h
      · exact ⟨hu, h⟩
    · simp only [Option.some.injEq, Prod.mk.injEq] at hs
      obtain ⟨rfl, rfl⟩ := hs
      left
      simp only [setSt, upd_apply] at h hu
      split at h
      · cases h
      · exact ⟨hu, h⟩
    · left
      split at hs
      · split at hs
        · simp only [take, Option.some.injEq, Prod.mk.injEq] at hs
          obtain ⟨rfl, rfl⟩ := hs
          simp only [upd_apply] at h hu
          split at h
          · cases h
          · exact ⟨hu, h⟩
        · cases hs
      · cases hs
    · cases hs
  · cases hs

/-- What is read by a `co_await` is the awaited task's result. -/
theorem step_got {s s' : St} {t u c : Nat} {e : List Ev} {r : Res} (hs : step s t = some (s', e))
    (h : Ev.got u c r ∈ e) : (s.tk c).st = .fin r := by
  unfold step at hs
  simp only [take] at hs
  grind

/-- A started task that has not ended, or one it waits for, can act. -/
theorem progress {b : Body} {s : St} {R : Nat → Res} (h : Inv b s R) :
    ∀ m t, t < s.n → s.n - t ≤ m → (s.tk t).st.started → ¬ (s.tk t).st.ended → ∃ u, step s u ≠ none := by
  intro m
  induction m with
  | zero => intro t ht hm; omega
  | succ m ih =>
    intro t ht hm hS hE
    cases hst : (s.tk t).st with
    | fresh b => rw [hst] at hS; exact hS.elim
    | fin r => rw [hst] at hE; exact (hE trivial).elim
    | run bd =>
      refine ⟨t, ?_⟩
      unfold step
      simp only [ht, if_true, hst]
      cases bd with
      | ret v => simp
      | throw e => simp
      | spawn lz c rest => simp
      | start i rest => simp only; split <;> simp
      | yield rest => simp
      | sleep d rest => simp
      | await i k =>
        simp only
        split
        · simp
        · simp
        · split <;> simp
    | woken i k =>
      obtain ⟨c, r, hk, hc⟩ := h.woken t ht i k hst
      refine ⟨t, ?_⟩
      unfold step
      simp [ht, hst, hk, hc]
    | wait i k =>
      obtain ⟨c, hk, _, e3, e4⟩ := h.wait t ht i k hst
      have hcn := h.kid t ht i c false hk
      exact ih c hcn.2 (by omega) e4 e3

end Verif.Nest
