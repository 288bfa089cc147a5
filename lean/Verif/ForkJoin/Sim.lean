import Verif.ForkJoin.Inv
import Verif.Nest.Proofs
/-!
# Refinement to `Verif.Nest`
-/

namespace Verif.ForkJoin
open Verif.Nest (Body Exc Res Ev)

structure Rel (s : St) (S : Nest.St) : Prop where
  n : S.n = s.n
  kids : ∀ t : Nat, t < s.n → (S.tk t).kids = (s.kids t).map fun c => (c, (s.fut c).got)
  fr : ∀ t : Nat, t < s.n → ∀ b : Body, s.ctl t = .fresh b → (S.tk t).st = .fresh b
  rn : ∀ t : Nat, t < s.n → ∀ b : Body, s.ctl t = .run b → (S.tk t).st = .run b
  np : ∀ t : Nat, t < s.n → ∀ (w u : Nat) (b : Body), s.ctl t = .nap w u b → (S.tk t).st = .run b
  fn : ∀ t : Nat, t < s.n → ∀ r : Res, s.ctl t = .fin r → (S.tk t).st = .fin r
  a0 : ∀ t : Nat, t < s.n → ∀ (i c : Nat) (k : Res → Body), (s.ctl t).aw = some (i, k) → (s.kids t)[i]? = some c → (s.ctl c).res = none → (S.tk t).st = .wait i k
  a1 : ∀ t : Nat, t < s.n → ∀ (i c : Nat) (k : Res → Body), (s.ctl t).aw = some (i, k) → (s.kids t)[i]? = some c → (s.ctl c).res ≠ none →
    (S.tk t).st = .woken i k ∨ (S.tk t).st = .run (.await i k)

variable {W : Nat} {s : St} {S : Nest.St} {w t : Nat} {b : Body} {R : Nat → Res}

theorem rel_init (b : Body) : Rel (init b) (Nest.init b) := by
  constructor <;> simp [init, Nest.init, Ctl.aw]

/-- what is started in `Nest` is started here -/
theorem rel_fresh (h : All W s) (hr : Rel s S) (ht : t < s.n) {b : Body} (hf : (S.tk t).st = .fresh b) : s.ctl t = .fresh b := by
  cases hc : s.ctl t with
  | fresh b' => have := hr.fr t ht b' hc; rw [hf] at this; cases this; rfl
  | run b' => have := hr.rn t ht b' hc; rw [hf] at this; cases this
  | nap w u b' => have := hr.np t ht w u b' hc; rw [hf] at this; cases this
  | fin r => have := hr.fn t ht r hc; rw [hf] at this; cases this
  | _ i k =>
    obtain ⟨c, h1, _⟩ := h.j.j1 t ht i k (by rw [hc]; rfl)
    cases hq : (s.ctl c).res with
    | none => have := hr.a0 t ht i c k (by rw [hc]; rfl) h1 hq; rw [hf] at this; cases this
    | some r => rcases hr.a1 t ht i c k (by rw [hc]; rfl) h1 (by simp [hq]) with h2 | h2 <;> rw [hf] at h2 <;> cases h2

theorem rel_fin (h : All W s) (hr : Rel s S) (ht : t < s.n) {r : Res} (hf : (S.tk t).st = .fin r) : s.ctl t = .fin r := by
  cases hc : s.ctl t with
  | fresh b' => have := hr.fr t ht b' hc; rw [hf] at this; cases this
  | run b' => have := hr.rn t ht b' hc; rw [hf] at this; cases this
  | nap w u b' => have := hr.np t ht w u b' hc; rw [hf] at this; cases this
  | fin r => have := hr.fn t ht r hc; rw [hf] at this; cases this; rfl
  | _ i k =>
    obtain ⟨c, h1, _⟩ := h.j.j1 t ht i k (by rw [hc]; rfl)
    cases hq : (s.ctl c).res with
    | none => have := hr.a0 t ht i c k (by rw [hc]; rfl) h1 hq; rw [hf] at this; cases this
    | some r => rcases hr.a1 t ht i c k (by rw [hc]; rfl) h1 (by simp [hq]) with h2 | h2 <;> rw [hf] at h2 <;> cases h2

theorem rel_wait (h : All W s) (hr : Rel s S) (ht : t < s.n) {i : Nat} {k : Res → Body} (hf : (S.tk t).st = .wait i k) : (s.ctl t).aw = some (i, k) := by
  cases hc : s.ctl t with
  | fresh b' => have := hr.fr t ht b' hc; rw [hf] at this; cases this
  | run b' => have := hr.rn t ht b' hc; rw [hf] at this; cases this
  | nap w u b' => have := hr.np t ht w u b' hc; rw [hf] at this; cases this
  | fin r => have := hr.fn t ht r hc; rw [hf] at this; cases this
  | _ i k =>
    obtain ⟨c, h1, _⟩ := h.j.j1 t ht i k (by rw [hc]; rfl)
    cases hq : (s.ctl c).res with
    | none => have := hr.a0 t ht i c k (by rw [hc]; rfl) h1 hq; rw [hf] at this; cases this; rfl
    | some r => rcases hr.a1 t ht i c k (by rw [hc]; rfl) h1 (by simp [hq]) with h2 | h2 <;> rw [hf] at h2 <;> cases h2

theorem rel_kid (hr : Rel s S) (ht : t < s.n) (i : Nat) : (S.tk t).kids[i]? = (s.kids t)[i]?.map fun c => (c, (s.fut c).got) := by
  rw [hr.kids t ht]; simp

/-- only things that `Rel` does not see have changed -/
theorem Rel.congr {s' : St} (h : Rel s S) (h1 : s'.n = s.n) (h2 : s'.ctl = s.ctl) (h3 : s'.kids = s.kids) (h4 : ∀ c, (s'.fut c).got = (s.fut c).got) : Rel s' S := by
  obtain ⟨n, kids, fr, rn, np, fn, a0, a1⟩ := h
  constructor <;> (try simp only [h1, h2, h3, h4]) <;> assumption

/-- the awaiting task moves on within its `co_await` -/
theorem rel_move {s' : St} {x : Ctl} {i : Nat} {k : Res → Body} (h : Rel s S) (ha : (s.ctl t).aw = some (i, k)) (hx : x.aw = some (i, k)) (h1 : s'.n = s.n) (h2 : s'.ctl = upd s.ctl t x) (h3 : s'.kids = s.kids)
    (h4 : ∀ c, (s'.fut c).got = (s.fut c).got) : Rel s' S := by
  obtain ⟨n, kids, fr, rn, np, fn, a0, a1⟩ := h
  have e1 : ∀ u, (upd s.ctl t x u).aw = (s.ctl u).aw := by intro u; simp only [upd_apply]; split <;> simp_all
  have e2 : ∀ u, (upd s.ctl t x u).res = (s.ctl u).res := by
    intro u; simp only [upd_apply]; split
    · rename_i q; subst q; rw [res_of_aw ha, res_of_aw hx]
    · rfl
  constructor <;> (try simp only [h1, h2, h3, h4, e1, e2]) <;> try assumption
  · intro u hu b hb
    by_cases hut : u = t
    · subst u; rw [upd_same] at hb; simp [hb, Ctl.aw] at hx
    · rw [upd_ne _ _ hut] at hb; exact fr u hu b hb
  · intro u hu b hb
    by_cases hut : u = t
    · subst u; rw [upd_same] at hb; simp [hb, Ctl.aw] at hx
    · rw [upd_ne _ _ hut] at hb; exact rn u hu b hb
  · intro u hu w' d b hb
    by_cases hut : u = t
    · subst u; rw [upd_same] at hb; simp [hb, Ctl.aw] at hx
    · rw [upd_ne _ _ hut] at hb; exact np u hu w' d b hb
  · intro u hu b hb
    by_cases hut : u = t
    · subst u; rw [upd_same] at hb; simp [hb, Ctl.aw] at hx
    · rw [upd_ne _ _ hut] at hb; exact fn u hu b hb

/-- the body goes on, and the future of `d` may change with it -/
theorem rel_setRun {S' : Nest.St} {s' : St} {b : Body} (h : Rel s S) (hres : (s.ctl t).res = none) (h1 : s'.n = s.n) (h2 : s'.ctl = upd s.ctl t (.run b)) (h3 : s'.kids = s.kids)
    (hn : S'.n = S.n) (hst : ∀ u, (S'.tk u).st = if u = t then .run b else (S.tk u).st)
    (hk : ∀ u, u < s.n → (S'.tk u).kids = (s.kids u).map fun c => (c, (s'.fut c).got)) : Rel s' S' := by
  obtain ⟨n, kids, fr, rn, np, fn, a0, a1⟩ := h
  have e2 : ∀ u, (upd s.ctl t (.run b) u).res = (s.ctl u).res := by
    intro u; simp only [upd_apply]; split
    · rename_i q; subst q; rw [hres]; rfl
    · rfl
  constructor <;> (try simp only [h1, h2, h3, e2, hst])
  · rw [hn, n]
  · exact hk
  · intro u hu b' hb
    by_cases hut : u = t
    · subst u; rw [upd_same] at hb; cases hb
    · rw [upd_ne _ _ hut] at hb; rw [if_neg hut]; exact fr u hu b' hb
  · intro u hu b' hb
    by_cases hut : u = t
    · subst u; rw [upd_same] at hb; cases hb; rw [if_pos rfl]
    · rw [upd_ne _ _ hut] at hb; rw [if_neg hut]; exact rn u hu b' hb
  · intro u hu w' d b' hb
    by_cases hut : u = t
    · subst u; rw [upd_same] at hb; cases hb
    · rw [upd_ne _ _ hut] at hb; rw [if_neg hut]; exact np u hu w' d b' hb
  · intro u hu b' hb
    by_cases hut : u = t
    · subst u; rw [upd_same] at hb; cases hb
    · rw [upd_ne _ _ hut] at hb; rw [if_neg hut]; exact fn u hu b' hb
  · intro u hu i c k ha
    by_cases hut : u = t
    · subst u; rw [upd_same] at ha; simp [Ctl.aw] at ha
    · rw [upd_ne _ _ hut] at ha; rw [if_neg hut]; exact a0 u hu i c k ha
  · intro u hu i c k ha
    by_cases hut : u = t
    · subst u; rw [upd_same] at ha; simp [Ctl.aw] at ha
    · rw [upd_ne _ _ hut] at ha; rw [if_neg hut]; exact a1 u hu i c k ha

/-- `start` -/
theorem rel_start {c : Nat} (h : All W s) (hr : Rel s S) (hc : c < s.n) : Rel (start s c) (Nest.ensureStarted S c) := by
  cases hs : s.ctl c with
  | fresh bd =>
    have h1 := hr.fr c hc bd hs
    have e : start s c = { setCtl s c (.run bd) with ready := s.ready ++ [c] } := by simp [start, hs]
    rw [e]
    refine rel_setRun (S := S) (t := c) hr (by rw [hs]; rfl) rfl rfl rfl ?_ ?_ ?_
    · simp [Nest.ensureStarted, h1, Nest.setSt]
    · intro u; simp only [Nest.ensureStarted, h1, Nest.setSt, upd_apply]; split <;> rfl
    · intro u hu; simp only [Nest.ensureStarted, h1, Nest.setSt, upd_apply]; have := hr.kids u hu; simp only [setCtl]; rw [← this]; split <;> simp_all
  | _ =>
    have e : start s c = s := by simp [start, hs]
    have e' : Nest.ensureStarted S c = S := by
      unfold Nest.ensureStarted
      split
      · rename_i bd hq; have := rel_fresh h hr hc hq; rw [hs] at this; cases this
      · rfl
    rw [e, e']; exact hr

theorem start_setCtl {c : Nat} {x : Ctl} (hct : c ≠ t) : start (setCtl s t x) c = setCtl (start s c) t x := by
  unfold start
  have : (setCtl s t x).ctl c = s.ctl c := by simp [setCtl, upd_ne _ _ hct]
  rw [this]
  cases s.ctl c <;> simp [setCtl]
  funext u; simp only [upd_apply]; split <;> split <;> simp_all

/-- the task begins a `co_await` -/
theorem rel_setAw {S' : Nest.St} {s' : St} {x : Ctl} {y : Nest.TSt} {b : Body} {i c : Nat} {k : Res → Body} (h : Rel s S) (hc : s.ctl t = .run b) (hkc : (s.kids t)[i]? = some c)
    (hct : c ≠ t)
    (hx : x.aw = some (i, k)) (hy : ((s.ctl c).res = none ∧ y = .wait i k) ∨ ((s.ctl c).res ≠ none ∧ y = .run (.await i k)))
    (h1 : s'.n = s.n) (h2 : s'.ctl = upd s.ctl t x) (h3 : s'.kids = s.kids) (h4 : s'.fut = s.fut)
    (hn : S'.n = S.n) (hst : ∀ u, (S'.tk u).st = if u = t then y else (S.tk u).st)
    (hk : ∀ u, (S'.tk u).kids = (S.tk u).kids) : Rel s' S' := by
  obtain ⟨n, kids, fr, rn, np, fn, a0, a1⟩ := h
  have e2 : ∀ u, (upd s.ctl t x u).res = (s.ctl u).res := by
    intro u; simp only [upd_apply]; split
    · rename_i q; subst q; rw [hc, res_of_aw hx]; rfl
    · rfl
  constructor <;> (try simp only [h1, h2, h3, h4, e2, hst, hk])
  · rw [hn, n]
  · exact kids
  · intro u hu b' hb
    by_cases hut : u = t
    · subst u; rw [upd_same] at hb; simp [hb, Ctl.aw] at hx
    · rw [upd_ne _ _ hut] at hb; rw [if_neg hut]; exact fr u hu b' hb
  · intro u hu b' hb
    by_cases hut : u = t
    · subst u; rw [upd_same] at hb; simp [hb, Ctl.aw] at hx
    · rw [upd_ne _ _ hut] at hb; rw [if_neg hut]; exact rn u hu b' hb
  · intro u hu w' d b' hb
    by_cases hut : u = t
    · subst u; rw [upd_same] at hb; simp [hb, Ctl.aw] at hx
    · rw [upd_ne _ _ hut] at hb; rw [if_neg hut]; exact np u hu w' d b' hb
  · intro u hu b' hb
    by_cases hut : u = t
    · subst u; rw [upd_same] at hb; simp [hb, Ctl.aw] at hx
    · rw [upd_ne _ _ hut] at hb; rw [if_neg hut]; exact fn u hu b' hb
  · intro u hu i' c' k' ha hkc' hr
    by_cases hut : u = t
    · subst u; rw [upd_same, hx] at ha; simp only [Option.some.injEq, Prod.mk.injEq] at ha; obtain ⟨rfl, rfl⟩ := ha
      rw [hkc] at hkc'; simp only [Option.some.injEq] at hkc'; subst hkc'
      rw [if_pos rfl]
      rcases hy with ⟨_, hy⟩ | ⟨hy, _⟩
      · exact hy
      · exact absurd hr hy
    · rw [upd_ne _ _ hut] at ha; rw [if_neg hut]; exact a0 u hu i' c' k' ha hkc' hr
  · intro u hu i' c' k' ha hkc' hr
    by_cases hut : u = t
    · subst u; rw [upd_same, hx] at ha; simp only [Option.some.injEq, Prod.mk.injEq] at ha; obtain ⟨rfl, rfl⟩ := ha
      rw [hkc] at hkc'; simp only [Option.some.injEq] at hkc'; subst hkc'
      rw [if_pos rfl]
      rcases hy with ⟨hy, _⟩ | ⟨_, hy⟩
      · exact absurd hy hr
      · exact Or.inr hy
    · rw [upd_ne _ _ hut] at ha; rw [if_neg hut]; exact a1 u hu i' c' k' ha hkc' hr

theorem rel_waiter {c : Nat} {x : Option Nat} (h : Rel s S) : Rel s { S with tk := upd S.tk c { S.tk c with waiter := x } } := by
  obtain ⟨n, kids, fr, rn, np, fn, a0, a1⟩ := h
  have e1 : ∀ u, ((upd S.tk c { S.tk c with waiter := x }) u).st = (S.tk u).st := by intro u; simp only [upd_apply]; split <;> simp_all
  have e2 : ∀ u, ((upd S.tk c { S.tk c with waiter := x }) u).kids = (S.tk u).kids := by intro u; simp only [upd_apply]; split <;> simp_all
  constructor <;> (try simp only [e1, e2]) <;> assumption

/-- the call of a coroutine function -/
theorem rel_spawn {lz : Bool} {c rest : Body} (h : All W s) (hr : Rel s S) (ht : t < s.n) (hc : s.ctl t = .run (.spawn lz c rest)) :
    Rel (spawn s w t lz c rest) (Nest.spawn S t lz c rest) := by
  obtain ⟨n, kids, fr, rn, np, fn, a0, a1⟩ := hr
  obtain ⟨⟨kr, ku⟩, hJ, hl⟩ := h
  have htn : t ≠ s.n := by omega
  have hkid : ∀ u : Nat, u < s.n → ∀ i d : Nat, ∀ k : Res → Body, (s.ctl u).aw = some (i, k) → (upd (upd s.kids t (s.kids t ++ [s.n])) s.n [] u)[i]? = some d → (s.kids u)[i]? = some d ∧ d < s.n := by
    intro u hu i d k ha hd
    have hut : u ≠ t := by rintro rfl; simp [hc, Ctl.aw] at ha
    rw [upd_ne _ _ (by omega), upd_ne _ _ hut] at hd
    exact ⟨hd, (kr u hu i d hd).2⟩
  have hres : ∀ d : Nat, d < s.n → (upd (upd s.ctl t (.run rest)) s.n (if lz then .fresh c else .run c) d).res = (s.ctl d).res := by
    intro d hd
    rw [upd_ne _ _ (by omega)]; simp only [upd_apply]; split
    · rename_i q; subst q; rw [hc]; rfl
    · rfl
  constructor <;> simp only [spawn, Nest.spawn, n]
  · intro u hu
    by_cases h1 : u = s.n
    · subst h1; simp
    · rw [upd_ne _ _ h1, upd_ne _ _ h1]
      have hu' : u < s.n := by omega
      have hfut : ∀ d ∈ s.kids u, (upd s.fut s.n Future.init d).got = (s.fut d).got := by
        intro d hd
        obtain ⟨i, hi⟩ := List.mem_iff_getElem?.1 hd
        rw [upd_ne _ _ (by have := kr u hu' i d hi; omega)]
      by_cases h2 : u = t
      · subst u
        rw [upd_same, upd_same]
        simp only [List.map_append, List.map_cons, List.map_nil, upd_same, kids t ht]
        congr 1
        apply List.map_congr_left
        intro d hd; rw [hfut d hd]
      · rw [upd_ne _ _ h2, upd_ne _ _ h2, kids u hu']
        apply List.map_congr_left
        intro d hd; rw [hfut d hd]
  · intro u hu b hb
    by_cases h1 : u = s.n
    · subst h1; rw [upd_same] at hb ⊢; revert hb; cases lz <;> simp
    · rw [upd_ne _ _ h1] at hb ⊢
      by_cases h2 : u = t
      · subst u; rw [upd_same] at hb; cases hb
      · rw [upd_ne _ _ h2] at hb ⊢; exact fr u (by omega) b hb
  · intro u hu b hb
    by_cases h1 : u = s.n
    · subst h1; rw [upd_same] at hb ⊢; revert hb; cases lz <;> simp
    · rw [upd_ne _ _ h1] at hb ⊢
      by_cases h2 : u = t
      · subst u; rw [upd_same] at hb ⊢; cases hb; rfl
      · rw [upd_ne _ _ h2] at hb ⊢; exact rn u (by omega) b hb
  · intro u hu w' d b hb
    by_cases h1 : u = s.n
    · subst h1; rw [upd_same] at hb; revert hb; cases lz <;> simp
    · rw [upd_ne _ _ h1] at hb ⊢
      by_cases h2 : u = t
      · subst u; rw [upd_same] at hb; cases hb
      · rw [upd_ne _ _ h2] at hb ⊢; exact np u (by omega) w' d b hb
  · intro u hu b hb
    by_cases h1 : u = s.n
    · subst h1; rw [upd_same] at hb; revert hb; cases lz <;> simp
    · rw [upd_ne _ _ h1] at hb ⊢
      by_cases h2 : u = t
      · subst u; rw [upd_same] at hb; cases hb
      · rw [upd_ne _ _ h2] at hb ⊢; exact fn u (by omega) b hb
  · intro u hu i d k ha hd hr
    have h1 : u ≠ s.n := by rintro rfl; rw [upd_same] at ha; revert ha; cases lz <;> simp [Ctl.aw]
    have h2 : u ≠ t := by rintro rfl; rw [upd_ne _ _ h1, upd_same] at ha; simp [Ctl.aw] at ha
    rw [upd_ne _ _ h1, upd_ne _ _ h2] at ha ⊢
    obtain ⟨e1, e2⟩ := hkid u (by omega) i d k ha hd
    exact a0 u (by omega) i d k ha e1 (by rw [← hres d e2]; exact hr)
  · intro u hu i d k ha hd hr
    have h1 : u ≠ s.n := by rintro rfl; rw [upd_same] at ha; revert ha; cases lz <;> simp [Ctl.aw]
    have h2 : u ≠ t := by rintro rfl; rw [upd_ne _ _ h1, upd_same] at ha; simp [Ctl.aw] at ha
    rw [upd_ne _ _ h1, upd_ne _ _ h2] at ha ⊢
    obtain ⟨e1, e2⟩ := hkid u (by omega) i d k ha hd
    exact a1 u (by omega) i d k ha e1 (by rw [← hres d e2]; exact hr)

theorem nest_finish_obs {r : Res} (h : ∀ p, (S.tk t).waiter = some p → p ≠ t ∧ ∃ i k, (S.tk p).st = .wait i k) (u : Nat) :
    ((Nest.finish S t r).tk u).st = (if u = t then .fin r else if (S.tk t).waiter = some u then (match (S.tk u).st with | .wait i k => .woken i k | x => x) else (S.tk u).st) ∧
      ((Nest.finish S t r).tk u).kids = (S.tk u).kids := by
  unfold Nest.finish
  cases hw : (S.tk t).waiter with
  | none => simp only [Nest.setSt, upd_apply]; constructor <;> split <;> simp_all
  | some p =>
    obtain ⟨hpt, i, k, h2⟩ := h p hw
    clear h hw
    simp only [Nest.setSt, upd_apply, hpt, if_false, h2, if_true]
    constructor
    · by_cases h4 : u = t
      · simp [h4]
      · by_cases h5 : u = p
        · subst h5; simp [h4, h2]
        · simp [h4, h5, Ne.symm h5]
    · by_cases h4 : u = t
      · simp [h4]
      · by_cases h5 : u = p
        · simp [h5, hpt]
        · simp [h4, h5]

/-- the body ends -/
theorem rel_finish {s' : St} {e : List Ev} {r : Res} {bd : Body} {stk : List Nat} (h : All W s) (hr : Rel s S) (hI : Nest.Inv b S R) (ho : s.on w = t :: stk) (hc : s.ctl t = .run bd)
    (hs : finish s w t r = some (s', e)) : e = [.finished t r] ∧ Rel s' (Nest.finish S t r) := by
  obtain ⟨-, he, hcase, hgot⟩ := all_finish h ho hc hs
  have ht := (h.l.oo w t (by simp [ho])).1
  refine ⟨he, ?_⟩
  have hrel := hr
  obtain ⟨n, kids, fr, rn, np, fn, a0, a1⟩ := hr
  obtain ⟨⟨kr, ku⟩, hJ, hl⟩ := h
  -- who waits for `t` in `Nest`
  have hwt : ∀ p, (S.tk t).waiter = some p → p < s.n ∧ ∃ i k, (S.tk p).st = .wait i k ∧ (s.kids p)[i]? = some t := by
    intro p hp
    obtain ⟨h1, i, k, h2, h3⟩ := hI.wtr t (by omega) p hp
    rw [n] at h1
    refine ⟨h1, i, k, h2, ?_⟩
    rw [rel_kid hrel h1] at h3
    cases hq : (s.kids p)[i]? with
    | none => rw [hq] at h3; cases h3
    | some d => rw [hq] at h3; simp at h3; rw [h3.1]
  -- who awaits `t` here
  have haw : ∀ p i k, p < s.n → (s.ctl p).aw = some (i, k) → (s.kids p)[i]? = some t → (S.tk t).waiter = some p := by
    intro p i k hp ha hk
    have h1 := a0 p hp i t k ha hk (by rw [hc]; rfl)
    obtain ⟨c, h2, h3, _⟩ := hI.wait p (by omega) i k h1
    rw [rel_kid hrel hp, hk] at h2
    simp at h2
    rw [h2.1]; exact h3
  have hctl : s'.n = s.n ∧ s'.kids = s.kids ∧ s'.ctl t = .fin r ∧ ∀ u, u ≠ t → s'.ctl u = s.ctl u ∨ ∃ i k, s.ctl u = .wait i k ∧ s'.ctl u = .woken i k := by
    rcases hcase with ⟨h1, -⟩ | ⟨p, i, k, _, h3, _, h1⟩
    · rw [h1]; exact ⟨rfl, rfl, upd_same .., fun u hu => Or.inl (upd_ne _ _ hu)⟩
    · have hpt : p ≠ t := by rintro rfl; rw [hc] at h3; cases h3
      rw [h1]
      refine ⟨rfl, rfl, ?_, ?_⟩
      · show upd (upd s.ctl t (.fin r)) p (.woken i k) t = .fin r
        rw [upd_ne _ _ (Ne.symm hpt), upd_same]
      · intro u hu
        show upd (upd s.ctl t (.fin r)) p (.woken i k) u = s.ctl u ∨ ∃ i' k', s.ctl u = .wait i' k' ∧ upd (upd s.ctl t (.fin r)) p (.woken i k) u = .woken i' k'
        by_cases hup : u = p
        · subst u; exact Or.inr ⟨i, k, h3, upd_same ..⟩
        · rw [upd_ne _ _ hup, upd_ne _ _ hu]; exact Or.inl rfl
  clear hcase
  obtain ⟨hn, hkids, hfin, hoth⟩ := hctl
  have hf := nest_finish_obs (S := S) (t := t) (r := r) (by
    intro p hp
    obtain ⟨_, i, k, h2, _⟩ := hwt p hp
    refine ⟨?_, i, k, h2⟩
    rintro rfl
    have := rn p ht bd hc
    rw [h2] at this; cases this)
  have haw' : ∀ u, u ≠ t → (s'.ctl u).aw = (s.ctl u).aw := by
    intro u hu; rcases hoth u hu with h1 | ⟨i, k, h1, h2⟩
    · rw [h1]
    · rw [h1, h2]; rfl
  have hres' : ∀ u, u ≠ t → (s'.ctl u).res = (s.ctl u).res := by
    intro u hu; rcases hoth u hu with h1 | ⟨i, k, h1, h2⟩
    · rw [h1]
    · rw [h1, h2]; rfl
  have hntw : ∀ u, u < s.n → (∀ i k, (S.tk u).st ≠ .wait i k) → (S.tk t).waiter ≠ some u := by
    intro u hu h1 h2; obtain ⟨_, i, k, h3, _⟩ := hwt u h2; exact h1 i k h3
  have hN : (Nest.finish S t r).n = S.n := Nest.finish_n S t r
  constructor
  · rw [hN, hn, n]
  · intro u hu; rw [hn] at hu; rw [(hf u).2, kids u hu, hkids]; simp only [hgot]
  · intro u hu b' hb
    rw [hn] at hu
    have hut : u ≠ t := by rintro rfl; rw [hfin] at hb; cases hb
    have hb' : s.ctl u = .fresh b' := by
        rcases hoth u hut with h1 | ⟨i, k, _, h2⟩
        · rw [← h1]; exact hb
        · rw [h2] at hb; cases hb
    have h1 := fr u hu b' hb'
    rw [(hf u).1, if_neg hut, if_neg (hntw u hu (by simp [h1]))]; exact h1
  · intro u hu b' hb
    rw [hn] at hu
    have hut : u ≠ t := by rintro rfl; rw [hfin] at hb; cases hb
    have hb' : s.ctl u = .run b' := by
        rcases hoth u hut with h1 | ⟨i, k, _, h2⟩
        · rw [← h1]; exact hb
        · rw [h2] at hb; cases hb
    have h1 := rn u hu b' hb'
    rw [(hf u).1, if_neg hut, if_neg (hntw u hu (by simp [h1]))]; exact h1
  · intro u hu w' d b' hb
    rw [hn] at hu
    have hut : u ≠ t := by rintro rfl; rw [hfin] at hb; cases hb
    have hb' : s.ctl u = .nap w' d b' := by
        rcases hoth u hut with h1 | ⟨i, k, _, h2⟩
        · rw [← h1]; exact hb
        · rw [h2] at hb; cases hb
    have h1 := np u hu w' d b' hb'
    rw [(hf u).1, if_neg hut, if_neg (hntw u hu (by simp [h1]))]; exact h1
  · intro u hu r' hb
    rw [hn] at hu
    by_cases hut : u = t
    · subst u; rw [hfin] at hb; cases hb; rw [(hf t).1, if_pos rfl]
    · have hb' : s.ctl u = .fin r' := by
        rcases hoth u hut with h1 | ⟨i, k, _, h2⟩
        · rw [← h1]; exact hb
        · rw [h2] at hb; cases hb
      have h1 := fn u hu r' hb'
      rw [(hf u).1, if_neg hut, if_neg (hntw u hu (by simp [h1]))]; exact h1
  · intro u hu i c k ha hk hq
    rw [hn] at hu; rw [hkids] at hk
    have hut : u ≠ t := by rintro rfl; rw [hfin] at ha; cases ha
    have hct : c ≠ t := by rintro rfl; rw [hfin] at hq; cases hq
    rw [haw' u hut] at ha; rw [hres' c hct] at hq
    have h1 := a0 u hu i c k ha hk hq
    rw [(hf u).1, if_neg hut, if_neg]
    · exact h1
    · intro h2
      obtain ⟨_, i', k', h3, h4⟩ := hwt u h2
      rw [h1] at h3; cases h3
      rw [hk] at h4; simp at h4; exact hct h4
  · intro u hu i c k ha hk hq
    rw [hn] at hu; rw [hkids] at hk
    have hut : u ≠ t := by rintro rfl; rw [hfin] at ha; cases ha
    rw [haw' u hut] at ha
    rw [(hf u).1, if_neg hut]
    by_cases hct : c = t
    · subst c
      have h1 := a0 u hu i t k ha hk (by rw [hc]; rfl)
      rw [if_pos (haw u i k hu ha hk), h1]; exact Or.inl rfl
    · rw [hres' c hct] at hq
      have h1 := a1 u hu i c k ha hk hq
      rw [if_neg (hntw u hu (by rcases h1 with h1 | h1 <;> simp [h1]))]; exact h1

/-- going to sleep, waking up -/
theorem rel_body {s' : St} {x : Ctl} {b : Body} (h : Rel s S) (hst : (S.tk t).st = .run b) (hres : (s.ctl t).res = none) (hx : x = .run b ∨ ∃ w u, x = .nap w u b)
    (h1 : s'.n = s.n) (h2 : s'.ctl = upd s.ctl t x) (h3 : s'.kids = s.kids) (h4 : s'.fut = s.fut) : Rel s' S := by
  obtain ⟨n, kids, fr, rn, np, fn, a0, a1⟩ := h
  have hxr : x.res = none ∧ x.aw = none := by rcases hx with rfl | ⟨w, u, rfl⟩ <;> exact ⟨rfl, rfl⟩
  have e2 : ∀ u, (upd s.ctl t x u).res = (s.ctl u).res := by
    intro u; simp only [upd_apply]; split
    · rename_i q; subst q; rw [hres, hxr.1]
    · rfl
  constructor <;> (try simp only [h1, h2, h3, h4, e2]) <;> try assumption
  · intro u hu b' hb
    by_cases hut : u = t
    · subst u; rw [upd_same] at hb; rcases hx with rfl | ⟨w, u, rfl⟩ <;> cases hb
    · rw [upd_ne _ _ hut] at hb; exact fr u hu b' hb
  · intro u hu b' hb
    by_cases hut : u = t
    · subst u; rw [upd_same] at hb; rcases hx with rfl | ⟨w, u, rfl⟩ <;> cases hb; exact hst
    · rw [upd_ne _ _ hut] at hb; exact rn u hu b' hb
  · intro u hu w' d b' hb
    by_cases hut : u = t
    · subst u; rw [upd_same] at hb; rcases hx with rfl | ⟨w, u, rfl⟩ <;> cases hb; exact hst
    · rw [upd_ne _ _ hut] at hb; exact np u hu w' d b' hb
  · intro u hu r hb
    by_cases hut : u = t
    · subst u; rw [upd_same] at hb; rcases hx with rfl | ⟨w, u, rfl⟩ <;> cases hb
    · rw [upd_ne _ _ hut] at hb; exact fn u hu r hb
  · intro u hu i c k ha
    by_cases hut : u = t
    · subst u; rw [upd_same, hxr.2] at ha; cases ha
    · rw [upd_ne _ _ hut] at ha; exact a0 u hu i c k ha
  · intro u hu i c k ha
    by_cases hut : u = t
    · subst u; rw [upd_same, hxr.2] at ha; cases ha
    · rw [upd_ne _ _ hut] at ha; exact a1 u hu i c k ha

end Verif.ForkJoin
