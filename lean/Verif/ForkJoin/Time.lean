import Verif.ForkJoin.Span
import Verif.ForkJoin.Props
/-!
# The times at which the tasks of a program end: invariants
-/

namespace Verif.ForkJoin
open Verif.Nest (Body Exc Res Ev)

def whn (F : Nat → Nat) (x : Ctl) (c : Nat) : When :=
  match x with
  | .fresh b => .after fun t => done b [] t
  | _ => .at (F c)

/-- `c` as its parent knows it -/
def ent (R : Nat → Res) (F : Nat → Nat) (s : St) (c : Nat) : Kid := ⟨R c, (s.fut c).got, whn F (s.ctl c) c⟩

def env (R : Nat → Res) (F : Nat → Nat) (s : St) (t : Nat) : List Kid := (s.kids t).map (ent R F s)

/-- when `t` ends that gets the result of its task `c` at `T` -/
def aft (R : Nat → Res) (F : Nat → Nat) (s : St) (t i : Nat) (k : Res → Body) (c T : Nat) : Nat :=
  done (k (if (s.fut c).got then .exc .hasBeenGot else R c)) ((env R F s t).set i ⟨R c, true, .at (F c)⟩) T

/-- no earlier, and if nobody is idle without need, no later -/
def Y (e : Prop) (a x : Nat) : Prop := a ≤ x ∧ (e → x ≤ a)

/-- `F t` is when task `t` ends. -/
def gd (e : Prop) (R : Nat → Res) (F : Nat → Nat) (s : St) (t : Nat) : Ctl → Prop
  | .fresh _ => True
  | .run b => Y e (F t) (done b (env R F s t) s.now)
  | .nap _ u b => (e → s.now ≤ u) ∧ Y e (F t) (done b (env R F s t) u)
  | .fin _ => F t ≤ s.now
  | .wait i k => ∀ c, (s.kids t)[i]? = some c → F t ≤ aft R F s t i k c (max s.now (F c)) ∧ (e → aft R F s t i k c (F c) ≤ F t)
  | .test i k | .susp i k | .woken i k | .got i k => ∀ c, (s.kids t)[i]? = some c → Y e (F t) (aft R F s t i k c (max s.now (F c)))

def Tm (e : Prop) (R : Nat → Res) (F : Nat → Nat) (s : St) : Prop := ∀ t, t < s.n → gd e R F s t (s.ctl t)

theorem gd_congr {e : Prop} {R R' : Nat → Res} {F F' : Nat → Nat} {s s' : St} {t : Nat} {x : Ctl} (h : gd e R F s t x) (hk : s'.kids t = s.kids t) (hF : F' t = F t) (hn : s'.now = s.now)
    (he : ∀ c, c ∈ s.kids t → ent R' F' s' c = ent R F s c ∧ F' c = F c) : gd e R' F' s' t x := by
  have henv : env R' F' s' t = env R F s t := by
    simp only [env, hk]; exact List.map_congr_left fun c hc => (he c hc).1
  have haft : ∀ i k c T, (s.kids t)[i]? = some c → aft R' F' s' t i k c T = aft R F s t i k c T := by
    intro i k c T hc
    obtain ⟨h1, h2⟩ := he c (List.mem_iff_getElem?.2 ⟨i, hc⟩)
    have h3 : R' c = R c := congrArg Kid.res h1
    have h4 : (s'.fut c).got = (s.fut c).got := congrArg Kid.got h1
    simp only [aft, henv, h2, h3, h4]
  have hFc : ∀ (i c : Nat), (s.kids t)[i]? = some c → F' c = F c := fun i c hc => (he c (List.mem_iff_getElem?.2 ⟨i, hc⟩)).2
  cases x <;> simp only [gd, hk, hF, hn, henv] at h ⊢ <;> try exact h
  all_goals
    intro c hc
    rw [hFc _ c hc, haft _ _ c _ hc]
    first | (rw [haft _ _ c _ hc]; exact h c hc) | exact h c hc

theorem EL.refl_env (R : Nat → Res) (F : Nat → Nat) (s : St) (l : List Nat) : EL (l.map (ent R F s)) (l.map (ent R F s)) := by
  induction l with
  | nil => exact .nil
  | cons c l ih =>
    refine .cons rfl rfl ?_ ih
    intro n n' h
    simp only [ent, whn]
    cases s.ctl c <;> first | exact Nat.le_refl _ | exact done_mono _ .nil h

theorem env_mono (R : Nat → Res) (F : Nat → Nat) (s : St) (t : Nat) (b : Body) {n n' : Nat} (h : n ≤ n') : done b (env R F s t) n ≤ done b (env R F s t) n' :=
  done_mono b (EL.refl_env R F s _) h

theorem aft_mono (R : Nat → Res) (F : Nat → Nat) (s : St) (t i : Nat) (k : Res → Body) (c : Nat) {n n' : Nat} (h : n ≤ n') : aft R F s t i k c n ≤ aft R F s t i k c n' :=
  done_mono _ ((EL.refl_env R F s _).set i rfl rfl fun _ _ _ => Nat.le_refl _) h

variable {e : Prop} {W : Nat} {b : Body} {R R' : Nat → Res} {F : Nat → Nat} {s s' : St} {S : Nest.St} {t w : Nat} {ev : List Ev}

/-- only `t` moves, and it is not fresh -/
theorem tm_move {x : Ctl} (hA : K s) (h : Tm e R F s) (ht : t < s.n) (hf : ∀ bd, s.ctl t ≠ .fresh bd) (hx : ∀ bd, x ≠ .fresh bd) (h1 : s'.n = s.n) (h2 : s'.ctl = upd s.ctl t x) (h3 : s'.kids = s.kids)
    (h4 : ∀ c, (s'.fut c).got = (s.fut c).got) (h5 : s'.now = s.now) (hR : ∀ u, u < s.n → R' u = R u) (hg : gd e R F s t x) : Tm e R' F s' := by
  have hent : ∀ c, c < s.n → ent R' F s' c = ent R F s c := by
    intro c hc
    simp only [ent, hR c hc, h4, h2, upd_apply]
    split
    · subst c
      have hw : ∀ y : Ctl, (∀ bd, y ≠ .fresh bd) → whn F y t = .at (F t) := by intro y hy; cases y <;> first | rfl | exact absurd rfl (hy _)
      rw [hw _ hx, hw _ hf]
    · rfl
  have hke : ∀ u, u < s.n → ∀ c, c ∈ s.kids u → ent R' F s' c = ent R F s c ∧ F c = F c := by
    intro u hu c hc
    obtain ⟨i, hi⟩ := List.mem_iff_getElem?.1 hc
    exact ⟨hent c (hA.kr u hu i c hi).2, rfl⟩
  intro u hu
  rw [h1] at hu
  rw [h2, upd_apply]
  split
  · subst u; exact gd_congr hg (by rw [h3]) rfl h5 (hke t ht)
  · exact gd_congr (h u hu) (by rw [h3]) rfl h5 (hke u hu)

theorem whn_at {x : Ctl} (F : Nat → Nat) (c : Nat) (h : ∀ bd, x ≠ .fresh bd) : whn F x c = .at (F c) := by
  cases x <;> first | rfl | exact absurd rfl (h _)

/-- the body ends -/
theorem tm_finish {r : Res} {bd : Body} {stk : List Nat} (hA : All W s) (h : Tm e R F s) (ho : s.on w = t :: stk) (hc : s.ctl t = .run bd) (hd : ∀ l n, done bd l n = n)
    (hs : finish s w t r = some (s', ev)) (hR : ∀ u, u < s.n → R' u = R u) (hn : s'.now = s.now) : Tm e R' F s' := by
  have ht := (hA.l.oo w t (by simp [ho])).1
  obtain ⟨-, -, hcase, hgot⟩ := all_finish hA ho hc hs
  have hg := h t ht
  rw [hc] at hg
  simp only [gd, hd] at hg
  rcases hcase with ⟨he, -⟩ | ⟨p, i, k, hp, hw, hk, he⟩
  · refine tm_move hA.k h ht (by rw [hc]; simp) (x := .fin r) (by simp) (by rw [he]) (by rw [he]) (by rw [he]) hgot hn hR ?_
    exact hg.1
  · have hpt : p ≠ t := by rintro rfl; rw [hc] at hw; cases hw
    have h1 : Tm e R' F { s with fut := s'.fut, ctl := upd s.ctl t (.fin r) } :=
      tm_move hA.k h ht (by rw [hc]; simp) (x := .fin r) (by simp) rfl rfl rfl hgot rfl hR hg.1
    have h2 := h1 p hp
    simp only [upd_ne _ _ hpt, hw] at h2
    refine tm_move (s := { s with fut := s'.fut, ctl := upd s.ctl t (.fin r) }) (t := p) (x := .woken i k) (R := R') ⟨hA.k.kr, hA.k.ku⟩ h1 hp (by simp only [upd_ne _ _ hpt, hw]; simp) (by simp) (by rw [he]) (by rw [he]) (by rw [he])
      (fun _ => rfl) hn (fun _ _ => rfl) ?_
    intro c hkc
    obtain ⟨h3, h4⟩ := h2 c hkc
    have hct : c = t := by
      have hkc' : (s.kids p)[i]? = some c := hkc
      rw [hk] at hkc'; cases hkc'; rfl
    refine ⟨h3, fun hE => ?_⟩
    have h5 := hg.2 hE
    have h6 := h4 hE
    subst hct
    have h7 : max s.now (F c) = F c := by omega
    show aft _ _ _ _ _ _ _ (max s.now (F c)) ≤ _
    rw [h7]; exact h6

/-- `co_await` yields -/
theorem tm_resume {i c : Nat} {k : Res → Body} (hA : All W s) (h : Tm e R F s) (ho : t ∈ s.on w) (hc : s.ctl t = .woken i k ∨ s.ctl t = .got i k) (hk : (s.kids t)[i]? = some c)
    (hs : resume s t c k = some (s', ev)) (hR : ∀ u, u < s.n → R' u = R u) (hfin : ∀ r, s.ctl c = .fin r → r = R c) : Tm e R' F s' := by
  obtain ⟨-, r, hcf, hgt, hoth, hcase⟩ := all_resume hA ho hc hk hs
  have ht := (hA.l.oo w t ho).1
  have hcn := hA.k.kr t ht i c hk
  have hr := hfin r hcf
  subst hr
  have he : s' = { s with fut := s'.fut, ctl := upd s.ctl t (.run (k (if (s.fut c).got then .exc .hasBeenGot else R c))) } := by
    rcases hcase with ⟨h1, -, h2⟩ | ⟨h1, -, h2⟩ <;> rw [h1] <;> exact h2
  have hg := h t ht
  have hg' : Y e (F t) (aft R F s t i k c (max s.now (F c))) := by
    rcases hc with hc | hc <;> rw [hc] at hg <;> exact hg c hk
  have hgc := h c hcn.2
  rw [hcf] at hgc
  have hle : F c ≤ s.now := hgc
  rw [Nat.max_eq_left hle] at hg'
  have hnf : ∀ bd, s.ctl t ≠ .fresh bd := by intro bd; rcases hc with hc | hc <;> rw [hc] <;> simp
  have hctl : s'.ctl = upd s.ctl t (.run (k (if (s.fut c).got then .exc .hasBeenGot else R c))) := by rw [he]
  have hkids : s'.kids = s.kids := by rw [he]
  have hnow : s'.now = s.now := by rw [he]
  have hn : s'.n = s.n := by rw [he]
  have hent : ∀ d, d < s.n → d ≠ c → ent R' F s' d = ent R F s d := by
    intro d hd hdc
    simp only [ent, hR d hd, hoth d hdc, hctl, upd_apply]
    split
    · subst d; rw [whn_at _ _ hnf]; rfl
    · rfl
  have hentc : ent R' F s' c = ⟨R c, true, .at (F c)⟩ := by
    simp only [ent, hR c hcn.2, hgt, hctl, upd_ne _ _ (show c ≠ t by omega), hcf]; rfl
  intro u hu
  rw [hn] at hu
  rw [hctl, upd_apply]
  split
  · subst u
    have henv : env R' F s' t = (env R F s t).set i ⟨R c, true, .at (F c)⟩ := by
      simp only [env, hkids]
      apply List.ext_getElem?
      intro j
      simp only [List.getElem?_set, List.getElem?_map, List.length_map]
      by_cases hij : i = j
      · subst hij
        have : i < (s.kids t).length := (List.getElem?_eq_some_iff.1 hk).1
        rw [if_pos rfl, if_pos this, hk, Option.map_some, hentc]
      · rw [if_neg hij]
        cases hd : (s.kids t)[j]? with
        | none => rfl
        | some d =>
          have hdc : d ≠ c := by rintro rfl; exact hij (hA.k.ku t t ht ht _ _ _ hk hd).2
          simp only [Option.map_some, hent d (hA.k.kr t ht j d hd).2 hdc]
    simp only [gd, henv, hnow]
    exact hg'
  · rename_i hut
    refine gd_congr (h u hu) (by rw [hkids]) rfl hnow fun d hd => ?_
    obtain ⟨j, hj⟩ := List.mem_iff_getElem?.1 hd
    have hdc : d ≠ c := by rintro rfl; exact hut (hA.k.ku u t hu ht _ _ _ hj hk).1
    exact ⟨hent d (hA.k.kr u hu j d hj).2 hdc, rfl⟩

/-- A task is started. -/
theorem tm_start {x : Ctl} {i c : Nat} (hA : All W s) (hfk : ∀ bd, s.ctl c = .fresh bd → s.kids c = []) (h : Tm e R F s) (ht : t < s.n) (hf : ∀ bd, s.ctl t ≠ .fresh bd) (hx : ∀ bd, x ≠ .fresh bd)
    (hk : (s.kids t)[i]? = some c) (hR : ∀ u, u < s.n → R' u = R u)
    (hg : ∀ (F' : Nat → Nat) (s' : St), s'.now = s.now → s'.kids = s.kids → F' t = F t → (∀ d, (s'.fut d).got = (s.fut d).got) → F' c = (whn F (s.ctl c) c).due s.now → R' c = R c →
      env R' F' s' t = (env R F s t).set i ((ent R F s c).start s.now) → gd e R' F' s' t x) :
    ∃ F', F' t = F t ∧ (∀ u, u < s.n → (∀ bd, s.ctl u ≠ .fresh bd) → F' u = F u) ∧ Tm e R' F' (start (setCtl s t x) c) := by
  have hcn := hA.k.kr t ht i c hk
  have hct : c ≠ t := by omega
  obtain ⟨F', hF'⟩ : ∃ F', F' = upd F c ((whn F (s.ctl c) c).due s.now) := ⟨_, rfl⟩
  have hFt : F' t = F t := by rw [hF', upd_ne _ _ (Ne.symm hct)]
  have hFu : ∀ u, (∀ bd, s.ctl u ≠ .fresh bd) → F' u = F u := by
    intro u hu; rw [hF', upd_apply]; split
    · subst u; rw [whn_at _ _ hu]; rfl
    · rfl
  have hFn : ∀ u, u ≠ c → F' u = F u := by intro u hu; rw [hF', upd_ne _ _ hu]
  refine ⟨F', hFt, fun u _ hu => hFu u hu, ?_⟩
  obtain ⟨s', hs'⟩ : ∃ s', s' = start (setCtl s t x) c := ⟨_, rfl⟩
  rw [← hs']
  have hn : s'.n = s.n := by rw [hs']; unfold start; split <;> rfl
  have hkids : s'.kids = s.kids := by rw [hs']; unfold start; split <;> rfl
  have hfut : s'.fut = s.fut := by rw [hs']; unfold start; split <;> rfl
  have hnow : s'.now = s.now := by rw [hs']; unfold start; split <;> rfl
  have hctlt : s'.ctl t = x := by
    rw [hs']; unfold start; split
    · simp only [setCtl]; rw [upd_ne _ _ (Ne.symm hct), upd_same]
    · simp [setCtl]
  have hctlc : s'.ctl c = match s.ctl c with | .fresh bd => .run bd | y => y := by
    rw [hs']; unfold start
    have : (setCtl s t x).ctl c = s.ctl c := by simp only [setCtl]; rw [upd_ne _ _ hct]
    rw [this]
    cases hq : s.ctl c <;> first | exact this.trans hq | simp [setCtl]
  have hctlu : ∀ u, u ≠ t → u ≠ c → s'.ctl u = s.ctl u := by
    intro u h1 h2
    rw [hs']; unfold start; split
    · simp only [setCtl]; rw [upd_ne _ _ h2, upd_ne _ _ h1]
    · simp only [setCtl]; rw [upd_ne _ _ h1]
  have hcnf : ∀ bd, s'.ctl c ≠ .fresh bd := by
    intro bd; rw [hctlc]; cases s.ctl c <;> simp
  have hent : ∀ d, d < s.n → d ≠ c → ent R' F' s' d = ent R F s d := by
    intro d hd hdc
    simp only [ent, hR d hd, hfut]
    by_cases hdt : d = t
    · subst d; rw [hctlt, whn_at _ _ hx, whn_at _ _ hf, hFt]
    · rw [hctlu d hdt hdc]
      simp only [whn, hFn d hdc]
  have hentc : ent R' F' s' c = (ent R F s c).start s.now := by
    simp only [ent, hR c hcn.2, hfut, Kid.start]
    rw [whn_at _ _ hcnf, hF', upd_same]
  have henv : env R' F' s' t = (env R F s t).set i ((ent R F s c).start s.now) := by
    simp only [env, hkids]
    apply List.ext_getElem?
    intro j
    simp only [List.getElem?_set, List.getElem?_map, List.length_map]
    by_cases hij : i = j
    · subst hij
      have : i < (s.kids t).length := (List.getElem?_eq_some_iff.1 hk).1
      rw [if_pos rfl, if_pos this, hk, Option.map_some, hentc]
    · rw [if_neg hij]
      cases hd : (s.kids t)[j]? with
      | none => rfl
      | some d =>
        have hdc : d ≠ c := by rintro rfl; exact hij (hA.k.ku t t ht ht _ _ _ hk hd).2
        simp only [Option.map_some, hent d (hA.k.kr t ht j d hd).2 hdc]
  intro u hu
  rw [hn] at hu
  by_cases hut : u = t
  · subst u
    rw [hctlt]
    exact hg F' s' hnow hkids hFt (by simp [hfut]) (by rw [hF', upd_same]) (hR c hcn.2) henv
  · have hke : ∀ d, d ∈ s.kids u → ent R' F' s' d = ent R F s d ∧ F' d = F d := by
      intro d hd
      obtain ⟨j, hj⟩ := List.mem_iff_getElem?.1 hd
      have hdc : d ≠ c := by rintro rfl; exact hut (hA.k.ku u t hu ht _ _ _ hj hk).1
      exact ⟨hent d (hA.k.kr u hu j d hj).2 hdc, hFn d hdc⟩
    by_cases huc : u = c
    · subst u
      cases hq : s.ctl c with
      | fresh bd =>
        rw [hctlc, hq]
        simp only [gd, env, hkids, hfk bd hq, List.map_nil, hnow, hF', upd_same, hq, whn, When.due]
        exact ⟨Nat.le_refl _, fun _ => Nat.le_refl _⟩
      | _ =>
        rw [hctlc, hq]
        have := h c hu
        rw [hq] at this
        exact gd_congr this (by rw [hkids]) (hFu c (by rw [hq]; simp)) hnow hke
    · rw [hctlu u hut huc]
      exact gd_congr (h u hu) (by rw [hkids]) (hFn u huc) hnow hke

/-- A task is created. -/
theorem tm_spawn {lz : Bool} {c rest : Body} (hA : All W s) (h : Tm e R F s) (ht : t < s.n) (hc : s.ctl t = .run (.spawn lz c rest)) (hR : ∀ u, u < s.n → R' u = R u) (hN : R' s.n = Nest.den c []) :
    ∃ F', (∀ u, u < s.n → F' u = F u) ∧ Tm e R' F' (spawn s w t lz c rest) := by
  obtain ⟨F', hF'⟩ : ∃ F', F' = upd F s.n (done c [] s.now) := ⟨_, rfl⟩
  have hFu : ∀ u, u < s.n → F' u = F u := by intro u hu; rw [hF', upd_ne _ _ (by omega)]
  refine ⟨F', hFu, ?_⟩
  have hctl : ∀ u, (spawn s w t lz c rest).ctl u = if u = s.n then (if lz then .fresh c else .run c) else if u = t then .run rest else s.ctl u := by
    intro u; simp only [spawn, upd_apply]
  have hkids : ∀ u, (spawn s w t lz c rest).kids u = if u = s.n then [] else if u = t then s.kids t ++ [s.n] else s.kids u := by
    intro u; simp only [spawn, upd_apply]
  have hent : ∀ d, d < s.n → ent R' F' (spawn s w t lz c rest) d = ent R F s d := by
    intro d hd
    have hdn : d ≠ s.n := by omega
    simp only [ent, hR d hd, hctl, hdn, if_false]
    have : (spawn s w t lz c rest).fut d = s.fut d := by simp only [spawn]; rw [upd_ne _ _ hdn]
    rw [this]
    by_cases hdt : d = t
    · subst d; rw [if_pos rfl, hc]; simp only [whn, hFu t hd]
    · rw [if_neg hdt]; simp only [whn, hFu d hd]
  have hentn : ent R' F' (spawn s w t lz c rest) s.n = ⟨Nest.den c [], false, if lz then .after fun t => done c [] t else .at (done c [] s.now)⟩ := by
    have h1 : ((spawn s w t lz c rest).fut s.n).got = false := by simp only [spawn, upd_same]; rfl
    simp only [ent, hN, h1, hctl, if_true]
    cases lz
    · simp only [Bool.false_eq_true, if_false, whn, hF', upd_same]
    · simp only [if_true, whn]
  intro u hu
  have hu' : u < s.n + 1 := hu
  rw [hctl]
  split
  · subst u
    cases lz
    · simp only [Bool.false_eq_true, if_false, gd, env, hkids, if_true, List.map_nil, hF', upd_same]
      exact ⟨Nat.le_refl _, fun _ => Nat.le_refl _⟩
    · exact trivial
  · have hun : u < s.n := by omega
    split
    · subst u
      have hg := h t ht
      rw [hc] at hg
      have henv : env R' F' (spawn s w t lz c rest) t = env R F s t ++ [⟨Nest.den c [], false, if lz then .after fun t => done c [] t else .at (done c [] s.now)⟩] := by
        simp only [env, hkids, if_neg (show t ≠ s.n by omega), if_true, List.map_append, List.map_cons, List.map_nil, hentn]
        congr 1
        apply List.map_congr_left
        intro d hd
        obtain ⟨j, hj⟩ := List.mem_iff_getElem?.1 hd
        exact hent d (hA.k.kr t ht j d hj).2
      have hnow : (spawn s w t lz c rest).now = s.now := rfl
      simp only [gd, henv, hFu t ht, hnow]
      simpa only [gd, done] using hg
    · rename_i h1 h2
      refine gd_congr (h u hun) (by rw [hkids, if_neg h1, if_neg h2]) (hFu u hun) rfl fun d hd => ?_
      obtain ⟨j, hj⟩ := List.mem_iff_getElem?.1 hd
      have := (hA.k.kr u hun j d hj).2
      exact ⟨hent d this, hFu d this⟩

/-- Time passes. -/
theorem tm_tick (h : Tm e R F s) (hq : e → ∀ t, t < s.n → (s.ctl t).active = false ∧ ∀ w u bd, s.ctl t = .nap w u bd → s.now < u) : Tm e R F { s with now := s.now + 1 } := by
  intro t ht
  have hg := h t ht
  have hq' : e → (s.ctl t).active = false ∧ ∀ w u bd, s.ctl t = .nap w u bd → s.now < u := fun he => hq he t ht
  show gd e R F _ t (s.ctl t)
  have henv : env R F { s with now := s.now + 1 } t = env R F s t := rfl
  have haft : ∀ i k c T, aft R F { s with now := s.now + 1 } t i k c T = aft R F s t i k c T := fun _ _ _ _ => rfl
  revert hg hq'
  cases s.ctl t <;> simp only [gd, henv, haft, Ctl.active] <;> intro hg hq'
  case fresh => trivial
  case run b' => exact ⟨Nat.le_trans hg.1 (env_mono R F s t b' (Nat.le_succ _)), fun he => absurd (hq' he).1 (by simp)⟩
  case nap w u b' => exact ⟨fun he => (hq' he).2 w u b' rfl, hg.2⟩
  case fin => omega
  case wait i k => exact fun c hc => ⟨Nat.le_trans (hg c hc).1 (aft_mono R F s t i k c (by omega)), (hg c hc).2⟩
  all_goals
    rename_i i k
    exact fun c hc => ⟨Nat.le_trans (hg c hc).1 (aft_mono R F s t i k c (by omega)), fun he => absurd (hq' he).1 (by simp)⟩

end Verif.ForkJoin
