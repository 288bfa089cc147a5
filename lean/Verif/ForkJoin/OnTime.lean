import Verif.ForkJoin.Time
/-!
# C113: programs that sleep end on time

Every program, every number of workers, every interleaving; `done` (Span.lean) is the time the program needs if only sleeping takes time.
-/

namespace Verif.ForkJoin
open Verif.Nest (Body Exc Res Ev result work call)
open Machine

variable {e : Prop} {W : Nat} {b : Body} {R R' : Nat → Res} {F : Nat → Nat} {s s' : St} {S : Nest.St} {t w : Nat} {ev : List Ev}

theorem env_get (R : Nat → Res) (F : Nat → Nat) (s : St) (t i : Nat) : (env R F s t)[i]? = (s.kids t)[i]?.map (ent R F s) := by simp [env]

theorem tm_step {l : Lbl} (hA : All W s) (hr : Rel s S) (hI : Nest.Inv b S R) (h : Tm e R F s) (hs : step W s l = some (s', ev)) (hR : ∀ u, u < s.n → R' u = R u)
    (hN : ∀ bd, s.n < s'.n → s'.kids s.n = [] → (s'.ctl s.n = .fresh bd ∨ s'.ctl s.n = .run bd) → R' s.n = Nest.den bd [])
    (hq : e → l = .tick → ∀ t, t < s.n → (s.ctl t).active = false ∧ ∀ w u bd, s.ctl t = .nap w u bd → s.now < u) :
    ∃ F', (∀ u, u < s.n → (∀ bd, s.ctl u ≠ .fresh bd) → F' u = F u) ∧ Tm e R' F' s' := by
  have same : ∀ {s'}, Tm e R' F s' → ∃ F', (∀ u, u < s.n → (∀ bd, s.ctl u ≠ .fresh bd) → F' u = F u) ∧ Tm e R' F' s' := fun h => ⟨F, fun _ _ _ => rfl, h⟩
  have hfk : ∀ c, c < s.n → ∀ bd, s.ctl c = .fresh bd → s.kids c = [] := by
    intro c hc bd hf
    have h1 := hI.fresh c (by rw [hr.n]; exact hc) bd (hr.fr c hc bd hf)
    rw [hr.kids c hc] at h1
    exact List.map_eq_nil_iff.1 h1
  cases l with
  | take w t =>
    simp only [step] at hs
    split at hs
    · simp only [Option.some.injEq, Prod.mk.injEq] at hs
      obtain ⟨rfl, rfl⟩ := hs
      exact same fun u hu => gd_congr (h u hu) rfl rfl rfl fun c hc => by
        obtain ⟨j, hj⟩ := List.mem_iff_getElem?.1 hc
        exact ⟨by simp only [ent, hR c (hA.k.kr u hu j c hj).2], rfl⟩
    · cases hs
  | tick =>
    simp only [step, Option.some.injEq, Prod.mk.injEq] at hs
    obtain ⟨rfl, rfl⟩ := hs
    have h1 := tm_tick h fun he => hq he rfl
    exact same fun u hu => gd_congr (h1 u hu) rfl rfl rfl fun c hc => by
      obtain ⟨j, hj⟩ := List.mem_iff_getElem?.1 hc
      exact ⟨by simp only [ent, hR c (hA.k.kr u hu j c hj).2], rfl⟩
  | fire w t =>
    simp only [step] at hs
    split at hs
    · rename_i w' u bd hc
      split at hs
      · rename_i hg
        simp only [Option.some.injEq, Prod.mk.injEq] at hs
        obtain ⟨rfl, rfl⟩ := hs
        refine same (tm_move hA.k h hg.1 (by rw [hc]; simp) (x := .run bd) (by simp) rfl rfl rfl (fun _ => rfl) rfl hR ?_)
        have h1 := h t hg.1
        rw [hc] at h1
        exact ⟨Nat.le_trans h1.2.1 (env_mono R F s t bd hg.2.2.2), fun he => Nat.le_trans (env_mono R F s t bd (h1.1 he)) (h1.2.2 he)⟩
      · cases hs
    · cases hs
  | act w =>
    simp only [step] at hs
    split at hs
    · cases hs
    · rename_i t stk ho
      have hm : t ∈ s.on w := by simp [ho]
      have ht := (hA.l.oo w t hm).1
      have hg := h t ht
      simp only [act] at hs
      have hnowf : ∀ {r}, finish s w t r = some (s', ev) → s'.now = s.now := by
        intro r h1
        simp only [finish] at h1
        split at h1
        · cases h1
        · simp only [Option.some.injEq, Prod.mk.injEq] at h1
          obtain ⟨rfl, -⟩ := h1
          split
          · simp only [wake]; split <;> rfl
          · rfl
      split at hs
      · rename_i v hc
        exact same (tm_finish hA h ho hc (fun _ _ => rfl) hs hR (hnowf hs))
      · rename_i v hc
        exact same (tm_finish hA h ho hc (fun _ _ => rfl) hs hR (hnowf hs))
      · rename_i lz c rest hc
        simp only [Option.some.injEq, Prod.mk.injEq] at hs
        obtain ⟨rfl, rfl⟩ := hs
        have hN' : R' s.n = Nest.den c [] := by
          refine hN c (Nat.lt_succ_self _) (by simp [spawn]) ?_
          simp only [spawn, upd_same]; cases lz <;> simp
        obtain ⟨F', h1, h2⟩ := tm_spawn (w := w) hA h ht hc hR hN'
        exact ⟨F', fun u hu _ => h1 u hu, h2⟩
      · rename_i i rest hc
        have hf : ∀ bd, s.ctl t ≠ .fresh bd := by rw [hc]; simp
        rw [hc] at hg
        split at hs
        · rename_i hk
          simp only [Option.some.injEq, Prod.mk.injEq] at hs
          obtain ⟨rfl, rfl⟩ := hs
          refine same (tm_move hA.k h ht hf (x := .run rest) (by simp) rfl rfl rfl (fun _ => rfl) rfl hR ?_)
          simpa only [gd, done, env_get, hk, Option.map_none] using hg
        · rename_i c hk
          simp only [Option.some.injEq, Prod.mk.injEq] at hs
          obtain ⟨rfl, rfl⟩ := hs
          have hcn := (hA.k.kr t ht i c hk).2
          obtain ⟨F', -, h1, h2⟩ := tm_start (e := e) (R := R) (R' := R') (F := F) (x := .run rest) hA (hfk c hcn) h ht hf (by simp) hk hR (by
            intro F' s' e1 e2 e3 _ _ _ e4
            simp only [gd, e1, e3, e4]
            simpa only [gd, done, env_get, hk, Option.map_some] using hg)
          exact ⟨F', h1, h2⟩
      · rename_i i k hc
        have hf : ∀ bd, s.ctl t ≠ .fresh bd := by rw [hc]; simp
        rw [hc] at hg
        split at hs
        · rename_i hk
          simp only [Option.some.injEq, Prod.mk.injEq] at hs
          obtain ⟨rfl, rfl⟩ := hs
          refine same (tm_move hA.k h ht hf (x := .run (k (.exc .hasBeenGot))) (by simp) rfl rfl rfl (fun _ => rfl) rfl hR ?_)
          simpa only [gd, done, env_get, hk, Option.map_none] using hg
        · rename_i c hk
          simp only [Option.some.injEq, Prod.mk.injEq] at hs
          obtain ⟨rfl, rfl⟩ := hs
          have hcn := (hA.k.kr t ht i c hk).2
          obtain ⟨F', -, h1, h2⟩ := tm_start (e := e) (R := R) (R' := R') (F := F) (x := .test i k) hA (hfk c hcn) h ht hf (by simp) hk hR (by
            intro F' s' e1 e2 e3 e5 e6 e7 e4
            intro c' hk'
            rw [e2, hk] at hk'; cases hk'
            simp only [aft, e1, e3, e4, e5, e6, e7, List.set_set]
            have hg2 := hg
            simp only [gd, done, env_get, hk, Option.map_some] at hg2
            exact hg2)
          exact ⟨F', h1, h2⟩
      · rename_i rest hc
        simp only [Option.some.injEq, Prod.mk.injEq] at hs
        obtain ⟨rfl, rfl⟩ := hs
        rw [hc] at hg
        exact same (tm_move hA.k h ht (by rw [hc]; simp) (x := .run rest) (by simp) rfl rfl rfl (fun _ => rfl) rfl hR (by simpa only [gd, done] using hg))
      · rename_i d rest hc
        rw [hc] at hg
        split at hs <;> simp only [Option.some.injEq, Prod.mk.injEq] at hs <;> obtain ⟨rfl, rfl⟩ := hs
        · rename_i hd
          subst hd
          exact same (tm_move hA.k h ht (by rw [hc]; simp) (x := .run rest) (by simp) rfl rfl rfl (fun _ => rfl) rfl hR (by simpa only [gd, done, Nat.add_zero] using hg))
        · refine same (tm_move hA.k h ht (by rw [hc]; simp) (x := .nap w (s.now + d) rest) (by simp) rfl rfl rfl (fun _ => rfl) rfl hR ?_)
          exact ⟨fun _ => Nat.le_add_right _ _, by simpa only [gd, done] using hg⟩
      · rename_i i k hc
        rw [hc] at hg
        split at hs
        · cases hs
        · rename_i c hk
          obtain ⟨-, -, ⟨x, hx, he⟩, h2⟩ := all_test hA hm hc hk hs
          rcases hx with ⟨rfl, -⟩ | ⟨rfl, -⟩
          · exact same (tm_move hA.k h ht (by rw [hc]; simp) (x := .got i k) (by simp) (by rw [he]) (by rw [he]) (by rw [he]) h2 (by rw [he]) hR hg)
          · exact same (tm_move hA.k h ht (by rw [hc]; simp) (x := .susp i k) (by simp) (by rw [he]) (by rw [he]) (by rw [he]) h2 (by rw [he]) hR hg)
      · rename_i i k hc
        rw [hc] at hg
        split at hs
        · cases hs
        · rename_i c hk
          obtain ⟨-, -, hx, h2⟩ := all_suspend hA ho hc hk hs
          rcases hx with ⟨-, he⟩ | ⟨-, he⟩
          · refine same (tm_move hA.k h ht (by rw [hc]; simp) (x := .wait i k) (by simp) (by rw [he]) (by rw [he]) (by rw [he]) h2 (by rw [he]) hR ?_)
            exact fun c hc => ⟨(hg c hc).1, fun hE => Nat.le_trans (aft_mono R F s t i k c (Nat.le_max_right ..)) ((hg c hc).2 hE)⟩
          · exact same (tm_move hA.k h ht (by rw [hc]; simp) (x := .woken i k) (by simp) (by rw [he]) (by rw [he]) (by rw [he]) h2 (by rw [he]) hR hg)
      all_goals try (first | (cases hs; done) | (split at hs; · cases hs))
      all_goals
        rename_i i k hc _ c hk
        have hcn := (hA.k.kr t ht i c hk).2
        refine same (tm_resume hA h hm (by simp [hc]) hk hs hR fun r hf => ?_)
        have h1 := hI.prom c (by rw [hr.n]; exact hcn)
        rw [h1]
        simp only [Nest.promised, hr.fn c hcn r hf]

/-- An execution in which time passes only when nothing else can happen: workers and timers lose no time. -/
inductive Prompt (b : Body) (W : Nat) : St → List Ev → Prop
  | init : Prompt b W (init b) []
  | step {s s' : St} {tr e : List Ev} {l : Lbl} : Prompt b W s tr → step W s l = some (s', e) → (l = .tick → ∀ l', l' ≠ .tick → step W s l' = none) → Prompt b W s' (tr ++ e)

theorem Prompt.reaches {tr : List Ev} (h : Prompt b W s tr) : (machine b W).Reaches s tr := by
  induction h with
  | init => exact Reaches.init _
  | step _ hs _ ih => exact ih.step hs

/-- what the two theorems need of a state -/
structure TI (e : Prop) (b : Body) (W : Nat) (s : St) (tr : List Ev) (S : Nest.St) (R : Nat → Res) (F : Nat → Nat) : Prop where
  a : All W s
  hr : (Nest.machine b).Reaches S tr
  rel : Rel s S
  inv : Nest.Inv b S R
  tm : Tm e R F s
  root : F 0 = done b [] 0

theorem ti_init : ∃ S R F, TI e b W (init b) [] S R F := by
  refine ⟨_, _, fun _ => done b [] 0, all_init b, Reaches.init _, rel_init b, Nest.inv_init b, ?_, rfl⟩
  intro t _
  exact ⟨Nat.le_refl _, fun _ => Nat.le_refl _⟩

theorem ti_step {tr : List Ev} {l : Lbl} (h : ∃ S R F, TI e b W s tr S R F) (hs : step W s l = some (s', ev))
    (hq : e → l = .tick → ∀ t, t < s.n → (s.ctl t).active = false ∧ ∀ w u bd, s.ctl t = .nap w u bd → s.now < u) : ∃ S R F, TI e b W s' (tr ++ ev) S R F := by
  obtain ⟨S, R, F, hA, hr, hrel, hI, hT, hF⟩ := h
  obtain ⟨hA', hc⟩ := sim_act hA hrel hI hs
  have hroot : 0 < s.n ∧ ∀ bd, s.ctl 0 ≠ .fresh bd := by
    have hp := hI.pos
    rw [hrel.n] at hp
    refine ⟨hp, fun bd hf => ?_⟩
    have := hI.rootS
    rw [hrel.fr 0 hp bd hf] at this
    exact this
  rcases hc with ⟨rfl, h1, _⟩ | ⟨u, S', h1, h2, _⟩
  · have hN : ∀ bd, s.n < s'.n → s'.kids s.n = [] → (s'.ctl s.n = .fresh bd ∨ s'.ctl s.n = .run bd) → R s.n = Nest.den bd [] := by
      intro bd hlt; rw [← h1.n, hrel.n] at hlt; omega
    obtain ⟨F', h3, h4⟩ := tm_step hA hrel hI hT hs (fun _ _ => rfl) hN hq
    rw [List.append_nil]
    exact ⟨S, R, F', hA', hr, h1, hI, h4, (h3 0 hroot.1 hroot.2).trans hF⟩
  · obtain ⟨R', hI', _, hRR, _⟩ := Nest.step_inv hI h1
    have hN : ∀ bd, s.n < s'.n → s'.kids s.n = [] → (s'.ctl s.n = .fresh bd ∨ s'.ctl s.n = .run bd) → R' s.n = Nest.den bd [] := by
      intro bd hlt hk hc
      have h5 := hI'.prom s.n (by rw [h2.n]; exact hlt)
      have h6 := h2.kids s.n hlt
      rw [hk, List.map_nil] at h6
      rw [h5]
      rcases hc with hc | hc
      · simp only [Nest.promised, h2.fr _ hlt bd hc]
      · simp only [Nest.promised, h2.rn _ hlt bd hc, h6, Nest.envOf_nil]
    obtain ⟨F', h3, h4⟩ := tm_step hA hrel hI hT hs (fun u hu => hRR u (by rw [hrel.n]; exact hu)) hN hq
    exact ⟨S', R', F', hA', hr.step h1, h2, hI', h4, (h3 0 hroot.1 hroot.2).trans hF⟩

theorem ti_reaches {tr : List Ev} (h : (machine b W).Reaches s tr) : ∃ S R F, TI False b W s tr S R F :=
  Reaches.inv (M := machine b W) (fun s tr => ∃ S R F, TI False b W s tr S R F) ti_init (fun _ _ _ _ _ h hs => ti_step h hs False.elim) h

theorem ti_prompt {tr : List Ev} (hW : 0 < W) (h : Prompt b W s tr) : ∃ S R F, TI True b W s tr S R F := by
  induction h with
  | init => exact ti_init
  | @step s s' tr ev l hP hs hq ih =>
    refine ti_step ih hs fun _ hl t ht => ?_
    have hno := hq hl
    obtain ⟨_, _, _, hA, _⟩ := ih
    have hon : ∀ w, s.on w = [] := by
      intro w; apply Classical.byContradiction; intro h1; exact running_can_go hP.reaches h1 (hno (.act w) (by simp))
    constructor
    · cases hact : (s.ctl t).active with
      | false => rfl
      | true =>
        rcases hA.l.al t ht hact with h1 | ⟨w, h1⟩
        · have := hno (.take 0 t) (by simp)
          simp [step, hW, hon, h1] at this
        · rw [hon w] at h1; cases h1
    · intro w u bd hc
      have hf := hno (.fire w t) (by simp)
      simp only [step, hc, hon, ht] at hf
      by_cases hu : u ≤ s.now
      · simp [hu] at hf
      · omega

/-- **C113**: however the workers are scheduled, the program does not end before its time. -/
theorem forkjoin_not_before {tr : List Ev} {r : Res} (h : (machine b W).Reaches s tr) (hr : Ev.finished 0 r ∈ tr) : done b [] 0 ≤ s.now := by
  obtain ⟨S, R, F, hA, hS, hrel, hI, htm, hF⟩ := ti_reaches h
  obtain ⟨h1, h2⟩ := (Nest.reaches_eff hS).1 0 r hr
  rw [hrel.n] at h1
  have := htm 0 h1
  rw [rel_fin hA hrel h1 h2] at this
  rw [← hF]; exact this

/-- Whatever has begun and not ended ends now or later. -/
theorem later (hA : All W s) (hrel : Rel s S) (hI : Nest.Inv b S R) (h : Tm True R F s) (m : Nat) : ∀ t, t < s.n → s.n - t ≤ m → (∀ bd, s.ctl t ≠ .fresh bd) → (∀ r, s.ctl t ≠ .fin r) → s.now ≤ F t := by
  induction m with
  | zero => intro t ht hm; omega
  | succ m ih =>
    intro t ht hm hf hr
    have hg := h t ht
    have haw : ∀ i k, (s.ctl t).aw = some (i, k) → ∃ c, (s.kids t)[i]? = some c := by
      intro i k ha
      obtain ⟨c, h1, _⟩ := hA.j.j1 t ht i k ha
      exact ⟨c, h1⟩
    have hmax : ∀ i k c, Y True (F t) (aft R F s t i k c (max s.now (F c))) → s.now ≤ F t := by
      intro i k c hy
      exact Nat.le_trans (Nat.le_trans (Nat.le_max_left ..) (done_ge _ _ _)) (hy.2 trivial)
    cases hc : s.ctl t with
    | fresh bd => exact absurd hc (hf bd)
    | fin r => exact absurd hc (hr r)
    | run bd => rw [hc] at hg; exact Nat.le_trans (done_ge _ _ _) (hg.2 trivial)
    | nap w u bd => rw [hc] at hg; exact Nat.le_trans (hg.1 trivial) (Nat.le_trans (done_ge _ _ _) (hg.2.2 trivial))
    | wait i k =>
      rw [hc] at hg
      obtain ⟨c, h1, h2⟩ := hA.j.j1 t ht i k (by rw [hc]; rfl)
      rw [hc] at h2
      have hcn := hA.k.kr t ht i c h1
      have hfi := hA.j.fi c hcn.2
      have hres : (s.ctl c).res = none := by
        cases hq : (s.ctl c).res with
        | none => rfl
        | some r => rw [hq] at hfi; exact absurd h2 (hfi.d1 r rfl).2.1
      have hw := hrel.a0 t ht i c k (by rw [hc]; rfl) h1 hres
      obtain ⟨c', h3, h4, h5, h6⟩ := hI.wait t (by rw [hrel.n]; exact ht) i k hw
      have hcc : c' = c := by
        rw [rel_kid hrel ht, h1] at h3; simp at h3; exact h3.1.symm
      subst hcc
      have := ih c' hcn.2 (by omega) (fun bd hq => by rw [hrel.fr c' hcn.2 bd hq] at h6; exact h6) (fun r hq => by rw [hq] at hres; cases hres)
      exact Nat.le_trans this (Nat.le_trans (done_ge _ _ _) ((hg c' h1).2 trivial))
    | _ i k =>
      rw [hc] at hg
      obtain ⟨c, h1⟩ := haw i k (by rw [hc]; rfl)
      exact hmax i k c (hg c h1)

/-- **C113**: if workers and timers lose no time, one worker is enough for the program to end when it should. -/
theorem forkjoin_on_time {tr : List Ev} (hW : 0 < W) (h : Prompt b W s tr) (hr : ∀ r, Ev.finished 0 r ∉ tr) : s.now ≤ done b [] 0 := by
  obtain ⟨S, R, F, hA, hS, hrel, hI, htm, hF⟩ := ti_prompt hW h
  have hp := hI.pos
  rw [hrel.n] at hp
  rw [← hF]
  refine later hA hrel hI htm s.n 0 hp (by omega) ?_ ?_
  · intro bd hf
    have := hI.rootS
    rw [hrel.fr 0 hp bd hf] at this
    exact this
  · intro r hf
    obtain ⟨R', _, hT⟩ := Nest.inv_reaches hS
    exact hr r (hT.2 0 r (by rw [hrel.n]; exact hp) (hrel.fn 0 hp r hf))

/-- **C113**: if workers and timers lose no time, the program ends exactly when it should. -/
theorem forkjoin_ends_at {tr : List Ev} {l : Lbl} {r : Res} (hW : 0 < W) (h : Prompt b W s tr) (hs : step W s l = some (s', ev)) (hr : Ev.finished 0 r ∈ ev) : s'.now = done b [] 0 := by
  have hl : l ≠ .tick := by
    rintro rfl
    simp only [step, Option.some.injEq, Prod.mk.injEq] at hs
    obtain ⟨rfl, rfl⟩ := hs
    cases hr
  have h1 := h.reaches.step (M := machine b W) hs
  have h2 := forkjoin_not_before h1 (List.mem_append_right _ hr)
  have h3 : s.now ≤ done b [] 0 := by
    refine forkjoin_on_time hW h fun r' hr' => ?_
    obtain ⟨p, q, rfl⟩ := List.append_of_mem hr
    exact (forkjoin_once h1).1 (tr ++ p) 0 r r' ⟨q, by simp⟩ (List.mem_append_left _ hr')
  have := step_clock hs hl
  omega

/-- Such an execution exists for every program. -/
theorem forkjoin_prompt_ends (hW : 0 < W) : ∃ s tr, Prompt b W s tr ∧ Ev.finished 0 (result b) ∈ tr ∧ s.now = done b [] 0 := by
  have key : ∀ (m : Nat) (s : St) (tr : List Ev) (S : Nest.St) (R : Nat → Res), Prompt b W s tr → Rel s S → Nest.Inv b S R → (∀ r, Ev.finished 0 r ∉ tr) →
      6 * Nest.total R S + phi s + (done b [] 0 - s.now) < m → ∃ s tr, Prompt b W s tr ∧ Ev.finished 0 (result b) ∈ tr ∧ s.now = done b [] 0 := by
    intro m
    induction m with
    | zero => intros; omega
    | succ m ih =>
      intro s tr S R hP hrel hI hno hm
      have hA := (reaches_rel hP.reaches).1
      by_cases hex : ∃ l, l ≠ .tick ∧ step W s l ≠ none
      · obtain ⟨l, hl, hne⟩ := hex
        obtain ⟨⟨s', e⟩, hs⟩ := Option.ne_none_iff_exists'.1 hne
        have hP' : Prompt b W s' (tr ++ e) := hP.step hs fun h => absurd h hl
        by_cases hfin : ∃ r, Ev.finished 0 r ∈ e
        · obtain ⟨r, hr⟩ := hfin
          refine ⟨s', _, hP', ?_, forkjoin_ends_at hW hP hs hr⟩
          have := forkjoin_result hP'.reaches (List.mem_append_right _ hr)
          exact this ▸ List.mem_append_right _ hr
        · have hno' : ∀ r, Ev.finished 0 r ∉ tr ++ e := by
            intro r hr
            rcases List.mem_append.1 hr with hr | hr
            · exact hno r hr
            · exact hfin ⟨r, hr⟩
          have hclk := step_clock hs hl
          obtain ⟨_, hc⟩ := sim_act hA hrel hI hs
          rcases hc with ⟨-, h1, h2⟩ | ⟨u, S', h1, h2, h3⟩
          · refine ih s' _ S R hP' h1 hI hno' ?_
            rcases h2 with h2 | ⟨h2, _⟩
            · rw [hclk]; omega
            · exact absurd h2 hl
          · obtain ⟨R', hI', hlt, _⟩ := Nest.step_inv hI h1
            refine ih s' _ S' R' hP' h2 hI' hno' ?_
            rw [hclk]; omega
      · have hquiet : ∀ l, l ≠ .tick → step W s l = none := by
          intro l hl
          apply Classical.byContradiction
          intro hne
          exact hex ⟨l, hl, hne⟩
        have hP' : Prompt b W { s with now := s.now + 1 } (tr ++ []) := hP.step (l := .tick) rfl fun _ => hquiet
        rw [List.append_nil] at hP'
        have := forkjoin_on_time hW hP' hno
        refine ih _ tr S R hP' (hrel.congr rfl rfl rfl fun _ => rfl) hI hno ?_
        have hphi : phi { s with now := s.now + 1 } = phi s := rfl
        rw [hphi]
        simp only at this ⊢
        omega
  exact key _ (init b) [] _ _ .init (rel_init b) (Nest.inv_init b) (by simp) (Nat.lt_succ_self _)

/-- Call a coroutine that sleeps `d`, for every `d` of the list, then go on with `k`. -/
def forks : List Nat → Body → Body
  | [], k => k
  | d :: ds, k => .spawn false (.sleep d (.ret 0)) (forks ds k)

/-- Await the `m` local tasks from the `i`-th on. -/
def joins : Nat → Nat → Body
  | 0, _ => .ret 0
  | m + 1, i => .await i fun _ => joins m (i + 1)

def napping (t : Nat) (ds : List Nat) : List Kid := ds.map fun d => ⟨.val 0, false, .at (t + d)⟩

theorem done_forks (ds : List Nat) (k : Body) : ∀ (env : List Kid) (t : Nat), done (forks ds k) env t = done k (env ++ napping t ds) t := by
  induction ds with
  | nil => intro env t; simp [forks, napping]
  | cons d ds ih =>
    intro env t
    simp only [forks, done]
    rw [ih]
    simp [napping, Nest.den]

theorem done_joins (t : Nat) (ds : List Nat) : ∀ (pre : List Kid) (n : Nat), done (joins ds.length pre.length) (pre ++ napping t ds) n = ds.foldl (fun m d => max m (t + d)) n := by
  induction ds with
  | nil => intro pre n; rfl
  | cons d ds ih =>
    intro pre n
    have h1 : (pre ++ napping t (d :: ds))[pre.length]? = some ⟨.val 0, false, .at (t + d)⟩ := by simp [napping]
    simp only [List.length_cons, joins, done, h1, Kid.start, When.due, List.foldl_cons]
    have h2 : (pre ++ napping t (d :: ds)).set pre.length ⟨.val 0, true, .at (t + d)⟩ = (pre ++ [⟨.val 0, true, .at (t + d)⟩]) ++ napping t ds := by
      simp [napping, List.set_append]
    have h3 := ih (pre ++ [⟨.val 0, true, .at (t + d)⟩]) (max n (t + d))
    rw [List.length_append, List.length_singleton] at h3
    rw [h2, h3]

/-- **C113**: any number of tasks sleep at the same time on any number of workers, one included: together they need as long as the longest. -/
theorem sleepers_side_by_side {ds : List Nat} {tr : List Ev} {l : Lbl} {r : Res} (hW : 0 < W) (h : Prompt (forks ds (joins ds.length 0)) W s tr) (hs : step W s l = some (s', ev))
    (hr : Ev.finished 0 r ∈ ev) : s'.now = ds.foldl max 0 := by
  rw [forkjoin_ends_at hW h hs hr, done_forks]
  have := done_joins 0 ds [] 0
  simp only [List.length_nil, Nat.zero_add] at this
  exact this

end Verif.ForkJoin
