import Verif.ForkJoin.Sim
/-!
# Every action is an action of `Verif.Nest`, or nothing for the user and progress
-/

namespace Verif.ForkJoin
open Verif.Nest (Body Exc Res Ev)

def sm (f : Nat → Nat) : Nat → Nat
  | 0 => 0
  | n + 1 => sm f n + f n

theorem sm_congr {f g : Nat → Nat} {n : Nat} (h : ∀ t, t < n → f t = g t) : sm f n = sm g n := by
  induction n with
  | zero => rfl
  | succ n ih => simp only [sm]; rw [ih (fun t ht => h t (by omega)), h n (by omega)]

theorem sm_upd {f : Nat → Nat} {n t v : Nat} (h : t < n) : sm (upd f t v) n + f t = sm f n + v := by
  induction n with
  | zero => omega
  | succ n ih =>
    simp only [sm]
    by_cases hn : t = n
    · subst hn
      rw [upd_same, sm_congr (g := f) fun u hu => upd_ne _ _ (by omega)]; omega
    · rw [upd_ne _ _ (Ne.symm hn)]; have := ih (by omega); omega

/-- Actions ahead of a task that `Verif.Nest` has done already or does not know. -/
def Ctl.rk : Ctl → Nat
  | .run _ => 4
  | .test _ _ => 3
  | .susp _ _ => 2
  | .nap _ _ _ => 6
  | _ => 0

def phi (s : St) : Nat := sm (fun t => (s.ctl t).rk) s.n + s.ready.length

theorem sm_ctl (ctl : Nat → Ctl) {n t : Nat} {x : Ctl} (h : t < n) : sm (fun u => (upd ctl t x u).rk) n + (ctl t).rk = sm (fun u => (ctl u).rk) n + x.rk := by
  have := sm_upd (f := fun u => (ctl u).rk) (v := x.rk) h
  rw [← this]
  congr 1
  apply sm_congr
  intro u _
  simp only [upd_apply]; split <;> rfl

variable {W : Nat} {s : St} {S : Nest.St} {w t : Nat} {b : Body} {R : Nat → Res}

theorem phi_start {c : Nat} (hc : c < s.n) : phi (start s c) ≤ phi s + 5 := by
  cases hs : s.ctl c with
  | fresh bd =>
    have := sm_ctl s.ctl (x := .run bd) hc
    simp only [hs, Ctl.rk] at this
    simp only [start, hs, phi, setCtl, List.length_append, List.length_singleton]
    simp only [Ctl.rk]
    omega
  | _ => simp [start, hs]

theorem sim_finish {s' : St} {e : List Ev} {r : Res} {bd : Body} {stk : List Nat} (h : All W s) (hr : Rel s S) (hI : Nest.Inv b S R) (ho : s.on w = t :: stk) (hc : s.ctl t = .run bd)
    (hs : finish s w t r = some (s', e)) : All W s' ∧ e = [.finished t r] ∧ Rel s' (Nest.finish S t r) ∧ phi s' ≤ phi s + 5 := by
  obtain ⟨h1, h2⟩ := rel_finish h hr hI ho hc hs
  have ht := (h.l.oo w t (by simp [ho])).1
  obtain ⟨h3, -, h4, -⟩ := all_finish h ho hc hs
  refine ⟨h3, h1, h2, ?_⟩
  have e1 := sm_ctl s.ctl (x := .fin r) ht
  simp only [hc] at e1
  rcases h4 with ⟨h4, -⟩ | ⟨p, i, k, hp, hw, -, h4⟩
  · rw [h4]; simp only [phi]; simp only [Ctl.rk] at e1 ⊢; omega
  · have e2 := sm_ctl (upd s.ctl t (.fin r)) (x := .woken i k) hp
    rw [h4]; simp only [phi, List.length_append, List.length_singleton]; simp only [Ctl.rk] at e1 e2 ⊢; omega

theorem sim_resume {i c : Nat} {k : Res → Body} {s' : St} {e : List Ev} (h : All W s) (hr : Rel s S) (hI : Nest.Inv b S R) (ho : t ∈ s.on w) (hc : s.ctl t = .woken i k ∨ s.ctl t = .got i k)
    (hk : (s.kids t)[i]? = some c) (hs : resume s t c k = some (s', e)) :
    All W s' ∧ ∃ S', Nest.step S t = some (S', e) ∧ Rel s' S' ∧ phi s' ≤ phi s + 5 := by
  obtain ⟨h1, r, hfin, hg, hoth, hcase⟩ := all_resume h ho hc hk hs
  refine ⟨h1, ?_⟩
  have ht := (h.l.oo w t ho).1
  have htS : t < S.n := by rw [hr.n]; exact ht
  have hcn := h.k.kr t ht i c hk
  have haw : (s.ctl t).aw = some (i, k) := by rcases hc with hc | hc <;> rw [hc] <;> rfl
  have hrk : (s.ctl t).rk = 0 := by rcases hc with hc | hc <;> rw [hc] <;> rfl
  have hres : (s.ctl t).res = none := res_of_aw haw
  have hfS := hr.fn c hcn.2 r hfin
  have hkS : (S.tk t).kids[i]? = some (c, (s.fut c).got) := by rw [rel_kid hr ht, hk]; rfl
  have hst := hr.a1 t ht i c k haw hk (by simp [hfin, Ctl.res])
  rcases hcase with ⟨hgf, rfl, he⟩ | ⟨hgt, rfl, he⟩
  · refine ⟨(Nest.take S t i c k r).1, ?_, ?_, ?_⟩
    · rw [hgf] at hkS
      rcases hst with hst | hst <;> simp only [Nest.step, htS, if_true, hst, hkS, hfS] <;> rfl
    · refine rel_setRun (S := S) (t := t) (b := k r) hr hres (by rw [he]) (by rw [he]) (by rw [he]) rfl ?_ ?_
      · intro u; simp only [Nest.take, upd_apply]; split <;> rfl
      · intro u hu
        have hku := hr.kids u hu
        simp only [Nest.take, upd_apply]
        by_cases hut : u = t
        · subst u
          rw [if_pos rfl, hku]
          apply List.ext_getElem?
          intro j
          simp only [List.getElem?_set, List.getElem?_map, List.length_map]
          by_cases hij : i = j
          · subst hij
            have : i < (s.kids t).length := by
              rw [List.getElem?_eq_some_iff] at hk; exact hk.1
            rw [if_pos rfl, if_pos this, hk]; simp [hg]
          · rw [if_neg hij]
            cases hd : (s.kids t)[j]? with
            | none => rfl
            | some d =>
              have : d ≠ c := by rintro rfl; exact hij (h.k.ku t t ht ht _ _ _ hk hd).2
              simp [hoth d this]
        · rw [if_neg hut, hku]
          apply List.map_congr_left
          intro d hd
          obtain ⟨j, hj⟩ := List.mem_iff_getElem?.1 hd
          have : d ≠ c := by rintro rfl; exact hut (h.k.ku u t hu ht _ _ _ hj hk).1
          rw [hoth d this]
    · have := sm_ctl s.ctl (x := .run (k r)) ht
      rw [he]; simp only [phi]; simp only [hrk, Ctl.rk] at this ⊢; omega
  · rw [hgt] at hkS
    have hst' : (S.tk t).st = .run (.await i k) := by
      rcases hst with hst | hst
      · obtain ⟨c', r', h2, _⟩ := hI.woken t htS i k hst
        rw [hkS] at h2; simp at h2
      · exact hst
    refine ⟨Nest.setSt S t (.run (k (.exc .hasBeenGot))), ?_, ?_, ?_⟩
    · simp only [Nest.step, htS, if_true, hst', hkS]
    · refine rel_setRun (S := S) (t := t) (b := k (.exc .hasBeenGot)) hr hres (by rw [he]) (by rw [he]) (by rw [he]) rfl ?_ ?_
      · intro u; simp only [Nest.setSt, upd_apply]; split <;> rfl
      · intro u hu
        have hku := hr.kids u hu
        have : ∀ d, (s'.fut d).got = (s.fut d).got := by
          intro d; by_cases hd : d = c
          · rw [hd, hg, hgt]
          · rw [hoth d hd]
        simp only [this, Nest.setSt, upd_apply]; rw [← hku]; split
        · subst u; rfl
        · rfl
    · have := sm_ctl s.ctl (x := .run (k (.exc .hasBeenGot))) ht
      rw [he]; simp only [phi]; simp only [hrk, Ctl.rk] at this ⊢; omega

/-- the beginning of a `co_await` -/
theorem sim_await {i c : Nat} {k : Res → Body} (h : All W s) (hr : Rel s S) (hI : Nest.Inv b S R) (ho : t ∈ s.on w) (hc : s.ctl t = .run (.await i k)) (hk : (s.kids t)[i]? = some c) :
    All W (start (setCtl s t (.test i k)) c) ∧
      ((Rel (start (setCtl s t (.test i k)) c) S ∧ phi (start (setCtl s t (.test i k)) c) + 1 ≤ phi s) ∨
       ∃ S', Nest.step S t = some (S', []) ∧ Rel (start (setCtl s t (.test i k)) c) S' ∧ phi (start (setCtl s t (.test i k)) c) ≤ phi s + 5) := by
  have ht := (h.l.oo w t ho).1
  have htS : t < S.n := by rw [hr.n]; exact ht
  have hcn := h.k.kr t ht i c hk
  have hct : c ≠ t := by omega
  have hstS := hr.rn t ht _ hc
  have hkS : (S.tk t).kids[i]? = some (c, (s.fut c).got) := by rw [rel_kid hr ht, hk]; rfl
  refine ⟨all_start (all_setTest h ht hc hk) hcn.2, ?_⟩
  have hph := sm_ctl s.ctl (x := .test i k) ht
  rw [hc] at hph
  have hph' : phi (setCtl s t (.test i k)) + 1 = phi s := by simp only [phi, setCtl]; simp only [Ctl.rk] at hph ⊢; omega
  cases hq : (s.ctl c).res with
  | some r =>
    have hfin : s.ctl c = .fin r := by
      cases hx : s.ctl c with
      | fin r' => rw [hx] at hq; simp only [Ctl.res, Option.some.injEq] at hq; rw [hq]
      | _ => rw [hx] at hq; cases hq
    have hst : start (setCtl s t (.test i k)) c = setCtl s t (.test i k) := by
      rw [start_setCtl hct]; simp [start, hfin]
    left
    rw [hst]
    refine ⟨?_, by omega⟩
    refine rel_setAw (S := S) (y := .run (.await i k)) hr hc hk hct rfl (Or.inr ⟨by simp [hq], rfl⟩) rfl rfl rfl rfl rfl ?_ (fun _ => rfl)
    intro u; split
    · rename_i q; rw [q, hstS]
    · rfl
  | none =>
    right
    have hnf : ∀ r, (S.tk c).st ≠ .fin r := by
      intro r hf; have := rel_fin h hr hcn.2 hf; rw [this] at hq; cases hq
    have hgot : (s.fut c).got = false := by
      have := h.j.fi c hcn.2; rw [hq] at this; exact (this.n1 rfl).2.2.2.1
    rw [hgot] at hkS
    have hr1 := rel_start (c := c) h hr hcn.2
    have hc1 : (start s c).ctl t = .run (.await i k) := by
      unfold start; split
      · simp only [setCtl]; rw [upd_ne _ _ (Ne.symm hct)]; exact hc
      · exact hc
    have hk1 : (start s c).kids = s.kids := by unfold start; split <;> rfl
    have hf1 : (start s c).fut = s.fut := by unfold start; split <;> rfl
    have hq1 : ((start s c).ctl c).res = none := by
      unfold start; split
      · simp [setCtl, Ctl.res]
      · exact hq
    have hr2 : Rel (setCtl (start s c) t (.test i k)) (Nest.setSt (Nest.ensureStarted S c) t (.wait i k)) := by
      refine rel_setAw (y := .wait i k) hr1 hc1 (by rw [hk1]; exact hk) hct rfl (Or.inl ⟨hq1, rfl⟩) rfl rfl rfl rfl rfl ?_ ?_
      · intro u; simp only [Nest.setSt, upd_apply]; split <;> rfl
      · intro u; simp only [Nest.setSt, upd_apply]; split
        · subst u; rfl
        · rfl
    refine ⟨{ Nest.setSt (Nest.ensureStarted S c) t (.wait i k) with
      tk := upd (Nest.setSt (Nest.ensureStarted S c) t (.wait i k)).tk c { (Nest.setSt (Nest.ensureStarted S c) t (.wait i k)).tk c with waiter := some t } }, ?_, ?_, ?_⟩
    · simp only [Nest.step, htS, if_true, hstS, hkS]
    · rw [start_setCtl hct]; exact rel_waiter hr2
    · have := phi_start (s := setCtl s t (.test i k)) (c := c) hcn.2; omega

theorem sim_act {l : Lbl} {s' : St} {e : List Ev} (h : All W s) (hr : Rel s S) (hI : Nest.Inv b S R) (hs : step W s l = some (s', e)) :
    All W s' ∧ ((e = [] ∧ Rel s' S ∧ (phi s' + 1 ≤ phi s ∨ l = .tick ∧ phi s' = phi s)) ∨ ∃ u S', Nest.step S u = some (S', e) ∧ Rel s' S' ∧ phi s' ≤ phi s + 5) := by
  cases l with
  | take w t =>
    simp only [step] at hs
    split at hs
    · rename_i hg
      simp only [Option.some.injEq, Prod.mk.injEq] at hs
      obtain ⟨rfl, rfl⟩ := hs
      refine ⟨all_take h hg.1 hg.2.1 hg.2.2, Or.inl ⟨rfl, hr.congr rfl rfl rfl fun _ => rfl, Or.inl ?_⟩⟩
      have h1 := List.length_erase_of_mem hg.2.2
      have h2 := List.length_pos_of_mem hg.2.2
      simp only [phi, h1]; omega
    · cases hs
  | act w =>
    simp only [step] at hs
    split at hs
    · cases hs
    · rename_i t stk ho
      have hm : t ∈ s.on w := by simp [ho]
      have ht := (h.l.oo w t hm).1
      have htS : t < S.n := by rw [hr.n]; exact ht
      simp only [act] at hs
      split at hs
      · rename_i v hc
        obtain ⟨h1, rfl, h2, h3⟩ := sim_finish h hr hI ho hc hs
        exact ⟨h1, Or.inr ⟨t, _, by simp only [Nest.step, htS, if_true, hr.rn t ht _ hc], h2, h3⟩⟩
      · rename_i v hc
        obtain ⟨h1, rfl, h2, h3⟩ := sim_finish h hr hI ho hc hs
        exact ⟨h1, Or.inr ⟨t, _, by simp only [Nest.step, htS, if_true, hr.rn t ht _ hc], h2, h3⟩⟩
      · rename_i lz c rest hc
        simp only [Option.some.injEq, Prod.mk.injEq] at hs
        obtain ⟨rfl, rfl⟩ := hs
        refine ⟨all_spawn h hm hc, Or.inr ⟨t, _, by simp only [Nest.step, htS, if_true, hr.rn t ht _ hc], rel_spawn h hr ht hc, ?_⟩⟩
        have e1 := sm_ctl s.ctl (x := .run rest) ht
        rw [hc] at e1
        have e2 : sm (fun u => (upd (upd s.ctl t (.run rest)) s.n (if lz then .fresh c else .run c) u).rk) s.n = sm (fun u => (upd s.ctl t (.run rest) u).rk) s.n :=
          sm_congr fun u hu => by rw [upd_ne _ _ (by omega)]
        simp only [phi, spawn, sm, upd_same, e2]
        have e3 : (if lz then Ctl.fresh c else .run c).rk ≤ 4 := by cases lz <;> simp [Ctl.rk]
        simp only [Ctl.rk] at e1
        simp only [Ctl.rk] at e3 ⊢
        omega
      · rename_i i rest hc
        have hst := hr.rn t ht _ hc
        have hr1 : Rel (setCtl s t (.run rest)) (Nest.setSt S t (.run rest)) := by
          refine rel_setRun (S := S) (t := t) hr (by rw [hc]; rfl) rfl rfl rfl rfl ?_ ?_
          · intro u; simp only [Nest.setSt, upd_apply]; split <;> rfl
          · intro u hu; simp only [Nest.setSt, upd_apply]; have := hr.kids u hu; simp only [setCtl]; rw [← this]; split
            · subst u; rfl
            · rfl
        have hp : phi (setCtl s t (.run rest)) = phi s := by
          have e1 := sm_ctl s.ctl (x := .run rest) ht
          rw [hc] at e1
          simp only [phi, setCtl]; simp only [Ctl.rk] at e1 ⊢; omega
        split at hs
        · rename_i hk
          simp only [Option.some.injEq, Prod.mk.injEq] at hs
          obtain ⟨rfl, rfl⟩ := hs
          exact ⟨all_setRun h hc, Or.inr ⟨t, _, by simp only [Nest.step, htS, if_true, hst, rel_kid hr ht, hk, Option.map_none], hr1, by omega⟩⟩
        · rename_i c hk
          simp only [Option.some.injEq, Prod.mk.injEq] at hs
          obtain ⟨rfl, rfl⟩ := hs
          have hcn := (h.k.kr t ht i c hk).2
          have ha := all_setRun (b' := rest) h hc
          exact ⟨all_start ha hcn, Or.inr ⟨t, _, by simp only [Nest.step, htS, if_true, hst, rel_kid hr ht, hk, Option.map_some], rel_start ha hr1 hcn, by have := phi_start (s := setCtl s t (.run rest)) (c := c) hcn; omega⟩⟩
      · rename_i i k hc
        have hst := hr.rn t ht _ hc
        split at hs
        · rename_i hk
          simp only [Option.some.injEq, Prod.mk.injEq] at hs
          obtain ⟨rfl, rfl⟩ := hs
          refine ⟨all_setRun h hc, Or.inr ⟨t, Nest.setSt S t (.run (k (.exc .hasBeenGot))), by simp only [Nest.step, htS, if_true, hst, rel_kid hr ht, hk, Option.map_none], ?_, ?_⟩⟩
          · refine rel_setRun (S := S) (t := t) hr (by rw [hc]; rfl) rfl rfl rfl rfl ?_ ?_
            · intro u; simp only [Nest.setSt, upd_apply]; split <;> rfl
            · intro u hu; simp only [Nest.setSt, upd_apply]; have := hr.kids u hu; simp only [setCtl]; rw [← this]; split
              · subst u; rfl
              · rfl
          · have e1 := sm_ctl s.ctl (x := .run (k (.exc .hasBeenGot))) ht
            rw [hc] at e1
            simp only [phi, setCtl]; simp only [Ctl.rk] at e1 ⊢; omega
        · rename_i c hk
          simp only [Option.some.injEq, Prod.mk.injEq] at hs
          obtain ⟨rfl, rfl⟩ := hs
          obtain ⟨h1, h2 | ⟨S', h2⟩⟩ := sim_await h hr hI hm hc hk
          · exact ⟨h1, Or.inl ⟨rfl, h2.1, Or.inl h2.2⟩⟩
          · exact ⟨h1, Or.inr ⟨t, S', h2⟩⟩
      · rename_i rest hc
        simp only [Option.some.injEq, Prod.mk.injEq] at hs
        obtain ⟨rfl, rfl⟩ := hs
        have ha := all_yield (rest := rest) h ho hc
        rw [ho, List.tail_cons]
        refine ⟨ha, Or.inr ⟨t, Nest.setSt S t (.run rest), by simp only [Nest.step, htS, if_true, hr.rn t ht _ hc], ?_, ?_⟩⟩
        · refine rel_setRun (S := S) (t := t) hr (by rw [hc]; rfl) rfl rfl rfl rfl ?_ ?_
          · intro u; simp only [Nest.setSt, upd_apply]; split <;> rfl
          · intro u hu; simp only [Nest.setSt, upd_apply]; rw [← hr.kids u hu]; split
            · subst u; rfl
            · rfl
        · have e1 := sm_ctl s.ctl (x := .run rest) ht
          rw [hc] at e1
          simp only [phi, List.length_append, List.length_singleton]; simp only [Ctl.rk] at e1 ⊢; omega
      · rename_i d rest hc
        have hr1 : ∀ s'' : St, s''.n = s.n → s''.ctl = s.ctl → s''.kids = s.kids → s''.fut = s.fut →
            Rel { s'' with ctl := upd s.ctl t (.run rest) } (Nest.setSt S t (.run rest)) := by
          intro s'' h1 h2 h3 h4
          refine rel_setRun (S := S) (t := t) hr (by rw [hc]; rfl) h1 rfl h3 rfl ?_ ?_
          · intro u; simp only [Nest.setSt, upd_apply]; split <;> rfl
          · intro u hu; simp only [Nest.setSt, upd_apply, h4]; rw [← hr.kids u hu]; split
            · subst u; rfl
            · rfl
        have hstep : Nest.step S t = some (Nest.setSt S t (.run rest), []) := by simp only [Nest.step, htS, if_true, hr.rn t ht _ hc]
        split at hs
        · simp only [Option.some.injEq, Prod.mk.injEq] at hs
          obtain ⟨rfl, rfl⟩ := hs
          refine ⟨all_setRun h hc, Or.inr ⟨t, _, hstep, hr1 s rfl rfl rfl rfl, ?_⟩⟩
          have e1 := sm_ctl s.ctl (x := .run rest) ht
          rw [hc] at e1
          simp only [phi, setCtl]; simp only [Ctl.rk] at e1 ⊢; omega
        · simp only [Option.some.injEq, Prod.mk.injEq] at hs
          obtain ⟨rfl, rfl⟩ := hs
          have ha := all_sleep (u := s.now + d) (rest := rest) h ho hc
          rw [ho, List.tail_cons]
          refine ⟨ha, Or.inr ⟨t, _, hstep, ?_, ?_⟩⟩
          · refine rel_body (t := t) (x := .nap w (s.now + d) rest) (b := rest) (hr1 s rfl rfl rfl rfl) ?_ ?_ (Or.inr ⟨_, _, rfl⟩) rfl ?_ rfl rfl
            · simp [Nest.setSt]
            · simp [Ctl.res]
            · funext v; simp only [upd_apply]; split <;> rfl
          · have e1 := sm_ctl s.ctl (x := .nap w (s.now + d) rest) ht
            rw [hc] at e1
            simp only [phi]; simp only [Ctl.rk] at e1 ⊢; omega
      · rename_i i k hc
        split at hs
        · cases hs
        · rename_i c hk
          obtain ⟨h1, rfl, ⟨x, hx, he⟩, h2⟩ := all_test h hm hc hk hs
          have hxa : x.aw = some (i, k) := by rcases hx with ⟨rfl, _⟩ | ⟨rfl, _⟩ <;> rfl
          have hxr : x.rk ≤ 2 := by rcases hx with ⟨rfl, _⟩ | ⟨rfl, _⟩ <;> simp [Ctl.rk]
          refine ⟨h1, Or.inl ⟨rfl, rel_move hr (by rw [hc]; rfl) hxa (by rw [he]) (by rw [he]) (by rw [he]) h2, Or.inl ?_⟩⟩
          have e1 := sm_ctl s.ctl (x := x) ht
          rw [hc] at e1
          have e0 : (Ctl.test i k).rk = 3 := rfl
          rw [he]; simp only [phi]; omega
      · rename_i i k hc
        split at hs
        · cases hs
        · rename_i c hk
          obtain ⟨h1, rfl, hx, h2⟩ := all_suspend h ho hc hk hs
          rcases hx with ⟨_, he⟩ | ⟨_, he⟩
          · refine ⟨h1, Or.inl ⟨rfl, rel_move (x := .wait i k) hr (by rw [hc]; rfl) rfl (by rw [he]) (by rw [he]) (by rw [he]) h2, Or.inl ?_⟩⟩
            have e1 := sm_ctl s.ctl (x := .wait i k) ht
            rw [hc] at e1
            have e0 : (Ctl.susp i k).rk = 2 := rfl
            have e2 : (Ctl.wait i k).rk = 0 := rfl
            rw [he]; simp only [phi]; omega
          · refine ⟨h1, Or.inl ⟨rfl, rel_move (x := .woken i k) hr (by rw [hc]; rfl) rfl (by rw [he]) (by rw [he]) (by rw [he]) h2, Or.inl ?_⟩⟩
            have e1 := sm_ctl s.ctl (x := .woken i k) ht
            rw [hc] at e1
            have e0 : (Ctl.susp i k).rk = 2 := rfl
            have e2 : (Ctl.woken i k).rk = 0 := rfl
            rw [he]; simp only [phi, List.length_append, List.length_singleton]; omega
      · rename_i i k hc
        split at hs
        · cases hs
        · rename_i c hk
          obtain ⟨h1, S', h2⟩ := sim_resume h hr hI hm (Or.inl hc) hk hs
          exact ⟨h1, Or.inr ⟨t, S', h2⟩⟩
      · rename_i i k hc
        split at hs
        · cases hs
        · rename_i c hk
          obtain ⟨h1, S', h2⟩ := sim_resume h hr hI hm (Or.inr hc) hk hs
          exact ⟨h1, Or.inr ⟨t, S', h2⟩⟩
      all_goals cases hs
  | fire w t =>
    simp only [step] at hs
    split at hs
    · rename_i w' u bd hc
      split at hs
      · rename_i hg
        simp only [Option.some.injEq, Prod.mk.injEq] at hs
        obtain ⟨rfl, rfl⟩ := hs
        refine ⟨all_fire h hg.1 hc, Or.inl ⟨rfl, rel_body (t := t) (b := bd) hr (hr.np t hg.1 _ _ _ hc) (by rw [hc]; rfl) (Or.inl rfl) rfl rfl rfl rfl, Or.inl ?_⟩⟩
        have e1 := sm_ctl s.ctl (x := .run bd) hg.1
        rw [hc] at e1
        simp only [phi, List.length_append, List.length_singleton]; simp only [Ctl.rk] at e1 ⊢; omega
      · cases hs
    · cases hs
  | tick =>
    simp only [step, Option.some.injEq, Prod.mk.injEq] at hs
    obtain ⟨rfl, rfl⟩ := hs
    exact ⟨all_tick h, Or.inl ⟨rfl, hr.congr rfl rfl rfl fun _ => rfl, Or.inr ⟨rfl, rfl⟩⟩⟩

end Verif.ForkJoin
