import Verif.EndToEnd.End
/-!
# C111 with one worker: the program always ends with the total
-/

namespace Verif.EndToEnd

variable {S : Type} {f : Nat → S → S} {x0 : S} {n W : Nat}

/-- with one worker: who is in the middle of a call is the one that runs -/
theorem runs_missed {s : St S} {tr : List (Ev S)} (h : (machine f x0 n 1).Reaches s tr) :
    (∀ w t, s.on w = some t → w = 0) ∧ (∀ t, s.mx.pc t = .missed → s.on 0 = some t) ∧ (s.wg.pc 0 = .missed → s.on 0 = some 0) ∧
    (∀ t, s.mx.pc t = .rel2 ∨ s.mx.pc t = .rel3 → s.on 0 = some t) ∧ ∀ t u, s.mx.pc t = .relWake u → s.on 0 = some t := by
  have R := run_inv h
  have L := loc_inv h
  obtain ⟨m0, m1, m2, m3, m4, g1, g2, g3, mn, un, sp, sb, sw⟩ := L
  have one : ∀ w t, s.on w = some t → w = 0 := fun w t ht => by have := R.ow t w ht; omega
  have key : ∀ t, Active s t → ¬ MayWait s t → s.on 0 = some t := by
    intro t h1 h2
    rcases R.ar t h1 with h3 | ⟨w, h3⟩
    · exact absurd (R.rr t h3) h2
    · have := one w t h3; subst this; exact h3
  refine ⟨one, fun t ht => ?_, fun ht => ?_, fun t ht => ?_, fun t u ht => ?_⟩ <;> apply key <;> simp only [Active, MayWait] <;> grind [Prog.main]

theorem single_inv {s : St S} {tr : List (Ev S)} (h : (machine f x0 n 1).Reaches s tr) :
    (∀ t, s.mx.pc t = .missed → s.mx.flag = true) ∧ (s.wg.pc 0 = .missed → s.wg.cnt ≠ 0) := by
  refine Machine.Reaches.inv' (I := fun (s : St S) _ => (∀ t, s.mx.pc t = .missed → s.mx.flag = true) ∧ (s.wg.pc 0 = .missed → s.wg.cnt ≠ 0)) ?_ ?_ h
  · simp [machine, init, WaitGroup.init, Mutex.init]
  · rintro s tr l s' e hr ⟨I1, I2⟩ hs
    change step f n 1 s l = some (s', e) at hs
    obtain ⟨one, r1, r2, r3, r4⟩ := runs_missed hr
    have mn := (loc_inv hr).mn
    cases l with
    | lock w l =>
      obtain ⟨mx', e', ho, hp, hm, rfl, rfl⟩ := lock_step hs
      refine ⟨?_, I2⟩
      have hw := one w _ ho
      subst hw
      have ag : ∀ t, s.mx.pc t = .missed → t = l.agent := fun t ht => by have := r1 t ht; rw [ho] at this; injection this with this; exact this.symm
      clear hs
      cases l <;> simp only [Mutex.step] at hm <;> (repeat' split at hm) <;> simp only [Option.some.injEq, Prod.mk.injEq, reduceCtorEq] at hm
      all_goals obtain ⟨rfl, rfl⟩ := hm
      all_goals simp only [Mutex.Lbl.agent] at ag
      all_goals simp only [upd_apply]
      all_goals grind
    | group w t l =>
      obtain ⟨mx', e', ho, hp, hm, rfl, rfl⟩ := group_step hs
      refine ⟨I1, ?_⟩
      have hw := one w _ ho
      subst hw
      have ag : s.wg.pc 0 = .missed → t = 0 := fun ht => by have := r2 ht; rw [ho] at this; injection this
      have g1 := (loc_inv hr).g1
      have wk := (wgInv hr).waker
      clear hs
      cases l with
      | add k =>
        simp only [WaitGroup.step, Option.some.injEq, Prod.mk.injEq] at hm
        obtain ⟨rfl, rfl⟩ := hm
        simp only [mayGroup, decide_eq_true_eq] at hp
        intro hq
        have h0 := ag hq
        subst h0
        have := g1 0 (Or.inl hq)
        rw [hp.1] at this; cases this
      | done u k =>
        simp only [mayGroup, decide_eq_true_eq] at hp
        have hu0 : u ≠ 0 := fun h0 => by have := (mn u).2 h0; rw [hp.2.2.1, hp.1] at this; cases this
        simp only [WaitGroup.step] at hm
        (repeat' split at hm) <;> simp only [Option.some.injEq, Prod.mk.injEq, reduceCtorEq] at hm
        all_goals obtain ⟨rfl, rfl⟩ := hm
        all_goals
          intro hq
          simp only [upd_apply] at hq
          exfalso
          first
            | (rw [if_neg (Ne.symm hu0)] at hq; exact hu0 (hp.2.2.1.trans (ag hq)))
            | exact hu0 (hp.2.2.1.trans (ag hq))
      | _ =>
        simp only [WaitGroup.step] at hm
        (repeat' split at hm) <;> simp only [Option.some.injEq, Prod.mk.injEq, reduceCtorEq] at hm
        all_goals obtain ⟨rfl, rfl⟩ := hm
        all_goals simp only [mayGroup, decide_eq_true_eq] at hp
        all_goals (try simp only [upd_apply])
        all_goals grind
    | _ =>
      simp only [step] at hs
      (repeat' split at hs) <;> simp only [Option.some.injEq, Prod.mk.injEq, reduceCtorEq] at hs
      all_goals obtain ⟨rfl, rfl⟩ := hs
      all_goals exact ⟨I1, I2⟩

theorem filterMap_prefix {α β : Type} (g : α → Option β) : ∀ (tr : List α) (p : List β) (x : β), p ++ [x] <+: tr.filterMap g →
    ∃ P y Q, tr = P ++ y :: Q ∧ g y = some x ∧ P.filterMap g = p := by
  intro tr
  induction tr with
  | nil => intro p x h; simp at h
  | cons a tr ih =>
    intro p x h
    cases hg : g a with
    | none =>
      rw [List.filterMap_cons_none hg] at h
      obtain ⟨P, y, Q, h1, h2, h3⟩ := ih p x h
      exact ⟨a :: P, y, Q, by simp [h1], h2, by rw [List.filterMap_cons_none hg, h3]⟩
    | some b =>
      rw [List.filterMap_cons_some hg] at h
      cases p with
      | nil =>
        simp only [List.nil_append, List.cons_prefix_cons] at h
        obtain ⟨rfl, _⟩ := h
        exact ⟨[], a, tr, rfl, hg, rfl⟩
      | cons c p =>
        simp only [List.cons_append, List.cons_prefix_cons] at h
        obtain ⟨rfl, h⟩ := h
        obtain ⟨P, y, Q, h1, h2, h3⟩ := ih p x h
        exact ⟨a :: P, y, Q, by simp [h1], h2, by rw [List.filterMap_cons_some hg, h3]⟩

/-- With one worker the hypotheses of `ends_with_total_partial` always hold. -/
theorem single_orderly (hn : n < 2 ^ 64) {s : St S} {tr : List (Ev S)} (h : (machine f x0 n 1).Reaches s tr) :
    Mutex.SleepsOnlyWhileHeld (lockTrace tr) ∧ WaitsOnlyForJobs n tr := by
  constructor
  · intro p t hp
    obtain ⟨P, y, Q, rfl, hy, rfl⟩ := filterMap_prefix _ _ _ _ hp
    cases y <;> simp only [lockEv, Option.some.injEq, reduceCtorEq] at hy
    subst hy
    obtain ⟨s1, tr1, l, s2, e, q', hr, hs, hqe, hpre⟩ := h.at_event rfl
    change step f n 1 s1 l = some (s2, e) at hs
    obtain ⟨one, r1, r2, r3, r4⟩ := runs_missed hr
    have M := mxInv hr
    have I := (single_inv hr).1
    have hm := hqe.subset (List.mem_append_right q' (List.mem_singleton.2 rfl))
    have hl := hqe.length_le
    cases l with
    | lock w l =>
      obtain ⟨mx', e', ho, hp', hm', rfl, rfl⟩ := lock_step hs
      have hmem : Mutex.Ev.slept t ∈ e' := by simpa using hm
      cases l <;> simp only [Mutex.step] at hm' <;> (repeat' split at hm') <;> simp only [Option.some.injEq, Prod.mk.injEq, reduceCtorEq] at hm'
      all_goals obtain ⟨rfl, rfl⟩ := hm'
      all_goals simp at hmem
      rename_i t' hpc
      subst hmem
      have hq' : q' = [] := by
        cases q' with
        | nil => rfl
        | cons a b => simp at hl
      subst hq'
      simp only [List.append_nil] at hpre
      subst hpre
      have hf := I t hpc
      obtain ⟨u, hu⟩ := M.ownerOf hf
      have hrun := r1 t hpc
      have hlife := M.life u
      refine ⟨u, ?_⟩
      have no : ∀ u, s1.on 0 = some u → s1.mx.pc u = .missed := fun u h1 => by rw [hrun] at h1; injection h1 with h1; subst h1; exact hpc
      cases hpu : s1.mx.pc u with
      | holding => left; rw [hpu] at hlife; exact hlife
      | woken => right; rw [hpu] at hlife; exact hlife
      | rel2 => have := no u (r3 u (Or.inl hpu)); rw [hpu] at this; cases this
      | rel3 => have := no u (r3 u (Or.inr hpu)); rw [hpu] at this; cases this
      | relWake v => have := no u (r4 u v hpu); rw [hpu] at this; cases this
      | _ => rw [hpu] at hu; simp [Mutex.Pc.owns] at hu
    | group w t l => obtain ⟨_, e', _, _, _, rfl, _⟩ := group_step hs; simp at hm
    | _ =>
      simp only [step] at hs
      (repeat' split at hs) <;> simp only [Option.some.injEq, Prod.mk.injEq, reduceCtorEq] at hs
      all_goals obtain ⟨rfl, rfl⟩ := hs
      all_goals simp at hm
  · intro p hp
    obtain ⟨Q, hQ⟩ := hp
    obtain ⟨s1, tr1, l, s2, e, q', hr, hs, hqe, hpre⟩ := h.at_event (pre := p) (x := Ev.group (.slept 0)) (post := Q) (by simp [← hQ])
    change step f n 1 s1 l = some (s2, e) at hs
    have I := (single_inv hr).2
    have G := gr_inv hn hr
    have hm := hqe.subset (List.mem_append_right q' (List.mem_singleton.2 rfl))
    have hl := hqe.length_le
    cases l with
    | group w t l =>
      obtain ⟨mx', e', ho, hp', hm', rfl, rfl⟩ := group_step hs
      have hmem : WaitGroup.Ev.slept 0 ∈ e' := by simpa using hm
      cases l <;> simp only [WaitGroup.step] at hm' <;> (repeat' split at hm') <;> simp only [Option.some.injEq, Prod.mk.injEq, reduceCtorEq] at hm'
      all_goals obtain ⟨rfl, rfl⟩ := hm'
      all_goals simp at hmem
      rename_i t' hpc
      subst hmem
      have hq' : q' = [] := by
        cases q' with
        | nil => rfl
        | cons a b => simp at hl
      subst hq'
      simp only [List.append_nil] at hpre
      subst hpre
      simp only [mayGroup, decide_eq_true_eq] at hp'
      have h1 := I hpc
      have h2 := G.dc (by rw [(loc_inv hr).g1 0 (Or.inl hpc)]; simp)
      omega
    | lock w l => obtain ⟨_, e', _, _, _, rfl, _⟩ := lock_step hs; simp at hm
    | _ =>
      simp only [step] at hs
      (repeat' split at hs) <;> simp only [Option.some.injEq, Prod.mk.injEq, reduceCtorEq] at hs
      all_goals obtain ⟨rfl, rfl⟩ := hs
      all_goals simp at hm

/-- **C111** with one worker, complete: every execution that cannot go on has ended with main having got its total (and every execution is finite: `program_terminates`). -/
theorem single_worker_ends_with_total (hn : n < 2 ^ 64) {s : St S} {tr : List (Ev S)} (h : (machine f x0 n 1).Reaches s tr) (he : Ended f n 1 s) : ∃ v, Ev.total v ∈ tr := by
  obtain ⟨a, b⟩ := single_orderly hn h
  exact ends_with_total_partial hn Nat.one_pos h a b he

/-- The same said positively: from every reachable state the execution can be continued, and however it is continued it ends with the total. -/
theorem single_worker_finishes (hn : n < 2 ^ 64) {s : St S} {tr : List (Ev S)} (h : (machine f x0 n 1).Reaches s tr) :
    ∃ ls s' q, (machine f x0 n 1).runFrom s ls = some (s', q) ∧ Ended f n 1 s' ∧ ∃ v, Ev.total v ∈ tr ++ q := by
  have key : ∀ k (s : St S) (tr : List (Ev S)), (machine f x0 n 1).Reaches s tr → total n s ≤ k →
      ∃ ls s' q, (machine f x0 n 1).runFrom s ls = some (s', q) ∧ Ended f n 1 s' := by
    intro k
    induction k with
    | zero =>
      intro s tr h hk
      refine ⟨[], s, [], rfl, fun l => ?_⟩
      cases hs : step f n 1 s l with
      | none => rfl
      | some r => obtain ⟨s', e⟩ := r; have := total_step h hs; omega
    | succ k ih =>
      intro s tr h hk
      by_cases he : Ended f n 1 s
      · exact ⟨[], s, [], rfl, he⟩
      · simp only [Ended, not_forall] at he
        obtain ⟨l, hl⟩ := he
        obtain ⟨⟨s1, e⟩, hs⟩ := Option.ne_none_iff_exists'.1 hl
        have h1 : (machine f x0 n 1).Reaches s1 (tr ++ e) := h.step hs
        obtain ⟨ls, s', q, hr, hend⟩ := ih s1 _ h1 (by have := total_step h hs; omega)
        refine ⟨l :: ls, s', e ++ q, ?_, hend⟩
        have hs' : (machine f x0 n 1).step s l = some (s1, e) := hs
        simp only [Machine.runFrom, hs', hr]
  obtain ⟨ls, s', q, hr, hend⟩ := key _ s tr h (Nat.le_refl _)
  have h2 : (machine f x0 n 1).Reaches s' (tr ++ q) := by
    obtain ⟨l0, h0⟩ := h
    refine ⟨l0 ++ ls, ?_⟩
    unfold Machine.run at *
    rw [Machine.runFrom_append, h0]
    simp [hr]
  exact ⟨ls, s', q, hr, hend, single_worker_ends_with_total hn h2 hend⟩

end Verif.EndToEnd
