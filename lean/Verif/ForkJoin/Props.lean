import Verif.ForkJoin.Step
import Verif.Nest.Once
/-!
# C112: task programs on `W` workers

All theorems: every program `b`, every number of workers, every interleaving of their actions.
-/

namespace Verif.ForkJoin
open Verif.Nest (Body Exc Res Ev result work call)
open Machine

theorem reaches_rel {b : Body} {W : Nat} {s : St} {tr : List Ev} (h : (machine b W).Reaches s tr) :
    All W s ∧ ∃ S, (Nest.machine b).Reaches S tr ∧ Rel s S := by
  refine Reaches.inv (M := machine b W) (fun s tr => All W s ∧ ∃ S, (Nest.machine b).Reaches S tr ∧ Rel s S) ?_ ?_ h
  · exact ⟨all_init b, _, Reaches.init _, rel_init b⟩
  · rintro s tr l s' e ⟨hA, S, hr, hrel⟩ hs
    obtain ⟨R, hI, _, _⟩ := Nest.inv_reaches hr
    obtain ⟨hA', hc⟩ := sim_act hA hrel hI hs
    refine ⟨hA', ?_⟩
    rcases hc with ⟨rfl, h1, _⟩ | ⟨u, S', h1, h2, _⟩
    · rw [List.append_nil]; exact ⟨S, hr, h1⟩
    · exact ⟨S', hr.step h1, h2⟩

/-- Whatever `W` workers make visible is visible in an execution of `Verif.Nest`, where each task acts for itself and a `co_await` is one action. -/
theorem forkjoin_refines {b : Body} {W : Nat} {s : St} {tr : List Ev} (h : (machine b W).Reaches s tr) :
    ∃ S, (Nest.machine b).Reaches S tr := by
  obtain ⟨_, S, hr, _⟩ := reaches_rel h
  exact ⟨S, hr⟩

/-- **C112**: the result of the program is the one of its direct reading, whatever the workers do. -/
theorem forkjoin_result {b : Body} {W : Nat} {s : St} {tr : List Ev} (h : (machine b W).Reaches s tr) {r : Res} (hr : Ev.finished 0 r ∈ tr) : r = result b := by
  obtain ⟨S, hS⟩ := forkjoin_refines h
  exact Nest.nest_result hS hr

/-- Every `co_await` yields what the awaited body ended with, and only after it ended. -/
theorem forkjoin_await_yields_child_result {b : Body} {W : Nat} {s : St} {tr : List Ev} (h : (machine b W).Reaches s tr) :
    ∀ p t c r, p ++ [Ev.got t c r] <+: tr → Ev.finished c r ∈ p := by
  obtain ⟨S, hS⟩ := forkjoin_refines h
  exact Nest.nest_await_yields_child_result hS

/-- A body ends at most once, a result is delivered at most once. -/
theorem forkjoin_once {b : Body} {W : Nat} {s : St} {tr : List Ev} (h : (machine b W).Reaches s tr) :
    (∀ p t r r', p ++ [Ev.finished t r] <+: tr → Ev.finished t r' ∉ p) ∧ (∀ p t t' c r r', p ++ [Ev.got t c r] <+: tr → Ev.got t' c r' ∉ p) := by
  obtain ⟨S, hS⟩ := forkjoin_refines h
  exact ⟨Nest.nest_ends_once hS, Nest.nest_got_once hS⟩

theorem filter_le (l : Lbl) (ls : List Lbl) : ((l :: ls).filter (· ≠ .tick)).length ≤ (ls.filter (· ≠ .tick)).length + 1 := by
  rw [List.filter_cons]; split <;> simp

/-- However the workers are scheduled, and whenever the timers find their tasks due, an execution has finitely many actions (between which time may pass). -/
theorem forkjoin_terminates {b : Body} {W : Nat} {ls : List Lbl} {s : St} {tr : List Ev} (h : (machine b W).run ls = some (s, tr)) :
    (ls.filter (· ≠ .tick)).length ≤ 6 * work b [] + 5 := by
  have key : ∀ (ls : List Lbl) (s s' : St) (tr : List Ev) (S : Nest.St) (R : Nat → Res), All W s → Rel s S → Nest.Inv b S R →
      (machine b W).runFrom s ls = some (s', tr) → (ls.filter (· ≠ .tick)).length ≤ 6 * Nest.total R S + phi s := by
    intro ls
    induction ls with
    | nil => intros; exact Nat.zero_le _
    | cons l ls ih =>
      intro s s' tr S R hA hrel hI hr
      simp only [runFrom] at hr
      split at hr
      · cases hr
      · rename_i s1 e1 h1
        split at hr
        · cases hr
        · rename_i s2 e2 h2
          obtain ⟨hA', hc⟩ := sim_act hA hrel hI h1
          rcases hc with ⟨_, h3, h4⟩ | ⟨u, S', h3, h4, h5⟩
          · have := ih s1 _ _ S R hA' h3 hI h2
            rcases h4 with h4 | ⟨rfl, h4⟩
            · have := filter_le l ls; omega
            · simp only [ne_eq, not_true_eq_false, decide_false, Bool.false_eq_true, not_false_eq_true, List.filter_cons_of_neg] at this ⊢; omega
          · obtain ⟨R', hI', hlt, _⟩ := Nest.step_inv hI h3
            have := ih s1 _ _ S' R' hA' h4 hI' h2
            have := filter_le l ls; omega
  have := key ls _ _ _ _ _ (all_init b) (rel_init b) (Nest.inv_init b) h
  refine this.trans (Nat.le_of_eq ?_)
  simp [Nest.total, Nest.init, Nest.left, phi, init, sm, Ctl.rk]

/-- A task is on one worker at a time, and once. -/
theorem forkjoin_one_worker {b : Body} {W : Nat} {s : St} {tr : List Ev} (h : (machine b W).Reaches s tr) :
    (∀ w w' t, t ∈ s.on w → t ∈ s.on w' → w = w') ∧ (∀ w, (s.on w).Nodup) ∧ s.ready.Nodup ∧ ∀ w t, t ∈ s.on w → t ∉ s.ready := by
  obtain ⟨hA, _⟩ := reaches_rel h
  exact ⟨hA.l.od, hA.l.nd, hA.l.rn, fun w t h1 h2 => (hA.l.rr t h2).2.2 w h1⟩

/-- A worker that runs a task can always go on: no action of a task blocks its thread, and a resumed `co_await` finds its result. -/
theorem running_can_go {b : Body} {W : Nat} {s : St} {tr : List Ev} (h : (machine b W).Reaches s tr) {w : Nat} (hw : s.on w ≠ []) :
    (machine b W).step s (.act w) ≠ none := by
  obtain ⟨hA, _⟩ := reaches_rel h
  show step W s (.act w) ≠ none
  cases ho : s.on w with
  | nil => exact absurd ho hw
  | cons t stk =>
    have hm : t ∈ s.on w := by simp [ho]
    obtain ⟨ht, hact, _⟩ := hA.l.oo w t hm
    have hfin : ∀ r bd, s.ctl t = .run bd → finish s w t r ≠ none := by
      intro r bd hc
      have hfi := hA.j.fi t ht
      rw [hc] at hfi
      obtain ⟨f', e, h1, _⟩ := fi_produce hfi r
      simp [finish, h1]
    have hkid : ∀ i k, (s.ctl t).aw = some (i, k) → ∃ c, (s.kids t)[i]? = some c ∧ (s.fut c).pc = (s.ctl t).pc ∧ FI (s.fut c) (s.ctl c).res := by
      intro i k ha
      obtain ⟨c, h1, h2⟩ := hA.j.j1 t ht i k ha
      exact ⟨c, h1, h2, hA.j.fi c (hA.k.kr t ht i c h1).2⟩
    have hrs : ∀ i c k, (s.ctl t = .woken i k ∨ s.ctl t = .got i k) → (s.kids t)[i]? = some c → resume s t c k ≠ none := by
      intro i c k hc hk
      obtain ⟨c', h1, h2, h3⟩ := hkid i k (by rcases hc with hc | hc <;> rw [hc] <;> rfl)
      rw [hk] at h1; simp only [Option.some.injEq] at h1; subst h1
      have hpc : (s.fut c).pc = .woken ∨ (s.fut c).pc = .resuming := by
        rcases hc with hc | hc <;> rw [h2, hc] <;> simp [Ctl.pc]
      cases hq : (s.ctl c).res with
      | none => rw [hq] at h3; have := (h3.n1 rfl).2.2.2.2; rcases hpc with h1 | h1 <;> simp [h1] at this
      | some r =>
        rw [hq] at h3
        obtain ⟨f', _, _, _, h4⟩ := fi_resume h3 hpc
        simp only [resume, h4]
        cases (s.fut c).got <;> simp
    simp only [step, ho]
    unfold act
    cases hc : s.ctl t with
    | run bd =>
      cases bd with
      | ret v => simp only; exact hfin _ _ hc
      | throw e => simp only; exact hfin _ _ hc
      | spawn lz c rest => simp
      | start i rest => simp only; split <;> simp
      | await i k => simp only; split <;> simp
      | yield rest => simp
      | sleep d rest => simp only; split <;> simp
    | test i k =>
      obtain ⟨c, h1, h2, h3⟩ := hkid i k (by rw [hc]; rfl)
      obtain ⟨f', e, h4, _⟩ := fi_await h3 (by rw [h2, hc]; rfl)
      simp [h1, test, h4]
    | susp i k =>
      obtain ⟨c, h1, h2, h3⟩ := hkid i k (by rw [hc]; rfl)
      obtain ⟨f', e, h4, _⟩ := fi_suspend h3 (by rw [h2, hc]; rfl)
      simp [h1, suspend, h4]
    | woken i k =>
      obtain ⟨c, h1, h2, h3⟩ := hkid i k (by rw [hc]; rfl)
      simp only [h1]; exact hrs i c k (Or.inl hc) h1
    | got i k =>
      obtain ⟨c, h1, h2, h3⟩ := hkid i k (by rw [hc]; rfl)
      simp only [h1]; exact hrs i c k (Or.inr hc) h1
    | _ => rw [hc] at hact; cases hact

/-- With at least one worker: as long as the program has not delivered its result, some worker or timer can act, or all workers are idle and there is a task that sleeps. -/
theorem can_act_or_sleeps {b : Body} {W : Nat} (hW : 0 < W) {s : St} {tr : List Ev} (h : (machine b W).Reaches s tr) (hr : ∀ r, Ev.finished 0 r ∉ tr) :
    (∃ l, l ≠ .tick ∧ (machine b W).step s l ≠ none) ∨ ∃ t w u bd, t < s.n ∧ s.ctl t = .nap w u bd ∧ s.now < u ∧ ∀ v, s.on v = [] := by
  apply Classical.byContradiction
  intro hno
  have hno' : ∀ l, l ≠ .tick → (machine b W).step s l = none := by
    intro l hl; apply Classical.byContradiction; intro h1; exact hno (Or.inl ⟨l, hl, h1⟩)
  have hon : ∀ w, s.on w = [] := by
    intro w; apply Classical.byContradiction; intro h1; exact running_can_go h h1 (hno' (.act w) (by simp))
  have hready : s.ready = [] := by
    cases hq : s.ready with
    | nil => rfl
    | cons t rest =>
      have := hno' (.take 0 t) (by simp)
      have hs : step W s (.take 0 t) = none := this
      simp [step, hW, hon, hq] at hs
  have hnap : ∀ t, t < s.n → ∀ w u bd, s.ctl t ≠ .nap w u bd := by
    intro t ht w u bd hc
    have hs : step W s (.fire w t) = none := hno' (.fire w t) (by simp)
    simp only [step, hc, hon, ht] at hs
    by_cases hu : u ≤ s.now
    · simp [hu] at hs
    · exact hno (Or.inr ⟨t, w, u, bd, ht, hc, by omega, hon⟩)
  obtain ⟨hA, S, hS, hrel⟩ := reaches_rel h
  have hin : ∀ t, t < s.n → (s.ctl t).active = false := by
    intro t ht
    cases hq : (s.ctl t).active with
    | false => rfl
    | true =>
      rcases hA.l.al t ht hq with h1 | ⟨w, h1⟩
      · rw [hready] at h1; cases h1
      · rw [hon w] at h1; cases h1
  -- the ones that wait wait for a body that has not ended
  have hw : ∀ t, t < s.n → ∀ i k, (s.ctl t).aw = some (i, k) → (S.tk t).st = .wait i k := by
    intro t ht i k ha
    have hi := hin t ht
    obtain ⟨c, h1, h2⟩ := hA.j.j1 t ht i k ha
    have hpc : (s.fut c).pc = .suspended := by
      rw [h2]
      cases hc : s.ctl t <;> rw [hc] at ha hi <;> simp [Ctl.aw, Ctl.active, Ctl.pc] at ha hi ⊢
    cases hq : (s.ctl c).res with
    | none => exact hrel.a0 t ht i c k ha h1 hq
    | some r =>
      have hfi := hA.j.fi c (hA.k.kr t ht i c h1).2
      rw [hq] at hfi
      exact absurd hpc (hfi.d1 r rfl).2.1
  obtain ⟨t, ht⟩ := Nest.nest_no_deadlock hS hr
  apply ht
  show Nest.step S t = none
  unfold Nest.step
  split
  · rename_i htn
    rw [hrel.n] at htn
    have hi := hin t htn
    cases hc : s.ctl t with
    | fresh bd => rw [hrel.fr t htn bd hc]
    | fin r => rw [hrel.fn t htn r hc]
    | wait i k => rw [hw t htn i k (by rw [hc]; rfl)]
    | nap w u bd => exact absurd hc (hnap t htn w u bd)
    | _ => rw [hc] at hi; cases hi
  · rfl

theorem run_ticks {b : Body} {W : Nat} (n : Nat) (s : St) : (machine b W).runFrom s (List.replicate n .tick) = some ({ s with now := s.now + n }, []) := by
  induction n generalizing s with
  | zero => rfl
  | succ n ih =>
    simp only [List.replicate_succ, runFrom, machine, step]
    have := ih { s with now := s.now + 1 }
    simp only [machine] at this
    rw [this]
    simp only [List.append_nil, Option.some.injEq, Prod.mk.injEq, and_true]
    congr 1; omega

theorem run_ticks_one {b : Body} {W : Nat} {n : Nat} {s : St} {l : Lbl} (h : step W { s with now := s.now + n } l ≠ none) : (machine b W).runFrom s (List.replicate n .tick ++ [l]) ≠ none := by
  have := run_ticks (b := b) (W := W) n s
  cases hs : step W { s with now := s.now + n } l with
  | none => exact absurd hs h
  | some p =>
    rw [runFrom_append, this]
    simp [runFrom, machine, hs]

/-- With at least one worker: as long as the program has not delivered its result, some worker or timer can act, at the latest after some time. -/
theorem forkjoin_no_deadlock {b : Body} {W : Nat} (hW : 0 < W) {s : St} {tr : List Ev} (h : (machine b W).Reaches s tr) (hr : ∀ r, Ev.finished 0 r ∉ tr) :
    ∃ n l, l ≠ .tick ∧ (machine b W).runFrom s (List.replicate n .tick ++ [l]) ≠ none := by
  rcases can_act_or_sleeps hW h hr with ⟨l, h1, h2⟩ | ⟨t, w, u, bd, h1, h2, h3, h4⟩
  · exact ⟨0, l, h1, run_ticks_one (n := 0) h2⟩
  · refine ⟨u - s.now, .fire w t, by simp, run_ticks_one ?_⟩
    simp only [step, h2, h1, h4]
    have : u ≤ s.now + (u - s.now) := by omega
    simp [this]

/-- **C112**: an execution in which nothing can happen any more, however long one waits, has delivered the result of the direct reading. -/
theorem forkjoin_completes {b : Body} {W : Nat} (hW : 0 < W) {s : St} {tr : List Ev} (h : (machine b W).Reaches s tr)
    (hend : ∀ n l, l ≠ .tick → (machine b W).runFrom s (List.replicate n .tick ++ [l]) = none) : Ev.finished 0 (result b) ∈ tr := by
  apply Classical.byContradiction
  intro hn
  obtain ⟨n, l, h1, h2⟩ := forkjoin_no_deadlock hW h fun r hr => hn (forkjoin_result h hr ▸ hr)
  exact h2 (hend n l h1)

/-- A sleeping task is left alone until its time has come. -/
theorem nap_step {W : Nat} {s s' : St} {l : Lbl} {e : List Ev} {t w u : Nat} {bd : Body} (hA : All W s) (ht : t < s.n) (hc : s.ctl t = .nap w u bd) (hs : step W s l = some (s', e)) :
    s.now ≤ s'.now ∧ ((t < s'.n ∧ s'.ctl t = .nap w u bd ∧ ∀ r, Ev.finished t r ∉ e) ∨ u ≤ s'.now) := by
  have hst : ∀ (s : St) c, s.ctl t = .nap w u bd → (start s c).ctl t = .nap w u bd ∧ (start s c).n = s.n ∧ (start s c).now = s.now := by
    intro s c hc
    unfold start
    split
    · rename_i b' hf
      refine ⟨?_, rfl, rfl⟩
      simp only [setCtl, upd_apply]; split
      · rename_i q; subst q; rw [hc] at hf; cases hf
      · exact hc
    · exact ⟨hc, rfl, rfl⟩
  cases l with
  | take v d =>
    simp only [step] at hs
    split at hs
    · simp only [Option.some.injEq, Prod.mk.injEq] at hs; obtain ⟨rfl, rfl⟩ := hs; exact ⟨Nat.le_refl _, Or.inl ⟨ht, hc, by simp⟩⟩
    · cases hs
  | fire v d =>
    simp only [step] at hs
    split at hs
    · rename_i w' u' b' hd
      split at hs
      · rename_i hg
        simp only [Option.some.injEq, Prod.mk.injEq] at hs; obtain ⟨rfl, rfl⟩ := hs
        refine ⟨Nat.le_refl _, ?_⟩
        by_cases hq : d = t
        · subst d; rw [hc] at hd; cases hd; exact Or.inr hg.2.2.2
        · exact Or.inl ⟨ht, by rw [← hc]; exact upd_ne _ _ (Ne.symm hq), by simp⟩
      · cases hs
    · cases hs
  | tick =>
    simp only [step, Option.some.injEq, Prod.mk.injEq] at hs; obtain ⟨rfl, rfl⟩ := hs
    exact ⟨Nat.le_succ _, Or.inl ⟨ht, hc, by simp⟩⟩
  | act v =>
    simp only [step] at hs
    split at hs
    · cases hs
    · rename_i d stk ho
      have hdt : t ≠ d := by
        rintro rfl
        have := (hA.l.oo v t (by simp [ho])).2.1
        rw [hc] at this; cases this
      have hfin : ∀ r, finish s v d r = some (s', e) → s.now ≤ s'.now ∧ ((t < s'.n ∧ s'.ctl t = .nap w u bd ∧ ∀ r, Ev.finished t r ∉ e) ∨ u ≤ s'.now) := by
        intro r h1
        simp only [finish] at h1
        split at h1
        · cases h1
        · simp only [Option.some.injEq, Prod.mk.injEq] at h1
          obtain ⟨rfl, rfl⟩ := h1
          have hne : ∀ r', Ev.finished t r' ∉ [Ev.finished d r] := by intro r'; simp [hdt]
          have h0 : upd s.ctl d (.fin r) t = .nap w u bd := by rw [upd_ne _ _ hdt]; exact hc
          split
          · simp only [wake]
            split
            · exact ⟨Nat.le_refl _, Or.inl ⟨ht, h0, hne⟩⟩
            · rename_i p hp
              refine ⟨Nat.le_refl _, Or.inl ⟨ht, ?_, hne⟩⟩
              generalize upd s.ctl d (.fin r) = g at h0
              simp only
              cases hw : g p with
              | wait i k =>
                simp only [upd_apply]; split
                · rename_i q; subst q; rw [h0] at hw; cases hw
                · exact h0
              | _ => exact h0
          · exact ⟨Nat.le_refl _, Or.inl ⟨ht, h0, hne⟩⟩
      have hset : ∀ (x : Ctl), (setCtl s d x).ctl t = .nap w u bd := by intro x; simp only [setCtl]; rw [upd_ne _ _ hdt]; exact hc
      simp only [act] at hs
      split at hs
      · exact hfin _ hs
      · exact hfin _ hs
      · simp only [Option.some.injEq, Prod.mk.injEq] at hs; obtain ⟨rfl, rfl⟩ := hs
        refine ⟨Nat.le_refl _, Or.inl ⟨by simp only [spawn]; omega, ?_, by simp⟩⟩
        simp only [spawn]; rw [upd_ne _ _ (by omega), upd_ne _ _ hdt]; exact hc
      · rename_i i rest hd
        split at hs <;> simp only [Option.some.injEq, Prod.mk.injEq] at hs <;> obtain ⟨rfl, rfl⟩ := hs
        · exact ⟨Nat.le_refl _, Or.inl ⟨ht, hset _, by simp⟩⟩
        · rename_i c _
          obtain ⟨h1, h2, h3⟩ := hst _ c (hset (.run rest))
          rw [h2, h3]; exact ⟨Nat.le_refl _, Or.inl ⟨ht, h1, by simp⟩⟩
      · rename_i i k hd
        split at hs <;> simp only [Option.some.injEq, Prod.mk.injEq] at hs <;> obtain ⟨rfl, rfl⟩ := hs
        · exact ⟨Nat.le_refl _, Or.inl ⟨ht, hset _, by simp⟩⟩
        · rename_i c _
          obtain ⟨h1, h2, h3⟩ := hst _ c (hset (.test i k))
          rw [h2, h3]; exact ⟨Nat.le_refl _, Or.inl ⟨ht, h1, by simp⟩⟩
      · simp only [Option.some.injEq, Prod.mk.injEq] at hs; obtain ⟨rfl, rfl⟩ := hs
        exact ⟨Nat.le_refl _, Or.inl ⟨ht, hset _, by simp⟩⟩
      · split at hs <;> simp only [Option.some.injEq, Prod.mk.injEq] at hs <;> obtain ⟨rfl, rfl⟩ := hs
        · exact ⟨Nat.le_refl _, Or.inl ⟨ht, hset _, by simp⟩⟩
        · exact ⟨Nat.le_refl _, Or.inl ⟨ht, hset _, by simp⟩⟩
      all_goals try (first | cases hs | (split at hs; · cases hs))
      · simp only [test] at hs
        split at hs
        · cases hs
        · simp only [Option.some.injEq, Prod.mk.injEq] at hs; obtain ⟨rfl, rfl⟩ := hs
          exact ⟨Nat.le_refl _, Or.inl ⟨ht, hset _, by simp⟩⟩
      · simp only [suspend] at hs
        split at hs
        · cases hs
        · simp only [Option.some.injEq, Prod.mk.injEq] at hs; obtain ⟨rfl, rfl⟩ := hs
          split <;> exact ⟨Nat.le_refl _, Or.inl ⟨ht, hset _, by simp⟩⟩
      all_goals
        simp only [resume] at hs
        split at hs
        · simp only [Option.some.injEq, Prod.mk.injEq] at hs; obtain ⟨rfl, rfl⟩ := hs
          exact ⟨Nat.le_refl _, Or.inl ⟨ht, hset _, by simp⟩⟩
        · simp only [Option.some.injEq, Prod.mk.injEq] at hs; obtain ⟨rfl, rfl⟩ := hs
          exact ⟨Nat.le_refl _, Or.inl ⟨ht, hset _, by simp⟩⟩
        · cases hs

/-- Only `tick` moves the clock. -/
theorem step_clock {W : Nat} {s s' : St} {l : Lbl} {e : List Ev} (hs : step W s l = some (s', e)) (hl : l ≠ .tick) : s'.now = s.now := by
  have hst : ∀ (s : St) c, (start s c).now = s.now := by intro s c; unfold start; split <;> rfl
  cases l with
  | act v =>
    simp only [step] at hs
    split at hs
    · cases hs
    · rename_i d stk ho
      have hfin : ∀ r, finish s v d r = some (s', e) → s'.now = s.now := by
        intro r h1
        simp only [finish] at h1
        split at h1
        · cases h1
        · simp only [Option.some.injEq, Prod.mk.injEq] at h1
          obtain ⟨rfl, rfl⟩ := h1
          split
          · simp only [wake]; split <;> rfl
          · rfl
      simp only [act, test, suspend, resume] at hs
      (repeat' split at hs) <;> (first | exact hfin _ hs | skip) <;> simp only [Option.some.injEq, Prod.mk.injEq, reduceCtorEq] at hs <;> obtain ⟨rfl, rfl⟩ := hs <;>
        (first | rfl | (rw [hst]; done) | (rw [hst]; rfl) | (split <;> rfl))
  | tick => exact absurd rfl hl
  | _ =>
    simp only [step] at hs
    (repeat' split at hs) <;> simp only [Option.some.injEq, Prod.mk.injEq, reduceCtorEq] at hs <;> obtain ⟨rfl, rfl⟩ := hs <;> rfl

theorem step_now {W : Nat} {s s' : St} {l : Lbl} {e : List Ev} (hs : step W s l = some (s', e)) : s.now ≤ s'.now := by
  by_cases hl : l = .tick
  · subst hl
    simp only [step, Option.some.injEq, Prod.mk.injEq] at hs
    obtain ⟨rfl, rfl⟩ := hs
    exact Nat.le_succ _
  · exact Nat.le_of_eq (step_clock hs hl).symm

theorem runFrom_now {b : Body} {W : Nat} (ls : List Lbl) {s s' : St} {tr : List Ev} (hs : (machine b W).runFrom s ls = some (s', tr)) : s.now ≤ s'.now := by
  induction ls generalizing s tr with
  | nil => simp only [runFrom, Option.some.injEq, Prod.mk.injEq] at hs; obtain ⟨rfl, rfl⟩ := hs; exact Nat.le_refl _
  | cons l ls ih =>
    simp only [runFrom] at hs
    split at hs
    · cases hs
    · rename_i s1 e1 h1
      split at hs
      · cases hs
      · rename_i s2 e2 h2
        simp only [Option.some.injEq, Prod.mk.injEq] at hs; obtain ⟨rfl, rfl⟩ := hs
        exact Nat.le_trans (step_now h1) (ih h2)

theorem nap_run {b : Body} {W : Nat} {t w u : Nat} {bd : Body} (ls : List Lbl) {s s' : St} {tr : List Ev} (hq : ∃ tr0, (machine b W).Reaches s tr0) (ht : t < s.n) (hc : s.ctl t = .nap w u bd)
    (hs : (machine b W).runFrom s ls = some (s', tr)) : s.now ≤ s'.now ∧ (s'.now < u → (∀ v, t ∉ s'.on v) ∧ ∀ r, Ev.finished t r ∉ tr) := by
  induction ls generalizing s tr with
  | nil =>
    simp only [runFrom, Option.some.injEq, Prod.mk.injEq] at hs; obtain ⟨rfl, rfl⟩ := hs
    refine ⟨Nat.le_refl _, fun _ => ⟨?_, by simp⟩⟩
    intro v hv
    obtain ⟨_, h⟩ := hq
    have := ((reaches_rel h).1.l.oo v t hv).2.1
    rw [hc] at this; cases this
  | cons l ls ih =>
    simp only [runFrom] at hs
    split at hs
    · cases hs
    · rename_i s1 e1 h1
      split at hs
      · cases hs
      · rename_i s2 e2 h2
        simp only [Option.some.injEq, Prod.mk.injEq] at hs; obtain ⟨rfl, rfl⟩ := hs
        obtain ⟨tr0, h⟩ := hq
        obtain ⟨h3, h4⟩ := nap_step (reaches_rel h).1 ht hc h1
        have hmono : s1.now ≤ s2.now := runFrom_now ls h2
        refine ⟨Nat.le_trans h3 hmono, fun hu => ?_⟩
        rcases h4 with ⟨h4, h5, h6⟩ | h4
        · obtain ⟨_, h7⟩ := ih ⟨_, h.step h1⟩ h4 h5 h2
          obtain ⟨h8, h9⟩ := h7 hu
          exact ⟨h8, fun r => by simp [h6 r, h9 r]⟩
        · omega

/-- A task that calls `sleep_for(d)` does not go on before `d` has passed, whichever worker wakes it up. -/
theorem forkjoin_sleep_not_early {b : Body} {W : Nat} {s s' : St} {tr tr' : List Ev} {ls : List Lbl} {w t d : Nat} {stk : List Nat} {rest : Body} (h : (machine b W).Reaches s tr)
    (ho : s.on w = t :: stk) (hc : s.ctl t = .run (.sleep d rest)) (hs : (machine b W).runFrom s (.act w :: ls) = some (s', tr')) (hd : s'.now < s.now + d) :
    (∀ v, t ∉ s'.on v) ∧ ∀ r, Ev.finished t r ∉ tr' := by
  simp only [runFrom] at hs
  split at hs
  · cases hs
  · rename_i s1 e1 h1
    split at hs
    · cases hs
    · rename_i s2 e2 h2
      simp only [Option.some.injEq, Prod.mk.injEq] at hs; obtain ⟨rfl, rfl⟩ := hs
      have hmono := runFrom_now ls h2
      have h1' : step W s (.act w) = some (s1, e1) := h1
      simp only [step, ho, act, hc] at h1'
      split at h1'
      · simp only [Option.some.injEq, Prod.mk.injEq] at h1'; obtain ⟨rfl, rfl⟩ := h1'
        subst d; simp only [setCtl] at hmono; omega
      · simp only [Option.some.injEq, Prod.mk.injEq] at h1'; obtain ⟨h3, rfl⟩ := h1'
        have ht := ((reaches_rel h).1.l.oo w t (by simp [ho])).1
        have := (nap_run (t := t) (w := w) (u := s.now + d) (bd := rest) ls ⟨_, h.step h1⟩ (by rw [← h3]; exact ht) (by rw [← h3]; simp) h2).2 hd
        exact ⟨this.1, by simpa using this.2⟩

/-- A lazy task is started with `run()`, its creator goes on and awaits it. -/
def par : Body := .spawn true (.ret 5) (.start 0 (.await 0 fun | .val v => .ret (v + 1) | .exc e => .throw e))

/-- Both workers run a task at the same time. -/
example : ∃ s tr, (machine par 2).Reaches s tr ∧ s.on 0 = [0] ∧ s.on 1 = [1] :=
  ⟨_, [], ⟨[.take 0 0, .act 0, .act 0, .take 1 1], rfl⟩, rfl, rfl⟩

/-- The child ends between await_ready and await_suspend of its parent, which then moves to the other worker. -/
example : ∃ s tr, (machine par 2).Reaches s tr ∧ tr = [.finished 1 (.val 5), .got 0 1 (.val 5), .finished 0 (.val 6)] ∧
    s.on 0 = [] ∧ s.on 1 = [] ∧ s.ready = [] :=
  by
  have h : ((machine par 2).run [.take 0 0, .act 0, .act 0, .take 1 1, .act 0, .act 0, .act 1, .act 0, .take 1 0, .act 1, .act 1]).elim False
      (fun r => r.2 = [.finished 1 (.val 5), .got 0 1 (.val 5), .finished 0 (.val 6)] ∧ r.1.on 0 = [] ∧ r.1.on 1 = [] ∧ r.1.ready = []) := ⟨by rfl, by rfl, by rfl, by rfl⟩
  revert h
  cases hr : (machine par 2).run [.take 0 0, .act 0, .act 0, .take 1 1, .act 0, .act 0, .act 1, .act 0, .take 1 0, .act 1, .act 1] with
  | none => exact False.elim
  | some r => exact fun h => ⟨r.1, r.2, ⟨_, hr⟩, h⟩

/-- A parent that sleeps 3, a child that sleeps 5 and yields: one worker is enough for both to sleep at the same time. -/
def twoNaps : Body := .spawn true (.sleep 5 (.yield (.ret 7))) (.start 0 (.sleep 3 (.await 0 fun | .val v => .ret (v + 1) | .exc e => .throw e)))

example : ∃ s tr, (machine twoNaps 1).Reaches s tr ∧ s.now = 5 ∧ tr = [.finished 1 (.val 7), .got 0 1 (.val 7), .finished 0 (.val 8)] := by
  have h : ((machine twoNaps 1).run [.take 0 0, .act 0, .act 0, .act 0, .take 0 1, .act 0, .tick, .tick, .tick, .fire 0 0, .take 0 0, .act 0, .act 0, .act 0, .tick, .tick,
      .fire 0 1, .take 0 1, .act 0, .take 0 1, .act 0, .take 0 0, .act 0, .act 0]).elim False
      (fun r => r.1.now = 5 ∧ r.2 = [.finished 1 (.val 7), .got 0 1 (.val 7), .finished 0 (.val 8)]) := ⟨by rfl, by rfl⟩
  revert h
  cases hr : (machine twoNaps 1).run [.take 0 0, .act 0, .act 0, .act 0, .take 0 1, .act 0, .tick, .tick, .tick, .fire 0 0, .take 0 0, .act 0, .act 0, .act 0, .tick, .tick,
      .fire 0 1, .take 0 1, .act 0, .take 0 1, .act 0, .take 0 0, .act 0, .act 0] with
  | none => exact False.elim
  | some r => exact fun h => ⟨r.1, r.2, ⟨_, hr⟩, h⟩

/-- The timer does not wake a task before its time. -/
example : (machine twoNaps 1).run [.take 0 0, .act 0, .act 0, .act 0, .take 0 1, .act 0, .tick, .tick, .fire 0 0] = none := rfl

/-- A second `co_await` of the same task gets `std::logic_error`, on any number of workers. -/
example : result (.spawn true (.ret 5) (.await 0 fun _ => .await 0 fun | .val v => .ret v | .exc e => .throw e)) = .exc .hasBeenGot := rfl

end Verif.ForkJoin
