import Verif.Life.Props
/-!
# C73: destroying the runtime; C75: SIGINT
-/

namespace Verif.Life

/-! ## C73 -/

/-- When the destructor is over all workers have ended (none uses the object any more). -/
theorem destroyed_after_workers {n : Nat} {manual loops : Bool} {s : St} {tr : List Ev} (h : (machine n manual loops).Reaches s tr) (hd : Ev.destroyed ∈ tr) (i : Nat) (hi : i < n) :
    Ev.workerExited i ∈ tr :=
  ((reach_a h).ex i).2 ((reach_b h).gn ((reach_c h).de.1 hd) i hi)

/-- manually_stop, as documented: the destructor does not return unless somebody has called stop() or quick_stop(). -/
theorem manual_destructor_blocks {n : Nat} {loops : Bool} {s : St} {tr : List Ev} (hn : 0 < n) (h : (machine n true loops).Reaches s tr) (hd : Ev.destroyed ∈ tr) : ∃ c, Ev.stopCalled c ∈ tr := by
  have B := reach_b h
  have C := reach_c h
  exact C.on (B.sr.1 (B.es 0 (B.gn (C.de.1 hd) 0 hn)))

/-- C73 where stop() or quick_stop() has returned before: no worker touches a destroyed sub-loop. -/
theorem destroy_after_stop_safe_partial {n : Nat} {manual loops : Bool} {s : St} {p q : List Ev} {c : Who} (h : (machine n manual loops).Reaches s (p ++ Ev.destroyBegan :: q))
    (hc : Ev.stopReturned c ∈ p) : Ev.useAfterFree ∉ p ++ Ev.destroyBegan :: q := by
  suffices key : ∀ {s : St} {tr : List Ev}, (machine n manual loops).Reaches s tr → (∃ p q, tr = p ++ Ev.destroyBegan :: q ∧ Ev.stopReturned c ∈ p) → Ev.useAfterFree ∉ tr from
    key h ⟨p, q, rfl, hc⟩
  intro s tr h
  refine Machine.Reaches.inv' (M := machine n manual loops) (fun _ tr => (∃ p q, tr = p ++ Ev.destroyBegan :: q ∧ Ev.stopReturned c ∈ p) → Ev.useAfterFree ∉ tr) ?_ ?_ h
  · simp [machine]
  · rintro s tr l s' e hr ih hs ⟨p, q, hpq, hcp⟩ hu
    have hd : s.dead ≠ true := by
      intro h0
      change step n manual loops s l = some (s', e) at hs
      simp [step, h0] at hs
    have hnu : Ev.useAfterFree ∉ tr := by
      intro h0; exact hd ((reach_d hr).dead.2 (fun hh => hh.2 h0))
    have hue : Ev.useAfterFree ∈ e := by
      rcases List.mem_append.1 hu with h0 | h0
      · exact absurd h0 hnu
      · exact h0
    have hct : Ev.stopReturned c ∈ tr ++ e := by rw [hpq]; exact List.mem_append_left _ hcp
    have A := reach_a hr
    have B := reach_b hr
    have C := reach_c hr
    change step n manual loops s l = some (s', e) at hs
    simp only [step] at hs
    split at hs
    · simp at hs
    cases l <;> simp only [stepLive] at hs <;> (repeat' split at hs) <;> simp only [Option.some.injEq, Prod.mk.injEq, reduceCtorEq] at hs <;> obtain ⟨rfl, rfl⟩ := hs
    all_goals first
      | (simp at hue; done)
      | skip
    rename_i i hw _
    have hct' : Ev.stopReturned c ∈ tr := by simpa using hct
    have := B.dn (C.ret c hct') i (alive_lt hr (by rw [hw.1]; rfl))
    rw [hw.1] at this; cases this

private theorem joins {n : Nat} {manual loops : Bool} : ∀ (d k : Nat) (s : St), k + d = n → s.dead = false → s.mpc = .dtorJoin k → (∀ i, i < n → s.wpc i = .exited) →
    ∃ ls s', (machine n manual loops).runFrom s ls = some (s', [.destroyed]) := by
  intro d
  induction d with
  | zero =>
    intro k s hk hd hm _
    refine ⟨[.dtor], { s with mpc := .gone }, ?_⟩
    simp [Machine.runFrom, machine, step, stepLive, hd, hm, show ¬ k < n by omega]
  | succ d ih =>
    intro k s hk hd hm hex
    obtain ⟨ls, s', h1⟩ := ih (k + 1) { s with mpc := .dtorJoin (k + 1) } (by omega) hd rfl hex
    refine ⟨.dtor :: ls, s', ?_⟩
    have : (machine n manual loops).step s .dtor = some ({ s with mpc := .dtorJoin (k + 1) }, []) := by
      simp [machine, step, stepLive, hd, hm, show k < n by omega, hex k (by omega)]
    simp [Machine.runFrom, this, h1]

private theorem Healthy.append {a b : List Ev} (ha : Healthy a) (hb : Healthy b) : Healthy (a ++ b) := by
  obtain ⟨a1, a2⟩ := ha
  obtain ⟨b1, b2⟩ := hb
  constructor <;> simp [*]

private theorem glue {n : Nat} {manual loops : Bool} {s s1 s2 : St} {l1 l2 : List Lbl} {q1 q2 : List Ev} (h1 : (machine n manual loops).runFrom s l1 = some (s1, q1))
    (h2 : (machine n manual loops).runFrom s1 l2 = some (s2, q2)) : (machine n manual loops).runFrom s (l1 ++ l2) = some (s2, q1 ++ q2) := by
  rw [Machine.runFrom_append, h1]; simp [h2]

/-- the rest of the destructor after the workers have ended -/
private theorem finish_dtor {n : Nat} {manual loops : Bool} {s : St} {tr : List Ev} (h : (machine n manual loops).Reaches s tr) (hh : Healthy tr) (ho : s.once = .done)
    (hdt : s.mpc.inDtor = true) (hg : s.mpc ≠ .gone) : ∃ ls s' q, (machine n manual loops).runFrom s ls = some (s', q) ∧ Ev.destroyed ∈ q ∧ Healthy q := by
  have B := reach_b h
  have D := reach_d h
  have hd : s.dead = false := by
    rcases Bool.eq_false_or_eq_true s.dead with h1 | h1
    · exact absurd hh (D.dead.1 h1)
    · exact h1
  have hex := B.dn ho
  have fin : ∀ (t : St) (k : Nat), t.dead = false → t.mpc = .dtorJoin k → k ≤ n → (∀ i, i < n → t.wpc i = .exited) →
      ∃ ls s' q, (machine n manual loops).runFrom t ls = some (s', q) ∧ Ev.destroyed ∈ q ∧ Healthy q := by
    intro t k h1 h2 h3 h4
    obtain ⟨ls, s', h5⟩ := joins (manual := manual) (loops := loops) (n - k) k t (by omega) h1 h2 h4
    exact ⟨ls, s', _, h5, by simp, by simp [Healthy]⟩
  have call : ∀ (t : St), t.dead = false → t.mpc = .dtorCall → t.once = .done → (t.call .main = .once ∨ t.call .main = .blocked) → (∀ i, i < n → t.wpc i = .exited) →
      ∃ ls s' q, (machine n manual loops).runFrom t ls = some (s', q) ∧ Ev.destroyed ∈ q ∧ Healthy q := by
    intro t h1 h2 h3 h4 h5
    obtain ⟨ls, s', q, r1, r2, r3⟩ := fin { t with call := upd t.call .main .idle, mpc := .dtorJoin 0 } 0 h1 rfl (Nat.zero_le n) h5
    refine ⟨[.advance .main] ++ ls, s', [.stopReturned .main] ++ q, glue ?_ r1, by simp [r2], Healthy.append (by simp [Healthy]) r3⟩
    rcases h4 with h4 | h4 <;> simp [Machine.runFrom, machine, step, stepLive, h1, h2, h3, h4]
  have pool : ∀ (t : St), t.dead = false → t.mpc = .dtorPool → t.once = .done → (∀ i, i < n → t.wpc i = .exited) →
      ∃ ls s' q, (machine n manual loops).runFrom t ls = some (s', q) ∧ Ev.destroyed ∈ q ∧ Healthy q := by
    intro t h1 h2 h3 h4
    cases hm : manual with
    | true =>
      subst hm
      obtain ⟨ls, s', q, r1, r2, r3⟩ := fin { t with mpc := .dtorJoin 0 } 0 h1 rfl (Nat.zero_le n) h4
      refine ⟨[.dtor] ++ ls, s', [] ++ q, glue ?_ r1, by simp [r2], r3⟩
      simp [Machine.runFrom, machine, step, stepLive, h1, h2]
    | false =>
      subst hm
      obtain ⟨ls, s', q, r1, r2, r3⟩ := call { t with mpc := .dtorCall, call := upd t.call .main .once } h1 rfl h3 (Or.inl (by simp)) h4
      refine ⟨[.dtor] ++ ls, s', [.stopCalled .main] ++ q, glue ?_ r1, by simp [r2], Healthy.append (by simp [Healthy]) r3⟩
      simp [Machine.runFrom, machine, step, stepLive, h1, h2]
  cases hm : s.mpc with
  | dtorLoops =>
    obtain ⟨ls, s', q, r1, r2, r3⟩ := pool { s with mpc := .dtorPool, loopsAlive := false } hd rfl ho hex
    refine ⟨[.dtor] ++ ls, s', [] ++ q, glue ?_ r1, by simp [r2], r3⟩
    simp [Machine.runFrom, machine, step, stepLive, hd, hm]
  | dtorPool => exact pool s hd hm ho hex
  | dtorCall =>
    refine call s hd hm ho ?_ hex
    have h1 := B.md hm
    have h2 := B.ac .main
    rw [ho] at h2
    cases hx : s.call .main <;> simp_all [Call.active]
  | dtorJoin k => exact fin s k hd hm (B.dj k hm).1 hex
  | gone => exact absurd hm hg
  | starting k => rw [hm] at hdt; simp [Mpc.inDtor] at hdt
  | latch => rw [hm] at hdt; simp [Mpc.inDtor] at hdt
  | user => rw [hm] at hdt; simp [Mpc.inDtor] at hdt

private theorem reaches_run {n : Nat} {manual loops : Bool} {s s' : St} {tr q : List Ev} {ls : List Lbl} (h : (machine n manual loops).Reaches s tr)
    (hr : (machine n manual loops).runFrom s ls = some (s', q)) : (machine n manual loops).Reaches s' (tr ++ q) := by
  obtain ⟨l0, h0⟩ := h
  exact ⟨l0 ++ ls, by unfold Machine.run at *; rw [Machine.runFrom_append, h0]; simp [hr]⟩

/-- C73, the destructor gets to its end: when no worker calls stop() (and no SIGINT arrives late), and, for a pool constructed with manually_stop, somebody has called stop(). -/
theorem destroy_completes_partial {n : Nat} {manual loops : Bool} {s : St} {tr : List Ev} (h : (machine n manual loops).Reaches s tr) (hh : Healthy tr)
    (hw : ∀ i, Ev.stopCalled (.wrk i) ∉ tr) (hsig : NoLateSigint tr) (hb : Ev.destroyBegan ∈ tr) (hnd : Ev.destroyed ∉ tr) (hm : manual = true → ∃ c, Ev.stopCalled c ∈ tr) :
    ∃ ls s' q, (machine n manual loops).runFrom s ls = some (s', q) ∧ Ev.destroyed ∈ q ∧ Healthy q := by
  have C := reach_c h
  have D := reach_d h
  have hdt := C.db.1 hb
  have hg : s.mpc ≠ .gone := fun h0 => hnd (C.de.2 h0)
  have hd : s.dead = false := by
    rcases Bool.eq_false_or_eq_true s.dead with h1 | h1
    · exact absurd hh (D.dead.1 h1)
    · exact h1
  -- when a call is pending it returns, and the rest follows
  have pend : ∀ {t : St} {q0 : List Ev} {l0 : List Lbl} (c : Who), (machine n manual loops).runFrom s l0 = some (t, q0) → Healthy q0 → (∀ i, Ev.stopCalled (.wrk i) ∉ q0) →
      (∀ c, Ev.sigint c ∉ q0) → t.call c ≠ .idle → ∃ ls s' q, (machine n manual loops).runFrom s ls = some (s', q) ∧ Ev.destroyed ∈ q ∧ Healthy q := by
    intro t q0 l0 c hr hq0 hq1 hq2 hbusy
    have ht := reaches_run h hr
    have hpend : (tr ++ q0).count (.stopReturned c) < (tr ++ q0).count (.stopCalled c) := by
      have := (reach_d ht).bal c
      have : (t.call c).busy = true := by cases hx : t.call c <;> simp_all [Call.busy]
      simp_all
    have hns : NoLateSigint (tr ++ q0) := by
      intro p q c1 hp
      rcases List.append_eq_append_iff.1 hp with ⟨a, ha, hb⟩ | ⟨a, ha, hb⟩
      · exfalso
        have : Ev.sigint c1 ∈ q0 := by rw [hb]; simp
        exact hq2 c1 this
      · cases a with
        | nil =>
          exfalso
          simp at hb
          exact hq2 c1 (by rw [← hb]; simp)
        | cons x a =>
          injection hb with hb1 hb2
          subst hb1
          exact hsig p a c1 ha
    obtain ⟨ls, t2, q, r1, r2, r3⟩ := external_stop_returns_partial ht (hh.append hq0) (fun i hi => by
      rcases List.mem_append.1 hi with h0 | h0
      · exact hw i h0
      · exact hq1 i h0) hns hpend
    have ht2 := reaches_run ht r1
    have hdone := (reach_c ht2).ret c (List.mem_append_right _ r2)
    have hh2 := (hh.append hq0).append r3
    have hdt2 : t2.mpc.inDtor = true := (reach_c ht2).db.1 (by simp [hb])
    by_cases hg2 : t2.mpc = .gone
    · refine ⟨l0 ++ ls, t2, q0 ++ q, glue hr r1, ?_, hq0.append r3⟩
      have := (reach_c ht2).de.2 hg2
      simp only [List.append_assoc] at this
      rcases List.mem_append.1 this with h0 | h0
      · exact absurd h0 hnd
      · exact h0
    · obtain ⟨ls3, t3, q3, u1, u2, u3⟩ := finish_dtor ht2 hh2 hdone hdt2 hg2
      exact ⟨l0 ++ ls ++ ls3, t3, q0 ++ q ++ q3, glue (glue hr r1) u1, by simp [u2], (hq0.append r3).append u3⟩
  by_cases ho : s.once = .done
  · exact finish_dtor h hh ho hdt hg
  · by_cases hc : ∃ c, Ev.stopCalled c ∈ tr
    · obtain ⟨c, hc⟩ := hc
      rcases C.cw c hc with h0 | h0
      · exact pend (t := s) (q0 := []) (l0 := []) c rfl (by simp [Healthy]) (by simp) (by simp) h0
      · exact absurd h0 ho
    · have hman : manual = false := by
        cases manual with
        | true => exact absurd (hm rfl) hc
        | false => rfl
      subst hman
      have B := reach_b h
      have hfresh : s.once = .fresh := by by_contra h0; exact hc (C.on h0)
      cases hmp : s.mpc with
      | dtorLoops =>
        refine pend (t := { s with mpc := .dtorCall, loopsAlive := false, call := upd s.call .main .once }) (l0 := [.dtor, .dtor]) (q0 := [.stopCalled .main]) .main ?_ (by simp [Healthy]) (by simp) (by simp) (by simp)
        simp [Machine.runFrom, machine, step, stepLive, hd, hmp]
      | dtorPool =>
        refine pend (t := { s with mpc := .dtorCall, call := upd s.call .main .once }) (l0 := [.dtor]) (q0 := [.stopCalled .main]) .main ?_ (by simp [Healthy]) (by simp) (by simp) (by simp)
        simp [Machine.runFrom, machine, step, stepLive, hd, hmp]
      | dtorCall => exact absurd ⟨.main, C.ca _ (B.md hmp)⟩ hc
      | dtorJoin k => exact absurd ((B.dj k hmp).2.2 rfl) ho
      | gone => exact absurd hmp hg
      | starting k => rw [hmp] at hdt; simp [Mpc.inDtor] at hdt
      | latch => rw [hmp] at hdt; simp [Mpc.inDtor] at hdt
      | user => rw [hmp] at hdt; simp [Mpc.inDtor] at hdt

/-- C73 is false for the runtime proper (an event_loop): destroyed while running, which the constructor's documentation allows ("mark this thread_pool to call quick_stop() in the destructor"),
its sub-loops die before the workers: from every healthy state in which nobody has stopped anything the destructor can run into a worker polling a destroyed sub-loop. -/
theorem destroy_running_refuted {n : Nat} {manual : Bool} {s : St} {tr : List Ev} (hn : 0 < n) (h : (machine n manual true).Reaches s tr) (hh : Healthy tr) (hst : Ev.startReturned ∈ tr)
    (hnd : Ev.destroyBegan ∉ tr) (hns : ∀ c, Ev.stopCalled c ∉ tr) :
    ∃ ls s' q, (machine n manual true).runFrom s (.destroy :: ls) = some (s', q) ∧ Ev.useAfterFree ∈ q ∧ ∀ c, Ev.stopCalled c ∉ q := by
  have A := reach_a h
  have B := reach_b h
  have C := reach_c h
  have D := reach_d h
  have hd : s.dead = false := by
    rcases Bool.eq_false_or_eq_true s.dead with h1 | h1
    · exact absurd hh (D.dead.1 h1)
    · exact h1
  have hidle : ∀ c, s.call c = .idle := by
    intro c; by_contra h0; exact hns c (C.ca c h0)
  have hmp : s.mpc = .user := by
    have h1 := A.st.1 hst
    have h2 : ¬ s.mpc.inDtor = true := fun h0 => hnd (C.db.2 h0)
    cases hx : s.mpc <;> simp_all [Mpc.after, Mpc.inDtor]
  have hp := A.aft (A.st.1 hst) 0 hn
  have hne : s.wpc 0 ≠ .exited := by
    intro h0
    obtain ⟨c, hc⟩ := C.on (B.sr.1 (B.es 0 h0))
    exact hns c hc
  cases hw : s.wpc 0 with
  | loop =>
    refine ⟨[.dtor, .poll 0], { s with mpc := .dtorPool, loopsAlive := false, dead := true }, [.destroyBegan, .useAfterFree], ?_, by simp, by simp⟩
    simp [Machine.runFrom, machine, step, stepLive, hd, hmp, hidle, hw, free]
  | run =>
    refine ⟨[.dtor, .finish 0, .poll 0], { s with mpc := .dtorPool, loopsAlive := false, dead := true, wpc := upd s.wpc 0 .loop }, [.destroyBegan, .useAfterFree], ?_, by simp, by simp⟩
    simp [Machine.runFrom, machine, step, stepLive, hd, hmp, hidle, hw, free]
  | exited => exact absurd hw hne
  | none => rw [hw] at hp; simp [Wpc.past] at hp
  | born => rw [hw] at hp; simp [Wpc.past] at hp
  | prep => rw [hw] at hp; simp [Wpc.past] at hp
  | reg => rw [hw] at hp; simp [Wpc.past] at hp

/-- Non-vacuity: one worker, started, nothing stopped. -/
example : ∃ s, (machine 1 false true).Reaches s [.sawThreads 0 1, .prepared 0, .startReturned] :=
  ⟨_, ⟨[.emplace, .emplace, .fill 0 1, .prepare 0, .countDown 0, .latchDone], rfl⟩⟩

/-- Non-vacuity: a plain thread_pool of two workers destroyed while a task runs. -/
example : ∃ s, (machine 2 false false).Reaches s [.sawThreads 0 2, .sawThreads 1 2, .prepared 0, .prepared 1, .startReturned, .taskBegan 1, .destroyBegan, .stopCalled .main, .workerExited 0, .workerExited 1,
    .stopReturned .main, .destroyed] :=
  ⟨_, ⟨[.emplace, .emplace, .emplace, .fill 0 2, .fill 1 2, .prepare 0, .prepare 1, .countDown 0, .countDown 1, .latchDone, .begin 1, .destroy, .dtor, .advance .main, .leave 0, .finish 1, .leave 1,
    .advance .main, .advance .main, .advance .main, .dtor, .dtor, .dtor], rfl⟩⟩

/-! ## C74: start() can always come to its end -/

private theorem emplace_all {n : Nat} {manual loops : Bool} : ∀ (d k : Nat) (s : St), k + d = n → s.dead = false → s.mpc = .starting k →
    ∃ ls s', (machine n manual loops).runFrom s ls = some (s', []) ∧ s'.mpc = .latch ∧ s'.dead = false := by
  intro d
  induction d with
  | zero =>
    intro k s hk hd hm
    refine ⟨[.emplace], { s with mpc := .latch }, ?_, rfl, hd⟩
    simp [Machine.runFrom, machine, step, stepLive, hd, hm, show ¬ k < n by omega]
  | succ d ih =>
    intro k s hk hd hm
    obtain ⟨ls, s', h1, h2, h3⟩ := ih (k + 1) { s with mpc := .starting (k + 1), wpc := upd s.wpc k .born } (by omega) hd rfl
    refine ⟨.emplace :: ls, s', ?_, h2, h3⟩
    have : (machine n manual loops).step s .emplace = some ({ s with mpc := .starting (k + 1), wpc := upd s.wpc k .born }, []) := by
      simp [machine, step, stepLive, hd, hm, show k < n by omega]
    simp [Machine.runFrom, this, h1]

private theorem prepare_all {n : Nat} {manual loops : Bool} {s : St} (hd : s.dead = false) (hm : s.mpc = .latch) (ha : ∀ i, i < n → (s.wpc i).alive = true) :
    ∀ m, m ≤ n → ∃ ls s' q, (machine n manual loops).runFrom s ls = some (s', q) ∧ s'.dead = false ∧ s'.mpc = .latch ∧ (∀ i, i < m → (s'.wpc i).past = true) ∧
      (∀ i, i < n → (s'.wpc i).alive = true) := by
  intro m
  induction m with
  | zero => intro _; exact ⟨[], s, [], rfl, hd, hm, by simp, ha⟩
  | succ m ih =>
    intro hmn
    obtain ⟨ls, t, q, h1, h2, h3, h4, h5⟩ := ih (by omega)
    have hex : ∀ g : Nat → Wpc, (∀ i, i ≠ m → g i = t.wpc i) → g m = .loop → (∀ i, i < m + 1 → (g i).past = true) ∧ (∀ i, i < n → (g i).alive = true) := by
      intro g hg hgm
      refine ⟨lt_succ_cases (fun i hi => by rw [hg i (by omega)]; exact h4 i hi) (by rw [hgm]; rfl), fun i hi => ?_⟩
      by_cases him : i = m
      · rw [him, hgm]; rfl
      · rw [hg i him]; exact h5 i hi
    have hne : ∀ i, i ≠ m → i ≠ m := fun _ h => h
    cases hw : t.wpc m with
    | none => have := h5 m (by omega); rw [hw] at this; simp [Wpc.alive] at this
    | born =>
      have := hex (upd (upd (upd t.wpc m .prep) m .reg) m .loop) (fun i hi => by simp [upd_ne _ _ hi]) (upd_same _ _ _)
      refine ⟨ls ++ [.fill m n, .prepare m, .countDown m], { t with wpc := upd (upd (upd t.wpc m .prep) m .reg) m .loop, attrs := t.attrs ++ [m], counted := t.counted + 1 },
        q ++ [.sawThreads m n, .prepared m], glue h1 ?_, h2, h3, this.1, this.2⟩
      simp [Machine.runFrom, machine, step, stepLive, h2, hw, h3, sees]
    | prep =>
      have := hex (upd (upd t.wpc m .reg) m .loop) (fun i hi => by simp [upd_ne _ _ hi]) (upd_same _ _ _)
      refine ⟨ls ++ [.prepare m, .countDown m], { t with wpc := upd (upd t.wpc m .reg) m .loop, attrs := t.attrs ++ [m], counted := t.counted + 1 },
        q ++ [.prepared m], glue h1 ?_, h2, h3, this.1, this.2⟩
      simp [Machine.runFrom, machine, step, stepLive, h2, hw]
    | reg =>
      have := hex (upd t.wpc m .loop) (fun i hi => by simp [upd_ne _ _ hi]) (upd_same _ _ _)
      refine ⟨ls ++ [.countDown m], { t with wpc := upd t.wpc m .loop, counted := t.counted + 1 }, q ++ [], glue h1 ?_, h2, h3, this.1, this.2⟩
      simp [Machine.runFrom, machine, step, stepLive, h2, hw]
    | loop => exact ⟨ls, t, q, h1, h2, h3, lt_succ_cases h4 (by rw [hw]; rfl), h5⟩
    | run => exact ⟨ls, t, q, h1, h2, h3, lt_succ_cases h4 (by rw [hw]; rfl), h5⟩
    | exited => exact ⟨ls, t, q, h1, h2, h3, lt_succ_cases h4 (by rw [hw]; rfl), h5⟩

/-- From every state before its return, start() can return (no deadlock between the latch and the workers). -/
theorem start_completes {n : Nat} {manual loops : Bool} {s : St} {tr : List Ev} (h : (machine n manual loops).Reaches s tr) (hh : Healthy tr) (hst : Ev.startReturned ∉ tr) :
    ∃ ls s' q, (machine n manual loops).runFrom s ls = some (s', q) ∧ Ev.startReturned ∈ q := by
  have A := reach_a h
  have hd : s.dead = false := by
    rcases Bool.eq_false_or_eq_true s.dead with h1 | h1
    · exact absurd hh ((reach_d h).dead.1 h1)
    · exact h1
  have hlatch : ∃ ls t q, (machine n manual loops).runFrom s ls = some (t, q) ∧ t.mpc = .latch ∧ t.dead = false := by
    have hna : ¬ s.mpc.after = true := fun h0 => hst (A.st.2 h0)
    cases hm : s.mpc with
    | starting k =>
      have hk : k ≤ n := by
        have := A.emn
        rw [hm] at this
        exact this
      obtain ⟨ls, t, h1, h2, h3⟩ := emplace_all (n := n) (manual := manual) (loops := loops) (n - k) k s (by omega) hd hm
      exact ⟨ls, t, [], h1, h2, h3⟩
    | latch => exact ⟨[], s, [], rfl, hm, hd⟩
    | _ => rw [hm] at hna; simp [Mpc.after] at hna
  obtain ⟨l1, t, q1, r1, r2, r3⟩ := hlatch
  have ht := reaches_run h r1
  obtain ⟨l2, u, q2, u1, u2, u3, u4, u5⟩ := prepare_all (manual := manual) (loops := loops) r3 r2 (fun i hi => ((reach_a ht).em i).2 (by rw [r2]; exact hi)) n (Nat.le_refl n)
  have hu := reaches_run ht u1
  have hz := (late_zero n u.wpc).2 u4
  have hc := (reach_a hu).cnt
  refine ⟨l1 ++ (l2 ++ [.latchDone]), { u with mpc := .user }, q1 ++ (q2 ++ [.startReturned]), glue r1 (glue u1 ?_), by simp⟩
  simp [Machine.runFrom, machine, step, stepLive, u2, u3, show u.counted = n by omega]

/-! ## C75 -/

theorem reach_sig {n : Nat} {manual loops : Bool} {s : St} {tr : List Ev} (h : (machine n manual loops).Reaches s tr) :
    (∀ i, Ev.sigint (.wrk i) ∈ tr → Ev.stopCalled (.wrk i) ∈ tr ∨ 2 ≤ tr.countP isSigint) ∧ (2 ≤ tr.countP isSigint → Ev.terminated ∈ tr) := by
  refine Machine.Reaches.inv' (M := machine n manual loops) (fun _ tr => (∀ i, Ev.sigint (.wrk i) ∈ tr → Ev.stopCalled (.wrk i) ∈ tr ∨ 2 ≤ tr.countP isSigint) ∧
    (2 ≤ tr.countP isSigint → Ev.terminated ∈ tr)) ?_ ?_ h
  · simp
  · rintro s tr l s' e hr ⟨ih1, ih2⟩ hs
    obtain ⟨ret, db, de, sg, ca, on, cw⟩ := reach_c hr
    have hz : s.sig ≠ true → tr.countP isSigint = 0 := by
      intro h0
      rw [List.countP_eq_zero]
      intro x hx hs
      cases x <;> simp [isSigint] at hs
      exact h0 (sg.2 ⟨_, hx⟩)
    have ho : s.sig = true → 1 ≤ tr.countP isSigint := by
      intro h1
      obtain ⟨c, hc⟩ := sg.1 h1
      exact List.countP_pos_iff.2 ⟨_, hc, rfl⟩
    change step n manual loops s l = some (s', e) at hs
    simp only [step] at hs
    split at hs
    · simp at hs
    cases l <;> simp only [stepLive] at hs <;> (repeat' split at hs) <;> simp only [Option.some.injEq, Prod.mk.injEq, reduceCtorEq] at hs <;> obtain ⟨rfl, rfl⟩ := hs
    all_goals simp only [List.append_nil, List.mem_append, List.mem_cons, List.not_mem_nil, or_false, reduceCtorEq, List.countP_append, List.countP_cons, List.countP_nil, isSigint]
    all_goals first
      | exact ⟨ih1, ih2⟩
      | (constructor <;> grind)

/-- A second SIGINT terminates the program, as its message says. -/
theorem second_sigint_terminates {n : Nat} {manual loops : Bool} {s : St} {tr : List Ev} (h : (machine n manual loops).Reaches s tr) (h2 : 2 ≤ tr.countP isSigint) : Ev.terminated ∈ tr :=
  (reach_sig h).2 h2

/-- "cleaning" is false when the kernel delivers the first SIGINT on a worker: no stop ever returns after that. -/
theorem sigint_on_worker_refuted {n : Nat} {manual loops : Bool} {s : St} {tr : List Ev} (h : (machine n manual loops).Reaches s tr) {i : Nat} (hs : Ev.sigint (.wrk i) ∈ tr)
    (h1 : tr.countP isSigint = 1) (c : Who) : Ev.stopReturned c ∉ tr := by
  rcases (reach_sig h).1 i hs with h0 | h0
  · exact stop_in_task_refuted h h0 c
  · omega

/-- ... in a pool of one worker, idle, the program is terminated. -/
theorem sigint_on_idle_worker_terminates_refuted : ∃ s tr, (machine 1 false true).Reaches s tr ∧ Ev.sigint (.wrk 0) ∈ tr ∧ tr.countP isSigint = 1 ∧ Ev.terminated ∈ tr :=
  ⟨_, _, ⟨[.emplace, .emplace, .fill 0 1, .prepare 0, .countDown 0, .latchDone, .signal (.wrk 0), .advance (.wrk 0), .advance (.wrk 0)], rfl⟩, by simp, rfl, by simp⟩

/-- A SIGINT on a thread that is waiting inside stop() or runtime_exit() for the workers: that call never returns, nor does any other. -/
theorem sigint_during_stop_refuted {n : Nat} {manual loops : Bool} {s s1 : St} {tr e : List Ev} {c : Who} {k : Nat} (h : (machine n manual loops).Reaches s tr) (hj : s.call c = .joining k)
    (hs : (machine n manual loops).step s (.signal c) = some (s1, e)) {ls : List Lbl} {s' : St} {q : List Ev} (hr : (machine n manual loops).runFrom s1 ls = some (s', q)) (c' : Who) :
    Ev.stopReturned c' ∉ q := by
  have B := reach_b h
  have hrun : s.once = .running c := (B.ac c).1 (by rw [hj]; rfl)
  have hstart : (s1.call c = .recursing ∧ s1.once = .running c) ∨ s1.dead = true := by
    change step n manual loops s (.signal c) = some (s1, e) at hs
    simp only [step] at hs
    split at hs
    · simp at hs
    simp only [stepLive, hj] at hs
    (repeat' split at hs) <;> simp only [Option.some.injEq, Prod.mk.injEq, reduceCtorEq] at hs <;> obtain ⟨rfl, rfl⟩ := hs
    · exact Or.inr rfl
    · exact Or.inl ⟨upd_same _ _ _, hrun⟩
  have key : ∀ (ls : List Lbl) (t t' : St) (q tr' : List Ev), (machine n manual loops).Reaches t tr' → ((t.call c = .recursing ∧ t.once = .running c) ∨ t.dead = true) →
      (machine n manual loops).runFrom t ls = some (t', q) → Ev.stopReturned c' ∉ q := by
    intro ls
    induction ls with
    | nil =>
      intro t t' q tr' _ _ hq
      obtain ⟨rfl, rfl⟩ := by simpa [Machine.runFrom] using hq
      simp
    | cons l ls ih =>
      intro t t' q tr' ht hi hq
      simp only [Machine.runFrom] at hq
      cases h1 : (machine n manual loops).step t l with
      | none => simp [h1] at hq
      | some r =>
        obtain ⟨t1, e1⟩ := r
        simp only [h1] at hq
        cases h2 : (machine n manual loops).runFrom t1 ls with
        | none => simp [h2] at hq
        | some r =>
          obtain ⟨t2, q2⟩ := r
          simp [h2] at hq
          obtain ⟨rfl, rfl⟩ := hq
          have Bt := reach_b ht
          have hmc := Bt.mc
          have hstep : ((t1.call c = .recursing ∧ t1.once = .running c) ∨ t1.dead = true) ∧ Ev.stopReturned c' ∉ e1 := by
            have h1' := h1
            change step n manual loops t l = some (t1, e1) at h1'
            simp only [step] at h1'
            split at h1'
            · simp at h1'
            rename_i hdd
            obtain ⟨g1, g2⟩ := hi.resolve_right hdd
            have hac : ∀ c1 k1, t.call c1 = .joining k1 → False := by
              intro c1 k1 hc1
              have := (Bt.ac c1).1 (by rw [hc1]; rfl)
              rw [g2] at this
              injection this with this
              subst this
              rw [g1] at hc1; cases hc1
            cases l <;> simp only [stepLive] at h1' <;> (repeat' split at h1') <;> simp only [Option.some.injEq, Prod.mk.injEq, reduceCtorEq] at h1' <;> obtain ⟨rfl, rfl⟩ := h1'
            all_goals first
              | (refine ⟨Or.inl ⟨g1, g2⟩, ?_⟩; simp; done)
              | (refine ⟨Or.inr rfl, ?_⟩; simp; done)
              | (exfalso; grind)
              | (refine ⟨Or.inl ⟨?_, g2⟩, by simp⟩
                 dsimp only
                 rw [upd_apply]
                 split
                 · exfalso; grind [free_idle, reach_b]
                 · exact g1)
              | skip
          simp only [List.mem_append, not_or]
          exact ⟨hstep.2, ih t1 t2 q2 _ (ht.step h1) hstep.1 h2⟩
  exact key ls s1 s' q _ (h.step hs) hstart hr

/-- That state is reachable: main in runtime_exit(), a task still running, Ctrl-C. -/
example : ∃ s tr, (machine 1 false true).Reaches s tr ∧ s.call .main = .joining 0 ∧ canSignal s .main = true :=
  ⟨_, _, ⟨[.emplace, .emplace, .fill 0 1, .prepare 0, .countDown 0, .latchDone, .begin 0, .stop .main, .advance .main], rfl⟩, rfl, rfl⟩

/-- C75 for a first SIGINT that the kernel delivers on a thread that is not a worker while nobody stops the runtime: the handler's quick_stop() can come to its end. -/
theorem sigint_stops_partial {n : Nat} {manual loops : Bool} {s : St} {tr : List Ev} (h : (machine n manual loops).Reaches s tr) (hh : Healthy tr) (hns : ∀ c, Ev.stopCalled c ∉ tr)
    (hng : ∀ c, Ev.sigint c ∉ tr) {c : Who} (hc : ∀ i, c ≠ .wrk i) (hcan : canSignal s c = true) :
    ∃ ls s' q, (machine n manual loops).runFrom s (.signal c :: ls) = some (s', q) ∧ Ev.stopReturned c ∈ q ∧ Healthy q := by
  have C := reach_c h
  have D := reach_d h
  have hd : s.dead = false := by
    rcases Bool.eq_false_or_eq_true s.dead with h1 | h1
    · exact absurd hh (D.dead.1 h1)
    · exact h1
  have hidle : s.call c = .idle := by by_contra h0; exact hns c (C.ca c h0)
  have hsig : s.sig = false := by
    rcases Bool.eq_false_or_eq_true s.sig with h1 | h1
    · obtain ⟨c, h2⟩ := C.sg.1 h1; exact absurd h2 (hng c)
    · exact h1
  have hstep : (machine n manual loops).step s (.signal c) = some ({ s with sig := true, call := upd s.call c .once }, [.sigint c, .stopCalled c]) := by
    simp [machine, step, stepLive, hd, hcan, hsig, hidle]
  have ht := h.step hstep
  have h0 : tr.count (.stopCalled c) = 0 := List.count_eq_zero_of_not_mem (hns c)
  have hb := D.bal c
  obtain ⟨ls, s', q, r1, r2, r3⟩ := external_stop_returns_partial ht (Healthy.append hh (by simp [Healthy])) (c := c)
    (by
      intro i hi
      rcases List.mem_append.1 hi with h1 | h1
      · exact hns _ h1
      · simp at h1; exact hc i h1.symm)
    (by
      intro p q c1 hp c2 hc2
      have hlen : p <+: tr ∨ tr <+: p := List.prefix_or_prefix_of_prefix (l₃ := tr ++ [Ev.sigint c, Ev.stopCalled c]) ⟨_, hp.symm⟩ (List.prefix_append _ _)
      rcases hlen with h1 | ⟨a, ha⟩
      · exact hns c2 (h1.subset hc2)
      · subst ha
        simp only [List.append_assoc] at hp
        have hp' := List.append_cancel_left hp
        cases a with
        | nil => simp at hc2; exact hns c2 hc2
        | cons x a =>
          simp at hp'
          obtain ⟨rfl, hp'⟩ := hp'
          cases a with
          | nil => simp at hp'
          | cons y a => simp at hp')
    (by simp only [List.count_append, List.count_cons, List.count_nil]; simp; omega)
  refine ⟨ls, s', [.sigint c, .stopCalled c] ++ q, ?_, by simp [r2], Healthy.append (by simp [Healthy]) r3⟩
  simp [Machine.runFrom, hstep, r1]

end Verif.Life
