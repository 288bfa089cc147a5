import Verif.Life.Inv
/-!
# C72-C75: starting, stopping, interrupting and destroying the runtime
-/

namespace Verif.Life

/-- nothing has gone wrong yet -/
def Healthy (tr : List Ev) : Prop := Ev.terminated ∉ tr ∧ Ev.useAfterFree ∉ tr

def isSigint : Ev → Bool
  | .sigint _ => true
  | _ => false

/-- No SIGINT arrived after somebody had begun to stop the runtime. -/
def NoLateSigint (tr : List Ev) : Prop := ∀ p q c, tr = p ++ Ev.sigint c :: q → ∀ c', Ev.stopCalled c' ∉ p

def Call.busy : Call → Bool
  | .idle => false
  | _ => true

structure InvD (s : St) (tr : List Ev) : Prop where
  bal : ∀ c, tr.count (.stopCalled c) = tr.count (.stopReturned c) + (s.call c).busy.toNat
  dead : s.dead = true ↔ ¬ Healthy tr
  rc : ∀ c, s.call c = .recursing → ∃ p q, tr = p ++ Ev.sigint c :: q ∧ ∃ c', Ev.stopCalled c' ∈ p
  tm : Ev.terminated ∈ tr → (∃ i, Ev.stopCalled (.wrk i) ∈ tr) ∨ 2 ≤ tr.countP isSigint

theorem reach_d {n : Nat} {manual loops : Bool} {s : St} {tr : List Ev} (h : (machine n manual loops).Reaches s tr) : InvD s tr := by
  refine Machine.Reaches.inv' (M := machine n manual loops) (fun s tr => InvD s tr) ?_ ?_ h
  · constructor <;> simp [machine, init, Healthy, Call.busy]
  · rintro s tr l s' e hr ⟨bal, dead, rec, tm⟩ hs
    obtain ⟨ret, db, de, sg, ca, on, cw⟩ := reach_c hr
    have hB := reach_b hr
    have md := hB.md
    have mc := hB.mc
    have hsg : s.sig = true → 1 ≤ tr.countP isSigint := by
      intro h1
      obtain ⟨c, hc⟩ := sg.1 h1
      exact List.countP_pos_iff.2 ⟨_, hc, rfl⟩
    change step n manual loops s l = some (s', e) at hs
    simp only [step] at hs
    split at hs
    · simp at hs
    rename_i hd
    have rec' : ∀ e c, s.call c = .recursing → ∃ p q, tr ++ e = p ++ Ev.sigint c :: q ∧ ∃ c', Ev.stopCalled c' ∈ p := by
      intro e c hc
      obtain ⟨p, q, h1, h2⟩ := rec c hc
      exact ⟨p, q ++ e, by simp [h1], h2⟩
    cases l with
    | _ =>
      simp only [stepLive] at hs
      (repeat' split at hs) <;> simp only [Option.some.injEq, Prod.mk.injEq, reduceCtorEq] at hs
      all_goals obtain ⟨rfl, rfl⟩ := hs
      all_goals constructor <;> (try dsimp only) <;> (try simp only [List.append_nil])
      all_goals first
        | assumption
        | (apply rec')
        | ((try simp only [upd_apply]); (try simp only [Healthy, List.mem_append, List.mem_cons, List.not_mem_nil, or_false, reduceCtorEq, List.count_append, List.count_cons, List.count_nil,
             List.countP_append, List.countP_cons, List.countP_nil, isSigint])
           first
            | assumption
            | grind [free_idle, Call.busy, Healthy]
            | (intro c hc; split at hc
               · cases hc
               · exact rec' _ c hc)
            | (intro c hc; split at hc
               · rename_i hj _; subst_vars
                 exact ⟨tr, [], rfl, ⟨_, ca _ (by rw [hj]; simp)⟩⟩
               · exact rec' _ c hc))
        | skip

/-! ## C74: start() -/

/-- When start() returns every worker has registered, exactly once. -/
theorem start_returns_prepared {n : Nat} {manual loops : Bool} {s : St} {tr : List Ev} (h : (machine n manual loops).Reaches s tr) (hst : Ev.startReturned ∈ tr) (i : Nat) (hi : i < n) :
    tr.count (.prepared i) = 1 := by
  have A := reach_a h
  have := A.aft (A.st.1 hst) i hi
  rw [A.pr i]
  cases hw : s.wpc i <;> simp_all [Wpc.past, Wpc.registered]

/-- ... before start() returns -/
theorem prepared_before_return {n : Nat} {manual loops : Bool} {s : St} {p q : List Ev} (h : (machine n manual loops).Reaches s (p ++ Ev.startReturned :: q)) (i : Nat) (hi : i < n) :
    Ev.prepared i ∈ p := by
  obtain ⟨s1, tr1, l, s2, e, q', hr, hs, hqe, hpre⟩ := h.at_event rfl
  have A := reach_a hr
  change step n manual loops s1 l = some (s2, e) at hs
  simp only [step] at hs
  split at hs
  · simp at hs
  have hm := hqe.subset (List.mem_append_right q' (List.mem_singleton.2 rfl))
  have h1 : ∀ i, i < n → (s1.wpc i).past = true := by
    cases l <;> simp only [stepLive] at hs <;> (repeat' split at hs) <;> simp only [Option.some.injEq, Prod.mk.injEq, reduceCtorEq] at hs <;> obtain ⟨rfl, rfl⟩ := hs
    all_goals first
      | (simp at hm; done)
      | skip
    rename_i hc
    have := A.cnt
    exact (late_zero n s1.wpc).1 (by omega)
  have h2 := A.pr i
  have h3 := h1 i hi
  have h4 : 0 < tr1.count (.prepared i) := by
    rw [h2]; cases hw : s1.wpc i <;> simp_all [Wpc.past, Wpc.registered]
  rw [hpre]
  exact List.mem_append_left _ (List.count_pos_iff.1 h4)

/-- A worker runs tasks only after it has registered. -/
theorem tasks_after_prepared {n : Nat} {manual loops : Bool} {s : St} {p q : List Ev} {i : Nat} (h : (machine n manual loops).Reaches s (p ++ Ev.taskBegan i :: q)) :
    Ev.prepared i ∈ p := by
  obtain ⟨s1, tr1, l, s2, e, q', hr, hs, hqe, hpre⟩ := h.at_event rfl
  have A := reach_a hr
  change step n manual loops s1 l = some (s2, e) at hs
  simp only [step] at hs
  split at hs
  · simp at hs
  have hm := hqe.subset (List.mem_append_right q' (List.mem_singleton.2 rfl))
  have h4 : 0 < tr1.count (.prepared i) := by
    rw [A.pr i]
    cases l <;> simp only [stepLive] at hs <;> (repeat' split at hs) <;> simp only [Option.some.injEq, Prod.mk.injEq, reduceCtorEq] at hs <;> obtain ⟨rfl, rfl⟩ := hs
    all_goals first
      | (simp at hm; done)
      | skip
    rename_i hc
    simp at hm
    subst hm
    simp [hc.1, Wpc.registered]
  rw [hpre]
  exact List.mem_append_left _ (List.count_pos_iff.1 h4)

/-- The number of threads a worker finds in its attributes is at most the pool's (C74, what remains of the property below). -/
theorem number_of_threads_partial {n : Nat} {manual loops : Bool} {s : St} {tr : List Ev} (h : (machine n manual loops).Reaches s tr) {i k : Nat} (hk : Ev.sawThreads i k ∈ tr) :
    i ≤ k ∧ k ≤ n := by
  obtain ⟨p, q, rfl⟩ := List.append_of_mem hk
  obtain ⟨s1, tr1, l, s2, e, q', hr, hs, hqe, hpre⟩ := h.at_event rfl
  have A := reach_a hr
  change step n manual loops s1 l = some (s2, e) at hs
  simp only [step] at hs
  split at hs
  · simp at hs
  have hm := hqe.subset (List.mem_append_right q' (List.mem_singleton.2 rfl))
  cases l <;> simp only [stepLive] at hs <;> (repeat' split at hs) <;> simp only [Option.some.injEq, Prod.mk.injEq, reduceCtorEq] at hs <;> obtain ⟨rfl, rfl⟩ := hs
  all_goals first
    | (simp at hm; done)
    | skip
  rename_i hc
  simp at hm
  obtain ⟨rfl, rfl⟩ := hm
  have h1 := (A.em i).1 (by rw [hc.1]; rfl)
  have h2 := A.emn
  have h3 := hc.2
  cases hmp : s1.mpc <;> simp_all [sees, Mpc.emplaced] <;> omega

/-- The attributes' number_of_threads need not be the number of threads: the first worker of a pool of any size may find 0. -/
theorem number_of_threads_refuted (n : Nat) (hn : 0 < n) (manual loops : Bool) : ∃ s tr, (machine n manual loops).Reaches s tr ∧ Ev.sawThreads 0 0 ∈ tr := by
  refine ⟨{ init with mpc := .starting 1, wpc := upd (upd init.wpc 0 .born) 0 .prep }, [.sawThreads 0 0], ⟨[.emplace, .fill 0 0], ?_⟩, by simp⟩
  simp [Machine.run, Machine.runFrom, machine, step, stepLive, init, hn, sees]

/-! ## C72: stop() and quick_stop() -/

/-- When a call of stop() or quick_stop() returns, on whatever thread and however many there are, every worker has ended. -/
theorem stop_returns_after_workers {n : Nat} {manual loops : Bool} {s : St} {p q : List Ev} {c : Who} (h : (machine n manual loops).Reaches s (p ++ Ev.stopReturned c :: q)) (i : Nat)
    (hi : i < n) : Ev.workerExited i ∈ p := by
  obtain ⟨s1, tr1, l, s2, e, q', hr, hs, hqe, hpre⟩ := h.at_event rfl
  have A := reach_a hr
  have B := reach_b hr
  change step n manual loops s1 l = some (s2, e) at hs
  simp only [step] at hs
  split at hs
  · simp at hs
  have hm := hqe.subset (List.mem_append_right q' (List.mem_singleton.2 rfl))
  rw [hpre]
  refine List.mem_append_left _ ((A.ex i).2 ?_)
  cases l <;> simp only [stepLive] at hs <;> (repeat' split at hs) <;> simp only [Option.some.injEq, Prod.mk.injEq, reduceCtorEq] at hs <;> obtain ⟨rfl, rfl⟩ := hs
  all_goals first
    | (simp at hm; done)
    | skip
  all_goals first
    | exact B.dn (by assumption) i hi
    | (rename_i hj hk _
       exact (B.jo _ _ hj).2 i (by omega))

/-- std::terminate only because a worker called stop() or because of a second SIGINT. -/
theorem terminates_only_then {n : Nat} {manual loops : Bool} {s : St} {tr : List Ev} (h : (machine n manual loops).Reaches s tr) (ht : Ev.terminated ∈ tr) :
    (∃ i, Ev.stopCalled (.wrk i) ∈ tr) ∨ 2 ≤ tr.countP isSigint := (reach_d h).tm ht

theorem alive_lt {n : Nat} {manual loops : Bool} {s : St} {tr : List Ev} (h : (machine n manual loops).Reaches s tr) {i : Nat} (hi : (s.wpc i).working = true) : i < n := by
  have A := reach_a h
  have := (A.em i).1 (by cases hw : s.wpc i <;> simp_all [Wpc.working, Wpc.alive])
  have := A.emn
  omega

/-- "from any thread" is false: once a task has called stop(), no call of stop() ever returns, neither that one nor any other. -/
theorem stop_in_task_refuted {n : Nat} {manual loops : Bool} {s : St} {tr : List Ev} (h : (machine n manual loops).Reaches s tr) {i : Nat} (hc : Ev.stopCalled (.wrk i) ∈ tr) (c : Who) :
    Ev.stopReturned c ∉ tr := by
  intro hr
  obtain ⟨p, q, rfl⟩ := List.append_of_mem hc
  have key : ∀ {s' : St} {tr' : List Ev}, (machine n manual loops).Reaches s' tr' → Ev.stopCalled (.wrk i) ∈ tr' → (s'.call (.wrk i)).busy = true ∧ s'.once ≠ .done := by
    intro s' tr' h' hc'
    refine Machine.Reaches.inv' (M := machine n manual loops) (fun s tr => Ev.stopCalled (.wrk i) ∈ tr → (s.call (.wrk i)).busy = true ∧ s.once ≠ .done) ?_ ?_ h' hc'
    · simp
    · intro s1 tr1 l s2 e hr1 ih hs hc1
      have A := reach_a hr1
      have B := reach_b hr1
      have hlt := alive_lt hr1 (i := i)
      have B' := reach_b (hr1.step hs)
      have hlt' := alive_lt (hr1.step hs) (i := i)
      have hbusy : (s2.call (.wrk i)).busy = true → s2.once ≠ .done := by
        intro hb hd
        have hw := B'.wc i (by intro h0; rw [h0] at hb; simp [Call.busy] at hb)
        have := B'.dn hd i (hlt' hw)
        rw [this] at hw; simp [Wpc.working] at hw
      refine ⟨?_, hbusy ?_⟩
      all_goals
        change step n manual loops s1 l = some (s2, e) at hs
        simp only [step] at hs
        split at hs
        · simp at hs
        rcases List.mem_append.1 hc1 with hc2 | hc2
        · obtain ⟨hb1, hb2⟩ := ih hc2
          have hj : ∀ c, s1.call c = .joining n → ¬ (s1.call (.wrk i)).busy = true := by
            intro c hcj hb
            have hw := B.wc i (by intro h0; rw [h0] at hb; simp [Call.busy] at hb)
            have := (B.jo c n hcj).2 i (hlt hw)
            rw [this] at hw; simp [Wpc.working] at hw
          have hj' : ∀ c k, s1.call c = .joining k → ¬ k < n → False := by
            intro c k hcj hk
            have := (B.jo c k hcj).1
            have : k = n := by omega
            subst this
            exact hj c hcj hb1
          cases l <;> simp only [stepLive] at hs <;> (repeat' split at hs) <;> simp only [Option.some.injEq, Prod.mk.injEq, reduceCtorEq] at hs <;> obtain ⟨rfl, rfl⟩ := hs
          all_goals first
            | exact hb1
            | (dsimp only; rw [upd_apply]; split <;> first | rfl | exact hb1)
            | (exfalso; grind)
        · cases l <;> simp only [stepLive] at hs <;> (repeat' split at hs) <;> simp only [Option.some.injEq, Prod.mk.injEq, reduceCtorEq] at hs <;> obtain ⟨rfl, rfl⟩ := hs
          all_goals first
            | (simp at hc2; done)
            | (simp at hc2; subst hc2; simp [upd_apply, Call.busy])
  exact (key h hc).2 ((reach_c h).ret c hr)

/-- It does happen: a task that calls stop(), in a pool of one worker, terminates the program. -/
theorem stop_in_task_terminates_refuted : ∃ s tr, (machine 1 false true).Reaches s tr ∧ Ev.taskBegan 0 ∈ tr ∧ Ev.stopCalled (.wrk 0) ∈ tr ∧ (∀ c, Ev.sigint c ∉ tr) ∧ Ev.terminated ∈ tr :=
  ⟨_, _, ⟨[.emplace, .emplace, .fill 0 1, .prepare 0, .countDown 0, .latchDone, .begin 0, .stop (.wrk 0), .advance (.wrk 0), .advance (.wrk 0)], rfl⟩,
    by simp, by simp, by simp, by simp⟩

/-! ### Progress -/

private theorem upd_upd {κ α : Type} [DecidableEq κ] (f : κ → α) (i : κ) (a b : α) : upd (upd f i a) i b = upd f i b := by
  funext j; simp only [upd_apply]; split <;> rfl

/-- the workers can all leave -/
private theorem drive {n : Nat} {manual loops : Bool} {s : St} (hd : s.dead = false) (hsr : s.stopReq = true) (hw : ∀ i, s.call (.wrk i) = .idle) (hp : ∀ i, i < n → (s.wpc i).past = true) :
    ∀ m, m ≤ n → ∃ ls f q, (machine n manual loops).runFrom s ls = some ({ s with wpc := f }, q) ∧ (∀ i, i < m → f i = .exited) ∧ (∀ i, i < n → (f i).past = true) ∧ Healthy q := by
  intro m
  induction m with
  | zero => intro _; exact ⟨[], s.wpc, [], rfl, by simp, hp, by simp [Healthy]⟩
  | succ m ih =>
    intro hm
    obtain ⟨ls, f, q, h1, h2, h3, h4⟩ := ih (by omega)
    have hpm := h3 m (by omega)
    have hex : ∀ g : Nat → Wpc, g = upd f m .exited → (∀ i, i < m + 1 → g i = .exited) ∧ (∀ i, i < n → (g i).past = true) := by
      rintro g rfl
      refine ⟨lt_succ_cases (fun i hi => by rw [upd_ne _ _ (by omega)]; exact h2 i hi) (upd_same _ _ _), fun i hi => ?_⟩
      rw [upd_apply]; split
      · rfl
      · exact h3 i hi
    cases hf : f m with
    | loop =>
      refine ⟨ls ++ [.leave m], upd f m .exited, q ++ [.workerExited m], ?_, (hex _ rfl).1, (hex _ rfl).2, ?_⟩
      · rw [Machine.runFrom_append, h1]
        simp [Machine.runFrom, machine, step, stepLive, hd, hf, hw m, hsr]
      · simpa [Healthy] using h4
    | run =>
      refine ⟨ls ++ [.finish m, .leave m], upd f m .exited, q ++ [.workerExited m], ?_, (hex _ rfl).1, (hex _ rfl).2, ?_⟩
      · rw [Machine.runFrom_append, h1]
        simp [Machine.runFrom, machine, step, stepLive, hd, hf, hw m, hsr, upd_upd]
      · simpa [Healthy] using h4
    | exited =>
      exact ⟨ls, f, q, h1, lt_succ_cases h2 hf, h3, h4⟩
    | none => rw [hf] at hpm; simp [Wpc.past] at hpm
    | born => rw [hf] at hpm; simp [Wpc.past] at hpm
    | prep => rw [hf] at hpm; simp [Wpc.past] at hpm
    | reg => rw [hf] at hpm; simp [Wpc.past] at hpm

/-- the thread that executes the once-function joins them all -/
private theorem join_all {n : Nat} {manual loops : Bool} {c : Who} (hc : ∀ i, c ≠ .wrk i) : ∀ (d k : Nat) (s : St), k + d = n → s.dead = false → s.call c = .joining k →
    (∀ i, i < n → s.wpc i = .exited) →
    ∃ ls s' , (machine n manual loops).runFrom s ls = some (s', [.stopReturned c]) ∧ s'.once = .done ∧ s'.call = upd s.call c .idle ∧ s'.dead = false := by
  intro d
  induction d with
  | zero =>
    intro k s hk hd hj hex
    refine ⟨[.advance c], { s with once := .done, call := upd s.call c .idle, mpc := if c = .main ∧ s.mpc = .dtorCall then .dtorJoin 0 else s.mpc }, ?_, rfl, rfl, hd⟩
    simp [Machine.runFrom, machine, step, stepLive, hd, hj, show ¬ k < n by omega]
  | succ d ih =>
    intro k s hk hd hj hex
    obtain ⟨ls, s', h1, h2, h3, h4⟩ := ih (k + 1) { s with call := upd s.call c (.joining (k + 1)) } (by omega) hd (upd_same _ _ _) hex
    refine ⟨.advance c :: ls, s', ?_, h2, ?_, h4⟩
    · have : (machine n manual loops).step s (.advance c) = some ({ s with call := upd s.call c (.joining (k + 1)) }, []) := by
        simp [machine, step, stepLive, hd, hj, show k < n by omega, hc k, hex k (by omega)]
      simp [Machine.runFrom, this, h1]
    · rw [h3]; exact upd_upd _ _ _ _

/-- C72 for calls outside of the pool: as long as no worker has called stop() and no SIGINT has arrived while the runtime was being stopped, a call that has not returned yet can still return,
and nothing goes wrong on the way. -/
theorem external_stop_returns_partial {n : Nat} {manual loops : Bool} {s : St} {tr : List Ev} (h : (machine n manual loops).Reaches s tr) (hh : Healthy tr)
    (hw : ∀ i, Ev.stopCalled (.wrk i) ∉ tr) (hsig : NoLateSigint tr) {c : Who} (hc : tr.count (.stopReturned c) < tr.count (.stopCalled c)) :
    ∃ ls s' q, (machine n manual loops).runFrom s ls = some (s', q) ∧ Ev.stopReturned c ∈ q ∧ Healthy q := by
  have A := reach_a h
  have B := reach_b h
  have C := reach_c h
  have D := reach_d h
  have hd : s.dead = false := by
    rcases Bool.eq_false_or_eq_true s.dead with h1 | h1
    · exact absurd hh (D.dead.1 h1)
    · exact h1
  have hidle : ∀ i, s.call (.wrk i) = .idle := by
    intro i; by_contra h0; exact hw i (C.ca _ h0)
  have hnr : ∀ c, s.call c ≠ .recursing := by
    intro c h0
    obtain ⟨p, q, h1, c', h2⟩ := D.rc c h0
    exact hsig p q c h1 c' h2
  have hbusy : s.call c ≠ .idle := by
    intro h0
    have := D.bal c
    rw [h0] at this; simp [Call.busy] at this; omega
  have hcw : ∀ c, s.call c ≠ .idle → ∀ i, c ≠ .wrk i := by
    rintro c h0 i rfl; exact h0 (hidle i)
  have hpast := A.aft (B.xc c hbusy)
  -- once the function is over the call returns
  have fin : ∀ t : St, t.dead = false → t.once = .done → t.call c = .once ∨ t.call c = .blocked →
      ∃ t', (machine n manual loops).runFrom t [.advance c] = some (t', [.stopReturned c]) := by
    intro t h1 h2 h3
    refine ⟨{ t with call := upd t.call c .idle, mpc := if c = .main ∧ t.mpc = .dtorCall then .dtorJoin 0 else t.mpc }, ?_⟩
    rcases h3 with h3 | h3 <;> simp [Machine.runFrom, machine, step, stepLive, h1, h2, h3]
  -- the function can be brought to its end
  have run : ∀ (t : St) (c0 : Who) (k : Nat), t.dead = false → t.stopReq = true → (∀ i, t.call (.wrk i) = .idle) → (∀ i, i < n → (t.wpc i).past = true) →
      t.call c0 = .joining k → k ≤ n → (t.call c = .once ∨ t.call c = .blocked ∨ c = c0) →
      ∃ ls t' q, (machine n manual loops).runFrom t ls = some (t', q) ∧ Ev.stopReturned c ∈ q ∧ Healthy q := by
    intro t c0 k h1 h2 h3 h4 h5 h6 h7
    obtain ⟨ls, f, q, r1, r2, r3, r4⟩ := drive (manual := manual) (loops := loops) h1 h2 h3 h4 n (Nat.le_refl n)
    have hc0 : ∀ i, c0 ≠ .wrk i := by rintro i rfl; rw [h3 i] at h5; cases h5
    obtain ⟨ls2, t2, j1, j2, j3, j4⟩ := join_all (manual := manual) (loops := loops) hc0 (n - k) k { t with wpc := f } (by omega) h1 h5 r2
    by_cases hcc : c = c0
    · subst hcc
      refine ⟨ls ++ ls2, t2, q ++ [.stopReturned c], ?_, by simp, by simpa [Healthy] using r4⟩
      rw [Machine.runFrom_append, r1]; simp [j1]
    · have h7' : t2.call c = .once ∨ t2.call c = .blocked := by
        rw [j3, upd_ne _ _ hcc]
        rcases h7 with h7 | h7 | h7
        · exact Or.inl h7
        · exact Or.inr h7
        · exact absurd h7 hcc
      obtain ⟨t3, k1⟩ := fin t2 j4 j2 h7'
      refine ⟨ls ++ (ls2 ++ [.advance c]), t3, q ++ ([.stopReturned c0] ++ [.stopReturned c]), ?_, by simp, by simpa [Healthy] using r4⟩
      rw [Machine.runFrom_append, r1]
      simp only [Option.bind_some, Machine.runFrom_append, j1, k1]
      rfl
  cases ho : s.once with
  | done =>
    have hac : (s.call c).active = true ↔ s.once = .running c := B.ac c
    rw [ho] at hac
    have h7 : s.call c = .once ∨ s.call c = .blocked := by
      cases hcc : s.call c <;> simp_all [Call.active]
    obtain ⟨t, ht⟩ := fin s hd ho h7
    exact ⟨_, t, _, ht, by simp, by simp [Healthy]⟩
  | running c0 =>
    have hact := (B.ac c0).2 ho
    have hac : (s.call c).active = true ↔ s.once = .running c := B.ac c
    have hsr : s.stopReq = true := B.sr.2 (by rw [ho]; simp)
    cases hc0 : s.call c0 with
    | joining k =>
      refine run s c0 k hd hsr hidle hpast hc0 (B.jo _ _ hc0).1 ?_
      rw [ho] at hac
      by_cases hcc : c = c0
      · exact Or.inr (Or.inr hcc)
      · have : ¬ (s.call c).active = true := by rw [hac]; intro h0; injection h0 with h0; exact hcc h0.symm
        have := hnr c
        cases hx : s.call c <;> simp_all [Call.active]
    | recursing => exact absurd hc0 (hnr c0)
    | idle => rw [hc0] at hact; simp [Call.active] at hact
    | once => rw [hc0] at hact; simp [Call.active] at hact
    | blocked => rw [hc0] at hact; simp [Call.active] at hact
  | fresh =>
    have hna : ∀ c, ¬ (s.call c).active = true := by intro c; rw [B.ac c, ho]; simp
    by_cases hon : s.call c = .once
    · have hstep : (machine n manual loops).step s (.advance c) = some ({ s with once := .running c, stopReq := true, call := upd s.call c (.joining 0) }, []) := by
        simp [machine, step, stepLive, hd, hon, ho]
      obtain ⟨ls, t', q, r1, r2, r3⟩ := run { s with once := .running c, stopReq := true, call := upd s.call c (.joining 0) } c 0 hd rfl
        (fun i => by
          have : Who.wrk i ≠ c := fun h0 => hcw c hbusy i h0.symm
          simp only [upd_ne _ _ this]; exact hidle i)
        hpast (upd_same _ _ _) (Nat.zero_le n) (Or.inr (Or.inr rfl))
      exact ⟨.advance c :: ls, t', q, by simp [Machine.runFrom, hstep, r1], r2, r3⟩
    · have := B.blk c ho
      have := hna c
      have := hnr c
      cases hx : s.call c <;> simp_all [Call.active]

end Verif.Life
