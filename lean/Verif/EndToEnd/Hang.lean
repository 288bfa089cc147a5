import Verif.EndToEnd.Single
/-!
# C111 with two workers or more: the program can hang
-/

namespace Verif.EndToEnd

variable {S : Type} {f : Nat → S → S} {x0 : S} {n W : Nat}

theorem ended_of_idle {s : St S} (h1 : ∀ w, s.on w = none) (h2 : s.ready = []) : Ended f n W s := by
  intro l
  cases l <;> simp [step, h1, h2]

theorem ex_of_elim {α β : Type} {o : Option (α × β)} {P : α → β → Prop} (h : o.elim False (fun r => P r.1 r.2)) : ∃ a b, o = some (a, b) ∧ P a b := by
  cases o with
  | none => exact h.elim
  | some r => exact ⟨r.1, r.2, rfl, h⟩

/-- main has created jobs 1..j -/
structure Spawned (n j : Nat) (s : St S) : Prop where
  o0 : s.on 0 = some 0
  o1 : ∀ w, w ≠ 0 → s.on w = none
  p0 : s.prog 0 = .mSpawning
  sp : s.spawned = j
  pb : ∀ t, t ≠ 0 → s.prog t = if t ≤ j then .begun else .unborn
  rd : s.ready = List.range' 1 j
  fl : s.mx.flag = false
  mq : s.mx.queue = []
  mp : ∀ t, s.mx.pc t = .idle
  cn : s.wg.cnt = n
  gq : s.wg.queue = []
  gp : ∀ t, s.wg.pc t = .idle

/-- main has looked at the count and has not registered yet; jobs 1..k are over -/
structure Mid (n k : Nat) (s : St S) : Prop where
  o0 : s.on 0 = some 0
  o1 : ∀ w, w ≠ 0 → s.on w = none
  p0 : s.prog 0 = .mWaiting
  sp : s.spawned = n
  pb : ∀ t, t ≠ 0 → s.prog t = if t ≤ k then .over else if t ≤ n then .begun else .unborn
  rd : s.ready = List.range' (k + 1) (n - k)
  fl : s.mx.flag = false
  mq : s.mx.queue = []
  mp : ∀ t, s.mx.pc t = .idle
  cn : s.wg.cnt = n - k
  gq : s.wg.queue = []
  g0 : s.wg.pc 0 = .missed
  gp : ∀ t, t ≠ 0 → s.wg.pc t = .idle

theorem reach_spawned (hn : n < 2 ^ 64) (hW : 0 < W) : ∀ j, j ≤ n → ∃ s tr, (machine f x0 n W).Reaches s tr ∧ (∀ v, Ev.total v ∉ tr) ∧ Spawned n j s := by
  intro j
  induction j with
  | zero =>
    intro _
    have hmod : n % WaitGroup.W = n := Nat.mod_eq_of_lt hn
    have hr : ∃ s' q, (machine f x0 n W).run [.take 0 0, .group 0 0 (.add n)] = some (s', q) ∧ ((∀ v, Ev.total v ∉ q) ∧ Spawned n 0 s') := by
      apply ex_of_elim
      simp only [Machine.run, Machine.runFrom, machine, step, init, hW, mayGroup, WaitGroup.step, List.mem_singleton]
      simp only [and_self, if_true, List.map_cons, List.map_nil, Option.elim]
      refine ⟨by simp, ?_⟩
      constructor <;> simp [upd_apply, groupProg, groupOn, groupWoken, WaitGroup.init, Mutex.init, hmod]
      all_goals grind
    obtain ⟨s', q, h1, h2, h3⟩ := hr
    exact ⟨s', q, ⟨_, h1⟩, h2, h3⟩
  | succ j ih =>
    intro hj
    obtain ⟨s, tr, h, hv, ⟨o0, o1, p0, sp, pb, rd, fl, mq, mp, cn, gq, gp⟩⟩ := ih (by omega)
    refine ⟨_, tr ++ [], h.step (l := .spawn 0) (s' := { s with spawned := s.spawned + 1, ready := s.ready ++ [s.spawned + 1], prog := upd s.prog (s.spawned + 1) .begun }) ?_, by simpa using hv, ?_⟩
    · simp [machine, step, o0, p0, sp]; omega
    · constructor <;> simp only [upd_apply, sp, rd] <;> try assumption
      · grind
      · rw [List.range'_concat]; simp; omega

theorem reach_mid0 (hn : n < 2 ^ 64) (hn0 : 0 < n) (hW : 0 < W) : ∃ s tr, (machine f x0 n W).Reaches s tr ∧ (∀ v, Ev.total v ∉ tr) ∧ Mid n 0 s := by
  obtain ⟨s, tr, h, hv, ⟨o0, o1, p0, sp, pb, rd, fl, mq, mp, cn, gq, gp⟩⟩ := reach_spawned (f := f) (x0 := x0) hn hW n (Nat.le_refl _)
  refine ⟨{ s with wg := { s.wg with pc := upd s.wg.pc 0 .missed }, prog := upd s.prog 0 .mWaiting, ready := s.ready ++ [] }, tr ++ [Ev.group (.asked 0)],
    h.step (l := .group 0 0 (.wait 0)) ?_, by simpa using hv, ?_⟩
  · have : n ≠ 0 := by omega
    simp [machine, step, o0, p0, sp, mayGroup, WaitGroup.step, gp, cn, this, groupProg, groupOn, groupWoken]
  · constructor <;> (try simp only [upd_apply, List.append_nil]) <;> grind

/-- worker 1 runs a job from its beginning to its end -/
theorem reach_mid (hn : n < 2 ^ 64) (hn0 : 0 < n) (hW : 1 < W) : ∀ k, k ≤ n → ∃ s tr, (machine f x0 n W).Reaches s tr ∧ (∀ v, Ev.total v ∉ tr) ∧ Mid n k s := by
  intro k
  induction k with
  | zero => intro _; exact reach_mid0 hn hn0 (by omega)
  | succ k ih =>
    intro hk
    obtain ⟨s, tr, h, hv, ⟨o0, o1, p0, sp, pb, rd, fl, mq, mp, cn, gq, g0, gp⟩⟩ := ih (by omega)
    have hrd : s.ready = (k + 1) :: List.range' (k + 2) (n - k - 1) := by
      rw [rd, show n - k = (n - k - 1) + 1 by omega, List.range'_succ]; simp
    have hp := pb (k + 1) (by omega)
    rw [if_neg (by omega), if_pos hk] at hp
    have hm := mp (k + 1)
    have hg := gp (k + 1) (by omega)
    have h1 := o1 1 (by omega)
    have hc : (n - k + (WaitGroup.W - 1 % WaitGroup.W)) % WaitGroup.W = n - (k + 1) := by
      have : WaitGroup.W = 2 ^ 64 := rfl
      rw [this]; omega
    have join : ∀ {ls s' q}, (machine f x0 n W).runFrom s ls = some (s', q) → (machine f x0 n W).Reaches s' (tr ++ q) := by
      intro ls s' q hr
      obtain ⟨l0, h0⟩ := h
      refine ⟨l0 ++ ls, ?_⟩
      unfold Machine.run at *
      rw [Machine.runFrom_append, h0]
      simp [hr]
    by_cases hl : n - k = 1
    · have hr : ∃ s' q, (machine f x0 n W).runFrom s [.take 1 (k + 1), .lock 1 (.acquire (k + 1)), .load 1 (k + 1), .store 1 (k + 1), .lock 1 (.unlock (k + 1)), .lock 1 (.retake (k + 1)),
          .lock 1 (.dequeueNone (k + 1)), .lock 1 (.clear (k + 1)), .group 1 (k + 1) (.done (k + 1) 1), .group 1 (k + 1) (.drained (k + 1)), .finish 1 (k + 1)] = some (s', q) ∧
          ((∀ v, Ev.total v ∉ q) ∧ Mid n (k + 1) s') := by
        rw [hl] at hc cn
        have hz : (1 + (WaitGroup.W - 1 % WaitGroup.W)) % WaitGroup.W = 0 := by rw [hc]; omega
        apply ex_of_elim
        simp [Machine.runFrom, machine, step, hW, h1, hrd, hp, hm, hg, fl, mq, gq, cn, hz, mayLock, mayGroup, Mutex.step, WaitGroup.step, Mutex.Lbl.agent, lockProg, lockOn, lockWoken,
            groupProg, groupOn, groupWoken]
        · constructor <;> (try simp only [upd_apply]) <;> (try grind)
          · have : n - k - 1 = n - (k + 1) := by omega
            rw [this]; simp [lockWoken, groupWoken]
      obtain ⟨s', q, h3, h4, h5⟩ := hr
      exact ⟨s', tr ++ q, join h3, by intro v hv'; rcases List.mem_append.1 hv' with h6 | h6; exact hv v h6; exact h4 v h6, h5⟩
    · have hr : ∃ s' q, (machine f x0 n W).runFrom s [.take 1 (k + 1), .lock 1 (.acquire (k + 1)), .load 1 (k + 1), .store 1 (k + 1), .lock 1 (.unlock (k + 1)), .lock 1 (.retake (k + 1)),
          .lock 1 (.dequeueNone (k + 1)), .lock 1 (.clear (k + 1)), .group 1 (k + 1) (.done (k + 1) 1), .finish 1 (k + 1)] = some (s', q) ∧
          ((∀ v, Ev.total v ∉ q) ∧ Mid n (k + 1) s') := by
        apply ex_of_elim
        simp [Machine.runFrom, machine, step, hW, h1, hrd, hp, hm, hg, fl, mq, cn, hl, hc, mayLock, mayGroup, Mutex.step, WaitGroup.step, Mutex.Lbl.agent, lockProg, lockOn, lockWoken,
            groupProg, groupOn, groupWoken]
        · constructor <;> (try simp only [upd_apply]) <;> (try grind)
          · have : n - k - 1 = n - (k + 1) := by omega
            rw [this]; simp [lockWoken, groupWoken]
      obtain ⟨s', q, h3, h4, h5⟩ := hr
      exact ⟨s', tr ++ q, join h3, by intro v hv'; rcases List.mem_append.1 hv' with h6 | h6; exact hv v h6; exact h4 v h6, h5⟩

/-- C111 is false with two workers or more, for every number of jobs but zero: an execution may come to an end in which every job is over and main sleeps in wait() for ever. -/
theorem program_hangs_refuted (hn : n < 2 ^ 64) (hn0 : 0 < n) (hW : 1 < W) : ∃ s tr, (machine f x0 n W).Reaches s tr ∧ Ended f n W s ∧ (∀ v, Ev.total v ∉ tr) ∧
    (∀ t, 1 ≤ t → t ≤ n → s.prog t = .over) := by
  obtain ⟨s, tr, h, hv, ⟨o0, o1, p0, sp, pb, rd, fl, mq, mp, cn, gq, g0, gp⟩⟩ := reach_mid (f := f) (x0 := x0) hn hn0 hW n (Nat.le_refl _)
  refine ⟨{ s with wg := { s.wg with queue := s.wg.queue ++ [0], pc := upd s.wg.pc 0 .queued }, prog := upd s.prog 0 .mWaiting, on := upd s.on 0 none, ready := s.ready ++ [] },
    tr ++ [Ev.group (.slept 0)], h.step (l := .group 0 0 (.suspend 0)) ?_, ?_, by simpa using hv, ?_⟩
  · simp [machine, step, o0, p0, mayGroup, WaitGroup.step, g0, groupProg, groupOn, groupWoken]
  · apply ended_of_idle
    · intro w; simp only [upd_apply]; split
      · rfl
      · exact o1 w ‹_›
    · simp [rd]
  · intro t h1 h2
    have := pb t (by omega)
    simp [upd_apply, h2] at this ⊢
    rw [if_neg (by omega)]; exact this

/-- Also at the mutex: two jobs, two workers; job 2 goes to sleep at the mutex after job 1 has released it, and nobody ever wakes it. -/
theorem mutex_hang_refuted : ∃ s tr, (machine (S := Nat) (fun _ x => x + 1) 0 2 2).Reaches s tr ∧ Ended (fun _ x => x + 1) 2 2 s ∧ s.mx.flag = false ∧ s.mx.queue = [2] ∧
    ∀ v, Ev.total v ∉ tr := by
  refine ⟨_, _, ⟨[.take 0 0, .group 0 0 (.add 2), .spawn 0, .spawn 0, .group 0 0 (.wait 0), .group 0 0 (.suspend 0), .take 0 1, .take 1 2, .lock 0 (.acquire 1), .lock 1 (.acquire 2),
    .load 0 1, .store 0 1, .lock 0 (.unlock 1), .lock 0 (.retake 1), .lock 0 (.dequeueNone 1), .lock 0 (.clear 1), .group 0 1 (.done 1 1), .finish 0 1, .lock 1 (.suspend 2)], rfl⟩, ?_, rfl, rfl, ?_⟩
  · apply ended_of_idle
    · intro w; simp [upd_apply, lockOn, groupOn, machine, init]; try grind
    · rfl
  · simp

/-- Non-vacuity: two jobs on two workers, with contention at the mutex and main asleep in wait(); the hypotheses of the theorems hold and main gets the total. -/
theorem end_to_end_nontrivial : ∃ s tr, (machine (S := Nat) (fun _ x => x + 1) 0 2 2).Reaches s tr ∧ Ev.lock (.slept 2) ∈ tr ∧ Ev.group (.slept 0) ∈ tr ∧ Ev.total 2 ∈ tr ∧ Ended (fun _ x => x + 1) 2 2 s := by
  refine ⟨_, _, ⟨[.take 0 0, .group 0 0 (.add 2), .spawn 0, .spawn 0, .group 0 0 (.wait 0), .group 0 0 (.suspend 0), .take 0 1, .take 1 2, .lock 0 (.acquire 1), .lock 1 (.acquire 2),
    .load 0 1, .lock 1 (.suspend 2), .store 0 1, .lock 0 (.unlock 1), .lock 0 (.retake 1), .lock 0 (.dequeue 1 2), .lock 0 (.wake 1), .group 0 1 (.done 1 1), .finish 0 1,
    .take 0 2, .lock 0 (.resume 2), .load 0 2, .store 0 2, .lock 0 (.unlock 2), .lock 0 (.retake 2), .lock 0 (.dequeueNone 2), .lock 0 (.clear 2), .group 0 2 (.done 2 1),
    .group 0 2 (.dequeue 2 0), .group 0 2 (.wake 2), .group 0 2 (.drained 2), .finish 0 2, .take 0 0, .read 0], rfl⟩, ?_, ?_, ?_, ?_⟩
  · simp
  · simp
  · simp [machine, init]
  · apply ended_of_idle
    · intro w; simp [upd_apply, lockOn, groupOn, machine, init]; try grind
    · rfl

end Verif.EndToEnd
