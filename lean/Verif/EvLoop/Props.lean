import Verif.EvLoop.Inv
/-!
# C55: add_event and stopping the event loop
-/

namespace Verif.EvLoop

/-! ## After stop() has begun add_event throws -/

/-- C55, first half: once stop() has set its flag no add_event is let through. -/
theorem no_add_after_stop {n : Nat} {s : St} {tr : List Ev} (h : (machine n).Reaches s tr) {p q : List Ev} (hp : tr = p ++ Ev.stopping :: q) (t : Nat) :
    Ev.admitted t ∉ q := by
  intro hq
  obtain ⟨q1, q2, rfl⟩ := List.append_of_mem hq
  obtain ⟨s1, tr1, l, s2, e, q', hr, hs, hqe, hpre⟩ := h.at_event (pre := p ++ Ev.stopping :: q1) (x := Ev.admitted t) (post := q2) (by simp [hp])
  have F := reach_flags hr
  change step n s1 l = some (s2, e) at hs
  have hst : s1.cleaning = true ∨ Ev.stopping ∈ q' := by
    have hm : Ev.stopping ∈ tr1 ++ q' := by rw [← hpre]; simp
    rcases List.mem_append.1 hm with h1 | h1
    · exact Or.inl (F.cl.2 h1)
    · exact Or.inr h1
  have hm := hqe.subset (List.mem_append_right q' (List.mem_singleton.2 rfl))
  have hl := hqe.length_le
  cases l <;> simp only [step] at hs <;> (repeat' split at hs) <;> simp only [Option.some.injEq, Prod.mk.injEq, reduceCtorEq] at hs <;> obtain ⟨rfl, rfl⟩ := hs
  all_goals first
    | (simp at hm; done)
    | skip
  rename_i hc
  rcases hst with h1 | h1
  · exact hc h1
  · cases q' with
    | nil => simp at h1
    | cons a b => simp at hl

/-- the caller gets the exception -/
theorem add_after_stop_throws {n : Nat} {s s' : St} {tr e : List Ev} {i : Nat} (h : (machine n).Reaches s tr) (hst : Ev.stopping ∈ tr)
    (hs : (machine n).step s (.sleep i) = some (s', e)) : ∃ t, e = [Ev.refused t] := by
  have F := reach_flags h
  change step n s (.sleep i) = some (s', e) at hs
  simp only [step] at hs
  (repeat' split at hs) <;> simp only [Option.some.injEq, Prod.mk.injEq, reduceCtorEq] at hs <;> obtain ⟨rfl, rfl⟩ := hs
  · exact ⟨_, rfl⟩
  · rename_i hc; exact absurd (F.cl.2 hst) hc

/-- and add_event never throws before stop() -/
theorem throws_only_after_stop {n : Nat} {s : St} {tr : List Ev} (h : (machine n).Reaches s tr) {t : Nat} (ht : Ev.refused t ∈ tr) : Ev.stopping ∈ tr :=
  (reach_flags h).rf t ht

/-! ## What becomes of the tasks given to the loop -/

/-- Every accepted task has at most one fate (handed back, thrown away silently, cleared), and at most one acceptance of it is still open. -/
theorem accounting {n : Nat} {s : St} {tr : List Ev} (h : (machine n).Reaches s tr) (t : Nat) :
    tr.count (.expired t) + tr.count (.ignored t) + tr.count (.dropped t) ≤ tr.count (.admitted t) ∧
    tr.count (.admitted t) ≤ tr.count (.expired t) + tr.count (.ignored t) + tr.count (.dropped t) + 1 := by
  have B := reach_book h
  have L := reach_loc h
  by_cases ha : ∃ i, (s.pc i).admits = some t
  · obtain ⟨i, hi⟩ := ha
    have h1 := B.a1 t i hi
    have hnh : ∀ j, t ∉ s.heap j := fun j hj => L.hp t j i hj (Pc.task_of_admits hi)
    have h2 := B.s0 t hnh
    omega
  · have h1 := B.a0 t (by simpa using ha)
    by_cases hh : ∃ i, t ∈ s.heap i
    · obtain ⟨i, hi⟩ := hh
      have h2 := B.s1 t i hi
      omega
    · have h2 := B.s0 t (by simpa using hh)
      omega

/-- C55, second half, as long as nobody stops the runtime: nothing is thrown away. -/
theorem nothing_lost_before_stop_partial {n : Nat} {s : St} {tr : List Ev} (h : (machine n).Reaches s tr) (hb : ¬ StopBegan tr) (t : Nat) :
    Ev.ignored t ∉ tr ∧ Ev.dropped t ∉ tr ∧ Ev.refused t ∉ tr := by
  have F := reach_flags h
  have hno : s.tstop = false := by
    rcases Bool.eq_false_or_eq_true s.tstop with ht | ht
    · exfalso
      rcases F.t1 ht with h1 | h1
      · exact hb (Or.inl (by by_contra hc; have := F.st1.2 hc; omega))
      · exact hb (Or.inr (by by_contra hc; have := F.qt1.2 hc; omega))
    · exact ht
  refine ⟨fun hi => ?_, fun hd => hb (Or.inr (F.dr t hd)), fun hr => hb (Or.inl (F.rf t hr))⟩
  have := F.ig t hi
  rw [hno] at this; cases this

private theorem upd_upd {α : Type} (f : Nat → α) (i : Nat) (a b : α) : upd (upd f i a) i b = upd f i b := by
  funext j; simp only [upd_apply]; split <;> rfl
private theorem upd_self {α : Type} (f : Nat → α) (i : Nat) : upd f i (f i) = f := by
  funext j; simp only [upd_apply]; split <;> simp_all

private theorem live_flags {n : Nat} {s : St} {tr : List Ev} (h : (machine n).Reaches s tr) (hb : ¬ StopBegan tr) :
    s.tstop = false ∧ s.stopReq = false ∧ s.stopNow = false ∧ ∀ i, s.pc i ≠ .exited := by
  have F := reach_flags h
  have hno : s.tstop = false := by
    rcases Bool.eq_false_or_eq_true s.tstop with ht | ht
    · exfalso
      rcases F.t1 ht with h1 | h1
      · exact hb (Or.inl (by by_contra hc; have := F.st1.2 hc; omega))
      · exact hb (Or.inr (by by_contra hc; have := F.qt1.2 hc; omega))
    · exact ht
  have h2 : s.stopReq = false := by
    rcases Bool.eq_false_or_eq_true s.stopReq with ht | ht
    · have := F.sr ht; rw [hno] at this; cases this
    · exact ht
  have h3 : s.stopNow = false := by
    rcases Bool.eq_false_or_eq_true s.stopNow with ht | ht
    · have := F.qt2 (F.sn ht); rw [hno] at this; cases this
    · exact ht
  refine ⟨hno, h2, h3, fun i hi => ?_⟩
  have := F.ex i hi; rw [h2] at this; cases this

/-- a worker that is not stopped comes back to the top of its loop, with what it holds put away -/
private theorem to_top {n : Nat} (s : St) (i : Nat) (h1 : s.tstop = false) (h4 : s.pc i ≠ .exited) (h5 : i < n) (h6 : s.stopReq = false) :
    ∃ ls s' q, (machine n).runFrom s ls = some (s', q) ∧ s'.pc i = .top ∧ s'.tstop = false ∧ s'.stopReq = false ∧ s'.stopNow = s.stopNow ∧
      (∀ x, x ∈ s.heap i ∨ (s.pc i).admits = some x → x ∈ s'.heap i ∨ Ev.expired x ∈ q) ∧ ¬ StopBegan q := by
  cases hp : s.pc i with
  | top => exact ⟨[], s, [], rfl, hp, h1, h6, rfl, by simp [Pc.admits], by simp [StopBegan]⟩
  | poll =>
    refine ⟨[.poll i, .expire i [], .idle i], { s with pc := upd s.pc i .top }, [], ?_, ?_⟩
    · simp [Machine.runFrom, machine, step, hp, h1, upd_upd, upd_self]
    · simp [h1, h6, Pc.admits, StopBegan]
  | expiring =>
    refine ⟨[.expire i [], .idle i], { s with pc := upd s.pc i .top }, [], ?_, ?_⟩
    · simp [Machine.runFrom, machine, step, hp, upd_upd, upd_self]
    · simp [h1, h6, Pc.admits, StopBegan]
  | deq =>
    refine ⟨[.idle i], { s with pc := upd s.pc i .top }, [], ?_, ?_⟩
    · simp [Machine.runFrom, machine, step, hp, upd_upd, upd_self]
    · simp [h1, h6, Pc.admits, StopBegan]
  | run t =>
    refine ⟨[.finish i], { s with pc := upd s.pc i .top }, [.finished t], ?_, ?_⟩
    · simp [Machine.runFrom, machine, step, hp, upd_upd, upd_self]
    · simp [h1, h6, Pc.admits, StopBegan]
  | adding t =>
    refine ⟨[.add i, .insert i], { s with pc := upd s.pc i .top, heap := upd s.heap i (t :: s.heap i) }, [.slept t], ?_, ?_⟩
    · simp [Machine.runFrom, machine, step, hp, h1, upd_upd, upd_self]
    · simp [h1, h6, Pc.admits, StopBegan]; grind
  | inserting t =>
    refine ⟨[.insert i], { s with pc := upd s.pc i .top, heap := upd s.heap i (t :: s.heap i) }, [.slept t], ?_, ?_⟩
    · simp [Machine.runFrom, machine, step, hp, upd_upd, upd_self]
    · simp [h1, h6, Pc.admits, StopBegan]; grind
  | exited => exact absurd hp h4

/-- C55, second half, as long as nobody stops the runtime: an accepted task that has not been handed back yet can still be handed back, by the workers alone.

What is missing for the full property: stopping (see the refutations below). -/
theorem sleeper_wakes_partial {n : Nat} {s : St} {tr : List Ev} (h : (machine n).Reaches s tr) (hb : ¬ StopBegan tr) {t : Nat}
    (ht : tr.count (.expired t) < tr.count (.admitted t)) :
    ∃ ls s' q, (machine n).runFrom s ls = some (s', q) ∧ Ev.expired t ∈ q ∧ ¬ StopBegan q := by
  have B := reach_book h
  have L := reach_loc h
  obtain ⟨h1, h2, h3, h4⟩ := live_flags h hb
  obtain ⟨hni, hnd, _⟩ := nothing_lost_before_stop_partial h hb t
  have hi0 := List.count_eq_zero_of_not_mem hni
  have hd0 := List.count_eq_zero_of_not_mem hnd
  have hwhere : ∃ i, i < n ∧ (t ∈ s.heap i ∨ (s.pc i).admits = some t) := by
    by_contra hc
    push Not at hc
    have e1 : ∀ i, (s.pc i).admits ≠ some t := by
      intro i hi
      rcases Nat.lt_or_ge i n with hn | hn
      · exact (hc i hn).2 hi
      · rw [L.pb i hn] at hi; simp [Pc.admits] at hi
    have e2 : ∀ i, t ∉ s.heap i := by
      intro i hi
      rcases Nat.lt_or_ge i n with hn | hn
      · exact (hc i hn).1 hi
      · rw [L.hb i hn] at hi; simp at hi
    have := B.a0 t e1
    have := B.s0 t e2
    omega
  obtain ⟨i, hin, hi⟩ := hwhere
  obtain ⟨ls, s', q, hrun, htop, hts, hsr, hsn, hkeep, hnb⟩ := to_top (n := n) s i h1 (h4 i) hin h2
  rcases hkeep t hi with hmem | hex
  · refine ⟨ls ++ [.test i, .poll i, .expire i [t]],
      { s' with pc := upd s'.pc i .deq, queue := s'.queue ++ [t], heap := upd s'.heap i ((s'.heap i).filter (fun u => ![t].contains u)) }, q ++ [.expired t], ?_, by simp, ?_⟩
    · rw [Machine.runFrom_append, hrun]
      simp [Machine.runFrom, machine, step, htop, hin, hsr, hts, hsn, h3, hmem, upd_upd]
    · rintro (hx | hx) <;> simp at hx
      · exact hnb (Or.inl hx)
      · exact hnb (Or.inr hx)
  · exact ⟨ls, s', q, hrun, hex, hnb⟩

/-! ## Stopping loses tasks -/

/-- A sleeping task that no poll has in its hands, after the timer loop was stopped, stays where it is (or is dropped). -/
private def Lost (n t : Nat) (s : St) : Prop :=
  Loc n s ∧ s.tstop = true ∧ (∀ i, s.pc i ≠ .expiring) ∧ t ∉ s.queue ∧ (∀ i, (s.pc i).task ≠ some t) ∧ t < s.next

private theorem lost_step {n t : Nat} {s s' : St} {l : Lbl} {e : List Ev} (hl : Lost n t s) (hL : Loc n s') (hs : step n s l = some (s', e)) :
    Lost n t s' ∧ Ev.expired t ∉ e ∧ Ev.resumed t ∉ e := by
  obtain ⟨L, h1, h2, h3, h4, h5⟩ := hl
  refine ⟨⟨hL, ?_⟩, ?_⟩
  all_goals
    cases l <;> simp only [step] at hs <;> (repeat' split at hs) <;> simp only [Option.some.injEq, Prod.mk.injEq, reduceCtorEq] at hs <;> obtain ⟨rfl, rfl⟩ := hs
  all_goals (try simp only [upd_apply])
  all_goals first
    | (simp; done)
    | grind [Pc.task]

private theorem loc_step {n : Nat} {s s' : St} {l : Lbl} {e : List Ev} {tr : List Ev} (h : (machine n).Reaches s tr) (hs : (machine n).step s l = some (s', e)) :
    (machine n).Reaches s' (tr ++ e) := h.step hs

private theorem lost_run {n t : Nat} {ls : List Lbl} : ∀ {s s' : St} {tr q : List Ev}, (machine n).Reaches s tr → Lost n t s → (machine n).runFrom s ls = some (s', q) →
    Ev.expired t ∉ q ∧ Ev.resumed t ∉ q := by
  induction ls with
  | nil =>
    intro s s' tr q _ _ hr
    obtain ⟨rfl, rfl⟩ := by simpa [Machine.runFrom] using hr
    simp
  | cons l ls ih =>
    intro s s' tr q h hl hr
    simp only [Machine.runFrom] at hr
    cases h1 : (machine n).step s l with
    | none => simp [h1] at hr
    | some r =>
      obtain ⟨s1, e⟩ := r
      simp only [h1] at hr
      cases h2 : (machine n).runFrom s1 ls with
      | none => simp [h2] at hr
      | some r =>
        obtain ⟨s2, q2⟩ := r
        simp [h2] at hr
        obtain ⟨rfl, rfl⟩ := hr
        have hst := h.step h1
        have a := lost_step hl (reach_loc hst) h1
        have b := ih hst a.1 h2
        simp [a.2, b]

/-- Asleep: put into the heap more often than taken out of it. -/
def Asleep (tr : List Ev) (t : Nat) : Prop := tr.count (.expired t) + tr.count (.dropped t) < tr.count (.slept t)

/-- The second half is false once stop() or quick_stop() has reached the timer loop: a task that is asleep then (and not being expired at that very moment) is never handed back
and never runs again, although add_event accepted it. -/
theorem stop_loses_sleepers_refuted {n : Nat} {s : St} {tr : List Ev} (h : (machine n).Reaches s tr) (hst : Ev.timerStopped ∈ tr) (hne : ∀ i, s.pc i ≠ .expiring)
    {t : Nat} (ht : Asleep tr t) {ls : List Lbl} {s' : St} {q : List Ev} (hr : (machine n).runFrom s ls = some (s', q)) :
    Ev.expired t ∉ q ∧ Ev.resumed t ∉ q := by
  have B := reach_book h
  have L := reach_loc h
  have hin : ∃ i, t ∈ s.heap i := by
    by_contra hc
    have := B.s0 t (by simpa using hc)
    unfold Asleep at ht; omega
  obtain ⟨i, hi⟩ := hin
  exact lost_run h ⟨L, (reach_flags h).ts.2 hst, hne, fun hq => L.qh t i hq hi, fun j => L.hp t i j hi, L.fh t i hi⟩ hr

/-- Such a state is reachable with every number of workers but zero: the plain case, one task sleeping when stop() is called. -/
theorem stop_loses_a_sleeper_refuted (n : Nat) (hn : 0 < n) : ∃ s tr, (machine n).Reaches s tr ∧ Ev.slept 0 ∈ tr ∧ s.stopReq = true ∧ Ev.quickStopping ∉ tr ∧ Asleep tr 0 ∧
    ∀ ls s' q, (machine n).runFrom s ls = some (s', q) → Ev.expired 0 ∉ q ∧ Ev.resumed 0 ∉ q := by
  have hr : ∃ s, (machine n).Reaches s [.resumed 0, .admitted 0, .slept 0, .stopping, .timerStopped] ∧ s.stopReq = true ∧ (∀ i, s.pc i ≠ .expiring) := by
    refine ⟨{ init with next := 1, heap := upd (fun _ => []) 0 [0], pc := upd (fun _ => .top) 0 .top, cleaning := true, tstop := true, stopReq := true, stopStage := 3 },
      ⟨[.spawn, .test 0, .poll 0, .expire 0 [], .take 0 0, .sleep 0, .add 0, .insert 0, .stop, .stop, .stop], ?_⟩, ?_⟩
    · simp [Machine.run, Machine.runFrom, machine, step, init, hn, upd_upd]
    · simp [upd_apply]
  obtain ⟨s, h, h2, h3⟩ := hr
  have ha : Asleep [.resumed 0, .admitted 0, .slept 0, .stopping, .timerStopped] 0 := by simp [Asleep]
  exact ⟨s, _, h, by simp, h2, by simp, ha, fun ls s' q hq => stop_loses_sleepers_refuted h (by simp) h3 ha hq⟩

/-- quick_stop() does not set the flag that makes add_event throw: from then on every task that goes to sleep is let through and destroyed without an error. -/
theorem add_after_quick_stop_refuted {n : Nat} {s : St} {tr : List Ev} (h : (machine n).Reaches s tr) (hq : Ev.timerStopped ∈ tr) (hst : Ev.stopping ∉ tr) {i t : Nat}
    (hp : s.pc i = .run t) : ∃ s', (machine n).runFrom s [.sleep i, .add i] = some (s', [.admitted t, .ignored t]) := by
  have F := reach_flags h
  have hc : s.cleaning = false := by
    rcases Bool.eq_false_or_eq_true s.cleaning with hx | hx
    · exact absurd (F.cl.1 hx) hst
    · exact hx
  refine ⟨{ s with pc := upd s.pc i .top }, ?_⟩
  simp [Machine.runFrom, machine, step, hp, hc, F.ts.2 hq, upd_upd]

/-- ... and such a state is reachable. -/
example : ∃ s tr, (machine 1).Reaches s tr ∧ Ev.timerStopped ∈ tr ∧ Ev.stopping ∉ tr ∧ s.pc 0 = .run 0 :=
  ⟨_, _, ⟨[.spawn, .test 0, .poll 0, .expire 0 [], .take 0 0, .quickStop, .quickStop, .quickStop, .quickStop], rfl⟩, by simp, by simp, rfl⟩

/-- Also with stop() alone: an add_event that has passed the flag just before stop() loses its task without an error. -/
theorem add_races_stop_refuted : ∃ s tr, (machine 1).Reaches s tr ∧ Ev.admitted 0 ∈ tr ∧ Ev.ignored 0 ∈ tr ∧ Ev.refused 0 ∉ tr ∧ Ev.quickStopping ∉ tr :=
  ⟨_, _, ⟨[.spawn, .test 0, .poll 0, .expire 0 [], .take 0 0, .sleep 0, .stop, .stop, .stop, .add 0], rfl⟩, by simp, by simp, by simp, by simp⟩

/-- Non-vacuity: two workers, two tasks sleeping, one of them handed back and run again, then stop() and a task whose add_event throws. -/
example : ∃ s, (machine 2).Reaches s [.resumed 0, .resumed 1, .admitted 0, .admitted 1, .slept 0, .slept 1, .expired 0, .resumed 0, .stopping, .refused 0] ∧ s.heap 1 = [1] :=
  ⟨_, ⟨[.spawn, .spawn, .test 0, .test 1, .poll 0, .poll 1, .expire 0 [], .expire 1 [], .take 0 0, .take 1 1, .sleep 0, .sleep 1, .add 0, .add 1, .insert 0, .insert 1,
    .test 0, .poll 0, .expire 0 [0], .take 0 0, .stop, .sleep 0], rfl⟩, rfl⟩

/-! ## Before stopping a task can give way and is run again; a worker leaves a plain stop() only with the queue drained -/

/-- As long as nobody stops the runtime a running task can go back to the queue, and the worker can run it again. -/
theorem yield_resumes {n : Nat} {s : St} {tr : List Ev} (h : (machine n).Reaches s tr) (hb : ¬ StopBegan tr) {i t : Nat} (hi : i < n) (hp : s.pc i = .run t) :
    ∃ s', (machine n).runFrom s [.yield i, .test i, .poll i, .expire i [], .take i t] = some (s', [.resumed t]) ∧ s'.pc i = .run t := by
  obtain ⟨h1, h2, h3, _⟩ := live_flags h hb
  refine ⟨{ s with pc := upd s.pc i (.run t), queue := (s.queue ++ [t]).erase t }, ?_, by simp⟩
  simp [Machine.runFrom, machine, step, hp, hi, h1, h2, h3, upd_upd, upd_self]

private theorem count_due {due : List Nat} (hd : due.Nodup) (t : Nat) : (due.map Ev.expired).count (.expired t) = due.count t ∧ (due.map Ev.expired).count (.resumed t) = 0 := by
  constructor
  · induction due with
    | nil => simp
    | cons a l ih => simp only [List.map_cons, List.count_cons]; rw [ih hd.of_cons]; simp
  · exact List.count_eq_zero_of_not_mem (by simp)

private theorem queue_book {n : Nat} {s : St} {tr : List Ev} (h : (machine n).Reaches s tr) : ∀ t, tr.count (.expired t) ≤ tr.count (.resumed t) + s.queue.count t := by
  refine Machine.Reaches.inv (I := fun s tr => ∀ t, tr.count (.expired t) ≤ tr.count (.resumed t) + s.queue.count t) ?_ ?_ h
  · intro t; simp
  · intro s tr l s' e I hs t
    have It := I t
    change step n s l = some (s', e) at hs
    cases l <;> simp only [step] at hs <;> (repeat' split at hs) <;> simp only [Option.some.injEq, Prod.mk.injEq, reduceCtorEq] at hs <;> obtain ⟨rfl, rfl⟩ := hs
    case refine_2.expire.isTrue i due hc =>
      obtain ⟨a, b⟩ := count_due hc.2.1 t
      simp only [List.count_append, a, b]; omega
    case refine_2.take.isTrue i u hc =>
      have hpos := List.count_pos_iff.2 hc.2
      simp only [List.count_append, List.count_erase, List.count_cons, List.count_nil]
      by_cases hu : u = t
      · subst hu; simp; omega
      · have : (Ev.resumed u == Ev.resumed t) = false := by simpa using hu
        simp [hu]; omega
    all_goals (try simp only [List.count_append, List.count_cons, List.count_nil, List.append_nil])
    all_goals first
      | omega
      | (simp; omega)
      | skip
    all_goals
      have a : ((List.flatMap s.heap (List.range n)).map Ev.dropped).count (.expired t) = 0 := List.count_eq_zero_of_not_mem (by simp)
      simp [a]; omega

/-- With stop() alone, a worker leaves only after stop() was called and with everything the timer handed back having been run (at least once more). -/
theorem worker_exits_drained {n : Nat} {s : St} {tr : List Ev} (h : (machine n).Reaches s tr) {p q : List Ev} {i : Nat} (hp : tr = p ++ Ev.workerExited i :: q)
    (hq : Ev.quickStopping ∉ p) : Ev.stopping ∈ p ∧ Ev.timerStopped ∈ p ∧ ∀ t, p.count (.expired t) ≤ p.count (.resumed t) := by
  obtain ⟨s1, tr1, l, s2, e, q', hr, hs, hqe, hpre⟩ := h.at_event (pre := p) (x := Ev.workerExited i) (post := q) hp
  have F := reach_flags hr
  have Q := queue_book hr
  change step n s1 l = some (s2, e) at hs
  have hm := hqe.subset (List.mem_append_right q' (List.mem_singleton.2 rfl))
  have hl := hqe.length_le
  cases l <;> simp only [step] at hs <;> (repeat' split at hs) <;> simp only [Option.some.injEq, Prod.mk.injEq, reduceCtorEq] at hs <;> obtain ⟨rfl, rfl⟩ := hs
  all_goals first
    | (simp at hm; done)
    | skip
  rename_i hc
  have hq' : q' = [] := by
    cases q' with
    | nil => rfl
    | cons a b => simp at hl
  subst hq'
  simp at hpre
  subst hpre
  have hqs : s1.quickStage = 0 := by
    by_contra hx
    exact hq (by by_contra hy; exact hx (F.qt1.2 hy))
  have hsn : s1.stopNow = false := by
    rcases Bool.eq_false_or_eq_true s1.stopNow with hx | hx
    · have := F.sn hx; omega
    · exact hx
  have ht := F.sr hc.1
  have hqe : s1.queue = [] := by rcases hc.2 with hx | hx; (rw [hsn] at hx; cases hx); exact hx
  refine ⟨?_, F.ts.1 ht, fun t => by have := Q t; rw [hqe] at this; simpa using this⟩
  by_contra hx
  rcases F.t1 ht with h1 | h1
  · have := F.st1.2 hx; omega
  · omega

/-- Non-vacuity: a task slept, was handed back, stop() was called, and the worker ran the task before leaving. -/
example : ∃ s, (machine 1).Reaches s [.resumed 0, .admitted 0, .slept 0, .expired 0, .stopping, .timerStopped, .resumed 0, .finished 0, .workerExited 0] :=
  ⟨_, ⟨[.spawn, .test 0, .poll 0, .expire 0 [], .take 0 0, .sleep 0, .add 0, .insert 0, .test 0, .poll 0, .expire 0 [0], .stop, .stop, .stop, .take 0 0, .finish 0, .test 0], rfl⟩⟩

end Verif.EvLoop
