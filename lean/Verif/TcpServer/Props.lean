import Verif.TcpServer.Inv
/-!
# C53, C69, C70, C71
-/

namespace Verif.TcpServer

/-- **C53, proved part.**  is_stop() answers true only after stop() and when every accept loop that has begun is over. -/
theorem is_stop_partial (n : Nat) (s : St) (tr : List Ev) (h : (machine n).Reaches s tr) (p q : List Ev) (u : Nat) (hx : tr = p ++ .isStop u true :: q) :
    Ev.stopCalled ∈ p ∧ ∀ i, Ev.began i ∈ p → Ev.left i ∈ p := by
  obtain ⟨s1, l, s2, hr, hub, hs⟩ := at_ev h hx (by simp)
  have hi := (reach_both hr hub).1
  have h2 := reach_stop2 hr hub
  cases l <;> simp only [stepLive] at hs <;> (repeat' split at hs) <;>
    simp only [Option.some.injEq, Prod.mk.injEq, reduceCtorEq, List.cons.injEq, Ev.isStop.injEq, and_true, and_false, List.nil_eq, decide_eq_true_eq] at hs
  rename_i hp
  exact ⟨hi.stop.1 (h2 _ hp), fun i hb => count_zero hi hs.2.2 i hb⟩

/-- **C53, proved part.**  Suppose every accept loop began before the first stop(), and all have begun when until_done returns.  Then at that time all of them are over (and stop() was
called, if there are any). -/
theorem until_done_partial (n : Nat) (s : St) (tr : List Ev) (h : (machine n).Reaches s tr) (p q : List Ev) (u : Nat) (hx : tr = p ++ .untilReturned u :: q)
    (hbegan : AllBegan n p) (hstop : ∀ a b, p = a ++ .stopCalled :: b → AllBegan n a) :
    AllLeft n p ∧ (0 < n → Ev.stopCalled ∈ p) := by
  obtain ⟨s1, l, s2, hr, hub, hs⟩ := at_ev h hx (by simp)
  obtain ⟨hi, hsi⟩ := reach_both hr hub
  have h0 : s1.count = 0 := by
    cases l <;> simp only [stepLive] at hs <;> (repeat' split at hs) <;>
      simp only [Option.some.injEq, Prod.mk.injEq, reduceCtorEq, List.cons.injEq, Ev.untilReturned.injEq, and_true, and_false, List.nil_eq] at hs
    · rename_i hc; exact hsi.drain hstop _ hc.1
    · assumption
    · assumption
  have hall : AllLeft n p := fun i hi' => count_zero hi h0 i (hbegan i hi')
  refine ⟨hall, fun hn => hi.stop.1 (hi.leaving 0 (Or.inr ((hi.left 0).1 (hall 0 hn))))⟩

/-- **C53, refuted.**  until_done_async() returns at once, although the server has been started, never stopped, and goes on to accept connections: accept loops enter the wait group
only when they begin to run.  Likewise is_stop() answers true before a loop has begun. -/
theorem until_done_refuted :
    (∃ s, (machine 1).Reaches s [.startCalled, .launched 0, .startReturned, .untilCalled 7, .untilReturned 7, .began 0, .acceptBegan 0, .connected 0, .called 0]) ∧
    ∃ s, (machine 2).Reaches s [.startCalled, .launched 0, .launched 1, .startReturned, .stopCalled, .began 0, .left 0, .isStop 7 true, .began 1] :=
  ⟨⟨_, [.start true, .launch, .launch, .untilDone 7, .read 7, .begin 0, .test 0, .submit 0, .accepted 0 .client, .callback 0], rfl⟩,
   ⟨_, [.start true, .launch, .launch, .launch, .stop, .begin 0, .test 0, .leave 0, .isStop 7, .read 7, .begin 1], rfl⟩⟩

/-- **C53, refuted.**  A waiting until_done_async() may be woken while a loop runs that began after another one had left. -/
theorem until_done_early_refuted :
    ∃ s, (machine 2).Reaches s [.startCalled, .launched 0, .launched 1, .startReturned, .began 0, .stopCalled, .left 0, .began 1, .untilCalled 7, .untilReturned 7] ∧ s.loop 1 = .testing :=
  ⟨_, ⟨[.start true, .launch, .launch, .launch, .begin 0, .stop, .test 0, .leave 0, .begin 1, .untilDone 7, .read 7, .read 7, .enqueue 7, .wake 0 7], rfl⟩, rfl⟩

/-- nothing left can wake u -/
def Stuck (u : Nat) (s : St) : Prop := s.spc = .started ∧ (∀ i, s.loop i = .absent ∨ s.loop i = .gone) ∧ s.cpc u = .queued

theorem stuck_step {n u : Nat} {s : St} {l : Lbl} {s' : St} {e : List Ev} (h : Stuck u s) (hs : step n s l = some (s', e)) :
    (s'.ub = true ∨ Stuck u s') ∧ .untilReturned u ∉ e := by
  rcases (step_cases hs).2 with ⟨h1, -⟩ | ⟨rfl, h1, -⟩
  · obtain ⟨hsp, hl, hc⟩ := h
    unfold Stuck
    cases l <;> simp only [stepLive] at h1 <;> (repeat' split at h1) <;>
      simp only [Option.some.injEq, Prod.mk.injEq, reduceCtorEq] at h1 <;> obtain ⟨rfl, rfl⟩ := h1 <;> (try simp only [upd_apply]) <;> grind
  · exact ⟨Or.inl h1, by simp⟩

/-- **C53, refuted.**  until_done_async() may hang for ever although stop() was called and all loops are over: the wake-up is lost between its look at the counter and its suspension. -/
theorem until_done_hangs_refuted :
    ∃ s, (machine 1).Reaches s [.startCalled, .launched 0, .startReturned, .began 0, .untilCalled 7, .stopCalled, .left 0] ∧
      ∀ ls s' e, (machine 1).runFrom s ls = some (s', e) → Ev.untilReturned 7 ∉ e := by
  refine ⟨_, ⟨[.start true, .launch, .launch, .begin 0, .untilDone 7, .read 7, .stop, .test 0, .leave 0, .drained 0, .enqueue 7], rfl⟩, ?_⟩
  intro ls s' e hrun
  have key := Machine.runFrom_inv (machine 1) (fun s tr => (s.ub = true ∨ Stuck 7 s) ∧ Ev.untilReturned 7 ∉ tr) ?_ ls _ [] s' e ⟨Or.inr ?_, by simp⟩ hrun
  · simpa using key.2
  · rintro s tr l s' e ⟨hS, hn⟩ hs
    rcases hS with hub | hS
    · simp [machine, step, hub] at hs
    · obtain ⟨h1, h2⟩ := stuck_step hS hs
      exact ⟨h1, by simp [hn, h2]⟩
  · refine ⟨rfl, fun i => ?_, rfl⟩
    simp only [init, machine, upd_apply]
    by_cases hi : i = 0 <;> simp [hi]

/-- **C69, proved part.**  The callback is started at most once for a connection, only for a connection that the kernel accepted, and every connection delivered to a loop gets it: it
has been started or the loop that has the connection can start it now. -/
theorem connection_callback_partial (n : Nat) (s : St) (tr : List Ev) (h : (machine n).Reaches s tr) (hub : s.ub = false) (c : Nat) :
    tr.count (.called c) ≤ 1 ∧ (Ev.called c ∈ tr → Ev.connected c ∈ tr) ∧
    (Ev.connected c ∈ tr → Ev.called c ∈ tr ∨ ∃ l s', (machine n).step s l = some (s', [.called c])) := by
  have hc := reach_cinv h hub
  refine ⟨hc.once c, hc.conn c, fun hx => ?_⟩
  rcases hc.held c hx with h1 | ⟨i, hi⟩
  · exact Or.inl h1
  · refine Or.inr ⟨.callback i, { s with loop := upd s.loop i .testing }, ?_⟩
    simp [machine, step, hub, touches, stepLive, hi]

/-- **C69, refuted.**  Whenever the completion of the accept's time-out overtakes that of the accept (see `Verif.OpBatch.single_result_lost_refuted`), the accepted connection never
gets a callback (and its descriptor is lost). -/
theorem connection_overtaken_refuted (n : Nat) (s : St) (tr : List Ev) (h : (machine n).Reaches s tr) (hub : s.ub = false) (c : Nat) (hx : Ev.overtaken c ∈ tr) :
    Accepted c tr ∧ Ev.called c ∉ tr := by
  have hc := reach_cinv h hub
  exact ⟨Or.inr hx, fun hm => hc.excl c hx (hc.conn c hm)⟩

example : ∃ s, (machine 1).Reaches s [.startCalled, .launched 0, .startReturned, .began 0, .acceptBegan 0, .overtaken 0, .acceptBegan 0, .connected 1, .called 1] ∧ s.ub = false :=
  ⟨_, ⟨[.start true, .launch, .launch, .begin 0, .test 0, .submit 0, .accepted 0 .overtaken, .test 0, .submit 0, .accepted 0 .client, .callback 0], rfl⟩, rfl⟩

/-- **C70, refuted.**  start(), stop(), until_done, then destroying the server: a loop that begins afterwards uses the destroyed object.  The same happens when all loops had begun in
time: the last one is still waking up callers when until_done returns. -/
theorem destroy_after_until_done_refuted :
    (∃ s, (machine 1).Reaches s [.startCalled, .launched 0, .startReturned, .stopCalled, .untilCalled 7, .untilReturned 7, .destroyed, .undefined]) ∧
    ∃ s, (machine 1).Reaches s [.startCalled, .launched 0, .startReturned, .began 0, .acceptBegan 0, .stopCalled, .left 0, .untilCalled 7, .untilReturned 7, .destroyed, .undefined] :=
  ⟨⟨_, [.start true, .launch, .launch, .stop, .untilDone 7, .read 7, .destroy, .begin 0], rfl⟩,
   ⟨_, [.start true, .launch, .launch, .begin 0, .test 0, .submit 0, .stop, .accepted 0 .timeout, .test 0, .leave 0, .untilDone 7, .read 7, .destroy, .drained 0], rfl⟩⟩

/-- calls made by the user -/
def isCall : Lbl → Bool
  | .start _ | .stop | .isStop _ | .untilDone _ | .destroy => true
  | _ => false

/-- **C70, proved part.**  A server may be destroyed when start() is over, no caller is inside a member function, and all its loops have run to their very end; nothing then uses
the object unless the user calls it again. -/
theorem destroy_safe_partial (n : Nat) (s : St) (tr : List Ev) (_h : (machine n).Reaches s tr) (hsp : ∀ k, s.spc ≠ .launching k)
    (hl : ∀ i, s.loop i = .absent ∨ s.loop i = .gone) (hc : ∀ u, s.cpc u = .idle) (ls : List Lbl) (hls : ∀ l ∈ ls, isCall l = false) (s' : St) (e : List Ev)
    (hrun : (machine n).runFrom s (.destroy :: ls) = some (s', e)) : e = [.destroyed] := by
  have hno : ∀ l, isCall l = false → ∀ t : St, t.spc = s.spc → t.loop = s.loop → t.cpc = s.cpc → (machine n).step t l = none := by
    intro l hcall t h1 h2 h3
    have hlive : stepLive n t l = none := by
      cases l <;> simp only [isCall, Bool.true_eq_false] at hcall <;> simp only [stepLive, h1, h2, h3]
      case callback i => rcases hl i with h | h <;> simp [h]
      case read u => simp [hc u]
      case enqueue u => simp [hc u]
      case wake i u => rcases hl i with h | h <;> simp [h]
      case accepted i r => rcases hl i with h | h <;> simp [h]
      all_goals first
        | (rename_i i; rcases hl i with h | h <;> simp [h]; done)
        | (split <;> simp_all; done)
    simp only [machine, step, hlive]
    split <;> [rfl; split <;> [rfl; split <;> [rfl; split <;> rfl]]]
  cases ls with
  | nil =>
    simp only [Machine.runFrom] at hrun
    cases h1 : (machine n).step s .destroy with
    | none => rw [h1] at hrun; simp at hrun
    | some r =>
      rw [h1] at hrun; simp at hrun
      rcases (step_cases h1).2 with ⟨h2, -⟩ | ⟨-, -, -, h2⟩
      · simp only [stepLive, Option.some.injEq, Prod.mk.injEq] at h2
        rw [← hrun.2, ← h2.2]
      · simp [touches] at h2
  | cons l ls =>
    simp only [Machine.runFrom] at hrun
    cases h1 : (machine n).step s .destroy with
    | none => rw [h1] at hrun; simp at hrun
    | some r =>
      rw [h1] at hrun
      have h2 : (machine n).step r.1 l = none := by
        rcases (step_cases h1).2 with ⟨h2, -⟩ | ⟨-, -, -, h2⟩
        · simp only [stepLive, Option.some.injEq, Prod.mk.injEq] at h2
          rw [← h2.1]
          exact hno l (hls l (by simp)) _ rfl rfl rfl
        · simp [touches] at h2
      simp [h2] at hrun

example : ∃ s, (machine 2).Reaches s [.startCalled, .launched 0, .launched 1, .startReturned, .began 1, .began 0, .stopCalled, .left 0, .untilCalled 7, .left 1, .untilReturned 7] ∧
    (s.loop 0 = .gone ∧ s.loop 1 = .gone ∧ s.cpc 7 = .idle) :=
  ⟨_, ⟨[.start true, .launch, .launch, .launch, .begin 1, .begin 0, .stop, .test 0, .leave 0, .untilDone 7, .read 7, .read 7, .enqueue 7, .test 1, .leave 1, .wake 1 7, .drained 1], rfl⟩,
    rfl, rfl, rfl⟩

/-- **C71.**  An accept loop ends only after stop(): no time-out or error of an accept ends it. -/
theorem loop_leaves_only_after_stop (n : Nat) (s : St) (tr : List Ev) (h : (machine n).Reaches s tr) (p q : List Ev) (i : Nat) (hx : tr = p ++ .left i :: q) :
    Ev.stopCalled ∈ p ∧ Ev.began i ∈ p := by
  obtain ⟨s1, l, s2, hr, hub, hs⟩ := at_ev h hx (by simp)
  have hi := (reach_both hr hub).1
  cases l <;> simp only [stepLive] at hs <;> (repeat' split at hs) <;>
    simp only [Option.some.injEq, Prod.mk.injEq, reduceCtorEq, List.cons.injEq, Ev.left.injEq, and_true, and_false, List.nil_eq] at hs
  all_goals
    rename_i hc _
    obtain ⟨-, rfl⟩ := hs
    exact ⟨hi.stop.1 (hi.leaving _ (Or.inl hc)), (hi.began _).2 (by rw [hc]; rfl)⟩

/-- **C71.**  After stop() each loop submits at most one more accept. -/
theorem accepts_after_stop (n : Nat) (s : St) (tr : List Ev) (h : (machine n).Reaches s tr) (p q : List Ev) (hx : tr = p ++ .stopCalled :: q) (i : Nat) :
    q.countP (isAccept i) ≤ 1 := by
  rcases Bool.eq_false_or_eq_true s.ub with hub | hub
  · obtain ⟨s1, tr1, h1, h2, h3⟩ := reach_before_ub h hub
    rw [h3] at hx
    rcases append_singleton_split hx with ⟨-, hx, -⟩ | ⟨b, rfl, hb⟩
    · simp at hx
    · have := (reach_both h1 h2).2.accs p b hb i
      simp only [List.countP_append, List.countP_singleton, isAccept]
      simp; omega
  · have := (reach_both h hub).2.accs p q hx i
    omega

/-- **C71.**  A loop never gets stuck: as long as it is not over it can go on, whatever the accept's result. -/
theorem loop_progress (n : Nat) (s : St) (tr : List Ev) (h : (machine n).Reaches s tr) (hub : s.ub = false) (i : Nat) (h1 : Ev.launched i ∈ tr) (h2 : Ev.left i ∉ tr) (r : AcceptRes) :
    ∃ l s' e, (l = .begin i ∨ l = .test i ∨ l = .submit i ∨ l = .accepted i r ∨ l = .callback i ∨ l = .leave i) ∧ (machine n).step s l = some (s', e) := by
  have hi := (reach_both h hub).1
  have hex : (s.loop i).exists_ = true := by
    rw [hi.ex]
    have hla := hi.la i
    have hpos : 0 < tr.count (.launched i) := List.count_pos_iff.2 h1
    by_contra hn
    rw [decide_eq_false hn] at hla
    simp only [Bool.toNat_false] at hla
    omega
  have hov : (s.loop i).over = false := by
    cases ho : (s.loop i).over with
    | false => rfl
    | true => exact absurd ((hi.left i).2 ho) h2
  have hstep : ∀ l, l ≠ .destroy → ∀ x, stepLive n s l = some x → ∃ s' e, (machine n).step s l = some (s', e) := by
    intro l hl x hx
    simp only [machine, step, hub, Bool.false_eq_true, if_false, if_neg hl]
    split
    · exact ⟨_, _, hx⟩
    · split
      · rw [hx]; exact ⟨_, _, rfl⟩
      · exact ⟨_, _, hx⟩
  cases hp : s.loop i with
  | absent => rw [hp] at hex; cases hex
  | queued => obtain ⟨s', e, hs⟩ := hstep (.begin i) (by simp) _ (by simp only [stepLive, hp, if_true]; rfl); exact ⟨_, s', e, by simp, hs⟩
  | testing =>
    cases hst : s.stop with
    | true => obtain ⟨s', e, hs⟩ := hstep (.test i) (by simp) _ (by simp only [stepLive, hp, hst, if_true]; rfl); exact ⟨_, s', e, by simp, hs⟩
    | false => obtain ⟨s', e, hs⟩ := hstep (.test i) (by simp) _ (by simp only [stepLive, hp, hst, if_true, Bool.false_eq_true, if_false]; rfl); exact ⟨_, s', e, by simp, hs⟩
  | ready => obtain ⟨s', e, hs⟩ := hstep (.submit i) (by simp) _ (by simp only [stepLive, hp, if_true]; rfl); exact ⟨_, s', e, by simp, hs⟩
  | accepting =>
    have hx : ∃ x, stepLive n s (.accepted i r) = some x := by cases r <;> simp [stepLive, hp]
    obtain ⟨x, hx⟩ := hx
    obtain ⟨s', e, hs⟩ := hstep (.accepted i r) (by simp) x hx
    exact ⟨_, s', e, by simp, hs⟩
  | holding c => obtain ⟨s', e, hs⟩ := hstep (.callback i) (by simp) _ (by simp only [stepLive, hp]; rfl); exact ⟨_, s', e, by simp, hs⟩
  | leaving =>
    by_cases hc : s.count = 1
    · obtain ⟨s', e, hs⟩ := hstep (.leave i) (by simp) _ (by simp only [stepLive, hp, hc, if_true]; rfl); exact ⟨_, s', e, by simp, hs⟩
    · obtain ⟨s', e, hs⟩ := hstep (.leave i) (by simp) _ (by simp only [stepLive, hp, hc, if_true, if_false]; rfl); exact ⟨_, s', e, by simp, hs⟩
  | draining => rw [hp] at hov; cases hov
  | gone => rw [hp] at hov; cases hov

/-- **C71.**  When start() has returned, exactly one accept loop was handed to each worker; each runs once; if start() fails there are none. -/
theorem start_launches_each_once (n : Nat) (s : St) (tr : List Ev) (h : (machine n).Reaches s tr) (hub : s.ub = false) (i : Nat) :
    tr.count (.launched i) ≤ 1 ∧ (Ev.launched i ∈ tr → i < n ∧ Ev.startCalled ∈ tr) ∧ tr.count (.began i) ≤ tr.count (.launched i) ∧
    (Ev.startReturned ∈ tr → i < n → Ev.launched i ∈ tr) := by
  have hi := (reach_both h hub).1
  have hla := hi.la i
  have hsp := hi.sp
  refine ⟨?_, fun hm => ⟨?_, ?_⟩, ?_, fun hf hlt => ?_⟩
  · rw [hla]; exact Bool.toNat_le _
  · have hpos : 0 < tr.count (.launched i) := List.count_pos_iff.2 hm
    by_contra hn
    rw [hla, decide_eq_false (by omega)] at hpos
    simp at hpos
  · exact reach_started h hub (fun hc => by
      have hpos : 0 < tr.count (.launched i) := List.count_pos_iff.2 hm
      rcases hc with hc | hc <;> (rw [hla, hc] at hpos; simp [SPc.launched] at hpos))
  · rw [hla, hi.uniq]
    cases hb : (s.loop i).begun with
    | false => simp
    | true =>
      have := (hi.ex i).1 (by cases h : s.loop i <;> simp [h, LPc.begun, LPc.exists_] at hb ⊢)
      rw [decide_eq_true this]; simp
  · have hst := hi.fin.2 hf
    rw [← List.count_pos_iff, hla, hst]
    simp [SPc.launched, hlt]

end Verif.TcpServer
