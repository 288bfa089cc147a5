import Verif.Block.Model
import Verif.Common.AtEvent
/-!
# C83: releasing a dir_mutex returns, after the lock file was deleted
-/

namespace Verif.Block
open Machine

variable {W : Nat}

structure Inv (W : Nat) (s : St) (tr : List Ev) : Prop where
  fresh : ∀ d, s.next ≤ d → s.del d = .none ∧ s.out d = false
  old : ∀ d, d < s.next → s.del d ≠ .none
  ring : ∀ d w, s.del d = .inFlight w ∨ s.del d = .completed w → w < W ∧ ∀ d', s.wk w = .blocked d' → d < d'
  deleted : ∀ d, (∃ w, s.del d = .completed w) ∨ s.del d = .woken ∨ s.del d = .done → .deleted d ∈ tr
  outLt : ∀ d, .calledOutside d ∈ tr → d < s.next
  outRet : ∀ d, .calledOutside d ∈ tr → s.out d = true ∨ .returned d ∈ tr
  blk : ∀ w d, s.wk w = .blocked d → .calledByTask w d ∈ tr ∧ d < s.next ∧ w < W ∧ s.out d = false ∧ .returned d ∉ tr
  uniq : ∀ w w' d, s.wk w = .blocked d → s.wk w' = .blocked d → w = w'
  byTask : ∀ w d, .calledByTask w d ∈ tr → s.wk w = .blocked d ∨ .returned d ∈ tr
  retLt : ∀ d, .returned d ∈ tr → d < s.next
  taskLt : ∀ w d, .calledByTask w d ∈ tr → d < s.next

local macro "evs" : tactic => `(tactic| try simp only [upd_apply, List.mem_append, List.mem_cons, List.not_mem_nil, or_false,
  Ev.calledByTask.injEq, Ev.calledOutside.injEq, Ev.deleted.injEq, Ev.returned.injEq, reduceCtorEq, List.append_nil])

theorem inv_step {s s' : St} {tr e : List Ev} {l : Lbl} (h : Inv W s tr) (hs : step W s l = some (s', e)) : Inv W s' (tr ++ e) := by
  obtain ⟨i1, i2, i3, i4, i5, i6, i7, i8, i9, i10, i11⟩ := h
  cases l <;> simp only [step] at hs <;> (repeat' split at hs) <;>
    simp only [Option.some.injEq, Prod.mk.injEq, reduceCtorEq] at hs <;> obtain ⟨rfl, rfl⟩ := hs <;>
    constructor <;> evs <;> grind

theorem inv {s : St} {tr : List Ev} (h : (machine W).Reaches s tr) : Inv W s tr := by
  refine Reaches.inv (Inv W) ?_ (fun s tr l s' e hi hs => inv_step hi hs) h
  constructor <;> simp [machine, init]

theorem called_inv {s : St} {tr : List Ev} (h : (machine W).Reaches s tr) :
    (∀ d, s.out d = true → .calledOutside d ∈ tr) ∧ (∀ w d, s.wk w = .blocked d → .calledByTask w d ∈ tr) := by
  refine Machine.Reaches.inv (I := fun s tr => (∀ d, s.out d = true → Ev.calledOutside d ∈ tr) ∧ (∀ w d, s.wk w = .blocked d → Ev.calledByTask w d ∈ tr)) ?_ ?_ h
  · simp [machine, init]
  · rintro s tr l s' e ⟨i1, i2⟩ hs
    change step W s l = some (s', e) at hs
    cases l <;> simp only [step] at hs <;> (repeat' split at hs) <;> simp only [Option.some.injEq, Prod.mk.injEq, reduceCtorEq] at hs <;> obtain ⟨rfl, rfl⟩ := hs
    all_goals constructor <;> (try simp only [upd_apply, List.mem_append, List.mem_singleton, List.append_nil]) <;> grind

/-- unlock() returns only to somebody who called it. -/
theorem returned_called {s : St} {tr a b : List Ev} (h : (machine W).Reaches s tr) {d : Nat} (ht : tr = a ++ .returned d :: b) : Called d a := by
  obtain ⟨s1, tr1, l, s2, e, q', hr, hs, hqe, hpre⟩ := h.at_event ht
  obtain ⟨i1, i2⟩ := called_inv hr
  change step W s1 l = some (s2, e) at hs
  have hm := hqe.subset (List.mem_append_right q' (List.mem_singleton.2 rfl))
  subst hpre
  cases l <;> simp only [step] at hs <;> (repeat' split at hs) <;> simp only [Option.some.injEq, Prod.mk.injEq, reduceCtorEq] at hs <;> obtain ⟨rfl, rfl⟩ := hs
  all_goals simp at hm
  · rename_i w _ d' hb _
    subst hm
    exact Or.inr ⟨w, List.mem_append_left _ (i2 _ _ hb)⟩
  · rename_i d' hb
    subst hm
    exact Or.inl (List.mem_append_left _ (i1 _ hb.1))

/-- unlock() does not return before the lock file was deleted. -/
theorem returned_deleted {s : St} {tr a b : List Ev} (h : (machine W).Reaches s tr) {d : Nat} (ht : tr = a ++ .returned d :: b) :
    .deleted d ∈ a := by
  obtain ⟨s1, l, s2, hr, hs⟩ := h.at_event_single (by
    intro s l s' e hs
    simp only [machine] at hs
    cases l <;> simp only [step] at hs <;> (repeat' split at hs) <;>
      simp only [Option.some.injEq, Prod.mk.injEq, reduceCtorEq] at hs <;> obtain ⟨rfl, rfl⟩ := hs <;> simp) ht
  have hi := inv hr
  simp only [machine] at hs
  cases l <;> simp only [step] at hs <;> (repeat' split at hs) <;>
    simp only [Option.some.injEq, Prod.mk.injEq, reduceCtorEq, List.cons.injEq, Ev.returned.injEq, and_true, and_false, List.nil_eq,
      List.cons_ne_nil] at hs
  · obtain ⟨-, rfl⟩ := hs
    exact hi.deleted _ (.inr (.inr (by grind)))
  · obtain ⟨-, rfl⟩ := hs
    exact hi.deleted _ (.inr (.inr (by grind)))

/-- What does not change while others finish. -/
structure Same (s s' : St) : Prop where
  next : s'.next = s.next
  out : s'.out = s.out
  blk : ∀ w d, s.wk w = .blocked d ↔ s'.wk w = .blocked d

theorem Same.refl (s : St) : Same s s := ⟨rfl, rfl, fun _ _ => Iff.rfl⟩

theorem Same.trans {a b c : St} (h : Same a b) (h' : Same b c) : Same a c :=
  ⟨h'.next.trans h.next, h'.out.trans h.out, fun w d => (h.blk w d).trans (h'.blk w d)⟩

/-- A run that only lets others finish. -/
def Helps (W : Nat) (s s' : St) : Prop := ∃ ls tr, (machine W).runFrom s ls = some (s', tr) ∧ Same s s'

theorem Helps.trans {a b c : St} (h : Helps W a b) (h' : Helps W b c) : Helps W a c := by
  obtain ⟨ls, tr, h1, h2⟩ := h
  obtain ⟨ls', tr', h1', h2'⟩ := h'
  exact ⟨ls ++ ls', tr ++ tr', by rw [runFrom_append, h1]; simp [h1'], h2.trans h2'⟩

theorem Helps.one {s s' : St} {l : Lbl} {e : List Ev} (h : step W s l = some (s', e)) (hs : Same s s') : Helps W s s' :=
  ⟨[l], e, by simp only [runFrom]; rw [show (machine W).step s l = some (s', e) from h]; simp, hs⟩

/-- A worker that is not blocked can be made idle: the user task on it suspends or ends. -/
theorem free_worker (s : St) {w : Nat} (hw : w < W) (hb : ∀ d, s.wk w ≠ .blocked d) :
    ∃ s', Helps W s s' ∧ s'.wk w = .idle ∧ s'.del = s.del := by
  cases hk : s.wk w with
  | idle => exact ⟨s, ⟨[], [], rfl, Same.refl s⟩, hk, rfl⟩
  | user =>
    refine ⟨{ s with wk := upd s.wk w .idle }, Helps.one (l := .endUser w) (e := []) (by simp [step, hw, hk]) ⟨rfl, rfl, ?_⟩, by simp [upd], rfl⟩
    intro w' d
    simp only [upd_apply]; grind
  | blocked d => exact absurd hk (hb d)

theorem fin_woken (s : St) {w d : Nat} (hw : w < W) (hi : s.wk w = .idle) (hd : s.del d = .woken) : ∃ s', Helps W s s' ∧ s'.del d = .done :=
  ⟨{ s with del := upd s.del d .done }, Helps.one (l := .resume w d) (e := []) (by simp [step, hw, hi, hd]) ⟨rfl, rfl, fun _ _ => Iff.rfl⟩,
    by simp [upd]⟩

theorem fin_completed (s : St) {w d : Nat} (hw : w < W) (hi : s.wk w = .idle) (hd : s.del d = .completed w) :
    ∃ s', Helps W s s' ∧ s'.del d = .done := by
  have h1 : Helps W s { s with del := upd s.del d .woken } :=
    Helps.one (l := .poll w d) (e := []) (by simp [step, hw, hi, hd]) ⟨rfl, rfl, fun _ _ => Iff.rfl⟩
  obtain ⟨s2, h2, h3⟩ := fin_woken (W := W) { s with del := upd s.del d .woken } hw hi (d := d) (by simp [upd])
  exact ⟨s2, h1.trans h2, h3⟩

theorem fin_inFlight (s : St) {w d : Nat} (hw : w < W) (hi : s.wk w = .idle) (hd : s.del d = .inFlight w) :
    ∃ s', Helps W s s' ∧ s'.del d = .done := by
  have h1 : Helps W s { s with del := upd s.del d (.completed w) } :=
    Helps.one (l := .kernel d) (e := [.deleted d]) (by simp [step, hd]) ⟨rfl, rfl, fun _ _ => Iff.rfl⟩
  obtain ⟨s2, h2, h3⟩ := fin_completed (W := W) { s with del := upd s.del d (.completed w) } hw hi (d := d) (by simp [upd])
  exact ⟨s2, h1.trans h2, h3⟩

theorem fin_queued (s : St) {w d : Nat} (hw : w < W) (hi : s.wk w = .idle) (hd : s.del d = .queued) :
    ∃ s', Helps W s s' ∧ s'.del d = .done := by
  have h1 : Helps W s { s with del := upd s.del d (.inFlight w) } :=
    Helps.one (l := .start w d) (e := []) (by simp [step, hw, hi, hd]) ⟨rfl, rfl, fun _ _ => Iff.rfl⟩
  obtain ⟨s2, h2, h3⟩ := fin_inFlight (W := W) { s with del := upd s.del d (.inFlight w) } hw hi (d := d) (by simp [upd])
  exact ⟨s2, h1.trans h2, h3⟩

/-- The deleter of call `d` can end if some worker is not blocked and the worker that has its operation is not. -/
theorem finish {s : St} {tr : List Ev} (h : (machine W).Reaches s tr) {w0 d : Nat} (hw0 : w0 < W) (hb0 : ∀ e, s.wk w0 ≠ .blocked e)
    (hd : d < s.next) (hring : ∀ w e, s.del d = .inFlight w ∨ s.del d = .completed w → s.wk w ≠ .blocked e) :
    ∃ s', Helps W s s' ∧ s'.del d = .done := by
  have hi := inv h
  have go : ∀ w, w < W → (∀ e, s.wk w ≠ .blocked e) → (∀ s1 : St, s1.wk w = .idle → s1.del d = s.del d → ∃ s', Helps W s1 s' ∧ s'.del d = .done) →
      ∃ s', Helps W s s' ∧ s'.del d = .done := by
    intro w hw hb hk
    obtain ⟨s1, h1, h2, h3⟩ := free_worker (W := W) s hw hb
    obtain ⟨s2, h4, h5⟩ := hk s1 h2 (by rw [h3])
    exact ⟨s2, h1.trans h4, h5⟩
  cases hdel : s.del d with
  | none => exact absurd hdel (hi.old d hd)
  | queued => exact go w0 hw0 hb0 (fun s1 h1 h2 => fin_queued s1 hw0 h1 (by rw [h2, hdel]))
  | inFlight w =>
    refine go w (hi.ring d w (.inl hdel)).1 (fun e => hring w e (.inl hdel)) ?_
    exact (fun s1 h1 h2 => fin_inFlight s1 (hi.ring d w (.inl hdel)).1 h1 (by rw [h2, hdel]))
  | completed w =>
    refine go w (hi.ring d w (.inr hdel)).1 (fun e => hring w e (.inr hdel)) ?_
    exact (fun s1 h1 h2 => fin_completed s1 (hi.ring d w (.inr hdel)).1 h1 (by rw [h2, hdel]))
  | woken => exact go w0 hw0 hb0 (fun s1 h1 h2 => fin_woken s1 hw0 h1 (by rw [h2, hdel]))
  | done => exact ⟨s, ⟨[], [], rfl, Same.refl s⟩, hdel⟩

theorem reaches_run {s s' : St} {tr tr' : List Ev} {ls : List Lbl} (h : (machine W).Reaches s tr)
    (hr : (machine W).runFrom s ls = some (s', tr')) : (machine W).Reaches s' (tr ++ tr') := by
  obtain ⟨l0, h0⟩ := h
  refine ⟨l0 ++ ls, ?_⟩
  simp only [run] at h0 ⊢
  rw [runFrom_append, h0]; simp [hr]

/-- If some worker is not blocked, the youngest calls can return one after the other, until no worker is blocked. -/
theorem unblock {s : St} {tr : List Ev} (h : (machine W).Reaches s tr) {w0 : Nat} (hw0 : w0 < W) (hb0 : ∀ e, s.wk w0 ≠ .blocked e) :
    ∀ j, ∃ ls s' tr', (machine W).runFrom s ls = some (s', tr') ∧ s'.next = s.next ∧ (∀ e, s'.wk w0 ≠ .blocked e) ∧
      ∀ w e, s'.wk w = .blocked e → e + j < s.next := by
  intro j
  induction j with
  | zero => exact ⟨[], s, [], rfl, rfl, hb0, fun w e he => by have := ((inv h).blk w e he).2.1; omega⟩
  | succ j ih =>
    obtain ⟨ls, s1, tr1, hr1, hn1, hb1, hq1⟩ := ih
    have hr : (machine W).Reaches s1 (tr ++ tr1) := reaches_run h hr1
    have hi := inv hr
    by_cases hex : ∃ w d, s1.wk w = .blocked d ∧ d + j + 1 = s.next
    · obtain ⟨w, d, hwd, hdj⟩ := hex
      obtain ⟨hc, hlt, hwW, hout, hret⟩ := hi.blk w d hwd
      obtain ⟨s2, ⟨ls2, tr2, hr2, hsame⟩, hdone⟩ := finish hr hw0 hb1 hlt (by
        intro w' e hre hbe
        have := (hi.ring d w' hre).2 e hbe
        have := hq1 w' e hbe
        omega)
      have hwd2 : s2.wk w = .blocked d := (hsame.blk w d).1 hwd
      have hi2 := inv (reaches_run hr hr2)
      refine ⟨ls ++ (ls2 ++ [.ret w]), { s2 with wk := upd s2.wk w .user }, tr1 ++ (tr2 ++ [.returned d]), ?_, ?_, ?_, ?_⟩
      · rw [runFrom_append, hr1]
        simp only [Option.bind_some, Option.map_eq_some_iff, Prod.mk.injEq, Prod.exists]
        refine ⟨_, _, ?_, rfl, rfl⟩
        rw [runFrom_append, hr2]
        simp [runFrom, machine, step, hwd2, hwW, hdone]
      · simp [hsame.next, hn1]
      · intro e
        simp only [upd_apply]
        split
        · simp
        · exact fun hc => hb1 e ((hsame.blk w0 e).2 hc)
      · intro w' e he
        simp only [upd_apply] at he
        split at he
        · simp at he
        · rename_i hne
          have h1 : s1.wk w' = .blocked e := (hsame.blk w' e).2 he
          have h2 := hq1 w' e h1
          by_cases hed : e = d
          · subst hed
            exact absurd (hi.uniq w' w e h1 hwd) hne
          · omega
    · refine ⟨ls, s1, tr1, hr1, hn1, hb1, ?_⟩
      intro w e he
      have := hq1 w e he
      by_cases hh : e + j + 1 = s.next
      · exact absurd ⟨w, e, he, hh⟩ hex
      · omega

/-- Full claim: every call of unlock() can come to its end.  Proved whenever at least one worker is not inside a call; missing: see
`all_workers_refuted`. -/
theorem returns_partial {s : St} {tr : List Ev} (h : (machine W).Reaches s tr) {w0 : Nat} (hw0 : w0 < W) (hf : Free w0 tr) {d : Nat}
    (hd : Called d tr) : ∃ ls s' tr', (machine W).runFrom s ls = some (s', tr') ∧ .returned d ∈ tr ++ tr' := by
  have hi0 := inv h
  have hb0 : ∀ e, s.wk w0 ≠ .blocked e := by
    intro e he
    have h1 := hi0.blk w0 e he
    exact h1.2.2.2.2 (hf e h1.1)
  obtain ⟨ls, s1, tr1, hr1, hn1, hb1, hq1⟩ := unblock h hw0 hb0 s.next
  have hr := reaches_run h hr1
  have hi := inv hr
  have hnone : ∀ w e, s1.wk w ≠ .blocked e := fun w e he => by have := hq1 w e he; omega
  by_cases hret : Ev.returned d ∈ tr ++ tr1
  · exact ⟨ls, s1, tr1, hr1, hret⟩
  rcases hd with hd | ⟨w, hd⟩
  · have hd1 : Ev.calledOutside d ∈ tr ++ tr1 := by simp [hd]
    have hout := (hi.outRet d hd1).resolve_right hret
    obtain ⟨s2, ⟨ls2, tr2, hr2, hsame⟩, hdone⟩ := finish hr hw0 hb1 (hi.outLt d hd1) (fun w e _ => hnone w e)
    refine ⟨ls ++ (ls2 ++ [.retOutside d]), { s2 with out := upd s2.out d false }, tr1 ++ (tr2 ++ [.returned d]), ?_, by simp⟩
    rw [runFrom_append, hr1]
    simp only [Option.bind_some, Option.map_eq_some_iff, Prod.mk.injEq, Prod.exists]
    refine ⟨_, _, ?_, rfl, rfl⟩
    rw [runFrom_append, hr2]
    simp [runFrom, machine, step, hsame.out, hout, hdone]
  · have hd1 : Ev.calledByTask w d ∈ tr ++ tr1 := by simp [hd]
    exact absurd ((hi.byTask w d hd1).resolve_right hret) (hnone w d)

/-- Calls by threads outside of the runtime can return if no task calls unlock(). -/
theorem outside_returns {s : St} {tr : List Ev} (h : (machine W).Reaches s tr) (hW : 0 < W) (ho : ∀ w d, .calledByTask w d ∉ tr) {d : Nat}
    (hd : .calledOutside d ∈ tr) : ∃ ls s' tr', (machine W).runFrom s ls = some (s', tr') ∧ .returned d ∈ tr ++ tr' :=
  returns_partial h hW (fun d hd => absurd hd (ho 0 d)) (.inl hd)

/-- The hypotheses hold in an execution with three workers of which two are in calls, the operation of the one being in the ring of the
other. -/
theorem returns_nontrivial : ∃ s tr, (machine 3).Reaches s tr ∧ Free 2 tr ∧ Called 0 tr ∧ .returned 0 ∉ tr ∧
    s.del 0 = .completed 1 ∧ s.wk 0 = .blocked 0 ∧ s.wk 1 = .blocked 1 :=
  ⟨_, [.calledByTask 0 0, .deleted 0, .calledByTask 1 1],
    ⟨[.startUser 0, .unlock 0, .start 1 0, .kernel 0, .startUser 1, .unlock 1], rfl⟩, by simp [Free], .inr ⟨0, by simp⟩, by simp,
    rfl, rfl, rfl⟩

/-! ## Refutations -/

/-- Every worker is blocked by a call whose deleter has not ended. -/
def Stuck (W : Nat) (s : St) : Prop := ∀ w, w < W → ∃ d, s.wk w = .blocked d ∧ d < s.next ∧ s.del d ≠ .done

theorem stuck_step {s s' : St} {e : List Ev} {l : Lbl} (h : Stuck W s) (hs : step W s l = some (s', e)) :
    Stuck W s' ∧ s'.wk = s.wk := by
  have hn : ∀ w, w < W → s.wk w ≠ .idle ∧ s.wk w ≠ .user := by
    intro w hw
    obtain ⟨d, h1, -, -⟩ := h w hw
    simp [h1]
  cases l <;> simp only [step] at hs <;> (repeat' split at hs) <;>
    simp only [Option.some.injEq, Prod.mk.injEq, reduceCtorEq] at hs <;> obtain ⟨rfl, rfl⟩ := hs
  case unlockOutside =>
    refine ⟨fun w hw => ?_, rfl⟩
    obtain ⟨d, h1, h2, h3⟩ := h w hw
    refine ⟨d, h1, by simp only; omega, ?_⟩
    simp only [upd_apply]; grind
  case h_1 =>
    refine ⟨fun w hw => ?_, rfl⟩
    obtain ⟨d, h1, h2, h3⟩ := h w hw
    refine ⟨d, h1, h2, ?_⟩
    simp only [upd_apply]; grind
  case retOutside.isTrue =>
    exact ⟨fun w hw => h w hw, rfl⟩
  case h_1.isTrue =>
    rename_i w _ d hb hd
    obtain ⟨d', h1, -, h3⟩ := h w hd.1
    rw [hb] at h1
    cases h1
    exact absurd hd.2 h3
  all_goals grind

theorem stuck_run {s s' : St} {tr : List Ev} {ls : List Lbl} (h : Stuck W s) (hr : (machine W).runFrom s ls = some (s', tr)) :
    Stuck W s' ∧ s'.wk = s.wk := by
  have := runFrom_inv (machine W) (fun x _ => Stuck W x ∧ x.wk = s.wk) (by
    intro x tr l x' e ⟨h1, h2⟩ hs
    have := stuck_step h1 hs
    exact ⟨this.1, this.2.trans h2⟩) ls s [] s' tr ⟨h, rfl⟩ hr
  exact this

/-- One task per worker calls unlock(). -/
def script : Nat → List Lbl
  | 0 => []
  | n + 1 => script n ++ [.startUser n, .unlock n]

theorem script_runs (W : Nat) : ∀ n, n ≤ W → ∃ s tr, (machine W).run (script n) = some (s, tr) ∧ s.next = n ∧
    (∀ w, w < n → s.wk w = .blocked w ∧ s.del w = .queued ∧ .calledByTask w w ∈ tr) ∧ ∀ w, n ≤ w → s.wk w = .idle := by
  intro n
  induction n with
  | zero => intro _; exact ⟨_, _, rfl, rfl, by simp, by simp [machine, init]⟩
  | succ n ih =>
    intro hn
    obtain ⟨s, tr, hr, h1, h2, h3⟩ := ih (by omega)
    have hidle := h3 n (by omega)
    refine ⟨⟨upd (upd s.wk n .user) n (.blocked s.next), upd s.del s.next .queued, s.next + 1, s.out⟩, tr ++ [.calledByTask n s.next], ?_,
      by simp [h1], ?_, ?_⟩
    · simp only [script, run] at hr ⊢
      rw [runFrom_append, hr]
      have hlt : n < W := by omega
      simp [runFrom, machine, step, hlt, hidle, upd]
    · intro w hw
      simp only [upd_apply, h1]
      by_cases hwn : w = n
      · subst hwn; simp
      · have := h2 w (by omega)
        simp [hwn, this]
    · intro w hw
      have hwn : w ≠ n := by omega
      simp only [upd_apply]
      simp [hwn, h3 w (by omega)]

/-- With any number of workers: if as many tasks as there are workers release a dir_mutex (different ones, or the same one in turn) at the
same time, none of the calls ever returns and the runtime executes nothing any more; with one worker, one call is enough. -/
theorem all_workers_refuted (W : Nat) : ∃ s tr, (machine W).Reaches s tr ∧ (∀ w, w < W → .calledByTask w w ∈ tr) ∧
    ∀ ls s' tr', (machine W).runFrom s ls = some (s', tr') → ∀ w, w < W → s'.wk w = .blocked w ∧ .returned w ∉ tr ++ tr' := by
  obtain ⟨s, tr, hr, h1, h2, h3⟩ := script_runs W W (Nat.le_refl _)
  have hst : Stuck W s := fun w hw => ⟨w, (h2 w hw).1, by omega, by simp [(h2 w hw).2.1]⟩
  refine ⟨s, tr, ⟨_, hr⟩, fun w hw => (h2 w hw).2.2, ?_⟩
  intro ls s' tr' hrun w hw
  have hs' := stuck_run hst hrun
  have hwk : s'.wk w = .blocked w := by rw [hs'.2]; exact (h2 w hw).1
  refine ⟨hwk, ?_⟩
  have hreach : (machine W).Reaches s' (tr ++ tr') := ⟨script W ++ ls, by
    simp only [run] at hr ⊢
    rw [runFrom_append, hr]; simp [hrun]⟩
  exact ((inv hreach).blk w w hwk).2.2.2.2

end Verif.Block
