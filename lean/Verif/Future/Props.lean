import Verif.Future.Proofs
/-!
# Properties of futures (C08, C09, C10)
-/

namespace Verif.Future

theorem inv_of_reaches {s : St} {tr : List Ev} (h : machine.Reaches s tr) : Inv s tr :=
  Machine.Reaches.inv (M := machine) Inv inv_init (fun _ _ _ _ _ hi hs => inv_step hi hs) h

/-- `get_nonblk()` answers according to the specification. -/
theorem nonblk_answer {s : St} {tr : List Ev} (h : Inv s tr) : (nonblk s).2 = answer tr := by
  obtain ⟨ff, fut, got, parked, done, pc⟩ := s
  obtain ⟨h1, h2, h3, h4, -, h6, -, -, -, -, -⟩ := h
  dsimp only at *
  unfold answer
  cases hr : resultIn tr with
  | none =>
    have hd : done = false := by rw [h1, hr]; rfl
    obtain ⟨rfl, rfl, rfl⟩ := h3 hd
    rfl
  | some r =>
    have hd : done = true := by rw [h1, hr]; rfl
    rw [hr] at h2
    rcases h2 hd with ⟨rfl, rfl⟩ | ⟨rfl, rfl⟩
    · have : got = false := by cases got <;> simp_all
      subst this; simp [nonblk, pull, ← h4]
    · simp only [nonblk, pull, ← h4]
      cases got <;> simp

/-- The events of one step are the last ones. -/
theorem last_event {tr e p : List Ev} {x : Ev} (hp : p ++ [x] <+: tr ++ e) :
    p ++ [x] <+: tr ∨ ∃ q, q ++ [x] <+: e ∧ p = tr ++ q := by
  rcases prefix_append_cases hp with h | ⟨q, hq, hpq⟩
  · exact Or.inl h
  · rcases List.eq_nil_or_concat q with rfl | ⟨q', y, rfl⟩
    · left; simp at hpq; rw [← hpq]; exact List.prefix_refl _
    · right
      rw [List.concat_eq_append, ← List.append_assoc] at hpq
      have := List.append_inj' hpq rfl
      simp at this
      obtain ⟨rfl, rfl⟩ := this
      exact ⟨q', by simpa using hq, rfl⟩

/-- **C09.**  Every `get_nonblk()`, after any history `p` of operations by producer and consumer in
any interleaving, answers exactly: out_of_range if nothing was produced yet, the produced value
(or the task's exception) if it was not retrieved before, logic_error otherwise. -/
theorem future_get_nonblk_answers (s : St) (tr : List Ev) (h : machine.Reaches s tr) :
    ∀ p x, p ++ [.nonblkRet x] <+: tr → x = answer p := by
  refine Machine.Reaches.inv' (M := machine) (fun _ tr => ∀ p x, p ++ [.nonblkRet x] <+: tr → x = answer p) ?_ ?_ h
  · intro p x hp; exact absurd hp not_concat_prefix_nil
  clear h s tr
  intro s tr l s' e hr ih hs p x hp
  have hi := inv_of_reaches hr
  change step s l = some (s', e) at hs
  rcases last_event hp with h | ⟨q, hq, rfl⟩
  · exact ih p x h
  · have hm : Ev.nonblkRet x ∈ e := hq.subset (by simp)
    cases l with
    | nonblk =>
      simp only [step] at hs
      split at hs
      · simp only [Option.some.injEq, Prod.mk.injEq] at hs; obtain ⟨rfl, rfl⟩ := hs
        simp at hm
        rw [show ([Ev.nonblkRet (nonblk s).2]) = [] ++ [Ev.nonblkRet (nonblk s).2] from rfl,
          concat_prefix_concat_iff] at hq
        rcases hq with hq | ⟨rfl, _⟩
        · exact absurd hq not_concat_prefix_nil
        · rw [hm, List.append_nil]; exact nonblk_answer hi
      · simp at hs
    | _ => simp only [step] at hs; grind

theorem ready_answer {s : St} {tr : List Ev} (h : Inv s tr) : (pull s).fut.isSome = (resultIn tr).isSome := by
  obtain ⟨ff, fut, got, parked, done, pc⟩ := s
  have h1 := h.don
  have h2 := h.place
  have h3 := h.none'
  dsimp only at h1 h2 h3
  unfold pull
  cases done with
  | false => obtain ⟨rfl, rfl, -⟩ := h3 rfl; simpa using h1
  | true =>
    rcases h2 rfl with ⟨rfl, rfl⟩ | ⟨rfl, rfl⟩
    · rfl
    · cases hr : resultIn tr <;> simp_all

/-- **C09.**  `ready()` answers true exactly when the result has been produced (retrieved or not). -/
theorem future_ready_truthful (s : St) (tr : List Ev) (h : machine.Reaches s tr) :
    ∀ p b, p ++ [.readyRet b] <+: tr → b = (resultIn p).isSome := by
  refine Machine.Reaches.inv' (M := machine) (fun _ tr => ∀ p b, p ++ [.readyRet b] <+: tr → b = (resultIn p).isSome) ?_ ?_ h
  · intro p x hp; exact absurd hp not_concat_prefix_nil
  clear h s tr
  intro s tr l s' e hr ih hs p b hp
  have hi := inv_of_reaches hr
  change step s l = some (s', e) at hs
  rcases last_event hp with h | ⟨q, hq, rfl⟩
  · exact ih p b h
  · have hm : Ev.readyRet b ∈ e := hq.subset (by simp)
    cases l with
    | ready =>
      simp only [step] at hs
      split at hs
      · simp only [Option.some.injEq, Prod.mk.injEq] at hs; obtain ⟨rfl, rfl⟩ := hs
        simp at hm
        rw [show ([Ev.readyRet (pull s).fut.isSome]) = [] ++ [Ev.readyRet (pull s).fut.isSome] from rfl,
          concat_prefix_concat_iff] at hq
        rcases hq with hq | ⟨rfl, _⟩
        · exact absurd hq not_concat_prefix_nil
        · rw [hm, List.append_nil]; exact ready_answer hi
      · simp at hs
    | _ => simp only [step] at hs; grind

/-- **C09.**  The result is handed out at most once over all ways of retrieving it, and what is
handed out is what the task produced. -/
theorem future_at_most_once (s : St) (tr : List Ev) (h : machine.Reaches s tr) : handOuts tr ≤ 1 := by
  have := (inv_of_reaches h).cnt
  split at this <;> omega

/-! ### C08 -/

def isAwaitRet : Ev → Bool | .awaitRet _ => true | _ => false

/-- The consumer is inside of a `co_await`. -/
def Pc.inAwait : Pc → Bool
  | .suspending | .suspended | .woken | .resuming => true
  | _ => false

theorem awaits_of_reaches {s : St} {tr : List Ev} (h : machine.Reaches s tr) :
    times .awaitCalled tr = tr.countP isAwaitRet + if s.pc.inAwait then 1 else 0 := by
  refine Machine.Reaches.inv' (M := machine)
    (fun s tr => times .awaitCalled tr = tr.countP isAwaitRet + if s.pc.inAwait then 1 else 0) ?_ ?_ h
  · rfl
  clear h s tr
  intro s tr l s' e hr ih hs
  have hpk := (inv_of_reaches hr).park.1
  clear hr
  change step s l = some (s', e) at hs
  obtain ⟨ff, fut, got, parked, done, pc⟩ := s
  dsimp only at ih hpk
  have key : ∀ pc' : Pc, (times .awaitCalled e + (if pc.inAwait then 1 else 0)
        = e.countP isAwaitRet + if pc'.inAwait then 1 else 0) →
      times .awaitCalled (tr ++ e) = (tr ++ e).countP isAwaitRet + if pc'.inAwait then 1 else 0 := by
    intro pc' hh
    simp only [times, List.count_append, List.countP_append] at *; omega
  apply key
  clear key ih
  cases l <;> cases fut <;> cases ff <;> cases got <;> cases parked <;> simp only [step, pull, nonblk, if_true, if_false, Bool.false_eq_true, Option.isSome] at hs
  all_goals
    (repeat' split at hs) <;> (try simp only [Option.some.injEq, Prod.mk.injEq, reduceCtorEq] at hs) <;>
    (try obtain ⟨rfl, rfl⟩ := hs) <;> (try contradiction)
  all_goals first | (simp [times, isAwaitRet]; done) | (clear hpk; simp_all [Pc.inAwait, times, isAwaitRet, List.count_cons]; done) | (have := hpk rfl; subst this; simp [Pc.inAwait, times, isAwaitRet]; done) | (rename_i h; rcases h with rfl | rfl <;> simp [Pc.inAwait, times, isAwaitRet]; done)

/-- **C08 (1).**  Every `co_await` of the future that ends does so after the result was produced, and
with the produced result (logic_error if the result had been retrieved before); it never throws
out_of_range. -/
theorem future_await_result (s : St) (tr : List Ev) (h : machine.Reaches s tr) :
    ∀ p x, p ++ [.awaitRet x] <+: tr → ∃ r, resultIn p = some r ∧ x = finalAnswer p r := by
  refine Machine.Reaches.inv' (M := machine) (fun _ tr => ∀ p x, p ++ [.awaitRet x] <+: tr →
    ∃ r, resultIn p = some r ∧ x = finalAnswer p r) ?_ ?_ h
  · intro p x hp; exact absurd hp not_concat_prefix_nil
  clear h s tr
  intro s tr l s' e hr ih hs p x hp
  have hi := inv_of_reaches hr
  change step s l = some (s', e) at hs
  rcases last_event hp with h | ⟨q, hq, rfl⟩
  · exact ih p x h
  · have hm : Ev.awaitRet x ∈ e := hq.subset (by simp)
    cases l with
    | resume =>
      simp only [step] at hs
      split at hs
      · rename_i hpc
        simp only [Option.some.injEq, Prod.mk.injEq] at hs; obtain ⟨rfl, rfl⟩ := hs
        simp at hm
        rw [show ([Ev.awaitRet (nonblk s).2]) = [] ++ [Ev.awaitRet (nonblk s).2] from rfl,
          concat_prefix_concat_iff] at hq
        rcases hq with hq | ⟨rfl, _⟩
        · exact absurd hq not_concat_prefix_nil
        · have hd := hi.wok (hpc.symm)
          rw [hi.don] at hd
          obtain ⟨r, hr⟩ := Option.isSome_iff_exists.1 hd
          refine ⟨r, by simpa using hr, ?_⟩
          rw [hm, List.append_nil, nonblk_answer hi]
          simp [answer, finalAnswer, hr]
      · simp at hs
    | _ => simp only [step] at hs; grind

/-- **C08 (2).**  The consumer is woken at most once per suspension, and it comes back from each
`co_await` at most once. -/
theorem future_woken_once (s : St) (tr : List Ev) (h : machine.Reaches s tr) :
    times .woken tr ≤ times .suspended tr ∧ times .suspended tr ≤ times .woken tr + 1 ∧
    tr.countP isAwaitRet ≤ times .awaitCalled tr ∧ times .awaitCalled tr ≤ tr.countP isAwaitRet + 1 := by
  have h1 := (inv_of_reaches h).wk
  have h2 := awaits_of_reaches h
  refine ⟨by omega, ?_, by omega, ?_⟩
  · rw [h1]; split <;> omega
  · rw [h2]; split <;> omega

/-- **C08 (3).**  The consumer is handed to the scheduler only after the result is stored. -/
theorem future_woken_after_produced (s : St) (tr : List Ev) (h : machine.Reaches s tr) :
    ∀ p, p ++ [.woken] <+: tr → (resultIn p).isSome := by
  refine Machine.Reaches.inv' (M := machine) (fun _ tr => ∀ p, p ++ [.woken] <+: tr → (resultIn p).isSome) ?_ ?_ h
  · intro p hp; exact absurd hp not_concat_prefix_nil
  clear h s tr
  intro s tr l s' e hr ih hs p hp
  have hi := inv_of_reaches hr
  change step s l = some (s', e) at hs
  rcases last_event hp with h | ⟨q, hq, rfl⟩
  · exact ih p h
  · have hm : Ev.woken ∈ e := hq.subset (by simp)
    cases l with
    | suspend =>
      simp only [step] at hs
      split at hs
      · rename_i hpc
        split at hs
        · rename_i hf
          have hd : s.done = true := by
            cases hd : s.done with
            | true => rfl
            | false => rw [(hi.none' hd).1] at hf; simp at hf
          rw [hi.don] at hd
          simp [hd]
        · simp only [Option.some.injEq, Prod.mk.injEq] at hs; obtain ⟨rfl, rfl⟩ := hs
          simp at hm
      · simp at hs
    | produce r =>
      simp only [step] at hs
      split at hs
      · rename_i hd
        have : e = [.produced r, .woken] := by
          revert hm hs
          cases s.parked <;> simp <;> intro h1 h2 h3 <;> subst h3 <;> simp_all
        subst this
        rw [show ([Ev.produced r, .woken]) = [.produced r] ++ [.woken] from rfl, concat_prefix_concat_iff] at hq
        rcases hq with hq | ⟨rfl, _⟩
        · rw [show ([Ev.produced r]) = [] ++ [.produced r] from rfl, concat_prefix_concat_iff] at hq
          rcases hq with hq | ⟨_, hq⟩
          · exact absurd hq not_concat_prefix_nil
          · simp at hq
        · simp [rP]
      · simp at hs
    | _ => simp only [step] at hs; grind

/-- **C08 (4), no lost wake-up.**  Once the result is stored, nobody is left suspended: every
suspension so far was woken; and if the consumer is inside of a `co_await`, its own next steps
(no further help needed) bring it out of it. -/
theorem future_no_lost_wakeup (s : St) (tr : List Ev) (h : machine.Reaches s tr) (r : Res)
    (hr : resultIn tr = some r) :
    times .suspended tr = times .woken tr ∧
    (tr.countP isAwaitRet < times .awaitCalled tr →
      ∃ ls s' e x, (∀ l ∈ ls, l = .suspend ∨ l = .resume) ∧ machine.runFrom s ls = some (s', e) ∧
        .awaitRet x ∈ e) := by
  have hi := inv_of_reaches h
  have hd : s.done = true := by rw [hi.don, hr]; rfl
  have hns : s.pc ≠ .suspended := fun hh => by have := hi.susp hh; simp [this] at hd
  refine ⟨by rw [hi.wk, if_neg hns]; omega, ?_⟩
  intro hopen
  have ha := awaits_of_reaches h
  have hin : s.pc.inAwait = true := by
    cases hp : s.pc.inAwait with
    | true => rfl
    | false => simp [hp] at ha; omega
  cases hpc : s.pc <;> rw [hpc] at hin <;> simp [Pc.inAwait] at hin
  · -- suspending
    have hfn := hi.sing hpc
    have hff : s.ff.isSome := by
      rcases hi.place hd with ⟨h1, _⟩ | ⟨_, h2⟩
      · rw [h1, hr]; rfl
      · rw [hfn, hr] at h2; simp at h2
    refine ⟨[.suspend, .resume], { (nonblk { s with pc := .woken }).1 with pc := .idle },
      [.suspended, .woken, .awaitRet (nonblk { s with pc := .woken }).2], _, by simp, ?_, by simp; rfl⟩
    simp [Machine.runFrom, machine, step, hpc, hff]
  · exact absurd hpc hns
  · refine ⟨[.resume], { (nonblk s).1 with pc := .idle }, [.awaitRet (nonblk s).2], _, by simp, ?_, by simp; rfl⟩
    simp [Machine.runFrom, machine, step, hpc]
  · refine ⟨[.resume], { (nonblk s).1 with pc := .idle }, [.awaitRet (nonblk s).2], _, by simp, ?_, by simp; rfl⟩
    simp [Machine.runFrom, machine, step, hpc]

/-! ### C10 -/

/-- The state of `get()` blocked for good. -/
def stuck : St := { ff := none, fut := some (.val 5), got := false, parked := false, done := true, pc := .blocked false }

/-- **C10, refuted (1).**  The result is there, `ready()` has said so, and `get()` blocks forever:
from this state nothing happens any more unless the condition variable wakes up spuriously. -/
theorem future_get_after_ready_blocks_refuted :
    ∃ s tr, machine.Reaches s tr ∧ resultIn tr = some (.val 5) ∧ .readyRet true ∈ tr ∧ .getCalled ∈ tr ∧
      (∀ x, .getRet x ∉ tr) ∧
      ∀ ls s' e, machine.runFrom s ls = some (s', e) → .spurious ∉ e → e = [] ∧ s' = s := by
  refine ⟨stuck, [.produced (.val 5), .readyRet true, .getCalled], ⟨[.produce (.val 5), .ready, .get, .lockWait], by decide⟩,
    by decide, by decide, by decide, by simp, ?_⟩
  intro ls
  cases ls with
  | nil => intro s' e h _; simp [Machine.runFrom] at h; exact ⟨h.2, h.1.symm⟩
  | cons l ls =>
    intro s' e h hn
    have : ∀ l, machine.step stuck l = none ∨ l = .spurious := by
      intro l; cases l <;> simp [machine, step, stuck]
    rcases this l with hl | rfl
    · simp [Machine.runFrom, hl] at h
    · exfalso; apply hn
      simp only [Machine.runFrom] at h
      have : machine.step stuck .spurious = some ({ stuck with pc := .getFetch }, [.spurious]) := rfl
      rw [this] at h
      dsimp only at h
      split at h
      · simp at h
      · simp only [Option.some.injEq, Prod.mk.injEq] at h; rw [← h.2]; simp

/-- **C10, refuted (2).**  A spurious wake-up makes a blocking `get()` throw out_of_range although
the promise is going to be fulfilled. -/
theorem future_get_spurious_refuted :
    ∃ s tr, machine.Reaches s tr ∧ tr = [.getCalled, .spurious, .getRet .outOfRange, .produced (.val 5)] :=
  ⟨_, _, ⟨[.get, .lockWait, .spurious, .fetch, .produce (.val 5)], rfl⟩, rfl⟩

/-- No spurious wake-ups, and no `get()` of an unretrieved result after `ready()` has returned true. -/
def Benign (tr : List Ev) : Prop :=
  .spurious ∉ tr ∧ ∀ p, p ++ [.getCalled] <+: tr → .readyRet true ∉ p ∨ handedOut p = true

theorem Benign.mono {a b : List Ev} (h : Benign (a ++ b)) : Benign a :=
  ⟨fun hh => h.1 (by simp [hh]), fun p hp => h.2 p (hp.trans (List.prefix_append _ _))⟩

def isGetRet : Ev → Bool | .getRet _ => true | _ => false

def Pc.inGet : Pc → Bool
  | .getWait | .blocked _ | .getFetch => true
  | _ => false

/-- What holds while nothing bad has happened. -/
structure GInv (s : St) (tr : List Ev) : Prop where
  idle : s.pc = .idle → s.fut.isSome → .readyRet true ∈ tr ∨ s.got = true
  get  : s.pc.inGet = true → s.fut = none
  blk  : s.pc = .blocked false → s.done = false
  blk' : s.pc = .blocked true → s.done = true
  fch  : s.pc = .getFetch → s.done = true
  cnt  : times .getCalled tr = tr.countP isGetRet + if s.pc.inGet then 1 else 0
  ans  : ∀ p x, p ++ [.getRet x] <+: tr →
    (∃ r, resultIn p = some r ∧ x = finalAnswer p r)

theorem ginv_init : GInv init [] := by
  constructor <;> simp [init, Pc.inGet, times, isGetRet]

set_option maxHeartbeats 4000000 in
theorem ginv_step {s s' : St} {tr e : List Ev} {l : Lbl} (hi : Inv s tr) (h : GInv s tr)
    (hb : Benign (tr ++ e)) (hs : step s l = some (s', e)) : GInv s' (tr ++ e) := by
  have hans : ∀ p x, p ++ [.getRet x] <+: tr ++ e → ∃ r, resultIn p = some r ∧ x = finalAnswer p r := by
    intro p x hp
    rcases last_event hp with h' | ⟨q, hq, rfl⟩
    · exact h.ans p x h'
    · have hm : Ev.getRet x ∈ e := hq.subset (by simp)
      cases l with
      | fetch =>
        simp only [step] at hs
        split at hs
        · rename_i hpc
          simp only [Option.some.injEq, Prod.mk.injEq] at hs; obtain ⟨rfl, rfl⟩ := hs
          simp at hm
          rw [show ([Ev.getRet (nonblk s).2]) = [] ++ [Ev.getRet (nonblk s).2] from rfl,
            concat_prefix_concat_iff] at hq
          rcases hq with hq | ⟨rfl, _⟩
          · exact absurd hq not_concat_prefix_nil
          · have hd := h.fch hpc
            rw [hi.don] at hd
            obtain ⟨r, hr⟩ := Option.isSome_iff_exists.1 hd
            refine ⟨r, by simpa using hr, ?_⟩
            rw [hm, List.append_nil, nonblk_answer hi]
            simp [answer, finalAnswer, hr]
        · simp at hs
      | get =>
        simp only [step] at hs
        split at hs
        · split at hs
          · rename_i hg
            simp only [Option.some.injEq, Prod.mk.injEq] at hs; obtain ⟨rfl, rfl⟩ := hs
            simp at hm
            rw [show ([Ev.getCalled, Ev.getRet .logicError]) = [.getCalled] ++ [Ev.getRet .logicError] from rfl,
              concat_prefix_concat_iff] at hq
            rcases hq with hq | ⟨rfl, _⟩
            · rw [show ([Ev.getCalled]) = [] ++ [Ev.getCalled] from rfl, concat_prefix_concat_iff] at hq
              rcases hq with hq | ⟨_, hq⟩
              · exact absurd hq not_concat_prefix_nil
              · simp at hq
            · have hd : s.done = true := by
                cases hd : s.done with
                | true => rfl
                | false => have := (hi.none' hd).2.2; simp [this] at hg
              rw [hi.don] at hd
              obtain ⟨r, hr⟩ := Option.isSome_iff_exists.1 hd
              refine ⟨r, by simp [hr], ?_⟩
              rw [hm]; simp [finalAnswer, ← hi.got, hg]
          · simp only [Option.some.injEq, Prod.mk.injEq] at hs; obtain ⟨rfl, rfl⟩ := hs; simp at hm
        · simp at hs
      | _ => simp only [step] at hs; grind
  have hnsp : Ev.spurious ∉ e := fun hh => hb.1 (by simp [hh])
  have hget : l = .get → .readyRet true ∉ tr ∨ s.got = true := by
    rintro rfl
    simp only [step] at hs
    rw [hi.got]
    split at hs
    · split at hs <;> simp only [Option.some.injEq, Prod.mk.injEq] at hs <;> obtain ⟨rfl, rfl⟩ := hs
      · exact hb.2 tr (by rw [show tr ++ [Ev.getCalled, .getRet .logicError] = (tr ++ [.getCalled]) ++ [.getRet .logicError] by simp]; exact List.prefix_append _ _)
      · exact hb.2 tr (List.prefix_refl _)
    · simp at hs
  obtain ⟨h1, h2, h3, h4, h5, h6, -⟩ := h
  have i3 := hi.none'
  have i7 := hi.park.1
  have i6 := hi.gotf
  have i2 : s.done = true → (s.ff.isSome ∧ s.fut = none) ∨ (s.ff = none ∧ s.fut.isSome) := by
    intro hd
    have h8 := hi.don; rw [hd] at h8
    obtain ⟨r, hr⟩ := Option.isSome_iff_exists.1 h8.symm
    rcases hi.place hd with ⟨a, b⟩ | ⟨a, b⟩
    · left; rw [a, hr]; exact ⟨rfl, b⟩
    · right; rw [b, hr]; exact ⟨a, rfl⟩
  have i9 := hi.wok
  clear hi hb
  obtain ⟨ff, fut, got, parked, done, pc⟩ := s
  have key : ∀ pc' : Pc, (times .getCalled e + (if pc.inGet then 1 else 0)
        = e.countP isGetRet + if pc'.inGet then 1 else 0) →
      times .getCalled (tr ++ e) = (tr ++ e).countP isGetRet + if pc'.inGet then 1 else 0 := by
    intro pc' hh
    simp only [times, List.count_append, List.countP_append] at *; omega
  dsimp only at *
  refine ⟨?_, ?_, ?_, ?_, ?_, key _ ?_, hans⟩
  all_goals
    clear hans key h6
    cases l <;> cases fut <;> cases ff <;> cases got <;> cases parked <;> simp only [step, pull, nonblk, if_true, if_false, Bool.false_eq_true, Option.isSome] at hs
  all_goals
    (repeat' split at hs) <;> (try simp only [Option.some.injEq, Prod.mk.injEq, reduceCtorEq] at hs) <;>
    (try obtain ⟨rfl, rfl⟩ := hs) <;> (try contradiction)
  all_goals try dsimp only
  all_goals first | (simp_all [Pc.inGet, times, isGetRet, List.count_cons]; done) | grind [Pc.inGet, times, isGetRet] | skip

theorem ginv_of_reaches {s : St} {tr : List Ev} (h : machine.Reaches s tr) (hb : Benign tr) : GInv s tr := by
  revert hb
  refine Machine.Reaches.inv' (M := machine) (fun s tr => Benign tr → GInv s tr) (fun _ => ginv_init) ?_ h
  intro s tr l s' e hr ih hs hb
  exact ginv_step (inv_of_reaches hr) (ih hb.mono) hb hs

/-- **C10, the part that holds.**  Without spurious wake-ups, and if `get()` is not called after
`ready()` returned true: every `get()` that returns does so after the result was produced and with
that result (logic_error if it was retrieved before); and once the result is produced, a `get()` in
progress returns by its own next steps, it does not block any more. -/
theorem future_get_returns_partial (s : St) (tr : List Ev) (h : machine.Reaches s tr) (hb : Benign tr) :
    (∀ p x, p ++ [.getRet x] <+: tr → ∃ r, resultIn p = some r ∧ x = finalAnswer p r) ∧
    (∀ r, resultIn tr = some r → tr.countP isGetRet < times .getCalled tr →
      ∃ ls s' e x, (∀ l ∈ ls, l = .lockWait ∨ l = .notified ∨ l = .fetch) ∧
        machine.runFrom s ls = some (s', e) ∧ .getRet x ∈ e) := by
  have hi := inv_of_reaches h
  have hg := ginv_of_reaches h hb
  refine ⟨hg.ans, ?_⟩
  intro r hr hopen
  have hd : s.done = true := by rw [hi.don, hr]; rfl
  have hin : s.pc.inGet = true := by
    cases hp : s.pc.inGet with
    | true => rfl
    | false => have := hg.cnt; simp [hp] at this; omega
  have hfn := hg.get hin
  have hff : s.ff.isSome := by
    rcases hi.place hd with ⟨h1, _⟩ | ⟨_, h2⟩
    · rw [h1, hr]; rfl
    · rw [hfn, hr] at h2; simp at h2
  cases hpc : s.pc <;> rw [hpc] at hin <;> simp [Pc.inGet] at hin
  · refine ⟨[.lockWait, .fetch], { (nonblk { s with pc := .getFetch }).1 with pc := .idle },
      [.getRet (nonblk { s with pc := .getFetch }).2], _, by simp, ?_, by simp; rfl⟩
    simp [Machine.runFrom, machine, step, hpc, hff]
  · rename_i n
    cases n
    · have := hg.blk hpc; simp [this] at hd
    · refine ⟨[.notified, .fetch], { (nonblk { s with pc := .getFetch }).1 with pc := .idle },
        [.getRet (nonblk { s with pc := .getFetch }).2], _, by simp, ?_, by simp; rfl⟩
      simp [Machine.runFrom, machine, step, hpc]
  · refine ⟨[.fetch], { (nonblk s).1 with pc := .idle }, [.getRet (nonblk s).2], _, by simp, ?_, by simp; rfl⟩
    simp [Machine.runFrom, machine, step, hpc]

/-! ### Non-vacuity -/

/-- The producer stores between the consumer's ready test and its suspension; later retrievals fail. -/
example : ((machine).run [.nonblk, .await, .produce (.exc 3), .suspend, .resume, .nonblk, .await, .resume]).map (·.2) =
    some [.nonblkRet .outOfRange, .awaitCalled, .produced (.exc 3), .suspended, .woken, .awaitRet (.res (.exc 3)),
      .nonblkRet .logicError, .awaitCalled, .awaitRet .logicError] := by decide

/-- A consumer that is really parked and then woken by the producer. -/
example : ((machine).run [.await, .suspend, .produce (.val 1), .resume]).map (·.2) =
    some [.awaitCalled, .suspended, .produced (.val 1), .woken, .awaitRet (.res (.val 1))] := by decide

/-- A benign history with a blocking `get()` in progress and the result stored. -/
example : ∃ s tr, machine.Reaches s tr ∧ Benign tr ∧ resultIn tr = some (.val 1) ∧
    tr.countP isGetRet < times .getCalled tr := by
  refine ⟨_, _, ⟨[.ready, .get, .lockWait, .produce (.val 1)], rfl⟩, ⟨by decide, ?_⟩, by decide, by decide⟩
  intro p hp
  left
  have h : p ++ [Ev.getCalled] <+: [.readyRet false, .getCalled, .produced (.val 1)] := hp
  intro hm
  have : Ev.readyRet true ∈ [Ev.readyRet false, .getCalled, .produced (.val 1)] := h.subset (by simp [hm])
  simp at this

end Verif.Future
