import Verif.Task.Model
/-!
# Properties of tasks (C13)
-/

namespace Verif.Task

theorem times_append (e : Ev) (a b : List Ev) : times e (a ++ b) = times e a + times e b := List.count_append

theorem times_nil (e : Ev) : times e [] = 0 := rfl
theorem times_cons (e x : Ev) (l : List Ev) : times e (x :: l) = times e l + if x = e then 1 else 0 := by
  simp [times, List.count_cons]

theorem current_append (a b : List Ev) : current (a ++ b) = b.foldl curStep (current a) := by
  simp [current, List.foldl_append]

theorem fg_append (a b : List Ev) : futureGiven (a ++ b) ↔ futureGiven a ∨ futureGiven b := by
  simp only [futureGiven, List.mem_append, exists_or]
theorem fg_nil : futureGiven [] ↔ False := by simp [futureGiven]
theorem fg_cons (x : Ev) (l : List Ev) : futureGiven (x :: l) ↔ (∃ i, x = .ranFuture i .ok) ∨ futureGiven l := by
  simp [futureGiven, exists_or, eq_comm]

structure Inv (lazy : Bool) (s : St) (tr : List Ev) : Prop where
  bnd   : ∀ i, (s.obj i).alive = true → i < s.next
  cur   : current tr < s.next
  own   : ∀ i, (s.obj i).owns = true → (s.obj i).alive = true ∧ i = current tr ∧ s.frame = .fresh ∧ lazy = true ∧ (s.obj i).fut = true
  fut   : ∀ i, (s.obj i).fut = true → (s.obj i).alive = true ∧ i = current tr ∧ ¬ futureGiven tr
  curf  : (s.obj (current tr)).alive = true → (s.obj (current tr)).fut = true ∨ futureGiven tr
  curo  : (s.obj (current tr)).alive = true → lazy = true → (s.obj (current tr)).owns = true ∨ .scheduled ∈ tr
  fr    : lazy = true → s.frame = .fresh → (s.obj (current tr)).owns = true
  ffr   : s.frame = .fresh → times .scheduled tr = 0 ∧ times .bodyStarted tr = 0 ∧ times .frameDestroyed tr = 0 ∧ times .bodyEnded tr = 0
  fq    : s.frame = .queued → lazy = true ∧ times .scheduled tr = 1 ∧ times .bodyStarted tr = 0 ∧ times .frameDestroyed tr = 0 ∧ times .bodyEnded tr = 0
  frn   : s.frame = .running → (lazy = true → times .scheduled tr = 1) ∧ times .bodyStarted tr = 1 ∧ times .frameDestroyed tr = 0 ∧ times .bodyEnded tr = 0
  fe    : s.frame = .ended → (lazy = true → times .scheduled tr = 1) ∧ times .bodyStarted tr = 1 ∧ times .frameDestroyed tr = 0 ∧ times .bodyEnded tr = 1
  fd    : s.frame = .destroyed → lazy = true ∧ times .scheduled tr = 0 ∧ times .bodyStarted tr = 0 ∧ times .frameDestroyed tr = 1 ∧ times .bodyEnded tr = 0
  giv   : lazy = true → futureGiven tr → .scheduled ∈ tr

theorem inv_init (lazy : Bool) : Inv lazy (init lazy) [] := by
  constructor <;> simp [init, current, futureGiven, times]
  all_goals (try intro i; split <;> simp_all)

set_option maxHeartbeats 4000000 in
theorem inv_step {lazy : Bool} {s s' : St} {tr e : List Ev} {l : Lbl} (h : Inv lazy s tr)
    (hs : step lazy s l = some (s', e)) : Inv lazy s' (tr ++ e) := by
  obtain ⟨h1, h2, h3, h4, h5, h6, h7, h8, h9, h10, h11, h12, h13⟩ := h
  cases l <;> simp only [step, schedule, dropHandle, dropFuture, upd_same] at hs
  all_goals
    (repeat' split at hs) <;> (try simp only [Option.some.injEq, Prod.mk.injEq, reduceCtorEq] at hs) <;>
    (try obtain ⟨rfl, rfl⟩ := hs) <;> (try contradiction)
  all_goals
    constructor <;> (try simp only [current_append, times_append, fg_append, fg_nil, fg_cons, times_nil, times_cons, curStep, List.foldl_cons, List.foldl_nil, List.mem_append, List.mem_cons, List.not_mem_nil, reduceCtorEq, or_false, false_or, exists_false, if_true, if_false, Nat.add_zero, Nat.zero_add]) <;>
      (try simp only [upd_apply])
  all_goals first | grind | skip

theorem inv_of_reaches {lazy : Bool} {s : St} {tr : List Ev} (h : (machine lazy).Reaches s tr) : Inv lazy s tr :=
  Machine.Reaches.inv (M := machine lazy) (Inv lazy) (inv_init lazy) (fun _ _ _ _ _ hi hs => inv_step hi hs) h

/-- **C13 (1).**  Whatever calls are made on the task objects (moved-from ones included), in whatever
interleaving with the execution: the body is started at most once, delivers its result at most
once and only after it was started, and a frame is never both started and destroyed unstarted. -/
theorem task_body_at_most_once (lazy : Bool) (s : St) (tr : List Ev) (h : (machine lazy).Reaches s tr) :
    times .bodyEnded tr ≤ times .bodyStarted tr ∧ times .bodyStarted tr + times .frameDestroyed tr ≤ 1 ∧
    (lazy = true → times .bodyStarted tr ≤ times .scheduled tr) := by
  have hi := inv_of_reaches h
  cases hf : s.frame
  · have := hi.ffr hf; omega
  · have := hi.fq hf; omega
  · have := hi.frn hf; refine ⟨by omega, by omega, fun hl => by have := this.1 hl; omega⟩
  · have := hi.fe hf; refine ⟨by omega, by omega, fun hl => by have := this.1 hl; omega⟩
  · have := hi.fd hf; omega

/-- All task objects are gone. -/
def AllGone (s : St) : Prop := ∀ i, (s.obj i).alive = false

/-- **C13 (2).**  When all objects that stood for a lazy task are gone, its frame was either handed
to the scheduler exactly once, or destroyed exactly once without having been run; nothing is leaked.
A body that was started or scheduled can always be driven to its end. -/
theorem task_dropped_or_scheduled (s : St) (tr : List Ev) (h : (machine true).Reaches s tr) (hg : AllGone s) :
    (times .scheduled tr = 1 ∧ times .frameDestroyed tr = 0) ∨
    (times .scheduled tr = 0 ∧ times .frameDestroyed tr = 1 ∧ times .bodyStarted tr = 0) := by
  have hi := inv_of_reaches h
  cases hf : s.frame
  · have h1 := hi.fr rfl hf
    have h2 := (hi.own _ h1).1
    rw [hg] at h2; simp at h2
  · have := hi.fq hf; omega
  · have := hi.frn hf; left; exact ⟨this.1 rfl, this.2.2.1⟩
  · have := hi.fe hf; left; exact ⟨this.1 rfl, this.2.2.1⟩
  · have := hi.fd hf; omega

/-- **C13 (3).**  A lazy task that was scheduled (or any eager task) can be run to its end by the
scheduler, and then its result is delivered exactly once. -/
theorem task_scheduled_delivers (lazy : Bool) (s : St) (tr : List Ev) (h : (machine lazy).Reaches s tr)
    (hsch : lazy = true → .scheduled ∈ tr) :
    ∃ ls s' e, (∀ l ∈ ls, l = .exec ∨ l = .finish) ∧ (machine lazy).runFrom s ls = some (s', e) ∧
      times .bodyEnded (tr ++ e) = 1 ∧ times .bodyStarted (tr ++ e) = 1 := by
  have hi := inv_of_reaches h
  have hpos : lazy = true → 0 < times .scheduled tr := fun hl => List.count_pos_iff.2 (hsch hl)
  cases hf : s.frame
  · have h1 := hi.ffr hf
    have hl : lazy = false := by
      cases hl : lazy with
      | false => rfl
      | true => have := hpos hl; omega
    subst hl
    refine ⟨[.exec, .finish], { s with frame := .ended }, [.bodyStarted, .bodyEnded], by simp, ?_, ?_⟩
    · simp [Machine.runFrom, machine, step, hf]
    · simp only [times_append, times_cons, times_nil, reduceCtorEq, if_true, if_false]; omega
  · have h1 := hi.fq hf
    refine ⟨[.exec, .finish], { s with frame := .ended }, [.bodyStarted, .bodyEnded], by simp, ?_, ?_⟩
    · simp [Machine.runFrom, machine, step, hf]
    · simp only [times_append, times_cons, times_nil, reduceCtorEq, if_true, if_false]; omega
  · have h1 := hi.frn hf
    refine ⟨[.finish], { s with frame := .ended }, [.bodyEnded], by simp, ?_, ?_⟩
    · simp [Machine.runFrom, machine, step, hf]
    · simp only [times_append, times_cons, times_nil, reduceCtorEq, if_true, if_false]; omega
  · have h1 := hi.fe hf
    refine ⟨[], s, [], by simp, rfl, ?_⟩
    simp only [times_append, times_nil]; omega
  · have h1 := hi.fd hf
    have := hpos h1.1; omega

/-- What a call on a lazy task must answer. -/
def answerFuture (p : List Ev) (i : Nat) : Ans :=
  if i = current p ∧ times .scheduled p = 0 then .ok else .logicError

open Classical in
/-- `co_await` is possible iff the future is still there. -/
noncomputable def answerAwait (p : List Ev) (i : Nat) : Ans :=
  if i = current p ∧ ¬ futureGiven p then .ok else .logicError

/-- **C13 (4).**  `run_and_get_future()` of a lazy task succeeds iff the task was not scheduled before
(and the object was not moved from); otherwise it throws logic_error.  `co_await` succeeds iff the
future was not taken before (and the object was not moved from); otherwise it throws logic_error. -/
theorem task_answers (lazy : Bool) (s : St) (tr : List Ev) (h : (machine lazy).Reaches s tr) :
    (∀ p i a, p ++ [.ranFuture i a] <+: tr → lazy = true → a = answerFuture p i) ∧
    (∀ p i a, p ++ [.awaited i a] <+: tr → a = answerAwait p i) := by
  refine Machine.Reaches.inv' (M := machine lazy) (fun _ tr =>
    (∀ p i a, p ++ [.ranFuture i a] <+: tr → lazy = true → a = answerFuture p i) ∧
    (∀ p i a, p ++ [.awaited i a] <+: tr → a = answerAwait p i)) ?_ ?_ h
  · exact ⟨fun p i a hp => absurd hp not_concat_prefix_nil, fun p i a hp => absurd hp not_concat_prefix_nil⟩
  clear h s tr
  intro s tr l s' e hr ih hs
  have hi := inv_of_reaches hr
  change step lazy s l = some (s', e) at hs
  constructor
  · intro p i a hp hl
    subst hl
    rcases concat_prefix_append_cases hp with h | ⟨q, hq, rfl⟩
    · exact ih.1 p i a h rfl
    · have hm : Ev.ranFuture i a ∈ e := hq.subset (by simp)
      cases l with
      | runFut j =>
        simp only [step, if_true] at hs
        split at hs
        · rename_i hal
          split at hs
          · rename_i ho
            simp only [Option.some.injEq, Prod.mk.injEq] at hs; obtain ⟨rfl, rfl⟩ := hs
            obtain ⟨rfl, hx⟩ := concat_prefix_cons hq (by simp)
            simp only [Ev.ranFuture.injEq] at hx; obtain ⟨rfl, rfl⟩ := hx
            rw [List.append_nil, answerFuture, if_neg]
            rintro ⟨rfl, h0⟩
            rcases hi.curo hal rfl with h | h
            · simp [ho] at h
            · have := List.count_pos_iff.2 h; unfold times at h0; omega
          · rename_i ho
            split at hs
            · rename_i hf
              have := (hi.own j (by simpa using ho)).2.2.2.2
              simp [hf] at this
            · simp only [Option.some.injEq, Prod.mk.injEq] at hs; obtain ⟨rfl, rfl⟩ := hs
              have : q = [] ∧ Ev.ranFuture i a = .ranFuture j .ok :=
                concat_prefix_cons hq (by simp only [schedule]; split <;> simp)
              obtain ⟨rfl, hx⟩ := this
              simp only [Ev.ranFuture.injEq] at hx; obtain ⟨rfl, rfl⟩ := hx
              have hw := hi.own i (by simpa using ho)
              rw [List.append_nil, answerFuture, if_pos]
              exact ⟨hw.2.1, (hi.ffr hw.2.2.1).1⟩
        · simp at hs
      | _ => simp only [step, schedule] at hs; grind
  · intro p i a hp
    rcases concat_prefix_append_cases hp with h | ⟨q, hq, rfl⟩
    · exact ih.2 p i a h
    · have hm : Ev.awaited i a ∈ e := hq.subset (by simp)
      cases l with
      | await j =>
        simp only [step] at hs
        split at hs
        · rename_i hal
          split at hs
          · rename_i ho
            simp only [Option.some.injEq, Prod.mk.injEq] at hs; obtain ⟨rfl, rfl⟩ := hs
            obtain ⟨rfl, hx⟩ := concat_prefix_cons hq (by simp)
            simp only [Ev.awaited.injEq] at hx; obtain ⟨rfl, rfl⟩ := hx
            rw [List.append_nil, answerAwait, if_neg]
            rintro ⟨rfl, h0⟩
            rcases hi.curf hal with h | h
            · simp [ho] at h
            · exact h0 h
          · rename_i ho
            simp only [Option.some.injEq, Prod.mk.injEq] at hs; obtain ⟨rfl, rfl⟩ := hs
            have : q = [] ∧ Ev.awaited i a = .awaited j .ok :=
              concat_prefix_cons hq (by simp only [schedule]; split <;> simp)
            obtain ⟨rfl, hx⟩ := this
            simp only [Ev.awaited.injEq] at hx; obtain ⟨rfl, rfl⟩ := hx
            have hw := hi.fut i (by simpa using ho)
            rw [List.append_nil, answerAwait, if_pos]
            exact hw.2
        · simp at hs
      | _ => simp only [step, schedule] at hs; grind

/-- **C13, refuted for `run()`.**  Calling `run()` on a lazy task that was already scheduled and has
not ended yet, on one whose future was taken, or on a moved-from one, is undefined behaviour (the
`[[assume]]` in `run_on`, or `ready()` of an empty future) instead of an error. -/
theorem task_run_twice_ub_refuted :
    (∃ s tr, (machine true).Reaches s tr ∧ tr = [.ran 0 .ok, .scheduled, .ran 0 .ub]) ∧
    (∃ s tr, (machine true).Reaches s tr ∧ tr = [.ranFuture 0 .ok, .scheduled, .ran 0 .ub]) ∧
    (∃ s tr, (machine true).Reaches s tr ∧ tr = [.moved 0 1, .ran 0 .ub]) :=
  ⟨⟨_, _, ⟨[.run 0, .run 0], rfl⟩, rfl⟩, ⟨_, _, ⟨[.runFut 0, .run 0], rfl⟩, rfl⟩,
   ⟨_, _, ⟨[.move 0, .run 0], rfl⟩, rfl⟩⟩

/-- **C13 (5), the part that holds for `run()`.**  No call is undefined behaviour provided `run()` is
only called on the current object, before anything else scheduled the task or took its future. -/
theorem task_no_ub_partial (lazy : Bool) (s : St) (tr : List Ev) (h : (machine lazy).Reaches s tr)
    (hd : Disciplined tr) (i : Nat) :
    .ran i .ub ∉ tr ∧ .ranFuture i .ub ∉ tr ∧ .awaited i .ub ∉ tr := by
  have key : Disciplined tr → ∀ i, .ran i .ub ∉ tr ∧ .ranFuture i .ub ∉ tr ∧ .awaited i .ub ∉ tr := by
    clear hd i
    refine Machine.Reaches.inv' (M := machine lazy) (fun _ tr => Disciplined tr →
      ∀ i, .ran i .ub ∉ tr ∧ .ranFuture i .ub ∉ tr ∧ .awaited i .ub ∉ tr) (by simp) ?_ h
    clear h s tr
    intro s tr l s' e hr ih hs hd i
    have hi := inv_of_reaches hr
    change step lazy s l = some (s', e) at hs
    have ih := ih (fun p j a hp => hd p j a (hp.trans (List.prefix_append _ _))) i
    have hnew : .ran i .ub ∉ e ∧ .ranFuture i .ub ∉ e ∧ .awaited i .ub ∉ e := by
      cases l with
      | run j =>
        have hdr : ∀ a r, e = .ran j a :: r → j = current tr ∧ .scheduled ∉ tr ∧ ¬ futureGiven tr := by
          rintro a r rfl
          exact hd tr j a ⟨r, by simp⟩
        simp only [step] at hs
        split at hs
        · rename_i hal
          split at hs
          · rename_i hl
            split at hs
            · rename_i hf
              simp only [Option.some.injEq, Prod.mk.injEq] at hs; obtain ⟨rfl, rfl⟩ := hs
              obtain ⟨rfl, h1, h2⟩ := hdr _ _ rfl
              rcases hi.curf hal with h | h
              · simp [hf] at h
              · exact absurd h h2
            · split at hs
              · simp only [Option.some.injEq, Prod.mk.injEq] at hs; obtain ⟨rfl, rfl⟩ := hs; simp
              · split at hs
                · rename_i ho
                  simp only [Option.some.injEq, Prod.mk.injEq] at hs; obtain ⟨rfl, rfl⟩ := hs
                  obtain ⟨rfl, h1, h2⟩ := hdr _ _ rfl
                  rcases hi.curo hal hl with h | h
                  · simp [ho] at h
                  · exact absurd h h1
                · simp only [Option.some.injEq, Prod.mk.injEq] at hs; obtain ⟨rfl, rfl⟩ := hs
                  simp only [schedule]; split <;> simp
          · simp only [Option.some.injEq, Prod.mk.injEq] at hs; obtain ⟨rfl, rfl⟩ := hs; simp
        · simp at hs
      | runFut j =>
        simp only [step] at hs
        split at hs
        · split at hs
          · split at hs
            · simp only [Option.some.injEq, Prod.mk.injEq] at hs; obtain ⟨rfl, rfl⟩ := hs; simp
            · rename_i ho
              split at hs
              · rename_i hf
                have := (hi.own j (by simpa using ho)).2.2.2.2
                simp [hf] at this
              · simp only [Option.some.injEq, Prod.mk.injEq] at hs; obtain ⟨rfl, rfl⟩ := hs
                simp only [schedule]; split <;> simp
          · simp only [Option.some.injEq, Prod.mk.injEq] at hs; obtain ⟨rfl, rfl⟩ := hs
            split <;> simp
        · simp at hs
      | _ => simp only [step, schedule] at hs; grind
    simp only [List.mem_append, not_or]
    exact ⟨⟨ih.1, hnew.1⟩, ⟨ih.2.1, hnew.2.1⟩, ⟨ih.2.2, hnew.2.2⟩⟩
  exact key hd i

/-! ### Non-vacuity -/

example : ((machine true).run [.move 0, .done 1, .runFut 0, .runFut 1, .await 1, .exec, .runFut 1, .finish,
      .destroy 0, .destroy 1]).map (·.2) =
    some [.moved 0 1, .isDone 1 false, .ranFuture 0 .logicError, .ranFuture 1 .ok, .scheduled, .awaited 1 .logicError,
      .bodyStarted, .ranFuture 1 .logicError, .bodyEnded, .destroyed 0, .destroyed 1] := by decide

example : ((machine true).run [.move 0, .destroy 0, .destroy 1]).map (·.2) =
    some [.moved 0 1, .destroyed 0, .destroyed 1, .frameDestroyed] := by decide

example : ∃ s tr, (machine true).Reaches s tr ∧ Disciplined tr ∧ .scheduled ∈ tr ∧ .ran 1 .ok ∈ tr := by
  refine ⟨_, _, ⟨[.move 0, .run 1, .await 1], rfl⟩, ?_, by decide, by decide⟩
  intro p i a hp
  change p ++ [Ev.ran i a] <+: [.moved 0 1, .ran 1 .ok, .scheduled, .awaited 1 .ok] at hp
  cases p with
  | nil => simp at hp
  | cons x p =>
    simp only [List.cons_append, List.cons_prefix_cons] at hp
    obtain ⟨rfl, hp⟩ := hp
    obtain ⟨rfl, hx⟩ := concat_prefix_cons hp (by simp)
    simp only [Ev.ran.injEq] at hx
    obtain ⟨rfl, rfl⟩ := hx
    exact ⟨rfl, by simp, by simp [futureGiven]⟩

end Verif.Task
