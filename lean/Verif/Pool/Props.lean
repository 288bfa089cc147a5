import Verif.Pool.ProofsDrain
/-!
# Properties of `koios::thread_pool` (C15-C18)

`machine N`: a started pool with `N` workers over the work stealing queue.
-/

namespace Verif.Pool

/-- **C15.**  Whatever the interleaving of enqueuers, workers and stealing: every task is
accepted at most once, started at most once and only after it was accepted, finished at most
once and only after it was started; and the number of tasks `number_remain_tasks()` adds up to
is exactly the number accepted minus the number started (nothing is lost or duplicated). -/
theorem pool_executes_at_most_once (N : Nat) (s : St) (tr : List Ev) (h : (machine N).Reaches s tr) :
    (∀ x, timesFinished x tr ≤ timesStarted x tr ∧ timesStarted x tr ≤ timesEnqueued x tr ∧
      timesEnqueued x tr ≤ 1) ∧
    total s.queue N + allStarted tr = allEnqueued tr := by
  have hi := inv_of_reaches h
  refine ⟨?_, hi.size⟩
  intro x
  have h1 := hi.st x
  have h2 := hi.enq x
  refine ⟨?_, by omega, by rw [h2]; split <;> omega⟩
  have : timesStarted x tr = 0 ∨ timesStarted x tr = 1 := by split at h1 <;> omega
  rcases this with h0 | h1
  · have := hi.fin0 x h0; omega
  · rcases hi.fin x h1 with h | ⟨w, _, hw⟩
    · omega
    · have := hi.run w x hw; omega

/-- **C15, no loss.**  Every accepted task that has not been started is in exactly one queue of
a worker of the pool. -/
theorem pool_never_loses (N : Nat) (s : St) (tr : List Ev) (h : (machine N).Reaches s tr) (x : Nat)
    (he : timesEnqueued x tr = 1) (hs : timesStarted x tr = 0) :
    ∃ i, i < N ∧ x ∈ s.queue i ∧ ∀ j, x ∈ s.queue j → j = i := by
  have hi := inv_of_reaches h
  have hx : x < s.next := by
    have := hi.enq x
    by_cases hx : x < s.next
    · exact hx
    · simp [hx] at this; omega
  obtain ⟨i, h1, h2⟩ := hi.stays x hx hs
  exact ⟨i, h1, h2, fun j hj => hi.excl j i x hj h2⟩

/-- **C16.**  When `stop()` has joined the workers (and nobody called `quick_stop()`), every
task accepted before the stop was requested, and every task accepted from a task running on the
pool, has been executed to its end exactly once.  Tasks may throw, and may enqueue further
tasks. -/
theorem pool_stop_drains (N : Nat) (hN : 0 < N) (s : St) (tr : List Ev) (h : (machine N).Reaches s tr)
    (hj : Ev.joined ∈ tr) (hq : Ev.stopNow ∉ tr) (x : Nat) (hin : InTime x tr) :
    timesStarted x tr = 1 ∧ timesFinished x tr = 1 := by
  have hi := inv_of_reaches h
  have hcov := cov_of_reaches hN h
  have hall := hi.join hj
  have hnow : s.stopNow = false := by
    cases hb : s.stopNow
    · rfl
    · exact absurd (hi.now.1 hb) hq
  have hx : x < s.next := by
    obtain ⟨p, a, hp, _⟩ := hin
    have hm : Ev.enqueued a x ∈ tr := hp.subset (by simp)
    have h0 : 0 < timesEnqueued x tr := by
      unfold timesEnqueued; rw [List.countP_pos_iff]; exact ⟨_, hm, by simp⟩
    have := hi.enq x
    by_cases hx : x < s.next
    · exact hx
    · simp [hx] at this; omega
  have hst : timesStarted x tr = 1 := by
    have h1 := hi.st x
    rw [if_pos hx] at h1
    by_cases h0 : timesStarted x tr = 0
    · obtain ⟨i, _, h2⟩ := hi.stays x hx h0
      obtain ⟨w, hw, hsee⟩ := hcov hnow i x h2 hin
      simp [hall w hw, Pc.willSee] at hsee
    · omega
  refine ⟨hst, ?_⟩
  rcases hi.fin x hst with h | ⟨w, hw, hpc⟩
  · exact h
  · simp [hall w hw] at hpc

/-- **C17.**  Exceptions do not end workers: the thread of a worker ends only after a stop was
requested, and the worker that ran a throwing task is back at the head of its loop, exactly as
after a task that returned. -/
theorem pool_survives_exceptions (N : Nat) (s : St) (tr : List Ev) (h : (machine N).Reaches s tr) :
    (∀ p w, p ++ [.exited w] <+: tr → Ev.stopRequested ∈ p) ∧
    (∀ w s1 e1, (machine N).step s (.finish w true) = some (s1, e1) →
      ∃ e2, (machine N).step s (.finish w false) = some (s1, e2)) := by
  refine ⟨(inv_of_reaches h).exi, ?_⟩
  intro w s1 e1 hs
  change step N s (.finish w true) = some (s1, e1) at hs
  show ∃ e2, step N s (.finish w false) = some (s1, e2)
  simp only [step] at hs ⊢
  split at hs
  · split at hs
    · rename_i hc
      simp only [Option.some.injEq, Prod.mk.injEq] at hs
      rw [if_pos hc]
      exact ⟨_, by rw [hs.1]⟩
    · simp at hs
  · simp at hs

/-- **C18 (1).**  Once `quick_stop()` has set its flag and requested the stop, each worker starts
at most one more task (the one it was already fetching). -/
theorem pool_quick_stop_at_most_one_more (N : Nat) (s : St) (p q : List Ev)
    (h : (machine N).Reaches s (p ++ q)) (h1 : Ev.stopRequested ∈ p) (h2 : Ev.stopNow ∈ p) (w : Nat) :
    startsOf w q ≤ 1 := by
  have := budget_of_reaches h w p q rfl h1 h2
  omega

/-- **C18 (2).**  A worker that is running a task (or is at its loop head) when the stop takes
effect starts none. -/
theorem pool_quick_stop_running_starts_none (N : Nat) (s : St) (tr : List Ev)
    (h : (machine N).Reaches s tr) (h1 : Ev.stopRequested ∈ tr) (h2 : Ev.stopNow ∈ tr) (w x : Nat)
    (hw : s.pc w = .run x) (ls : List Lbl) (s' : St) (q : List Ev)
    (hrun : (machine N).runFrom s ls = some (s', q)) : startsOf w q = 0 := by
  have hi := inv_of_reaches h
  have hr := hi.req.2 h1
  have hn := hi.now.2 h2
  have key := Machine.runFrom_inv (machine N)
    (fun s t => s.stopReq = true ∧ s.stopNow = true ∧ startsOf w t + (s.pc w).budget ≤ 0) ?_ ls s [] s' q
    ⟨hr, hn, by simp [startsOf, hw, Pc.budget]⟩ hrun
  · simp only [List.nil_append] at key; omega
  · rintro s tr l s' e ⟨a, b, c⟩ hs
    change step N s l = some (s', e) at hs
    have hb := (budget_step hs w).1 a b
    rw [sO_append]
    refine ⟨?_, ?_, by omega⟩
    · cases l <;> simp only [step] at hs <;> grind
    · cases l <;> simp only [step] at hs <;> grind

theorem refused_of_reaches {N : Nat} {s : St} {tr : List Ev} (h : (machine N).Reaches s tr) :
    ∀ p a, p ++ [.enqCalled a] <+: tr → Ev.stopNow ∈ p → p ++ [.enqCalled a, .refused a] <+: tr := by
  refine Machine.Reaches.inv' (M := machine N) (fun _ tr =>
    ∀ p a, p ++ [.enqCalled a] <+: tr → Ev.stopNow ∈ p → p ++ [.enqCalled a, .refused a] <+: tr) ?_ ?_ h
  · intro p a hp; exact absurd hp not_concat_prefix_nil
  clear h s tr
  intro s tr l s' e hr ih hs p a hp hn
  have hi := inv_of_reaches hr
  change step N s l = some (s', e) at hs
  by_cases hin : Ev.enqCalled a ∈ e
  · cases l with
    | enqTest b =>
      simp only [step] at hs
      split at hs
      · split at hs <;> simp only [Option.some.injEq, Prod.mk.injEq] at hs <;> obtain ⟨rfl, rfl⟩ := hs
        · rw [show tr ++ [Ev.enqCalled b, Ev.refused b] = (tr ++ [.enqCalled b]) ++ [.refused b] by simp,
            concat_prefix_concat_iff] at hp
          rcases hp with hp | ⟨_, hp⟩
          · rw [concat_prefix_concat_iff] at hp
            rcases hp with hp | ⟨rfl, hp⟩
            · exact (ih p a hp hn).trans (List.prefix_append _ _)
            · simp at hp; subst hp; exact List.prefix_refl _
          · simp at hp
        · rename_i hnow
          rw [concat_prefix_concat_iff] at hp
          rcases hp with hp | ⟨rfl, hp⟩
          · exact (ih p a hp hn).trans (List.prefix_append _ _)
          · exact absurd (hi.now.2 hn) hnow
      · simp at hs
    | enqPush b i => simp only [step] at hs; grind
    | work w =>
      simp only [step, doneEv] at hs
      split at hs
      · split at hs
        · grind
        · grind
        · split at hs
          · grind
          · simp only [Option.some.injEq, Prod.mk.injEq] at hs
            obtain ⟨_, rfl⟩ := hs
            split at hin <;> simp at hin
        · simp at hs
      · simp at hs
    | take w x => simp only [step] at hs; grind
    | takeNone w => simp only [step] at hs; grind
    | finish w t => simp only [step] at hs; grind
    | reqStop => simp only [step] at hs; grind
    | setNow => simp only [step] at hs; grind
    | join => simp only [step] at hs; grind
  · exact (ih p a (old_prefix hp hin) hn).trans (List.prefix_append _ _)

/-- **C18 (3).**  An `enqueue` call made after `quick_stop()` set its flag throws
`thread_pool_stopped_exception` at once. -/
theorem pool_quick_stop_refuses (N : Nat) (s : St) (tr : List Ev) (h : (machine N).Reaches s tr)
    (p : List Ev) (a : Who) (hp : p ++ [.enqCalled a] <+: tr) (hn : Ev.stopNow ∈ p) :
    p ++ [.enqCalled a, .refused a] <+: tr :=
  refused_of_reaches h p a hp hn

/-- **Limits of C16, refuted.**  `stop()` does not refuse tasks: one enqueued from outside after
the stop was requested is accepted without any error and may never be executed. -/
theorem pool_late_task_lost_refuted :
    ∃ s tr, (machine 1).Reaches s tr ∧ Ev.joined ∈ tr ∧ Ev.enqueued (.ext 0) 0 ∈ tr ∧
      (∀ a, Ev.refused a ∉ tr) ∧ timesStarted 0 tr = 0 ∧ s.pc 0 = .exited :=
  ⟨_, _, ⟨[.reqStop, .work 0, .work 0, .work 0, .work 0, .join, .enqTest (.ext 0), .enqPush (.ext 0) 0], rfl⟩,
    by decide, by decide, by simp [doneEv], rfl, rfl⟩

/-! ### Non-vacuity -/

/-- Two workers; an external task enqueues two more tasks, one throws, one is stolen;
then `stop()` drains. -/
def sample : List Lbl :=
  [.enqTest (.ext 0), .enqPush (.ext 0) 0, .work 0, .take 0 0, .enqTest (.wrk 0), .enqPush (.wrk 0) 0,
   .reqStop, .enqTest (.wrk 0), .enqPush (.wrk 0) 0, .work 1, .work 1, .work 1, .work 1, .work 1, .takeNone 1,
   .take 1 1, .finish 1 true, .finish 0 false,
   .work 0, .work 0, .work 0, .work 0, .work 0, .take 0 2, .finish 0 false,
   .work 0, .work 0, .work 0, .work 0, .work 0, .work 1, .work 1, .work 1, .work 1, .work 1, .join]

example : ((machine 2).run sample).map (·.2) = some
    [.enqCalled (.ext 0), .enqueued (.ext 0) 0, .started 0 0, .enqCalled (.wrk 0), .enqueued (.wrk 0) 1,
     .stopRequested, .enqCalled (.wrk 0), .enqueued (.wrk 0) 2, .started 1 1, .finished 1 1 true,
     .finished 0 0 false, .started 0 2, .finished 0 2 false, .exited 0, .exited 1, .joined] := by decide

example : ∃ s tr, (machine 2).Reaches s tr ∧ Ev.joined ∈ tr ∧ Ev.stopNow ∉ tr ∧ InTime 0 tr ∧
    InTime 2 tr := by
  refine ⟨_, _, ⟨sample, rfl⟩, by decide, by decide, ?_, ?_⟩
  · exact ⟨[.enqCalled (.ext 0)], .ext 0, ⟨_, rfl⟩, Or.inr (by decide)⟩
  · exact ⟨[.enqCalled (.ext 0), .enqueued (.ext 0) 0, .started 0 0, .enqCalled (.wrk 0), .enqueued (.wrk 0) 1,
     .stopRequested, .enqCalled (.wrk 0)], .wrk 0, ⟨_, rfl⟩, Or.inl ⟨0, rfl⟩⟩

/-- quick_stop: worker 0 was fetching and starts one more, an enqueue is refused. -/
example : ((machine 1).run [.enqTest (.ext 0), .enqPush (.ext 0) 0, .work 0, .setNow, .reqStop, .take 0 0,
    .enqTest (.ext 1), .finish 0 false, .work 0, .work 0, .join]).map (·.2) = some
    [.enqCalled (.ext 0), .enqueued (.ext 0) 0, .stopNow, .stopRequested, .started 0 0, .enqCalled (.ext 1),
     .refused (.ext 1), .finished 0 0 false, .exited 0, .joined] := by decide

end Verif.Pool
