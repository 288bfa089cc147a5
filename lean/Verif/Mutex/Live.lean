import Verif.Mutex.LiveSpec
import Verif.Mutex.Props
import Mathlib.Data.List.Dedup
/-!
# C103: every request is answered in the end
-/

namespace Verif.Mutex

/-- How many more steps the program of a task can take before it asks again. -/
def Pc.left : Pc → Nat
  | .idle => 0
  | .missed => 6
  | .queued | .woken => 5
  | .holding => 4
  | .rel1 => 3
  | .rel2 => 2
  | .rel3 | .relWake _ => 1

/-- The labels of the program of the task itself. -/
theorem left_step {weak : Bool} {s s' : St} {tr e : List Ev} {l : Lbl} (hi : Inv s tr) (hs : step weak s l = some (s', e)) (t : Nat) :
    (if l.agent = t then 1 else 0) + (s'.pc t).left ≤ (s.pc t).left + 7 * e.countP (isRequest t) := by
  cases l <;> simp only [step] at hs <;> (repeat' split at hs) <;> simp only [Option.some.injEq, Prod.mk.injEq, reduceCtorEq] at hs <;>
    obtain ⟨rfl, rfl⟩ := hs <;>
    simp only [Lbl.agent, upd_apply, List.countP_cons, List.countP_nil, isRequest, beq_iff_eq, reduceCtorEq, Bool.false_eq_true, if_false] <;>
    (first
      | (have := hi.relQ; grind [Pc.left])
      | grind [Pc.left])

/-- **C103.**  Nobody waits actively: in every execution, a task that has made `k` requests has taken at most `7 k` steps inside of the mutex (atomic operations, queue operations, resumptions).
In particular acquire(), try_acquire() and unlock() come back (or suspend) after a bounded number of their own steps, whatever the others do. -/
theorem mutex_bounded_steps (weak : Bool) (ls : List Lbl) (s : St) (tr : List Ev) (h : (machine weak).run ls = some (s, tr)) (t : Nat) :
    ls.countP (fun l => l.agent == t) ≤ 7 * tr.countP (isRequest t) := by
  suffices hh : ∀ (ls : List Lbl) (s0 s : St) (tr0 tr : List Ev), (machine weak).Reaches s0 tr0 → (machine weak).runFrom s0 ls = some (s, tr) →
      ls.countP (fun l => l.agent == t) + (s.pc t).left ≤ (s0.pc t).left + 7 * tr.countP (isRequest t) by
    have := hh ls _ _ _ _ (Machine.Reaches.init _) h
    simp only [machine, init, Pc.left] at this
    omega
  intro ls
  induction ls with
  | nil =>
    intro s0 s tr0 tr hr h
    simp only [Machine.runFrom, Option.some.injEq, Prod.mk.injEq] at h
    obtain ⟨rfl, rfl⟩ := h
    simp
  | cons l ls ih =>
    intro s0 s tr0 tr hr h
    simp only [Machine.runFrom] at h
    split at h
    · simp at h
    · rename_i s1 e hs
      split at h
      · simp at h
      · rename_i s2 es h2
        simp only [Option.some.injEq, Prod.mk.injEq] at h
        obtain ⟨rfl, rfl⟩ := h
        have h3 := ih s1 s2 _ _ (hr.step hs) h2
        have h4 := left_step (inv_of_reaches hr) hs t
        rw [List.countP_append, List.countP_cons]
        simp only [beq_iff_eq]
        omega

theorem countP_agents (ls : List Lbl) (f : Nat → Nat) : ∀ T : List Nat, T.Nodup → (∀ t ∈ T, ls.countP (fun l => l.agent == t) ≤ f t) →
    ls.countP (fun l => T.contains l.agent) ≤ (T.map f).sum := by
  intro T
  induction T with
  | nil => intro _ _; simp
  | cons t T ih =>
    intro hn hf
    have h1 := ih (List.nodup_cons.1 hn).2 (fun u hu => hf u (by simp [hu]))
    have h2 := hf t (by simp)
    have h3 : ls.countP (fun l => (t :: T).contains l.agent) ≤ ls.countP (fun l => l.agent == t) + ls.countP (fun l => T.contains l.agent) := by
      clear h1 h2 hf ih
      induction ls with
      | nil => simp
      | cons l ls ih =>
        simp only [List.countP_cons, List.contains_cons]
        simp only [List.contains_cons] at ih
        cases h1 : (l.agent == t) <;> cases h2 : T.contains l.agent <;> simp_all <;> omega
    simp only [List.map_cons, List.sum_cons]
    omega

theorem requests_sum (tr : List Ev) : ∀ T : List Nat, T.Nodup → (T.map fun t => tr.countP (isRequest t)).sum ≤ tr.countP isAnyRequest := by
  induction tr with
  | nil => intro T _; induction T <;> simp_all
  | cons x tr ih =>
    intro T hT
    have h1 : (T.map fun t => (x :: tr).countP (isRequest t)).sum = (T.map fun t => tr.countP (isRequest t)).sum + (T.map fun t => if isRequest t x = true then 1 else 0).sum := by
      clear ih hT
      induction T with
      | nil => simp
      | cons t T ih => simp only [List.map_cons, List.sum_cons, List.countP_cons] at ih ⊢; omega
    have h2 : (T.map fun t => if isRequest t x = true then 1 else 0).sum ≤ if isAnyRequest x = true then 1 else 0 := by
      clear ih h1
      have key : ∀ u, (T.map fun t => if (u == t) = true then 1 else 0).sum ≤ 1 := by
        intro u
        have h3 : (T.map fun t => if (u == t) = true then 1 else 0).sum = T.count u := by
          clear hT
          induction T with
          | nil => rfl
          | cons t T ih =>
            simp only [List.map_cons, List.sum_cons, List.count_cons, ih]
            by_cases h : u = t
            · subst h; simp; omega
            · simp [h, Ne.symm h]
        rw [h3]
        exact List.nodup_iff_count.1 hT u
      cases x <;> simp only [isRequest, isAnyRequest] <;> (try exact key _) <;> (induction T <;> simp_all)
    rw [h1, List.countP_cons]
    have := ih T hT
    omega

/-- **C103.**  All tasks together: an execution with `k` requests has at most `7 k` steps, in every interleaving. -/
theorem mutex_terminates (weak : Bool) (ls : List Lbl) (s : St) (tr : List Ev) (h : (machine weak).run ls = some (s, tr)) :
    ls.length ≤ 7 * tr.countP isAnyRequest := by
  have hT : ((ls.map Lbl.agent).dedup).Nodup := List.nodup_dedup _
  have h1 := countP_agents ls (fun t => 7 * tr.countP (isRequest t)) _ hT (fun t _ => mutex_bounded_steps weak ls s tr h t)
  have h2 : ls.countP (fun l => ((ls.map Lbl.agent).dedup).contains l.agent) = ls.length := by
    rw [List.countP_eq_length]
    intro l hl
    simp only [List.contains_iff_mem, List.mem_dedup]
    exact List.mem_map.2 ⟨l, hl, rfl⟩
  have h3 : (((ls.map Lbl.agent).dedup).map fun t => 7 * tr.countP (isRequest t)).sum = 7 * (((ls.map Lbl.agent).dedup).map fun t => tr.countP (isRequest t)).sum := by
    generalize (ls.map Lbl.agent).dedup = T
    induction T with
    | nil => simp
    | cons t T ih => simp only [List.map_cons, List.sum_cons, ih]; omega
  have h4 := requests_sum tr _ hT
  omega

/-- a new request, rather than a step of what is going on -/
def Lbl.isRequest : Lbl → Bool
  | .acquire _ | .tryAcquire _ => true
  | _ => false

/-- **C103.**  As long as somebody is in a call, about to be resumed, or holds the lock (and will release it), something happens. -/
theorem mutex_progress (weak : Bool) (s : St) (tr : List Ev) (h : (machine weak).Reaches s tr) (hq : ¬ Quiet tr) :
    ∃ l s' e, l.isRequest = false ∧ (machine weak).step s l = some (s', e) := by
  have hi := inv_of_reaches h
  simp only [Quiet, Classical.not_forall, not_or] at hq
  obtain ⟨t, h1, h2⟩ := hq
  rw [hi.life t] at h1 h2
  cases hp : s.pc t <;> simp [hp, Pc.life] at h1 h2
  · exact ⟨.suspend t, _, _, rfl, by simp [machine, step, hp]; exact ⟨rfl, rfl⟩⟩
  · exact ⟨.resume t, _, _, rfl, by simp [machine, step, hp]; exact ⟨rfl, rfl⟩⟩
  · exact ⟨.unlock t, _, _, rfl, by simp [machine, step, hp]; exact ⟨rfl, rfl⟩⟩
  · by_cases hf : s.flag = true
    · exact ⟨.retake t, _, _, rfl, by simp [machine, step, hp, hf]; exact ⟨rfl, rfl⟩⟩
    · exact ⟨.retake t, _, _, rfl, by simp [machine, step, hp, hf]; exact ⟨rfl, rfl⟩⟩
  · cases hqu : s.queue with
    | nil => exact ⟨.dequeueNone t, _, _, rfl, by simp [machine, step, hp, hqu]; exact ⟨rfl, rfl⟩⟩
    | cons u q => exact ⟨.dequeue t u, _, _, rfl, by simp [machine, step, hp, hqu]; exact ⟨rfl, rfl⟩⟩
  · exact ⟨.clear t, _, _, rfl, by simp [machine, step, hp]; exact ⟨rfl, rfl⟩⟩
  · exact ⟨.wake t, _, _, rfl, by simp [machine, step, hp]; exact ⟨rfl, rfl⟩⟩

/-- **C103.**  A task outside can always ask, and try_acquire() is answered on the spot. -/
theorem mutex_can_ask (weak : Bool) (s : St) (tr : List Ev) (h : (machine weak).Reaches s tr) (t : Nat) (ht : life t tr = some .out) :
    (∃ s' e, (machine weak).step s (.acquire t) = some (s', .asked t :: e)) ∧
    ∃ s', (machine weak).step s (.tryAcquire t) = some (s', [.tryAsked t, .granted t]) ∨ (machine weak).step s (.tryAcquire t) = some (s', [.tryAsked t, .refused t]) := by
  have hi := inv_of_reaches h
  have hp : s.pc t = .idle := by
    rw [hi.life t] at ht
    cases hp : s.pc t <;> simp [hp, Pc.life] at ht <;> rfl
  cases hf : s.flag
  · exact ⟨⟨_, _, by simp [machine, step, hp, hf]; exact ⟨rfl, rfl⟩⟩, _, Or.inl (by simp [machine, step, hp, hf]; rfl)⟩
  · exact ⟨⟨_, _, by simp [machine, step, hp, hf]; exact ⟨rfl, rfl⟩⟩, _, Or.inr (by simp [machine, step, hp, hf]; rfl)⟩

/-- requests are answered or pending -/
theorem answers_of_life (t : Nat) : ∀ (tr : List Ev) (l l' : Life), tr.foldl (fun l e => l.bind (lifeStep t · e)) (some l) = some l' →
    tr.countP (isRequest t) + (if l = .asking ∨ l = .trying ∨ l = .asleep ∨ l = .wakened then 1 else 0) =
      tr.countP (isAnswer t) + (if l' = .asking ∨ l' = .trying ∨ l' = .asleep ∨ l' = .wakened then 1 else 0) := by
  intro tr
  induction tr with
  | nil => intro l l' h; simp only [List.foldl_nil, Option.some.injEq] at h; subst h; rfl
  | cons x tr ih =>
    intro l l' h
    simp only [List.foldl_cons, Option.bind_some] at h
    cases hx : lifeStep t l x with
    | none =>
      rw [hx] at h
      have hn : ∀ tr : List Ev, tr.foldl (fun l e => l.bind (lifeStep t · e)) none = none := by
        intro tr; induction tr <;> simp_all
      rw [hn] at h; simp at h
    | some l1 =>
      rw [hx] at h
      have h1 := ih l1 l' h
      simp only [List.countP_cons]
      cases x <;> simp only [lifeStep] at hx <;> simp only [isRequest, isAnswer, beq_iff_eq] <;> grind

/-- **C103.**  When nothing can happen any more except new requests, and no task went to sleep in the window in which nobody holds the lock, every request has been answered
and every lock has been released: together with `mutex_terminates` and `mutex_progress`, every request is answered in the end, provided that holders release. -/
theorem mutex_all_served_partial (s : St) (tr : List Ev) (h : (machine false).Reaches s tr) (hh : SleepsOnlyWhileHeld tr)
    (hend : ∀ l s' e, (machine false).step s l = some (s', e) → l.isRequest = true) : AllServed tr := by
  have hq : Quiet tr := by
    apply Classical.byContradiction
    intro hq
    obtain ⟨l, s', e, h1, h2⟩ := mutex_progress false s tr h hq
    have := hend l s' e h2
    simp [h1] at this
  have hn := mutex_no_lost_wakeup_partial s tr h hh hq
  intro t
  have hl : life t tr = some .out := (hq t).resolve_right (hn t)
  refine ⟨?_, hl⟩
  have := answers_of_life t tr .out .out hl
  simpa using this

/-- **C103.**  If calls on the mutex do not overlap (one worker), newcomers do not overtake those who wait. -/
theorem mutex_newcomers_wait_partial (s : St) (tr : List Ev) (h : (machine false).Reaches s tr) (hh : CallsDoNotOverlap tr) : NewcomersWait tr := by
  revert hh
  refine h.inv' (fun s tr => CallsDoNotOverlap tr → NewcomersWait tr) ?_ ?_
  · intro _ p u hp
    rcases hp with hp | hp <;> simp [machine] at hp
  · intro s tr l s' e hr hI hst hh
    have hpre : CallsDoNotOverlap tr := fun p hp => hh p (hp.trans (List.prefix_append _ _))
    have ih := hI hpre
    have hi := inv_of_reaches hr
    have hc := covered_of_reaches hr (missed_sees_owner hr hpre).1
    -- the lock is free and somebody sleeps: impossible when no call is in progress
    have key : ∀ u x, (x = .asked u ∨ x = .tryAsked u) → tr ++ [x] <+: tr ++ e → s.pc u = .idle → s.flag = false → ∀ t, life t tr ≠ some .asleep := by
      intro u x hx hp hu hf t ht
      have hno : ∀ v, (s.pc v).owns ≠ true := fun v hv => by simp [hi.flagOf v hv] at hf
      have htq : s.pc t = .queued := by
        rw [hi.life t] at ht
        cases hp : s.pc t <;> simp [hp, Pc.life] at ht <;> rfl
      have hcall : inCall (life u (tr ++ [x])) := by
        rw [life_concat, hi.life u, hu]
        rcases hx with rfl | rfl <;> simp [lifeStep, Pc.life, inCall]
      rcases hi.whereQ t htq with hq | ⟨v, hv⟩
      · obtain ⟨_, v, hv⟩ := hc (by rintro h; simp [h] at hq)
        have hv1 : s.pc v = .rel1 := by
          have := hno v
          cases hp : s.pc v <;> simp [hp, Pc.willLook, Pc.owns] at hv this ⊢
        have hvu : v ≠ u := by rintro rfl; simp [hu] at hv1
        have hcv : inCall (life v (tr ++ [x])) := by
          rw [life_concat, hi.life v, hv1]
          rcases hx with rfl | rfl <;> simp [lifeStep, Pc.life, inCall, Ne.symm hvu]
        exact hvu (hh _ hp v u hcv hcall)
      · exact hno v (by simp [hv, Pc.owns])
    have hs : step false s l = some (s', e) := hst
    have fin : ∀ p u x, (x = .asked u ∨ x = .tryAsked u) → p ++ [x, .granted u] <+: tr ++ e → ¬ p ++ [x, .granted u] <+: tr → ∀ t, life t p ≠ some .asleep := by
      intro p u x hx hp hpp t
      have hone : ∀ y : Ev, p ++ [x, .granted u] <+: tr ++ [y] → p ++ [x] = tr ∧ .granted u = y := by
        intro y h1
        have h3 : (p ++ [x]) ++ [.granted u] <+: tr ++ [y] := by simpa using h1
        rw [concat_prefix_concat_iff] at h3
        rcases h3 with h3 | h3
        · exact absurd (by simpa using h3) hpp
        · exact h3
      have htwo : ∀ y z : Ev, p ++ [x, .granted u] <+: tr ++ [y, z] → (p ++ [x] = tr ∧ .granted u = y) ∨ (p = tr ∧ x = y ∧ .granted u = z) := by
        intro y z h1
        have h3 : (p ++ [x]) ++ [.granted u] <+: (tr ++ [y]) ++ [z] := by simpa using h1
        rw [concat_prefix_concat_iff] at h3
        rcases h3 with h3 | ⟨h3, h4⟩
        · exact Or.inl (hone y (by simpa using h3))
        · obtain ⟨h5, h6⟩ := List.append_inj' h3 rfl
          simp only [List.cons.injEq, and_true] at h6
          exact Or.inr ⟨h5, h6, h4⟩
      have hnew : ∀ f : Bool, s.pc u = .idle → s.flag = false → p = tr → p ++ [x, .granted u] <+: tr ++ e → life t p ≠ some .asleep := by
        intro _ h1 h2 h3 h4
        subst h3
        exact key u x hx (List.IsPrefix.trans ⟨[.granted u], by simp⟩ h4) h1 h2 t
      have hres : s.pc u = .woken → p ++ [x] = tr → False := by
        intro h1 h2
        have h3 := hi.life u
        rw [h1, ← h2, life_concat] at h3
        cases h4 : life u p with
        | none => simp [h4] at h3
        | some l =>
          rw [h4] at h3
          rcases hx with rfl | rfl <;> simp only [Option.bind_some, lifeStep, Pc.life] at h3 <;> grind
      have hp0 := hp
      cases l <;> simp only [step] at hs <;> (repeat' split at hs) <;> simp only [Option.some.injEq, Prod.mk.injEq, reduceCtorEq] at hs <;>
        obtain ⟨rfl, rfl⟩ := hs
      all_goals first
        | (simp only [List.append_nil] at hp; exact absurd hp hpp)
        | (obtain ⟨h1, h2⟩ := hone _ hp
           first
            | (cases h2; done)
            | (simp only [Ev.granted.injEq] at h2; subst h2; exact (hres (by assumption) h1).elim))
        | (rcases htwo _ _ hp with ⟨h1, h2⟩ | ⟨h1, h2, h3⟩
           · cases h2
           · first
              | (cases h3; done)
              | (simp only [Ev.granted.injEq] at h3; subst h3; exact hnew true (by assumption) (by simpa using ‹¬ s.flag = true›) h1 hp0))
    intro p u hp t
    rcases hp with hp | hp
    · by_cases hpp : p ++ [.asked u, .granted u] <+: tr
      · exact ih p u (Or.inl hpp) t
      · exact fin p u _ (Or.inl rfl) hp hpp t
    · by_cases hpp : p ++ [.tryAsked u, .granted u] <+: tr
      · exact ih p u (Or.inr hpp) t
      · exact fin p u _ (Or.inr rfl) hp hpp t

/-- 1 holds the lock, 2 waits for it, 3 does not -/
def Bypass (s : St) : Prop := s.flag = true ∧ s.queue = [2] ∧ s.pc 1 = .holding ∧ s.pc 2 = .queued ∧ s.pc 3 = .idle

/-- 3 slips into the window between the two halves of unlock(), and so does 1 -/
def bypass : List Lbl := [.unlock 1, .acquire 3, .retake 1, .unlock 3, .acquire 1, .retake 3]

def bypassTrace : List Ev := [.released 1, .asked 3, .granted 3, .returned 1, .released 3, .asked 1, .granted 1, .returned 3]

theorem bypass_step {s : St} (h : Bypass s) : ∃ s', (machine false).runFrom s bypass = some (s', bypassTrace) ∧ Bypass s' := by
  obtain ⟨h1, h2, h3, h4, h5⟩ := h
  refine ⟨_, by simp [bypass, Machine.runFrom, machine, step, upd_apply, h1, h3, h5]; exact ⟨rfl, rfl⟩, ?_⟩
  simp [Bypass, upd_apply, h2, h4]

theorem bypass_run (k : Nat) : ∀ s, Bypass s → ∃ ls s', (machine false).runFrom s ls = some (s', (List.replicate k bypassTrace).flatten) ∧ Bypass s' := by
  induction k with
  | zero => intro s h; exact ⟨[], s, rfl, h⟩
  | succ k ih =>
    intro s h
    obtain ⟨s1, h1, h2⟩ := bypass_step h
    obtain ⟨ls, s2, h3, h4⟩ := ih s1 h2
    refine ⟨bypass ++ ls, s2, ?_, h4⟩
    rw [Machine.runFrom_append, h1]
    simp [h3, List.replicate_succ]

/-- **C103, what fails.**  unlock() frees the lock before it looks for a waiter, and whoever asks in between gets it: a waiting task can be overtaken any number of times, by two tasks that take
turns.  (No wake-up is lost in these executions.) -/
theorem mutex_overtaking_refuted (k : Nat) : ∃ s tr, (machine false).Reaches s tr ∧ life 2 tr = some .asleep ∧ SleepsOnlyWhileHeld tr ∧
    k ≤ overtaken 2 tr := by
  obtain ⟨ls, s', h1, h2⟩ := bypass_run k { flag := true, queue := [2], pc := upd (upd (upd (fun _ => .idle) 1 .holding) 2 .missed) 2 .queued }
    (by simp [Bypass, upd_apply])
  have hr : (machine false).Reaches s' ([.asked 1, .granted 1, .asked 2, .slept 2] ++ (List.replicate k bypassTrace).flatten) := by
    refine ⟨[.acquire 1, .acquire 2, .suspend 2] ++ ls, ?_⟩
    have h0 : (machine false).runFrom init [.acquire 1, .acquire 2, .suspend 2] =
      some ({ flag := true, queue := [2], pc := upd (upd (upd (fun _ => .idle) 1 .holding) 2 .missed) 2 .queued }, [.asked 1, .granted 1, .asked 2, .slept 2]) := rfl
    change (machine false).runFrom init _ = _
    rw [Machine.runFrom_append, h0]
    simp [h1]
  refine ⟨s', _, hr, ?_, ?_, ?_⟩
  · have := (inv_of_reaches hr).life 2
    rw [this, h2.2.2.2.1]
    rfl
  · intro p t hp
    refine ⟨1, Or.inl ?_⟩
    have : p = [.asked 1, .granted 1, .asked 2] := by
      obtain ⟨q, hq⟩ := hp
      rcases p with _ | ⟨a, _ | ⟨b, _ | ⟨c, _ | ⟨d, p⟩⟩⟩⟩ <;> simp at hq
      · simp [hq]
      · obtain ⟨_, _, _, _, hq⟩ := hq
        exfalso
        have h4 : Ev.slept t ∈ (List.replicate k bypassTrace).flatten := by rw [← hq]; simp
        simp [bypassTrace] at h4
    subst this
    rfl
  · have h3 : ∀ k, (List.replicate k bypassTrace).flatten.countP (isOtherGrant 2) = 2 * k := by
      intro k
      induction k with
      | zero => rfl
      | succ k ih =>
        rw [List.replicate_succ, List.flatten_cons, List.countP_append, ih, show bypassTrace.countP (isOtherGrant 2) = 2 from rfl]
        omega
    simp only [overtaken]
    rw [show List.dropWhile (fun x => decide (x ≠ Ev.slept 2)) ([Ev.asked 1, .granted 1, .asked 2, .slept 2] ++ (List.replicate k bypassTrace).flatten) =
      .slept 2 :: (List.replicate k bypassTrace).flatten from rfl]
    rw [List.countP_cons, h3]
    omega

/-- A contended execution that meets the hypotheses and ends: all are served. -/
theorem live_nontrivial : ∃ s tr, (machine false).Reaches s tr ∧ SleepsOnlyWhileHeld tr ∧ Ev.slept 2 ∈ tr ∧
    (∀ l s' e, (machine false).step s l = some (s', e) → l.isRequest = true) := by
  refine ⟨_, _, ⟨orderly, rfl⟩, ?_, by decide, ?_⟩
  · intro p t hp
    refine ⟨1, Or.inl ?_⟩
    have : p = [.asked 1, .granted 1, .asked 2] := by
      obtain ⟨q, hq⟩ := hp
      rcases p with _ | ⟨a, _ | ⟨b, _ | ⟨c, _ | ⟨d, p⟩⟩⟩⟩ <;> simp at hq
      · simp [hq]
      · obtain ⟨_, _, _, _, hq⟩ := hq
        exfalso
        have : Ev.slept t ∈ p ++ Ev.slept t :: q := by simp
        rw [hq] at this
        simp at this
    subst this
    rfl
  · intro l s' e hs
    cases l <;> simp only [machine, step, init, upd_apply, Lbl.isRequest] at hs ⊢ <;> grind

end Verif.Mutex
