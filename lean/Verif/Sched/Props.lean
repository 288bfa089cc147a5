import Verif.Sched.Model
import Verif.Common.AtEvent
import Mathlib.Data.List.Dedup
/-!
# C57, C67, C68
-/

namespace Verif.Sched

def Place.inQueue : Place → Bool
  | .queued | .turnQueued => true
  | _ => false

def Place.onWorker (ws : List Nat) : Place → Prop
  | .turned u => u ∈ ws
  | _ => True

structure Inv (ws : List Nat) (s : St) (tr : List Ev) : Prop where
  one : ∀ t, (s.place t).inQueue = true → ∃ w ∈ ws, (s.queue w).count t = 1 ∧ ∀ k, k ≠ w → t ∉ s.queue k
  none : ∀ t, (s.place t).inQueue = false → ∀ k, t ∉ s.queue k
  wait : ∀ t u, s.place t = .waiting u → SuspendedOn t u tr
  worker : ∀ t, (s.place t).onWorker ws
  bal : ∀ t, tr.countP (isEnqueue t) = tr.countP (isResume t) + (s.place t).inQueue.toNat
  stop : s.stopNow = true → Ev.quickStop ∈ tr
  null : s.place 0 = .none

theorem suspendedOn_concat (t u : Nat) (tr : List Ev) (x : Ev) (h : SuspendedOn t u tr) (hx : x.task ≠ some t) : SuspendedOn t u (tr ++ [x]) := by
  obtain ⟨a, b, rfl, hb⟩ := h
  refine ⟨a, b ++ [x], by simp, fun y hy => ?_⟩
  rcases List.mem_append.1 hy with h | h
  · exact hb y h
  · rw [List.mem_singleton.1 h]; exact hx

theorem suspendedOn_new (t u : Nat) (tr : List Ev) : SuspendedOn t u (tr ++ [.suspended t u]) := ⟨tr, [], rfl, by simp⟩

theorem target_mem {ws : List Nat} {a k w : Nat} (h : target ws a k = some w) : w ∈ ws := by
  unfold target at h; grind

theorem inv_enqueue {ws : List Nat} {s : St} {tr : List Ev} (h : Inv ws s tr) {a k t : Nat} {pl : Place} {ev : Nat → Ev} {s' : St} {e : List Ev}
    (hs : enqueue ws s a k t pl ev = some (s', e)) (hq : (s.place t).inQueue = false) (hpl : pl.inQueue = true)
    (hev : ∀ w, (ev w).task = some t ∧ isEnqueue t (ev w) = true ∧ (∀ x, isResume x (ev w) = false)) : Inv ws s' (tr ++ e) := by
  obtain ⟨one, none, wait, worker, bal, stop, null⟩ := h
  have hen : ∀ x w, x ≠ t → isEnqueue x (ev w) = false := by
    intro x w hx
    have := (hev w).1
    cases hc : ev w <;> simp [hc, Ev.task, isEnqueue] at this ⊢ <;> omega
  unfold enqueue at hs
  split at hs
  · simp at hs
  rename_i w hw
  have hmem := target_mem hw
  split at hs
  · simp only [Option.some.injEq, Prod.mk.injEq] at hs; obtain ⟨rfl, rfl⟩ := hs
    rw [List.append_nil]; exact ⟨one, none, wait, worker, bal, stop, null⟩
  rename_i ht0
  split at hs <;> simp only [Option.some.injEq, Prod.mk.injEq] at hs <;> obtain ⟨rfl, rfl⟩ := hs
  · constructor <;> (try dsimp only)
    · exact one
    · exact none
    · intro x u hx; exact suspendedOn_concat _ _ _ _ (wait x u hx) (by simp [Ev.task])
    · exact worker
    · intro x; have := bal x; simp [isEnqueue, isResume]; omega
    · intro h; simp [stop h]
    · exact null
  · constructor <;> (try dsimp only)
    · intro x hx
      by_cases hxt : x = t
      · subst hxt
        have hn := none x hq
        refine ⟨w, hmem, ?_, fun k hk => ?_⟩
        · simp [List.count_eq_zero.2 (hn w)]
        · rw [upd_ne _ _ hk]; exact hn k
      · rw [upd_ne _ _ hxt] at hx
        obtain ⟨v, hv, h1, h2⟩ := one x hx
        refine ⟨v, hv, ?_, fun k hk => ?_⟩
        · simp only [upd_apply]; split
          · rename_i hvw; subst hvw; rw [List.count_append, h1, List.count_eq_zero.2 (by simp [hxt])]
          · exact h1
        · have := h2 k hk
          simp only [upd_apply]; split
          · rename_i hvw; subst hvw; simp [this, hxt]
          · exact this
    · intro x hx k
      by_cases hxt : x = t
      · subst hxt; rw [upd_same, hpl] at hx; simp at hx
      · rw [upd_ne _ _ hxt] at hx
        have := none x hx k
        simp only [upd_apply]; split
        · rename_i hvw; subst hvw; simp [this, hxt]
        · exact this
    · intro x u hx
      by_cases hxt : x = t
      · subst hxt; rw [upd_same] at hx; subst hx; simp [Place.inQueue] at hpl
      · rw [upd_ne _ _ hxt] at hx
        exact suspendedOn_concat _ _ _ _ (wait x u hx) (by rw [(hev w).1]; simpa using fun h => hxt h.symm)
    · intro x
      by_cases hxt : x = t
      · subst hxt; rw [upd_same]; cases pl <;> simp [Place.inQueue, Place.onWorker] at hpl ⊢
      · rw [upd_ne _ _ hxt]; exact worker x
    · intro x
      have hb := bal x
      by_cases hxt : x = t
      · subst hxt
        rw [List.countP_append, List.countP_append, hb, upd_same, hpl, hq]
        simp [List.countP_singleton, (hev w).2.1, (hev w).2.2]
      · rw [List.countP_append, List.countP_append, hb, upd_ne _ _ hxt]
        simp [List.countP_singleton, hen x w hxt, (hev w).2.2]
    · intro h; simp [stop h]
    · rw [upd_ne _ _ (fun h => ht0 h.symm)]; exact null

theorem inv_step (ws : List Nat) (s : St) (tr : List Ev) (l : Lbl) (s' : St) (e : List Ev) (h : Inv ws s tr) (hs : step ws s l = some (s', e)) :
    Inv ws s' (tr ++ e) := by
  simp only [step] at hs
  split at hs
  · simp at hs
  cases l with
  | spawn u t k | spawnTo u t k =>
    simp only [stepLive] at hs
    split at hs
    · rename_i hp
      exact inv_enqueue h hs (by rw [hp]; rfl) rfl (fun w => ⟨rfl, by simp [isEnqueue], fun _ => rfl⟩)
    · simp at hs
  | wake t k | yield t k | turnYield t k =>
    simp only [stepLive] at hs
    split at hs
    · rename_i hp
      exact inv_enqueue h hs (by rw [hp]; rfl) rfl (fun w => ⟨rfl, by simp [isEnqueue], fun _ => rfl⟩)
    · simp at hs
  | quickStop =>
    simp only [stepLive, Option.some.injEq, Prod.mk.injEq] at hs
    obtain ⟨rfl, rfl⟩ := hs
    obtain ⟨one, none, wait, worker, bal, stop, null⟩ := h
    constructor <;> (try dsimp only)
    · exact one
    · exact none
    · intro x u hx; exact suspendedOn_concat _ _ _ _ (wait x u hx) (by simp [Ev.task])
    · exact worker
    · intro x; have := bal x; simp [isEnqueue, isResume]; omega
    · simp
    · exact null
  | take w t k =>
    obtain ⟨one, none, wait, worker, bal, stop, null⟩ := h
    simp only [stepLive] at hs
    split at hs
    · rename_i hc
      obtain ⟨hw, hk⟩ := hc
      have key : ∀ pl, (s.place t).inQueue = true → pl.inQueue = false → (∀ u, pl ≠ .waiting u) → pl.onWorker ws →
          Inv ws { s with queue := upd s.queue k ((s.queue k).erase t), place := upd s.place t pl } (tr ++ [.resumed t w]) := by
        intro pl hin hpl hwt hon
        obtain ⟨v, hv, h1, h2⟩ := one t hin
        have hkv : k = v := by by_contra hne; exact h2 k hne hk
        subst hkv
        constructor <;> (try dsimp only)
        · intro x hx
          by_cases hxt : x = t
          · subst hxt; rw [upd_same, hpl] at hx; simp at hx
          · rw [upd_ne _ _ hxt] at hx
            obtain ⟨v', hv', h3, h4⟩ := one x hx
            refine ⟨v', hv', ?_, fun j hj => ?_⟩
            · simp only [upd_apply]; split
              · rename_i e; subst e; rw [List.count_erase_of_ne hxt]; exact h3
              · exact h3
            · have := h4 j hj
              simp only [upd_apply]; split
              · rename_i e; subst e; exact fun hm => this (List.mem_of_mem_erase hm)
              · exact this
        · intro x hx j
          by_cases hxt : x = t
          · subst hxt
            simp only [upd_apply]; split
            · rename_i e; subst e
              rw [← List.count_eq_zero, List.count_erase_self, h1]
            · rename_i hne; exact h2 j hne
          · rw [upd_ne _ _ hxt] at hx
            have := none x hx j
            simp only [upd_apply]; split
            · rename_i e; subst e; exact fun hm => this (List.mem_of_mem_erase hm)
            · exact this
        · intro x u hx
          by_cases hxt : x = t
          · subst hxt; rw [upd_same] at hx; exact absurd hx (hwt u)
          · rw [upd_ne _ _ hxt] at hx
            exact suspendedOn_concat _ _ _ _ (wait x u hx) (by simpa [Ev.task] using fun h => hxt h.symm)
        · intro x
          by_cases hxt : x = t
          · subst hxt; rw [upd_same]; exact hon
          · rw [upd_ne _ _ hxt]; exact worker x
        · intro x
          have hb := bal x
          by_cases hxt : x = t
          · subst hxt
            rw [List.countP_append, List.countP_append, hb, upd_same, hpl, hin]
            simp [isEnqueue, isResume]
          · rw [List.countP_append, List.countP_append, hb, upd_ne _ _ hxt]
            have : ¬ t = x := fun h => hxt h.symm
            simp [isEnqueue, isResume, this]
        · intro h; simp [stop h]
        · have ht0 : 0 ≠ t := by rintro rfl; rw [null] at hin; simp [Place.inQueue] at hin
          rw [upd_ne _ _ ht0]; exact null
      split at hs <;> simp only [Option.some.injEq, Prod.mk.injEq, reduceCtorEq] at hs <;> obtain ⟨rfl, rfl⟩ := hs
      · rename_i hp
        exact key _ (by rw [hp]; rfl) rfl (by simp) trivial
      · rename_i hp
        exact key _ (by rw [hp]; rfl) rfl (by simp) hw
    · simp at hs
  | runHere u t | suspend t | turn t | turnEnd t | finish t =>
    obtain ⟨one, none, wait, worker, bal, stop, null⟩ := h
    simp only [stepLive] at hs
    (repeat' split at hs) <;> simp only [Option.some.injEq, Prod.mk.injEq, reduceCtorEq] at hs <;> obtain ⟨rfl, rfl⟩ := hs
    all_goals
      constructor <;> (try dsimp only) <;> (try rw [List.append_nil])
      · intro x; have := one x; (try simp only [upd_apply]); grind [Place.inQueue]
      · intro x; have := none x; (try simp only [upd_apply]); grind [Place.inQueue]
      · intro x v; have := wait x v; have h2 := suspendedOn_concat x v tr; have h3 := suspendedOn_new x v tr
        (try simp only [upd_apply]); grind [Ev.task]
      · intro x; have := worker x; (try simp only [upd_apply]); grind [Place.onWorker]
      · intro x; have := bal x; (try simp only [upd_apply, List.countP_append, List.countP_singleton]); grind [Place.inQueue, isEnqueue, isResume]
      · intro h; simp [stop h]
      · (try simp only [upd_apply]); grind

theorem reach_inv {ws : List Nat} {s : St} {tr : List Ev} (h : (machine ws).Reaches s tr) : Inv ws s tr :=
  Machine.Reaches.inv (M := machine ws) (Inv ws)
    (by constructor <;> simp [machine, init, Place.inQueue, Place.onWorker])
    (fun s tr l s' e hi hs => inv_step ws s tr l s' e hi hs) h

/-- every step emits at most one event -/
theorem step_single (ws : List Nat) (s : St) (l : Lbl) (s' : St) (e : List Ev) (hs : (machine ws).step s l = some (s', e)) : e.length ≤ 1 := by
  simp only [machine, step] at hs
  split at hs
  · simp at hs
  cases l <;> simp only [stepLive, enqueue] at hs <;> (repeat' split at hs) <;>
    simp only [Option.some.injEq, Prod.mk.injEq, reduceCtorEq] at hs <;> obtain ⟨rfl, rfl⟩ := hs <;> simp

theorem at_ev {ws : List Nat} {s : St} {tr p q : List Ev} {x : Ev} (h : (machine ws).Reaches s tr) (hx : tr = p ++ x :: q) :
    ∃ s1 l s2, (machine ws).Reaches s1 p ∧ stepLive ws s1 l = some (s2, [x]) := by
  obtain ⟨s1, l, s2, hr, hs⟩ := h.at_event_single (step_single ws) hx
  simp only [machine, step] at hs
  split at hs
  · simp at hs
  · exact ⟨s1, l, s2, hr, hs⟩

/-- **C57.**  Waking a waiting task, from whatever thread, puts it into the queue of the worker on which it suspended; if it suspended elsewhere, into some worker's queue. -/
theorem wake_up_goes_back (ws : List Nat) (s : St) (tr : List Ev) (h : (machine ws).Reaches s tr) (p q : List Ev) (t w : Nat)
    (hx : tr = p ++ .woken t w :: q) : w ∈ ws ∧ ∃ u, SuspendedOn t u p ∧ (u ∈ ws → w = u) := by
  obtain ⟨s1, l, s2, hr, hs⟩ := at_ev h hx
  have hi := reach_inv hr
  cases l <;> simp only [stepLive, enqueue] at hs <;> (repeat' split at hs) <;>
    simp only [Option.some.injEq, Prod.mk.injEq, reduceCtorEq, List.cons.injEq, Ev.woken.injEq, and_true, and_false, List.nil_eq] at hs
  rename_i a hp _ w' htg _ _
  obtain ⟨-, rfl, rfl⟩ := hs
  refine ⟨target_mem htg, a, hi.wait _ _ hp, fun ha => ?_⟩
  unfold target at htg; rw [if_pos ha] at htg; cases htg; rfl

/-- **C57.**  Enqueueing an empty handle (a moved-from task: handle 0) has no effect: no event is ever about it. -/
theorem null_handle_ignored (ws : List Nat) (s : St) (tr : List Ev) (h : (machine ws).Reaches s tr) (x : Ev) (hx : x ∈ tr) : x.task ≠ some 0 := by
  obtain ⟨p, q, rfl⟩ := List.append_of_mem hx
  obtain ⟨s1, l, s2, hr, hs⟩ := at_ev h rfl
  have hi := reach_inv hr
  have hn := hi.null
  have hq := fun k => hi.none 0 (by rw [hn]; rfl) k
  cases l <;> simp only [stepLive, enqueue] at hs <;> (repeat' split at hs) <;>
    simp only [Option.some.injEq, Prod.mk.injEq, reduceCtorEq, List.cons.injEq, and_true, and_false, List.nil_eq] at hs <;>
    obtain ⟨rfl, rfl⟩ := hs <;> simp only [Ev.task, ne_eq, Option.some.injEq, reduceCtorEq, not_false_eq_true] <;> (try rintro rfl) <;> grind

/-- **C57.**  Every entry of a queue is a task put there and not taken yet, in one queue only. -/
theorem queues_hold_tasks (ws : List Nat) (s : St) (tr : List Ev) (h : (machine ws).Reaches s tr) (t : Nat) :
    tr.countP (isEnqueue t) = tr.countP (isResume t) + ws.dedup.countP (fun w => decide (t ∈ s.queue w)) ∧
    ∀ k, (s.queue k).count t ≤ 1 := by
  have hi := reach_inv h
  have hb := hi.bal t
  cases hq : (s.place t).inQueue with
  | false =>
    rw [hq] at hb
    have hn := hi.none t hq
    refine ⟨?_, fun k => by rw [List.count_eq_zero.2 (hn k)]; omega⟩
    have : ws.dedup.countP (fun w => decide (t ∈ s.queue w)) = 0 := List.countP_eq_zero.2 (fun w _ => by simp [hn w])
    rw [hb, this]; rfl
  | true =>
    rw [hq] at hb
    obtain ⟨w, hw, h1, h2⟩ := hi.one t hq
    refine ⟨?_, fun k => ?_⟩
    · rw [hb]
      have : ws.dedup.countP (fun w => decide (t ∈ s.queue w)) = ws.dedup.count w := by
        unfold List.count
        apply List.countP_congr
        intro v _
        have hm : t ∈ s.queue w := List.count_pos_iff.1 (by omega)
        by_cases hv : v = w
        · subst hv; simp [hm]
        · simp [h2 v hv, hv]
      rw [this, (List.nodup_dedup ws).count, if_pos (List.mem_dedup.2 hw)]; rfl
    · by_cases hk : k = w
      · subst hk; omega
      · rw [List.count_eq_zero.2 (h2 k hk)]; omega

/-- Tasks given to the scheduler are run by workers only. -/
theorem scheduled_run_on_workers (ws : List Nat) (s : St) (tr : List Ev) (h : (machine ws).Reaches s tr) (t u : Nat) (hx : Ev.resumed t u ∈ tr) : u ∈ ws := by
  obtain ⟨p, q, hx⟩ := List.append_of_mem hx
  obtain ⟨s1, l, s2, hr, hs⟩ := at_ev h hx
  cases l <;> simp only [stepLive, enqueue] at hs <;> (repeat' split at hs) <;>
    simp only [Option.some.injEq, Prod.mk.injEq, reduceCtorEq, List.cons.injEq, Ev.resumed.injEq, and_true, and_false, List.nil_eq] at hs
  all_goals
    rename_i hc _ _
    obtain ⟨-, rfl, rfl⟩ := hs
    exact hc.1

/-- **C67.**  After co_await turn_into_scheduler() the task runs on a worker thread of the scheduler, wherever it ran before. -/
theorem turn_into_scheduler_on_worker (ws : List Nat) (s : St) (tr : List Ev) (h : (machine ws).Reaches s tr) (t u : Nat)
    (hx : Ev.turned t u ∈ tr) : u ∈ ws := by
  obtain ⟨p, q, hx⟩ := List.append_of_mem hx
  obtain ⟨s1, l, s2, hr, hs⟩ := at_ev h hx
  have hi := reach_inv hr
  cases l <;> simp only [stepLive, enqueue] at hs <;> (repeat' split at hs) <;>
    simp only [Option.some.injEq, Prod.mk.injEq, reduceCtorEq, List.cons.injEq, Ev.turned.injEq, and_true, and_false, List.nil_eq] at hs
  · rename_i hc
    obtain ⟨-, rfl, rfl⟩ := hs
    exact hc
  · rename_i t' _ _ hp
    obtain ⟨-, rfl, rfl⟩ := hs
    have := hi.worker t'
    rw [hp] at this; exact this

/-- **C68, proved part.**  Handing tasks to the scheduler ends the program only after quick_stop(). -/
theorem enqueue_safe_before_quick_stop_partial (ws : List Nat) (s : St) (tr : List Ev) (h : (machine ws).Reaches s tr) (p q : List Ev)
    (hx : tr = p ++ .terminated :: q) : Ev.quickStop ∈ p := by
  obtain ⟨s1, l, s2, hr, hs⟩ := at_ev h hx
  refine (reach_inv hr).stop ?_
  cases l <;> simp only [stepLive, enqueue] at hs <;> (repeat' split at hs) <;>
    simp only [Option.some.injEq, Prod.mk.injEq, reduceCtorEq, List.cons.injEq, and_true, and_false, List.nil_eq] at hs <;> assumption

/-- **C68, refuted.**  A running task that yields, or wakes a waiting one (e.g. by unlocking a mutex), after quick_stop() - which runtime_exit() and SIGINT call - ends the program
with std::terminate. -/
theorem enqueue_after_quick_stop_refuted :
    (∃ s, (machine [7]).Reaches s [.moved 1 7, .resumed 1 7, .quickStop, .terminated]) ∧
    ∃ s, (machine [7, 8]).Reaches s [.moved 1 7, .resumed 1 7, .suspended 1 7, .moved 2 8, .resumed 2 8, .quickStop, .terminated] :=
  ⟨⟨_, [.spawn 1 1 7, .take 7 1 7, .quickStop, .yield 1 7], rfl⟩,
   ⟨_, [.spawn 1 1 7, .take 7 1 7, .suspend 1, .spawnTo 8 2 7, .take 8 2 8, .quickStop, .wake 1 7], rfl⟩⟩

/-- Suspended on 7 (stolen from 8's queue), woken by somebody: back to 7; a task run by thread 1 outside of the pool turns into the scheduler. -/
example : ∃ s, (machine [7, 8]).Reaches s [.moved 1 8, .resumed 1 7, .suspended 1 7, .woken 1 7, .ranHere 2 1, .moved 2 8, .resumed 2 8, .turned 2 8, .turned 2 8] :=
  ⟨_, [.spawnTo 8 1 7, .spawn 3 0 7, .take 7 1 8, .suspend 1, .wake 1 8, .runHere 1 2, .turn 2, .turnYield 2 8, .take 8 2 8, .turnEnd 2, .turn 2], rfl⟩

end Verif.Sched
