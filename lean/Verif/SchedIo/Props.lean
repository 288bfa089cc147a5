import Verif.SchedIo.Model
import Verif.Sched.Props
/-!
# Tasks may sleep and start io_uring operations (C101)
-/

namespace Verif.SchedIo

/-- what the scheduler sees -/
def proj (tr : List Ev) : List Sched.Ev := tr.filterMap fun | .run e => some e | _ => none

theorem proj_append (a b : List Ev) : proj (a ++ b) = proj a ++ proj b := List.filterMap_append

theorem proj_run (e : List Sched.Ev) : proj (e.map .run) = e := by
  induction e with
  | nil => rfl
  | cons x e ih => simpa [proj] using ih

structure Inv (ws : List Nat) (s : St) (tr : List Ev) : Prop where
  base : (Sched.machine ws).Reaches s.base (proj tr)
  here : ∀ t u, (s.base.place t = .running u) → u ∈ ws ∨ RunsOutside t u tr

/-- a base step keeps the `RunsOutside` tasks that it is not about, and tasks get to run on workers or outside -/
theorem base_here (ws : List Nat) (b : Sched.St) (tr : List Ev) (l : Sched.Lbl) (b' : Sched.St) (e : List Sched.Ev)
    (hi : Sched.Inv ws b (proj tr)) (hh : ∀ t u, (b.place t = .running u) → u ∈ ws ∨ RunsOutside t u tr) (hs : Sched.step ws b l = some (b', e)) :
    ∀ t u, (b'.place t = .running u) → u ∈ ws ∨ RunsOutside t u (tr ++ e.map .run) := by
  have keep : ∀ t u, RunsOutside t u tr → (∀ x ∈ e, x.task ≠ some t) → RunsOutside t u (tr ++ e.map .run) := by
    rintro t u ⟨a, c, rfl, hc⟩ hx
    refine ⟨a, c ++ e.map .run, by simp, fun x hm => ?_⟩
    rcases List.mem_append.1 hm with hm | hm
    · exact hc x hm
    · obtain ⟨y, hy, hxy⟩ := List.mem_map.1 hm
      cases hxy
      exact hx x hy
  have new : ∀ t u, e = [.ranHere t u] → RunsOutside t u (tr ++ e.map .run) := by
    rintro t u rfl
    exact ⟨tr, [], by simp, by simp⟩
  have hw := hi.worker
  intro t u ht
  have h0 := hh t u
  have k0 := keep t u
  have n0 := new t u
  have hwt := hw t
  clear keep new hh hw
  simp only [Sched.step] at hs
  split at hs
  · cases hs
  · cases l <;> simp only [Sched.stepLive, Sched.enqueue] at hs <;> (repeat' split at hs) <;>
      simp only [Option.some.injEq, Prod.mk.injEq, reduceCtorEq] at hs <;> obtain ⟨rfl, rfl⟩ := hs <;>
      (try simp only [upd_apply] at ht) <;>
      (try simp only [List.mem_cons, List.not_mem_nil, or_false, forall_eq, Sched.Ev.task, List.map_nil, List.append_nil, List.map_cons, List.cons.injEq, and_true, reduceCtorEq, false_implies, implies_true] at *) <;>
      grind [Sched.Place.onWorker]


theorem inv_step (ws : List Nat) (s : St) (tr : List Ev) (l : Lbl) (s' : St) (e : List Ev) (h : Inv ws s tr) (hs : step ws s l = some (s', e)) :
    Inv ws s' (tr ++ e) := by
  have hi := Sched.reach_inv h.base
  cases l with
  | base l =>
    simp only [step] at hs
    (repeat' split at hs) <;> simp only [Option.some.injEq, Prod.mk.injEq, reduceCtorEq] at hs
    obtain ⟨rfl, rfl⟩ := hs
    rename_i b e' hb
    refine ⟨?_, base_here ws _ _ _ _ _ hi h.here hb⟩
    rw [proj_append, proj_run]
    exact h.base.step hb
  | start t =>
    simp only [step] at hs
    (repeat' split at hs) <;> simp only [Option.some.injEq, Prod.mk.injEq, reduceCtorEq] at hs <;> obtain ⟨rfl, rfl⟩ := hs
    · rename_i u hu hw _ b e' hb
      have h1 : proj (tr ++ [Ev.started t u]) = proj tr := by simp [proj]
      have h2 : tr ++ Ev.started t u :: e'.map .run = (tr ++ [.started t u]) ++ e'.map .run := by simp
      rw [h2]
      refine ⟨?_, base_here ws _ _ _ _ _ (h1 ▸ hi) ?_ hb⟩
      · rw [proj_append, proj_run, h1]
        exact h.base.step hb
      · intro t' u' ht'
        rcases h.here t' u' ht' with h3 | ⟨a, c, rfl, hc⟩
        · exact Or.inl h3
        · exact Or.inr ⟨a, c ++ [.started t u], by simp, fun x hm => hc x (by simpa using hm)⟩
    · rename_i u hu hw
      have h1 : proj (tr ++ [Ev.crashed t u]) = proj tr := by simp [proj]
      refine ⟨h1 ▸ h.base, ?_⟩
      intro t' u' ht'
      rcases h.here t' u' ht' with h3 | ⟨a, c, rfl, hc⟩
      · exact Or.inl h3
      · exact Or.inr ⟨a, c ++ [.crashed t u], by simp, fun x hm => hc x (by simpa using hm)⟩

theorem reach_inv {ws : List Nat} {s : St} {tr : List Ev} (h : (machine ws).Reaches s tr) : Inv ws s tr :=
  Machine.Reaches.inv (M := machine ws) (I := fun s tr => Inv ws s tr)
    ⟨Machine.Reaches.init _, by intro t u ht; cases ht⟩ (fun s tr l s' e hi hs => inv_step ws s tr l s' e hi hs) h

theorem crash_step (ws : List Nat) (s : St) (l : Lbl) (s' : St) (e : List Ev) (hs : step ws s l = some (s', e)) (t u : Nat) (hm : Ev.crashed t u ∈ e) :
    e = [.crashed t u] ∧ u ∉ ws ∧ s.base.place t = .running u := by
  cases l with
  | base l =>
    simp only [step] at hs
    (repeat' split at hs) <;> simp only [Option.some.injEq, Prod.mk.injEq, reduceCtorEq] at hs
    obtain ⟨rfl, rfl⟩ := hs
    simp at hm
  | start t' =>
    simp only [step] at hs
    (repeat' split at hs) <;> simp only [Option.some.injEq, Prod.mk.injEq, reduceCtorEq] at hs <;> obtain ⟨rfl, rfl⟩ := hs
    · simp at hm
    · rename_i u' hu hw
      simp only [List.mem_cons, Ev.crashed.injEq, List.not_mem_nil, or_false] at hm
      obtain ⟨rfl, rfl⟩ := hm
      exact ⟨rfl, hw, hu⟩

/-- **C101.**  Starting a sleep or an io_uring operation crashes only if the task is being run, since its beginning and without interruption, by a thread outside of the runtime. -/
theorem start_on_worker_partial (ws : List Nat) (s : St) (tr : List Ev) (h : (machine ws).Reaches s tr) (p q : List Ev) (t u : Nat)
    (hx : tr = p ++ .crashed t u :: q) : u ∉ ws ∧ RunsOutside t u p := by
  refine Machine.Reaches.inv' (M := machine ws) (I := fun _ tr => ∀ p q, tr = p ++ .crashed t u :: q → u ∉ ws ∧ RunsOutside t u p) ?_ ?_ h p q hx
  · intro p q h; simp at h
  · intro s tr l s' e hr ih hs p q hx
    have hnew : Ev.crashed t u ∈ e → e = [.crashed t u] ∧ u ∉ ws ∧ RunsOutside t u tr := by
      intro hm
      obtain ⟨h1, h2, h3⟩ := crash_step ws s l s' e hs t u hm
      exact ⟨h1, h2, ((reach_inv hr).here _ _ h3).resolve_left h2⟩
    rcases List.append_eq_append_iff.1 hx with ⟨c, h1, h2⟩ | ⟨c, h1, h2⟩
    · obtain ⟨h3, h4, h5⟩ := hnew (by rw [h2]; simp)
      rw [h3] at h2
      cases c with
      | cons y c => simp at h2
      | nil => rw [h1, List.append_nil]; exact ⟨h4, h5⟩
    · cases c with
      | nil =>
        simp only [List.append_nil, List.nil_append] at h1 h2
        obtain ⟨h3, h4, h5⟩ := hnew (by rw [← h2]; simp)
        rw [← h1]; exact ⟨h4, h5⟩
      | cons y c =>
        simp only [List.cons_append, List.cons.injEq] at h2
        obtain ⟨rfl, h2⟩ := h2
        exact ih p c h1

/-- a task that did something is not unknown -/
theorem known (ws : List Nat) (s : Sched.St) (tr : List Sched.Ev) (h : (Sched.machine ws).Reaches s tr) (t : Nat) (x : Sched.Ev) (hx : x ∈ tr) (ht : x.task = some t) :
    s.place t ≠ .none := by
  refine Machine.Reaches.inv' (M := Sched.machine ws) (I := fun s tr => ∀ x ∈ tr, x.task = some t → s.place t ≠ .none) ?_ ?_ h x hx ht
  · simp
  · intro s tr l s' e hr ih hs x hx ht
    have h0 : (∃ y ∈ tr, y.task = some t) → s.place t ≠ .none := fun ⟨y, hy, h1⟩ => ih y hy h1
    have h1 : x ∈ tr → s.place t ≠ .none := fun hy => ih x hy ht
    clear ih h0
    simp only [Sched.machine, Sched.step] at hs
    rw [List.mem_append] at hx
    split at hs
    · cases hs
    · cases l <;> simp only [Sched.stepLive, Sched.enqueue] at hs <;> (repeat' split at hs) <;>
        simp only [Option.some.injEq, Prod.mk.injEq, reduceCtorEq] at hs <;> obtain ⟨rfl, rfl⟩ := hs <;>
        (try simp only [upd_apply]) <;>
        (try simp only [List.mem_cons, List.not_mem_nil, or_false] at hx) <;>
        grind [Sched.Ev.task]

/-- **C101.**  A task that the runtime has resumed, or that has come back from turn_into_scheduler(), never crashes this way. -/
theorem after_turn_safe (ws : List Nat) (s : St) (tr : List Ev) (h : (machine ws).Reaches s tr) (p q : List Ev) (t v : Nat)
    (hx : tr = p ++ q) (hres : Ev.run (.resumed t v) ∈ p ∨ Ev.run (.turned t v) ∈ p) (u : Nat) : Ev.crashed t u ∉ q := by
  intro hm
  obtain ⟨q1, q2, rfl⟩ := List.append_of_mem hm
  obtain ⟨_, a, b, hab, hb⟩ := start_on_worker_partial ws s tr h (p ++ q1) q2 t u (by simp [hx])
  -- a task that the scheduler has had is never run outside again
  have ha : ∀ x, .run x ∈ a → x.task ≠ some t := by
    intro x hxa ht
    have hp : proj tr = proj a ++ .ranHere t u :: (proj b ++ proj (.crashed t u :: q2)) := by
      have : tr = (a ++ .run (.ranHere t u) :: b) ++ .crashed t u :: q2 := by rw [← hab, hx]; simp
      rw [this, proj_append, proj_append]
      simp [proj]
    obtain ⟨s1, l, s2, hr, hs⟩ := Sched.at_ev (reach_inv h).base hp
    have hk := known ws s1 (proj a) hr t x (by simp only [proj, List.mem_filterMap]; exact ⟨_, hxa, rfl⟩) ht
    cases l <;> simp only [Sched.stepLive, Sched.enqueue] at hs <;> (repeat' split at hs) <;>
      simp only [Option.some.injEq, Prod.mk.injEq, reduceCtorEq, List.cons.injEq, Sched.Ev.ranHere.injEq, and_true, and_false, List.nil_eq] at hs
    rename_i hc
    obtain ⟨-, rfl, rfl⟩ := hs
    exact hk hc.1
  have main : ∀ x, Ev.run x ∈ p → x.task = some t → x = .ranHere t u := by
    intro x hxp ht
    have : Ev.run x ∈ a ++ .run (.ranHere t u) :: b := by rw [← hab]; simp [hxp]
    rcases List.mem_append.1 this with h1 | h1
    · exact absurd ht (ha x h1)
    · rcases List.mem_cons.1 h1 with h1 | h1
      · cases h1; rfl
      · exact absurd ht (hb x h1)
  rcases hres with h1 | h1
  · cases main _ h1 rfl
  · cases main _ h1 rfl

/-- **C101, refuted.**  A task that a thread outside of the runtime runs (for instance with local_thread_scheduler) and that sleeps or starts an operation crashes. -/
theorem start_outside_refuted : ∃ s tr, (machine [7]).Reaches s tr ∧ Ev.crashed 1 3 ∈ tr ∧ Ev.run (.ranHere 1 3) ∈ tr :=
  ⟨_, [.run (.ranHere 1 3), .crashed 1 3], ⟨[.base (.runHere 3 1), .start 1], rfl⟩, by simp, by simp⟩

/-- The same task may do it after turn_into_scheduler(). -/
theorem start_nontrivial : ∃ s tr, (machine [7]).Reaches s tr ∧ Ev.started 1 7 ∈ tr ∧ Ev.run (.ranHere 1 3) ∈ tr ∧ Ev.run (.turned 1 7) ∈ tr ∧ Ev.run (.woken 1 7) ∈ tr :=
  ⟨_, [.run (.ranHere 1 3), .run (.moved 1 7), .run (.resumed 1 7), .run (.turned 1 7), .started 1 7, .run (.suspended 1 7), .run (.woken 1 7)],
    ⟨[.base (.runHere 3 1), .base (.turn 1), .base (.turnYield 1 7), .base (.take 7 1 7), .base (.turnEnd 1), .start 1, .base (.wake 1 7)], rfl⟩,
    by simp, by simp, by simp, by simp⟩

end Verif.SchedIo
