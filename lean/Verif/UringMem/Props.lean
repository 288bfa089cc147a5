import Verif.Uring.Props
import Verif.UringMem.Model
/-!
# C99: the kernel does not touch memory of a task that may be gone
-/

namespace Verif.UringMem

theorem loopEvents_append (a b : List Ev) : loopEvents (a ++ b) = loopEvents a ++ loopEvents b := by simp [loopEvents]
theorem loopEvents_map (e : List Uring.Ev) : loopEvents (e.map .loop) = e := by
  induction e with
  | nil => rfl
  | cons a t ih => simpa [loopEvents] using ih

theorem base_reaches {s : St} {tr : List Ev} (h : machine.Reaches s tr) : Uring.machine.Reaches s.base (loopEvents tr) := by
  refine Machine.Reaches.inv (M := machine) (fun s tr => Uring.machine.Reaches s.base (loopEvents tr)) (Machine.Reaches.init _) ?_ h
  clear h s tr
  intro s tr l s' e ih hs
  change step s l = some (s', e) at hs
  rw [loopEvents_append]
  cases l with
  | base l =>
    simp only [step] at hs
    split at hs <;> simp only [Option.some.injEq, Prod.mk.injEq, reduceCtorEq] at hs
    rename_i hst
    obtain ⟨rfl, rfl⟩ := hs
    rw [loopEvents_map]
    exact ih.step hst
  | _ =>
    simp only [step] at hs
    (repeat' split at hs) <;> simp only [Option.some.injEq, Prod.mk.injEq, reduceCtorEq] at hs <;> obtain ⟨rfl, rfl⟩ := hs
    all_goals simpa [loopEvents] using ih

/-- An operation the kernel is working on belongs to an execution that has been submitted and has not ended. -/
theorem kern_open {s : Uring.St} {tr : List Uring.Ev} (h : Uring.machine.Reaches s tr) (hp : Uring.Proper tr) {x : Uring.Sqe} (hx : x ∈ s.kern) :
    (∃ c n k q, Uring.Ev.submitted c x.b n k q ∈ tr) ∧ Uring.endings x.b tr = 0 ∧ ∃ o ∈ s.ops, o.b = x.b := by
  have hi := Uring.inv_of_reaches h hp
  obtain ⟨o, ho, -, hob⟩ := hi.ownK x hx
  obtain ⟨⟨q, hq⟩, -⟩ := hi.live o ho
  have ht := hi.total o.b
  have hc : 0 < (s.ops.map Uring.Op.b).count o.b := List.count_pos_iff.2 (List.mem_map.2 ⟨o, ho, rfl⟩)
  rw [hob] at hq ht hc
  exact ⟨⟨_, _, _, _, hq⟩, by split at ht <;> omega, o, ho, hob⟩

/-- **C99 (partial).**  If batches are used properly and no worker's loop is destroyed while a task waits in it, the kernel accesses the memory of operations only
between the submission of their execution and its end: while the task waits.  Missing: `kernel_touches_freed_refuted`. -/
theorem kernel_memory_safe_partial (s : St) (tr : List Ev) (h : machine.Reaches s tr) (hp : Uring.Proper (loopEvents tr))
    (hd : ∀ c b, Ev.loop (.destroyed c b) ∉ tr) : KernelSafe tr := by
  have key : KernelSafe tr ∧ s.orph = [] := by
    revert hp hd
    refine Machine.Reaches.inv' (M := machine) (fun s tr => Uring.Proper (loopEvents tr) → (∀ c b, Ev.loop (.destroyed c b) ∉ tr) → KernelSafe tr ∧ s.orph = [])
      ?_ ?_ h
    · intro _ _
      exact ⟨fun p b i hh => absurd hh not_concat_prefix_nil, rfl⟩
    clear h s tr
    intro s tr l s' e hr ih hs hp hd
    have hpt : Uring.Proper (loopEvents tr) := by rw [loopEvents_append] at hp; exact hp.mono (List.prefix_append _ _)
    obtain ⟨i1, i2⟩ := ih hpt (fun c b hm => hd c b (List.mem_append_left _ hm))
    have hb := base_reaches hr
    change step s l = some (s', e) at hs
    -- steps that touch nothing
    have quiet : (∀ b i, Ev.touched b i ∉ e) → KernelSafe (tr ++ e) := by
      intro hq p b i hh
      rcases concat_prefix_append_cases hh with hh | ⟨q, hq', rfl⟩
      · exact i1 p b i hh
      · exact absurd (hq'.subset (by simp)) (hq b i)
    cases l with
    | base l =>
      simp only [step] at hs
      split at hs <;> simp only [Option.some.injEq, Prod.mk.injEq, reduceCtorEq] at hs
      rename_i b e0 hst
      obtain ⟨rfl, rfl⟩ := hs
      refine ⟨quiet (by simp), ?_⟩
      dsimp only
      split
      · rename_i hl
        subst hl
        rcases hk : s.base.kern with _ | ⟨x, xs⟩
        · rfl
        · exfalso
          obtain ⟨-, -, o, ho, -⟩ := kern_open hb hpt (x := x) (by rw [hk]; simp)
          simp only [Uring.step] at hst
          split at hst <;> simp only [Option.some.injEq, Prod.mk.injEq, reduceCtorEq] at hst
          obtain ⟨-, rfl⟩ := hst
          exact hd o.c o.b (by simp only [List.mem_append, List.mem_map]; exact Or.inr ⟨.destroyed o.c o.b, Or.inl ⟨o, ho, rfl⟩, rfl⟩)
      · exact i2
    | touch j =>
      simp only [step] at hs
      (repeat' split at hs) <;> simp only [Option.some.injEq, Prod.mk.injEq, reduceCtorEq] at hs
      rename_i x hx _
      obtain ⟨rfl, rfl⟩ := hs
      refine ⟨?_, i2⟩
      intro p b i hh
      rcases concat_prefix_append_cases hh with hh | ⟨q, hq', rfl⟩
      · exact i1 p b i hh
      · obtain ⟨rfl, he⟩ := concat_prefix_cons hq' (by simp)
        simp only [Ev.touched.injEq] at he
        obtain ⟨rfl, rfl⟩ := he
        obtain ⟨h1, h2, -⟩ := kern_open hb hpt (List.mem_of_getElem? hx)
        simpa using ⟨h1, h2⟩
    | touchOrphan j =>
      simp only [step, i2] at hs
      simp at hs
    | cancel j =>
      simp only [step, Option.some.injEq, Prod.mk.injEq] at hs
      obtain ⟨rfl, rfl⟩ := hs
      exact ⟨quiet (by simp), by simp [i2]⟩
  exact key.1

/-- **C99, what fails.**  A task waits for a read; its worker's thread ends (quick_stop, SIGINT, end of the runtime): the loop destroys the task and with it the buffer,
and the kernel, which has not cancelled the read yet, writes into it. -/
theorem kernel_touches_freed_refuted :
    ∃ (s : St) (tr p : List Ev), machine.Reaches s tr ∧ Uring.Proper (loopEvents tr) ∧ p ++ [.touched 0 0] <+: tr ∧ Ev.loop (.destroyed 7 0) ∈ p := by
  refine ⟨_, [.loop (.submitted 7 0 1 0 0), .loop (.destroyed 7 0), .loop .ended, .touched 0 0],
    [.loop (.submitted 7 0 1 0 0), .loop (.destroyed 7 0), .loop .ended],
    ⟨[.base (.newBatch 0 1), .base (.exec 7 0 9), .base .destroy, .touchOrphan 0], rfl⟩, ⟨?_, by simp [loopEvents]⟩, ⟨[], rfl⟩, by simp⟩
  intro c b n k q hm
  simp [loopEvents] at hm; omega

/-- The hypotheses of `kernel_memory_safe_partial` are met: two tasks, accesses before each completion, the loop ends when nobody waits. -/
theorem kernel_memory_nontrivial : ∃ (s : St) (tr : List Ev), machine.Reaches s tr ∧ Uring.Proper (loopEvents tr) ∧
    (∀ c b, Ev.loop (.destroyed c b) ∉ tr) ∧ Ev.touched 0 1 ∈ tr ∧ Ev.touched 1 0 ∈ tr ∧ Ev.loop (.resumed 7 1 [10]) ∈ tr ∧ Ev.loop .ended ∈ tr := by
  refine ⟨_, [.loop (.submitted 5 0 2 0 0), .loop (.submitted 7 1 1 0 0), .touched 1 0, .loop (.completed 1 0 10), .touched 0 1, .loop (.completed 0 1 21),
    .loop (.pollBegan true 0), .loop (.resumed 7 1 [10]), .loop .polled, .touched 0 0, .loop (.completed 0 0 4), .loop (.pollBegan true 0),
    .loop (.resumed 5 0 [21, 4]), .loop .polled, .loop .ended],
    ⟨[.base (.newBatch 0 2), .base (.newBatch 1 1), .base (.exec 5 0 9), .base (.exec 7 1 9), .touch 2, .base (.complete 2 10), .touch 1, .base (.complete 1 21),
      .base .pollBegin, .base .deal, .base .deal, .base .pollEnd, .touch 0, .base (.complete 0 4), .base .pollBegin, .base .deal, .base .pollEnd, .base .destroy], rfl⟩,
    ⟨?_, by simp [loopEvents]⟩, by simp, by simp, by simp, by simp, by simp⟩
  intro c b n k q hm
  simp [loopEvents] at hm; omega

end Verif.UringMem
