import Verif.TaskId.Model
import Verif.Common.Prefix
/-!
# C108: task ids
-/

namespace Verif.TaskId
open Machine

structure Inv (s : St) (tr : List Ev) : Prop where
  live : ∀ t, s.pc t ≠ .none → s.pc t ≠ .gone → s.addr t ∈ s.live ∧ s.addr t ≠ 0
  nd : s.live.Nodup
  dist : ∀ t u, t ≠ u → s.pc t ≠ .none → s.pc t ≠ .gone → s.pc u ≠ .none → s.pc u ≠ .gone → s.addr t ≠ s.addr u
  res : ∀ t, s.pc t = .stored ∨ s.pc t = .queued → s.result t = s.addr t
  got : ∀ t i, .gotId t i ∈ tr → i = s.addr t ∧ i ≠ 0 ∧ s.pc t ≠ .none
  ended : ∀ t, s.pc t = .gone → .ended t ∈ tr

theorem inv_step {s s' : St} {tr e : List Ev} {l : Lbl} (h : Inv s tr) (hs : step s l = some (s', e)) : Inv s' (tr ++ e) := by
  obtain ⟨live, nd, dist, res, got, ended⟩ := h
  cases l <;> simp only [step] at hs <;> (repeat' split at hs) <;> simp only [Option.some.injEq, Prod.mk.injEq, reduceCtorEq] at hs <;>
    obtain ⟨rfl, rfl⟩ := hs <;> constructor <;>
    (try simp only [List.mem_append, List.mem_cons, List.not_mem_nil, or_false, Ev.gotId.injEq, Ev.ended.injEq, reduceCtorEq, List.append_nil, upd_apply, address]) <;>
    grind [List.Nodup.mem_erase_iff, List.Nodup.erase, List.nodup_cons]

theorem inv {s : St} {tr : List Ev} (h : machine.Reaches s tr) : Inv s tr :=
  h.inv Inv (by constructor <;> simp [machine, init]) (fun _ _ _ _ _ => inv_step)

/-- **C108.**  However often a task asks, on whatever worker: it gets the same id, and not null. -/
theorem task_id_stable (s : St) (tr : List Ev) (h : machine.Reaches s tr) : Stable tr := by
  have hi := inv h
  exact ⟨fun t i j h1 h2 => by rw [(hi.got t i h1).1, (hi.got t j h2).1], fun t i h1 => (hi.got t i h1).2.1⟩

/-- **C108.**  Tasks that exist at the same time have different ids. -/
theorem task_ids_distinct (s : St) (tr : List Ev) (h : machine.Reaches s tr) : Distinct tr := by
  intro p t u i hp hne ht hu h1 h2
  obtain ⟨q, rfl⟩ := hp
  have key : ∀ s tr, machine.Reaches s tr → .gotId t i ∈ tr → .gotId u i ∈ tr → .ended t ∈ tr ∨ .ended u ∈ tr := by
    intro s tr h h1 h2
    have hi := inv h
    obtain ⟨a1, -, a3⟩ := hi.got t i h1
    obtain ⟨b1, -, b3⟩ := hi.got u i h2
    by_cases c1 : s.pc t = .gone
    · exact .inl (hi.ended t c1)
    · by_cases c2 : s.pc u = .gone
      · exact .inr (hi.ended u c2)
      · exact absurd (a1.symm.trans b1) (hi.dist t u hne a3 c1 b3 c2)
  obtain ⟨s1, hr⟩ : ∃ s1, machine.Reaches s1 p := by
    have hl : ∀ s l s' e, machine.step s l = some (s', e) → e.length ≤ 1 := by
      intro s l s' e hs
      change step s l = some (s', e) at hs
      cases l <;> simp only [step] at hs <;> (repeat' split at hs) <;> simp only [Option.some.injEq, Prod.mk.injEq, reduceCtorEq] at hs <;>
        obtain ⟨rfl, rfl⟩ := hs <;> simp
    exact Reaches.prefix_single hl h (List.prefix_append _ _)
  rcases key s1 p hr h1 h2 with h | h
  · exact ht h
  · exact hu h

/-- **C108.**  Every question is answered at most once, and the answer belongs to a question. -/
theorem task_id_answers (s : St) (tr : List Ev) (h : machine.Reaches s tr) (t : Nat) : answers t tr ≤ asks t tr ∧ asks t tr ≤ answers t tr + 1 := by
  have : (s.pc t = .run ∨ s.pc t = .none → asks t tr = answers t tr) ∧ (s.pc t = .susp ∨ s.pc t = .stored ∨ s.pc t = .queued → asks t tr = answers t tr + 1) ∧
      answers t tr ≤ asks t tr ∧ asks t tr ≤ answers t tr + 1 := by
    refine h.inv (fun s tr => (s.pc t = .run ∨ s.pc t = .none → asks t tr = answers t tr) ∧ (s.pc t = .susp ∨ s.pc t = .stored ∨ s.pc t = .queued → asks t tr = answers t tr + 1) ∧
      answers t tr ≤ asks t tr ∧ asks t tr ≤ answers t tr + 1) (by simp [machine, init, asks, answers]) ?_
    intro s tr l s' e hi hs
    change step s l = some (s', e) at hs
    unfold asks answers at *
    cases l <;> simp only [step] at hs <;> (repeat' split at hs) <;> simp only [Option.some.injEq, Prod.mk.injEq, reduceCtorEq] at hs <;>
      obtain ⟨rfl, rfl⟩ := hs <;> simp only [List.count_append, List.countP_append, List.count_cons, List.countP_cons, List.count_nil, List.countP_nil, upd_apply] <;> grind
  exact this.2.2

/-- **C108, what fails.**  An id is the address of a coroutine: the next task may get the id of one that has ended.  (So it cannot be a key for longer.) -/
theorem task_id_reused_refuted : ∃ s tr, machine.Reaches s tr ∧ ¬ DistinctForever tr := by
  refine ⟨_, [.made 0, .asked 0, .gotId 0 64, .ended 0, .made 1, .asked 1, .gotId 1 64],
    ⟨[.make 0 64, .ask 0, .store 0, .enqueue 0, .resume 0, .end_ 0, .ret, .make 1 64, .ask 1, .store 1, .enqueue 1, .resume 1], rfl⟩, ?_⟩
  intro h
  exact h 0 1 64 (by decide) (by simp) (by simp)

/-- Two tasks ask at the same time, one of them twice. -/
theorem task_id_nontrivial : ∃ s, machine.Reaches s [.made 0, .made 1, .asked 0, .asked 1, .gotId 0 64, .asked 0, .gotId 1 96, .gotId 0 64, .ended 1] :=
  ⟨_, [.make 0 64, .make 1 96, .ask 0, .ask 1, .store 1, .store 0, .enqueue 0, .resume 0, .enqueue 1, .ask 0, .ret, .resume 1, .store 0, .enqueue 0, .resume 0, .end_ 1], rfl⟩

end Verif.TaskId
