import Verif.Common.Machine
/-!
# `task_release_once` (include/koios/task_release_once.h 17-38), property C12

Any number of threads race on `release()`.  One label per atomic action.
-/

namespace Verif.ReleaseOnce

inductive Ev where
  | called (t : Nat)                     -- thread `t` calls `release()`
  | returned (t : Nat) (got : Option Bool)
    -- it returns: `none` = nullopt, `some true` = a valid task, `some false` = an empty one
  deriving DecidableEq, Repr

inductive Pc where
  | idle | start | won
  deriving DecidableEq, Repr

/-- `m_valid` (36), whether `m_task` still holds the task (37). -/
structure St where
  valid : Bool
  task  : Bool
  pc    : Nat → Pc

inductive Lbl where
  | call (t : Nat)     -- enter `release()` (25)
  | cas (t : Nat)      -- compare_exchange_strong(true, false) (28)
  | take (t : Nat)     -- move m_task out and return it (30)
  deriving DecidableEq, Repr

def step (s : St) : Lbl → Option (St × List Ev)
  | .call t => if s.pc t = .idle then some ({ s with pc := upd s.pc t .start }, [.called t]) else none
  | .cas t =>
    if s.pc t = .start then
      if s.valid then some ({ s with valid := false, pc := upd s.pc t .won }, [])
      else some ({ s with pc := upd s.pc t .idle }, [.returned t none])
    else none
  | .take t =>
    if s.pc t = .won then
      some ({ s with task := false, pc := upd s.pc t .idle }, [.returned t (some s.task)])
    else none

/-- Constructed around a task (20-23). -/
def init : St := { valid := true, task := true, pc := fun _ => .idle }

def machine : Machine St Lbl Ev := { init := init, step := step }

/-! ## Specification -/

/-- Number of calls, of answers, and of calls that obtained the task. -/
def calls (tr : List Ev) : Nat := tr.countP fun | .called _ => true | _ => false
def answers (tr : List Ev) : Nat := tr.countP fun | .returned _ _ => true | _ => false
def winners (tr : List Ev) : Nat := tr.countP fun | .returned _ (some _) => true | _ => false

/-! ## Proof -/

structure Inv (s : St) (tr : List Ev) : Prop where
  one : s.valid = true → winners tr = 0 ∧ s.task = true ∧ (∀ t, s.pc t ≠ .won) ∧ answers tr = 0
  two : s.valid = false → (∃ t, s.pc t = .won ∧ winners tr = 0 ∧ s.task = true ∧
      ∀ u, s.pc u = .won → u = t) ∨ (winners tr = 1 ∧ ∀ u, s.pc u ≠ .won)
  good : ∀ t b, Ev.returned t (some b) ∈ tr → b = true
  call : 0 < calls tr → s.valid = false ∨ ∃ t, s.pc t = .start

theorem calls_append (a b : List Ev) : calls (a ++ b) = calls a + calls b := by
  simp [calls, List.countP_append]
theorem answers_append (a b : List Ev) : answers (a ++ b) = answers a + answers b := by
  simp [answers, List.countP_append]
theorem winners_append (a b : List Ev) : winners (a ++ b) = winners a + winners b := by
  simp [winners, List.countP_append]

theorem inv_init : Inv init [] := by
  constructor <;> simp [init, winners, answers, calls]

theorem inv_step (s : St) (tr : List Ev) (l : Lbl) (s' : St) (e : List Ev)
    (h : Inv s tr) (hs : step s l = some (s', e)) : Inv s' (tr ++ e) := by
  obtain ⟨h1, h2, h3, h4⟩ := h
  cases l with
  | call t =>
    simp only [step] at hs
    split at hs
    · rename_i ht
      simp only [Option.some.injEq, Prod.mk.injEq] at hs
      obtain ⟨rfl, rfl⟩ := hs
      have e1 : winners (tr ++ [.called t]) = winners tr := by simp [winners_append, winners]
      have e2 : answers (tr ++ [.called t]) = answers tr := by simp [answers_append, answers]
      constructor <;> try dsimp only
      · intro hv; rw [e1, e2]; obtain ⟨a, b, c, d⟩ := h1 hv
        refine ⟨a, b, ?_, d⟩
        intro x; simp only [upd_apply]; grind
      · intro hv; rw [e1]
        simp only [upd_apply]
        rcases h2 hv with ⟨w, a, b, c, d⟩ | ⟨a, b⟩
        · left; exact ⟨w, by grind, b, c, by grind⟩
        · right; exact ⟨a, by grind⟩
      · intro u b hm; simp at hm; exact h3 u b hm
      · intro _; right; exact ⟨t, by simp⟩
    · simp at hs
  | cas t =>
    simp only [step] at hs
    split at hs
    · rename_i ht
      split at hs <;> simp only [Option.some.injEq, Prod.mk.injEq] at hs <;>
        obtain ⟨rfl, rfl⟩ := hs
      · rename_i hv
        obtain ⟨a, b, c, d⟩ := h1 hv
        rw [List.append_nil]
        constructor <;> try dsimp only
        · intro hf; simp at hf
        · intro _; left; refine ⟨t, by simp, a, b, ?_⟩
          intro u hu; simp only [upd_apply] at hu
          by_cases hut : u = t
          · exact hut
          · simp [hut] at hu; exact absurd hu (c u)
        · exact h3
        · intro _; left; rfl
      · rename_i hv
        have hv : s.valid = false := by simpa using hv
        have e1 : winners (tr ++ [.returned t none]) = winners tr := by simp [winners_append, winners]
        constructor <;> try dsimp only
        · intro hf; simp [hv] at hf
        · intro _; rw [e1]
          simp only [upd_apply]
          rcases h2 hv with ⟨w, a, b, c, d⟩ | ⟨a, b⟩
          · left; exact ⟨w, by grind, b, c, by grind⟩
          · right; exact ⟨a, by grind⟩
        · intro u b hm; simp at hm; exact h3 u b hm
        · intro _; left; exact hv
    · simp at hs
  | take t =>
    simp only [step] at hs
    split at hs
    · rename_i ht
      simp only [Option.some.injEq, Prod.mk.injEq] at hs
      obtain ⟨rfl, rfl⟩ := hs
      have hv : s.valid = false := by
        cases hvv : s.valid
        · rfl
        · exact absurd ht ((h1 hvv).2.2.1 t)
      have e1 : winners (tr ++ [.returned t (some s.task)]) = winners tr + 1 := by
        simp [winners_append, winners]
      rcases h2 hv with ⟨w, a, b, c, d⟩ | ⟨a, b⟩
      · have := d t ht; subst this
        constructor <;> try dsimp only
        · intro hf; simp [hv] at hf
        · intro _; right; rw [e1, b]; refine ⟨rfl, ?_⟩
          intro u; simp only [upd_apply]; grind
        · intro u b' hm; simp at hm
          rcases hm with hm | ⟨_, hm⟩
          · exact h3 u b' hm
          · rw [hm, c]
        · intro _; left; exact hv
      · exact absurd ht (b t)
    · simp at hs

theorem inv_of_reaches {s : St} {tr : List Ev} (h : machine.Reaches s tr) : Inv s tr :=
  h.inv Inv inv_init inv_step

/-! ## Properties -/

/-- **C12 (1).**  Whatever the interleaving of any number of `release()` calls, at most one
obtains the task, and what it obtains is the (non-empty) task. -/
theorem release_at_most_one_winner (s : St) (tr : List Ev) (h : machine.Reaches s tr) :
    winners tr ≤ 1 ∧ ∀ t b, Ev.returned t (some b) ∈ tr → b = true := by
  have hi := inv_of_reaches h
  refine ⟨?_, hi.good⟩
  cases hv : s.valid
  · rcases hi.two hv with ⟨_, _, a, _⟩ | ⟨a, _⟩ <;> omega
  · have := (hi.one hv).1; omega

/-- **C12 (2).**  Once at least one call was made and all calls have returned, exactly one of
them has obtained the task. -/
theorem release_exactly_one_winner (s : St) (tr : List Ev) (h : machine.Reaches s tr)
    (hcall : 0 < calls tr) (hquiet : ∀ t, s.pc t = .idle) : winners tr = 1 := by
  have hi := inv_of_reaches h
  rcases hi.call hcall with hv | ⟨t, ht⟩
  · rcases hi.two hv with ⟨t, ht, _⟩ | ⟨a, _⟩
    · simp [hquiet t] at ht
    · exact a
  · simp [hquiet t] at ht

example : (machine.run [.call 1, .call 2, .cas 2, .call 3, .cas 1, .take 2, .cas 3]).map (·.2) =
    some [.called 1, .called 2, .called 3, .returned 1 none, .returned 2 (some true),
      .returned 3 none] := rfl

end Verif.ReleaseOnce
