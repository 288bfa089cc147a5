import Verif.Functional.Model
import Verif.Common.AtEvent
/-!
# C48, C49
-/

namespace Verif.Functional

structure Inv (c : Cfg) (s : St) (tr : List Ev) : Prop where
  /-- an argument is either not yet awaited, or being awaited, or collected -/
  cnt : s.done = false → ∀ i, s.todo.count i + (if s.waiting = some i then 1 else 0) + (if (s.got i).isSome then 1 else 0)
    = if i < c.n then 1 else 0
  waitLt : ∀ i, s.waiting = some i → i < c.n ∧ s.started i = true
  todoLt : ∀ i ∈ s.todo, i < c.n
  startedLt : ∀ i, s.started i = true → i < c.n
  eagerStarted : c.eager = true → ∀ i, i < c.n → s.started i = true
  startedCount : ∀ i, tr.count (Ev.started i) = if c.eager = false ∧ s.started i = true then 1 else 0
  resultEv : ∀ i r, s.result i = some r ↔ Ev.completed i r ∈ tr
  resultStarted : ∀ i r, s.result i = some r → s.started i = true
  completedCount : ∀ i, tr.countP (isCompletion i) = if (s.result i).isSome then 1 else 0
  gotRes : ∀ i v, s.got i = some v → s.result i = some (.ok v)
  gotLt : ∀ i v, s.got i = some v → s.started i = true
  seq : c.eager = false → s.done = false → ∀ i, s.started i = true → s.waiting = some i ∨ (s.got i).isSome
  doneWait : s.done = true → s.waiting = none

theorem inv_init (c : Cfg) (hc : c.Ok) : Inv c (init c) [] := by
  constructor <;> simp_all [init, Cfg.Ok]
  · intro i
    rw [hc.count_eq]
    split
    · rename_i hin
      have h1 := List.nodup_iff_count.1 (List.nodup_range (n := c.n)) i
      have h2 := List.count_pos_iff.2 (List.mem_range.2 hin)
      omega
    · exact List.count_eq_zero_of_not_mem (by simp; omega)
  · intro i hi; have := hc.mem_iff.1 hi; simpa using this

theorem inv_step (c : Cfg) (s : St) (tr : List Ev) (l : Lbl) (s' : St) (e : List Ev) (h : Inv c s tr)
    (hs : step c s l = some (s', e)) : Inv c s' (tr ++ e) := by
  cases l with
  | complete i r =>
    simp only [step] at hs
    split at hs <;> simp only [Option.some.injEq, Prod.mk.injEq, reduceCtorEq] at hs
    obtain ⟨rfl, rfl⟩ := hs
    rename_i hc
    have h1 := h.resultEv i r
    constructor <;> (try dsimp only)
    · exact h.cnt
    · exact h.waitLt
    · exact h.todoLt
    · exact h.startedLt
    · exact h.eagerStarted
    · intro j; rw [List.count_append, h.startedCount j]; simp
    · intro j r'
      have := h.resultEv j r'
      simp only [upd_apply, List.mem_append, List.mem_singleton, Ev.completed.injEq]
      grind
    · intro j r' hj
      have := h.resultStarted j r'
      simp only [upd_apply] at hj
      grind
    · intro j
      rw [List.countP_append, h.completedCount j]
      simp only [upd_apply]
      by_cases hji : j = i
      · subst hji; simp [hc.2, isCompletion]
      · have : ¬ i = j := fun h => hji h.symm
        simp [hji, this, isCompletion]
    · intro j v hj
      have := h.gotRes j v hj
      simp only [upd_apply]
      split
      · rename_i hji; subst hji; rw [hc.2] at this; simp at this
      · exact this
    · exact h.gotLt
    · exact h.seq
    · exact h.doneWait
  | await =>
    simp only [step] at hs
    split at hs
    · rename_i hc
      split at hs
      · simp at hs
      · rename_i i rest htodo
        have hcnt := h.cnt hc.1
        split at hs <;> simp only [Option.some.injEq, Prod.mk.injEq] at hs <;> obtain ⟨rfl, rfl⟩ := hs
        · rename_i hst
          constructor <;> (try dsimp only)
          · intro _ j
            have := hcnt j
            rw [htodo, hc.2] at this
            simp only [List.count_cons, beq_iff_eq] at this
            by_cases hij : i = j
            · subst hij; simp at this ⊢; omega
            · simp [hij] at this ⊢; omega
          · intro j hj; simp at hj; subst hj; exact ⟨h.todoLt _ (by rw [htodo]; simp), hst⟩
          · intro j hj; exact h.todoLt j (by rw [htodo]; simp [hj])
          · exact h.startedLt
          · exact h.eagerStarted
          · simpa using h.startedCount
          · simpa using h.resultEv
          · exact h.resultStarted
          · simpa using h.completedCount
          · exact h.gotRes
          · exact h.gotLt
          · intro he hd j hj
            have := h.seq he hd j hj
            rcases this with h' | h'
            · rw [hc.2] at h'; simp at h'
            · exact Or.inr h'
          · intro hd; rw [hc.1] at hd; simp at hd
        · rename_i hst
          have hin : i < c.n := h.todoLt _ (by rw [htodo]; simp)
          have he0 : c.eager = false := by
            cases hce : c.eager with
            | false => rfl
            | true => exact absurd (h.eagerStarted hce i hin) hst
          constructor <;> (try dsimp only)
          · intro _ j
            have := hcnt j
            rw [htodo, hc.2] at this
            simp only [List.count_cons, beq_iff_eq] at this
            by_cases hij : i = j
            · subst hij; simp at this ⊢; omega
            · simp [hij] at this ⊢; omega
          · intro j hj; simp at hj; subst hj; exact ⟨hin, by simp⟩
          · intro j hj; exact h.todoLt j (by rw [htodo]; simp [hj])
          · intro j hj; simp only [upd_apply] at hj; split at hj
            · rename_i hji; subst hji; exact hin
            · exact h.startedLt j hj
          · intro hce; rw [he0] at hce; simp at hce
          · intro j
            rw [List.count_append, h.startedCount j]
            simp only [upd_apply, he0, true_and, List.count_singleton, beq_iff_eq, Ev.started.injEq]
            by_cases hji : j = i
            · subst hji; simp [hst]
            · have : ¬ i = j := fun h => hji h.symm
              simp [hji, this]
          · simpa using h.resultEv
          · intro j r hj; simp only [upd_apply]; split
            · rfl
            · exact h.resultStarted j r hj
          · intro j; rw [List.countP_append, h.completedCount j]; simp [isCompletion]
          · exact h.gotRes
          · intro j v hj; simp only [upd_apply]; split
            · rfl
            · exact h.gotLt j v hj
          · intro _ hd j hj
            simp only [upd_apply] at hj
            split at hj
            · rename_i hji; left; rw [hji]
            · rcases h.seq he0 hd j hj with h' | h'
              · rw [hc.2] at h'; simp at h'
              · exact Or.inr h'
          · intro hd; rw [hc.1] at hd; simp at hd
    · simp at hs
  | resume =>
    simp only [step] at hs
    split at hs
    · simp at hs
    · rename_i i hw
      split at hs
      · simp at hs
      · rename_i hd0
        have hd : s.done = false := by simpa using hd0
        split at hs
        · simp at hs
        · rename_i v hv
          simp only [Option.some.injEq, Prod.mk.injEq] at hs
          obtain ⟨rfl, rfl⟩ := hs
          have hcnt := h.cnt hd
          constructor <;> (try dsimp only)
          · intro _ j
            have := hcnt j
            simp only [upd_apply]
            by_cases hij : i = j
            · subst hij
              have hin := (h.waitLt i hw).1
              rw [hw] at this
              simp [hin] at this ⊢
              omega
            · have hji : ¬ j = i := fun h => hij h.symm
              rw [hw] at this; simp [hij] at this; simp [hji, this]
          · simp
          · exact h.todoLt
          · exact h.startedLt
          · exact h.eagerStarted
          · simpa using h.startedCount
          · simpa using h.resultEv
          · exact h.resultStarted
          · simpa using h.completedCount
          · intro j w hj; simp only [upd_apply] at hj; split at hj
            · rename_i hji; subst hji; simp at hj; rw [← hj]; exact hv
            · exact h.gotRes j w hj
          · intro j w hj; simp only [upd_apply] at hj; split at hj
            · rename_i hji; subst hji; exact (h.waitLt j hw).2
            · exact h.gotLt j w hj
          · intro he _ j hj
            right
            simp only [upd_apply]
            split
            · rfl
            · rename_i hji
              rcases h.seq he hd j hj with h' | h'
              · rw [hw] at h'; simp at h'; exact absurd h'.symm hji
              · exact h'
          · simp
        · rename_i x hv
          simp only [Option.some.injEq, Prod.mk.injEq] at hs
          obtain ⟨rfl, rfl⟩ := hs
          constructor <;> (try dsimp only)
          · simp
          · simp
          · exact h.todoLt
          · exact h.startedLt
          · exact h.eagerStarted
          · intro j; rw [List.count_append, h.startedCount j]; simp
          · simpa using h.resultEv
          · exact h.resultStarted
          · intro j; rw [List.countP_append, h.completedCount j]; simp [isCompletion]
          · exact h.gotRes
          · exact h.gotLt
          · simp
          · simp
  | finish =>
    simp only [step] at hs
    split at hs <;> simp only [Option.some.injEq, Prod.mk.injEq, reduceCtorEq] at hs
    obtain ⟨rfl, rfl⟩ := hs
    rename_i hc
    constructor <;> (try dsimp only)
    · simp
    · exact h.waitLt
    · exact h.todoLt
    · exact h.startedLt
    · exact h.eagerStarted
    · intro j; rw [List.count_append, h.startedCount j]; simp
    · simpa using h.resultEv
    · exact h.resultStarted
    · intro j; rw [List.countP_append, h.completedCount j]; simp [isCompletion]
    · exact h.gotRes
    · exact h.gotLt
    · simp
    · intro _; exact hc.2.1

theorem reach_inv {c : Cfg} (hc : c.Ok) {s : St} {tr : List Ev} (h : (machine c).Reaches s tr) : Inv c s tr :=
  Machine.Reaches.inv (M := machine c) (Inv c) (inv_init c hc) (fun _ _ _ _ _ hi hs => inv_step c _ _ _ _ _ hi hs) h

theorem step_single (c : Cfg) (s : St) (l : Lbl) (s' : St) (e : List Ev) (hs : (machine c).step s l = some (s', e)) : e.length ≤ 1 := by
  simp only [machine] at hs
  cases l <;> simp only [step] at hs <;> (repeat' split at hs) <;>
    simp only [Option.some.injEq, Prod.mk.injEq, reduceCtorEq] at hs <;> obtain ⟨rfl, rfl⟩ := hs <;> simp

/-- when values are returned: everything was collected -/
theorem returned_ok {c : Cfg} (hc : c.Ok) {s : St} {tr : List Ev} (h : (machine c).Reaches s tr) {pre post : List Ev} {vs : List Nat}
    (hx : tr = pre ++ Ev.returned (.ok vs) :: post) :
    ∃ s1, Inv c s1 pre ∧ s1.done = false ∧ (∀ i, i < c.n → ∃ v, s1.got i = some v) ∧
      vs = (List.range c.n).map fun i => (s1.got i).getD 0 := by
  obtain ⟨s1, l, s2, hr, hs⟩ := h.at_event_single (step_single c) hx
  have hi := reach_inv hc hr
  simp only [machine] at hs
  cases l <;> simp only [step] at hs <;> (repeat' split at hs) <;>
    simp only [Option.some.injEq, Prod.mk.injEq, reduceCtorEq, List.cons.injEq, Ev.returned.injEq, Except.ok.injEq, and_true, and_false] at hs
  · rename_i hcond
    refine ⟨s1, hi, hcond.1, ?_, hs.2.symm⟩
    intro i hin
    have := hi.cnt hcond.1 i
    rw [hcond.2.1, hcond.2.2] at this
    simp [hin] at this
    exact Option.ne_none_iff_exists'.1 this

/-- **C48.**  For every number of awaitables, every order of the co_awaits and every completion order: what co_await_all returns are the results of all
its arguments, in argument order. -/
theorem co_await_all_ordered (c : Cfg) (hc : c.Ok) (s : St) (tr : List Ev) (h : (machine c).Reaches s tr) : OrderedResults c.n tr := by
  intro pre post vs hx
  obtain ⟨s1, hi, hd, hall, rfl⟩ := returned_ok hc h hx
  refine ⟨by simp, ?_⟩
  intro i v hv
  simp only [List.getElem?_map, Option.map_eq_some_iff] at hv
  obtain ⟨j, hj, hv⟩ := hv
  obtain ⟨hlt, hj⟩ := List.getElem?_eq_some_iff.1 hj
  simp at hlt hj
  subst hj
  obtain ⟨w, hw⟩ := hall i hlt
  rw [hw] at hv
  simp at hv
  subst hv
  exact (hi.resultEv i _).1 (hi.gotRes i _ hw)

/-- **C48.**  Nothing is started or completed twice. -/
theorem co_await_all_once (c : Cfg) (hc : c.Ok) (s : St) (tr : List Ev) (h : (machine c).Reaches s tr) : OnceEach tr := by
  have hi := reach_inv hc h
  intro i
  refine ⟨?_, ?_⟩
  · rw [hi.startedCount i]; split <;> omega
  · rw [hi.completedCount i]; split <;> omega

/-- **C48.**  An exception that co_await_all throws was thrown by one of the arguments. -/
theorem co_await_all_exception (c : Cfg) (hc : c.Ok) (s : St) (tr : List Ev) (h : (machine c).Reaches s tr) : HonestException c.n tr := by
  intro pre post x hx
  obtain ⟨s1, l, s2, hr, hs⟩ := h.at_event_single (step_single c) hx
  have hi := reach_inv hc hr
  simp only [machine] at hs
  cases l <;> simp only [step] at hs <;> (repeat' split at hs) <;>
    simp only [Option.some.injEq, Prod.mk.injEq, reduceCtorEq, List.cons.injEq, Ev.returned.injEq, Except.error.injEq, and_true, and_false] at hs
  · rename_i hw _ _ _ hv
    obtain ⟨-, rfl⟩ := hs
    exact ⟨_, (hi.waitLt _ hw).1, (hi.resultEv _ _).1 hv⟩

/-- **C48, progress.**  Until co_await_all has returned, either it can go on, or it waits for an argument that runs and has not completed. -/
theorem co_await_all_progress (c : Cfg) (hc : c.Ok) (s : St) (tr : List Ev) (h : (machine c).Reaches s tr) (hd : s.done = false) :
    (∃ l s' e, (l = .await ∨ l = .resume ∨ l = .finish) ∧ step c s l = some (s', e)) ∨
      ∃ i, i < c.n ∧ s.waiting = some i ∧ s.started i = true ∧ ∀ r, Ev.completed i r ∉ tr := by
  have hi := reach_inv hc h
  cases hw : s.waiting with
  | some i =>
    cases hr : s.result i with
    | none =>
      right
      refine ⟨i, (hi.waitLt i hw).1, rfl, (hi.waitLt i hw).2, ?_⟩
      intro r hm
      have := (hi.resultEv i r).2 hm
      rw [hr] at this; simp at this
    | some r =>
      left
      cases r with
      | ok v => exact ⟨.resume, _, _, by simp, by simp [step, hw, hd, hr]; exact ⟨rfl, rfl⟩⟩
      | error x => exact ⟨.resume, _, _, by simp, by simp [step, hw, hd, hr]; exact ⟨rfl, rfl⟩⟩
  | none =>
    left
    cases ht : s.todo with
    | nil => exact ⟨.finish, _, _, by simp, by simp [step, hw, hd, ht]; exact ⟨rfl, rfl⟩⟩
    | cons i rest =>
      by_cases hst : s.started i = true
      · exact ⟨.await, _, _, by simp, by simp [step, hw, hd, ht, hst]; exact ⟨rfl, rfl⟩⟩
      · exact ⟨.await, _, _, by simp, by simp [step, hw, hd, ht, hst]; exact ⟨rfl, rfl⟩⟩

/-- what is left to do for the coroutine and the awaitables -/
def measure (c : Cfg) (s : St) : Nat :=
  2 * s.todo.length + (if s.waiting.isSome then 1 else 0) + (if s.done then 0 else 1)
    + ((List.range c.n).filter fun i => (s.result i).isNone).length

/-- **C48, termination.**  Every execution is finite: with `n` arguments there are at most 3n + 1 steps.  With `co_await_all_progress`: if every argument that is
started completes, co_await_all returns. -/
theorem co_await_all_terminates (c : Cfg) (hc : c.Ok) (ls : List Lbl) (s : St) (tr : List Ev) (h : (machine c).run ls = some (s, tr)) :
    ls.length ≤ 3 * c.n + 1 := by
  have key : ∀ (ls : List Lbl) (s0 s : St) (tr0 tr : List Ev), Inv c s0 tr0 → (machine c).runFrom s0 ls = some (s, tr) →
      ls.length + measure c s ≤ measure c s0 := by
    intro ls
    induction ls with
    | nil => intro s0 s tr0 tr _ h; simp only [Machine.runFrom, Option.some.injEq, Prod.mk.injEq] at h; obtain ⟨rfl, rfl⟩ := h; simp
    | cons l ls ih =>
      intro s0 s tr0 tr hi h
      simp only [Machine.runFrom] at h
      cases h1 : (machine c).step s0 l with
      | none => simp [h1] at h
      | some p =>
        obtain ⟨s1, e1⟩ := p
        simp only [h1] at h
        cases h2 : (machine c).runFrom s1 ls with
        | none => simp [h2] at h
        | some q =>
          obtain ⟨s2, e2⟩ := q
          simp only [h2, Option.some.injEq, Prod.mk.injEq] at h
          obtain ⟨rfl, rfl⟩ := h
          have h3 := ih s1 s2 _ e2 (inv_step c s0 tr0 l s1 e1 hi h1) h2
          have hdec : measure c s1 + 1 ≤ measure c s0 := by
            simp only [machine] at h1
            cases l with
            | complete i r =>
              simp only [step] at h1
              split at h1 <;> simp only [Option.some.injEq, Prod.mk.injEq, reduceCtorEq] at h1
              rename_i hcond
              obtain ⟨rfl, rfl⟩ := h1
              have hin := hi.startedLt i hcond.1
              have : ((List.range c.n).filter fun j => ((upd s0.result i (some r)) j).isNone).length + 1
                  ≤ ((List.range c.n).filter fun j => (s0.result j).isNone).length := by
                rw [← List.countP_eq_length_filter, ← List.countP_eq_length_filter]
                have hsp : ∀ l : List Nat, i ∈ l → l.Nodup →
                    l.countP (fun j => ((upd s0.result i (some r)) j).isNone) + 1 = l.countP (fun j => (s0.result j).isNone) := by
                  intro l
                  induction l with
                  | nil => simp
                  | cons a l ihl =>
                    intro hm hn
                    rw [List.nodup_cons] at hn
                    by_cases ha : a = i
                    · subst ha
                      have heq : l.countP (fun j => ((upd s0.result a (some r)) j).isNone) = l.countP (fun j => (s0.result j).isNone) := by
                        apply List.countP_congr
                        intro j hj
                        have : j ≠ a := fun h => hn.1 (h ▸ hj)
                        simp [upd_ne _ _ this]
                      rw [List.countP_cons, List.countP_cons, heq]; simp [hcond.2]
                    · have hm' : i ∈ l := by simpa [Ne.symm ha] using hm
                      have := ihl hm' hn.2
                      rw [List.countP_cons, List.countP_cons, upd_ne _ _ ha]; omega
                have := hsp (List.range c.n) (by simpa using hin) List.nodup_range
                omega
              simp only [measure]
              omega
            | await =>
              simp only [step] at h1
              split at h1
              · rename_i hcond
                split at h1
                · simp at h1
                · rename_i i rest ht
                  split at h1 <;> simp only [Option.some.injEq, Prod.mk.injEq] at h1 <;> obtain ⟨rfl, rfl⟩ := h1 <;>
                    simp [measure, ht, hcond.2] <;> omega
              · simp at h1
            | resume =>
              simp only [step] at h1
              split at h1
              · simp at h1
              · rename_i i hw
                split at h1
                · simp at h1
                · split at h1
                  · simp at h1
                  · simp only [Option.some.injEq, Prod.mk.injEq] at h1; obtain ⟨rfl, rfl⟩ := h1
                    simp [measure, hw]; omega
                  · simp only [Option.some.injEq, Prod.mk.injEq] at h1; obtain ⟨rfl, rfl⟩ := h1
                    simp [measure, hw]; split <;> omega
            | finish =>
              simp only [step] at h1
              split at h1 <;> simp only [Option.some.injEq, Prod.mk.injEq, reduceCtorEq] at h1
              rename_i hcond
              obtain ⟨rfl, rfl⟩ := h1
              simp [measure, hcond.1]; omega
          simp only [List.length_cons]
          omega
  have := key ls (init c) s [] tr (inv_init c hc) h
  have hm : measure c (init c) ≤ 3 * c.n + 1 := by
    have hl : c.order.length = c.n := by rw [hc.length_eq]; simp
    have hf : ((List.range c.n).filter fun i => ((init c).result i).isNone).length ≤ c.n := by
      refine Nat.le_trans (List.length_filter_le _ _) (by simp)
    simp only [measure]
    simp only [init] at hf ⊢
    rw [hl]
    simp only [Option.isSome_none, Bool.false_eq_true, if_false]
    omega
  omega

/-! ### C49: for_each -/

theorem rangeCfg_ok (n : Nat) (b : Bool) : (rangeCfg n b).Ok := List.Perm.refl _

/-- **C49.**  for_each ends normally only after the function was called exactly once with every element and every one of the calls ended normally. -/
theorem for_each_all_processed (n : Nat) (s : St) (tr : List Ev) (h : (machine (rangeCfg n false)).Reaches s tr) : AllProcessed n tr := by
  intro pre post vs hx i hin
  obtain ⟨s1, hi, hd, hall, -⟩ := returned_ok (rangeCfg_ok n false) h hx
  obtain ⟨v, hv⟩ := hall i hin
  refine ⟨?_, v, (hi.resultEv i _).1 (hi.gotRes i v hv)⟩
  rw [hi.startedCount i, if_pos ⟨rfl, hi.gotLt i v hv⟩]

/-- **C49.**  The function is called with elements of the range only. -/
theorem for_each_in_range (n : Nat) (s : St) (tr : List Ev) (h : (machine (rangeCfg n false)).Reaches s tr) : InRange n tr := by
  intro i hm
  have hi := reach_inv (rangeCfg_ok n false) h
  have := hi.startedCount i
  have hp := List.count_pos_iff.2 hm
  split at this
  · rename_i hcond; exact hi.startedLt i hcond.2
  · omega

/-- the elements not yet visited are a suffix of the range -/
theorem for_each_suffix (n : Nat) (s : St) (tr : List Ev) (h : (machine (rangeCfg n false)).Reaches s tr) :
    ∃ k, k ≤ n ∧ s.todo = (List.range n).drop k ∧ ∀ i, s.started i = true ↔ i < k := by
  refine Machine.Reaches.inv (M := machine (rangeCfg n false))
    (fun s _ => ∃ k, k ≤ n ∧ s.todo = (List.range n).drop k ∧ ∀ i, s.started i = true ↔ i < k) ?_ ?_ h
  · exact ⟨0, by simp, by simp [machine, init, rangeCfg], by simp [machine, init, rangeCfg]⟩
  · rintro s tr l s' e ⟨k, hk, htodo, hst⟩ hs
    simp only [machine] at hs
    cases l <;> simp only [step] at hs <;> (repeat' split at hs) <;>
      simp only [Option.some.injEq, Prod.mk.injEq, reduceCtorEq] at hs <;> obtain ⟨rfl, rfl⟩ := hs
    · exact ⟨k, hk, htodo, hst⟩
    · rename_i i rest ht hsti
      exfalso
      rw [htodo] at ht
      have h0 : (List.drop k (List.range n))[0]? = some i := by rw [ht]; rfl
      rw [List.getElem?_drop] at h0
      obtain ⟨hlt, h0⟩ := List.getElem?_eq_some_iff.1 h0
      simp at h0
      have := (hst i).1 hsti
      omega
    · rename_i i rest ht hsti
      rw [htodo] at ht
      have h0 : (List.drop k (List.range n))[0]? = some i := by rw [ht]; rfl
      rw [List.getElem?_drop] at h0
      obtain ⟨hlt, h0⟩ := List.getElem?_eq_some_iff.1 h0
      simp at h0 hlt
      subst h0
      refine ⟨k + 1, by omega, ?_, ?_⟩
      · dsimp only
        have := congrArg List.tail ht
        simpa using this.symm
      · intro j
        simp only [upd_apply]
        split
        · rename_i hjk; simp [hjk]
        · rename_i hjk; rw [hst j]; omega
    · exact ⟨k, hk, htodo, hst⟩
    · exact ⟨k, hk, htodo, hst⟩
    · exact ⟨k, hk, htodo, hst⟩

/-- **The documentation promises that the elements are processed in parallel; this is false.**  In every execution, when the function is called with the j-th element, all
the calls for the elements before have completed. -/
theorem for_each_parallel_refuted (n : Nat) (s : St) (tr : List Ev) (h : (machine (rangeCfg n false)).Reaches s tr)
    (pre post : List Ev) (j : Nat) (hx : tr = pre ++ Ev.started j :: post) (i : Nat) (hij : i < j) :
    ∃ v, Ev.completed i (.ok v) ∈ pre := by
  obtain ⟨s1, l, s2, hr, hs⟩ := h.at_event_single (step_single _) hx
  have hi := reach_inv (rangeCfg_ok n false) hr
  obtain ⟨k, hk, htodo, hst⟩ := for_each_suffix n s1 pre hr
  simp only [machine] at hs
  cases l <;> simp only [step] at hs <;> (repeat' split at hs) <;>
    simp only [Option.some.injEq, Prod.mk.injEq, reduceCtorEq, List.cons.injEq, Ev.started.injEq, and_true, and_false] at hs
  rename_i hcond _ j' rest ht hsti
  obtain ⟨-, rfl⟩ := hs
  rw [htodo] at ht
  have h0 : (List.drop k (List.range n))[0]? = some j' := by rw [ht]; rfl
  rw [List.getElem?_drop] at h0
  obtain ⟨hlt, h0⟩ := List.getElem?_eq_some_iff.1 h0
  simp at h0
  have hs1 : s1.started i = true := (hst i).2 (by omega)
  rcases hi.seq rfl hcond.1 i hs1 with hw | hg
  · rw [hcond.2] at hw; simp at hw
  · obtain ⟨v, hv⟩ := Option.isSome_iff_exists.1 hg
    exact ⟨v, (hi.resultEv i _).1 (hi.gotRes i v hv)⟩

/-- **C49, what fails.**  If the function throws for the first of two elements, for_each ends and the second element is never processed. -/
theorem for_each_exception_skips_refuted :
    ∃ s tr, (machine (rangeCfg 2 false)).Reaches s tr ∧ Ev.returned (.error 7) ∈ tr ∧
      ∀ s' tr', (∃ ls, (machine (rangeCfg 2 false)).runFrom s ls = some (s', tr')) → Ev.started 1 ∉ tr' := by
  obtain ⟨s, tr, hr, hm, hd⟩ : ∃ s tr, (machine (rangeCfg 2 false)).Reaches s tr ∧ Ev.returned (.error 7) ∈ tr ∧ s.done = true :=
    ⟨_, _, ⟨[.await, .complete 0 (.error 7), .resume], rfl⟩, by decide, rfl⟩
  refine ⟨s, tr, hr, hm, ?_⟩
  rintro s' tr' ⟨ls, hls⟩
  have := Machine.runFrom_inv (machine (rangeCfg 2 false)) (fun s tr => s.done = true ∧ Ev.started 1 ∉ tr)
    (by
      rintro s tr l s' e ⟨hd, hn⟩ hs
      simp only [machine] at hs
      cases l <;> simp only [step] at hs <;> (repeat' split at hs) <;>
        simp only [Option.some.injEq, Prod.mk.injEq, reduceCtorEq] at hs <;> obtain ⟨rfl, rfl⟩ := hs <;> simp_all)
    ls s [] s' tr' ⟨hd, by simp⟩ hls
  simpa using this.2

/-! ### for_each_dispatch_evenly -/

/-- the number of elements given to worker `a` -/
def load (a : Nat) (l : List (Nat × Nat)) : Nat := l.countP fun p => p.2 == a

/-- how many of the numbers below `d` are given to worker `a` (rounded quotient) -/
def below (w a d : Nat) : Nat := (d + (w - 1 - a)) / w

theorem below_succ (w a d : Nat) (ha : a < w) : below w a (d + 1) = below w a d + if d % w = a then 1 else 0 := by
  unfold below
  have hw : 0 < w := by omega
  have h1 := Nat.div_add_mod d w
  have h2 := Nat.mod_lt d hw
  generalize d / w = q at h1
  generalize d % w = r at h1 h2
  subst h1
  have e : ∀ x, (w * q + x) / w = q + x / w := fun x => Nat.mul_add_div hw q x
  rw [show w * q + r + 1 + (w - 1 - a) = w * q + (r + 1 + (w - 1 - a)) by omega, e,
    show w * q + r + (w - 1 - a) = w * q + (r + (w - 1 - a)) by omega, e]
  rcases Nat.lt_trichotomy r a with h | h | h
  · rw [if_neg (by omega), Nat.div_eq_of_lt (by omega), Nat.div_eq_of_lt (by omega)]
  · rw [if_pos h, Nat.div_eq_of_lt (show r + (w - 1 - a) < w by omega), show r + 1 + (w - 1 - a) = w by omega, Nat.div_self hw]
  · rw [if_neg (by omega), Nat.div_eq_of_lt_le (k := 1) (by omega) (by omega), Nat.div_eq_of_lt_le (k := 1) (by omega) (by omega)]

theorem dispatch_load (w a : Nat) (ha : a < w) (who : List Nat) (d : Nat) (hd : d + who.length ≤ 2 ^ 64) :
    load a (dispatch w d who) + below w a d = below w a (d + who.length) := by
  induction who generalizing d with
  | nil => simp [dispatch, load]
  | cons c cs ih =>
    simp only [List.length_cons] at hd
    have hs := below_succ w a d ha
    simp only [dispatch, load, List.countP_cons, fetchAdd, List.length_cons, beq_iff_eq]
    by_cases hlt : d + 1 < 2 ^ 64
    · rw [Nat.mod_eq_of_lt hlt]
      have := ih (d + 1) (by omega)
      simp only [load] at this
      rw [show d + (cs.length + 1) = d + 1 + cs.length by omega]
      omega
    · have : cs = [] := by cases cs with
        | nil => rfl
        | cons x xs => simp only [List.length_cons] at hd; omega
      subst this
      simp only [dispatch, List.countP_nil, List.length_nil, Nat.zero_add]
      omega

/-- **C49, for_each_dispatch_evenly.**  Over any number of concurrent calls (of one instantiation), interleaved in any way, the numbers of elements given to any
two workers differ by at most one, as long as the counter does not wrap around. -/
theorem dispatch_even (w a b : Nat) (ha : a < w) (hb : b < w) (who : List Nat) (d : Nat) (hd : d + who.length ≤ 2 ^ 64) :
    load a (dispatch w d who) ≤ load b (dispatch w d who) + 1 := by
  have h1 := dispatch_load w a ha who d hd
  have h2 := dispatch_load w b hb who d hd
  have key : ∀ a b x, a < w → b < w → below w a x ≤ below w b x + if a < b then 1 else 0 := by
    intro a b x ha hb
    unfold below
    split
    · have : (x + (w - 1 - b)) / w + 1 = (x + (w - 1 - b) + w) / w := by rw [Nat.add_div_right _ (by omega)]
      rw [this]
      exact Nat.div_le_div_right (by omega)
    · exact Nat.div_le_div_right (by omega)
  have k1 := key a b (d + who.length) ha hb
  have k2 := key b a d hb ha
  rcases Nat.lt_trichotomy a b with h | h | h
  · rw [if_pos h] at k1; rw [if_neg (by omega)] at k2; omega
  · subst h; omega
  · rw [if_neg (by omega)] at k1; rw [if_pos h] at k2; omega

/-- every element goes to an existing worker -/
theorem dispatch_worker (w : Nat) (hw : 0 < w) (who : List Nat) (d : Nat) : ∀ p ∈ dispatch w d who, p.2 < w := by
  induction who generalizing d with
  | nil => simp [dispatch]
  | cons c cs ih =>
    intro p hp
    simp only [dispatch, List.mem_cons] at hp
    rcases hp with rfl | hp
    · exact Nat.mod_lt _ hw
    · exact ih _ p hp

/-- every element of every call is given to exactly one worker -/
theorem dispatch_each (w : Nat) (who : List Nat) (d : Nat) : (dispatch w d who).map Prod.fst = who := by
  induction who generalizing d with
  | nil => rfl
  | cons c cs ih => simp [dispatch, ih]

/-- **C49, what fails.**  The counter is shared by all calls: two concurrent calls can be interleaved so that all elements of one of them, however many, go to
the same one of two workers. -/
theorem dispatch_concurrent_refuted (n : Nat) (hn : 2 * n ≤ 2 ^ 64) :
    ∃ who : List Nat, who.count 0 = n ∧ who.count 1 = n ∧
      (dispatch 2 0 who).countP (fun p => p.1 == 0 && p.2 == 0) = n := by
  suffices h : ∀ (n d : Nat), d % 2 = 0 → d + 2 * n ≤ 2 ^ 64 → ∃ who : List Nat, who.count 0 = n ∧ who.count 1 = n ∧
      (dispatch 2 d who).countP (fun p => p.1 == 0 && p.2 == 0) = n from h n 0 rfl (by omega)
  intro n
  induction n with
  | zero => intro d _ _; exact ⟨[], by simp [dispatch]⟩
  | succ n ih =>
    intro d hd hle
    obtain ⟨who, h0, h1, hc⟩ := ih ((d + 2) % 2 ^ 64) (by omega) (by omega)
    refine ⟨0 :: 1 :: who, by simp [h0], by simp [h1], ?_⟩
    simp only [dispatch, fetchAdd, List.countP_cons]
    rw [show ((d + 1) % 2 ^ 64 + 1) % 2 ^ 64 = (d + 2) % 2 ^ 64 by omega, hc]
    simp [hd]

/-- **C49, what fails.**  When the counter wraps around, the number of workers not being a power of two, two elements in a row go to the same worker. -/
theorem dispatch_wrap_refuted : ∃ d, load 0 (dispatch 3 d [0, 0]) = 2 ∧ load 1 (dispatch 3 d [0, 0]) = 0 :=
  ⟨2 ^ 64 - 1, by decide, by decide⟩

/-- A range must not be read after it was destroyed. -/
def NoDangling (l : List FrameEv) : Prop := ∀ pre post, l = pre ++ FrameEv.rangeRead :: post → FrameEv.rangeDestroyed ∉ pre

/-- **C49.**  for_each_int never reads its range after it was destroyed, however many elements are processed before and after the first suspension.  (It would
if `task` did not run its body at once.) -/
theorem for_each_int_no_dangling (k m : Nat) : NoDangling (forEachInt k m) ∧ ¬ NoDangling (forEachIntOf true k m) := by
  refine ⟨?_, fun h => h [.rangeCreated, .taskReturned, .rangeDestroyed] (List.replicate k .viewRead ++ List.replicate m .viewRead)
    (by simp [forEachIntOf]) (by simp)⟩
  intro pre post h hd
  obtain ⟨a, b, rfl⟩ := List.append_of_mem hd
  have hc := congrArg (fun l => l.map fun e => if e = FrameEv.rangeDestroyed then 2 else if e = FrameEv.rangeRead then 1 else 0) h
  have hcnt : (forEachInt k m).count .rangeRead = 1 := by simp [forEachInt, forEachIntOf, taskIsLazy, List.count_replicate]
  have hsplit : forEachInt k m = [.rangeCreated] ++ .rangeRead :: (List.replicate k .viewRead ++ [.taskReturned, .rangeDestroyed] ++ List.replicate m .viewRead) := by
    simp [forEachInt, forEachIntOf, taskIsLazy]
  clear hc
  match a with
  | [] => rw [hsplit] at h; simp at h
  | [_] => rw [hsplit] at h; simp at h
  | x :: y :: a' =>
    rw [hsplit] at h
    simp only [List.cons_append, List.nil_append, List.cons.injEq] at h
    obtain ⟨rfl, rfl, h⟩ := h
    have h2 := congrArg (List.count .rangeRead) h
    simp [List.count_append, List.count_cons, List.count_replicate] at h2

/-! ### Concrete executions -/

/-- three arguments completing in the order 2, 0, 1; awaited in the order 1, 2, 0 -/
example : ∃ s tr, (machine ⟨3, true, [1, 2, 0]⟩).Reaches s tr ∧ Ev.returned (.ok [10, 11, 12]) ∈ tr :=
  ⟨_, _, ⟨[.await, .complete 2 (.ok 12), .complete 0 (.ok 10), .complete 1 (.ok 11), .resume, .await, .resume, .await, .resume, .finish], rfl⟩, by decide⟩

example : Cfg.Ok ⟨3, true, [1, 2, 0]⟩ := by unfold Cfg.Ok; decide

example : ∃ s tr, (machine (rangeCfg 2 false)).Reaches s tr ∧ Ev.returned (.ok [4, 5]) ∈ tr :=
  ⟨_, _, ⟨[.await, .complete 0 (.ok 4), .resume, .await, .complete 1 (.ok 5), .resume, .finish], rfl⟩, by decide⟩

example : load 0 (dispatch 3 5 [0, 1, 0, 0]) = 1 ∧ load 2 (dispatch 3 5 [0, 1, 0, 0]) = 2 := by decide

end Verif.Functional
