import Verif.Attrs.Model
import Verif.Life.Destroy
import Verif.Common.Prefix
import Mathlib.Data.List.Perm.Subperm
/-!
# The list of workers (C102)
-/

namespace Verif.Attrs

open Life (Who)

/-- what happens to the runtime -/
def proj (tr : List Ev) : List Life.Ev := tr.filterMap fun | .life e => some e | _ => none

theorem proj_append (a b : List Ev) : proj (a ++ b) = proj a ++ proj b := List.filterMap_append

theorem proj_life (e : List Life.Ev) : proj (e.map .life) = e := by
  induction e with
  | nil => rfl
  | cons x e ih => simpa [proj] using ih

theorem mem_proj {x : Life.Ev} {tr : List Ev} : x ∈ proj tr ↔ .life x ∈ tr := by
  induction tr with
  | nil => simp [proj]
  | cons y tr ih =>
    cases y <;> simp_all [proj]

/-- what a step does -/
inductive Shape (n : Nat) (manual loops : Bool) (s : St) : St → List Ev → Prop where
  | base (l : Life.Lbl) (b : Life.St) (e : List Life.Ev) (hb : Life.step n manual loops s.base l = some (b, e)) :
      Shape n manual loops s { s with base := b } (e.map .life)
  | race (c : Who) (hl : s.base.attrs.length < n) : Shape n manual loops s { s with ub := true } [.lookBegan c, .raced c]
  | look (c : Who) (hl : ¬ s.base.attrs.length < n) : Shape n manual loops s { s with look := upd s.look c (some ([], s.base.attrs)) } [.lookBegan c]
  | fin (c : Who) (seen : List Nat) (h : s.look c = some (seen, [])) : Shape n manual loops s { s with look := upd s.look c none } [.listed c seen]
  | dang (c : Who) (seen rest : List Nat) (i : Nat) (h : s.look c = some (seen, i :: rest)) (hx : s.base.wpc i = .exited) :
      Shape n manual loops s { s with ub := true } [.dangling c i]
  | next (c : Who) (seen rest : List Nat) (i : Nat) (h : s.look c = some (seen, i :: rest)) :
      Shape n manual loops s { s with look := upd s.look c (some (seen ++ [i], rest)) } [.looked c i]
  | quit (c : Who) : Shape n manual loops s { s with look := upd s.look c none } []

theorem shape {n : Nat} {manual loops : Bool} {s s' : St} {l : Lbl} {e : List Ev} (hs : step n manual loops s l = some (s', e)) :
    Shape n manual loops s s' e := by
  cases l <;> simp only [step] at hs <;> (repeat' split at hs) <;> simp only [Option.some.injEq, Prod.mk.injEq, reduceCtorEq] at hs <;>
    obtain ⟨rfl, rfl⟩ := hs
  · exact .base _ _ _ (by assumption)
  · exact .base _ _ _ (by assumption)
  · exact .race _ (by assumption)
  · exact .look _ (by assumption)
  · exact .fin _ _ (by assumption)
  · exact .dang _ _ _ _ (by assumption) (by assumption)
  · exact .next _ _ _ _ (by assumption)
  · exact .quit _

theorem base_reaches {n : Nat} {manual loops : Bool} {s : St} {tr : List Ev} (h : (machine n manual loops).Reaches s tr) :
    (Life.machine n manual loops).Reaches s.base (proj tr) := by
  refine Machine.Reaches.inv (M := machine n manual loops) (I := fun s tr => (Life.machine n manual loops).Reaches s.base (proj tr))
    (Machine.Reaches.init _) (fun s tr l s' e hi hs => ?_) h
  cases shape hs with
  | base l b e hs' => rw [proj_append, proj_life]; exact hi.step hs'
  | _ => simpa [proj_append, proj] using hi

theorem AfterStart.left {a b : List Ev} (h : AfterStart (a ++ b)) : AfterStart a := by
  intro p q c hc
  exact h p (q ++ b) c (by simp [hc])

/-- Once start() has returned, all workers are in the list, which stays as it is. -/
theorem attrs_fixed {n : Nat} {manual loops : Bool} {b b' : Life.St} {tr : List Life.Ev} {l : Life.Lbl} {e : List Life.Ev}
    (h : (Life.machine n manual loops).Reaches b tr) (ha : b.mpc.after = true) (hs : Life.step n manual loops b l = some (b', e)) :
    b'.attrs = b.attrs ∧ b'.mpc.after = true := by
  obtain ⟨em, emn, cnt, aft, pr, at', st, ex⟩ := Life.reach_a h
  have hp := aft ha
  have wrange : ∀ i, (b.wpc i).alive = true → i < n := fun i hi => by have := (em i).1 hi; omega
  simp only [Life.step] at hs
  split at hs
  · simp at hs
  cases l <;> simp only [Life.stepLive] at hs <;> (repeat' split at hs) <;> simp only [Option.some.injEq, Prod.mk.injEq, reduceCtorEq] at hs <;>
    obtain ⟨rfl, rfl⟩ := hs <;> grind [Life.Mpc.after, Life.Wpc.past, Life.Wpc.alive]

/-- what holds if nobody looks too early -/
structure Inv (n : Nat) (s : St) (tr : List Ev) : Prop where
  look : ∀ c seen rest, s.look c = some (seen, rest) → s.base.mpc.after = true ∧ seen ++ rest = s.base.attrs
  done : ∀ c l, .listed c l ∈ tr → s.base.mpc.after = true ∧ l = s.base.attrs
  race : ∀ c, .raced c ∉ tr

theorem length_of_after {n : Nat} {manual loops : Bool} {b : Life.St} {tr : List Life.Ev} (h : (Life.machine n manual loops).Reaches b tr)
    (ha : b.mpc.after = true) : b.attrs.Nodup ∧ ∀ i, i ∈ b.attrs ↔ i < n := by
  obtain ⟨em, emn, cnt, aft, pr, at', st, ex⟩ := Life.reach_a h
  have hp := aft ha
  have wrange : ∀ i, (b.wpc i).alive = true → i < n := fun i hi => by have := (em i).1 hi; omega
  have key : ∀ i, b.attrs.count i = if i < n then 1 else 0 := by
    intro i
    rw [at' i]
    by_cases hi : i < n
    · have := hp i hi
      cases hw : b.wpc i <;> simp_all [Life.Wpc.past, Life.Wpc.registered]
    · have h1 : ¬ (b.wpc i).alive = true := fun h => hi (wrange i h)
      cases hw : b.wpc i <;> simp_all [Life.Wpc.alive, Life.Wpc.registered]
  refine ⟨List.nodup_iff_count.2 fun i => ?_, fun i => ?_⟩
  · rw [key]; split <;> omega
  · rw [← List.count_pos_iff, key]; split <;> simp_all

theorem le_length {l : List Nat} {n : Nat} (h : ∀ i, i < n → i ∈ l) : n ≤ l.length := by
  have := (List.subperm_of_subset (List.nodup_range (n := n)) (l₂ := l) (fun x hx => h x (List.mem_range.1 hx))).length_le
  simpa using this

theorem inv {n : Nat} {manual loops : Bool} {s : St} {tr : List Ev} (h : (machine n manual loops).Reaches s tr) (ha : AfterStart tr) : Inv n s tr := by
  refine Machine.Reaches.inv' (M := machine n manual loops) (I := fun s tr => AfterStart tr → Inv n s tr) ?_ ?_ h ha
  · intro _
    constructor <;> simp [machine]
  · intro s tr l s' e hr hi hs ha
    have hb := base_reaches hr
    have hA := Life.reach_a hb
    obtain ⟨i1, i2, i3⟩ := hi ha.left
    cases shape hs with
    | base l b e hs' =>
      have hf := fun ha => attrs_fixed hb ha hs'
      constructor
      · intro c seen rest hc
        obtain ⟨h1, h2⟩ := i1 c seen rest hc
        exact ⟨(hf h1).2, h2.trans (hf h1).1.symm⟩
      · intro c l hc
        obtain ⟨h1, h2⟩ := i2 c l (by simpa using hc)
        exact ⟨(hf h1).2, h2.trans (hf h1).1.symm⟩
      · intro c hc
        exact i3 c (by simpa using hc)
    | race c hl =>
      have h1 := ha tr [.raced c] c rfl
      have h2 := (hA.st).1 (mem_proj.2 h1)
      have := le_length (fun i hi => ((length_of_after hb h2).2 i).2 hi)
      omega
    | look c hl =>
      have h1 := ha tr [] c rfl
      have h2 := (hA.st).1 (mem_proj.2 h1)
      constructor
      · intro c' seen rest hc
        dsimp only at hc ⊢; rw [upd_apply] at hc
        split at hc
        · simp only [Option.some.injEq, Prod.mk.injEq] at hc
          obtain ⟨rfl, rfl⟩ := hc
          exact ⟨h2, by simp⟩
        · exact i1 c' seen rest hc
      · intro c l hc
        exact i2 c l (by simpa using hc)
      · intro c hc
        exact i3 c (by simpa using hc)
    | fin c seen h =>
      constructor
      · intro c' seen rest hc
        dsimp only at hc ⊢; rw [upd_apply] at hc
        split at hc
        · simp at hc
        · exact i1 c' seen rest hc
      · intro c' l hc
        simp only [List.mem_append, List.mem_cons, List.not_mem_nil, or_false, Ev.listed.injEq] at hc
        rcases hc with hc | ⟨rfl, rfl⟩
        · exact i2 c' l hc
        · simpa using i1 _ _ _ h
      · intro c hc
        exact i3 c (by simpa using hc)
    | dang c seen rest i h hx =>
      exact ⟨i1, fun c l hc => i2 c l (by simpa using hc), fun c hc => i3 c (by simpa using hc)⟩
    | next c seen rest i h =>
      refine ⟨?_, fun c l hc => i2 c l (by simpa using hc), fun c hc => i3 c (by simpa using hc)⟩
      intro c' seen' rest' hc
      dsimp only at hc ⊢; rw [upd_apply] at hc
      split at hc
      · simp only [Option.some.injEq, Prod.mk.injEq] at hc
        obtain ⟨rfl, rfl⟩ := hc
        have := i1 _ _ _ h
        simpa using this
      · exact i1 c' seen' rest' hc
    | quit c =>
      refine ⟨?_, fun c l hc => i2 c l (by simpa using hc), fun c hc => i3 c (by simpa using hc)⟩
      intro c' seen rest hc
      dsimp only at hc ⊢; rw [upd_apply] at hc
      split at hc
      · simp at hc
      · exact i1 c' seen rest hc

/-- **C102.**  If nobody asks for the list before start() has returned, the list names every worker exactly once, -/
theorem list_is_complete_partial {n : Nat} {manual loops : Bool} {s : St} {tr : List Ev} (h : (machine n manual loops).Reaches s tr) (ha : AfterStart tr)
    {c : Who} {l : List Nat} (hl : .listed c l ∈ tr) : l.Nodup ∧ ∀ i, i ∈ l ↔ i < n := by
  obtain ⟨h1, rfl⟩ := (inv h ha).done c l hl
  exact length_of_after (base_reaches h) h1

/-- **C102.**  ... everybody sees the same list, at all times (so the choice of for_each_dispatch_evenly goes round all workers), -/
theorem list_is_stable_partial {n : Nat} {manual loops : Bool} {s : St} {tr : List Ev} (h : (machine n manual loops).Reaches s tr) (ha : AfterStart tr)
    {c c' : Who} {l l' : List Nat} (hl : .listed c l ∈ tr) (hl' : .listed c' l' ∈ tr) : l = l' :=
  ((inv h ha).done c l hl).2.trans ((inv h ha).done c' l' hl').2.symm

/-- **C102.**  ... and reading it does not race with the workers that enter themselves. -/
theorem no_race_partial {n : Nat} {manual loops : Bool} {s : St} {tr : List Ev} (h : (machine n manual loops).Reaches s tr) (ha : AfterStart tr) (c : Who) :
    .raced c ∉ tr :=
  (inv h ha).race c

/-- **C102.**  The attributes of a worker are read after their end only if the worker has left before, and that only happens when the runtime is being stopped: while
it runs, the entries are valid. -/
theorem entries_valid_while_running_partial {n : Nat} {manual loops : Bool} {s : St} {p q : List Ev} {c : Who} {i : Nat}
    (h : (machine n manual loops).Reaches s (p ++ .dangling c i :: q)) :
    .life (.workerExited i) ∈ p ∧ ∃ c', .life (.stopCalled c') ∈ p := by
  revert h
  suffices hh : ∀ s tr, (machine n manual loops).Reaches s tr → ∀ p q, tr = p ++ .dangling c i :: q →
      .life (.workerExited i) ∈ p ∧ ∃ c', .life (.stopCalled c') ∈ p from fun h => hh s _ h p q rfl
  intro s tr h
  refine Machine.Reaches.inv' (M := machine n manual loops)
    (I := fun s tr => ∀ p q, tr = p ++ .dangling c i :: q → .life (.workerExited i) ∈ p ∧ ∃ c', .life (.stopCalled c') ∈ p) ?_ ?_ h
  · intro p q hp
    simp at hp
  · intro s tr l s' e hr hi hs p q hp
    have hb := base_reaches hr
    by_cases hd : .dangling c i ∈ e
    · have he : e = [.dangling c i] ∧ s.base.wpc i = .exited := by
        cases shape hs <;> simp_all
      obtain ⟨rfl, hx⟩ := he
      have hA := Life.reach_a hb
      have hB := Life.reach_b hb
      have hC := Life.reach_c hb
      have hex : .life (.workerExited i) ∈ tr := mem_proj.1 ((hA.ex i).2 hx)
      obtain ⟨c', hc'⟩ := hC.on ((hB.sr).1 (hB.es i hx))
      rcases List.eq_nil_or_concat q with rfl | ⟨q', z, rfl⟩
      · have := (List.append_inj' hp rfl).1
        subst this
        exact ⟨hex, c', mem_proj.1 hc'⟩
      · have h2 : tr ++ [.dangling c i] = (p ++ .dangling c i :: q') ++ [z] := by simpa using hp
        exact hi p q' (List.append_inj' h2 rfl).1
    · rcases List.append_eq_append_iff.1 hp with ⟨a', h1, h2⟩ | ⟨c1, h1, h2⟩
      · exact absurd (h2 ▸ by simp) hd
      · cases c1 with
        | nil =>
          simp only [List.nil_append] at h2
          exact absurd (h2 ▸ by simp) hd
        | cons x c1 =>
          simp only [List.cons_append, List.cons.injEq] at h2
          obtain ⟨rfl, h2⟩ := h2
          exact hi p c1 h1

/-- Going on with a look reads the rest of the list and ends. -/
theorem look_goes_on {n : Nat} {manual loops : Bool} {c : Who} : ∀ (rest seen : List Nat) (s : St), s.ub = false → s.base.dead = false →
    inUserCode s.base c = true → s.look c = some (seen, rest) → (∀ i ∈ rest, s.base.wpc i ≠ .exited) →
    ∃ ls s' e, (machine n manual loops).runFrom s ls = some (s', e ++ [.listed c (seen ++ rest)]) := by
  intro rest
  induction rest with
  | nil =>
    intro seen s hu hd hc hl _
    exact ⟨[.next c], { s with look := upd s.look c none }, [], by simp [Machine.runFrom, machine, step, hu, hd, hc, hl]⟩
  | cons i rest ih =>
    intro seen s hu hd hc hl hx
    have hs : step n manual loops s (.next c) = some ({ s with look := upd s.look c (some (seen ++ [i], rest)) }, [.looked c i]) := by
      simp [step, hu, hd, hc, hl, hx i (by simp)]
    obtain ⟨ls, s', e, hr⟩ := ih (seen ++ [i]) { s with look := upd s.look c (some (seen ++ [i], rest)) } hu hd hc (by simp [upd_same])
      (fun j hj => hx j (by simp [hj]))
    refine ⟨.next c :: ls, s', .looked c i :: e, ?_⟩
    simp only [Machine.runFrom, machine] at hr ⊢
    rw [hs]
    simp [hr]

/-- **C102.**  While the runtime runs (start() has returned, nobody has begun to stop or destroy it, nothing has crashed), every thread that runs user code can go through the whole list. -/
theorem look_completes_partial {n : Nat} {manual loops : Bool} {s : St} {tr : List Ev} (h : (machine n manual loops).Reaches s tr) (hu : s.ub = false)
    (hh : Life.Healthy (proj tr)) (hst : .life .startReturned ∈ tr) (hns : ∀ c, .life (.stopCalled c) ∉ tr) (c : Who) (hc : inUserCode s.base c = true) (hl : s.look c = none) :
    ∃ ls s' e l, (machine n manual loops).runFrom s ls = some (s', e ++ [.listed c l]) := by
  have hb := base_reaches h
  have hA := Life.reach_a hb
  have hB := Life.reach_b hb
  have hC := Life.reach_c hb
  have hD := Life.reach_d hb
  have ha := (hA.st).1 (mem_proj.2 hst)
  have hd : s.base.dead = false := by
    cases hd : s.base.dead
    · rfl
    · exact absurd hh (hD.dead.1 hd)
  have hx : ∀ i, s.base.wpc i ≠ .exited := by
    intro i hi
    obtain ⟨c', hc'⟩ := hC.on ((hB.sr).1 (hB.es i hi))
    exact hns c' (mem_proj.1 hc')
  have hlen := le_length (fun i hi => ((length_of_after hb ha).2 i).2 hi)
  have hs : step n manual loops s (.look c) = some ({ s with look := upd s.look c (some ([], s.base.attrs)) }, [.lookBegan c]) := by
    simp [step, hu, hd, hc, hl, Nat.not_lt.2 hlen]
  obtain ⟨ls, s', e, hr⟩ := look_goes_on (n := n) (manual := manual) (loops := loops) (c := c) s.base.attrs [] { s with look := upd s.look c (some ([], s.base.attrs)) }
    hu hd hc (by simp [upd_same]) (fun i _ => hx i)
  refine ⟨.look c :: ls, s', .lookBegan c :: e, s.base.attrs, ?_⟩
  simp only [Machine.runFrom, machine] at hr ⊢
  rw [hs]
  simp [hr]

/-- **C102, what fails.**  When stop() has returned, all entries are pointers to variables of functions that have returned: whoever goes through the list then
(turn_into_scheduler() on any thread, for instance), reads one at once. -/
theorem look_after_stop_refuted {n : Nat} {manual loops : Bool} (hn : 0 < n) {s : St} {tr : List Ev} (h : (machine n manual loops).Reaches s tr) (hu : s.ub = false)
    (hh : Life.Healthy (proj tr)) (c' : Who) (hst : .life (.stopReturned c') ∈ tr) (c : Who) (hc : inUserCode s.base c = true) (hl : s.look c = none) :
    ∃ s' i, (machine n manual loops).runFrom s [.look c, .next c] = some (s', [.lookBegan c, .dangling c i]) := by
  have hb := base_reaches h
  have hA := Life.reach_a hb
  have hB := Life.reach_b hb
  have hC := Life.reach_c hb
  have hD := Life.reach_d hb
  have hdn := hB.dn (hC.ret c' (mem_proj.2 hst))
  have ha : s.base.mpc.after = true := by
    have wrange : ∀ i, (s.base.wpc i).alive = true → i < n := fun i hi => by have := (hA.em i).1 hi; have := hA.emn; omega
    cases c with
    | main => simp_all [inUserCode, Life.Mpc.after]
    | ext k => simp_all [inUserCode, Life.Mpc.after]
    | wrk j =>
      have h1 : s.base.wpc j = .run := by simp_all [inUserCode]
      have h2 := hdn j (wrange j (by rw [h1]; rfl))
      simp [h1] at h2
  have hd : s.base.dead = false := by
    cases hd : s.base.dead
    · rfl
    · exact absurd hh (hD.dead.1 hd)
  have hm := length_of_after hb ha
  have hlen := le_length (fun i hi => (hm.2 i).2 hi)
  obtain ⟨i, rest, hi⟩ : ∃ i rest, s.base.attrs = i :: rest := by
    cases h1 : s.base.attrs with
    | nil => simp [h1] at hlen; omega
    | cons i rest => exact ⟨i, rest, rfl⟩
  have hx := hdn i ((hm.2 i).1 (by simp [hi]))
  refine ⟨{ s with look := upd s.look c (some ([], s.base.attrs)), ub := true }, i, ?_⟩
  have h1 : step n manual loops s (.look c) = some ({ s with look := upd s.look c (some ([], s.base.attrs)) }, [.lookBegan c]) := by
    simp [step, hu, hd, hc, hl, Nat.not_lt.2 hlen]
  have h2 : step n manual loops { s with look := upd s.look c (some ([], s.base.attrs)) } (.next c) =
      some ({ s with look := upd s.look c (some ([], s.base.attrs)), ub := true }, [.dangling c i]) := by
    simp [step, hu, hd, hc, upd_same, hi, hx]
  simp only [Machine.runFrom, machine]
  rw [h1]
  simp only []
  rw [h2]
  rfl

/-- the two workers of a runtime are up -/
def up : List Lbl :=
  [.base .emplace, .base .emplace, .base .emplace, .base (.fill 0 2), .base (.fill 1 2), .base (.prepare 1), .base (.prepare 0), .base (.countDown 0), .base (.countDown 1),
   .base .latchDone]

/-- **C102, what fails.**  Already while stop() drains the queue: one worker has left, a task on the other one goes through the list. -/
theorem look_while_draining_refuted : ∃ s tr, (machine 2 false true).Reaches s tr ∧ AfterStart tr ∧ .life (.taskBegan 0) ∈ tr ∧ .dangling (.wrk 0) 1 ∈ tr :=
  ⟨_, [.life (.sawThreads 0 2), .life (.sawThreads 1 2), .life (.prepared 1), .life (.prepared 0), .life .startReturned, .life (.stopCalled .main), .life (.taskBegan 0),
      .life (.workerExited 1), .lookBegan (.wrk 0), .dangling (.wrk 0) 1],
    ⟨up ++ [.base (.stop .main), .base (.advance .main), .base (.begin 0), .base (.leave 1), .look (.wrk 0), .next (.wrk 0)], rfl⟩,
    by
      intro p q c hp
      rcases p with _ | ⟨_, _ | ⟨_, _ | ⟨_, _ | ⟨_, _ | ⟨_, p⟩⟩⟩⟩⟩ <;> simp at hp
      obtain ⟨_, _, _, _, rfl, _⟩ := hp
      simp,
    by simp, by simp⟩

/-- **C102, what fails.**  A task that was enqueued before start(), and runs on the first worker while the second one is on its way. -/
theorem look_before_start_refuted : ∃ s tr, (machine 2 false false).Reaches s tr ∧ .raced (.wrk 0) ∈ tr :=
  ⟨_, [.life (.sawThreads 0 1), .life (.prepared 0), .life (.taskBegan 0), .lookBegan (.wrk 0), .raced (.wrk 0)],
    ⟨[.base .emplace, .base (.fill 0 1), .base (.prepare 0), .base (.countDown 0), .base (.begin 0), .look (.wrk 0)], rfl⟩, by simp⟩

/-- A case that meets the hypotheses: two threads go through the list at the same time, in a task and outside. -/
theorem attrs_nontrivial : ∃ s tr, (machine 2 false true).Reaches s tr ∧ AfterStart tr ∧ s.ub = false ∧ Life.Healthy (proj tr) ∧
    .listed (.wrk 0) [1, 0] ∈ tr ∧ .listed (.ext 7) [1, 0] ∈ tr ∧ inUserCode s.base (.wrk 0) = true ∧ s.look (.wrk 0) = none :=
  ⟨_, [.life (.sawThreads 0 2), .life (.sawThreads 1 2), .life (.prepared 1), .life (.prepared 0), .life .startReturned, .life (.taskBegan 0),
      .lookBegan (.wrk 0), .looked (.wrk 0) 1, .lookBegan (.ext 7), .looked (.ext 7) 1, .looked (.wrk 0) 0, .looked (.ext 7) 0, .listed (.ext 7) [1, 0], .listed (.wrk 0) [1, 0]],
    ⟨up ++ [.base (.begin 0), .look (.wrk 0), .next (.wrk 0), .look (.ext 7), .next (.ext 7), .next (.wrk 0), .next (.ext 7), .next (.ext 7), .next (.wrk 0)], rfl⟩,
    by
      intro p q c hp
      rcases p with _ | ⟨_, _ | ⟨_, _ | ⟨_, _ | ⟨_, _ | ⟨_, p⟩⟩⟩⟩⟩ <;> simp at hp
      obtain ⟨_, _, _, _, rfl, _⟩ := hp
      simp,
    rfl, by simp [Life.Healthy, proj], by simp, by simp, rfl, by simp [upd_apply]⟩

/-- ... and a stop that has returned -/
theorem attrs_stopped : ∃ s tr, (machine 1 false true).Reaches s tr ∧ s.ub = false ∧ Life.Healthy (proj tr) ∧ .life (.stopReturned .main) ∈ tr ∧
    inUserCode s.base .main = true ∧ s.look .main = none :=
  ⟨_, [.life (.sawThreads 0 1), .life (.prepared 0), .life .startReturned, .life (.stopCalled .main), .life (.workerExited 0), .life (.stopReturned .main)],
    ⟨[.base .emplace, .base (.fill 0 1), .base .emplace, .base (.prepare 0), .base (.countDown 0), .base .latchDone, .base (.stop .main), .base (.advance .main), .base (.leave 0),
      .base (.advance .main), .base (.advance .main)], rfl⟩, rfl, by simp [Life.Healthy, proj], by simp, rfl, rfl⟩

end Verif.Attrs
