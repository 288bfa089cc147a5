import Verif.Common.Linear
/-!
# `wait_group_guard` (include/koios/wait_group.h 70-112), property C24

Guards are objects in numbered slots; wait groups are numbered.  Every construction of a
guard on a wait group is one `add(i)`, numbered `k` (ghost).
-/

namespace Verif.WaitGroup.Guard

inductive Ev where
  | added (k p i : Nat)     -- unit `k`: `add(i)` on wait group `p` by a guard's constructor
  | done (k p i : Nat)      -- `done(i)` on `p` by the guard responsible for unit `k`
  | abandoned (k : Nat)     -- `clear()` ran on the guard responsible for unit `k`
  deriving DecidableEq, Repr

/-- `m_parent`, `m_count` (110-111); `tok` (ghost) is the unit this object was given last. -/
structure Obj where
  parent : Option Nat
  cnt    : Nat
  tok    : Nat
  deriving DecidableEq, Repr

structure St where
  obj  : Nat → Option Obj
  next : Nat

inductive Lbl where
  | mkDefault (d : Nat)          -- (73)
  | mk (d p i : Nat)             -- (75-79)
  | moveCtor (d s : Nat)         -- (81-85)
  | moveAssign (d s : Nat)       -- (87-93)
  | clear (d : Nat)              -- public (104-107)
  | dtor (d : Nat)               -- (95-102)
  deriving DecidableEq, Repr

/-- What `clear()` loses (106: `m_parent = nullptr`). -/
def clearEv (o : Obj) : List Ev :=
  match o.parent with
  | some _ => [.abandoned o.tok]
  | none => []

/-- `clear()` (104-107); also the state of a moved-from guard. -/
def cleared (o : Obj) : Obj := { o with parent := none }

def step (s : St) : Lbl → Option (St × List Ev)
  | .mkDefault d =>
    match s.obj d with
    | none => some ({ s with obj := upd s.obj d (some { parent := none, cnt := 0, tok := 0 }) }, [])
    | some _ => none
  | .mk d p i =>
    match s.obj d with
    | none => some ({ s with obj := upd s.obj d (some { parent := some p, cnt := i, tok := s.next }),
                             next := s.next + 1 }, [.added s.next p i])
    | some _ => none
  | .moveCtor d src =>
    match s.obj d, s.obj src with
    | none, some o => some ({ s with obj := upd (upd s.obj src (some (cleared o))) d (some o) }, [])
    | _, _ => none
  | .moveAssign d src =>
    match s.obj d with
    | some od =>
      let obj1 := upd s.obj d (some (cleared od))      -- `clear()` (89)
      match obj1 src with
      | some o2 =>                                       -- exchange (90), copy of m_count (91)
        some ({ s with obj := upd (upd obj1 src (some (cleared o2))) d (some o2) }, clearEv od)
      | none => none
    | none => none
  | .clear d =>
    match s.obj d with
    | some o => some ({ s with obj := upd s.obj d (some (cleared o)) }, clearEv o)
    | none => none
  | .dtor d =>
    match s.obj d with
    | some o =>
      some ({ s with obj := upd s.obj d none },
        match o.parent with
        | some p => [.done o.tok p o.cnt]
        | none => [])
    | none => none

def init : St := { obj := fun _ => none, next := 0 }

def machine : Machine St Lbl Ev := { init := init, step := step }

/-! ## Specification -/

/-- How often unit `k` was added / was subtracted again / was abandoned. -/
def timesAdded (k : Nat) (tr : List Ev) : Nat :=
  tr.countP fun | .added j _ _ => j == k | _ => false
def timesDone (k : Nat) (tr : List Ev) : Nat :=
  tr.countP fun | .done j _ _ => j == k | _ => false
def timesAbandoned (k : Nat) (tr : List Ev) : Nat :=
  tr.countP fun | .abandoned j => j == k | _ => false

/-! ## Proof -/

theorem tA_append (k) (a b : List Ev) : timesAdded k (a ++ b) = timesAdded k a + timesAdded k b := by
  simp [timesAdded, List.countP_append]
theorem tD_append (k) (a b : List Ev) : timesDone k (a ++ b) = timesDone k a + timesDone k b := by
  simp [timesDone, List.countP_append]
theorem tB_append (k) (a b : List Ev) :
    timesAbandoned k (a ++ b) = timesAbandoned k a + timesAbandoned k b := by
  simp [timesAbandoned, List.countP_append]

def claimOf : Option Obj → Option Nat
  | some { parent := some _, cnt := _, tok := k } => some k
  | _ => none

structure Inv (s : St) (tr : List Ev) : Prop where
  lin : Linear (fun d => claimOf (s.obj d)) s.next (fun k => timesDone k tr + timesAbandoned k tr)
  add : ∀ k, timesAdded k tr = if k < s.next then 1 else 0
  mtx : ∀ d o p, s.obj d = some o → o.parent = some p → Ev.added o.tok p o.cnt ∈ tr
  rel : ∀ k p i, Ev.done k p i ∈ tr → Ev.added k p i ∈ tr

theorem claim_upd (obj : Nat → Option Obj) (d : Nat) (o : Option Obj) (x : Nat) :
    claimOf (upd obj d o x) = upd (fun d => claimOf (obj d)) d (claimOf o) x := by
  simp only [upd_apply]; split <;> rfl

@[simp] theorem claimOf_cleared (o : Obj) : claimOf (some (cleared o)) = none := by
  simp [cleared, claimOf]

theorem inv_init : Inv init [] := by
  refine ⟨Linear.init.congr ?_ ?_, ?_, by simp [init], by simp⟩ <;>
    simp [init, claimOf, timesDone, timesAbandoned, timesAdded]

/-- Consuming whatever slot `d` claims, by an event list that accounts for it. -/
theorem lin_drop {s : St} {tr e : List Ev} (h : Inv s tr) {d : Nat} (o' : Option Obj)
    (ho' : claimOf o' = none)
    (he : ∀ k, timesDone k e + timesAbandoned k e = if claimOf (s.obj d) = some k then 1 else 0) :
    Linear (fun x => claimOf (upd s.obj d o' x)) s.next
      (fun k => timesDone k (tr ++ e) + timesAbandoned k (tr ++ e)) := by
  cases hc : claimOf (s.obj d) with
  | none =>
    refine h.lin.congr ?_ ?_
    · intro x; simp only [upd_apply]; split
      · rename_i e; subst e; rw [ho', hc]
      · rfl
    · intro k
      have := he k
      rw [hc] at this
      rw [tD_append, tB_append]
      simp at this
      omega
  | some k =>
    refine (h.lin.use d k hc).congr ?_ ?_
    · intro x; rw [claim_upd, ho']
    · intro j
      have := he j
      rw [hc] at this
      rw [tD_append, tB_append]
      simp only [Option.some.injEq] at this
      have hjk : (k = j) = (j = k) := propext eq_comm
      simp only [hjk] at this
      omega

theorem clearEv_count (o : Obj) (k : Nat) :
    timesDone k (clearEv o) + timesAbandoned k (clearEv o) = if claimOf (some o) = some k then 1 else 0 := by
  unfold clearEv
  cases o with | mk p c t => cases p <;> simp [timesDone, timesAbandoned, claimOf, List.countP_cons]

theorem clearEv_added (o : Obj) (k : Nat) : timesAdded k (clearEv o) = 0 := by
  unfold clearEv
  cases o with | mk p c t => cases p <;> simp [timesAdded]

theorem clearEv_mem (o : Obj) (k p i : Nat) : Ev.done k p i ∉ clearEv o := by
  unfold clearEv
  cases o with | mk p c t => cases p <;> simp

theorem inv_step (s : St) (tr : List Ev) (l : Lbl) (s' : St) (e : List Ev)
    (h : Inv s tr) (hst : step s l = some (s', e)) : Inv s' (tr ++ e) := by
  cases l with
  | mkDefault d =>
    simp only [step] at hst
    split at hst
    · rename_i hd
      simp only [Option.some.injEq, Prod.mk.injEq] at hst
      obtain ⟨rfl, rfl⟩ := hst
      rw [List.append_nil]
      refine ⟨h.lin.congr ?_ (fun _ => rfl), h.add, ?_, h.rel⟩
      · intro x; simp only [upd_apply]; split
        · rename_i e; subst e; simp [hd, claimOf]
        · rfl
      · intro x o p hx hp
        simp only [upd_apply] at hx
        split at hx
        · simp only [Option.some.injEq] at hx; subst hx; simp at hp
        · exact h.mtx x o p hx hp
    · simp at hst
  | mk d p i =>
    simp only [step] at hst
    split at hst
    · rename_i hd
      simp only [Option.some.injEq, Prod.mk.injEq] at hst
      obtain ⟨rfl, rfl⟩ := hst
      refine ⟨(h.lin.new d (by simp [hd, claimOf])).congr ?_ ?_, ?_, ?_, ?_⟩
      · intro x; rw [claim_upd]; rfl
      · intro k; rw [tD_append, tB_append]; simp [timesDone, timesAbandoned]
      · intro k
        rw [tA_append, h.add]
        simp only [timesAdded, List.countP_cons, List.countP_nil, beq_iff_eq]
        split <;> split <;> split <;> omega
      · intro x o p' hx hp
        dsimp only at hx
        simp only [upd_apply] at hx
        split at hx
        · simp only [Option.some.injEq] at hx; subst hx
          simp only [Option.some.injEq] at hp; subst hp
          simp
        · simp [h.mtx x o p' hx hp]
      · intro k p' i' hm
        simp at hm
        simp [h.rel k p' i' hm]
    · simp at hst
  | moveCtor d src =>
    simp only [step] at hst
    split at hst
    · rename_i o hd hsrc
      simp only [Option.some.injEq, Prod.mk.injEq] at hst
      obtain ⟨rfl, rfl⟩ := hst
      rw [List.append_nil]
      have hne : d ≠ src := by rintro rfl; simp [hd] at hsrc
      refine ⟨(h.lin.move d src (by simp [hd, claimOf]) hne).congr ?_ (fun _ => rfl), h.add, ?_, h.rel⟩
      · intro x
        simp only [upd_apply]
        by_cases h1 : x = d
        · subst h1; simp [hne, hsrc]
        · by_cases h2 : x = src
          · subst h2; simp [h1]
          · simp [h1, h2]
      · intro x o' p hx hp
        simp only [upd_apply] at hx
        have := h.mtx x o' p
        have := h.mtx src o p hsrc
        grind [cleared]
    · simp at hst
  | moveAssign d src =>
    simp only [step] at hst
    split at hst
    · rename_i od hd
      split at hst
      · rename_i o2 ho2
        simp only [Option.some.injEq, Prod.mk.injEq] at hst
        obtain ⟨rfl, rfl⟩ := hst
        have h1 := lin_drop (e := clearEv od) h (d := d) (some (cleared od)) (by simp)
          (by intro k; rw [hd]; exact clearEv_count od k)
        refine ⟨?_, ?_, ?_, ?_⟩
        · by_cases hne : d = src
          · subst hne
            refine h1.congr ?_ (fun _ => rfl)
            intro x
            simp only [upd_same, Option.some.injEq] at ho2
            subst ho2
            simp only [upd_apply]
            by_cases hx : x = d
            · subst hx; simp
            · simp [hx]
          · refine (h1.move d src (by simp) hne).congr ?_ (fun _ => rfl)
            intro x
            simp only [upd_apply] at ho2 ⊢
            by_cases hx : x = d
            · subst hx; simp [hne, Ne.symm hne] at ho2 ⊢; simp [ho2]
            · by_cases hx2 : x = src
              · subst hx2; simp [hx]
              · simp [hx, hx2]
        · intro k; rw [tA_append, clearEv_added, h.add]; rfl
        · intro x o' p hx hp
          simp only [upd_apply] at hx ho2
          rw [List.mem_append]
          have := h.mtx x o' p
          have := h.mtx src o2 p
          grind [cleared]
        · intro k p i hm
          rw [List.mem_append] at hm ⊢
          rcases hm with hm | hm
          · exact Or.inl (h.rel k p i hm)
          · exact absurd hm (clearEv_mem od k p i)
      · simp at hst
    · simp at hst
  | clear d =>
    simp only [step] at hst
    split at hst
    · rename_i o ho
      simp only [Option.some.injEq, Prod.mk.injEq] at hst
      obtain ⟨rfl, rfl⟩ := hst
      refine ⟨lin_drop h _ (by simp) (by intro k; rw [ho]; exact clearEv_count o k), ?_, ?_, ?_⟩
      · intro k; rw [tA_append, clearEv_added, h.add]; rfl
      · intro x o' p hx hp
        simp only [upd_apply] at hx
        rw [List.mem_append]
        have := h.mtx x o' p
        grind [cleared]
      · intro k p i hm
        rw [List.mem_append] at hm ⊢
        rcases hm with hm | hm
        · exact Or.inl (h.rel k p i hm)
        · exact absurd hm (clearEv_mem o k p i)
    · simp at hst
  | dtor d =>
    simp only [step] at hst
    split at hst
    · rename_i o ho
      simp only [Option.some.injEq, Prod.mk.injEq] at hst
      obtain ⟨rfl, rfl⟩ := hst
      refine ⟨lin_drop h _ rfl ?_, ?_, ?_, ?_⟩
      · intro k
        rw [ho]
        cases o with | mk p c t => cases p <;> simp [timesDone, timesAbandoned, claimOf, List.countP_cons]
      · intro k
        rw [tA_append, h.add]
        cases o with | mk p c t => cases p <;> simp [timesAdded]
      · intro x o' p hx hp
        simp only [upd_apply] at hx
        split at hx
        · simp at hx
        · rw [List.mem_append]; exact Or.inl (h.mtx x o' p hx hp)
      · intro k p i hm
        rw [List.mem_append] at hm ⊢
        rcases hm with hm | hm
        · exact Or.inl (h.rel k p i hm)
        · left
          cases hp : o.parent with
          | none => simp [hp] at hm
          | some q =>
            simp only [hp, List.mem_singleton, Ev.done.injEq] at hm
            obtain ⟨rfl, rfl, rfl⟩ := hm
            exact h.mtx d o p ho hp
    · simp at hst

theorem inv_of_reaches {s : St} {tr : List Ev} (h : machine.Reaches s tr) : Inv s tr :=
  h.inv Inv inv_init inv_step

/-! ## Properties -/

/-- **C24 (1).**  Along any history of guards, no unit is subtracted twice, nor without having
been added, nor on another wait group, nor in a different amount. -/
theorem guard_done_at_most_once (s : St) (tr : List Ev) (h : machine.Reaches s tr) (k : Nat) :
    timesDone k tr ≤ timesAdded k tr ∧ timesAdded k tr ≤ 1 ∧
    ∀ p i, Ev.done k p i ∈ tr → Ev.added k p i ∈ tr := by
  have hi := inv_of_reaches h
  rw [hi.add]
  refine ⟨?_, by split <;> omega, hi.rel k⟩
  by_cases hk : k < s.next
  · simp only [hk, if_true]
    by_cases hc : ∀ d, claimOf (s.obj d) ≠ some k
    · have := hi.lin.done k hk hc; omega
    · rw [Classical.not_forall] at hc
      obtain ⟨d, hd⟩ := hc
      have := (hi.lin.live d k (Classical.not_not.1 hd)).2
      omega
  · have := hi.lin.fresh k (by omega)
    simp [hk]; omega

/-- **C24 (2), refuted.**  Assigning to an engaged guard drops its unit: all guards are gone and
unit 0 of wait group 7 was never subtracted, so a waiter on 7 waits forever. -/
theorem guard_leak_refuted :
    ∃ s tr, machine.Reaches s tr ∧ (∀ d, s.obj d = none) ∧ timesAdded 0 tr = 1 ∧
      timesDone 0 tr = 0 := by
  refine ⟨_, _, ⟨[.mk 0 7 1, .mk 1 8 1, .moveAssign 0 1, .dtor 0, .dtor 1], rfl⟩, ?_, rfl, rfl⟩
  intro d
  simp only [machine, init, upd_apply]
  grind

/-- Self-assignment drops the unit as well. -/
theorem guard_self_assign_refuted :
    ∃ s tr, machine.Reaches s tr ∧ (∀ d, s.obj d = none) ∧ timesAdded 0 tr = 1 ∧
      timesDone 0 tr = 0 := by
  refine ⟨_, _, ⟨[.mk 0 7 1, .moveAssign 0 0, .dtor 0], rfl⟩, ?_, rfl, rfl⟩
  intro d
  simp only [machine, init, upd_apply]
  grind

/-- **C24 (2), partial.**  Missing: units whose guard was `clear()`ed or assigned over while
engaged.  Every other unit is subtracted exactly once when all guards are gone. -/
theorem guard_no_leak_partial (s : St) (tr : List Ev) (h : machine.Reaches s tr)
    (hgone : ∀ d, s.obj d = none) (k : Nat) (ha : Ev.abandoned k ∉ tr) :
    timesDone k tr = timesAdded k tr := by
  have hi := inv_of_reaches h
  have hb : timesAbandoned k tr = 0 := by
    unfold timesAbandoned
    rw [List.countP_eq_zero]
    intro e he
    cases e <;> simp
    rintro rfl; exact ha he
  rw [hi.add]
  by_cases hk : k < s.next
  · simp only [hk, if_true]
    have := hi.lin.done k hk (by intro d; simp [hgone d, claimOf])
    omega
  · simp only [hk, if_false]
    have := hi.lin.fresh k (by omega)
    omega

/-- Non-vacuity: a moved guard. -/
example : ∃ s tr, machine.Reaches s tr ∧ (∀ d, s.obj d = none) ∧ Ev.abandoned 0 ∉ tr ∧
    tr = [.added 0 7 3, .done 0 7 3] := by
  refine ⟨_, _, ⟨[.mk 0 7 3, .moveCtor 1 0, .mkDefault 2, .moveAssign 2 1, .dtor 0, .dtor 2, .dtor 1], rfl⟩,
    ?_, by decide, rfl⟩
  intro d
  simp only [machine, init, upd_apply]
  grind

end Verif.WaitGroup.Guard
