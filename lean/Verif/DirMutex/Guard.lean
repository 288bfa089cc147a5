import Verif.Common.Linear
/-!
# dir_mutex_guard (src/dir_mutex.cc 30-49, include/koios/dir_mutex.h 22-39), property C65

Guards are objects in numbered slots.  Every acquisition gets a number (ghost).
-/

namespace Verif.DirMutex.Guard

inductive Ev where
  | acquired (k : Nat)     -- acquisition number k, given to a new guard
  | unlocked (k : Nat)     -- dir_mutex::unlock() is called for acquisition k
  deriving DecidableEq

/-- `none`: no object; `some none`: m_parent = nullptr; `some (some k)`: m_parent points to the mutex, for acquisition k -/
structure St where
  obj : Nat → Option (Option Nat)
  next : Nat

inductive Lbl where
  | acquire (d : Nat)          -- dir_mutex_guard(parent) (25-28), from await_resume (61-64)
  | moveCtor (d s : Nat)
  | moveAssign (d s : Nat)     -- also d = s
  | unlock (d : Nat)
  | dtor (d : Nat)
  deriving DecidableEq

/-- the calls unlock() makes (30-37) -/
def unlockEv (p : Option Nat) : List Ev := p.toList.map Ev.unlocked

def step (s : St) : Lbl → Option (St × List Ev)
  | .acquire d =>
    match s.obj d with
    | none => some ({ obj := upd s.obj d (some (some s.next)), next := s.next + 1 }, [.acquired s.next])
    | some _ => none
  -- 39-42
  | .moveCtor d src =>
    match s.obj d, s.obj src with
    | none, some p => some ({ s with obj := upd (upd s.obj src (some none)) d (some p) }, [])
    | _, _ => none
  -- 44-49: unlock(), then exchange
  | .moveAssign d src =>
    match s.obj d with
    | some pd =>
      let obj1 := upd s.obj d (some none)
      match obj1 src with
      | some p => some ({ s with obj := upd (upd obj1 src (some none)) d (some p) }, unlockEv pd)
      | none => none
    | none => none
  -- 30-37
  | .unlock d =>
    match s.obj d with
    | some p => some ({ s with obj := upd s.obj d (some none) }, unlockEv p)
    | none => none
  -- dir_mutex.h 34
  | .dtor d =>
    match s.obj d with
    | some p => some ({ s with obj := upd s.obj d none }, unlockEv p)
    | none => none

def machine : Machine St Lbl Ev := ⟨⟨fun _ => none, 0⟩, step⟩

def timesUnlocked (k : Nat) (tr : List Ev) : Nat := tr.count (.unlocked k)

structure Inv (s : St) (tr : List Ev) : Prop where
  lin : Linear (fun d => (s.obj d).join) s.next (fun k => timesUnlocked k tr)
  acq : ∀ k, tr.count (.acquired k) = if k < s.next then 1 else 0

theorem unlockEv_count (p : Option Nat) (k : Nat) : (unlockEv p).count (.unlocked k) = if p = some k then 1 else 0 := by
  cases p with
  | none => simp [unlockEv]
  | some j => simp [unlockEv, List.count_singleton]

theorem unlockEv_acq (p : Option Nat) (k : Nat) : (unlockEv p).count (.acquired k) = 0 := by
  cases p <;> simp [unlockEv]

/-- giving up what slot `d` is responsible for -/
theorem lin_drop {s : St} {tr : List Ev} (h : Inv s tr) (d : Nat) (p : Option Nat) (hd : s.obj d = some p) (o' : Option (Option Nat))
    (ho : o'.join = none) :
    Linear (fun x => (upd s.obj d o' x).join) s.next (fun k => timesUnlocked k (tr ++ unlockEv p)) := by
  cases p with
  | none =>
    refine h.lin.congr ?_ ?_
    · intro x; simp only [upd_apply]; split
      · rename_i e; subst e; rw [hd, ho]; rfl
      · rfl
    · intro k; simp [timesUnlocked, unlockEv]
  | some k =>
    refine (h.lin.use d k (by rw [hd]; rfl)).congr ?_ ?_
    · intro x; simp only [upd_apply]; split
      · exact ho
      · rfl
    · intro j
      simp only [timesUnlocked, List.count_append, unlockEv_count, Option.some.injEq]
      have : (k = j) = (j = k) := propext eq_comm
      simp only [this]

theorem inv_step (s : St) (tr : List Ev) (l : Lbl) (s' : St) (e : List Ev) (h : Inv s tr) (hs : step s l = some (s', e)) :
    Inv s' (tr ++ e) := by
  cases l with
  | acquire d =>
    simp only [step] at hs
    split at hs <;> simp only [Option.some.injEq, Prod.mk.injEq, reduceCtorEq] at hs
    rename_i hd
    obtain ⟨rfl, rfl⟩ := hs
    refine ⟨(h.lin.new d (by simp [hd])).congr ?_ ?_, ?_⟩
    · intro x; simp only [upd_apply]; split <;> rfl
    · intro k; simp [timesUnlocked]
    · intro k
      rw [List.count_append, h.acq]
      simp only [List.count_singleton, beq_iff_eq, Ev.acquired.injEq]
      split <;> split <;> split <;> omega
  | moveCtor d src =>
    simp only [step] at hs
    split at hs <;> simp only [Option.some.injEq, Prod.mk.injEq, reduceCtorEq] at hs
    rename_i p hd hsrc
    obtain ⟨rfl, rfl⟩ := hs
    rw [List.append_nil]
    have hne : d ≠ src := by rintro rfl; simp [hd] at hsrc
    refine ⟨(h.lin.move d src (by simp [hd]) hne).congr ?_ (fun _ => rfl), h.acq⟩
    intro x
    simp only [upd_apply]
    by_cases h1 : x = d
    · subst h1; simp [hne, hsrc]
    · by_cases h2 : x = src
      · subst h2; simp [h1]
      · simp [h1, h2]
  | moveAssign d src =>
    simp only [step] at hs
    split at hs
    · rename_i pd hd
      split at hs <;> simp only [Option.some.injEq, Prod.mk.injEq, reduceCtorEq] at hs
      rename_i p hp
      obtain ⟨rfl, rfl⟩ := hs
      have h1 := lin_drop h d pd hd (some none) rfl
      refine ⟨?_, ?_⟩
      · by_cases hne : d = src
        · subst hne
          refine h1.congr ?_ (fun _ => rfl)
          intro x
          simp only [upd_same, Option.some.injEq] at hp
          subst hp
          simp only [upd_apply]
          by_cases hx : x = d
          · subst hx; simp
          · simp [hx]
        · refine (h1.move d src (by simp) hne).congr ?_ (fun _ => rfl)
          intro x
          have hsrc : s.obj src = some p := by rw [upd_ne _ _ (Ne.symm hne)] at hp; exact hp
          simp only [upd_apply]
          by_cases h1 : x = d
          · subst h1; simp [hne, hsrc, Ne.symm hne]
          · by_cases h2 : x = src
            · subst h2; simp [h1]
            · simp [h1, h2]
      · intro k; rw [List.count_append, h.acq, unlockEv_acq]; rfl
    · simp at hs
  | unlock d =>
    simp only [step] at hs
    split at hs <;> simp only [Option.some.injEq, Prod.mk.injEq, reduceCtorEq] at hs
    rename_i p hd
    obtain ⟨rfl, rfl⟩ := hs
    exact ⟨lin_drop h d p hd _ rfl, fun k => by rw [List.count_append, h.acq, unlockEv_acq]; rfl⟩
  | dtor d =>
    simp only [step] at hs
    split at hs <;> simp only [Option.some.injEq, Prod.mk.injEq, reduceCtorEq] at hs
    rename_i p hd
    obtain ⟨rfl, rfl⟩ := hs
    exact ⟨lin_drop h d p hd _ rfl, fun k => by rw [List.count_append, h.acq, unlockEv_acq]; rfl⟩

theorem reach_inv {s : St} {tr : List Ev} (h : machine.Reaches s tr) : Inv s tr :=
  Machine.Reaches.inv (M := machine) Inv
    ⟨Linear.init.congr (by simp [machine]) (by simp [timesUnlocked]), by simp [machine]⟩
    (fun _ _ _ _ _ hi hs => inv_step _ _ _ _ _ hi hs) h

/-- **C65.**  For every sequence of constructions, moves, (self-)assignments, explicit unlocks and destructions of guards: no acquisition is unlocked twice, and none that never happened. -/
theorem guard_unlocks_at_most_once (s : St) (tr : List Ev) (h : machine.Reaches s tr) (k : Nat) :
    tr.count (.unlocked k) ≤ tr.count (.acquired k) ∧ tr.count (.acquired k) ≤ 1 := by
  have hi := reach_inv h
  have ha := hi.acq k
  have hu : timesUnlocked k tr ≤ 1 := by
    by_cases hk : k < s.next
    · by_cases hc : ∃ d, (s.obj d).join = some k
      · obtain ⟨d, hd⟩ := hc
        have := (hi.lin.live d k hd).2; omega
      · have := hi.lin.done k hk (fun d hd => hc ⟨d, hd⟩); omega
    · have := hi.lin.fresh k (by omega); omega
  have hu0 : ¬ k < s.next → timesUnlocked k tr = 0 := fun hk => hi.lin.fresh k (by omega)
  unfold timesUnlocked at hu hu0
  split at ha
  · omega
  · rename_i hk; have := hu0 hk; omega

/-- **C65.**  When all guards are destroyed every acquisition has been unlocked exactly once. -/
theorem guard_unlocks_all (s : St) (tr : List Ev) (h : machine.Reaches s tr) (hall : ∀ d, s.obj d = none) (k : Nat)
    (hk : Ev.acquired k ∈ tr) : tr.count (.unlocked k) = 1 := by
  have hi := reach_inv h
  have ha := hi.acq k
  have := List.count_pos_iff.2 hk
  split at ha
  · rename_i hlt
    exact hi.lin.done k hlt (fun d => by simp [hall d])
  · omega

/-- **C65.**  An acquisition is not unlocked while a guard is responsible for it. -/
theorem guard_holds (s : St) (tr : List Ev) (h : machine.Reaches s tr) (d k : Nat) (hd : s.obj d = some (some k)) :
    tr.count (.unlocked k) = 0 :=
  ((reach_inv h).lin.live d k (by simp [hd])).2

/-- two acquisitions, moves, self-assignment, assignment over a guard that holds -/
example : ∃ s tr, machine.Reaches s tr ∧ tr = [.acquired 0, .acquired 1, .unlocked 0, .unlocked 1] :=
  ⟨_, _, ⟨[.acquire 0, .acquire 1, .moveCtor 2 0, .moveAssign 2 1, .moveAssign 2 2, .dtor 2, .dtor 1, .dtor 0], rfl⟩, by decide⟩

end Verif.DirMutex.Guard
