import Verif.Common.Linear
import Verif.Common.Trace
/-!
# `invocable_queue_wrapper` (include/koios/invocable_queue_wrapper.h 41-162,
src/invocable_queue_wrapper.cc 12-28), property C22

Wrappers are objects in numbered slots; wrapped queues are numbered `k`.
-/

namespace Verif.QWrapper

inductive Ev where
  | constructed (k : Nat)   -- `std::construct_at` of queue `k` in fresh storage
  | used (k : Nat)          -- a member function ran on queue `k`
  | destroyed (k : Nat)     -- `~Queue` ran on queue `k` (and its storage is freed)
  | nullUse                 -- a member function was called with a null storage pointer
  deriving DecidableEq, Repr

/-- `m_storage` (which queue it points to, if any) and `m_dtor` (non-null?) (154-155). -/
structure Obj where
  storage : Option Nat
  dtor    : Bool
  deriving DecidableEq, Repr

structure St where
  obj  : Nat → Option Obj
  next : Nat

inductive Lbl where
  | mk (d : Nat)             -- converting constructor (59-71)
  | moveCtor (d s : Nat)     -- (.cc 18-28)
  | use (d : Nat)            -- enqueue/dequeue/empty/size (126-141)
  | dtor (d : Nat)           -- (.cc 12-16)
  deriving DecidableEq, Repr

def step (s : St) : Lbl → Option (St × List Ev)
  | .mk d =>
    match s.obj d with
    | none => some ({ obj := upd s.obj d (some { storage := some s.next, dtor := true }),
                      next := s.next + 1 }, [.constructed s.next])
    | some _ => none
  | .moveCtor d src =>
    match s.obj d, s.obj src with
    | none, some o =>
      some ({ s with obj := upd (upd s.obj src (some { storage := none, dtor := false })) d (some o) }, [])
    | _, _ => none
  | .use d =>
    match s.obj d with
    | some o =>
      match o.storage with
      | some k => some (s, [.used k])
      | none => some (s, [.nullUse])
    | none => none
  | .dtor d =>
    match s.obj d with
    | some o =>
      some ({ s with obj := upd s.obj d none },
        if o.dtor then
          match o.storage with
          | some k => [.destroyed k]
          | none => [.nullUse]
        else [])
    | none => none

def init : St := { obj := fun _ => none, next := 0 }

def machine : Machine St Lbl Ev := { init := init, step := step }

/-! ## Specification -/

def timesConstructed (k : Nat) (tr : List Ev) : Nat := tr.count (.constructed k)
def timesDestroyed (k : Nat) (tr : List Ev) : Nat := tr.count (.destroyed k)

/-- Queue `k` is used only while it is alive. -/
def UsedOnlyAlive (tr : List Ev) : Prop :=
  ∀ p k, p ++ [.used k] <+: tr → Ev.constructed k ∈ p ∧ Ev.destroyed k ∉ p

/-- The object in slot `d` was moved from. -/
def movedFrom (s : St) (d : Nat) : Prop := ∃ o, s.obj d = some o ∧ o.storage = none

/-! ## Proof -/

def claimOf : Option Obj → Option Nat
  | some { storage := some k, dtor := true } => some k
  | _ => none

structure Inv (s : St) (tr : List Ev) : Prop where
  lin : Linear (fun d => claimOf (s.obj d)) s.next (fun k => timesDestroyed k tr)
  con : ∀ k, timesConstructed k tr = if k < s.next then 1 else 0
  sane : ∀ d o, s.obj d = some o → (o.dtor = true ↔ o.storage.isSome = true)
  used : UsedOnlyAlive tr

theorem claim_upd (obj : Nat → Option Obj) (d : Nat) (o : Option Obj) (x : Nat) :
    claimOf (upd obj d o x) = upd (fun d => claimOf (obj d)) d (claimOf o) x := by
  simp only [upd_apply]; split <;> rfl

theorem inv_init : Inv init [] := by
  refine ⟨Linear.init.congr ?_ ?_, ?_, by simp [init], ?_⟩
  · simp [init, claimOf]
  · simp [timesDestroyed]
  · simp [init, timesConstructed]
  · intro p k hp; exact absurd hp not_concat_prefix_nil

theorem used_concat {tr : List Ev} (h : UsedOnlyAlive tr) (x : Ev)
    (hx : ∀ k, x = .used k → Ev.constructed k ∈ tr ∧ Ev.destroyed k ∉ tr) :
    UsedOnlyAlive (tr ++ [x]) := by
  intro p k hp
  rw [concat_prefix_concat_iff] at hp
  rcases hp with hp | ⟨rfl, rfl⟩
  · exact h p k hp
  · exact hx k rfl

theorem inv_step (s : St) (tr : List Ev) (l : Lbl) (s' : St) (e : List Ev)
    (h : Inv s tr) (hst : step s l = some (s', e)) : Inv s' (tr ++ e) := by
  obtain ⟨hlin, hcon, hsane, hused⟩ := h
  cases l with
  | mk d =>
    simp only [step] at hst
    split at hst
    · rename_i hd
      simp only [Option.some.injEq, Prod.mk.injEq] at hst
      obtain ⟨rfl, rfl⟩ := hst
      refine ⟨(hlin.new d (by simp [hd, claimOf])).congr ?_ ?_, ?_, ?_, used_concat hused _ (by simp)⟩
      · intro x; rw [claim_upd]; rfl
      · intro k; simp [timesDestroyed]
      · intro k
        have := hcon k
        simp only [timesConstructed, List.count_append, List.count_singleton, beq_iff_eq,
          Ev.constructed.injEq] at this ⊢
        rw [this]
        split <;> split <;> split <;> omega
      · intro x o hx
        dsimp only at hx
        simp only [upd_apply] at hx
        split at hx
        · simp only [Option.some.injEq] at hx; subst hx; simp
        · exact hsane x o hx
    · simp at hst
  | moveCtor d src =>
    simp only [step] at hst
    split at hst
    · rename_i o hd hsrc
      simp only [Option.some.injEq, Prod.mk.injEq] at hst
      obtain ⟨rfl, rfl⟩ := hst
      rw [List.append_nil]
      have hne : d ≠ src := by rintro rfl; simp [hd] at hsrc
      refine ⟨(hlin.move d src (by simp [hd, claimOf]) hne).congr ?_ (fun _ => rfl), hcon, ?_, hused⟩
      · intro x
        simp only [upd_apply]
        by_cases h1 : x = d
        · subst h1; simp [hne, hsrc]
        · by_cases h2 : x = src
          · subst h2; simp [h1, claimOf]
          · simp [h1, h2]
      · intro x o' hx
        simp only [upd_apply] at hx
        have := hsane x o'
        have := hsane src o hsrc
        grind
    · simp at hst
  | use d =>
    simp only [step] at hst
    split at hst
    · rename_i o ho
      split at hst
      · rename_i k hk
        simp only [Option.some.injEq, Prod.mk.injEq] at hst
        obtain ⟨rfl, rfl⟩ := hst
        have hcl : claimOf (s.obj d) = some k := by
          have := (hsane d o ho).2 (by simp [hk])
          cases o with | mk a b => simp at hk this; subst hk this; simp [ho, claimOf]
        have hlive := hlin.live d k hcl
        refine ⟨hlin.congr (fun _ => rfl) ?_, ?_, hsane, used_concat hused _ ?_⟩
        · intro j; simp [timesDestroyed]
        · intro j; have := hcon j; simp [timesConstructed] at this ⊢; exact this
        · rintro j hj
          simp only [Ev.used.injEq] at hj; subst hj
          constructor
          · have := hcon k
            rw [if_pos hlive.1] at this
            exact List.count_pos_iff.1 (by unfold timesConstructed at this; omega)
          · exact List.count_eq_zero.1 hlive.2
      · simp only [Option.some.injEq, Prod.mk.injEq] at hst
        obtain ⟨rfl, rfl⟩ := hst
        refine ⟨hlin.congr (fun _ => rfl) ?_, ?_, hsane, used_concat hused _ (by simp)⟩
        · intro j; simp [timesDestroyed]
        · intro j; have := hcon j; simp [timesConstructed] at this ⊢; exact this
    · simp at hst
  | dtor d =>
    simp only [step] at hst
    split at hst
    · rename_i o ho
      have hs := hsane d o ho
      simp only [Option.some.injEq, Prod.mk.injEq] at hst
      have hsane' : ∀ x o', upd s.obj d none x = some o' → (o'.dtor = true ↔ o'.storage.isSome = true) := by
        intro x o' hx
        simp only [upd_apply] at hx
        split at hx
        · simp at hx
        · exact hsane x o' hx
      cases o with | mk a b =>
        cases a with
        | none =>
          have : b = false := by simpa using hs
          subst this
          simp only [Bool.false_eq_true, if_false] at hst
          obtain ⟨rfl, rfl⟩ := hst
          rw [List.append_nil]
          refine ⟨hlin.congr ?_ (fun _ => rfl), hcon, hsane', hused⟩
          intro x; simp only [upd_apply]; split
          · rename_i e; subst e; simp [ho, claimOf]
          · rfl
        | some k =>
          have : b = true := by simpa using hs
          subst this
          simp only [if_true] at hst
          obtain ⟨rfl, rfl⟩ := hst
          refine ⟨(hlin.use d k (by simp [ho, claimOf])).congr ?_ ?_, ?_, hsane', used_concat hused _ (by simp)⟩
          · intro x; rw [claim_upd]; rfl
          · intro j
            simp only [timesDestroyed, List.count_append, List.count_singleton, beq_iff_eq, Ev.destroyed.injEq]
            grind
          · intro j; have := hcon j; simp [timesConstructed] at this ⊢; exact this
    · simp at hst

theorem inv_of_reaches {s : St} {tr : List Ev} (h : machine.Reaches s tr) : Inv s tr :=
  h.inv Inv inv_init inv_step

/-! ## Properties -/

/-- **C22 (1).**  Each wrapped queue is destroyed at most once, never before it was constructed,
and is used only while alive. -/
theorem wrapper_destroyed_at_most_once (s : St) (tr : List Ev) (h : machine.Reaches s tr) (k : Nat) :
    timesDestroyed k tr ≤ timesConstructed k tr ∧ timesConstructed k tr ≤ 1 ∧ UsedOnlyAlive tr := by
  have hi := inv_of_reaches h
  rw [hi.con]
  refine ⟨?_, by split <;> omega, hi.used⟩
  by_cases hk : k < s.next
  · simp only [hk, if_true]
    by_cases hc : ∀ d, claimOf (s.obj d) ≠ some k
    · exact Nat.le_of_eq (hi.lin.done k hk hc)
    · rw [Classical.not_forall] at hc
      obtain ⟨d, hd⟩ := hc
      have := (hi.lin.live d k (Classical.not_not.1 hd)).2
      omega
  · have := hi.lin.fresh k (by omega)
    simp [hk, this]

/-- **C22 (2).**  When all wrappers are gone, every wrapped queue was destroyed exactly once. -/
theorem wrapper_no_leak (s : St) (tr : List Ev) (h : machine.Reaches s tr)
    (hgone : ∀ d, s.obj d = none) (k : Nat) : timesDestroyed k tr = timesConstructed k tr := by
  have hi := inv_of_reaches h
  rw [hi.con]
  by_cases hk : k < s.next
  · simp only [hk, if_true]
    exact hi.lin.done k hk (by intro d; simp [hgone d, claimOf])
  · simp only [hk, if_false]
    exact hi.lin.fresh k (by omega)

/-- **C22 (3).**  A step passes a null pointer on only if it uses a moved-from wrapper; in
particular destroying a moved-from wrapper never does. -/
theorem wrapper_null_only_moved_from (s : St) (tr : List Ev) (h : machine.Reaches s tr)
    (l : Lbl) (s' : St) (e : List Ev) (hst : machine.step s l = some (s', e)) (hn : Ev.nullUse ∈ e) :
    ∃ d, l = .use d ∧ movedFrom s d := by
  have hi := inv_of_reaches h
  change step s l = some (s', e) at hst
  cases l with
  | use d =>
    simp only [step] at hst
    split at hst
    · rename_i o ho
      split at hst
      · simp only [Option.some.injEq, Prod.mk.injEq] at hst
        obtain ⟨_, rfl⟩ := hst; simp at hn
      · rename_i hk
        exact ⟨d, rfl, o, ho, hk⟩
    · simp at hst
  | mk d => simp only [step] at hst; grind
  | moveCtor d src => simp only [step] at hst; grind
  | dtor d =>
    simp only [step] at hst
    split at hst
    · rename_i o ho
      have hs := hi.sane d o ho
      cases o with | mk a b => cases a <;> cases b <;> simp_all <;> (obtain ⟨_, rfl⟩ := hst; simp at hn)
    · simp at hst

example : ∃ s tr, machine.Reaches s tr ∧ (∀ d, s.obj d = none) ∧
    tr = [.constructed 0, .used 0, .used 0, .destroyed 0] := by
  refine ⟨_, _, ⟨[.mk 0, .use 0, .moveCtor 1 0, .dtor 0, .use 1, .dtor 1], rfl⟩, ?_, rfl⟩
  intro d
  simp only [machine, init, upd_apply]
  grind

example : ∃ s tr, machine.Reaches s tr ∧ movedFrom s 0 ∧
    ∃ s', machine.step s (.use 0) = some (s', [.nullUse]) :=
  ⟨_, _, ⟨[.mk 0, .moveCtor 1 0], rfl⟩, ⟨_, rfl, rfl⟩, _, rfl⟩

end Verif.QWrapper
