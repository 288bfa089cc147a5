import Verif.GenLife.Model
import Verif.Common.AtEvent
/-!
# C81: the frame of a generator is destroyed exactly once, when nobody owns it any more
-/

namespace Verif.GenLife
open Machine

theorem NoOverwrite.prefix {tr e : List Ev} (h : NoOverwrite (tr ++ e)) : NoOverwrite tr := by
  intro a o o' b hc
  exact h a o o' (b ++ e) (by rw [hc]; simp)

theorem owns_append (tr e : List Ev) : owns (tr ++ e) = e.foldl ownsStep (owns tr) := by simp [owns, List.foldl_append]

theorem active_append (k : Nat) (tr e : List Ev) : active k (tr ++ e) = e.foldl (activeStep k) (active k tr) := by
  simp [active, List.foldl_append]

local macro "evs" : tactic => `(tactic| try simp only [owns_append, active_append, ownsStep, activeStep, List.foldl_cons, List.foldl_nil,
  List.mem_append, List.mem_cons, List.not_mem_nil, or_false, List.count_append, List.count_cons, List.count_nil, beq_iff_eq,
  Ev.made.injEq, Ev.returned.injEq, Ev.frameDestroyed.injEq, Ev.aborted.injEq, reduceCtorEq, if_false, ite_false])

/-- Facts that hold whatever the user does. -/
structure Inv (s : St) (tr : List Ev) : Prop where
  own : ∀ o, owns tr o = (s.obj o).join
  uniq : ∀ o o' k, s.obj o = some (some k) → s.obj o' = some (some k) → o = o'
  absent : ∀ k, s.next ≤ k → s.frame k = .absent
  present : ∀ k, k < s.next → s.frame k ≠ .absent
  objLt : ∀ o k, s.obj o = some (some k) → k < s.next
  madeLt : ∀ o k, .made o k ∈ tr → k < s.next
  act : ∀ k, active k tr = decide (s.frame k = .out)
  cnt : ∀ k, tr.count (.frameDestroyed k) = if s.frame k = .gone then 1 else 0
  finGone : ∀ k, s.fin k = true ↔ s.frame k = .gone
  goneWhy : ∀ k, s.frame k = .gone → .returned k ∈ tr ∨ ∀ o, s.obj o ≠ some (some k)

theorem inv_step {s s' : St} {tr e : List Ev} {l : Lbl} (h : Inv s tr) (hs : step s l = some (s', e)) : Inv s' (tr ++ e) := by
  obtain ⟨i1, i2, i3, i4, i5, i6, i7, i8, i9, i10⟩ := h
  have hf : ∀ k, s.frame k = .absent ∨ s.frame k = .parked ∨ s.frame k = .out ∨ s.frame k = .gone := by
    intro k; cases s.frame k <;> simp
  simp only [step] at hs
  split at hs
  · simp at hs
  cases l <;> simp only at hs <;> (repeat' split at hs) <;>
    simp only [Option.some.injEq, Prod.mk.injEq, reduceCtorEq] at hs <;> obtain ⟨rfl, rfl⟩ := hs <;>
    constructor <;> evs <;> (try simp only [*, if_false]) <;> (try simp only [upd_apply]) <;> grind

theorem inv {s : St} {tr : List Ev} (h : machine.Reaches s tr) : Inv s tr := by
  refine Reaches.inv Inv ?_ (fun s tr l s' e hi hs => inv_step hi hs) h
  constructor <;> simp [machine, St.init, owns, active]

/-- Without overwritten variables, every frame that exists is owned by a variable. -/
def Owned (s : St) : Prop := ∀ k, s.frame k = .parked ∨ s.frame k = .out → ∃ o, s.obj o = some (some k)

theorem owned_step {s s' : St} {tr e : List Ev} {l : Lbl} (hi : Inv s tr) (h : Owned s) (hn : NoOverwrite (tr ++ e))
    (hs : step s l = some (s', e)) : Owned s' := by
  obtain ⟨i1, i2, i3, i4, i5, i6, i7, i8, i9, i10⟩ := hi
  simp only [step] at hs
  split at hs
  · simp at hs
  cases l
  case assign o o' =>
    simp only at hs
    split at hs <;> simp only [Option.some.injEq, Prod.mk.injEq, reduceCtorEq] at hs
    obtain ⟨rfl, rfl⟩ := hs
    rename_i p q ho ho'
    split
    · exact h
    · rename_i hne
      have := hn tr o o' [] rfl hne
      rw [i1, ho'] at this
      simp only [Option.join_some] at this
      subst this
      intro k hk
      obtain ⟨x, hx⟩ := h k hk
      simp only [upd_apply]
      by_cases hxo : x = o
      · exact ⟨o', by grind⟩
      · exact ⟨x, by grind⟩
  case make o =>
    simp only at hs
    split at hs <;> simp only [Option.some.injEq, Prod.mk.injEq, reduceCtorEq] at hs
    obtain ⟨rfl, rfl⟩ := hs
    intro k hk
    simp only [upd_apply] at hk ⊢
    by_cases hkn : k = s.next
    · exact ⟨o, by grind⟩
    · obtain ⟨x, hx⟩ := h k (by grind)
      exact ⟨x, by grind⟩
  case move o o' =>
    simp only at hs
    split at hs <;> simp only [Option.some.injEq, Prod.mk.injEq, reduceCtorEq] at hs
    obtain ⟨rfl, rfl⟩ := hs
    intro k hk
    obtain ⟨x, hx⟩ := h k hk
    simp only [upd_apply]
    by_cases hxo : x = o
    · exact ⟨o', by grind⟩
    · exact ⟨x, by grind⟩
  all_goals
    simp only at hs
    (repeat' split at hs) <;>
      simp only [Option.some.injEq, Prod.mk.injEq, reduceCtorEq] at hs <;> obtain ⟨rfl, rfl⟩ := hs <;> intro k hk <;>
      (try simp only [upd_apply] at hk ⊢) <;>
      obtain ⟨x, hx⟩ := h k (by grind) <;> exact ⟨x, by grind⟩

theorem owned {s : St} {tr : List Ev} (h : machine.Reaches s tr) (hn : NoOverwrite tr) : Owned s := by
  refine Reaches.inv' (fun s tr => NoOverwrite tr → Owned s) ?_ ?_ h hn
  · intro _ k hk
    simp [machine, St.init] at hk
  · intro s tr l s' e hr ih hs hn
    exact owned_step (inv hr) (ih hn.prefix) hn hs

/-- A frame is never destroyed twice, however the variables are moved, assigned and destroyed. -/
theorem destroyed_at_most_once {s : St} {tr : List Ev} (h : machine.Reaches s tr) (k : Nat) : tr.count (.frameDestroyed k) ≤ 1 := by
  rw [(inv h).cnt]; split <;> simp

/-- At most one variable owns a coroutine. -/
theorem one_owner {s : St} {tr : List Ev} (h : machine.Reaches s tr) {o o' k : Nat} (ho : owns tr o = some k) (ho' : owns tr o' = some k) :
    o = o' := by
  have hi := inv h
  rw [hi.own] at ho ho'
  exact hi.uniq o o' k (by simpa [Option.join_eq_some_iff] using ho) (by simpa [Option.join_eq_some_iff] using ho')

/-- While a variable owns a coroutine, its frame is not destroyed before the body has run to its end. -/
theorem owned_alive {s : St} {tr : List Ev} (h : machine.Reaches s tr) {o k : Nat} (ho : owns tr o = some k)
    (hd : .frameDestroyed k ∈ tr) : .returned k ∈ tr := by
  have hi := inv h
  have hc : 0 < tr.count (.frameDestroyed k) := List.count_pos_iff.2 hd
  rw [hi.cnt] at hc
  rw [hi.own] at ho
  rcases hi.goneWhy k (by grind) with h1 | h1
  · exact h1
  · exact absurd (by simpa [Option.join_eq_some_iff] using ho) (h1 o)

/-- Full claim: when no variable owns a coroutine any more, its frame has been destroyed exactly once.  Proved when no variable that owns a
coroutine is assigned to; missing: see `overwrite_refuted`. -/
theorem unowned_destroyed_partial {s : St} {tr : List Ev} (h : machine.Reaches s tr) (hn : NoOverwrite tr) {o k : Nat}
    (hm : .made o k ∈ tr) (hno : ∀ o', owns tr o' ≠ some k) : tr.count (.frameDestroyed k) = 1 := by
  have hi := inv h
  have ho := owned h hn
  have hk := hi.madeLt _ _ hm
  have hp := hi.present k hk
  rw [hi.cnt]
  have : ¬ (s.frame k = .parked ∨ s.frame k = .out) := by
    intro hc
    obtain ⟨x, hx⟩ := ho k hc
    exact hno x (by rw [hi.own, hx]; rfl)
  cases hf : s.frame k <;> simp_all

/-- The body's end destroys the frame too, at once. -/
theorem returned_destroyed {s : St} {tr : List Ev} (h : machine.Reaches s tr) {k : Nat} (hr : .returned k ∈ tr) :
    tr.count (.frameDestroyed k) = 1 := by
  have : s.frame k = .gone := by
    refine Reaches.inv' (fun s tr => ∀ k, .returned k ∈ tr → s.frame k = .gone) ?_ ?_ h k hr
    · simp
    · intro s tr l s' e hr ih hs
      have habs := (inv hr).absent
      simp only [machine, step] at hs
      split at hs
      · simp at hs
      cases l <;> simp only at hs <;> (repeat' split at hs) <;>
        simp only [Option.some.injEq, Prod.mk.injEq, reduceCtorEq] at hs <;> obtain ⟨rfl, rfl⟩ := hs <;> evs <;> (try simp only [upd_apply]) <;> grind
  rw [(inv h).cnt, this]; rfl

/-- Destroying a variable, or asking it for a value, aborts the program only while its coroutine's body is active (a request is outstanding). -/
theorem abort_only_active {s : St} {tr : List Ev} (h : machine.Reaches s tr) {a b : List Ev} {o : Nat} (ht : tr = a ++ .aborted o :: b) :
    b = [] ∧ ∃ k, owns a o = some k ∧ active k a = true := by
  have hb : b = [] := by
    have : ∀ a o b, tr = a ++ .aborted o :: b → b = [] ∧ s.aborted = true := by
      refine Reaches.inv (fun s tr => ∀ a o b, tr = a ++ .aborted o :: b → b = [] ∧ s.aborted = true) ?_ ?_ h
      · intro a o b hc; simp at hc
      · intro s tr l s' e ih hs a o b hc
        have hna : s.aborted = false := by
          simp only [machine, step] at hs
          split at hs
          · simp at hs
          · simp_all
        have hnt : ∀ o, Ev.aborted o ∉ tr := by
          intro o ho
          obtain ⟨x, y, hxy⟩ := List.append_of_mem ho
          have := (ih x o y hxy).2
          simp [hna] at this
        rw [List.append_eq_append_iff] at hc
        rcases hc with ⟨c, hc1, hc2⟩ | ⟨c, hc1, hc2⟩
        · simp only [machine, step, hna] at hs
          cases l <;> simp only [Bool.false_eq_true, if_false] at hs <;> (repeat' split at hs) <;>
            simp only [Option.some.injEq, Prod.mk.injEq, reduceCtorEq] at hs <;> obtain ⟨rfl, rfl⟩ := hs <;>
            first
            | (have hmem : Ev.aborted o ∈ c ++ Ev.aborted o :: b := by simp
               rw [← hc2] at hmem
               simp at hmem; done)
            | (cases c with
               | nil => simp at hc2; exact ⟨hc2.2, rfl⟩
               | cons x c => simp at hc2)
        · cases c with
          | nil =>
            simp at hc2
            simp only [machine, step, hna] at hs
            cases l <;> simp only [Bool.false_eq_true, if_false] at hs <;> (repeat' split at hs) <;>
              simp only [Option.some.injEq, Prod.mk.injEq, reduceCtorEq] at hs <;> obtain ⟨rfl, rfl⟩ := hs <;> simp at hc2
            all_goals exact ⟨hc2.2, rfl⟩
          | cons x c =>
            simp at hc2
            exfalso
            exact hnt o (by rw [hc1, hc2.1]; simp)
    exact (this a o b ht).1
  refine ⟨hb, ?_⟩
  obtain ⟨s1, tr1, l, s2, e, q, hr, hs, hq, hpre⟩ := h.at_event ht
  have hi := inv hr
  simp only [machine, step] at hs
  split at hs
  · simp at hs
  cases l <;> simp only at hs <;> (repeat' split at hs) <;>
    simp only [Option.some.injEq, Prod.mk.injEq, reduceCtorEq] at hs <;> obtain ⟨rfl, rfl⟩ := hs <;>
    first
    | (have hmem : Ev.aborted o ∈ q ++ [Ev.aborted o] := by simp
       have := hq.mem hmem
       simp at this; done)
    | skip
  all_goals
    have hmem : Ev.aborted o ∈ q ++ [Ev.aborted o] := by simp
    have hh := hq.mem hmem
    simp at hh
    subst hh
    have hq0 : q = [] := by
      have := hq.length_le
      simp at this
      exact this
    subst hq0
    simp at hpre
    subst hpre
  · rename_i x k hout heq
    exact ⟨k, by rw [hi.own, heq]; rfl, by rw [hi.act]; simp [hout]⟩
  · rename_i x k hfin hpk heq
    refine ⟨k, by rw [hi.own, heq]; rfl, ?_⟩
    rw [hi.act]
    have h1 := hi.present k (hi.objLt _ _ heq)
    have h2 := (hi.finGone k).not.1 hfin
    cases hf : s1.frame k <;> simp_all

/-- A coroutine whose variable is made, moved, asked, assigned to a moved-from variable,
asked, destroyed: the frame is destroyed exactly once. -/
theorem unowned_destroyed_nontrivial : ∃ s tr, machine.Reaches s tr ∧ NoOverwrite tr ∧ .made 0 0 ∈ tr ∧ (∀ o, owns tr o ≠ some 0) ∧
    .assigned 1 0 ∈ tr ∧ tr.count (.frameDestroyed 0) = 1 := by
  refine ⟨_, [.made 0 0, .moved 0 1, .resumed 0, .yielded 0, .assigned 1 0, .resumed 0, .yielded 0, .dropped 1, .dropped 0, .frameDestroyed 0],
    ⟨[.make 0, .move 0 1, .ask 1, .yield 0, .assign 1 0, .ask 0, .yield 0, .drop 1, .drop 0], rfl⟩, ?_, by simp, ?_, by simp, by decide⟩
  · intro a o o' b hab hne
    match a, hab with
    | [x1, x2, x3, x4], hab =>
      simp at hab
      obtain ⟨rfl, rfl, rfl, rfl, ⟨rfl, rfl⟩, rfl⟩ := hab
      simp [owns, ownsStep, upd]
    | [], hab => simp at hab
    | [_], hab => simp at hab
    | [_, _], hab => simp at hab
    | [_, _, _], hab => simp at hab
    | [_, _, _, _, _], hab => simp at hab
    | [_, _, _, _, _, _], hab => simp at hab
    | [_, _, _, _, _, _, _], hab => simp at hab
    | [_, _, _, _, _, _, _, _], hab => simp at hab
    | [_, _, _, _, _, _, _, _, _], hab => simp at hab
    | _ :: _ :: _ :: _ :: _ :: _ :: _ :: _ :: _ :: _ :: t, hab => cases t <;> simp at hab
  · intro o
    by_cases h0 : o = 0 <;> by_cases h1 : o = 1 <;> simp [owns, ownsStep, upd, h0, h1]

/-! ## Refutations -/

/-- A frame whose shared state nobody but the frame itself refers to. -/
def Orphan (k : Nat) (s : St) : Prop := s.frame k = .parked ∧ s.next > k ∧ ∀ o, s.obj o ≠ some (some k)

theorem orphan_step {k : Nat} {s s' : St} {l : Lbl} {e : List Ev} (h : Orphan k s) (hs : step s l = some (s', e)) :
    Orphan k s' ∧ Ev.frameDestroyed k ∉ e := by
  obtain ⟨h1, h2, h3⟩ := h
  simp only [step] at hs
  split at hs
  · simp at hs
  cases l <;> simp only at hs <;> (repeat' split at hs) <;>
    simp only [Option.some.injEq, Prod.mk.injEq, reduceCtorEq] at hs <;> obtain ⟨rfl, rfl⟩ := hs <;>
    refine ⟨⟨?_, ?_, ?_⟩, ?_⟩ <;> evs <;> (try simp only [upd_apply]) <;> grind

/-- Move assignment onto a variable that owns a suspended coroutine leaks that coroutine: its frame is never destroyed, whatever happens
afterwards. -/
theorem overwrite_refuted : ∃ s tr, machine.Reaches s tr ∧ .made 1 1 ∈ tr ∧ (∀ o, owns tr o ≠ some 1) ∧
    ∀ ls s' tr', machine.runFrom s ls = some (s', tr') → (tr ++ tr').count (.frameDestroyed 1) = 0 := by
  have hr : ∃ s, machine.Reaches s [.made 0 0, .made 1 1, .assigned 0 1] ∧ s.frame 1 = .parked ∧ s.next = 2 :=
    ⟨_, ⟨[.make 0, .make 1, .assign 0 1], rfl⟩, rfl, rfl⟩
  obtain ⟨s, hr, hf, hn⟩ := hr
  have hno : ∀ o, owns [.made 0 0, .made 1 1, .assigned 0 1] o ≠ some 1 := by
    intro o
    by_cases h0 : o = 0 <;> by_cases h1 : o = 1 <;> simp [owns, ownsStep, upd, h0, h1]
  refine ⟨s, _, hr, by simp, hno, ?_⟩
  intro ls s' tr' hrun
  have key := runFrom_inv machine (fun s tr => Orphan 1 s ∧ Ev.frameDestroyed 1 ∉ tr) (by
    intro s tr l s' e ⟨h1, h2⟩ hs
    obtain ⟨h3, h4⟩ := orphan_step h1 hs
    exact ⟨h3, by simp [h2, h4]⟩) ls s [.made 0 0, .made 1 1, .assigned 0 1] s' tr' (by
      refine ⟨⟨hf, by omega, ?_⟩, by simp⟩
      intro o ho
      exact hno o (by rw [(inv hr).own, ho]; rfl)) hrun
  exact List.count_eq_zero.2 key.2

/-- Destroying the variable while a value has been asked for and not delivered aborts the program: the body may be waiting for a timer or for
data, and its owner is no longer free to give up on it. -/
theorem drop_while_active_refuted : ∃ s tr, machine.Reaches s tr ∧ .aborted 0 ∈ tr :=
  ⟨_, [.made 0 0, .resumed 0, .aborted 0], ⟨[.make 0, .ask 0, .drop 0], rfl⟩, by simp⟩

end Verif.GenLife
