import Verif.Hb.WgModel
import Verif.Common.AtEvent
/-!
# C88: what the counted tasks did is visible when wait() returns
-/

namespace Verif.Hb.Wg
open Machine

theorem take_length {t c : Nat} {l : List Nat} (h : c ≤ l.count t) : (take t c l).length + c = l.length := by
  induction c generalizing l with
  | zero => simp [take]
  | succ c ih =>
    have hm : t ∈ l := by
      rw [← List.count_pos_iff]; omega
    have := ih (l := l.erase t) (by rw [List.count_erase_self]; omega)
    simp only [take]
    have h2 := List.length_erase_of_mem hm
    have h3 := List.length_pos_of_mem hm
    omega

theorem mem_take {t c x : Nat} {l : List Nat} (hx : x ∈ l) : x ∈ take t c l ∨ (x = t ∧ 0 < c) := by
  induction c generalizing l with
  | zero => exact .inl (by simpa [take])
  | succ c ih =>
    by_cases h : x = t
    · exact .inr ⟨h, by omega⟩
    · rcases ih (l := l.erase t) ((List.mem_erase_of_ne h).2 hx) with h1 | h1
      · exact .inl h1
      · exact .inr ⟨h1.1, by omega⟩

/-- Everything written so far is in the view. -/
def Full (s : St) (v : View) : Prop := ∀ i, i < s.n → v i = true

structure Inv (s : St) : Prop where
  cnt : s.last.1 = s.owners.length
  cov : ∀ i, i < s.n → s.last.2 i = true ∨ ∃ t, t ∈ s.owners ∧ s.view t i = true
  z : ∀ m, m ∈ s.hist → m.1 ≠ 0
  wk : ∀ t, s.pc t = .waking → s.owners = [] ∧ Full s (s.view t)
  rd : ∀ t, s.pc t = .ready → s.owners = [] ∧ Full s (s.readyV t)
  bk : ∀ t, s.pc t = .back → s.owners = [] ∧ Full s (s.view t)

/-- The orders of the code. -/
def Strong (o : Orders) : Prop := o.subAcq = true ∧ o.subRel = true ∧ o.loadAcq = true

theorem inv_step {o : Orders} (ho : Strong o) {s s' : St} {l : Lbl} {e : List Ev} (h : Inv s) (hs : step o s l = some (s', e)) :
    Inv s' ∧ (∀ u i, .stale u i ∉ e) := by
  obtain ⟨a1, a2, a3⟩ := ho
  obtain ⟨cnt, cov, z, wk, rd, bk⟩ := h
  unfold Full at *
  cases l with
  | spawn t u c =>
    simp only [step] at hs
    split at hs <;> simp only [Option.some.injEq, Prod.mk.injEq, reduceCtorEq] at hs
    rename_i hp
    obtain ⟨rfl, rfl⟩ := hs
    obtain ⟨hp1, hp2, hp3⟩ := hp
    have hnil : s.owners = [] → take t c s.owners ++ List.replicate c u = [] := by
      intro h0
      have : c = 0 := by simpa [h0] using hp3
      simp [h0, this, take]
    refine ⟨?_, by simp⟩
    constructor
    · simp only [List.length_append, List.length_replicate]
      have := take_length hp3
      omega
    · intro i hi
      simp only at hi ⊢
      rcases cov i hi with h1 | ⟨x, hx, hv⟩
      · exact .inl h1
      · right
        rcases mem_take (t := t) (c := c) hx with h2 | ⟨h2, h3⟩
        · exact ⟨x, by simp [h2], by simp only [upd_apply, ite_apply, View.join]; grind⟩
        · refine ⟨u, by simp; omega, ?_⟩
          subst h2
          simp [View.join, hv]
    · exact z
    · intro x hx
      simp only [upd_apply, ite_apply, Full, View.join] at hx ⊢
      grind
    · intro x hx
      simp only [upd_apply, ite_apply, Full, View.join] at hx ⊢
      grind
    · intro x hx
      simp only [upd_apply, ite_apply, Full, View.join] at hx ⊢
      grind
  | add t k =>
    simp only [step] at hs
    split at hs <;> simp only [Option.some.injEq, Prod.mk.injEq, reduceCtorEq] at hs
    rename_i hp
    obtain ⟨rfl, rfl⟩ := hs
    refine ⟨?_, by simp⟩
    have := List.length_pos_of_mem hp.2
    constructor <;> simp only [Full] <;> grind
  | write t =>
    simp only [step] at hs
    split at hs <;> simp only [Option.some.injEq, Prod.mk.injEq, reduceCtorEq] at hs
    rename_i hp
    obtain ⟨rfl, rfl⟩ := hs
    refine ⟨?_, by simp⟩
    constructor
    · exact cnt
    · intro i hi
      simp only at hi ⊢
      by_cases hin : i = s.n
      · exact .inr ⟨t, hp.2, by simp [hin]⟩
      · rcases cov i (by omega) with h1 | ⟨x, hx, hv⟩
        · exact .inl h1
        · exact .inr ⟨x, hx, by simp only [upd_apply, ite_apply]; grind⟩
    · exact z
    · intro x hx; have := wk x hx; grind
    · intro x hx; have := rd x hx; grind
    · intro x hx; have := bk x hx; grind
  | done t =>
    simp only [step] at hs
    split at hs <;> simp only [Option.some.injEq, Prod.mk.injEq, reduceCtorEq] at hs
    rename_i hp
    obtain ⟨rfl, rfl⟩ := hs
    refine ⟨?_, by simp⟩
    have hl := List.length_pos_of_mem hp.2
    have hle := List.length_erase_of_mem hp.2
    constructor
    · simp only; omega
    · intro i hi
      simp only [a1, a2, if_true, upd_apply, ite_apply, View.join] at hi ⊢
      rcases cov i hi with h1 | ⟨x, hx, hv⟩
      · exact .inl (by simp [h1])
      · by_cases hxt : x = t
        · subst hxt; exact .inl (by simp [hv])
        · exact .inr ⟨x, (List.mem_erase_of_ne hxt).2 hx, by simp [hxt, hv]⟩
    · intro m hm
      simp only [List.mem_append, List.mem_singleton] at hm
      rcases hm with hm | rfl
      · exact z m hm
      · omega
    · intro x hx
      simp only [a1, if_true, upd_apply, ite_apply, View.join, Full] at hx ⊢
      by_cases h1 : s.last.1 = 1
      · have he : s.owners = [t] := by
          have : s.owners.length = 1 := by omega
          obtain ⟨y, hy⟩ := List.length_eq_one_iff.1 this
          rw [hy] at hp ⊢
          simp only [List.mem_singleton] at hp
          rw [hp.2]
        simp only [h1, if_true] at hx
        refine ⟨by simp [he], fun i hi => ?_⟩
        have hc := cov i hi
        simp only [he, List.mem_singleton] at hc
        split at hx <;> grind
      · simp only [h1, if_false] at hx
        have := wk x hx
        grind
    · intro x hx
      simp only [Full] at hx ⊢
      have : s.pc x = .ready := by
        split at hx <;> (try simp only [upd_apply] at hx) <;> grind
      have := rd x this
      grind
    · intro x hx
      simp only [Full] at hx ⊢
      have : s.pc x = .back := by
        split at hx <;> (try simp only [upd_apply] at hx) <;> grind
      have := bk x this
      grind
  | wakeOne t u =>
    simp only [step] at hs
    split at hs <;> simp only [Option.some.injEq, Prod.mk.injEq, reduceCtorEq] at hs
    rename_i hp
    obtain ⟨rfl, rfl⟩ := hs
    refine ⟨?_, by simp⟩
    constructor <;> simp only [upd_apply, ite_apply, View.join, Full] <;> grind
  | wakeEnd t =>
    simp only [step] at hs
    split at hs <;> simp only [Option.some.injEq, Prod.mk.injEq, reduceCtorEq] at hs
    obtain ⟨rfl, rfl⟩ := hs
    refine ⟨?_, by simp⟩
    constructor <;> simp only [upd_apply, ite_apply, View.join, Full] <;> grind
  | check u i =>
    simp only [step, check, a3, if_true] at hs
    (repeat' split at hs) <;> simp only [Option.some.injEq, Prod.mk.injEq, reduceCtorEq] at hs <;> obtain ⟨rfl, rfl⟩ := hs
    · rename_i m hm h0
      exact absurd h0 (z m (List.mem_of_getElem? hm))
    · refine ⟨?_, by simp⟩
      constructor <;> simp only [upd_apply, ite_apply, View.join, Full] <;> grind
  | checkLast u =>
    simp only [step, check, a3, if_true] at hs
    (repeat' split at hs) <;> simp only [Option.some.injEq, Prod.mk.injEq, reduceCtorEq] at hs <;> obtain ⟨rfl, rfl⟩ := hs
    · rename_i h0
      have he : s.owners = [] := by
        rw [h0] at cnt
        exact List.eq_nil_of_length_eq_zero cnt.symm
      refine ⟨?_, by simp⟩
      constructor <;> simp only [upd_apply, ite_apply, View.join, Full] <;> grind
    · refine ⟨?_, by simp⟩
      constructor <;> simp only [upd_apply, ite_apply, View.join, Full] <;> grind
  | suspend u =>
    simp only [step] at hs
    split at hs <;> simp only [Option.some.injEq, Prod.mk.injEq, reduceCtorEq] at hs
    obtain ⟨rfl, rfl⟩ := hs
    refine ⟨?_, by simp⟩
    constructor <;> simp only [upd_apply, ite_apply, View.join, Full] <;> grind
  | resume u =>
    simp only [step] at hs
    split at hs <;> simp only [Option.some.injEq, Prod.mk.injEq, reduceCtorEq] at hs
    obtain ⟨rfl, rfl⟩ := hs
    refine ⟨?_, by simp⟩
    constructor <;> simp only [upd_apply, ite_apply, View.join, Full] <;> grind
  | read u i =>
    simp only [step] at hs
    split at hs <;> simp only [Option.some.injEq, Prod.mk.injEq, reduceCtorEq] at hs
    rename_i hp
    obtain ⟨rfl, rfl⟩ := hs
    have := (bk u hp.1).2 i hp.2
    exact ⟨⟨cnt, cov, z, wk, rd, bk⟩, by simp [this]⟩

theorem inv_reaches {o : Orders} (ho : Strong o) {k : Nat} {s : St} {tr : List Ev} (h : (machine o k).Reaches s tr) :
    Inv s ∧ NoStale tr := by
  refine Reaches.inv (M := machine o k) (fun s tr => Inv s ∧ NoStale tr) ?_ ?_ h
  · refine ⟨?_, by simp [NoStale]⟩
    constructor <;> simp [machine, init] <;> grind
  · intro s tr l s' e hI hs
    obtain ⟨h1, h2⟩ := inv_step ho hI.1 hs
    refine ⟨h1, fun u i hm => ?_⟩
    rcases List.mem_append.1 hm with hm | hm
    · exact hI.2 u i hm
    · exact h2 u i hm

/-- With the code's memory orders, when wait() has returned the results of all counted tasks are visible, for any number of tasks and waiters, any interleaving and
any stale reads of the counter. -/
theorem wg_no_stale {k : Nat} {s : St} {tr : List Ev} (h : (machine code k).Reaches s tr) : NoStale tr :=
  (inv_reaches ⟨rfl, rfl, rfl⟩ h).2

theorem single {o : Orders} {k : Nat} : ∀ s l s' e, (machine o k).step s l = some (s', e) → e.length ≤ 1 := by
  intro s l s' e hs
  simp only [machine] at hs
  cases l <;> simp only [step, check] at hs <;> (repeat' split at hs) <;>
    simp only [Option.some.injEq, Prod.mk.injEq, reduceCtorEq] at hs <;> obtain ⟨rfl, rfl⟩ := hs <;> simp

/-- Nobody owes a done() any more when a wait() has returned. -/
theorem returned_owners {o : Orders} (ho : Strong o) {k : Nat} {s : St} {tr : List Ev} (h : (machine o k).Reaches s tr) :
    ∀ u, .returned u ∈ tr → s.owners = [] := by
  refine Reaches.inv' (M := machine o k) (fun s tr => ∀ u, .returned u ∈ tr → s.owners = []) (by simp) ?_ h
  intro s tr l s' e hr hI hs u hu
  have hinv := (inv_reaches ho (hr.step hs)).1
  rcases List.mem_append.1 hu with hu | hu
  · have h0 := hI u hu
    clear hinv
    simp only [machine] at hs
    cases l <;> simp only [step, check] at hs <;> (repeat' split at hs) <;>
      simp only [Option.some.injEq, Prod.mk.injEq, reduceCtorEq] at hs <;> obtain ⟨rfl, rfl⟩ := hs <;>
      simp_all [take]
  · refine (hinv.bk u ?_).1
    clear hinv
    simp only [machine] at hs
    cases l <;> simp only [step, check] at hs <;> (repeat' split at hs) <;>
      simp only [Option.some.injEq, Prod.mk.injEq, reduceCtorEq] at hs <;> obtain ⟨rfl, rfl⟩ := hs <;>
      simp only [List.mem_cons, List.not_mem_nil, or_false, reduceCtorEq, Ev.returned.injEq] at hu <;> (try simp_all) <;> grind

/-- ... and all of them have been written by then. -/
theorem wg_all_before {k : Nat} {s : St} {tr : List Ev} (h : (machine code k).Reaches s tr) : AllBefore tr := by
  intro pre post u hx t i hm
  obtain ⟨p1, p2, hp⟩ := List.append_of_mem hm
  have hx' : tr = (pre ++ .returned u :: p1) ++ .wrote t i :: p2 := by simp [hx, hp]
  obtain ⟨s1, l, s2, hr, hs⟩ := h.at_event_single single hx'
  have h0 := returned_owners (o := code) ⟨rfl, rfl, rfl⟩ hr u (by simp)
  simp only [machine] at hs
  cases l <;> simp only [step, check] at hs <;> (repeat' split at hs) <;>
    simp only [Option.some.injEq, Prod.mk.injEq, reduceCtorEq, List.cons.injEq, and_true, and_false] at hs
  rename_i hp
  simp [h0] at hp

/-- Three tasks with results (one adds another one), a waiter that suspends and one that comes late. -/
theorem wg_nontrivial : ∃ s, (machine code 2).Reaches s
    [.wrote 1 0, .wrote 2 1, .wrote 3 2, .returned 4, .saw 4 0, .saw 4 1, .saw 4 2, .returned 0, .saw 0 1] :=
  ⟨_, [.spawn 0 1 1, .spawn 0 2 1, .spawn 0 4 0, .checkLast 4, .suspend 4, .write 1, .done 1, .write 2, .add 2 1, .spawn 2 3 1, .done 2, .write 3, .done 3, .wakeOne 3 4,
    .wakeEnd 3, .resume 4, .read 4 0, .read 4 1, .read 4 2, .checkLast 0, .read 0 1], rfl⟩

/-- Each of the three orders is needed. -/
theorem relaxed_sub_stale : ∃ s tr, (machine { code with subRel := false } 1).Reaches s tr ∧ .stale 0 0 ∈ tr :=
  ⟨_, [.wrote 1 0, .returned 0, .stale 0 0], ⟨[.spawn 0 1 1, .write 1, .done 1, .checkLast 0, .read 0 0], rfl⟩, by simp⟩

theorem relaxed_load_stale : ∃ s tr, (machine { code with loadAcq := false } 1).Reaches s tr ∧ .stale 0 0 ∈ tr :=
  ⟨_, [.wrote 1 0, .returned 0, .stale 0 0], ⟨[.spawn 0 1 1, .write 1, .done 1, .checkLast 0, .read 0 0], rfl⟩, by simp⟩

theorem release_only_sub_stale : ∃ s tr, (machine { code with subAcq := false } 2).Reaches s tr ∧ .stale 0 0 ∈ tr :=
  ⟨_, [.wrote 1 0, .returned 0, .stale 0 0], ⟨[.spawn 0 1 1, .spawn 0 2 1, .checkLast 0, .suspend 0, .write 1, .done 1, .done 2, .wakeOne 2 0, .resume 0, .read 0 0], rfl⟩,
    by simp⟩

end Verif.Hb.Wg
