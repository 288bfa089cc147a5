import Verif.DirMutex.Model
import Verif.Common.AtEvent
/-!
# C50, C51
-/

namespace Verif.DirMutex

/-- the task is responsible for the lock file -/
def Pc.owns : Pc → Bool
  | .woken _ | .holding _ | .unlocking _ | .deleting _ => true
  | _ => false

structure Inv (s : St) (tr : List Ev) : Prop where
  noFile : s.file = false → (∀ t, (s.pc t).owns = false) ∧ ∀ o, s.created o = 0
  oneTask : ∀ t t', (s.pc t).owns = true → (s.pc t').owns = true → t = t'
  taskOrPoller : ∀ t o, (s.pc t).owns = true → s.created o = 0
  onePoller : ∀ o o', 0 < s.created o → 0 < s.created o' → o = o'
  oneEach : ∀ o, s.created o ≤ 1
  hubPc : ∀ t o, t ∈ s.hub o ↔ s.pc t = .waiting o
  hubNodup : ∀ o, (s.hub o).Nodup
  pendPc : ∀ t o, t ∈ s.pend o ↔ s.pc t = .failed o
  pendNodup : ∀ o, (s.pend o).Nodup
  opened : ∀ t o, OpenIn (.acquired t o) (.released t) tr → s.pc t = .holding o
  alive : ∀ o, s.dead o = false

/-- no object has been destroyed -/
def NoDestruction (tr : List Ev) : Prop := ∀ o, Ev.destroyed o ∉ tr

theorem inv_init : Inv init [] := by
  constructor <;> simp [init, Pc.owns]
  intro t o h; exact absurd h (not_openIn_nil _ _)

theorem open_other {g r x : Ev} {tr : List Ev} (h1 : x ≠ g) (h : OpenIn g r (tr ++ [x])) : OpenIn g r tr := by
  rw [openIn_concat] at h
  rcases h with h | h
  · exact absurd h h1
  · exact h.2

theorem inv_step (s : St) (tr : List Ev) (l : Lbl) (s' : St) (e : List Ev) (h : Inv s tr)
    (hs : step s l = some (s', e)) (hd : NoDestruction (tr ++ e)) : Inv s' (tr ++ e) := by
  obtain ⟨noFile, oneTask, taskOrPoller, onePoller, oneEach, hubPc, hubNodup, pendPc, pendNodup, opened, alive⟩ := h
  cases l with
  | destroy o =>
    exfalso
    simp only [step] at hs
    split at hs <;> simp only [Option.some.injEq, Prod.mk.injEq, reduceCtorEq] at hs
    obtain ⟨rfl, rfl⟩ := hs
    exact hd o (by simp)
  | destroyUnlock o =>
    exfalso
    simp only [step, alive] at hs
    simp at hs
  | acquire t o =>
    simp only [step] at hs
    (repeat' split at hs) <;> simp only [Option.some.injEq, Prod.mk.injEq, reduceCtorEq] at hs <;> obtain ⟨rfl, rfl⟩ := hs
    · rename_i hc hf
      obtain ⟨n1, n2⟩ := noFile hf
      constructor <;> (try dsimp only)
      · simp
      · intro a b; simp only [upd_apply]; have := n1 a; have := n1 b; grind
      · intro a b _; exact n2 b
      · exact onePoller
      · exact oneEach
      · intro a b; have := hubPc a b; simp only [upd_apply]; grind
      · exact hubNodup
      · intro a b; have := pendPc a b; simp only [upd_apply]; grind
      · exact pendNodup
      · intro a b ho
        rw [openIn_concat] at ho
        simp only [upd_apply]
        rcases ho with ho | ho
        · simp at ho; simp [ho]
        · have := opened a b ho.2; grind
      · exact alive
    · rename_i hc hf
      constructor <;> (try dsimp only)
      · intro h; rw [h] at hf; simp at hf
      · intro a b; simp only [upd_apply]; have := oneTask a b; grind [Pc.owns]
      · intro a b; simp only [upd_apply]; have := taskOrPoller a b; grind [Pc.owns]
      · exact onePoller
      · exact oneEach
      · intro a b; have := hubPc a b; simp only [upd_apply]; grind
      · exact hubNodup
      · intro a b; have := pendPc a b; simp only [upd_apply]; grind
      · intro a; have h1 := pendNodup a; have h2 := pendPc t a; simp only [upd_apply]
        split
        · rename_i ha; subst ha; rw [List.nodup_cons]; grind
        · exact h1
      · intro a b ho
        have := opened a b (open_other (by simp) ho)
        simp only [upd_apply]; grind
      · exact alive
  | suspend t =>
    simp only [step] at hs
    (repeat' split at hs) <;> simp only [Option.some.injEq, Prod.mk.injEq, reduceCtorEq] at hs <;> obtain ⟨rfl, rfl⟩ := hs
    rename_i o hp
    constructor <;> (try dsimp only)
    · intro hf; obtain ⟨n1, n2⟩ := noFile hf
      refine ⟨fun a => ?_, n2⟩; have := n1 a; simp only [upd_apply]; grind [Pc.owns]
    · intro a b; simp only [upd_apply]; have := oneTask a b; grind [Pc.owns]
    · intro a b; simp only [upd_apply]; have := taskOrPoller a b; grind [Pc.owns]
    · exact onePoller
    · exact oneEach
    · intro a b; have := hubPc a b; simp only [upd_apply]; grind
    · intro a; have h1 := hubNodup a; have h2 := hubPc t a; simp only [upd_apply]
      split
      · rename_i ha; subst ha
        rw [List.nodup_append]
        refine ⟨h1, by simp, ?_⟩
        intro x hx y hy; simp at hy; subst hy; intro hxy; subst hxy
        rw [h2.1 hx] at hp; simp at hp
      · exact h1
    · intro a b
      have h1 := pendPc a b
      have h2 := (pendNodup o).mem_erase_iff (a := a) (b := t)
      simp only [upd_apply]; grind
    · intro a; have h1 := pendNodup a; simp only [upd_apply]
      split
      · rename_i ha; subst ha; exact h1.erase t
      · exact h1
    · intro a b ho
      rw [List.append_nil] at ho
      have := opened a b ho; simp only [upd_apply]; grind
    · exact alive
  | resume t =>
    simp only [step] at hs
    (repeat' split at hs) <;> simp only [Option.some.injEq, Prod.mk.injEq, reduceCtorEq] at hs <;> obtain ⟨rfl, rfl⟩ := hs
    rename_i o hp
    have hown : (s.pc t).owns = true := by rw [hp]; rfl
    constructor <;> (try dsimp only)
    · intro hf; have := (noFile hf).1 t; rw [hown] at this; simp at this
    · intro a b; simp only [upd_apply]; have := oneTask a b; have := oneTask a t; have := oneTask t b; grind [Pc.owns]
    · intro a b; simp only [upd_apply]; have := taskOrPoller a b; have := taskOrPoller t b; grind [Pc.owns]
    · exact onePoller
    · exact oneEach
    · intro a b; have := hubPc a b; simp only [upd_apply]; grind
    · exact hubNodup
    · intro a b; have := pendPc a b; simp only [upd_apply]; grind
    · exact pendNodup
    · intro a b ho
      rw [openIn_concat] at ho
      simp only [upd_apply]
      rcases ho with ho | ho
      · simp at ho; simp [ho]
      · have := opened a b ho.2; grind
    · exact alive
  | unlock t =>
    simp only [step] at hs
    (repeat' split at hs) <;> simp only [Option.some.injEq, Prod.mk.injEq, reduceCtorEq] at hs <;> obtain ⟨rfl, rfl⟩ := hs
    rename_i o hp
    have hown : (s.pc t).owns = true := by rw [hp]; rfl
    constructor <;> (try dsimp only)
    · intro hf; have := (noFile hf).1 t; rw [hown] at this; simp at this
    · intro a b; simp only [upd_apply]; have := oneTask a b; have := oneTask a t; have := oneTask t b; grind [Pc.owns]
    · intro a b; simp only [upd_apply]; have := taskOrPoller a b; have := taskOrPoller t b; grind [Pc.owns]
    · exact onePoller
    · exact oneEach
    · intro a b; have := hubPc a b; simp only [upd_apply]; grind
    · exact hubNodup
    · intro a b; have := pendPc a b; simp only [upd_apply]; grind
    · exact pendNodup
    · intro a b ho
      rw [openIn_concat] at ho
      simp only [upd_apply]
      rcases ho with ho | ho
      · simp at ho
      · have := opened a b ho.2; simp at ho; grind
    · exact alive
  | wake t x =>
    simp only [step] at hs
    (repeat' split at hs) <;> simp only [Option.some.injEq, Prod.mk.injEq, reduceCtorEq] at hs <;> obtain ⟨rfl, rfl⟩ := hs
    · rename_i o hp hh
      have hown : (s.pc t).owns = true := by rw [hp]; rfl
      constructor <;> (try dsimp only)
      · intro hf; have := (noFile hf).1 t; rw [hown] at this; simp at this
      · intro a b; simp only [upd_apply]; have := oneTask a b; have := oneTask a t; have := oneTask t b; grind [Pc.owns]
      · intro a b; simp only [upd_apply]; have := taskOrPoller a b; have := taskOrPoller t b; grind [Pc.owns]
      · exact onePoller
      · exact oneEach
      · intro a b; have := hubPc a b; simp only [upd_apply]; grind
      · exact hubNodup
      · intro a b; have := pendPc a b; simp only [upd_apply]; grind
      · exact pendNodup
      · intro a b ho
        rw [List.append_nil] at ho
        have := opened a b ho; simp only [upd_apply]; grind
      · exact alive
    · rename_i o x hp hx
      have hown : (s.pc t).owns = true := by rw [hp]; rfl
      have hxw := (hubPc x o).1 hx
      have hnod := hubNodup o
      constructor <;> (try dsimp only)
      · intro hf; have := (noFile hf).1 t; rw [hown] at this; simp at this
      · intro a b; simp only [upd_apply]; have := oneTask a b; have := oneTask a t; have := oneTask t b; grind [Pc.owns]
      · intro a b; simp only [upd_apply]; have := taskOrPoller a b; have := taskOrPoller t b; grind [Pc.owns]
      · exact onePoller
      · exact oneEach
      · intro a b
        have h1 := hubPc a b
        have h2 := hnod.mem_erase_iff (a := a) (b := x)
        simp only [upd_apply]; grind
      · intro a; have h1 := hubNodup a; simp only [upd_apply]
        split
        · rename_i ha; subst ha; exact h1.erase x
        · exact h1
      · intro a b; have := pendPc a b; simp only [upd_apply]; grind
      · exact pendNodup
      · intro a b ho
        rw [List.append_nil] at ho
        have := opened a b ho; simp only [upd_apply]; grind
      · exact alive
  | delete t =>
    simp only [step] at hs
    (repeat' split at hs) <;> simp only [Option.some.injEq, Prod.mk.injEq, reduceCtorEq] at hs <;> obtain ⟨rfl, rfl⟩ := hs
    rename_i o hp
    have hown : (s.pc t).owns = true := by rw [hp]; rfl
    constructor <;> (try dsimp only)
    · intro _
      refine ⟨fun a => ?_, fun b => taskOrPoller t b hown⟩
      have := oneTask a t; simp only [upd_apply]; grind [Pc.owns]
    · intro a b; simp only [upd_apply]; have := oneTask a b; grind [Pc.owns]
    · intro a b; simp only [upd_apply]; have := taskOrPoller a b; grind [Pc.owns]
    · exact onePoller
    · exact oneEach
    · intro a b; have := hubPc a b; simp only [upd_apply]; grind
    · exact hubNodup
    · intro a b; have := pendPc a b; simp only [upd_apply]; grind
    · exact pendNodup
    · intro a b ho
      rw [List.append_nil] at ho
      have := opened a b ho; simp only [upd_apply]; grind
    · exact alive
  | poll o =>
    simp only [step] at hs
    (repeat' split at hs) <;> simp only [Option.some.injEq, Prod.mk.injEq, reduceCtorEq] at hs <;> obtain ⟨rfl, rfl⟩ := hs
    · rw [List.append_nil]
      exact ⟨noFile, oneTask, taskOrPoller, onePoller, oneEach, hubPc, hubNodup, pendPc, pendNodup, opened, alive⟩
    · rename_i hc hf
      have hf' : s.file = false := by simpa using hf
      obtain ⟨n1, n2⟩ := noFile hf'
      constructor <;> (try dsimp only)
      · simp
      · exact oneTask
      · intro a b ha; rw [n1 a] at ha; simp at ha
      · intro a b; simp only [upd_apply]; have := n2 a; have := n2 b; grind
      · intro a; simp only [upd_apply]; have := n2 a; grind
      · exact hubPc
      · exact hubNodup
      · exact pendPc
      · exact pendNodup
      · rw [List.append_nil]; exact opened
      · exact alive
  | pollWake o x =>
    simp only [step] at hs
    (repeat' split at hs) <;> simp only [Option.some.injEq, Prod.mk.injEq, reduceCtorEq] at hs <;> obtain ⟨rfl, rfl⟩ := hs
    · rename_i hc _ hh
      constructor <;> (try dsimp only)
      · intro hf; exact absurd ((noFile hf).2 o) hc
      · exact oneTask
      · intro a b ha; exact absurd (taskOrPoller a o ha) hc
      · intro a b; simp only [upd_apply]; have := onePoller a b; grind
      · intro a; simp only [upd_apply]; have := oneEach a; grind
      · exact hubPc
      · exact hubNodup
      · exact pendPc
      · exact pendNodup
      · intro a b ho; exact opened a b (open_other (by simp) ho)
      · exact alive
    · rename_i hc _ x hx
      have hxw := (hubPc x o).1 hx
      have hnod := hubNodup o
      have hno : ∀ a, (s.pc a).owns = false := by
        intro a
        cases ha : (s.pc a).owns with
        | false => rfl
        | true => exact absurd (taskOrPoller a o ha) hc
      constructor <;> (try dsimp only)
      · intro hf; exact absurd ((noFile hf).2 o) hc
      · intro a b; simp only [upd_apply]; have := hno a; have := hno b; grind
      · intro a b _; simp only [upd_apply]; have := onePoller o b; have := oneEach b; grind
      · intro a b; simp only [upd_apply]; have := onePoller a b; grind
      · intro a; simp only [upd_apply]; have := oneEach a; grind
      · intro a b
        have h1 := hubPc a b
        have h2 := hnod.mem_erase_iff (a := a) (b := x)
        simp only [upd_apply]; grind
      · intro a; have h1 := hubNodup a; simp only [upd_apply]
        split
        · rename_i ha; subst ha; exact h1.erase x
        · exact h1
      · intro a b; have := pendPc a b; simp only [upd_apply]; grind
      · exact pendNodup
      · intro a b ho
        rw [List.append_nil] at ho
        have := opened a b ho; simp only [upd_apply]; grind
      · exact alive

theorem reach_inv {s : St} {tr : List Ev} (h : machine.Reaches s tr) (hd : NoDestruction tr) : Inv s tr := by
  have := Machine.Reaches.inv (M := machine) (fun s tr => NoDestruction tr → Inv s tr) (fun _ => inv_init)
    (fun s tr l s' e hi hs hd => inv_step s tr l s' e (hi fun o ho => hd o (by simp [ho])) hs hd) h
  exact this hd

theorem step_single (s : St) (l : Lbl) (s' : St) (e : List Ev) (hs : machine.step s l = some (s', e)) : e.length ≤ 1 := by
  simp only [machine] at hs
  cases l <;> simp only [step] at hs <;> (repeat' split at hs) <;>
    simp only [Option.some.injEq, Prod.mk.injEq, reduceCtorEq] at hs <;> obtain ⟨rfl, rfl⟩ := hs <;> simp

/-- **C50, proved as long as no dir_mutex object is destroyed.**  Any number of tasks, objects and processes, every interleaving, pollers waking at any time: at most one
holder. -/
theorem dir_mutex_exclusion_partial (s : St) (tr : List Ev) (h : machine.Reaches s tr) (hd : NoDestruction tr) : MutualExclusion tr := by
  rintro p u o ⟨post, hp⟩ t o' hopen
  have hx : tr = p ++ Ev.acquired u o :: post := by rw [← hp]; simp
  obtain ⟨s1, l, s2, hr, hs⟩ := h.at_event_single step_single hx
  have hi := reach_inv hr (fun o ho => hd o (by rw [hx]; simp [ho]))
  have hh := hi.opened t o' hopen
  simp only [machine] at hs
  cases l <;> simp only [step] at hs <;> (repeat' split at hs) <;>
    simp only [Option.some.injEq, Prod.mk.injEq, reduceCtorEq, List.cons.injEq, Ev.acquired.injEq, and_true, and_false] at hs
  · rename_i hc hf
    have := (hi.noFile hf).1 t
    rw [hh] at this; simp [Pc.owns] at this
  · rename_i hpc
    obtain ⟨-, rfl, rfl⟩ := hs
    have := hi.oneTask _ t (by rw [hpc]; rfl) (by rw [hh]; rfl)
    subst this
    rw [hh] at hpc; simp at hpc

/-- **C50, what fails.**  Destroying a dir_mutex object that was never used deletes the lock file of whoever holds the lock: two holders. -/
theorem dir_mutex_exclusion_refuted : ∃ s tr, machine.Reaches s tr ∧ ¬ MutualExclusion tr ∧ ∀ t, Ev.acquired t 1 ∉ tr ∧ Ev.contended t 1 ∉ tr := by
  refine ⟨_, _, ⟨[.acquire 0 0, .destroy 1, .destroyUnlock 1, .acquire 2 2], rfl⟩, ?_, ?_⟩
  · intro h
    exact h [.acquired 0 0, .destroyed 1] 2 2 ⟨[], rfl⟩ 0 0 ⟨[], [.destroyed 1], rfl, by simp⟩
  · intro t; simp

/-! ### C51 -/

/-- Nobody has taken an ownerless lock file into the world. -/
def NoOwnerless (tr : List Ev) : Prop := ∀ o, Ev.ownerless o ∉ tr

structure Inv2 (s : St) : Prop where
  owner : s.file = true → (∃ t, (s.pc t).owns = true) ∨ ∃ o, 0 < s.created o
  enough : ∀ o, (s.hub o).length + (s.pend o).length ≤ s.pollers o + s.created o

theorem inv2_step (s : St) (tr : List Ev) (l : Lbl) (s' : St) (e : List Ev) (hI : Inv s tr) (h : Inv2 s)
    (hs : step s l = some (s', e)) (hd : NoDestruction e) (hn : NoOwnerless e) : Inv2 s' := by
  obtain ⟨owner, enough⟩ := h
  cases l with
  | destroy o =>
    exfalso
    simp only [step] at hs
    split at hs <;> simp only [Option.some.injEq, Prod.mk.injEq, reduceCtorEq] at hs
    obtain ⟨rfl, rfl⟩ := hs
    exact hd o (by simp)
  | destroyUnlock o =>
    exfalso
    simp only [step, hI.alive] at hs
    simp at hs
  | acquire t o =>
    simp only [step] at hs
    (repeat' split at hs) <;> simp only [Option.some.injEq, Prod.mk.injEq, reduceCtorEq] at hs <;> obtain ⟨rfl, rfl⟩ := hs
    · exact ⟨fun _ => Or.inl ⟨t, by simp [Pc.owns]⟩, enough⟩
    · rename_i hc hf
      refine ⟨fun hf => ?_, fun a => ?_⟩
      · rcases owner hf with ⟨x, hx⟩ | ho
        · left; refine ⟨x, ?_⟩; dsimp only; simp only [upd_apply]; grind [Pc.owns]
        · exact Or.inr ho
      · have := enough a; dsimp only; simp only [upd_apply]; split
        · rename_i ha; subst ha; simp; omega
        · exact this
  | suspend t =>
    simp only [step] at hs
    (repeat' split at hs) <;> simp only [Option.some.injEq, Prod.mk.injEq, reduceCtorEq] at hs <;> obtain ⟨rfl, rfl⟩ := hs
    rename_i o hp
    refine ⟨fun hf => ?_, fun a => ?_⟩
    · rcases owner hf with ⟨x, hx⟩ | ho
      · left; refine ⟨x, ?_⟩; dsimp only; simp only [upd_apply]; grind [Pc.owns]
      · exact Or.inr ho
    · have := enough a; dsimp only; simp only [upd_apply]; split
      · rename_i ha; subst ha
        have hm := (hI.pendPc t a).2 hp
        have := List.length_erase_of_mem hm
        have := List.length_pos_of_mem hm
        simp; omega
      · exact this
  | resume t =>
    simp only [step] at hs
    (repeat' split at hs) <;> simp only [Option.some.injEq, Prod.mk.injEq, reduceCtorEq] at hs <;> obtain ⟨rfl, rfl⟩ := hs
    exact ⟨fun _ => Or.inl ⟨t, by simp [Pc.owns]⟩, enough⟩
  | unlock t =>
    simp only [step] at hs
    (repeat' split at hs) <;> simp only [Option.some.injEq, Prod.mk.injEq, reduceCtorEq] at hs <;> obtain ⟨rfl, rfl⟩ := hs
    exact ⟨fun _ => Or.inl ⟨t, by simp [Pc.owns]⟩, enough⟩
  | wake t x =>
    simp only [step] at hs
    (repeat' split at hs) <;> simp only [Option.some.injEq, Prod.mk.injEq, reduceCtorEq] at hs <;> obtain ⟨rfl, rfl⟩ := hs
    · exact ⟨fun _ => Or.inl ⟨t, by simp [Pc.owns]⟩, enough⟩
    · rename_i o x hp hx
      refine ⟨fun _ => Or.inl ⟨x, by simp [Pc.owns]⟩, fun a => ?_⟩
      have := enough a; dsimp only; simp only [upd_apply]; split
      · rename_i ha; subst ha; rw [List.length_erase_of_mem hx]; omega
      · exact this
  | delete t =>
    simp only [step] at hs
    (repeat' split at hs) <;> simp only [Option.some.injEq, Prod.mk.injEq, reduceCtorEq] at hs <;> obtain ⟨rfl, rfl⟩ := hs
    exact ⟨by simp, enough⟩
  | poll o =>
    simp only [step] at hs
    (repeat' split at hs) <;> simp only [Option.some.injEq, Prod.mk.injEq, reduceCtorEq] at hs <;> obtain ⟨rfl, rfl⟩ := hs
    · exact ⟨owner, enough⟩
    · rename_i hc hf
      refine ⟨fun _ => Or.inr ⟨o, by simp⟩, fun a => ?_⟩
      have := enough a; dsimp only; simp only [upd_apply]; split
      · rename_i ha; subst ha; omega
      · exact this
  | pollWake o x =>
    simp only [step] at hs
    (repeat' split at hs) <;> simp only [Option.some.injEq, Prod.mk.injEq, reduceCtorEq] at hs <;> obtain ⟨rfl, rfl⟩ := hs
    · exact absurd (by simp) (hn o)
    · rename_i hc _ x hx
      refine ⟨fun _ => Or.inl ⟨x, by simp [Pc.owns]⟩, fun a => ?_⟩
      have := enough a; dsimp only; simp only [upd_apply]; split
      · rename_i ha; subst ha
        have := List.length_pos_of_mem hx
        rw [List.length_erase_of_mem hx]; omega
      · exact this

theorem reach_inv2 {s : St} {tr : List Ev} (h : machine.Reaches s tr) (hd : NoDestruction tr) (hn : NoOwnerless tr) : Inv2 s := by
  have := Machine.Reaches.inv' (M := machine) (fun s tr => NoDestruction tr → NoOwnerless tr → Inv2 s)
    (fun _ _ => ⟨by simp [machine, init], by simp [machine, init]⟩)
    (fun s tr l s' e hr hi hs hd hn =>
      have hd' : NoDestruction tr := fun o ho => hd o (by simp [ho])
      inv2_step s tr l s' e (reach_inv hr hd') (hi hd' fun o ho => hn o (by simp [ho])) hs
        (fun o ho => hd o (by simp [ho])) (fun o ho => hn o (by simp [ho]))) h
  exact this hd hn

/-- **C51, proved until a poller creates the lock file for nobody.**  If the lock file exists, somebody is responsible for it and has a step to do: a task that holds the lock, is being
resumed with it or is inside unlock(), or a poller about to pass it on. -/
theorem dir_mutex_file_has_owner_partial (s : St) (tr : List Ev) (h : machine.Reaches s tr) (hd : NoDestruction tr) (hn : NoOwnerless tr)
    (hf : s.file = true) : ∃ l s' e, machine.step s l = some (s', e) ∧
      ((∃ t o, s.pc t = .holding o ∧ l = .unlock t) ∨ (∃ t o, s.pc t = .woken o ∧ l = .resume t) ∨
       (∃ t o x, s.pc t = .unlocking o ∧ l = .wake t x) ∨ (∃ t o, s.pc t = .deleting o ∧ l = .delete t) ∨ ∃ o x, l = .pollWake o x) := by
  have hi := reach_inv h hd
  rcases (reach_inv2 h hd hn).owner hf with ⟨t, ht⟩ | ⟨o, ho⟩
  · cases hp : s.pc t with
    | idle | failed o | waiting o => rw [hp] at ht; simp [Pc.owns] at ht
    | woken o => exact ⟨.resume t, _, _, by simp only [machine, step, hp]; rfl, Or.inr (Or.inl ⟨t, o, hp, rfl⟩)⟩
    | holding o => exact ⟨.unlock t, _, _, by simp only [machine, step, hp]; rfl, Or.inl ⟨t, o, hp, rfl⟩⟩
    | deleting o => exact ⟨.delete t, _, _, by simp only [machine, step, hp]; rfl, Or.inr (Or.inr (Or.inr (Or.inl ⟨t, o, hp, rfl⟩)))⟩
    | unlocking o =>
      cases hh : s.hub o with
      | nil => exact ⟨.wake t none, _, _, by simp only [machine, step, hp, if_pos hh]; rfl, Or.inr (Or.inr (Or.inl ⟨t, o, none, hp, rfl⟩))⟩
      | cons x xs =>
        have hx : x ∈ s.hub o := by rw [hh]; simp
        exact ⟨.wake t (some x), _, _, by simp only [machine, step, hp, if_pos hx]; rfl, Or.inr (Or.inr (Or.inl ⟨t, o, some x, hp, rfl⟩))⟩
  · have hc : s.created o ≠ 0 := by omega
    cases hh : s.hub o with
    | nil => exact ⟨.pollWake o none, _, _, by simp only [machine, step, if_neg hc, if_pos hh]; rfl, Or.inr (Or.inr (Or.inr (Or.inr ⟨o, none, rfl⟩)))⟩
    | cons x xs =>
      have hx : x ∈ s.hub o := by rw [hh]; simp
      exact ⟨.pollWake o (some x), _, _, by simp only [machine, step, if_neg hc, if_pos hx]; rfl, Or.inr (Or.inr (Or.inr (Or.inr ⟨o, some x, rfl⟩)))⟩

/-- **C51, proved until a poller creates the lock file for nobody.**  If a task waits and the lock file does not exist, some poller of the same object creates it and a task waiting there
acquires the lock. -/
theorem dir_mutex_waiter_progress_partial (s : St) (tr : List Ev) (h : machine.Reaches s tr) (hd : NoDestruction tr) (hn : NoOwnerless tr)
    (t o : Nat) (ht : s.pc t = .waiting o) (hf : s.file = false) :
    ∃ s', machine.runFrom s [.poll o, .pollWake o (some t), .resume t] = some (s', [.acquired t o]) := by
  have hi := reach_inv h hd
  have h2 := (reach_inv2 h hd hn).enough o
  have hm := (hi.hubPc t o).2 ht
  have hpos := List.length_pos_of_mem hm
  have hc := (hi.noFile hf).2 o
  have hp : s.pollers o ≠ 0 := by omega
  let s1 : St := { s with file := true, pollers := upd s.pollers o (s.pollers o - 1), created := upd s.created o (s.created o + 1) }
  have hstep1 : machine.step s (.poll o) = some (s1, []) := by
    simp only [machine, step, if_neg hp, hf]; rfl
  let s2 : St := { s1 with hub := upd s1.hub o ((s1.hub o).erase t), pc := upd s1.pc t (.woken o), created := upd s1.created o (s1.created o - 1) }
  have hstep2 : machine.step s1 (.pollWake o (some t)) = some (s2, []) := by
    have h1 : s1.created o ≠ 0 := by simp [s1]
    have h2 : t ∈ s1.hub o := hm
    simp only [machine, step, if_neg h1, if_pos h2]; rfl
  have hstep3 : machine.step s2 (.resume t) = some ({ s2 with pc := upd s2.pc t (.holding o) }, [.acquired t o]) := by
    have h1 : s2.pc t = .woken o := by simp [s2]
    simp only [machine, step, h1]
  refine ⟨{ s2 with pc := upd s2.pc t (.holding o) }, ?_⟩
  simp only [Machine.runFrom, hstep1, hstep2, hstep3]
  rfl

/-- **C51, what fails.**  Two tasks of one object: after ordinary contention (task 1 waits, task 0 unlocks, task 1 acquires and unlocks) the poller of task 1 creates the lock file
for nobody; then no task ever acquires the lock again, through whatever object, whatever happens, unless an object is destroyed. -/
theorem dir_mutex_progress_refuted : ∃ s tr, machine.Reaches s tr ∧
    (∀ t, s.pc t = .idle) ∧ (tr.countP fun e => match e with | .acquired _ _ => true | _ => false) = 2 ∧
    (tr.countP fun e => match e with | .released _ => true | _ => false) = 2 ∧
    ∀ ls s' tr', machine.runFrom s ls = some (s', tr') → NoDestruction tr' → ∀ t o, Ev.acquired t o ∉ tr' := by
  obtain ⟨s, tr, hr, hpc, h1, h2, hf, hc, hh, ha⟩ : ∃ s tr, machine.Reaches s tr ∧ (∀ t, s.pc t = .idle) ∧
      (tr.countP fun e => match e with | .acquired _ _ => true | _ => false) = 2 ∧
      (tr.countP fun e => match e with | .released _ => true | _ => false) = 2 ∧ s.file = true ∧ (∀ o, s.created o = 0) ∧
      (∀ o, s.hub o = []) ∧ ∀ o, s.dead o = false := by
    refine ⟨_, _, ⟨[.acquire 0 0, .acquire 1 0, .suspend 1, .unlock 0, .wake 0 (some 1), .resume 1, .unlock 1, .wake 1 none, .delete 1,
      .poll 0, .pollWake 0 none], rfl⟩, ?_, by decide, by decide, by rfl, ?_, ?_, ?_⟩
    · intro t
      simp only [init, upd_apply]
      (repeat' split) <;> first | rfl | simp_all
    · intro o; by_cases ho : o = 0
      · subst ho; rfl
      · simp only [upd_apply, if_neg ho]; rfl
    · intro o; by_cases ho : o = 0
      · subst ho; rfl
      · simp only [upd_apply, if_neg ho]; rfl
    · intro o; rfl
  refine ⟨s, tr, hr, hpc, h1, h2, ?_⟩
  intro ls s' tr' hls hd
  have key := Machine.runFrom_inv machine (fun s tr => NoDestruction tr → (s.file = true ∧ (∀ t, (s.pc t).owns = false) ∧
      (∀ o, s.created o = 0) ∧ (∀ o, s.dead o = false)) ∧ ∀ t o, Ev.acquired t o ∉ tr)
    (by
      intro s tr l s' e ih hs hd
      obtain ⟨⟨i1, i2, i3, i4⟩, i5⟩ := ih (fun o ho => hd o (by simp [ho]))
      simp only [machine] at hs
      have noown : ∀ t p, s.pc t = p → p.owns = true → False := by
        intro t p hp ho; have := i2 t; rw [hp, ho] at this; simp at this
      cases l with
      | acquire t o =>
        simp only [step] at hs
        (repeat' split at hs) <;> simp only [Option.some.injEq, Prod.mk.injEq, reduceCtorEq] at hs <;> obtain ⟨rfl, rfl⟩ := hs
        · rename_i hf; rw [i1] at hf; simp at hf
        · refine ⟨⟨i1, fun a => ?_, i3, i4⟩, by simpa using i5⟩
          have := i2 a; dsimp only; simp only [upd_apply]; grind [Pc.owns]
      | suspend t =>
        simp only [step] at hs
        (repeat' split at hs) <;> simp only [Option.some.injEq, Prod.mk.injEq, reduceCtorEq] at hs <;> obtain ⟨rfl, rfl⟩ := hs
        refine ⟨⟨i1, fun a => ?_, i3, i4⟩, by simpa using i5⟩
        have := i2 a; dsimp only; simp only [upd_apply]; grind [Pc.owns]
      | resume t =>
        simp only [step] at hs
        (repeat' split at hs) <;> simp only [Option.some.injEq, Prod.mk.injEq, reduceCtorEq] at hs
        rename_i hp; exact (noown _ _ hp rfl).elim
      | unlock t =>
        simp only [step] at hs
        (repeat' split at hs) <;> simp only [Option.some.injEq, Prod.mk.injEq, reduceCtorEq] at hs
        rename_i hp; exact (noown _ _ hp rfl).elim
      | wake t x =>
        simp only [step] at hs
        (repeat' split at hs) <;> simp only [Option.some.injEq, Prod.mk.injEq, reduceCtorEq] at hs
        · rename_i hp _; exact (noown _ _ hp rfl).elim
        · rename_i hp _; exact (noown _ _ hp rfl).elim
      | delete t =>
        simp only [step] at hs
        (repeat' split at hs) <;> simp only [Option.some.injEq, Prod.mk.injEq, reduceCtorEq] at hs
        rename_i hp; exact (noown _ _ hp rfl).elim
      | poll o =>
        simp only [step, i1] at hs
        (repeat' split at hs) <;> simp only [Option.some.injEq, Prod.mk.injEq, reduceCtorEq] at hs
        · obtain ⟨rfl, rfl⟩ := hs; exact ⟨⟨i1, i2, i3, i4⟩, by simpa using i5⟩
        · simp_all
      | pollWake o x => simp [step, i3] at hs
      | destroy o =>
        simp only [step] at hs
        split at hs <;> simp only [Option.some.injEq, Prod.mk.injEq, reduceCtorEq] at hs
        obtain ⟨rfl, rfl⟩ := hs
        exact absurd (by simp) (hd o)
      | destroyUnlock o => simp [step, i4] at hs)
    ls s [] s' tr' (fun _ => ⟨⟨hf, fun t => by rw [hpc t]; rfl, hc, ha⟩, by simp⟩) hls
  simpa using (key (by simpa using hd)).2

/-- **C51.**  Without contention: as long as no acquire() found the lock file, whenever all guards are gone and no call is in progress the lock file does not exist (and, by the model, the next
acquire() succeeds at once). -/
theorem dir_mutex_uncontended (s : St) (tr : List Ev) (h : machine.Reaches s tr) (hd : NoDestruction tr)
    (hc : ∀ t o, Ev.contended t o ∉ tr) (hidle : ∀ t, s.pc t = .idle) (t o : Nat) :
    ∃ s', machine.step s (.acquire t o) = some (s', [.acquired t o]) := by
  have key := Machine.Reaches.inv (M := machine) (fun s tr => NoDestruction tr → (∀ t o, Ev.contended t o ∉ tr) →
      (∀ o, s.pollers o = 0 ∧ s.created o = 0 ∧ s.dead o = false) ∧ NoOwnerless tr) ?_ ?_ h
  · obtain ⟨k1, k2⟩ := key hd hc
    have hi2 := reach_inv2 h hd k2
    have hf : s.file = false := by
      cases hf : s.file with
      | false => rfl
      | true =>
        rcases hi2.owner hf with ⟨x, hx⟩ | ⟨x, hx⟩
        · rw [hidle x] at hx; simp [Pc.owns] at hx
        · rw [(k1 x).2.1] at hx; omega
    refine ⟨{ s with file := true, pc := upd s.pc t (.holding o) }, ?_⟩
    simp only [machine, step, if_pos (show s.pc t = .idle ∧ s.dead o = false from ⟨hidle t, (k1 o).2.2⟩), if_pos hf]
  · intro _ _; exact ⟨by simp [machine, init], by simp [NoOwnerless]⟩
  · intro s tr l s' e ih hs hd hc
    obtain ⟨i1, i2⟩ := ih (fun o ho => hd o (by simp [ho])) (fun t o ho => hc t o (by simp [ho]))
    simp only [machine] at hs
    have hc' : ∀ t o, Ev.contended t o ∉ e := fun t o ho => hc t o (by simp [ho])
    have hd' : ∀ o, Ev.destroyed o ∉ e := fun o ho => hd o (by simp [ho])
    cases l <;> simp only [step, i1] at hs <;> (repeat' split at hs) <;>
      simp only [Option.some.injEq, Prod.mk.injEq, reduceCtorEq] at hs <;> obtain ⟨rfl, rfl⟩ := hs <;> simp_all [NoOwnerless]

/-! ### Concrete executions meet the hypotheses -/

/-- contention between two objects, resolved by a poller -/
example : ∃ s tr, machine.Reaches s tr ∧ tr = [.acquired 0 0, .contended 1 1, .released 0, .acquired 1 1] ∧ s.file = true :=
  ⟨_, _, ⟨[.acquire 0 0, .acquire 1 1, .suspend 1, .unlock 0, .wake 0 none, .delete 0, .poll 1, .pollWake 1 (some 1), .resume 1], rfl⟩, by decide, rfl⟩

/-- a waiting task while the lock file does not exist -/
example : ∃ s tr, machine.Reaches s tr ∧ s.pc 1 = .waiting 1 ∧ s.file = false ∧ tr = [.acquired 0 0, .contended 1 1, .released 0] :=
  ⟨_, _, ⟨[.acquire 0 0, .acquire 1 1, .suspend 1, .unlock 0, .wake 0 none, .delete 0], rfl⟩, by decide, rfl, by decide⟩

/-- **C51.**  Once the destructor of an object has begun, its pollers make no further attempt to create the lock file, whatever else happens. -/
theorem dir_mutex_polling_stops (s : St) (tr : List Ev) (h : machine.Reaches s tr) (o : Nat) (hd : .destroyed o ∈ tr) :
    machine.step s (.poll o) = none := by
  have key := Machine.Reaches.inv (M := machine) (fun s tr => (∀ o, .destroyed o ∈ tr → s.dead o = true) ∧ ∀ o, s.dead o = true → s.pollers o = 0) ?_ ?_ h
  · simp [machine, step, key.2 o (key.1 o hd)]
  · simp [machine, init]
  · rintro s tr l s' e ⟨h1, h2⟩ hs
    have hs : step s l = some (s', e) := hs
    cases l <;> simp only [step] at hs <;> (repeat' split at hs) <;>
      simp only [Option.some.injEq, Prod.mk.injEq, reduceCtorEq] at hs <;> obtain ⟨rfl, rfl⟩ := hs <;>
      refine ⟨?_, ?_⟩ <;> (try simp only [upd_apply, List.mem_append, List.mem_cons, List.not_mem_nil, or_false, Ev.destroyed.injEq,
        reduceCtorEq]) <;> grind

/-- A poller that has something to do until its object is destroyed. -/
example : ∃ s tr, machine.Reaches s tr ∧ machine.step s (.poll 1) ≠ none ∧
    ∃ s' tr', machine.Reaches s' tr' ∧ .destroyed 1 ∈ tr' := by
  refine ⟨_, [.acquired 0 0, .contended 1 1], ⟨[.acquire 0 0, .acquire 1 1], rfl⟩, by simp [machine, step, init, upd], _,
    [.acquired 0 0, .contended 1 1, .destroyed 1], ⟨[.acquire 0 0, .acquire 1 1, .destroy 1], rfl⟩, by simp⟩

end Verif.DirMutex
