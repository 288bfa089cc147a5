import Verif.TcpMove.Model
import Mathlib.Tactic.Common
/-!
# C114: moving a tcp_server

Every history of any number of servers, moves and loops.
-/

namespace Verif.TcpMove
open Machine

variable {s s' : St} {l : Lbl} {e : List Ev}

def Pc.live : Pc → Bool
  | .queued | .gone => false
  | _ => true

/-- how many of the first `n` loops satisfy `f` -/
def cnt (f : Nat → Bool) : Nat → Nat
  | 0 => 0
  | n + 1 => cnt f n + (f n).toNat

theorem cnt_congr {f g : Nat → Bool} {n : Nat} (h : ∀ i, i < n → f i = g i) : cnt f n = cnt g n := by
  induction n with
  | zero => rfl
  | succ n ih => simp only [cnt]; rw [ih fun i hi => h i (by omega), h n (by omega)]

theorem cnt_one {f g : Nat → Bool} {n i : Nat} (hi : i < n) (h : ∀ j, j ≠ i → f j = g j) : cnt f n + (g i).toNat = cnt g n + (f i).toNat := by
  induction n with
  | zero => omega
  | succ n ih =>
    simp only [cnt]
    by_cases hn : i = n
    · subst hn
      rw [cnt_congr (f := f) (g := g) fun j hj => h j (by omega)]; omega
    · rw [h n (by omega)]; have := ih (by omega); omega

theorem cnt_pos {f : Nat → Bool} {n i : Nat} (hi : i < n) (h : f i = true) : 0 < cnt f n := by
  induction n with
  | zero => omega
  | succ n ih =>
    simp only [cnt]
    by_cases hn : i = n
    · subst hn; rw [h]; simp
    · have := ih (by omega); omega

/-- loops that count for object `o` -/
def member (s : St) (o i : Nat) : Bool := (s.loop i).this == o && (s.loop i).pc.live

structure I (s : St) (tr : List Ev) : Prop where
  la : ∀ i, i < s.nl → Ev.launched (s.loop i).this i ∈ tr ∧ (s.loop i).this < s.no
  lb : ∀ o i, Ev.launched o i ∈ tr → i < s.nl ∧ (s.loop i).this = o
  so : ∀ i, i < s.nl → (s.obj (s.loop i).this).sock = false → ∃ b, Ev.moved (s.loop i).this b ∈ tr
  ac : ∀ i, i < s.nl → (s.loop i).pc = .accepting false → ∃ b, Ev.moved (s.loop i).this b ∈ tr
  be : ∀ i, Ev.began i ∈ tr → i < s.nl ∧ (s.loop i).pc ≠ .queued
  bq : ∀ i, i < s.nl → (s.loop i).pc ≠ .queued → Ev.began i ∈ tr
  le : ∀ i, i < s.nl → ((s.loop i).pc = .gone ↔ Ev.left i ∈ tr)
  ns : ∀ i, Ev.noSocket i ∈ tr → ∃ a b, Ev.launched a i ∈ tr ∧ Ev.moved a b ∈ tr
  lf : ∀ i, Ev.left i ∈ tr → i < s.nl

theorem inv_init : I init [] := by
  constructor <;> simp [init, cnt]

theorem step_cases (hs : step s l = some (s', e)) : (s' = { s with ub := true } ∧ e = [.undefined] ∧ ∃ o, l.uses s = some o ∧ (s.obj o).alive = false ∧ stepLive s l ≠ none) ∨
    (stepLive s l = some (s', e) ∧ ∀ o, l.uses s = some o → (s.obj o).alive = true) := by
  simp only [step] at hs
  split at hs
  · cases hs
  · split at hs
    · cases hs
    · rename_i p hp
      split at hs
      · rename_i hu
        simp only [Option.some.injEq, Prod.mk.injEq] at hs
        obtain ⟨rfl, rfl⟩ := hs
        cases hq : l.uses s with
        | none => rw [hq] at hu; cases hu
        | some o => rw [hq] at hu; left; exact ⟨rfl, rfl, o, rfl, by simpa using hu, by rw [hp]; simp⟩
      · rename_i hu
        simp only [Option.some.injEq] at hs
        subst hs
        right
        refine ⟨hp, fun o ho => ?_⟩
        rw [ho] at hu
        simpa using hu

theorem inv_step {tr : List Ev} (h : I s tr) (hs : step s l = some (s', e)) : I s' (tr ++ e) := by
  rcases step_cases hs with ⟨rfl, rfl, -⟩ | ⟨h1, -⟩
  · obtain ⟨la, lb, so, ac, be, bq, le, ns, lf⟩ := h
    constructor <;> simp only [List.mem_append, List.mem_singleton, reduceCtorEq, or_false] <;> assumption
  · clear hs
    obtain ⟨la, lb, so, ac, be, bq, le, ns, lf⟩ := h
    cases l <;> simp only [stepLive] at h1 <;> (repeat' split at h1) <;> simp only [Option.some.injEq, Prod.mk.injEq, reduceCtorEq] at h1 <;> obtain ⟨rfl, rfl⟩ := h1 <;>
      constructor <;> (try simp only [setPc, upd_apply, List.mem_append, List.mem_cons, List.not_mem_nil, or_false, reduceCtorEq, List.append_nil, Ev.created.injEq, Ev.moved.injEq, Ev.launched.injEq, Ev.began.injEq,
        Ev.left.injEq, Ev.noSocket.injEq]) <;> grind

theorem cnt_zero {f : Nat → Bool} {n : Nat} (h : ∀ i, i < n → f i = false) : cnt f n = 0 := by
  induction n with
  | zero => rfl
  | succ n ih => simp only [cnt]; rw [ih fun i hi => h i (by omega), h n (by omega)]; rfl

theorem member_setPc {pc : Pc} {o i j : Nat} : member (setPc s i pc) o j = if j = i then (s.loop i).this == o && pc.live else member s o j := by
  simp only [member, setPc, upd_apply]; split <;> simp_all

theorem cnt_setPc {pc : Pc} {o i : Nat} (hi : i < s.nl) :
    cnt (member (setPc s i pc) o) s.nl + ((s.loop i).this == o && (s.loop i).pc.live).toNat = cnt (member s o) s.nl + ((s.loop i).this == o && pc.live).toNat := by
  have := cnt_one (f := member (setPc s i pc) o) (g := member s o) hi fun j hj => by rw [member_setPc, if_neg hj]
  rw [member_setPc, if_pos rfl] at this
  exact this

def C (s : St) : Prop := ∀ o, o < s.no → (s.obj o).count = cnt (member s o) s.nl

theorem c_pc {pc : Pc} {i : Nat} (h : C s) (hi : i < s.nl) (h1 : (s.loop i).pc.live = true) (h2 : pc.live = true) : C (setPc s i pc) := by
  intro o ho
  have h3 := cnt_setPc (pc := pc) (o := o) hi
  rw [h1, h2] at h3
  have := h o ho
  simp only [setPc] at h3 ⊢
  omega

theorem c_step {tr : List Ev} (hI : I s tr) (h : C s) (hs : step s l = some (s', e)) : C s' := by
  rcases step_cases hs with ⟨rfl, rfl, -⟩ | ⟨h1, -⟩
  · exact h
  · clear hs
    have hnew : cnt (member s s.no) s.nl = 0 := cnt_zero fun i hi => by
      have := (hI.la i hi).2
      simp only [member, Bool.and_eq_false_iff, beq_eq_false_iff_ne, ne_eq]; left; omega
    cases l with
    | create =>
      simp only [stepLive, Option.some.injEq, Prod.mk.injEq] at h1
      obtain ⟨rfl, rfl⟩ := h1
      intro o ho
      simp only [upd_apply] at ho ⊢
      split
      · subst o; exact hnew.symm
      · exact h o (by omega)
    | move a =>
      simp only [stepLive] at h1
      split at h1
      · simp only [Option.some.injEq, Prod.mk.injEq] at h1
        obtain ⟨rfl, rfl⟩ := h1
        intro o ho
        simp only [upd_apply] at ho ⊢
        split
        · subst o; exact hnew.symm
        · split
          · subst o; exact h a (by omega)
          · exact h o (by omega)
      · cases h1
    | launch a =>
      simp only [stepLive] at h1
      split at h1
      · simp only [Option.some.injEq, Prod.mk.injEq] at h1
        obtain ⟨rfl, rfl⟩ := h1
        intro o ho
        have h2 := h o ho
        simp only [cnt]
        have h3 : ∀ j, j < s.nl → member { s with obj := upd s.obj a { s.obj a with sock := true }, nl := s.nl + 1, loop := upd s.loop s.nl ⟨a, (s.obj a).src, .queued⟩ } o j = member s o j := by
          intro j hj; simp only [member, upd_ne _ _ (show j ≠ s.nl by omega)]
        rw [cnt_congr h3]
        simp only [member, upd_same, Pc.live, Bool.and_false, Bool.toNat_false, upd_apply, Nat.add_zero]
        split
        · subst o; exact h2
        · exact h2
      · cases h1
    | begin i =>
      simp only [stepLive] at h1
      split at h1
      · rename_i hg
        simp only [Option.some.injEq, Prod.mk.injEq] at h1
        obtain ⟨rfl, rfl⟩ := h1
        intro o ho
        have h2 := h o ho
        have h3 := cnt_setPc (pc := .testing) (o := o) hg.1
        rw [hg.2] at h3
        simp only [Pc.live, Bool.and_false, Bool.toNat_false, Bool.and_true, Nat.add_zero] at h3
        show (upd s.obj _ _ o).count = cnt (member (setPc s i .testing) o) s.nl
        rw [h3, upd_apply]
        by_cases hq : o = (s.loop i).this
        · subst o; simp [h2]
        · have : ((s.loop i).this == o) = false := by simpa using Ne.symm hq
          rw [if_neg hq, h2, this]; rfl
      · cases h1
    | leave i =>
      simp only [stepLive] at h1
      split at h1
      · rename_i hg
        simp only [Option.some.injEq, Prod.mk.injEq] at h1
        obtain ⟨rfl, rfl⟩ := h1
        intro o ho
        have h2 := h o ho
        have h3 := cnt_setPc (pc := .gone) (o := o) hg.1
        rw [hg.2] at h3
        simp only [Pc.live, Bool.and_false, Bool.toNat_false, Bool.and_true, Nat.add_zero] at h3
        show (upd s.obj _ _ o).count = cnt (member (setPc s i .gone) o) s.nl
        rw [upd_apply]
        by_cases hq : o = (s.loop i).this
        · subst o; simp at h3 ⊢; omega
        · have : ((s.loop i).this == o) = false := by simpa using Ne.symm hq
          rw [this] at h3; simp at h3
          rw [if_neg hq, h2, h3]
      · cases h1
    | test i =>
      simp only [stepLive] at h1
      split at h1
      · rename_i hg
        simp only [Option.some.injEq, Prod.mk.injEq] at h1
        obtain ⟨rfl, rfl⟩ := h1
        exact c_pc h hg.1 (by rw [hg.2]; rfl) (by split <;> rfl)
      · cases h1
    | submit i =>
      simp only [stepLive] at h1
      split at h1
      · rename_i hg
        simp only [Option.some.injEq, Prod.mk.injEq] at h1
        obtain ⟨rfl, rfl⟩ := h1
        exact c_pc h hg.1 (by rw [hg.2]; rfl) rfl
      · cases h1
    | complete i c =>
      simp only [stepLive] at h1
      split at h1
      · rename_i hi
        split at h1
        · rename_i hp
          have := c_pc (pc := .testing) h hi (by rw [hp]; rfl) rfl
          split at h1 <;> simp only [Option.some.injEq, Prod.mk.injEq] at h1 <;> obtain ⟨rfl, rfl⟩ := h1 <;> exact this
        · rename_i hp
          simp only [Option.some.injEq, Prod.mk.injEq] at h1
          obtain ⟨rfl, rfl⟩ := h1
          exact c_pc h hi (by rw [hp]; rfl) rfl
        · cases h1
      · cases h1
    | destroy a =>
      simp only [stepLive] at h1
      split at h1
      · simp only [Option.some.injEq, Prod.mk.injEq] at h1
        obtain ⟨rfl, rfl⟩ := h1
        intro o ho
        simp only [upd_apply]
        split
        · subst o; exact h a ho
        · exact h o ho
      · cases h1
    | _ =>
      simp only [stepLive] at h1
      (repeat' split at h1) <;> simp only [Option.some.injEq, Prod.mk.injEq, reduceCtorEq] at h1 <;> obtain ⟨rfl, rfl⟩ := h1 <;> exact h

theorem reaches_inv {tr : List Ev} (h : machine.Reaches s tr) : I s tr ∧ C s :=
  Reaches.inv (M := machine) (fun s tr => I s tr ∧ C s) ⟨inv_init, by intro o ho; simp [machine, init] at ho⟩ (fun _ _ _ _ _ hI hs => ⟨inv_step hI.1 hs, c_step hI.1 hI.2 hs⟩) h

/-- No accept loop is left without a socket unless its server object was moved after it was started: moving before start() is safe. -/
theorem accepts_on_socket_partial {tr : List Ev} (h : machine.Reaches s tr) (hm : MovedBeforeStart tr) (i : Nat) : Ev.noSocket i ∉ tr := by
  intro hi
  obtain ⟨a, b, h1, h2⟩ := (reaches_inv h).1.ns i hi
  exact hm a b i h2 h1

/-- until_done of the object that was started: all its loops that have begun are over. -/
theorem until_done_partial {tr : List Ev} (h : machine.Reaches s tr) : ∀ p o i, p ++ [Ev.untilReturned o] <+: tr → Ev.launched o i ∈ p → Ev.began i ∈ p → Ev.left i ∈ p := by
  refine Reaches.inv' (M := machine) (fun s tr => ∀ p o i, p ++ [Ev.untilReturned o] <+: tr → Ev.launched o i ∈ p → Ev.began i ∈ p → Ev.left i ∈ p) ?_ ?_ h
  · intro p o i hp; exact absurd hp not_concat_prefix_nil
  · intro s tr l s' e hr ih hs p o i hp h1 h2
    rcases concat_prefix_append_cases hp with hq0 | ⟨p', hpe, hpeq⟩
    · exact ih p o i hq0 h1 h2
    · subst hpeq
      obtain ⟨hI, hC⟩ := reaches_inv hr
      have hmem : Ev.untilReturned o ∈ e := hpe.subset (by simp)
      rcases step_cases hs with ⟨rfl, rfl, -⟩ | ⟨h3, -⟩
      · simp at hmem
      · cases l <;> simp only [stepLive] at h3 <;> (repeat' split at h3) <;> simp only [Option.some.injEq, Prod.mk.injEq, reduceCtorEq] at h3 <;> obtain ⟨rfl, rfl⟩ := h3 <;> simp at hmem
        rename_i hg
        subst hmem
        have hp' : p' = [] := by
          obtain ⟨q, hq⟩ := hpe
          cases p' with
          | nil => rfl
          | cons x xs => have := congrArg List.length hq; simp at this
        subst hp'
        rw [List.append_nil] at h1 h2 ⊢
        obtain ⟨h4, h5⟩ := hI.lb _ i h1
        have h6 := (hI.be i h2).2
        have h7 := hC _ hg.1
        rw [hg.2.2] at h7
        cases hp : (s.loop i).pc with
        | queued => exact absurd hp h6
        | gone => exact (hI.le i h4).1 hp
        | _ =>
          have := cnt_pos (f := member s (s.loop i).this) h4 (by simp only [member, hp, Pc.live]; try simp)
          rw [h5] at this
          omega

end Verif.TcpMove
