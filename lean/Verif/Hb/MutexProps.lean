import Verif.Hb.MutexModel
import Verif.Mutex.Props
/-!
# C87: what is done under a mutex is visible to the next holder
-/

namespace Verif.Hb
open Machine

theorem proj {o : Orders} {weak : Bool} {s : St} {tr : List Ev} (h : (machine o weak).Reaches s tr) :
    ∃ tr', (Mutex.machine weak).Reaches s.m tr' := by
  refine Reaches.inv (M := machine o weak) (fun s _ => ∃ tr', (Mutex.machine weak).Reaches s.m tr') ⟨[], Reaches.init _⟩ ?_ h
  intro s tr l s' e hI hs
  obtain ⟨tr', hr⟩ := hI
  cases l with
  | mx l =>
    simp only [machine, step] at hs
    split at hs
    · exact absurd hs (by simp)
    · rename_i m' e' hm
      simp only [Option.some.injEq, Prod.mk.injEq] at hs
      obtain ⟨rfl, rfl⟩ := hs
      exact ⟨_, hr.step hm⟩
  | access t =>
    simp only [machine, step] at hs
    split at hs <;> simp only [Option.some.injEq, Prod.mk.injEq, reduceCtorEq] at hs
    obtain ⟨rfl, rfl⟩ := hs
    exact ⟨tr', hr⟩

/-- The view has all accesses made so far. -/
def Full (s : St) (v : View) : Prop := ∀ i, i < s.n → v i = true

structure Inv (s : St) : Prop where
  flag : s.m.flag = false → Full s s.flagV
  owner : ∀ t, (s.m.pc t).owns = true → s.m.pc t ≠ .woken → Full s (s.view t)
  woken : ∀ t, s.m.pc t = .woken → Full s (s.readyV t)

/-- The orders that matter. -/
def Strong (o : Orders) : Prop := o.tasAcq = true ∧ o.clearRel = true ∧ o.giveUpRel = true

set_option maxHeartbeats 4000000 in
theorem inv_step {o : Orders} (ho : Strong o) {weak : Bool} {s s' : St} {l : Lbl} {e : List Ev} {tr : List Mutex.Ev} (hm : Mutex.Inv s.m tr) (h : Inv s)
    (hs : step o weak s l = some (s', e)) : Inv s' ∧ ∀ t i j, .race t i j ∉ e := by
  obtain ⟨a1, a2, a3⟩ := ho
  obtain ⟨flag, owner, woken⟩ := h
  have uniq := hm.uniq
  have flagOf := hm.flagOf
  have ownerOf := hm.ownerOf
  clear hm
  unfold Full at *
  cases l with
  | access t =>
    simp only [step] at hs
    split at hs <;> simp only [Option.some.injEq, Prod.mk.injEq, reduceCtorEq] at hs
    rename_i hp
    obtain ⟨rfl, rfl⟩ := hs
    have hf : Full s (s.view t) := owner t (by simp [hp, Mutex.Pc.owns]) (by simp [hp])
    have hmis : missing (s.view t) s.n = none := by
      simp only [missing, List.find?_eq_none, List.mem_range]
      intro i hi
      simp [hf i hi]
    have hft := flagOf t (by simp [hp, Mutex.Pc.owns])
    refine ⟨?_, by simp [hmis]⟩
    constructor
    · intro hff; simp [hft] at hff
    · intro u hu hn i hi
      simp only at hu hn hi ⊢
      have : u = t := uniq u t hu (by simp [hp, Mutex.Pc.owns])
      subst this
      simp only [upd_same, Bool.or_eq_true, beq_iff_eq]
      by_cases h : i = s.n
      · exact .inr h
      · exact .inl (hf i (by omega))
    · intro u hu
      simp only at hu
      have : u = t := uniq u t (by simp [hu, Mutex.Pc.owns]) (by simp [hp, Mutex.Pc.owns])
      subst this
      simp [hp] at hu
  | mx l =>
    simp only [step] at hs
    split at hs
    · exact absurd hs (by simp)
    rename_i m' e' hmm
    simp only [Option.some.injEq, Prod.mk.injEq] at hs
    obtain ⟨rfl, rfl⟩ := hs
    refine ⟨?_, by simp⟩
    cases l with
    | wake t =>
      simp only [Mutex.step] at hmm
      split at hmm <;> simp only [Option.some.injEq, Prod.mk.injEq, reduceCtorEq] at hmm
      rename_i u hp
      obtain ⟨rfl, -⟩ := hmm
      constructor <;> simp only [mem, hp, Full, upd_apply, ite_apply] <;> grind [Mutex.Pc.owns]
    | _ =>
      simp only [Mutex.step] at hmm
      (repeat' split at hmm) <;>
        simp only [Option.some.injEq, Prod.mk.injEq, reduceCtorEq] at hmm <;> obtain ⟨rfl, -⟩ := hmm <;>
        (constructor <;> simp only [mem, tas, clearF, Full, a1, a2, a3, if_true, upd_apply, ite_apply, View.join] <;> grind [Mutex.Pc.owns])

/-- With test_and_set acquiring and both clears releasing, no accesses under the lock race: for any number of tasks, whatever they do, in any interleaving
and even if the waiting list reports "empty" spuriously. -/
theorem race_free_of_strong {o : Orders} (ho : Strong o) {weak : Bool} {s : St} {tr : List Ev} (h : (machine o weak).Reaches s tr) : RaceFree tr := by
  have : Inv s ∧ ∀ t i j, .race t i j ∉ tr := by
    refine Reaches.inv' (M := machine o weak) (fun s tr => Inv s ∧ ∀ t i j, .race t i j ∉ tr) ?_ ?_ h
    · refine ⟨?_, by simp⟩
      constructor <;> simp [machine, init, Full]
    · intro s tr l s' e hr hI hs
      obtain ⟨tr', hr'⟩ := proj hr
      obtain ⟨h1, h2⟩ := inv_step ho (Mutex.inv_of_reaches hr') hI.1 hs
      refine ⟨h1, fun t i j hm => ?_⟩
      rcases List.mem_append.1 hm with hm | hm
      · exact hI.2 t i j hm
      · exact h2 t i j hm
  exact this.2

/-- The code's memory orders suffice. -/
theorem mutex_race_free {weak : Bool} {s : St} {tr : List Ev} (h : (machine code weak).Reaches s tr) : RaceFree tr :=
  race_free_of_strong ⟨rfl, rfl, rfl⟩ h

/-- A contended run: task 1 has the lock, 2 and 3 wait, 1 hands over to 2, 2 to 3, and task 4 takes the lock that 3 has left; each makes an access. -/
theorem mutex_race_free_nontrivial : ∃ s, (machine code false).Reaches s [.access 1 0, .access 2 1, .access 3 2, .access 4 3, .access 4 4] :=
  ⟨_, [.mx (.acquire 1), .mx (.acquire 2), .mx (.acquire 3), .mx (.suspend 2), .mx (.suspend 3), .access 1, .mx (.unlock 1), .mx (.retake 1),
    .mx (.dequeue 1 2), .mx (.wake 1), .mx (.resume 2), .access 2, .mx (.unlock 2), .mx (.retake 2), .mx (.dequeue 2 3), .mx (.wake 2), .mx (.resume 3),
    .access 3, .mx (.unlock 3), .mx (.retake 3), .mx (.dequeueNone 3), .mx (.clear 3), .mx (.tryAcquire 4), .access 4, .access 4], rfl⟩

/-- Each of the three orders is needed: with any of them relaxed there is a run with a data race.  (That test_and_set releases is not needed:
`race_free_of_strong`.) -/
theorem relaxed_tas_races : ∃ s tr, (machine { code with tasAcq := false } false).Reaches s tr ∧ .race 2 1 0 ∈ tr :=
  ⟨_, [.access 1 0, .race 2 1 0], ⟨[.mx (.acquire 1), .access 1, .mx (.unlock 1), .mx (.acquire 2), .access 2], rfl⟩, by simp⟩

theorem relaxed_clear_races : ∃ s tr, (machine { code with tasRel := false, clearRel := false } false).Reaches s tr ∧ .race 2 1 0 ∈ tr :=
  ⟨_, [.access 1 0, .race 2 1 0], ⟨[.mx (.acquire 1), .access 1, .mx (.unlock 1), .mx (.acquire 2), .access 2], rfl⟩, by simp⟩

theorem relaxed_giveUp_races : ∃ s tr, (machine { code with giveUpRel := false } false).Reaches s tr ∧ .race 2 1 0 ∈ tr :=
  ⟨_, [.access 1 0, .race 2 1 0], ⟨[.mx (.acquire 1), .access 1, .mx (.unlock 1), .mx (.retake 1), .mx (.dequeueNone 1), .mx (.clear 1), .mx (.acquire 2),
    .access 2], rfl⟩, by simp⟩

end Verif.Hb
