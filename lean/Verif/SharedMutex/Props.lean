import Verif.SharedMutex.ProofsCalm
import Mathlib.Tactic.IntervalCases
/-!
# Properties of `koios::shared_mutex` (C05, C06, C07, C59)
-/

namespace Verif.SharedMutex

/-- **C05, refuted (1).**  A reader woken by a releasing writer is not counted: a second
reader joins and leaves, the count drops to zero, and writer 4 is granted the lock while
reader 2 still holds its shared_lock. -/
theorem shared_mutex_exclusion_refuted :
    ∃ s tr, machine.Reaches s tr ∧ HoldsShr 2 tr ∧ HoldsUni 4 tr ∧ ¬ Exclusion tr := by
  refine ⟨_, _, ⟨[.askUni 1, .suspUni 1, .resume 1, .askShr 2, .suspShr 2, .wakeNext 2 0 0,
    .unlock 1 .uni 0 0, .resume 2, .askShr 3, .askUni 4, .suspUni 4, .unlock 3 .shr 0 0,
    .resume 4], rfl⟩, ?_, ?_, ?_⟩
  · exact ⟨[.askedUni 1, .sleptUni 1, .wokenUni 1, .grantedUni 1, .askedShr 2, .sleptShr 2,
      .releasedUni 1, .wokenShr 2], [.askedShr 3, .grantedShr 3, .askedUni 4, .sleptUni 4,
      .releasedShr 3, .wokenUni 4, .grantedUni 4], rfl, by decide⟩
  · exact ⟨[.askedUni 1, .sleptUni 1, .wokenUni 1, .grantedUni 1, .askedShr 2, .sleptShr 2,
      .releasedUni 1, .wokenShr 2, .grantedShr 2, .askedShr 3, .grantedShr 3, .askedUni 4, .sleptUni 4,
      .releasedShr 3, .wokenUni 4], [], rfl, by decide⟩
  · intro h
    refine (h.1 [.askedUni 1, .sleptUni 1, .wokenUni 1, .grantedUni 1, .askedShr 2, .sleptShr 2,
      .releasedUni 1, .wokenShr 2, .grantedShr 2, .askedShr 3, .grantedShr 3, .askedUni 4, .sleptUni 4,
      .releasedShr 3, .wokenUni 4] 4 ⟨[], rfl⟩ 2).2 ?_
    exact ⟨[.askedUni 1, .sleptUni 1, .wokenUni 1, .grantedUni 1, .askedShr 2, .sleptShr 2,
      .releasedUni 1, .wokenShr 2], [.askedShr 3, .grantedShr 3, .askedUni 4, .sleptUni 4,
      .releasedShr 3, .wokenUni 4], rfl, by decide⟩

/-- **C05, refuted (2).**  While a writer holds its own nested shared_lock, any other task is
granted a shared_lock at once. -/
theorem shared_mutex_nested_exclusion_refuted :
    ∃ s tr, machine.Reaches s tr ∧ HoldsUni 1 tr ∧ HoldsShr 2 tr ∧ ¬ Exclusion tr := by
  refine ⟨_, _, ⟨[.askUni 1, .suspUni 1, .resume 1, .askShr 1, .suspShr 1, .wakeNext 1 0 0,
    .resume 1, .askShr 2], rfl⟩, ?_, ?_, ?_⟩
  · exact ⟨[.askedUni 1, .sleptUni 1, .wokenUni 1], [.askedShr 1, .sleptShr 1, .wokenShr 1,
      .grantedShr 1, .askedShr 2, .grantedShr 2], rfl, by decide⟩
  · exact ⟨[.askedUni 1, .sleptUni 1, .wokenUni 1, .grantedUni 1, .askedShr 1, .sleptShr 1, .wokenShr 1,
      .grantedShr 1, .askedShr 2], [], rfl, by decide⟩
  · intro h
    refine h.2 [.askedUni 1, .sleptUni 1, .wokenUni 1, .grantedUni 1, .askedShr 1, .sleptShr 1, .wokenShr 1,
      .grantedShr 1, .askedShr 2] 2 ⟨[], rfl⟩ 1 (by decide) ?_
    exact ⟨[.askedUni 1, .sleptUni 1, .wokenUni 1], [.askedShr 1, .sleptShr 1, .wokenShr 1,
      .grantedShr 1, .askedShr 2], rfl, by decide⟩

/-- **C05, partial.**  Missing for the full property: histories in which a reader asks while
another task has (or is being given) the unique_lock, and histories in which a writer
releases its unique_lock before its own nested shared_lock.  In all other histories writer
exclusion holds, for any number of readers and writers and any interleaving. -/
theorem shared_mutex_exclusion_partial (s : St) (tr : List Ev) (h : machine.Reaches s tr)
    (h1 : ReadersAskUncontended tr) (h2 : NestedReleaseOrder tr) : Exclusion tr :=
  (k_of_reaches h h1 h2).2

/-- Execution in which a reader that had to wait comes and goes, then writer 3 asks. -/
def starving : List Lbl :=
  [.askUni 1, .suspUni 1, .resume 1, .askShr 2, .suspShr 2, .wakeNext 2 0 0,
   .unlock 1 .uni 0 0, .resume 2, .unlock 2 .shr 0 0, .askUni 3, .suspUni 3]

/-- The trace of `starving`. -/
def starvingTrace : List Ev :=
  [.askedUni 1, .sleptUni 1, .wokenUni 1, .grantedUni 1, .askedShr 2, .sleptShr 2, .releasedUni 1,
   .wokenShr 2, .grantedShr 2, .releasedShr 2, .askedUni 3, .sleptUni 3]

theorem starving_state : ∃ s, machine.run starving = some (s, starvingTrace) ∧
    s.pending = [] ∧ s.stale = [] ∧
    ∀ t, s.task t = if t = 3 then { uni := false, shr := false, act := .qUni } else {} := by
  refine ⟨_, rfl, rfl, rfl, ?_⟩
  intro t
  by_cases h1 : t = 1
  · subst h1; rfl
  by_cases h2 : t = 2
  · subst h2; rfl
  by_cases h3 : t = 3
  · subst h3; rfl
  simp [machine, init, upd_apply, h1, h2, h3, tryWakeUpNext, wakeUni, wakeShr, pick, release, dropLock]

/-- **C06, refuted.**  After a reader that had to wait has come and gone, the mutex stays in
the shared state for ever: everything has been released and writer 3 still sleeps; nothing
but a fresh request of another task is enabled. -/
theorem shared_mutex_starvation_refuted :
    ∃ s tr, machine.Reaches s tr ∧ AllReleased tr ∧ WaitsUni 3 tr ∧
      ∀ l s' e, machine.step s l = some (s', e) → ∃ t, t ≠ 3 ∧ (l = .askShr t ∨ l = .askUni t) := by
  obtain ⟨s, hs, hp, hst, ht⟩ := starving_state
  have hg := g_of_reaches ⟨starving, hs⟩
  refine ⟨s, _, ⟨starving, hs⟩, ?_, ?_, ?_⟩
  · intro t
    rw [hg.hs, hg.hu, hg.bw, hg.br, ht t]
    by_cases h3 : t = 3 <;> simp [h3]
  · rw [hg.wu, ht 3]; simp
  · intro l s' e hstep
    simp only [machine, step] at hstep
    split at hstep
    · simp at hstep
    cases l <;> simp only [ht, hp, hst] at hstep <;> grind

/-- **C06, partial.**  Same histories as in `shared_mutex_exclusion_partial`: once everything
is released nobody waits. -/
theorem shared_mutex_no_starvation_partial (s : St) (tr : List Ev) (h : machine.Reaches s tr)
    (h1 : ReadersAskUncontended tr) (h2 : NestedReleaseOrder tr) (hr : AllReleased tr) :
    NobodyWaits tr := by
  have hg := g_of_reaches h
  have hk := (k_of_reaches h h1 h2).1
  have hno := hold_no_of_allReleased hg hk hr
  intro t
  rw [hg.ws, hg.wu, ← hg.qs, ← hg.qu, hk.shrQ, (hk.no hno).2.1]
  simp

/-- A history with readers, a waiting writer, and a writer using its nested shared_lock,
that meets the hypotheses of the partial theorems and ends with everything released. -/
def calm : List Lbl :=
  [.askShr 1, .askShr 2, .askUni 3, .suspUni 3, .unlock 1 .shr 0 0, .unlock 2 .shr 0 0, .resume 3,
   .askShr 3, .suspShr 3, .wakeNext 3 0 0, .resume 3, .unlock 3 .shr 0 0, .unlock 3 .uni 0 0]

/-- The trace of `calm`. -/
def calmTrace : List Ev :=
  [.askedShr 1, .grantedShr 1, .askedShr 2, .grantedShr 2, .askedUni 3, .sleptUni 3,
   .releasedShr 1, .releasedShr 2, .wokenUni 3, .grantedUni 3,
   .askedShr 3, .sleptShr 3, .wokenShr 3, .grantedShr 3, .releasedShr 3, .releasedUni 3]

/-- Prefixes of the form `p ++ [x]` of a list, by position. -/
theorem prefix_pos {α : Type} {p tr : List α} {x : α} (h : p ++ [x] <+: tr) :
    tr[p.length]? = some x ∧ p = tr.take p.length := by
  obtain ⟨q, rfl⟩ := h
  constructor <;> simp

/-- The history meets the hypotheses. -/
theorem calm_meets : (∃ s, machine.Reaches s calmTrace) ∧ ReadersAskUncontended calmTrace ∧
    NestedReleaseOrder calmTrace := by
  refine ⟨⟨_, calm, rfl⟩, ?_, ?_⟩
  · intro p t hp u hu
    obtain ⟨h1, h2⟩ := prefix_pos hp
    have hlen := hp.length_le
    simp [calmTrace] at hlen
    rw [h2]
    have key : ∀ u n, n ≤ 15 → calmTrace[n]? = some (.askedShr t) → u ≠ t →
        Ev.grantedUni u ∉ calmTrace.take n ∧ Ev.wokenUni u ∉ calmTrace.take n := by
      intro u n hn h3 hut
      have : n < 16 := by omega
      interval_cases n <;> simp [calmTrace] at h3 ⊢
      subst h3; exact hut
    obtain ⟨k1, k2⟩ := key u p.length (by omega) h1 hu
    constructor
    · rintro ⟨a, b, hab, _⟩; exact k1 (by rw [hab]; simp)
    · rintro ⟨a, b, hab, _⟩; exact k2 (by rw [hab]; simp)
  · intro p t hp
    obtain ⟨h1, h2⟩ := prefix_pos hp
    have hlen := hp.length_le
    simp [calmTrace] at hlen
    have hn : p.length = 15 ∧ t = 3 := by
      generalize p.length = n at h1 hlen
      have : n < 16 := by omega
      interval_cases n <;> simp [calmTrace] at h1 ⊢
      exact h1.symm
    rw [h2, hn.1, hn.2]
    rintro ⟨a, b, hab, hb⟩
    have e : calmTrace.take 15 = calmTrace.take 14 ++ [Ev.releasedShr 3] := rfl
    have hopen : OpenIn (Ev.grantedShr 3) (Ev.releasedShr 3) (calmTrace.take 14 ++ [Ev.releasedShr 3]) :=
      ⟨a, b, by rw [← e]; exact hab, hb⟩
    rw [openIn_concat] at hopen
    simp at hopen

/-- Without any request for the unique_lock the hypotheses of the calm histories hold. -/
theorem calm_of_no_writer {s : St} {tr : List Ev} (h : machine.Reaches s tr)
    (hw : ∀ t, Ev.askedUni t ∉ tr) : ReadersAskUncontended tr ∧ NestedReleaseOrder tr := by
  have hnone := no_writer_events h hw
  constructor
  · intro p t hp u _
    have hsub : p <+: tr := (List.prefix_append _ _).trans hp
    constructor
    · rintro ⟨a, b, hab, _⟩
      exact (hnone u).1 (hsub.subset (by rw [hab]; simp))
    · rintro ⟨a, b, hab, _⟩
      exact (hnone u).2.1 (hsub.subset (by rw [hab]; simp))
  · intro p t hp
    exact absurd (hp.subset (by simp)) (hnone t).2.2

/-- **C07 (1).**  Readers share: as long as no task has ever asked for the unique_lock, a
reader that asks is granted at once, however many readers already hold the mutex, so all
of them hold simultaneously. -/
theorem shared_mutex_readers_share (s : St) (tr : List Ev) (h : machine.Reaches s tr)
    (hw : ∀ t, Ev.askedUni t ∉ tr) (t : Nat) (s' : St) (e : List Ev)
    (hst : machine.step s (.askShr t) = some (s', e)) :
    e = [.askedShr t, .grantedShr t] := by
  obtain ⟨h1, h2⟩ := calm_of_no_writer h hw
  have hk := (k_of_reaches h h1 h2).1
  have hg := g_of_reaches h
  have hnone := no_writer_events h hw
  have hh : s.hold ≠ .uni := by
    intro hH
    obtain ⟨_, w, _, c⟩ := hk.uni hH
    have hw' := (c w).2.2.2 rfl
    rw [← hg.hu, ← hg.bw] at hw'
    rcases hw' with ⟨a, b, hab, _⟩ | ⟨a, b, hab, _⟩
    · exact (hnone w).1 (by rw [hab]; simp)
    · exact (hnone w).2.1 (by rw [hab]; simp)
  simp only [machine, step, hh, if_false] at hst
  grind

/-- **C07 (2).**  When everything has been released, a writer asking next is handed the lock
at once, without any further action of anybody (its suspension and hand-over are one critical
section). -/
theorem shared_mutex_free_after_last_release (s : St) (tr : List Ev) (h : machine.Reaches s tr)
    (h1 : ReadersAskUncontended tr) (h2 : NestedReleaseOrder tr) (hr : AllReleased tr)
    (w : Nat) (s1 : St) (e1 : List Ev) (hst : machine.step s (.askUni w) = some (s1, e1)) :
    ∃ s2, machine.runFrom s [.askUni w, .suspUni w, .resume w] =
      some (s2, [.askedUni w, .sleptUni w, .wokenUni w, .grantedUni w]) := by
  have hno := hold_no_of_allReleased (g_of_reaches h) (k_of_reaches h h1 h2).1 hr
  simp only [machine, step] at hst
  split at hst
  · simp at hst
  rename_i hd
  split at hst
  · rename_i hc
    simp [Machine.runFrom, machine, step, hd, hc, hno]
  · simp at hst

/-- **C07 (2'), for readers only:** after the last reader has left, the mutex is free. -/
theorem shared_mutex_free_after_last_reader (s : St) (tr : List Ev) (h : machine.Reaches s tr)
    (hw : ∀ t, Ev.askedUni t ∉ tr) (hr : AllReleased tr)
    (w : Nat) (s1 : St) (e1 : List Ev) (hst : machine.step s (.askUni w) = some (s1, e1)) :
    ∃ s2, machine.runFrom s [.askUni w, .suspUni w, .resume w] =
      some (s2, [.askedUni w, .sleptUni w, .wokenUni w, .grantedUni w]) :=
  shared_mutex_free_after_last_release s tr h (calm_of_no_writer h hw).1 (calm_of_no_writer h hw).2 hr
    w s1 e1 hst

/-- Three readers hold at once, none has asked for the unique_lock. -/
example : ∃ s tr, machine.Reaches s tr ∧ (∀ t, Ev.askedUni t ∉ tr) ∧
    HoldsShr 1 tr ∧ HoldsShr 2 tr ∧ HoldsShr 3 tr := by
  refine ⟨_, [.askedShr 1, .grantedShr 1, .askedShr 2, .grantedShr 2, .askedShr 3, .grantedShr 3],
    ⟨[.askShr 1, .askShr 2, .askShr 3], rfl⟩, by simp, ?_, ?_, ?_⟩
  · exact ⟨[.askedShr 1], _, rfl, by decide⟩
  · exact ⟨[.askedShr 1, .grantedShr 1, .askedShr 2], _, rfl, by decide⟩
  · exact ⟨[.askedShr 1, .grantedShr 1, .askedShr 2, .grantedShr 2, .askedShr 3], _, rfl, by decide⟩

/-- **C59, refuted.**  `acquire_shared` may use its awaiter after the awaiting coroutine has
been resumed (and the awaiter destroyed) by another thread: undefined behaviour is
reachable with one writer and one reader. -/
theorem shared_mutex_awaiter_lifetime_refuted :
    ∃ s tr, machine.Reaches s tr ∧ Ev.ub 2 ∈ tr :=
  ⟨_, _, ⟨[.askUni 1, .suspUni 1, .resume 1, .askShr 2, .suspShr 2, .unlock 1 .uni 0 0, .resume 2,
    .wakeStale 2], rfl⟩, by decide⟩

/-- **C59, partial.**  Missing: executions in which a task is resumed as a reader after it
suspended.  If every shared_lock is granted without suspension (no `sleptShr`), no such use
happens. -/
theorem shared_mutex_awaiter_lifetime_partial (s : St) (tr : List Ev) (h : machine.Reaches s tr)
    (hn : ∀ t, Ev.sleptShr t ∉ tr) : ∀ t, Ev.ub t ∉ tr := by
  have := no_ub_of_no_sleep h hn
  exact this.2.2

/-- Satisfiable: the readers-only run above. -/
example : ∃ s tr, machine.Reaches s tr ∧ (∀ t, Ev.sleptShr t ∉ tr) ∧ Ev.grantedShr 2 ∈ tr :=
  ⟨_, _, ⟨[.askShr 1, .askShr 2, .unlock 1 .shr 0 0], rfl⟩, by simp [machine, relEv, release, dropLock, init, upd], by decide⟩

end Verif.SharedMutex
