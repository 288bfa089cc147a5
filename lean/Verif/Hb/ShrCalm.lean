import Verif.Hb.ShrProps
/-!
# C90: accesses under a shared_mutex do not race in calm executions, and do in others
-/

namespace Verif.Hb.Shr
open Machine

theorem locks_append (a b : List Ev) : locks (a ++ b) = locks a ++ locks b := by simp [locks]

theorem locks_map (e : List SharedMutex.Ev) : locks (e.map .lk) = e := by
  induction e with
  | nil => rfl
  | cons x e ih => simpa [locks] using ih

theorem locks_missing (s : St) (t i : Nat) (w w' : Bool) : locks (.access t i w' :: missing s t w) = [] := by
  simp only [locks, List.filterMap_eq_nil_iff, List.mem_cons]
  rintro x (rfl | hx)
  · rfl
  · obtain ⟨j, rfl, -⟩ := missing_race hx
    rfl

theorem proj {s : St} {tr : List Ev} (h : machine.Reaches s tr) : SharedMutex.machine.Reaches s.m (locks tr) := by
  refine Reaches.inv (M := machine) (fun s tr => SharedMutex.machine.Reaches s.m (locks tr)) (Reaches.init _) ?_ h
  intro s tr l s' e hI hs
  cases l with
  | sm l =>
    simp only [machine, step] at hs
    split at hs
    · simp at hs
    rename_i m' e' hm
    simp only [Option.some.injEq, Prod.mk.injEq] at hs
    obtain ⟨rfl, rfl⟩ := hs
    rw [locks_append, locks_map]
    exact hI.step hm
  | access t w =>
    simp only [machine, step] at hs
    split at hs <;> simp only [Option.some.injEq, Prod.mk.injEq, reduceCtorEq] at hs
    obtain ⟨rfl, rfl⟩ := hs
    rw [locks_append, locks_missing, List.append_nil]
    exact hI

/-- `owner j` made access j. -/
structure Calm (s : St) (owner : Nat → Nat) : Prop where
  no : s.m.hold = .no → ∀ j, j < s.n → s.lockV j = true
  wr : s.m.hold = .shr → ∀ j, j < s.n → s.wr j = true → s.lockV j = true
  rd : s.m.hold = .shr → ∀ j, j < s.n → s.lockV j = false → (s.m.task (owner j)).shr = true ∧ s.view (owner j) j = true
  shr : s.m.hold = .shr → ∀ t, (s.m.task t).shr = true → ∀ j, j < s.n → s.wr j = true → s.view t j = true
  uni : ∀ t, (s.m.task t).uni = true → ∀ j, j < s.n → s.view t j = true
  woke : ∀ t, (s.m.task t).act = .wokeUni → ∀ j, j < s.n → s.readyV t j = true

theorem calm_init (owner : Nat → Nat) : Calm init owner := by
  constructor <;> simp [init, SharedMutex.init]

theorem calm_access {s : St} {owner : Nat → Nat} {t : Nat} {w : Bool} (h : Calm s owner) (hk : SharedMutex.K s.m) (ha : mayAccess s.m t w = true) :
    Calm { s with
        n := s.n + 1
        wr := upd s.wr s.n w
        view := upd s.view t (fun i => s.view t i || i == s.n) } (upd owner s.n t) ∧ missing s t w = [] := by
  obtain ⟨no, wr, rd, shr, uni, woke⟩ := h
  obtain ⟨k1, k2, k3, k4, k5, k6⟩ := hk
  simp only [mayAccess, Bool.and_eq_true, decide_eq_true_eq, Bool.or_eq_true, Bool.not_eq_true'] at ha
  have hsee : ∀ j, j < s.n → (w = true ∨ s.wr j = true) → s.view t j = true := by
    intro j hj hc
    rcases ha.2 with hu | ⟨hs, hw⟩
    · exact uni t hu j hj
    · cases hh : s.m.hold with
      | no => have := (k3 hh).2.2 t; simp [hs] at this
      | shr => exact shr hh t hs j hj (by simpa [hw] using hc)
      | uni => obtain ⟨-, x, -, hx⟩ := k5 hh; have := hx t; simp [hs] at this
      | shrDuringUni =>
        obtain ⟨-, x, -, hx⟩ := k6 hh
        have := hx t
        exact uni t (this.2.1.2 (this.1.1 (.inl hs))) j hj
  refine ⟨?_, ?_⟩
  · constructor
    · intro hh
      have := (k3 hh).2.2 t
      grind
    · intro hh j hj
      have hn := (k4 hh).2 t
      have hj' : j < s.n + 1 := hj
      clear hj k2 k3 k4 k5 k6
      simp only [upd_apply, ite_apply]
      grind
    · intro hh j hj
      have hn := (k4 hh).2 t
      have hj' : j < s.n + 1 := hj
      clear hj k2 k3 k4 k5 k6
      simp only [upd_apply, ite_apply]
      grind
    · intro hh u hu j hj
      have hn := (k4 hh).2 t
      have hj' : j < s.n + 1 := hj
      clear hj k2 k3 k4 k5 k6
      simp only [upd_apply, ite_apply]
      grind
    · intro u hu j hj
      have : u = t := by
        cases hh : s.m.hold with
        | no => have := (k3 hh).2.2 u; grind
        | shr => have := (k4 hh).2 u; grind
        | uni => obtain ⟨-, x, -, hx⟩ := k5 hh; have h1 := hx t; have h2 := hx u; grind
        | shrDuringUni => obtain ⟨-, x, -, hx⟩ := k6 hh; have h1 := hx t; have h2 := hx u; grind
      subst this
      simp only [upd_same, Bool.or_eq_true, beq_iff_eq]
      by_cases hjn : j = s.n
      · exact .inr hjn
      · exact .inl (uni u hu j (by simp only at hj; omega))
    · intro u hu
      exfalso
      simp only at hu
      cases hh : s.m.hold with
      | no => have := (k3 hh).2.2 u; grind
      | shr => have := (k4 hh).2 u; grind
      | uni => obtain ⟨-, x, -, hx⟩ := k5 hh; have h1 := hx t; have h2 := hx u; grind
      | shrDuringUni => obtain ⟨-, x, -, hx⟩ := k6 hh; have h1 := hx t; have h2 := hx u; grind
  · simp only [missing, List.filterMap_eq_nil_iff, List.mem_range]
    intro j hj
    split
    · rename_i hc
      simp only [Bool.and_eq_true, Bool.or_eq_true, Bool.not_eq_true'] at hc
      simp [hsee j hj hc.1] at hc
    · rfl


theorem pick_spec (q : List Nat) (x : Nat) : (SharedMutex.pick q x = none ∧ q = []) ∨ ∃ u, SharedMutex.pick q x = some u ∧ u ∈ q := by
  cases h : SharedMutex.pick q x with
  | none => exact .inl ⟨rfl, SharedMutex.pick_none h⟩
  | some u => exact .inr ⟨u, rfl, SharedMutex.pick_mem h⟩

set_option maxHeartbeats 4000000 in
theorem calm_unlock {s : St} {owner : Nat → Nat} {t ps pu : Nat} {k : SharedMutex.Kind} {m' : SharedMutex.St} {e : List SharedMutex.Ev} (h : Calm s owner)
    (hk : SharedMutex.K s.m) (hk' : SharedMutex.K m') (hs : SharedMutex.step s.m (.unlock t k ps pu) = some (m', e)) :
    Calm { mem s e (.unlock t k ps pu) with m := m' } owner := by
  obtain ⟨no, wr, rd, shr, uni, wokeI⟩ := h
  unfold SharedMutex.step at hs
  split at hs
  · simp at hs
  simp only at hs
  split at hs <;> simp only [Option.some.injEq, Prod.mk.injEq, reduceCtorEq] at hs
  rename_i hok
  obtain ⟨hact, hok⟩ := hok
  obtain ⟨rfl, rfl⟩ := hs
  have hmem : ∀ e, mem s e (.unlock t k ps pu) = critT s t e := fun _ => rfl
  rw [hmem]
  cases hh : s.m.hold with
  | no => have := (hk.no hh).2.2 t; grind
  | shrDuringUni =>
    obtain ⟨-, x, hx1, hx2⟩ := hk.sdu hh
    have hr : SharedMutex.release (SharedMutex.dropLock s.m t k) ps pu = ({ SharedMutex.dropLock s.m t k with hold := .uni }, []) := by
      cases k <;> simp [SharedMutex.release, SharedMutex.dropLock, hh]
    rw [hr] at hk' ⊢
    cases k with
    | uni =>
      exfalso
      obtain ⟨-, y, hy1, hy2⟩ := hk'.uni rfl
      have h1 := hx2 t
      have h2 := hy2 y
      simp only [SharedMutex.dropLock, upd_apply] at hy1 h2
      have : y = t := by grind
      subst this
      grind
    | shr =>
      have h1 := hx2 t
      constructor <;> simp only [SharedMutex.dropLock, critT, crit, upd_apply, ite_apply, join_apply] <;> grind [join_apply]
  | shr =>
    obtain ⟨⟨L, hL1, hL2, hL3, hL4⟩, hall⟩ := hk.shr hh
    cases k with
    | uni => have := hall t; grind
    | shr =>
      have hts : (s.m.task t).shr = true := by grind
      by_cases hc : s.m.cnt = 1
      · have hL : L = [t] := by
          have : L.length = 1 := by omega
          obtain ⟨a, rfl⟩ := List.length_eq_one_iff.1 this
          have := (hL2 t).2 hts
          simp at this
          rw [this]
        have hfull : ∀ j, j < s.n → s.view t j = true ∨ s.lockV j = true := by
          intro j hj
          cases hl : s.lockV j with
          | true => exact .inr rfl
          | false =>
            obtain ⟨a, b⟩ := rd hh j hj hl
            have := (hL2 (owner j)).2 a
            rw [hL] at this
            simp only [List.mem_singleton] at this
            rw [this] at b
            exact .inl b
        have hr : SharedMutex.release (SharedMutex.dropLock s.m t .shr) ps pu =
            SharedMutex.wakeUni { SharedMutex.dropLock s.m t .shr with cnt := s.m.cnt - 1, hold := .no } pu := by
          simp [SharedMutex.release, SharedMutex.dropLock, hh, hc]
        rw [hr] at hk' ⊢
        rcases pick_spec s.m.uniQ pu with ⟨hp, hq⟩ | ⟨u, hp, hq⟩
        · simp only [SharedMutex.wakeUni, SharedMutex.dropLock, hp, if_true] at hk' ⊢
          constructor <;> simp only [critT, crit, upd_apply, ite_apply, join_apply] <;> grind [join_apply]
        · simp only [SharedMutex.wakeUni, SharedMutex.dropLock, hp, if_true] at hk' ⊢
          have hw : woke (SharedMutex.relEv t .shr :: [.wokenUni u]) u = true := by simp [woke, SharedMutex.relEv]
          have hall' := fun x => hall x
          constructor <;> simp only [critT, crit, upd_apply, ite_apply, join_apply] <;> grind [join_apply]
      · have hr : SharedMutex.release (SharedMutex.dropLock s.m t .shr) ps pu = ({ SharedMutex.dropLock s.m t .shr with cnt := s.m.cnt - 1 }, []) := by
          simp [SharedMutex.release, SharedMutex.dropLock, hh, hc]
        rw [hr] at hk' ⊢
        constructor <;> simp only [SharedMutex.dropLock, critT, crit, upd_apply, ite_apply, join_apply] <;> grind [join_apply]
  | uni =>
    obtain ⟨-, x, hx1, hx2⟩ := hk.uni hh
    cases k with
    | shr => have := hx2 t; grind
    | uni =>
      have htu : (s.m.task t).uni = true := by grind
      have hfull := uni t htu
      have hr : SharedMutex.release (SharedMutex.dropLock s.m t .uni) ps pu =
          SharedMutex.wakeUni { SharedMutex.dropLock s.m t .uni with hold := .no, writer := none } pu := by
        simp [SharedMutex.release, SharedMutex.dropLock, hh, SharedMutex.wakeShr_nil, hk.shrQ]
      rw [hr] at hk' ⊢
      have ht := hx2 t
      rcases pick_spec s.m.uniQ pu with ⟨hp, hq⟩ | ⟨u, hp, hq⟩
      · simp only [SharedMutex.wakeUni, SharedMutex.dropLock, hp, if_true] at hk' ⊢
        constructor <;> simp only [critT, crit, upd_apply, ite_apply, join_apply] <;> grind [join_apply]
      · simp only [SharedMutex.wakeUni, SharedMutex.dropLock, hp, if_true] at hk' ⊢
        have hw : woke (SharedMutex.relEv t .uni :: [.wokenUni u]) u = true := by simp [woke, SharedMutex.relEv]
        constructor <;> simp only [critT, crit, upd_apply, ite_apply, join_apply] <;> grind [join_apply]

set_option maxHeartbeats 4000000 in
theorem calm_sm {s : St} {owner : Nat → Nat} {l : SharedMutex.Lbl} {m' : SharedMutex.St} {e : List SharedMutex.Ev} (h : Calm s owner)
    (hk : SharedMutex.K s.m) (hk' : SharedMutex.K m') (hs : SharedMutex.step s.m l = some (m', e)) : Calm { mem s e l with m := m' } owner := by
  cases l with
  | unlock t k ps pu => exact calm_unlock h hk hk' hs
  | wakeNext t ps pu =>
    unfold SharedMutex.step at hs
    split at hs
    · simp at hs
    simp only at hs
    split at hs <;> simp only [Option.some.injEq, reduceCtorEq] at hs
    have hkp : SharedMutex.K { s.m with pending := s.m.pending.erase t } := by
      obtain ⟨k1, k2, k3, k4, k5, k6⟩ := hk
      exact ⟨k1, k2, k3, k4, k5, k6⟩
    rw [SharedMutex.tryWakeUpNext_k hkp] at hs
    simp only [Prod.mk.injEq] at hs
    obtain ⟨rfl, rfl⟩ := hs
    obtain ⟨no, wr, rd, shr, uni, wokeI⟩ := h
    have hw : ∀ u, woke [] u = false := fun u => by simp [woke]
    constructor <;> simp only [mem, crit, join_apply, hw] <;> grind
  | suspShr t =>
    obtain ⟨no, wr, rd, shr, uni, wokeI⟩ := h
    unfold SharedMutex.step at hs
    split at hs
    · simp at hs
    simp only at hs
    split at hs
    · rename_i hm
      obtain ⟨h1, h2, h3⟩ := hk.miss t hm
      obtain ⟨-, x, hx1, hx2⟩ := hk.uni h1
      have hx := hx2 t
      simp only [h2, if_true, Option.some.injEq, Prod.mk.injEq] at hs
      obtain ⟨rfl, rfl⟩ := hs
      have hw : ∀ u, woke [.sleptShr t, .wokenShr t] u = decide (u = t) := fun u => by
        by_cases h : u = t
        · subst h; simp [woke]
        · simp [woke, h]
      constructor <;> simp only [mem, critT, crit, upd_apply, ite_apply, join_apply, hw] <;> grind [join_apply]
    · simp at hs
  | wakeStale t =>
    obtain ⟨no, wr, rd, shr, uni, wokeI⟩ := h
    unfold SharedMutex.step at hs
    split at hs
    · simp at hs
    simp only at hs
    split at hs <;> simp only [Option.some.injEq, Prod.mk.injEq, reduceCtorEq] at hs
    obtain ⟨rfl, rfl⟩ := hs
    exact ⟨no, wr, rd, shr, uni, wokeI⟩
  | askUni t =>
    obtain ⟨no, wr, rd, shr, uni, wokeI⟩ := h
    unfold SharedMutex.step at hs
    split at hs
    · simp at hs
    simp only at hs
    split at hs <;> simp only [Option.some.injEq, Prod.mk.injEq, reduceCtorEq] at hs
    obtain ⟨rfl, rfl⟩ := hs
    constructor <;> simp only [mem, upd_apply] <;> grind
  | askShr t =>
    obtain ⟨no, wr, rd, shr, uni, wokeI⟩ := h
    unfold SharedMutex.step at hs
    split at hs
    · simp at hs
    simp only at hs
    (repeat' split at hs) <;> simp only [Option.some.injEq, Prod.mk.injEq, reduceCtorEq] at hs <;> obtain ⟨rfl, rfl⟩ := hs
    · rename_i hh
      have hw : ∀ u, woke [.askedShr t] u = false := fun u => by simp [woke]
      constructor <;> simp only [mem, critT, crit, upd_apply, ite_apply, join_apply, hw] <;> grind [join_apply]
    · rename_i hh
      have hw : ∀ u, woke [.askedShr t, .grantedShr t] u = false := fun u => by simp [woke]
      have hns : s.m.hold ≠ .shrDuringUni := by
        intro hc
        obtain ⟨-, x, -, hx⟩ := hk.sdu hc
        have h1 := hx x
        have h2 := (hk'.shr rfl).2 x
        simp only [upd_apply] at h2
        grind
      have hcase : s.m.hold = .no ∨ s.m.hold = .shr := by
        cases hc : s.m.hold <;> simp_all
      have hall := fun hc => (hk.no hc).2.2
      constructor <;> simp only [mem, critT, crit, upd_apply, ite_apply, join_apply, hw] <;> grind [join_apply]
  | suspUni t =>
    obtain ⟨no, wr, rd, shr, uni, wokeI⟩ := h
    unfold SharedMutex.step at hs
    split at hs
    · simp at hs
    simp only at hs
    (repeat' split at hs) <;> simp only [Option.some.injEq, Prod.mk.injEq, reduceCtorEq] at hs <;> obtain ⟨rfl, rfl⟩ := hs
    · rename_i hh
      have hall := (hk.no hh).2.2
      have hw : ∀ u, woke [.sleptUni t, .wokenUni t] u = decide (u = t) := fun u => by
        by_cases h : u = t
        · subst h; simp [woke]
        · simp [woke, h]
      constructor <;> simp only [mem, critT, crit, upd_apply, ite_apply, join_apply, hw] <;> grind [join_apply]
    · have hw : ∀ u, woke [.sleptUni t] u = false := fun u => by simp [woke]
      constructor <;> simp only [mem, critT, crit, upd_apply, ite_apply, join_apply, hw] <;> grind [join_apply]
  | resume t =>
    obtain ⟨no, wr, rd, shr, uni, wokeI⟩ := h
    unfold SharedMutex.step at hs
    split at hs
    · simp at hs
    simp only at hs
    (repeat' split at hs) <;> simp only [Option.some.injEq, Prod.mk.injEq, reduceCtorEq] at hs <;> obtain ⟨rfl, rfl⟩ := hs
    · rename_i hact
      have hns : s.m.hold ≠ .shr := by
        intro hc
        have := (hk.shr hc).2 t
        grind
      constructor <;> simp only [mem, upd_apply, ite_apply, join_apply] <;> grind [join_apply]
    · constructor <;> simp only [mem, upd_apply, ite_apply, join_apply] <;> grind [join_apply]

/-- **C90, partial.**  Missing: executions in which a reader asks while another task has, or is being given, the unique_lock, or in which a writer releases its
unique_lock before its own nested shared_lock (C05).  In all other executions no accesses under the lock race, for any number of readers and writers. -/
theorem shared_mutex_race_free_partial {s : St} {tr : List Ev} (h : machine.Reaches s tr) (h1 : SharedMutex.ReadersAskUncontended (locks tr))
    (h2 : SharedMutex.NestedReleaseOrder (locks tr)) : RaceFree tr := by
  have : SharedMutex.ReadersAskUncontended (locks tr) → SharedMutex.NestedReleaseOrder (locks tr) → (∃ owner, Calm s owner) ∧ RaceFree tr := by
    refine Reaches.inv' (M := machine) (fun s tr => SharedMutex.ReadersAskUncontended (locks tr) → SharedMutex.NestedReleaseOrder (locks tr) →
      (∃ owner, Calm s owner) ∧ RaceFree tr) ?_ ?_ h
    · intro _ _; exact ⟨⟨fun _ => 0, calm_init _⟩, by simp [RaceFree]⟩
    · intro s tr l s' e hr ih hs h1 h2
      have hr' : machine.Reaches s' (tr ++ e) := hr.step hs
      have hk' := (SharedMutex.k_of_reaches (proj hr') h1 h2).1
      rw [locks_append] at h1 h2
      have h1' := SharedMutex.rau_mono h1
      have h2' := SharedMutex.nro_mono h2
      have hk := (SharedMutex.k_of_reaches (proj hr) h1' h2').1
      obtain ⟨⟨owner, hc⟩, hf⟩ := ih h1' h2'
      cases l with
      | sm l =>
        simp only [machine, step] at hs
        split at hs
        · simp at hs
        rename_i m' e' hm
        simp only [Option.some.injEq, Prod.mk.injEq] at hs
        obtain ⟨rfl, rfl⟩ := hs
        refine ⟨⟨owner, calm_sm hc hk hk' hm⟩, ?_⟩
        intro t i j hx
        simp only [List.mem_append, List.mem_map, reduceCtorEq, and_false, exists_false, or_false] at hx
        exact hf t i j hx
      | access t w =>
        simp only [machine, step] at hs
        split at hs <;> simp only [Option.some.injEq, Prod.mk.injEq, reduceCtorEq] at hs
        rename_i hok
        obtain ⟨rfl, rfl⟩ := hs
        obtain ⟨c1, c2⟩ := calm_access hc hk hok.2
        refine ⟨⟨_, c1⟩, ?_⟩
        intro u i j hx
        rw [c2] at hx
        simp only [List.mem_append, List.mem_singleton, reduceCtorEq, or_false] at hx
        exact hf u i j hx
  exact (this h1 h2).2

/-- Two readers, then a writer that had to wait for both of them and uses a nested shared_lock. -/
def calmRun : List Lbl :=
  [.sm (.askShr 1), .sm (.askShr 2), .access 1 false, .access 2 false, .sm (.askUni 3), .sm (.suspUni 3), .sm (.unlock 1 .shr 0 0), .sm (.unlock 2 .shr 0 0),
   .sm (.resume 3), .access 3 true, .sm (.askShr 3), .sm (.suspShr 3), .sm (.wakeNext 3 0 0), .sm (.resume 3), .access 3 true, .sm (.unlock 3 .shr 0 0),
   .access 3 false, .sm (.unlock 3 .uni 0 0)]

def calmRunTrace : List Ev :=
  [.lk (.askedShr 1), .lk (.grantedShr 1), .lk (.askedShr 2), .lk (.grantedShr 2), .access 1 0 false, .access 2 1 false, .lk (.askedUni 3), .lk (.sleptUni 3),
   .lk (.releasedShr 1), .lk (.releasedShr 2), .lk (.wokenUni 3), .lk (.grantedUni 3), .access 3 2 true, .lk (.askedShr 3), .lk (.sleptShr 3), .lk (.wokenShr 3),
   .lk (.grantedShr 3), .access 3 3 true, .lk (.releasedShr 3), .access 3 4 false, .lk (.releasedUni 3)]

/-- It meets the hypotheses, and has writes after other tasks' reads. -/
theorem shared_mutex_race_free_nontrivial : (∃ s, machine.Reaches s calmRunTrace) ∧
    SharedMutex.ReadersAskUncontended (locks calmRunTrace) ∧ SharedMutex.NestedReleaseOrder (locks calmRunTrace) :=
  ⟨⟨_, calmRun, rfl⟩, SharedMutex.calm_meets.2⟩

/-- **C90, refuted.**  Reader 2 waits for writer 1, is woken but not counted (C05); reader 3 comes and goes, writer 4 gets the lock, writes and releases it before reader 2
is resumed.  Reader 2's `co_await acquire_shared()` returns after writer 4 has released, nobody else ever holds the lock at the same time, and yet reader 2's
access races with writer 4's. -/
theorem shared_mutex_race_refuted : ∃ s a b c, machine.Reaches s (a ++ [.lk (.releasedUni 4)] ++ b ++ [.lk (.grantedShr 2)] ++ c) ∧
    .access 4 0 true ∈ a ∧ .race 2 1 0 ∈ c :=
  ⟨_, [.lk (.askedUni 1), .lk (.sleptUni 1), .lk (.wokenUni 1), .lk (.grantedUni 1), .lk (.askedShr 2), .lk (.sleptShr 2), .lk (.releasedUni 1), .lk (.wokenShr 2),
      .lk (.askedShr 3), .lk (.grantedShr 3), .lk (.releasedShr 3), .lk (.askedUni 4), .lk (.sleptUni 4), .lk (.wokenUni 4), .lk (.grantedUni 4), .access 4 0 true],
    [], [.access 2 1 false, .race 2 1 0],
    ⟨[.sm (.askUni 1), .sm (.suspUni 1), .sm (.resume 1), .sm (.askShr 2), .sm (.suspShr 2), .sm (.wakeNext 2 0 0), .sm (.unlock 1 .uni 0 0),
      .sm (.askShr 3), .sm (.unlock 3 .shr 0 0), .sm (.askUni 4), .sm (.suspUni 4), .sm (.resume 4), .access 4 true, .sm (.unlock 4 .uni 0 0), .sm (.resume 2),
      .access 2 false], rfl⟩, by simp, by simp⟩

end Verif.Hb.Shr
