import Verif.SharedMutex.Proofs
/-!
# Helper lemmas: executions of `shared_mutex` in which readers ask uncontended
-/

namespace Verif.SharedMutex

/-- The state invariant of calm executions. -/
structure K (s : St) : Prop where
  shrQ : s.shrQ = []
  miss : ∀ t, (s.task t).act = .missShr → s.hold = .uni ∧ s.writer = some t ∧ (s.task t).uni = true
  no : s.hold = .no → s.cnt = 0 ∧ s.uniQ = [] ∧ ∀ t, (s.task t).uni = false ∧ (s.task t).shr = false ∧
    (s.task t).act ≠ .wokeUni ∧ (s.task t).act ≠ .wokeShr
  shr : s.hold = .shr → (∃ L : List Nat, L.Nodup ∧ (∀ t, t ∈ L ↔ (s.task t).shr = true) ∧
    s.cnt = L.length ∧ L ≠ []) ∧
    ∀ t, (s.task t).uni = false ∧ (s.task t).act ≠ .wokeUni ∧ (s.task t).act ≠ .wokeShr
  uni : s.hold = .uni → s.cnt = 0 ∧ ∃ w, s.writer = some w ∧
    ∀ t, (s.task t).shr = false ∧ (s.task t).act ≠ .wokeShr ∧
      (((s.task t).uni = true ∨ (s.task t).act = .wokeUni) ↔ t = w)
  sdu : s.hold = .shrDuringUni → s.cnt = 0 ∧ ∃ w, s.writer = some w ∧
    ∀ t, (((s.task t).shr = true ∨ (s.task t).act = .wokeShr) ↔ t = w) ∧
      ((s.task t).uni = true ↔ t = w) ∧ (s.task t).act ≠ .wokeUni

theorem k_init : K init := by
  constructor <;> simp [init]

theorem wakeShr_nil {s : St} (h : s.shrQ = []) (ps : Nat) : wakeShr s ps = (s, []) := by
  unfold wakeShr
  split
  · rfl
  · simp [pick, h]

theorem wakeUni_held {s : St} (h : s.hold ≠ .no) (pu : Nat) : wakeUni s pu = (s, []) := by
  unfold wakeUni; simp [h]

theorem wakeUni_nil {s : St} (h : s.uniQ = []) (pu : Nat) : wakeUni s pu = (s, []) := by
  unfold wakeUni; simp [pick, h]

/-- In a calm state the deferred `try_wake_up_next` does nothing. -/
theorem tryWakeUpNext_k {s : St} (h : K s) (ps pu : Nat) : tryWakeUpNext s ps pu = (s, []) := by
  have h1 : wakeUni s pu = (s, []) := by
    by_cases hh : s.hold = .no
    · exact wakeUni_nil (h.no hh).2.1 pu
    · exact wakeUni_held hh pu
  unfold tryWakeUpNext
  simp [h1, wakeShr_nil h.shrQ]

theorem rau_concat (tr : List Ev) (x : Ev) :
    ReadersAskUncontended (tr ++ [x]) ↔ ReadersAskUncontended tr ∧
      ∀ t, x = .askedShr t → ∀ u, u ≠ t → ¬ HoldsUni u tr ∧ ¬ BecomingWriter u tr := by
  unfold ReadersAskUncontended
  constructor
  · intro h
    refine ⟨fun p u hp => h p u (hp.trans (List.prefix_append _ _)), ?_⟩
    rintro u rfl
    exact h tr u (List.prefix_refl _)
  · rintro ⟨h1, h2⟩ p u hp
    rw [concat_prefix_concat_iff] at hp
    rcases hp with hp | ⟨rfl, hx⟩
    · exact h1 p u hp
    · exact h2 u hx.symm

theorem rau_mono {tr e : List Ev} (h : ReadersAskUncontended (tr ++ e)) : ReadersAskUncontended tr :=
  fun p t hp => h p t (hp.trans (List.prefix_append _ _))

theorem nro_mono {tr e : List Ev} (h : NestedReleaseOrder (tr ++ e)) : NestedReleaseOrder tr :=
  fun p t hp => h p t (hp.trans (List.prefix_append _ _))

theorem excl_concat (tr : List Ev) (x : Ev) (h : Exclusion tr)
    (h1 : ∀ u, x = .grantedUni u → ∀ t, ¬ HoldsUni t tr ∧ ¬ HoldsShr t tr)
    (h2 : ∀ u, x = .grantedShr u → ∀ t, t ≠ u → ¬ HoldsUni t tr) : Exclusion (tr ++ [x]) := by
  constructor
  · intro p u hp
    rw [concat_prefix_concat_iff] at hp
    rcases hp with hp | ⟨rfl, hx⟩
    · exact h.1 p u hp
    · exact h1 u hx.symm
  · intro p u hp
    rw [concat_prefix_concat_iff] at hp
    rcases hp with hp | ⟨rfl, hx⟩
    · exact h.2 p u hp
    · exact h2 u hx.symm

/-- Appending events that are no grants keeps exclusion. -/
theorem excl_append_quiet (e : List Ev) : ∀ (tr : List Ev), Exclusion tr →
    (∀ u, Ev.grantedUni u ∉ e ∧ Ev.grantedShr u ∉ e) → Exclusion (tr ++ e) := by
  induction e with
  | nil => intro tr h _; simpa using h
  | cons x e ih =>
    intro tr h hq
    have h1 : Exclusion (tr ++ [x]) := by
      apply excl_concat tr x h
      · rintro u rfl; exact absurd (List.mem_cons_self) (hq u).1
      · rintro u rfl; exact absurd (List.mem_cons_self) (hq u).2
    have := ih (tr ++ [x]) h1 (fun u => ⟨fun hm => (hq u).1 (List.mem_cons_of_mem _ hm),
      fun hm => (hq u).2 (List.mem_cons_of_mem _ hm)⟩)
    simpa using this

theorem wakeUni_events (s : St) (pu u : Nat) :
    Ev.grantedUni u ∉ (wakeUni s pu).2 ∧ Ev.grantedShr u ∉ (wakeUni s pu).2 := by
  unfold wakeUni; split
  · split <;> simp
  · simp

theorem wakeShr_events (s : St) (pu u : Nat) :
    Ev.grantedUni u ∉ (wakeShr s pu).2 ∧ Ev.grantedShr u ∉ (wakeShr s pu).2 := by
  unfold wakeShr; split
  · simp
  · split <;> simp

theorem release_events (s : St) (ps pu u : Nat) :
    Ev.grantedUni u ∉ (release s ps pu).2 ∧ Ev.grantedShr u ∉ (release s ps pu).2 := by
  unfold release
  split
  · dsimp only; split
    · exact wakeUni_events _ _ _
    · simp
  · dsimp only; split
    · exact wakeShr_events _ _ _
    · have h1 := wakeShr_events { s with hold := .no, writer := none } ps u
      have h2 := wakeUni_events (wakeShr { s with hold := .no, writer := none } ps).1 pu u
      simp [h1, h2]
  · simp
  · simp

/-- Handing the free mutex to a waiting writer keeps the invariant. -/
theorem k_wakeUni_free {s : St} {tr : List Ev} (hg : G s tr) (hh : s.hold = .no) (pu : Nat)
    (hq : s.shrQ = []) (hc : s.cnt = 0)
    (hm : ∀ t, (s.task t).act ≠ .missShr)
    (hall : ∀ t, (s.task t).uni = false ∧ (s.task t).shr = false ∧
      (s.task t).act ≠ .wokeUni ∧ (s.task t).act ≠ .wokeShr) : K (wakeUni s pu).1 := by
  unfold wakeUni
  simp only [hh, if_true]
  split
  · rename_i u hp
    constructor
    · exact hq
    · intro t ht
      dsimp only at ht
      exfalso
      have h0 := hm t
      simp only [upd_apply] at ht
      split at ht <;> simp_all
    · simp
    · simp
    · intro _
      refine ⟨hc, u, rfl, ?_⟩
      intro t
      have h0 := hall t
      have h1 := hall u
      dsimp only
      simp only [upd_apply]
      split
      · rename_i e; subst e; simp [h0]
      · rename_i e; simp [h0, e]
    · simp
  · rename_i hp
    have hu := pick_none hp
    constructor
    · exact hq
    · intro t ht; exact absurd ht (hm t)
    · intro _; exact ⟨hc, hu, hall⟩
    · simp [hh]
    · simp [hh]
    · simp [hh]

theorem k_step (s : St) (tr : List Ev) (l : Lbl) (s' : St) (e : List Ev)
    (hg : G s tr) (hk : K s) (hex : Exclusion tr)
    (hst : step s l = some (s', e))
    (h1 : ReadersAskUncontended (tr ++ e)) (h2 : NestedReleaseOrder (tr ++ e)) :
    K s' ∧ Exclusion (tr ++ e) := by
  unfold step at hst
  split at hst
  · simp at hst
  rename_i hdead
  cases l with
  | wakeStale t =>
    dsimp only at hst
    split at hst
    · simp only [Option.some.injEq, Prod.mk.injEq] at hst
      obtain ⟨rfl, rfl⟩ := hst
      refine ⟨?_, excl_append_quiet _ _ hex (by simp)⟩
      obtain ⟨a, b, c, d, e, f⟩ := hk
      exact ⟨a, b, c, d, e, f⟩
    · simp at hst
  | wakeNext t ps pu =>
    dsimp only at hst
    split at hst
    · have hk' : K { s with pending := s.pending.erase t } := by
        obtain ⟨a, b, c, d, e, f⟩ := hk
        exact ⟨a, b, c, d, e, f⟩
      rw [tryWakeUpNext_k hk'] at hst
      simp only [Option.some.injEq, Prod.mk.injEq] at hst
      obtain ⟨rfl, rfl⟩ := hst
      exact ⟨hk', by simpa using hex⟩
    · simp at hst
  | askShr t =>
    dsimp only at hst
    split at hst
    · rename_i hc
      split at hst
      · rename_i hh
        simp only [Option.some.injEq, Prod.mk.injEq] at hst
        obtain ⟨rfl, rfl⟩ := hst
        rw [rau_concat] at h1
        have h1' := h1.2 t rfl
        obtain ⟨hcnt, w, hw, hall⟩ := hk.uni hh
        have hwt : w = t := by
          by_cases hwt : w = t
          · exact hwt
          · exfalso
            have := h1' w hwt
            rw [hg.hu, hg.bw] at this
            have h3 := (hall w).2.2.2 rfl
            grind
        subst hwt
        refine ⟨?_, excl_append_quiet _ _ hex (by simp)⟩
        constructor
        · exact hk.shrQ
        · intro v hv
          dsimp only at hv ⊢
          have := hk.miss v
          have h3 := (hall w).2.2.2 rfl
          simp only [upd_apply] at hv ⊢
          split at hv
          · rename_i e; subst e; simp; grind
          · simp [*]; grind
        · simp [hh]
        · simp [hh]
        · intro _
          refine ⟨hcnt, w, hw, ?_⟩
          intro v
          have := hall v
          have := (hall w).2.2.2 rfl
          dsimp only
          simp only [upd_apply]
          split <;> grind
        · simp [hh]
      · rename_i hh
        simp only [Option.some.injEq, Prod.mk.injEq] at hst
        obtain ⟨rfl, rfl⟩ := hst
        rw [append_two, rau_concat, rau_concat] at h1
        have h1' := h1.1.2 t rfl
        have hnouni : ∀ v, (s.task v).uni = false ∧ (s.task v).act ≠ .wokeUni ∧ (s.task v).act ≠ .wokeShr := by
          intro v
          cases hH : s.hold with
          | no => have := (hk.no hH).2.2 v; grind
          | shr => exact (hk.shr hH).2 v
          | uni => exact absurd hH hh
          | shrDuringUni =>
            exfalso
            obtain ⟨_, w, hw, hall⟩ := hk.sdu hH
            by_cases hwt : w = t
            · subst hwt
              have := (hall w).1.2 rfl
              grind
            · have := h1' w hwt
              rw [hg.hu] at this
              have h3 := (hall w).2.1.2 rfl
              grind
        constructor
        · constructor
          · exact hk.shrQ
          · intro v hv
            dsimp only at hv ⊢
            exfalso
            have h3 := hk.miss v
            have h4 := hk.miss t
            simp only [upd_apply] at hv
            split at hv
            · rename_i e; subst e; dsimp only at hv; exact hh (h4 hv).1
            · exact hh (h3 hv).1
          · simp
          · intro _
            constructor
            · have hex0 : ∃ L : List Nat, L.Nodup ∧ (∀ t, t ∈ L ↔ (s.task t).shr = true) ∧ s.cnt = L.length := by
                cases hH : s.hold with
                | no =>
                  refine ⟨[], by simp, ?_, by simpa using (hk.no hH).1⟩
                  intro v; simp [((hk.no hH).2.2 v).2.1]
                | shr => obtain ⟨⟨L, a, b, c, d⟩, _⟩ := hk.shr hH; exact ⟨L, a, b, c⟩
                | uni => exact absurd hH hh
                | shrDuringUni =>
                  exfalso
                  obtain ⟨_, w, hw, hall⟩ := hk.sdu hH
                  have := (hall w).2.1.2 rfl
                  have := hnouni w
                  grind
              obtain ⟨L, a, b, c⟩ := hex0
              have htL : t ∉ L := by rw [b]; simp [hc.2]
              refine ⟨t :: L, ?_, ?_, ?_, by simp⟩
              · exact List.nodup_cons.2 ⟨htL, a⟩
              · intro v
                have := b v
                dsimp only
                simp only [upd_apply]
                split <;> grind
              · dsimp only; simp [c]
            · intro v
              have := hnouni v
              have := hnouni t
              dsimp only
              simp only [upd_apply]
              split <;> grind
          · simp
          · simp
        · rw [append_two]
          apply excl_concat
          · exact excl_concat _ _ hex (by simp) (by simp)
          · simp
          · intro u _ v _
            have : HoldsUni v (tr ++ [Ev.askedShr t]) ↔ HoldsUni v tr := by
              unfold HoldsUni; rw [openIn_concat]; simp
            rw [this, hg.hu]
            simp [(hnouni v).1]
    · simp at hst
  | suspShr t =>
    dsimp only at hst
    split at hst
    · rename_i hc
      obtain ⟨hh, hwr, huni⟩ := hk.miss t hc
      obtain ⟨hcnt, w, hw, hall⟩ := hk.uni hh
      rw [if_pos hwr] at hst
      have hwt : w = t := by grind
      subst hwt
      simp only [Option.some.injEq, Prod.mk.injEq] at hst
      obtain ⟨rfl, rfl⟩ := hst
      refine ⟨?_, excl_append_quiet _ _ hex (by simp)⟩
      constructor
      · exact hk.shrQ
      · intro v hv
        exfalso
        dsimp only at hv
        have := hk.miss v
        simp only [upd_apply] at hv
        split at hv <;> grind
      · simp
      · simp
      · simp
      · intro _
        refine ⟨hcnt, w, hw, ?_⟩
        intro v
        have := hall v
        have := hg.fu v
        dsimp only
        simp only [upd_apply]
        split <;> grind
    · simp at hst
  | askUni t =>
    dsimp only at hst
    split at hst
    · rename_i hc
      simp only [Option.some.injEq, Prod.mk.injEq] at hst
      obtain ⟨rfl, rfl⟩ := hst
      refine ⟨?_, excl_append_quiet _ _ hex (by simp)⟩
      constructor
      · exact hk.shrQ
      · intro v hv
        dsimp only at hv ⊢
        have := hk.miss v
        simp only [upd_apply] at hv ⊢
        split at hv <;> grind
      · intro hh
        dsimp only at hh ⊢
        obtain ⟨a, b, c⟩ := hk.no hh
        refine ⟨a, b, ?_⟩
        intro v
        have := c v
        have := c t
        simp only [upd_apply]
        split <;> grind
      · intro hh
        dsimp only at hh ⊢
        obtain ⟨⟨L, a, b, c, d⟩, f⟩ := hk.shr hh
        refine ⟨⟨L, a, ?_, c, d⟩, ?_⟩
        · intro v
          have := b v
          simp only [upd_apply]
          split <;> grind
        · intro v
          have := f v
          have := f t
          simp only [upd_apply]
          split <;> grind
      · intro hh
        dsimp only at hh ⊢
        obtain ⟨a, w, b, c⟩ := hk.uni hh
        refine ⟨a, w, b, ?_⟩
        intro v
        have := c v
        have := c t
        simp only [upd_apply]
        split <;> grind
      · intro hh
        dsimp only at hh ⊢
        obtain ⟨a, w, b, c⟩ := hk.sdu hh
        refine ⟨a, w, b, ?_⟩
        intro v
        have := c v
        have := c t
        simp only [upd_apply]
        split <;> grind
    · simp at hst
  | suspUni t =>
    dsimp only at hst
    split at hst
    · rename_i hc
      split at hst
      · rename_i hh
        simp only [Option.some.injEq, Prod.mk.injEq] at hst
        obtain ⟨rfl, rfl⟩ := hst
        refine ⟨?_, excl_append_quiet _ _ hex (by simp)⟩
        obtain ⟨a, b, c⟩ := hk.no hh
        constructor
        · exact hk.shrQ
        · intro v hv
          dsimp only at hv ⊢
          have := hk.miss v
          simp only [upd_apply] at hv ⊢
          split at hv <;> grind
        · simp
        · simp
        · intro _
          refine ⟨a, t, rfl, ?_⟩
          intro v
          have := c v
          have := c t
          dsimp only
          simp only [upd_apply]
          split <;> grind
        · simp
      · rename_i hh
        simp only [Option.some.injEq, Prod.mk.injEq] at hst
        obtain ⟨rfl, rfl⟩ := hst
        refine ⟨?_, excl_append_quiet _ _ hex (by simp)⟩
        constructor
        · exact hk.shrQ
        · intro v hv
          dsimp only at hv ⊢
          have := hk.miss v
          simp only [upd_apply] at hv ⊢
          split at hv <;> grind
        · intro h; exact absurd h hh
        · intro hh
          dsimp only at hh ⊢
          obtain ⟨⟨L, a, b, c, d⟩, f⟩ := hk.shr hh
          refine ⟨⟨L, a, ?_, c, d⟩, ?_⟩
          · intro v
            have := b v
            simp only [upd_apply]
            split <;> grind
          · intro v
            have := f v
            have := f t
            simp only [upd_apply]
            split <;> grind
        · intro hh
          dsimp only at hh ⊢
          obtain ⟨a, w, b, c⟩ := hk.uni hh
          refine ⟨a, w, b, ?_⟩
          intro v
          have := c v
          have := c t
          simp only [upd_apply]
          split <;> grind
        · intro hh
          dsimp only at hh ⊢
          obtain ⟨a, w, b, c⟩ := hk.sdu hh
          refine ⟨a, w, b, ?_⟩
          intro v
          have := c v
          have := c t
          simp only [upd_apply]
          split <;> grind
    · simp at hst
  | resume t =>
    dsimp only at hst
    split at hst
    · rename_i hc
      simp only [Option.some.injEq, Prod.mk.injEq] at hst
      obtain ⟨rfl, rfl⟩ := hst
      have hH : s.hold = .shrDuringUni := by
        cases hH : s.hold with
        | no => have := (hk.no hH).2.2 t; grind
        | shr => have := (hk.shr hH).2 t; grind
        | uni => obtain ⟨_, w, _, hall⟩ := hk.uni hH; have := hall t; grind
        | shrDuringUni => rfl
      obtain ⟨a, w, b, c⟩ := hk.sdu hH
      have htw : t = w := by have := c t; grind
      subst htw
      constructor
      · constructor
        · exact hk.shrQ
        · intro v hv
          dsimp only at hv ⊢
          have := hk.miss v
          simp only [upd_apply] at hv ⊢
          split at hv <;> grind
        · simp [hH]
        · simp [hH]
        · simp [hH]
        · intro _
          refine ⟨a, t, b, ?_⟩
          intro v
          have := c v
          dsimp only
          simp only [upd_apply]
          split <;> grind
      · apply excl_concat _ _ hex
        · simp
        · intro u hu v hv
          simp only [Ev.grantedShr.injEq] at hu
          subst hu
          rw [hg.hu]
          have := c v
          grind
    · rename_i hc
      simp only [Option.some.injEq, Prod.mk.injEq] at hst
      obtain ⟨rfl, rfl⟩ := hst
      have hH : s.hold = .uni := by
        cases hH : s.hold with
        | no => have := (hk.no hH).2.2 t; grind
        | shr => have := (hk.shr hH).2 t; grind
        | uni => rfl
        | shrDuringUni => obtain ⟨_, w, _, hall⟩ := hk.sdu hH; have := hall t; grind
      obtain ⟨a, w, b, c⟩ := hk.uni hH
      have htw : t = w := by have := c t; grind
      subst htw
      constructor
      · constructor
        · exact hk.shrQ
        · intro v hv
          dsimp only at hv ⊢
          have := hk.miss v
          simp only [upd_apply] at hv ⊢
          split at hv <;> grind
        · simp [hH]
        · simp [hH]
        · intro _
          refine ⟨a, t, b, ?_⟩
          intro v
          have := c v
          dsimp only
          simp only [upd_apply]
          split <;> grind
        · simp [hH]
      · apply excl_concat _ _ hex
        · intro u hu v
          simp only [Ev.grantedUni.injEq] at hu
          subst hu
          rw [hg.hu, hg.hs]
          have := c v
          have := hg.fu t
          grind
        · simp
    · simp at hst
  | unlock t k ps pu =>
    dsimp only at hst
    split at hst
    · rename_i hc
      obtain ⟨hact, hkind⟩ := hc
      simp only [Option.some.injEq, Prod.mk.injEq] at hst
      obtain ⟨rfl, rfl⟩ := hst
      refine ⟨?_, ?_⟩
      · have hgd := g_dropLock hg t k hact
        cases k with
        | shr =>
          have hshr : (s.task t).shr = true := by simpa using hkind
          cases hH : s.hold with
          | no => have := (hk.no hH).2.2 t; grind
          | uni => obtain ⟨_, w, _, hall⟩ := hk.uni hH; have := hall t; grind
          | shr =>
            obtain ⟨⟨L, a, b, c, d⟩, f⟩ := hk.shr hH
            have htL : t ∈ L := (b t).2 hshr
            have hnm : ∀ v, (s.task v).act ≠ .missShr := by
              intro v hv; have := (hk.miss v hv).1; simp [hH] at this
            simp only [release, dropLock, hH]
            split
            · rename_i h1c
              have hlen : L.length = 1 := by omega
              have hL : L = [t] := by
                rw [List.length_eq_one_iff] at hlen
                obtain ⟨x, hx⟩ := hlen
                subst hx; simp at htL; simp [htL]
              have hfact : ∀ v, (s.task v).shr = true → v = t := by
                intro v hv; have := (b v).2 hv; rw [hL] at this; simpa using this
              refine k_wakeUni_free (tr := tr ++ [relEv t .shr]) (G.congr hgd ?_ ?_ ?_) rfl pu ?_ ?_ ?_ ?_
              · simp [dropLock, hH]
              · simp [dropLock]
              · simp [dropLock]
              · exact hk.shrQ
              · dsimp only; omega
              · intro v; have := hnm v; have := hnm t; dsimp only; simp only [upd_apply]; split <;> grind
              · intro v
                have := f v
                have := f t
                have := hfact v
                dsimp only
                simp only [upd_apply]
                split
                · grind
                · rename_i e
                  cases hs : (s.task v).shr with
                  | true => exact absurd (hfact v hs) e
                  | false => grind
            · rename_i h1c
              constructor
              · exact hk.shrQ
              · intro v hv; exfalso; dsimp only at hv
                have := hnm v; have := hnm t
                simp only [upd_apply] at hv; split at hv <;> grind
              · simp [hH]
              · intro _
                refine ⟨⟨L.erase t, a.erase t, ?_, ?_, ?_⟩, ?_⟩
                · intro v
                  have := b v
                  rw [a.mem_erase_iff]
                  dsimp only
                  simp only [upd_apply]
                  split <;> grind
                · dsimp only
                  rw [List.length_erase_of_mem htL]
                  have : 0 < L.length := List.length_pos_of_mem htL
                  omega
                · intro hnil
                  have hl := List.length_erase_of_mem htL
                  rw [hnil] at hl
                  simp at hl
                  have : 0 < L.length := List.length_pos_of_mem htL
                  omega
                · intro v
                  have := f v
                  have := f t
                  dsimp only
                  simp only [upd_apply]
                  split <;> grind
              · simp [hH]
              · simp [hH]
          | shrDuringUni =>
            obtain ⟨a, w, b, c⟩ := hk.sdu hH
            have htw : t = w := by have := c t; grind
            subst htw
            simp only [release, dropLock, hH]
            constructor
            · exact hk.shrQ
            · intro v hv
              exfalso
              dsimp only at hv
              have h5 := hk.miss v
              simp only [upd_apply] at hv
              split at hv
              · grind
              · have := (h5 hv).1; simp [hH] at this
            · simp
            · simp
            · intro _
              refine ⟨a, t, b, ?_⟩
              intro v
              have := c v
              dsimp only
              simp only [upd_apply]
              split <;> grind
            · simp
        | uni =>
          have huni : (s.task t).uni = true := by simpa using hkind
          cases hH : s.hold with
          | no => have := (hk.no hH).2.2 t; grind
          | shr => have := (hk.shr hH).2 t; grind
          | shrDuringUni =>
            exfalso
            obtain ⟨a, w, b, c⟩ := hk.sdu hH
            have htw : t = w := by have := c t; grind
            subst htw
            have hsh : (s.task t).shr = true := by have := c t; grind
            have := h2 tr t (by
              simp only [relEv]
              exact ⟨_, by rw [List.append_assoc]; rfl⟩)
            rw [hg.hs] at this
            exact this hsh
          | uni =>
            obtain ⟨a, w, b, c⟩ := hk.uni hH
            have htw : t = w := by have := c t; grind
            subst htw
            have hnm : ∀ v, (s.task v).act ≠ .missShr := by
              intro v hv
              have h6 := hk.miss v hv
              rw [b] at h6
              have : t = v := by simpa using h6.2.1
              subst this
              simp [hact] at hv
            simp only [release, dropLock, hH]
            rw [wakeShr_nil (by exact hk.shrQ)]
            simp only [reduceCtorEq, or_self, if_false, List.nil_append]
            refine k_wakeUni_free (tr := tr ++ [relEv t .uni]) (G.congr hgd ?_ ?_ ?_) rfl pu ?_ ?_ ?_ ?_
            · simp [dropLock]
            · simp [dropLock]
            · simp [dropLock]
            · exact hk.shrQ
            · exact a
            · intro v; have := hnm v; have := hnm t; dsimp only; simp only [upd_apply]; split <;> grind
            · intro v
              have := c v
              have := c t
              dsimp only
              simp only [upd_apply]
              split <;> grind
      · apply excl_append_quiet _ _ hex
        intro u
        have := release_events (dropLock s t k) ps pu u
        cases k <;> simp [relEv, this]
    · simp at hst

theorem k_of_reaches {s : St} {tr : List Ev} (h : machine.Reaches s tr)
    (h1 : ReadersAskUncontended tr) (h2 : NestedReleaseOrder tr) : K s ∧ Exclusion tr := by
  revert h1 h2
  refine h.inv' (fun s tr => ReadersAskUncontended tr → NestedReleaseOrder tr → K s ∧ Exclusion tr) ?_ ?_
  · intro _ _
    refine ⟨k_init, ?_⟩
    constructor
    · intro p u hp; exact absurd hp not_concat_prefix_nil
    · intro p u hp; exact absurd hp not_concat_prefix_nil
  · intro s tr l s' e hr hI hst h1 h2
    obtain ⟨hk, hex⟩ := hI (rau_mono h1) (nro_mono h2)
    exact k_step s tr l s' e (g_of_reaches hr) hk hex hst h1 h2

theorem hold_no_of_allReleased {s : St} {tr : List Ev} (hg : G s tr) (hk : K s)
    (hr : AllReleased tr) : s.hold = .no := by
  have hall : ∀ t, (s.task t).uni = false ∧ (s.task t).shr = false ∧
      (s.task t).act ≠ .wokeUni ∧ (s.task t).act ≠ .wokeShr := by
    intro t
    have := hr t
    rw [hg.hs, hg.hu, hg.bw, hg.br] at this
    simpa [and_assoc, and_comm, and_left_comm] using this
  cases hH : s.hold with
  | no => rfl
  | shr =>
    obtain ⟨⟨L, a, b, c, d⟩, _⟩ := hk.shr hH
    cases L with
    | nil => exact absurd rfl d
    | cons x L =>
      have := (b x).1 (by simp)
      simp [(hall x).2.1] at this
  | uni => obtain ⟨_, w, _, c⟩ := hk.uni hH; have := c w; have := hall w; grind
  | shrDuringUni => obtain ⟨_, w, _, c⟩ := hk.sdu hH; have := c w; have := hall w; grind

/-- No task ever gets near the unique_lock. -/
structure NW (s : St) (tr : List Ev) : Prop where
  q : s.uniQ = []
  t : ∀ u, (s.task u).act ≠ .missUni ∧ (s.task u).act ≠ .qUni ∧ (s.task u).act ≠ .wokeUni ∧
    (s.task u).uni = false
  e : ∀ u, Ev.grantedUni u ∉ tr ∧ Ev.wokenUni u ∉ tr ∧ Ev.releasedUni u ∉ tr

theorem nw_wakeShr {s : St} {tr : List Ev} (h : NW s tr) (ps : Nat) :
    NW (wakeShr s ps).1 (tr ++ (wakeShr s ps).2) := by
  unfold wakeShr
  split
  · simpa using h
  · split
    · rename_i u hp
      obtain ⟨a, b, c⟩ := h
      refine ⟨a, ?_, ?_⟩
      · intro v
        have := b v
        have := b u
        dsimp only
        simp only [upd_apply]
        split <;> grind
      · intro v; simpa using c v
    · simpa using h

theorem nw_wakeUni {s : St} {tr : List Ev} (h : NW s tr) (pu : Nat) :
    NW (wakeUni s pu).1 (tr ++ (wakeUni s pu).2) := by
  rw [wakeUni_nil h.q]; simpa using h

theorem no_writer_events {s : St} {tr : List Ev} (h : machine.Reaches s tr)
    (hw : ∀ t, Ev.askedUni t ∉ tr) :
    ∀ u, Ev.grantedUni u ∉ tr ∧ Ev.wokenUni u ∉ tr ∧ Ev.releasedUni u ∉ tr := by
  suffices NW s tr from this.e
  revert hw
  refine h.inv' (fun s tr => (∀ t, Ev.askedUni t ∉ tr) → NW s tr) ?_ ?_
  · intro _; constructor <;> simp [machine, init]
  · intro s tr l s' e hr hI hst hw
    have hN := hI (fun t ht => hw t (by simp [ht]))
    have hq := hN.q
    simp only [machine, step] at hst
    split at hst
    · simp at hst
    cases l with
    | wakeNext t ps pu =>
      dsimp only at hst
      split at hst
      · simp only [Option.some.injEq, tryWakeUpNext] at hst
        have hN1 : NW { s with pending := s.pending.erase t } tr := ⟨hN.q, hN.t, hN.e⟩
        rw [wakeUni_nil (by exact hq)] at hst
        dsimp only at hst
        split at hst
        · simp only [Prod.mk.injEq] at hst; obtain ⟨rfl, rfl⟩ := hst; simpa using hN1
        · have := nw_wakeShr hN1 ps
          simp only [List.nil_append, Prod.mk.injEq] at hst
          obtain ⟨rfl, rfl⟩ := hst
          exact this
      · simp at hst
    | wakeStale t =>
      dsimp only at hst
      split at hst
      · simp only [Option.some.injEq, Prod.mk.injEq] at hst
        obtain ⟨rfl, rfl⟩ := hst
        exact ⟨hN.q, hN.t, by simpa using hN.e⟩
      · simp at hst
    | askUni t =>
      dsimp only at hst
      split at hst
      · simp only [Option.some.injEq, Prod.mk.injEq] at hst
        obtain ⟨rfl, rfl⟩ := hst
        exact absurd (hw t) (by simp)
      · simp at hst
    | suspUni t =>
      dsimp only at hst
      have := (hN.t t).1
      simp [this] at hst
    | askShr t =>
      dsimp only at hst
      split at hst
      · split at hst <;>
        · simp only [Option.some.injEq, Prod.mk.injEq] at hst
          obtain ⟨rfl, rfl⟩ := hst
          refine ⟨hN.q, ?_, by simpa using hN.e⟩
          intro v
          have := hN.t v
          have := hN.t t
          dsimp only
          simp only [upd_apply]
          split <;> grind
      · simp at hst
    | suspShr t =>
      dsimp only at hst
      split at hst
      · split at hst <;>
        · simp only [Option.some.injEq, Prod.mk.injEq] at hst
          obtain ⟨rfl, rfl⟩ := hst
          refine ⟨hN.q, ?_, by simpa using hN.e⟩
          intro v
          have := hN.t v
          have := hN.t t
          dsimp only
          simp only [upd_apply]
          split <;> grind
      · simp at hst
    | resume t =>
      dsimp only at hst
      split at hst
      · simp only [Option.some.injEq, Prod.mk.injEq] at hst
        obtain ⟨rfl, rfl⟩ := hst
        refine ⟨hN.q, ?_, by simpa using hN.e⟩
        intro v
        have := hN.t v
        have := hN.t t
        dsimp only
        simp only [upd_apply]
        split <;> grind
      · rename_i hc; exact absurd hc (hN.t t).2.2.1
      · simp at hst
    | unlock t k ps pu =>
      dsimp only at hst
      split at hst
      · rename_i hc
        cases k with
        | uni => have := (hN.t t).2.2.2; simp [this] at hc
        | shr =>
          simp only [Option.some.injEq, Prod.mk.injEq] at hst
          obtain ⟨rfl, rfl⟩ := hst
          have hd : NW (dropLock s t .shr) (tr ++ [Ev.releasedShr t]) := by
            refine ⟨hN.q, ?_, by simpa using hN.e⟩
            intro v
            have := hN.t v
            have := hN.t t
            simp only [dropLock, upd_apply]
            split <;> grind
          have hrel : NW (release (dropLock s t .shr) ps pu).1
              (tr ++ [Ev.releasedShr t] ++ (release (dropLock s t .shr) ps pu).2) := by
            generalize dropLock s t .shr = s0 at hd
            generalize tr ++ [Ev.releasedShr t] = tr0 at hd
            unfold release
            split
            · dsimp only
              split
              · exact nw_wakeUni (s := { s0 with cnt := s0.cnt - 1, hold := .no }) ⟨hd.q, hd.t, hd.e⟩ pu
              · simp only [List.append_nil]; exact ⟨hd.q, hd.t, hd.e⟩
            · dsimp only
              have h1 := nw_wakeShr (s := { s0 with hold := .no, writer := none }) ⟨hd.q, hd.t, hd.e⟩ ps
              split
              · exact h1
              · have := nw_wakeUni h1 pu
                simpa [List.append_assoc] using this
            · simp only [List.append_nil]; exact ⟨hd.q, hd.t, hd.e⟩
            · simpa using hd
          simpa [relEv] using hrel
      · simp at hst

theorem wakeUni_other (s : St) (pu : Nat) : (wakeUni s pu).1.pending = s.pending ∧
    (wakeUni s pu).1.stale = s.stale ∧ ∀ t, Ev.ub t ∉ (wakeUni s pu).2 := by
  unfold wakeUni; split
  · split <;> simp
  · simp

theorem wakeShr_other (s : St) (pu : Nat) : (wakeShr s pu).1.pending = s.pending ∧
    (wakeShr s pu).1.stale = s.stale ∧ ∀ t, Ev.ub t ∉ (wakeShr s pu).2 := by
  unfold wakeShr; split
  · simp
  · split <;> simp

theorem release_other (s : St) (ps pu : Nat) : (release s ps pu).1.pending = s.pending ∧
    (release s ps pu).1.stale = s.stale ∧ ∀ t, Ev.ub t ∉ (release s ps pu).2 := by
  unfold release
  split
  · dsimp only; split
    · exact wakeUni_other { s with cnt := s.cnt - 1, hold := .no } pu
    · simp
  · dsimp only; split
    · exact wakeShr_other _ _
    · have h1 := wakeShr_other { s with hold := .no, writer := none } ps
      have h2 := wakeUni_other (wakeShr { s with hold := .no, writer := none } ps).1 pu
      simp [h1, h2]
  · simp
  · simp

theorem no_ub_of_no_sleep {s : St} {tr : List Ev} (h : machine.Reaches s tr)
    (hn : ∀ t, Ev.sleptShr t ∉ tr) : s.pending = [] ∧ s.stale = [] ∧ ∀ t, Ev.ub t ∉ tr := by
  revert hn
  refine h.inv' (fun s tr => (∀ t, Ev.sleptShr t ∉ tr) → s.pending = [] ∧ s.stale = [] ∧
    ∀ t, Ev.ub t ∉ tr) ?_ ?_
  · intro _; simp [machine, init]
  · intro s tr l s' e hr hI hst hn
    obtain ⟨h1, h2, h3⟩ := hI (fun t ht => hn t (by simp [ht]))
    simp only [machine, step] at hst
    split at hst
    · simp at hst
    cases l with
    | wakeNext t ps pu => simp [h1] at hst
    | wakeStale t => simp [h2] at hst
    | unlock t k ps pu =>
      dsimp only at hst
      split at hst
      · simp only [Option.some.injEq, Prod.mk.injEq] at hst
        obtain ⟨rfl, rfl⟩ := hst
        have := release_other (dropLock s t k) ps pu
        cases k <;> simp_all [dropLock, relEv]
      · simp at hst
    | suspShr t =>
      dsimp only at hst
      split at hst
      · split at hst
        all_goals
          simp only [Option.some.injEq, Prod.mk.injEq] at hst
          obtain ⟨rfl, rfl⟩ := hst
          exact absurd (hn t) (by simp)
      · simp at hst
    | askShr t => grind
    | askUni t => grind
    | suspUni t => grind
    | resume t =>
      dsimp only at hst
      split at hst
      · simp only [Option.some.injEq, Prod.mk.injEq] at hst
        obtain ⟨rfl, rfl⟩ := hst
        simpa [h1, h2] using h3
      · simp only [Option.some.injEq, Prod.mk.injEq] at hst
        obtain ⟨rfl, rfl⟩ := hst
        simpa [h1, h2] using h3
      · simp at hst

end Verif.SharedMutex
