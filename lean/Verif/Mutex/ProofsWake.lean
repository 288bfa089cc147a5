import Verif.Mutex.Proofs
/-!
# Helper lemmas: lost wake-ups of `koios::mutex`
-/

namespace Verif.Mutex

theorem sleepsOnlyWhileHeld_concat (tr : List Ev) (x : Ev) :
    SleepsOnlyWhileHeld (tr ++ [x]) ↔
      SleepsOnlyWhileHeld tr ∧ ∀ t, x = .slept t →
        ∃ u, life u tr = some .holding ∨ life u tr = some .wakened := by
  unfold SleepsOnlyWhileHeld
  constructor
  · intro h
    refine ⟨fun p u hp => h p u (hp.trans (List.prefix_append _ _)), ?_⟩
    rintro u rfl
    exact h tr u (List.prefix_refl _)
  · rintro ⟨h1, h2⟩ p u hp
    rw [concat_prefix_concat_iff] at hp
    rcases hp with hp | ⟨rfl, hx⟩
    · exact h1 p u hp
    · exact h2 u hx.symm

/-- Somebody will still look at the waiter queue. -/
def Pc.willLook : Pc → Bool
  | .holding | .woken | .rel1 | .rel2 | .relWake _ => true
  | _ => false

/-- With waiters queued, nobody is about to give up without looking, and somebody
will look. -/
def Covered (s : St) : Prop :=
  s.queue ≠ [] → (∀ u, s.pc u ≠ .rel3) ∧ ∃ u, (s.pc u).willLook = true

theorem sleepsOnlyWhileHeld_of_append {tr e : List Ev} (h : SleepsOnlyWhileHeld (tr ++ e)) :
    SleepsOnlyWhileHeld tr :=
  fun p t hp => h p t (hp.trans (List.prefix_append _ _))

theorem covered_step (s : St) (tr : List Ev) (l : Lbl) (s' : St) (e : List Ev)
    (h : Inv s tr) (hc : Covered s) (hs : step false s l = some (s', e))
    (hh : SleepsOnlyWhileHeld (tr ++ e)) : Covered s' := by
  unfold Covered at *
  intro hq'
  cases l with
  | suspend t =>
    simp only [step] at hs
    split at hs
    · rename_i hpc
      simp only [Option.some.injEq, Prod.mk.injEq] at hs
      obtain ⟨rfl, rfl⟩ := hs
      rw [sleepsOnlyWhileHeld_concat] at hh
      obtain ⟨u, hu⟩ := hh.2 t rfl
      have hu' : s.pc u = .holding ∨ s.pc u = .woken := by
        rw [h.life u] at hu
        cases hp : s.pc u <;> simp [hp, Pc.life] at hu ⊢
      have huo : (s.pc u).owns = true := by rcases hu' with h | h <;> simp [h, Pc.owns]
      have hut : u ≠ t := by rintro rfl; simp [hpc] at hu'
      refine ⟨?_, u, ?_⟩
      · intro v hv
        dsimp only at hv
        have hv' : s.pc v = .rel3 := by grind [upd]
        have := h.uniq v u (by simp [hv', Pc.owns]) huo
        subst this
        simp [hv'] at hu'
      · dsimp only
        rw [upd_ne _ _ hut]
        rcases hu' with h | h <;> simp [h, Pc.willLook]
    · simp at hs
  | acquire t =>
    simp only [step] at hs
    split at hs
    · rename_i hpc
      split at hs
      all_goals
        simp only [Option.some.injEq, Prod.mk.injEq] at hs
        obtain ⟨rfl, rfl⟩ := hs
        obtain ⟨h1, u, hu⟩ := hc hq'
        refine ⟨by grind [upd], u, ?_⟩
        dsimp only
        grind [upd, Pc.willLook]
    · simp at hs
  | tryAcquire t =>
    simp only [step] at hs
    split at hs
    · rename_i hpc
      split at hs
      all_goals
        simp only [Option.some.injEq, Prod.mk.injEq] at hs
        obtain ⟨rfl, rfl⟩ := hs
        obtain ⟨h1, u, hu⟩ := hc hq'
        refine ⟨by grind [upd], u, ?_⟩
        try dsimp only
        grind [upd, Pc.willLook]
    · simp at hs
  | resume t =>
    simp only [step] at hs
    split at hs
    · simp only [Option.some.injEq, Prod.mk.injEq] at hs
      obtain ⟨rfl, rfl⟩ := hs
      obtain ⟨h1, u, hu⟩ := hc hq'
      exact ⟨by grind [upd], t, by simp [Pc.willLook]⟩
    · simp at hs
  | unlock t =>
    simp only [step] at hs
    split at hs
    · simp only [Option.some.injEq, Prod.mk.injEq] at hs
      obtain ⟨rfl, rfl⟩ := hs
      obtain ⟨h1, u, hu⟩ := hc hq'
      exact ⟨by grind [upd], t, by simp [Pc.willLook]⟩
    · simp at hs
  | retake t =>
    simp only [step] at hs
    split at hs
    · rename_i hpc
      split at hs
      · rename_i hf
        simp only [Option.some.injEq, Prod.mk.injEq] at hs
        obtain ⟨rfl, rfl⟩ := hs
        obtain ⟨h1, _⟩ := hc hq'
        obtain ⟨v, hv⟩ := h.ownerOf hf
        refine ⟨by grind [upd], v, ?_⟩
        have hvt : v ≠ t := by rintro rfl; simp [hpc, Pc.owns] at hv
        dsimp only
        rw [upd_ne _ _ hvt]
        have := h1 v
        cases hp : s.pc v <;> simp [hp, Pc.owns, Pc.willLook] at *
      · simp only [Option.some.injEq, Prod.mk.injEq] at hs
        obtain ⟨rfl, rfl⟩ := hs
        obtain ⟨h1, u, hu⟩ := hc hq'
        exact ⟨by grind [upd], t, by simp [Pc.willLook]⟩
    · simp at hs
  | dequeue t w =>
    simp only [step] at hs
    split at hs
    · split at hs
      · rename_i hw
        simp only [Option.some.injEq, Prod.mk.injEq] at hs
        obtain ⟨rfl, rfl⟩ := hs
        have : s.queue ≠ [] := by rintro h; simp [h] at hw
        obtain ⟨h1, u, hu⟩ := hc this
        exact ⟨by grind [upd], t, by simp [Pc.willLook]⟩
      · simp at hs
    · simp at hs
  | dequeueNone t =>
    simp only [step] at hs
    split at hs
    · rename_i hpc
      simp only [Option.some.injEq, Prod.mk.injEq] at hs
      obtain ⟨rfl, rfl⟩ := hs
      exfalso
      simp at hpc
      exact hq' hpc.2
    · simp at hs
  | wake t =>
    simp only [step] at hs
    split at hs
    · rename_i w hpc
      simp only [Option.some.injEq, Prod.mk.injEq] at hs
      obtain ⟨rfl, rfl⟩ := hs
      obtain ⟨h1, u, hu⟩ := hc hq'
      exact ⟨by grind [upd], w, by simp [Pc.willLook]⟩
    · simp at hs
  | clear t =>
    simp only [step] at hs
    split at hs
    · rename_i hpc
      simp only [Option.some.injEq, Prod.mk.injEq] at hs
      obtain ⟨rfl, rfl⟩ := hs
      obtain ⟨h1, u, hu⟩ := hc hq'
      exact absurd hpc (h1 t)
    · simp at hs

theorem covered_of_reaches {s : St} {tr : List Ev} (h : (machine false).Reaches s tr) :
    SleepsOnlyWhileHeld tr → Covered s := by
  refine h.inv' (fun s tr => SleepsOnlyWhileHeld tr → Covered s) ?_ ?_
  · intro _; simp [Covered, machine, init]
  · intro s tr l s' e hr hI hst hh
    exact covered_step s tr l s' e (inv_of_reaches hr) (hI (sleepsOnlyWhileHeld_of_append hh)) hst hh

theorem inCall_pc {s : St} {tr : List Ev} (h : Inv s tr) (t : Nat) :
    inCall (life t tr) ↔ s.pc t ≠ .idle ∧ s.pc t ≠ .queued ∧ s.pc t ≠ .woken ∧ s.pc t ≠ .holding := by
  unfold inCall
  rw [h.life t]
  cases hp : s.pc t <;> simp [Pc.life]

/-- Non-overlapping calls: a task between its failed `await_ready` and its enqueue sees
the lock held or handed over. -/
theorem missed_sees_owner {weak : Bool} {s : St} {tr : List Ev}
    (h : (machine weak).Reaches s tr) (hh : CallsDoNotOverlap tr) :
    SleepsOnlyWhileHeld tr ∧
    ∀ t, s.pc t = .missed → ∃ u, s.pc u = .holding ∨ s.pc u = .woken := by
  revert hh
  refine h.inv' (fun s tr => CallsDoNotOverlap tr → SleepsOnlyWhileHeld tr ∧
    ∀ t, s.pc t = .missed → ∃ u, s.pc u = .holding ∨ s.pc u = .woken) ?_ ?_
  · intro _
    refine ⟨?_, by simp [machine, init]⟩
    intro p t hp
    exact absurd hp not_concat_prefix_nil
  · intro s tr l s' e hr hI hst hh
    have hpre : CallsDoNotOverlap tr := fun p hp => hh p (hp.trans (List.prefix_append _ _))
    obtain ⟨ih1, ih2⟩ := hI hpre
    have hinv := inv_of_reaches hr
    have hinv' := inv_step weak s tr l s' e hinv hst
    have hov' := hh _ (List.prefix_refl _)
    simp only [inCall_pc hinv'] at hov'
    have hsw : (∀ t, Ev.slept t ∉ e) → SleepsOnlyWhileHeld (tr ++ e) := by
      intro hne p t hp
      by_cases hlen : (p ++ [Ev.slept t]).length ≤ tr.length
      · exact ih1 p t (List.prefix_of_prefix_length_le hp (List.prefix_append _ _) hlen)
      · exfalso
        obtain ⟨q, hq⟩ := hp
        have h1 : tr <+: p := by
          apply List.prefix_of_prefix_length_le (l₃ := tr ++ e) (List.prefix_append _ _)
          · exact ⟨[Ev.slept t] ++ q, by simpa using hq⟩
          · simp at hlen; omega
        obtain ⟨r, rfl⟩ := h1
        have : r ++ [Ev.slept t] ++ q = e := by simpa using hq
        exact hne t (by rw [← this]; simp)
    cases l with
    | suspend t =>
      simp only [machine, step] at hst
      split at hst
      · rename_i hpc
        simp only [Option.some.injEq, Prod.mk.injEq] at hst
        obtain ⟨rfl, rfl⟩ := hst
        obtain ⟨u, hu⟩ := ih2 t hpc
        constructor
        · rw [sleepsOnlyWhileHeld_concat]
          refine ⟨ih1, ?_⟩
          intro v _
          refine ⟨u, ?_⟩
          rw [hinv.life u]
          rcases hu with hu | hu <;> simp [hu, Pc.life]
        · intro v hv
          exact ⟨u, by dsimp only; grind [upd]⟩
      · simp at hst
    | acquire t =>
      simp only [machine, step] at hst
      split at hst
      · rename_i hpc
        split at hst
        · rename_i hf
          simp only [Option.some.injEq, Prod.mk.injEq] at hst
          obtain ⟨rfl, rfl⟩ := hst
          refine ⟨hsw (by simp), ?_⟩
          intro v hv
          obtain ⟨u, hu⟩ := hinv.ownerOf hf
          have hut : u ≠ t := by rintro rfl; simp [hpc, Pc.owns] at hu
          refine ⟨u, ?_⟩
          have := hov' u t
          dsimp only at this ⊢
          rw [upd_ne _ _ hut] at this ⊢
          simp only [upd_same] at this
          cases hp : s.pc u <;> simp [hp, Pc.owns, hut] at this hu ⊢
        · simp only [Option.some.injEq, Prod.mk.injEq] at hst
          obtain ⟨rfl, rfl⟩ := hst
          refine ⟨hsw (by simp), ?_⟩
          intro v hv
          exact ⟨t, by simp⟩
      · simp at hst
    | tryAcquire t =>
      simp only [machine, step] at hst
      split at hst
      · rename_i hpc
        split at hst
        · simp only [Option.some.injEq, Prod.mk.injEq] at hst
          obtain ⟨rfl, rfl⟩ := hst
          exact ⟨hsw (by simp), ih2⟩
        · simp only [Option.some.injEq, Prod.mk.injEq] at hst
          obtain ⟨rfl, rfl⟩ := hst
          refine ⟨hsw (by simp), ?_⟩
          intro v hv
          exact ⟨t, by simp⟩
      · simp at hst
    | resume t =>
      simp only [machine, step] at hst
      split at hst
      · simp only [Option.some.injEq, Prod.mk.injEq] at hst
        obtain ⟨rfl, rfl⟩ := hst
        refine ⟨hsw (by simp), ?_⟩
        intro v hv
        exact ⟨t, by simp⟩
      · simp at hst
    | unlock t =>
      simp only [machine, step] at hst
      split at hst
      · rename_i hpc
        simp only [Option.some.injEq, Prod.mk.injEq] at hst
        obtain ⟨rfl, rfl⟩ := hst
        refine ⟨hsw (by simp), ?_⟩
        intro v hv
        exfalso
        have h1 := hov' v t
        dsimp only at h1 hv
        simp [hv] at h1
        subst h1
        simp at hv
      · simp at hst
    | retake t =>
      simp only [machine, step] at hst
      split at hst
      · rename_i hpc
        have hov := hpre _ (List.prefix_refl _)
        simp only [inCall_pc hinv] at hov
        split at hst
        all_goals
          simp only [Option.some.injEq, Prod.mk.injEq] at hst
          obtain ⟨rfl, rfl⟩ := hst
          refine ⟨hsw (by simp), ?_⟩
          intro v hv
          exfalso
          dsimp only at hv
          have := hov v t
          grind [upd]
      · simp at hst
    | dequeue t w =>
      simp only [machine, step] at hst
      split at hst
      · rename_i hpc
        have hov := hpre _ (List.prefix_refl _)
        simp only [inCall_pc hinv] at hov
        split at hst
        · simp only [Option.some.injEq, Prod.mk.injEq] at hst
          obtain ⟨rfl, rfl⟩ := hst
          refine ⟨hsw (by simp), ?_⟩
          intro v hv
          exfalso
          dsimp only at hv
          have := hov v t
          grind [upd]
        · simp at hst
      · simp at hst
    | dequeueNone t =>
      simp only [machine, step] at hst
      split at hst
      · rename_i hpc
        have hov := hpre _ (List.prefix_refl _)
        simp only [inCall_pc hinv] at hov
        simp only [Option.some.injEq, Prod.mk.injEq] at hst
        obtain ⟨rfl, rfl⟩ := hst
        refine ⟨hsw (by simp), ?_⟩
        intro v hv
        exfalso
        dsimp only at hv
        have := hov v t
        grind [upd]
      · simp at hst
    | wake t =>
      simp only [machine, step] at hst
      split at hst
      · rename_i w hpc
        simp only [Option.some.injEq, Prod.mk.injEq] at hst
        obtain ⟨rfl, rfl⟩ := hst
        refine ⟨hsw (by simp), ?_⟩
        intro v hv
        exact ⟨w, by simp⟩
      · simp at hst
    | clear t =>
      simp only [machine, step] at hst
      split at hst
      · rename_i hpc
        have hov := hpre _ (List.prefix_refl _)
        simp only [inCall_pc hinv] at hov
        simp only [Option.some.injEq, Prod.mk.injEq] at hst
        obtain ⟨rfl, rfl⟩ := hst
        refine ⟨hsw (by simp), ?_⟩
        intro v hv
        exfalso
        dsimp only at hv
        have := hov v t
        grind [upd]
      · simp at hst

end Verif.Mutex
