import Verif.WaitGroup.Model
/-!
# Helper lemmas for `koios::wait_group`
-/

namespace Verif.WaitGroup

theorem life_append (t : Nat) (tr e : List Ev) :
    life t (tr ++ e) = e.foldl (fun l e => l.bind (lifeStep t · e)) (life t tr) := by
  simp [life, List.foldl_append]

theorem count_append (tr e : List Ev) : count (tr ++ e) = e.foldl countStep (count tr) := by
  simp [count, List.foldl_append]

def Pc.life : Pc → Life
  | .idle => .out
  | .missed => .asking
  | .queued => .asleep
  | .waking | .waker _ => .inDone

structure Inv (s : St) (tr : List Ev) : Prop where
  life : ∀ t, life t tr = some (s.pc t).life
  cnt : (s.cnt : Int) = count tr % (2 ^ 64 : Int)
  q : ∀ u, u ∈ s.queue → s.pc u = .queued
  nodup : s.queue.Nodup
  waker : ∀ t u, s.pc t = .waker u → s.pc u = .queued ∧ u ∉ s.queue
  wuniq : ∀ t t' u, s.pc t = .waker u → s.pc t' = .waker u → t = t'
  whereQ : ∀ u, s.pc u = .queued → u ∈ s.queue ∨ ∃ t, s.pc t = .waker u

theorem inv_init : Inv init [] := by
  constructor <;> simp [init, WaitGroup.life, Pc.life, count]

theorem inv_step (s : St) (tr : List Ev) (l : Lbl) (s' : St) (e : List Ev)
    (h : Inv s tr) (hs : step s l = some (s', e)) : Inv s' (tr ++ e) := by
  obtain ⟨hl, hc, hq, hn, hw, hu, hwh⟩ := h
  have hcm := Int.emod_nonneg (count tr) (b := 2 ^ 64) (by decide)
  have hcl := Int.emod_lt_of_pos (count tr) (b := 2 ^ 64) (by decide)
  cases l with
  | add n =>
    simp only [step, Option.some.injEq, Prod.mk.injEq] at hs
    obtain ⟨rfl, rfl⟩ := hs
    constructor <;> try dsimp only
    · intro t; rw [life_append, hl]; simp [lifeStep]
    · rw [count_append]
      simp only [List.foldl_cons, List.foldl_nil, countStep, W]
      omega
    all_goals assumption
  | done t n =>
    simp only [step] at hs
    split at hs
    · rename_i ht
      have hcnt : (((s.cnt + (W - n % W)) % W : Nat) : Int) = (count tr - n) % 2 ^ 64 := by
        simp only [W]; omega
      split at hs <;> simp only [Option.some.injEq, Prod.mk.injEq] at hs <;>
        obtain ⟨rfl, rfl⟩ := hs
      · constructor <;> try dsimp only
        · intro x
          rw [life_append, hl, upd_apply]
          by_cases hx : x = t
          · subst hx; simp [lifeStep, ht, Pc.life]
          · simp [lifeStep, hx, Ne.symm hx]
        · rw [count_append]; simpa [countStep] using hcnt
        all_goals (try simp only [upd_apply]); grind
      · constructor <;> try dsimp only
        · intro x
          rw [life_append, hl]
          by_cases hx : x = t
          · subst hx; simp [lifeStep, ht, Pc.life]
          · simp [lifeStep, Ne.symm hx]
        · rw [count_append]; simpa [countStep] using hcnt
        all_goals assumption
    · simp at hs
  | dequeue t u =>
    simp only [step] at hs
    split at hs
    · rename_i ht
      simp only [Option.some.injEq, Prod.mk.injEq] at hs
      obtain ⟨rfl, rfl⟩ := hs
      have hm : ∀ x, x ∈ s.queue.erase u ↔ x ≠ u ∧ x ∈ s.queue := fun x => hn.mem_erase_iff
      have hn' := hn.erase u
      constructor <;> try dsimp only
      · intro x
        rw [life_append, hl, upd_apply]
        by_cases hx : x = t
        · subst hx; simp [ht.1, Pc.life]
        · simp [hx]
      · simpa using hc
      all_goals (try simp only [upd_apply]); grind
    · simp at hs
  | wake t =>
    simp only [step] at hs
    split at hs
    · rename_i u ht
      simp only [Option.some.injEq, Prod.mk.injEq] at hs
      obtain ⟨rfl, rfl⟩ := hs
      have hwt := hw t u ht
      have htu : t ≠ u := by rintro rfl; simp [ht] at hwt
      constructor <;> try dsimp only
      · intro x
        rw [life_append, hl]
        simp only [upd_apply]
        by_cases hx : x = u
        · subst hx; simp [lifeStep, hwt.1, Pc.life]
        · by_cases hx2 : x = t
          · subst hx2; simp [lifeStep, ht, Pc.life, hx, Ne.symm hx]
          · simp [hx, hx2, lifeStep, Ne.symm hx]
      · rw [count_append]; simpa [countStep] using hc
      all_goals (try simp only [upd_apply]); grind
    · simp at hs
  | drained t =>
    simp only [step] at hs
    split at hs
    · rename_i ht
      simp only [Option.some.injEq, Prod.mk.injEq] at hs
      obtain ⟨rfl, rfl⟩ := hs
      constructor <;> try dsimp only
      · intro x
        rw [life_append, hl, upd_apply]
        by_cases hx : x = t
        · subst hx; simp [lifeStep, ht.1, Pc.life]
        · simp [lifeStep, hx, Ne.symm hx]
      · rw [count_append]; simpa [countStep] using hc
      all_goals (try simp only [upd_apply]); grind
    · simp at hs
  | wait t =>
    simp only [step] at hs
    split at hs
    · rename_i ht
      split at hs <;> simp only [Option.some.injEq, Prod.mk.injEq] at hs <;>
        obtain ⟨rfl, rfl⟩ := hs
      · constructor <;> try dsimp only
        · intro x
          rw [life_append, hl]
          by_cases hx : x = t
          · subst hx; simp [lifeStep, ht, Pc.life]
          · simp [lifeStep, Ne.symm hx]
        · rw [count_append]; simpa [countStep] using hc
        all_goals assumption
      · constructor <;> try dsimp only
        · intro x
          rw [life_append, hl, upd_apply]
          by_cases hx : x = t
          · subst hx; simp [lifeStep, ht, Pc.life]
          · simp [lifeStep, hx, Ne.symm hx]
        · rw [count_append]; simpa [countStep] using hc
        all_goals (try simp only [upd_apply]); grind
    · simp at hs
  | suspend t =>
    simp only [step] at hs
    split at hs
    · rename_i ht
      simp only [Option.some.injEq, Prod.mk.injEq] at hs
      obtain ⟨rfl, rfl⟩ := hs
      have hnt : t ∉ s.queue := fun hm => by simp [hq t hm] at ht
      have hn' : (s.queue ++ [t]).Nodup := by
        rw [List.nodup_append]; exact ⟨hn, by simp, by grind⟩
      constructor <;> try dsimp only
      · intro x
        rw [life_append, hl, upd_apply]
        by_cases hx : x = t
        · subst hx; simp [lifeStep, ht, Pc.life]
        · simp [lifeStep, hx, Ne.symm hx]
      · rw [count_append]; simpa [countStep] using hc
      all_goals (try simp only [upd_apply]); grind
    · simp at hs

theorem inv_of_reaches {s : St} {tr : List Ev} (h : machine.Reaches s tr) : Inv s tr :=
  h.inv Inv inv_init inv_step

/-! ### Events at prefixes -/

theorem UnitDones.mono {a b : List Ev} (h : UnitDones b) (hab : a <+: b) : UnitDones a :=
  ⟨fun p t n hp => h.1 p t n (hp.trans hab), fun p hp => h.2 p (hp.trans hab)⟩

theorem SleepsOnlyWhilePositive.mono {a b : List Ev} (h : SleepsOnlyWhilePositive b)
    (hab : a <+: b) : SleepsOnlyWhilePositive a := fun p t hp => h p t (hp.trans hab)

theorem NoAddDuringDone.mono {a b : List Ev} (h : NoAddDuringDone b)
    (hab : a <+: b) : NoAddDuringDone a := fun p n hp => h p n (hp.trans hab)

/-- Under `UnitDones` the count never goes negative. -/
theorem count_nonneg {tr : List Ev} (h : UnitDones tr) : 0 ≤ count tr := by
  induction tr using List.reverseRecOn with
  | nil => simp [count]
  | append_singleton tr x ih =>
    have h0 := ih (h.mono (List.prefix_append _ _))
    rw [count_append]
    simp only [List.foldl_cons, List.foldl_nil]
    cases x with
    | doneCalled t n =>
      have := h.1 tr t n (List.prefix_refl _)
      simp only [countStep]; omega
    | added n => simp only [countStep]; omega
    | _ => simpa only [countStep] using h0

def Pc.isWaking : Pc → Bool
  | .waking | .waker _ => true
  | _ => false

/-- Somebody registered implies positive count or somebody about to wake. -/
def Covered (s : St) (tr : List Ev) : Prop :=
  s.queue ≠ [] → 0 < count tr ∨ ∃ t, (s.pc t).isWaking = true

theorem covered_of_reaches {s : St} {tr : List Ev} (h : machine.Reaches s tr)
    (hu : UnitDones tr) (hp : SleepsOnlyWhilePositive tr) : Covered s tr := by
  refine Machine.Reaches.inv' (M := machine)
    (fun s tr => UnitDones tr → SleepsOnlyWhilePositive tr → Covered s tr)
    (by intro _ _ h; simp [machine, init] at h) ?_ h hu hp
  clear h hu hp s tr
  intro s tr l s' e hr ih hs hu hp
  have hi := inv_of_reaches hr
  have hu0 := hu.mono (List.prefix_append tr e)
  have ih := ih hu0 (hp.mono (List.prefix_append tr e))
  have hnn := count_nonneg hu0
  have hsmall := hu0.2 tr (List.prefix_refl _)
  have hcnt : (s.cnt : Int) = count tr := by have := hi.cnt; omega
  change step s l = some (s', e) at hs
  intro hne
  cases l with
  | add n =>
    simp only [step, Option.some.injEq, Prod.mk.injEq] at hs
    obtain ⟨rfl, rfl⟩ := hs
    rw [count_append]; simp only [List.foldl_cons, List.foldl_nil, countStep]
    rcases ih hne with h | h
    · left; omega
    · exact Or.inr h
  | done t n =>
    simp only [step] at hs
    split at hs
    · rename_i ht
      split at hs <;> simp only [Option.some.injEq, Prod.mk.injEq] at hs <;>
        obtain ⟨rfl, rfl⟩ := hs
      · right; exact ⟨t, by simp [Pc.isWaking]⟩
      · rename_i hc1
        have h1 := hu.1 tr t n ⟨[.doneReturned t], by simp⟩
        rw [count_append]; simp only [List.foldl_cons, List.foldl_nil, countStep]
        left; omega
    · simp at hs
  | dequeue t u =>
    simp only [step] at hs
    split at hs
    · simp only [Option.some.injEq, Prod.mk.injEq] at hs
      obtain ⟨rfl, rfl⟩ := hs
      right; exact ⟨t, by simp [Pc.isWaking]⟩
    · simp at hs
  | wake t =>
    simp only [step] at hs
    split at hs
    · rename_i u ht
      simp only [Option.some.injEq, Prod.mk.injEq] at hs
      obtain ⟨rfl, rfl⟩ := hs
      have htu : t ≠ u := by rintro rfl; have := (hi.waker t t ht).1; simp [ht] at this
      right; exact ⟨t, by simp [upd_apply, htu, Pc.isWaking]⟩
    · simp at hs
  | drained t =>
    simp only [step] at hs
    split at hs
    · rename_i ht
      simp only [Option.some.injEq, Prod.mk.injEq] at hs
      obtain ⟨rfl, rfl⟩ := hs
      exact absurd ht.2 hne
    · simp at hs
  | wait t =>
    simp only [step] at hs
    split at hs
    · rename_i ht
      split at hs <;> simp only [Option.some.injEq, Prod.mk.injEq] at hs <;>
        obtain ⟨rfl, rfl⟩ := hs
      · rw [count_append]; simp only [List.foldl_cons, List.foldl_nil, countStep]
        exact ih hne
      · rw [count_append]; simp only [List.foldl_cons, List.foldl_nil, countStep]
        rcases ih hne with h | ⟨x, hx⟩
        · exact Or.inl h
        · refine Or.inr ⟨x, ?_⟩
          have : x ≠ t := by rintro rfl; simp [ht, Pc.isWaking] at hx
          simpa [upd_apply, this] using hx
    · simp at hs
  | suspend t =>
    simp only [step] at hs
    split at hs
    · rename_i ht
      simp only [Option.some.injEq, Prod.mk.injEq] at hs
      obtain ⟨rfl, rfl⟩ := hs
      left
      have := hp tr t (List.prefix_refl _)
      rw [count_append]; simpa [countStep] using this
    · simp at hs

/-- While somebody is waking, the count is zero. -/
theorem waking_zero {s : St} {tr : List Ev} (h : machine.Reaches s tr)
    (hu : UnitDones tr) (hp : NoAddDuringDone tr) :
    (∀ t, (s.pc t).isWaking = true → count tr = 0) ∧ WokenOnlyAtZero tr := by
  refine Machine.Reaches.inv' (M := machine)
    (fun s tr => UnitDones tr → NoAddDuringDone tr →
      (∀ t, (s.pc t).isWaking = true → count tr = 0) ∧ WokenOnlyAtZero tr)
    ?_ ?_ h hu hp
  · intro _ _
    refine ⟨by simp [machine, init, Pc.isWaking], ?_⟩
    intro p t hp
    exact absurd hp not_concat_prefix_nil
  clear h hu hp s tr
  intro s tr l s' e hr ih hs hu hp
  have hi := inv_of_reaches hr
  have hu0 := hu.mono (List.prefix_append tr e)
  obtain ⟨ih1, ih2⟩ := ih hu0 (hp.mono (List.prefix_append tr e))
  have hnn := count_nonneg hu0
  have hsmall := hu0.2 tr (List.prefix_refl _)
  have hcnt : (s.cnt : Int) = count tr := by have := hi.cnt; omega
  change step s l = some (s', e) at hs
  have woken1 : ∀ x, (∀ t, x = Ev.woken t → count tr = 0) → WokenOnlyAtZero (tr ++ [x]) := by
    intro x hx p t hpt
    rw [concat_prefix_concat_iff] at hpt
    rcases hpt with h | ⟨rfl, rfl⟩
    · exact ih2 p t h
    · exact hx t rfl
  have woken2 : ∀ x y, (∀ t, x ≠ Ev.woken t) → (∀ t, y ≠ Ev.woken t) → WokenOnlyAtZero (tr ++ [x, y]) := by
    intro x y hx hy p t hpt
    rw [show tr ++ [x, y] = (tr ++ [x]) ++ [y] by simp, concat_prefix_concat_iff] at hpt
    rcases hpt with h | ⟨_, h⟩
    · exact woken1 x (fun t h => absurd h (hx t)) p t h
    · exact absurd h.symm (hy t)
  cases l with
  | add n =>
    simp only [step, Option.some.injEq, Prod.mk.injEq] at hs
    obtain ⟨rfl, rfl⟩ := hs
    refine ⟨?_, woken1 _ (by simp)⟩
    intro t ht
    have h1 := hp tr n (List.prefix_refl _) t
    rw [hi.life t] at h1
    cases hpc : s.pc t <;> simp [hpc, Pc.isWaking, Pc.life] at ht h1
  | done t n =>
    simp only [step] at hs
    split at hs
    · rename_i ht
      split at hs <;> simp only [Option.some.injEq, Prod.mk.injEq] at hs <;>
        obtain ⟨rfl, rfl⟩ := hs
      · rename_i hc1
        have h1 := hu.1 tr t n ⟨[], by simp⟩
        refine ⟨?_, woken1 _ (by simp)⟩
        intro x hx
        rw [count_append]; simp only [List.foldl_cons, List.foldl_nil, countStep]
        omega
      · rename_i hc1
        have h1 := hu.1 tr t n ⟨[.doneReturned t], by simp⟩
        refine ⟨?_, woken2 _ _ (by simp) (by simp)⟩
        intro x hx
        have := ih1 x hx
        omega
    · simp at hs
  | dequeue t u =>
    simp only [step] at hs
    split at hs
    · rename_i ht
      simp only [Option.some.injEq, Prod.mk.injEq] at hs
      obtain ⟨rfl, rfl⟩ := hs
      rw [List.append_nil]
      refine ⟨?_, ih2⟩
      intro x hx
      exact ih1 t (by simp [ht.1, Pc.isWaking])
    · simp at hs
  | wake t =>
    simp only [step] at hs
    split at hs
    · rename_i u ht
      simp only [Option.some.injEq, Prod.mk.injEq] at hs
      obtain ⟨rfl, rfl⟩ := hs
      have h0 := ih1 t (by simp [ht, Pc.isWaking])
      refine ⟨?_, woken1 _ (fun _ _ => h0)⟩
      intro x hx
      rw [count_append]; simpa [countStep] using h0
    · simp at hs
  | drained t =>
    simp only [step] at hs
    split at hs
    · rename_i ht
      simp only [Option.some.injEq, Prod.mk.injEq] at hs
      obtain ⟨rfl, rfl⟩ := hs
      refine ⟨?_, woken1 _ (by simp)⟩
      intro x hx
      rw [count_append]; simpa [countStep] using ih1 t (by simp [ht.1, Pc.isWaking])
    · simp at hs
  | wait t =>
    simp only [step] at hs
    split at hs
    · rename_i ht
      split at hs <;> simp only [Option.some.injEq, Prod.mk.injEq] at hs <;>
        obtain ⟨rfl, rfl⟩ := hs
      · refine ⟨?_, woken2 _ _ (by simp) (by simp)⟩
        intro x hx
        rw [count_append]; simpa [countStep] using ih1 x hx
      · refine ⟨?_, woken1 _ (by simp)⟩
        intro x hx
        rw [count_append]
        by_cases hxt : x = t
        · subst hxt; simp [Pc.isWaking] at hx
        · simp only [upd_apply, hxt, if_false] at hx
          simpa [countStep] using ih1 x hx
    · simp at hs
  | suspend t =>
    simp only [step] at hs
    split at hs
    · rename_i ht
      simp only [Option.some.injEq, Prod.mk.injEq] at hs
      obtain ⟨rfl, rfl⟩ := hs
      refine ⟨?_, woken1 _ (by simp)⟩
      intro x hx
      rw [count_append]
      by_cases hxt : x = t
      · subst hxt; simp [Pc.isWaking] at hx
      · simp only [upd_apply, hxt, if_false] at hx
        simpa [countStep] using ih1 x hx
    · simp at hs

/-- A `wait()` that does not suspend saw the count at zero, modulo 2^64. -/
theorem passed_mod {s : St} {tr : List Ev} (h : machine.Reaches s tr) :
    ∀ p t, p ++ [.passed t] <+: tr → count p % 2 ^ 64 = 0 := by
  refine Machine.Reaches.inv' (M := machine)
    (fun _ tr => ∀ p t, p ++ [.passed t] <+: tr → count p % 2 ^ 64 = 0) ?_ ?_ h
  · intro p t hp; exact absurd hp not_concat_prefix_nil
  clear h s tr
  intro s tr l s' e hr ih hs p t hp
  have hi := inv_of_reaches hr
  change step s l = some (s', e) at hs
  rcases prefix_append_cases hp with h | ⟨q, hq, hpq⟩
  · exact ih p t h
  have hmem : q = [] ∨ Ev.passed t ∈ e := by
    rcases List.eq_nil_or_concat q with h | ⟨q', x, h⟩
    · exact Or.inl h
    · right
      subst h
      rw [List.concat_eq_append, ← List.append_assoc] at hpq
      have := List.append_inj' hpq rfl
      simp at this
      apply hq.subset
      simp [this.2]
  rcases hmem with rfl | hmem
  · exact ih p t (by simp [hpq])
  cases l with
  | wait t' =>
    simp only [step] at hs
    split at hs
    · split at hs <;> simp only [Option.some.injEq, Prod.mk.injEq] at hs <;>
        obtain ⟨rfl, rfl⟩ := hs
      · rename_i hc
        rw [show tr ++ [Ev.asked t', Ev.passed t'] = (tr ++ [.asked t']) ++ [.passed t'] by simp,
          concat_prefix_concat_iff] at hp
        rcases hp with hp | ⟨rfl, _⟩
        · rw [concat_prefix_concat_iff] at hp
          rcases hp with hp | ⟨_, hp⟩
          · exact ih p t hp
          · simp at hp
        · rw [count_append]
          simp only [List.foldl_cons, List.foldl_nil, countStep]
          have := hi.cnt
          omega
      · simp at hmem
    · simp at hs
  | add n => simp only [step] at hs; grind
  | done t n => simp only [step] at hs; grind
  | dequeue t u => simp only [step] at hs; grind
  | wake t => simp only [step] at hs; grind
  | drained t => simp only [step] at hs; grind
  | suspend t => simp only [step] at hs; grind

end Verif.WaitGroup
