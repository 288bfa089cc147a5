import Verif.EndToEnd.Live
import Verif.Common.Prefix
/-!
# C111: when the program ends, has main got its total?
-/

namespace Verif.EndToEnd

variable {S : Type} {f : Nat → S → S} {x0 : S} {n W : Nat}

theorem over_total {s : St S} {tr : List (Ev S)} (h : (machine f x0 n W).Reaches s tr) : s.prog 0 = .mOver → ∃ v, Ev.total v ∈ tr := by
  refine Machine.Reaches.inv' (I := fun (s : St S) tr => s.prog 0 = .mOver → ∃ v, Ev.total v ∈ tr) ?_ ?_ h
  · simp [machine, init]
  · rintro s tr l s' e hr I hs
    change step f n W s l = some (s', e) at hs
    cases l with
    | lock w l =>
      obtain ⟨mx', e', ho, hp, hm, rfl, rfl⟩ := lock_step hs
      have := lockProg_cases hp
      simp only [upd_apply]
      intro hx
      obtain ⟨v, hv⟩ := I (by grind)
      exact ⟨v, List.mem_append_left _ hv⟩
    | group w t l =>
      obtain ⟨mx', e', ho, hp, hm, rfl, rfl⟩ := group_step hs
      have := groupProg_cases hp
      simp only [upd_apply]
      intro hx
      obtain ⟨v, hv⟩ := I (by grind)
      exact ⟨v, List.mem_append_left _ hv⟩
    | read w =>
      simp only [step] at hs
      split at hs <;> simp only [Option.some.injEq, Prod.mk.injEq, reduceCtorEq] at hs
      obtain ⟨rfl, rfl⟩ := hs
      exact fun _ => ⟨s.x, by simp⟩
    | _ =>
      simp only [step] at hs
      (repeat' split at hs) <;> simp only [Option.some.injEq, Prod.mk.injEq, reduceCtorEq] at hs
      all_goals obtain ⟨rfl, rfl⟩ := hs
      all_goals simp only [upd_apply]
      all_goals
        intro hx
        obtain ⟨v, hv⟩ := I (by grind)
        exact ⟨v, List.mem_append_left _ hv⟩

theorem waitsOnly_of_append {a b : List (Ev S)} (h : WaitsOnlyForJobs n (a ++ b)) : WaitsOnlyForJobs n a := fun p hp => h p (hp.trans (List.prefix_append _ _))

/-- main in the queue: a job has not called done() yet, or somebody is waking -/
theorem queued_covered (hn : n < 2 ^ 64) {s : St S} {tr : List (Ev S)} (h : (machine f x0 n W).Reaches s tr) (hw : WaitsOnlyForJobs n tr) :
    s.wg.pc 0 = .queued → s.wg.cnt ≠ 0 ∨ ∃ t, s.wg.pc t = .waking ∨ ∃ u, s.wg.pc t = .waker u := by
  revert hw
  refine Machine.Reaches.inv' (I := fun (s : St S) tr => WaitsOnlyForJobs n tr → s.wg.pc 0 = .queued → s.wg.cnt ≠ 0 ∨ ∃ t, s.wg.pc t = .waking ∨ ∃ u, s.wg.pc t = .waker u) ?_ ?_ h
  · simp [machine, init, WaitGroup.init]
  · rintro s tr l s' e hr I hs hw
    have hI := I (waitsOnly_of_append hw)
    have G := gr_inv hn hr
    have L := loc_inv hr
    have Wi := wgInv hr
    change step f n W s l = some (s', e) at hs
    cases l with
    | lock w l =>
      obtain ⟨mx', e', ho, hp, hm, rfl, rfl⟩ := lock_step hs
      exact hI
    | group w t l =>
      obtain ⟨mx', e', ho, hp, hm, rfl, rfl⟩ := group_step hs
      have mn := L.mn
      cases l with
      | suspend u =>
        simp only [mayGroup, decide_eq_true_eq] at hp
        obtain ⟨hp, rfl⟩ := hp
        have h0 : u = 0 := (mn u).1 (by rw [hp]; rfl)
        subst h0
        simp only [WaitGroup.step] at hm
        split at hm <;> simp only [Option.some.injEq, Prod.mk.injEq, reduceCtorEq] at hm
        obtain ⟨rfl, rfl⟩ := hm
        intro _
        left
        have h1 := hw tr (by simp)
        have := G.dc (by rw [hp]; simp)
        simp only
        omega
      | add k =>
        simp only [mayGroup, decide_eq_true_eq] at hp
        have h0 : t = 0 := (mn t).1 (by rw [hp.1]; rfl)
        subst h0
        simp only [WaitGroup.step, Option.some.injEq, Prod.mk.injEq] at hm
        obtain ⟨rfl, rfl⟩ := hm
        intro hq
        have := L.g1 0 (Or.inr hq)
        rw [hp.1] at this; cases this
      | done u k =>
        simp only [mayGroup, decide_eq_true_eq] at hp
        obtain ⟨hp, hi, rfl, rfl⟩ := hp
        have hu0 : u ≠ 0 := fun h0 => by have := (mn u).2 h0; rw [hp] at this; cases this
        simp only [WaitGroup.step] at hm
        (repeat' split at hm) <;> simp only [Option.some.injEq, Prod.mk.injEq, reduceCtorEq] at hm
        · obtain ⟨rfl, rfl⟩ := hm
          intro _
          exact Or.inr ⟨u, Or.inl (by simp)⟩
        · obtain ⟨rfl, rfl⟩ := hm
          rename_i hne
          intro hq
          have hc : (s.wg.cnt + (WaitGroup.W - 1 % WaitGroup.W)) % WaitGroup.W ≠ 0 ∨ s.wg.cnt = 0 := by
            have : WaitGroup.W = 2 ^ 64 := rfl
            have hlt : s.wg.cnt < 2 ^ 64 := by
              have h1 := Wi.cnt
              have := Int.emod_lt_of_pos (WaitGroup.count (List.filterMap groupEv tr)) (b := 2 ^ 64) (by decide)
              omega
            rw [this]; omega
          rcases hc with hc | hc
          · exact Or.inl hc
          · rcases hI hq with h1 | h1
            · exact absurd hc h1
            · exact Or.inr h1
      | dequeue u v =>
        simp only [WaitGroup.step] at hm
        split at hm <;> simp only [Option.some.injEq, Prod.mk.injEq, reduceCtorEq] at hm
        obtain ⟨rfl, rfl⟩ := hm
        intro _
        exact Or.inr ⟨u, Or.inr ⟨v, by simp⟩⟩
      | wake u =>
        have wk := Wi.waker
        simp only [WaitGroup.step] at hm
        split at hm <;> simp only [Option.some.injEq, Prod.mk.injEq, reduceCtorEq] at hm
        rename_i v hv
        obtain ⟨rfl, rfl⟩ := hm
        have hvq := (wk u v hv).1
        have hv0 : v = 0 := (mn v).1 (by rw [L.g1 v (Or.inr hvq)]; rfl)
        subst hv0
        simp
      | drained u =>
        have wq := Wi.whereQ
        have wk := Wi.wuniq
        simp only [WaitGroup.step] at hm
        split at hm <;> simp only [Option.some.injEq, Prod.mk.injEq, reduceCtorEq] at hm
        rename_i hv
        obtain ⟨rfl, rfl⟩ := hm
        intro hq
        simp only [upd_apply] at hq ⊢
        have hu0 : (0 : Nat) ≠ u := fun h0 => by subst h0; simp at hq
        rw [if_neg hu0] at hq
        rcases wq 0 hq with h1 | ⟨t', h1⟩
        · rw [hv.2] at h1; simp at h1
        · refine Or.inr ⟨t', Or.inr ⟨0, ?_⟩⟩
          have : t' ≠ u := fun h2 => by subst h2; rw [hv.1] at h1; cases h1
          simp [this, h1]
      | wait u =>
        simp only [mayGroup, decide_eq_true_eq] at hp
        have h0 : t = 0 := (mn t).1 (by rw [hp.1]; rfl)
        subst h0
        obtain ⟨hp, rfl, _⟩ := hp
        simp only [WaitGroup.step] at hm
        (repeat' split at hm) <;> simp only [Option.some.injEq, Prod.mk.injEq, reduceCtorEq] at hm
        · obtain ⟨rfl, rfl⟩ := hm
          exact hI
        · obtain ⟨rfl, rfl⟩ := hm
          simp
    | _ =>
      simp only [step] at hs
      (repeat' split at hs) <;> simp only [Option.some.injEq, Prod.mk.injEq, reduceCtorEq] at hs
      all_goals obtain ⟨rfl, rfl⟩ := hs
      all_goals exact hI

/-- **C111**, the end: if nobody goes to sleep at the mutex after it has become free, nor at the wait_group after the last done() (see C02 and C23: the code does not exclude that
with two workers or more), then every execution that cannot go on has finished: main has got its total.

What is missing for the full property: these two hypotheses (see the refutation). -/
theorem ends_with_total_partial (hn : n < 2 ^ 64) (hW : 0 < W) {s : St S} {tr : List (Ev S)} (h : (machine f x0 n W).Reaches s tr)
    (hm : Mutex.SleepsOnlyWhileHeld (lockTrace tr)) (hw : WaitsOnlyForJobs n tr) (he : Ended f n W s) : ∃ v, Ev.total v ∈ tr := by
  have L := loc_inv h
  have M := mxInv h
  have G := gr_inv hn h
  have hna := ended_inactive hW h he
  have act : ∀ t, s.prog t ≠ .unborn → s.prog t ≠ .over → s.prog t ≠ .mOver → s.mx.pc t ≠ .queued → s.wg.pc t ≠ .queued → False :=
    fun t a b c d e => hna t ⟨a, b, c, d, e⟩
  have jobG : ∀ t, t ≠ 0 → s.wg.pc t ≠ .queued := fun t ht hq => ht ((L.mn t).1 (by rw [L.g1 t (Or.inr hq)]; rfl))
  have pcs : ∀ t, s.mx.pc t = .idle ∨ s.mx.pc t = .queued := by
    intro t
    by_cases hq : s.mx.pc t = .queued
    · exact Or.inr hq
    · left
      apply L.idleM <;> intro hp
      all_goals
        have ht0 : t ≠ 0 := fun h0 => by have := (L.mn t).2 h0; rw [hp] at this; cases this
        exact act t (by simp [hp]) (by simp [hp]) (by simp [hp]) hq (jobG t ht0)
  have quiet : Mutex.Quiet (lockTrace tr) := by
    intro t
    have hl := M.life t
    rcases pcs t with h1 | h1 <;> rw [h1] at hl
    · exact Or.inl hl
    · exact Or.inr hl
  have noq : ∀ t, s.mx.pc t ≠ .queued := by
    intro t hq
    have hl := M.life t
    rw [hq] at hl
    exact Mutex.mutex_no_lost_wakeup_partial _ _ (parts h).1 hm quiet t hl
  have jobs : ∀ t, t ≠ 0 → t ≤ s.spawned → s.prog t = .over := by
    intro t h1 h2
    by_contra hc
    refine act t ?_ hc ?_ (noq t) (jobG t h1)
    · intro hu; have := ((L.un t).1 hu).2; omega
    · intro hu; exact h1 ((L.mn t).1 (by rw [hu]; rfl))
  apply over_total h
  by_contra hc
  have hmain := (L.mn 0).2 rfl
  have hq : s.wg.pc 0 = .queued := by
    by_contra hq
    refine act 0 ?_ ?_ hc (noq 0) hq <;> intro hu <;> (rw [hu] at hmain; cases hmain)
  have hp := L.g1 0 (Or.inr hq)
  have hsp := L.sw (Or.inl hp)
  have hcz : s.wg.cnt = 0 := by
    have hd := G.dc (by rw [hp]; simp)
    have hsub : List.range' 1 n ⊆ doners tr := by
      intro t ht
      rw [List.mem_range'_1] at ht
      exact (G.dm t).2 (Or.inr (jobs t (by omega) (by omega)))
    have := ((List.nodup_range' (s := 1) (n := n)).subperm hsub).length_le
    simp at this
    omega
  rcases queued_covered hn h hw hq with h1 | ⟨t, h1 | ⟨u, h1⟩⟩
  · exact h1 hcz
  · have := L.g2 t h1
    exact act t (by simp [this]) (by simp [this]) (by simp [this]) (noq t) (by rw [h1]; simp)
  · have := L.g3 t u h1
    exact act t (by simp [this]) (by simp [this]) (by simp [this]) (noq t) (by rw [h1]; simp)

end Verif.EndToEnd
