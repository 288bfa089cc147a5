import Verif.Pool.Proofs
/-!
# Helper lemmas: `stop()` drains, `quick_stop()` stops
-/

namespace Verif.Pool

/-- A prefix ending in an event not in `e` is a prefix of `tr`. -/
theorem old_prefix {tr e p : List Ev} {x : Ev} (hp : p ++ [x] <+: tr ++ e) (hx : x ∉ e) :
    p ++ [x] <+: tr := by
  rcases prefix_append_cases hp with h | ⟨q, hq, hpq⟩
  · exact h
  · rcases List.eq_nil_or_concat q with rfl | ⟨q', y, rfl⟩
    · simp at hpq; simp [hpq]
    · rw [List.concat_eq_append, ← List.append_assoc] at hpq
      have := List.append_inj' hpq rfl
      simp at this
      exact absurd (hq.subset (by simp [this.2])) hx

theorem inTime_old {tr e : List Ev} {x : Nat} (h : InTime x (tr ++ e)) (hx : ∀ a, Ev.enqueued a x ∉ e) :
    InTime x tr := by
  obtain ⟨p, a, hp, hc⟩ := h
  exact ⟨p, a, old_prefix hp (hx a), hc⟩

/-- Every queued task that was accepted in time will still be looked at by some worker. -/
def Cov (N : Nat) (s : St) (tr : List Ev) : Prop :=
  s.stopNow = false → ∀ i x, x ∈ s.queue i → InTime x tr → ∃ w, w < N ∧ (s.pc w).willSee i = true

theorem cov_of_reaches {N : Nat} (hN : 0 < N) {s : St} {tr : List Ev} (h : (machine N).Reaches s tr) :
    Cov N s tr := by
  refine Machine.Reaches.inv' (M := machine N) (Cov N) ?_ ?_ h
  · intro _ i x hx; simp [machine, init] at hx
  clear h s tr
  intro s tr l s' e hr ih hs
  have hi := inv_of_reaches hr
  change step N s l = some (s', e) at hs
  -- a worker moving on is harmless if it keeps seeing what it would have seen
  have move : ∀ (w : Nat) (pc' : Pc) (e : List Ev), (∀ a x, Ev.enqueued a x ∉ e) →
      (s.stopNow = false → ∀ i, i < N → s.queue i ≠ [] → (s.pc w).willSee i = true → pc'.willSee i = true) →
      Cov N { s with pc := upd s.pc w pc' } (tr ++ e) := by
    intro w pc' e he hsee hn i x hx hin
    obtain ⟨v, hv1, hv2⟩ := ih hn i x hx (inTime_old hin (fun a => he a x))
    refine ⟨v, hv1, ?_⟩
    dsimp only
    simp only [upd_apply]
    split
    · rename_i hvw; subst hvw
      exact hsee hn i (hi.qin i x hx).1 (List.ne_nil_of_mem hx) hv2
    · exact hv2
  cases l with
  | enqTest a =>
    simp only [step] at hs
    split at hs
    · have he : (∀ b x, Ev.enqueued b x ∉ e) ∧ s'.queue = s.queue ∧ s'.pc = s.pc ∧ s'.stopNow = s.stopNow := by
        split at hs <;> simp only [Option.some.injEq, Prod.mk.injEq] at hs <;> obtain ⟨rfl, rfl⟩ := hs <;> simp
      obtain ⟨he, q1, q2, q3⟩ := he
      intro hn i x hx hin
      rw [q1] at hx; rw [q3] at hn; rw [q2]
      exact ih hn i x hx (inTime_old hin (fun a => he a x))
    · simp at hs
  | enqPush a i =>
    simp only [step] at hs
    split at hs
    · rename_i hc
      simp only [Option.some.injEq, Prod.mk.injEq] at hs
      obtain ⟨rfl, rfl⟩ := hs
      intro hn j x hx hin
      dsimp only at hx hn ⊢
      by_cases hxn : x = s.next
      · subst hxn
        -- who enqueued it?
        obtain ⟨p, b, hp, hcase⟩ := hin
        have hpb : p = tr ∧ b = a := by
          rw [concat_prefix_concat_iff] at hp
          rcases hp with hp | ⟨h1, h2⟩
          · exfalso
            have hm : Ev.enqueued b s.next ∈ tr := hp.subset (by simp)
            have h0 := hi.enq s.next
            simp at h0
            have : 0 < timesEnqueued s.next tr := by
              unfold timesEnqueued; rw [List.countP_pos_iff]; exact ⟨_, hm, by simp⟩
            omega
          · simp at h2; exact ⟨h1, h2⟩
        obtain ⟨rfl, rfl⟩ := hpb
        rcases hcase with ⟨w, rfl⟩ | hns
        · have hact := hc.1
          simp only [active] at hact
          split at hact
          · rename_i y hpc
            have hw : w < N := by
              rcases hi.fin y (hi.run w y hpc).1 with h | ⟨v, hv, hpv⟩
              · have := (hi.run w y hpc).2; omega
              · rwa [hi.runU w v y hpc hpv]
            exact ⟨w, hw, by simp [hpc, Pc.willSee]⟩
          · simp at hact
        · have hreq : s.stopReq = false := by
            cases hb : s.stopReq
            · rfl
            · exact absurd (hi.req.1 hb) hns
          have := hi.late hreq 0
          refine ⟨0, hN, ?_⟩
          cases hpc : s.pc 0 <;> simp [hpc, Pc.late] at this <;> simp [Pc.willSee]
      · have hx' : x ∈ s.queue j := by
          simp only [upd_apply] at hx
          split at hx
          · rename_i e; subst e; simp [hxn] at hx; exact hx
          · exact hx
        exact ih hn j x hx' (inTime_old hin (by intro b; simp [hxn]))
    · simp at hs
  | work w =>
    simp only [step] at hs
    split at hs
    · split at hs
      · rename_i mid hpc
        split at hs <;> simp only [Option.some.injEq, Prod.mk.injEq] at hs <;> obtain ⟨rfl, rfl⟩ := hs
        · exact move w _ _ (by simp) (by simp [Pc.willSee])
        · apply move w _ _ (by simp); intro _ i _ _ _; cases mid <;> simp [afterDone, Pc.willSee]
      · rename_i mid hpc
        split at hs <;> simp only [Option.some.injEq, Prod.mk.injEq] at hs <;> obtain ⟨rfl, rfl⟩ := hs
        · rename_i hnow
          intro hn; dsimp only at hn; simp [hnow] at hn
        · exact move w _ _ (by simp) (by simp [Pc.willSee])
      · rename_i mid k acc hpc
        split at hs <;> simp only [Option.some.injEq, Prod.mk.injEq] at hs <;> obtain ⟨rfl, rfl⟩ := hs
        · apply move w _ _ (by simp)
          intro _ i _ hne hsee
          rw [hpc] at hsee
          simp only [Pc.willSee, Bool.or_eq_true, decide_eq_true_eq] at hsee ⊢
          by_cases hik : i = k
          · subst hik
            have := List.length_pos_iff.2 hne
            right; omega
          · rcases hsee with h | h
            · left; omega
            · right; omega
        · rename_i hk
          apply move w _ _
          · intro a x; unfold doneEv; split <;> simp
          · intro _ i hi2 hne hsee
            rw [hpc] at hsee
            simp only [Pc.willSee, Bool.or_eq_true, decide_eq_true_eq] at hsee
            have hacc : acc ≠ 0 := by omega
            unfold afterDone
            simp [hacc]
            split <;> simp [Pc.willSee]
      · simp at hs
    · simp at hs
  | take w x =>
    have key : ∀ k, (s' = { s with queue := upd s.queue k ((s.queue k).erase x), pc := upd s.pc w (.run x) } ∧
        e = [.started w x]) → Cov N s' (tr ++ e) := by
      rintro k ⟨rfl, rfl⟩ hn i y hy hin
      dsimp only at hy hn ⊢
      have hy' : y ∈ s.queue i := by
        simp only [upd_apply] at hy
        split at hy
        · rename_i e; subst e; exact List.mem_of_mem_erase hy
        · exact hy
      obtain ⟨v, hv1, hv2⟩ := ih hn i y hy' (inTime_old hin (by simp))
      refine ⟨v, hv1, ?_⟩
      simp only [upd_apply]; split
      · simp [Pc.willSee]
      · exact hv2
    simp only [step] at hs
    split at hs
    · split at hs
      · split at hs
        · simp only [Option.some.injEq, Prod.mk.injEq] at hs; exact key w ⟨hs.1.symm, hs.2.symm⟩
        · simp at hs
      · rename_i k hpc
        split at hs
        · simp only [Option.some.injEq, Prod.mk.injEq] at hs; exact key k ⟨hs.1.symm, hs.2.symm⟩
        · simp at hs
      · simp at hs
    · simp at hs
  | takeNone w =>
    simp only [step] at hs
    split at hs
    · split at hs
      · simp only [Option.some.injEq, Prod.mk.injEq] at hs; obtain ⟨rfl, rfl⟩ := hs
        exact move w _ _ (by simp) (by simp [Pc.willSee])
      · split at hs
        · simp only [Option.some.injEq, Prod.mk.injEq] at hs; obtain ⟨rfl, rfl⟩ := hs
          exact move w _ _ (by simp) (by simp [Pc.willSee])
        · simp only [Option.some.injEq, Prod.mk.injEq] at hs; obtain ⟨rfl, rfl⟩ := hs
          exact move w _ _ (by simp) (by simp [Pc.willSee])
      · simp at hs
    · simp at hs
  | finish w threw =>
    simp only [step] at hs
    split at hs
    · split at hs
      · simp only [Option.some.injEq, Prod.mk.injEq] at hs; obtain ⟨rfl, rfl⟩ := hs
        exact move w _ _ (by simp) (by simp [Pc.willSee])
      · simp at hs
    · simp at hs
  | reqStop =>
    simp only [step] at hs
    split at hs
    · simp only [Option.some.injEq, Prod.mk.injEq] at hs; obtain ⟨rfl, rfl⟩ := hs
      intro hn i x hx hin
      exact ih hn i x hx (inTime_old hin (by simp))
    · simp at hs
  | setNow =>
    simp only [step] at hs
    split at hs
    · simp only [Option.some.injEq, Prod.mk.injEq] at hs; obtain ⟨rfl, rfl⟩ := hs
      intro hn; simp at hn
    · simp at hs
  | join =>
    simp only [step] at hs
    split at hs
    · simp only [Option.some.injEq, Prod.mk.injEq] at hs; obtain ⟨rfl, rfl⟩ := hs
      intro hn i x hx hin
      exact ih hn i x hx (inTime_old hin (by simp))
    · simp at hs

/-- How many tasks a worker at `pc` may still start when both stop flags are set. -/
def Pc.budget : Pc → Nat
  | .chkSize .. | .deqOwn | .steal _ => 1
  | _ => 0

theorem budget_le (p : Pc) : p.budget ≤ 1 := by cases p <;> simp [Pc.budget]

/-- One step: starting a task costs, nothing gains while both flags are set. -/
theorem budget_step {N : Nat} {s s' : St} {l : Lbl} {e : List Ev} (hs : step N s l = some (s', e)) (w : Nat) :
    (s.stopReq = true → s.stopNow = true → startsOf w e + (s'.pc w).budget ≤ (s.pc w).budget) ∧
    startsOf w e + (s'.pc w).budget ≤ 1 := by
  have mv : ∀ (v : Nat) (pc' : Pc) (e : List Ev), startsOf w e = 0 →
      (s.stopReq = true → s.stopNow = true → pc'.budget ≤ (s.pc v).budget) →
      (s.stopReq = true → s.stopNow = true → startsOf w e + (upd s.pc v pc' w).budget ≤ (s.pc w).budget) ∧
      startsOf w e + (upd s.pc v pc' w).budget ≤ 1 := by
    intro v pc' e he hb
    rw [he]
    refine ⟨?_, by have := budget_le (upd s.pc v pc' w); omega⟩
    intro h1 h2
    simp only [upd_apply]
    split
    · rename_i e; subst e; have := hb h1 h2; omega
    · omega
  have id' : ∀ e : List Ev, startsOf w e = 0 →
      (s.stopReq = true → s.stopNow = true → startsOf w e + (s.pc w).budget ≤ (s.pc w).budget) ∧
      startsOf w e + (s.pc w).budget ≤ 1 := by
    intro e he
    rw [he]
    have := budget_le (s.pc w)
    exact ⟨fun _ _ => by omega, by omega⟩
  cases l with
  | enqTest a =>
    simp only [step] at hs
    split at hs
    · split at hs <;> simp only [Option.some.injEq, Prod.mk.injEq] at hs <;> obtain ⟨rfl, rfl⟩ := hs <;>
        exact id' _ (by simp [startsOf])
    · simp at hs
  | enqPush a i =>
    simp only [step] at hs
    split at hs
    · simp only [Option.some.injEq, Prod.mk.injEq] at hs; obtain ⟨rfl, rfl⟩ := hs
      exact id' _ (by simp [startsOf])
    · simp at hs
  | work v =>
    simp only [step] at hs
    split at hs
    · split at hs
      · split at hs <;> simp only [Option.some.injEq, Prod.mk.injEq] at hs <;> obtain ⟨rfl, rfl⟩ := hs
        · exact mv v _ _ (by simp [startsOf]) (by simp [Pc.budget])
        · rename_i hr; exact mv v _ _ (by simp [startsOf]) (by intro h; simp [h] at hr)
      · split at hs <;> simp only [Option.some.injEq, Prod.mk.injEq] at hs <;> obtain ⟨rfl, rfl⟩ := hs
        · exact mv v _ _ (by simp [startsOf, doneEv]) (by simp [Pc.budget, afterDone])
        · rename_i hr; exact mv v _ _ (by simp [startsOf]) (by intro _ h; simp [h] at hr)
      · rename_i mid k acc hpc
        split at hs <;> simp only [Option.some.injEq, Prod.mk.injEq] at hs <;> obtain ⟨rfl, rfl⟩ := hs
        · exact mv v _ _ (by simp [startsOf]) (by simp [Pc.budget, hpc])
        · refine mv v _ _ ?_ ?_
          · unfold doneEv; split <;> simp [startsOf]
          · intro _ _; rw [hpc]; exact budget_le _
      · simp at hs
    · simp at hs
  | take v x =>
    have key : ∀ q, (s.pc v).budget = 1 → s' = { s with queue := q, pc := upd s.pc v (.run x) } →
        e = [.started v x] →
        (s.stopReq = true → s.stopNow = true → startsOf w e + (s'.pc w).budget ≤ (s.pc w).budget) ∧
          startsOf w e + (s'.pc w).budget ≤ 1 := by
      intro q hb h1 h2
      subst h1; subst h2
      show (s.stopReq = true → s.stopNow = true →
        startsOf w [Ev.started v x] + (upd s.pc v (.run x) w).budget ≤ (s.pc w).budget) ∧
        startsOf w [Ev.started v x] + (upd s.pc v (.run x) w).budget ≤ 1
      by_cases hvw : w = v
      · subst hvw
        have h1 : startsOf w [Ev.started w x] = 1 := by simp [startsOf]
        have h2 : (upd s.pc w (.run x) w).budget = 0 := by rw [upd_same]; rfl
        rw [h1, h2, hb]; exact ⟨fun _ _ => Nat.le_refl _, Nat.le_refl _⟩
      · have := budget_le (s.pc w)
        simp [startsOf, List.countP_cons, upd_apply, hvw, Ne.symm hvw]
        omega
    simp only [step] at hs
    split at hs
    · split at hs
      · rename_i hpc
        split at hs
        · simp only [Option.some.injEq, Prod.mk.injEq] at hs
          exact key _ (by simp [hpc, Pc.budget]) hs.1.symm hs.2.symm
        · simp at hs
      · rename_i k hpc
        split at hs
        · simp only [Option.some.injEq, Prod.mk.injEq] at hs
          exact key _ (by simp [hpc, Pc.budget]) hs.1.symm hs.2.symm
        · simp at hs
      · simp at hs
    · simp at hs
  | takeNone v =>
    simp only [step] at hs
    split at hs
    · split at hs
      · rename_i hpc
        simp only [Option.some.injEq, Prod.mk.injEq] at hs; obtain ⟨rfl, rfl⟩ := hs
        exact mv v _ _ (by simp [startsOf]) (by simp [Pc.budget, hpc])
      · rename_i k hpc
        split at hs
        · simp only [Option.some.injEq, Prod.mk.injEq] at hs; obtain ⟨rfl, rfl⟩ := hs
          exact mv v _ _ (by simp [startsOf]) (by simp [Pc.budget, hpc])
        · simp only [Option.some.injEq, Prod.mk.injEq] at hs; obtain ⟨rfl, rfl⟩ := hs
          exact mv v _ _ (by simp [startsOf]) (by simp [Pc.budget, hpc])
      · simp at hs
    · simp at hs
  | finish v threw =>
    simp only [step] at hs
    split at hs
    · split at hs
      · simp only [Option.some.injEq, Prod.mk.injEq] at hs; obtain ⟨rfl, rfl⟩ := hs
        exact mv v _ _ (by simp [startsOf]) (by simp [Pc.budget])
      · simp at hs
    · simp at hs
  | reqStop =>
    simp only [step] at hs
    split at hs
    · simp only [Option.some.injEq, Prod.mk.injEq] at hs; obtain ⟨rfl, rfl⟩ := hs
      exact id' _ (by simp [startsOf])
    · simp at hs
  | setNow =>
    simp only [step] at hs
    split at hs
    · simp only [Option.some.injEq, Prod.mk.injEq] at hs; obtain ⟨rfl, rfl⟩ := hs
      exact id' _ (by simp [startsOf])
    · simp at hs
  | join =>
    simp only [step] at hs
    split at hs
    · simp only [Option.some.injEq, Prod.mk.injEq] at hs; obtain ⟨rfl, rfl⟩ := hs
      exact id' _ (by simp [startsOf])
    · simp at hs

theorem budget_of_reaches {N : Nat} {s : St} {tr : List Ev} (h : (machine N).Reaches s tr) (w : Nat) :
    ∀ p q, tr = p ++ q → Ev.stopRequested ∈ p → Ev.stopNow ∈ p → startsOf w q + (s.pc w).budget ≤ 1 := by
  refine Machine.Reaches.inv' (M := machine N)
    (fun s tr => ∀ p q, tr = p ++ q → Ev.stopRequested ∈ p → Ev.stopNow ∈ p →
      startsOf w q + (s.pc w).budget ≤ 1) ?_ ?_ h
  · intro p q hpq; 
    have : p = [] := by simp at hpq; exact hpq.1
    subst this; simp
  clear h s tr
  intro s tr l s' e hr ih hs p q hpq h1 h2
  have hi := inv_of_reaches hr
  change step N s l = some (s', e) at hs
  have hb := budget_step hs w
  rcases List.append_eq_append_iff.1 hpq with ⟨q', rfl, rfl⟩ | ⟨q', rfl, rfl⟩
  · -- the cut is inside `e`
    rw [sO_append] at hb
    have := hb.2
    omega
  · have := ih p q' rfl h1 h2
    have hb1 := hb.1 (hi.req.2 (by simp [h1])) (hi.now.2 (by simp [h2]))
    rw [sO_append]
    omega

end Verif.Pool
