import Verif.FileAppend.End
/-!
# C115: what the code does not keep
-/

namespace Verif.FileAppend
open Machine

variable {s s' : St} {l : Lbl} {e tr : List Ev}

theorem reaches_of {ls : List Lbl} {tr : List Ev} {P : St → Prop} (h : (machine.run ls).elim False (fun r => r.2 = tr ∧ P r.1)) : ∃ s, machine.Reaches s tr ∧ P s := by
  cases hr : machine.run ls with
  | none => rw [hr] at h; exact absurd h id
  | some r =>
    rw [hr] at h
    obtain ⟨h1, h2⟩ := h
    exact ⟨r.1, ⟨ls, by rw [hr, ← h1]⟩, h2⟩

/-- the lock's steps of an append that finds it free and lets it go with nobody waiting -/
def letGo (t : Nat) : List Lbl := [.lock (.unlock t), .lock (.retake t), .lock (.dequeueNone t), .lock (.clear t)]

/-- **Refutation of C115**: the object is destroyed when every call has delivered its result; a call still releases the lock in it. -/
theorem destroyed_after_results_refuted : ∃ s tr, machine.Reaches s tr ∧ DestroyedAfterResults tr ∧
    tr = [.called 0 3, .wrote 0 3, .delivered 0 true, .destroyed, .undefined] := by
  obtain ⟨s, hs, -⟩ := reaches_of (P := fun _ => True) (ls := [.call 0 3, .lock (.acquire 0), .test 0, .done 0 3, .test 0, .deliver 0, .destroy, .lock (.unlock 0)])
    (tr := [.called 0 3, .wrote 0 3, .delivered 0 true, .destroyed, .undefined]) (by simp [Machine.run, Machine.runFrom, machine, step, stepLive, init, Lbl.uses, Mutex.step, Mutex.init, may, entered, gone, sub64, letGo, upd_apply])
  refine ⟨s, _, hs, ?_, rfl⟩
  intro p q h
  have h1 : p = [.called 0 3, .wrote 0 3, .delivered 0 true] ∧ q = [.undefined] := by
    rcases p with _ | ⟨a, _ | ⟨b, _ | ⟨c, _ | ⟨d, _ | ⟨e, p⟩⟩⟩⟩⟩ <;> simp at h <;> grind
  obtain ⟨rfl, rfl⟩ := h1
  refine ⟨fun t n hc => ?_, by simp⟩
  simp at hc
  exact ⟨true, by simp [hc.1]⟩

/-- nothing can happen any more, except for new calls -/
def Stuck (s : St) : Prop := s.m.pc 0 = .queued ∧ s.phase 0 = .locking ∧ ∀ u, u ≠ 0 → (s.phase u = .out ∨ s.phase u = .leaving) ∧ s.m.pc u = .idle

theorem stuck_step (h : Stuck s) (hs : step s l = some (s', e)) (hc : ∀ t n, l ≠ .call t n) : Stuck s' ∧ e ⊆ [.destroyed, .undefined] := by
  obtain ⟨h1, h2, h3⟩ := h
  rcases step_cases hs with ⟨rfl, rfl, -⟩ | ⟨h4, -⟩
  · exact ⟨⟨h1, h2, h3⟩, by simp⟩
  clear hs
  cases l with
  | call t n => exact absurd rfl (hc t n)
  | lock ml =>
    exfalso
    simp only [stepLive] at h4
    split at h4
    · rename_i hg
      split at h4
      · rename_i m' em hm
        have h5 := h3 ml.agent
        cases ml <;> simp only [Mutex.step] at hm <;> simp only [may, decide_eq_true_eq, reduceCtorEq, Bool.false_eq_true] at hg <;> simp only [Mutex.Lbl.agent] at h5 <;> grind
      · cases h4
    · cases h4
  | destroy =>
    simp only [stepLive] at h4
    split at h4
    · simp only [Option.some.injEq, Prod.mk.injEq] at h4
      obtain ⟨rfl, rfl⟩ := h4
      exact ⟨⟨h1, h2, h3⟩, by simp⟩
    · cases h4
  | _ =>
    exfalso
    rename_i t
    have h5 := h3 t
    simp only [stepLive] at h4
    (repeat' split at h4) <;> grind

/-- **Refutation of C115**: an append need not end: after this history nothing ever happens again unless somebody calls append_async once more (the lock has lost its wake-up, C02). -/
theorem append_lost_refuted : ∃ s tr, machine.Reaches s tr ∧
    tr = [.called 0 3, .called 1 2, .wrote 1 2, .delivered 1 true, .gone 1] ∧
    ∀ ls s' q, machine.runFrom s ls = some (s', q) → (∀ t n, Lbl.call t n ∉ ls) → q ⊆ [.destroyed, .undefined] := by
  obtain ⟨s0, hs, hst⟩ := reaches_of (P := Stuck) (ls := [.call 0 3, .call 1 2, .lock (.acquire 1), .lock (.acquire 0), .test 1, .done 1 2, .test 1, .deliver 1] ++ letGo 1 ++ [.lock (.suspend 0)])
    (tr := [.called 0 3, .called 1 2, .wrote 1 2, .delivered 1 true, .gone 1]) (by
      simp [Machine.run, Machine.runFrom, machine, step, stepLive, init, Lbl.uses, Mutex.step, Mutex.init, may, entered, gone, sub64, letGo, upd_apply]
      refine ⟨rfl, rfl, fun u hu => ?_⟩
      simp only [upd_apply]
      grind)
  refine ⟨s0, _, hs, rfl, ?_⟩
  clear hs
  intro ls
  induction ls generalizing s0 with
  | nil => intro s' q h _; simp only [runFrom, Option.some.injEq, Prod.mk.injEq] at h; obtain ⟨rfl, rfl⟩ := h; simp
  | cons l ls ih =>
    intro s' q h hc
    simp only [runFrom] at h
    split at h
    · cases h
    · rename_i s1 e1 h1
      split at h
      · cases h
      · rename_i s2 e2 h2
        simp only [Option.some.injEq, Prod.mk.injEq] at h
        obtain ⟨rfl, rfl⟩ := h
        obtain ⟨h3, h4⟩ := stuck_step hst h1 (fun t n hl => hc t n (by simp [hl]))
        exact List.append_subset.2 ⟨h4, ih s1 h3 _ _ h2 (fun t n hl => hc t n (List.mem_cons_of_mem _ hl))⟩

/-- Two calls at the same time, one with short writes and an error, one that waits for the lock; the object outlives them. -/
example : ∃ s tr, machine.Reaches s tr ∧ DestroyedAfterFrames tr ∧
    tr = [.called 0 3, .called 1 2, .wrote 0 1, .wrote 0 1, .failed 0, .delivered 0 false, .gone 0, .wrote 1 2, .delivered 1 true, .gone 1, .destroyed] := by
  obtain ⟨s, hs, -⟩ := reaches_of (P := fun _ => True) (ls := [.call 0 3, .call 1 2, .lock (.acquire 0), .lock (.acquire 1), .lock (.suspend 1), .test 0, .done 0 1, .test 0, .done 0 1, .test 0, .fail 0, .deliver 0,
    .lock (.unlock 0), .lock (.retake 0), .lock (.dequeue 0 1), .lock (.wake 0), .lock (.resume 1), .test 1, .done 1 2, .test 1, .deliver 1] ++ letGo 1 ++ [.destroy])
    (tr := [.called 0 3, .called 1 2, .wrote 0 1, .wrote 0 1, .failed 0, .delivered 0 false, .gone 0, .wrote 1 2, .delivered 1 true, .gone 1, .destroyed]) (by simp [Machine.run, Machine.runFrom, machine, step, stepLive, init, Lbl.uses, Mutex.step, Mutex.init, may, entered, gone, sub64, letGo, upd_apply])
  refine ⟨s, _, hs, ?_, rfl⟩
  intro p q h
  have hq : q = [] := by
    rcases List.eq_nil_or_concat q with hq | ⟨q', x, rfl⟩
    · exact hq
    · exfalso
      have h2 : (p ++ Ev.destroyed :: q') ++ [x] = [.called 0 3, .called 1 2, .wrote 0 1, .wrote 0 1, .failed 0, .delivered 0 false, .gone 0, .wrote 1 2, .delivered 1 true, .gone 1] ++ [.destroyed] := by simpa [letGo] using h
      have h3 := (List.append_inj' h2 rfl).1
      have h4 : Ev.destroyed ∈ p ++ Ev.destroyed :: q' := by simp
      rw [h3] at h4
      simp at h4
  subst hq
  have h3 := (List.append_inj' (show p ++ [Ev.destroyed] = [.called 0 3, .called 1 2, .wrote 0 1, .wrote 0 1, .failed 0, .delivered 0 false, .gone 0, .wrote 1 2, .delivered 1 true, .gone 1] ++ [.destroyed] from h) rfl).1
  subst h3
  refine ⟨fun t n hc => ?_, by simp⟩
  simp at hc
  rcases hc with ⟨rfl, -⟩ | ⟨rfl, -⟩ <;> simp

end Verif.FileAppend
