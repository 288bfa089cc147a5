import Verif.Mortal.Model
import Verif.Mutex.Proofs
import Verif.WaitGroup.Proofs
import Verif.Hub.Props
/-!
# C94: synchronisation objects may be destroyed when nobody uses them any more
-/

namespace Verif.Mortal

section
variable {σ Λ ε : Type} {M : Machine σ Λ ε} {begins touches : Λ → Bool}

theorem apis_append (a b : List (MEv ε)) : apis (a ++ b) = apis a ++ apis b := by simp [apis]
theorem apis_map (e : List ε) : apis (e.map .api) = e := by
  induction e with
  | nil => rfl
  | cons x xs ih => simp only [apis, List.map_cons, List.filterMap_cons] at ih ⊢; rw [ih]

/-- `Safe`: a condition on states under which no further action touches the object. -/
structure Inv (M : Machine σ Λ ε) (Safe : σ → Prop) (s : MSt σ) (tr : List (MEv ε)) : Prop where
  obj : M.Reaches s.obj (apis tr)
  alive : s.alive = true → .destroyed ∉ tr
  safe : s.alive = false → Safe s.obj
  good : s.bad = false ∧ .undefined ∉ tr

theorem inv_of_reaches {P : List ε → Prop} {Safe : σ → Prop} (hP : ∀ s tr, M.Reaches s tr → P tr → Safe s)
    (hS : ∀ s l s' e, Safe s → M.step s l = some (s', e) → begins l = false → touches l = false ∧ Safe s')
    {s : MSt σ} {tr : List (MEv ε)} (h : (mortal M begins touches).Reaches s tr) (hd : DestroyedOnlyIf P tr) : Inv M Safe s tr := by
  refine Machine.Reaches.inv' (M := mortal M begins touches) (fun s tr => DestroyedOnlyIf P tr → Inv M Safe s tr) ?_ ?_ h hd
  · intro _
    exact ⟨Machine.Reaches.init M, fun _ => by simp, by simp [mortal], rfl, by simp⟩
  · clear h hd s tr
    intro s tr l s' e _ ih hs hd
    have hI := ih (fun p hp => hd p (hp.trans (List.prefix_append _ _)))
    obtain ⟨h1, h2, h3, h4, h5⟩ := hI
    cases l with
    | destroy =>
      simp only [mortal] at hs
      split at hs
      · rename_i ha
        simp only [Option.some.injEq, Prod.mk.injEq] at hs
        obtain ⟨rfl, rfl⟩ := hs
        refine ⟨by rw [apis_append]; simpa [apis] using h1, by simp, fun _ => ?_, h4, by simpa using h5⟩
        exact hP _ _ h1 (hd tr (List.prefix_refl _))
      · simp at hs
    | act l =>
      simp only [mortal, h4] at hs
      simp only [Bool.false_eq_true, if_false] at hs
      split at hs
      · simp at hs
      · rename_i hb
        split at hs
        · simp at hs
        · rename_i o ev hst
          have hb' : s.alive = false → begins l = false := by
            intro ha
            cases hx : begins l with
            | false => rfl
            | true => exact absurd ⟨ha, hx⟩ hb
          split at hs
          · rename_i ht
            have := (hS _ _ _ _ (h3 ht.1) hst (hb' ht.1)).1
            rw [ht.2] at this; simp at this
          · simp only [Option.some.injEq, Prod.mk.injEq] at hs
            obtain ⟨rfl, rfl⟩ := hs
            refine ⟨by rw [apis_append, apis_map]; exact h1.step hst, fun ha => ?_, fun ha => ?_, rfl, ?_⟩
            · simpa using h2 ha
            · exact (hS _ _ _ _ (h3 ha) hst (hb' ha)).2
            · simpa using h5
end

/-! ### wait_group -/

/-- Full claim: with `WgFinished` alone.  **C94, wait_group, proved part**: if moreover no call of done() is still executing when the wait_group
is destroyed, the object is never touched afterwards. -/
theorem wait_group_destroy_partial (s : MSt WaitGroup.St) (tr : List (MEv WaitGroup.Ev)) (h : waitGroup.Reaches s tr)
    (hd : DestroyedOnlyIf (fun a => WgFinished a ∧ WgQuiet a) tr) : MEv.undefined ∉ tr := by
  refine (inv_of_reaches (Safe := fun s => ∀ t, s.pc t = .idle) ?_ ?_ h hd).good.2
  · intro s tr hr hf t
    have hl := (WaitGroup.inv_of_reaches hr).life t
    have h1 := hf.1.2 t
    have h2 := hf.2 t
    cases hp : s.pc t <;> simp_all [WaitGroup.Pc.life]
  · intro s l s' e hsafe hst hb
    cases l <;> simp_all [wgBegins, WaitGroup.machine, WaitGroup.step]

/-- **C94, what fails.**  A task waits for one other task, is woken up by its done(), and destroys the wait_group; done() then looks for more
waiters in the destroyed object.  Nothing was wrong with the use of the object: everything added was done and nobody waited. -/
theorem wait_group_destroy_refuted :
    ∃ s tr, waitGroup.Reaches s tr ∧ DestroyedOnlyIf WgFinished tr ∧ WaitGroup.UnitDones (apis tr) ∧ MEv.undefined ∈ tr := by
  refine ⟨_, [.api (.added 1), .api (.asked 1), .api (.slept 1), .api (.doneCalled 2 1), .api (.woken 1), .destroyed, .undefined],
    ⟨[.act (.add 1), .act (.wait 1), .act (.suspend 1), .act (.done 2 1), .act (.dequeue 2 1), .act (.wake 2), .destroy, .act (.drained 2)], rfl⟩,
    ?_, ?_, by simp⟩
  · intro p hp
    have : p = [.api (.added 1), .api (.asked 1), .api (.slept 1), .api (.doneCalled 2 1), .api (.woken 1)] := by
      obtain ⟨q, hq⟩ := hp
      rcases p with _ | ⟨a, _ | ⟨b, _ | ⟨c, _ | ⟨d, _ | ⟨e, _ | ⟨f, _ | ⟨g, p⟩⟩⟩⟩⟩⟩⟩ <;> simp_all
    subst this
    refine ⟨rfl, fun t => ?_⟩
    by_cases h1 : t = 1
    · subst h1; exact Or.inl rfl
    · by_cases h2 : t = 2
      · subst h2; exact Or.inr rfl
      · left; simp [apis, WaitGroup.life, WaitGroup.lifeStep, Ne.symm h1, Ne.symm h2]
  · constructor
    · intro p t n hp
      simp only [apis, List.filterMap_cons, List.filterMap_nil] at hp
      rw [List.prefix_iff_eq_take] at hp
      rcases p with _ | ⟨a, _ | ⟨b, _ | ⟨c, _ | ⟨d, _ | ⟨e, p⟩⟩⟩⟩⟩ <;> simp_all
      decide
    · intro p hp
      simp only [apis, List.filterMap_cons, List.filterMap_nil] at hp
      rw [List.prefix_iff_eq_take] at hp
      have hlen : p.length < 6 ∨ 6 ≤ p.length := Nat.lt_or_ge _ _
      rw [hp]
      rcases hlen with hl | hl
      · generalize p.length = n at hl
        have : ∀ n, n < 6 → WaitGroup.count (([.added 1, .asked 1, .slept 1, .doneCalled 2 1, .woken 1] : List WaitGroup.Ev).take n) < 2 ^ 64 := by
          decide
        exact this n hl
      · rw [List.take_of_length_le (by simpa using by omega)]; decide

/-- The same without suspension: wait() sees the count 0 and goes on at once, while the last done() has not yet begun to look for waiters. -/
theorem wait_group_destroy_unsuspended_refuted :
    ∃ s, waitGroup.Reaches s
      [.api (.added 1), .api (.doneCalled 2 1), .api (.asked 1), .api (.passed 1), .destroyed, .undefined] :=
  ⟨_, [.act (.add 1), .act (.done 2 1), .act (.wait 1), .destroy, .act (.drained 2)], rfl⟩

/-- A case of `wait_group_destroy_partial`: the same, but done() returns first. -/
theorem wait_group_destroy_nontrivial :
    ∃ s tr, waitGroup.Reaches s tr ∧ MEv.destroyed ∈ tr ∧ DestroyedOnlyIf (fun a => WgFinished a ∧ WgQuiet a) tr := by
  refine ⟨_, [.api (.added 1), .api (.asked 1), .api (.slept 1), .api (.doneCalled 2 1), .api (.woken 1), .api (.doneReturned 2), .destroyed],
    ⟨[.act (.add 1), .act (.wait 1), .act (.suspend 1), .act (.done 2 1), .act (.dequeue 2 1), .act (.wake 2), .act (.drained 2), .destroy], rfl⟩,
    by simp, ?_⟩
  intro p hp
  have : p = [.api (.added 1), .api (.asked 1), .api (.slept 1), .api (.doneCalled 2 1), .api (.woken 1), .api (.doneReturned 2)] := by
    obtain ⟨q, hq⟩ := hp
    rcases p with _ | ⟨a, _ | ⟨b, _ | ⟨c, _ | ⟨d, _ | ⟨e, _ | ⟨f, _ | ⟨g, p⟩⟩⟩⟩⟩⟩⟩ <;> simp_all
  subst this
  have key : ∀ t, WaitGroup.life t (apis ([.api (.added 1), .api (.asked 1), .api (.slept 1), .api (.doneCalled 2 1), .api (.woken 1),
      .api (.doneReturned 2)] : List (MEv WaitGroup.Ev))) = some .out := by
    intro t
    by_cases h1 : t = 1
    · subst h1; rfl
    · by_cases h2 : t = 2
      · subst h2; rfl
      · simp [apis, WaitGroup.life, WaitGroup.lifeStep, Ne.symm h1, Ne.symm h2]
  exact ⟨⟨rfl, fun t => Or.inl (key t)⟩, fun t => by rw [key t]; simp⟩

/-! ### mutex -/

/-- Full claim: with `MutexFinished` alone.  **C94, mutex, proved part**: if moreover no call of unlock() is still executing when the mutex is
destroyed, the object is never touched afterwards. -/
theorem mutex_destroy_partial (weak : Bool) (s : MSt Mutex.St) (tr : List (MEv Mutex.Ev)) (h : (mutex weak).Reaches s tr)
    (hd : DestroyedOnlyIf (fun a => MutexFinished a ∧ MutexQuiet a) tr) : MEv.undefined ∉ tr := by
  refine (inv_of_reaches (Safe := fun s => ∀ t, s.pc t = .idle) ?_ ?_ h hd).good.2
  · intro s tr hr hf t
    have hl := (Mutex.inv_of_reaches hr).life t
    have h1 := hf.1 t
    have h2 := hf.2 t
    cases hp : s.pc t <;> simp_all [Mutex.Pc.life]
  · intro s l s' e hsafe hst hb
    cases l <;> simp_all [mutexBegins, Mutex.machine, Mutex.step]

/-- **C94, what fails.**  Task 1 unlocks; task 2 gets the lock, unlocks, and destroys the mutex; the unlock() of task 1 then tests the flag of
the destroyed object. -/
theorem mutex_destroy_refuted :
    ∃ s tr, (mutex false).Reaches s tr ∧ DestroyedOnlyIf MutexFinished tr ∧ MEv.undefined ∈ tr := by
  refine ⟨_, [.api (.asked 1), .api (.granted 1), .api (.released 1), .api (.asked 2), .api (.granted 2), .api (.released 2), .api (.returned 2),
      .destroyed, .undefined],
    ⟨[.act (.acquire 1), .act (.unlock 1), .act (.acquire 2), .act (.unlock 2), .act (.retake 2), .act (.dequeueNone 2), .act (.clear 2), .destroy,
      .act (.retake 1)], rfl⟩, ?_, by simp⟩
  intro p hp
  have : p = [.api (.asked 1), .api (.granted 1), .api (.released 1), .api (.asked 2), .api (.granted 2), .api (.released 2), .api (.returned 2)] := by
    obtain ⟨q, hq⟩ := hp
    rcases p with _ | ⟨a, _ | ⟨b, _ | ⟨c, _ | ⟨d, _ | ⟨e, _ | ⟨f, _ | ⟨g, _ | ⟨i, _ | ⟨j, p⟩⟩⟩⟩⟩⟩⟩⟩⟩ <;> simp_all
  subst this
  intro t
  by_cases h1 : t = 1
  · subst h1; exact Or.inr rfl
  · by_cases h2 : t = 2
    · subst h2; exact Or.inl rfl
    · left; simp [apis, Mutex.life, Mutex.lifeStep, Ne.symm h1, Ne.symm h2]

/-- A waiter that was woken by an unlock() may use, unlock and destroy the mutex even though that unlock() has not returned: the hand-over is the
last thing unlock() does with the object.  (In the model `woken` and `returned` are one action; the action does not touch the object.) -/
theorem mutex_handover_nontrivial :
    ∃ s tr, (mutex false).Reaches s tr ∧ MEv.destroyed ∈ tr ∧ MEv.api (.woken 2) ∈ tr ∧
      DestroyedOnlyIf (fun a => MutexFinished a ∧ MutexQuiet a) tr := by
  refine ⟨_, [.api (.asked 1), .api (.granted 1), .api (.asked 2), .api (.slept 2), .api (.released 1), .api (.woken 2), .api (.returned 1),
      .api (.granted 2), .api (.released 2), .api (.returned 2), .destroyed],
    ⟨[.act (.acquire 1), .act (.acquire 2), .act (.suspend 2), .act (.unlock 1), .act (.retake 1), .act (.dequeue 1 2), .act (.wake 1), .act (.resume 2),
      .act (.unlock 2), .act (.retake 2), .act (.dequeueNone 2), .act (.clear 2), .destroy], rfl⟩, by simp, by simp, ?_⟩
  intro p hp
  have : p = [.api (.asked 1), .api (.granted 1), .api (.asked 2), .api (.slept 2), .api (.released 1), .api (.woken 2), .api (.returned 1),
      .api (.granted 2), .api (.released 2), .api (.returned 2)] := by
    obtain ⟨q, hq⟩ := hp
    rcases p with _ | ⟨a, _ | ⟨b, _ | ⟨c, _ | ⟨d, _ | ⟨e, _ | ⟨f, _ | ⟨g, _ | ⟨i, _ | ⟨j, _ | ⟨k, _ | ⟨m, p⟩⟩⟩⟩⟩⟩⟩⟩⟩⟩⟩ <;> simp_all
  subst this
  have key : ∀ t, Mutex.life t (apis ([.api (.asked 1), .api (.granted 1), .api (.asked 2), .api (.slept 2), .api (.released 1), .api (.woken 2),
      .api (.returned 1), .api (.granted 2), .api (.released 2), .api (.returned 2)] : List (MEv Mutex.Ev))) = some .out := by
    intro t
    by_cases h1 : t = 1
    · subst h1; rfl
    · by_cases h2 : t = 2
      · subst h2; rfl
      · simp [apis, Mutex.life, Mutex.lifeStep, Ne.symm h1, Ne.symm h2]
  exact ⟨fun t => Or.inl (key t), fun t => by rw [key t]; simp⟩

/-! ### async_awaiting_hub -/

/-- Full claim: with `HubFinished` alone.  **C94, hub, proved part**: if moreover no call is executing when the hub is destroyed, the object is never
touched afterwards. -/
theorem hub_destroy_partial (s : MSt Hub.St) (tr : List (MEv Hub.Ev)) (h : hub.Reaches s tr)
    (hd : DestroyedOnlyIf (fun a => HubFinished a ∧ HubQuiet a) tr) : MEv.undefined ∉ tr := by
  refine (inv_of_reaches (Safe := fun s => ∀ w, s.pc w = .idle) ?_ ?_ h hd).good.2
  · intro s tr hr hf w
    obtain ⟨c, h1, h2⟩ := (Hub.inv_of_reaches hr).cal w
    rw [hf.2 w] at h1
    simp only [Option.some.injEq] at h1
    subst h1
    cases hp : s.pc w <;> simp_all [Hub.Pc.call]
  · intro s l s' e hsafe hst hb
    cases l <;> simp_all [hubBegins, Hub.machine, Hub.step]

/-- **C94, what fails.**  may_wake_all() wakes the only registered task, which destroys the hub; may_wake_all() then looks for more. -/
theorem hub_destroy_refuted :
    ∃ s tr, hub.Reaches s tr ∧ DestroyedOnlyIf HubFinished tr ∧ MEv.undefined ∈ tr := by
  refine ⟨_, [.api (.registered 1), .api (.allCalled 2), .api (.woken 2 1), .destroyed, .undefined],
    ⟨[.act (.add 1), .act (.all 2), .act (.dequeue 2 1), .act (.enqueue 2), .destroy, .act (.dequeueNone 2)], rfl⟩, ?_, by simp⟩
  intro p hp
  have : p = [.api (.registered 1), .api (.allCalled 2), .api (.woken 2 1)] := by
    obtain ⟨q, hq⟩ := hp
    rcases p with _ | ⟨a, _ | ⟨b, _ | ⟨c, _ | ⟨d, _ | ⟨e, p⟩⟩⟩⟩⟩ <;> simp_all
  subst this
  intro t
  by_cases h1 : t = 1
  · subst h1; rfl
  · simp [apis, Hub.asleep, Hub.sleepStep, Ne.symm h1]

end Verif.Mortal
