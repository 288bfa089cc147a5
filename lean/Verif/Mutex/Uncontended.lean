import Verif.Mutex.Props
/-!
# C61: an uncontended `koios::mutex` is granted at once
-/

namespace Verif.Mutex

/-- Somebody holds the mutex, is being resumed as its owner, or is inside of `unlock()`. -/
def Busy (tr : List Ev) : Prop :=
  ∃ u, life u tr = some .holding ∨ life u tr = some .wakened ∨ life u tr = some .unlocking

/-- `try_acquire` is refused, and `acquire` suspends, only if the mutex was busy when asked. -/
def RefusesOnlyIfBusy (tr : List Ev) : Prop :=
  (∀ p t, p ++ [.tryAsked t, .refused t] <+: tr → Busy p) ∧
  (∀ p q t, p ++ .asked t :: q ++ [.slept t] <+: tr → .asked t ∉ q → Busy p)

theorem busy_of_flag {s : St} {tr : List Ev} (h : Inv s tr) (hf : s.flag = true) : Busy tr := by
  obtain ⟨u, hu⟩ := h.ownerOf hf
  refine ⟨u, ?_⟩
  rw [h.life u]
  cases hp : s.pc u <;> simp [hp, Pc.owns] at hu <;> simp [Pc.life]

/-- A task that failed `await_ready` did so while the mutex was busy. -/
theorem missed_busy {weak : Bool} {s : St} {tr : List Ev} (h : (machine weak).Reaches s tr) :
    ∀ t, s.pc t = .missed → ∀ p q, tr = p ++ .asked t :: q → .asked t ∉ q → Busy p := by
  refine Machine.Reaches.inv' (M := machine weak)
    (fun s tr => ∀ t, s.pc t = .missed → ∀ p q, tr = p ++ .asked t :: q → .asked t ∉ q → Busy p) ?_ ?_ h
  · intro t ht; simp [machine, init] at ht
  · clear h s tr
    intro s tr l s' e hr ih hs t ht p q heq hq
    have hi := inv_of_reaches hr
    change step weak s l = some (s', e) at hs
    by_cases hx : Ev.asked t ∈ e
    · cases l with
      | acquire u =>
        simp only [step] at hs
        split at hs
        · split at hs <;> simp only [Option.some.injEq, Prod.mk.injEq] at hs <;> obtain ⟨rfl, rfl⟩ := hs
          · rename_i hf
            simp only [List.mem_cons, Ev.asked.injEq, List.not_mem_nil, or_false] at hx
            subst hx
            have := last_split_self heq hq (by simp)
            rw [this.1]
            exact busy_of_flag hi hf
          · simp only [List.mem_cons, Ev.asked.injEq, List.not_mem_nil, or_false, reduceCtorEq] at hx
            subst hx
            simp at ht
        · cases hs
      | _ => simp only [step] at hs; grind
    · obtain ⟨q', rfl, htr⟩ := last_split heq hx
      refine ih t ?_ p q' htr (by intro hm; exact hq (List.mem_append_left _ hm))
      cases l <;> simp only [step] at hs <;> (repeat' split at hs) <;>
        simp only [Option.some.injEq, Prod.mk.injEq, reduceCtorEq] at hs <;>
        obtain ⟨rfl, rfl⟩ := hs <;> (try simp only [upd_apply] at ht) <;> grind

/-- **C61**: in every execution, whatever the dequeue order. -/
theorem mutex_refuses_only_if_busy (weak : Bool) (s : St) (tr : List Ev)
    (h : (machine weak).Reaches s tr) : RefusesOnlyIfBusy tr := by
  refine Machine.Reaches.inv' (M := machine weak) (fun _ tr => RefusesOnlyIfBusy tr) ?_ ?_ h
  · constructor
    · intro p t hp; have := hp.length_le; simp at this
    · intro p q t hp; have := hp.length_le; simp at this
  · clear h s tr
    intro s tr l s' e hr ih hs
    have hi := inv_of_reaches hr
    have hm := missed_busy hr
    change step weak s l = some (s', e) at hs
    constructor
    · intro p t hp
      rw [show p ++ [Ev.tryAsked t, Ev.refused t] = (p ++ [.tryAsked t]) ++ [.refused t] by simp] at hp
      rcases concat_prefix_append_cases hp with hp | ⟨q, hq, hpq⟩
      · exact ih.1 p t (by simpa using hp)
      · have hmem : Ev.refused t ∈ e := hq.subset (by simp)
        cases l with
        | tryAcquire u =>
          simp only [step] at hs
          split at hs
          · split at hs <;> simp only [Option.some.injEq, Prod.mk.injEq] at hs <;> obtain ⟨rfl, rfl⟩ := hs
            · rename_i hf
              have hb := busy_of_flag hi hf
              have : q = [.tryAsked u] := by
                have hl := hq.length_le
                simp at hl
                rcases q with _ | ⟨a, q⟩
                · simp at hq
                · simp at hq hl
                  simp [hq.1, hl]
              subst this
              have := List.append_inj' hpq rfl
              rw [this.1]; exact hb
            · simp at hmem
          · cases hs
        | _ => simp only [step] at hs; grind
    · intro p q t hp hq
      rcases concat_prefix_append_cases hp with hp | ⟨q2, hq2, hpq⟩
      · exact ih.2 p q t hp hq
      · have hmem : Ev.slept t ∈ e := hq2.subset (by simp)
        cases l with
        | suspend u =>
          simp only [step] at hs
          split at hs
          · rename_i hpc
            simp only [Option.some.injEq, Prod.mk.injEq] at hs
            obtain ⟨rfl, rfl⟩ := hs
            simp only [List.mem_cons, Ev.slept.injEq, List.not_mem_nil, or_false] at hmem
            subst hmem
            have : q2 = [] := by
              have hl := hq2.length_le
              simpa using hl
            subst this
            exact hm t hpc p q (by simpa using hpq.symm) hq
          · cases hs
        | _ => simp only [step] at hs; grind

/-- Both kinds of answers occur. -/
example : ∃ s, (machine false).Reaches s
    [.asked 1, .granted 1, .tryAsked 2, .refused 2, .asked 3, .slept 3] :=
  ⟨_, [.acquire 1, .tryAcquire 2, .acquire 3, .suspend 3], rfl⟩

end Verif.Mutex
