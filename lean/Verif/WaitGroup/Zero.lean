import Verif.WaitGroup.Props
/-!
# C23: `wait()` suspends only if the count is not zero
-/

namespace Verif.WaitGroup

theorem missed_positive {s : St} {tr : List Ev} (h : machine.Reaches s tr) :
    ∀ t, s.pc t = .missed → ∀ p q, tr = p ++ .asked t :: q → .asked t ∉ q → count p % 2 ^ 64 ≠ 0 := by
  refine Machine.Reaches.inv' (M := machine)
    (fun s tr => ∀ t, s.pc t = .missed → ∀ p q, tr = p ++ .asked t :: q → .asked t ∉ q →
      count p % 2 ^ 64 ≠ 0) ?_ ?_ h
  · intro t ht; simp [machine, init] at ht
  · clear h s tr
    intro s tr l s' e hr ih hs t ht p q heq hq
    have hi := inv_of_reaches hr
    change step s l = some (s', e) at hs
    by_cases hx : Ev.asked t ∈ e
    · cases l with
      | wait u =>
        simp only [step] at hs
        split at hs
        · split at hs <;> simp only [Option.some.injEq, Prod.mk.injEq] at hs <;> obtain ⟨rfl, rfl⟩ := hs
          · simp only [List.mem_cons, Ev.asked.injEq, List.not_mem_nil, or_false, reduceCtorEq] at hx
            subst hx
            grind
          · rename_i hf
            simp only [List.mem_cons, Ev.asked.injEq, List.not_mem_nil, or_false] at hx
            subst hx
            have := last_split_self heq hq (by simp)
            rw [this.1, ← hi.cnt]
            omega
        · cases hs
      | _ => simp only [step] at hs; grind
    · obtain ⟨q', rfl, htr⟩ := last_split heq hx
      refine ih t ?_ p q' htr (by intro hm; exact hq (List.mem_append_left _ hm))
      cases l <;> simp only [step] at hs <;> (repeat' split at hs) <;>
        simp only [Option.some.injEq, Prod.mk.injEq, reduceCtorEq] at hs <;>
        obtain ⟨rfl, rfl⟩ := hs <;> (try simp only [upd_apply] at ht) <;> grind

/-- **C23 (2), converse.**  `wait()` suspends the caller only if the count was not zero when it was
called. -/
theorem wait_group_suspends_only_if_not_zero {s : St} {tr : List Ev} (h : machine.Reaches s tr) :
    ∀ p q t, p ++ .asked t :: q ++ [.slept t] <+: tr → .asked t ∉ q → count p ≠ 0 := by
  refine Machine.Reaches.inv' (M := machine)
    (fun _ tr => ∀ p q t, p ++ .asked t :: q ++ [.slept t] <+: tr → .asked t ∉ q → count p ≠ 0) ?_ ?_ h
  · intro p q t hp; have := hp.length_le; simp at this
  · clear h s tr
    intro s tr l s' e hr ih hs p q t hp hq
    have hm := missed_positive hr
    change step s l = some (s', e) at hs
    rcases concat_prefix_append_cases hp with hp | ⟨q2, hq2, hpq⟩
    · exact ih p q t hp hq
    · have hmem : Ev.slept t ∈ e := hq2.subset (by simp)
      cases l with
      | suspend u =>
        simp only [step] at hs
        split at hs
        · rename_i hpc
          simp only [Option.some.injEq, Prod.mk.injEq] at hs
          obtain ⟨rfl, rfl⟩ := hs
          simp only [List.mem_cons, Ev.slept.injEq, List.not_mem_nil, or_false] at hmem
          subst hmem
          have : q2 = [] := by
            have hl := hq2.length_le
            simpa using hl
          subst this
          have := hm t hpc p q (by simpa using hpq.symm) hq
          omega
        · cases hs
      | _ => simp only [step] at hs; grind

example : ∃ s, machine.Reaches s [.added 2, .asked 1, .slept 1] :=
  ⟨_, [.add 2, .wait 1, .suspend 1], rfl⟩

end Verif.WaitGroup
