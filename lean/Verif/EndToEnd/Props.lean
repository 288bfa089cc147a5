import Verif.EndToEnd.Book
import Verif.Common.AtEvent
/-!
# C111: the usual program with a mutex and a wait_group computes what it should
-/

namespace Verif.EndToEnd

variable {S : Type} {f : Nat → S → S} {x0 : S} {n W : Nat}

/-- When main goes on after wait(), every job has stored exactly once. -/
theorem writers_complete (hn : n < 2 ^ 64) {s : St S} {tr : List (Ev S)} (h : (machine f x0 n W).Reaches s tr) (hz : s.prog 0 ≠ .mBegin) (hc : s.wg.cnt = 0) :
    (writers tr).Perm (List.range' 1 n) := by
  have G := gr_inv hn h
  have R := wr_inv h
  have L := loc_inv h
  have hl : (doners tr).length = n := by have := G.dc hz; omega
  have range : ∀ t, s.prog t ≠ .unborn → (s.prog t).main = false → t ≠ 0 ∧ t ≤ n := by
    intro t h1 h2
    have ht0 : t ≠ 0 := fun h0 => by have := (L.mn t).2 h0; rw [h2] at this; cases this
    refine ⟨ht0, ?_⟩
    by_contra hgt
    exact h1 ((L.un t).2 ⟨ht0, by have := L.sp; omega⟩)
  have hw : ∀ t ∈ writers tr, t ≠ 0 ∧ t ≤ n := by
    intro t ht
    refine range t ?_ ?_ <;> rcases (R.wm t).1 ht with h1 | h1 | h1 | h1 <;> simp [h1, Prog.main]
  have hsub : doners tr ⊆ writers tr := by
    intro t ht
    rw [R.wm]
    rcases (G.dm t).1 ht with h1 | h1 <;> simp [h1]
  have h1 : (writers tr).Subperm (List.range' 1 n) := R.wn.subperm (fun t ht => by
    have := hw t ht
    rw [List.mem_range'_1]; omega)
  have h2 : n ≤ (writers tr).length := by rw [← hl]; exact (G.dn.subperm hsub).length_le
  exact h1.perm_of_length_le (by simpa using h2)

/-- **C111.**  Whatever the schedule, the number of workers and the jobs: what main finds in x after wait() is the result of all jobs, each exactly once,
one after the other in some order (the order of their stores). -/
theorem total_is_serial (hn : n < 2 ^ 64) {s : St S} {tr : List (Ev S)} (h : (machine f x0 n W).Reaches s tr) {p q : List (Ev S)} {v : S} (hp : tr = p ++ Ev.total v :: q) :
    (writers p).Perm (List.range' 1 n) ∧ v = oneByOne f x0 (writers p) := by
  obtain ⟨s1, tr1, l, s2, e, q', hr, hs, hqe, hpre⟩ := h.at_event hp
  change step f n W s1 l = some (s2, e) at hs
  have hm := hqe.subset (List.mem_append_right q' (List.mem_singleton.2 rfl))
  have hl := hqe.length_le
  cases l with
  | lock w l => obtain ⟨_, e', _, _, _, rfl, _⟩ := lock_step hs; simp at hm
  | group w t l => obtain ⟨_, e', _, _, _, rfl, _⟩ := group_step hs; simp at hm
  | read w =>
    simp only [step] at hs
    split at hs <;> simp only [Option.some.injEq, Prod.mk.injEq, reduceCtorEq] at hs
    rename_i hc
    obtain ⟨rfl, rfl⟩ := hs
    have hq' : q' = [] := by
      cases q' with
      | nil => rfl
      | cons a b => simp at hl
    subst hq'
    simp at hm hpre
    subst hm hpre
    exact ⟨writers_complete hn hr (by simp [hc.2.1]) ((gr_inv hn hr).z0 hc.2.1 hc.2.2), (wr_inv hr).wx⟩
  | _ =>
    simp only [step] at hs
    (repeat' split at hs) <;> simp only [Option.some.injEq, Prod.mk.injEq, reduceCtorEq] at hs
    all_goals obtain ⟨rfl, rfl⟩ := hs
    all_goals simp at hm

/-- **C111**, the classical instance: `n` jobs that each increment a counter make it `n`. -/
theorem counter_is_exact (hn : n < 2 ^ 64) {s : St Nat} {tr : List (Ev Nat)} (h : (machine (fun _ x => x + 1) 0 n W).Reaches s tr) {v : Nat} (hv : Ev.total v ∈ tr) : v = n := by
  obtain ⟨p, q, hp⟩ := List.append_of_mem hv
  obtain ⟨h1, h2⟩ := total_is_serial hn h hp
  have h3 : ∀ (l : List Nat) (a : Nat), l.foldl (fun x _ => x + 1) a = a + l.length := by
    intro l
    induction l with
    | nil => simp
    | cons b l ih => intro a; simp [ih]; omega
  rw [h2, oneByOne, h3, h1.length_eq]; simp

/-- **C111**, jobs whose order does not matter (for instance each adds its own result): the total does not depend on the schedule. -/
theorem total_is_deterministic (hn : n < 2 ^ 64) (hf : ∀ t u x, f t (f u x) = f u (f t x)) {s : St S} {tr : List (Ev S)} (h : (machine f x0 n W).Reaches s tr) {v : S}
    (hv : Ev.total v ∈ tr) : v = oneByOne f x0 (List.range' 1 n) := by
  obtain ⟨p, q, hp⟩ := List.append_of_mem hv
  obtain ⟨h1, h2⟩ := total_is_serial hn h hp
  rw [h2, oneByOne, oneByOne]
  exact List.Perm.foldl_eq' h1 (fun a _ b _ x => hf b a x) x0

end Verif.EndToEnd
