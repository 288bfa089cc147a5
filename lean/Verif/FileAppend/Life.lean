import Verif.FileAppend.Props
/-!
# C115: results, and the end of the object
-/

namespace Verif.FileAppend
open Machine

variable {s s' : St} {l : Lbl} {e tr : List Ev}

theorem phase_after_lock {ml : Mutex.Lbl} {m' : Mutex.St} {em : List Mutex.Ev} (h : I s tr) (hm : may s ml = true) (hs : Mutex.step false s.m ml = some (m', em)) (t : Nat) :
    entered s em t = s.phase t ∨ (s.phase t = .asking ∨ s.phase t = .locking) ∧ (entered s em t = .locking ∨ entered s em t = .writing (s.size t)) := by
  obtain ⟨mt, hi⟩ := h.mi
  exact (lock_fits hi h.ph hm hs).2 t

theorem total_append (t : Nat) (p q : List Ev) : total t (p ++ q) = total t p + total t q := by
  induction p with
  | nil => simp [total]
  | cons x xs ih => cases x <;> simp only [List.cons_append, total, ih] <;> omega

theorem total_gone (t : Nat) (em : List Mutex.Ev) : total t (gone em) = 0 := by
  induction em with
  | nil => rfl
  | cons x xs ih => cases x <;> simpa [gone, List.filterMap_cons, total] using ih

theorem mem_gone {x : Ev} {em : List Mutex.Ev} (h : x ∈ gone em) : ∃ t, x = .gone t ∧ Mutex.Ev.returned t ∈ em := by
  simp only [gone, List.mem_filterMap] at h
  obtain ⟨y, hy, hx⟩ := h
  split at hx <;> simp only [Option.some.injEq, reduceCtorEq] at hx
  exact ⟨_, hx.symm, hy⟩

/-- what the phase of a call says about the history -/
structure W (s : St) (tr : List Ev) : Prop where
  ca : ∀ t, s.phase t ≠ .out → Ev.called t (s.size t) ∈ tr
  cs : ∀ t n, Ev.called t n ∈ tr → s.phase t ≠ .out ∧ s.size t = n
  de : ∀ t ok, Ev.delivered t ok ∈ tr → s.phase t = .leaving
  fa : ∀ t, Ev.failed t ∈ tr → s.phase t = .over false ∨ s.phase t = .leaving
  fo : ∀ t, s.phase t = .over false → Ev.failed t ∈ tr
  sz : ∀ t, s.size t < 2 ^ 64
  un : ∀ t, s.phase t = .out ∨ s.phase t = .asking ∨ s.phase t = .locking → total t tr = 0
  le : ∀ t k, s.phase t = .writing k ∨ s.phase t = .inflight k → (k + total t tr) % 2 ^ 64 = s.size t ∧ k < 2 ^ 64
  ov : ∀ t, s.phase t = .over true → total t tr % 2 ^ 64 = s.size t

/-- histories in which only the frame's end or the object's is added -/
theorem W.quiet {ys : List Ev} (h : W s tr) (hy : ∀ y ∈ ys, (∃ t, y = .gone t) ∨ y = .destroyed ∨ y = .undefined) (ht : ∀ t, total t ys = 0) (s' : St)
    (hp : s'.phase = s.phase) (hz : s'.size = s.size) : W s' (tr ++ ys) := by
  have h2 : ∀ x : Ev, (∀ t, x ≠ .gone t) → x ≠ .destroyed → x ≠ .undefined → (x ∈ tr ++ ys ↔ x ∈ tr) := by
    intro x h3 h4 h5
    rw [List.mem_append]
    refine ⟨?_, Or.inl⟩
    rintro (h | h)
    · exact h
    · rcases hy x h with ⟨t, rfl⟩ | rfl | rfl
      · exact absurd rfl (h3 t)
      · exact absurd rfl h4
      · exact absurd rfl h5
  have h6 : ∀ t, total t (tr ++ ys) = total t tr := fun t => by rw [total_append, ht, Nat.add_zero]
  constructor
  · intro t; rw [hp, hz, h2 _ (by simp) (by simp) (by simp)]; exact h.ca t
  · intro t n; rw [hp, hz, h2 _ (by simp) (by simp) (by simp)]; exact h.cs t n
  · intro t n; rw [hp, h2 _ (by simp) (by simp) (by simp)]; exact h.de t n
  · intro t; rw [hp, h2 _ (by simp) (by simp) (by simp)]; exact h.fa t
  · intro t; rw [hp, h2 _ (by simp) (by simp) (by simp)]; exact h.fo t
  · intro t; rw [hz]; exact h.sz t
  · intro t; rw [hp, h6]; exact h.un t
  · intro t k; rw [hp, hz, h6]; exact h.le t k
  · intro t; rw [hp, hz, h6]; exact h.ov t

theorem W.lock {em : List Mutex.Ev} (h : W s tr) {m' : Mutex.St}
    (hg : ∀ t, entered s em t = s.phase t ∨ (s.phase t = .asking ∨ s.phase t = .locking) ∧ (entered s em t = .locking ∨ entered s em t = .writing (s.size t))) :
    W { s with m := m', phase := entered s em } tr := by
  constructor
  · intro t ht
    refine h.ca t ?_
    rcases hg t with g | ⟨g | g, -⟩
    · simpa only [g] using ht
    all_goals rw [g]; simp
  · intro t n ht
    obtain ⟨h1, h2⟩ := h.cs t n ht
    refine ⟨?_, h2⟩
    show entered s em t ≠ .out
    rcases hg t with g | ⟨-, g | g⟩
    · rw [g]; exact h1
    all_goals rw [g]; simp
  · intro t ok ht
    have := h.de t ok ht
    show entered s em t = .leaving
    rcases hg t with g | ⟨g | g, -⟩
    · rw [g]; exact this
    all_goals rw [g] at this; cases this
  · intro t ht
    have := h.fa t ht
    show entered s em t = .over false ∨ entered s em t = .leaving
    rcases hg t with g | ⟨g | g, -⟩
    · rw [g]; exact this
    all_goals rw [g] at this; simp at this
  · intro t ht
    simp only at ht
    refine h.fo t ?_
    rcases hg t with g | ⟨-, g | g⟩
    · rw [← g]; exact ht
    all_goals rw [g] at ht; cases ht
  · exact h.sz
  · intro t ht
    simp only at ht
    refine h.un t ?_
    rcases hg t with g | ⟨g, -⟩
    · rw [← g]; exact ht
    · exact Or.inr g
  · intro t k ht
    simp only at ht ⊢
    rcases hg t with g | ⟨g, g2⟩
    · rw [g] at ht; exact h.le t k ht
    · have h3 := h.un t (Or.inr g)
      have h4 := h.sz t
      rcases g2 with g2 | g2 <;> rw [g2] at ht <;> simp only [reduceCtorEq, Phase.writing.injEq, or_false, or_self] at ht
      subst ht
      rw [h3, Nat.add_zero, Nat.mod_eq_of_lt h4]
      exact ⟨rfl, h4⟩
  · intro t ht
    simp only at ht
    refine h.ov t ?_
    rcases hg t with g | ⟨-, g | g⟩
    · rw [← g]; exact ht
    all_goals rw [g] at ht; cases ht

theorem sub64_lt {a b : Nat} (h : a < 2 ^ 64) : sub64 a b < 2 ^ 64 := by
  simp only [sub64]; split <;> omega

theorem minus_mod {left k tot n : Nat} (hk : k ≤ 2 ^ 64) (h : (left + tot) % 2 ^ 64 = n) : (sub64 left k + (tot + k)) % 2 ^ 64 = n := by
  simp only [sub64]; split <;> omega

theorem w_step (h : W s tr) (hI : I s tr) (hs : step s l = some (s', e)) : W s' (tr ++ e) := by
  rcases step_cases hs with ⟨rfl, rfl, -⟩ | ⟨h1, -⟩
  · exact h.quiet (by simp) (by simp [total]) _ rfl rfl
  clear hs
  cases l with
  | lock ml =>
    simp only [stepLive] at h1
    split at h1
    · rename_i hg
      split at h1
      · rename_i m' em hm
        simp only [Option.some.injEq, Prod.mk.injEq] at h1
        obtain ⟨rfl, rfl⟩ := h1
        refine (h.lock (phase_after_lock hI hg hm)).quiet ?_ (fun t => total_gone t em) _ rfl rfl
        intro y hy
        obtain ⟨t, ht, -⟩ := mem_gone hy
        exact Or.inl ⟨t, ht⟩
      · cases h1
    · cases h1
  | destroy =>
    simp only [stepLive] at h1
    split at h1
    · simp only [Option.some.injEq, Prod.mk.injEq] at h1
      obtain ⟨rfl, rfl⟩ := h1
      exact h.quiet (by simp) (by simp [total]) _ rfl rfl
    · cases h1
  | call t n =>
    simp only [stepLive] at h1
    split at h1
    · rename_i hg
      simp only [Option.some.injEq, Prod.mk.injEq] at h1
      obtain ⟨rfl, rfl⟩ := h1
      obtain ⟨hg, hn⟩ := hg
      have hz : ∀ v, total v [Ev.called t n] = 0 := by intro v; rfl
      have h0 := h.un t (Or.inl hg)
      obtain ⟨ca, cs, de, fa, fo, sz, un, le, ov⟩ := h
      constructor <;> (try simp only [total_append, hz, Nat.add_zero]) <;> intro v <;> have h3 := un v <;> have h4 := le v <;> have h5 := ov v <;> have h6 := sz v <;> have h7 := ca v <;>
        have h8 := cs v <;> have h9 := de v <;> have h10 := fa v <;> have h11 := fo v <;> clear ca cs de fa fo sz un le ov <;>
        (try simp only [List.mem_append, List.mem_singleton, upd_apply, reduceCtorEq, or_false, Ev.called.injEq]) <;> by_cases hv : v = t <;> (try subst hv) <;> grind
    · cases h1
  | done t k =>
    simp only [stepLive] at h1
    split at h1
    · rename_i left hp
      split at h1
      · rename_i hk
        simp only [Option.some.injEq, Prod.mk.injEq] at h1
        obtain ⟨rfl, rfl⟩ := h1
        have hz : ∀ v, total v [Ev.wrote t k] = if t = v then k else 0 := by intro v; simp [total]
        have hlt := sub64_lt (b := k) (h.le t left (Or.inr hp)).2
        have hw := minus_mod (k := k) (tot := total t tr) (Nat.le_trans hk (Nat.le_of_lt (h.sz t))) (h.le t left (Or.inr hp)).1
        generalize sub64 left k = w at hlt hw ⊢
        obtain ⟨ca, cs, de, fa, fo, sz, un, le, ov⟩ := h
        constructor <;> (try simp only [total_append, hz]) <;> intro v <;> have h3 := un v <;> have h4 := le v <;> have h5 := ov v <;> have h6 := sz v <;> have h7 := ca v <;>
          have h8 := cs v <;> have h9 := de v <;> have h10 := fa v <;> have h11 := fo v <;> clear ca cs de fa fo sz un le ov <;>
          (try simp only [List.mem_append, List.mem_singleton, upd_apply, reduceCtorEq, or_false]) <;> by_cases hv : v = t <;> (try subst hv) <;> grind
      · cases h1
    · cases h1
  | test t =>
    simp only [stepLive] at h1
    split at h1
    · rename_i left hp
      simp only [Option.some.injEq, Prod.mk.injEq] at h1
      obtain ⟨rfl, rfl⟩ := h1
      rw [List.append_nil]
      have hl := h.le t left (Or.inl hp)
      obtain ⟨ca, cs, de, fa, fo, sz, un, le, ov⟩ := h
      constructor <;> intro v <;> have h3 := un v <;> have h4 := le v <;> have h5 := ov v <;> have h6 := sz v <;> have h7 := ca v <;>
        have h8 := cs v <;> have h9 := de v <;> have h10 := fa v <;> have h11 := fo v <;> clear ca cs de fa fo sz un le ov <;>
        (try simp only [upd_apply]) <;> by_cases hv : v = t <;> (try subst hv) <;> by_cases h0 : left = 0 <;> grind
    · cases h1
  | fail t =>
    simp only [stepLive] at h1
    split at h1
    · rename_i left hp
      simp only [Option.some.injEq, Prod.mk.injEq] at h1
      obtain ⟨rfl, rfl⟩ := h1
      have hz : ∀ v, total v [Ev.failed t] = 0 := by intro v; rfl
      obtain ⟨ca, cs, de, fa, fo, sz, un, le, ov⟩ := h
      constructor <;> (try simp only [total_append, hz, Nat.add_zero]) <;> intro v <;> have h3 := un v <;> have h4 := le v <;> have h5 := ov v <;> have h6 := sz v <;> have h7 := ca v <;>
        have h8 := cs v <;> have h9 := de v <;> have h10 := fa v <;> have h11 := fo v <;> clear ca cs de fa fo sz un le ov <;>
        (try simp only [List.mem_append, List.mem_singleton, upd_apply, reduceCtorEq, or_false, Ev.failed.injEq]) <;> by_cases hv : v = t <;> (try subst hv) <;> grind
    · cases h1
  | deliver t =>
    simp only [stepLive] at h1
    split at h1
    · rename_i ok hp
      simp only [Option.some.injEq, Prod.mk.injEq] at h1
      obtain ⟨rfl, rfl⟩ := h1
      have hz : ∀ v, total v [Ev.delivered t ok] = 0 := by intro v; rfl
      obtain ⟨ca, cs, de, fa, fo, sz, un, le, ov⟩ := h
      constructor <;> (try simp only [total_append, hz, Nat.add_zero]) <;> intro v <;> have h3 := un v <;> have h4 := le v <;> have h5 := ov v <;> have h6 := sz v <;> have h7 := ca v <;>
        have h8 := cs v <;> have h9 := de v <;> have h10 := fa v <;> have h11 := fo v <;> clear ca cs de fa fo sz un le ov <;>
        (try simp only [List.mem_append, List.mem_singleton, upd_apply, reduceCtorEq, or_false, Ev.delivered.injEq]) <;> by_cases hv : v = t <;> (try subst hv) <;> grind
    · cases h1

theorem reaches_w (h : machine.Reaches s tr) : W s tr := by
  refine (Reaches.inv (M := machine) (fun s tr => I s tr ∧ W s tr) ⟨inv_init, ?_⟩ (fun _ _ _ _ _ hI hs => ⟨inv_step hI.1 hs, w_step hI.2 hI.1 hs⟩) h).2
  constructor <;> simp [machine, init, total]

end Verif.FileAppend
