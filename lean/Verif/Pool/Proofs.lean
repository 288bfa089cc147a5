import Verif.Pool.Model
/-!
# Helper lemmas for `koios::thread_pool`
-/

namespace Verif.Pool

theorem tE_append (x) (a b : List Ev) : timesEnqueued x (a ++ b) = timesEnqueued x a + timesEnqueued x b := by
  simp [timesEnqueued, List.countP_append]
theorem tS_append (x) (a b : List Ev) : timesStarted x (a ++ b) = timesStarted x a + timesStarted x b := by
  simp [timesStarted, List.countP_append]
theorem tF_append (x) (a b : List Ev) : timesFinished x (a ++ b) = timesFinished x a + timesFinished x b := by
  simp [timesFinished, List.countP_append]
theorem aE_append (a b : List Ev) : allEnqueued (a ++ b) = allEnqueued a + allEnqueued b := by
  simp [allEnqueued, List.countP_append]
theorem aS_append (a b : List Ev) : allStarted (a ++ b) = allStarted a + allStarted b := by
  simp [allStarted, List.countP_append]
theorem sO_append (w) (a b : List Ev) : startsOf w (a ++ b) = startsOf w a + startsOf w b := by
  simp [startsOf, List.countP_append]

/-- Total number of queued tasks: `size()` of the work stealing queue. -/
def total (q : Nat → List Nat) : Nat → Nat
  | 0 => 0
  | n + 1 => total q n + (q n).length

theorem total_upd_ge (q : Nat → List Nat) (i : Nat) (l : List Nat) (n : Nat) (h : n ≤ i) :
    total (upd q i l) n = total q n := by
  induction n with
  | zero => rfl
  | succ n ih =>
    simp only [total]
    rw [ih (by omega), upd_ne _ _ (by omega)]

theorem total_upd (q : Nat → List Nat) (i : Nat) (l : List Nat) (n : Nat) (h : i < n) :
    total (upd q i l) n + (q i).length = total q n + l.length := by
  induction n with
  | zero => omega
  | succ n ih =>
    simp only [total]
    by_cases hi : i = n
    · subst hi
      rw [total_upd_ge _ _ _ _ (Nat.le_refl _)]; simp; omega
    · have := ih (by omega)
      rw [upd_ne _ _ (Ne.symm hi)]; omega

theorem total_zero (q : Nat → List Nat) (n : Nat) : total q n = 0 ↔ ∀ i, i < n → q i = [] := by
  induction n with
  | zero => simp [total]
  | succ n ih =>
    simp only [total, Nat.add_eq_zero_iff, ih, List.length_eq_zero_iff]
    constructor
    · rintro ⟨h1, h2⟩ i hi
      by_cases h : i = n
      · rw [h]; exact h2
      · exact h1 i (by omega)
    · intro h
      exact ⟨fun i hi => h i (by omega), h n (by omega)⟩

/-- Program counters a worker can have only after the stop was requested. -/
def Pc.late : Pc → Bool
  | .chkNow _ | .chkSize .. | .exited => true
  | _ => false

/-- Worker at `pc` will still look into queue `i` before it exits (unless `stopNow`). -/
def Pc.willSee (i : Nat) : Pc → Bool
  | .exited => false
  | .chkSize _ k acc => decide (k ≤ i) || decide (0 < acc)
  | _ => true

structure Inv (N : Nat) (s : St) (tr : List Ev) : Prop where
  enq : ∀ x, timesEnqueued x tr = if x < s.next then 1 else 0
  qin : ∀ i x, x ∈ s.queue i → i < N ∧ x < s.next ∧ timesStarted x tr = 0
  nodup : ∀ i, (s.queue i).Nodup
  excl : ∀ i j x, x ∈ s.queue i → x ∈ s.queue j → i = j
  stays : ∀ x, x < s.next → timesStarted x tr = 0 → ∃ i, i < N ∧ x ∈ s.queue i
  st : ∀ x, timesStarted x tr ≤ if x < s.next then 1 else 0
  run : ∀ w x, s.pc w = .run x → timesStarted x tr = 1 ∧ timesFinished x tr = 0
  runU : ∀ w w' x, s.pc w = .run x → s.pc w' = .run x → w = w'
  fin : ∀ x, timesStarted x tr = 1 → timesFinished x tr = 1 ∨ ∃ w, w < N ∧ s.pc w = .run x
  fin0 : ∀ x, timesStarted x tr = 0 → timesFinished x tr = 0
  size : total s.queue N + allStarted tr = allEnqueued tr
  req : s.stopReq = true ↔ Ev.stopRequested ∈ tr
  now : s.stopNow = true ↔ Ev.stopNow ∈ tr
  late : s.stopReq = false → ∀ w, (s.pc w).late = false
  join : Ev.joined ∈ tr → ∀ w, w < N → s.pc w = .exited
  exi : ∀ p w, p ++ [.exited w] <+: tr → Ev.stopRequested ∈ p

theorem inv_init (N : Nat) : Inv N init [] := by
  constructor <;> simp [init, timesEnqueued, timesStarted, timesFinished, allStarted, allEnqueued, Pc.late]
  case size => rw [total_zero]; simp

/-- A step that only moves a worker between program counters other than `run`, silently or by
exiting. -/
theorem inv_move {N : Nat} {s : St} {tr : List Ev} (h : Inv N s tr) (w : Nat) (pc' : Pc) (e : List Ev)
    (he : e = [] ∨ e = [.exited w]) (hnr : ∀ x, s.pc w ≠ .run x) (hne : s.pc w ≠ .exited) (hw : w < N)
    (hnr' : ∀ x, pc' ≠ .run x) (hl : s.stopReq = false → pc'.late = false)
    (hex : e = [.exited w] → s.stopReq = true) :
    Inv N { s with pc := upd s.pc w pc' } (tr ++ e) := by
  have e1 : ∀ x, timesEnqueued x (tr ++ e) = timesEnqueued x tr := by
    intro x; rw [tE_append]; rcases he with rfl | rfl <;> simp [timesEnqueued]
  have e2 : ∀ x, timesStarted x (tr ++ e) = timesStarted x tr := by
    intro x; rw [tS_append]; rcases he with rfl | rfl <;> simp [timesStarted]
  have e3 : ∀ x, timesFinished x (tr ++ e) = timesFinished x tr := by
    intro x; rw [tF_append]; rcases he with rfl | rfl <;> simp [timesFinished]
  have e4 : allStarted (tr ++ e) = allStarted tr := by
    rw [aS_append]; rcases he with rfl | rfl <;> simp [allStarted]
  have e5 : allEnqueued (tr ++ e) = allEnqueued tr := by
    rw [aE_append]; rcases he with rfl | rfl <;> simp [allEnqueued]
  have e6 : ∀ y, (∀ v, y ≠ Ev.exited v) → (y ∈ tr ++ e ↔ y ∈ tr) := by
    intro y hy; rcases he with rfl | rfl <;> simp [hy]
  obtain ⟨a1, a2, a3, a4, a5, a6, a7, a8, a9, a10, a11, a12, a13, a14, a15, a16⟩ := h
  constructor <;> try dsimp only
  · intro x; rw [e1]; exact a1 x
  · intro i x hx; rw [e2]; exact a2 i x hx
  · exact a3
  · exact a4
  · intro x; rw [e2]; exact a5 x
  · intro x; rw [e2]; exact a6 x
  · intro v x hv; rw [e2, e3]; simp only [upd_apply] at hv; grind
  · intro v v' x hv hv'; simp only [upd_apply] at hv hv'; grind
  · intro x; rw [e2, e3]; intro hx
    rcases a9 x hx with h | ⟨v, h1, h2⟩
    · exact Or.inl h
    · right; refine ⟨v, h1, ?_⟩; simp only [upd_apply]; grind
  · intro x; rw [e2, e3]; exact a10 x
  · rw [e4, e5]; exact a11
  · rw [e6 _ (by simp)]; exact a12
  · rw [e6 _ (by simp)]; exact a13
  · intro hr v; simp only [upd_apply]; split
    · exact hl hr
    · exact a14 hr v
  · rw [e6 _ (by simp)]; intro hj v hv
    exact absurd (a15 hj w hw) hne
  · intro p v hp
    rcases he with rfl | rfl
    · rw [List.append_nil] at hp; exact a16 p v hp
    · rw [concat_prefix_concat_iff] at hp
      rcases hp with hp | ⟨rfl, _⟩
      · exact a16 p v hp
      · exact a12.1 (hex rfl)

theorem exi_append {tr e : List Ev} (h : ∀ p w, p ++ [.exited w] <+: tr → Ev.stopRequested ∈ p)
    (he : ∀ w, Ev.exited w ∉ e) : ∀ p w, p ++ [.exited w] <+: tr ++ e → Ev.stopRequested ∈ p := by
  intro p w hp
  rcases prefix_append_cases hp with h1 | ⟨q, hq, hpq⟩
  · exact h p w h1
  · rcases List.eq_nil_or_concat q with rfl | ⟨q', y, rfl⟩
    · simp at hpq; exact h p w (by simp [hpq])
    · rw [List.concat_eq_append, ← List.append_assoc] at hpq
      have := List.append_inj' hpq rfl
      simp at this
      exact absurd (hq.subset (by simp [this.2])) (he w)

/-- Taking task `x` out of queue `k`. -/
theorem inv_take {N : Nat} {s : St} {tr : List Ev} (h : Inv N s tr) (w k x : Nat) (hw : w < N) (hk : k < N)
    (hx : x ∈ s.queue k) (hnr : ∀ y, s.pc w ≠ .run y) (hnl : s.pc w ≠ .exited) :
    Inv N { s with queue := upd s.queue k ((s.queue k).erase x), pc := upd s.pc w (.run x) }
      (tr ++ [.started w x]) := by
  obtain ⟨a1, a2, a3, a4, a5, a6, a7, a8, a9, a10, a11, a12, a13, a14, a15, a16⟩ := h
  have e1 : ∀ y, timesEnqueued y (tr ++ [.started w x]) = timesEnqueued y tr := by
    intro y; rw [tE_append]; simp [timesEnqueued]
  have e2 : ∀ y, timesStarted y (tr ++ [.started w x]) = timesStarted y tr + if x = y then 1 else 0 := by
    intro y; rw [tS_append]; simp [timesStarted, List.countP_cons]
  have e3 : ∀ y, timesFinished y (tr ++ [.started w x]) = timesFinished y tr := by
    intro y; rw [tF_append]; simp [timesFinished]
  have e4 : allStarted (tr ++ [.started w x]) = allStarted tr + 1 := by
    rw [aS_append]; simp [allStarted]
  have e5 : allEnqueued (tr ++ [.started w x]) = allEnqueued tr := by
    rw [aE_append]; simp [allEnqueued]
  have hx0 := a2 k x hx
  have hmem : ∀ i y, y ∈ upd s.queue k ((s.queue k).erase x) i ↔ y ∈ s.queue i ∧ y ≠ x := by
    intro i y
    simp only [upd_apply]
    split
    · rename_i e; subst e
      rw [(a3 i).mem_erase_iff]; exact And.comm
    · rename_i hik
      constructor
      · intro hy; refine ⟨hy, ?_⟩; rintro rfl; exact hik (a4 i k y hy hx)
      · exact fun h => h.1
  constructor <;> try dsimp only
  · intro y; rw [e1]; exact a1 y
  · intro i y hy; rw [hmem] at hy; rw [e2]
    have := a2 i y hy.1
    refine ⟨this.1, this.2.1, ?_⟩
    simp [Ne.symm hy.2, this.2.2]
  · intro i; simp only [upd_apply]; split
    · exact (a3 k).erase x
    · exact a3 i
  · intro i j y; rw [hmem, hmem]; intro h1 h2; exact a4 i j y h1.1 h2.1
  · intro y hy; rw [e2]; intro h0
    have hyx : x ≠ y := by rintro rfl; simp at h0
    obtain ⟨i, h1, h2⟩ := a5 y hy (by simpa [hyx] using h0)
    exact ⟨i, h1, (hmem i y).2 ⟨h2, Ne.symm hyx⟩⟩
  · intro y; rw [e2]
    by_cases hyx : x = y
    · subst hyx; simp [hx0]
    · simpa [hyx] using a6 y
  · intro v y hv; rw [e2, e3]; simp only [upd_apply] at hv
    split at hv
    · simp only [Pc.run.injEq] at hv; subst hv; simp [hx0, a10 x hx0.2.2]
    · have := a7 v y hv
      have hyx : x ≠ y := by rintro rfl; omega
      simpa [hyx] using this
  · intro v v' y hv hv'; simp only [upd_apply] at hv hv'
    split at hv <;> split at hv'
    · omega
    · simp only [Pc.run.injEq] at hv; subst hv; have := a7 v' x hv'; omega
    · simp only [Pc.run.injEq] at hv'; subst hv'; have := a7 v x hv; omega
    · exact a8 v v' y hv hv'
  · intro y; rw [e2, e3]; intro hy
    by_cases hyx : x = y
    · subst hyx; right; exact ⟨w, hw, by simp⟩
    · rcases a9 y (by simpa [hyx] using hy) with h | ⟨v, h1, h2⟩
      · exact Or.inl h
      · right; refine ⟨v, h1, ?_⟩
        simp only [upd_apply]; split
        · rename_i e; subst e; exact absurd h2 (hnr y)
        · exact h2
  · intro y; rw [e2, e3]; intro hy
    exact a10 y (by omega)
  · rw [e4, e5]
    have := total_upd s.queue k ((s.queue k).erase x) N hk
    rw [List.length_erase_of_mem hx] at this
    have hpos : 0 < (s.queue k).length := List.length_pos_of_mem hx
    omega
  · simp; exact a12
  · simp; exact a13
  · intro hr v; simp only [upd_apply]; split
    · rfl
    · exact a14 hr v
  · intro hj v hv
    simp at hj
    exact absurd (a15 hj w hw) hnl
  · exact exi_append a16 (by simp)

theorem inv_step (N : Nat) (s : St) (tr : List Ev) (l : Lbl) (s' : St) (e : List Ev)
    (h : Inv N s tr) (hs : step N s l = some (s', e)) : Inv N s' (tr ++ e) := by
  cases l with
  | enqTest a =>
    obtain ⟨a1, a2, a3, a4, a5, a6, a7, a8, a9, a10, a11, a12, a13, a14, a15, a16⟩ := h
    simp only [step] at hs
    split at hs
    · have he : (e = [.enqCalled a] ∨ e = [.enqCalled a, .refused a]) ∧ s'.queue = s.queue ∧ s'.pc = s.pc ∧
          s'.next = s.next ∧ s'.stopReq = s.stopReq ∧ s'.stopNow = s.stopNow := by
        split at hs <;> simp only [Option.some.injEq, Prod.mk.injEq] at hs <;> obtain ⟨rfl, rfl⟩ := hs <;> simp
      obtain ⟨he, q1, q2, q3, q4, q5⟩ := he
      have e1 : ∀ x, timesEnqueued x (tr ++ e) = timesEnqueued x tr := by
        intro x; rw [tE_append]; rcases he with rfl | rfl <;> simp [timesEnqueued]
      have e2 : ∀ x, timesStarted x (tr ++ e) = timesStarted x tr := by
        intro x; rw [tS_append]; rcases he with rfl | rfl <;> simp [timesStarted]
      have e3 : ∀ x, timesFinished x (tr ++ e) = timesFinished x tr := by
        intro x; rw [tF_append]; rcases he with rfl | rfl <;> simp [timesFinished]
      have e4 : allStarted (tr ++ e) = allStarted tr := by
        rw [aS_append]; rcases he with rfl | rfl <;> simp [allStarted]
      have e5 : allEnqueued (tr ++ e) = allEnqueued tr := by
        rw [aE_append]; rcases he with rfl | rfl <;> simp [allEnqueued]
      constructor
      · intro x; rw [e1, q3]; exact a1 x
      · intro i x; rw [e2, q1, q3]; exact a2 i x
      · rw [q1]; exact a3
      · rw [q1]; exact a4
      · intro x; rw [e2, q3, q1]; exact a5 x
      · intro x; rw [e2, q3]; exact a6 x
      · intro v x; rw [e2, e3, q2]; exact a7 v x
      · rw [q2]; exact a8
      · intro x; rw [e2, e3, q2]; exact a9 x
      · intro x; rw [e2, e3]; exact a10 x
      · rw [e4, e5, q1]; exact a11
      · rw [q4, a12]; rcases he with rfl | rfl <;> simp
      · rw [q5, a13]; rcases he with rfl | rfl <;> simp
      · rw [q4, q2]; exact a14
      · rw [q2]; intro hj; apply a15; rcases he with rfl | rfl <;> simpa using hj
      · apply exi_append a16; rcases he with rfl | rfl <;> simp
    · simp at hs
  | enqPush a i =>
    obtain ⟨a1, a2, a3, a4, a5, a6, a7, a8, a9, a10, a11, a12, a13, a14, a15, a16⟩ := h
    simp only [step] at hs
    split at hs
    · rename_i hc
      simp only [Option.some.injEq, Prod.mk.injEq] at hs
      obtain ⟨rfl, rfl⟩ := hs
      have hfresh : ∀ j, s.next ∉ s.queue j := fun j hj => by have := (a2 j _ hj).2.1; omega
      have hst0 : timesStarted s.next tr = 0 := by have := a6 s.next; simp at this; exact this
      have hmem : ∀ j y, y ∈ upd s.queue i (s.queue i ++ [s.next]) j ↔ y ∈ s.queue j ∨ (j = i ∧ y = s.next) := by
        intro j y; simp only [upd_apply]; split
        · rename_i e; subst e; simp
        · rename_i e; simp [e]
      have e2 : ∀ x, timesStarted x (tr ++ [.enqueued a s.next]) = timesStarted x tr := by
        intro x; rw [tS_append]; simp [timesStarted]
      have e3 : ∀ x, timesFinished x (tr ++ [.enqueued a s.next]) = timesFinished x tr := by
        intro x; rw [tF_append]; simp [timesFinished]
      constructor <;> try dsimp only
      · intro x; rw [tE_append, a1]
        simp only [timesEnqueued, List.countP_cons, List.countP_nil, beq_iff_eq]
        split <;> split <;> split <;> omega
      · intro j x; rw [e2, hmem]
        rintro (hj | ⟨rfl, rfl⟩)
        · have := a2 j x hj; exact ⟨this.1, by omega, this.2.2⟩
        · exact ⟨hc.2.2, by omega, hst0⟩
      · intro j; simp only [upd_apply]; split
        · rename_i e; subst e
          rw [List.nodup_append]; exact ⟨a3 j, by simp, by intro x hx y hy; simp at hy; rintro rfl; subst hy; exact hfresh _ hx⟩
        · exact a3 j
      · intro j j' x; rw [hmem, hmem]
        rintro (h1 | ⟨h1, h1'⟩) (h2 | ⟨h2, h2'⟩)
        · exact a4 _ _ _ h1 h2
        · subst h2'; exact absurd h1 (hfresh _)
        · subst h1'; exact absurd h2 (hfresh _)
        · omega
      · intro x hx; rw [e2]; intro h0
        by_cases hxn : x = s.next
        · exact ⟨i, hc.2.2, (hmem i x).2 (Or.inr ⟨rfl, hxn⟩)⟩
        · obtain ⟨j, h1, h2⟩ := a5 x (by omega) h0
          exact ⟨j, h1, (hmem j x).2 (Or.inl h2)⟩
      · intro x; rw [e2]; have := a6 x; split at this <;> split <;> omega
      · intro v x; rw [e2, e3]; exact a7 v x
      · exact a8
      · intro x; rw [e2, e3]; exact a9 x
      · intro x; rw [e2, e3]; exact a10 x
      · have := total_upd s.queue i (s.queue i ++ [s.next]) N hc.2.2
        rw [aS_append, aE_append]
        simp [allStarted, allEnqueued] at this ⊢
        simp [allStarted, allEnqueued] at a11
        omega
      · simp; exact a12
      · simp; exact a13
      · exact a14
      · intro hj; simp at hj; exact a15 hj
      · exact exi_append a16 (by simp)
    · simp at hs
  | work w =>
    simp only [step] at hs
    split at hs
    · rename_i hw
      have hl := h.late
      split at hs
      · rename_i mid hpc
        split at hs <;> simp only [Option.some.injEq, Prod.mk.injEq] at hs <;> obtain ⟨rfl, rfl⟩ := hs
        · rename_i hr
          exact inv_move h w _ _ (Or.inl rfl) (by simp [hpc]) (by simp [hpc]) hw (by simp) (by simp [hr]) (by simp)
        · exact inv_move h w _ _ (Or.inl rfl) (by simp [hpc]) (by simp [hpc]) hw
            (by simp [afterDone]; split <;> simp) (by simp [afterDone]; split <;> simp [Pc.late]) (by simp)
      · rename_i mid hpc
        have hr : s.stopReq = true := by
          cases hr : s.stopReq
          · have := hl hr w; simp [hpc, Pc.late] at this
          · rfl
        split at hs <;> simp only [Option.some.injEq, Prod.mk.injEq] at hs <;> obtain ⟨rfl, rfl⟩ := hs
        · exact inv_move h w _ _ (Or.inr rfl) (by simp [hpc]) (by simp [hpc]) hw (by simp [afterDone])
            (by simp [hr]) (fun _ => hr)
        · exact inv_move h w _ _ (Or.inl rfl) (by simp [hpc]) (by simp [hpc]) hw (by simp)
            (by simp [hr]) (by simp)
      · rename_i mid k acc hpc
        have hr : s.stopReq = true := by
          cases hr : s.stopReq
          · have := hl hr w; simp [hpc, Pc.late] at this
          · rfl
        split at hs <;> simp only [Option.some.injEq, Prod.mk.injEq] at hs <;> obtain ⟨rfl, rfl⟩ := hs
        · exact inv_move h w _ _ (Or.inl rfl) (by simp [hpc]) (by simp [hpc]) hw (by simp)
            (by simp [hr]) (by simp)
        · refine inv_move h w _ _ ?_ (by simp [hpc]) (by simp [hpc]) hw ?_ (by simp [hr]) (fun _ => hr)
          · unfold doneEv; split <;> simp
          · intro x; unfold afterDone; split
            · simp
            · split <;> simp
      · simp at hs
    · simp at hs
  | take w x =>
    simp only [step] at hs
    split at hs
    · rename_i hw
      split at hs
      · rename_i hpc
        split at hs
        · rename_i hx
          simp only [Option.some.injEq, Prod.mk.injEq] at hs; obtain ⟨rfl, rfl⟩ := hs
          exact inv_take h w w x hw hw hx (by simp [hpc]) (by simp [hpc])
        · simp at hs
      · rename_i k hpc
        split at hs
        · rename_i hx
          simp only [Option.some.injEq, Prod.mk.injEq] at hs; obtain ⟨rfl, rfl⟩ := hs
          exact inv_take h w k x hw hx.1 hx.2 (by simp [hpc]) (by simp [hpc])
        · simp at hs
      · simp at hs
    · simp at hs
  | takeNone w =>
    simp only [step] at hs
    split at hs
    · rename_i hw
      split at hs
      · rename_i hpc
        simp only [Option.some.injEq, Prod.mk.injEq] at hs; obtain ⟨rfl, rfl⟩ := hs
        exact inv_move h w _ _ (Or.inl rfl) (by simp [hpc]) (by simp [hpc]) hw (by simp) (by simp [Pc.late]) (by simp)
      · rename_i k hpc
        split at hs
        · simp only [Option.some.injEq, Prod.mk.injEq] at hs; obtain ⟨rfl, rfl⟩ := hs
          exact inv_move h w _ _ (Or.inl rfl) (by simp [hpc]) (by simp [hpc]) hw (by simp) (by simp [Pc.late]) (by simp)
        · simp only [Option.some.injEq, Prod.mk.injEq] at hs; obtain ⟨rfl, rfl⟩ := hs
          exact inv_move h w _ _ (Or.inl rfl) (by simp [hpc]) (by simp [hpc]) hw (by simp) (by simp [Pc.late]) (by simp)
      · simp at hs
    · simp at hs
  | finish w threw =>
    obtain ⟨a1, a2, a3, a4, a5, a6, a7, a8, a9, a10, a11, a12, a13, a14, a15, a16⟩ := h
    simp only [step] at hs
    split at hs
    · rename_i x hpc
      split at hs
      · simp only [Option.some.injEq, Prod.mk.injEq] at hs; obtain ⟨rfl, rfl⟩ := hs
        have e1 : ∀ y, timesEnqueued y (tr ++ [.finished w x threw]) = timesEnqueued y tr := by
          intro y; rw [tE_append]; simp [timesEnqueued]
        have e2 : ∀ y, timesStarted y (tr ++ [.finished w x threw]) = timesStarted y tr := by
          intro y; rw [tS_append]; simp [timesStarted]
        have e3 : ∀ y, timesFinished y (tr ++ [.finished w x threw]) = timesFinished y tr + if x = y then 1 else 0 := by
          intro y; rw [tF_append]; simp [timesFinished, List.countP_cons]
        have hx := a7 w x hpc
        constructor <;> try dsimp only
        · intro y; rw [e1]; exact a1 y
        · intro i y; rw [e2]; exact a2 i y
        · exact a3
        · exact a4
        · intro y; rw [e2]; exact a5 y
        · intro y; rw [e2]; exact a6 y
        · intro v y hv; rw [e2, e3]; simp only [upd_apply] at hv
          split at hv
          · simp at hv
          · rename_i hvw
            have hyx : x ≠ y := by rintro rfl; exact hvw (a8 v w x hv hpc)
            simpa [hyx] using a7 v y hv
        · intro v v' y hv hv'; simp only [upd_apply] at hv hv'; grind
        · intro y; rw [e2, e3]; intro hy
          by_cases hyx : x = y
          · subst hyx; left; simp [hx.2]
          · rcases a9 y hy with h | ⟨v, h1, h2⟩
            · left; simpa [hyx] using h
            · right; refine ⟨v, h1, ?_⟩; simp only [upd_apply]; grind
        · intro y; rw [e2, e3]; intro hy
          have hyx : x ≠ y := by rintro rfl; omega
          simpa [hyx] using a10 y hy
        · rw [aS_append, aE_append]; simpa [allStarted, allEnqueued] using a11
        · simp; exact a12
        · simp; exact a13
        · intro hr v; simp only [upd_apply]; split
          · rfl
          · exact a14 hr v
        · intro hj v hv; simp at hj; 
          have := a15 hj
          simp only [upd_apply]
          split
          · rename_i e; subst e; have := this v hv; simp [hpc] at this
          · exact this v hv
        · exact exi_append a16 (by simp)
      · simp at hs
    · simp at hs
  | reqStop =>
    obtain ⟨a1, a2, a3, a4, a5, a6, a7, a8, a9, a10, a11, a12, a13, a14, a15, a16⟩ := h
    simp only [step] at hs
    split at hs
    · simp only [Option.some.injEq, Prod.mk.injEq] at hs; obtain ⟨rfl, rfl⟩ := hs
      have e2 : ∀ y, timesStarted y (tr ++ [.stopRequested]) = timesStarted y tr := by
        intro y; rw [tS_append]; simp [timesStarted]
      have e3 : ∀ y, timesFinished y (tr ++ [.stopRequested]) = timesFinished y tr := by
        intro y; rw [tF_append]; simp [timesFinished]
      constructor <;> try dsimp only
      · intro y; rw [tE_append, a1]; simp [timesEnqueued]
      · intro i y; rw [e2]; exact a2 i y
      · exact a3
      · exact a4
      · intro y; rw [e2]; exact a5 y
      · intro y; rw [e2]; exact a6 y
      · intro v y; rw [e2, e3]; exact a7 v y
      · exact a8
      · intro y; rw [e2, e3]; exact a9 y
      · intro y; rw [e2, e3]; exact a10 y
      · rw [aS_append, aE_append]; simpa [allStarted, allEnqueued] using a11
      · simp
      · simp; exact a13
      · simp
      · intro hj; simp at hj; exact a15 hj
      · exact exi_append a16 (by simp)
    · simp at hs
  | setNow =>
    obtain ⟨a1, a2, a3, a4, a5, a6, a7, a8, a9, a10, a11, a12, a13, a14, a15, a16⟩ := h
    simp only [step] at hs
    split at hs
    · simp only [Option.some.injEq, Prod.mk.injEq] at hs; obtain ⟨rfl, rfl⟩ := hs
      have e2 : ∀ y, timesStarted y (tr ++ [.stopNow]) = timesStarted y tr := by
        intro y; rw [tS_append]; simp [timesStarted]
      have e3 : ∀ y, timesFinished y (tr ++ [.stopNow]) = timesFinished y tr := by
        intro y; rw [tF_append]; simp [timesFinished]
      constructor <;> try dsimp only
      · intro y; rw [tE_append, a1]; simp [timesEnqueued]
      · intro i y; rw [e2]; exact a2 i y
      · exact a3
      · exact a4
      · intro y; rw [e2]; exact a5 y
      · intro y; rw [e2]; exact a6 y
      · intro v y; rw [e2, e3]; exact a7 v y
      · exact a8
      · intro y; rw [e2, e3]; exact a9 y
      · intro y; rw [e2, e3]; exact a10 y
      · rw [aS_append, aE_append]; simpa [allStarted, allEnqueued] using a11
      · simp; exact a12
      · simp
      · exact a14
      · intro hj; simp at hj; exact a15 hj
      · exact exi_append a16 (by simp)
    · simp at hs
  | join =>
    obtain ⟨a1, a2, a3, a4, a5, a6, a7, a8, a9, a10, a11, a12, a13, a14, a15, a16⟩ := h
    simp only [step] at hs
    split at hs
    · rename_i hj
      simp only [Option.some.injEq, Prod.mk.injEq] at hs; obtain ⟨rfl, rfl⟩ := hs
      have e2 : ∀ y, timesStarted y (tr ++ [.joined]) = timesStarted y tr := by
        intro y; rw [tS_append]; simp [timesStarted]
      have e3 : ∀ y, timesFinished y (tr ++ [.joined]) = timesFinished y tr := by
        intro y; rw [tF_append]; simp [timesFinished]
      constructor <;> try dsimp only
      · intro y; rw [tE_append, a1]; simp [timesEnqueued]
      · intro i y; rw [e2]; exact a2 i y
      · exact a3
      · exact a4
      · intro y; rw [e2]; exact a5 y
      · intro y; rw [e2]; exact a6 y
      · intro v y; rw [e2, e3]; exact a7 v y
      · exact a8
      · intro y; rw [e2, e3]; exact a9 y
      · intro y; rw [e2, e3]; exact a10 y
      · rw [aS_append, aE_append]; simpa [allStarted, allEnqueued] using a11
      · simp; exact a12
      · simp; exact a13
      · exact a14
      · intro _ v hv
        have := hj.2.2
        rw [List.all_eq_true] at this
        simpa using this v (by simpa using hv)
      · exact exi_append a16 (by simp)
    · simp at hs

theorem inv_of_reaches {N : Nat} {s : St} {tr : List Ev} (h : (machine N).Reaches s tr) : Inv N s tr :=
  h.inv (Inv N) (inv_init N) (inv_step N)

end Verif.Pool
