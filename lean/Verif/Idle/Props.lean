import Verif.Idle.Model
import Verif.Common.AtEvent
/-!
# C105: the idle report
-/

namespace Verif.Idle

def Pc.isNap : Pc → Bool
  | .nap => true
  | _ => false

theorem asleep_append (w : Nat) (tr e : List Ev) : asleep w (tr ++ e) = e.foldl (asleepStep w) (asleep w tr) := by
  simp [asleep, List.foldl_append]

theorem busy_append (w : Nat) (tr e : List Ev) : busy w (tr ++ e) = e.foldl (busyStep w) (busy w tr) := by
  simp [busy, List.foldl_append]

def naps (N : Nat) (pc : Nat → Pc) : Nat := (List.range N).countP fun w => (pc w).isNap

theorem naps_other {N w : Nat} {pc : Nat → Pc} {q : Pc} (h : q.isNap = (pc w).isNap) : naps N (upd pc w q) = naps N pc := by
  simp only [naps]
  congr 1; funext v
  simp only [upd_apply]
  split
  · rename_i hv; subst hv; exact h
  · rfl

theorem naps_add {N w : Nat} {pc : Nat → Pc} (hw : w < N) (h : (pc w).isNap = false) : naps N (upd pc w .nap) = naps N pc + 1 := by
  induction N with
  | zero => omega
  | succ N ih =>
    simp only [naps, List.range_succ, List.countP_append, List.countP_cons, List.countP_nil] at ih ⊢
    by_cases hN : w = N
    · subst hN
      have : (List.range w).countP (fun v => (upd pc w .nap v).isNap) = (List.range w).countP (fun v => (pc v).isNap) := by
        apply List.countP_congr
        intro v hv
        simp only [List.mem_range] at hv
        rw [upd_ne _ _ (by omega)]
      rw [this]
      simp [h]
      rfl
    · have := ih (by omega)
      rw [upd_ne _ _ (by omega)]
      omega

theorem naps_sub {N w : Nat} {pc : Nat → Pc} {q : Pc} (hw : w < N) (h : pc w = .nap) (hq : q.isNap = false) : naps N (upd pc w q) + 1 = naps N pc := by
  have h1 := naps_add (pc := upd pc w q) hw (by simp [upd_apply, hq])
  have h2 : upd (upd pc w q) w .nap = pc := by
    funext v
    simp only [upd_apply]
    split
    · rename_i hv; rw [hv, h]
    · rfl
  rw [h2] at h1
  omega

theorem naps_all {N w : Nat} {pc : Nat → Pc} (hw : w < N) (h : (pc w).isNap = false) (hn : naps N pc = N - 1) : ∀ u, u < N → u ≠ w → pc u = .nap := by
  have h1 := naps_add hw h
  have h2 : naps N (upd pc w .nap) = (List.range N).length := by rw [h1]; simp; omega
  rw [naps, List.countP_eq_length] at h2
  intro u hu huw
  have := h2 u (List.mem_range.2 hu)
  rw [upd_ne _ _ huw] at this
  cases hp : pc u <;> simp [hp, Pc.isNap] at this ⊢

structure Inv (N : Nat) (s : St) (tr : List Ev) : Prop where
  slp : ∀ u, asleep u tr = (s.pc u).isNap
  bsy : ∀ u, busy u tr = decide (s.pc u = .run)
  cnt : s.sleeping = naps N s.pc
  lt : ∀ u, s.pc u ≠ .head → u < N
  now : s.now = tr.countP isTick
  rep : ∀ p q w, tr = p ++ .reported w :: q → s.now ≤ s.last + q.countP isTick
  pol : ∀ w d, s.pc w = .polled d → ∃ p1 q, tr = p1 ++ .polled w d :: q ∧ ∀ b, .polled w b ∉ q
  nap : ∀ w p1 q, tr = p1 ++ .started w :: q → s.noTask w ≤ q.countP (isSleep w)

/-- what a check does to the state -/
theorem check_st (N : Nat) (s : St) (w : Nat) (did pend : Bool) :
    (check N s w did pend).1.now = s.now ∧
    ((check N s w did pend).1.last = s.last ∧ .reported w ∉ (check N s w did pend).2 ∨ (check N s w did pend).1.last = s.now) ∧
    (∀ u, (check N s w did pend).1.noTask u = s.noTask u ∨ u = w ∧ (check N s w did pend).1.noTask u = s.noTask u + 1) ∧
    ∀ x ∈ (check N s w did pend).2, x = .pending w pend ∨ x = .reported w := by
  simp only [check]
  (repeat' split) <;> simp [upd_apply] <;> grind

/-- a split either lies in the old part or its event is new -/
theorem split_cases {tr e p q : List Ev} {x : Ev} (h : tr ++ e = p ++ x :: q) :
    (∃ q', q = q' ++ e ∧ tr = p ++ x :: q') ∨ (x ∈ e ∧ ∃ q0, e = q0 ++ x :: q ∧ p = tr ++ q0) := by
  rw [List.append_eq_append_iff] at h
  rcases h with ⟨a, h1, h2⟩ | ⟨a, h1, h2⟩
  · exact Or.inr ⟨h2 ▸ by simp, a, h2, h1⟩
  · cases a with
    | nil => exact Or.inr ⟨by simp at h2; rw [← h2]; simp, [], by simpa using h2.symm, by simpa using h1.symm⟩
    | cons y a =>
      simp only [List.cons_append, List.cons.injEq] at h2
      obtain ⟨rfl, h2⟩ := h2
      exact Or.inl ⟨a, h2, h1⟩

theorem foldl_id {α : Type} (f : α → Ev → α) (l : List Ev) (h : ∀ x ∈ l, ∀ b, f b x = b) (b : α) : l.foldl f b = b := by
  induction l with
  | nil => rfl
  | cons x l ih => simp only [List.foldl_cons]; rw [h x (by simp)]; exact ih (fun y hy => h y (by simp [hy]))

theorem inv_step {N : Nat} {s s' : St} {tr e : List Ev} {l : Lbl} (hi : Inv N s tr) (hs : step N s l = some (s', e)) : Inv N s' (tr ++ e) := by
  obtain ⟨h1, h2, h3, h4, h5, h6, h7, h8⟩ := hi
  -- the clause on splits, for the steps that emit no such event
  have frep : ∀ (e : List Ev) (n l : Nat), (∀ w, .reported w ∉ e) → n ≤ s.now + e.countP isTick → l = s.last →
      ∀ p q w, tr ++ e = p ++ .reported w :: q → n ≤ l + q.countP isTick := by
    intro e n l he hn hl p q w hp
    rcases split_cases hp with ⟨q', rfl, h⟩ | ⟨h, _⟩
    · have := h6 p q' w h
      rw [List.countP_append]; omega
    · exact absurd h (he w)
  have fpol : ∀ (e : List Ev) (w : Nat) (d : Bool), (∀ b, .polled w b ∉ e) → s.pc w = .polled d →
      ∃ p1 q, tr ++ e = p1 ++ .polled w d :: q ∧ ∀ b, .polled w b ∉ q := by
    intro e w d he hp
    obtain ⟨p1, q, rfl, hq⟩ := h7 w d hp
    exact ⟨p1, q ++ e, by simp, fun b => by simp [hq b, he b]⟩
  have fnap : ∀ (e : List Ev) (w n : Nat), .started w ∉ e → n ≤ s.noTask w + e.countP (isSleep w) →
      ∀ p1 q, tr ++ e = p1 ++ .started w :: q → n ≤ q.countP (isSleep w) := by
    intro e w n he hn p1 q hp
    rcases split_cases hp with ⟨q', rfl, h⟩ | ⟨h, _⟩
    · have := h8 w p1 q' h
      rw [List.countP_append]; omega
    · exact absurd h he
  cases l with
  | tick =>
    simp only [step, Option.some.injEq, Prod.mk.injEq] at hs
    obtain ⟨rfl, rfl⟩ := hs
    exact ⟨fun u => by simp [asleep_append, asleepStep, h1], fun u => by simp [busy_append, busyStep, h2], h3, h4, by simp [h5, List.countP_append, isTick],
      frep _ _ _ (by simp) (by simp [isTick]) rfl, fun w d => fpol _ w d (by simp), fun w => fnap _ w _ (by simp) (Nat.le_add_right _ _)⟩
  | poll w did =>
    simp only [step] at hs
    split at hs <;> simp only [Option.some.injEq, Prod.mk.injEq, reduceCtorEq] at hs
    rename_i hc
    obtain ⟨rfl, rfl⟩ := hs
    refine ⟨fun u => ?_, fun u => ?_, ?_, fun u => ?_, by simp [h5, List.countP_append, isTick], frep _ _ _ (by simp) (by simp) rfl, fun u d hp => ?_,
      fun u => fnap _ u _ (by simp) (Nat.le_add_right _ _)⟩
    · simp only [asleep_append, asleepStep, h1, upd_apply, List.foldl_cons, List.foldl_nil]; split <;> simp_all [Pc.isNap]
    · simp only [busy_append, busyStep, h2, upd_apply, List.foldl_cons, List.foldl_nil]; split <;> simp_all
    · exact h3.trans (naps_other (by simp [hc.2, Pc.isNap])).symm
    · simp only [upd_apply]; split
      · rename_i hu; subst hu; exact fun _ => hc.1
      · exact h4 u
    · simp only [upd_apply] at hp
      split at hp
      · rename_i hu; subst hu
        cases hp
        exact ⟨tr, [], rfl, by simp⟩
      · exact fpol _ u d (by simp; omega) hp
  | take w =>
    simp only [step] at hs
    (repeat' split at hs) <;> simp only [Option.some.injEq, Prod.mk.injEq, reduceCtorEq] at hs
    rename_i hw _ d hpc
    obtain ⟨rfl, rfl⟩ := hs
    refine ⟨fun u => ?_, fun u => ?_, ?_, fun u => ?_, by simp [h5, List.countP_append, isTick], frep _ _ _ (by simp) (by simp) rfl, fun u d hp => ?_, fun u p1 q hp => ?_⟩
    · simp only [asleep_append, asleepStep, h1, upd_apply, List.foldl_cons, List.foldl_nil]; split <;> simp_all [Pc.isNap]
    · simp only [busy_append, busyStep, h2, upd_apply, List.foldl_cons, List.foldl_nil]; grind
    · exact h3.trans (naps_other (by simp [hpc, Pc.isNap])).symm
    · simp only [upd_apply]; split
      · rename_i hu; subst hu; exact fun _ => hw
      · exact h4 u
    · simp only [upd_apply] at hp
      split at hp
      · cases hp
      · exact fpol _ u d (by simp) hp
    · simp only [upd_apply]
      split
      · omega
      · exact fnap _ u _ (by simp; omega) (by omega) p1 q hp
  | finish w =>
    simp only [step] at hs
    split at hs <;> simp only [Option.some.injEq, Prod.mk.injEq, reduceCtorEq] at hs
    rename_i hc
    obtain ⟨rfl, rfl⟩ := hs
    refine ⟨fun u => ?_, fun u => ?_, ?_, fun u => ?_, by simp [h5, List.countP_append, isTick], frep _ _ _ (by simp) (by simp) rfl, fun u d hp => ?_,
      fun u => fnap _ u _ (by simp) (Nat.le_add_right _ _)⟩
    · simp only [asleep_append, asleepStep, h1, upd_apply, List.foldl_cons, List.foldl_nil]; split <;> simp_all [Pc.isNap]
    · simp only [busy_append, busyStep, h2, upd_apply, List.foldl_cons, List.foldl_nil]; grind
    · exact h3.trans (naps_other (by simp [hc, Pc.isNap])).symm
    · simp only [upd_apply]; split
      · simp
      · exact h4 u
    · simp only [upd_apply] at hp
      split at hp
      · cases hp
      · exact fpol _ u d (by simp) hp
  | wake w =>
    simp only [step] at hs
    split at hs <;> simp only [Option.some.injEq, Prod.mk.injEq, reduceCtorEq] at hs
    rename_i hc
    obtain ⟨rfl, rfl⟩ := hs
    refine ⟨fun u => ?_, fun u => ?_, ?_, fun u => ?_, by simp [h5, List.countP_append, isTick], frep _ _ _ (by simp) (by simp) rfl, fun u d hp => ?_,
      fun u => fnap _ u _ (by simp) (Nat.le_add_right _ _)⟩
    · simp only [asleep_append, asleepStep, h1, upd_apply, List.foldl_cons, List.foldl_nil]; grind [Pc.isNap]
    · simp only [busy_append, busyStep, h2, upd_apply, List.foldl_cons, List.foldl_nil]; grind
    · have := naps_sub (q := .head) (h4 w (by simp [hc])) hc rfl
      simp only; omega
    · simp only [upd_apply]; split
      · simp
      · exact h4 u
    · simp only [upd_apply] at hp
      split at hp
      · cases hp
      · exact fpol _ u d (by simp) hp
  | leave w =>
    have hs' : w < N ∧ (s.pc w = .head ∨ ∃ d, s.pc w = .polled d) ∧ s' = { s with pc := upd s.pc w .gone } ∧ e = [] := by
      simp only [step] at hs
      (repeat' split at hs) <;> simp only [Option.some.injEq, Prod.mk.injEq, reduceCtorEq] at hs <;> grind
    obtain ⟨hw, hc, rfl, rfl⟩ := hs'
    have hn : (s.pc w).isNap = false := by rcases hc with hc | ⟨d, hc⟩ <;> simp [hc, Pc.isNap]
    refine ⟨fun u => ?_, fun u => ?_, ?_, fun u => ?_, by simp [h5], frep _ _ _ (by simp) (by simp) rfl, fun u d hp => ?_,
      fun u => fnap _ u _ (by simp) (by simp)⟩
    · simp only [List.append_nil, h1, upd_apply]; split <;> simp_all [Pc.isNap]
    · simp only [List.append_nil, h2, upd_apply]; grind
    · exact h3.trans (naps_other (by rw [hn]; rfl)).symm
    · simp only [upd_apply]; split
      · rename_i hu; subst hu; exact fun _ => hw
      · exact h4 u
    · simp only [upd_apply] at hp
      split at hp
      · cases hp
      · exact fpol _ u d (by simp) hp
  | sleep w pend =>
    simp only [step] at hs
    (repeat' split at hs) <;> simp only [Option.some.injEq, Prod.mk.injEq, reduceCtorEq] at hs
    rename_i hw _ d hpc
    obtain ⟨c1, c2, c3, c4⟩ := check_st N s w d pend
    generalize check N s w d pend = c at hs c1 c2 c3 c4
    obtain ⟨c, ce⟩ := c
    simp only at hs c1 c2 c3 c4
    obtain ⟨rfl, rfl⟩ := hs
    have m1 : ∀ u b, ce.foldl (asleepStep u) b = b := fun u => foldl_id _ _ (by intro x hx b; rcases c4 x hx with rfl | rfl <;> rfl)
    have m2 : ∀ u b, ce.foldl (busyStep u) b = b := fun u => foldl_id _ _ (by intro x hx b; rcases c4 x hx with rfl | rfl <;> rfl)
    have m3 : ce.countP isTick = 0 := by rw [List.countP_eq_zero]; intro x hx; rcases c4 x hx with rfl | rfl <;> simp [isTick]
    refine ⟨fun u => ?_, fun u => ?_, ?_, fun u => ?_, by simp [c1, h5, List.countP_append, isTick, m3], fun p q v hp => ?_, fun u d hp => ?_, fun u p1 q hp => ?_⟩
    · simp only [asleep_append, List.foldl_append, m1, asleepStep, h1, upd_apply, List.foldl_cons, List.foldl_nil]; grind [Pc.isNap]
    · simp only [busy_append, List.foldl_append, m2, busyStep, h2, upd_apply, List.foldl_cons, List.foldl_nil]; grind
    · have := naps_add hw (pc := s.pc) (by simp [hpc, Pc.isNap])
      simp only; omega
    · simp only [upd_apply]; split
      · rename_i hu; subst hu; exact fun _ => hw
      · exact h4 u
    · simp only [c1]
      rcases c2 with ⟨c2, c5⟩ | c2
      · refine frep (ce ++ [.slept w]) s.now c.last ?_ (by omega) c2 p q v hp
        intro v hv
        simp only [List.mem_append, List.mem_cons, List.not_mem_nil, or_false, reduceCtorEq] at hv
        rcases c4 _ hv with h | h
        · cases h
        · simp only [Ev.reported.injEq] at h; subst h; exact c5 hv
      · omega
    · simp only [upd_apply] at hp
      split at hp
      · cases hp
      · refine fpol _ u d ?_ hp
        intro b hb
        simp only [List.mem_append, List.mem_cons, List.not_mem_nil, or_false, reduceCtorEq] at hb
        rcases c4 _ hb with h | h <;> cases h
    · refine fnap (ce ++ [.slept w]) u _ ?_ ?_ p1 q hp
      · intro hb
        simp only [List.mem_append, List.mem_cons, List.not_mem_nil, or_false, reduceCtorEq] at hb
        rcases c4 _ hb with h | h <;> cases h
      · simp only [List.countP_append, List.countP_cons, List.countP_nil, isSleep]
        rcases c3 u with h | ⟨rfl, h⟩
        · omega
        · simp; omega

theorem inv_of_reaches {N : Nat} {s : St} {tr : List Ev} (h : (machine N).Reaches s tr) : Inv N s tr := by
  refine h.inv (Inv N) ?_ (fun _ _ _ _ _ => inv_step)
  refine ⟨fun _ => rfl, fun _ => rfl, ?_, by simp [machine, init], rfl, by simp, by simp [machine, init], by simp⟩
  simp [machine, init, naps, Pc.isNap]

/-- What is true at the moment of a report. -/
theorem at_report {N : Nat} {s : St} {tr : List Ev} (h : (machine N).Reaches s tr) {p : List Ev} {w : Nat} (hp : p ++ [.reported w] <+: tr) :
    ∃ s1 tr1, Inv N s1 tr1 ∧ p = tr1 ++ [.pending w false] ∧ w < N ∧ s1.pc w = .polled false ∧ s1.sleeping = N - 1 ∧ 15000 ≤ s1.now - s1.last ∧ N ≤ s1.noTask w := by
  obtain ⟨r, hr⟩ := hp
  obtain ⟨s1, tr1, l, s2, e, q, h1, h2, h3, h4⟩ := h.at_event (pre := p) (post := r) (x := .reported w) (by rw [← hr]; simp)
  have hi := inv_of_reaches h1
  change step N s1 l = some (s2, e) at h2
  refine ⟨s1, tr1, hi, ?_⟩
  have hm : .reported w ∈ e := h3.subset (by simp)
  cases l with
  | sleep u pend =>
    simp only [step] at h2
    (repeat' split at h2) <;> simp only [Option.some.injEq, Prod.mk.injEq, reduceCtorEq] at h2
    rename_i hu _ d hpc
    obtain ⟨rfl, rfl⟩ := h2
    simp only [check, pause] at hm h3
    split at hm <;> (try (simp at hm; done))
    rename_i hsl
    split at hm <;> (try (simp at hm; done))
    rename_i hmod
    by_cases hpd : pend = false ∧ 15000 ≤ s1.now - s1.last
    case neg => simp [hpd] at hm
    simp only [hsl, hmod, hpd, and_self, if_true] at h3
    simp [hpd] at hm
    subst hm
    have hq : q = [.pending w false] := by
      rcases q with _ | ⟨a, _ | ⟨b, q⟩⟩
      · simp at h3
      · simp only [List.cons_append, List.nil_append, List.cons_prefix_cons] at h3; rw [h3.1]
      · exfalso
        have h5 := h3.length_le
        simp only [List.cons_append, List.nil_append, List.cons_prefix_cons] at h3
        have h6 := h3.2.2
        simp only [List.length_cons, List.length_append, List.length_nil] at h5
        have : q = [] := by cases q with | nil => rfl | cons _ _ => simp at h5
        subst this
        simp at h6
    subst hq
    refine ⟨h4, hu, ?_, hsl, hpd.2, ?_⟩
    · rw [hpc, hmod.2]
    · have h7 := Nat.le_of_dvd (by omega) (Nat.dvd_of_mod_eq_zero hmod.1)
      omega
  | tick => simp only [step] at h2; grind
  | poll u d => simp only [step] at h2; grind
  | take u => simp only [step] at h2; grind
  | finish u => simp only [step] at h2; grind
  | wake u => simp only [step] at h2; grind
  | leave u => simp only [step] at h2; grind

/-- **C105.**  Two reports are at least 15 s apart, in every interleaving. -/
theorem reports_apart (N : Nat) (s : St) (tr : List Ev) (h : (machine N).Reaches s tr) : Apart tr := by
  intro p q w u hp
  obtain ⟨s1, tr1, hi, h1, _, _, _, h2, _⟩ := at_report h hp
  rcases List.eq_nil_or_concat q with rfl | ⟨q', x, rfl⟩
  · exfalso
    have := List.append_inj' h1 rfl
    simp at this
  · rw [List.concat_eq_append] at h1 ⊢
    have h1' : (p ++ .reported w :: q') ++ [x] = tr1 ++ [.pending u false] := by rw [← h1]; simp
    obtain ⟨h3, h4⟩ := List.append_inj' h1' rfl
    have := hi.rep p q' w h3.symm
    rw [List.countP_append]
    omega

/-- **C105.**  ... and none comes earlier than 15 s after the start. -/
theorem no_report_at_once (N : Nat) (s : St) (tr : List Ev) (h : (machine N).Reaches s tr) : NotAtOnce tr := by
  intro p w hp
  obtain ⟨s1, tr1, hi, rfl, _, _, _, h2, _⟩ := at_report h hp
  have := hi.now
  rw [List.countP_append]
  omega

/-- **C105.**  When the message is logged, all the other workers are asleep and nobody executes a task. -/
theorem all_sleep_at_report (N : Nat) (s : St) (tr : List Ev) (h : (machine N).Reaches s tr) : OnlyWhenAllSleep N tr := by
  intro p w hp
  obtain ⟨s1, tr1, hi, rfl, hw, hpc, hsl, _, _⟩ := at_report h hp
  have hall := naps_all hw (by simp [hpc, Pc.isNap]) (hi.cnt.symm.trans hsl)
  refine ⟨hw, fun u hu huw => ?_, fun u hu => ?_⟩
  · rw [asleep_append, hi.slp u, hall u hu huw]; rfl
  · rw [busy_append, hi.bsy u]
    by_cases huw : u = w
    · subst huw; simp [hpc, busyStep]
    · simp [hall u hu huw, busyStep]

/-- **C105.**  ... nothing was pending in the event loops, and the last poll of the reporting worker did nothing. -/
theorem nothing_pending_at_report (N : Nat) (s : St) (tr : List Ev) (h : (machine N).Reaches s tr) : OnlyWhenNothingPending tr := by
  intro p w hp
  obtain ⟨s1, tr1, hi, rfl, hw, hpc, hsl, _, _⟩ := at_report h hp
  obtain ⟨p1, q, rfl, hq⟩ := hi.pol w false hpc
  exact ⟨⟨_, rfl⟩, p1, q ++ [.pending w false], by simp, fun b => by simp [hq b]⟩

/-- **C105.**  What is true of "for a while": the reporting worker has slept at least N times since its last task (missing: the other workers, and the 15 s). -/
theorem report_after_naps_partial (N : Nat) (s : St) (tr : List Ev) (h : (machine N).Reaches s tr) : OnlyAfterNaps N tr := by
  intro p w hp p1 q hq
  obtain ⟨s1, tr1, hi, rfl, hw, hpc, hsl, _, hn⟩ := at_report h hp
  rcases split_cases hq with ⟨q', rfl, h1⟩ | ⟨h1, _⟩
  · have := hi.nap w p1 q' h1
    rw [List.countP_append]
    omega
  · simp at h1

theorem ticks (N n : Nat) (s : St) : (machine N).runFrom s (List.replicate n .tick) = some ({ s with now := s.now + n }, List.replicate n .tick) := by
  induction n generalizing s with
  | zero => rfl
  | succ n ih =>
    rw [List.replicate_succ, Machine.runFrom]
    simp only [machine, step] at ih ⊢
    rw [ih]
    simp [List.replicate_succ]
    omega

theorem reaches_more {N : Nat} {s s' : St} {tr e : List Ev} (h : (machine N).Reaches s tr) (ls : List Lbl) (h1 : (machine N).runFrom s ls = some (s', e)) :
    (machine N).Reaches s' (tr ++ e) := by
  obtain ⟨l0, h0⟩ := h
  refine ⟨l0 ++ ls, ?_⟩
  rw [Machine.run] at h0 ⊢
  rw [Machine.runFrom_append, h0]
  simp [h1]

theorem last_leg {s : St} {tr : List Ev} (hr : (machine 1).Reaches s tr) (h1 : s.pc 0 = .nap) (h2 : s.noTask 0 = 1) (h3 : s.sleeping = 1) (h4 : 15000 ≤ s.now - s.last) :
    ∃ s', (machine 1).Reaches s' (tr ++ [.awoke 0, .polled 0 false, .pending 0 false, .reported 0, .slept 0]) := by
  have : ∃ s', (machine 1).runFrom s [.wake 0, .poll 0 false, .sleep 0 false] = some (s', [.awoke 0, .polled 0 false, .pending 0 false, .reported 0, .slept 0]) := by
    simp [Machine.runFrom, machine, step, check, upd_apply, pause, h1, h2, h3, h4]
  obtain ⟨s', h⟩ := this
  exact ⟨s', reaches_more hr _ h⟩

/-- the single worker has executed a task for `n` ms, has slept for `d` ms, and finds nothing to do -/
theorem falseAlarm (n d : Nat) (h : 15000 ≤ n + d) : ∃ s, (machine 1).Reaches s
    ([.polled 0 false, .started 0] ++ List.replicate n .tick ++ [.finished 0, .polled 0 false, .slept 0] ++ List.replicate d .tick ++
      [.awoke 0, .polled 0 false, .pending 0 false, .reported 0, .slept 0]) := by
  have r1 : (machine 1).Reaches { init with pc := upd (upd (fun _ => .head) 0 (.polled false)) 0 .run, noTask := upd (fun _ => 0) 0 0 }
    [.polled 0 false, .started 0] := ⟨[.poll 0 false, .take 0], rfl⟩
  have r2 := reaches_more r1 _ (ticks 1 n _)
  have r3 := reaches_more r2 [.finish 0, .poll 0 false, .sleep 0 false] (e := [.finished 0, .polled 0 false, .slept 0]) rfl
  have r4 := reaches_more r3 _ (ticks 1 d _)
  refine last_leg r4 rfl rfl rfl ?_
  change 15000 ≤ (0 + n + d) - 0
  omega

theorem alarm_false (n d : Nat) (h : 15000 ≤ n + d) (hd : d < 15000) : ∃ s tr, (machine 1).Reaches s tr ∧ ¬ Truthful tr ∧
    ∃ p q, tr = p ++ .finished 0 :: q ∧ .reported 0 ∈ q ∧ q.countP isTick = d ∧ busy 0 p = true ∧ n ≤ p.countP isTick := by
  obtain ⟨s, h⟩ := falseAlarm n d h
  have ht : ∀ n, (List.replicate n Ev.tick).countP isTick = n := by
    intro n; rw [List.countP_replicate]; simp [isTick]
  refine ⟨s, _, h, ?_, [.polled 0 false, .started 0] ++ List.replicate n .tick,
    [.polled 0 false, .slept 0] ++ List.replicate d .tick ++ [.awoke 0, .polled 0 false, .pending 0 false, .reported 0, .slept 0], by simp, by simp, ?_, ?_, ?_⟩
  · intro hT
    have := hT ([.polled 0 false, .started 0] ++ List.replicate n .tick ++ [.finished 0, .polled 0 false, .slept 0] ++ List.replicate d .tick ++
      [.awoke 0, .polled 0 false, .pending 0 false]) 0 ⟨[.slept 0], by simp⟩ ([.polled 0 false, .started 0] ++ List.replicate n .tick)
      ([.polled 0 false, .slept 0] ++ List.replicate d .tick ++ [.awoke 0, .polled 0 false, .pending 0 false]) 0 (by simp)
    simp only [List.countP_append, ht] at this
    simp [isTick] at this
    omega
  · simp only [List.countP_append, ht]; simp [isTick]
  · rw [busy_append, foldl_id]
    · rfl
    · intro x hx b; rw [List.mem_replicate] at hx; rw [hx.2]; rfl
  · simp only [List.countP_append, ht]; simp [isTick]

/-- **C105, what fails.**  `m_last_health_check_tp` is when the last report was made, not when the last task ended: a worker that has just finished 20 s of work and has slept once, for half a second,
reports that the pool has been idle for a while. -/
theorem report_truthful_refuted : ∃ s tr, (machine 1).Reaches s tr ∧ ¬ Truthful tr ∧
    ∃ p q, tr = p ++ .finished 0 :: q ∧ .reported 0 ∈ q ∧ q.countP isTick = 500 ∧ busy 0 p = true ∧ 20000 ≤ p.countP isTick :=
  alarm_false 20000 500 (by omega) (by omega)

/-- A pool of two that is really idle does report: two workers that take turns in sleeping (non-vacuity, with more than one worker). -/
theorem idle_nontrivial (n : Nat) (h : 15000 ≤ n) : ∃ s tr, (machine 2).Reaches s tr ∧ .reported 0 ∈ tr ∧ asleep 1 tr = true ∧ ∀ w, .started w ∉ tr := by
  have r1 := reaches_more (Machine.Reaches.init (machine 2)) [.poll 1 false, .sleep 1 false, .poll 0 true, .sleep 0 true, .wake 0, .poll 0 false, .sleep 0 false, .wake 0]
    (e := [.polled 1 false, .slept 1, .polled 0 true, .slept 0, .awoke 0, .polled 0 false, .slept 0, .awoke 0]) rfl
  have r2 := reaches_more r1 _ (ticks 2 n _)
  refine ⟨_, _, reaches_more r2 [.poll 0 false, .sleep 0 false] (e := [.polled 0 false, .pending 0 false, .reported 0, .slept 0])
    (by simp [Machine.runFrom, machine, step, check, init, pause, h]; rfl), by simp, ?_, by simp⟩
  simp only [List.nil_append]
  rw [asleep_append, asleep_append, foldl_id (asleepStep 1) (List.replicate n .tick)]
  · rfl
  · intro x hx b; rw [List.mem_replicate] at hx; rw [hx.2]; rfl

end Verif.Idle
