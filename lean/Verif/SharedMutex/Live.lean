import Verif.SharedMutex.LiveSpec
import Verif.SharedMutex.Props
import Mathlib.Data.List.Dedup
/-!
# C109: shared_mutex, every request is answered in the end
-/

namespace Verif.SharedMutex
open Machine

/-- Whose step is it? -/
def Lbl.agent : Lbl → Nat
  | .askShr t | .suspShr t | .wakeNext t _ _ | .wakeStale t | .askUni t | .suspUni t | .resume t | .unlock t _ _ _ => t

/-- a new request, rather than a step of what is going on -/
def Lbl.isRequest : Lbl → Bool
  | .askShr _ | .askUni _ => true
  | _ => false

/-- What waking up does: it hands sleeping tasks to the scheduler, and nothing else. -/
structure Wakes (s s' : St) (e : List Ev) : Prop where
  shr : ∀ t, (s'.task t).shr = (s.task t).shr
  uni : ∀ t, (s'.task t).uni = (s.task t).uni
  act : ∀ t, (s'.task t).act = (s.task t).act ∨ ((s.task t).act = .qShr ∧ (s'.task t).act = .wokeShr) ∨ ((s.task t).act = .qUni ∧ (s'.task t).act = .wokeUni)
  ev : ∀ x ∈ e, ∃ u, x = .wokenShr u ∨ x = .wokenUni u
  pending : s'.pending = s.pending
  stale : s'.stale = s.stale
  dead : s'.dead = s.dead

theorem Wakes.refl (s : St) : Wakes s s [] := by constructor <;> simp

theorem Wakes.trans {s s1 s2 : St} {e f : List Ev} (h : Wakes s s1 e) (h' : Wakes s1 s2 f) : Wakes s s2 (e ++ f) := by
  obtain ⟨a1, a2, a3, a4, a5, a6, a7⟩ := h
  obtain ⟨b1, b2, b3, b4, b5, b6, b7⟩ := h'
  constructor <;> grind

theorem wakes_uni {s : St} (h : ∀ t ∈ s.uniQ, (s.task t).act = .qUni) (pu : Nat) : Wakes s (wakeUni s pu).1 (wakeUni s pu).2 := by
  unfold wakeUni
  split
  · split
    · rename_i u hu
      have := h u (pick_mem hu)
      constructor <;> simp only [upd_apply] <;> grind
    · exact Wakes.refl s
  · exact Wakes.refl s

theorem wakes_shr {s : St} (h : ∀ t ∈ s.shrQ, (s.task t).act = .qShr) (ps : Nat) : Wakes s (wakeShr s ps).1 (wakeShr s ps).2 := by
  unfold wakeShr
  split
  · exact Wakes.refl s
  · split
    · rename_i u hu
      have := h u (pick_mem hu)
      constructor <;> simp only [upd_apply] <;> grind
    · exact Wakes.refl s

theorem wakeUni_shrQ (s : St) (pu : Nat) (h1 : ∀ t ∈ s.uniQ, (s.task t).act = .qUni) (h2 : ∀ t ∈ s.shrQ, (s.task t).act = .qShr) :
    ∀ t ∈ (wakeUni s pu).1.shrQ, ((wakeUni s pu).1.task t).act = .qShr := by
  unfold wakeUni
  split
  · split
    · rename_i u hu
      have := h1 u (pick_mem hu)
      intro t ht
      simp only [upd_apply]
      grind
    · exact h2
  · exact h2

theorem wakeShr_uniQ (s : St) (ps : Nat) (h1 : ∀ t ∈ s.uniQ, (s.task t).act = .qUni) (h2 : ∀ t ∈ s.shrQ, (s.task t).act = .qShr) :
    ∀ t ∈ (wakeShr s ps).1.uniQ, ((wakeShr s ps).1.task t).act = .qUni := by
  unfold wakeShr
  split
  · exact h1
  · split
    · rename_i u hu
      have := h2 u (pick_mem hu)
      intro t ht
      simp only [upd_apply]
      grind
    · exact h1

theorem wakes_next {s : St} (h1 : ∀ t ∈ s.uniQ, (s.task t).act = .qUni) (h2 : ∀ t ∈ s.shrQ, (s.task t).act = .qShr) (ps pu : Nat) :
    Wakes s (tryWakeUpNext s ps pu).1 (tryWakeUpNext s ps pu).2 := by
  unfold tryWakeUpNext
  simp only
  split
  · exact wakes_uni h1 pu
  · exact (wakes_uni h1 pu).trans (wakes_shr (wakeUni_shrQ s pu h1 h2) ps)

theorem wakes_release {s : St} (h1 : ∀ t ∈ s.uniQ, (s.task t).act = .qUni) (h2 : ∀ t ∈ s.shrQ, (s.task t).act = .qShr) (ps pu : Nat) :
    Wakes s (release s ps pu).1 (release s ps pu).2 := by
  have base : ∀ h c w, Wakes s { s with hold := h, cnt := c, writer := w } [] := by intro h c w; constructor <;> simp
  unfold release
  split
  · simp only
    split
    · exact (base .no (s.cnt - 1) s.writer).trans (wakes_uni (s := { s with hold := .no, cnt := s.cnt - 1 }) h1 pu)
    · exact base s.hold (s.cnt - 1) s.writer
  · simp only
    have hr := (base .no s.cnt none).trans (wakes_shr (s := { s with hold := .no, writer := none }) h2 ps)
    split
    · exact hr
    · exact hr.trans (wakes_uni (wakeShr_uniQ { s with hold := .no, writer := none } ps h1 h2) pu)
  · exact base .uni s.cnt s.writer
  · exact Wakes.refl s

/-- The steps a task still has to make for the requests it has made. -/
def Act.left : Act → Nat
  | .none => 0
  | .missShr => 4
  | .missUni => 3
  | .qShr | .wokeShr | .qUni | .wokeUni => 2

def b2n (b : Bool) : Nat := if b = true then 1 else 0

def left (s : St) (t : Nat) : Nat :=
  if s.dead = true then 0 else (s.task t).act.left + b2n (s.task t).shr + b2n (s.task t).uni + s.pending.count t + s.stale.count t

theorem left_wakes {s s' : St} {e : List Ev} (h : Wakes s s' e) (t : Nat) : left s' t = left s t ∧ e.countP (isRequest t) = 0 := by
  obtain ⟨a1, a2, a3, a4, a5, a6, a7⟩ := h
  constructor
  · unfold left
    rw [a7, a1, a2, a5, a6]
    rcases a3 t with h | ⟨h1, h2⟩ | ⟨h1, h2⟩
    · rw [h]
    · rw [h1, h2]; rfl
    · rw [h1, h2]; rfl
  · rw [List.countP_eq_zero]
    intro x hx
    obtain ⟨u, rfl | rfl⟩ := a4 x hx <;> simp [isRequest]

theorem left_step {s s' : St} {tr e : List Ev} {l : Lbl} (hg : G s tr) (hs : step s l = some (s', e)) (t : Nat) :
    (if l.agent = t then 1 else 0) + left s' t ≤ left s t + 5 * e.countP (isRequest t) := by
  have hq1 : ∀ t ∈ s.uniQ, (s.task t).act = .qUni := fun t ht => (hg.qu t).1 ht
  have hq2 : ∀ t ∈ s.shrQ, (s.task t).act = .qShr := fun t ht => (hg.qs t).1 ht
  simp only [step] at hs
  split at hs
  · simp at hs
  rename_i hd
  cases l with
  | askShr u =>
    simp only at hs
    (repeat' split at hs) <;> simp only [Option.some.injEq, Prod.mk.injEq, reduceCtorEq] at hs <;> obtain ⟨rfl, rfl⟩ := hs <;>
      simp only [Lbl.agent, left, hd, upd_apply, List.countP_cons, List.countP_nil, isRequest, beq_iff_eq] <;> grind [Act.left, b2n]
  | suspShr u =>
    simp only at hs
    (repeat' split at hs) <;> simp only [Option.some.injEq, Prod.mk.injEq, reduceCtorEq] at hs <;> obtain ⟨rfl, rfl⟩ := hs <;>
      simp only [Lbl.agent, left, hd, upd_apply, List.countP_cons, List.countP_nil, isRequest, List.count_cons, beq_iff_eq] <;> grind [Act.left, b2n]
  | wakeNext u ps pu =>
    simp only at hs
    split at hs <;> simp only [Option.some.injEq, reduceCtorEq] at hs
    rename_i hu
    have hw := wakes_next (s := { s with pending := s.pending.erase u }) hq1 hq2 ps pu
    rw [hs] at hw
    obtain ⟨h1, h2⟩ := left_wakes hw t
    rw [h1, h2]
    simp only [Lbl.agent, left, hd, List.count_erase]
    have := List.count_pos_iff.2 hu
    by_cases hut : u = t
    · subst hut; simp; omega
    · simp [hut]
  | wakeStale u =>
    simp only at hs
    split at hs <;> simp only [Option.some.injEq, Prod.mk.injEq, reduceCtorEq] at hs
    rename_i hu
    obtain ⟨rfl, rfl⟩ := hs
    simp only [Lbl.agent, left, hd]
    have := List.count_pos_iff.2 hu
    by_cases hut : u = t
    · subst hut; simp; omega
    · simp [hut]
  | askUni u =>
    simp only at hs
    (repeat' split at hs) <;> simp only [Option.some.injEq, Prod.mk.injEq, reduceCtorEq] at hs <;> obtain ⟨rfl, rfl⟩ := hs <;>
      simp only [Lbl.agent, left, hd, upd_apply, List.countP_cons, List.countP_nil, isRequest, beq_iff_eq] <;> grind [Act.left, b2n]
  | suspUni u =>
    simp only at hs
    (repeat' split at hs) <;> simp only [Option.some.injEq, Prod.mk.injEq, reduceCtorEq] at hs <;> obtain ⟨rfl, rfl⟩ := hs <;>
      simp only [Lbl.agent, left, hd, upd_apply, List.countP_cons, List.countP_nil, isRequest, beq_iff_eq] <;> grind [Act.left, b2n]
  | resume u =>
    have hf := hg.fs u
    have hf' := hg.fu u
    have hcnt : ∀ l : List Nat, (l.filter (· ≠ u)).count t + (l.filter (· = u)).count t = l.count t := by
      intro l
      induction l with
      | nil => rfl
      | cons a l ih =>
        by_cases ha : a = u
        · subst ha; simp only [ne_eq, decide_not, not_true, decide_true, Bool.not_true, List.filter_cons, Bool.false_eq_true, ↓reduceIte, List.count_cons] at ih ⊢; omega
        · simp only [ne_eq, decide_not, List.filter_cons, ha, decide_false, Bool.not_false, Bool.false_eq_true, ↓reduceIte, List.count_cons] at ih ⊢; omega
    have := hcnt s.pending
    simp only at hs
    (repeat' split at hs) <;> simp only [Option.some.injEq, Prod.mk.injEq, reduceCtorEq] at hs <;> obtain ⟨rfl, rfl⟩ := hs <;>
      simp only [Lbl.agent, left, hd, upd_apply, List.countP_cons, List.countP_nil, isRequest, List.count_append] <;> grind [Act.left, b2n]
  | unlock u k ps pu =>
    simp only at hs
    split at hs <;> simp only [Option.some.injEq, Prod.mk.injEq, reduceCtorEq] at hs
    rename_i hu
    obtain ⟨hs1, rfl⟩ := hs
    have ha : ∀ t, ((dropLock s u k).task t).act = (s.task t).act := by
      intro t; cases k <;> simp only [dropLock, upd_apply] <;> split <;> simp_all
    have hw := wakes_release (s := dropLock s u k) (by intro t ht; rw [ha]; exact hq1 t (by cases k <;> exact ht)) (by intro t ht; rw [ha]; exact hq2 t (by cases k <;> exact ht)) ps pu
    obtain ⟨h1, h2⟩ := left_wakes hw t
    subst hs1
    rw [h1, List.countP_cons, h2]
    have hd' : (dropLock s u k).dead = s.dead ∧ (dropLock s u k).pending = s.pending ∧ (dropLock s u k).stale = s.stale := by cases k <;> simp [dropLock]
    unfold left
    rw [hd'.1, hd'.2.1, hd'.2.2, ha]
    simp only [hd, Lbl.agent]
    cases k <;> simp only [dropLock, upd_apply, relEv, isRequest] <;> grind [b2n]

/-- **C109.**  In every execution, a task that has made `k` requests has taken at most `5 k` steps: no call waits actively, each comes back or suspends. -/
theorem shared_mutex_bounded_steps (ls : List Lbl) (s : St) (tr : List Ev) (h : machine.run ls = some (s, tr)) (t : Nat) :
    ls.countP (fun l => l.agent == t) ≤ 5 * tr.countP (isRequest t) := by
  suffices hh : ∀ (ls : List Lbl) (s0 s : St) (tr0 tr : List Ev), machine.Reaches s0 tr0 → machine.runFrom s0 ls = some (s, tr) →
      ls.countP (fun l => l.agent == t) + left s t ≤ left s0 t + 5 * tr.countP (isRequest t) by
    have := hh ls _ _ _ _ (Reaches.init _) h
    have h0 : left machine.init t = 0 := by simp [machine, init, left, Act.left, b2n]
    omega
  intro ls
  induction ls with
  | nil =>
    intro s0 s tr0 tr hr h
    simp only [runFrom, Option.some.injEq, Prod.mk.injEq] at h
    obtain ⟨rfl, rfl⟩ := h
    simp
  | cons l ls ih =>
    intro s0 s tr0 tr hr h
    simp only [runFrom] at h
    split at h
    · simp at h
    · rename_i s1 e hs
      split at h
      · simp at h
      · rename_i s2 es h2
        simp only [Option.some.injEq, Prod.mk.injEq] at h
        obtain ⟨rfl, rfl⟩ := h
        have h3 := ih s1 s2 _ _ (hr.step hs) h2
        have h4 := left_step (g_of_reaches hr) hs t
        rw [List.countP_append, List.countP_cons]
        simp only [beq_iff_eq]
        omega

theorem countP_agents (ls : List Lbl) (f : Nat → Nat) : ∀ T : List Nat, T.Nodup → (∀ t ∈ T, ls.countP (fun l => l.agent == t) ≤ f t) →
    ls.countP (fun l => T.contains l.agent) ≤ (T.map f).sum := by
  intro T
  induction T with
  | nil => intro _ _; simp
  | cons t T ih =>
    intro hn hf
    have h1 := ih (List.nodup_cons.1 hn).2 (fun u hu => hf u (by simp [hu]))
    have h2 := hf t (by simp)
    have h3 : ls.countP (fun l => (t :: T).contains l.agent) ≤ ls.countP (fun l => l.agent == t) + ls.countP (fun l => T.contains l.agent) := by
      clear h1 h2 hf ih
      induction ls with
      | nil => simp
      | cons l ls ih =>
        simp only [List.countP_cons, List.contains_cons]
        simp only [List.contains_cons] at ih
        cases h1 : (l.agent == t) <;> cases h2 : T.contains l.agent <;> simp_all <;> omega
    simp only [List.map_cons, List.sum_cons]
    omega

theorem requests_sum (tr : List Ev) : ∀ T : List Nat, T.Nodup → (T.map fun t => tr.countP (isRequest t)).sum ≤ tr.countP isAnyRequest := by
  induction tr with
  | nil => intro T _; induction T <;> simp_all
  | cons x tr ih =>
    intro T hT
    have h1 : (T.map fun t => (x :: tr).countP (isRequest t)).sum = (T.map fun t => tr.countP (isRequest t)).sum + (T.map fun t => if isRequest t x = true then 1 else 0).sum := by
      clear ih hT
      induction T with
      | nil => simp
      | cons t T ih => simp only [List.map_cons, List.sum_cons, List.countP_cons] at ih ⊢; omega
    have h2 : (T.map fun t => if isRequest t x = true then 1 else 0).sum ≤ if isAnyRequest x = true then 1 else 0 := by
      clear ih h1
      have key : ∀ u, (T.map fun t => if (u == t) = true then 1 else 0).sum ≤ 1 := by
        intro u
        have h3 : (T.map fun t => if (u == t) = true then 1 else 0).sum = T.count u := by
          clear hT
          induction T with
          | nil => rfl
          | cons t T ih =>
            simp only [List.map_cons, List.sum_cons, List.count_cons, ih]
            by_cases h : u = t
            · subst h; simp; omega
            · simp [h, Ne.symm h]
        rw [h3]
        exact List.nodup_iff_count.1 hT u
      cases x <;> simp only [isRequest, isAnyRequest] <;> (try exact key _) <;> (induction T <;> simp_all)
    rw [h1, List.countP_cons]
    have := ih T hT
    omega

/-- **C109.**  All tasks together: an execution with `k` requests has at most `5 k` steps, in every interleaving. -/
theorem shared_mutex_terminates (ls : List Lbl) (s : St) (tr : List Ev) (h : machine.run ls = some (s, tr)) : ls.length ≤ 5 * tr.countP isAnyRequest := by
  have hT : ((ls.map Lbl.agent).dedup).Nodup := List.nodup_dedup _
  have h1 := countP_agents ls (fun t => 5 * tr.countP (isRequest t)) _ hT (fun t _ => shared_mutex_bounded_steps ls s tr h t)
  have h2 : ls.countP (fun l => ((ls.map Lbl.agent).dedup).contains l.agent) = ls.length := by
    rw [List.countP_eq_length]
    intro l hl
    simp only [List.contains_iff_mem, List.mem_dedup]
    exact List.mem_map.2 ⟨l, hl, rfl⟩
  have h3 : (((ls.map Lbl.agent).dedup).map fun t => 5 * tr.countP (isRequest t)).sum = 5 * (((ls.map Lbl.agent).dedup).map fun t => tr.countP (isRequest t)).sum := by
    generalize (ls.map Lbl.agent).dedup = T
    induction T with
    | nil => simp
    | cons t T ih => simp only [List.map_cons, List.sum_cons, ih]; omega
  have h4 := requests_sum tr _ hT
  omega

/-- how a task's requests, grants and releases are related to its state -/
structure Counts (s : St) (tr : List Ev) (t : Nat) : Prop where
  askS : tr.count (.askedShr t) = tr.count (.grantedShr t) + if (s.task t).act = .missShr ∨ (s.task t).act = .qShr ∨ (s.task t).act = .wokeShr then 1 else 0
  relS : tr.count (.grantedShr t) = tr.count (.releasedShr t) + b2n (s.task t).shr
  askU : tr.count (.askedUni t) = tr.count (.grantedUni t) + if (s.task t).act = .missUni ∨ (s.task t).act = .qUni ∨ (s.task t).act = .wokeUni then 1 else 0
  relU : tr.count (.grantedUni t) = tr.count (.releasedUni t) + b2n (s.task t).uni

theorem counts_wakes {s s' : St} {tr e : List Ev} (h : Wakes s s' e) (t : Nat) (hc : Counts s tr t) : Counts s' (tr ++ e) t := by
  obtain ⟨a1, a2, a3, a4, a5, a6, a7⟩ := h
  have hz : ∀ x : Ev, (∀ u, x ≠ .wokenShr u ∧ x ≠ .wokenUni u) → e.count x = 0 := by
    intro x hx
    rw [List.count_eq_zero]
    intro hm
    obtain ⟨u, h | h⟩ := a4 x hm
    · exact (hx u).1 h
    · exact (hx u).2 h
  have z1 := hz (.askedShr t) (by simp)
  have z2 := hz (.grantedShr t) (by simp)
  have z3 := hz (.releasedShr t) (by simp)
  have z4 := hz (.askedUni t) (by simp)
  have z5 := hz (.grantedUni t) (by simp)
  have z6 := hz (.releasedUni t) (by simp)
  obtain ⟨c1, c2, c3, c4⟩ := hc
  have a3 := a3 t
  constructor <;> simp only [List.count_append, z1, z2, z3, z4, z5, z6, a1, a2] <;> grind

theorem counts_step {s s' : St} {tr e : List Ev} {l : Lbl} (hg : G s tr) (hs : step s l = some (s', e)) (t : Nat) (hc : Counts s tr t) : Counts s' (tr ++ e) t := by
  have hq1 : ∀ t ∈ s.uniQ, (s.task t).act = .qUni := fun t ht => (hg.qu t).1 ht
  have hq2 : ∀ t ∈ s.shrQ, (s.task t).act = .qShr := fun t ht => (hg.qs t).1 ht
  simp only [step] at hs
  split at hs
  · simp at hs
  cases l with
  | wakeNext u ps pu =>
    simp only at hs
    split at hs <;> simp only [Option.some.injEq, reduceCtorEq] at hs
    have hw := wakes_next (s := { s with pending := s.pending.erase u }) hq1 hq2 ps pu
    rw [hs] at hw
    obtain ⟨c1, c2, c3, c4⟩ := hc
    exact counts_wakes hw t ⟨c1, c2, c3, c4⟩
  | unlock u k ps pu =>
    simp only at hs
    split at hs <;> simp only [Option.some.injEq, Prod.mk.injEq, reduceCtorEq] at hs
    rename_i hu
    obtain ⟨hs1, rfl⟩ := hs
    have ha : ∀ t, ((dropLock s u k).task t).act = (s.task t).act := by
      intro t; cases k <;> simp only [dropLock, upd_apply] <;> split <;> simp_all
    have hw := wakes_release (s := dropLock s u k) (by intro t ht; rw [ha]; exact hq1 t (by cases k <;> exact ht)) (by intro t ht; rw [ha]; exact hq2 t (by cases k <;> exact ht)) ps pu
    subst hs1
    have hc' : Counts (dropLock s u k) (tr ++ [relEv u k]) t := by
      obtain ⟨c1, c2, c3, c4⟩ := hc
      constructor
      all_goals rw [List.count_append, List.count_append]
      all_goals try rw [ha]
      all_goals cases k <;> simp only [dropLock, relEv, upd_apply, List.count_cons, List.count_nil, b2n] at * <;> grind
    have := counts_wakes hw t hc'
    simpa using this
  | resume u =>
    have hf := hg.fs u
    have hf' := hg.fu u
    obtain ⟨c1, c2, c3, c4⟩ := hc
    simp only at hs
    (repeat' split at hs) <;> simp only [Option.some.injEq, Prod.mk.injEq, reduceCtorEq] at hs <;> obtain ⟨rfl, rfl⟩ := hs <;>
      constructor <;> simp only [List.count_append, List.count_cons, List.count_nil, upd_apply, b2n] at * <;> grind
  | _ =>
    obtain ⟨c1, c2, c3, c4⟩ := hc
    simp only at hs
    (repeat' split at hs) <;> simp only [Option.some.injEq, Prod.mk.injEq, reduceCtorEq] at hs <;> obtain ⟨rfl, rfl⟩ := hs <;>
      constructor <;> simp only [List.count_append, List.count_cons, List.count_nil, upd_apply, b2n] at * <;> grind

theorem counts {s : St} {tr : List Ev} (h : machine.Reaches s tr) (t : Nat) : Counts s tr t :=
  Reaches.inv' (M := machine) (fun s tr => Counts s tr t) (by constructor <;> simp [machine, init, b2n]) (fun _ _ _ _ _ hr hi hs => counts_step (g_of_reaches hr) hs t hi) h

theorem dead_iff {s : St} {tr : List Ev} (h : machine.Reaches s tr) : s.dead = true → ¬ Defined tr := by
  refine Reaches.inv' (M := machine) (fun s tr => s.dead = true → ¬ Defined tr) (by simp [machine, init]) ?_ h
  intro s tr l s' e hr hi hs hd hdef
  have hg := g_of_reaches hr
  have hq1 : ∀ t ∈ s.uniQ, (s.task t).act = .qUni := fun t ht => (hg.qu t).1 ht
  have hq2 : ∀ t ∈ s.shrQ, (s.task t).act = .qShr := fun t ht => (hg.qs t).1 ht
  have hold : s.dead = true → False := fun h => hi h (fun t ht => hdef t (by simp [ht]))
  simp only [machine, step] at hs
  split at hs
  · simp at hs
  cases l with
  | wakeStale u =>
    simp only at hs
    split at hs <;> simp only [Option.some.injEq, Prod.mk.injEq, reduceCtorEq] at hs
    obtain ⟨rfl, rfl⟩ := hs
    exact hdef u (by simp)
  | wakeNext u ps pu =>
    simp only at hs
    split at hs <;> simp only [Option.some.injEq, reduceCtorEq] at hs
    have hw := (wakes_next (s := { s with pending := s.pending.erase u }) hq1 hq2 ps pu).dead
    rw [hs] at hw
    exact hold (by rw [← hw]; exact hd)
  | unlock u k ps pu =>
    simp only at hs
    split at hs <;> simp only [Option.some.injEq, Prod.mk.injEq, reduceCtorEq] at hs
    obtain ⟨rfl, rfl⟩ := hs
    have ha : ∀ t, ((dropLock s u k).task t).act = (s.task t).act := by
      intro t; cases k <;> simp only [dropLock, upd_apply] <;> split <;> simp_all
    have hw := (wakes_release (s := dropLock s u k) (by intro t ht; rw [ha]; exact hq1 t (by cases k <;> exact ht)) (by intro t ht; rw [ha]; exact hq2 t (by cases k <;> exact ht)) ps pu).dead
    have hd' : (dropLock s u k).dead = s.dead := by cases k <;> rfl
    exact hold (by rw [← hd', ← hw]; exact hd)
  | _ =>
    simp only at hs
    (repeat' split at hs) <;> simp only [Option.some.injEq, Prod.mk.injEq, reduceCtorEq] at hs <;> obtain ⟨rfl, rfl⟩ := hs <;> exact hold hd

/-- **C109.**  If nothing can happen any more except new requests (and nothing undefined has happened), then every call has finished, every woken task has come back, and whoever still holds a lock
is itself asleep, waiting for the other lock. -/
theorem shared_mutex_progress (s : St) (tr : List Ev) (h : machine.Reaches s tr) (hdef : Defined tr)
    (hend : ∀ l s' e, machine.step s l = some (s', e) → l.isRequest = true) (t : Nat) :
    ¬ BecomingWriter t tr ∧ ¬ BecomingReader t tr ∧ (HoldsShr t tr → WaitsUni t tr) ∧ (HoldsUni t tr → WaitsShr t tr) ∧
    (tr.count (.askedShr t) = tr.count (.grantedShr t) ∨ WaitsShr t tr) ∧ (tr.count (.askedUni t) = tr.count (.grantedUni t) ∨ WaitsUni t tr) := by
  have hd : s.dead = false := by
    cases hh : s.dead with
    | false => rfl
    | true => exact absurd hdef (dead_iff h hh)
  have hg := g_of_reaches h
  have no : ∀ l, l.isRequest = false → step s l = none := by
    intro l hl
    cases hs : step s l with
    | none => rfl
    | some r => have := hend l r.1 r.2 hs; simp [hl] at this
  have hact : (s.task t).act = .none ∨ (s.task t).act = .qShr ∨ (s.task t).act = .qUni := by
    have h1 := no (.suspShr t) rfl
    have h2 := no (.suspUni t) rfl
    have h3 := no (.resume t) rfl
    cases ha : (s.task t).act <;> simp [step, hd, ha] at h1 h2 h3 ⊢ <;> grind
  have hnone : ∀ (k : Kind), ¬ ((s.task t).act = .none ∧ ((k = .shr ∧ (s.task t).shr = true) ∨ (k = .uni ∧ (s.task t).uni = true))) := by
    intro k hc
    have := no (.unlock t k 0 0) rfl
    simp only [step, hd, Bool.false_eq_true, ↓reduceIte, if_pos hc] at this
    simp at this
  have n1 := hnone .shr
  have n2 := hnone .uni
  have hfs := hg.fs t
  have hfu := hg.fu t
  have hc := counts h t
  rw [hg.bw, hg.br, hg.hs, hg.hu, hg.wu, hg.ws]
  have c1 := hc.askS
  have c2 := hc.askU
  grind

/-- a task that wants the unique_lock has nothing in its hands -/
theorem empty_handed {s : St} {tr : List Ev} (h : machine.Reaches s tr) (he : WritersAskEmptyHanded tr) (t : Nat) :
    (s.task t).act = .missUni ∨ (s.task t).act = .qUni ∨ (s.task t).act = .wokeUni → (s.task t).shr = false := by
  revert he
  refine Reaches.inv' (M := machine) (fun s tr => WritersAskEmptyHanded tr → ((s.task t).act = .missUni ∨ (s.task t).act = .qUni ∨ (s.task t).act = .wokeUni → (s.task t).shr = false))
    (by simp [machine, init]) ?_ h
  intro s tr l s' e hr hi hs he
  have hg := g_of_reaches hr
  have hq1 : ∀ t ∈ s.uniQ, (s.task t).act = .qUni := fun t ht => (hg.qu t).1 ht
  have hq2 : ∀ t ∈ s.shrQ, (s.task t).act = .qShr := fun t ht => (hg.qs t).1 ht
  have hi := hi (fun p u hp => he p u (hp.trans (List.prefix_append _ _)))
  simp only [machine, step] at hs
  split at hs
  · simp at hs
  cases l with
  | askUni u =>
    simp only at hs
    split at hs <;> simp only [Option.some.injEq, Prod.mk.injEq, reduceCtorEq] at hs
    obtain ⟨rfl, rfl⟩ := hs
    have := (he tr u (List.prefix_rfl)).1
    rw [hg.hs] at this
    simp only [upd_apply]
    grind
  | wakeNext u ps pu =>
    simp only at hs
    split at hs <;> simp only [Option.some.injEq, reduceCtorEq] at hs
    have hw := (wakes_next (s := { s with pending := s.pending.erase u }) hq1 hq2 ps pu)
    rw [hs] at hw
    have a := hw.act t
    have b := hw.shr t
    simp only at a b
    grind
  | unlock u k ps pu =>
    simp only at hs
    split at hs <;> simp only [Option.some.injEq, Prod.mk.injEq, reduceCtorEq] at hs
    obtain ⟨rfl, rfl⟩ := hs
    have ha : ∀ t, ((dropLock s u k).task t).act = (s.task t).act := by
      intro t; cases k <;> simp only [dropLock, upd_apply] <;> split <;> simp_all
    have hb : (s.task t).shr = false → ((dropLock s u k).task t).shr = false := by
      cases k <;> simp only [dropLock, upd_apply] <;> split <;> simp_all
    have hw := (wakes_release (s := dropLock s u k) (by intro t ht; rw [ha]; exact hq1 t (by cases k <;> exact ht)) (by intro t ht; rw [ha]; exact hq2 t (by cases k <;> exact ht)) ps pu)
    have a := hw.act t
    have b := hw.shr t
    rw [ha] at a
    grind
  | _ =>
    simp only at hs
    (repeat' split at hs) <;> simp only [Option.some.injEq, Prod.mk.injEq, reduceCtorEq] at hs <;> obtain ⟨rfl, rfl⟩ := hs <;> simp only [upd_apply] <;> grind

/-- **C109, partial.**  In the histories in which no wake-up goes wrong (those of C05 and C06), and if nobody asks for the unique_lock with a lock in its hands, an execution that has come to its end
has served every request and got every lock back.  Together with `shared_mutex_terminates`: finitely many requests are all served, in every interleaving.  Missing: the histories of
`shared_mutex_starvation_refuted`, where it is false. -/
theorem shared_mutex_all_served_partial (s : St) (tr : List Ev) (h : machine.Reaches s tr) (hdef : Defined tr) (h1 : ReadersAskUncontended tr) (h2 : NestedReleaseOrder tr)
    (h3 : WritersAskEmptyHanded tr) (hend : ∀ l s' e, machine.step s l = some (s', e) → l.isRequest = true) : AllServed tr := by
  have hp := shared_mutex_progress s tr h hdef hend
  have hg := g_of_reaches h
  have hk := (k_of_reaches h h1 h2).1
  have hnoshr : ∀ t, ¬ WaitsShr t tr := by
    intro t hw
    rw [hg.ws, ← hg.qs, hk.shrQ] at hw
    simp at hw
  have hrel : AllReleased tr := by
    intro t
    obtain ⟨p1, p2, p3, p4, -, -⟩ := hp t
    refine ⟨fun hs => ?_, fun hu => hnoshr t (p4 hu), p1, p2⟩
    have h5 := p3 hs
    rw [hg.wu] at h5
    rw [hg.hs, empty_handed h h3 t (Or.inr (Or.inl h5))] at hs
    simp at hs
  have hnw := shared_mutex_no_starvation_partial s tr h h1 h2 hrel
  intro t
  obtain ⟨-, -, -, -, p5, p6⟩ := hp t
  have hc := counts h t
  obtain ⟨r1, r2, -, -⟩ := hrel t
  rw [hg.hs] at r1
  rw [hg.hu] at r2
  refine ⟨p5.resolve_right (hnw t).1, ?_, p6.resolve_right (hnw t).2, ?_⟩
  · rw [hc.relS]; simp [b2n, r1]
  · rw [hc.relU]; simp [b2n, r2]

/-- one round: readers 1 and 3 take turns, the mutex is never without a reader -/
def round : List Lbl := [.askShr 3, .unlock 1 .shr 0 0, .askShr 1, .unlock 3 .shr 0 0]
def roundTrace : List Ev := [.askedShr 3, .grantedShr 3, .releasedShr 1, .askedShr 1, .grantedShr 1, .releasedShr 3]

def Loop (s : St) : Prop :=
  s.dead = false ∧ s.hold = .shr ∧ s.cnt = 1 ∧ (s.task 1).act = .none ∧ (s.task 1).shr = true ∧ (s.task 2).act = .qUni ∧ (s.task 3).act = .none ∧ (s.task 3).shr = false

theorem loop_step {s : St} (h : Loop s) : ∃ s', machine.runFrom s round = some (s', roundTrace) ∧ Loop s' := by
  obtain ⟨h1, h2, h3, h4, h5, h6, h7, h8⟩ := h
  refine ⟨_, by simp [round, roundTrace, Machine.runFrom, machine, step, release, dropLock, relEv, upd_apply, h1, h2, h3, h4, h5, h7, h8]; rfl, ?_⟩
  simp [Loop, upd_apply, h1, h4, h6, h7]

theorem loop_run (k : Nat) : ∀ s, Loop s → ∃ ls s', machine.runFrom s ls = some (s', (List.replicate k roundTrace).flatten) ∧ Loop s' := by
  induction k with
  | zero => intro s h; exact ⟨[], s, rfl, h⟩
  | succ k ih =>
    intro s h
    obtain ⟨s1, h1, h2⟩ := loop_step h
    obtain ⟨ls, s2, h3, h4⟩ := ih s1 h2
    refine ⟨round ++ ls, s2, ?_, h4⟩
    rw [Machine.runFrom_append, h1]
    simp [h3, List.replicate_succ]

def loop0 : St where
  hold := .shr
  cnt := 1
  writer := none
  shrQ := []
  uniQ := [2]
  task := upd (upd (upd (fun _ => {}) 1 { uni := false, shr := true, act := .none }) 2 { uni := false, shr := false, act := .missUni }) 2 { uni := false, shr := false, act := .qUni }
  pending := []
  stale := []
  dead := false

/-- **C109, what fails.**  A reader that arrives while a writer sleeps and another reader holds is let in at once: two readers that take turns keep a writer out for any number of rounds, in an
execution in which nothing else goes wrong. -/
theorem shared_mutex_writer_overtaken_refuted (k : Nat) : ∃ s tr, machine.Reaches s tr ∧ Defined tr ∧ ReadersAskUncontended tr ∧ NestedReleaseOrder tr ∧ WritersAskEmptyHanded tr ∧
    WaitsUni 2 tr ∧ k ≤ readersAhead 2 tr := by
  have h0 : machine.run [.askShr 1, .askUni 2, .suspUni 2] = some (loop0, [.askedShr 1, .grantedShr 1, .askedUni 2, .sleptUni 2]) := rfl
  obtain ⟨ls, s', h1, h2⟩ := loop_run k loop0 (by simp [Loop, loop0, upd_apply])
  have hr : machine.Reaches s' ([.askedShr 1, .grantedShr 1, .askedUni 2, .sleptUni 2] ++ (List.replicate k roundTrace).flatten) := by
    refine ⟨[.askShr 1, .askUni 2, .suspUni 2] ++ ls, ?_⟩
    change machine.runFrom _ _ = _
    rw [Machine.runFrom_append]
    change machine.runFrom machine.init [.askShr 1, .askUni 2, .suspUni 2] = _ at h0
    rw [h0]
    simp [h1]
  have hno : ∀ t x, x ∈ [Ev.wokenUni t, .grantedUni t, .releasedUni t, .ub t] → x ∉ [Ev.askedShr 1, .grantedShr 1, .askedUni 2, .sleptUni 2] ++ (List.replicate k roundTrace).flatten := by
    intro t x hx
    simp only [List.mem_cons, List.not_mem_nil, or_false] at hx
    rcases hx with rfl | rfl | rfl | rfl <;> simp [roundTrace]
  have hsub : ∀ (p : List Ev) x tr, p <+: tr → x ∉ tr → x ∉ p := fun p x tr hp hx hm => hx (hp.subset hm)
  refine ⟨s', _, hr, ?_, ?_, ?_, ?_, ?_, ?_⟩
  · exact fun t => hno t _ (by simp)
  · intro p t hp u hu
    have hp' := (List.prefix_append p [Ev.askedShr t]).trans hp
    constructor
    · rintro ⟨a, b, hab, -⟩
      exact hsub _ _ _ hp' (hno u (.grantedUni u) (by simp)) (by rw [hab]; simp)
    · rintro ⟨a, b, hab, -⟩
      exact hsub _ _ _ hp' (hno u (.wokenUni u) (by simp)) (by rw [hab]; simp)
  · intro p t hp
    exact absurd (hp.subset (by simp)) (hno t (.releasedUni t) (by simp))
  · intro p t hp
    have : p = [.askedShr 1, .grantedShr 1] ∧ t = 2 := by
      obtain ⟨q, hq⟩ := hp
      rcases p with _ | ⟨a, _ | ⟨b, _ | ⟨c, _ | ⟨d, p⟩⟩⟩⟩ <;> simp at hq
      · simp [hq]
      · obtain ⟨_, _, _, _, hq⟩ := hq
        exfalso
        have h4 : Ev.askedUni t ∈ (List.replicate k roundTrace).flatten := by rw [← hq]; simp
        simp [roundTrace] at h4
    obtain ⟨rfl, rfl⟩ := this
    constructor
    · rintro ⟨a, b, hab, -⟩
      have : Ev.grantedShr 2 ∈ [Ev.askedShr 1, .grantedShr 1] := by rw [hab]; simp
      simp at this
    · rintro ⟨a, b, hab, -⟩
      have : Ev.grantedUni 2 ∈ [Ev.askedShr 1, .grantedShr 1] := by rw [hab]; simp
      simp at this
  · exact ((g_of_reaches hr).wu 2).2 h2.2.2.2.2.2.1
  · have h3 : ∀ k, (List.replicate k roundTrace).flatten.countP isReaderGrant = 2 * k := by
      intro k
      induction k with
      | zero => rfl
      | succ k ih =>
        rw [List.replicate_succ, List.flatten_cons, List.countP_append, ih, show roundTrace.countP isReaderGrant = 2 from rfl]
        omega
    simp only [readersAhead]
    rw [show List.dropWhile (fun x => decide (x ≠ Ev.sleptUni 2)) ([Ev.askedShr 1, .grantedShr 1, .askedUni 2, .sleptUni 2] ++ (List.replicate k roundTrace).flatten) =
      .sleptUni 2 :: (List.replicate k roundTrace).flatten from rfl]
    rw [List.countP_cons, h3]
    omega

/-- A contended execution that meets the hypotheses and has come to its end: reader 1 holds while writer 2 goes to sleep, then 2 is woken, enters and leaves. -/
theorem shared_live_nontrivial : ∃ s tr, machine.Reaches s tr ∧ Defined tr ∧ ReadersAskUncontended tr ∧ NestedReleaseOrder tr ∧ WritersAskEmptyHanded tr ∧ Ev.sleptUni 2 ∈ tr ∧
    (∀ l s' e, machine.step s l = some (s', e) → l.isRequest = true) := by
  refine ⟨_, [.askedShr 1, .grantedShr 1, .askedUni 2, .sleptUni 2, .releasedShr 1, .wokenUni 2, .grantedUni 2, .releasedUni 2],
    ⟨[.askShr 1, .askUni 2, .suspUni 2, .unlock 1 .shr 0 0, .resume 2, .unlock 2 .uni 0 0], rfl⟩, by simp [Defined], ?_, ?_, ?_, by simp, ?_⟩
  · intro p t hp u hu
    obtain ⟨q, hq⟩ := hp
    have hp0 : p = [] := by
      rcases p with _ | ⟨a, _ | ⟨b, _ | ⟨c, _ | ⟨d, _ | ⟨e, _ | ⟨f, _ | ⟨g, _ | ⟨h, p⟩⟩⟩⟩⟩⟩⟩⟩ <;> simp at hq
      rfl
    subst hp0
    simp [HoldsUni, BecomingWriter, not_openIn_nil]
  · intro p t hp
    obtain ⟨q, hq⟩ := hp
    have hp0 : t = 2 ∧ p = [.askedShr 1, .grantedShr 1, .askedUni 2, .sleptUni 2, .releasedShr 1, .wokenUni 2, .grantedUni 2] := by
      rcases p with _ | ⟨a, _ | ⟨b, _ | ⟨c, _ | ⟨d, _ | ⟨e, _ | ⟨f, _ | ⟨g, _ | ⟨h, p⟩⟩⟩⟩⟩⟩⟩⟩ <;> simp at hq
      obtain ⟨rfl, rfl, rfl, rfl, rfl, rfl, rfl, rfl, -⟩ := hq
      simp
    obtain ⟨rfl, rfl⟩ := hp0
    rintro ⟨a, b, hab, -⟩
    have : Ev.grantedShr 2 ∈ [Ev.askedShr 1, .grantedShr 1, .askedUni 2, .sleptUni 2, .releasedShr 1, .wokenUni 2, .grantedUni 2] := by rw [hab]; simp
    simp at this
  · intro p t hp
    obtain ⟨q, hq⟩ := hp
    have hp0 : t = 2 ∧ p = [.askedShr 1, .grantedShr 1] := by
      rcases p with _ | ⟨a, _ | ⟨b, _ | ⟨c, _ | ⟨d, _ | ⟨e, _ | ⟨f, _ | ⟨g, _ | ⟨h, p⟩⟩⟩⟩⟩⟩⟩⟩ <;> simp at hq
      obtain ⟨rfl, rfl, rfl, -⟩ := hq
      simp
    obtain ⟨rfl, rfl⟩ := hp0
    constructor
    · rintro ⟨a, b, hab, -⟩
      have : Ev.grantedShr 2 ∈ [Ev.askedShr 1, .grantedShr 1] := by rw [hab]; simp
      simp at this
    · rintro ⟨a, b, hab, -⟩
      have : Ev.grantedUni 2 ∈ [Ev.askedShr 1, .grantedShr 1] := by rw [hab]; simp
      simp at this
  · intro l s' e hs
    have key : ∀ (s : St), s.pending = [] → s.stale = [] → (∀ t, (s.task t).act = .none ∧ (s.task t).shr = false ∧ (s.task t).uni = false) →
        machine.step s l = some (s', e) → l.isRequest = true := by
      intro s a b c hs
      cases l <;> simp [machine, step, a, b, c] at hs ⊢ <;> first | rfl | grind
    refine key _ rfl rfl ?_ hs
    intro t
    simp only [machine, init, release, dropLock, wakeUni, wakeShr, pick, upd_apply]
    by_cases h1 : t = 1
    · subst h1; decide
    by_cases h2 : t = 2
    · subst h2; decide
    simp [h1, h2, upd_apply]

end Verif.SharedMutex
