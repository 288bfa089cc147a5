import Verif.Hb.ShrModel
import Verif.SharedMutex.Props
/-!
# C90: what is done under a shared_mutex is visible to those who get it later
-/

namespace Verif.Hb.Shr
open Machine

theorem closed_concat (tr : List Ev) (x : Ev) (j : Nat) :
    Closed (tr ++ [x]) j ↔ Closed tr j ∨ ∃ u w, .access u j w ∈ tr ∧ released u x := by
  constructor
  · rintro ⟨p, q, u, w, h, y, hy, hr⟩
    rcases append_singleton_split h with ⟨rfl, -, -⟩ | ⟨b, rfl, ht⟩
    · simp at hy
    · rcases List.mem_append.1 hy with hy | hy
      · exact .inl ⟨p, b, u, w, ht, y, hy, hr⟩
      · simp only [List.mem_singleton] at hy
        subst hy
        exact .inr ⟨u, w, by simp [ht], hr⟩
  · rintro (⟨p, q, u, w, rfl, y, hy, hr⟩ | ⟨u, w, hm, hr⟩)
    · exact ⟨p, q ++ [x], u, w, by simp, y, by simp [hy], hr⟩
    · obtain ⟨p, q, rfl⟩ := List.append_of_mem hm
      exact ⟨p, q ++ [x], u, w, by simp, x, by simp, hr⟩

theorem closed_append (e : List Ev) (he : ∀ u j w, .access u j w ∉ e) (j : Nat) : ∀ tr,
    Closed (tr ++ e) j ↔ Closed tr j ∨ ∃ u w, .access u j w ∈ tr ∧ ∃ x ∈ e, released u x := by
  induction e with
  | nil => simp
  | cons x e ih =>
    intro tr
    have h1 := ih (fun u j w hr => he u j w (by simp [hr])) (tr ++ [x])
    rw [List.append_assoc, List.singleton_append] at h1
    rw [h1, closed_concat]
    have hx : ∀ u j w, Ev.access u j w ≠ x := fun u j w hh => he u j w (by simp [hh])
    simp only [List.mem_append, List.mem_singleton, hx, or_false, List.mem_cons, exists_eq_or_imp]
    grind

theorem closed_mono {tr e : List Ev} {j : Nat} (h : Closed tr j) : Closed (tr ++ e) j := by
  obtain ⟨p, q, u, w, rfl, x, hx, hr⟩ := h
  exact ⟨p, q ++ e, u, w, by simp, x, by simp [hx], hr⟩

theorem given_append {tr e : List Ev} {t j : Nat} (h : Given (tr ++ e) t j) : Given tr t j ∨ (Closed (tr ++ e) j ∧ ∃ g, .lk g ∈ e ∧ gives t g) := by
  obtain ⟨q, g, hp, hg, hc⟩ := h
  rcases concat_prefix_append_cases hp with hp | ⟨r, hr, rfl⟩
  · exact .inl ⟨q, g, hp, hg, hc⟩
  · refine .inr ⟨?_, g, ?_, hg⟩
    · obtain ⟨z, rfl⟩ := hr
      have := closed_mono (e := .lk g :: z) hc
      simpa using this
    · obtain ⟨z, rfl⟩ := hr
      simp

/-- Is the task in the scheduler's queue? -/
def isWoke (a : SharedMutex.Act) : Bool := a == .wokeShr || a == .wokeUni

structure Inv (s : St) (tr : List Ev) : Prop where
  own : ∀ u j w, .access u j w ∈ tr → s.view u j = true
  closed : ∀ j, Closed tr j → s.lockV j = true
  given : ∀ t j, Given tr t j → s.view t j = true ∨ (isWoke (s.m.task t).act = true ∧ s.readyV t j = true)

theorem inv_init : Inv init [] := by
  constructor
  · simp
  · rintro j ⟨p, q, u, w, h, -⟩; simp at h
  · rintro t j ⟨q, g, h, -⟩; simp at h

/-- What one action of the lock may do, as far as the views are concerned. -/
structure Fine (s : St) (l : SharedMutex.Lbl) (m' : SharedMutex.St) (e : List SharedMutex.Ev) : Prop where
  view : ∀ u i, s.view u i = true → (mem s e l).view u i = true
  lockV : ∀ i, s.lockV i = true → (mem s e l).lockV i = true
  rel : ∀ u i, (.releasedShr u ∈ e ∨ .releasedUni u ∈ e) → s.view u i = true → (mem s e l).lockV i = true
  asked : ∀ t i, .askedShr t ∈ e → (mem s e l).lockV i = true → (mem s e l).view t i = true
  woken : ∀ t i, (.wokenShr t ∈ e ∨ .wokenUni t ∈ e) → (mem s e l).lockV i = true → (mem s e l).readyV t i = true
  wokenAct : ∀ t, (.wokenShr t ∈ e ∨ .wokenUni t ∈ e) → isWoke (m'.task t).act = true
  stay : ∀ t i, isWoke (s.m.task t).act = true → s.readyV t i = true →
    (mem s e l).view t i = true ∨ (isWoke (m'.task t).act = true ∧ ((mem s e l).readyV t i = true ∨ (.wokenShr t ∈ e ∨ .wokenUni t ∈ e)))

theorem join_apply (a b : View) (i : Nat) : a.join b i = (a i || b i) := rfl

theorem woke_iff (e : List SharedMutex.Ev) (u : Nat) : woke e u = true ↔ .wokenShr u ∈ e ∨ .wokenUni u ∈ e := by
  simp [woke]

theorem events_wakeUni (s : SharedMutex.St) (pu : Nat) :
    (SharedMutex.wakeUni s pu = (s, [])) ∨ ∃ u, (SharedMutex.wakeUni s pu).2 = [.wokenUni u] ∧
      (SharedMutex.wakeUni s pu).1.task = upd s.task u { s.task u with act := .wokeUni } := by
  unfold SharedMutex.wakeUni
  split
  · split
    · rename_i u _; exact .inr ⟨u, rfl, rfl⟩
    · exact .inl rfl
  · exact .inl rfl

theorem events_wakeShr (s : SharedMutex.St) (ps : Nat) :
    (SharedMutex.wakeShr s ps = (s, [])) ∨ ∃ u, (SharedMutex.wakeShr s ps).2 = [.wokenShr u] ∧
      (SharedMutex.wakeShr s ps).1.task = upd s.task u { s.task u with act := .wokeShr } := by
  unfold SharedMutex.wakeShr
  split
  · exact .inl rfl
  · split
    · rename_i u _; exact .inr ⟨u, rfl, rfl⟩
    · exact .inl rfl

/-- A call that only wakes tasks. -/
structure Wakes (s s' : SharedMutex.St) (e : List SharedMutex.Ev) : Prop where
  only : ∀ x ∈ e, ∃ u, x = .wokenShr u ∨ x = .wokenUni u
  act : ∀ t, (.wokenShr t ∈ e ∨ .wokenUni t ∈ e) → isWoke (s'.task t).act = true
  stay : ∀ t, isWoke (s.task t).act = true → isWoke (s'.task t).act = true

theorem Wakes.refl (s : SharedMutex.St) : Wakes s s [] := by
  constructor <;> simp

theorem Wakes.congr {s s1 s' : SharedMutex.St} {e : List SharedMutex.Ev} (hw : Wakes s1 s' e) (h : s1.task = s.task) : Wakes s s' e := by
  obtain ⟨a, b, c⟩ := hw
  rw [h] at c
  exact ⟨a, b, c⟩

theorem wakes_wakeUni (s : SharedMutex.St) (pu : Nat) : Wakes s (SharedMutex.wakeUni s pu).1 (SharedMutex.wakeUni s pu).2 := by
  rcases events_wakeUni s pu with h | ⟨u, h1, h2⟩
  · rw [h]; exact Wakes.refl s
  · rw [h1]
    constructor
    · simp
    · intro t ht
      simp only [List.mem_singleton, reduceCtorEq, SharedMutex.Ev.wokenUni.injEq, false_or] at ht
      subst ht
      rw [h2]; simp [isWoke]
    · intro t ht
      rw [h2, upd_apply]
      split <;> simp_all [isWoke]

theorem wakes_wakeShr (s : SharedMutex.St) (ps : Nat) : Wakes s (SharedMutex.wakeShr s ps).1 (SharedMutex.wakeShr s ps).2 := by
  rcases events_wakeShr s ps with h | ⟨u, h1, h2⟩
  · rw [h]; exact Wakes.refl s
  · rw [h1]
    constructor
    · simp
    · intro t ht
      simp only [List.mem_singleton, reduceCtorEq, SharedMutex.Ev.wokenShr.injEq, or_false] at ht
      subst ht
      rw [h2]; simp [isWoke]
    · intro t ht
      rw [h2, upd_apply]
      split <;> simp_all [isWoke]

theorem Wakes.trans {s s1 s2 : SharedMutex.St} {e1 e2 : List SharedMutex.Ev} (h1 : Wakes s s1 e1) (h2 : Wakes s1 s2 e2) : Wakes s s2 (e1 ++ e2) := by
  obtain ⟨a1, b1, c1⟩ := h1
  obtain ⟨a2, b2, c2⟩ := h2
  constructor
  · intro x hx
    rcases List.mem_append.1 hx with hx | hx
    · exact a1 x hx
    · exact a2 x hx
  · intro t ht
    simp only [List.mem_append] at ht
    rcases ht with (ht | ht) | (ht | ht)
    · exact c2 t (b1 t (.inl ht))
    · exact b2 t (.inl ht)
    · exact c2 t (b1 t (.inr ht))
    · exact b2 t (.inr ht)
  · intro t ht; exact c2 t (c1 t ht)

theorem wakes_next (s : SharedMutex.St) (ps pu : Nat) : Wakes s (SharedMutex.tryWakeUpNext s ps pu).1 (SharedMutex.tryWakeUpNext s ps pu).2 := by
  unfold SharedMutex.tryWakeUpNext
  simp only
  split
  · exact wakes_wakeUni s pu
  · exact (wakes_wakeUni s pu).trans (wakes_wakeShr _ ps)

theorem wakes_release (s : SharedMutex.St) (ps pu : Nat) : Wakes s (SharedMutex.release s ps pu).1 (SharedMutex.release s ps pu).2 := by
  unfold SharedMutex.release
  cases s.hold with
  | shr =>
    simp only
    split
    · exact (wakes_wakeUni _ pu).congr rfl
    · exact (Wakes.refl _).congr rfl
  | uni =>
    simp only
    split
    · exact (wakes_wakeShr _ ps).congr rfl
    · exact ((wakes_wakeShr _ ps).trans (wakes_wakeUni _ pu)).congr rfl
  | shrDuringUni => exact (Wakes.refl _).congr rfl
  | no => exact Wakes.refl _

theorem fine_wakes {s : St} {l : SharedMutex.Lbl} {m' : SharedMutex.St} {e : List SharedMutex.Ev} {t : Nat} {pre : List SharedMutex.Ev}
    (hl : mem s (pre ++ e) l = critT s t (pre ++ e) ∨ ((mem s (pre ++ e) l).view = upd s.view t ((s.view t).join s.lockV) ∧
      (mem s (pre ++ e) l).lockV = (critT s t (pre ++ e)).lockV ∧ (mem s (pre ++ e) l).readyV = (critT s t (pre ++ e)).readyV))
    (hpre : ∀ x ∈ pre, (x = .askedShr t ∨ x = .releasedShr t ∨ x = .releasedUni t ∨ x = .sleptShr t ∨ x = .sleptUni t ∨ x = .grantedShr t))
    (hw : Wakes s.m m' e) : Fine s l m' (pre ++ e) := by
  have hview : (mem s (pre ++ e) l).view = upd s.view t ((s.view t).join s.lockV) := by
    rcases hl with hl | hl
    · rw [hl]; rfl
    · exact hl.1
  have hlock : (mem s (pre ++ e) l).lockV = (s.view t).join s.lockV := by
    rcases hl with hl | hl
    · rw [hl]; rfl
    · rw [hl.2.1]; rfl
  have hready : ∀ u, (mem s (pre ++ e) l).readyV u = if woke (pre ++ e) u = true then (s.view t).join s.lockV else s.readyV u := by
    intro u
    rcases hl with hl | hl
    · rw [hl]; rfl
    · rw [hl.2.2]; rfl
  obtain ⟨a, b, c⟩ := hw
  have hwk : ∀ u, (.wokenShr u ∈ pre ++ e ∨ .wokenUni u ∈ pre ++ e) ↔ (.wokenShr u ∈ e ∨ .wokenUni u ∈ e) := by
    intro u
    have h1 : SharedMutex.Ev.wokenShr u ∉ pre := fun h => by have := hpre _ h; simp at this
    have h2 : SharedMutex.Ev.wokenUni u ∉ pre := fun h => by have := hpre _ h; simp at this
    simp [h1, h2]
  constructor
  · intro u i hu
    rw [hview, upd_apply]
    split
    · rename_i h; subst h; simp [join_apply, hu]
    · exact hu
  · intro i hi; rw [hlock, join_apply, hi, Bool.or_true]
  · intro u i hu hv
    have : u = t := by
      rcases hu with hu | hu <;> (rcases List.mem_append.1 hu with hu | hu)
      · have := hpre _ hu; simpa using this
      · obtain ⟨v, hv⟩ := a _ hu; simp at hv
      · have := hpre _ hu; simpa using this
      · obtain ⟨v, hv⟩ := a _ hu; simp at hv
    subst this
    rw [hlock, join_apply, hv, Bool.true_or]
  · intro u i hu hv
    have : u = t := by
      rcases List.mem_append.1 hu with hu | hu
      · have := hpre _ hu; simpa using this
      · obtain ⟨v, hv⟩ := a _ hu; simp at hv
    subst this
    rw [hlock] at hv
    rw [hview, upd_same]
    exact hv
  · intro u i hu hv
    rw [hready, if_pos ((woke_iff _ _).2 hu)]
    rw [hlock] at hv
    exact hv
  · intro u hu; exact b u ((hwk u).1 hu)
  · intro u i h1 h2
    refine .inr ⟨c u h1, ?_⟩
    by_cases hx : .wokenShr u ∈ pre ++ e ∨ .wokenUni u ∈ pre ++ e
    · exact .inr hx
    · rw [hready, if_neg (fun h => hx ((woke_iff _ _).1 h))]
      exact .inl h2

/-- Every action of the lock is fine. -/
theorem fine_of_step {s : St} {l : SharedMutex.Lbl} {m' : SharedMutex.St} {e : List SharedMutex.Ev} (hs : SharedMutex.step s.m l = some (m', e)) :
    Fine s l m' e := by
  unfold SharedMutex.step at hs
  split at hs
  · simp at hs
  cases l with
  | askShr t =>
    simp only at hs
    (repeat' split at hs) <;> simp only [Option.some.injEq, Prod.mk.injEq, reduceCtorEq] at hs <;> obtain ⟨rfl, rfl⟩ := hs
    · refine fine_wakes (t := t) (pre := [.askedShr t]) (e := []) (.inl rfl) (by simp) ⟨by simp, by simp, ?_⟩
      intro u hu
      simp only [upd_apply]; split <;> simp_all [isWoke]
    · refine fine_wakes (t := t) (pre := [.askedShr t, .grantedShr t]) (e := []) (.inl rfl) (by simp) ⟨by simp, by simp, ?_⟩
      intro u hu
      simp only [upd_apply]; split <;> simp_all [isWoke]
  | suspShr t =>
    simp only at hs
    (repeat' split at hs) <;> simp only [Option.some.injEq, Prod.mk.injEq, reduceCtorEq] at hs <;> obtain ⟨rfl, rfl⟩ := hs
    · refine fine_wakes (t := t) (pre := [.sleptShr t]) (e := [.wokenShr t]) (.inr ⟨rfl, rfl, rfl⟩) (by simp) ⟨by simp, ?_, ?_⟩
      · intro u hu
        simp only [List.mem_singleton, SharedMutex.Ev.wokenShr.injEq, reduceCtorEq, or_false] at hu
        simp [hu, isWoke]
      · intro u hu
        simp only [upd_apply]; split <;> simp_all [isWoke]
    · refine fine_wakes (t := t) (pre := [.sleptShr t]) (e := []) (.inr ⟨rfl, rfl, rfl⟩) (by simp) ⟨by simp, by simp, ?_⟩
      intro u hu
      simp only [upd_apply]; split <;> simp_all [isWoke]
  | wakeNext t ps pu =>
    simp only at hs
    split at hs <;> simp only [Option.some.injEq, reduceCtorEq] at hs
    have hw : Wakes s.m m' e := by
      have := wakes_next { s.m with pending := s.m.pending.erase t } ps pu
      rw [hs] at this
      exact this.congr rfl
    obtain ⟨a, b, c⟩ := hw
    constructor
    · intro u i hu; exact hu
    · intro i hi; simp [mem, crit, join_apply, hi]
    · intro u i hu; rcases hu with hu | hu <;> (obtain ⟨v, hv⟩ := a _ hu; simp at hv)
    · intro u i hu; obtain ⟨v, hv⟩ := a _ hu; simp at hv
    · intro u i hu hv
      simp only [mem, crit, (woke_iff _ _).2 hu, if_true] at hv ⊢
      exact hv
    · exact b
    · intro u i h1 h2
      refine .inr ⟨c u h1, ?_⟩
      by_cases hx : .wokenShr u ∈ e ∨ .wokenUni u ∈ e
      · exact .inr hx
      · refine .inl ?_
        have : ¬ woke e u = true := fun h => hx ((woke_iff _ _).1 h)
        simp [mem, crit, this, h2]
  | wakeStale t =>
    simp only at hs
    split at hs <;> simp only [Option.some.injEq, Prod.mk.injEq, reduceCtorEq] at hs
    obtain ⟨rfl, rfl⟩ := hs
    constructor <;> simp [mem] <;> grind
  | askUni t =>
    simp only at hs
    split at hs <;> simp only [Option.some.injEq, Prod.mk.injEq, reduceCtorEq] at hs
    obtain ⟨rfl, rfl⟩ := hs
    constructor <;> simp [mem, upd_apply, isWoke] <;> grind
  | suspUni t =>
    simp only at hs
    (repeat' split at hs) <;> simp only [Option.some.injEq, Prod.mk.injEq, reduceCtorEq] at hs <;> obtain ⟨rfl, rfl⟩ := hs
    · refine fine_wakes (t := t) (pre := [.sleptUni t]) (e := [.wokenUni t]) (.inl rfl) (by simp) ⟨by simp, ?_, ?_⟩
      · intro u hu
        simp only [List.mem_singleton, SharedMutex.Ev.wokenUni.injEq, reduceCtorEq, false_or] at hu
        simp [hu, isWoke]
      · intro u hu
        simp only [upd_apply]; split <;> simp_all [isWoke]
    · refine fine_wakes (t := t) (pre := [.sleptUni t]) (e := []) (.inl rfl) (by simp) ⟨by simp, by simp, ?_⟩
      intro u hu
      simp only [upd_apply]; split <;> simp_all [isWoke]
  | resume t =>
    simp only at hs
    (repeat' split at hs) <;> simp only [Option.some.injEq, Prod.mk.injEq, reduceCtorEq] at hs <;> obtain ⟨rfl, rfl⟩ := hs <;>
      (constructor <;> simp [mem, upd_apply, join_apply, isWoke] <;> grind [join_apply])
  | unlock t k ps pu =>
    simp only at hs
    split at hs <;> simp only [Option.some.injEq, Prod.mk.injEq, reduceCtorEq] at hs
    obtain ⟨rfl, rfl⟩ := hs
    refine fine_wakes (t := t) (pre := [SharedMutex.relEv t k]) (.inl rfl) ?_ ?_
    · cases k <;> simp [SharedMutex.relEv]
    · have h1 := wakes_release (SharedMutex.dropLock s.m t k) ps pu
      obtain ⟨a, b, c⟩ := h1
      refine ⟨a, b, fun u hu => c u ?_⟩
      cases k <;> simp only [SharedMutex.dropLock, upd_apply] <;> split <;> simp_all

theorem fine_step {s : St} {tr : List Ev} {l : SharedMutex.Lbl} {m' : SharedMutex.St} {e : List SharedMutex.Ev} (h : Inv s tr)
    (hf : Fine s l m' e) : Inv { mem s e l with m := m' } (tr ++ e.map .lk) := by
  obtain ⟨own, closed, given⟩ := h
  obtain ⟨view, lockV, rel, asked, woken, wokenAct, stay⟩ := hf
  have hc : ∀ j, Closed (tr ++ e.map .lk) j → (mem s e l).lockV j = true := by
    intro j hj
    rw [closed_append _ (by simp)] at hj
    rcases hj with hj | ⟨u, w, hm, x, hx, hr⟩
    · exact lockV j (closed j hj)
    · refine rel u j ?_ (own u j w hm)
      obtain ⟨y, hy, rfl⟩ := List.mem_map.1 hx
      rcases hr with hr | hr <;> simp only [Ev.lk.injEq] at hr <;> subst hr
      · exact .inl hy
      · exact .inr hy
  constructor
  · intro u j w hm
    exact view u j (own u j w (by simpa using hm))
  · exact hc
  · intro t j hg
    rcases given_append hg with hg' | ⟨hcl, g, hge, hgt⟩
    · have hlk : s.lockV j = true := by
        obtain ⟨q, g, hp, -, hcq⟩ := hg'
        obtain ⟨z, rfl⟩ := hp
        have := closed_mono (e := .lk g :: z) hcq
        exact closed j (by simpa using this)
      rcases given t j hg' with h1 | ⟨h1, h2⟩
      · exact .inl (view t j h1)
      · rcases stay t j h1 h2 with h3 | ⟨h3, h4 | h4⟩
        · exact .inl h3
        · exact .inr ⟨h3, h4⟩
        · exact .inr ⟨h3, woken t j h4 (lockV j hlk)⟩
    · have hlk := hc j hcl
      simp only [List.mem_map, Ev.lk.injEq, exists_eq_right] at hge
      rcases hgt with rfl | rfl | rfl
      · exact .inl (asked t j hge hlk)
      · exact .inr ⟨wokenAct t (.inl hge), woken t j (.inl hge) hlk⟩
      · exact .inr ⟨wokenAct t (.inr hge), woken t j (.inr hge) hlk⟩

theorem missing_race {s : St} {t : Nat} {w : Bool} {x : Ev} (h : x ∈ missing s t w) :
    ∃ j, x = .race t s.n j ∧ j < s.n ∧ s.view t j = false ∧ (w = true ∨ s.wr j = true) := by
  simp only [missing, List.mem_filterMap, List.mem_range] at h
  obtain ⟨j, hj, h⟩ := h
  split at h
  · simp only [Option.some.injEq] at h
    rename_i hc
    simp only [Bool.and_eq_true, Bool.or_eq_true, Bool.not_eq_true'] at hc
    exact ⟨j, h.symm, hj, hc.2, hc.1⟩
  · simp at h

theorem access_step {s : St} {tr : List Ev} {t : Nat} {w : Bool} (h : Inv s tr) :
    Inv { s with
        n := s.n + 1
        wr := upd s.wr s.n w
        view := upd s.view t (fun i => s.view t i || i == s.n) } (tr ++ .access t s.n w :: missing s t w) := by
  obtain ⟨own, closed, given⟩ := h
  have hc : ∀ j, Closed (tr ++ .access t s.n w :: missing s t w) j → Closed tr j := by
    intro j hj
    have e1 : tr ++ Ev.access t s.n w :: missing s t w = (tr ++ [.access t s.n w]) ++ missing s t w := by simp
    rw [e1, closed_append, closed_concat] at hj
    · rcases hj with (hj | ⟨u, w', -, hr⟩) | ⟨u, w', -, x, hx, hr⟩
      · exact hj
      · rcases hr with hr | hr <;> simp at hr
      · obtain ⟨k, rfl, -⟩ := missing_race hx
        rcases hr with hr | hr <;> simp at hr
    · intro u k w' hm
      obtain ⟨k, hk, -⟩ := missing_race hm
      simp at hk
  constructor
  · intro u j w' hm
    simp only [List.mem_append, List.mem_cons, Ev.access.injEq] at hm
    simp only [upd_apply]
    rcases hm with hm | ⟨rfl, rfl, rfl⟩ | hm
    · have := own u j w' hm
      split
      · rename_i hh; subst hh; simp [this]
      · exact this
    · simp
    · obtain ⟨k, hk, -⟩ := missing_race hm
      simp at hk
  · intro j hj; exact closed j (hc j hj)
  · intro u j hg
    rcases given_append hg with hg | ⟨-, g, hg, -⟩
    · rcases given u j hg with h1 | h1
      · refine .inl ?_
        simp only [upd_apply]
        split
        · rename_i hh; subst hh; simp [h1]
        · exact h1
      · exact .inr h1
    · simp only [List.mem_cons, reduceCtorEq, false_or] at hg
      obtain ⟨k, hk, -⟩ := missing_race hg
      simp at hk

theorem inv_step {s s' : St} {tr : List Ev} {l : Lbl} {e : List Ev} (h : Inv s tr) (hs : step s l = some (s', e)) : Inv s' (tr ++ e) := by
  cases l with
  | sm l =>
    simp only [step] at hs
    split at hs
    · simp at hs
    rename_i m' e' hm
    simp only [Option.some.injEq, Prod.mk.injEq] at hs
    obtain ⟨rfl, rfl⟩ := hs
    exact fine_step h (fine_of_step hm)
  | access t w =>
    simp only [step] at hs
    split at hs <;> simp only [Option.some.injEq, Prod.mk.injEq, reduceCtorEq] at hs
    obtain ⟨rfl, rfl⟩ := hs
    exact access_step h

theorem inv_of_reaches {s : St} {tr : List Ev} (h : machine.Reaches s tr) : Inv s tr :=
  Reaches.inv (M := machine) Inv inv_init (fun _ _ _ _ _ hI hs => inv_step hI hs) h

/-- **C90, hand-over.**  In every execution: when a task gets the lock, everything done under a lock released before is visible to it, whichever way it got
the lock. -/
theorem shared_mutex_hand_over_visible {s : St} {tr : List Ev} (h : machine.Reaches s tr) : HandOverVisible tr := by
  rintro p t i j ⟨post, hp⟩ hg
  obtain ⟨s1, tr1, l, s2, e, q, hr, hs, hq, rfl⟩ := h.at_event (pre := p) (x := .race t i j) (post := post) (by rw [← hp]; simp)
  have hI := inv_of_reaches hr
  cases l with
  | sm l =>
    simp only [machine, step] at hs
    split at hs
    · simp at hs
    simp only [Option.some.injEq, Prod.mk.injEq] at hs
    obtain ⟨-, rfl⟩ := hs
    have := hq.subset (a := .race t i j) (by simp)
    simp at this
  | access u w =>
    simp only [machine, step] at hs
    split at hs <;> simp only [Option.some.injEq, Prod.mk.injEq, reduceCtorEq] at hs
    rename_i hok
    obtain ⟨-, rfl⟩ := hs
    have hm := hq.subset (a := .race t i j) (by simp)
    simp only [List.mem_cons, reduceCtorEq, false_or] at hm
    obtain ⟨k, hk, -, hv, -⟩ := missing_race hm
    simp only [Ev.race.injEq] at hk
    obtain ⟨rfl, rfl, rfl⟩ := hk
    have hg' : Given tr1 t j := by
      rcases given_append hg with hg | ⟨-, g, hg, -⟩
      · exact hg
      · have := hq.subset (a := .lk g) (by simp [hg])
        simp only [List.mem_cons, reduceCtorEq, false_or] at this
        obtain ⟨k, hk, -⟩ := missing_race this
        simp at hk
    have hact : (s1.m.task t).act = .none := by
      have := hok.2
      simp only [mayAccess, Bool.and_eq_true, decide_eq_true_eq] at this
      exact this.1
    rcases hI.given t j hg' with h1 | ⟨h1, -⟩
    · simp [hv] at h1
    · simp [hact, isWoke] at h1

end Verif.Hb.Shr
