import Verif.ForkJoin.Fut
import Verif.Common.Trace
/-!
# Invariants: the tree of tasks, the futures, where the tasks are
-/

namespace Verif.ForkJoin
open Verif.Nest (Body Exc Res Ev)

def Ctl.aw : Ctl → Option (Nat × (Res → Body))
  | .test i k | .susp i k | .wait i k | .woken i k | .got i k => some (i, k)
  | _ => none

def Ctl.res : Ctl → Option Res
  | .fin r => some r
  | _ => none

def Ctl.active : Ctl → Bool
  | .run _ | .test _ _ | .susp _ _ | .woken _ _ | .got _ _ => true
  | _ => false

def Ctl.pc : Ctl → Future.Pc
  | .susp _ _ => .suspending
  | .wait _ _ => .suspended
  | .woken _ _ => .woken
  | .got _ _ => .resuming
  | _ => .idle

/-- the tree -/
structure K (s : St) : Prop where
  kr : ∀ t : Nat, t < s.n → ∀ i c : Nat, (s.kids t)[i]? = some c → t < c ∧ c < s.n
  ku : ∀ t t' : Nat, t < s.n → t' < s.n → ∀ i i' c : Nat, (s.kids t)[i]? = some c → (s.kids t')[i']? = some c → t = t' ∧ i = i'

/-- the futures -/
structure J (s : St) : Prop where
  fi : ∀ c, c < s.n → FI (s.fut c) (s.ctl c).res
  j1 : ∀ t : Nat, t < s.n → ∀ (i : Nat) (k : Res → Body), (s.ctl t).aw = some (i, k) → ∃ c : Nat, (s.kids t)[i]? = some c ∧ (s.fut c).pc = (s.ctl t).pc
  j2 : ∀ c : Nat, c < s.n → (s.fut c).pc ≠ .idle → ∃ (t i : Nat) (k : Res → Body), t < s.n ∧ (s.ctl t).aw = some (i, k) ∧ (s.kids t)[i]? = some c
  j3 : ∀ c : Nat, c < s.n → (s.fut c).pc = .suspended → ∃ (p i : Nat) (k : Res → Body), p < s.n ∧ s.waiter c = some p ∧ s.ctl p = .wait i k ∧ (s.kids p)[i]? = some c

/-- the places -/
structure L (W : Nat) (s : St) : Prop where
  rn : s.ready.Nodup
  rr : ∀ t, t ∈ s.ready → t < s.n ∧ (s.ctl t).active = true ∧ ∀ w, t ∉ s.on w
  oo : ∀ w t, t ∈ s.on w → t < s.n ∧ (s.ctl t).active = true ∧ w < W
  od : ∀ w w' t, t ∈ s.on w → t ∈ s.on w' → w = w'
  nd : ∀ w, (s.on w).Nodup
  al : ∀ t, t < s.n → (s.ctl t).active = true → t ∈ s.ready ∨ ∃ w, t ∈ s.on w

structure All (W : Nat) (s : St) : Prop where
  k : K s
  j : J s
  l : L W s

variable {W : Nat} {s : St} {w t : Nat}

theorem all_init (b : Body) : All W (init b) := by
  refine ⟨?_, ?_, ?_⟩
  · constructor <;> simp [init]
  · constructor <;> simp [init, Ctl.aw, Ctl.res, fi_init] <;> simp [Future.init]
  · constructor <;> simp [init, Ctl.active]

/-- the body goes on -/
theorem all_setRun {b b' : Body} (h : All W s) (hc : s.ctl t = .run b) : All W (setCtl s t (.run b')) := by
  obtain ⟨⟨kr, ku⟩, ⟨fi, j1, j2, j3⟩, ⟨rn, rr, oo, od, nd, al⟩⟩ := h
  refine ⟨⟨kr, ku⟩, ?_, ?_⟩
  · constructor <;> simp only [setCtl, upd_apply]
    · intro c hc'; have := fi c hc'; grind [Ctl.res]
    · intro u hu i k; have := j1 u hu i k; grind [Ctl.aw]
    · intro c hc' hp; obtain ⟨u, i, k, h1, h2, h3⟩ := j2 c hc' hp
      refine ⟨u, i, k, h1, ?_, h3⟩
      rw [if_neg]; exact h2
      rintro rfl; simp [hc, Ctl.aw] at h2
    · intro c hc' hp; obtain ⟨p, i, k, h1, h2, h3, h4⟩ := j3 c hc' hp
      exact ⟨p, i, k, h1, h2, by grind, h4⟩
  · constructor <;> simp only [setCtl, upd_apply] <;> grind [Ctl.active]

theorem all_setTest {b : Body} {i c : Nat} {k : Res → Body} (h : All W s) (ht : t < s.n) (hc : s.ctl t = .run b) (hk : (s.kids t)[i]? = some c) : All W (setCtl s t (.test i k)) := by
  obtain ⟨⟨kr, ku⟩, ⟨fi, j1, j2, j3⟩, ⟨rn, rr, oo, od, nd, al⟩⟩ := h
  have hcn := kr t ht i c hk
  have hidle : (s.fut c).pc = .idle := by
    by_contra hp
    obtain ⟨u, i', k', h1, h2, h3⟩ := j2 c hcn.2 hp
    obtain ⟨rfl, _⟩ := ku u t h1 ht _ _ _ h3 hk
    simp [hc, Ctl.aw] at h2
  refine ⟨⟨kr, ku⟩, ?_, ?_⟩
  · constructor <;> simp only [setCtl, upd_apply]
    · intro c hc'; have := fi c hc'; grind [Ctl.res]
    · intro u hu i' k'
      split
      · subst u
        simp only [Ctl.aw, Option.some.injEq, Prod.mk.injEq]
        rintro ⟨rfl, rfl⟩
        exact ⟨c, hk, by simp [hidle, Ctl.pc]⟩
      · exact j1 u hu i' k'
    · intro d hd hp; obtain ⟨u, i', k', h1, h2, h3⟩ := j2 d hd hp
      refine ⟨u, i', k', h1, ?_, h3⟩
      rw [if_neg]; exact h2
      rintro rfl; simp [hc, Ctl.aw] at h2
    · intro d hd hp; obtain ⟨p, i', k', h1, h2, h3, h4⟩ := j3 d hd hp
      exact ⟨p, i', k', h1, h2, by grind, h4⟩
  · constructor <;> simp only [setCtl, upd_apply] <;> grind [Ctl.active]

theorem all_start {c : Nat} (h : All W s) (hc : c < s.n) : All W (start s c) := by
  unfold start
  cases hs : s.ctl c with
  | fresh b =>
    obtain ⟨⟨kr, ku⟩, ⟨fi, j1, j2, j3⟩, ⟨rn, rr, oo, od, nd, al⟩⟩ := h
    refine ⟨⟨kr, ku⟩, ?_, ?_⟩
    · constructor <;> simp only [setCtl, upd_apply]
      · intro d hd; have := fi d hd; grind [Ctl.res]
      · intro u hu i k; have := j1 u hu i k; grind [Ctl.aw]
      · intro d hd hp; obtain ⟨u, i, k, h1, h2, h3⟩ := j2 d hd hp
        refine ⟨u, i, k, h1, ?_, h3⟩
        rw [if_neg]; exact h2
        rintro rfl; simp [hs, Ctl.aw] at h2
      · intro d hd hp; obtain ⟨p, i, k, h1, h2, h3, h4⟩ := j3 d hd hp
        exact ⟨p, i, k, h1, h2, by grind, h4⟩
    · have h1 : c ∉ s.ready := by intro hm; have := (rr c hm).2.1; simp [hs, Ctl.active] at this
      have h2 : ∀ w, c ∉ s.on w := by intro w hm; have := (oo w c hm).2.1; simp [hs, Ctl.active] at this
      constructor <;> simp only [setCtl, upd_apply]
      · rw [List.nodup_append]; refine ⟨rn, by simp, ?_⟩; intro a ha b' hb; simp at hb; subst hb; rintro rfl; exact h1 ha
      · intro u hu
        simp only [List.mem_append, List.mem_singleton] at hu
        rcases hu with hu | rfl
        · obtain ⟨a, b, d⟩ := rr u hu; refine ⟨a, ?_, d⟩; split
          · simp [Ctl.active]
          · exact b
        · exact ⟨hc, by simp [Ctl.active], h2⟩
      · intro w u hu; obtain ⟨a, b, d⟩ := oo w u hu; refine ⟨a, ?_, d⟩; split
        · simp [Ctl.active]
        · exact b
      · exact od
      · exact nd
      · intro u hu; simp only [List.mem_append, List.mem_singleton]; have := al u hu; grind
  | _ => exact h

theorem all_spawn {lz : Bool} {c rest : Body} (h : All W s) (ho : t ∈ s.on w) (hc : s.ctl t = .run (.spawn lz c rest)) : All W (spawn s w t lz c rest) := by
  obtain ⟨⟨kr, ku⟩, ⟨fi, j1, j2, j3⟩, ⟨rn, rr, oo, od, nd, al⟩⟩ := h
  obtain ⟨ht, ha, hw⟩ := oo w t ho
  have hnew : ∀ u i d : Nat, u < s.n + 1 → ((upd (upd s.kids t (s.kids t ++ [s.n])) s.n []) u)[i]? = some d →
      (u < s.n ∧ (s.kids u)[i]? = some d) ∨ (u = t ∧ i = (s.kids t).length ∧ d = s.n) := by
    intro u i d hu
    simp only [upd_apply]
    split
    · simp
    · split
      · subst u
        rw [List.getElem?_append]
        split
        · intro hd; exact Or.inl ⟨ht, hd⟩
        · rw [List.getElem?_singleton]
          intro hd
          split at hd <;> simp at hd
          exact Or.inr ⟨rfl, by omega, hd.symm⟩
      · intro hd; exact Or.inl ⟨by omega, hd⟩
  have hold : ∀ u i d : Nat, u < s.n → (s.kids u)[i]? = some d → ((upd (upd s.kids t (s.kids t ++ [s.n])) s.n []) u)[i]? = some d := by
    intro u i d hu hd
    simp only [upd_apply]
    rw [if_neg (by omega)]
    split
    · subst u; rw [List.getElem?_append_left]; exact hd
      exact (List.getElem?_eq_some_iff.1 hd).1
    · exact hd
  refine ⟨?_, ?_, ?_⟩
  · constructor
    · intro u hu i d hd
      have hn' : (spawn s w t lz c rest).n = s.n + 1 := rfl
      rcases hnew u i d hu hd with ⟨h1, h2⟩ | ⟨h1, h2, h3⟩
      · have := kr u h1 i d h2; omega
      · omega
    · intro u u' hu hu' i i' d hd hd'
      rcases hnew u i d hu hd with ⟨h1, h2⟩ | ⟨h1, h2, h3⟩ <;> rcases hnew u' i' d hu' hd' with ⟨g1, g2⟩ | ⟨g1, g2, g3⟩
      · exact ku u u' h1 g1 i i' d h2 g2
      · have := kr u h1 i d h2; omega
      · have := kr u' g1 i' d g2; omega
      · exact ⟨by omega, by omega⟩
  · constructor <;> simp only [spawn]
    · intro d hd; simp only [upd_apply]
      split
      · cases lz <;> simpa [Ctl.res] using fi_init
      · have := fi d (by omega)
        split
        · subst d; simpa [Ctl.res, hc] using this
        · exact this
    · intro u hu i k
      by_cases h1 : u = s.n
      · subst u; rw [upd_same]; cases lz <;> simp [Ctl.aw]
      · rw [upd_ne _ _ h1]
        by_cases h2 : u = t
        · subst u; rw [upd_same]; simp [Ctl.aw]
        · rw [upd_ne _ _ h2]
          intro ha'
          obtain ⟨d, e1, e2⟩ := j1 u (by omega) i k ha'
          have := kr u (by omega) i d e1
          refine ⟨d, hold u i d (by omega) e1, ?_⟩
          rw [upd_ne _ _ (by omega)]; exact e2
    · intro d hd hp
      by_cases h1 : d = s.n
      · subst d; simp [Future.init] at hp
      · rw [upd_ne _ _ h1] at hp
        obtain ⟨u, i, k, e1, e2, e3⟩ := j2 d (by omega) hp
        have hut : u ≠ t := by rintro rfl; simp [hc, Ctl.aw] at e2
        refine ⟨u, i, k, by omega, ?_, hold u i d e1 e3⟩
        rw [upd_ne _ _ (by omega), upd_ne _ _ hut]; exact e2
    · intro d hd hp
      by_cases h1 : d = s.n
      · subst d; simp [Future.init] at hp
      · rw [upd_ne _ _ h1] at hp
        obtain ⟨u, i, k, e1, e2, e3, e4⟩ := j3 d (by omega) hp
        have hut : u ≠ t := by rintro rfl; simp [hc] at e3
        refine ⟨u, i, k, by omega, by rw [upd_ne _ _ h1]; exact e2, ?_, hold u i d e1 e4⟩
        rw [upd_ne _ _ (by omega), upd_ne _ _ hut]; exact e3
  · have hno : ∀ w, s.n ∉ s.on w := by intro w hm; have := (oo w _ hm).1; omega
    have hnr : s.n ∉ s.ready := by intro hm; have := (rr _ hm).1; omega
    have act : ∀ u, u < s.n → (s.ctl u).active = true → ((upd (upd s.ctl t (.run rest)) s.n (if lz then .fresh c else .run c)) u).active = true := by
      intro u hu h1
      simp only [upd_apply]; rw [if_neg (by omega)]; split
      · simp [Ctl.active]
      · exact h1
    cases lz with
    | true =>
      constructor <;> simp only [spawn, if_true]
      · exact rn
      · intro u hu; obtain ⟨a, b, d⟩ := rr u hu; exact ⟨by omega, by simpa using act u a b, d⟩
      · intro w' u hu; obtain ⟨a, b, d⟩ := oo w' u hu; exact ⟨by omega, by simpa using act u a b, d⟩
      · exact od
      · exact nd
      · intro u hu hx
        simp only [upd_apply] at hx
        split at hx
        · simp [Ctl.active] at hx
        · exact al u (by omega) (by split at hx; · subst u; exact ha
                                    · exact hx)
    | false =>
      constructor <;> simp only [spawn, Bool.false_eq_true, if_false]
      · exact rn
      · intro u hu; obtain ⟨a, b, d⟩ := rr u hu
        refine ⟨by omega, by simpa using act u a b, ?_⟩
        intro w'; simp only [upd_apply]; split
        · rename_i h1; have := d w; simp; exact ⟨by omega, this⟩
        · exact d w'
      · intro w' u hu
        have key : u = s.n ∨ u ∈ s.on w' := by
          simp only [upd_apply] at hu
          split at hu
          · rename_i h1; subst h1; simpa using hu
          · exact Or.inr hu
        have hwW : w' = w ∨ u ∈ s.on w' := by
          simp only [upd_apply] at hu
          split at hu
          · exact Or.inl ‹_›
          · exact Or.inr hu
        rcases key with rfl | key
        · refine ⟨by omega, by simp [Ctl.active], ?_⟩
          rcases hwW with rfl | h1
          · exact hw
          · exact absurd h1 (hno w')
        · obtain ⟨a, b, d⟩ := oo w' u key; exact ⟨by omega, by simpa using act u a b, d⟩
      · intro w1 w2 u; simp only [upd_apply]; have := od w1 w2 u; grind
      · intro w'; simp only [upd_apply]; split
        · rw [List.nodup_cons]; exact ⟨hno w, nd w⟩
        · exact nd w'
      · intro u hu hx
        by_cases h1 : u = s.n
        · right; exact ⟨w, by simp [h1]⟩
        · simp only [upd_apply, h1, if_false] at hx
          rcases al u (by omega) (by split at hx; · subst u; exact ha
                                     · exact hx) with h2 | ⟨w', h2⟩
          · exact Or.inl h2
          · right; refine ⟨w', ?_⟩; simp only [upd_apply]; split
            · rename_i h3; subst h3; simp [h2]
            · exact h2

theorem all_take (h : All W s) (hw : w < W) (ho : s.on w = []) (hr : t ∈ s.ready) : All W { s with on := upd s.on w [t], ready := s.ready.erase t } := by
  obtain ⟨k, j, ⟨rn, rr, oo, od, nd, al⟩⟩ := h
  refine ⟨⟨k.kr, k.ku⟩, ⟨j.fi, j.j1, j.j2, j.j3⟩, ?_⟩
  obtain ⟨h1, h2, h3⟩ := rr t hr
  constructor
  · exact rn.erase t
  · intro u hu
    rw [rn.mem_erase_iff] at hu
    obtain ⟨a, b, d⟩ := rr u hu.2
    refine ⟨a, b, ?_⟩
    intro w'; simp only [upd_apply]; split
    · simpa using hu.1
    · exact d w'
  · intro w' u hu; simp only [upd_apply] at hu; split at hu
    · simp at hu; subst hu; rename_i h4; subst h4; exact ⟨h1, h2, hw⟩
    · exact oo w' u hu
  · intro w1 w2 u; simp only [upd_apply]; have := od w1 w2 u; grind
  · intro w'; simp only [upd_apply]; split
    · simp
    · exact nd w'
  · intro u hu hx
    by_cases h4 : u = t
    · right; exact ⟨w, by simp [h4]⟩
    · rcases al u hu hx with h5 | ⟨w', h5⟩
      · left; exact (rn.mem_erase_iff).2 ⟨h4, h5⟩
      · right; refine ⟨w', ?_⟩; simp only [upd_apply]; split
        · rename_i h6; subst h6; simp [ho] at h5
        · exact h5

/-- task `t`, on top of worker w's stack, leaves it for state `x`, which does not act -/
theorem l_leave {x : Ctl} {stk : List Nat} (h : L W s) (ho : s.on w = t :: stk) (hx : x.active = false) :
    L W { s with ctl := upd s.ctl t x, on := upd s.on w stk } := by
  obtain ⟨rn, rr, oo, od, nd, al⟩ := h
  have htw : t ∈ s.on w := by simp [ho]
  have hnd := nd w
  rw [ho, List.nodup_cons] at hnd
  have hsub : ∀ w' u, u ∈ upd s.on w stk w' → u ∈ s.on w' ∧ u ≠ t := by
    intro w' u hu
    simp only [upd_apply] at hu
    split at hu
    · rename_i h1; subst h1; exact ⟨by simp [ho, hu], by rintro rfl; exact hnd.1 hu⟩
    · exact ⟨hu, by rintro rfl; exact ‹¬ w' = w› (od _ _ _ hu htw)⟩
  have hrt : t ∉ s.ready := fun hm => (rr t hm).2.2 w htw
  have act : ∀ u, u ≠ t → (upd s.ctl t x u).active = (s.ctl u).active := by intro u hu; rw [upd_ne _ _ hu]
  constructor
  · exact rn
  · intro u hu
    obtain ⟨a, b, d⟩ := rr u hu
    refine ⟨a, ?_, fun w' hm => d w' (hsub w' u hm).1⟩
    show (upd s.ctl t x u).active = true
    rw [act u (by rintro rfl; exact hrt hu)]; exact b
  · intro w' u hu
    obtain ⟨h1, h2⟩ := hsub w' u hu
    obtain ⟨a, b, d⟩ := oo w' u h1
    refine ⟨a, ?_, d⟩
    show (upd s.ctl t x u).active = true
    rw [act u h2]; exact b
  · intro w1 w2 u h1 h2; exact od w1 w2 u (hsub _ _ h1).1 (hsub _ _ h2).1
  · intro w'; simp only [upd_apply]; split
    · exact hnd.2
    · exact nd w'
  · intro u hu hx'
    have hut : u ≠ t := by rintro rfl; simp [hx] at hx'
    rcases al u hu (by rw [← act u hut]; exact hx') with h1 | ⟨w', h1⟩
    · exact Or.inl h1
    · right; refine ⟨w', ?_⟩; simp only [upd_apply]; split
      · rename_i h2; subst h2; rw [ho] at h1; simpa [hut] using h1
      · exact h1

/-- a task that does not act goes to the queue in state `x` -/
theorem l_enqueue {x : Ctl} (h : L W s) (ht : t < s.n) (ha : (s.ctl t).active = false) (hx : x.active = true) :
    L W { s with ctl := upd s.ctl t x, ready := s.ready ++ [t] } := by
  obtain ⟨rn, rr, oo, od, nd, al⟩ := h
  have h1 : t ∉ s.ready := by intro hm; have := (rr t hm).2.1; simp [ha] at this
  have h2 : ∀ w, t ∉ s.on w := by intro w hm; have := (oo w t hm).2.1; simp [ha] at this
  have act : ∀ u, u ≠ t → (upd s.ctl t x u).active = (s.ctl u).active := by intro u hu; rw [upd_ne _ _ hu]
  constructor
  · rw [List.nodup_append]; refine ⟨rn, by simp, ?_⟩; intro a hm b' hb; simp at hb; subst hb; rintro rfl; exact h1 hm
  · intro u hu
    simp only [List.mem_append, List.mem_singleton] at hu
    rcases hu with hu | rfl
    · obtain ⟨a, b, d⟩ := rr u hu
      refine ⟨a, ?_, d⟩
      show (upd s.ctl t x u).active = true
      rw [act u (by rintro rfl; exact h1 hu)]; exact b
    · exact ⟨ht, by simp [hx], h2⟩
  · intro w' u hu
    obtain ⟨a, b, d⟩ := oo w' u hu
    refine ⟨a, ?_, d⟩
    show (upd s.ctl t x u).active = true
    rw [act u (by rintro rfl; exact h2 w' hu)]; exact b
  · exact od
  · exact nd
  · intro u hu hx'
    simp only [List.mem_append, List.mem_singleton]
    by_cases hut : u = t
    · exact Or.inl (Or.inr hut)
    · rcases al u hu (by rw [← act u hut]; exact hx') with h3 | h3
      · exact Or.inl (Or.inl h3)
      · exact Or.inr h3

/-- task `t` acts on, in another state -/
theorem l_stay {x : Ctl} (h : L W s) (ht : t ∈ s.on w) (hx : x.active = true) : L W { s with ctl := upd s.ctl t x } := by
  obtain ⟨rn, rr, oo, od, nd, al⟩ := h
  obtain ⟨htn, hta, htw⟩ := oo w t ht
  have act : ∀ u, (upd s.ctl t x u).active = (s.ctl u).active := by intro u; simp only [upd_apply]; split <;> simp_all
  constructor
  · exact rn
  · intro u hu; obtain ⟨a, b, d⟩ := rr u hu; exact ⟨a, (act u).trans b, d⟩
  · intro w' u hu; obtain ⟨a, b, d⟩ := oo w' u hu; exact ⟨a, (act u).trans b, d⟩
  · exact od
  · exact nd
  · intro u hu hx'; exact al u hu ((act u).symm.trans hx')

theorem L.congr {s s' : St} (h : L W s) (h1 : s'.n = s.n) (h2 : s'.ctl = s.ctl) (h3 : s'.ready = s.ready) (h4 : s'.on = s.on) : L W s' := by
  obtain ⟨rn, rr, oo, od, nd, al⟩ := h
  constructor <;> (try simp only [h1, h2, h3, h4]) <;> assumption

/-- The body ends. -/
theorem all_finish {r : Res} {b : Body} {stk : List Nat} {s' : St} {e : List Ev} (h : All W s) (ho : s.on w = t :: stk) (hc : s.ctl t = .run b)
    (hs : finish s w t r = some (s', e)) : All W s' ∧ e = [.finished t r] ∧
      (s' = { s with fut := s'.fut, ctl := upd s.ctl t (.fin r), on := upd s.on w stk } ∧ (∀ p i k, p < s.n → (s.ctl p).aw = some (i, k) → (s.kids p)[i]? = some t → s'.ctl p = s.ctl p) ∨
       ∃ p i k, p < s.n ∧ s.ctl p = .wait i k ∧ (s.kids p)[i]? = some t ∧
        s' = { s with fut := s'.fut, waiter := s'.waiter, ctl := upd (upd s.ctl t (.fin r)) p (.woken i k), on := upd s.on w stk, ready := s.ready ++ [p] }) ∧
      ∀ c, (s'.fut c).got = (s.fut c).got := by
  obtain ⟨⟨kr, ku⟩, ⟨fi, j1, j2, j3⟩, hl⟩ := h
  have htw : t ∈ s.on w := by simp [ho]
  obtain ⟨ht, ha, hw⟩ := hl.oo w t htw
  have hfi := fi t ht
  rw [show (s.ctl t).res = none by rw [hc]; rfl] at hfi
  obtain ⟨f', q, h1, h2, h3, h4, h5⟩ := fi_produce hfi r
  simp only [finish, h1, ho, List.tail_cons] at hs
  simp only [Option.some.injEq, Prod.mk.injEq] at hs
  obtain ⟨rfl, rfl⟩ := hs
  have hL := l_leave (x := .fin r) hl ho rfl
  have hgot : ∀ c, (upd s.fut t f' c).got = (s.fut c).got := by intro c; simp only [upd_apply]; split <;> simp_all
  by_cases hp : (s.fut t).pc = .suspended
  · obtain ⟨p, i, k, p1, p2, p3, p4⟩ := j3 t ht hp
    obtain ⟨p5, p6⟩ := h4 hp
    have hpt : p ≠ t := by rintro rfl; simp [hc] at p3
    have hctl : upd s.ctl t (Ctl.fin r) p = .wait i k := by rw [upd_ne _ _ hpt, p3]
    simp only [p5, if_true, wake, p2, hctl]
    refine ⟨⟨⟨kr, ku⟩, ?_, ?_⟩, trivial, Or.inr ⟨p, i, k, p1, p3, p4, rfl⟩, hgot⟩
    · constructor <;> simp only
      · intro c hc'
        by_cases hct : c = t
        · subst c; rw [upd_same, upd_ne _ _ hpt.symm, upd_same]; exact h2
        · rw [upd_ne _ _ hct]
          by_cases hcp : c = p
          · subst c; rw [upd_same]; have := fi p p1; rw [p3] at this; exact this
          · rw [upd_ne _ _ hcp, upd_ne _ _ hct]; exact fi c hc'
      · intro u hu i' k' hau
        by_cases hup : u = p
        · subst u
          rw [upd_same] at hau ⊢
          simp only [Ctl.aw, Option.some.injEq, Prod.mk.injEq] at hau
          obtain ⟨rfl, rfl⟩ := hau
          exact ⟨t, p4, by rw [upd_same, p6]; rfl⟩
        · rw [upd_ne _ _ hup] at hau ⊢
          have hut : u ≠ t := by rintro rfl; simp [Ctl.aw] at hau
          rw [upd_ne _ _ hut] at hau ⊢
          obtain ⟨c, e1, e2⟩ := j1 u hu i' k' hau
          refine ⟨c, e1, ?_⟩
          rw [upd_ne _ _ (by rintro rfl; exact hup (ku u p hu p1 _ _ _ e1 p4).1)]; exact e2
      · intro c hc' hpc
        by_cases hct : c = t
        · subst c; exact ⟨p, i, k, p1, by simp [Ctl.aw], p4⟩
        · rw [upd_ne _ _ hct] at hpc
          obtain ⟨u, i', k', e1, e2, e3⟩ := j2 c hc' hpc
          have hut : u ≠ t := by rintro rfl; simp [hc, Ctl.aw] at e2
          have hup : u ≠ p := by
            rintro rfl
            simp only [p3, Ctl.aw, Option.some.injEq, Prod.mk.injEq] at e2
            obtain ⟨rfl, rfl⟩ := e2
            rw [p4] at e3; simp at e3; exact hct e3.symm
          refine ⟨u, i', k', e1, ?_, e3⟩
          rw [upd_ne _ _ hup, upd_ne _ _ hut]; exact e2
      · intro c hc' hpc
        by_cases hct : c = t
        · subst c; rw [upd_same, p6] at hpc; cases hpc
        · rw [upd_ne _ _ hct] at hpc
          obtain ⟨u, i', k', e1, e2, e3, e4⟩ := j3 c hc' hpc
          have hut : u ≠ t := by rintro rfl; simp [hc] at e3
          have hup : u ≠ p := by
            rintro rfl
            simp only [p3, Ctl.wait.injEq] at e3
            obtain ⟨rfl, rfl⟩ := e3
            rw [p4] at e4; simp at e4; exact hct e4.symm
          refine ⟨u, i', k', e1, by rw [upd_ne _ _ hct]; exact e2, ?_, e4⟩
          rw [upd_ne _ _ hup, upd_ne _ _ hut]; exact e3
    · exact L.congr (l_enqueue (t := p) (x := .woken i k) hL p1 (by simp only [hctl]; rfl) rfl) rfl rfl rfl rfl
  · obtain ⟨p5, p6⟩ := h5 hp
    simp only [p5, if_false]
    refine ⟨⟨⟨kr, ku⟩, ?_, L.congr hL rfl rfl rfl rfl⟩, trivial, Or.inl ⟨trivial, ?_⟩, hgot⟩
    · constructor <;> simp only
      · intro c hc'
        by_cases hct : c = t
        · subst c; rw [upd_same, upd_same]; exact h2
        · rw [upd_ne _ _ hct, upd_ne _ _ hct]; exact fi c hc'
      · intro u hu i' k' hau
        have hut : u ≠ t := by rintro rfl; simp [Ctl.aw] at hau
        rw [upd_ne _ _ hut] at hau ⊢
        obtain ⟨c, e1, e2⟩ := j1 u hu i' k' hau
        refine ⟨c, e1, ?_⟩
        rw [← e2]; simp only [upd_apply]; split
        · rename_i h6; subst h6; exact p6
        · rfl
      · intro c hc' hpc
        have : (s.fut c).pc ≠ .idle := by
          simp only [upd_apply] at hpc; split at hpc
          · rename_i h6; subst h6; rwa [p6] at hpc
          · exact hpc
        obtain ⟨u, i', k', e1, e2, e3⟩ := j2 c hc' this
        have hut : u ≠ t := by rintro rfl; simp [hc, Ctl.aw] at e2
        refine ⟨u, i', k', e1, ?_, e3⟩
        rw [upd_ne _ _ hut]; exact e2
      · intro c hc' hpc
        have hct : c ≠ t := by rintro rfl; rw [upd_same, p6] at hpc; exact hp hpc
        rw [upd_ne _ _ hct] at hpc
        obtain ⟨u, i', k', e1, e2, e3, e4⟩ := j3 c hc' hpc
        have hut : u ≠ t := by rintro rfl; simp [hc] at e3
        refine ⟨u, i', k', e1, e2, ?_, e4⟩
        rw [upd_ne _ _ hut]; exact e3
    · intro p i k _ hap _
      have : p ≠ t := by rintro rfl; simp [hc, Ctl.aw] at hap
      rw [upd_ne _ _ this]

theorem res_of_aw {x : Ctl} {y : Nat × (Res → Body)} (h : x.aw = some y) : x.res = none := by
  cases x <;> simp [Ctl.aw, Ctl.res] at h ⊢

/-- the awaiting task `t` and the future of its local task `c` move together -/
theorem j_await {i c : Nat} {k : Res → Body} {f' : Future.St} {x : Ctl} {wt : Nat → Option Nat} (hk : K s) (h : J s) (ht : t < s.n) (ha : (s.ctl t).aw = some (i, k))
    (hkc : (s.kids t)[i]? = some c) (hf : FI f' (s.ctl c).res) (hp : f'.pc = x.pc) (hx : x.aw = some (i, k) ∨ (x.aw = none ∧ x.pc = .idle)) (hr : x.res = none)
    (hwt : ∀ d, d ≠ c → wt d = s.waiter d) (hs : x.pc = .suspended → x = .wait i k ∧ wt c = some t) :
    J { s with fut := upd s.fut c f', ctl := upd s.ctl t x, waiter := wt } := by
  obtain ⟨kr, ku⟩ := hk
  obtain ⟨fi, j1, j2, j3⟩ := h
  have hcn := kr t ht i c hkc
  have hct : c ≠ t := by omega
  have hres : (s.ctl t).res = none := res_of_aw ha
  constructor <;> simp only
  · intro d hd
    by_cases h1 : d = c
    · subst d; rw [upd_same, upd_ne _ _ hct]; exact hf
    · rw [upd_ne _ _ h1]
      have := fi d hd
      simp only [upd_apply]; split
      · subst d; rw [hres] at this; rw [hr]; exact this
      · exact this
  · intro u hu i' k' hau
    by_cases hut : u = t
    · subst u
      rw [upd_same] at hau ⊢
      rcases hx with hx | ⟨hx, _⟩
      · rw [hx] at hau; simp only [Option.some.injEq, Prod.mk.injEq] at hau; obtain ⟨rfl, rfl⟩ := hau
        exact ⟨c, hkc, by rw [upd_same]; exact hp⟩
      · rw [hx] at hau; cases hau
    · rw [upd_ne _ _ hut] at hau ⊢
      obtain ⟨d, e1, e2⟩ := j1 u hu i' k' hau
      refine ⟨d, e1, ?_⟩
      rw [upd_ne _ _ (by rintro rfl; exact hut (ku u t hu ht _ _ _ e1 hkc).1)]; exact e2
  · intro d hd hpd
    by_cases h1 : d = c
    · subst d
      rw [upd_same] at hpd
      rcases hx with hx | ⟨_, hx⟩
      · exact ⟨t, i, k, ht, by rw [upd_same]; exact hx, hkc⟩
      · exact absurd (hp.trans hx) hpd
    · rw [upd_ne _ _ h1] at hpd
      obtain ⟨u, i', k', e1, e2, e3⟩ := j2 d hd hpd
      have hut : u ≠ t := by
        rintro rfl
        rw [ha] at e2; simp only [Option.some.injEq, Prod.mk.injEq] at e2; obtain ⟨rfl, rfl⟩ := e2
        rw [hkc] at e3; simp at e3; exact h1 e3.symm
      exact ⟨u, i', k', e1, by rw [upd_ne _ _ hut]; exact e2, e3⟩
  · intro d hd hpd
    by_cases h1 : d = c
    · subst d
      rw [upd_same, hp] at hpd
      obtain ⟨h2, h3⟩ := hs hpd
      exact ⟨t, i, k, ht, h3, by rw [upd_same]; exact h2, hkc⟩
    · rw [upd_ne _ _ h1] at hpd
      obtain ⟨u, i', k', e1, e2, e3, e4⟩ := j3 d hd hpd
      have hut : u ≠ t := by
        rintro rfl
        rw [e3] at ha; simp only [Ctl.aw, Option.some.injEq, Prod.mk.injEq] at ha; obtain ⟨rfl, rfl⟩ := ha
        rw [hkc] at e4; simp at e4; exact h1 e4.symm
      exact ⟨u, i', k', e1, by rw [hwt d h1]; exact e2, by rw [upd_ne _ _ hut]; exact e3, e4⟩

theorem all_test {i c : Nat} {k : Res → Body} {s' : St} {e : List Ev} (h : All W s) (ho : t ∈ s.on w) (hc : s.ctl t = .test i k) (hk : (s.kids t)[i]? = some c)
    (hs : test s t i c k = some (s', e)) : All W s' ∧ e = [] ∧ (∃ x, ((x = .got i k ∧ (s.ctl c).res ≠ none) ∨ (x = .susp i k ∧ (s.ctl c).res = none)) ∧
      s' = { s with fut := s'.fut, ctl := upd s.ctl t x }) ∧ ∀ d, (s'.fut d).got = (s.fut d).got := by
  obtain ⟨hK, hJ, hl⟩ := h
  obtain ⟨ht, _, _⟩ := hl.oo w t ho
  have hcn := (hK.kr t ht i c hk).2
  have haw : (s.ctl t).aw = some (i, k) := by rw [hc]; rfl
  have hidle : (s.fut c).pc = .idle := by
    obtain ⟨c', e1, e2⟩ := hJ.j1 t ht i k haw
    rw [hk] at e1; simp only [Option.some.injEq] at e1; subst e1
    rw [e2, hc]; rfl
  obtain ⟨f', q, h1, h2, h3, h4, h5⟩ := fi_await (hJ.fi c hcn) hidle
  simp only [test, h1, Option.some.injEq, Prod.mk.injEq] at hs
  obtain ⟨rfl, rfl⟩ := hs
  have hgot : ∀ d, (upd s.fut c f' d).got = (s.fut d).got := by intro d; simp only [upd_apply]; split <;> simp_all
  by_cases hres : (s.ctl c).res = none
  · have hp := h4 hres
    have hx : (if f'.pc = .resuming then Ctl.got i k else .susp i k) = .susp i k := by simp [hp]
    simp only [hx]
    exact ⟨⟨⟨hK.kr, hK.ku⟩, j_await hK hJ ht haw hk h2 (by rw [hp]; rfl) (Or.inl rfl) rfl (fun _ _ => rfl) (by simp [Ctl.pc]), L.congr (l_stay hl ho rfl) rfl rfl rfl rfl⟩, trivial,
      ⟨_, Or.inr ⟨rfl, hres⟩, rfl⟩, hgot⟩
  · have hp := h5 hres
    have hx : (if f'.pc = .resuming then Ctl.got i k else .susp i k) = .got i k := by simp [hp]
    simp only [hx]
    exact ⟨⟨⟨hK.kr, hK.ku⟩, j_await hK hJ ht haw hk h2 (by rw [hp]; rfl) (Or.inl rfl) rfl (fun _ _ => rfl) (by simp [Ctl.pc]), L.congr (l_stay hl ho rfl) rfl rfl rfl rfl⟩, trivial,
      ⟨_, Or.inl ⟨rfl, hres⟩, rfl⟩, hgot⟩

theorem all_suspend {i c : Nat} {k : Res → Body} {s' : St} {e : List Ev} {stk : List Nat} (h : All W s) (ho : s.on w = t :: stk) (hc : s.ctl t = .susp i k) (hk : (s.kids t)[i]? = some c)
    (hs : suspend s w t i c k = some (s', e)) : All W s' ∧ e = [] ∧
      (((s.ctl c).res = none ∧ s' = { s with fut := s'.fut, waiter := s'.waiter, ctl := upd s.ctl t (.wait i k), on := upd s.on w stk }) ∨
       ((s.ctl c).res ≠ none ∧ s' = { s with fut := s'.fut, ctl := upd s.ctl t (.woken i k), on := upd s.on w stk, ready := s.ready ++ [t] })) ∧
      ∀ d, (s'.fut d).got = (s.fut d).got := by
  obtain ⟨hK, hJ, hl⟩ := h
  obtain ⟨ht, _, _⟩ := hl.oo w t (by simp [ho])
  have hcn := (hK.kr t ht i c hk).2
  have haw : (s.ctl t).aw = some (i, k) := by rw [hc]; rfl
  have hidle : (s.fut c).pc = .suspending := by
    obtain ⟨c', e1, e2⟩ := hJ.j1 t ht i k haw
    rw [hk] at e1; simp only [Option.some.injEq] at e1; subst e1
    rw [e2, hc]; rfl
  obtain ⟨f', q, h1, h2, h3, h4, h5⟩ := fi_suspend (hJ.fi c hcn) hidle
  simp only [suspend, h1, ho, List.tail_cons, Option.some.injEq, Prod.mk.injEq] at hs
  obtain ⟨rfl, rfl⟩ := hs
  have hgot : ∀ d, (upd s.fut c f' d).got = (s.fut d).got := by intro d; simp only [upd_apply]; split <;> simp_all
  have hL := l_leave (x := .wait i k) hl ho rfl
  by_cases hres : (s.ctl c).res = none
  · obtain ⟨hp, hq⟩ := h4 hres
    simp only [hq, if_false]
    have hj := j_await (wt := upd s.waiter c (some t)) (x := .wait i k) hK hJ ht haw hk h2 (by rw [hp]; rfl) (Or.inl rfl) rfl (fun d hd => upd_ne _ _ hd) (by simp)
    exact ⟨⟨⟨hK.kr, hK.ku⟩, ⟨hj.fi, hj.j1, hj.j2, hj.j3⟩, L.congr hL rfl rfl rfl rfl⟩, trivial, Or.inl ⟨hres, trivial⟩, hgot⟩
  · obtain ⟨hp, hq⟩ := h5 hres
    simp only [hq, if_true]
    have hj := j_await (wt := s.waiter) (x := .woken i k) hK hJ ht haw hk h2 (by rw [hp]; rfl) (Or.inl rfl) rfl (fun _ _ => rfl) (by simp [Ctl.pc])
    refine ⟨⟨⟨hK.kr, hK.ku⟩, ⟨hj.fi, hj.j1, hj.j2, hj.j3⟩, ?_⟩, trivial, Or.inr ⟨hres, trivial⟩, hgot⟩
    refine L.congr (l_enqueue (t := t) (x := .woken i k) hL ht ?_ rfl) rfl ?_ rfl rfl
    · simp [Ctl.active]
    · simp only; funext u; simp only [upd_apply]; split <;> rfl

theorem all_resume {i c : Nat} {k : Res → Body} {s' : St} {e : List Ev} (h : All W s) (ho : t ∈ s.on w) (hc : s.ctl t = .woken i k ∨ s.ctl t = .got i k) (hk : (s.kids t)[i]? = some c)
    (hs : resume s t c k = some (s', e)) : All W s' ∧ ∃ r, s.ctl c = .fin r ∧ (s'.fut c).got = true ∧ (∀ d, d ≠ c → s'.fut d = s.fut d) ∧
      (((s.fut c).got = false ∧ e = [.got t c r] ∧ s' = { s with fut := s'.fut, ctl := upd s.ctl t (.run (k r)) }) ∨
       ((s.fut c).got = true ∧ e = [] ∧ s' = { s with fut := s'.fut, ctl := upd s.ctl t (.run (k (.exc .hasBeenGot))) })) := by
  obtain ⟨hK, hJ, hl⟩ := h
  obtain ⟨ht, _, _⟩ := hl.oo w t ho
  have hcn := (hK.kr t ht i c hk).2
  have haw : (s.ctl t).aw = some (i, k) := by rcases hc with hc | hc <;> rw [hc] <;> rfl
  have hpc : (s.fut c).pc = .woken ∨ (s.fut c).pc = .resuming := by
    obtain ⟨c', e1, e2⟩ := hJ.j1 t ht i k haw
    rw [hk] at e1; simp only [Option.some.injEq] at e1; subst e1
    rcases hc with hc | hc <;> rw [e2, hc] <;> simp [Ctl.pc]
  have hfi := hJ.fi c hcn
  obtain ⟨r, hr⟩ : ∃ r, (s.ctl c).res = some r := by
    cases hq : (s.ctl c).res with
    | some r => exact ⟨r, rfl⟩
    | none => have := (hfi.n1 hq).2.2.2.2; rcases hpc with h1 | h1 <;> simp [h1] at this
  have hfin : s.ctl c = .fin r := by cases hq : s.ctl c <;> simp_all [Ctl.res]
  rw [hr] at hfi
  obtain ⟨f', h1, h2, h3, h4⟩ := fi_resume hfi hpc
  have mk : ∀ b, All W { s with fut := upd s.fut c f', ctl := upd s.ctl t (.run b) } := fun b =>
    ⟨⟨hK.kr, hK.ku⟩, j_await (wt := s.waiter) hK hJ ht haw hk (by rw [hr]; exact h1) (by rw [h3]; rfl) (Or.inr ⟨rfl, rfl⟩) rfl (fun _ _ => rfl) (by simp [Ctl.pc]),
      L.congr (l_stay hl ho rfl) rfl rfl rfl rfl⟩
  have hoth : ∀ d, d ≠ c → upd s.fut c f' d = s.fut d := fun d hd => upd_ne _ _ hd
  simp only [resume, h4] at hs
  cases hg : (s.fut c).got with
  | true =>
    simp only [hg, if_true, Option.some.injEq, Prod.mk.injEq] at hs
    obtain ⟨rfl, rfl⟩ := hs
    exact ⟨mk _, r, hfin, by simp [h2], hoth, Or.inr ⟨rfl, rfl, rfl⟩⟩
  | false =>
    simp only [hg, Bool.false_eq_true, if_false, Option.some.injEq, Prod.mk.injEq, dec_enc] at hs
    obtain ⟨rfl, rfl⟩ := hs
    exact ⟨mk _, r, hfin, by simp [h2], hoth, Or.inl ⟨rfl, rfl, rfl⟩⟩

theorem j_quiet {x : Ctl} (h : J s) (h1 : (s.ctl t).aw = none) (h2 : (s.ctl t).res = none) (h3 : x.aw = none) (h4 : x.res = none) : J { s with ctl := upd s.ctl t x } := by
  obtain ⟨fi, j1, j2, j3⟩ := h
  constructor <;> simp only [upd_apply]
  · intro c hc; have := fi c hc
    split
    · subst c; rw [h4, ← h2]; exact this
    · exact this
  · intro u hu i k ha
    have : u ≠ t := by rintro rfl; rw [if_pos rfl, h3] at ha; cases ha
    rw [if_neg this] at ha ⊢; exact j1 u hu i k ha
  · intro c hc hp; obtain ⟨u, i, k, e1, e2, e3⟩ := j2 c hc hp
    refine ⟨u, i, k, e1, ?_, e3⟩
    rw [if_neg]; exact e2
    rintro rfl; rw [h1] at e2; cases e2
  · intro c hc hp; obtain ⟨p, i, k, e1, e2, e3, e4⟩ := j3 c hc hp
    refine ⟨p, i, k, e1, e2, ?_, e4⟩
    rw [if_neg]; exact e3
    rintro rfl; rw [e3] at h1; cases h1

theorem all_sleep {bd rest : Body} {u : Nat} {stk : List Nat} (h : All W s) (ho : s.on w = t :: stk) (hc : s.ctl t = .run bd) :
    All W { s with ctl := upd s.ctl t (.nap w u rest), on := upd s.on w stk } := by
  obtain ⟨hK, hJ, hl⟩ := h
  have hj := j_quiet (t := t) (x := .nap w u rest) hJ (by rw [hc]; rfl) (by rw [hc]; rfl) rfl rfl
  exact ⟨⟨hK.kr, hK.ku⟩, ⟨hj.fi, hj.j1, hj.j2, hj.j3⟩, l_leave hl ho rfl⟩

theorem all_fire {rest : Body} {w' u : Nat} (h : All W s) (ht : t < s.n) (hc : s.ctl t = .nap w' u rest) : All W { s with ctl := upd s.ctl t (.run rest), ready := s.ready ++ [t] } := by
  obtain ⟨hK, hJ, hl⟩ := h
  have hj := j_quiet (t := t) (x := .run rest) hJ (by rw [hc]; rfl) (by rw [hc]; rfl) rfl rfl
  exact ⟨⟨hK.kr, hK.ku⟩, ⟨hj.fi, hj.j1, hj.j2, hj.j3⟩, l_enqueue hl ht (by rw [hc]; rfl) rfl⟩

theorem all_yield {bd rest : Body} {stk : List Nat} (h : All W s) (ho : s.on w = t :: stk) (hc : s.ctl t = .run bd) :
    All W { s with ctl := upd s.ctl t (.run rest), on := upd s.on w stk, ready := s.ready ++ [t] } := by
  have ht := (h.l.oo w t (by simp [ho])).1
  have h1 := all_fire (t := t) (all_sleep (u := 0) (rest := rest) h ho hc) ht (upd_same ..)
  have e : upd (upd s.ctl t (.nap w 0 rest)) t (.run rest) = upd s.ctl t (.run rest) := by funext v; simp only [upd_apply]; split <;> rfl
  simp only [e] at h1
  exact h1

theorem all_tick (h : All W s) : All W { s with now := s.now + 1 } := by
  obtain ⟨hK, hJ, hl⟩ := h
  exact ⟨⟨hK.kr, hK.ku⟩, ⟨hJ.fi, hJ.j1, hJ.j2, hJ.j3⟩, L.congr hl rfl rfl rfl rfl⟩

end Verif.ForkJoin
