import Verif.FileAppend.Model
import Verif.Mutex.Live
import Verif.Mutex.Uncontended
/-!
# C115: appends of several tasks to one file
-/

namespace Verif.FileAppend
open Machine

variable {s s' : St} {l : Lbl} {e tr : List Ev}

/-- the state of the lock's protocol that goes with a phase -/
def Fits : Phase → Mutex.Pc → Prop
  | .out, pc => pc = .idle
  | .asking, pc => pc = .idle
  | .locking, pc => pc = .missed ∨ pc = .queued ∨ pc = .woken
  | .writing _, pc => pc = .holding
  | .inflight _, pc => pc = .holding
  | .over _, pc => pc = .holding
  | .leaving, pc => pc ≠ .missed ∧ pc ≠ .queued ∧ pc ≠ .woken

/-- after the lock has been entered -/
def Phase.begun : Phase → Bool
  | .writing _ | .inflight _ | .over _ | .leaving => true
  | _ => false

/-- between two writes -/
def Phase.busy : Phase → Bool
  | .writing _ | .inflight _ => true
  | _ => false

theorem step_cases (hs : step s l = some (s', e)) :
    (s' = { s with ub := true } ∧ e = [.undefined] ∧ s.ub = false ∧ s.alive = false ∧ l.uses = true ∧ ∃ p, stepLive s l = some p) ∨
    (stepLive s l = some (s', e) ∧ s.ub = false ∧ (l.uses = true → s.alive = true)) := by
  simp only [step] at hs
  split at hs
  · cases hs
  · rename_i hu
    split at hs
    · cases hs
    · rename_i p hp
      split at hs
      · rename_i hg
        simp only [Option.some.injEq, Prod.mk.injEq] at hs
        obtain ⟨rfl, rfl⟩ := hs
        simp only [Bool.and_eq_true, Bool.not_eq_true'] at hg
        exact Or.inl ⟨rfl, rfl, by simpa using hu, hg.2, hg.1, p, hp⟩
      · rename_i hg
        simp only [Option.some.injEq] at hs
        subst hs
        refine Or.inr ⟨hp, by simpa using hu, ?_⟩
        intro h; simp only [h, Bool.true_and, Bool.not_eq_true', Bool.not_eq_false] at hg; simpa using hg

/-- A step of the lock: the phases fit, and no phase other than asking/locking changes. -/
theorem lock_fits {ml : Mutex.Lbl} {m' : Mutex.St} {em : List Mutex.Ev} {mt : List Mutex.Ev} (hi : Mutex.Inv s.m mt)
    (hf : ∀ t, Fits (s.phase t) (s.m.pc t)) (hm : may s ml = true) (hs : Mutex.step false s.m ml = some (m', em)) :
    (∀ t, Fits (entered s em t) (m'.pc t)) ∧
      ∀ t, entered s em t = s.phase t ∨ (s.phase t = .asking ∨ s.phase t = .locking) ∧ (entered s em t = .locking ∨ entered s em t = .writing (s.size t)) := by
  have hq := hi.queued
  have hrq := hi.relQ
  clear hi
  cases ml with
  | wake t =>
    simp only [Mutex.step] at hs
    split at hs
    · rename_i u hu
      simp only [Option.some.injEq, Prod.mk.injEq] at hs
      obtain ⟨rfl, rfl⟩ := hs
      refine ⟨?_, fun _ => Or.inl rfl⟩
      intro v
      have h1 := hf v; have h2 := hf t; have h3 := hf u; have h4 := (hrq t u hu).1
      simp only [entered, upd_apply]
      cases hp : s.phase v <;> simp only [hp, Fits] at h1 ⊢ <;> split <;> (try split) <;> grind [Fits]
    · cases hs
  | _ =>
    simp only [Mutex.step] at hs
    simp only [may, decide_eq_true_eq, reduceCtorEq, Bool.false_eq_true] at hm
    all_goals
      (repeat' split at hs) <;> simp only [Option.some.injEq, Prod.mk.injEq, reduceCtorEq] at hs <;> obtain ⟨rfl, rfl⟩ := hs <;>
      refine ⟨fun v => ?_, fun v => ?_⟩ <;> simp only [entered, upd_apply] <;> have h1 := hf v <;>
      cases hp : s.phase v <;> simp only [hp, Fits] at h1 ⊢ <;> grind [Fits]

structure I (s : St) (tr : List Ev) : Prop where
  mi : ∃ mt, Mutex.Inv s.m mt
  ph : ∀ t, Fits (s.phase t) (s.m.pc t)
  wr : ∀ t k, Ev.wrote t k ∈ tr → (s.phase t).begun = true
  bl : ∀ t, (s.phase t).busy = true → ∀ p q a, p ++ Ev.wrote t a :: q = tr → ∀ u c, Ev.wrote u c ∈ q → u = t
  co : Contiguous tr

theorem I.one {tr : List Ev} (h : I s tr) {t u : Nat} (ht : (s.phase t).busy = true) (hu : (s.phase u).busy = true) : t = u := by
  obtain ⟨mt, hi⟩ := h.mi
  have h1 := h.ph t; have h2 := h.ph u
  refine hi.uniq t u ?_ ?_
  · cases hp : s.phase t <;> simp_all [Fits, Phase.busy, Mutex.Pc.owns]
  · cases hp : s.phase u <;> simp_all [Fits, Phase.busy, Mutex.Pc.owns]

theorem concat_eq_split {α : Type} {p q : List α} {x y : α} {tr : List α} (h : p ++ x :: q = tr ++ [y]) : (q = [] ∧ p = tr ∧ x = y) ∨ ∃ q', q = q' ++ [y] ∧ p ++ x :: q' = tr := by
  rcases List.eq_nil_or_concat q with rfl | ⟨q', z, rfl⟩
  · have := List.append_inj' h rfl
    exact Or.inl ⟨rfl, this.1, by simpa using this.2⟩
  · have h' : (p ++ x :: q') ++ [z] = tr ++ [y] := by simpa using h
    have := List.append_inj' h' rfl
    have h2 : z = y := by simpa using this.2
    exact Or.inr ⟨q', by rw [h2, List.concat_eq_append], this.1⟩

theorem contiguous_concat {tr : List Ev} {y : Ev} (h : Contiguous tr) (hy : ∀ t b, y = .wrote t b → ∀ p q a, p ++ Ev.wrote t a :: q = tr → ∀ u c, Ev.wrote u c ∈ q → u = t) : Contiguous (tr ++ [y]) := by
  intro p q r t a b heq u c hu
  have h1 : (p ++ Ev.wrote t a :: q) ++ Ev.wrote t b :: r = tr ++ [y] := by rw [← heq]; simp
  rcases concat_eq_split h1 with ⟨-, h2, h3⟩ | ⟨r', -, h2⟩
  · exact hy t b h3.symm p q a h2 u c hu
  · exact h p q r' t a b (by rw [← h2]; simp) u c hu

/-- an event that is not a write -/
theorem I.append {tr : List Ev} {y : Ev} (h : I s tr) (hy : ∀ t b, y ≠ .wrote t b) : I s (tr ++ [y]) := by
  refine ⟨h.mi, h.ph, ?_, ?_, contiguous_concat h.co (fun t b hb => absurd hb (hy t b))⟩
  · intro t k hk
    rw [List.mem_append, List.mem_singleton] at hk
    rcases hk with hk | hk
    · exact h.wr t k hk
    · exact absurd hk.symm (hy t k)
  · intro t ht p q a heq u c hu
    rcases concat_eq_split heq with ⟨rfl, -, -⟩ | ⟨q', rfl, h2⟩
    · cases hu
    · rw [List.mem_append, List.mem_singleton] at hu
      rcases hu with hu | hu
      · exact h.bl t ht p q' a h2 u c hu
      · exact absurd hu.symm (hy u c)

theorem I.appendL {tr : List Ev} (h : I s tr) (ys : List Ev) : (∀ y ∈ ys, ∀ t b, y ≠ .wrote t b) → I s (tr ++ ys) := by
  induction ys generalizing tr with
  | nil => intro _; rw [List.append_nil]; exact h
  | cons y ys ih =>
    intro hy
    rw [List.append_cons]
    exact ih (h.append (hy y List.mem_cons_self)) (fun z hz => hy z (List.mem_cons_of_mem _ hz))

theorem gone_no_write (em : List Mutex.Ev) : ∀ y ∈ gone em, ∀ t b, y ≠ .wrote t b := by
  intro y hy t b
  simp only [gone, List.mem_filterMap] at hy
  obtain ⟨x, -, hx⟩ := hy
  split at hx <;> simp only [Option.some.injEq, reduceCtorEq] at hx
  subst hx; simp

/-- a change of the phase of one call -/
theorem I.setPhase {tr : List Ev} (h : I s tr) (t : Nat) (f : Phase) (h1 : Fits f (s.m.pc t)) (h2 : (s.phase t).begun = true → f.begun = true)
    (h3 : f.busy = true → (s.phase t).busy = true ∨ (s.phase t).begun = false) (s' : St) (hp : s'.phase = upd s.phase t f) (hm : s'.m = s.m) : I s' tr := by
  refine ⟨hm ▸ h.mi, ?_, ?_, ?_, h.co⟩
  · intro u
    rw [hp, hm, upd_apply]
    split
    · subst u; exact h1
    · exact h.ph u
  · intro u k hk
    rw [hp, upd_apply]
    split
    · subst u; exact h2 (h.wr t k hk)
    · exact h.wr u k hk
  · intro u hu p q a heq
    rw [hp, upd_apply] at hu
    split at hu
    · subst u
      rcases h3 hu with h4 | h4
      · exact h.bl t h4 p q a heq
      · have := h.wr t a (by rw [← heq]; simp)
        rw [h4] at this; cases this
    · exact h.bl u hu p q a heq

theorem inv_step (h : I s tr) (hs : step s l = some (s', e)) : I s' (tr ++ e) := by
  rcases step_cases hs with ⟨rfl, rfl, -⟩ | ⟨h1, -⟩
  · exact I.append (y := .undefined) ⟨h.mi, h.ph, h.wr, h.bl, h.co⟩ (by simp)
  clear hs
  cases l with
  | call t n =>
    simp only [stepLive] at h1
    split at h1
    · rename_i hg
      simp only [Option.some.injEq, Prod.mk.injEq] at h1
      obtain ⟨rfl, rfl⟩ := h1
      have := h.ph t
      exact I.append (h.setPhase t .asking (by simpa [hg.1, Fits] using this) (by simp [hg.1, Phase.begun]) (by simp [Phase.busy]) _ rfl rfl) (by simp)
    · cases h1
  | lock ml =>
    simp only [stepLive] at h1
    split at h1
    · rename_i hg
      split at h1
      · rename_i m' em hm
        simp only [Option.some.injEq, Prod.mk.injEq] at h1
        obtain ⟨rfl, rfl⟩ := h1
        obtain ⟨mt, hi⟩ := h.mi
        obtain ⟨g1, g2⟩ := lock_fits hi h.ph hg hm
        refine I.appendL ?_ _ (gone_no_write em)
        refine ⟨⟨_, Mutex.inv_step false _ _ _ _ _ hi hm⟩, g1, ?_, ?_, h.co⟩
        · intro t k hk
          have := h.wr t k hk
          rcases g2 t with g | ⟨g, -⟩
          · show (entered s em t).begun = true
            rw [g]; exact this
          · rcases g with g | g <;> rw [g] at this <;> cases this
        · intro t ht p q a heq
          rcases g2 t with g | ⟨g, -⟩
          · simp only [g] at ht; exact h.bl t ht p q a heq
          · have := h.wr t a (by rw [← heq]; simp)
            rcases g with g | g <;> rw [g] at this <;> cases this
      · cases h1
    · cases h1
  | test t =>
    simp only [stepLive] at h1
    split at h1
    · rename_i left hp
      simp only [Option.some.injEq, Prod.mk.injEq] at h1
      obtain ⟨rfl, rfl⟩ := h1
      rw [List.append_nil]
      have := h.ph t
      rw [hp] at this
      refine h.setPhase t _ ?_ ?_ ?_ _ rfl rfl
      · split <;> exact this
      · split <;> simp [Phase.begun]
      · simp [hp, Phase.busy]
    · cases h1
  | done t k =>
    simp only [stepLive] at h1
    split at h1
    · rename_i left hp
      split at h1
      · simp only [Option.some.injEq, Prod.mk.injEq] at h1
        obtain ⟨rfl, rfl⟩ := h1
        have hph := h.ph t
        rw [hp] at hph
        have hb : (s.phase t).busy = true := by rw [hp]; rfl
        have h2 := h.setPhase t (.writing (sub64 left k)) hph (fun _ => rfl) (fun _ => Or.inl hb) { s with phase := upd s.phase t (.writing (sub64 left k)) } rfl rfl
        refine ⟨h2.mi, h2.ph, ?_, ?_, contiguous_concat h.co ?_⟩
        · intro u c hu
          rw [List.mem_append, List.mem_singleton] at hu
          rcases hu with hu | hu
          · exact h2.wr u c hu
          · simp only [Ev.wrote.injEq] at hu
            obtain ⟨rfl, rfl⟩ := hu
            simp [Phase.begun]
        · intro u hu p q a heq v c hv
          have hut : u = t := by
            by_cases hq : u = t
            · exact hq
            · simp only [upd_apply, if_neg hq] at hu
              exact h.one hu hb
          subst u
          rcases concat_eq_split heq with ⟨rfl, -, -⟩ | ⟨q', rfl, h3⟩
          · cases hv
          · rw [List.mem_append, List.mem_singleton] at hv
            rcases hv with hv | hv
            · exact h.bl t hb p q' a h3 v c hv
            · simp only [Ev.wrote.injEq] at hv; exact hv.1
        · intro u b hub p q a heq
          simp only [Ev.wrote.injEq] at hub
          obtain ⟨rfl, rfl⟩ := hub
          exact h.bl t hb p q a heq
      · cases h1
    · cases h1
  | fail t =>
    simp only [stepLive] at h1
    split at h1
    · rename_i left hp
      simp only [Option.some.injEq, Prod.mk.injEq] at h1
      obtain ⟨rfl, rfl⟩ := h1
      have := h.ph t
      rw [hp] at this
      exact I.append (h.setPhase t (.over false) this (fun _ => rfl) (by simp [Phase.busy]) _ rfl rfl) (by simp)
    · cases h1
  | deliver t =>
    simp only [stepLive] at h1
    split at h1
    · rename_i ok hp
      simp only [Option.some.injEq, Prod.mk.injEq] at h1
      obtain ⟨rfl, rfl⟩ := h1
      have := h.ph t
      rw [hp] at this
      exact I.append (h.setPhase t .leaving (by simp only [Fits] at this ⊢; rw [this]; simp) (fun _ => rfl) (by simp [Phase.busy]) _ rfl rfl) (by simp)
    · cases h1
  | destroy =>
    simp only [stepLive] at h1
    split at h1
    · simp only [Option.some.injEq, Prod.mk.injEq] at h1
      obtain ⟨rfl, rfl⟩ := h1
      exact I.append (y := .destroyed) ⟨h.mi, h.ph, h.wr, h.bl, h.co⟩ (by simp)
    · cases h1

theorem inv_init : I init [] := by
  refine ⟨⟨[], Mutex.inv_init⟩, ?_, by simp, ?_, ?_⟩
  · intro t; simp [init, Mutex.init, Fits]
  · intro t ht; simp [init, Phase.busy] at ht
  · intro p q r t a b h; simp at h

theorem reaches_inv (h : machine.Reaches s tr) : I s tr :=
  Reaches.inv (M := machine) I inv_init (fun _ _ _ _ _ hI hs => inv_step hI hs) h

/-- **C115**: whatever the calls and their interleaving, the bytes of one append are together in the file, however many writes they take. -/
theorem appends_contiguous (h : machine.Reaches s tr) : Contiguous tr := (reaches_inv h).co

end Verif.FileAppend
