import Verif.Reinit.Model
/-!
# Invariants of the model `Reinit`
-/

namespace Verif.Reinit
open Machine

theorem up_append (a b : List Ev) (r : Option Nat) : up (a ++ b) r = up b (up a r) := by
  induction a generalizing r with
  | nil => rfl
  | cons e a ih => cases e <;> simp [up, ih]

theorem down_append (a b : List Ev) (r : Bool) : down (a ++ b) r = down b (down a r) := by
  induction a generalizing r with
  | nil => rfl
  | cons e a ih => cases e <;> simp [down, ih]

/-- Where tasks are. -/
structure Inv (s : St) : Prop where
  qnd : s.queue.Nodup
  ond : s.old.Nodup
  lnd : s.live.Nodup
  q : ∀ t, s.place t = .queued ↔ (t ∈ s.queue ∨ t ∈ s.old)
  qo : ∀ t, t ∈ s.queue → t ∉ s.old
  lv : ∀ t, t ∈ s.live ↔ s.place t = .running
  olr : s.old ≠ [] → s.pc = .replacing
  w : ∀ t u, u ∈ s.waiters t → s.place u = .waiting
  wu : ∀ t t' u, u ∈ s.waiters t → u ∈ s.waiters t' → t = t'
  wnd : ∀ t, (s.waiters t).Nodup
  fr : s.pc = .replacing ↔ s.ptr = .fresh
  nl : s.ptr = .null → s.queue = [] ∧ s.live = [] ∧ s.gen = 0
  st : s.ptr = .stopped → s.pc = .idle → s.live = []


/-- Only a task that is alive and not itself waiting is waited for (but for `x`). -/
def Wp (s : St) (x : Option Nat) : Prop :=
  ∀ t, some t ≠ x → s.waiters t ≠ [] → s.place t = .queued ∨ s.place t = .running

theorem enqueue_inv {s : St} {t : Nat} (h : Inv s) (hp : Wp s none) (hq : t ∉ s.queue) (ho : t ∉ s.old) (hl : t ∉ s.live)
    (hw : ∀ x, t ∉ s.waiters x) : Inv (enqueue s t).1 ∧ Wp (enqueue s t).1 none := by
  obtain ⟨qnd, ond, lnd, q, qo, lv, olr, w, wu, wnd, fr, nl, st⟩ := h
  unfold enqueue
  split
  · exact ⟨⟨qnd, ond, lnd, q, qo, lv, olr, w, wu, wnd, fr, nl, st⟩, hp⟩
  · exact ⟨⟨qnd, ond, lnd, q, qo, lv, olr, w, wu, wnd, fr, nl, st⟩, hp⟩
  · refine ⟨?_, ?_⟩
    · constructor <;> simp only [upd_apply] <;> grind
    · unfold Wp at *; simp only [upd_apply]; grind
  · exact ⟨⟨qnd, ond, lnd, q, qo, lv, olr, w, wu, wnd, fr, nl, st⟩, hp⟩

/-- As `enqueue_inv`, but t may already be waited for (the rest of the list it was the first of). -/
theorem enqueue_inv' {s : St} {t : Nat} (h : Inv s) (hp : Wp s (some t)) (hq : t ∉ s.queue) (ho : t ∉ s.old) (hl : t ∉ s.live)
    (hw : ∀ x, t ∉ s.waiters x) (hd : (enqueue s t).1.dead = false) : Inv (enqueue s t).1 ∧ Wp (enqueue s t).1 none := by
  obtain ⟨qnd, ond, lnd, q, qo, lv, olr, w, wu, wnd, fr, nl, st⟩ := h
  unfold enqueue at hd ⊢
  split at hd
  · simp at hd
  · simp at hd
  · rename_i hr
    simp only [hr]
    refine ⟨?_, ?_⟩
    · constructor <;> simp only [upd_apply] <;> grind
    · unfold Wp at *; simp only [upd_apply]; grind
  · simp at hd

theorem release_inv {s : St} {t : Nat} (h : Inv s) (hp : Wp s (some t)) (htg : s.place t = .gone) (hq : t ∉ s.queue) (ho : t ∉ s.old) (hl : t ∉ s.live)
    (hd : (release s t).1.dead = false) : Inv (release s t).1 ∧ Wp (release s t).1 none := by
  have h' := h
  obtain ⟨qnd, ond, lnd, q, qo, lv, olr, w, wu, wnd, fr, nl, st⟩ := h
  unfold release at hd ⊢
  split at hd
  · rename_i hw
    refine ⟨h', ?_⟩
    unfold Wp at *; grind
  · rename_i u rest hw
    have hu : s.place u = .waiting := w t u (by simp [hw])
    have hut : u ≠ t := by grind
    have hwu : s.waiters u = [] := by
      unfold Wp at hp
      have := hp u
      grind
    have hnd := wnd t
    rw [hw] at hnd
    refine enqueue_inv' ?_ ?_ ?_ ?_ ?_ ?_ hd
    · constructor <;> simp only [upd_apply] <;> grind
    · unfold Wp at *; simp only [upd_apply]; grind
    · simp only; grind
    · simp only; grind
    · simp only; grind
    · simp only [upd_apply]; grind

theorem step_inv {s s' : St} {l : Lbl} {e : List Ev} (h : Inv s) (hp : Wp s none) (hs : step s l = some (s', e)) (hd : s'.dead = false) :
    Inv s' ∧ Wp s' none := by
  have h' := h
  obtain ⟨qnd, ond, lnd, q, qo, lv, olr, w, wu, wnd, fr, nl, st⟩ := h
  unfold step at hs
  split at hs
  · exact absurd hs (by simp)
  rename_i hn
  have hn : s.dead = false := by simpa using hn
  cases l with
  | initCall =>
    simp only [stepLive] at hs
    split at hs <;> simp only [Option.some.injEq, Prod.mk.injEq, reduceCtorEq] at hs
    obtain ⟨rfl, rfl⟩ := hs
    refine ⟨?_, ?_⟩
    · constructor <;> grind
    · exact hp
  | initMake =>
    simp only [stepLive] at hs
    split at hs <;> simp only [Option.some.injEq, Prod.mk.injEq, reduceCtorEq] at hs
    obtain ⟨rfl, rfl⟩ := hs
    refine ⟨?_, ?_⟩
    · have : s.old = [] := by grind
      constructor <;> grind
    · exact hp
  | destroyOld =>
    simp only [stepLive] at hs
    split at hs <;> simp only [Option.some.injEq, Prod.mk.injEq, reduceCtorEq] at hs
    obtain ⟨rfl, rfl⟩ := hs
    rename_i t rest h1 h2 h3
    rw [h3] at ond
    refine release_inv ?_ ?_ (by simp) ?_ ?_ ?_ hd
    · constructor <;> simp only [upd_apply] <;> grind
    · unfold Wp at *; simp only [upd_apply]; grind
    · simp only; grind
    · simp only; grind
    · simp only; grind
  | initStart =>
    simp only [stepLive] at hs
    split at hs <;> simp only [Option.some.injEq, Prod.mk.injEq, reduceCtorEq] at hs
    obtain ⟨rfl, rfl⟩ := hs
    refine ⟨?_, ?_⟩
    · constructor <;> grind
    · exact hp
  | exitCall =>
    simp only [stepLive] at hs
    (repeat' split at hs) <;> simp only [Option.some.injEq, Prod.mk.injEq, reduceCtorEq] at hs <;> obtain ⟨rfl, rfl⟩ := hs
    · simp at hd
    · refine ⟨?_, hp⟩
      constructor <;> grind
  | stopped =>
    simp only [stepLive] at hs
    split at hs <;> simp only [Option.some.injEq, Prod.mk.injEq, reduceCtorEq] at hs
    obtain ⟨rfl, rfl⟩ := hs
    refine ⟨?_, hp⟩
    constructor <;> grind
  | sigint =>
    simp only [stepLive] at hs
    (repeat' split at hs) <;> simp only [Option.some.injEq, Prod.mk.injEq, reduceCtorEq] at hs <;> obtain ⟨rfl, rfl⟩ := hs
    · simp at hd
    · simp at hd
    · refine ⟨?_, hp⟩
      constructor <;> grind
    · refine ⟨?_, hp⟩
      constructor <;> grind
  | spawn t =>
    simp only [stepLive] at hs
    split at hs <;> simp only [Option.some.injEq, reduceCtorEq] at hs
    rename_i ht
    have := enqueue_inv h' hp (t := t) (by grind) (by grind) (by grind) (by grind)
    rw [hs] at this
    exact this
  | take t =>
    simp only [stepLive] at hs
    split at hs <;> simp only [Option.some.injEq, Prod.mk.injEq, reduceCtorEq] at hs
    obtain ⟨rfl, rfl⟩ := hs
    refine ⟨?_, ?_⟩
    · constructor <;> simp only [upd_apply] <;> grind
    · unfold Wp at *; simp only [upd_apply]; grind
  | yield t =>
    simp only [stepLive] at hs
    split at hs <;> simp only [Option.some.injEq, reduceCtorEq] at hs
    rename_i ht
    have hl : t ∉ s.live.erase t := by grind
    have := q t
    have hq : t ∉ s.queue := by grind
    have ho : t ∉ s.old := by grind
    unfold enqueue at hs
    split at hs <;> simp only [Prod.mk.injEq] at hs <;> obtain ⟨rfl, rfl⟩ := hs <;> (try (simp at hd; done))
    refine ⟨?_, ?_⟩
    · constructor <;> simp only [upd_apply] <;> grind
    · unfold Wp at *; simp only [upd_apply]; grind
  | block u t =>
    simp only [stepLive] at hs
    split at hs <;> simp only [Option.some.injEq, Prod.mk.injEq, reduceCtorEq] at hs
    obtain ⟨rfl, rfl⟩ := hs
    refine ⟨?_, ?_⟩
    · constructor <;> simp only [upd_apply] <;> grind
    · unfold Wp at *; simp only [upd_apply]; grind
  | finish t =>
    simp only [stepLive] at hs
    split at hs <;> simp only [Option.some.injEq, Prod.mk.injEq, reduceCtorEq] at hs
    obtain ⟨rfl, rfl⟩ := hs
    refine release_inv ?_ ?_ (by simp) ?_ ?_ ?_ hd
    · constructor <;> simp only [upd_apply] <;> grind
    · unfold Wp at *; simp only [upd_apply]; grind
    · simp only; grind
    · simp only; grind
    · simp only; grind

end Verif.Reinit
