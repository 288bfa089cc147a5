import Verif.Reinit.Inv
/-!
# The history and the state of the model `Reinit`
-/

namespace Verif.Reinit
open Machine

/-- What the history says about tasks. -/
structure Hist (s : St) (tr : List Ev) : Prop where
  gone : ∀ t, tr.count (.finished t) + tr.count (.dropped t) = if s.place t = .gone then 1 else 0
  le : ∀ t g, tr.count (.began t g) ≤ tr.count (.accepted t g)
  ge : ∀ t g, tr.count (.accepted t g) ≤ tr.count (.began t g) + 1
  qd : ∀ t, t ∈ s.queue → tr.count (.accepted t s.gen) = tr.count (.began t s.gen) + 1
  od : ∀ t g, t ∈ s.old → g + 1 = s.gen → tr.count (.accepted t g) = tr.count (.began t g) + 1
  wh : ∀ t g, tr.count (.began t g) < tr.count (.accepted t g) →
    (t ∈ s.queue ∧ g = s.gen) ∨ (t ∈ s.old ∧ g + 1 = s.gen) ∨ .dropped t ∈ tr

/-- What the history says about the runtime. -/
structure Glob (s : St) (tr : List Ev) : Prop where
  upr : ∀ g, up tr none = some g → s.ptr = .running ∧ s.gen = g ∧ s.pc = .idle
  dwn : down tr false = true → s.ptr = .stopped ∧ s.pc = .idle
  stp : s.pc = .stopping → s.ptr = .stopped
  sig : .sigint ∈ tr → s.called = true
  sgn : s.called = true → .sigint ∈ tr
  inst : s.ptr ≠ .null → s.installed = true
  hin : s.pc = .handler → s.installed = true
  dead : s.dead = true ↔ (.undefined ∈ tr ∨ .terminated ∈ tr)

theorem step_glob {s s' : St} {l : Lbl} {e tr : List Ev} (h : Inv s) (hg : Glob s tr) (hs : step s l = some (s', e)) : Glob s' (tr ++ e) := by
  obtain ⟨upr, dwn, stp, sig, sgn, inst, hin, dead⟩ := hg
  obtain ⟨qnd, ond, lnd, q, qo, lv, olr, w, wu, wnd, fr, nl, st⟩ := h
  unfold step at hs
  split at hs
  · exact absurd hs (by simp)
  rename_i hn
  have hn : s.dead = false := by simpa using hn
  cases l <;> simp only [stepLive, release, enqueue] at hs <;>
    (repeat' split at hs) <;>
    simp only [Option.some.injEq, Prod.mk.injEq, reduceCtorEq] at hs <;>
    (try obtain ⟨rfl, rfl⟩ := hs) <;>
    (constructor <;> simp only [up_append, up, down_append, down, List.mem_append, List.mem_cons, List.not_mem_nil, or_false, reduceCtorEq] <;> grind)

set_option maxHeartbeats 4000000 in
theorem step_hist {s s' : St} {l : Lbl} {e tr : List Ev} (h : Inv s) (hp : Wp s none) (hg : Hist s tr) (hs : step s l = some (s', e)) :
    Hist s' (tr ++ e) := by
  obtain ⟨gone, le, ge, qd, od, wh⟩ := hg
  obtain ⟨qnd, ond, lnd, q, qo, lv, olr, w, wu, wnd, fr, nl, st⟩ := h
  unfold step at hs
  split at hs
  · exact absurd hs (by simp)
  rename_i hn
  have hn : s.dead = false := by simpa using hn
  have hd : ∀ t, .dropped t ∈ tr ↔ 0 < tr.count (.dropped t) := fun t => by rw [List.count_pos_iff]
  cases l <;> simp only [stepLive, release, enqueue] at hs <;>
    (repeat' split at hs) <;>
    simp only [Option.some.injEq, Prod.mk.injEq, reduceCtorEq] at hs <;>
    (try obtain ⟨rfl, rfl⟩ := hs) <;>
    (constructor <;> simp only [upd_apply, List.count_append, List.count_cons, List.count_nil, List.mem_append, List.mem_cons, List.not_mem_nil,
      or_false, reduceCtorEq, Ev.dropped.injEq, Ev.finished.injEq, Ev.accepted.injEq, Ev.began.injEq, beq_iff_eq, hd] <;> grind)

/-- A task that no runtime has accepted is still a task object outside. -/
def Fresh (s : St) (tr : List Ev) : Prop := ∀ t, (∀ g, .accepted t g ∉ tr) → s.place t = .outside

theorem step_fresh {s s' : St} {l : Lbl} {e tr : List Ev} (h : Inv s) (hg : Fresh s tr) (hs : step s l = some (s', e)) : Fresh s' (tr ++ e) := by
  obtain ⟨qnd, ond, lnd, q, qo, lv, olr, w, wu, wnd, fr, nl, st⟩ := h
  intro t ht
  have hg := hg t (fun g hm => ht g (by simp [hm]))
  unfold step at hs
  split at hs
  · exact absurd hs (by simp)
  cases l <;> simp only [stepLive, release, enqueue] at hs <;>
    (repeat' split at hs) <;>
    simp only [Option.some.injEq, Prod.mk.injEq, reduceCtorEq] at hs <;>
    (try obtain ⟨rfl, rfl⟩ := hs) <;>
    (try simp only [List.mem_append, List.mem_cons, List.not_mem_nil, or_false, reduceCtorEq, Ev.accepted.injEq] at ht) <;>
    simp only [upd_apply] <;> grind

end Verif.Reinit
