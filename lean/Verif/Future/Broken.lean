import Verif.Future.Props
/-!
# C95: a task that is destroyed without a result

The frame of a task (and with it its promise) may be destroyed before the task has produced its result: by quick_stop() or the
end of the runtime with queued tasks, by the end of an event loop or a mutex that held the suspended task (C84).  A user who waits for
the result expects to be told (as std::future does with broken_promise), not to wait for ever.
-/

namespace Verif.Future

/-- Events: those of the future, and the destruction of the promise before there is a result. -/
inductive BEv where
  | ev (e : Ev)
  | abandoned
  deriving DecidableEq, Repr

structure BSt where
  fut : St
  gone : Bool

inductive BLbl where
  | base (l : Lbl)
  | abandon           -- ~promise (future.h 177-219, implicit): drops its reference to the shared state and does nothing else
  deriving DecidableEq, Repr

def Lbl.isProduce : Lbl → Bool
  | .produce _ => true
  | _ => false

/-- The machine of `Verif.Future.Model` in which the promise may be destroyed instead of fulfilled.  The shared state (future.h 31-72)
is not told. -/
def brokenStep (s : BSt) : BLbl → Option (BSt × List BEv)
  | .base l =>
    if l.isProduce = true ∧ s.gone = true then none
    else match step s.fut l with
      | some (f, e) => some ({ s with fut := f }, e.map .ev)
      | none => none
  | .abandon => if s.fut.done = false ∧ s.gone = false then some ({ s with gone := true }, [.abandoned]) else none

def broken : Machine BSt BLbl BEv := { init := ⟨init, false⟩, step := brokenStep }

/-- Nothing is there yet. -/
structure Blank (f : St) : Prop where
  ff : f.ff = none
  fut : f.fut = none
  got : f.got = false
  done : f.done = false
  pc : f.pc ≠ .woken ∧ f.pc ≠ .resuming ∧ f.pc ≠ .blocked true

/-- What may happen on a future whose promise is gone. -/
def isVain : Ev → Prop
  | .readyRet b => b = false
  | .nonblkRet x => x = .outOfRange
  | .awaitCalled | .suspended | .getCalled | .spurious => True
  | .getRet x => x = .outOfRange
  | _ => False

theorem done_mono {f f' : St} {l : Lbl} {e : List Ev} (h : f.done = true) (hs : step f l = some (f', e)) : f'.done = true := by
  obtain ⟨ff, fut, got, parked, done, pc⟩ := f
  dsimp only at h; subst h
  cases l <;> cases fut <;> cases ff <;> cases got <;> simp [step, pull, nonblk] at hs <;> (try (split at hs)) <;> grind

theorem blank_step {f f' : St} {l : Lbl} {e : List Ev} (h : Blank f) (hs : step f l = some (f', e)) :
    (l.isProduce = true ∧ f'.done = true) ∨
    (l.isProduce = false ∧ Blank f' ∧ (∀ x ∈ e, isVain x) ∧ ((∃ x, .getRet x ∈ e) → f.pc = .getFetch) ∧
      (f'.pc = .getFetch → f.pc = .getFetch ∨ .spurious ∈ e)) := by
  obtain ⟨ff, fut, got, parked, done, pc⟩ := f
  obtain ⟨h1, h2, h3, h4, h5, h6, h7⟩ := h
  dsimp only at h1 h2 h3 h4 h5 h6 h7
  subst h1 h2 h3 h4
  cases l with
  | produce r =>
    left
    refine ⟨rfl, ?_⟩
    simp only [step] at hs
    cases parked <;> cases pc <;> simp at hs <;> (obtain ⟨rfl, -⟩ := hs; rfl)
  | _ =>
    right
    refine ⟨rfl, ?_⟩
    cases pc <;> simp [step, pull, nonblk] at hs h5 h6 h7 <;>
      first
        | (obtain ⟨rfl, rfl⟩ := hs
           refine ⟨⟨rfl, rfl, rfl, rfl, by simp_all⟩, ?_⟩
           simp [isVain])
        | (obtain ⟨hp, rfl, rfl⟩ := hs
           simp_all)

/-- The invariant: the promise is destroyed only without a result. -/
structure BInv (s : BSt) (tr : List BEv) : Prop where
  fut : s.fut.done = false → Blank s.fut
  gone : s.gone = true → s.fut.done = false
  iff : s.gone = true ↔ .abandoned ∈ tr
  get : s.fut.done = false → .ev .spurious ∉ tr → s.fut.pc ≠ .getFetch

theorem base_step {s : BSt} {l : Lbl} {s' : BSt} {e : List BEv} (hs : broken.step s (.base l) = some (s', e)) :
    ∃ f ev, step s.fut l = some (f, ev) ∧ s' = { s with fut := f } ∧ e = ev.map .ev ∧ (s.gone = true → l.isProduce = false) := by
  simp only [broken, brokenStep] at hs
  split at hs
  · simp at hs
  · rename_i hg
    split at hs
    · rename_i f ev hst
      simp only [Option.some.injEq, Prod.mk.injEq] at hs
      exact ⟨f, ev, hst, hs.1.symm, hs.2.symm, fun h => by cases hl : l.isProduce <;> simp_all⟩
    · simp at hs

theorem binv_step {s : BSt} {tr : List BEv} {l : BLbl} {s' : BSt} {e : List BEv} (h : BInv s tr) (hs : broken.step s l = some (s', e)) :
    BInv s' (tr ++ e) := by
  obtain ⟨h1, h2, h3, h4⟩ := h
  cases l with
  | abandon =>
    simp only [broken, brokenStep] at hs
    split at hs
    · rename_i hc
      simp only [Option.some.injEq, Prod.mk.injEq] at hs
      obtain ⟨rfl, rfl⟩ := hs
      exact ⟨h1, fun _ => hc.1, by simp, fun hd hn => h4 hd (by simpa using hn)⟩
    · simp at hs
  | base l =>
    obtain ⟨f, ev, hst, rfl, rfl, hg⟩ := base_step hs
    have hmem : BEv.abandoned ∉ ev.map BEv.ev := by simp
    have hd0 : f.done = false → s.fut.done = false := fun hf => by
      cases hd : s.fut.done with
      | false => rfl
      | true => rw [done_mono hd hst] at hf; exact hf
    refine ⟨?_, ?_, by rw [List.mem_append]; exact ⟨fun h => Or.inl (h3.1 h), fun h => h3.2 (h.resolve_right hmem)⟩, ?_⟩
    · intro hd
      rcases blank_step (h1 (hd0 hd)) hst with ⟨-, h⟩ | ⟨-, h, -⟩
      · dsimp only at hd; rw [h] at hd; simp at hd
      · exact h
    · intro hgone
      rcases blank_step (h1 (h2 hgone)) hst with ⟨h, -⟩ | ⟨-, h, -⟩
      · rw [hg hgone] at h; simp at h
      · exact h.done
    · intro hd hn
      rw [List.mem_append, not_or] at hn
      rcases blank_step (h1 (hd0 hd)) hst with ⟨-, h⟩ | ⟨-, -, -, -, h⟩
      · dsimp only at hd; rw [h] at hd; simp at hd
      · intro hp
        rcases h hp with h | h
        · exact h4 (hd0 hd) hn.1 h
        · exact hn.2 (List.mem_map.2 ⟨_, h, rfl⟩)

theorem binv_of_reaches {s : BSt} {tr : List BEv} (h : broken.Reaches s tr) : BInv s tr :=
  Machine.Reaches.inv (M := broken) BInv
    ⟨fun _ => ⟨rfl, rfl, rfl, rfl, by simp [broken, init]⟩, by simp [broken], by simp [broken], by simp [broken, init]⟩
    (fun _ _ _ _ _ hi hs => binv_step hi hs) h

/-- The promise is gone and nothing is there. -/
def Empty (s : BSt) : Prop := s.gone = true ∧ Blank s.fut

theorem empty_of_reaches {s : BSt} {tr : List BEv} (h : broken.Reaches s tr) (ha : .abandoned ∈ tr) : Empty s := by
  obtain ⟨h1, h2, h3, -⟩ := binv_of_reaches h
  exact ⟨h3.2 ha, h1 (h2 (h3.2 ha))⟩

theorem empty_step {s : BSt} {l : BLbl} {s' : BSt} {e : List BEv} (h : Empty s) (hs : broken.step s l = some (s', e)) :
    Empty s' ∧ (∀ x ∈ e, ∃ y, x = .ev y ∧ isVain y) ∧ ((∃ x, .ev (.getRet x) ∈ e) → s.fut.pc = .getFetch) ∧
      (s'.fut.pc = .getFetch → s.fut.pc = .getFetch ∨ .ev .spurious ∈ e) := by
  obtain ⟨h1, h2⟩ := h
  cases l with
  | abandon => simp [broken, brokenStep, h1] at hs
  | base l =>
    obtain ⟨f, ev, hst, rfl, rfl, hg⟩ := base_step hs
    rcases blank_step h2 hst with ⟨h, -⟩ | ⟨-, a, b, c, d⟩
    · rw [hg h1] at h; simp at h
    · refine ⟨⟨h1, a⟩, ?_, ?_, ?_⟩
      · intro x hx
        obtain ⟨y, hy, rfl⟩ := List.mem_map.1 hx
        exact ⟨y, rfl, b y hy⟩
      · rintro ⟨x, hx⟩
        exact c ⟨x, by simpa using hx⟩
      · intro hp
        exact (d hp).imp id fun h => List.mem_map.2 ⟨_, h, rfl⟩

theorem empty_run {ls : List BLbl} {s s' : BSt} {e : List BEv} (h : Empty s) (hr : broken.runFrom s ls = some (s', e)) :
    (∀ x ∈ e, ∃ y, x = .ev y ∧ isVain y) ∧ (s.fut.pc ≠ .getFetch → .ev .spurious ∉ e → ∀ x, .ev (.getRet x) ∉ e) := by
  induction ls generalizing s e with
  | nil =>
    simp only [Machine.runFrom, Option.some.injEq, Prod.mk.injEq] at hr
    obtain ⟨rfl, rfl⟩ := hr
    simp
  | cons l ls ih =>
    simp only [Machine.runFrom] at hr
    cases h1 : broken.step s l with
    | none => simp [h1] at hr
    | some p =>
      obtain ⟨s1, e1⟩ := p
      simp only [h1] at hr
      cases h2 : broken.runFrom s1 ls with
      | none => simp [h2] at hr
      | some q =>
        obtain ⟨s2, e2⟩ := q
        simp only [h2, Option.some.injEq, Prod.mk.injEq] at hr
        obtain ⟨rfl, rfl⟩ := hr
        obtain ⟨a, b, c, d⟩ := empty_step h h1
        obtain ⟨i, j⟩ := ih a h2
        refine ⟨fun x hx => (List.mem_append.1 hx).elim (b x) (i x), fun hp hsp x hx => ?_⟩
        rw [List.mem_append, not_or] at hsp
        rcases List.mem_append.1 hx with hx | hx
        · exact hp (c ⟨x, hx⟩)
        · exact j (fun hh => (d hh).elim hp hsp.1) hsp.2 x hx

/-- **C95, the part that holds.**  After the promise is gone nobody is told a result: ready() answers false, get_nonblk() throws
out_of_range, co_await does not end, and a get() that ends (only after a spurious wake-up) throws out_of_range. -/
theorem broken_no_false_result_partial (s : BSt) (tr : List BEv) (h : broken.Reaches s tr) (ha : .abandoned ∈ tr) (ls : List BLbl) (s' : BSt)
    (e : List BEv) (hr : broken.runFrom s ls = some (s', e)) :
    (∀ b, .ev (.readyRet b) ∈ e → b = false) ∧ (∀ x, .ev (.nonblkRet x) ∈ e → x = .outOfRange) ∧ (∀ x, .ev (.getRet x) ∈ e → x = .outOfRange) := by
  have := (empty_run (empty_of_reaches h ha) hr).1
  refine ⟨fun b hb => ?_, fun x hx => ?_, fun x hx => ?_⟩
  · obtain ⟨y, hy, hv⟩ := this _ hb; cases hy; exact hv
  · obtain ⟨y, hy, hv⟩ := this _ hx; cases hy; exact hv
  · obtain ⟨y, hy, hv⟩ := this _ hx; cases hy; exact hv

/-- **C95, what fails.**  In every execution in which the promise is destroyed without a result, whatever happens afterwards: no co_await of
the future ever ends, the awaiting task is not woken, and no get() that is called afterwards, or is blocked at that time, ever returns or throws, unless the
condition variable wakes up spuriously. -/
theorem broken_promise_refuted (s : BSt) (tr : List BEv) (h : broken.Reaches s tr) (ha : .abandoned ∈ tr) (ls : List BLbl) (s' : BSt) (e : List BEv)
    (hr : broken.runFrom s ls = some (s', e)) :
    (∀ x, .ev (.awaitRet x) ∉ e) ∧ .ev .woken ∉ e ∧
    (.ev .spurious ∉ tr → .ev .spurious ∉ e → ∀ x, .ev (.getRet x) ∉ e) := by
  have he := empty_of_reaches h ha
  have h1 := (empty_run he hr).1
  refine ⟨fun x hx => ?_, fun hx => ?_, fun ht hsp => (empty_run he hr).2 ((binv_of_reaches h).get he.2.done ht) hsp⟩
  · obtain ⟨y, hy, hv⟩ := h1 _ hx; cases hy; exact hv
  · obtain ⟨y, hy, hv⟩ := h1 _ hx; cases hy; exact hv

/-- A case: a thread is blocked in get(), a stop destroys the task.  (And one with a task that awaits.) -/
theorem broken_promise_nontrivial :
    (∃ s, broken.Reaches s [.ev .getCalled, .abandoned] ∧ s.fut.pc = .blocked false) ∧
    ∃ s, broken.Reaches s [.ev .awaitCalled, .ev .suspended, .abandoned] ∧ s.fut.pc = .suspended :=
  ⟨⟨_, ⟨[.base .get, .base .lockWait, .abandon], rfl⟩, rfl⟩, ⟨_, ⟨[.base .await, .base .suspend, .abandon], rfl⟩, rfl⟩⟩

end Verif.Future
