/-!
# Labelled machines

The common frame of the concurrent models: a partial, computable step function
driven by labels.  A label is one atomic action of one agent; a list of labels is
one interleaving.  Events are the effects a user of the API can observe.
Nothing in this file models code of /repo; it is the meaning of "execution".
-/

namespace Verif

/-- A labelled machine. `step s l = none` means the action `l` is not enabled in `s`. -/
structure Machine (σ : Type) (Λ : Type) (ε : Type) where
  init : σ
  step : σ → Λ → Option (σ × List ε)

namespace Machine

variable {σ Λ ε : Type}

/-- Execute a list of labels from a state; the result is the final state and the
trace of all events emitted, oldest first. `none` if some label was not enabled. -/
def runFrom (M : Machine σ Λ ε) : σ → List Λ → Option (σ × List ε)
  | s, [] => some (s, [])
  | s, l :: ls =>
    match M.step s l with
    | none => none
    | some (s', e) =>
      match M.runFrom s' ls with
      | none => none
      | some (s'', es) => some (s'', e ++ es)

/-- Execute from the initial state. -/
def run (M : Machine σ Λ ε) (ls : List Λ) : Option (σ × List ε) := M.runFrom M.init ls

/-- `M.Reaches s tr`: some interleaving leads to state `s` with trace `tr`. -/
def Reaches (M : Machine σ Λ ε) (s : σ) (tr : List ε) : Prop :=
  ∃ ls, M.run ls = some (s, tr)

theorem runFrom_append (M : Machine σ Λ ε) (s : σ) (xs ys : List Λ) :
    M.runFrom s (xs ++ ys) =
      (M.runFrom s xs).bind fun p => (M.runFrom p.1 ys).map fun q => (q.1, p.2 ++ q.2) := by
  induction xs generalizing s with
  | nil => simp [runFrom]
  | cons l ls ih =>
    simp only [List.cons_append, runFrom]
    cases h : M.step s l with
    | none => simp
    | some p =>
      obtain ⟨s', e⟩ := p
      simp only [ih]
      cases h2 : M.runFrom s' ls with
      | none => simp
      | some q =>
        obtain ⟨s'', es⟩ := q
        simp only [Option.bind_some]
        cases h3 : M.runFrom s'' ys with
        | none => simp
        | some r => simp [List.append_assoc]

/-- If every step lowers a measure, executions are not longer than the measure. -/
theorem runFrom_length_le (M : Machine σ Λ ε) (μ : σ → Nat)
    (hd : ∀ s l s' e, M.step s l = some (s', e) → μ s' < μ s) :
    ∀ (ls : List Λ) (s s' : σ) (tr : List ε), M.runFrom s ls = some (s', tr) → ls.length + μ s' ≤ μ s := by
  intro ls
  induction ls with
  | nil =>
    intro s s' tr h
    simp only [runFrom, Option.some.injEq, Prod.mk.injEq] at h
    obtain ⟨rfl, rfl⟩ := h
    simp
  | cons l ls ih =>
    intro s s' tr h
    simp only [runFrom] at h
    cases h1 : M.step s l with
    | none => simp [h1] at h
    | some p =>
      obtain ⟨s1, e1⟩ := p
      simp only [h1] at h
      cases h2 : M.runFrom s1 ls with
      | none => simp [h2] at h
      | some q =>
        obtain ⟨s2, e2⟩ := q
        simp only [h2, Option.some.injEq, Prod.mk.injEq] at h
        obtain ⟨rfl, rfl⟩ := h
        have := ih s1 s2 e2 h2
        have := hd s l s1 e1 h1
        simp only [List.length_cons]
        omega

theorem Reaches.init (M : Machine σ Λ ε) : M.Reaches M.init [] := ⟨[], rfl⟩

theorem Reaches.step {M : Machine σ Λ ε} {s s' : σ} {tr e : List ε} {l : Λ}
    (h : M.Reaches s tr) (hs : M.step s l = some (s', e)) : M.Reaches s' (tr ++ e) := by
  obtain ⟨ls, hl⟩ := h
  refine ⟨ls ++ [l], ?_⟩
  unfold run at *
  rw [runFrom_append, hl]
  simp [runFrom, hs]

/-- Induction over executions with the whole history available. -/
theorem runFrom_inv (M : Machine σ Λ ε) (I : σ → List ε → Prop)
    (hs : ∀ s tr l s' e, I s tr → M.step s l = some (s', e) → I s' (tr ++ e)) :
    ∀ (ls : List Λ) (s : σ) (tr : List ε) (s' : σ) (e : List ε),
      I s tr → M.runFrom s ls = some (s', e) → I s' (tr ++ e) := by
  intro ls
  induction ls with
  | nil =>
    intro s tr s' e hI h
    simp only [runFrom, Option.some.injEq, Prod.mk.injEq] at h
    obtain ⟨rfl, rfl⟩ := h
    simpa using hI
  | cons l ls ih =>
    intro s tr s' e hI h
    simp only [runFrom] at h
    cases h1 : M.step s l with
    | none => simp [h1] at h
    | some p =>
      obtain ⟨s1, e1⟩ := p
      simp only [h1] at h
      cases h2 : M.runFrom s1 ls with
      | none => simp [h2] at h
      | some q =>
        obtain ⟨s2, e2⟩ := q
        simp only [h2, Option.some.injEq, Prod.mk.injEq] at h
        obtain ⟨rfl, rfl⟩ := h
        have := ih s1 (tr ++ e1) _ _ (hs _ _ _ _ _ hI h1) h2
        simpa [List.append_assoc] using this

theorem Reaches.inv {M : Machine σ Λ ε} (I : σ → List ε → Prop)
    (h0 : I M.init [])
    (hs : ∀ s tr l s' e, I s tr → M.step s l = some (s', e) → I s' (tr ++ e))
    {s : σ} {tr : List ε} (h : M.Reaches s tr) : I s tr := by
  obtain ⟨ls, hl⟩ := h
  simpa using runFrom_inv M I hs ls _ _ _ _ h0 hl

/-- Induction where reachability of the pre-state may be used in the step case. -/
theorem Reaches.inv' {M : Machine σ Λ ε} (I : σ → List ε → Prop)
    (h0 : I M.init [])
    (hs : ∀ s tr l s' e, M.Reaches s tr → I s tr → M.step s l = some (s', e) → I s' (tr ++ e))
    {s : σ} {tr : List ε} (h : M.Reaches s tr) : I s tr := by
  have := Reaches.inv (M := M) (fun s tr => M.Reaches s tr ∧ I s tr)
    ⟨Reaches.init M, h0⟩
    (fun s tr l s' e hI hst => ⟨hI.1.step hst, hs _ _ _ _ _ hI.1 hI.2 hst⟩) h
  exact this.2

/-- A prefix of the trace of a run, cut at a label boundary, is itself reachable;
in general every prefix of a trace extends to a reachable trace. -/
theorem run_prefix_state {M : Machine σ Λ ε} {xs ys : List Λ} {s : σ} {tr : List ε}
    (h : M.run (xs ++ ys) = some (s, tr)) :
    ∃ s1 t1 t2, M.run xs = some (s1, t1) ∧ M.runFrom s1 ys = some (s, t2) ∧ tr = t1 ++ t2 := by
  unfold run at *
  rw [runFrom_append] at h
  cases h1 : M.runFrom M.init xs with
  | none => simp [h1] at h
  | some p =>
    simp only [h1, Option.bind_some] at h
    cases h2 : M.runFrom p.1 ys with
    | none => simp [h2] at h
    | some q =>
      simp only [h2, Option.map_some, Option.some.injEq, Prod.mk.injEq] at h
      exact ⟨p.1, p.2, q.2, rfl, by rw [h2, ← h.1], h.2.symm⟩

end Machine

/-- Pointwise update of a function (object table, per-task program counter, ...). -/
def upd {α β : Type} [DecidableEq α] (f : α → β) (a : α) (b : β) : α → β :=
  fun x => if x = a then b else f x

@[simp] theorem upd_same {α β : Type} [DecidableEq α] (f : α → β) (a : α) (b : β) :
    upd f a b a = b := by simp [upd]

theorem upd_ne {α β : Type} [DecidableEq α] (f : α → β) {a x : α} (b : β) (h : x ≠ a) :
    upd f a b x = f x := by simp [upd, h]

theorem upd_apply {α β : Type} [DecidableEq α] (f : α → β) (a x : α) (b : β) :
    upd f a b x = if x = a then b else f x := rfl

end Verif
