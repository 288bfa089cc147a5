import Mathlib.Data.List.Induction
/-!
# Vocabulary for statements about event traces

Small specification functions over lists of events (oldest first); they know
nothing about any model.
-/

namespace Verif

/-- In the trace `tr` an opening event `g` has occurred that has not been
followed by the closing event `r`. -/
def OpenIn {ε : Type} (g r : ε) (tr : List ε) : Prop :=
  ∃ a b, tr = a ++ g :: b ∧ r ∉ b

theorem not_openIn_nil {ε : Type} (g r : ε) : ¬ OpenIn g r ([] : List ε) := by
  rintro ⟨a, b, h, _⟩
  simp at h

theorem append_singleton_split {ε : Type} {tr a b : List ε} {x g : ε}
    (h : tr ++ [x] = a ++ g :: b) :
    (b = [] ∧ x = g ∧ tr = a) ∨ ∃ b', b = b' ++ [x] ∧ tr = a ++ g :: b' := by
  rcases List.eq_nil_or_concat b with hb | ⟨b', y, hb⟩
  · subst hb
    have := List.append_inj' h rfl
    simp at this
    exact Or.inl ⟨rfl, this.2, this.1⟩
  · subst hb
    right
    have h' : tr ++ [x] = (a ++ g :: b') ++ [y] := by simpa using h
    have := List.append_inj' h' rfl
    simp at this
    refine ⟨b', by simp [this.2], by simp [this.1]⟩

theorem openIn_concat {ε : Type} (g r x : ε) (tr : List ε) :
    OpenIn g r (tr ++ [x]) ↔ x = g ∨ (x ≠ r ∧ OpenIn g r tr) := by
  constructor
  · rintro ⟨a, b, h, hr⟩
    rcases append_singleton_split h with ⟨_, hx, _⟩ | ⟨b', hb, ht⟩
    · exact Or.inl hx
    · subst hb
      simp only [List.mem_append, List.mem_singleton, not_or] at hr
      exact Or.inr ⟨fun e => hr.2 e.symm, a, b', ht, hr.1⟩
  · rintro (rfl | ⟨hx, a, b, rfl, hr⟩)
    · exact ⟨tr, [], by simp, by simp⟩
    · exact ⟨a, b ++ [x], by simp, by simp [hr]; exact fun e => hx e.symm⟩

theorem prefix_concat_iff {ε : Type} {p tr : List ε} {x : ε} :
    p <+: tr ++ [x] ↔ p <+: tr ∨ p = tr ++ [x] := by
  constructor
  · rintro ⟨q, hq⟩
    rcases List.eq_nil_or_concat q with h | ⟨q', y, h⟩
    · subst h; right; simpa using hq
    · subst h
      left
      have h' : (p ++ q') ++ [y] = tr ++ [x] := by simpa using hq
      have := List.append_inj' h' rfl
      exact ⟨q', this.1⟩
  · rintro (h | rfl)
    · exact h.trans (List.prefix_append _ _)
    · exact List.prefix_refl _

/-- `p ++ [y]` is a prefix of `tr ++ [x]` iff it is one of `tr` or it is everything. -/
theorem concat_prefix_concat_iff {ε : Type} {p tr : List ε} {x y : ε} :
    p ++ [y] <+: tr ++ [x] ↔ p ++ [y] <+: tr ∨ (p = tr ∧ y = x) := by
  rw [prefix_concat_iff]
  constructor
  · rintro (h | h)
    · exact Or.inl h
    · have := List.append_inj' h rfl
      simp at this
      exact Or.inr this
  · rintro (h | ⟨rfl, rfl⟩)
    · exact Or.inl h
    · exact Or.inr rfl

theorem not_concat_prefix_nil {ε : Type} {p : List ε} {y : ε} : ¬ p ++ [y] <+: ([] : List ε) := by
  intro h
  have := List.IsPrefix.length_le h
  simp at this

theorem prefix_append_cases {α : Type} {p tr e : List α} (h : p <+: tr ++ e) :
    p <+: tr ∨ ∃ q, q <+: e ∧ p = tr ++ q := by
  induction e using List.reverseRecOn with
  | nil => left; simpa using h
  | append_singleton e x ih =>
    rw [← List.append_assoc, prefix_concat_iff] at h
    rcases h with h | h
    · rcases ih h with h | ⟨q, hq, rfl⟩
      · exact Or.inl h
      · exact Or.inr ⟨q, hq.trans (List.prefix_append _ _), rfl⟩
    · exact Or.inr ⟨e ++ [x], List.prefix_refl _, by simp [h]⟩

/-- A position in `tr ++ e` is a position in `tr` or one in `e`. -/
theorem concat_prefix_append_cases {α : Type} {tr e p : List α} {x : α} (hp : p ++ [x] <+: tr ++ e) :
    p ++ [x] <+: tr ∨ ∃ q, q ++ [x] <+: e ∧ p = tr ++ q := by
  rcases prefix_append_cases hp with h | ⟨q, hq, hpq⟩
  · exact Or.inl h
  · rcases List.eq_nil_or_concat q with rfl | ⟨q', y, rfl⟩
    · left; simp at hpq; rw [← hpq]; exact List.prefix_refl _
    · right
      rw [List.concat_eq_append, ← List.append_assoc] at hpq
      have := List.append_inj' hpq rfl
      simp at this
      obtain ⟨rfl, rfl⟩ := this
      exact ⟨q', by simpa using hq, rfl⟩

/-- The first element of a list, if it is known not to occur later. -/
theorem concat_prefix_cons {α : Type} {q l : List α} {x y : α} (h : q ++ [x] <+: y :: l) (hl : x ∉ l) :
    q = [] ∧ x = y := by
  cases q with
  | nil => simp at h; exact ⟨rfl, h⟩
  | cons z q =>
    simp only [List.cons_append, List.cons_prefix_cons] at h
    exact absurd (h.2.subset (by simp)) hl

/-- The last occurrence of `x` lies before a suffix without `x`. -/
theorem last_split {α : Type} {tr e p q : List α} {x : α} (h : tr ++ e = p ++ x :: q) (hx : x ∉ e) :
    ∃ q', q = q' ++ e ∧ tr = p ++ x :: q' := by
  rw [List.append_eq_append_iff] at h
  rcases h with ⟨a, ha, hb⟩ | ⟨c, ha, hb⟩
  · exact absurd (hb ▸ by simp) hx
  · cases c with
    | nil => simp at hb; exact absurd (hb ▸ by simp) hx
    | cons y c =>
      simp at hb
      obtain ⟨rfl, rfl⟩ := hb
      exact ⟨c, rfl, ha⟩

theorem last_split_self {α : Type} {tr e p q : List α} {x : α} (h : tr ++ x :: e = p ++ x :: q) (hq : x ∉ q) 
    (he : x ∉ e) : p = tr ∧ q = e := by
  rw [show tr ++ x :: e = (tr ++ [x]) ++ e by simp] at h
  obtain ⟨q', rfl, h2⟩ := last_split h he
  rcases List.eq_nil_or_concat q' with rfl | ⟨q'', y, rfl⟩
  · have := List.append_inj' h2 rfl; exact ⟨this.1.symm, rfl⟩
  · rw [List.concat_eq_append, show p ++ x :: (q'' ++ [y]) = (p ++ x :: q'') ++ [y] by simp] at h2
    have := List.append_inj' h2 rfl
    simp at this
    simp [this.2] at hq

/-- The last element with property `P` determines the split. -/
theorem last_split_pred {α : Type} (P : α → Prop) {p q p' q' : List α} {x y : α} (h : p ++ x :: q = p' ++ y :: q')
    (hx : P x) (hy : P y) (hq : ∀ z ∈ q, ¬ P z) (hq' : ∀ z ∈ q', ¬ P z) : p = p' ∧ x = y ∧ q = q' := by
  rw [List.append_eq_append_iff] at h
  rcases h with ⟨a, ha, hb⟩ | ⟨a, ha, hb⟩
  · cases a with
    | nil => simp at ha hb; exact ⟨ha.symm, hb.1, hb.2⟩
    | cons z a =>
      simp at hb
      exact absurd hy (hq y (by simp [hb.2]))
  · cases a with
    | nil => simp at ha hb; exact ⟨ha, hb.1.symm, hb.2.symm⟩
    | cons z a =>
      simp at hb
      exact absurd hx (hq' x (by simp [hb.2]))

end Verif
