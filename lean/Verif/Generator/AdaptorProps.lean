import Verif.Generator.AdaptorModel
import Mathlib.Data.List.Destutter
import Mathlib.Data.List.Sort
import Mathlib.Data.List.Perm.Basic
/-!
# Properties of the generator adaptors (C28)
-/

namespace Verif.Adaptor

variable {α : Type}

/-! ### Specification -/

/-- Once exhausted, always exhausted (this is part of C26). -/
def Closed (src : Nat → Option α) : Prop := ∀ i, src i = none → src (i + 1) = none

/-- The values the source gives to its first `n` requests. -/
def taken (src : Nat → Option α) (n : Nat) : List α := (List.range n).filterMap src

/-- The source yields exactly `xs` and then ends. -/
def Yields (src : Nat → Option α) (xs : List α) : Prop := ∀ i, src i = xs[i]?

/-- The values handed out by the adaptor, in order. -/
def outs (tr : List (Ev α)) : List α := tr.filterMap fun | .yielded v => some v | .finished => none

/-- `xs` with every element dropped that is equal to the last one kept. -/
def dedup (eq : α → α → Bool) (xs : List α) : List α := xs.destutter (fun a b => eq a b = false)

/-! ### Lemmas -/

@[simp] theorem outs_append (a b : List (Ev α)) : outs (a ++ b) = outs a ++ outs b := by
  simp [outs, List.filterMap_append]
@[simp] theorem outs_nil : outs ([] : List (Ev α)) = [] := rfl
@[simp] theorem outs_yielded (v : α) : outs [Ev.yielded v] = [v] := rfl
@[simp] theorem outs_finished : outs [(Ev.finished : Ev α)] = [] := rfl

theorem taken_succ (src : Nat → Option α) (n : Nat) :
    taken src (n + 1) = taken src n ++ (src n).toList := by
  simp only [taken, List.range_succ, List.filterMap_append]
  cases h : src n <;> simp [h]

theorem taken_after {src : Nat → Option α} (h : Closed src) {n : Nat} (hn : src n = none) (k : Nat) :
    taken src (n + k) = taken src n ∧ src (n + k) = none := by
  induction k with
  | zero => exact ⟨rfl, hn⟩
  | succ k ih => exact ⟨by rw [← Nat.add_assoc, taken_succ, ih.1, ih.2]; simp, h _ ih.2⟩

theorem Yields.closed {src : Nat → Option α} {xs : List α} (h : Yields src xs) : Closed src := by
  intro i hi
  rw [h] at *
  simp only [List.getElem?_eq_none_iff] at *
  omega

theorem Yields.taken {src : Nat → Option α} {xs : List α} (h : Yields src xs) (n : Nat) :
    taken src n = xs.take n := by
  induction n with
  | zero => simp [Adaptor.taken]
  | succ n ih =>
    rw [taken_succ, ih, h n]
    cases hx : xs[n]? with
    | none => simp at hx; simp [List.take_of_length_le hx, List.take_of_length_le (Nat.le_succ_of_le hx)]
    | some v =>
      rw [List.take_add_one, hx]

theorem Yields.none_iff {src : Nat → Option α} {xs : List α} (h : Yields src xs) (n : Nat) :
    src n = none ↔ xs.length ≤ n := by rw [h n]; simp

/-- One more element. -/
theorem destutter'_snoc (R : α → α → Prop) [DecidableRel R] (l : List α) : ∀ (a b c : α) (pre : List α),
    l.destutter' R a = pre ++ [c] →
    (l ++ [b]).destutter' R a = if R c b then pre ++ [c, b] else pre ++ [c] := by
  induction l with
  | nil =>
    intro a b c pre h
    simp only [List.destutter'_nil] at h
    have : pre = [] ∧ a = c := by
      cases pre with
      | nil => simpa using h
      | cons x xs => simp at h
    obtain ⟨rfl, rfl⟩ := this
    simp only [List.nil_append, List.destutter'_cons, List.destutter'_nil]
  | cons x l ih =>
    intro a b c pre h
    simp only [List.cons_append, List.destutter'_cons] at h ⊢
    split at h
    · rename_i hR
      simp only [hR, if_true]
      cases pre with
      | nil =>
        exfalso
        simp at h
        have := List.destutter'_ne_nil l R (a := x)
        exact this h.2
      | cons y pre =>
        simp only [List.cons_append, List.cons.injEq] at h
        rw [ih x b c pre h.2, h.1]
        split <;> simp
    · rename_i hR
      simp only [hR, if_false]
      exact ih a b c pre h

theorem dedup_snoc (eq : α → α → Bool) (xs pre : List α) (b c : α) (h : dedup eq xs = pre ++ [c]) :
    dedup eq (xs ++ [b]) = if eq c b then pre ++ [c] else pre ++ [c, b] := by
  cases xs with
  | nil => simp [dedup] at h
  | cons x xs =>
    simp only [dedup, List.destutter_cons'] at h
    simp only [dedup, List.cons_append, List.destutter_cons']
    rw [destutter'_snoc _ xs x b c pre h]
    cases eq c b <;> simp

/-! ### unique -/

structure UInv (eq : α → α → Bool) (src : Nat → Option α) (s : USt α) (tr : List (Ev α)) : Prop where
  start : s.pc = .start → s.i = 0 ∧ outs tr = []
  loop  : ∀ a, s.pc = .loop a → dedup eq (taken src s.i) = outs tr ++ [a]
  fin   : (s.pc = .last ∨ s.pc = .done) → outs tr = dedup eq (taken src s.i) ∧ src (s.i - 1) = none ∧ s.i ≠ 0
  ev    : Ev.finished ∈ tr ↔ s.pc = .done

theorem unique_inv {eq : α → α → Bool} {src : Nat → Option α} {s : USt α} {tr : List (Ev α)}
    (h : (unique eq src).Reaches s tr) : UInv eq src s tr := by
  refine Machine.Reaches.inv (M := unique eq src) (UInv eq src) ?_ ?_ h
  · constructor <;> simp [unique]
  clear h s tr
  intro s tr l s' e ih hs
  change ustep eq src s l = some (s', e) at hs
  obtain ⟨pc, i⟩ := s
  obtain ⟨h1, h2, h3, h4⟩ := ih
  dsimp only at *
  cases l
  simp only [ustep] at hs
  cases pc with
  | start =>
    obtain ⟨hi0, ho⟩ := h1 rfl
    subst hi0
    cases hsrc : src 0 with
    | none =>
      simp only [hsrc, Option.some.injEq, Prod.mk.injEq] at hs; obtain ⟨rfl, rfl⟩ := hs
      constructor <;> simp [ho, hsrc, taken_succ, taken, dedup]
    | some a =>
      simp only [hsrc, Option.some.injEq, Prod.mk.injEq] at hs; obtain ⟨rfl, rfl⟩ := hs
      constructor <;> simp_all [taken_succ, taken, dedup]
  | loop a =>
    have h2 := h2 a rfl
    cases hsrc : src i with
    | none =>
      simp only [hsrc, Option.some.injEq, Prod.mk.injEq] at hs; obtain ⟨rfl, rfl⟩ := hs
      constructor <;> simp [taken_succ, hsrc, h2, h4]
    | some b =>
      simp only [hsrc] at hs
      have hd := dedup_snoc eq _ _ b a h2
      split at hs <;> simp only [Option.some.injEq, Prod.mk.injEq] at hs <;> obtain ⟨rfl, rfl⟩ := hs
      · rename_i he
        rw [he] at hd
        constructor <;> simp [taken_succ, hsrc, hd, h4]
      · rename_i he
        rw [Bool.not_eq_true] at he
        rw [he] at hd
        constructor <;> simp [taken_succ, hsrc, hd, h4]
  | last =>
    simp only [Option.some.injEq, Prod.mk.injEq] at hs; obtain ⟨rfl, rfl⟩ := hs
    constructor <;> simp_all
  | done => simp at hs

/-- **C28 (unique).**  Whatever the source, however long, and whatever the comparison: everything `unique` has handed
out at any time is a prefix of the deduplicated input read so far. -/
theorem unique_output_is_prefix (eq : α → α → Bool) (src : Nat → Option α) (s : USt α) (tr : List (Ev α))
    (h : (unique eq src).Reaches s tr) : ∃ n, outs tr <+: dedup eq (taken src n) := by
  have hi := unique_inv h
  refine ⟨s.i, ?_⟩
  cases hpc : s.pc with
  | start => rw [(hi.start hpc).2]; exact List.nil_prefix
  | loop a => rw [hi.loop a hpc]; exact List.prefix_append _ _
  | last => rw [(hi.fin (Or.inl hpc)).1]; exact List.prefix_refl _
  | done => rw [(hi.fin (Or.inr hpc)).1]; exact List.prefix_refl _

/-- **C28 (unique).**  For every source yielding `xs`: when `unique` ends it has handed out exactly `xs` without
consecutive duplicates, nothing lost and nothing repeated. -/
theorem unique_complete (eq : α → α → Bool) (src : Nat → Option α) (xs : List α) (hx : Yields src xs)
    (s : USt α) (tr : List (Ev α)) (h : (unique eq src).Reaches s tr) (hf : Ev.finished ∈ tr) :
    outs tr = dedup eq xs := by
  have hi := unique_inv h
  obtain ⟨h1, h2, h3⟩ := hi.fin (Or.inr (hi.ev.1 hf))
  rw [h1, hx.taken, List.take_of_length_le]
  have := (hx.none_iff _).1 h2
  omega

/-- **C28 (unique).**  `unique` of a source that ends does end, after asking its source `|xs|+1` times: it can
not run for more than `|xs| + 3` steps, and while it has not ended it can go on. -/
theorem unique_terminates (eq : α → α → Bool) (src : Nat → Option α) (xs : List α) (hx : Yields src xs)
    (ls : List Lbl) (s : USt α) (tr : List (Ev α)) (h : (unique eq src).run ls = some (s, tr)) :
    ls.length ≤ xs.length + 3 ∧ (Ev.finished ∈ tr ∨ ∃ r, ustep eq src s .go = some r) := by
  constructor
  · have := Machine.runFrom_length_le (unique eq src)
      (fun s => match s.pc with
        | .start => (xs.length - s.i) + 3 | .loop _ => (xs.length - s.i) + 2 | .last => 1 | .done => 0)
      (by
        intro s l s' e hs
        change ustep eq src s l = some (s', e) at hs
        have hn := hx.none_iff s.i
        cases l
        simp only [ustep] at hs
        cases hpc : s.pc <;> simp only [hpc] at hs
        · split at hs <;> simp only [Option.some.injEq, Prod.mk.injEq] at hs <;> obtain ⟨rfl, rfl⟩ := hs <;>
            dsimp only <;> omega
        · split at hs
          · simp only [Option.some.injEq, Prod.mk.injEq] at hs; obtain ⟨rfl, rfl⟩ := hs; dsimp only; omega
          · rename_i hsrc
            have : ¬ xs.length ≤ s.i := fun hc => by rw [hn.2 hc] at hsrc; simp at hsrc
            split at hs <;> simp only [Option.some.injEq, Prod.mk.injEq] at hs <;> obtain ⟨rfl, rfl⟩ := hs <;>
              dsimp only <;> omega
        · simp only [Option.some.injEq, Prod.mk.injEq] at hs; obtain ⟨rfl, rfl⟩ := hs; simp
        · simp at hs) ls _ s tr h
    have h0 : (unique eq src).init = { pc := .start, i := 0 } := rfl
    rw [h0] at this
    simp at this
    omega
  · have hi := unique_inv ⟨ls, h⟩
    cases hpc : s.pc with
    | done => exact Or.inl (hi.ev.2 hpc)
    | start =>
      right
      simp only [ustep, hpc]
      cases src s.i <;> exact ⟨_, rfl⟩
    | loop a =>
      right
      simp only [ustep, hpc]
      cases src s.i with
      | none => exact ⟨_, rfl⟩
      | some b => dsimp only; split <;> exact ⟨_, rfl⟩
    | last => right; simp only [ustep, hpc]; exact ⟨_, rfl⟩

example : dedup (· == ·) [1, 1, 2, 2, 2, 1, 3] = [1, 2, 1, 3] := by decide

example : ∃ s tr, (unique (· == ·) (fun i => [1, 1, 2, 2, 1][i]?)).Reaches s tr ∧ Ev.finished ∈ tr ∧
    outs tr = [1, 2, 1] :=
  ⟨_, _, ⟨List.replicate 7 .go, rfl⟩, by decide⟩

example : Yields (fun i => [1, 1, 2, 2, 1][i]?) [1, 1, 2, 2, 1] := fun _ => rfl

/-! ### merge -/

/-- What merge has fetched from its inputs and not handed out yet. -/
def heldL : MPc α → List α
  | .start2 l => l.toList | .loop l _ => l.toList | .fetchR l => l.toList | _ => []
def heldR : MPc α → List α
  | .loop _ r => r.toList | .fetchL r => r.toList | _ => []

/-- `out` is an interleaving of `a` and `b`: nothing lost, nothing repeated, both orders kept. -/
inductive Interleaved : List α → List α → List α → Prop where
  | nil : Interleaved [] [] []
  | left {a b o : List α} (x : α) : Interleaved a b o → Interleaved (a ++ [x]) b (o ++ [x])
  | right {a b o : List α} (x : α) : Interleaved a b o → Interleaved a (b ++ [x]) (o ++ [x])

theorem Interleaved.perm {a b o : List α} (h : Interleaved a b o) : o.Perm (a ++ b) := by
  induction h with
  | nil => exact List.Perm.refl _
  | @left a b o x _ ih =>
    refine ((ih.append_right [x]).trans ?_)
    rw [List.append_assoc, List.append_assoc]
    exact (List.perm_append_comm).append_left a
  | right x _ ih => rw [← List.append_assoc]; exact ih.append_right [x]

theorem Interleaved.sublist_left {a b o : List α} (h : Interleaved a b o) : a.Sublist o := by
  induction h with
  | nil => exact List.Sublist.refl _
  | left x _ ih => exact ih.append (List.Sublist.refl _)
  | right x _ ih => exact ih.trans (List.sublist_append_left _ _)

theorem Interleaved.sublist_right {a b o : List α} (h : Interleaved a b o) : b.Sublist o := by
  induction h with
  | nil => exact List.Sublist.refl _
  | left x _ ih => exact ih.trans (List.sublist_append_left _ _)
  | right x _ ih => exact ih.append (List.Sublist.refl _)

structure MInv (comp : α → α → Bool) (lhs rhs : Nat → Option α) (s : MSt α) (tr : List (Ev α)) : Prop where
  mix : ∃ a b, Interleaved a b (outs tr) ∧ taken lhs s.i = a ++ heldL s.pc ∧ taken rhs s.j = b ++ heldR s.pc
  s1  : s.pc = .start1 → s.i = 0 ∧ s.j = 0
  s2  : ∀ l, s.pc = .start2 l → s.i = 1 ∧ s.j = 0 ∧ l = lhs 0 
  lnone : (s.pc = .fetchR none ∨ s.pc = .done ∨ ∃ r, s.pc = .loop none r) → ∃ n, n + 1 = s.i ∧ lhs n = none
  rnone : (s.pc = .fetchL none ∨ s.pc = .done ∨ ∃ l, s.pc = .loop l none) → ∃ n, n + 1 = s.j ∧ rhs n = none
  ev  : Ev.finished ∈ tr ↔ s.pc = .done

theorem merge_inv {comp : α → α → Bool} {lhs rhs : Nat → Option α} {s : MSt α} {tr : List (Ev α)}
    (h : (merge comp lhs rhs).Reaches s tr) : MInv comp lhs rhs s tr := by
  refine Machine.Reaches.inv (M := merge comp lhs rhs) (MInv comp lhs rhs) ?_ ?_ h
  · refine ⟨⟨[], [], Interleaved.nil, rfl, rfl⟩, ?_, ?_, ?_, ?_, ?_⟩ <;> simp [merge]
  clear h s tr
  intro s tr l s' e ih hs
  change mstep comp lhs rhs s l = some (s', e) at hs
  obtain ⟨pc, i, j⟩ := s
  obtain ⟨⟨a, b, hab, ha, hb⟩, h1, h2, h3, h4, h5⟩ := ih
  dsimp only at *
  cases l
  have e0 : outs (tr ++ ([] : List (Ev α))) = outs tr := by simp
  have e1 : ∀ v, outs (tr ++ [Ev.yielded v]) = outs tr ++ [v] := by simp
  rcases pc with _ | l | ⟨_ | x, _ | y⟩ | r | l | _ <;> simp only [mstep] at hs
  · simp only [Option.some.injEq, Prod.mk.injEq] at hs; obtain ⟨rfl, rfl⟩ := hs
    refine ⟨⟨a, b, by rwa [e0], ?_, ?_⟩, ?_, ?_, ?_, ?_, ?_⟩ <;> simp_all [heldL, heldR, taken_succ]
  · simp only [Option.some.injEq, Prod.mk.injEq] at hs; obtain ⟨rfl, rfl⟩ := hs
    refine ⟨⟨a, b, by rwa [e0], ?_, ?_⟩, ?_, ?_, ?_, ?_, ?_⟩ <;> simp_all [heldL, heldR, taken_succ]
  · simp only [Option.some.injEq, Prod.mk.injEq] at hs; obtain ⟨rfl, rfl⟩ := hs
    refine ⟨⟨a, b, by simpa using hab, ?_, ?_⟩, ?_, ?_, ?_, ?_, ?_⟩ <;> simp_all [heldL, heldR]
  · simp only [Option.some.injEq, Prod.mk.injEq] at hs; obtain ⟨rfl, rfl⟩ := hs
    refine ⟨⟨a, b ++ [y], by rw [e1]; exact hab.right y, ?_, ?_⟩, ?_, ?_, ?_, ?_, ?_⟩ <;> simp_all [heldL, heldR]
  · simp only [Option.some.injEq, Prod.mk.injEq] at hs; obtain ⟨rfl, rfl⟩ := hs
    refine ⟨⟨a ++ [x], b, by rw [e1]; exact hab.left x, ?_, ?_⟩, ?_, ?_, ?_, ?_, ?_⟩ <;> simp_all [heldL, heldR]
  · split at hs
    · simp only [Option.some.injEq, Prod.mk.injEq] at hs; obtain ⟨rfl, rfl⟩ := hs
      refine ⟨⟨a ++ [x], b, by rw [e1]; exact hab.left x, ?_, ?_⟩, ?_, ?_, ?_, ?_, ?_⟩ <;> simp_all [heldL, heldR]
    · simp only [Option.some.injEq, Prod.mk.injEq] at hs; obtain ⟨rfl, rfl⟩ := hs
      refine ⟨⟨a, b ++ [y], by rw [e1]; exact hab.right y, ?_, ?_⟩, ?_, ?_, ?_, ?_, ?_⟩ <;> simp_all [heldL, heldR]
  · simp only [Option.some.injEq, Prod.mk.injEq] at hs; obtain ⟨rfl, rfl⟩ := hs
    refine ⟨⟨a, b, by rwa [e0], ?_, ?_⟩, ?_, ?_, ?_, ?_, ?_⟩ <;> simp_all [heldL, heldR, taken_succ]
  · simp only [Option.some.injEq, Prod.mk.injEq] at hs; obtain ⟨rfl, rfl⟩ := hs
    refine ⟨⟨a, b, by rwa [e0], ?_, ?_⟩, ?_, ?_, ?_, ?_, ?_⟩ <;> simp_all [heldL, heldR, taken_succ]
  · simp at hs

/-- **C28 (merge).**  At any time, for any sources and any comparison, what merge has handed out is an interleaving of a prefix
of each of its inputs: nothing is lost, duplicated or reordered within an input. -/
theorem merge_output_interleaves (comp : α → α → Bool) (lhs rhs : Nat → Option α) (s : MSt α) (tr : List (Ev α))
    (h : (merge comp lhs rhs).Reaches s tr) :
    ∃ a b n m, Interleaved a b (outs tr) ∧ a <+: taken lhs n ∧ b <+: taken rhs m := by
  obtain ⟨a, b, hab, ha, hb⟩ := (merge_inv h).mix
  exact ⟨a, b, s.i, s.j, hab, ⟨_, ha.symm⟩, ⟨_, hb.symm⟩⟩

/-- **C28 (merge).**  When merge of two sources yielding `xs` and `ys` ends, it has handed out an interleaving of all of
`xs` and all of `ys`, whatever their lengths and whatever the comparison says. -/
theorem merge_complete (comp : α → α → Bool) (lhs rhs : Nat → Option α) (xs ys : List α)
    (hx : Yields lhs xs) (hy : Yields rhs ys) (s : MSt α) (tr : List (Ev α))
    (h : (merge comp lhs rhs).Reaches s tr) (hf : Ev.finished ∈ tr) : Interleaved xs ys (outs tr) := by
  have hi := merge_inv h
  have hd := hi.ev.1 hf
  obtain ⟨a, b, hab, ha, hb⟩ := hi.mix
  obtain ⟨n, hn, hn0⟩ := hi.lnone (by simp [hd])
  obtain ⟨m, hm, hm0⟩ := hi.rnone (by simp [hd])
  rw [hx.none_iff] at hn0
  rw [hy.none_iff] at hm0
  rw [hd, hx.taken, List.take_of_length_le (by omega)] at ha
  rw [hd, hy.taken, List.take_of_length_le (by omega)] at hb
  simp [heldL, heldR] at ha hb
  rw [ha, hb]; exact hab

/-- **C28 (merge).**  ... hence a permutation of the concatenation. -/
theorem merge_perm (comp : α → α → Bool) (lhs rhs : Nat → Option α) (xs ys : List α)
    (hx : Yields lhs xs) (hy : Yields rhs ys) (s : MSt α) (tr : List (Ev α))
    (h : (merge comp lhs rhs).Reaches s tr) (hf : Ev.finished ∈ tr) : (outs tr).Perm (xs ++ ys) :=
  (merge_complete comp lhs rhs xs ys hx hy s tr h hf).perm

/-- `comp` is a strict weak order, as `std::less` is. -/
structure StrictWeak (comp : α → α → Bool) : Prop where
  asymm : ∀ a b, comp a b = true → comp b a = false
  trans : ∀ a b c, comp b a = false → comp c b = false → comp c a = false

/-- No later element is smaller than an earlier one. -/
def SortedBy (comp : α → α → Bool) (xs : List α) : Prop := xs.Pairwise fun a b => comp b a = false

/-- Every finite part of what the source yields is sorted. -/
def SortedSrc (comp : α → α → Bool) (src : Nat → Option α) : Prop := ∀ n, SortedBy comp (taken src n)

theorem mem_taken {src : Nat → Option α} {n : Nat} {v : α} : v ∈ taken src n ↔ ∃ i, i < n ∧ src i = some v := by
  simp [taken, List.mem_filterMap]

theorem SortedSrc.le {comp : α → α → Bool} {src : Nat → Option α} (h : SortedSrc comp src)
    {n m : Nat} {v w : α} (hnm : n < m) (hv : src n = some v) (hw : src m = some w) : comp w v = false := by
  have := h (m + 1)
  rw [taken_succ, hw] at this
  simp only [SortedBy, Option.toList_some, List.pairwise_append] at this
  exact this.2.2 v (mem_taken.2 ⟨n, hnm, hv⟩) w (by simp)

/-- `o` is not larger than what is still to come from `src`. -/
def Below (comp : α → α → Bool) (src : Nat → Option α) (i : Nat) (held : List α) (o : α) : Prop :=
  (∀ n v, i ≤ n → src n = some v → comp v o = false) ∧ ∀ v ∈ held, comp v o = false

structure SInv (comp : α → α → Bool) (lhs rhs : Nat → Option α) (s : MSt α) (tr : List (Ev α)) : Prop where
  srt : SortedBy comp (outs tr)
  low : ∀ o ∈ outs tr, Below comp lhs s.i (heldL s.pc) o ∧ Below comp rhs s.j (heldR s.pc) o
  hl  : ∀ a, heldL s.pc = [a] → ∃ n, n + 1 = s.i ∧ lhs n = some a
  hr  : ∀ a, heldR s.pc = [a] → ∃ n, n + 1 = s.j ∧ rhs n = some a

theorem SortedBy.snoc {comp : α → α → Bool} {xs : List α} {x : α} (h : SortedBy comp xs)
    (hx : ∀ o ∈ xs, comp x o = false) : SortedBy comp (xs ++ [x]) := by
  simp only [SortedBy, List.pairwise_append]
  refine ⟨h, by simp, ?_⟩
  intro a ha b hb
  simp only [List.mem_singleton] at hb
  subst hb; exact hx a ha

theorem closed_none {src : Nat → Option α} (h : Closed src) {n m : Nat} (hn : src n = none) (hm : n ≤ m) :
    src m = none := by
  obtain ⟨k, rfl⟩ := Nat.exists_eq_add_of_le hm
  exact (taken_after h hn k).2

theorem below_fetch {comp : α → α → Bool} {src : Nat → Option α} {i : Nat} {o : α}
    (h : Below comp src i [] o) : Below comp src (i + 1) (src i).toList o := by
  refine ⟨fun n v hn hv => h.1 n v (by omega) hv, ?_⟩
  intro v hv
  rw [Option.mem_toList] at hv
  exact h.1 i v (Nat.le_refl _) hv

theorem below_drop {comp : α → α → Bool} {src : Nat → Option α} {i : Nat} {o : α} {l : List α}
    (h : Below comp src i l o) : Below comp src i [] o := ⟨h.1, by simp⟩

theorem below_self {comp : α → α → Bool} {src : Nat → Option α} (hs : SortedSrc comp src) {i n : Nat} {a : α}
    (hn : n + 1 = i) (ha : src n = some a) : Below comp src i [] a :=
  ⟨fun m v hm hv => hs.le (by omega) ha hv, by simp⟩

theorem below_trans {comp : α → α → Bool} (hw : StrictWeak comp) {src : Nat → Option α} (hs : SortedSrc comp src)
    {i n : Nat} {a b : α} (hn : n + 1 = i) (hb : src n = some b) (hab : comp b a = false) :
    Below comp src i [b] a :=
  ⟨fun m v hm hv => hw.trans a b v hab (hs.le (by omega) hb hv), by simpa using hab⟩

theorem below_none {comp : α → α → Bool} {src : Nat → Option α} (hc : Closed src) {i n : Nat} {a : α}
    (hn : n + 1 = i) (hb : src n = none) : Below comp src i [] a :=
  ⟨fun m v hm hv => by rw [closed_none hc hb (by omega)] at hv; simp at hv, by simp⟩

theorem merge_sinv {comp : α → α → Bool} (hw : StrictWeak comp) {lhs rhs : Nat → Option α}
    (hcl : Closed lhs) (hcr : Closed rhs) (hsl : SortedSrc comp lhs) (hsr : SortedSrc comp rhs)
    {s : MSt α} {tr : List (Ev α)}
    (h : (merge comp lhs rhs).Reaches s tr) : SInv comp lhs rhs s tr := by
  refine Machine.Reaches.inv' (M := merge comp lhs rhs) (SInv comp lhs rhs) ?_ ?_ h
  · constructor <;> simp [merge, SortedBy, heldL, heldR]
  clear h s tr
  intro s tr l s' e hreach ih hs
  have hm := merge_inv hreach
  change mstep comp lhs rhs s l = some (s', e) at hs
  obtain ⟨pc, i, j⟩ := s
  obtain ⟨h1, h2, h3, h4⟩ := ih
  obtain ⟨-, s1, s2, hln, hrn, -⟩ := hm
  dsimp only at *
  cases l
  have e0 : outs (tr ++ ([] : List (Ev α))) = outs tr := by simp
  have e1 : ∀ v, outs (tr ++ [Ev.yielded v]) = outs tr ++ [v] := by simp
  have eL : ∀ (l : Option α) a, l.toList = [a] → l = some a := by intro l a; cases l <;> simp
  rcases pc with _ | l | ⟨_ | x, _ | y⟩ | r | l | _ <;> simp only [mstep] at hs <;>
    simp only [heldL, heldR, Option.toList_none, Option.toList_some] at h2 h3 h4
  · simp only [Option.some.injEq, Prod.mk.injEq] at hs; obtain ⟨rfl, rfl⟩ := hs
    refine ⟨by rwa [e0], ?_, ?_, ?_⟩ <;> simp only [e0, heldL, heldR]
    · intro o ho; exact ⟨below_fetch (h2 o ho).1, (h2 o ho).2⟩
    · intro a ha; exact ⟨i, rfl, eL _ _ ha⟩
    · simp
  · simp only [Option.some.injEq, Prod.mk.injEq] at hs; obtain ⟨rfl, rfl⟩ := hs
    refine ⟨by rwa [e0], ?_, ?_, ?_⟩ <;> simp only [e0, heldL, heldR]
    · intro o ho; exact ⟨(h2 o ho).1, below_fetch (h2 o ho).2⟩
    · exact h3
    · intro a ha; exact ⟨j, rfl, eL _ _ ha⟩
  · simp only [Option.some.injEq, Prod.mk.injEq] at hs; obtain ⟨rfl, rfl⟩ := hs
    refine ⟨by simpa using h1, ?_, ?_, ?_⟩ <;> simp [heldL, heldR]
    simpa using h2
  · simp only [Option.some.injEq, Prod.mk.injEq] at hs; obtain ⟨rfl, rfl⟩ := hs
    obtain ⟨n, hn, hy⟩ := h4 y rfl
    obtain ⟨n', hn', hx⟩ := hln (by simp)
    refine ⟨?_, ?_, ?_, ?_⟩ <;> simp only [e1, heldL, heldR]
    · exact h1.snoc (fun o ho => (h2 o ho).2.2 y (by simp))
    · intro o ho
      rcases List.mem_append.1 ho with ho | ho
      · exact ⟨(h2 o ho).1, below_drop (h2 o ho).2⟩
      · simp only [List.mem_singleton] at ho; subst ho
        exact ⟨below_none hcl hn' hx, below_self hsr hn hy⟩
    · simp
    · simp
  · simp only [Option.some.injEq, Prod.mk.injEq] at hs; obtain ⟨rfl, rfl⟩ := hs
    obtain ⟨n, hn, hx⟩ := h3 x rfl
    obtain ⟨n', hn', hy⟩ := hrn (by simp)
    refine ⟨?_, ?_, ?_, ?_⟩ <;> simp only [e1, heldL, heldR]
    · exact h1.snoc (fun o ho => (h2 o ho).1.2 x (by simp))
    · intro o ho
      rcases List.mem_append.1 ho with ho | ho
      · exact ⟨below_drop (h2 o ho).1, (h2 o ho).2⟩
      · simp only [List.mem_singleton] at ho; subst ho
        exact ⟨below_self hsl hn hx, below_none hcr hn' hy⟩
    · simp
    · simp
  · obtain ⟨n, hn, hx⟩ := h3 x rfl
    obtain ⟨m, hm, hy⟩ := h4 y rfl
    split at hs
    · rename_i hc
      simp only [Option.some.injEq, Prod.mk.injEq] at hs; obtain ⟨rfl, rfl⟩ := hs
      refine ⟨?_, ?_, ?_, ?_⟩ <;> simp only [e1, heldL, heldR, Option.toList_some]
      · exact h1.snoc (fun o ho => (h2 o ho).1.2 x (by simp))
      · intro o ho
        rcases List.mem_append.1 ho with ho | ho
        · exact ⟨below_drop (h2 o ho).1, (h2 o ho).2⟩
        · simp only [List.mem_singleton] at ho; subst ho
          exact ⟨below_self hsl hn hx, below_trans hw hsr hm hy (hw.asymm _ _ hc)⟩
      · simp
      · exact h4
    · rename_i hc
      rw [Bool.not_eq_true] at hc
      simp only [Option.some.injEq, Prod.mk.injEq] at hs; obtain ⟨rfl, rfl⟩ := hs
      refine ⟨?_, ?_, ?_, ?_⟩ <;> simp only [e1, heldL, heldR, Option.toList_some]
      · exact h1.snoc (fun o ho => (h2 o ho).2.2 y (by simp))
      · intro o ho
        rcases List.mem_append.1 ho with ho | ho
        · exact ⟨(h2 o ho).1, below_drop (h2 o ho).2⟩
        · simp only [List.mem_singleton] at ho; subst ho
          exact ⟨below_trans hw hsl hn hx hc, below_self hsr hm hy⟩
      · exact h3
      · simp
  · simp only [Option.some.injEq, Prod.mk.injEq] at hs; obtain ⟨rfl, rfl⟩ := hs
    refine ⟨by rwa [e0], ?_, ?_, ?_⟩ <;> simp only [e0, heldL, heldR]
    · intro o ho; exact ⟨below_fetch (h2 o ho).1, (h2 o ho).2⟩
    · intro a ha; exact ⟨i, rfl, eL _ _ ha⟩
    · exact h4
  · simp only [Option.some.injEq, Prod.mk.injEq] at hs; obtain ⟨rfl, rfl⟩ := hs
    refine ⟨by rwa [e0], ?_, ?_, ?_⟩ <;> simp only [e0, heldL, heldR]
    · intro o ho; exact ⟨(h2 o ho).1, below_fetch (h2 o ho).2⟩
    · exact h3
    · intro a ha; exact ⟨j, rfl, eL _ _ ha⟩
  · simp at hs

/-- **C28 (merge).**  If both inputs are sorted (finite or endless) with respect to a strict weak order, everything handed out so far is sorted,
at any time. -/
theorem merge_sorted (comp : α → α → Bool) (hw : StrictWeak comp) (lhs rhs : Nat → Option α)
    (hcl : Closed lhs) (hcr : Closed rhs) (hsl : SortedSrc comp lhs) (hsr : SortedSrc comp rhs)
    (s : MSt α) (tr : List (Ev α)) (h : (merge comp lhs rhs).Reaches s tr) : SortedBy comp (outs tr) :=
  (merge_sinv hw hcl hcr hsl hsr h).srt

/-- **C28 (merge).**  merge of two sources that end does end. -/
theorem merge_terminates (comp : α → α → Bool) (lhs rhs : Nat → Option α) (xs ys : List α)
    (hx : Yields lhs xs) (hy : Yields rhs ys)
    (ls : List Lbl) (s : MSt α) (tr : List (Ev α)) (h : (merge comp lhs rhs).run ls = some (s, tr)) :
    ls.length ≤ 2 * (xs.length + ys.length) + 3 ∧ (Ev.finished ∈ tr ∨ ∃ r, mstep comp lhs rhs s .go = some r) := by
  constructor
  · have := Machine.runFrom_length_le (merge comp lhs rhs)
      (fun s => 2 * (xs.length - s.i) + 2 * (ys.length - s.j) + 2 * (heldL s.pc).length + 2 * (heldR s.pc).length +
        (match s.pc with | .done => 0 | .loop _ _ => 1 | .start1 => 3 | _ => 2))
      (by
        intro s l s' e hs
        change mstep comp lhs rhs s l = some (s', e) at hs
        have hn := hx.none_iff s.i
        have hm := hy.none_iff s.j
        obtain ⟨pc, i, j⟩ := s
        dsimp only at hn hm
        cases l
        rcases pc with _ | l | ⟨_ | x, _ | y⟩ | r | l | _ <;> simp only [mstep] at hs
        case loop.some.some =>
          split at hs <;> simp only [Option.some.injEq, Prod.mk.injEq] at hs <;> obtain ⟨rfl, rfl⟩ := hs <;>
            simp [heldL, heldR] <;> omega
        case done => simp at hs
        all_goals simp only [Option.some.injEq, Prod.mk.injEq] at hs; obtain ⟨rfl, rfl⟩ := hs
        case loop.none.none => simp [heldL, heldR]
        case loop.some.none => simp [heldL, heldR]
        case loop.none.some => simp [heldL, heldR]
        case start1 =>
          simp only [heldL, heldR]
          cases hl : lhs i with
          | none => simp; omega
          | some v => rw [hl] at hn; simp at hn ⊢; omega
        case start2 =>
          simp only [heldL, heldR]
          cases hl : rhs j with
          | none => simp; omega
          | some v => rw [hl] at hm; simp at hm ⊢; omega
        case fetchL =>
          simp only [heldL, heldR]
          cases hl : lhs i with
          | none => simp; omega
          | some v => rw [hl] at hn; simp at hn ⊢; omega
        case fetchR =>
          simp only [heldL, heldR]
          cases hl : rhs j with
          | none => simp; omega
          | some v => rw [hl] at hm; simp at hm ⊢; omega) ls _ s tr h
    have h0 : (merge comp lhs rhs).init = { pc := .start1, i := 0, j := 0 } := rfl
    rw [h0] at this
    simp [heldL, heldR] at this
    omega
  · have hi := merge_inv ⟨ls, h⟩
    obtain ⟨pc, i, j⟩ := s
    rcases pc with _ | l | ⟨_ | x, _ | y⟩ | r | l | _
    case done => exact Or.inl (hi.ev.2 rfl)
    all_goals right; simp only [mstep]
    case loop.some.some => split <;> exact ⟨_, rfl⟩
    all_goals exact ⟨_, rfl⟩

theorem natLess : StrictWeak (fun a b : Nat => decide (a < b)) := by
  constructor
  · intro a b h; simp at *; omega
  · intro a b c h1 h2; simp at *; omega

example : ∃ s tr, (merge (fun a b : Nat => decide (a < b)) (fun i => [1, 3, 3][i]?) (fun i => [2, 3][i]?)).Reaches s tr ∧
    Ev.finished ∈ tr ∧ outs tr = [1, 2, 3, 3, 3] :=
  ⟨_, _, ⟨List.replicate 13 .go, rfl⟩, by decide⟩

/-! ### to -/

/-- **C28 (to).**  At any time the container holds exactly the values received so far; if the loop has ended, it holds
exactly what the source yields. -/
theorem collect_exact (src : Nat → Option α) (xs : List α) (hx : Yields src xs)
    (s : TSt) (tr : List (Ev α)) (h : (collect src).Reaches s tr) :
    outs tr <+: xs ∧ (Ev.finished ∈ tr → outs tr = xs) := by
  have hi : outs tr = xs.take s.i ∧ (Ev.finished ∈ tr ↔ s.done = true) ∧ (s.done = true → xs.length ≤ s.i) := by
    refine Machine.Reaches.inv (M := collect src)
      (fun s tr => outs tr = xs.take s.i ∧ (Ev.finished ∈ tr ↔ s.done = true) ∧ (s.done = true → xs.length ≤ s.i))
      (by simp [collect]) ?_ h
    clear h s tr
    intro s tr l s' e ih hs
    change tstep src s l = some (s', e) at hs
    obtain ⟨i, d⟩ := s
    obtain ⟨h1, h2, h3⟩ := ih
    have hsrc := hx i
    cases l
    simp only [tstep] at hs
    cases d with
    | true => simp at hs
    | false =>
      simp only [Bool.false_eq_true, if_false, hsrc] at hs
      cases hxi : xs[i]? with
      | none =>
        simp only [hxi, Option.some.injEq, Prod.mk.injEq] at hs; obtain ⟨rfl, rfl⟩ := hs
        rw [List.getElem?_eq_none_iff] at hxi
        refine ⟨?_, by simp, fun _ => by simp; omega⟩
        simp only [outs_append, outs_finished, List.append_nil, h1]
        rw [List.take_of_length_le hxi, List.take_of_length_le (by omega)]
      | some v =>
        simp only [hxi, Option.some.injEq, Prod.mk.injEq] at hs; obtain ⟨rfl, rfl⟩ := hs
        refine ⟨?_, by simpa using h2, by simp⟩
        simp only [outs_append, outs_yielded, h1]
        rw [List.take_add_one, hxi]; rfl
  refine ⟨hi.1 ▸ List.take_prefix _ _, fun hf => ?_⟩
  rw [hi.1, List.take_of_length_le (hi.2.2 (hi.2.1.1 hf))]

/-- **C28 (to).**  Collecting a source that ends does end. -/
theorem collect_terminates (src : Nat → Option α) (xs : List α) (hx : Yields src xs)
    (ls : List Lbl) (s : TSt) (tr : List (Ev α)) (h : (collect src).run ls = some (s, tr)) :
    ls.length ≤ xs.length + 1 := by
  have := Machine.runFrom_length_le (collect src)
    (fun s => if s.done then 0 else (xs.length - s.i) + 1)
    (by
      intro s l s' e hs
      change tstep src s l = some (s', e) at hs
      have hn := hx.none_iff s.i
      cases l
      simp only [tstep] at hs
      split at hs
      · simp at hs
      · rename_i hd
        split at hs
        · rename_i v hv
          simp only [Option.some.injEq, Prod.mk.injEq] at hs; obtain ⟨rfl, rfl⟩ := hs
          rw [hv] at hn
          simp at hn hd
          simp [hd]; omega
        · simp only [Option.some.injEq, Prod.mk.injEq] at hs; obtain ⟨rfl, rfl⟩ := hs
          simp at hd; simp [hd]) ls _ s tr h
  have h0 : (collect src).init = { i := 0, done := false } := rfl
  rw [h0] at this
  simp at this
  omega

example : ∃ s tr, (collect (fun i => [4, 5][i]?)).Reaches s tr ∧ Ev.finished ∈ tr ∧ outs tr = [4, 5] :=
  ⟨_, _, ⟨List.replicate 3 .go, rfl⟩, by decide⟩

end Verif.Adaptor
