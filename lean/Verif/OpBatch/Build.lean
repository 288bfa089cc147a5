import Verif.OpBatch.Model
/-!
# C38, first half: what a batch hands to the kernel
-/

namespace Verif.OpBatch

theorem ops_append (a b : List Call) : ops (a ++ b) = ops a ++ ops b := by simp [ops]

theorem deadline_prep (a : List Call) (o : Nat) : deadline (a ++ [.prep o]) = deadline a := by simp [deadline]
theorem deadline_none (a : List Call) : deadline (a ++ [.timeout none]) = deadline a := by simp [deadline]
theorem deadline_some (a : List Call) (t : Nat) : deadline (a ++ [.timeout (some t)]) = some t := by simp [deadline]

/-- The contents of a batch under construction. -/
def contents (cs : List Call) : List Sqe :=
  (ops cs).map (fun o => ⟨.op o, true, 0⟩) ++ (deadline cs).toList.map (fun t => ⟨.timeout t, false, 0⟩)

theorem deadline_cases (cs : List Call) : deadline cs = none ∨ ∃ t, deadline cs = some t := by
  cases deadline cs <;> simp

theorem build_eq (cs : List Call) : build cs = some ⟨contents cs, [], (deadline cs).isSome⟩ := by
  induction cs using List.reverseRecOn with
  | nil => rfl
  | append_singleton cs c ih =>
    have : build (cs ++ [c]) = (build cs).bind fun b => call b c := by
      simp [build, List.foldlM_append]
    rw [this, ih, Option.bind_some]
    cases c with
    | prep o =>
      simp only [call, prep, getSqe, contents, ops_append, deadline_prep]
      obtain hd | ⟨t, hd⟩ := deadline_cases cs <;> simp [ops, hd]
    | timeout tp =>
      cases tp with
      | none => simp only [call, timeout, contents, ops_append, deadline_none]; simp [ops]
      | some t =>
        simp only [call, timeout, getSqe, contents, ops_append, deadline_some]
        obtain hd | ⟨t, hd⟩ := deadline_cases cs <;> simp [ops, hd]

/-- the entries as submitted -/
theorem submit_eq {cs : List Call} {addr : Nat} {sq : List Sqe}
    (h : (build cs).bind (submit · addr) = some sq) :
    sq.length = (intended cs).length ∧ ∀ i, sq[i]? = (intended cs)[i]?.map fun k => (⟨k, decide (i + 1 < sq.length), addr⟩ : Sqe) := by
  rw [build_eq, Option.bind_some, submit] at h
  split at h
  · simp at h
  · simp only [Option.some.injEq] at h
    rename_i hne
    simp only [contents, intended] at *
    cases hd : deadline cs with
    | none =>
      rw [hd] at h hne
      simp only [Option.toList_none, List.map_nil, List.append_nil] at h hne ⊢
      have hops : ops cs ≠ [] := by simpa using hne
      have hlen : sq.length = (ops cs).length := by
        rw [← h]; simp
      refine ⟨by simp [hlen], fun i => ?_⟩
      rw [hlen, ← h]
      generalize ops cs = l at *
      clear h hne hlen
      induction l using List.reverseRecOn with
      | nil => simp at hops
      | append_singleton l o _ =>
        simp only [List.map_append, List.map_cons, List.map_nil, List.length_append, List.length_map, List.length_cons,
          List.length_nil, Nat.zero_add, Nat.add_sub_cancel, List.dropLast_concat]
        rcases Nat.lt_trichotomy i l.length with hi | rfl | hi
        · rw [List.getElem?_append_left (by simpa using hi), List.getElem?_append_left (by simpa using hi)]
          simp only [List.getElem?_map, List.getElem?_eq_getElem hi, Option.map_some]
          simp [hi]
        · simp [List.drop_append]
        · rw [List.getElem?_eq_none (by simp; omega), List.getElem?_eq_none (by simp; omega)]; rfl
    | some t =>
      rw [hd] at h hne
      simp only [Option.toList_some, List.map_cons, List.map_nil] at h hne ⊢
      have hlen : sq.length = (ops cs).length + 1 := by
        rw [← h]; simp
      refine ⟨by simp [hlen], fun i => ?_⟩
      rw [hlen, ← h]
      generalize ops cs = l at *
      simp only [List.map_append, List.map_cons, List.map_nil, List.length_append, List.length_map, List.length_cons,
          List.length_nil, Nat.zero_add, Nat.add_sub_cancel, List.dropLast_concat]
      rcases Nat.lt_trichotomy i l.length with hi | rfl | hi
      · rw [List.getElem?_append_left (by simpa using hi), List.getElem?_append_left (by simpa using hi)]
        simp only [List.getElem?_map, List.getElem?_eq_getElem hi, Option.map_some]
        simp [hi]
      · simp [List.drop_append]
      · rw [List.getElem?_eq_none (by simp; omega), List.getElem?_eq_none (by simp; omega)]; rfl

/-- **C38.**  Whatever the order of the prep and timeout calls on a fresh batch, no call is undefined, and if there is anything to
do, the kernel is asked for the operations in the order in which they were queued, followed by the last time-out that was set;
every entry but the last is linked to its successor, and every entry carries the identity of the awaiting coroutine. -/
theorem batch_submission (cs : List Call) (addr : Nat) :
    ∃ b, build cs = some b ∧ (intended cs ≠ [] → ∃ sq, submit b addr = some sq ∧ sq.map (·.kind) = intended cs ∧
      ∀ i x, sq[i]? = some x → (x.link = true ↔ i + 1 < sq.length) ∧ x.ud = addr) := by
  refine ⟨_, build_eq cs, fun hne => ?_⟩
  obtain ⟨sq, hsq⟩ : ∃ sq, submit ⟨contents cs, [], (deadline cs).isSome⟩ addr = some sq := by
    rw [submit, if_neg]
    · exact ⟨_, rfl⟩
    · intro hc
      apply hne
      simp only [contents, intended] at *
      cases hd : deadline cs <;> simp_all
  have := submit_eq (cs := cs) (addr := addr) (sq := sq) (by rw [build_eq]; exact hsq)
  refine ⟨sq, hsq, ?_, ?_⟩
  · apply List.ext_getElem?
    intro i
    rw [List.getElem?_map, this.2 i]
    cases (intended cs)[i]? <;> rfl
  · intro i x hx
    rw [this.2 i] at hx
    cases hk : (intended cs)[i]? with
    | none => rw [hk] at hx; simp at hx
    | some k =>
      rw [hk] at hx
      simp only [Option.map_some, Option.some.injEq] at hx
      subst hx
      simp

/-- The hypotheses are met: a time-out set first, replaced later. -/
example : intended [.timeout (some 3), .prep 7, .prep 8, .timeout (some 5), .timeout none, .prep 9]
    = [.op 7, .op 8, .op 9, .timeout 5] := by decide

end Verif.OpBatch
