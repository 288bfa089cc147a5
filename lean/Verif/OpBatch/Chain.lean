import Verif.OpBatch.Build
/-!
# The kernel working on the entries of a batch: invariant
-/

namespace Verif.OpBatch

/-- shape of the entries of a batch with `m` operations -/
structure Shape (sq : List Sqe) (m : Nat) : Prop where
  len : sq.length = m ∨ sq.length = m + 1
  tmo : ∀ i x, sq[i]? = some x → (isTimeoutEntry x = false ↔ i < m)
  link : ∀ i, i < sq.length → (linkedTo sq i = true ↔ 0 < i)

theorem intended_length (cs : List Call) :
    (intended cs).length = (ops cs).length + (if deadline cs = none then 0 else 1) := by
  simp only [intended, List.length_append, List.length_map]
  obtain hd | ⟨t, hd⟩ := deadline_cases cs <;> simp [hd]

theorem shape_of_submit {cs : List Call} {addr : Nat} {sq : List Sqe}
    (h : (build cs).bind (submit · addr) = some sq) : Shape sq (ops cs).length := by
  obtain ⟨h1, h2⟩ := submit_eq h
  constructor
  · rw [h1, intended_length]; split <;> simp
  · intro i x hx
    rw [h2 i] at hx
    cases hk : (intended cs)[i]? with
    | none => rw [hk] at hx; simp at hx
    | some k =>
      rw [hk] at hx
      simp only [Option.map_some, Option.some.injEq] at hx
      subst hx
      simp only [isTimeoutEntry]
      rw [intended] at hk
      by_cases hi : i < (ops cs).length
      · rw [List.getElem?_append_left (by simpa using hi)] at hk
        simp only [List.getElem?_map, List.getElem?_eq_getElem hi, Option.map_some, Option.some.injEq] at hk
        subst hk; simp [hi]
      · rw [List.getElem?_append_right (by simp; omega)] at hk
        obtain hd | ⟨t, hd⟩ := deadline_cases cs
        · simp [hd] at hk
        · rw [hd] at hk
          simp only [Option.toList_some, List.map_cons, List.map_nil] at hk
          have := List.mem_of_getElem? hk
          simp only [List.mem_singleton] at this
          subst this; simp [hi]
  · intro i hi
    cases i with
    | zero => simp [linkedTo]
    | succ j =>
      simp only [linkedTo]
      rw [h2 j]
      have : j < (intended cs).length := by omega
      simp [List.getElem?_eq_getElem this, hi]

def cqes (tr : List KEv) : List (Nat × Int) := tr.filterMap fun | .cqe i r => some (i, r) | _ => none

theorem mem_cqes {i : Nat} {r : Int} {tr : List KEv} : (i, r) ∈ cqes tr ↔ KEv.cqe i r ∈ tr := by
  simp only [cqes, List.mem_filterMap]
  constructor
  · rintro ⟨e, he, h⟩
    cases e <;> simp at h
    obtain ⟨rfl, rfl⟩ := h; exact he
  · intro h; exact ⟨_, h, rfl⟩

theorem reported_eq (tr : List KEv) : reported tr = (cqes tr).map (·.2) := by
  simp only [reported, cqes, List.map_filterMap]
  congr 1
  funext e
  cases e <;> rfl

structure Inv (sq : List Sqe) (m : Nat) (s : KSt) (tr : List KEv) : Prop where
  a : ∀ i r, KEv.cqe i r ∈ tr → ∃ ok, s.ph i = .done ok ∧ (ok = true → 0 ≤ r)
  b : ∀ i ok, s.ph i = .done ok → ∃ r, KEv.cqe i r ∈ tr ∧ (ok = true → 0 ≤ r)
  c : ∀ j, KEv.began j ∈ tr → j < m ∧ s.ph j ≠ .waiting ∧ ∀ i, i < j → s.ph i = .done true
  d : ∀ j, s.ph j = .running ∨ s.ph j = .canceling → j < m ∧ KEv.began j ∈ tr
  e : ∀ j r, KEv.cqe j r ∈ tr → j < m → KEv.began j ∈ tr ∨ r = -ECANCELED
  f : ∀ i, i < m → s.ph i ≠ .waiting → ∀ k, k < i → (s.ph k).isDone = true
  g : ∀ i, s.ph i ≠ .waiting → i < sq.length
  g2 : ∀ i, s.ph i = .armed ∨ s.ph i = .fired → i = m ∧ 0 < m ∧ s.ph (m - 1) ≠ .waiting
  t : ∀ r, KEv.cqe m r ∈ tr → r = -ETIME ∨ r = -114 ∨ r = -ECANCELED
  nd : ((cqes tr).map (·.1)).Nodup

theorem inv_init (sq : List Sqe) (m : Nat) : Inv sq m ⟨fun _ => .waiting, 0⟩ [] := by
  constructor <;> simp [cqes]

/-- one entry reports and is done -/
theorem inv_report {sq : List Sqe} {m : Nat} {s : KSt} {tr : List KEv} (hi : Inv sq m s tr) (i : Nat) (r : Int) (ok : Bool)
    (hok : ok = true → 0 ≤ r) (hnd : (s.ph i).isDone = false) (hlen : i < sq.length)
    (hbeg : i < m → KEv.began i ∈ tr ∨ (r = -ECANCELED ∧ s.ph i = .waiting ∧ ∀ k, k < i → (s.ph k).isDone = true))
    (ht : i = m → r = -ETIME ∨ r = -114 ∨ r = -ECANCELED) :
    Inv sq m { s with ph := upd s.ph i (.done ok) } (tr ++ [.cqe i r]) := by
  have hno : ∀ r', KEv.cqe i r' ∉ tr := by
    intro r' h; obtain ⟨ok', h1, -⟩ := hi.a i r' h; rw [h1] at hnd; simp [Phase.isDone] at hnd
  constructor <;> (try dsimp only)
  · intro j r' h
    simp only [List.mem_append, List.mem_singleton, KEv.cqe.injEq] at h
    rcases h with h | ⟨rfl, rfl⟩
    · rw [upd_ne _ _ (by rintro rfl; exact hno _ h)]; exact hi.a j r' h
    · rw [upd_same]; exact ⟨ok, rfl, hok⟩
  · intro j ok' h
    by_cases hj : j = i
    · subst hj; rw [upd_same] at h; injection h with h; subst h; exact ⟨r, by simp, hok⟩
    · rw [upd_ne _ _ hj] at h
      obtain ⟨r', h1, h2⟩ := hi.b j ok' h; exact ⟨r', by simp [h1], h2⟩
  · intro j h
    simp at h
    obtain ⟨h1, h2, h3⟩ := hi.c j h
    refine ⟨h1, ?_, ?_⟩
    · by_cases hj : j = i
      · subst hj; rw [upd_same]; simp
      · rw [upd_ne _ _ hj]; exact h2
    · intro k hk
      rw [upd_ne _ _]
      · exact h3 k hk
      · rintro rfl; rw [h3 k hk] at hnd; simp [Phase.isDone] at hnd
  · intro j h
    by_cases hj : j = i
    · subst hj; rw [upd_same] at h; simp at h
    · rw [upd_ne _ _ hj] at h; obtain ⟨h1, h2⟩ := hi.d j h; exact ⟨h1, by simp [h2]⟩
  · intro j r' h hj
    simp only [List.mem_append, List.mem_singleton, KEv.cqe.injEq] at h
    rcases h with h | ⟨rfl, rfl⟩
    · rcases hi.e j r' h hj with h | h
      · exact Or.inl (by simp [h])
      · exact Or.inr h
    · rcases hbeg hj with h | h
      · exact Or.inl (by simp [h])
      · exact Or.inr h.1
  · intro j hj h k hk
    by_cases hki : k = i
    · subst hki; rw [upd_same]; rfl
    · rw [upd_ne _ _ hki]
      by_cases hji : j = i
      · subst hji
        rcases hbeg hj with h' | h'
        · have := (hi.c j h').2.2 k hk; rw [this]; rfl
        · exact h'.2.2 k hk
      · rw [upd_ne _ _ hji] at h; exact hi.f j hj h k hk
  · intro j h
    by_cases hj : j = i
    · subst hj; exact hlen
    · rw [upd_ne _ _ hj] at h; exact hi.g j h
  · intro j h
    by_cases hj : j = i
    · subst hj; rw [upd_same] at h; simp at h
    · rw [upd_ne _ _ hj] at h
      obtain ⟨h1, h2, h3⟩ := hi.g2 j h
      refine ⟨h1, h2, ?_⟩
      by_cases hm : m - 1 = i
      · rw [hm, upd_same]; simp
      · rw [upd_ne _ _ hm]; exact h3
  · intro r' h
    simp only [List.mem_append, List.mem_singleton, KEv.cqe.injEq] at h
    rcases h with h | ⟨rfl, rfl⟩
    · exact hi.t r' h
    · exact ht rfl
  · simp only [cqes, List.filterMap_append, List.filterMap_cons, List.filterMap_nil, List.map_append, List.map_cons, List.map_nil]
    rw [List.nodup_append]
    refine ⟨hi.nd, by simp, ?_⟩
    intro x hx y hy
    simp at hy; subst hy
    rintro rfl
    obtain ⟨⟨i', r'⟩, h1, h2⟩ := List.mem_map.1 hx
    dsimp at h2; subst h2
    exact hno r' (mem_cqes.1 h1)

theorem inv_step {sq : List Sqe} {m : Nat} (sh : Shape sq m) {s s' : KSt} {tr e : List KEv} {l : KLbl}
    (hi : Inv sq m s tr) (hs : kstep sq s l = some (s', e)) : Inv sq m s' (tr ++ e) := by
  cases l with
  | tick =>
    simp only [kstep, Option.some.injEq, Prod.mk.injEq] at hs
    obtain ⟨rfl, rfl⟩ := hs
    rw [List.append_nil]
    exact ⟨hi.a, hi.b, hi.c, hi.d, hi.e, hi.f, hi.g, hi.g2, hi.t, hi.nd⟩
  | start i =>
    simp only [kstep] at hs
    split at hs
    · simp at hs
    · rename_i x hx
      split at hs <;> simp only [Option.some.injEq, Prod.mk.injEq, reduceCtorEq] at hs
      rename_i hc
      obtain ⟨rfl, rfl⟩ := hs
      obtain ⟨h1, h2, h3⟩ := hc
      have him : i < m := (sh.tmo i x hx).1 h1
      have hil : i < sq.length := (List.getElem?_eq_some_iff.1 hx).1
      have hprev : ∀ k, k < i → s.ph k = .done true := by
        intro k hk
        rcases h3 with h3 | h3
        · have := (sh.link i hil).2 (by omega); rw [this] at h3; simp at h3
        · obtain ⟨r, hr, hok⟩ := hi.b _ _ h3
          by_cases hki : k = i - 1
          · subst hki; exact h3
          · have hb : KEv.began (i - 1) ∈ tr := by
              rcases hi.e _ _ hr (by omega) with h | h
              · exact h
              · have := hok rfl; rw [h] at this; simp [ECANCELED] at this
            exact (hi.c _ hb).2.2 k (by omega)
      have hno : ∀ r', KEv.cqe i r' ∉ tr := by
        intro r' h; obtain ⟨ok', h4, -⟩ := hi.a i r' h; rw [h4] at h2; simp at h2
      constructor <;> (try dsimp only)
      · intro j r h
        simp at h
        rw [upd_ne _ _ (by rintro rfl; exact hno _ h)]; exact hi.a j r h
      · intro j ok h
        by_cases hj : j = i
        · subst hj; rw [upd_same] at h; simp at h
        · rw [upd_ne _ _ hj] at h; obtain ⟨r, h4, h5⟩ := hi.b j ok h; exact ⟨r, by simp [h4], h5⟩
      · intro j h
        simp only [List.mem_append, List.mem_singleton, KEv.began.injEq] at h
        rcases h with h | rfl
        · obtain ⟨h4, h5, h6⟩ := hi.c j h
          have hji : j ≠ i := by rintro rfl; exact h5 h2
          refine ⟨h4, by rw [upd_ne _ _ hji]; exact h5, fun k hk => ?_⟩
          rw [upd_ne _ _ (by rintro rfl; rw [h6 k hk] at h2; simp at h2)]
          exact h6 k hk
        · refine ⟨him, by rw [upd_same]; simp, fun k hk => ?_⟩
          rw [upd_ne _ _ (by omega)]; exact hprev k hk
      · intro j h
        by_cases hj : j = i
        · subst hj; exact ⟨him, by simp⟩
        · rw [upd_ne _ _ hj] at h; obtain ⟨h4, h5⟩ := hi.d j h; exact ⟨h4, by simp [h5]⟩
      · intro j r h hj
        simp at h
        rcases hi.e j r h hj with h | h
        · exact Or.inl (by simp [h])
        · exact Or.inr h
      · intro j hj h k hk
        by_cases hji : j = i
        · subst hji
          rw [upd_ne _ _ (by omega), hprev k hk]; rfl
        · rw [upd_ne _ _ hji] at h
          have h4 := hi.f j hj h k hk
          rw [upd_ne _ _ (by rintro rfl; rw [h2] at h4; simp [Phase.isDone] at h4)]; exact h4
      · intro j h
        by_cases hj : j = i
        · subst hj; exact hil
        · rw [upd_ne _ _ hj] at h; exact hi.g j h
      · intro j h
        by_cases hj : j = i
        · subst hj; rw [upd_same] at h; simp at h
        · rw [upd_ne _ _ hj] at h
          obtain ⟨h4, h5, h6⟩ := hi.g2 j h
          refine ⟨h4, h5, ?_⟩
          rw [upd_ne _ _ (by rintro rfl; exact h6 h2)]; exact h6
      · intro r h; simp at h; exact hi.t r h
      · simpa [cqes] using hi.nd
  | arm i =>
    simp only [kstep] at hs
    split at hs
    · simp at hs
    · rename_i x hx
      split at hs <;> simp only [Option.some.injEq, Prod.mk.injEq, reduceCtorEq] at hs
      rename_i hc
      obtain ⟨rfl, rfl⟩ := hs
      obtain ⟨h1, h2, h3, h4⟩ := hc
      have hil : i < sq.length := (List.getElem?_eq_some_iff.1 hx).1
      have him : i = m := by
        have := sh.tmo i x hx
        rw [h1] at this
        have hl := sh.len
        simp at this
        omega
      have hpos := (sh.link i hil).1 h3
      subst him
      rw [List.append_nil]
      constructor <;> (try dsimp only)
      · intro j r h
        have := hi.a j r h
        rw [upd_ne _ _ (by rintro rfl; obtain ⟨ok, h5, _⟩ := this; rw [h2] at h5; simp at h5)]; exact this
      · intro j ok h
        by_cases hj : j = i
        · subst hj; rw [upd_same] at h; simp at h
        · rw [upd_ne _ _ hj] at h; exact hi.b j ok h
      · intro j h
        obtain ⟨h5, h6, h7⟩ := hi.c j h
        refine ⟨h5, by rw [upd_ne _ _ (by omega)]; exact h6, fun k hk => by rw [upd_ne _ _ (by omega)]; exact h7 k hk⟩
      · intro j h
        by_cases hj : j = i
        · subst hj; rw [upd_same] at h; simp at h
        · rw [upd_ne _ _ hj] at h; exact hi.d j h
      · exact hi.e
      · intro j hj h k hk
        rw [upd_ne _ _ (by omega)] at h ⊢
        exact hi.f j hj h k hk
      · intro j h
        by_cases hj : j = i
        · subst hj; exact hil
        · rw [upd_ne _ _ hj] at h; exact hi.g j h
      · intro j h
        by_cases hj : j = i
        · subst hj; exact ⟨rfl, hpos, by rw [upd_ne _ _ (by omega), h4]; simp⟩
        · rw [upd_ne _ _ hj] at h
          exact absurd (hi.g2 j h).1 hj
      · exact hi.t
      · exact hi.nd
  | fire i =>
    simp only [kstep] at hs
    split at hs
    · split at hs <;> simp only [Option.some.injEq, Prod.mk.injEq, reduceCtorEq] at hs
      rename_i tp lk ud hx hc
      obtain ⟨rfl, rfl⟩ := hs
      obtain ⟨h1, -, h2⟩ := hc
      obtain ⟨h3, h4, -⟩ := hi.g2 i (Or.inl h1)
      subst h3
      rw [List.append_nil]
      have hb := (hi.d _ (Or.inl h2)).2
      have hnz : i - 1 ≠ i := by omega
      have hval : ∀ j, j ≠ i → j ≠ i - 1 → upd (upd s.ph (i - 1) .canceling) i .fired j = s.ph j := by
        intro j h5 h6; rw [upd_ne _ _ h5, upd_ne _ _ h6]
      have hv1 : upd (upd s.ph (i - 1) .canceling) i .fired (i - 1) = .canceling := by rw [upd_ne _ _ hnz, upd_same]
      have hdone : ∀ j ok, upd (upd s.ph (i - 1) .canceling) i .fired j = .done ok ↔ s.ph j = .done ok := by
        intro j ok
        by_cases h5 : j = i
        · subst h5; rw [upd_same, h1]; simp
        · by_cases h6 : j = i - 1
          · subst h6; rw [hv1, h2]; simp
          · rw [hval j h5 h6]
      have hwait : ∀ j, upd (upd s.ph (i - 1) .canceling) i .fired j = .waiting ↔ s.ph j = .waiting := by
        intro j
        by_cases h5 : j = i
        · subst h5; rw [upd_same, h1]; simp
        · by_cases h6 : j = i - 1
          · subst h6; rw [hv1, h2]; simp
          · rw [hval j h5 h6]
      constructor <;> (try dsimp only)
      · intro j r h; obtain ⟨ok, h5, h6⟩ := hi.a j r h; exact ⟨ok, (hdone j ok).2 h5, h6⟩
      · intro j ok h; exact hi.b j ok ((hdone j ok).1 h)
      · intro j h
        obtain ⟨h5, h6, h7⟩ := hi.c j h
        exact ⟨h5, by rw [ne_eq, hwait]; exact h6, fun k hk => (hdone _ _).2 (h7 k hk)⟩
      · intro j h
        by_cases h5 : j = i
        · subst h5; rw [upd_same] at h; simp at h
        · by_cases h6 : j = i - 1
          · subst h6; exact ⟨by omega, hb⟩
          · rw [hval j h5 h6] at h; exact hi.d j h
      · exact hi.e
      · intro j hj h k hk
        rw [ne_eq, hwait] at h
        have := hi.f j hj h k hk
        cases hk' : s.ph k with
        | done ok => rw [(hdone k ok).2 hk']; rfl
        | _ => rw [hk'] at this; simp [Phase.isDone] at this
      · intro j h; rw [ne_eq, hwait] at h; exact hi.g j h
      · intro j h
        by_cases h5 : j = i
        · subst h5; exact ⟨rfl, h4, by rw [hv1]; simp⟩
        · by_cases h6 : j = i - 1
          · subst h6; rw [hv1] at h; simp at h
          · rw [hval j h5 h6] at h; exact absurd (hi.g2 j h).1 h5
      · exact hi.t
      · exact hi.nd
    · simp at hs
  | report i late =>
    simp only [kstep] at hs
    split at hs <;> simp only [Option.some.injEq, Prod.mk.injEq, reduceCtorEq] at hs
    rename_i hc
    obtain ⟨rfl, rfl⟩ := hs
    obtain ⟨h3, h4, -⟩ := hi.g2 i (Or.inr hc)
    refine inv_report hi i _ false (by simp) (by rw [hc]; rfl) (hi.g i (by rw [hc]; simp)) (by omega) ?_
    intro _; cases late <;> simp
  | cancelled i =>
    simp only [kstep] at hs
    split at hs <;> simp only [Option.some.injEq, Prod.mk.injEq, reduceCtorEq] at hs
    rename_i hc
    obtain ⟨rfl, rfl⟩ := hs
    exact inv_report hi i _ false (by simp) (by rw [hc]; rfl) (hi.g i (by rw [hc]; simp))
      (fun _ => Or.inl (hi.d i (Or.inr hc)).2) (by simp)
  | finish i res short =>
    simp only [kstep] at hs
    split at hs <;> simp only [Option.some.injEq, Prod.mk.injEq, reduceCtorEq] at hs
    rename_i hc
    obtain ⟨rfl, rfl⟩ := hs
    refine inv_report hi i _ _ ?_ ?_ ?_ (fun _ => Or.inl (hi.d i hc).2) ?_
    · simp; intro h _; exact h
    · rcases hc with hc | hc <;> rw [hc] <;> rfl
    · exact hi.g i (by rcases hc with hc | hc <;> rw [hc] <;> simp)
    · intro h; have := (hi.d i hc).1; omega
  | sever i =>
    simp only [kstep] at hs
    split at hs
    · simp at hs
    · rename_i x hx
      split at hs <;> simp only [Option.some.injEq, Prod.mk.injEq, reduceCtorEq] at hs
      rename_i hc
      obtain ⟨rfl, rfl⟩ := hs
      have hil : i < sq.length := (List.getElem?_eq_some_iff.1 hx).1
      refine inv_report hi i _ false (by simp) ?_ hil ?_ (by simp)
      · rcases hc with ⟨-, h, -⟩ | ⟨-, h | h, -⟩ <;> rw [h] <;> rfl
      · intro him
        have h1 := (sh.tmo i x hx).2 him
        rcases hc with ⟨-, h2, h3, h4⟩ | ⟨h2, -⟩
        · refine Or.inr ⟨rfl, h2, fun k hk => ?_⟩
          by_cases hki : k = i - 1
          · subst hki; rw [h4]; rfl
          · exact hi.f (i - 1) (by omega) (by rw [h4]; simp) k (by omega)
        · rw [h1] at h2; simp at h2

theorem inv_of_reaches {sq : List Sqe} {m : Nat} (sh : Shape sq m) {s : KSt} {tr : List KEv}
    (h : (chain sq).Reaches s tr) : Inv sq m s tr :=
  Machine.Reaches.inv (M := chain sq) (Inv sq m) (inv_init sq m) (fun _ _ _ _ _ hi hs => inv_step sh hi hs) h

end Verif.OpBatch
