import Verif.WSQ.Proofs
/-! Undisturbed calls. -/

namespace Verif.WSQ

/-- Executions from `s0` in which only caller `a` acts. -/
def solo (spur : Bool) (a : Nat) (s0 : St) : Machine St Lbl Ev :=
  { init := s0, step := fun s l => if l.agent = a then step spur s l else none }

theorem key_unique {m : Map} (h : (keys m).Nodup) {t i j : Nat} (hi : (t, i) ∈ m) (hj : (t, j) ∈ m) : i = j := by
  induction m with
  | nil => simp at hi
  | cons p m ih =>
    simp only [keys, List.map_cons, List.nodup_cons] at h
    simp only [List.mem_cons] at hi hj
    rcases hi with rfl | hi <;> rcases hj with hj | hj
    · simpa using hj.symm
    · exact absurd (mem_keys hj) h.1
    · subst hj; exact absurd (mem_keys hi) h.1
    · exact ih h.2 hi hj

theorem sum_erase (f : Nat → Nat) {l : List Nat} {i : Nat} (h : i ∈ l) :
    f i + ((l.erase i).map f).sum = (l.map f).sum := by
  have := (List.perm_cons_erase h).map f
  rw [this.sum_nat]; simp

/-- Where an undisturbed call is. -/
def At (m : Map) (c : Nat → List Nat) : Op → Pc → Prop
  | o, .spin o' => o' = o
  | .enq t, .enqPush t' m' => t' = t ∧ m' = m
  | .deq t, .deqOwn t' m' => t' = t ∧ m' = m
  | .deq t, .steal rest => (∀ i, (t, i) ∈ m → c i = []) ∧ rest ⊆ qids m ∧ ∀ i ∈ qids m, i ∉ rest → c i = []
  | .size, .sizing rest acc => acc + (rest.map fun i => (c i).length).sum = total c m
  | _, _ => False

/-- How an undisturbed call ends. -/
def Ended (a : Nat) (m : Map) (c : Nat → List Nat) (o : Op) (ev : Ev) (c' : Nat → List Nat) : Prop :=
  match o with
  | .enq t => (∃ i x, ev = .enqueued a x ∧ c' = upd c i (c i ++ [x]) ∧ i ∈ qids m ∧
        (t ∈ keys m → (t, i) ∈ m)) ∨ (ev = .ub a ∧ m = [])
  | .deq t => (∃ i x, ev = .got a x ∧ i ∈ qids m ∧ x ∈ c i ∧ c' = upd c i ((c i).erase x) ∧
        ∀ j, (t, j) ∈ m → c j ≠ [] → i = j) ∨
      (ev = .gotNone a ∧ c' = c ∧ ∀ i ∈ qids m, c i = []) ∨ (ev = .ub a ∧ t ∉ keys m)
  | .size => ev = .sizeIs a (total c m) ∧ c' = c
  | .add _ => True

structure Solo0 (a : Nat) (s0 : St) (m : Map) : Prop where
  idle : s0.pc a = .idle
  pub  : s0.pub = some m
  nk   : (keys m).Nodup

def SoloInv (a : Nat) (s0 : St) (m : Map) (s : St) (e : List Ev) : Prop :=
  (e = [] ∧ s = s0) ∨
  (∃ o p, e = [.called a o] ∧ (∀ t, o ≠ .add t) ∧ s = { s0 with pc := upd s0.pc a p } ∧ At m s0.content o p) ∨
  (∃ o ev, (∀ t, o ≠ .add t) ∧ e = [.called a o, ev] ∧ Ended a m s0.content o ev s.content ∧
    (s.pc a = .idle ∨ s.pc a = .dead)) ∨
  (∃ t r, e = .called a (.add t) :: r) ∨ 3 ≤ e.length

theorem solo_step {a : Nat} {s0 : St} {m : Map} (h0 : Solo0 a s0 m) {s s' : St} {tr e : List Ev} {l : Lbl}
    (h : SoloInv a s0 m s tr) (hs : (solo false a s0).step s l = some (s', e)) :
    SoloInv a s0 m s' (tr ++ e) := by
  have hag : l.agent = a := by
    simp only [solo] at hs; split at hs
    · assumption
    · simp at hs
  replace hs : step false s l = some (s', e) := by simpa [solo, hag] using hs
  rcases h with ⟨rfl, rfl⟩ | ⟨o, p, rfl, ho, rfl, hat⟩ | ⟨o, ev, ho, rfl, hend, hpc⟩ | ⟨t, r, rfl⟩ | h3
  · -- first step: a call
    cases l <;> simp only [Lbl.agent] at hag <;> subst hag <;> simp only [step, h0.idle] at hs
    case call b o =>
      simp only [if_true, Option.some.injEq, Prod.mk.injEq] at hs; obtain ⟨rfl, rfl⟩ := hs
      by_cases ho : ∃ t, o = .add t
      · obtain ⟨t, rfl⟩ := ho
        right; right; right; left; exact ⟨t, [], by simp⟩
      · right; left
        exact ⟨o, .spin o, by simp, by simpa using ho, rfl, rfl⟩
    all_goals simp at hs
  · -- inside of the call
    have hupd : ∀ q : Pc, upd (upd s0.pc a p) a q = upd s0.pc a q := by
      intro q; funext b; by_cases hb : b = a <;> simp [upd, hb]
    cases l with
    | call b o' =>
      simp only [Lbl.agent] at hag; subst hag
      simp only [step, upd_same] at hs
      split at hs
      · rename_i hp; subst hp; exact absurd hat (by cases o <;> simp [At])
      · simp at hs
    | load b =>
      simp only [Lbl.agent] at hag; subst hag
      simp only [step, upd_same] at hs
      split at hs
      · rename_i o' m' hpub
        have : o' = o := by cases o <;> exact hat
        subst this
        rw [h0.pub] at hpub
        simp only [Option.some.injEq] at hpub; subst hpub
        simp only [Option.some.injEq, Prod.mk.injEq] at hs; obtain ⟨rfl, rfl⟩ := hs
        right; left
        refine ⟨o', afterLoad m o', by simp, ho, ?_, ?_⟩
        · have : pubAfterLoad m o' = s0.pub := by
            rw [h0.pub]; cases o' with
            | add t => exact absurd rfl (ho t)
            | _ => rfl
          rw [hupd, this]
        · cases o' with
          | add t => exact absurd rfl (ho t)
          | enq t => exact ⟨rfl, rfl⟩
          | deq t => exact ⟨rfl, rfl⟩
          | size => simp [afterLoad, At, total]
      · simp at hs
    | store b =>
      simp only [Lbl.agent] at hag; subst hag
      simp only [step, upd_same] at hs
      split at hs
      · exact absurd hat (by cases o <;> simp [At])
      · simp at hs
    | push b i =>
      simp only [Lbl.agent] at hag; subst hag
      simp only [step, upd_same] at hs
      split at hs
      · rename_i t' m'
        split at hs
        · rename_i hc
          simp only [Option.some.injEq, Prod.mk.injEq] at hs; obtain ⟨rfl, rfl⟩ := hs
          cases o with
          | enq t =>
            obtain ⟨rfl, rfl⟩ := hat
            right; right; left
            refine ⟨_, _, ho, rfl, Or.inl ⟨i, s0.next, rfl, rfl, ?_, ?_⟩, Or.inl (by simp)⟩
            · rcases hc with hc | hc
              · exact mem_qids hc
              · exact hc.2
            · intro hk; rcases hc with hc | hc
              · exact hc
              · exact absurd hk hc.1
          | _ => exact absurd hat (by simp [At])
        · simp at hs
      · simp at hs
    | take b i x =>
      simp only [Lbl.agent] at hag; subst hag
      simp only [step, upd_same] at hs
      split at hs
      · rename_i t' m'
        split at hs
        · rename_i hc
          simp only [Option.some.injEq, Prod.mk.injEq] at hs; obtain ⟨rfl, rfl⟩ := hs
          cases o with
          | deq t =>
            obtain ⟨rfl, rfl⟩ := hat
            right; right; left
            refine ⟨_, _, ho, rfl, Or.inl ⟨i, x, rfl, mem_qids hc.1, hc.2, rfl, ?_⟩,
              Or.inl (by simp)⟩
            intro j hj _; exact key_unique h0.nk hc.1 hj
          | _ => exact absurd hat (by simp [At])
        · simp at hs
      · rename_i rest
        split at hs
        · rename_i hc
          simp only [Option.some.injEq, Prod.mk.injEq] at hs; obtain ⟨rfl, rfl⟩ := hs
          cases o with
          | deq t =>
            obtain ⟨h1, h2, h3⟩ := hat
            right; right; left
            refine ⟨_, _, ho, rfl, Or.inl ⟨i, x, rfl, h2 hc.1, hc.2, rfl, ?_⟩,
              Or.inl (by simp)⟩
            intro j hj hne; exact absurd (h1 j hj) hne
          | _ => exact absurd hat (by simp [At])
        · simp at hs
      · simp at hs
    | miss b i =>
      simp only [Lbl.agent] at hag; subst hag
      simp only [step, upd_same] at hs
      split at hs
      · rename_i t' m'
        split at hs
        · rename_i hc
          simp only [Option.some.injEq, Prod.mk.injEq] at hs; obtain ⟨rfl, rfl⟩ := hs
          cases o with
          | deq t =>
            obtain ⟨rfl, rfl⟩ := hat
            have hci : s0.content i = [] := by simpa using hc.2
            right; left
            refine ⟨_, .steal (qids m'), by simp, ho, by rw [hupd], ?_, fun _ => id, fun i h1 h2 => absurd h1 h2⟩
            intro j hj; rw [← key_unique h0.nk hc.1 hj]; exact hci
          | _ => exact absurd hat (by simp [At])
        · simp at hs
      · rename_i rest
        split at hs
        · rename_i hc
          simp only [Option.some.injEq, Prod.mk.injEq] at hs; obtain ⟨rfl, rfl⟩ := hs
          cases o with
          | deq t =>
            obtain ⟨h1, h2, h3⟩ := hat
            have hci : s0.content i = [] := by simpa using hc.2
            right; left
            refine ⟨.deq t, .steal (rest.erase i), by simp, ho, by rw [hupd], h1,
              fun j hj => h2 (List.mem_of_mem_erase hj), ?_⟩
            intro j hj hjn
            by_cases hji : j = i
            · rw [hji]; exact hci
            · exact h3 j hj (fun hh => hjn ((List.mem_erase_of_ne hji).2 hh))
          | _ => exact absurd hat (by simp [At])
        · simp at hs
      · simp at hs
    | count b i =>
      simp only [Lbl.agent] at hag; subst hag
      simp only [step, upd_same] at hs
      split at hs
      · rename_i rest acc
        split at hs
        · rename_i hc
          simp only [Option.some.injEq, Prod.mk.injEq] at hs; obtain ⟨rfl, rfl⟩ := hs
          cases o with
          | size =>
            right; left
            refine ⟨.size, .sizing (rest.erase i) (acc + (s0.content i).length), by simp, ho, by rw [hupd], ?_⟩
            have := sum_erase (fun i => (s0.content i).length) hc
            simp only [At] at hat ⊢; omega
          | _ => exact absurd hat (by simp [At])
        · simp at hs
      · simp at hs
    | finish b =>
      simp only [Lbl.agent] at hag; subst hag
      simp only [step, upd_same] at hs
      split at hs
      · simp only [Option.some.injEq, Prod.mk.injEq] at hs; obtain ⟨rfl, rfl⟩ := hs
        cases o with
        | deq t =>
          obtain ⟨h1, h2, h3⟩ := hat
          right; right; left
          exact ⟨_, _, ho, rfl, Or.inr (Or.inl ⟨rfl, rfl, fun i hi => h3 i hi (by simp)⟩),
            Or.inl (by simp)⟩
        | _ => exact absurd hat (by simp [At])
      · rename_i acc
        simp only [Option.some.injEq, Prod.mk.injEq] at hs; obtain ⟨rfl, rfl⟩ := hs
        cases o with
        | size =>
          simp [At] at hat
          right; right; left
          exact ⟨_, _, ho, rfl, ⟨by rw [hat], rfl⟩, Or.inl (by simp)⟩
        | _ => exact absurd hat (by simp [At])
      · simp at hs
    | crash b =>
      simp only [Lbl.agent] at hag; subst hag
      simp only [step, upd_same] at hs
      split at hs
      · rename_i t' m'
        split at hs
        · rename_i hc
          simp only [Option.some.injEq, Prod.mk.injEq] at hs; obtain ⟨rfl, rfl⟩ := hs
          cases o with
          | enq t =>
            obtain ⟨rfl, rfl⟩ := hat
            right; right; left
            exact ⟨_, _, ho, rfl, Or.inr ⟨rfl, hc⟩, Or.inr (by simp)⟩
          | _ => exact absurd hat (by simp [At])
        · simp at hs
      · rename_i t' m'
        split at hs
        · rename_i hc
          simp only [Option.some.injEq, Prod.mk.injEq] at hs; obtain ⟨rfl, rfl⟩ := hs
          cases o with
          | deq t =>
            obtain ⟨rfl, rfl⟩ := hat
            right; right; left
            exact ⟨_, _, ho, rfl, Or.inr (Or.inr ⟨rfl, hc⟩), Or.inr (by simp)⟩
          | _ => exact absurd hat (by simp [At])
        · simp at hs
      · simp at hs
  · -- after the call
    right; right; right; right
    rcases hpc with hpc | hpc <;> cases l <;> simp only [Lbl.agent] at hag <;> subst hag <;>
      simp only [step, hpc] at hs
    case inl.call b o =>
      simp only [if_true, Option.some.injEq, Prod.mk.injEq] at hs; obtain ⟨_, rfl⟩ := hs; simp
    all_goals simp at hs
  · right; right; right; left; exact ⟨t, r ++ e, by simp⟩
  · right; right; right; right; simp; omega

/-- Result of an undisturbed call. -/
theorem solo_result {a : Nat} {s0 : St} {m : Map} (h0 : Solo0 a s0 m) {o : Op} {ev : Ev} {s : St}
    (ho : ∀ t, o ≠ .add t) (h : (solo false a s0).Reaches s [.called a o, ev]) :
    Ended a m s0.content o ev s.content := by
  have := Machine.Reaches.inv (M := solo false a s0) (SoloInv a s0 m) (Or.inl ⟨rfl, rfl⟩)
    (fun _ _ _ _ _ hi hs => solo_step h0 hi hs) h
  rcases this with ⟨h, _⟩ | ⟨_, _, h, _⟩ | ⟨o', ev', _, h, he, _⟩ | ⟨t, r, h⟩ | h
  · simp at h
  · simp at h
  · simp only [List.cons.injEq, Ev.called.injEq, true_and, and_true] at h
    obtain ⟨rfl, rfl⟩ := h; exact he
  · simp only [List.cons.injEq, Ev.called.injEq, true_and] at h
    exact absurd h.1 (ho t)
  · simp at h

end Verif.WSQ
