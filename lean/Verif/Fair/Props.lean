import Verif.Fair.Model
import Verif.Common.Prefix
/-!
# C92: ready tasks are not starved
-/

namespace Verif.Fair
open Machine

theorem isStarted_append (x : Nat) (a b : List Ev) : isStarted x (a ++ b) = (isStarted x a || isStarted x b) := by simp [isStarted]
theorem starts_append (w : Nat) (a b : List Ev) : starts w (a ++ b) = starts w a + starts w b := by simp [starts]

theorem isStarted_iff {x : Nat} {tr : List Ev} : isStarted x tr = true ↔ ∃ v, .started v x ∈ tr := by
  simp only [isStarted, List.any_eq_true]
  constructor
  · rintro ⟨e, he, h⟩
    cases e <;> simp at h
    subst h; exact ⟨_, he⟩
  · rintro ⟨v, hv⟩; exact ⟨_, hv, by simp⟩

/-- Names that have been used. -/
structure Names (s : St) (tr : List Ev) : Prop where
  q : ∀ w x, x ∈ s.q w → x < s.next
  due : ∀ w x, x ∈ s.due w → x < s.next
  poll : ∀ w r x, s.pc w = .polling r → x ∈ r → x < s.next
  ready : ∀ x w, .ready x w ∈ tr → x < s.next
  started : ∀ x w, .started w x ∈ tr → x < s.next

theorem names_step {s s' : St} {tr e : List Ev} {l : Lbl} (h : Names s tr) (hs : step s l = some (s', e)) : Names s' (tr ++ e) := by
  obtain ⟨h1, h2, h3, h4, h5⟩ := h
  have h3' : ∀ w r x, s.pc w = .polling (x :: r) → x < s.next := fun w r x hx => h3 w _ x hx (by simp)
  have h1' : ∀ w r x, s.q w = x :: r → x < s.next := fun w r x hx => h1 w x (by simp [hx])
  cases l <;> simp only [step] at hs <;> (repeat' split at hs) <;>
    simp only [Option.some.injEq, Prod.mk.injEq, reduceCtorEq] at hs <;> obtain ⟨rfl, rfl⟩ := hs <;> constructor <;>
    simp only [upd_apply, List.mem_append, List.mem_cons, List.not_mem_nil, or_false, Ev.ready.injEq, Ev.started.injEq, reduceCtorEq] <;> grind

theorem names {s : St} {tr : List Ev} (h : machine.Reaches s tr) : Names s tr :=
  Reaches.inv (M := machine) Names (by constructor <;> simp [machine, init]) (fun _ _ _ _ _ hI hs => names_step hI hs) h

/-- Everybody is in one place. -/
structure Places (s : St) : Prop where
  nodup : ∀ w, (s.q w).Nodup
  disj : ∀ w v x, x ∈ s.q w → x ∈ s.q v → w = v
  qd : ∀ w v x, x ∈ s.q w → x ∉ s.due v
  qp : ∀ w v r x, x ∈ s.q w → s.pc v = .polling r → x ∉ r
  dnodup : ∀ w, (s.due w).Nodup
  ddisj : ∀ w v x, x ∈ s.due w → x ∈ s.due v → w = v
  pnodup : ∀ w r, s.pc w = .polling r → r.Nodup
  pdisj : ∀ w v r r' x, s.pc w = .polling r → s.pc v = .polling r' → x ∈ r → x ∈ r' → w = v
  pd : ∀ w v r x, s.pc w = .polling r → x ∈ r → x ∉ s.due v

set_option maxHeartbeats 4000000 in
theorem places_step {s s' : St} {tr e : List Ev} {l : Lbl} (hn : Names s tr) (h : Places s) (hs : step s l = some (s', e)) : Places s' := by
  obtain ⟨n1, n2, n3, n4, n5⟩ := hn
  obtain ⟨h1, h2, h3, h4, h5, h6, h7, h8, h9⟩ := h
  cases l <;> simp only [step] at hs <;> (repeat' split at hs) <;>
    simp only [Option.some.injEq, Prod.mk.injEq, reduceCtorEq] at hs <;> obtain ⟨rfl, rfl⟩ := hs <;> constructor <;>
    simp only [upd_apply] <;> grind

theorem places {s : St} {tr : List Ev} (h : machine.Reaches s tr) : Places s :=
  Reaches.inv' (M := machine) (fun s _ => Places s) (by constructor <;> simp [machine, init])
    (fun _ _ _ _ _ hr hI hs => places_step (names hr) hI hs) h

/-- What waits has not been started. -/
structure Fresh (s : St) (tr : List Ev) : Prop where
  q : ∀ w x, x ∈ s.q w → ∀ v, .started v x ∉ tr
  due : ∀ w x, x ∈ s.due w → ∀ v, .started v x ∉ tr
  poll : ∀ w r x, s.pc w = .polling r → x ∈ r → ∀ v, .started v x ∉ tr

set_option maxHeartbeats 4000000 in
theorem fresh_step {s s' : St} {tr e : List Ev} {l : Lbl} (hn : Names s tr) (hp : Places s) (h : Fresh s tr) (hs : step s l = some (s', e)) :
    Fresh s' (tr ++ e) := by
  obtain ⟨n1, n2, n3, n4, n5⟩ := hn
  obtain ⟨p1, p2, p3, p4, p5, p6, p7, p8, p9⟩ := hp
  obtain ⟨h1, h2, h3⟩ := h
  have h3' : ∀ w r x, s.pc w = .polling (x :: r) → ∀ v, .started v x ∉ tr := fun w r x hx => h3 w _ x hx (by simp)
  cases l <;> simp only [step] at hs <;> (repeat' split at hs) <;>
    simp only [Option.some.injEq, Prod.mk.injEq, reduceCtorEq] at hs <;> obtain ⟨rfl, rfl⟩ := hs <;> constructor <;>
    simp only [upd_apply, List.mem_append, List.mem_cons, List.not_mem_nil, or_false, Ev.started.injEq, reduceCtorEq] <;> grind

theorem fresh {s : St} {tr : List Ev} (h : machine.Reaches s tr) : Fresh s tr :=
  Reaches.inv' (M := machine) Fresh (by constructor <;> simp [machine, init])
    (fun _ _ _ _ _ hr hI hs => fresh_step (names hr) (places hr) hI hs) h

/-- What a step does to the queues. -/
inductive Shape (s s' : St) (tr : List Ev) : List Ev → Prop where
  | silent (h : s'.q = s.q) : Shape s s' tr []
  | occurred (w x : Nat) (h : s'.q = s.q) : Shape s s' tr [.occurred w x]
  | ended (w x : Nat) (h : s'.q = s.q) : Shape s s' tr [.ended w x]
  | ready (x v : Nat) (h : s'.q = upd s.q v (s.q v ++ [x])) (hf : isStarted x tr = false) : Shape s s' tr [.ready x v]
  | started (w v x : Nat) (r : List Nat) (hq : s.q v = x :: r) (h : s'.q = upd s.q v r) (hv : v = w ∨ s.q w = []) : Shape s s' tr [.started w x]

theorem shape {s s' : St} {tr e : List Ev} {l : Lbl} (hr : machine.Reaches s tr) (hs : step s l = some (s', e)) : Shape s s' tr e := by
  have hf : ∀ x, (∀ v, .started v x ∉ tr) → isStarted x tr = false := by
    intro x hx
    rw [Bool.eq_false_iff]
    intro hc
    obtain ⟨v, hv⟩ := isStarted_iff.1 hc
    exact hx v hv
  cases l <;> simp only [step] at hs <;> (repeat' split at hs) <;>
    simp only [Option.some.injEq, Prod.mk.injEq, reduceCtorEq] at hs <;> obtain ⟨rfl, rfl⟩ := hs
  · exact .ready _ _ rfl (hf _ fun v hv => by have := (names hr).started _ _ hv; omega)
  · exact .occurred _ _ rfl
  · exact .silent rfl
  · rename_i hx; exact .ready _ _ rfl (hf _ ((fresh hr).poll _ _ _ hx (by simp)))
  · exact .silent rfl
  · rename_i hq; exact .started _ _ _ _ hq rfl (.inl rfl)
  · rename_i hq hv; exact .started _ _ _ _ hv rfl (.inr hq)
  · exact .silent rfl
  · exact .ended _ _ rfl

theorem single (s : St) (l : Lbl) (s' : St) (e : List Ev) (hs : machine.step s l = some (s', e)) : e.length ≤ 1 := by
  simp only [machine] at hs
  cases l <;> simp only [step] at hs <;> (repeat' split at hs) <;>
    simp only [Option.some.injEq, Prod.mk.injEq, reduceCtorEq] at hs <;> obtain ⟨rfl, rfl⟩ := hs <;> simp

theorem waiting_other (w : Nat) (tr : List Ev) (x : Ev) (h1 : ∀ y v, x ≠ .ready y v) (h2 : ∀ v y, x ≠ .started v y) : waiting w (tr ++ [x]) = waiting w tr := by
  have hs : ∀ y, isStarted y (tr ++ [x]) = isStarted y tr := by
    intro y
    rw [isStarted_append]
    cases x <;> simp_all [isStarted]
  simp only [waiting, hs, List.filterMap_append]
  cases x <;> simp_all

theorem waiting_ready (w : Nat) (tr : List Ev) (x v : Nat) (hx : isStarted x tr = false) :
    waiting w (tr ++ [.ready x v]) = if v = w then waiting w tr ++ [x] else waiting w tr := by
  have hs : ∀ y, isStarted y (tr ++ [.ready x v]) = isStarted y tr := by intro y; rw [isStarted_append]; simp [isStarted]
  simp only [waiting, hs, List.filterMap_append, List.filterMap_cons, List.filterMap_nil]
  split <;> simp_all

theorem waiting_started (w : Nat) (tr : List Ev) (x v : Nat) : waiting w (tr ++ [.started v x]) = (waiting w tr).filter (· ≠ x) := by
  have hs : ∀ y, isStarted y (tr ++ [.started v x]) = (isStarted y tr || x == y) := by intro y; rw [isStarted_append]; simp [isStarted]
  simp only [waiting, hs, List.filterMap_append, List.filterMap_cons, List.filterMap_nil, List.append_nil, List.filter_filter]
  congr 1
  funext y
  by_cases h : x = y
  · simp [h]
  · have : y ≠ x := fun hc => h hc.symm
    simp [h, this]

/-- The queues are what the specification says. -/
theorem queue_eq {s : St} {tr : List Ev} (h : machine.Reaches s tr) : ∀ w, s.q w = waiting w tr := by
  refine Reaches.inv' (M := machine) (fun s tr => ∀ w, s.q w = waiting w tr) (by simp [machine, init, waiting]) ?_ h
  intro s tr l s' e hr hI hs w
  have hp := places hr
  cases shape hr hs with
  | silent h => rw [List.append_nil, h, hI]
  | occurred v x h => rw [waiting_other _ _ _ (by simp) (by simp), h, hI]
  | ended v x h => rw [waiting_other _ _ _ (by simp) (by simp), h, hI]
  | ready x v h hf =>
    rw [waiting_ready _ _ _ _ hf, h, upd_apply, ← hI w]
    by_cases hv : w = v
    · subst hv; simp
    · have : v ≠ w := fun hc => hv hc.symm
      simp [hv, this]
  | started u v x r hq h hv =>
    rw [waiting_started, h, upd_apply, ← hI w]
    by_cases hw : w = v
    · subst hw
      have := hp.nodup w
      rw [hq] at this ⊢
      simp only [List.nodup_cons] at this
      simp only [if_true, List.filter_cons, ne_eq, not_true_eq_false, decide_false, Bool.false_eq_true, if_false]
      exact (List.filter_eq_self.2 (by intro a ha; simp; rintro rfl; exact this.1 ha)).symm
    · simp only [hw, if_false]
      exact (List.filter_eq_self.2 (by intro a ha; simp; rintro rfl; exact hw (hp.disj _ _ a ha (by simp [hq])))).symm

theorem bypass_inv {s : St} {tr : List Ev} (h : machine.Reaches s tr) : ∀ p x w m, tr = p ++ .ready x w :: m → isStarted x m = false →
    ∃ A B, s.q w = A ++ x :: B ∧ A.length + starts w m ≤ (waiting w p).length := by
  refine Reaches.inv' (M := machine) (fun s tr => ∀ p x w m, tr = p ++ .ready x w :: m → isStarted x m = false →
    ∃ A B, s.q w = A ++ x :: B ∧ A.length + starts w m ≤ (waiting w p).length) (by simp) ?_ h
  intro s tr l s' e hr hI hs p x w m htr hx
  cases shape hr hs with
  | silent h => rw [h]; exact hI p x w m (by simpa using htr) hx
  | occurred v y h =>
    rcases append_singleton_split htr with ⟨-, hc, -⟩ | ⟨m', rfl, rfl⟩
    · simp at hc
    · rw [isStarted_append, Bool.or_eq_false_iff] at hx
      obtain ⟨A, B, h1, h2⟩ := hI p x w m' rfl hx.1
      exact ⟨A, B, by rw [h, h1], by simpa [starts_append, starts] using h2⟩
  | ended v y h =>
    rcases append_singleton_split htr with ⟨-, hc, -⟩ | ⟨m', rfl, rfl⟩
    · simp at hc
    · rw [isStarted_append, Bool.or_eq_false_iff] at hx
      obtain ⟨A, B, h1, h2⟩ := hI p x w m' rfl hx.1
      exact ⟨A, B, by rw [h, h1], by simpa [starts_append, starts] using h2⟩
  | ready y v h hf =>
    rcases append_singleton_split htr with ⟨rfl, hc, rfl⟩ | ⟨m', rfl, rfl⟩
    · simp only [Ev.ready.injEq] at hc
      obtain ⟨rfl, rfl⟩ := hc
      refine ⟨waiting v tr, [], ?_, by simp [starts]⟩
      rw [h, upd_apply, if_pos rfl, queue_eq hr]
    · rw [isStarted_append, Bool.or_eq_false_iff] at hx
      obtain ⟨A, B, h1, h2⟩ := hI p x w m' rfl hx.1
      refine ⟨A, if w = v then B ++ [y] else B, ?_, by simpa [starts_append, starts] using h2⟩
      rw [h, upd_apply]
      by_cases hw : w = v
      · subst hw; simp [h1]
      · simp [hw, h1]
  | started u v y r hq h hv =>
    rcases append_singleton_split htr with ⟨-, hc, -⟩ | ⟨m', rfl, rfl⟩
    · simp at hc
    · rw [isStarted_append, Bool.or_eq_false_iff] at hx
      obtain ⟨A, B, h1, h2⟩ := hI p x w m' rfl hx.1
      have hxy : y ≠ x := by rintro rfl; simp [isStarted] at hx
      have hst : starts w (m' ++ [.started u y]) ≤ starts w m' + 1 := by
        rw [starts_append]
        have : starts w [.started u y] ≤ 1 := by simp only [starts]; exact List.countP_le_length
        omega
      by_cases hw : v = w
      · subst hw
        rw [hq] at h1
        cases A with
        | nil => simp at h1; exact absurd h1.1 hxy
        | cons a A =>
          simp only [List.cons_append, List.cons.injEq] at h1
          refine ⟨A, B, ?_, ?_⟩
          · rw [h, upd_apply, if_pos rfl]; exact h1.2
          · simp only [List.length_cons] at h2
            omega
      · refine ⟨A, B, ?_, ?_⟩
        · rw [h, upd_apply, if_neg (fun hc => hw hc.symm)]; exact h1
        · have hu : u ≠ w := by
            rintro rfl
            rcases hv with hv | hv
            · exact hw hv
            · rw [hv] at h1; simp at h1
          have : starts w [.started u y] = 0 := by simp [starts, hu]
          rw [starts_append, this]; omega

/-- **C92.**  Whatever tasks are created, woken up or yield while x waits, and however workers steal: before x is started, the worker in whose queue x is starts at most the
tasks that were in that queue before x. -/
theorem bounded_bypass {s : St} {tr : List Ev} (h : machine.Reaches s tr) : BoundedBypass tr := by
  intro p x w m hp hx
  obtain ⟨s', h'⟩ := h.prefix_single single hp
  obtain ⟨A, B, -, h2⟩ := bypass_inv h' p x w m rfl hx
  omega

theorem split_two {α β : Type} (f : α → Option β) (g : β → Bool) {l1 l2 l3 : List α} {a b : α} {x y : β} (ha : f a = some x) (hb : f b = some y)
    (hx : g x = true) (hy : g y = true) :
    ∃ L1 L2 L3, ((l1 ++ a :: l2 ++ b :: l3).filterMap f).filter g = L1 ++ x :: L2 ++ y :: L3 :=
  ⟨(l1.filterMap f).filter g, (l2.filterMap f).filter g, (l3.filterMap f).filter g, by
    simp [List.filterMap_append, List.filterMap_cons, ha, hb, hx, hy, List.filter_append, List.filter_cons]⟩

/-- **C92.**  Each queue is served in the order in which tasks became ready, whoever takes them. -/
theorem in_order {s : St} {tr : List Ev} (h : machine.Reaches s tr) : InOrder tr := by
  intro p q m v w x y hp
  by_contra hx
  rw [Bool.not_eq_true] at hx
  obtain ⟨s', h'⟩ := h.prefix_single single hp
  obtain ⟨s1, l, s2, e, hr, hs, he⟩ : ∃ s1 l s2 e, machine.Reaches s1 (p ++ .ready x w :: q ++ .ready y w :: m) ∧ machine.step s1 l = some (s2, e) ∧ e = [.started v y] := by
    have key := Reaches.inv' (M := machine) (fun _ tr => ∀ P v y, tr = P ++ [.started v y] → ∃ s1 l s2 e, machine.Reaches s1 P ∧
      machine.step s1 l = some (s2, e) ∧ e = [.started v y]) (by simp) ?_ h'
    · exact key _ v y rfl
    · intro s tr l s' e hr hI hs P v y hP
      have hl := single _ _ _ _ hs
      match e, hl with
      | [], _ => exact hI P v y (by simpa using hP)
      | [z], _ =>
        have := List.append_inj' hP rfl
        simp only [List.cons.injEq, and_true] at this
        obtain ⟨rfl, rfl⟩ := this
        exact ⟨_, _, _, _, hr, hs, rfl⟩
  subst he
  have hp' := places hr
  cases shape hr hs with
  | started _ u _ r hq h hv =>
    have hy : isStarted y (p ++ .ready x w :: q ++ .ready y w :: m) = false := by
      rw [Bool.eq_false_iff]
      intro hc
      obtain ⟨v', hv'⟩ := isStarted_iff.1 hc
      exact (fresh hr).q u y (by simp [hq]) v' hv'
    obtain ⟨L1, L2, L3, hL⟩ : ∃ L1 L2 L3, waiting w (p ++ .ready x w :: q ++ .ready y w :: m) = L1 ++ x :: L2 ++ y :: L3 := by
      exact split_two _ _ (by simp) (by simp) (by show (!isStarted x _) = true; rw [hx]; rfl) (by show (!isStarted y _) = true; rw [hy]; rfl)
    have hw : u = w := hp'.disj u w y (by simp [hq]) (by rw [queue_eq hr, hL]; simp)
    subst hw
    have hn := hp'.nodup u
    rw [queue_eq hr, hL] at hq hn
    cases L1 with
    | nil =>
      simp only [List.nil_append, List.cons_append, List.cons.injEq] at hq
      obtain ⟨rfl, -⟩ := hq
      simp at hn
    | cons a L1 =>
      simp only [List.cons_append, List.cons.injEq] at hq
      obtain ⟨rfl, -⟩ := hq
      simp at hn

set_option maxHeartbeats 4000000 in
theorem prompt_inv {s : St} {tr : List Ev} (h : machine.Reaches s tr) : ∀ p w x m, tr = p ++ .occurred w x :: m → (∀ v, .ready x v ∉ m) →
    (x ∈ s.due w ∧ (starts w m = 0 ∨ (starts w m = 1 ∧ (s.pc w = .top ∨ ∃ y, s.pc w = .busy y)))) ∨ (∃ r, s.pc w = .polling r ∧ x ∈ r ∧ starts w m ≤ 1) := by
  refine Reaches.inv' (M := machine) (fun s tr => ∀ p w x m, tr = p ++ .occurred w x :: m → (∀ v, .ready x v ∉ m) →
    (x ∈ s.due w ∧ (starts w m = 0 ∨ (starts w m = 1 ∧ (s.pc w = .top ∨ ∃ y, s.pc w = .busy y)))) ∨ (∃ r, s.pc w = .polling r ∧ x ∈ r ∧ starts w m ≤ 1))
    (by simp) ?_ h
  intro s tr l s' e hr hI hs p w x m htr hx
  have hs : step s l = some (s', e) := hs
  have quiet : e = [] → tr = p ++ .occurred w x :: m := by rintro rfl; simpa using htr
  have last : ∀ z, e = [z] → (z = .occurred w x ∧ m = []) ∨ ∃ m', m = m' ++ [z] ∧ tr = p ++ .occurred w x :: m' := by
    rintro z rfl
    rcases append_singleton_split htr with ⟨rfl, hc, rfl⟩ | ⟨m', rfl, rfl⟩
    · exact .inl ⟨hc, rfl⟩
    · exact .inr ⟨m', rfl, rfl⟩
  have st0 : ∀ m z, (∀ v y, z ≠ .started v y) → starts w (m ++ [z]) = starts w m := by
    intro m z hz; rw [starts_append]; cases z <;> simp_all [starts]
  have st1 : ∀ m v y, starts w (m ++ [.started v y]) = starts w m + if v = w then 1 else 0 := by
    intro m v y; rw [starts_append]; simp only [starts, List.countP_cons, List.countP_nil]; split <;> simp_all
  have nil : starts w [] = 0 := rfl
  cases l <;> simp only [step] at hs <;> (repeat' split at hs) <;>
    simp only [Option.some.injEq, Prod.mk.injEq, reduceCtorEq] at hs <;> obtain ⟨rfl, rfl⟩ := hs
  case poll v _ =>
    have := hI p w x m (quiet rfl) hx
    simp only [upd_apply]
    grind
  case pollEnd v _ =>
    have := hI p w x m (quiet rfl) hx
    simp only [upd_apply]
    grind
  case none v _ =>
    have := hI p w x m (quiet rfl) hx
    simp only [upd_apply]
    grind
  all_goals
    rcases last _ rfl with ⟨hz, rfl⟩ | ⟨m', rfl, ht⟩
    · simp only [Ev.occurred.injEq, reduceCtorEq] at hz
      try (obtain ⟨rfl, rfl⟩ := hz; left; simp [upd_apply, starts])
    · have hx' : ∀ v, Ev.ready x v ∉ m' := fun v hv => hx v (by simp [hv])
      have := hI p w x m' ht hx'
      simp only [List.mem_append, List.mem_singleton, Ev.ready.injEq] at hx
      simp only [upd_apply, st1, st0 _ (Ev.ready _ _) (by simp), st0 _ (Ev.occurred _ _) (by simp), st0 _ (Ev.ended _ _) (by simp)]
      grind

/-- **C92.**  A sleeping task whose deadline has passed becomes ready before the worker it went to sleep on starts a second task, however many are ready. -/
theorem prompt_deadlines {s : St} {tr : List Ev} (h : machine.Reaches s tr) : PromptDeadlines tr := by
  intro p w x m hp hx
  obtain ⟨s', h'⟩ := h.prefix_single single hp
  rcases prompt_inv h' p w x m rfl hx with ⟨-, h | ⟨h, -⟩⟩ | ⟨r, -, -, h⟩ <;> omega

/-- A run with two tasks that yield, one of them stolen, a sleeping task and a worker that is occupied. -/
theorem fair_nontrivial : ∃ s, machine.Reaches s [.ready 0 1, .started 1 0, .ready 1 1, .ready 2 0, .occurred 0 3, .started 0 2, .ready 4 0, .ended 0 2,
    .ready 3 0, .started 0 4, .ended 0 4, .started 0 3, .ended 0 3, .started 0 1] :=
  ⟨_, [.enq 1, .poll 1, .pollEnd 1, .take 1, .enq 1, .enq 0, .poll 0, .pollEnd 0, .expire 0, .take 0, .enq 0, .finish 0, .poll 0, .dispatch 0, .pollEnd 0, .take 0, .finish 0,
    .poll 0, .pollEnd 0, .take 0, .finish 0, .poll 0, .pollEnd 0, .steal 0 1], rfl⟩

/-- A state in which worker 1 is occupied with a long task, task 1 waits in its queue, the deadline of 2 has passed, and worker 0 runs a task that keeps yielding. -/
def Occupied (s : St) : Prop := s.pc 1 = .busy 0 ∧ s.q 1 = [1] ∧ s.due 1 = [2] ∧ s.q 0 = [] ∧ s.due 0 = [] ∧ ∃ y, s.pc 0 = .busy y

/-- **C92, refuted.**  As long as a worker is occupied with one task, nobody takes the tasks in its queue while there is something else to do, and its timers stand still: other
workers can start any number of tasks meanwhile. -/
theorem starvation_refuted (n : Nat) : ∃ s p m, machine.Reaches s (p ++ m) ∧ .ready 1 1 ∈ p ∧ .occurred 1 2 ∈ p ∧ isStarted 1 (p ++ m) = false ∧
    (∀ v, .ready 2 v ∉ p ++ m) ∧ n ≤ starts 0 m := by
  have key : ∃ s p m, machine.Reaches s (p ++ m) ∧ .ready 1 1 ∈ p ∧ .occurred 1 2 ∈ p ∧ isStarted 1 (p ++ m) = false ∧
      (∀ v, .ready 2 v ∉ p ++ m) ∧ n ≤ starts 0 m ∧ Occupied s ∧ 3 ≤ s.next := by
    induction n with
    | zero =>
      refine ⟨_, [.ready 0 1, .started 1 0, .ready 1 1, .occurred 1 2, .ready 3 0, .started 0 3], [],
        ⟨[.enq 1, .poll 1, .pollEnd 1, .take 1, .enq 1, .expire 1, .enq 0, .poll 0, .pollEnd 0, .take 0], rfl⟩, by simp, by simp, by decide, by simp, by simp [starts], ?_, ?_⟩
      · exact ⟨rfl, rfl, rfl, rfl, rfl, _, rfl⟩
      · decide
    | succ n ih =>
      obtain ⟨s, p, m, h, h1, h2, h3, h4, h5, ⟨o1, o2, o3, o4, o6, y, o5⟩, hn⟩ := ih
      obtain ⟨q, pc, due, next⟩ := s
      simp only at o1 o2 o3 o4 o5 o6 hn
      -- the task yields; worker 0 goes round
      have r1 := h.step (l := .enq 0) (e := [.ready next 0]) rfl
      have r2 := r1.step (l := .finish 0) (e := [.ended 0 y]) (by simp [machine, step, o5]; rfl)
      have r3 := r2.step (l := .poll 0) (e := []) (by simp [machine, step]; rfl)
      have r4 := r3.step (l := .pollEnd 0) (e := []) (by simp [machine, step, o6]; rfl)
      have r5 := r4.step (l := .take 0) (e := [.started 0 next]) (by simp [machine, step, o4]; rfl)
      refine ⟨_, p, m ++ [.ready next 0, .ended 0 y, .started 0 next], by simpa using r5, h1, h2, ?_, ?_, ?_, ?_, ?_⟩
      · rw [← List.append_assoc, isStarted_append, h3]
        simp [isStarted]; omega
      · intro v hv
        rw [← List.append_assoc, List.mem_append] at hv
        rcases hv with hv | hv
        · exact h4 v hv
        · simp at hv; omega
      · rw [starts_append]
        simp only [starts, List.countP_cons, List.countP_nil] at h5 ⊢
        simp; omega
      · refine ⟨?_, ?_, ?_, ?_, ?_, next, ?_⟩ <;> simp [upd_apply, o1, o2, o3]
      · simp only; omega
  obtain ⟨s, p, m, h1, h2, h3, h4, h5, h6, -⟩ := key
  exact ⟨s, p, m, h1, h2, h3, h4, h5, h6⟩

end Verif.Fair
