import Verif.Hb.FutureModel
/-!
# C89: what the producer did before it stored the result is visible to the consumer
-/

namespace Verif.Hb.Fut
open Machine

/-- Write i was made before the result was stored. -/
def Before (i : Nat) (tr : List Ev) : Prop := ∃ q r, q ++ [.fut (.produced r)] <+: tr ∧ .wrote i ∈ q

theorem before_nil (i : Nat) : ¬ Before i [] := by
  rintro ⟨q, r, h, -⟩
  simp at h

theorem before_concat (i : Nat) (tr : List Ev) (x : Ev) :
    Before i (tr ++ [x]) ↔ Before i tr ∨ ((∃ r, x = .fut (.produced r)) ∧ .wrote i ∈ tr) := by
  constructor
  · rintro ⟨q, r, h, hm⟩
    rw [List.prefix_concat_iff] at h
    rcases h with h | h
    · have := List.append_inj' h (by simp)
      obtain ⟨rfl, h2⟩ := this
      simp only [List.cons.injEq, and_true] at h2
      exact .inr ⟨⟨r, h2.symm⟩, hm⟩
    · exact .inl ⟨q, r, h, hm⟩
  · rintro (⟨q, r, h, hm⟩ | ⟨⟨r, rfl⟩, hm⟩)
    · exact ⟨q, r, h.trans (List.prefix_append _ _), hm⟩
    · exact ⟨tr, r, List.prefix_rfl, hm⟩

theorem before_of_not (i : Nat) (e : List Ev) (he : ∀ r, .fut (.produced r) ∉ e) : ∀ tr, Before i (tr ++ e) ↔ Before i tr := by
  induction e with
  | nil => simp
  | cons x e ih =>
    intro tr
    have h1 := ih (fun r hr => he r (by simp [hr])) (tr ++ [x])
    rw [List.append_assoc, List.singleton_append] at h1
    rw [h1, before_concat]
    constructor
    · rintro (h | ⟨⟨r, rfl⟩, -⟩)
      · exact h
      · exact absurd (List.mem_cons_self ..) (he r)
    · exact .inl

structure Inv (s : St) (tr : List Ev) : Prop where
  wrote : ∀ i, .wrote i ∈ tr → s.prod i = true
  done : ∀ i, Before i tr → s.f.done = true ∧ s.lockV i = true
  ff : s.f.ff.isSome = true → s.f.done = true
  fut : s.f.fut.isSome = true → s.f.done = true ∧ ∀ i, Before i tr → s.cons i = true
  told : (∃ x ∈ tr, tells x = true) → s.f.fut.isSome = true

theorem inv_init : Inv init [] := by
  constructor <;> simp [init, Future.init, before_nil]

theorem produce_step {k : Locks} (hk : k.set = true) {s : St} {tr : List Ev} {r : Future.Res} {f' : Future.St} {e : List Future.Ev} (h : Inv s tr)
    (hs : Future.step s.f (.produce r) = some (f', e)) : Inv { mem k s (.produce r) with f := f' } (tr ++ e.map .fut) := by
  obtain ⟨wrote, done, ff, fut, told⟩ := h
  have hd : s.f.done = false ∧ f'.done = true ∧ f'.fut = s.f.fut ∧ (e = [.produced r] ∨ e = [.produced r, .woken]) := by
    simp only [Future.step] at hs
    (repeat' split at hs) <;> simp only [Option.some.injEq, Prod.mk.injEq, reduceCtorEq] at hs <;> grind
  obtain ⟨h1, h2, h3, h4⟩ := hd
  have hfut : s.f.fut.isSome = false := by
    cases hx : s.f.fut.isSome with
    | false => rfl
    | true => have := (fut hx).1; simp [h1] at this
  have hB : ∀ i, Before i (tr ++ e.map .fut) → .wrote i ∈ tr := by
    intro i hi
    rcases h4 with rfl | rfl
    · rw [List.map_singleton, before_concat] at hi
      rcases hi with hi | ⟨-, hi⟩
      · have := (done i hi).1; simp [h1] at this
      · exact hi
    · have : tr ++ List.map Ev.fut [.produced r, .woken] = (tr ++ [.fut (.produced r)]) ++ [.fut .woken] := by simp
      rw [this, before_concat, before_concat] at hi
      rcases hi with (hi | ⟨-, hi⟩) | ⟨⟨x, hx⟩, -⟩
      · have := (done i hi).1; simp [h1] at this
      · exact hi
      · simp at hx
  have hno : ∀ x ∈ e.map Ev.fut, tells x = false := by
    rcases h4 with rfl | rfl <;> simp [tells]
  constructor
  · intro i hi
    have : .wrote i ∈ tr := by simpa using hi
    simp [mem, produceV, hk, View.join, wrote i this]
  · intro i hi
    simp [mem, produceV, hk, View.join, wrote i (hB i hi), h2]
  · intro _; exact h2
  · intro hx; simp [h3, hfut] at hx
  · rintro ⟨x, hx, ht⟩
    rcases List.mem_append.1 hx with hx | hx
    · have := told ⟨x, hx, ht⟩; simp [hfut] at this
    · simp [hno x hx] at ht

theorem join_apply (a b : View) (i : Nat) : a.join b i = (a i || b i) := rfl

/-- The consumer's actions: what they may do. -/
structure Quiet (k : Locks) (s : St) (l : Future.Lbl) (f' : Future.St) (e : List Future.Ev) : Prop where
  noProd : ∀ r, .produced r ∉ e
  done : f'.done = s.f.done
  ff : f'.ff.isSome = true → s.f.ff.isSome = true
  fut : f'.fut.isSome = true → s.f.fut.isSome = true ∨ (s.f.ff.isSome = true ∧ ∀ i, s.lockV i = true → (mem k s l).cons i = true)
  keep : s.f.fut.isSome = true → f'.fut.isSome = true
  told : (∃ x ∈ e, tells (.fut x) = true) → f'.fut.isSome = true
  prod : (mem k s l).prod = s.prod
  lockV : ∀ i, s.lockV i = true → (mem k s l).lockV i = true
  cons : ∀ i, s.cons i = true → (mem k s l).cons i = true

set_option maxHeartbeats 4000000 in
theorem quiet_of {k : Locks} (hk : k.frame = true) {s : St} {l : Future.Lbl} {f' : Future.St} {e : List Future.Ev} (hl : ∀ r, l ≠ .produce r)
    (hs : Future.step s.f l = some (f', e)) : Quiet k s l f' e := by
  cases l with
  | produce r => exact absurd rfl (hl r)
  | _ =>
    simp only [Future.step] at hs
    (repeat' split at hs) <;> simp only [Option.some.injEq, Prod.mk.injEq, reduceCtorEq] at hs <;> obtain ⟨rfl, rfl⟩ := hs <;>
      (rcases hf : s.f.fut with _ | v) <;> (rcases hg : s.f.ff with _ | w) <;> (rcases hp : s.f.got with _ | _) <;> (rcases hw : k.waiting with _ | _) <;>
      rcases hu : k.wait with _ | _ <;> constructor <;>
      simp_all [mem, pullV, section_, waitingV, Future.nonblk, Future.pull, tells, join_apply, ite_apply] <;> grind [join_apply]

theorem quiet_step {k : Locks} {s : St} {tr : List Ev} {l : Future.Lbl} {f' : Future.St} {e : List Future.Ev} (h : Inv s tr)
    (hq : Quiet k s l f' e) : Inv { mem k s l with f := f' } (tr ++ e.map .fut) := by
  obtain ⟨wrote, done, ff, fut, told⟩ := h
  obtain ⟨q1, q2, q3, q4, q5, q6, q7, q8, q9⟩ := hq
  have hb : ∀ i, Before i (tr ++ e.map .fut) ↔ Before i tr := fun i => before_of_not i _ (by simpa using q1) tr
  constructor
  · intro i hi
    simp only [q7]
    exact wrote i (by simpa using hi)
  · intro i hi
    rw [hb] at hi
    exact ⟨by simp only [q2]; exact (done i hi).1, q8 i (done i hi).2⟩
  · intro hx; simp only [q2]; exact ff (q3 hx)
  · intro hx
    rcases q4 hx with h1 | ⟨h1, h2⟩
    · refine ⟨by simp only [q2]; exact (fut h1).1, fun i hi => ?_⟩
      rw [hb] at hi
      exact q9 i ((fut h1).2 i hi)
    · refine ⟨by simp only [q2]; exact ff h1, fun i hi => ?_⟩
      rw [hb] at hi
      exact h2 i (done i hi).2
  · rintro ⟨x, hx, ht⟩
    rcases List.mem_append.1 hx with hx | hx
    · exact q5 (told ⟨x, hx, ht⟩)
    · obtain ⟨y, hy, rfl⟩ := List.mem_map.1 hx
      exact q6 ⟨y, hy, ht⟩

theorem inv_step {k : Locks} (h1 : k.set = true) (h2 : k.frame = true) {s s' : St} {tr : List Ev} {l : Lbl} {e : List Ev} (h : Inv s tr)
    (hs : step k s l = some (s', e)) : Inv s' (tr ++ e) := by
  cases l with
  | fut l =>
    simp only [step] at hs
    split at hs
    · simp at hs
    rename_i f' e' hf
    simp only [Option.some.injEq, Prod.mk.injEq] at hs
    obtain ⟨rfl, rfl⟩ := hs
    by_cases hl : ∃ r, l = .produce r
    · obtain ⟨r, rfl⟩ := hl
      exact produce_step h1 h hf
    · exact quiet_step h (quiet_of h2 (fun r hr => hl ⟨r, hr⟩) hf)
  | write =>
    simp only [step, Option.some.injEq, Prod.mk.injEq] at hs
    obtain ⟨rfl, rfl⟩ := hs
    obtain ⟨wrote, done, ff, fut, told⟩ := h
    have hb : ∀ i, Before i (tr ++ [.wrote s.n]) ↔ Before i tr := fun i => before_of_not i _ (by simp) tr
    refine ⟨?_, fun i hi => done i ((hb i).1 hi), ff, fun hx => ⟨(fut hx).1, fun i hi => (fut hx).2 i ((hb i).1 hi)⟩, ?_⟩
    · intro i hi
      simp only [List.mem_append, List.mem_singleton, Ev.wrote.injEq] at hi
      simp only [Bool.or_eq_true, beq_iff_eq]
      exact hi.imp (wrote i) id
    · rintro ⟨x, hx, ht⟩
      simp only [List.mem_append, List.mem_singleton] at hx
      rcases hx with hx | rfl
      · exact told ⟨x, hx, ht⟩
      · simp [tells] at ht
  | read i =>
    simp only [step] at hs
    split at hs <;> simp only [Option.some.injEq, Prod.mk.injEq, reduceCtorEq] at hs
    obtain ⟨rfl, rfl⟩ := hs
    obtain ⟨wrote, done, ff, fut, told⟩ := h
    have hb : ∀ j, Before j (tr ++ [if s.cons i = true then .saw i else .stale i]) ↔ Before j tr :=
      fun j => before_of_not j _ (by intro r; split <;> simp) tr
    refine ⟨?_, fun i hi => done i ((hb i).1 hi), ff, fun hx => ⟨(fut hx).1, fun i hi => (fut hx).2 i ((hb i).1 hi)⟩, ?_⟩
    · intro j hj
      refine wrote j ?_
      split at hj <;> simpa using hj
    · rintro ⟨x, hx, ht⟩
      simp only [List.mem_append, List.mem_singleton] at hx
      rcases hx with hx | rfl
      · exact told ⟨x, hx, ht⟩
      · split at ht <;> simp [tells] at ht

theorem inv_of_reaches {k : Locks} (h1 : k.set = true) (h2 : k.frame = true) {s : St} {tr : List Ev} (h : (machine k).Reaches s tr) : Inv s tr :=
  Reaches.inv (M := machine k) Inv inv_init (fun _ _ _ _ _ hI hs => inv_step h1 h2 hI hs) h

/-- It is enough that set_value and get_future_frame_ptr lock. -/
theorem visible_of_locks {k : Locks} (h1 : k.set = true) (h2 : k.frame = true) {s : St} {tr : List Ev} (h : (machine k).Reaches s tr) :
    ResultVisible tr := by
  have : ResultVisible tr ∧ Inv s tr := by
    refine Reaches.inv (M := machine k) (fun s tr => ResultVisible tr ∧ Inv s tr) ⟨?_, inv_init⟩ ?_ h
    · intro p i hp; simp at hp
    · intro s tr l s' e hI hs
      refine ⟨?_, inv_step h1 h2 hI.2 hs⟩
      have quiet : (∀ i, .stale i ∉ e) → ResultVisible (tr ++ e) := by
        intro hno p i hp
        obtain ⟨q, hq⟩ := hp
        rw [List.append_assoc] at hq
        rcases List.append_eq_append_iff.1 hq with ⟨a, ha, hb⟩ | ⟨a, ha, hb⟩
        · cases a with
          | nil =>
            simp only [List.append_nil, List.nil_append, List.singleton_append] at ha hb
            exact absurd (hb ▸ List.mem_cons_self ..) (hno i)
          | cons x a =>
            simp only [List.singleton_append, List.cons_append, List.cons.injEq] at hb
            obtain ⟨rfl, -⟩ := hb
            exact hI.1 p i ⟨a, by rw [ha]; simp⟩
        · exact absurd (hb ▸ (by simp : .stale i ∈ a ++ ([.stale i] ++ q))) (hno i)
      cases l with
      | fut l =>
        apply quiet
        simp only [machine, step] at hs
        split at hs
        · simp at hs
        simp only [Option.some.injEq, Prod.mk.injEq] at hs
        obtain ⟨-, rfl⟩ := hs
        simp
      | write =>
        apply quiet
        simp only [machine, step, Option.some.injEq, Prod.mk.injEq] at hs
        obtain ⟨-, rfl⟩ := hs
        simp
      | read i =>
        simp only [machine, step] at hs
        split at hs <;> simp only [Option.some.injEq, Prod.mk.injEq, reduceCtorEq] at hs
        obtain ⟨rfl, rfl⟩ := hs
        intro p j hp ht hbf
        rw [List.prefix_concat_iff] at hp
        rcases hp with hp | hp
        · have := List.append_inj' hp (by simp)
          obtain ⟨rfl, h3⟩ := this
          split at h3
          · simp at h3
          · rename_i hc
            simp only [List.cons.injEq, Ev.stale.injEq, and_true] at h3
            subst h3
            exact hc ((hI.2.fut (hI.2.told ht)).2 j hbf)
        · exact hI.1 p j hp ht hbf
  exact this.1

/-- **C89.**  In every execution of the producer and the consumer, whichever of ready(), get_nonblk(), co_await and get() the consumer uses and however often,
and even if the condition variable wakes up spuriously: a read after the future has told that the result is there sees every write made before the
result was stored. -/
theorem future_result_visible {s : St} {tr : List Ev} (h : (machine code).Reaches s tr) : ResultVisible tr :=
  visible_of_locks rfl rfl h

/-- A consumer that waits, is woken by the producer and reads both writes; one that blocks in get(). -/
theorem future_result_visible_nontrivial :
    (∃ s, (machine code).Reaches s [.fut .awaitCalled, .wrote 0, .fut .suspended, .wrote 1, .fut (.produced (.val 7)), .fut .woken,
      .fut (.awaitRet (.res (.val 7))), .saw 0, .saw 1]) ∧
    (∃ s, (machine code).Reaches s [.fut .getCalled, .wrote 0, .fut (.produced (.exc 3)), .fut (.getRet (.res (.exc 3))), .saw 0]) :=
  ⟨⟨_, [.fut .await, .write, .fut .suspend, .write, .fut (.produce (.val 7)), .fut .resume, .read 0, .read 1], rfl⟩,
   ⟨_, [.fut .get, .write, .fut .lockWait, .fut (.produce (.exc 3)), .fut .notified, .fut .fetch, .read 0], rfl⟩⟩

/-- Both locks are needed: without one of them ready() may be true while the writes are not visible. -/
theorem unlocked_set_races : ∃ s tr, (machine { code with set := false }).Reaches s tr ∧ ¬ ResultVisible tr := by
  refine ⟨_, [.wrote 0, .fut (.produced (.val 7)), .fut (.readyRet true), .stale 0], ⟨[.write, .fut (.produce (.val 7)), .fut .ready, .read 0], rfl⟩, fun h => ?_⟩
  refine h [.wrote 0, .fut (.produced (.val 7)), .fut (.readyRet true)] 0 ⟨[], rfl⟩ ⟨.fut (.readyRet true), by simp, rfl⟩ ?_
  exact ⟨[.wrote 0], .val 7, ⟨[.fut (.readyRet true)], rfl⟩, by simp⟩

theorem unlocked_frame_races : ∃ s tr, (machine { code with frame := false }).Reaches s tr ∧ ¬ ResultVisible tr := by
  refine ⟨_, [.wrote 0, .fut (.produced (.val 7)), .fut (.readyRet true), .stale 0], ⟨[.write, .fut (.produce (.val 7)), .fut .ready, .read 0], rfl⟩, fun h => ?_⟩
  refine h [.wrote 0, .fut (.produced (.val 7)), .fut (.readyRet true)] 0 ⟨[], rfl⟩ ⟨.fut (.readyRet true), by simp, rfl⟩ ?_
  exact ⟨[.wrote 0], .val 7, ⟨[.fut (.readyRet true)], rfl⟩, by simp⟩

/-- What the producer writes after it has stored the result is not covered: reading it is a data race. -/
theorem later_writes_race : ∃ s tr, (machine code).Reaches s tr ∧ .stale 0 ∈ tr :=
  ⟨_, [.fut (.produced (.val 7)), .wrote 0, .fut (.nonblkRet (.res (.val 7))), .stale 0], ⟨[.fut (.produce (.val 7)), .write, .fut .nonblk, .read 0], rfl⟩,
    by simp⟩

end Verif.Hb.Fut
