import Verif.Lazy.Model
import Verif.Common.AtEvent
/-!
# C106: make_lazy
-/

namespace Verif.Lazy

structure Inv (W1 : Bool) (s : St) (tr : List Ev) : Prop where
  absent : ∀ i, (s i).inner = .none → (s i).outer = .none → .started i ∉ tr ∧ .began i ∉ tr ∧ (∀ b, .made i b ∉ tr) ∧ (s i).res = none
  lz : ∀ i, .made i true ∈ tr → (s i).outer = .none ∧ (s i).inner ≠ .none ∧ (s i).alive = false
  eg : ∀ i, .made i false ∈ tr → (s i).outer ≠ .none
  kind : ∀ i, (s i).outer = .none → (s i).inner ≠ .none → .made i true ∈ tr
  st : ∀ i, (s i).inner = .queued ∨ (s i).outer = .queued → .started i ∈ tr
  ns : ∀ i, (s i).inner = .none ∨ (s i).inner = .fresh ∨ (s i).inner = .queued → .began i ∉ tr ∧ (s i).res = none
  early : ∀ i, (s i).outer = .fresh ∨ (s i).outer = .queued → (s i).inner = .none ∧ (s i).alive = true
  once : ∀ i, tr.count (.began i) ≤ 1
  alive : ∀ i, (s i).outer = .wait ∨ (s i).outer = .woken ∨ (s i).outer = .closing → (s i).alive = true
  tail : ∀ i, (s i).outer = .woken ∨ (s i).outer = .closing ∨ (s i).outer = .gone → (s i).inner = .tail ∨ (s i).inner = .gone
  one : W1 = true → ∀ i, (s i).outer = .closing ∨ (s i).outer = .gone → (s i).inner = .gone
  res : ∀ i r, (s i).res = some r → .finished i r ∈ tr

theorem inv_init (W1 : Bool) : Inv W1 init [] := by
  constructor <;> simp [init]

set_option maxHeartbeats 4000000 in
theorem inv_step {W1 : Bool} {s s' : St} {tr e : List Ev} {l : Lbl} (hi : Inv W1 s tr) (hs : step W1 s l = some (s', e)) : Inv W1 s' (tr ++ e) := by
  obtain ⟨h1, h2, h3, h4, h5, h6, h7, h8, h9, h10, h11, h12⟩ := hi
  cases l <;> simp only [step] at hs <;> (repeat' split at hs) <;> simp only [Option.some.injEq, Prod.mk.injEq, reduceCtorEq] at hs <;>
    obtain ⟨rfl, rfl⟩ := hs <;> constructor <;>
    (try simp only [List.mem_append, List.mem_cons, List.not_mem_nil, or_false, Ev.made.injEq, Ev.started.injEq, Ev.began.injEq, Ev.finished.injEq, reduceCtorEq,
      List.append_nil, List.count_append, List.count_cons, List.count_nil, upd_apply]) <;>
    grind [wake, List.count_eq_zero]

theorem inv_of_reaches {W1 : Bool} {s : St} {tr : List Ev} (h : (machine W1).Reaches s tr) : Inv W1 s tr :=
  h.inv (Inv W1) (inv_init W1) (fun _ _ _ _ _ => inv_step)

theorem at_event {W1 : Bool} {s : St} {tr p : List Ev} {x : Ev} (h : (machine W1).Reaches s tr) (hp : p ++ [x] <+: tr) :
    ∃ s1 l s2, (machine W1).Reaches s1 p ∧ step W1 s1 l = some (s2, [x]) := by
  obtain ⟨q, hq⟩ := hp
  refine Machine.Reaches.at_event_single ?_ h (pre := p) (post := q) (by rw [← hq]; simp)
  intro s l s' e hs
  change step W1 s l = some (s', e) at hs
  cases l <;> simp only [step] at hs <;> (repeat' split at hs) <;> simp only [Option.some.injEq, Prod.mk.injEq, reduceCtorEq] at hs <;>
    obtain ⟨rfl, rfl⟩ := hs <;> simp

/-- **C106.**  Nothing of `f` runs before the task is started, and it runs at most once. -/
theorem make_lazy_runs_when_started (W1 : Bool) (s : St) (tr : List Ev) (h : (machine W1).Reaches s tr) : RunsWhenStarted tr := by
  refine ⟨fun p i hp => ?_, (inv_of_reaches h).once⟩
  obtain ⟨s1, l, s2, hr, hs⟩ := at_event h hp
  have := (inv_of_reaches hr).st i
  cases l <;> simp only [step] at hs <;> (repeat' split at hs) <;> simp only [Option.some.injEq, Prod.mk.injEq, List.cons.injEq, and_true, reduceCtorEq, and_false] at hs <;> grind

/-- **C106.**  The task's result is the result of `f`: value or exception. -/
theorem make_lazy_result (W1 : Bool) (s : St) (tr : List Ev) (h : (machine W1).Reaches s tr) : ResultOfF tr := by
  intro p i r hp
  obtain ⟨s1, l, s2, hr, hs⟩ := at_event h hp
  have := (inv_of_reaches hr).res i r
  cases l <;> simp only [step] at hs <;> (repeat' split at hs) <;> simp only [Option.some.injEq, Prod.mk.injEq, List.cons.injEq, and_true, reduceCtorEq, and_false] at hs <;> grind

/-- the state of a task when a capture is used -/
theorem at_use {W1 : Bool} {s : St} {tr : List Ev} (h : (machine W1).Reaches s tr) {i : Nat} {late ok : Bool} (hm : .used i late ok ∈ tr) :
    ∃ s1 p, (machine W1).Reaches s1 p ∧ p <+: tr ∧ (s1 i).alive = ok ∧ (late = false → (s1 i).inner = .run ∨ ∃ e, (s1 i).inner = .unwind e) ∧ (late = true → (s1 i).inner = .tail) := by
  obtain ⟨p, q, rfl⟩ := List.append_of_mem hm
  obtain ⟨s1, l, s2, hr, hs⟩ := at_event h (p := p) (x := .used i late ok) ⟨q, by simp⟩
  refine ⟨s1, p, hr, List.prefix_append _ _, ?_⟩
  cases l <;> simp only [step] at hs <;> (repeat' split at hs) <;> simp only [Option.some.injEq, Prod.mk.injEq, List.cons.injEq, and_true, reduceCtorEq, and_false] at hs <;> grind

/-- the kind of a task is settled when it is made, and nothing happens to it before -/
theorem made_before {W1 : Bool} {s : St} {p : List Ev} (h : (machine W1).Reaches s p) {i : Nat} (hn : (s i).inner ≠ .none) : .made i true ∈ p ∨ .made i false ∈ p := by
  revert hn
  suffices hh : (s i).inner ≠ .none ∨ (s i).outer ≠ .none → .made i true ∈ p ∨ .made i false ∈ p from fun hn => hh (Or.inl hn)
  refine h.inv (fun s p => (s i).inner ≠ .none ∨ (s i).outer ≠ .none → .made i true ∈ p ∨ .made i false ∈ p) (by simp [machine, init]) ?_
  intro s tr l s' e ih hs
  change step W1 s l = some (s', e) at hs
  cases l <;> simp only [step] at hs <;> (repeat' split at hs) <;> simp only [Option.some.injEq, Prod.mk.injEq, reduceCtorEq] at hs <;>
    obtain ⟨rfl, rfl⟩ := hs <;> simp only [List.mem_append, List.mem_cons, List.not_mem_nil, or_false, Ev.made.injEq, reduceCtorEq, List.append_nil, upd_apply] at ih ⊢ <;>
    grind [wake]

theorem made_one {W1 : Bool} {s : St} {tr : List Ev} (h : (machine W1).Reaches s tr) {i : Nat} (h1 : .made i true ∈ tr) (h2 : .made i false ∈ tr) : False :=
  (inv_of_reaches h).eg i h2 ((inv_of_reaches h).lz i h1).1

/-- **C106.**  If `f` returns an eager task, its captures exist as long as its body runs, also while an exception leaves it: with any number of workers. -/
theorem eager_captures_exist (W1 : Bool) (s : St) (tr : List Ev) (h : (machine W1).Reaches s tr) (i : Nat) (hm : .made i false ∈ tr) : .used i false false ∉ tr := by
  intro hu
  obtain ⟨s1, p, hr, hp, ha, hl, _⟩ := at_use h hu
  have hi := inv_of_reaches hr
  have hin := hl rfl
  have hk : .made i false ∈ p := by
    rcases made_before hr (i := i) (by rcases hin with hin | ⟨e, hin⟩ <;> simp [hin]) with h1 | h1
    · exact (made_one h (hp.subset h1) hm).elim
    · exact h1
  have ho := hi.eg i hk
  have h4 := hi.tail i
  have h5 := hi.alive i
  have h6 := hi.early i
  cases hout : (s1 i).outer <;> simp only [hout] at ho h4 h5 h6 <;> simp [ha] at h4 h5 h6 ho <;> grind

/-- **C106.**  With one worker they exist until the local variables of `f` are destroyed. -/
theorem eager_captures_exist_until_end_partial (s : St) (tr : List Ev) (h : (machine true).Reaches s tr) (i : Nat) (hm : .made i false ∈ tr) (late : Bool) :
    .used i late false ∉ tr := by
  cases late with
  | false => exact eager_captures_exist true s tr h i hm
  | true =>
    intro hu
    obtain ⟨s1, p, hr, hp, ha, _, hl⟩ := at_use h hu
    have hi := inv_of_reaches hr
    have hin := hl rfl
    have hk : .made i false ∈ p := by
      rcases made_before hr (i := i) (by simp [hin]) with h1 | h1
      · exact (made_one h (hp.subset h1) hm).elim
      · exact h1
    have ho := hi.eg i hk
    have h5 := hi.alive i
    have h6 := hi.early i
    have h7 := hi.one rfl i
    cases hout : (s1 i).outer <;> simp only [hout] at ho h5 h6 h7 <;> simp [ha, hin] at h5 h6 h7 ho

/-- **C106.**  So nothing dangles with one worker and callables that return eager tasks (missing: more workers, lazy callables). -/
theorem make_lazy_no_dangling_partial (s : St) (tr : List Ev) (h : (machine true).Reaches s tr) (he : ∀ i, .made i true ∉ tr) : NoDangling tr := by
  intro i late hu
  obtain ⟨s1, p, hr, hp, _, h1, h2⟩ := at_use h hu
  have hn : (s1 i).inner ≠ .none := by
    cases late
    · rcases h1 rfl with h | ⟨e, h⟩ <;> simp [h]
    · simp [h2 rfl]
  rcases made_before hr hn with hm | hm
  · exact he i (hp.subset hm)
  · exact eager_captures_exist_until_end_partial s tr h i (hp.subset hm) late hu

/-- **C106, what fails (1).**  If `f` returns a lazy task, `f` is a parameter of an ordinary function that is destroyed when make_lazy returns: *every* use of a captured variable, in every execution,
is a use after destruction. -/
theorem lazy_captures_never_exist (W1 : Bool) (s : St) (tr : List Ev) (h : (machine W1).Reaches s tr) (i : Nat) (hm : .made i true ∈ tr) (late : Bool) :
    .used i late true ∉ tr := by
  intro hu
  obtain ⟨s1, p, hr, hp, ha, h1, h2⟩ := at_use h hu
  have hn : (s1 i).inner ≠ .none := by
    cases late
    · rcases h1 rfl with h | ⟨e, h⟩ <;> simp [h]
    · simp [h2 rfl]
  rcases made_before hr hn with hk | hk
  · have := ((inv_of_reaches hr).lz i hk).2.2
    simp [ha] at this
  · exact made_one h hm (hp.subset hk)

theorem lazy_captures_refuted : ∃ s, (machine true).Reaches s [.made 0 true, .started 0, .began 0, .used 0 false false, .finished 0 (.val 7), .delivered 0 (.val 7)] :=
  ⟨_, [.make 0 true, .start 0, .pick 0, .use 0, .ret 0 7, .innerEnd 0, .take 0], rfl⟩

/-- **C106, what fails (2).**  With two workers, also if `f` returns an eager task: `co_return` wakes make_lazy before the local variables of `f` are destroyed; make_lazy ends, and with it the copy of `f`
that a destructor still uses. -/
theorem eager_captures_late_refuted : ∃ s, (machine false).Reaches s [.made 0 false, .started 0, .began 0, .used 0 false true, .finished 0 (.val 7), .used 0 true false] :=
  ⟨_, [.make 0 false, .start 0, .pick 0, .use 0, .ret 0 7, .outerBack 0, .outerEnd 0, .use 0], rfl⟩

/-- Two tasks, one of which throws: the hypotheses of the partial theorems are met. -/
theorem lazy_nontrivial : ∃ s tr, (machine true).Reaches s tr ∧ (∀ i, .made i true ∉ tr) ∧ .used 0 true true ∈ tr ∧ .delivered 1 (.exc 3) ∈ tr ∧ .delivered 0 (.val 7) ∈ tr := by
  refine ⟨_, [.made 0 false, .made 1 false, .started 1, .started 0, .began 0, .used 0 false true, .began 1, .finished 0 (.val 7), .used 0 true true, .used 1 false true,
    .finished 1 (.exc 3), .delivered 1 (.exc 3), .delivered 0 (.val 7)], ⟨[.make 0 false, .make 1 false, .start 1, .start 0, .pick 0, .use 0, .pick 1, .ret 0 7, .throw_ 1 3, .use 0, .use 1, .unwound 1, .innerEnd 0, .outerBack 0, .innerEnd 1,
    .outerBack 1, .take 1, .outerEnd 0, .take 0], rfl⟩, by simp, by simp, by simp, by simp⟩

end Verif.Lazy
