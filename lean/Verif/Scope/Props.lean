import Verif.Scope.Model
import Verif.Common.AtEvent
/-!
# C82: when `co_await` of a task has delivered its result, the call is over
-/

namespace Verif.Scope
open Machine

variable {prog : Nat → Fn} {W : Nat}

structure Inv (s : St) (tr : List Ev) : Prop where
  pos : 0 < s.n
  absent : ∀ t, s.n ≤ t → (s.tk t).ph = .absent
  resPh : ∀ t r, (s.tk t).res = some r → (s.tk t).ph = .closing ∨ (s.tk t).ph = .dead
  excGone : ∀ t e, (s.tk t).res = some (.exc e) → (s.tk t).locals = []
  deadGone : ∀ t, (s.tk t).ph = .dead → (s.tk t).locals = [] ∧ .frameDestroyed t ∈ tr
  absGone : ∀ t, (s.tk t).ph = .absent → (s.tk t).locals = []
  cnt : ∀ t x, tr.count (.destroyed t x) + (s.tk t).locals.count x = tr.count (.made t x)

/-- A task that has stored its result and still destroys its variables is on top of a worker's stack. -/
def Top (W : Nat) (s : St) : Prop := ∀ t, (s.tk t).ph = .closing → ∃ w, w < W ∧ (s.stack w).head? = some t

local macro "evs" : tactic => `(tactic| try simp only [List.mem_append, List.mem_cons, List.not_mem_nil, or_false, List.count_append,
  List.count_cons, List.count_nil, beq_iff_eq, Ev.made.injEq, Ev.destroyed.injEq, Ev.frameDestroyed.injEq, reduceCtorEq, if_false, ite_false,
  Nat.add_zero, List.append_nil])

/-- The effect of every step, apart from the trace. -/
inductive Good (prog : Nat → Fn) (W : Nat) (s : St) : St → List Ev → Prop where
  | pick (w t : Nat) (p : Ph) (hw : w < W) (he : s.stack w = []) (h1 : (s.tk t).ph = .ready ∨ ∃ c ca, (s.tk t).ph = .queued c ca)
      (h2 : p = .run ∨ ∃ c ca, p = .woken c ca) :
      Good prog W s { setPh s t p with stack := upd s.stack w [t] } []
  | mk (w t x : Nat) (rest : List Instr) (hw : w < W) (ht : (s.stack w).head? = some t) (hp : (s.tk t).ph = .run) :
      Good prog W s { s with tk := upd s.tk t { s.tk t with code := rest, locals := x :: (s.tk t).locals } } [.made t x]
  | call (w t k : Nat) (lz ca : Bool) (rest : List Instr) (hw : w < W) (ht : (s.stack w).head? = some t) (hp : (s.tk t).ph = .run) :
      Good prog W s (St.mk (s.n + 1) (upd (upd s.tk t { s.tk t with code := rest, ph := .await s.n ca }) s.n (newTk (prog k) lz))
              (if lz then s.stack else upd s.stack w (s.n :: s.stack w))) [.called t s.n]
  | ret (w t v : Nat) (hw : w < W) (ht : (s.stack w).head? = some t) (hp : (s.tk t).ph = .run) :
      Good prog W s (setResult s t (.val v)) []
  | thr (w t e : Nat) (hw : w < W) (ht : (s.stack w).head? = some t) (hp : (s.tk t).ph = .run) :
      Good prog W s (setPh s t (.unwind e)) []
  | got (w t c : Nat) (r : Res) (p : Ph) (hw : w < W) (ht : (s.stack w).head? = some t)
      (hp : ∃ ca, (s.tk t).ph = .await c ca ∨ (s.tk t).ph = .woken c ca) (hr : (s.tk c).res = some r) (h2 : p = .run ∨ ∃ e, p = .unwind e) :
      Good prog W s (setPh s t p) [.got t c r]
  | wait (w t c : Nat) (ca : Bool) (hw : w < W) (ht : (s.stack w).head? = some t) (hp : (s.tk t).ph = .await c ca) (hr : (s.tk c).res = none) :
      Good prog W s (pop (setPh { s with tk := upd s.tk c { s.tk c with waiter := some t } } t (.wait c ca)) w) []
  | del (w t x : Nat) (xs : List Nat) (hw : w < W) (ht : (s.stack w).head? = some t)
      (hp : (s.tk t).ph = .closing ∨ ∃ e, (s.tk t).ph = .unwind e) (hl : (s.tk t).locals = x :: xs) :
      Good prog W s { s with tk := upd s.tk t { s.tk t with locals := xs } } [.destroyed t x]
  | exc (w t e : Nat) (hw : w < W) (ht : (s.stack w).head? = some t) (hp : (s.tk t).ph = .unwind e) (hl : (s.tk t).locals = []) :
      Good prog W s (setResult s t (.exc e)) []
  | die (w t : Nat) (hw : w < W) (ht : (s.stack w).head? = some t) (hp : (s.tk t).ph = .closing) (hl : (s.tk t).locals = []) :
      Good prog W s (pop (setPh s t .dead) w) [.frameDestroyed t]
  | get (r : Res) (hr : (s.tk 0).res = some r) : Good prog W s s [.gotOutside 0 r]

theorem good_of_step {s s' : St} {l : Lbl} {e : List Ev} (hs : step prog W s l = some (s', e)) : Good prog W s s' e := by
  cases l with
  | pick w t =>
    simp only [step] at hs
    (repeat' split at hs) <;> simp only [Option.some.injEq, Prod.mk.injEq, reduceCtorEq] at hs <;> obtain ⟨rfl, rfl⟩ := hs
    · rename_i h _ h1; exact .pick w t _ h.1 h.2 (.inl h1) (.inl rfl)
    · rename_i h _ c ca h1; exact .pick w t _ h.1 h.2 (.inr ⟨_, _, h1⟩) (.inr ⟨_, _, rfl⟩)
  | get =>
    simp only [step] at hs
    (repeat' split at hs) <;> simp only [Option.some.injEq, Prod.mk.injEq, reduceCtorEq] at hs <;> obtain ⟨rfl, rfl⟩ := hs
    rename_i r h; exact .get r h
  | go w =>
    simp only [step] at hs
    split at hs
    case isFalse => simp at hs
    rename_i hw
    split at hs
    case h_2 => simp at hs
    rename_i t rest hst
    have ht : (s.stack w).head? = some t := by rw [hst]; rfl
    simp only [go] at hs
    split at hs
    case h_1 hp =>
      split at hs
      case' h_3 => split at hs
      all_goals simp only [Option.some.injEq, Prod.mk.injEq] at hs; obtain ⟨rfl, rfl⟩ := hs
      · exact .ret w t _ hw ht hp
      · exact .thr w t _ hw ht hp
      · exact .mk w t _ _ hw ht hp
      · exact .call w t _ _ _ _ hw ht hp
    case h_2 c ca hp =>
      split at hs
      · rename_i r hr
        simp only [resumeWith, Option.some.injEq] at hs
        split at hs <;> simp only [Prod.mk.injEq] at hs <;> obtain ⟨rfl, rfl⟩ := hs
        · exact .got w t c _ _ hw ht ⟨ca, .inl hp⟩ hr (.inl rfl)
        · refine .got w t c _ _ hw ht ⟨ca, .inl hp⟩ hr ?_
          split
          · exact .inl rfl
          · exact .inr ⟨_, rfl⟩
      · rename_i hr
        simp only [Option.some.injEq, Prod.mk.injEq] at hs
        obtain ⟨rfl, rfl⟩ := hs
        exact .wait w t c ca hw ht hp hr
    case h_3 c ca hp =>
      split at hs
      · rename_i r hr
        simp only [resumeWith, Option.some.injEq] at hs
        split at hs <;> simp only [Prod.mk.injEq] at hs <;> obtain ⟨rfl, rfl⟩ := hs
        · exact .got w t c _ _ hw ht ⟨ca, .inr hp⟩ hr (.inl rfl)
        · refine .got w t c _ _ hw ht ⟨ca, .inr hp⟩ hr ?_
          split
          · exact .inl rfl
          · exact .inr ⟨_, rfl⟩
      · simp at hs
    case h_4 e' hp =>
      split at hs <;> simp only [Option.some.injEq, Prod.mk.injEq] at hs <;> obtain ⟨rfl, rfl⟩ := hs
      · rename_i x xs hl; exact .del w t x xs hw ht (.inr ⟨_, hp⟩) hl
      · rename_i hl; exact .exc w t _ hw ht hp hl
    case h_5 hp =>
      split at hs <;> simp only [Option.some.injEq, Prod.mk.injEq] at hs <;> obtain ⟨rfl, rfl⟩ := hs
      · rename_i x xs hl; exact .del w t x xs hw ht (.inl hp) hl
      · rename_i hl; exact .die w t hw ht hp hl
    case h_6 => simp at hs

/-- What `setResult` changes: `t` is closing with its result; at most one other task is woken. -/
theorem setResult_spec (s : St) (t : Nat) (r : Res) :
    (setResult s t r).n = s.n ∧ (setResult s t r).stack = s.stack ∧
    (∀ u, ((setResult s t r).tk u).locals = (s.tk u).locals) ∧
    (∀ u, ((setResult s t r).tk u).res = if u = t then some r else (s.tk u).res) ∧
    ((setResult s t r).tk t).ph = .closing ∧
    (∀ u, u ≠ t → ((setResult s t r).tk u).ph = (s.tk u).ph ∨
      ∃ c ca, (s.tk u).ph = .wait c ca ∧ ((setResult s t r).tk u).ph = .queued c ca) := by
  simp only [setResult]
  split
  · refine ⟨rfl, rfl, ?_, ?_, ?_, ?_⟩ <;> simp only [upd_apply] <;> grind
  · split
    · rename_i p _ _ c ca hw
      simp only [upd_apply] at hw
      have hpt : p ≠ t := by grind
      refine ⟨rfl, rfl, ?_, ?_, ?_, ?_⟩ <;> simp only [setPh, upd_apply] <;> grind
    · refine ⟨rfl, rfl, ?_, ?_, ?_, ?_⟩ <;> simp only [upd_apply] <;> grind

theorem inv_step {s s' : St} {tr e : List Ev} {l : Lbl} (h : Inv s tr) (hs : step prog W s l = some (s', e)) : Inv s' (tr ++ e) := by
  have hg := good_of_step hs
  obtain ⟨i0, i1, i2, i3, i4, i5, i6⟩ := h
  cases hg
  case ret w t v hw ht hp =>
    obtain ⟨g1, g2, g3, g4, g5, g6⟩ := setResult_spec s t (.val v)
    generalize setResult s t (.val v) = s' at *
    constructor <;> evs <;> grind
  case exc w t e hw ht hp hl =>
    obtain ⟨g1, g2, g3, g4, g5, g6⟩ := setResult_spec s t (.exc e)
    generalize setResult s t (.exc e) = s' at *
    constructor <;> evs <;> grind
  case pick =>
    constructor <;> evs <;> (try simp only [setPh, upd_apply]) <;> grind
  case mk =>
    constructor <;> evs <;> (try simp only [upd_apply]) <;> grind
  case call =>
    constructor <;> evs <;> (try simp only [upd_apply, newTk]) <;> grind
  all_goals
    constructor <;> evs <;> (try simp only [setPh, pop, upd_apply]) <;> grind

theorem top_step {s s' : St} {e : List Ev} {l : Lbl} {tr : List Ev} (hi : Inv s tr) (h : Top W s)
    (hs : step prog W s l = some (s', e)) : Top W s' := by
  have hg := good_of_step hs
  have i1 := hi.absent
  have i2 := hi.resPh
  intro u hu
  cases hg
  case ret w t v hw ht hp =>
    obtain ⟨g1, g2, g3, g4, g5, g6⟩ := setResult_spec s t (.val v)
    rw [g2]
    by_cases hut : u = t
    · exact ⟨w, hw, by rw [hut, ht]⟩
    · exact h u (by grind)
  case exc w t e hw ht hp hl =>
    obtain ⟨g1, g2, g3, g4, g5, g6⟩ := setResult_spec s t (.exc e)
    rw [g2]
    by_cases hut : u = t
    · exact ⟨w, hw, by rw [hut, ht]⟩
    · exact h u (by grind)
  case pick w t p hw he h1 h2 =>
    simp only [setPh, upd_apply] at hu ⊢
    obtain ⟨w', hw', ht'⟩ := h u (by grind)
    exact ⟨w', hw', by grind⟩
  case call w t k lz ca rest hw ht hp =>
    simp only [upd_apply, newTk] at hu ⊢
    obtain ⟨w', hw', ht'⟩ := h u (by grind)
    refine ⟨w', hw', ?_⟩
    have : w' ≠ w := by grind
    split
    · exact ht'
    · rw [upd_ne _ _ this]; exact ht'
  case wait w t c ca hw ht hp hr =>
    simp only [setPh, pop, upd_apply] at hu ⊢
    obtain ⟨w', hw', ht'⟩ := h u (by grind)
    have : w' ≠ w := by grind
    exact ⟨w', hw', by grind⟩
  case die w t hw ht hp hl =>
    simp only [setPh, pop, upd_apply] at hu ⊢
    obtain ⟨w', hw', ht'⟩ := h u (by grind)
    have : w' ≠ w := by grind
    exact ⟨w', hw', by grind⟩
  all_goals
    (try simp only [setPh, upd_apply] at hu ⊢)
    obtain ⟨w', hw', ht'⟩ := h u (by grind)
    exact ⟨w', hw', by grind⟩

theorem inv {s : St} {tr : List Ev} (h : (machine prog W).Reaches s tr) : Inv s tr := by
  refine Reaches.inv Inv ?_ (fun s tr l s' e hi hs => inv_step hi hs) h
  constructor <;> simp only [machine, init, newTk, List.not_mem_nil, List.count_nil] <;> grind

theorem top {s : St} {tr : List Ev} (h : (machine prog W).Reaches s tr) : Top W s := by
  refine Reaches.inv' (fun s _ => Top W s) ?_ (fun s tr l s' e hr hi hs => top_step (inv hr) hi hs) h
  intro u hu
  simp only [machine, init, newTk] at hu
  grind

/-- Local variables are destroyed at most once, and only after their construction. -/
theorem destroyed_le_made {s : St} {tr : List Ev} (h : (machine prog W).Reaches s tr) (t x : Nat) :
    tr.count (.destroyed t x) ≤ tr.count (.made t x) := by
  have := (inv h).cnt t x; omega

/-- The frame goes last: at its destruction all local variables of the call are gone; it happens once. -/
theorem frame_last {s : St} {tr : List Ev} (h : (machine prog W).Reaches s tr) {t : Nat} (hf : .frameDestroyed t ∈ tr) : LocalsGone t tr := by
  have hd : (s.tk t).ph = .dead := by
    refine Reaches.inv' (fun s tr => ∀ t, .frameDestroyed t ∈ tr → (s.tk t).ph = .dead) ?_ ?_ h t hf
    · simp
    · intro s tr l s' e hr ih hs u hu
      have i1 := (inv hr).absent
      have hg := good_of_step hs
      cases hg
      case ret w t v hw ht hp =>
        obtain ⟨g1, g2, g3, g4, g5, g6⟩ := setResult_spec s t (.val v)
        grind
      case exc w t e hw ht hp hl =>
        obtain ⟨g1, g2, g3, g4, g5, g6⟩ := setResult_spec s t (.exc e)
        grind
      all_goals
        revert hu; evs; intro hu
        (try simp only [setPh, pop, upd_apply, newTk] at *)
        grind
  intro x
  have := (inv h).cnt t x
  rw [((inv h).deadGone t hd).1] at this
  simpa using this

/-- The state in which a result was delivered. -/
theorem at_got {s : St} {tr a b : List Ev} (h : (machine prog W).Reaches s tr) {t c : Nat} {r : Res} (ht : tr = a ++ .got t c r :: b) :
    ∃ s1 w, (machine prog W).Reaches s1 a ∧ w < W ∧ (s1.stack w).head? = some t ∧ (s1.tk t).ph ≠ .closing ∧ (s1.tk c).res = some r := by
  obtain ⟨s1, l, s2, hr, hs⟩ := h.at_event_single (by
    intro s l s' e hs
    have hg := good_of_step (prog := prog) (W := W) hs
    cases hg <;> simp) ht
  have hg := good_of_step (prog := prog) (W := W) hs
  cases hg
  rename_i w p hw h2 hst hp hr'
  exact ⟨s1, w, hr, hw, hst, by grind, hr'⟩

theorem at_gotOutside {s : St} {tr a b : List Ev} (h : (machine prog W).Reaches s tr) {t : Nat} {r : Res}
    (ht : tr = a ++ .gotOutside t r :: b) : ∃ s1, (machine prog W).Reaches s1 a ∧ (s1.tk t).res = some r := by
  obtain ⟨s1, l, s2, hr, hs⟩ := h.at_event_single (by
    intro s l s' e hs
    have hg := good_of_step (prog := prog) (W := W) hs
    cases hg <;> simp) ht
  have hg := good_of_step (prog := prog) (W := W) hs
  cases hg
  exact ⟨s1, hr, by assumption⟩

/-- Full claim: for every `got t c r` and every number of workers, `Over c a`.  Proved for one worker; missing: more workers, see
`early_result_refuted`. -/
theorem over_partial {s : St} {tr a b : List Ev} (h : (machine prog 1).Reaches s tr) {t c : Nat} {r : Res}
    (ht : tr = a ++ .got t c r :: b) : Over c a := by
  obtain ⟨s1, w, hr, hw, hst, hph, hres⟩ := at_got h ht
  have hi := inv hr
  rcases hi.resPh c r hres with hc | hd
  · obtain ⟨w', hw', hc'⟩ := top hr c hc
    have : w = w' := by omega
    subst this
    have : t = c := by simpa [hst] using hc'
    exact absurd (this ▸ hc) hph
  · refine ⟨?_, (hi.deadGone c hd).2⟩
    intro x
    have := hi.cnt c x
    rw [(hi.deadGone c hd).1] at this
    simpa using this

/-- An exception is delivered after the local variables of the function it left are gone, with any number of workers ... -/
theorem exception_after_locals {s : St} {tr a b : List Ev} (h : (machine prog W).Reaches s tr) {t c e : Nat}
    (ht : tr = a ++ .got t c (.exc e) :: b) : LocalsGone c a := by
  obtain ⟨s1, w, hr, hw, hst, hph, hres⟩ := at_got h ht
  intro x
  have := (inv hr).cnt c x
  rw [(inv hr).excGone c e hres] at this
  simpa using this

/-- ... and the same for a thread outside. -/
theorem exception_outside_after_locals {s : St} {tr a b : List Ev} (h : (machine prog W).Reaches s tr) {t e : Nat}
    (ht : tr = a ++ .gotOutside t (.exc e) :: b) : LocalsGone t a := by
  obtain ⟨s1, hr, hres⟩ := at_gotOutside h ht
  intro x
  have := (inv hr).cnt t x
  rw [(inv hr).excGone t e hres] at this
  simpa using this

/-! ## Concrete programs -/

/-- Function 0 has a local variable and awaits function 1, which has a local variable too (say, one that refers to the caller's). -/
def demo (lazy : Bool) (r : Res) : Nat → Fn
  | 0 => ⟨[.mk 10, .call 1 lazy true], .val 7⟩
  | _ => ⟨[.mk 20], r⟩

/-- With one worker the demo program runs to its end, through every kind of step. -/
theorem over_nontrivial : ∃ s tr a b, (machine (demo true (.val 5)) 1).Reaches s tr ∧ tr = a ++ .got 0 1 (.val 5) :: b ∧ .made 1 20 ∈ a ∧
    .frameDestroyed 0 ∈ b :=
  ⟨_, [.made 0 10, .called 0 1, .made 1 20, .destroyed 1 20, .frameDestroyed 1, .got 0 1 (.val 5), .destroyed 0 10, .frameDestroyed 0],
    [.made 0 10, .called 0 1, .made 1 20, .destroyed 1 20, .frameDestroyed 1], [.destroyed 0 10, .frameDestroyed 0],
    ⟨[.pick 0 0, .go 0, .go 0, .go 0, .pick 0 1, .go 0, .go 0, .go 0, .go 0, .pick 0 0, .go 0, .go 0, .go 0, .go 0], rfl⟩, rfl, by simp, by simp⟩

/-- Two workers, an exception: delivered before the callee's frame is destroyed, after its locals. -/
theorem exception_nontrivial : ∃ s tr a b, (machine (demo true (.exc 5)) 2).Reaches s tr ∧ tr = a ++ .got 0 1 (.exc 5) :: b ∧ .made 1 20 ∈ a ∧
    .frameDestroyed 1 ∈ b :=
  ⟨_, [.made 0 10, .called 0 1, .made 1 20, .destroyed 1 20, .got 0 1 (.exc 5), .frameDestroyed 1],
    [.made 0 10, .called 0 1, .made 1 20, .destroyed 1 20], [.frameDestroyed 1],
    ⟨[.pick 0 0, .go 0, .go 0, .go 0, .pick 1 1, .go 1, .go 1, .go 1, .go 1, .pick 0 0, .go 0, .go 1], rfl⟩, rfl, by simp, by simp⟩

/-! ## Refutations -/

/-- With two workers, an awaited task that returns a value: the caller continues, and even destroys the variable of its own that the
callee's local variable may refer to, before the callee's local variable is destroyed. -/
theorem early_result_refuted : ∃ s tr a b, (machine (demo true (.val 5)) 2).Reaches s tr ∧ tr = a ++ .got 0 1 (.val 5) :: b ∧ ¬ LocalsGone 1 a ∧
    (∃ c d, b = c ++ .destroyed 1 20 :: d ∧ .destroyed 0 10 ∈ c ∧ .frameDestroyed 0 ∈ c) := by
  refine ⟨_, [.made 0 10, .called 0 1, .made 1 20, .got 0 1 (.val 5), .destroyed 0 10, .frameDestroyed 0, .destroyed 1 20],
    [.made 0 10, .called 0 1, .made 1 20], [.destroyed 0 10, .frameDestroyed 0, .destroyed 1 20],
    ⟨[.pick 0 0, .go 0, .go 0, .go 0, .pick 1 1, .go 1, .go 1, .pick 0 0, .go 0, .go 0, .go 0, .go 0, .go 1], rfl⟩, rfl, ?_,
    [.destroyed 0 10, .frameDestroyed 0], [], rfl, by simp, by simp⟩
  intro h
  exact absurd (h 20) (by decide)

/-- The same without a second worker for a thread outside of the runtime that waits in future::get(). -/
theorem early_result_outside_refuted : ∃ s tr a b, (machine (demo true (.val 5)) 1).Reaches s tr ∧ tr = a ++ .gotOutside 0 (.val 7) :: b ∧
    ¬ LocalsGone 0 a ∧ .destroyed 0 10 ∈ b := by
  refine ⟨_, [.made 0 10, .called 0 1, .made 1 20, .destroyed 1 20, .frameDestroyed 1, .got 0 1 (.val 5), .gotOutside 0 (.val 7), .destroyed 0 10],
    [.made 0 10, .called 0 1, .made 1 20, .destroyed 1 20, .frameDestroyed 1, .got 0 1 (.val 5)], [.destroyed 0 10],
    ⟨[.pick 0 0, .go 0, .go 0, .go 0, .pick 0 1, .go 0, .go 0, .go 0, .go 0, .pick 0 0, .go 0, .go 0, .get, .go 0], rfl⟩, rfl, ?_, by simp⟩
  intro h
  exact absurd (h 10) (by decide)

/-- An exception too is delivered before the parameters of the callee are destroyed. -/
theorem early_exception_refuted : ∃ s tr a b, (machine (demo true (.exc 5)) 2).Reaches s tr ∧ tr = a ++ .got 0 1 (.exc 5) :: b ∧ ¬ Over 1 a := by
  refine ⟨_, [.made 0 10, .called 0 1, .made 1 20, .destroyed 1 20, .got 0 1 (.exc 5)], [.made 0 10, .called 0 1, .made 1 20, .destroyed 1 20], [],
    ⟨[.pick 0 0, .go 0, .go 0, .go 0, .pick 1 1, .go 1, .go 1, .go 1, .go 1, .pick 0 0, .go 0], rfl⟩, rfl, ?_⟩
  intro h
  simpa using h.2

end Verif.Scope
