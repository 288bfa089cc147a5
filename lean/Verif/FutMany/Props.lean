import Verif.FutMany.Model
import Verif.Common.AtEvent
/-!
# C110: future objects that are moved, several futures of one promise
-/

namespace Verif.FutMany
open Verif.Future (Res Ret)
open Machine

theorem openUntil_concat {a : Ev} {c : Ev → Bool} {p : List Ev} {e : Ev} : OpenUntil a c (p ++ [e]) ↔ e = a ∨ (OpenUntil a c p ∧ c e = false) := by
  constructor
  · rintro ⟨q, r, h, hr⟩
    rcases List.eq_nil_or_concat r with rfl | ⟨r', y, rfl⟩
    · have := List.append_inj' h rfl
      simp at this
      exact Or.inl this.2
    · rw [List.concat_eq_append] at h hr
      have h' : p ++ [e] = (q ++ a :: r') ++ [y] := by simpa using h
      have := List.append_inj' h' rfl
      simp at this
      obtain ⟨rfl, rfl⟩ := this
      refine Or.inr ⟨⟨q, r', rfl, fun x hx => hr x (by simp [hx])⟩, hr e (by simp)⟩
  · rintro (rfl | ⟨⟨q, r, rfl, hr⟩, hc⟩)
    · exact ⟨p, [], rfl, by simp⟩
    · refine ⟨q, r ++ [e], by simp, ?_⟩
      intro x hx
      simp only [List.mem_append, List.mem_cons, List.not_mem_nil, or_false] at hx
      rcases hx with hx | rfl
      · exact hr x hx
      · exact hc

theorem not_openUntil_nil {a : Ev} {c : Ev → Bool} : ¬ OpenUntil a c [] := by
  rintro ⟨q, r, h, -⟩; simp at h

/-- one step of `current` -/
def curStep (c : Option Nat) : Ev → Option Nat
  | .gotFuture o => some o
  | .moved a b => if c = some a then some b else if c = some b then none else c
  | _ => c

theorem currentFrom_concat (tr : List Ev) (e : Ev) : ∀ c, currentFrom c (tr ++ [e]) = curStep (currentFrom c tr) e := by
  induction tr with
  | nil => intro c; cases e <;> rfl
  | cons x tr ih => intro c; cases x <;> simp only [List.cons_append, currentFrom, ih]

theorem current_concat (tr : List Ev) (e : Ev) : current (tr ++ [e]) = curStep (current tr) e := currentFrom_concat tr e none

def res (p : List Ev) : Option Res := p.findSome? (fun | .produced r => some r | _ => none)

theorem res_concat (tr : List Ev) (e : Ev) : res (tr ++ [e]) = (res tr).or (match e with | .produced r => some r | _ => none) := by
  unfold res
  rw [List.findSome?_append]
  cases e <;> rfl

theorem handedOut_concat (tr : List Ev) (e : Ev) : handedOut (tr ++ [e]) = (handedOut tr || isHandOut e) := by simp [handedOut]

theorem answer_eq (p : List Ev) : answer p = match res p with | none => .outOfRange | some r => if handedOut p = true then .logicError else .res r := rfl

def gots (tr : List Ev) : Nat := tr.countP (fun | .gotFuture _ => true | _ => false)

theorem gots_concat (tr : List Ev) (e : Ev) : gots (tr ++ [e]) = gots tr + match e with | .gotFuture _ => 1 | _ => 0 := by
  simp only [gots, List.countP_append]; cases e <;> rfl

/-- where the result is (in all histories) -/
structure Base (s : St) (tr : List Ev) : Prop where
  done : s.done = true ↔ (res tr).isSome = true
  ffr : ∀ r, s.ff = some r → res tr = some r ∧ ∀ o, (s.obj o).fr = none
  frr : ∀ o r, (s.obj o).fr = some r → res tr = some r
  uniq : ∀ o o', (s.obj o).fr.isSome = true → (s.obj o').fr.isSome = true → o = o'
  out : handedOut tr = true → s.ff = none ∧ ∀ o, (s.obj o).fr.isSome = true → (s.obj o).got = true
  cnt : tr.countP isHandOut = if handedOut tr = true then 1 else 0
  outDone : handedOut tr = true → s.done = true

theorem res_append (a b : List Ev) : res (a ++ b) = (res a).or (res b) := by simp [res]
theorem handedOut_append (a b : List Ev) : handedOut (a ++ b) = (handedOut a || handedOut b) := by simp [handedOut]
theorem gots_append (a b : List Ev) : gots (a ++ b) = gots a + gots b := by simp [gots]
theorem currentFrom_append (a b : List Ev) : ∀ c, currentFrom c (a ++ b) = currentFrom (currentFrom c a) b := by
  induction a with
  | nil => intro c; rfl
  | cons x a ih => intro c; cases x <;> simp only [List.cons_append, currentFrom, ih]
theorem current_append (a b : List Ev) : current (a ++ b) = currentFrom (current a) b := currentFrom_append a b none

/-- events that say nothing about where the result is -/
def Quiet (e : List Ev) : Prop := res e = none ∧ handedOut e = false ∧ gots e = 0 ∧ e.countP isHandOut = 0 ∧ ∀ c, currentFrom c e = c

theorem quiet_wake (s : St) : Quiet (wakeEv s) := by
  unfold wakeEv; split <;> simp [Quiet, res, handedOut, gots, isHandOut, currentFrom]

theorem quiet_over (s : St) : Quiet (overwriteEv s) := by
  unfold overwriteEv; split <;> simp [Quiet, res, handedOut, gots, isHandOut, currentFrom]

theorem Quiet.append {a b : List Ev} (ha : Quiet a) (hb : Quiet b) : Quiet (a ++ b) := by
  obtain ⟨a1, a2, a3, a4, a5⟩ := ha
  obtain ⟨b1, b2, b3, b4, b5⟩ := hb
  refine ⟨by simp [res_append, a1, b1], by simp [handedOut_append, a2, b2], by simp [gots_append, a3, b3], by simp [a4, b4], fun c => by rw [currentFrom_append, a5, b5]⟩

theorem base_quiet {s : St} {tr e : List Ev} (h : Base s tr) (he : Quiet e) : Base s (tr ++ e) := by
  obtain ⟨e1, e2, e3, e4, e5⟩ := he
  obtain ⟨h1, h2, h3, h4, h5, h6, h7⟩ := h
  have r : res (tr ++ e) = res tr := by simp [res_append, e1]
  have o : handedOut (tr ++ e) = handedOut tr := by simp [handedOut_append, e2]
  constructor <;> (try rw [r]) <;> (try rw [o]) <;> (try simp only [List.countP_append, e4]) <;> assumption

theorem base_pull {s : St} {tr : List Ev} (h : Base s tr) (o : Nat) : Base (pull s o) tr := by
  obtain ⟨h1, h2, h3, h4, h5, h6, h7⟩ := h
  unfold pull
  split
  · cases hff : s.ff with
    | none => constructor <;> (try simp only [upd_apply]) <;> grind
    | some r => have := h2 r hff; constructor <;> (try simp only [upd_apply]) <;> grind
  · constructor <;> assumption

theorem Base.congr {s s' : St} {tr : List Ev} (h : Base s tr) (h1 : s'.done = s.done) (h2 : s'.ff = s.ff) (h3 : s'.obj = s.obj) : Base s' tr := by
  obtain ⟨a1, a2, a3, a4, a5, a6, a7⟩ := h
  constructor <;> (try simp only [h1, h2, h3]) <;> assumption

/-- `get_nonblk()` on any object -/
theorem base_nonblk {s : St} {tr : List Ev} (h : Base s tr) (o : Nat) (e : Ev) (he : isHandOut e = (match (nonblk s o).2 with | .res _ => true | _ => false))
    (hr : ∀ r, e ≠ .produced r) : Base (nonblk s o).1 (tr ++ [e]) := by
  have hp := base_pull h o
  simp only [nonblk] at he ⊢
  revert he
  generalize pull s o = q at *
  obtain ⟨h1, h2, h3, h4, h5, h6, h7⟩ := hp
  have r : res (tr ++ [e]) = res tr := by rw [res_concat]; cases e <;> simp_all
  intro he
  cases hf : (q.obj o).fr with
  | none =>
    simp only [takeObj, answerOf, hf] at he ⊢
    have hoo : upd q.obj o (q.obj o) = q.obj := by funext x; simp only [upd_apply]; split <;> simp_all
    simp only [hoo, if_true]
    constructor <;> (try rw [r]) <;> (try rw [handedOut_concat]) <;> (try simp only [List.countP_append, List.countP_cons, List.countP_nil]) <;> simp_all <;> assumption
  | some v =>
    have hv := h3 o v hf
    have hd : q.done = true := by rw [h1, hv]; rfl
    have hffn : q.ff = none := by
      cases hq : q.ff with
      | none => rfl
      | some w => have := (h2 w hq).2 o; simp [hf] at this
    simp only [takeObj, answerOf, hf] at he ⊢
    cases hg : (q.obj o).got <;> simp [hg] at he
    · have hno : handedOut tr = false := by
        cases hh : handedOut tr with
        | false => rfl
        | true => have := (h5 hh).2 o (by simp [hf]); simp [hg] at this
      constructor <;> (try rw [r]) <;> (try rw [handedOut_concat]) <;> (try simp only [List.countP_append, List.countP_cons, List.countP_nil, upd_apply]) <;> grind
    · constructor <;> (try rw [r]) <;> (try rw [handedOut_concat]) <;> (try simp only [List.countP_append, List.countP_cons, List.countP_nil, upd_apply]) <;> grind

theorem base_step {s s' : St} {tr e : List Ev} {l : Lbl} (h : Base s tr) (hs : step s l = some (s', e)) : Base s' (tr ++ e) := by
  unfold step at hs
  split at hs
  · simp at hs
  have qsingle : ∀ x : Ev, (∀ r, x ≠ .produced r) → isHandOut x = false → (∀ o, x ≠ .gotFuture o) → (∀ a b, x ≠ .moved a b) → Quiet [x] := by
    intro x h1 h2 h3 h4
    cases x <;> simp_all [Quiet, res, handedOut, gots, isHandOut, currentFrom]
  cases l with
  | produce r =>
    simp only [stepLive] at hs
    split at hs <;> simp only [Option.some.injEq, Prod.mk.injEq, reduceCtorEq] at hs
    rename_i hd
    obtain ⟨rfl, rfl⟩ := hs
    rw [← List.append_assoc]
    refine base_quiet ?_ (quiet_wake s)
    obtain ⟨h1, h2, h3, h4, h5, h6, h7⟩ := h
    have hn : res tr = none := by cases hh : res tr <;> simp_all
    have hff : ∀ o, (s.obj o).fr = none := by
      intro o
      cases hf : (s.obj o).fr with
      | none => rfl
      | some v => have := h3 o v hf; simp [hn] at this
    have hout : handedOut tr = false := by cases hh : handedOut tr <;> simp_all
    have hr : res (tr ++ [.produced r]) = some r := by rw [res_concat, hn]; rfl
    have ho : handedOut (tr ++ [.produced r]) = false := by rw [handedOut_concat, hout]; rfl
    constructor <;> (try rw [hr]) <;> (try rw [ho]) <;> simp_all [isHandOut]
  | getFuture o =>
    simp only [stepLive, Option.some.injEq, Prod.mk.injEq] at hs
    obtain ⟨rfl, rfl⟩ := hs
    obtain ⟨h1, h2, h3, h4, h5, h6, h7⟩ := h
    have r : res (tr ++ [.gotFuture o]) = res tr := by simp [res_concat]
    constructor <;> (try rw [r]) <;> (try rw [handedOut_concat]) <;> (try simp only [List.countP_append, List.countP_cons, List.countP_nil, upd_apply, isHandOut]) <;> grind
  | move a b =>
    simp only [stepLive] at hs
    split at hs <;> simp only [Option.some.injEq, Prod.mk.injEq, reduceCtorEq] at hs
    obtain ⟨rfl, rfl⟩ := hs
    obtain ⟨h1, h2, h3, h4, h5, h6, h7⟩ := h
    have r : res (tr ++ [.moved a b]) = res tr := by simp [res_concat]
    constructor <;> (try rw [r]) <;> (try rw [handedOut_concat]) <;> (try simp only [List.countP_append, List.countP_cons, List.countP_nil, upd_apply, isHandOut]) <;> grind
  | valid o =>
    simp only [stepLive, Option.some.injEq, Prod.mk.injEq] at hs
    obtain ⟨rfl, rfl⟩ := hs
    exact base_quiet h (qsingle _ (by simp) rfl (by simp) (by simp))
  | ready o =>
    simp only [stepLive] at hs
    split at hs <;> simp only [Option.some.injEq, Prod.mk.injEq] at hs <;> obtain ⟨rfl, rfl⟩ := hs
    · exact base_quiet (h.congr rfl rfl rfl) (qsingle _ (by simp) rfl (by simp) (by simp))
    · exact base_quiet (base_pull h o) (qsingle _ (by simp) rfl (by simp) (by simp))
  | nonblk o =>
    simp only [stepLive] at hs
    split at hs <;> simp only [Option.some.injEq, Prod.mk.injEq] at hs <;> obtain ⟨rfl, rfl⟩ := hs
    · exact base_quiet (h.congr rfl rfl rfl) (qsingle _ (by simp) rfl (by simp) (by simp))
    · exact base_nonblk h o _ (by cases (nonblk s o).2 <;> rfl) (by simp)
  | await t o =>
    simp only [stepLive] at hs
    (repeat' split at hs) <;> simp only [Option.some.injEq, Prod.mk.injEq, reduceCtorEq] at hs <;> obtain ⟨rfl, rfl⟩ := hs
    · exact base_quiet (h.congr rfl rfl rfl) (qsingle _ (by simp) rfl (by simp) (by simp))
    · exact base_quiet ((base_pull h o).congr rfl rfl rfl) (qsingle _ (by simp) rfl (by simp) (by simp))
    · exact base_quiet ((base_pull h o).congr rfl rfl rfl) (qsingle _ (by simp) rfl (by simp) (by simp))
  | suspend t =>
    simp only [stepLive] at hs
    (repeat' split at hs) <;> simp only [Option.some.injEq, Prod.mk.injEq, reduceCtorEq] at hs <;> obtain ⟨rfl, rfl⟩ := hs
    · exact base_quiet (h.congr rfl rfl rfl) (qsingle _ (by simp) rfl (by simp) (by simp))
    · exact base_quiet (h.congr rfl rfl rfl) ((quiet_over s).append (by simp [Quiet, res, handedOut, gots, isHandOut, currentFrom]))
    · exact base_quiet (h.congr rfl rfl rfl) ((quiet_over s).append (by simp [Quiet, res, handedOut, gots, isHandOut, currentFrom]))
  | resume t =>
    simp only [stepLive] at hs
    (repeat' split at hs) <;> simp only [Option.some.injEq, Prod.mk.injEq, reduceCtorEq] at hs <;> obtain ⟨rfl, rfl⟩ := hs
    · exact base_quiet (h.congr rfl rfl rfl) (qsingle _ (by simp) rfl (by simp) (by simp))
    · rename_i o _ _
      exact (base_nonblk h o _ (by cases (nonblk s o).2 <;> rfl) (by simp)).congr rfl rfl rfl
    · exact base_quiet (h.congr rfl rfl rfl) (qsingle _ (by simp) rfl (by simp) (by simp))
    · rename_i o _ _
      exact (base_nonblk h o _ (by cases (nonblk s o).2 <;> rfl) (by simp)).congr rfl rfl rfl

theorem base_of {s : St} {tr : List Ev} (h : machine.Reaches s tr) : Base s tr :=
  Reaches.inv' (M := machine) Base (by constructor <;> simp [machine, init, res, handedOut]) (fun _ _ _ _ _ _ hi hs => base_step hi hs) h

/-- **C110 (1).**  However many futures are taken from one promise and however they are moved: the result is handed out at most once. -/
theorem futures_at_most_once (s : St) (tr : List Ev) (h : machine.Reaches s tr) : tr.countP isHandOut ≤ 1 := by
  rw [(base_of h).cnt]; split <;> simp

/-- the state of the one future, wherever it has been moved -/
structure Sing (s : St) (tr : List Ev) : Prop where
  zero : gots tr = 0 → current tr = none ∧ handedOut tr = false ∧ ((res tr).isSome = true → s.ff.isSome = true)
  ss : ∀ o, (s.obj o).ss = true ↔ current tr = some o
  fr : ∀ o, (s.obj o).fr.isSome = true → current tr = some o
  got : ∀ o, current tr = some o → ((s.obj o).got = true ↔ handedOut tr = true)
  here : ∀ o, current tr = some o → (res tr).isSome = true → s.ff.isSome = true ∨ (s.obj o).fr.isSome = true

theorem Sing.congr {s s' : St} {tr : List Ev} (h : Sing s tr) (h2 : s'.ff = s.ff) (h3 : s'.obj = s.obj) : Sing s' tr := by
  obtain ⟨a1, a2, a3, a4, a5⟩ := h
  constructor <;> (try simp only [h2, h3]) <;> assumption

theorem sing_quiet {s : St} {tr e : List Ev} (h : Sing s tr) (he : Quiet e) : Sing s (tr ++ e) := by
  obtain ⟨e1, e2, e3, e4, e5⟩ := he
  obtain ⟨h1, h2, h3, h4, h5⟩ := h
  have r : res (tr ++ e) = res tr := by simp [res_append, e1]
  have o : handedOut (tr ++ e) = handedOut tr := by simp [handedOut_append, e2]
  have g : gots (tr ++ e) = gots tr := by simp [gots_append, e3]
  have c : current (tr ++ e) = current tr := by rw [current_append, e5]
  constructor <;> simp only [r, o, g, c] <;> assumption

theorem not_null {s : St} {tr : List Ev} (h : Sing s tr) {o : Nat} (hn : nullUse s o = false) : current tr = some o := by
  simp only [nullUse, Bool.and_eq_false_iff, Bool.not_eq_eq_eq_not, Bool.not_false] at hn
  rcases hn with hn | hn
  · exact (h.ss o).1 hn
  · exact h.fr o (by cases hh : (s.obj o).fr <;> simp_all)

theorem sing_pull {s : St} {tr : List Ev} (hb : Base s tr) (h : Sing s tr) {o : Nat} (hc : current tr = some o) : Sing (pull s o) tr := by
  obtain ⟨h1, h2, h3, h4, h5⟩ := h
  have h2' := h2 o
  have h4' := h4 o
  have h5' := h5 o hc
  unfold pull
  split
  · constructor <;> (try simp only [upd_apply]) <;> grind
  · constructor <;> assumption

/-- After the pull the current object knows the result exactly if there is one. -/
theorem pull_current {s : St} {tr : List Ev} (hb : Base s tr) (h : Sing s tr) {o : Nat} (hc : current tr = some o) : ((pull s o).obj o).fr = res tr := by
  have h5 := h.here o hc
  have hff := hb.ffr
  have hfr := hb.frr o
  unfold pull
  split
  · rename_i hn
    simp only [upd_same]
    cases hq : s.ff with
    | some v => rw [(hff v hq).1]
    | none => cases hr : res tr <;> simp_all
  · cases hq : (s.obj o).fr with
    | none => contradiction
    | some v => rw [hfr v hq]

theorem sing_nonblk {s : St} {tr : List Ev} (hb : Base s tr) (h : Sing s tr) {o : Nat} (hc : current tr = some o) :
    (nonblk s o).2 = answer tr ∧ ∀ e, (isHandOut e = (match (nonblk s o).2 with | .res _ => true | _ => false)) → (∀ r, e ≠ .produced r) → (∀ o, e ≠ .gotFuture o) → (∀ a b, e ≠ .moved a b) →
      Sing (nonblk s o).1 (tr ++ [e]) := by
  have hp := sing_pull hb h hc
  have hbp := base_pull hb o
  have hq := pull_current hb h hc
  have hgot := hp.got o hc
  simp only [nonblk]
  generalize pull s o = q at *
  obtain ⟨h1, h2, h3, h4, h5⟩ := hp
  constructor
  · rw [answer_eq]
    simp only [answerOf, hq]
    cases hr : res tr with
    | none => rfl
    | some v => simp only [hgot]
  · intro e he hr hg hm
    have r : res (tr ++ [e]) = res tr := by rw [res_concat]; cases e <;> simp_all
    have g : gots (tr ++ [e]) = gots tr := by rw [gots_concat]; cases e <;> simp_all
    have c : current (tr ++ [e]) = current tr := by rw [current_concat]; cases e <;> simp_all [curStep]
    have o' := handedOut_concat tr e
    have hz : gots tr ≠ 0 := by intro hz; have := (h1 hz).1; simp [hc] at this
    revert he
    simp only [answerOf, hq]
    cases hr' : res tr with
    | none =>
      intro he
      have hoo : takeObj (q.obj o) = q.obj o := by simp [takeObj, hq, hr']
      have hoo' : upd q.obj o (q.obj o) = q.obj := by funext x; simp only [upd_apply]; split <;> simp_all
      simp only [hoo, hoo']
      simp only at he
      constructor <;> simp only [r, o', g, c, he, Bool.or_false] <;> assumption
    | some v =>
      have ht : takeObj (q.obj o) = { q.obj o with got := true } := by simp [takeObj, hq, hr']
      simp only [ht]
      intro he
      have hho : handedOut (tr ++ [e]) = true := by
        rw [o', he]
        cases hh : handedOut tr with
        | true => rfl
        | false =>
          have : (q.obj o).got = false := by cases h : (q.obj o).got with | false => rfl | true => rw [hgot.1 h] at hh; simp at hh
          simp [this]
      constructor <;> simp only [r, hho, g, c, upd_apply] <;> grind

theorem sing_step {s s' : St} {tr e : List Ev} {l : Lbl} (hb : Base s tr) (h : Sing s tr) (hs : step s l = some (s', e)) (h1 : gots (tr ++ e) ≤ 1) : Sing s' (tr ++ e) := by
  unfold step at hs
  split at hs
  · simp at hs
  have qsingle : ∀ x : Ev, (∀ r, x ≠ .produced r) → isHandOut x = false → (∀ o, x ≠ .gotFuture o) → (∀ a b, x ≠ .moved a b) → Quiet [x] := by
    intro x h1 h2 h3 h4
    cases x <;> simp_all [Quiet, res, handedOut, gots, isHandOut, currentFrom]
  cases l with
  | produce r =>
    simp only [stepLive] at hs
    split at hs <;> simp only [Option.some.injEq, Prod.mk.injEq, reduceCtorEq] at hs
    rename_i hd
    obtain ⟨rfl, rfl⟩ := hs
    rw [← List.append_assoc]
    refine sing_quiet ?_ (quiet_wake s)
    obtain ⟨h1, h2, h3, h4, h5⟩ := h
    have ho : handedOut (tr ++ [.produced r]) = handedOut tr := by rw [handedOut_concat]; simp [isHandOut]
    have g : gots (tr ++ [.produced r]) = gots tr := by simp [gots_concat]
    have c : current (tr ++ [.produced r]) = current tr := by rw [current_concat]; rfl
    constructor <;> simp only [ho, g, c] <;> grind
  | getFuture o =>
    simp only [stepLive, Option.some.injEq, Prod.mk.injEq] at hs
    obtain ⟨rfl, rfl⟩ := hs
    obtain ⟨z, h2, h3, h4, h5⟩ := h
    rw [gots_concat] at h1
    simp only at h1
    obtain ⟨z1, z2, z3⟩ := z (by omega)
    have r : res (tr ++ [.gotFuture o]) = res tr := by simp [res_concat]
    have ho : handedOut (tr ++ [.gotFuture o]) = handedOut tr := by rw [handedOut_concat]; simp [isHandOut]
    have g : gots (tr ++ [.gotFuture o]) = gots tr + 1 := by rw [gots_concat]
    have c : current (tr ++ [.gotFuture o]) = some o := by rw [current_concat]; rfl
    constructor <;> simp only [ho, g, c, r, upd_apply] <;> grind
  | move a b =>
    simp only [stepLive] at hs
    split at hs <;> simp only [Option.some.injEq, Prod.mk.injEq, reduceCtorEq] at hs
    obtain ⟨rfl, rfl⟩ := hs
    obtain ⟨z, h2, h3, h4, h5⟩ := h
    have r : res (tr ++ [.moved a b]) = res tr := by simp [res_concat]
    have ho : handedOut (tr ++ [.moved a b]) = handedOut tr := by rw [handedOut_concat]; simp [isHandOut]
    have g : gots (tr ++ [.moved a b]) = gots tr := by simp [gots_concat]
    have c : current (tr ++ [.moved a b]) = if current tr = some a then some b else if current tr = some b then none else current tr := by rw [current_concat]; rfl
    constructor <;> simp only [ho, g, c, r, upd_apply] <;> grind
  | valid o =>
    simp only [stepLive, Option.some.injEq, Prod.mk.injEq] at hs
    obtain ⟨rfl, rfl⟩ := hs
    exact sing_quiet h (qsingle _ (by simp) rfl (by simp) (by simp))
  | ready o =>
    simp only [stepLive] at hs
    split at hs <;> simp only [Option.some.injEq, Prod.mk.injEq] at hs <;> obtain ⟨rfl, rfl⟩ := hs
    · exact sing_quiet (h.congr rfl rfl) (qsingle _ (by simp) rfl (by simp) (by simp))
    · rename_i hn
      exact sing_quiet (sing_pull hb h (not_null h (by simpa using hn))) (qsingle _ (by simp) rfl (by simp) (by simp))
  | nonblk o =>
    simp only [stepLive] at hs
    split at hs <;> simp only [Option.some.injEq, Prod.mk.injEq] at hs <;> obtain ⟨rfl, rfl⟩ := hs
    · exact sing_quiet (h.congr rfl rfl) (qsingle _ (by simp) rfl (by simp) (by simp))
    · rename_i hn
      exact (sing_nonblk hb h (not_null h (by simpa using hn))).2 _ (by cases (nonblk s o).2 <;> rfl) (by simp) (by simp) (by simp)
  | await t o =>
    simp only [stepLive] at hs
    (repeat' split at hs) <;> simp only [Option.some.injEq, Prod.mk.injEq, reduceCtorEq] at hs <;> obtain ⟨rfl, rfl⟩ := hs
    · exact sing_quiet (h.congr rfl rfl) (qsingle _ (by simp) rfl (by simp) (by simp))
    · rename_i hn _
      exact sing_quiet ((sing_pull hb h (not_null h (by simpa using hn))).congr rfl rfl) (qsingle _ (by simp) rfl (by simp) (by simp))
    · rename_i hn _
      exact sing_quiet ((sing_pull hb h (not_null h (by simpa using hn))).congr rfl rfl) (qsingle _ (by simp) rfl (by simp) (by simp))
  | suspend t =>
    simp only [stepLive] at hs
    (repeat' split at hs) <;> simp only [Option.some.injEq, Prod.mk.injEq, reduceCtorEq] at hs <;> obtain ⟨rfl, rfl⟩ := hs
    · exact sing_quiet (h.congr rfl rfl) (qsingle _ (by simp) rfl (by simp) (by simp))
    · exact sing_quiet (h.congr rfl rfl) ((quiet_over s).append (by simp [Quiet, res, handedOut, gots, isHandOut, currentFrom]))
    · exact sing_quiet (h.congr rfl rfl) ((quiet_over s).append (by simp [Quiet, res, handedOut, gots, isHandOut, currentFrom]))
  | resume t =>
    simp only [stepLive] at hs
    (repeat' split at hs) <;> simp only [Option.some.injEq, Prod.mk.injEq, reduceCtorEq] at hs <;> obtain ⟨rfl, rfl⟩ := hs
    · exact sing_quiet (h.congr rfl rfl) (qsingle _ (by simp) rfl (by simp) (by simp))
    · rename_i o _ hn
      exact ((sing_nonblk hb h (not_null h (by simpa using hn))).2 _ (by cases (nonblk s o).2 <;> rfl) (by simp) (by simp) (by simp)).congr rfl rfl
    · exact sing_quiet (h.congr rfl rfl) (qsingle _ (by simp) rfl (by simp) (by simp))
    · rename_i o _ hn
      exact ((sing_nonblk hb h (not_null h (by simpa using hn))).2 _ (by cases (nonblk s o).2 <;> rfl) (by simp) (by simp) (by simp)).congr rfl rfl

theorem sing_of {s : St} {tr : List Ev} (h : machine.Reaches s tr) (h1 : Single tr) : Sing s tr := by
  revert h1
  refine Reaches.inv' (M := machine) (fun s tr => Single tr → Sing s tr) (fun _ => by constructor <;> simp [machine, init, res, handedOut, current, currentFrom]) ?_ h
  intro s tr l s' e hr hi hs h1
  have h1' : gots (tr ++ e) ≤ 1 := h1
  refine sing_step (base_of hr) (hi ?_) hs h1'
  rw [gots_append] at h1'
  show gots tr ≤ 1
  omega

/-- which object is awaited -/
def Pc.on : Pc → Option Nat
  | .suspending o | .suspended o | .woken o | .resuming o => some o
  | _ => none

def Pc.sleeps : Pc → Bool
  | .suspended _ => true
  | _ => false

/-- trace and state agree about who awaits and who sleeps -/
structure Aw (s : St) (tr : List Ev) : Prop where
  aw : ∀ t o, Awaiting t o tr ↔ (s.pc t).on = some o
  sl : ∀ t, Asleep t tr ↔ (s.pc t).sleeps = true
  wt : ∀ t, s.waiting = some t ↔ (s.pc t).sleeps = true

theorem pull_pc (s : St) (o : Nat) : (pull s o).pc = s.pc ∧ (pull s o).waiting = s.waiting := by unfold pull; split <;> simp

theorem nonblk_pc (s : St) (o : Nat) : (nonblk s o).1.waiting = s.waiting := by simp only [nonblk]; exact (pull_pc s o).2

theorem sleeps_iff {p : Pc} : p.sleeps = true ↔ ∃ o, p = .suspended o := by cases p <;> simp [Pc.sleeps]

theorem Aw.congr {s s' : St} {tr : List Ev} (h : Aw s tr) (h2 : s'.pc = s.pc) (h3 : s'.waiting = s.waiting) : Aw s' tr := by
  obtain ⟨a1, a2, a3⟩ := h
  constructor <;> simp only [h2, h3] <;> assumption

/-- an event that is not about tasks -/
theorem aw_other {s : St} {tr : List Ev} (h : Aw s tr) {e : Ev} (h1 : ∀ t o, e ≠ .awaitCalled t o) (h2 : ∀ t, e ≠ .suspended t ∧ e ≠ .woken t ∧ e ≠ .destroyed t)
    (h3 : ∀ t o x, e ≠ .awaitRet t o x) : Aw s (tr ++ [e]) := by
  obtain ⟨a1, a2, a3⟩ := h
  have h4 : ∀ t, endsAwait t e = false := by intro t; cases e <;> simp_all [endsAwait]
  have h5 : ∀ t, endsSleep t e = false := by intro t; cases e <;> simp_all [endsSleep]
  constructor
  · intro t o
    rw [Awaiting, openUntil_concat, ← Awaiting, a1]
    simp [h1, h4]
  · intro t
    rw [Asleep, openUntil_concat, ← Asleep, a2]
    simp [h2, h5]
  · exact a3

theorem aw_step {s s' : St} {tr e : List Ev} {l : Lbl} (h : Aw s tr) (hs : step s l = some (s', e)) : Aw s' (tr ++ e) := by
  unfold step at hs
  split at hs
  · simp at hs
  cases l with
  | produce r =>
    simp only [stepLive] at hs
    split at hs <;> simp only [Option.some.injEq, Prod.mk.injEq, reduceCtorEq] at hs
    obtain ⟨rfl, rfl⟩ := hs
    have h0 := aw_other (e := .produced r) h (by simp) (by simp) (by simp)
    rw [← List.append_assoc]
    generalize tr ++ [Ev.produced r] = tr' at h0
    obtain ⟨a1, a2, a3⟩ := h0
    cases hw : s.waiting with
    | none =>
      simp only [wakeEv, wakePc, hw, List.append_nil]
      constructor <;> grind
    | some u =>
      obtain ⟨o, ho⟩ := sleeps_iff.1 ((a3 u).1 hw)
      simp only [wakeEv, wakePc, hw, ho]
      constructor
      · intro t o'
        rw [Awaiting, openUntil_concat, ← Awaiting, a1]
        simp only [upd_apply, endsAwait]
        grind [Pc.on]
      · intro t
        rw [Asleep, openUntil_concat, ← Asleep, a2]
        simp only [upd_apply, endsSleep]
        grind [Pc.sleeps]
      · intro t
        have := a3 t
        simp only [upd_apply]
        grind [Pc.sleeps]
  | getFuture o =>
    simp only [stepLive, Option.some.injEq, Prod.mk.injEq] at hs
    obtain ⟨rfl, rfl⟩ := hs
    exact (aw_other (e := .gotFuture o) h (by simp) (by simp) (by simp)).congr rfl rfl
  | move a b =>
    simp only [stepLive] at hs
    split at hs <;> simp only [Option.some.injEq, Prod.mk.injEq, reduceCtorEq] at hs
    obtain ⟨rfl, rfl⟩ := hs
    exact (aw_other (e := .moved a b) h (by simp) (by simp) (by simp)).congr rfl rfl
  | valid o =>
    simp only [stepLive, Option.some.injEq, Prod.mk.injEq] at hs
    obtain ⟨rfl, rfl⟩ := hs
    exact aw_other h (by simp) (by simp) (by simp)
  | ready o =>
    simp only [stepLive] at hs
    split at hs <;> simp only [Option.some.injEq, Prod.mk.injEq] at hs <;> obtain ⟨rfl, rfl⟩ := hs
    · exact (aw_other h (by simp) (by simp) (by simp)).congr rfl rfl
    · exact (aw_other h (by simp) (by simp) (by simp)).congr (pull_pc s o).1 (pull_pc s o).2
  | nonblk o =>
    simp only [stepLive] at hs
    split at hs <;> simp only [Option.some.injEq, Prod.mk.injEq] at hs <;> obtain ⟨rfl, rfl⟩ := hs
    · exact (aw_other h (by simp) (by simp) (by simp)).congr rfl rfl
    · exact (aw_other h (by simp) (by simp) (by simp)).congr (pull_pc s o).1 (pull_pc s o).2
  | await t o =>
    simp only [stepLive] at hs
    have key : ∀ s1 p, s1.pc = upd s.pc t p → s1.waiting = s.waiting → p.on = some o → p.sleeps = false → s.pc t = .idle → Aw s1 (tr ++ [.awaitCalled t o]) := by
      intro s1 p e1 e2 e3 e4 e5
      obtain ⟨a1, a2, a3⟩ := h
      constructor
      · intro t' o'
        rw [Awaiting, openUntil_concat, ← Awaiting, a1, e1]
        simp only [upd_apply, endsAwait]
        grind [Pc.on]
      · intro t'
        rw [Asleep, openUntil_concat, ← Asleep, a2, e1]
        simp only [upd_apply, endsSleep]
        grind [Pc.sleeps]
      · intro t'
        have := a3 t'
        rw [e1, e2]
        simp only [upd_apply]
        grind [Pc.sleeps]
    (repeat' split at hs) <;> simp only [Option.some.injEq, Prod.mk.injEq, reduceCtorEq] at hs <;> obtain ⟨rfl, rfl⟩ := hs
    · exact (aw_other h (by simp) (by simp) (by simp)).congr rfl rfl
    · exact key _ (.resuming o) rfl (pull_pc s o).2 rfl rfl (by assumption)
    · exact key _ (.suspending o) rfl (pull_pc s o).2 rfl rfl (by assumption)
  | suspend t =>
    have hover : ∀ o, s.pc t = .suspending o → Aw { s with waiting := none, pc := overwritePc s } (tr ++ overwriteEv s) ∧ (overwritePc s) t = .suspending o := by
      intro o ho
      obtain ⟨a1, a2, a3⟩ := h
      cases hw : s.waiting with
      | none =>
        simp only [overwriteEv, overwritePc, hw, List.append_nil]
        refine ⟨?_, ho⟩
        constructor <;> grind
      | some u =>
        obtain ⟨o', ho'⟩ := sleeps_iff.1 ((a3 u).1 hw)
        have hut : u ≠ t := by rintro rfl; rw [ho'] at ho; simp at ho
        simp only [overwriteEv, overwritePc, hw]
        refine ⟨?_, by rw [upd_ne _ _ hut.symm]; exact ho⟩
        constructor
        · intro t' o''
          rw [Awaiting, openUntil_concat, ← Awaiting, a1]
          simp only [upd_apply, endsAwait]
          grind [Pc.on]
        · intro t'
          rw [Asleep, openUntil_concat, ← Asleep, a2]
          simp only [upd_apply, endsSleep]
          grind [Pc.sleeps]
        · intro t'
          have := a3 t'
          simp only [upd_apply]
          grind [Pc.sleeps]
    have hsl : ∀ (pc : Nat → Pc) tr' o s1, Aw { s with waiting := none, pc := pc } tr' → pc t = .suspending o → s1.pc = upd pc t (.suspended o) → s1.waiting = some t → Aw s1 (tr' ++ [.suspended t]) := by
      intro pc tr' o s1 h0 h1 h2 h3
      obtain ⟨a1, a2, a3⟩ := h0
      simp only at a1 a2 a3
      constructor
      · intro t' o''
        rw [Awaiting, openUntil_concat, ← Awaiting, a1, h2]
        simp only [upd_apply, endsAwait]
        grind [Pc.on]
      · intro t'
        rw [Asleep, openUntil_concat, ← Asleep, a2, h2]
        simp only [upd_apply, endsSleep]
        grind [Pc.sleeps]
      · intro t'
        have := a3 t'
        rw [h2, h3]
        simp only [upd_apply]
        grind [Pc.sleeps]
    simp only [stepLive] at hs
    (repeat' split at hs) <;> simp only [Option.some.injEq, Prod.mk.injEq, reduceCtorEq] at hs <;> obtain ⟨rfl, rfl⟩ := hs
    · exact (aw_other h (by simp) (by simp) (by simp)).congr rfl rfl
    · rename_i o ho _ _
      obtain ⟨h1, h2⟩ := hover o ho
      have h3 := hsl (overwritePc s) (tr ++ overwriteEv s) o { s with waiting := some t, pc := upd (overwritePc s) t (.suspended o) } h1 h2 rfl rfl
      rw [show tr ++ (overwriteEv s ++ [Ev.suspended t, Ev.woken t]) = ((tr ++ overwriteEv s) ++ [.suspended t]) ++ [.woken t] by simp]
      obtain ⟨a1, a2, a3⟩ := h3
      simp only at a1 a2 a3
      constructor
      · intro t' o''
        rw [Awaiting, openUntil_concat, ← Awaiting, a1]
        simp only [upd_apply, endsAwait]
        grind [Pc.on]
      · intro t'
        rw [Asleep, openUntil_concat, ← Asleep, a2]
        simp only [upd_apply, endsSleep]
        grind [Pc.sleeps]
      · intro t'
        have := a3 t'
        simp only [upd_apply] at this ⊢
        grind [Pc.sleeps]
    · rename_i o ho _ _
      obtain ⟨h1, h2⟩ := hover o ho
      rw [← List.append_assoc]
      exact hsl (overwritePc s) (tr ++ overwriteEv s) o _ h1 h2 rfl rfl
  | resume t =>
    have key : ∀ s1 o x, s1.pc = upd s.pc t .idle → s1.waiting = s.waiting → (s.pc t).on = some o → (s.pc t).sleeps = false → Aw s1 (tr ++ [.awaitRet t o x]) := by
      intro s1 o x e1 e2 e3 e4
      obtain ⟨a1, a2, a3⟩ := h
      constructor
      · intro t' o'
        rw [Awaiting, openUntil_concat, ← Awaiting, a1, e1]
        simp only [upd_apply, endsAwait]
        grind [Pc.on]
      · intro t'
        rw [Asleep, openUntil_concat, ← Asleep, a2, e1]
        simp only [upd_apply, endsSleep]
        grind [Pc.sleeps]
      · intro t'
        have := a3 t'
        rw [e1, e2]
        simp only [upd_apply]
        grind [Pc.sleeps]
    simp only [stepLive] at hs
    (repeat' split at hs) <;> simp only [Option.some.injEq, Prod.mk.injEq, reduceCtorEq] at hs <;> obtain ⟨rfl, rfl⟩ := hs
    · exact (aw_other h (by simp) (by simp) (by simp)).congr rfl rfl
    · rename_i o ho _
      exact key _ o _ rfl (nonblk_pc s o) (by rw [ho]; rfl) (by rw [ho]; rfl)
    · exact (aw_other h (by simp) (by simp) (by simp)).congr rfl rfl
    · rename_i o ho _
      exact key _ o _ rfl (nonblk_pc s o) (by rw [ho]; rfl) (by rw [ho]; rfl)

theorem aw_of {s : St} {tr : List Ev} (h : machine.Reaches s tr) : Aw s tr :=
  Reaches.inv' (M := machine) Aw (by constructor <;> simp [machine, init, Awaiting, Asleep, not_openUntil_nil, Pc.on, Pc.sleeps]) (fun _ _ _ _ _ _ hi hs => aw_step hi hs) h

/-- the one task that awaits the one future -/
structure One (s : St) (tr : List Ev) : Prop where
  uniq : ∀ t t', (s.pc t).on ≠ none → (s.pc t').on ≠ none → t = t'
  cur : ∀ t o, (s.pc t).on = some o → current tr = some o
  sp : ∀ t o, s.pc t = .suspending o ∨ s.pc t = .suspended o → (s.obj o).fr = none
  su : ∀ t o, s.pc t = .suspended o → s.done = false
  wk : ∀ t o, s.pc t = .woken o → s.done = true
  rs : ∀ t o, s.pc t = .resuming o → (s.obj o).fr.isSome = true

theorem one_step {s s' : St} {tr e : List Ev} {l : Lbl} (hb : Base s tr) (hsg : Sing s tr) (ha : Aw s tr) (h : One s tr) (hs : step s l = some (s', e))
    (h1 : gots (tr ++ e) ≤ 1) (hone : OneAtATime (tr ++ e)) : One s' (tr ++ e) := by
  have free : ∀ x, e = [x] → isUse x = true → ∀ t, (s.pc t).on = none := by
    intro x hx hu t
    cases ho : (s.pc t).on with
    | none => rfl
    | some o => exact absurd ((ha.aw t o).2 ho) (hone tr x (by rw [hx]; exact List.prefix_rfl) hu t o)
  unfold step at hs
  split at hs
  · simp at hs
  obtain ⟨u1, u2, u3, u4, u5, u6⟩ := h
  have hsusp : ∀ t o, s.pc t = .suspending o → (s.pc t).on = some o := by intro t o h; rw [h]; rfl
  have qcur : ∀ q : List Ev, Quiet q → current (tr ++ q) = current tr := by intro q hq; rw [current_append, hq.2.2.2.2]
  have qsingle : ∀ x : Ev, (∀ r, x ≠ .produced r) → isHandOut x = false → (∀ o, x ≠ .gotFuture o) → (∀ a b, x ≠ .moved a b) → Quiet [x] := by
    intro x h1 h2 h3 h4
    cases x <;> simp_all [Quiet, res, handedOut, gots, isHandOut, currentFrom]
  cases l with
  | produce r =>
    simp only [stepLive] at hs
    split at hs <;> simp only [Option.some.injEq, Prod.mk.injEq, reduceCtorEq] at hs
    rename_i hd
    obtain ⟨rfl, rfl⟩ := hs
    have hc : current (tr ++ ([Ev.produced r] ++ wakeEv s)) = current tr := by
      rw [current_append, currentFrom_append, (quiet_wake s).2.2.2.2]; rfl
    cases hw : s.waiting with
    | none =>
      have hns : ∀ t o, s.pc t ≠ .suspended o := by
        intro t o ho
        have := (ha.wt t).2 (by rw [ho]; rfl)
        simp [hw] at this
      simp only [wakePc, hw]
      constructor <;> (try rw [hc]) <;> grind
    | some u =>
      obtain ⟨o, ho⟩ := sleeps_iff.1 ((ha.wt u).1 hw)
      simp only [wakePc, hw, ho]
      have hou : (s.pc u).on = some o := by rw [ho]; rfl
      have hon : ∀ t, t ≠ u → (s.pc t).on = none := by
        intro t ht
        cases h : (s.pc t).on with
        | none => rfl
        | some o' => exact absurd (u1 t u (by simp [h]) (by simp [hou])) ht
      have hcu := u2 u o hou
      constructor <;> (try rw [hc]) <;> simp only [upd_apply] <;> grind [Pc.on]
  | getFuture o =>
    simp only [stepLive, Option.some.injEq, Prod.mk.injEq] at hs
    obtain ⟨rfl, rfl⟩ := hs
    have hz : gots tr = 0 := by rw [gots_concat] at h1; simp only at h1; omega
    have hcn := (hsg.zero hz).1
    have hf : ∀ t, (s.pc t).on = none := by
      intro t
      cases ho : (s.pc t).on with
      | none => rfl
      | some o => have := u2 t o ho; simp [hcn] at this
    constructor <;> grind [Pc.on]
  | move a b =>
    simp only [stepLive] at hs
    split at hs <;> simp only [Option.some.injEq, Prod.mk.injEq, reduceCtorEq] at hs
    obtain ⟨rfl, rfl⟩ := hs
    have hf := free _ rfl rfl
    constructor <;> grind [Pc.on]
  | valid o =>
    simp only [stepLive, Option.some.injEq, Prod.mk.injEq] at hs
    obtain ⟨rfl, rfl⟩ := hs
    have hc := qcur _ (qsingle (.validRet o (s.obj o).ss) (by simp) rfl (by simp) (by simp))
    constructor <;> (try rw [hc]) <;> assumption
  | ready o =>
    simp only [stepLive] at hs
    split at hs <;> simp only [Option.some.injEq, Prod.mk.injEq] at hs <;> obtain ⟨rfl, rfl⟩ := hs
    · have hc := qcur _ (qsingle (.ub o) (by simp) rfl (by simp) (by simp))
      constructor <;> (try rw [hc]) <;> assumption
    · have hf := free _ rfl rfl
      have := (pull_pc s o).1
      constructor <;> rw [this] <;> grind [Pc.on]
  | nonblk o =>
    simp only [stepLive] at hs
    split at hs <;> simp only [Option.some.injEq, Prod.mk.injEq] at hs <;> obtain ⟨rfl, rfl⟩ := hs
    · have hc := qcur _ (qsingle (.ub o) (by simp) rfl (by simp) (by simp))
      constructor <;> (try rw [hc]) <;> assumption
    · have hf := free _ rfl rfl
      have : (nonblk s o).1.pc = s.pc := (pull_pc s o).1
      constructor <;> rw [this] <;> grind [Pc.on]
  | await t o =>
    simp only [stepLive] at hs
    (repeat' split at hs) <;> simp only [Option.some.injEq, Prod.mk.injEq, reduceCtorEq] at hs <;> obtain ⟨rfl, rfl⟩ := hs
    · have hc := qcur _ (qsingle (.ub o) (by simp) rfl (by simp) (by simp))
      constructor <;> (try rw [hc]) <;> assumption
    · rename_i hn _
      have hf := free _ rfl rfl
      have hcur := not_null hsg (by simpa using hn)
      have hc := qcur _ (qsingle (.awaitCalled t o) (by simp) rfl (by simp) (by simp))
      constructor <;> (try rw [hc]) <;> simp only [upd_apply] <;> grind [Pc.on]
    · rename_i hn hnn
      have hf := free _ rfl rfl
      have hnn' : ((pull s o).obj o).fr = none := by cases hq : ((pull s o).obj o).fr <;> simp_all
      have hcur := not_null hsg (by simpa using hn)
      have hc := qcur _ (qsingle (.awaitCalled t o) (by simp) rfl (by simp) (by simp))
      constructor <;> (try rw [hc]) <;> simp only [upd_apply] <;> grind [Pc.on]
  | suspend t =>
    simp only [stepLive] at hs
    split at hs
    case h_2 => simp at hs
    rename_i o ho
    have hcur := u2 t o (hsusp t o ho)
    have hother : ∀ t', t' ≠ t → (s.pc t').on = none := by
      intro t' ht
      cases h : (s.pc t').on with
      | none => rfl
      | some o' => exact absurd (u1 t' t (by simp [h]) (by simp [hsusp t o ho])) ht
    have hw : s.waiting = none := by
      cases hw : s.waiting with
      | none => rfl
      | some u =>
        obtain ⟨o', ho'⟩ := sleeps_iff.1 ((ha.wt u).1 hw)
        have : (s.pc u).on = some o' := by rw [ho']; rfl
        by_cases hut : u = t
        · subst hut; rw [ho'] at ho; simp at ho
        · rw [hother u hut] at this; simp at this
    have hss := (hsg.ss o).2 hcur
    have hfr := u3 t o (Or.inl ho)
    have hhere := hsg.here o hcur
    have hdn := hb.done
    have hffd : s.ff.isSome = true → s.done = true := by
      intro h
      cases hf : s.ff with
      | none => simp [hf] at h
      | some v => rw [hdn, (hb.ffr v hf).1]; rfl
    simp only [hss, Bool.true_eq_false, ↓reduceIte, overwritePc, overwriteEv, hw, List.nil_append] at hs
    split at hs <;> simp only [Option.some.injEq, Prod.mk.injEq] at hs <;> obtain ⟨rfl, rfl⟩ := hs
    · have hc := qcur [.suspended t, .woken t] (by simp [Quiet, res, handedOut, gots, isHandOut, currentFrom])
      constructor <;> (try rw [hc]) <;> simp only [upd_apply] <;> grind [Pc.on]
    · have hc := qcur [.suspended t] (by simp [Quiet, res, handedOut, gots, isHandOut, currentFrom])
      have hd : s.done = false := by
        cases hh : s.done with
        | false => rfl
        | true =>
          rcases hhere (hdn.1 hh) with h | h
          · contradiction
          · rw [hfr] at h; simp at h
      constructor <;> (try rw [hc]) <;> simp only [upd_apply] <;> grind [Pc.on]
  | resume t =>
    simp only [stepLive] at hs
    have hother : ∀ o, (s.pc t).on = some o → ∀ t', t' ≠ t → (s.pc t').on = none := by
      intro o ho t' ht
      cases h : (s.pc t').on with
      | none => rfl
      | some o' => exact absurd (u1 t' t (by simp [h]) (by simp [ho])) ht
    have key : ∀ s1 tr1, s1.pc = upd s.pc t .idle → (∀ t', t' ≠ t → (s.pc t').on = none) → One s1 tr1 := by
      intro s1 tr1 e1 e2
      have e3 : ∀ t', (s1.pc t').on = none := by intro t'; rw [e1]; simp only [upd_apply]; grind [Pc.on]
      constructor <;> grind [Pc.on]
    (repeat' split at hs) <;> simp only [Option.some.injEq, Prod.mk.injEq, reduceCtorEq] at hs <;> obtain ⟨rfl, rfl⟩ := hs
    · rename_i o ho _
      have hc := qcur _ (qsingle (.ub o) (by simp) rfl (by simp) (by simp))
      constructor <;> (try rw [hc]) <;> assumption
    · rename_i o ho _
      exact key _ _ rfl (hother o (by rw [ho]; rfl))
    · rename_i o ho _
      have hc := qcur _ (qsingle (.ub o) (by simp) rfl (by simp) (by simp))
      constructor <;> (try rw [hc]) <;> assumption
    · rename_i o ho _
      exact key _ _ rfl (hother o (by rw [ho]; rfl))

theorem one_of {s : St} {tr : List Ev} (h : machine.Reaches s tr) (h1 : Single tr) (h2 : OneAtATime tr) : One s tr := by
  revert h1 h2
  refine Reaches.inv' (M := machine) (fun s tr => Single tr → OneAtATime tr → One s tr) (fun _ _ => by constructor <;> simp [machine, init, Pc.on]) ?_ h
  intro s tr l s' e hr hi hs h1 h2
  have h1' : gots (tr ++ e) ≤ 1 := h1
  have h1'' : Single tr := by
    rw [gots_append] at h1'
    show gots tr ≤ 1
    omega
  exact one_step (base_of hr) (sing_of hr h1'') (aw_of hr) (hi h1'' (fun p x hp => h2 p x (hp.trans (List.prefix_append _ _)))) hs h1' h2

theorem Single.mono {a b : List Ev} (h : Single (a ++ b)) : Single a := by
  have h' : gots (a ++ b) ≤ 1 := h
  rw [gots_append] at h'
  show gots a ≤ 1
  omega

theorem OneAtATime.mono {a b : List Ev} (h : OneAtATime (a ++ b)) : OneAtATime a := fun p x hp => h p x (hp.trans (List.prefix_append _ _))

/-- steps whose event is an answer (or undefined) emit nothing else, and which steps they are -/
theorem step_of_event {s s' : St} {l : Lbl} {e q : List Ev} {x : Ev} (hs : step s l = some (s', e)) (hq : q ++ [x] <+: e) :
    (∀ o b, x = .validRet o b → q = [] ∧ b = (s.obj o).ss) ∧
    (∀ o b, x = .readyRet o b → q = [] ∧ nullUse s o = false ∧ b = ((pull s o).obj o).fr.isSome) ∧
    (∀ o y, x = .nonblkRet o y → q = [] ∧ nullUse s o = false ∧ y = (nonblk s o).2) ∧
    (∀ t o y, x = .awaitRet t o y → q = [] ∧ nullUse s o = false ∧ y = (nonblk s o).2 ∧ (s.pc t = .woken o ∨ s.pc t = .resuming o)) ∧
    (∀ o, x = .ub o → q = [] ∧ (nullUse s o = true ∨ (s.obj o).ss = false)) ∧
    (∀ t, x = .destroyed t → q = [] ∧ s.waiting = some t ∧ ∃ u o, s.pc u = .suspending o) := by
  unfold step at hs
  split at hs
  · simp at hs
  have one : ∀ y, q ++ [x] <+: [y] → q = [] ∧ x = y := by
    intro y h
    have hl := h.length_le
    simp only [List.length_append, List.length_cons, List.length_nil] at hl
    have hq0 : q = [] := List.eq_nil_of_length_eq_zero (by omega)
    subst hq0
    simpa using h
  have mem : x ∈ e := hq.subset (by simp)
  cases l with
  | produce r =>
    simp only [stepLive] at hs
    split at hs <;> simp only [Option.some.injEq, Prod.mk.injEq, reduceCtorEq] at hs
    obtain ⟨-, rfl⟩ := hs
    simp only [wakeEv] at mem
    split at mem <;> simp at mem
    · subst mem; simp
    · rcases mem with rfl | rfl <;> simp
  | suspend t =>
    simp only [stepLive] at hs
    split at hs
    case h_2 => simp at hs
    rename_i o ho
    split at hs
    · simp only [Option.some.injEq, Prod.mk.injEq] at hs
      obtain ⟨-, rfl⟩ := hs
      obtain ⟨rfl, rfl⟩ := one _ hq
      grind
    have key : ∀ e', e = overwriteEv s ++ e' → (∀ y ∈ e', y = .suspended t ∨ y = .woken t) → (∀ u, x = .destroyed u → q = [] ∧ s.waiting = some u) ∧ (x = .suspended t ∨ x = .woken t ∨ ∃ u, x = .destroyed u) := by
      intro e' he hall
      subst he
      cases hw : s.waiting with
      | none =>
        simp only [overwriteEv, hw, List.nil_append] at mem
        rcases hall x mem with rfl | rfl <;> simp
      | some u =>
        simp only [overwriteEv, hw, List.singleton_append, List.mem_cons] at mem hq
        rcases mem with rfl | hm
        · cases q with
          | nil => simp
          | cons a q =>
            rw [List.cons_append] at hq
            have h2 : Ev.destroyed u ∈ e' := (List.cons_prefix_cons.1 hq).2.subset (by simp)
            rcases hall _ h2 with h | h <;> simp at h
        · rcases hall x hm with rfl | rfl <;> simp
    split at hs <;> simp only [Option.some.injEq, Prod.mk.injEq] at hs <;> obtain ⟨-, rfl⟩ := hs
    · obtain ⟨k1, k2⟩ := key _ rfl (by simp)
      rcases k2 with rfl | rfl | ⟨u, rfl⟩
      · simp
      · simp
      · obtain ⟨rfl, k3⟩ := k1 u rfl
        simp [k3]
        exact ⟨t, o, ho⟩
    · obtain ⟨k1, k2⟩ := key _ rfl (by simp)
      rcases k2 with rfl | rfl | ⟨u, rfl⟩
      · simp
      · simp
      · obtain ⟨rfl, k3⟩ := k1 u rfl
        simp [k3]
        exact ⟨t, o, ho⟩
  | _ =>
    simp only [stepLive] at hs
    (repeat' split at hs) <;> simp only [Option.some.injEq, Prod.mk.injEq, reduceCtorEq] at hs <;> obtain ⟨-, rfl⟩ := hs <;> obtain ⟨rfl, rfl⟩ := one _ hq <;> grind

/-- What every event of a trace says about the state before it. -/
theorem at_state {s : St} {tr p : List Ev} {x : Ev} (h : machine.Reaches s tr) (hp : p ++ [x] <+: tr) :
    ∃ s1 tr1 l s2 e q, machine.Reaches s1 tr1 ∧ step s1 l = some (s2, e) ∧ q ++ [x] <+: e ∧ p = tr1 ++ q := by
  obtain ⟨post, hpost⟩ := hp
  exact h.at_event (pre := p) (post := post) (x := x) (by rw [← hpost]; simp)

/-- **C110 (2).**  In all histories: what is handed out is what was produced before. -/
theorem futures_authentic (s : St) (tr : List Ev) (h : machine.Reaches s tr) (p : List Ev) (r : Res)
    (hp : (∃ o, p ++ [.nonblkRet o (.res r)] <+: tr) ∨ ∃ t o, p ++ [.awaitRet t o (.res r)] <+: tr) : Ev.produced r ∈ p := by
  have key : ∀ s1 o, machine.Reaches s1 p → Ret.res r = (nonblk s1 o).2 → Ev.produced r ∈ p := by
    intro s1 o hr hx
    have hb := base_pull (base_of hr) o
    simp only [nonblk, answerOf] at hx
    cases hf : ((pull s1 o).obj o).fr with
    | none => simp [hf] at hx
    | some v =>
      have := hb.frr o v hf
      rw [hf] at hx
      simp only at hx
      split at hx <;> simp only [Ret.res.injEq, reduceCtorEq] at hx
      subst hx
      simp only [res] at this
      obtain ⟨l1, a, l2, rfl, h2, -⟩ := List.findSome?_eq_some_iff.1 this
      cases a <;> simp at h2
      subst h2
      simp
  rcases hp with ⟨o, hp⟩ | ⟨t, o, hp⟩
  · obtain ⟨s1, tr1, l, s2, e, q, hr, hs, hq, rfl⟩ := at_state h hp
    obtain ⟨rfl, -, hx⟩ := (step_of_event hs hq).2.2.1 _ _ rfl
    rw [List.append_nil] at key ⊢
    exact key s1 o hr hx
  · obtain ⟨s1, tr1, l, s2, e, q, hr, hs, hq, rfl⟩ := at_state h hp
    obtain ⟨rfl, -, hx, -⟩ := (step_of_event hs hq).2.2.2.1 _ _ _ rfl
    rw [List.append_nil] at key ⊢
    exact key s1 o hr hx

theorem produced_iff {s : St} {tr : List Ev} (h : machine.Reaches s tr) : s.done = true ↔ Produced tr := by
  rw [(base_of h).done]
  simp only [res, Option.isSome_iff_exists, Produced]
  constructor
  · rintro ⟨r, h⟩
    obtain ⟨l1, a, l2, rfl, h2, -⟩ := List.findSome?_eq_some_iff.1 h
    cases a with
    | produced v => exact ⟨v, by simp⟩
    | _ => simp at h2
  · rintro ⟨r, hm⟩
    cases hf : tr.findSome? (fun | .produced r => some r | _ => none) with
    | none => have := List.findSome?_eq_none_iff.1 hf _ hm; simp at this
    | some v => exact ⟨v, rfl⟩

/-- **C110 (3).**  One get_future(), any number of moves: wherever the future is now, it is valid, knows whether the result is there, and get_nonblk() answers as if it had never been moved; all other
objects say that they are not valid. -/
theorem future_moves_transparent (s : St) (tr : List Ev) (h : machine.Reaches s tr) (h1 : Single tr) (p : List Ev) (o : Nat) :
    (∀ b, p ++ [.validRet o b] <+: tr → (b = true ↔ current p = some o)) ∧
    (∀ b, p ++ [.readyRet o b] <+: tr → current p = some o ∧ (b = true ↔ Produced p)) ∧
    (∀ x, p ++ [.nonblkRet o x] <+: tr → current p = some o ∧ x = answer p) := by
  refine ⟨fun b hp => ?_, fun b hp => ?_, fun x hp => ?_⟩
  · obtain ⟨s1, tr1, l, s2, e, q, hr, hs, hq, rfl⟩ := at_state h hp
    obtain ⟨rfl, rfl⟩ := (step_of_event hs hq).1 _ _ rfl
    rw [List.append_nil] at hp ⊢
    obtain ⟨z, rfl⟩ := hp
    exact (sing_of hr (h1.mono.mono)).ss o
  · obtain ⟨s1, tr1, l, s2, e, q, hr, hs, hq, rfl⟩ := at_state h hp
    obtain ⟨rfl, hn, rfl⟩ := (step_of_event hs hq).2.1 _ _ rfl
    rw [List.append_nil] at hp ⊢
    obtain ⟨z, rfl⟩ := hp
    have hsg := sing_of hr (h1.mono.mono)
    have hc := not_null hsg hn
    refine ⟨hc, ?_⟩
    rw [pull_current (base_of hr) hsg hc]
    rw [← produced_iff hr, (base_of hr).done]
  · obtain ⟨s1, tr1, l, s2, e, q, hr, hs, hq, rfl⟩ := at_state h hp
    obtain ⟨rfl, hn, rfl⟩ := (step_of_event hs hq).2.2.1 _ _ rfl
    rw [List.append_nil] at hp ⊢
    obtain ⟨z, rfl⟩ := hp
    have hsg := sing_of hr (h1.mono.mono)
    have hc := not_null hsg hn
    exact ⟨hc, (sing_nonblk (base_of hr) hsg hc).1⟩

/-- **C110 (4).**  One get_future(), any number of moves, used by one task at a time: `co_await` ends with the result, after it was produced; nobody is left asleep once the result is there; no task is
destroyed in its `co_await`; and undefined behaviour comes only from using an object that is not the future. -/
theorem future_await_after_moves (s : St) (tr : List Ev) (h : machine.Reaches s tr) (h1 : Single tr) (h2 : OneAtATime tr) :
    (∀ p t o x, p ++ [.awaitRet t o x] <+: tr → Produced p ∧ current p = some o ∧ x = answer p) ∧
    (Produced tr → ∀ t, ¬ Asleep t tr) ∧ (∀ t, Ev.destroyed t ∉ tr) ∧ (∀ p o, p ++ [.ub o] <+: tr → current p ≠ some o) := by
  refine ⟨fun p t o x hp => ?_, fun hpr t hsl => ?_, fun t hm => ?_, fun p o hp => ?_⟩
  · obtain ⟨s1, tr1, l, s2, e, q, hr, hs, hq, rfl⟩ := at_state h hp
    obtain ⟨rfl, hn, rfl, hpc⟩ := (step_of_event hs hq).2.2.2.1 _ _ _ rfl
    rw [List.append_nil] at hp ⊢
    obtain ⟨z, rfl⟩ := hp
    have hsg := sing_of hr (h1.mono.mono)
    have hone := one_of hr (h1.mono.mono) (h2.mono.mono)
    have hc := not_null hsg hn
    refine ⟨?_, hc, (sing_nonblk (base_of hr) hsg hc).1⟩
    rw [← produced_iff hr]
    rcases hpc with hpc | hpc
    · exact hone.wk t o hpc
    · have := hone.rs t o hpc
      cases hf : (s1.obj o).fr with
      | none => simp [hf] at this
      | some v => rw [(base_of hr).done, (base_of hr).frr o v hf]; rfl
  · rw [← produced_iff h] at hpr
    rw [(aw_of h).sl, sleeps_iff] at hsl
    obtain ⟨o, ho⟩ := hsl
    have := (one_of h h1 h2).su t o ho
    simp [hpr] at this
  · obtain ⟨p, z, rfl⟩ := List.append_of_mem hm
    obtain ⟨s1, tr1, l, s2, e, q, hr, hs, hq, rfl⟩ := at_state h (p := p) (x := .destroyed t) ⟨z, by simp⟩
    obtain ⟨rfl, hw, u, o, hu⟩ := (step_of_event hs hq).2.2.2.2.2 t rfl
    rw [List.append_nil] at h1 h2
    have hone := one_of hr (h1.mono) (h2.mono)
    obtain ⟨o', ho'⟩ := sleeps_iff.1 (((aw_of hr).wt t).1 hw)
    have : t = u := hone.uniq t u (by simp [ho', Pc.on]) (by simp [hu, Pc.on])
    subst this
    rw [hu] at ho'
    simp at ho'
  · obtain ⟨s1, tr1, l, s2, e, q, hr, hs, hq, rfl⟩ := at_state h hp
    obtain ⟨rfl, hn⟩ := (step_of_event hs hq).2.2.2.2.1 _ rfl
    rw [List.append_nil] at hp ⊢
    obtain ⟨z, rfl⟩ := hp
    have hsg := sing_of hr (h1.mono.mono)
    intro hc
    have := (hsg.ss o).2 hc
    simp [nullUse, this] at hn

/-- the result has left the shared state, and task 1 sleeps there (or is destroyed) -/
def Lost (s : St) : Prop := s.done = true ∧ s.ff = none ∧ ((∃ o, s.pc 1 = .suspended o) ∨ s.pc 1 = .gone)

theorem lost_step {s s' : St} {l : Lbl} {e : List Ev} (h : Lost s) (hs : step s l = some (s', e)) : Lost s' ∧ Ev.woken 1 ∉ e ∧ ∀ o x, Ev.awaitRet 1 o x ∉ e := by
  obtain ⟨h1, h2, h3⟩ := h
  have hp : ∀ o, (pull s o).done = s.done ∧ (pull s o).ff = none ∧ (pull s o).pc = s.pc := by intro o; unfold pull; split <;> simp [h2]
  have h4 : s.pc 1 ≠ .idle ∧ (∀ o, s.pc 1 ≠ .suspending o) ∧ (∀ o, s.pc 1 ≠ .woken o) ∧ (∀ o, s.pc 1 ≠ .resuming o) := by
    rcases h3 with ⟨o, h⟩ | h <;> simp [h]
  unfold step at hs
  split at hs
  · simp at hs
  cases l with
  | produce r => simp [stepLive, h1] at hs
  | suspend t =>
    simp only [stepLive, h2, Option.isSome_none, Bool.false_eq_true, ↓reduceIte] at hs
    split at hs
    case h_2 => simp at hs
    rename_i o ho
    have ht : t ≠ 1 := by rintro rfl; exact h4.2.1 o ho
    split at hs <;> simp only [Option.some.injEq, Prod.mk.injEq] at hs <;> obtain ⟨rfl, rfl⟩ := hs
    · exact ⟨⟨h1, rfl, h3⟩, by simp, by simp⟩
    · refine ⟨⟨h1, rfl, ?_⟩, ?_, ?_⟩
      · simp only [upd_ne _ _ ht.symm]
        cases hw : s.waiting with
        | none => simp only [overwritePc, hw]; exact h3
        | some u => simp only [overwritePc, hw, upd_apply]; grind
      · unfold overwriteEv; split <;> simp
      · unfold overwriteEv; split <;> simp
  | _ =>
    simp only [stepLive] at hs
    (repeat' split at hs) <;> simp only [Option.some.injEq, Prod.mk.injEq, reduceCtorEq] at hs <;> obtain ⟨rfl, rfl⟩ := hs <;>
      refine ⟨⟨?_, ?_, ?_⟩, ?_, ?_⟩ <;> (try simp only [nonblk, upd_apply, hp]) <;> grind

theorem lost_run (ls : List Lbl) : ∀ s s' e, Lost s → machine.runFrom s ls = some (s', e) → Ev.woken 1 ∉ e ∧ ∀ o x, Ev.awaitRet 1 o x ∉ e := by
  induction ls with
  | nil =>
    intro s s' e _ h
    simp only [runFrom, Option.some.injEq, Prod.mk.injEq] at h
    obtain ⟨rfl, rfl⟩ := h
    simp
  | cons l ls ih =>
    intro s s' e hl h
    simp only [runFrom] at h
    split at h
    · simp at h
    · rename_i s1 e1 hs
      split at h
      · simp at h
      · rename_i s2 e2 h2
        simp only [Option.some.injEq, Prod.mk.injEq] at h
        obtain ⟨rfl, rfl⟩ := h
        obtain ⟨k1, k2, k3⟩ := lost_step hl hs
        obtain ⟨k4, k5⟩ := ih _ _ _ k1 h2
        simp_all

/-- **C110, refuted (1).**  get_future() may be called twice, but the futures share one result: once the first has seen it, a task that awaits the second sleeps for ever. -/
theorem second_future_refuted : ∃ s tr, machine.Reaches s tr ∧ Produced tr ∧ Ev.readyRet 0 true ∈ tr ∧ Awaiting 1 1 tr ∧
    ∀ ls s' e, machine.runFrom s ls = some (s', e) → Ev.woken 1 ∉ e ∧ ∀ o x, Ev.awaitRet 1 o x ∉ e := by
  have hr : ∃ s, machine.run [.getFuture 0, .getFuture 1, .produce (.val 5), .ready 0, .await 1 1, .suspend 1] =
      some (s, [.gotFuture 0, .gotFuture 1, .produced (.val 5), .readyRet 0 true, .awaitCalled 1 1, .suspended 1]) ∧ Lost s := ⟨_, rfl, rfl, rfl, Or.inl ⟨1, rfl⟩⟩
  obtain ⟨s, hr, hl⟩ := hr
  exact ⟨s, _, ⟨_, hr⟩, ⟨.val 5, by simp⟩, by simp, ⟨[.gotFuture 0, .gotFuture 1, .produced (.val 5), .readyRet 0 true], [.suspended 1], rfl, by simp [endsAwait]⟩,
    fun ls s' e h => lost_run ls s s' e hl h⟩

/-- **C110, refuted (2).**  Asking `ready()` of a future that another task is about to await on takes the result away from it: the other task sleeps for ever. -/
theorem shared_future_refuted : ∃ s tr, machine.Reaches s tr ∧ Single tr ∧ Produced tr ∧ Ev.readyRet 0 true ∈ tr ∧ Awaiting 1 0 tr ∧
    ∀ ls s' e, machine.runFrom s ls = some (s', e) → Ev.woken 1 ∉ e ∧ ∀ o x, Ev.awaitRet 1 o x ∉ e := by
  have hr : ∃ s, machine.run [.getFuture 0, .await 1 0, .produce (.val 5), .ready 0, .suspend 1] =
      some (s, [.gotFuture 0, .awaitCalled 1 0, .produced (.val 5), .readyRet 0 true, .suspended 1]) ∧ Lost s := ⟨_, rfl, rfl, rfl, Or.inl ⟨0, rfl⟩⟩
  obtain ⟨s, hr, hl⟩ := hr
  exact ⟨s, _, ⟨_, hr⟩, by simp [Single], ⟨.val 5, by simp⟩, by simp, ⟨[.gotFuture 0], [.produced (.val 5), .readyRet 0 true, .suspended 1], rfl, by simp [endsAwait]⟩,
    fun ls s' e h => lost_run ls s s' e hl h⟩

/-- **C110, refuted (3).**  When a second task awaits (the same future, or another future of the promise), the first one is destroyed inside of its `co_await`. -/
theorem second_awaiter_refuted : ∃ s tr, machine.Reaches s tr ∧ Single tr ∧ Ev.destroyed 1 ∈ tr :=
  ⟨_, [.gotFuture 0, .awaitCalled 1 0, .suspended 1, .awaitCalled 2 0, .destroyed 1, .suspended 2], ⟨[.getFuture 0, .await 1 0, .suspend 1, .await 2 0, .suspend 2], rfl⟩, by simp [Single], by decide⟩

/-- **C110, refuted (4).**  A future that is moved while a task awaits it: the task comes back to an empty object. -/
theorem moved_while_awaited_refuted : ∃ s tr, machine.Reaches s tr ∧ Single tr ∧ Ev.ub 0 ∈ tr :=
  ⟨_, [.gotFuture 0, .awaitCalled 1 0, .suspended 1, .moved 0 3, .produced (.val 5), .woken 1, .ub 0],
    ⟨[.getFuture 0, .await 1 0, .suspend 1, .move 0 3, .produce (.val 5), .resume 1], rfl⟩, by simp [Single], by decide⟩

/-- A history that meets the hypotheses: the future is moved, awaited at its new place, moved again, and asked again. -/
theorem futures_nontrivial : ∃ s tr, machine.Reaches s tr ∧ Single tr ∧ OneAtATime tr ∧ Ev.suspended 7 ∈ tr ∧ Ev.awaitRet 7 1 (.res (.val 5)) ∈ tr ∧ Ev.nonblkRet 2 .logicError ∈ tr ∧
    Ev.validRet 0 false ∈ tr := by
  refine ⟨_, [.gotFuture 0, .moved 0 1, .awaitCalled 7 1, .suspended 7, .produced (.val 5), .woken 7, .awaitRet 7 1 (.res (.val 5)), .moved 1 2, .nonblkRet 2 .logicError, .validRet 0 false],
    ⟨[.getFuture 0, .move 0 1, .await 7 1, .suspend 7, .produce (.val 5), .resume 7, .move 1 2, .nonblk 2, .valid 0], rfl⟩, by simp [Single], ?_, by simp, by simp, by simp, by simp⟩
  have nocall : ∀ p : List Ev, (∀ t o, Ev.awaitCalled t o ∉ p) → ∀ t o, ¬ Awaiting t o p := by
    rintro p hp t o ⟨q, r, rfl, -⟩
    exact hp t o (by simp)
  have back : ∀ t o, ¬ Awaiting t o [.gotFuture 0, .moved 0 1, .awaitCalled 7 1, .suspended 7, .produced (.val 5), .woken 7, .awaitRet 7 1 (.res (.val 5))] := by
    intro t o
    have h := (aw_of (s := _) ⟨[.getFuture 0, .move 0 1, .await 7 1, .suspend 7, .produce (.val 5), .resume 7], rfl⟩).aw t o
    intro hh
    have := h.1 hh
    by_cases h7 : t = 7
    · subst h7; cases this
    · simp [machine, init, wakePc, nonblk, pull, overwritePc, upd_apply, h7, Pc.on] at this
  have back' : ∀ t o, ¬ Awaiting t o [.gotFuture 0, .moved 0 1, .awaitCalled 7 1, .suspended 7, .produced (.val 5), .woken 7, .awaitRet 7 1 (.res (.val 5)), .moved 1 2] := by
    intro t o hh
    have h : OpenUntil (.awaitCalled t o) (endsAwait t)
      ([.gotFuture 0, .moved 0 1, .awaitCalled 7 1, .suspended 7, .produced (.val 5), .woken 7, .awaitRet 7 1 (.res (.val 5))] ++ [.moved 1 2]) := hh
    rw [openUntil_concat] at h
    rcases h with h | h
    · simp at h
    · exact back t o h.1
  intro p x hp hu
  obtain ⟨z, hz⟩ := hp
  rcases p with _ | ⟨a, _ | ⟨b, _ | ⟨c, _ | ⟨d, _ | ⟨e, _ | ⟨f, _ | ⟨g, _ | ⟨h, _ | ⟨i, _ | ⟨j, p⟩⟩⟩⟩⟩⟩⟩⟩⟩⟩ <;> simp at hz
  all_goals try (obtain ⟨rfl, hz⟩ := hz)
  · exact nocall _ (by simp)
  · obtain ⟨rfl, hz⟩ := hz; exact nocall _ (by simp)
  · obtain ⟨rfl, rfl, hz⟩ := hz; exact nocall _ (by simp)
  · grind [isUse]
  · grind [isUse]
  · grind [isUse]
  · grind [isUse]
  · obtain ⟨rfl, rfl, rfl, rfl, rfl, rfl, hz⟩ := hz; exact back
  · obtain ⟨rfl, rfl, rfl, rfl, rfl, rfl, rfl, hz⟩ := hz; exact back'
  · grind [isUse]

end Verif.FutMany
