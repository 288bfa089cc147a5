import Verif.Generator.Model
/-!
# Properties of `koios::generator` (C26, C27)
-/

namespace Verif.Generator

theorem valsFrom_snoc (body : Nat → Act) (n : Nat) : ∀ i, (∀ j, j < n → body (i + j) ≠ .ret ∧ body (i + j) ≠ .throw) →
    valsFrom body i (n + 1) =
      valsFrom body i n ++ (match body (i + n) with | .yield v => [v] | _ => []) := by
  induction n with
  | zero =>
    intro i _
    simp only [valsFrom, Nat.add_zero, List.nil_append]
    cases body i <;> rfl
  | succ n ih =>
    intro i hb
    have e1 : valsFrom body i (n + 1 + 1) = (match body i with
      | .yield v => v :: valsFrom body (i + 1) (n + 1)
      | .pause => valsFrom body (i + 1) (n + 1)
      | .ret => [] | .throw => []) := by rw [valsFrom] <;> rfl
    have e2 : valsFrom body i (n + 1) = (match body i with
      | .yield v => v :: valsFrom body (i + 1) n
      | .pause => valsFrom body (i + 1) n
      | .ret => [] | .throw => []) := by rw [valsFrom] <;> rfl
    rw [e1, e2]
    have hrec := ih (i + 1) (fun j hj => by
      have := hb (j + 1) (by omega); rwa [show i + 1 + j = i + (j + 1) by omega])
    have h0 := hb 0 (by omega)
    rw [show i + (n + 1) = i + 1 + n by omega]
    simp only [Nat.add_zero] at h0
    cases hbi : body i with
    | yield v => simp only [hrec, List.cons_append]
    | pause => simp only [hrec]
    | ret => simp [hbi] at h0
    | throw => simp [hbi] at h0

theorem vals_snoc (body : Nat → Act) (n : Nat) (h : ∀ j, j < n → body j ≠ .ret ∧ body j ≠ .throw) :
    vals body (n + 1) = vals body n ++ (match body n with | .yield v => [v] | _ => []) := by
  have := valsFrom_snoc body n 0 (by simpa using h)
  simpa [vals] using this

@[simp] theorem gots_append (a b : List Ev) : gots (a ++ b) = gots a ++ gots b := by
  simp [gots, List.filterMap_append]
@[simp] theorem pending_append_nil (a : List Ev) : pending (a ++ []) = pending a := by simp

structure Inv (body : Nat → Act) (s : St) (tr : List Ev) : Prop where
  ok    : s.bad = false
  wtg   : s.wtg = true ↔ (s.c = .susp2 ∨ s.c = .waiting)
  wait  : s.c = .waiting ↔ (s.g = .running ∨ s.g = .paused ∨ s.g = .yielding ∨ s.g = .waking ∨
            s.g = .returning ∨ s.g = .stuck)
  fin   : s.fin = true ↔ (s.g = .returning ∨ s.g = .ended ∨ s.g = .killed)
  kill  : s.g = .killed → s.c = .gone
  gone  : s.c = .gone → s.g = .killed ∨ s.g = .ended
  susp  : (s.c = .susp1 ∨ s.c = .susp2) → s.g = .parked
  rdy   : s.c = .ready → s.g = .ended
  slot  : s.slot ≠ none ↔ (s.g = .yielding ∨ s.g = .waking ∨ (s.c = .woken ∧ s.g = .parked))
  open_ : (s.g ≠ .returning ∧ s.g ≠ .ended ∧ s.g ≠ .stuck) →
            ∀ i, i < s.pos → body i ≠ .ret ∧ body i ≠ .throw
  done  : (s.g = .returning ∨ s.g = .ended) → ∃ n, s.pos = n + 1 ∧ body n = .ret ∧
            ∀ i, i < n → body i ≠ .ret ∧ body i ≠ .throw
  thrown : s.g = .stuck → ∃ n, s.pos = n + 1 ∧ body n = .throw ∧
            ∀ i, i < n → body i ≠ .ret ∧ body i ≠ .throw
  got   : ∃ k, gots tr ++ s.slot.toList.map some = (vals body s.pos).map some ++ List.replicate k none ∧
            (0 < k → s.g = .ended)
  pend  : pending tr = true ↔ (s.c ≠ .idle ∧ s.c ≠ .gone)
  frame : times .frameDestroyed tr = if s.g = .ended ∨ s.g = .killed then 1 else 0
  drops : times .dropped tr = if s.c = .gone then 1 else 0

theorem inv_init (body : Nat → Act) : Inv body init [] := by
  constructor <;> simp [init, gots, vals, valsFrom, pending, times]

theorem inv_step (body : Nat → Act) {s : St} {tr : List Ev} {l : Lbl} {s' : St} {e : List Ev}
    (h : Inv body s tr) (hs : step body s l = some (s', e)) : Inv body s' (tr ++ e) := by
  obtain ⟨pos, g, c, slot, fin, wtg, bad⟩ := s
  obtain ⟨h1, h2, h3, h4, h5, h6, h7, h8, h9, h10, h11, h12, h13, h14, h15, h16⟩ := h
  dsimp only at *
  have hq : c ≠ .waiting → c ≠ .gone → g = .parked ∨ g = .ended := by
    intro a b; cases g <;> simp_all
  have hw : c = .waiting → g ≠ .parked ∧ g ≠ .ended ∧ g ≠ .killed := by
    intro a; cases g <;> simp_all
  cases l with
  | ask =>
    simp only [step] at hs
    split at hs
    · simp only [Option.some.injEq, Prod.mk.injEq] at hs; obtain ⟨rfl, rfl⟩ := hs
      have : pending (tr ++ [Ev.asked]) = true := by simp [pending, pendingStep]
      have : gots [Ev.asked] = [] := rfl
      simp only [times] at h15 h16
      cases fin <;> simp only [if_true, if_false, Bool.false_eq_true] <;> constructor <;> dsimp only
      all_goals try simp only [times, List.count_append, List.count_cons, List.count_nil]
      all_goals grind [gots_append]
    · simp at hs
  | setWaiting =>
    simp only [step] at hs
    split at hs
    · simp only [Option.some.injEq, Prod.mk.injEq] at hs; obtain ⟨rfl, rfl⟩ := hs
      simp only [List.append_nil]
      constructor <;> dsimp only <;> grind
    · simp at hs
  | wakeGen =>
    simp only [step] at hs
    split at hs
    · split at hs
      · simp only [Option.some.injEq, Prod.mk.injEq] at hs; obtain ⟨rfl, rfl⟩ := hs
        simp only [List.append_nil]
        constructor <;> dsimp only <;> grind
      · grind
    · simp at hs
  | resume =>
    simp only [step] at hs
    split at hs
    · split at hs
      · simp only [Option.some.injEq, Prod.mk.injEq] at hs; obtain ⟨rfl, rfl⟩ := hs
        have hp : pending (tr ++ [Ev.got none]) = false := by simp [pending, pendingStep]
        have hg : gots [Ev.got none] = [none] := rfl
        have hsn : slot = none := by
          by_contra hne
          have := h9.1 hne
          grind
        subst hsn
        constructor <;> try dsimp only
        case got =>
          obtain ⟨k, hk, _⟩ := h13
          refine ⟨k + 1, ?_, ?_⟩
          · simp only [gots_append, hg, List.replicate_succ', ← List.append_assoc, ← hk]; simp
          · intro _; grind
        case frame =>
          simp only [times, List.count_append, List.count_cons, List.count_nil] at *; grind
        case drops =>
          simp only [times, List.count_append, List.count_cons, List.count_nil] at *; grind
        all_goals grind
      · split at hs
        · rename_i v
          simp only [Option.some.injEq, Prod.mk.injEq] at hs; obtain ⟨rfl, rfl⟩ := hs
          have hp : pending (tr ++ [Ev.got (some v)]) = false := by simp [pending, pendingStep]
          have hg : gots [Ev.got (some v)] = [some v] := rfl
          constructor <;> try dsimp only
          case got =>
            obtain ⟨k, hk, h0⟩ := h13
            refine ⟨k, ?_, h0⟩
            simpa [hg] using hk
          case frame =>
            simp only [times, List.count_append, List.count_cons, List.count_nil] at *; grind
          case drops =>
            simp only [times, List.count_append, List.count_cons, List.count_nil] at *; grind
          all_goals grind
        · exfalso
          grind
    · simp at hs
  | drop =>
    simp only [step] at hs
    split at hs
    · split at hs
      · simp only [Option.some.injEq, Prod.mk.injEq] at hs; obtain ⟨rfl, rfl⟩ := hs
        have hp : pending (tr ++ [Ev.dropped, .frameDestroyed]) = pending tr := by simp [pending, pendingStep]
        have hg : gots [Ev.dropped, .frameDestroyed] = [] := rfl
        constructor <;> try dsimp only
        case frame =>
          simp only [times, List.count_append, List.count_cons, List.count_nil] at *; grind
        case drops =>
          simp only [times, List.count_append, List.count_cons, List.count_nil] at *; grind
        all_goals grind [gots_append]
      · simp only [Option.some.injEq, Prod.mk.injEq] at hs; obtain ⟨rfl, rfl⟩ := hs
        have hp : pending (tr ++ [Ev.dropped]) = pending tr := by simp [pending, pendingStep]
        have hg : gots [Ev.dropped] = [] := rfl
        constructor <;> try dsimp only
        case frame =>
          simp only [times, List.count_append, List.count_cons, List.count_nil] at *; grind
        case drops =>
          simp only [times, List.count_append, List.count_cons, List.count_nil] at *; grind
        all_goals grind [gots_append]
    · simp at hs
  | act =>
    simp only [step] at hs
    split at hs
    · rename_i hg
      have hbefore := h10 (by simp [hg])
      have hv := vals_snoc body pos hbefore
      have hsn : slot = none := by
        by_contra hne
        have := h9.1 hne
        grind
      obtain ⟨k, hk, h0⟩ := h13
      have hk0 : k = 0 := by
        rcases Nat.eq_zero_or_pos k with h | h
        · exact h
        · have := h0 h; grind
      subst hk0; subst hsn
      simp only [List.replicate_zero, List.append_nil, Option.toList_none, List.map_nil] at hk
      have aux : ∀ a, gots [Ev.ran a] = [] := fun _ => rfl
      have hp : ∀ a, pending (tr ++ [Ev.ran a]) = pending tr := by simp [pending, pendingStep]
      cases hb : body pos <;> simp only [hb] at hs hv <;>
        simp only [Option.some.injEq, Prod.mk.injEq] at hs <;> obtain ⟨rfl, rfl⟩ := hs
      all_goals
        constructor <;> try dsimp only
        case got => refine ⟨0, ?_, by simp⟩; simp [hv, hk, aux]; try grind
        case frame =>
          simp only [times, List.count_append, List.count_cons, List.count_nil] at *; grind
        case drops =>
          simp only [times, List.count_append, List.count_cons, List.count_nil] at *; grind
        case open_ =>
          intro _ i hi
          rcases Nat.lt_succ_iff_lt_or_eq.1 hi with h | rfl
          · exact hbefore i h
          · grind
        case done => intro _; first | exact ⟨pos, rfl, hb, hbefore⟩ | grind
        case thrown => intro _; first | exact ⟨pos, rfl, hb, hbefore⟩ | grind
        all_goals grind
    · simp at hs
  | unpause =>
    simp only [step] at hs
    split at hs
    · simp only [Option.some.injEq, Prod.mk.injEq] at hs; obtain ⟨rfl, rfl⟩ := hs
      simp only [List.append_nil]
      constructor <;> dsimp only <;> grind
    · simp at hs
  | park =>
    simp only [step] at hs
    split at hs
    · split at hs
      · grind
      · simp only [Option.some.injEq, Prod.mk.injEq] at hs; obtain ⟨rfl, rfl⟩ := hs
        simp only [List.append_nil]
        constructor <;> dsimp only <;> grind
    · simp at hs
  | wakeCons =>
    simp only [step] at hs
    split at hs
    · split at hs
      · simp only [Option.some.injEq, Prod.mk.injEq] at hs; obtain ⟨rfl, rfl⟩ := hs
        simp only [List.append_nil]
        constructor <;> dsimp only <;> grind
      · grind
    · simp at hs
  | retWake =>
    simp only [step] at hs
    split at hs
    · split at hs
      · simp only [Option.some.injEq, Prod.mk.injEq] at hs; obtain ⟨rfl, rfl⟩ := hs
        have hp : pending (tr ++ [Ev.frameDestroyed]) = pending tr := by simp [pending, pendingStep]
        have hg : gots [Ev.frameDestroyed] = [] := rfl
        constructor <;> try dsimp only
        case frame =>
          simp only [times, List.count_append, List.count_cons, List.count_nil] at *; grind
        case drops =>
          simp only [times, List.count_append, List.count_cons, List.count_nil] at *; grind
        all_goals grind [gots_append]
      · grind
    · simp at hs

theorem inv_of_reaches {body : Nat → Act} {s : St} {tr : List Ev} (h : (machine body).Reaches s tr) :
    Inv body s tr :=
  Machine.Reaches.inv (M := machine body) (Inv body) (inv_init body)
    (fun _ _ _ _ _ hi hs => inv_step body hi hs) h

/-- Is `ran a` possible only inside of a request? -/
theorem vals_mono (body : Nat → Act) : ∀ n i m, n ≤ m → valsFrom body i n <+: valsFrom body i m := by
  intro n
  induction n with
  | zero => intro i m _; simp [valsFrom]
  | succ n ih =>
    intro i m hm
    obtain ⟨m, rfl⟩ : ∃ k, m = k + 1 := ⟨m - 1, by omega⟩
    have e := fun k => show valsFrom body i (k + 1) = (match body i with
      | .yield v => v :: valsFrom body (i + 1) k
      | .pause => valsFrom body (i + 1) k
      | .ret => [] | .throw => []) by rw [valsFrom] <;> rfl
    rw [e n, e m]
    have := ih (i + 1) m (by omega)
    cases body i <;> simp [this]

/-! ### C26 -/

/-- **C26.**  In every execution, with the consumer and the body on any threads in any interleaving, for
every generator body: what the consumer has been given is a prefix `vs` of the sequence of yielded
values, each once and in order, followed by some number of nullopts; and there is a nullopt only
if the body has ended and `vs` is everything it ever yields. -/
theorem generator_consumer_sees_yields (body : Nat → Act) (s : St) (tr : List Ev)
    (h : (machine body).Reaches s tr) :
    ∃ vs k n, vs <+: vals body n ∧ gots tr = vs.map some ++ List.replicate k none ∧
      (0 < k → EndsWith body vs) := by
  have hi := inv_of_reaches h
  obtain ⟨k, hk, h0⟩ := hi.got
  cases hs : s.slot with
  | none =>
    rw [hs] at hk
    simp only [Option.toList_none, List.map_nil, List.append_nil] at hk
    refine ⟨vals body s.pos, k, s.pos, List.prefix_refl _, hk, ?_⟩
    intro hpos
    obtain ⟨n, hn, hret, hb⟩ := hi.done (Or.inr (h0 hpos))
    refine ⟨n, hret, hb, ?_⟩
    rw [hn, vals_snoc body n hb, hret]; simp
  | some v =>
    have hk0 : k = 0 := by
      rcases Nat.eq_zero_or_pos k with h | h
      · exact h
      · have h1 := h0 h
        have h2 := hi.slot.1 (by simp [hs])
        have h3 := hi.wait
        grind
    subst hk0
    rw [hs] at hk
    simp only [Option.toList_some, List.map_cons, List.map_nil, List.replicate_zero, List.append_nil] at hk
    have hne : vals body s.pos ≠ [] := by intro hc; rw [hc] at hk; simp at hk
    refine ⟨(vals body s.pos).dropLast, 0, s.pos, List.dropLast_prefix _, ?_, by simp⟩
    have := congrArg List.dropLast hk
    simpa [List.map_dropLast] using this

/-- Number of requests made and of answers given. -/
def asks (tr : List Ev) : Nat := tr.count .asked

/-- **C26.**  Every request is answered at most once, in turn: the answers never outnumber the requests, and
when no request is outstanding every request has been answered. -/
theorem generator_one_answer_per_request (body : Nat → Act) (s : St) (tr : List Ev)
    (h : (machine body).Reaches s tr) :
    (gots tr).length + (if pending tr then 1 else 0) = asks tr := by
  refine Machine.Reaches.inv' (M := machine body)
    (fun _ tr => (gots tr).length + (if pending tr then 1 else 0) = asks tr) (by rfl) ?_ h
  clear h s tr
  intro s tr l s' e hr ih hs
  have hi := inv_of_reaches hr
  have hp := hi.pend
  have hok := hi.slot
  have hq := hi.wait
  have hfin := hi.fin
  change step body s l = some (s', e) at hs
  have hnil : gots ([] : List Ev) = [] := rfl
  cases l with
  | ask =>
    simp only [step] at hs
    split at hs
    · simp only [Option.some.injEq, Prod.mk.injEq] at hs; obtain ⟨rfl, rfl⟩ := hs
      have h1 : pending (tr ++ [Ev.asked]) = true := by simp [pending, pendingStep]
      have h2 : pending tr = false := by
        by_contra hc
        have := hp.1 (by simpa using hc)
        grind
      have h3 : gots [Ev.asked] = [] := rfl
      simp only [gots_append, h1, h3, asks, List.count_append] at *
      simp [h2] at *
      exact ih
    · simp at hs
  | resume =>
    have key : ∀ x, e = [.got x] → s.c = .ready ∨ s.c = .woken →
        (gots (tr ++ e)).length + (if pending (tr ++ e) then 1 else 0) = asks (tr ++ e) := by
      rintro x rfl hc
      have h1 : pending (tr ++ [Ev.got x]) = false := by simp [pending, pendingStep]
      have h2 : pending tr = true := hp.2 (by grind)
      have h3 : gots [Ev.got x] = [x] := rfl
      simp only [gots_append, h1, h3, asks, List.count_append] at *
      simp [h2] at *
      exact ih
    have hex : s.g = .parked ∨ s.g = .ended ∨ s.g = .killed ∨ s.g = .running ∨ s.g = .paused ∨ s.g = .yielding ∨
      s.g = .waking ∨ s.g = .returning ∨ s.g = .stuck := by cases s.g <;> simp
    have h8 := hi.rdy
    have h5 := hi.kill
    simp only [step] at hs
    split at hs
    · rename_i hc
      split at hs
      · simp only [Option.some.injEq, Prod.mk.injEq] at hs; exact key none hs.2.symm hc
      · split at hs
        · simp only [Option.some.injEq, Prod.mk.injEq] at hs; exact key _ hs.2.symm hc
        · exfalso; grind
    · simp at hs
  | _ =>
    have hp2 : ∀ a, pending (tr ++ [Ev.ran a]) = pending tr := by simp [pending, pendingStep]
    have hp3 : pending (tr ++ [Ev.dropped]) = pending tr := by simp [pending, pendingStep]
    have hp4 : pending (tr ++ [Ev.frameDestroyed]) = pending tr := by simp [pending, pendingStep]
    have hp5 : pending (tr ++ [Ev.dropped, Ev.frameDestroyed]) = pending tr := by simp [pending, pendingStep]
    have hg2 : ∀ a, gots [Ev.ran a] = [] := fun _ => rfl
    have hg3 : gots [Ev.dropped] = [] := rfl
    have hg4 : gots [Ev.frameDestroyed] = [] := rfl
    have hg5 : gots [Ev.dropped, Ev.frameDestroyed] = [] := rfl
    have ha : ∀ e, Ev.asked ∉ e → asks (tr ++ e) = asks tr := by
      intro e he; simp [asks, List.count_eq_zero.2 he]
    simp only [step] at hs
    grind [gots_append]

/-- **C26 (no run-ahead).**  The body executes an action only while a request of the consumer is outstanding,
and between two answers it yields at most once. -/
theorem generator_never_runs_ahead (body : Nat → Act) (s : St) (tr : List Ev)
    (h : (machine body).Reaches s tr) :
    ∀ p a, p ++ [.ran a] <+: tr → pending p = true := by
  refine Machine.Reaches.inv' (M := machine body)
    (fun _ tr => ∀ p a, p ++ [.ran a] <+: tr → pending p = true) ?_ ?_ h
  · intro p x hp; exact absurd hp not_concat_prefix_nil
  clear h s tr
  intro s tr l s' e hr ih hs p a hp
  have hi := inv_of_reaches hr
  change step body s l = some (s', e) at hs
  rcases concat_prefix_append_cases hp with h | ⟨q, hq, rfl⟩
  · exact ih p a h
  · have hm : Ev.ran a ∈ e := hq.subset (by simp)
    cases l with
    | act =>
      simp only [step] at hs
      split at hs
      · rename_i hg
        have hpd : pending tr = true := hi.pend.2 (by have := hi.wait; grind)
        have hq0 : q = [] := by
          have : e.length = 1 := by split at hs <;> grind
          have h2 := hq.length_le
          simp at h2
          exact List.eq_nil_of_length_eq_zero (by omega)
        subst hq0; simpa using hpd
      · simp at hs
    | _ => simp only [step] at hs; grind

/-- Number of values yielded by the body so far. -/
def yields (tr : List Ev) : Nat := tr.countP fun | .ran (.yield _) => true | _ => false

/-- **C26 (no run-ahead).**  The body never yields more values than were asked for. -/
theorem generator_yields_at_most_asked (body : Nat → Act) (s : St) (tr : List Ev)
    (h : (machine body).Reaches s tr) : yields tr ≤ asks tr := by
  have key : yields tr ≤ (vals body s.pos).length := by
    refine Machine.Reaches.inv' (M := machine body)
      (fun s tr => yields tr ≤ (vals body s.pos).length) (by simp [yields]) ?_ h
    clear h s tr
    intro s tr l s' e hr ih hs
    have hi := inv_of_reaches hr
    change step body s l = some (s', e) at hs
    cases l with
    | act =>
      simp only [step] at hs
      split at hs
      · rename_i hg
        have hv := vals_snoc body s.pos (hi.open_ (by simp [hg]))
        cases hb : body s.pos <;> simp only [hb] at hs hv <;>
          simp only [Option.some.injEq, Prod.mk.injEq] at hs <;> obtain ⟨rfl, rfl⟩ := hs <;>
          simp [yields, hv] at * <;> exact ih
      · simp at hs
    | _ =>
      have hz : ∀ e : List Ev, (∀ a, Ev.ran a ∉ e) → yields (tr ++ e) = yields tr := by
        intro e he
        simp only [yields, List.countP_append]
        have : e.countP (fun | .ran (.yield _) => true | _ => false) = 0 := by
          rw [List.countP_eq_zero]
          intro x hx
          cases x with
          | ran a => exact absurd hx (he a)
          | _ => simp
        omega
      simp only [step] at hs
      grind
  have h1 := generator_one_answer_per_request body s tr h
  obtain ⟨k, hk, hk0⟩ := (inv_of_reaches h).got
  have hlen := congrArg List.length hk
  simp only [List.length_append, List.length_map, List.length_replicate] at hlen
  have hi := inv_of_reaches h
  cases hs : s.slot with
  | none => rw [hs] at hlen; simp at hlen; omega
  | some v =>
    rw [hs] at hlen
    have := hi.slot.1 (by simp [hs])
    have hpd : pending tr = true := hi.pend.2 (by have := hi.wait; grind)
    rw [hpd] at h1
    simp at hlen h1
    omega

/-- **C26.**  No assertion of the implementation fails and no empty handle is resumed. -/
theorem generator_no_assertion_failure (body : Nat → Act) (s : St) (tr : List Ev)
    (h : (machine body).Reaches s tr) : s.bad = false := (inv_of_reaches h).ok

/-- **C26.**  The frame of the generator is destroyed at most once, and is destroyed when the consumer has
dropped the generator object. -/
theorem generator_frame_destroyed_once (body : Nat → Act) (s : St) (tr : List Ev)
    (h : (machine body).Reaches s tr) :
    times .frameDestroyed tr ≤ 1 ∧ (times .dropped tr ≠ 0 → times .frameDestroyed tr = 1) := by
  have hi := inv_of_reaches h
  have hf := hi.frame
  have hd := hi.drops
  have hg := hi.gone
  constructor
  · split at hf <;> omega
  · intro hne
    have : s.c = .gone := by by_contra hc; simp [hc] at hd; omega
    have := hg this
    rw [hf]; simp; tauto

/-- **C26 (the consumer is never left waiting).**  While a request is outstanding exactly one thing can happen
next, unless an exception has left the body: so the request is answered on every schedule. -/
theorem generator_progress (body : Nat → Act) (s : St) (tr : List Ev)
    (h : (machine body).Reaches s tr) (hp : pending tr = true) (ht : .ran .throw ∉ tr) :
    ∃ l r, step body s l = some r ∧ ∀ l' r', step body s l' = some r' → l' = l := by
  have hi := inv_of_reaches h
  have hnst : s.g ≠ .stuck := by
    refine fun hc => ht ?_
    refine Machine.Reaches.inv' (M := machine body)
      (fun s tr => s.g = .stuck → Ev.ran .throw ∈ tr) (by simp [machine, init]) ?_ h hc
    clear h s tr hp ht hi hc
    intro s tr l s' e hr ih hs
    change step body s l = some (s', e) at hs
    cases l <;> simp only [step] at hs <;> grind
  obtain ⟨pos, g, c, slot, fin, wtg, bad⟩ := s
  obtain ⟨h1, h2, h3, h4, h5, h6, h7, h8, h9, h10, h11, h12, h13, h14, h15, h16⟩ := hi
  dsimp only at *
  have h14 := h14.1 hp
  cases c with
  | idle => simp at h14
  | gone => simp at h14
  | ready =>
    have : g = .ended := h8 rfl
    subst this
    refine ⟨.resume, ?_⟩
    have : fin = true := h4.2 (by simp)
    subst this
    refine ⟨_, by simp [step]; rfl, ?_⟩
    intro l' r' hl; cases l' <;> simp [step] at hl ⊢
  | susp1 =>
    have : g = .parked := h7 (by simp)
    subst this
    refine ⟨.setWaiting, _, by simp [step]; rfl, ?_⟩
    intro l' r' hl; cases l' <;> simp [step] at hl ⊢
  | susp2 =>
    have : g = .parked := h7 (by simp)
    subst this
    refine ⟨.wakeGen, _, by simp [step]; rfl, ?_⟩
    intro l' r' hl; cases l' <;> simp [step] at hl ⊢
  | woken =>
    have hq : g = .parked ∨ g = .ended := by cases g <;> simp_all
    refine ⟨.resume, ?_⟩
    rcases hq with rfl | rfl
    · have : fin = false := by simpa using h4
      subst this
      have : slot ≠ none := h9.2 (by simp)
      obtain ⟨v, rfl⟩ := Option.ne_none_iff_exists'.1 this
      refine ⟨_, by simp [step]; rfl, ?_⟩
      intro l' r' hl; cases l' <;> simp [step] at hl ⊢
    · have : fin = true := h4.2 (by simp)
      subst this
      refine ⟨_, by simp [step]; rfl, ?_⟩
      intro l' r' hl; cases l' <;> simp [step] at hl ⊢
  | waiting =>
    have hw : wtg = true := h2.2 (by simp)
    subst hw
    have hq := h3.1 rfl
    rcases hq with rfl | rfl | rfl | rfl | rfl | rfl
    · refine ⟨.act, ?_⟩
      have : ∃ r, step body ⟨pos, .running, .waiting, slot, fin, true, bad⟩ .act = some r := by
        simp only [step, if_true]
        cases body pos <;> exact ⟨_, rfl⟩
      obtain ⟨r, hr⟩ := this
      refine ⟨r, hr, ?_⟩
      intro l' r' hl; cases l' <;> simp [step] at hl ⊢
    · refine ⟨.unpause, _, by simp [step]; rfl, ?_⟩
      intro l' r' hl; cases l' <;> simp [step] at hl ⊢
    · have : fin = false := by simpa using h4
      subst this
      refine ⟨.park, _, by simp [step]; rfl, ?_⟩
      intro l' r' hl; cases l' <;> simp [step] at hl ⊢
    · refine ⟨.wakeCons, _, by simp [step]; rfl, ?_⟩
      intro l' r' hl; cases l' <;> simp [step] at hl ⊢
    · refine ⟨.retWake, _, by simp [step]; rfl, ?_⟩
      intro l' r' hl; cases l' <;> simp [step] at hl ⊢
    · exact absurd rfl hnst

/-- Steps left until the answer, if the body's next yield or return is action number `j`. -/
def left (j : Nat) (s : St) : Nat :=
  match s.c with
  | .susp1 => 2 * (j - s.pos) + 6
  | .susp2 => 2 * (j - s.pos) + 5
  | .waiting =>
    match s.g with
    | .running => 2 * (j - s.pos) + 4
    | .paused => 2 * (j - s.pos) + 5
    | .yielding => 3
    | .waking => 2
    | .returning => 2
    | _ => 0
  | .ready => 1
  | .woken => 1
  | _ => 0

/-- The next action of the body that is not a pause is action number `j`, and it is a yield or the end. -/
def NextAt (body : Nat → Act) (pos j : Nat) : Prop :=
  pos ≤ j ∧ (∀ i, pos ≤ i → i < j → body i = .pause) ∧ (body j = .ret ∨ ∃ v, body j = .yield v)

theorem left_step (body : Nat → Act) (j : Nat) {s : St} {tr : List Ev} {l : Lbl} {s' : St} {e : List Ev}
    (hi : Inv body s tr) (hp : pending tr = true)
    (hn : s.c ≠ .waiting ∨ s.g = .running ∨ s.g = .paused → s.c = .ready ∨ s.c = .woken ∨ NextAt body s.pos j)
    (hs : step body s l = some (s', e)) (hg : ∀ x, Ev.got x ∉ e) (hst : s.g ≠ .stuck) :
    left j s' < left j s ∧ pending (tr ++ e) = true ∧ s'.g ≠ .stuck ∧
    (s'.c ≠ .waiting ∨ s'.g = .running ∨ s'.g = .paused →
      s'.c = .ready ∨ s'.c = .woken ∨ NextAt body s'.pos j) := by
  have hi' := inv_step body hi hs
  have hpend' := hi'.pend
  obtain ⟨pos, g, c, slot, fin, wtg, bad⟩ := s
  obtain ⟨h1, h2, h3, h4, h5, h6, h7, h8, h9, h10, h11, h12, h13, h14, h15, h16⟩ := hi
  dsimp only at *
  have h14 := h14.1 hp
  cases l with
  | ask => simp only [step] at hs; grind
  | drop => simp only [step] at hs; grind
  | setWaiting =>
    simp only [step] at hs
    split at hs
    · rename_i hc
      simp only [Option.some.injEq, Prod.mk.injEq] at hs; obtain ⟨rfl, rfl⟩ := hs
      try dsimp only at *
      subst hc
      simp_all [left]
    · simp at hs
  | wakeGen =>
    simp only [step] at hs
    split at hs
    · rename_i hc
      try dsimp only at *
      subst hc
      have := h7 (by simp)
      subst this
      simp only [if_true] at hs
      simp only [Option.some.injEq, Prod.mk.injEq] at hs; obtain ⟨rfl, rfl⟩ := hs
      simp_all [left]
    · simp at hs
  | resume => simp only [step] at hs; grind
  | act =>
    simp only [step] at hs
    split at hs
    · rename_i hc
      try dsimp only at *
      subst hc
      have hcw := h3.2 (by simp)
      subst hcw
      have hN : NextAt body pos j := by simpa using hn
      obtain ⟨hle, hpa, hj⟩ := hN
      by_cases hjp : pos = j
      · subst hjp
        rcases hj with hj | ⟨v, hj⟩ <;> rw [hj] at hs <;>
          simp only [Option.some.injEq, Prod.mk.injEq] at hs <;> obtain ⟨rfl, rfl⟩ := hs <;>
          simp_all [left]
      · have hb := hpa pos (Nat.le_refl _) (by omega)
        rw [hb] at hs
        simp only [Option.some.injEq, Prod.mk.injEq] at hs; obtain ⟨rfl, rfl⟩ := hs
        have hN' : NextAt body (pos + 1) j := ⟨by omega, fun i hi => hpa i (by omega), hj⟩
        refine ⟨?_, hpend'.2 (by simp), by simp, fun _ => Or.inr (Or.inr hN')⟩
        simp only [left]; omega
    · simp at hs
  | unpause =>
    simp only [step] at hs
    split at hs
    · rename_i hc
      try dsimp only at *
      subst hc
      have hcw := h3.2 (by simp)
      subst hcw
      simp only [Option.some.injEq, Prod.mk.injEq] at hs; obtain ⟨rfl, rfl⟩ := hs
      simp_all [left]
    · simp at hs
  | park =>
    simp only [step] at hs
    split at hs
    · rename_i hc
      try dsimp only at *
      subst hc
      have hcw := h3.2 (by simp)
      subst hcw
      split at hs
      · grind
      · simp only [Option.some.injEq, Prod.mk.injEq] at hs; obtain ⟨rfl, rfl⟩ := hs
        simp_all [left]
    · simp at hs
  | wakeCons =>
    simp only [step] at hs
    split at hs
    · rename_i hc
      try dsimp only at *
      subst hc
      have hcw := h3.2 (by simp)
      subst hcw
      split at hs
      · simp only [Option.some.injEq, Prod.mk.injEq] at hs; obtain ⟨rfl, rfl⟩ := hs
        simp_all [left]
      · grind
    · simp at hs
  | retWake =>
    simp only [step] at hs
    split at hs
    · rename_i hc
      try dsimp only at *
      subst hc
      have hcw := h3.2 (by simp)
      subst hcw
      split at hs
      · simp only [Option.some.injEq, Prod.mk.injEq] at hs; obtain ⟨rfl, rfl⟩ := hs
        simp_all [left]
      · grind
    · simp at hs

/-- **C26 (every request is answered).**  If the request was made when the body had executed `n` actions, and the
body's next action that is not a pause (action `j`) is a yield or the end of the body, then every schedule
of `2 * (j - n) + 7` steps from the request on contains the answer. -/
theorem generator_request_answered (body : Nat → Act) (s s1 : St) (tr e1 : List Ev)
    (h : (machine body).Reaches s tr) (ha : step body s .ask = some (s1, e1))
    (j : Nat) (hj : s.fin = false → NextAt body s.pos j)
    (ls : List Lbl) (s' : St) (e : List Ev) (hr : (machine body).runFrom s1 ls = some (s', e))
    (hlen : 2 * (j - s.pos) + 7 ≤ ls.length) : ∃ x, Ev.got x ∈ e := by
  have main : ∀ (ls : List Lbl) (s : St) (tr : List Ev) (s' : St) (e : List Ev),
      (machine body).Reaches s tr → pending tr = true →
      (s.c ≠ .waiting ∨ s.g = .running ∨ s.g = .paused → s.c = .ready ∨ s.c = .woken ∨ NextAt body s.pos j) →
      s.g ≠ .stuck → (machine body).runFrom s ls = some (s', e) → left j s < ls.length →
      ∃ x, Ev.got x ∈ e := by
    intro ls
    induction ls with
    | nil => intro s tr s' e _ _ _ _ _ hl; simp at hl
    | cons l ls ih =>
      intro s tr s' e hr hp hn hst hrun hl
      simp only [Machine.runFrom] at hrun
      cases h1 : (machine body).step s l with
      | none => simp [h1] at hrun
      | some p =>
        obtain ⟨s2, e2⟩ := p
        simp only [h1] at hrun
        cases h2 : (machine body).runFrom s2 ls with
        | none => simp [h2] at hrun
        | some q =>
          obtain ⟨s3, e3⟩ := q
          simp only [h2, Option.some.injEq, Prod.mk.injEq] at hrun
          obtain ⟨rfl, rfl⟩ := hrun
          by_cases hgot : ∃ x, Ev.got x ∈ e2
          · obtain ⟨x, hx⟩ := hgot
            exact ⟨x, by simp [hx]⟩
          · have hd := left_step body j (inv_of_reaches hr) hp hn h1 (fun x hx => hgot ⟨x, hx⟩) hst
            obtain ⟨ha, hb, hc, hd⟩ := hd
            obtain ⟨x, hx⟩ := ih s2 (tr ++ e2) s3 e3 (hr.step h1) hb hd hc h2
              (by simp only [List.length_cons] at hl; omega)
            exact ⟨x, by simp [hx]⟩
  have hi := inv_of_reaches h
  have h1 : (machine body).Reaches s1 (tr ++ e1) := h.step (l := .ask) ha
  simp only [step] at ha
  split at ha
  · rename_i hc
    simp only [Option.some.injEq, Prod.mk.injEq] at ha; obtain ⟨rfl, rfl⟩ := ha
    have hst : s.g ≠ .stuck := by
      intro hg; have := hi.wait.2 (by simp [hg]); simp [hc] at this
    refine main ls _ _ s' e h1 (by simp [pending, pendingStep]) ?_ hst hr ?_
    · cases hf : s.fin with
      | true => simp
      | false => intro _; right; right; exact hj hf
    · cases hf : s.fin <;> simp [left] <;> omega
  · simp at ha

/-! ### C27 -/

/-- **C27 is false of this code.**  The body yields 7 and then throws.  The consumer's second request leads to a state in which
it is suspended and nothing can ever happen again: it is neither resumed nor told of the exception, and the
generator's frame is never destroyed. -/
theorem generator_exception_strands_consumer :
    ∃ (body : Nat → Act) (s : St) (tr : List Ev), (machine body).Reaches s tr ∧ pending tr = true ∧
      Ev.ran .throw ∈ tr ∧ gots tr = [some 7] ∧ times .frameDestroyed tr = 0 ∧ ∀ l, step body s l = none := by
  refine ⟨fun i => if i = 0 then .yield 7 else .throw, _, _,
    ⟨[.ask, .setWaiting, .wakeGen, .act, .park, .wakeCons, .resume, .ask, .setWaiting, .wakeGen, .act], rfl⟩, ?_⟩
  refine ⟨by decide, by decide, by decide, by decide, ?_⟩
  intro l; cases l <;> decide

/-- **C27 (what holds).**  Nothing yielded before the exception is lost: when an exception leaves the body,
the consumer has been given every value the body yields. -/
theorem generator_values_before_exception_partial (body : Nat → Act) (s : St) (tr : List Ev)
    (h : (machine body).Reaches s tr) (ht : Ev.ran .throw ∈ tr) :
    ∃ n, body n = .throw ∧ (∀ i, i < n → body i ≠ .ret ∧ body i ≠ .throw) ∧
      gots tr = (vals body n).map some := by
  have hst : s.g = .stuck := by
    refine Machine.Reaches.inv' (M := machine body)
      (fun s tr => Ev.ran .throw ∈ tr → s.g = .stuck) (by simp) ?_ h ht
    clear h s tr ht
    intro s tr l s' e hr ih hs
    have hi := inv_of_reaches hr
    have h3 := hi.wait
    change step body s l = some (s', e) at hs
    cases l <;> simp only [step] at hs <;> grind
  have hi := inv_of_reaches h
  obtain ⟨n, hn, hthrow, hb⟩ := hi.thrown hst
  refine ⟨n, hthrow, hb, ?_⟩
  obtain ⟨k, hk, h0⟩ := hi.got
  have hk0 : k = 0 := by
    rcases Nat.eq_zero_or_pos k with h | h
    · exact h
    · have := h0 h; simp [hst] at this
  have hs : s.slot = none := by
    by_contra hne
    have := hi.slot.1 hne
    simp [hst] at this
  rw [hk0, hs, hn, vals_snoc body n hb, hthrow] at hk
  simpa using hk

/-! ### Concrete cases -/

/-- A body that yields 1, pauses, yields 2 and ends. -/
def demo : Nat → Act := fun i =>
  if i = 0 then .yield 1 else if i = 1 then .pause else if i = 2 then .yield 2 else .ret

example : ∃ s tr, (machine demo).Reaches s tr ∧ gots tr = [some 1, some 2, none, none] ∧
    times .frameDestroyed tr = 1 ∧ times .dropped tr = 1 :=
  ⟨_, _, ⟨[.ask, .setWaiting, .wakeGen, .act, .park, .wakeCons, .resume,
    .ask, .setWaiting, .wakeGen, .act, .unpause, .act, .park, .wakeCons, .resume,
    .ask, .setWaiting, .wakeGen, .act, .retWake, .resume, .ask, .resume, .drop], rfl⟩, by decide⟩

example : EndsWith demo [1, 2] := ⟨3, by decide, by decide, by decide⟩

example : NextAt demo 1 2 := ⟨by decide, by intro i h1 h2; have : i = 1 := by omega
                                            subst this; rfl, Or.inr ⟨2, rfl⟩⟩

/-- Dropping the generator early destroys the frame. -/
example : ∃ s tr, (machine demo).Reaches s tr ∧ gots tr = [some 1] ∧ times .dropped tr = 1 ∧
    times .frameDestroyed tr = 1 :=
  ⟨_, _, ⟨[.ask, .setWaiting, .wakeGen, .act, .park, .wakeCons, .resume, .drop], rfl⟩, by decide⟩

end Verif.Generator
