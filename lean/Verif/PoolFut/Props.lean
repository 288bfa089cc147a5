import Verif.PoolFut.Model
import Verif.Pool.Props
/-!
# C97: the futures of `thread_pool::enqueue`
-/

namespace Verif.PoolFut
open Machine

theorem poolTrace_append (a b : List Ev) : poolTrace (a ++ b) = poolTrace a ++ poolTrace b := by simp [poolTrace]

theorem poolTrace_map (e : List Pool.Ev) : poolTrace (e.map .pool) = e := by
  induction e with
  | nil => rfl
  | cons a e ih => simpa [poolTrace] using ih

theorem mem_poolTrace {e : Pool.Ev} {tr : List Ev} : e ∈ poolTrace tr ↔ .pool e ∈ tr := by
  simp only [poolTrace, List.mem_filterMap]
  constructor
  · rintro ⟨a, ha, h⟩
    cases a <;> simp at h
    subst h; exact ha
  · intro h; exact ⟨_, h, rfl⟩

/-- The steps, taken apart. -/
inductive Shape (N : Nat) (s : St) : St → List Ev → Prop where
  | base (l : Pool.Lbl) (b : Pool.St) (e : List Pool.Ev) (hd : s.dead = false) (hl : ∀ a i, l ≠ .enqPush a i) (hf : ∀ w t, l ≠ .finish w t)
      (hb : Pool.step N s.base l = some (b, e)) : Shape N s { s with base := b } (e.map .pool)
  | push (a : Pool.Who) (i : Nat) (fut : Bool) (b : Pool.St) (e : List Pool.Ev) (hd : s.dead = false) (hb : Pool.step N s.base (.enqPush a i) = some (b, e)) :
      Shape N s { s with base := b, hasFut := upd s.hasFut s.base.next fut } (e.map .pool ++ if fut = true then [.future s.base.next] else [])
  | caught (w x : Nat) (o : Out) (b : Pool.St) (e : List Pool.Ev) (hd : s.dead = false) (hx : s.base.pc w = .run x) (hfut : s.hasFut x = true)
      (hb : Pool.step N s.base (.finish w false) = some (b, e)) :
      Shape N s { s with base := b, res := upd s.res x (some (.out o)) } (.ran x o :: e.map .pool)
  | plain (w x : Nat) (o : Out) (b : Pool.St) (e : List Pool.Ev) (hd : s.dead = false) (hx : s.base.pc w = .run x) (hfut : s.hasFut x = false)
      (hb : Pool.step N s.base (.finish w (isExn o)) = some (b, e)) : Shape N s { s with base := b } (.ran x o :: e.map .pool)
  | destroy (hd : s.dead = false) (hj : s.base.joined = true) :
      Shape N s { s with dead := true, res := fun x => if inQueue N s.base x = true ∧ s.hasFut x = true then some .broken else s.res x } [.destroyed]
  | get (x : Nat) (r : Res) (hf : s.hasFut x = true) (hr : s.res x = some r) : Shape N s { s with taken := upd s.taken x true } [.got x r]

theorem shape {N : Nat} {s s' : St} {e : List Ev} {l : Lbl} (hs : step N s l = some (s', e)) : Shape N s s' e := by
  cases l with
  | base l =>
    simp only [step] at hs
    split at hs
    · simp at hs
    · rename_i hd
      have hd : s.dead = false := by simpa using hd
      cases l <;> simp only [reduceCtorEq] at hs <;> split at hs <;> simp only [Option.some.injEq, Prod.mk.injEq, reduceCtorEq] at hs <;>
        obtain ⟨rfl, rfl⟩ := hs <;> rename_i hb <;> exact .base _ _ _ hd (by simp) (by simp) hb
  | push a i fut =>
    simp only [step] at hs
    split at hs
    · simp at hs
    · rename_i hd
      have hd : s.dead = false := by simpa using hd
      split at hs <;> simp only [Option.some.injEq, Prod.mk.injEq, reduceCtorEq] at hs
      rename_i hb
      obtain ⟨rfl, rfl⟩ := hs
      exact .push _ _ _ _ _ hd hb
  | finish w o =>
    simp only [step] at hs
    split at hs
    · simp at hs
    · rename_i hd
      have hd : s.dead = false := by simpa using hd
      split at hs
      · rename_i x hx
        split at hs
        · rename_i hfut
          split at hs <;> simp only [Option.some.injEq, Prod.mk.injEq, reduceCtorEq] at hs
          rename_i hb
          obtain ⟨rfl, rfl⟩ := hs
          exact .caught _ _ _ _ _ hd hx hfut hb
        · rename_i hfut
          split at hs <;> simp only [Option.some.injEq, Prod.mk.injEq, reduceCtorEq] at hs
          rename_i hb
          obtain ⟨rfl, rfl⟩ := hs
          exact .plain _ _ _ _ _ hd hx (by simpa using hfut) hb
      · simp at hs
  | destroy =>
    simp only [step] at hs
    split at hs <;> simp only [Option.some.injEq, Prod.mk.injEq, reduceCtorEq] at hs
    rename_i hc
    obtain ⟨rfl, rfl⟩ := hs
    simp only [not_or, Bool.not_eq_true, Bool.not_eq_false] at hc
    exact .destroy hc.1 hc.2
  | get x =>
    simp only [step] at hs
    split at hs
    · simp at hs
    · rename_i hc
      split at hs <;> simp only [Option.some.injEq, Prod.mk.injEq, reduceCtorEq] at hs
      obtain ⟨rfl, rfl⟩ := hs
      simp only [not_or, Bool.not_eq_true, Bool.not_eq_false] at hc
      exact .get _ _ hc.1 (by assumption)

/-- Underneath there is an execution of the pool. -/
theorem base_step {N : Nat} {s s' : St} {tr e : List Ev} {l : Lbl} (h : (Pool.machine N).Reaches s.base (poolTrace tr)) (hs : step N s l = some (s', e)) :
    (Pool.machine N).Reaches s'.base (poolTrace (tr ++ e)) := by
  rw [poolTrace_append]
  have hz : ∀ x o e', poolTrace (Ev.ran x o :: List.map Ev.pool e') = e' := fun x o e' => by
    have := poolTrace_map e'
    simpa [poolTrace] using this
  have one : ∀ {l b e'}, Pool.step N s.base l = some (b, e') → (Pool.machine N).Reaches b (poolTrace tr ++ e') := fun hb => h.step hb
  cases shape hs with
  | base l b e hd hl hf hb => rw [poolTrace_map]; exact one hb
  | push a i fut b e hd hb =>
    have : poolTrace (if fut = true then [Ev.future s.base.next] else []) = [] := by split <;> rfl
    rw [poolTrace_append, poolTrace_map, this, List.append_nil]; exact one hb
  | caught w x o b e hd hx hfut hb => rw [hz]; exact one hb
  | plain w x o b e hd hx hfut hb => rw [hz]; exact one hb
  | destroy hd hj => simpa [poolTrace] using h
  | get x r hf hr => simpa [poolTrace] using h

theorem base {N : Nat} {s : St} {tr : List Ev} (h : (machine N).Reaches s tr) : (Pool.machine N).Reaches s.base (poolTrace tr) :=
  Reaches.inv (M := machine N) (fun s tr => (Pool.machine N).Reaches s.base (poolTrace tr)) (Reaches.init (Pool.machine N))
    (fun _ _ _ _ _ hI hs => base_step hI hs) h

theorem started_iff {tr : List Pool.Ev} {x : Nat} : Pool.timesStarted x tr = 0 ↔ ∀ w, .started w x ∉ tr := by
  simp only [Pool.timesStarted, List.countP_eq_zero]
  constructor
  · intro h w hw; have := h _ hw; simp at this
  · intro h e he
    cases e <;> simp
    rename_i w y; rintro rfl; exact h w he

theorem finished_of {tr : List Pool.Ev} {x : Nat} (h : 0 < Pool.timesFinished x tr) : ∃ w t, .finished w x t ∈ tr := by
  simp only [Pool.timesFinished, List.countP_pos_iff] at h
  obtain ⟨e, he, h⟩ := h
  cases e <;> simp at h
  subst h; exact ⟨_, _, he⟩

theorem inQueue_iff {N : Nat} {b : Pool.St} {x : Nat} : inQueue N b x = true ↔ ∃ i, i < N ∧ x ∈ b.queue i := by
  simp [inQueue]

/-- Bookkeeping. -/
structure Inv (N : Nat) (s : St) (tr : List Ev) : Prop where
  fut : ∀ x, s.hasFut x = true ↔ .future x ∈ tr
  new : ∀ x, s.hasFut x = true → x < s.base.next
  out : ∀ x o, s.res x = some (.out o) → .ran x o ∈ tr
  broken : ∀ x, s.res x = some .broken → s.dead = true ∧ inQueue N s.base x = true
  ran : ∀ x o, .ran x o ∈ tr → ∃ w t, .pool (.finished w x t) ∈ tr
  fin : ∀ x w t, s.hasFut x = true → .pool (.finished w x t) ∈ tr → ∃ o, s.res x = some (.out o)
  calm : ∀ x w, s.hasFut x = true → .pool (.finished w x true) ∉ tr
  dead : s.dead = true → s.base.joined = true ∧ ∀ x, inQueue N s.base x = true → s.hasFut x = true → s.res x = some .broken
  gone : .destroyed ∈ tr ↔ s.dead = true
  joined : s.base.joined = true → .pool .joined ∈ tr
  taken : ∀ x, s.taken x = true → ∃ r, s.res x = some r ∧ .got x r ∈ tr

theorem pool_other {N : Nat} {s b : Pool.St} {l : Pool.Lbl} {e : List Pool.Ev} (hl : ∀ a i, l ≠ .enqPush a i) (hf : ∀ w t, l ≠ .finish w t)
    (hb : Pool.step N s l = some (b, e)) : b.next = s.next ∧ (∀ w x t, .finished w x t ∉ e) ∧ (b.joined = true → s.joined = true ∨ .joined ∈ e) := by
  cases l <;> simp only [Pool.step] at hb <;> (repeat' split at hb) <;>
    simp only [Option.some.injEq, Prod.mk.injEq, reduceCtorEq] at hb <;> obtain ⟨rfl, rfl⟩ := hb <;>
    first
    | exact absurd rfl (hl _ _)
    | exact absurd rfl (hf _ _)
    | (refine ⟨rfl, ?_, ?_⟩ <;> simp [Pool.doneEv] <;> done)
    | (refine ⟨rfl, ?_, ?_⟩ <;> simp only [Pool.doneEv] <;> (try intro w x t) <;> split <;> simp_all)

theorem pool_push {N : Nat} {s b : Pool.St} {a : Pool.Who} {i : Nat} {e : List Pool.Ev} (hb : Pool.step N s (.enqPush a i) = some (b, e)) :
    b.next = s.next + 1 ∧ b.joined = s.joined ∧ e = [.enqueued a s.next] := by
  simp only [Pool.step] at hb
  split at hb <;> simp only [Option.some.injEq, Prod.mk.injEq, reduceCtorEq] at hb
  obtain ⟨rfl, rfl⟩ := hb
  exact ⟨rfl, rfl, rfl⟩

theorem pool_finish {N : Nat} {s b : Pool.St} {w x : Nat} {t : Bool} {e : List Pool.Ev} (hx : s.pc w = .run x)
    (hb : Pool.step N s (.finish w t) = some (b, e)) : b.next = s.next ∧ b.joined = s.joined ∧ e = [.finished w x t] := by
  simp only [Pool.step, hx] at hb
  split at hb <;> simp only [Option.some.injEq, Prod.mk.injEq, reduceCtorEq] at hb
  obtain ⟨rfl, rfl⟩ := hb
  exact ⟨rfl, rfl, rfl⟩

theorem inv_step {N : Nat} {s s' : St} {tr e : List Ev} {l : Lbl} (hr : (Pool.machine N).Reaches s.base (poolTrace tr)) (h : Inv N s tr)
    (hs : step N s l = some (s', e)) : Inv N s' (tr ++ e) := by
  have hi := Pool.inv_of_reaches hr
  -- nobody finishes a task that is not known yet
  have hnew : ∀ w t, .pool (.finished w s.base.next t) ∉ tr := by
    intro w t hm
    have h1 : Pool.timesFinished s.base.next (poolTrace tr) = 0 := hi.fin0 _ (by have := hi.st s.base.next; simp at this; exact this)
    simp only [Pool.timesFinished, List.countP_eq_zero] at h1
    exact h1 _ (mem_poolTrace.2 hm) (by simp)
  have hrun : ∀ w x, s.base.pc w = .run x → ∀ v t, .pool (.finished v x t) ∉ tr := by
    intro w x hx v t hm
    have h1 := (hi.run w x hx).2
    simp only [Pool.timesFinished, List.countP_eq_zero] at h1
    exact h1 _ (mem_poolTrace.2 hm) (by simp)
  obtain ⟨h1, h2, h3, h4, h5, h6, h7, h8, h9, hjoin, h10⟩ := h
  have hfree : ∀ x, (∀ w t, .pool (.finished w x t) ∉ tr) → s.dead = false → s.taken x = false := by
    intro x hx hd
    cases ht : s.taken x with
    | false => rfl
    | true =>
      obtain ⟨r, hr1, hr2⟩ := h10 x ht
      cases r with
      | out o => obtain ⟨w, t, hw⟩ := h5 x o (h3 x o hr1); exact absurd hw (hx w t)
      | broken => simp [(h4 x hr1).1] at hd
  cases shape hs with
  | base l b e hd hl hf hb =>
    obtain ⟨n1, n2, n3⟩ := pool_other hl hf hb
    constructor <;> simp only [List.mem_append, List.mem_map, n1, hd] <;> grind
  | push a i fut b e hd hb =>
    obtain ⟨n1, n3, rfl⟩ := pool_push hb
    have hz : ∀ x, (Ev.future x ∈ if fut = true then [Ev.future s.base.next] else []) ↔ fut = true ∧ x = s.base.next := by intro x; split <;> simp_all
    have hz2 : ∀ a : Ev, (∀ x, a ≠ .future x) → a ∉ (if fut = true then [Ev.future s.base.next] else []) := by intro a ha; split <;> simp_all
    have n := h2 s.base.next
    constructor <;> simp only [List.mem_append, List.map_cons, List.map_nil, List.mem_cons, List.not_mem_nil, or_false, n1, n3, hd, upd_apply, hz, reduceCtorEq, false_or,
      hz2 (.ran _ _) (by simp), hz2 (.pool _) (by simp), hz2 .destroyed (by simp), hz2 (.got _ _) (by simp), Ev.pool.injEq] <;> grind
  | caught w x o b e hd hx hfut hb =>
    obtain ⟨n1, n3, rfl⟩ := pool_finish hx hb
    have n2 := hrun w x hx
    have n4 := hfree x n2 hd
    constructor <;> simp only [List.mem_append, List.map_cons, List.map_nil, List.mem_cons, List.not_mem_nil, or_false, n1, n3, hd, upd_apply, reduceCtorEq, false_or,
      Ev.pool.injEq, Ev.ran.injEq, Pool.Ev.finished.injEq] <;>
      first | grind | (rintro y o' (hy | ⟨rfl, rfl⟩); (· obtain ⟨v, t, hv⟩ := h5 y o' hy; exact ⟨v, t, .inl hv⟩); exact ⟨w, false, .inr ⟨rfl, rfl, rfl⟩⟩)
  | plain w x o b e hd hx hfut hb =>
    obtain ⟨n1, n3, rfl⟩ := pool_finish hx hb
    have n2 := hrun w x hx
    have n4 := hfree x n2 hd
    constructor <;> simp only [List.mem_append, List.map_cons, List.map_nil, List.mem_cons, List.not_mem_nil, or_false, n1, n3, hd, reduceCtorEq, false_or,
      Ev.pool.injEq, Ev.ran.injEq, Pool.Ev.finished.injEq] <;> grind
  | destroy hd hj =>
    have hq : ∀ x w t, inQueue N s.base x = true → .pool (.finished w x t) ∉ tr := by
      intro x w t hx hm
      obtain ⟨i, hi1, hi2⟩ := inQueue_iff.1 hx
      have h1 := hi.fin0 _ (hi.qin i x hi2).2.2
      simp only [Pool.timesFinished, List.countP_eq_zero] at h1
      exact h1 _ (mem_poolTrace.2 hm) (by simp)
    have n4 : ∀ x, inQueue N s.base x = true → s.taken x = false := fun x hx => hfree x (fun w t => hq x w t hx) hd
    constructor <;> simp only [List.mem_append, List.mem_cons, List.not_mem_nil, or_false, reduceCtorEq] <;> grind
  | get x r hf hr =>
    constructor
    case taken =>
      simp only [List.mem_append, List.mem_cons, List.not_mem_nil, or_false, upd_apply]
      intro y hy
      by_cases hyx : y = x
      · subst hyx; exact ⟨r, hr, .inr rfl⟩
      · simp only [hyx, if_false] at hy
        obtain ⟨r', h1', h2'⟩ := h10 y hy
        exact ⟨r', h1', .inl h2'⟩
    all_goals simp only [List.mem_append, List.mem_cons, List.not_mem_nil, or_false, reduceCtorEq] <;> grind

theorem inv {N : Nat} {s : St} {tr : List Ev} (h : (machine N).Reaches s tr) : Inv N s tr :=
  Reaches.inv' (M := machine N) (Inv N) (by constructor <;> simp [machine, init, Pool.init]) (fun _ _ _ _ _ hr hI hs => inv_step (base hr) hI hs) h

/-- **C97**: what a future tells is true, and exceptions of functions with a future do not reach the worker. -/
theorem pool_future_truthful (N : Nat) (s : St) (tr : List Ev) (h : (machine N).Reaches s tr) : Truthful tr ∧ Contained tr := by
  constructor
  · refine Reaches.inv' (M := machine N) (fun _ tr => Truthful tr) (fun p x r hp => absurd hp not_concat_prefix_nil) ?_ h
    intro s tr l s' e hr hI hs p x r hp
    have hi := inv hr
    have hb := Pool.inv_of_reaches (base hr)
    rcases concat_prefix_append_cases hp with hp | ⟨q, hq, hpq⟩
    · exact hI p x r hp
    · have hm : Ev.got x r ∈ e := hq.subset (by simp)
      cases shape hs with
      | base l b e hd hl hf hb => simp at hm
      | push a i fut b e hd hb => cases fut <;> simp at hm
      | caught w y o b e hd hx hfut hb => simp at hm
      | plain w y o b e hd hx hfut hb => simp at hm
      | destroy hd hj => simp at hm
      | get y r' hf hres =>
        simp only [List.mem_cons, Ev.got.injEq, List.not_mem_nil, or_false] at hm
        obtain ⟨rfl, rfl⟩ := hm
        have hq0 : q = [] := by
          have := hq.length_le
          simp at this
          exact this
        subst hq0
        simp only [List.append_nil] at hpq
        subst hpq
        cases r with
        | out o => exact hi.out _ _ hres
        | broken =>
          obtain ⟨i, hi1, hi2⟩ := inQueue_iff.1 (hi.broken _ hres).2
          have hst := (hb.qin i x hi2).2.2
          refine ⟨fun o ho => ?_, fun w hw => (started_iff.1 hst) w (mem_poolTrace.2 hw)⟩
          obtain ⟨w, t, hw⟩ := hi.ran x o ho
          have h0 := hb.fin0 x hst
          simp only [Pool.timesFinished, List.countP_eq_zero] at h0
          exact h0 _ (mem_poolTrace.2 hw) (by simp)
  · intro w x hx
    have hi := inv h
    exact hi.calm x w ((hi.fut x).2 hx)

/-- get() of the future of x has ended, or would end at once, with result r. -/
def Told (N : Nat) (s : St) (tr : List Ev) (x : Nat) (r : Res) : Prop := .got x r ∈ tr ∨ ∃ s', (machine N).step s (.get x) = some (s', [.got x r])

theorem told {N : Nat} {s : St} {tr : List Ev} (hi : Inv N s tr) {x : Nat} {r : Res} (hf : .future x ∈ tr) (hr : s.res x = some r) : Told N s tr x r := by
  cases ht : s.taken x with
  | true =>
    obtain ⟨r', h1, h2⟩ := hi.taken x ht
    rw [hr, Option.some.injEq] at h1
    subst h1; exact .inl h2
  | false => exact .inr ⟨{ s with taken := upd s.taken x true }, by simp [machine, step, (hi.fut x).2 hf, ht, hr]⟩

theorem told_finished {N : Nat} {s : St} {tr : List Ev} (hi : Inv N s tr) {x : Nat} (hf : .future x ∈ tr) (hfin : 0 < Pool.timesFinished x (poolTrace tr)) :
    ∃ o, .ran x o ∈ tr ∧ Told N s tr x (.out o) := by
  obtain ⟨w, t, hw⟩ := finished_of hfin
  obtain ⟨o, ho⟩ := hi.fin x w t ((hi.fut x).2 hf) (mem_poolTrace.1 hw)
  exact ⟨o, hi.out x o ho, told hi hf ho⟩

/-- **C97**: when stop() has returned (and nobody called quick_stop()), get() of every future that was returned in time ends with the outcome of its function. -/
theorem pool_future_after_stop (N : Nat) (hN : 0 < N) (s : St) (tr : List Ev) (h : (machine N).Reaches s tr) (hj : .pool .joined ∈ tr) (hq : .pool .stopNow ∉ tr)
    (x : Nat) (hf : .future x ∈ tr) (hin : Pool.InTime x (poolTrace tr)) : ∃ o, .ran x o ∈ tr ∧ Told N s tr x (.out o) := by
  have := Pool.pool_stop_drains N hN s.base _ (base h) (mem_poolTrace.2 hj) (fun hc => hq (mem_poolTrace.1 hc)) x hin
  exact told_finished (inv h) hf (by omega)

/-- **C97**: when the pool has been destroyed, nobody waits for a future any more: get() ends with the outcome if the function was started, with `broken_promise` if not. -/
theorem pool_future_after_destruction (N : Nat) (s : St) (tr : List Ev) (h : (machine N).Reaches s tr) (hd : .destroyed ∈ tr) (x : Nat) (hf : .future x ∈ tr) :
    (∃ o, .ran x o ∈ tr ∧ Told N s tr x (.out o)) ∨ ((∀ w, .pool (.started w x) ∉ tr) ∧ Told N s tr x .broken) := by
  have hi := inv h
  have hb := Pool.inv_of_reaches (base h)
  have hfx := (hi.fut x).2 hf
  have hx := hi.new x hfx
  have hdead := hi.gone.1 hd
  obtain ⟨hj, hbr⟩ := hi.dead hdead
  have hst := hb.st x
  have : Pool.timesStarted x (poolTrace tr) = 0 ∨ Pool.timesStarted x (poolTrace tr) = 1 := by split at hst <;> omega
  rcases this with h0 | h1
  · right
    obtain ⟨i, hi1, hi2⟩ := hb.stays x hx h0
    exact ⟨fun w hw => started_iff.1 h0 w (mem_poolTrace.2 hw), told hi hf (hbr x (inQueue_iff.2 ⟨i, hi1, hi2⟩) hfx)⟩
  · left
    rcases hb.fin x h1 with hfin | ⟨w, hw, hrun⟩
    · exact told_finished hi hf (by omega)
    · have := hb.join (mem_poolTrace.2 (hi.joined hj)) w hw
      rw [hrun] at this; simp at this

theorem exited_stays {N : Nat} {s s' : Pool.St} {l : Pool.Lbl} {e : List Pool.Ev} (h : ∀ w, w < N → s.pc w = .exited) (hs : Pool.step N s l = some (s', e)) (x i : Nat)
    (hx : x ∈ s.queue i) : (∀ w, w < N → s'.pc w = .exited) ∧ x ∈ s'.queue i := by
  cases l <;> simp only [Pool.step] at hs <;> (repeat' split at hs) <;>
    simp only [Option.some.injEq, Prod.mk.injEq, reduceCtorEq] at hs <;> obtain ⟨rfl, rfl⟩ := hs <;> (try simp only [upd_apply]) <;> grind

theorem dead_only {N : Nat} {s s' : St} {e : List Ev} {l : Lbl} (hnd : l ≠ .destroy) (hs : step N s l = some (s', e)) : s'.dead = s.dead := by
  cases l <;> simp only [step] at hs <;> (repeat' split at hs) <;>
    simp only [Option.some.injEq, Prod.mk.injEq, reduceCtorEq] at hs <;> obtain ⟨rfl, rfl⟩ := hs <;> first | rfl | exact absurd rfl hnd

theorem step_abandoned {N : Nat} {s s' : St} {tr e : List Ev} {l : Lbl} (hnd : l ≠ .destroy) (hr : (machine N).Reaches s tr) (x : Nat)
    (h : (∀ w, w < N → s.base.pc w = .exited) ∧ (∃ i, i < N ∧ x ∈ s.base.queue i) ∧ s.dead = false ∧ s.res x = none) (hs : step N s l = some (s', e)) :
    ((∀ w, w < N → s'.base.pc w = .exited) ∧ (∃ i, i < N ∧ x ∈ s'.base.queue i) ∧ s'.dead = false ∧ s'.res x = none) ∧ ∀ r, .got x r ∉ e := by
  obtain ⟨h1, ⟨i, hi, hx⟩, h3, h4⟩ := h
  have hb := Pool.inv_of_reaches (base hr)
  have key : ∀ {l b e'}, Pool.step N s.base l = some (b, e') → (∀ w, w < N → b.pc w = .exited) ∧ ∃ i, i < N ∧ x ∈ b.queue i := fun h =>
    let k := exited_stays h1 h x i hx
    ⟨k.1, i, hi, k.2⟩
  have norun : ∀ w y, s.base.pc w = .run y → y ≠ x := by
    rintro w y hw rfl
    have a := (hb.run w y hw).1
    have b := (hb.qin i y hx).2.2
    omega
  cases shape hs with
  | base l b e hd hl hf hbs => exact ⟨⟨(key hbs).1, (key hbs).2, h3, h4⟩, by simp⟩
  | push a i fut b e hd hbs => exact ⟨⟨(key hbs).1, (key hbs).2, h3, h4⟩, by cases fut <;> simp⟩
  | caught w y o b e hd hy hfut hbs => exact ⟨⟨(key hbs).1, (key hbs).2, h3, by simpa [upd_apply, Ne.symm (norun w y hy)] using h4⟩, by simp⟩
  | plain w y o b e hd hy hfut hbs => exact ⟨⟨(key hbs).1, (key hbs).2, h3, h4⟩, by simp⟩
  | destroy hd hj =>
    have := dead_only hnd hs
    simp [hd] at this
  | get y r hf hr =>
    refine ⟨⟨h1, ⟨i, hi, hx⟩, h3, h4⟩, ?_⟩
    simp only [List.mem_cons, Ev.got.injEq, List.not_mem_nil, or_false]
    rintro r' ⟨rfl, rfl⟩
    rw [h4] at hr; simp at hr

/-- **C97, refuted**: whatever is not started when quick_stop() (or stop(), for calls that came too late) returns leaves its future without any result for as long as the
pool exists: get() does not end, there is no `broken_promise`. -/
theorem pool_future_abandoned_refuted (N : Nat) (s : St) (tr : List Ev) (h : (machine N).Reaches s tr) (hj : .pool .joined ∈ tr) (hd : .destroyed ∉ tr)
    (x : Nat) (hf : .future x ∈ tr) (hx : ∀ w, .pool (.started w x) ∉ tr) (ls : List Lbl) (hls : .destroy ∉ ls) (s' : St) (m : List Ev)
    (hrun : (machine N).runFrom s ls = some (s', m)) : ∀ r, .got x r ∉ tr ++ m := by
  have hi := inv h
  have hb := Pool.inv_of_reaches (base h)
  have hdead : s.dead = false := by
    cases hb : s.dead with
    | false => rfl
    | true => exact absurd (hi.gone.2 hb) hd
  have hst : Pool.timesStarted x (poolTrace tr) = 0 := started_iff.2 fun w hw => hx w (mem_poolTrace.1 hw)
  have hres : s.res x = none := by
    cases hr : s.res x with
    | none => rfl
    | some r =>
      cases r with
      | out o =>
        obtain ⟨w, t, hw⟩ := hi.ran x o (hi.out x o hr)
        have h0 := hb.fin0 x hst
        simp only [Pool.timesFinished, List.countP_eq_zero] at h0
        exact absurd (by simp) (h0 _ (mem_poolTrace.2 hw))
      | broken => have := (hi.broken x hr).1; simp [hdead] at this
  have h0 : (∀ w, w < N → s.base.pc w = .exited) ∧ (∃ i, i < N ∧ x ∈ s.base.queue i) ∧ s.dead = false ∧ s.res x = none :=
    ⟨hb.join (mem_poolTrace.2 hj), hb.stays x (hi.new x ((hi.fut x).2 hf)) hst, hdead, hres⟩
  have hgot : ∀ r, .got x r ∉ tr := by
    have : ∀ r, .got x r ∈ tr → ∃ r', s.res x = some r' := by
      refine Reaches.inv' (M := machine N) (fun s tr => ∀ r, .got x r ∈ tr → ∃ r', s.res x = some r') (by simp) ?_ h
      intro s tr l s' e hr hI hs r hm
      rw [List.mem_append] at hm
      have hmono : ∀ r', s.res x = some r' → ∃ r'', s'.res x = some r'' := by
        intro r' hr'
        cases shape hs with
        | base | push | plain | get => exact ⟨r', hr'⟩
        | caught w y o b e hd hy hfut hbs => by_cases hyx : x = y <;> simp_all [upd_apply]
        | destroy => dsimp only; split <;> simp_all
      rcases hm with hm | hm
      · obtain ⟨r', hr'⟩ := hI r hm; exact hmono r' hr'
      · cases shape hs with
        | push a i fut b e hd hbs => cases fut <;> simp at hm
        | base | plain | caught | destroy => simp at hm
        | get y r' hf hres =>
          simp only [List.mem_cons, Ev.got.injEq, List.not_mem_nil, or_false] at hm
          obtain ⟨rfl, rfl⟩ := hm
          exact ⟨_, hres⟩
    intro r hr
    obtain ⟨r', hr'⟩ := this r hr
    rw [hres] at hr'; simp at hr'
  have : ∀ ls, .destroy ∉ ls → ∀ s tr, (machine N).Reaches s tr →
      ((∀ w, w < N → s.base.pc w = .exited) ∧ (∃ i, i < N ∧ x ∈ s.base.queue i) ∧ s.dead = false ∧ s.res x = none) → ∀ s' m,
      (machine N).runFrom s ls = some (s', m) → ∀ r, .got x r ∉ m := by
    intro ls
    induction ls with
    | nil => intro _ s tr _ _ s' m hrun; simp only [runFrom, Option.some.injEq, Prod.mk.injEq] at hrun; rw [← hrun.2]; simp
    | cons l ls ih =>
      intro hls s tr hr hA s' m hrun r
      simp only [List.mem_cons, not_or] at hls
      simp only [runFrom] at hrun
      cases h1 : (machine N).step s l with
      | none => simp [h1] at hrun
      | some p =>
        obtain ⟨s1, e1⟩ := p
        simp only [h1] at hrun
        cases h2 : (machine N).runFrom s1 ls with
        | none => simp [h2] at hrun
        | some q =>
          obtain ⟨s2, e2⟩ := q
          simp only [h2, Option.some.injEq, Prod.mk.injEq] at hrun
          obtain ⟨rfl, rfl⟩ := hrun
          obtain ⟨a, b⟩ := step_abandoned (Ne.symm hls.1) hr x hA h1
          simp only [List.mem_append, not_or]
          exact ⟨b r, ih hls.2 s1 _ (hr.step h1) a _ _ h2 r⟩
  intro r
  simp only [List.mem_append, not_or]
  exact ⟨hgot r, this ls hls s tr h h0 s' m hrun r⟩

/-- A run: one function throws into its future, one without a future throws into the log, one is left behind by quick_stop() and told so by the destruction. -/
theorem pool_future_nontrivial : ((machine 1).run
    [.base (.enqTest (.ext 0)), .push (.ext 0) 0 true, .base (.enqTest (.ext 0)), .push (.ext 0) 0 false, .base (.enqTest (.ext 0)), .push (.ext 0) 0 true,
     .base (.work 0), .base (.take 0 0), .finish 0 (.exn 7), .get 0, .base (.work 0), .base (.take 0 1), .base .setNow, .base .reqStop, .finish 0 (.exn 8),
     .base (.work 0), .base (.work 0), .base .join, .destroy, .get 2]).map (·.2) =
    some [.pool (.enqCalled (.ext 0)), .pool (.enqueued (.ext 0) 0), .future 0, .pool (.enqCalled (.ext 0)), .pool (.enqueued (.ext 0) 1), .pool (.enqCalled (.ext 0)),
      .pool (.enqueued (.ext 0) 2), .future 2, .pool (.started 0 0), .ran 0 (.exn 7), .pool (.finished 0 0 false), .got 0 (.out (.exn 7)),
      .pool (.started 0 1), .pool .stopNow, .pool .stopRequested, .ran 1 (.exn 8), .pool (.finished 0 1 true), .pool (.exited 0), .pool .joined, .destroyed,
      .got 2 .broken] := by decide

/-- The hypotheses of the refutation are met: quick_stop() returns and one function has not been started. -/
theorem pool_future_abandoned_nontrivial : ∃ s tr, (machine 1).Reaches s tr ∧ .pool .joined ∈ tr ∧ .destroyed ∉ tr ∧ .future 0 ∈ tr ∧
    ∀ w, .pool (.started w 0) ∉ tr := by
  refine ⟨_, [.pool (.enqCalled (.ext 0)), .pool (.enqueued (.ext 0) 0), .future 0, .pool .stopNow, .pool .stopRequested, .pool (.exited 0), .pool .joined],
    ⟨[.base (.enqTest (.ext 0)), .push (.ext 0) 0 true, .base .setNow, .base .reqStop, .base (.work 0), .base (.work 0), .base .join], rfl⟩, ?_⟩
  simp

/-- ... and those of the theorem about stop(). -/
theorem pool_future_stop_nontrivial : ∃ s tr, (machine 1).Reaches s tr ∧ .pool .joined ∈ tr ∧ .pool .stopNow ∉ tr ∧ .future 0 ∈ tr ∧ Pool.InTime 0 (poolTrace tr) := by
  refine ⟨_, [.pool (.enqCalled (.ext 0)), .pool (.enqueued (.ext 0) 0), .future 0, .pool .stopRequested, .pool (.started 0 0), .ran 0 (.ret 5),
      .pool (.finished 0 0 false), .pool (.exited 0), .pool .joined],
    ⟨[.base (.enqTest (.ext 0)), .push (.ext 0) 0 true, .base (.work 0), .base .reqStop, .base (.take 0 0), .finish 0 (.ret 5), .base (.work 0), .base (.work 0), .base (.work 0), .base (.work 0),
      .base .join], rfl⟩, by simp, by simp, by simp, ?_⟩
  exact ⟨[.enqCalled (.ext 0)], .ext 0, ⟨_, rfl⟩, .inr (by simp)⟩

end Verif.PoolFut
