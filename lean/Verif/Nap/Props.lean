import Verif.Nap.Model
import Verif.Common.Prefix
/-!
# C96: idle workers notice what there is to do
-/

namespace Verif.Nap
open Machine

/-- Bookkeeping. -/
structure Gen (N : Nat) (s : St) (tr : List Ev) : Prop where
  far : ∀ w, N ≤ w → s.pc w = .head
  nap : ∀ w t, s.pc w = .nap t → s.now ≤ t ∧ t ≤ s.now + 500
  run : ∀ w x, s.pc w = .run x → .started w x ∈ tr ∧ .finished w x ∉ tr
  gone : ∀ w, s.pc w = .gone → .exited w ∈ tr
  req : .stopRequested ∈ tr → s.stopReq = true
  quick : .stopNow ∈ tr → s.stopNow = true

/-- Where the tasks are. -/
structure Places (N : Nat) (s : St) (tr : List Ev) : Prop where
  fresh : ∀ x, .enqueued x ∈ tr → x < s.next
  wait : ∀ x, .enqueued x ∈ tr → (∃ v, .started v x ∈ tr) ∨ ∃ i, i < N ∧ x ∈ s.queue i
  queued : ∀ i x, x ∈ s.queue i → .enqueued x ∈ tr ∧ ∀ v, .started v x ∉ tr
  enq : ∀ v x, .started v x ∈ tr → .enqueued x ∈ tr
  fin : ∀ v x, .finished v x ∈ tr → .started v x ∈ tr
  nodup : ∀ i, (s.queue i).Nodup
  disj : ∀ i j x, x ∈ s.queue i → x ∈ s.queue j → i = j

theorem target_lt {N w k : Nat} (hw : w < N) (hk : k ≤ N) : target w k < N := by
  cases k <;> simp [target] <;> omega

/-- What a step does to the tasks. -/
inductive Shape (N : Nat) (s s' : St) : List Ev → Prop where
  | none (e : List Ev) (hq : s'.queue = s.queue) (hn : s'.next = s.next) (he : ∀ x, .enqueued x ∉ e) (hs : ∀ v x, .started v x ∉ e)
      (hf : ∀ v x, .finished v x ∈ e → s.pc v = .run x) : Shape N s s' e
  | push (i : Nat) (hi : i < N) (hq : s'.queue = upd s.queue i (s.queue i ++ [s.next])) (hn : s'.next = s.next + 1) : Shape N s s' [.enqueued s.next]
  | take (w i x : Nat) (hi : i < N) (hx : x ∈ s.queue i) (hq : s'.queue = upd s.queue i ((s.queue i).erase x)) (hn : s'.next = s.next) :
      Shape N s s' [.started w x]

theorem shape {N : Nat} {s s' : St} {e : List Ev} {l : Lbl} (hs : step N s l = some (s', e)) : Shape N s s' e := by
  cases l <;> simp only [step] at hs <;> (repeat' split at hs) <;>
    simp only [Option.some.injEq, Prod.mk.injEq, reduceCtorEq] at hs <;> obtain ⟨rfl, rfl⟩ := hs <;>
    first
    | (refine .none _ rfl rfl ?_ ?_ ?_ <;> simp_all; done)
    | exact .push _ ‹_› rfl rfl
    | (rename_i hw _ _ _ hx; exact .take _ _ _ (target_lt hw hx.1) hx.2 rfl rfl)

theorem places_step {N : Nat} {s s' : St} {tr e : List Ev} {l : Lbl} (hg : Gen N s tr) (h : Places N s tr) (hs : step N s l = some (s', e)) :
    Places N s' (tr ++ e) := by
  have g3 := hg.run
  obtain ⟨h1, h2, h3, h4, h5, h6, h7⟩ := h
  cases shape hs with
  | none e hq hn he hs hf =>
    constructor <;> simp only [hq, hn, List.mem_append]
    · grind
    · grind
    · grind
    · grind
    · grind
    · exact h6
    · exact h7
  | push i hi hq hn =>
    have f1 : s.next ∉ s.queue i := fun hx => absurd (h1 _ (h3 _ _ hx).1) (by omega)
    have f2 : ∀ j, s.next ∉ s.queue j := fun j hx => absurd (h1 _ (h3 _ _ hx).1) (by omega)
    have f3 : ∀ v, .started v s.next ∉ tr := fun v hx => absurd (h1 _ (h4 _ _ hx)) (by omega)
    constructor <;> simp only [hq, hn, List.mem_append, List.mem_cons, List.not_mem_nil, or_false, Ev.enqueued.injEq, reduceCtorEq, upd_apply]
    · grind
    · intro x hx
      rcases hx with hx | rfl
      · rcases h2 x hx with hv | ⟨j, hj, hv⟩
        · exact .inl hv
        · exact .inr ⟨j, hj, by split <;> simp_all⟩
      · exact .inr ⟨i, hi, by simp⟩
    · intro j x hx
      split at hx
      · simp only [List.mem_append, List.mem_cons, List.not_mem_nil, or_false] at hx
        rcases hx with hx | rfl
        · exact ⟨.inl (h3 _ _ hx).1, (h3 _ _ hx).2⟩
        · exact ⟨.inr rfl, f3⟩
      · exact ⟨.inl (h3 _ _ hx).1, (h3 _ _ hx).2⟩
    · intro v x hx; exact .inl (h4 v x hx)
    · exact h5
    · intro j
      split
      · simp only [List.nodup_append, h6, true_and]
        simp; intro a ha hc; exact f1 (hc ▸ ha)
      · exact h6 j
    · intro a b x ha hb
      grind
  | take w i x hi hx hq hn =>
    have := h6 i
    constructor <;> simp only [hq, hn, List.mem_append, List.mem_cons, List.not_mem_nil, or_false, Ev.started.injEq, reduceCtorEq, upd_apply]
    · exact h1
    · intro y hy
      rcases h2 y hy with ⟨v, hv⟩ | ⟨j, hj, hv⟩
      · exact .inl ⟨v, .inl hv⟩
      · by_cases hyx : y = x
        · exact .inl ⟨w, .inr ⟨rfl, hyx⟩⟩
        · refine .inr ⟨j, hj, ?_⟩
          split
          · rename_i hji; subst hji; exact (List.mem_erase_of_ne hyx).2 hv
          · exact hv
    · intro j y hy
      have hyj : y ∈ s.queue j ∧ y ≠ x := by
        split at hy
        · rename_i hji; subst hji
          exact ⟨List.mem_of_mem_erase hy, fun hc => by subst hc; exact (List.Nodup.not_mem_erase this) hy⟩
        · rename_i hji; exact ⟨hy, fun hc => by subst hc; exact hji (h7 _ _ _ hy hx)⟩
      refine ⟨(h3 _ _ hyj.1).1, fun v hv => ?_⟩
      rcases hv with hv | ⟨_, hv⟩
      · exact (h3 _ _ hyj.1).2 v hv
      · exact hyj.2 hv
    · intro v y hy
      rcases hy with hy | ⟨rfl, rfl⟩
      · exact h4 _ _ hy
      · exact (h3 _ _ hx).1
    · intro v y hy; exact .inl (h5 _ _ hy)
    · intro j
      split
      · exact this.erase _
      · exact h6 j
    · intro a b y ha hb
      have : ∀ c, y ∈ (if c = i then (s.queue i).erase x else s.queue c) → y ∈ s.queue c := by
        intro c hc
        split at hc
        · rename_i hci; subst hci; exact List.mem_of_mem_erase hc
        · exact hc
      exact h7 a b y (this a ha) (this b hb)

set_option maxHeartbeats 4000000 in
theorem gen_step {N : Nat} {s s' : St} {tr e : List Ev} {l : Lbl} (hg : Gen N s tr) (h : Places N s tr) (hs : step N s l = some (s', e)) :
    Gen N s' (tr ++ e) := by
  obtain ⟨g1, g2, g3, g4, g5, g6⟩ := hg
  have hf : ∀ i x, x ∈ s.queue i → ∀ v, .finished v x ∉ tr := fun i x hx v hv => (h.queued i x hx).2 v (h.fin v x hv)
  have hu : ∀ w x, s.pc w = .run x → .started w x ∈ tr := fun w x hx => (g3 w x hx).1
  clear h
  cases l
  case tick =>
    simp only [step] at hs
    split at hs <;> simp only [Option.some.injEq, Prod.mk.injEq, reduceCtorEq] at hs
    rename_i hc
    obtain ⟨rfl, rfl⟩ := hs
    constructor <;> simp only [List.mem_append, List.mem_cons, List.not_mem_nil, or_false, reduceCtorEq]
    · exact g1
    · intro w t ht
      have := g2 w t ht
      have hw : w < N := by
        rcases Nat.lt_or_ge w N with h1 | h1
        · exact h1
        · have := g1 w h1; simp [this] at ht
      have := List.all_eq_true.1 hc.2.2 w (by simpa using hw)
      simp [ht, patient] at this
      omega
    · exact g3
    · exact g4
    · exact g5
    · exact g6
  case notifyAll =>
    simp only [step] at hs
    split at hs <;> simp only [Option.some.injEq, Prod.mk.injEq, reduceCtorEq] at hs
    obtain ⟨rfl, rfl⟩ := hs
    constructor <;> simp only [List.append_nil, wakeAll] <;> grind
  all_goals
    simp only [step] at hs
    (repeat' split at hs) <;>
    simp only [Option.some.injEq, Prod.mk.injEq, reduceCtorEq] at hs <;> obtain ⟨rfl, rfl⟩ := hs <;> constructor <;>
    simp only [upd_apply, List.mem_append, List.mem_cons, List.not_mem_nil, or_false, Ev.started.injEq, Ev.finished.injEq, Ev.exited.injEq, reduceCtorEq, napTime, latch] <;>
    grind

theorem gen {N : Nat} {s : St} {tr : List Ev} (h : (machine N).Reaches s tr) : Gen N s tr ∧ Places N s tr :=
  Reaches.inv (M := machine N) (fun s tr => Gen N s tr ∧ Places N s tr)
    ⟨by constructor <;> simp [machine, init], by constructor <;> simp [machine, init]⟩
    (fun _ _ _ _ _ hI hs => ⟨gen_step hI.1 hI.2 hs, places_step hI.1 hI.2 hs⟩) h

/-- How much time may have passed, depending on where the worker is; `np k`: a scan at position `k` will succeed. -/
def Stage (np : Nat → Prop) (s : St) (w e : Nat) : Prop :=
  match s.pc w with
  | .head => e ≤ 500
  | .scan k => e = 0 ∨ (e ≤ 500 ∧ np k)
  | .again | .sleepy => e = 0
  | .nap t => t + e ≤ s.now + 500
  | .run _ | .gone => False

theorem stage_zero {N : Nat} {np : Nat → Prop} {s : St} {tr : List Ev} {w : Nat} (hg : Gen N s tr) (hi : Idle w tr) (hx : .exited w ∉ tr) :
    Stage np s w 0 := by
  unfold Stage
  have h1 := hg.nap w
  have h2 := hg.run w
  have h3 := hg.gone w
  split <;> simp_all
  exact h2.2 (hi _ h2.1)

theorem stage_le {np : Nat → Prop} {N : Nat} {s : St} {tr : List Ev} {w e : Nat} (hg : Gen N s tr) (h : Stage np s w e) : e ≤ 500 := by
  unfold Stage at h
  have h1 := hg.nap w
  split at h
  · exact h
  · omega
  · omega
  · omega
  · rename_i t ht
    have := h1 _ ht
    omega
  · exact h.elim
  · exact h.elim

theorem elapsed_append (a b : List Ev) : elapsed (a ++ b) = elapsed a + elapsed b := by simp [elapsed]

/-- A worker that sees a task does not go to sleep. -/
theorem stage_task {N : Nat} {s s' : St} {tr e : List Ev} {l : Lbl} {w d x i : Nat} (hg : Gen N s tr) (hw : w < N) (hi : i < N) (hx : x ∈ s.queue i)
    (h : Stage (· ≤ i + 1) s w d) (hs : step N s l = some (s', e)) (hstill : Still w e) (hno : ∀ v, .started v x ∉ e) :
    Stage (· ≤ i + 1) s' w (d + elapsed e) := by
  obtain ⟨st1, st2⟩ := hstill
  obtain ⟨g1, g2, g3, g4, g5, g6⟩ := hg
  cases l
  case tick =>
    simp only [step] at hs
    split at hs <;> simp only [Option.some.injEq, Prod.mk.injEq, reduceCtorEq] at hs
    rename_i hc
    obtain ⟨rfl, rfl⟩ := hs
    have := List.all_eq_true.1 hc.2.2 w (by simpa using hw)
    unfold Stage at h ⊢
    simp only [elapsed, List.count_cons, List.count_nil]
    cases hp : s.pc w <;> simp_all [patient]
    omega
  case notifyAll =>
    simp only [step] at hs
    split at hs <;> simp only [Option.some.injEq, Prod.mk.injEq, reduceCtorEq] at hs
    obtain ⟨rfl, rfl⟩ := hs
    have := g2 w
    unfold Stage at h ⊢
    simp only [elapsed, List.count_nil, wakeAll]
    cases hp : s.pc w <;> simp_all
    omega
  all_goals
    have := g2 w
    have ht : target w (i + 1) = i := rfl
    simp only [step] at hs
    (repeat' split at hs) <;>
    simp only [Option.some.injEq, Prod.mk.injEq, reduceCtorEq] at hs <;> obtain ⟨rfl, rfl⟩ := hs <;>
    unfold Stage at h ⊢ <;>
    simp [elapsed, upd_apply, napTime, latch] at * <;>
    grind

/-- A worker that finds that it is to end ends. -/
theorem stage_end {N : Nat} {s s' : St} {tr e : List Ev} {l : Lbl} {w d : Nat} (hg : Gen N s tr) (hw : w < N) (hd : done N s = true)
    (h : Stage (fun _ => False) s w d) (hs : step N s l = some (s', e)) (hstill : Still w e) :
    Stage (fun _ => False) s' w (d + elapsed e) := by
  obtain ⟨st1, st2⟩ := hstill
  obtain ⟨g1, g2, g3, g4, g5, g6⟩ := hg
  cases l
  case tick =>
    simp only [step] at hs
    split at hs <;> simp only [Option.some.injEq, Prod.mk.injEq, reduceCtorEq] at hs
    rename_i hc
    obtain ⟨rfl, rfl⟩ := hs
    have := List.all_eq_true.1 hc.2.2 w (by simpa using hw)
    unfold Stage at h ⊢
    simp only [elapsed, List.count_cons, List.count_nil]
    cases hp : s.pc w <;> simp_all [patient]
    omega
  case notifyAll =>
    simp only [step] at hs
    split at hs <;> simp only [Option.some.injEq, Prod.mk.injEq, reduceCtorEq] at hs
    obtain ⟨rfl, rfl⟩ := hs
    have := g2 w
    unfold Stage at h ⊢
    simp only [elapsed, List.count_nil, wakeAll]
    cases hp : s.pc w <;> simp_all
    omega
  all_goals
    have := g2 w
    simp only [step] at hs
    (repeat' split at hs) <;>
    simp only [Option.some.injEq, Prod.mk.injEq, reduceCtorEq] at hs <;> obtain ⟨rfl, rfl⟩ := hs <;>
    unfold Stage at h ⊢ <;>
    simp [elapsed, upd_apply, napTime, latch] at * <;>
    grind

theorem single {N : Nat} {s s' : St} {e : List Ev} {l : Lbl} (hs : step N s l = some (s', e)) : e.length ≤ 1 := by
  cases l <;> simp only [step] at hs <;> (repeat' split at hs) <;>
    simp only [Option.some.injEq, Prod.mk.injEq, reduceCtorEq] at hs <;> obtain ⟨rfl, rfl⟩ := hs <;> simp

theorem still_mono {w : Nat} {a b : List Ev} (h : Still w (a ++ b)) : Still w a ∧ Still w b := by
  simp only [Still, List.mem_append] at h ⊢; grind

/-- The two reasons, seen from the state. -/
theorem done_of_mustEnd {N : Nat} {s : St} {p m : List Ev} (hg : Gen N s (p ++ m)) (hp : Places N s (p ++ m)) (h : MustEnd p m) : done N s = true := by
  obtain ⟨h1, h2⟩ := h
  have r := hg.req (List.mem_append_left _ h1)
  rcases h2 with h2 | h2
  · have q := hg.quick (List.mem_append_left _ h2)
    simp [done, r, q]
  · simp only [done, r, Bool.true_and, Bool.or_eq_true, List.all_eq_true, List.isEmpty_iff]
    refine .inr fun i _ => List.eq_nil_iff_forall_not_mem.2 fun x hx => ?_
    obtain ⟨a, b⟩ := hp.queued i x hx
    obtain ⟨v, hv⟩ := h2 x a
    exact b v (List.mem_append_left _ hv)

/-- The history of one worker from some moment on. -/
def Hist (N : Nat) (s : St) (tr : List Ev) : Prop :=
  ∀ p m w, w < N → tr = p ++ m → Idle w p → .exited w ∉ p → Still w m →
    (∀ x i, .enqueued x ∈ p → i < N → x ∈ s.queue i → Stage (· ≤ i + 1) s w (elapsed m)) ∧ (MustEnd p m → Stage (fun _ => False) s w (elapsed m))

theorem queue_back {N : Nat} {s s' : St} {e : List Ev} {l : Lbl} (hs : step N s l = some (s', e)) {x i : Nat} (hx : x ∈ s'.queue i) :
    x ∈ s.queue i ∨ e = [.enqueued x] := by
  cases shape hs with
  | none e hq hn he hs hf => rw [hq] at hx; exact .inl hx
  | push j hi hq hn => rw [hq, upd_apply] at hx; grind
  | take w j y hi hy hq hn =>
    rw [hq, upd_apply] at hx
    split at hx
    · rename_i h; subst h; exact .inl (List.mem_of_mem_erase hx)
    · exact .inl hx

theorem hist_step {N : Nat} {s s' : St} {tr e : List Ev} {l : Lbl} (hg : Gen N s tr) (hp : Places N s tr) (h : Hist N s tr)
    (hs : step N s l = some (s', e)) : Hist N s' (tr ++ e) := by
  have hg' := gen_step hg hp hs
  have hp' := places_step hg hp hs
  intro p m w hw he hi hx hst
  -- either the step belongs to `m`, or the trace ends with `p`
  have hcut : (∃ m', m = m' ++ e ∧ tr = p ++ m') ∨ (m = [] ∧ tr ++ e = p) := by
    have hl := single hs
    match e, hl with
    | [], _ => exact .inl ⟨m, by simp, by simpa using he⟩
    | [a], _ =>
      rcases List.eq_nil_or_concat m with rfl | ⟨m', b, rfl⟩
      · exact .inr ⟨rfl, by simpa using he⟩
      · rw [List.concat_eq_append, ← List.append_assoc] at he
        have := List.append_inj' he rfl
        refine .inl ⟨m', ?_, this.1⟩
        rw [List.concat_eq_append, this.2]
  rcases hcut with ⟨m', rfl, rfl⟩ | ⟨rfl, rfl⟩
  · obtain ⟨s1, s2⟩ := still_mono hst
    obtain ⟨a, b⟩ := h p m' w hw rfl hi hx s1
    rw [elapsed_append]
    constructor
    · intro x i hxp hiN hxi
      rcases queue_back hs hxi with hxi' | rfl
      · refine stage_task hg hw hiN hxi' (a x i hxp hiN hxi') hs s2 ?_
        intro v hv
        exact (hp'.queued i x hxi).2 v (List.mem_append_right _ hv)
      · -- x is new, so it cannot be in `p`
        have h1 := hp.fresh x (List.mem_append_left _ hxp)
        cases shape hs with
        | none _ hq hn he hs hf => exact absurd List.mem_cons_self (he x)
        | push j hi hq hn => omega
    · intro hm
      have hm' : MustEnd p m' := ⟨hm.1, hm.2.imp_right fun h x hx => h x (by simp only [List.mem_append] at hx ⊢; grind)⟩
      exact stage_end hg hw (done_of_mustEnd hg hp hm') (b hm') hs s2
  · exact ⟨fun x i _ _ _ => stage_zero hg' hi hx, fun _ => stage_zero hg' hi hx⟩

theorem hist {N : Nat} {s : St} {tr : List Ev} (h : (machine N).Reaches s tr) : Hist N s tr := by
  refine Reaches.inv' (M := machine N) (Hist N) ?_ (fun s tr l s' e hr hI hs => hist_step (gen hr).1 (gen hr).2 hI hs) h
  intro p m w hw he hi hx hst
  have : p = [] ∧ m = [] := by simpa using he.symm
  obtain ⟨rfl, rfl⟩ := this
  have hg := (gen (Reaches.init (machine N))).1
  exact ⟨fun x i _ _ _ => stage_zero hg hi hx, fun _ => stage_zero hg hi hx⟩

/-- **C96**: no idle worker lets more than 500 ms pass while a task waits to be started, or before it ends when it has been told to. -/
theorem idle_worker_notices (N : Nat) (s : St) (tr : List Ev) (h : (machine N).Reaches s tr) : NoticesWithin N 500 tr := by
  intro p m w hw hpre hi hx hst hwhy
  obtain ⟨s1, h1⟩ := h.prefix_single (fun _ _ _ _ hs => single hs) hpre
  obtain ⟨hg, hp⟩ := gen h1
  obtain ⟨a, b⟩ := hist h1 p m w hw rfl hi hx hst
  rcases hwhy with ⟨x, hx1, hx2⟩ | hm
  · rcases hp.wait x (List.mem_append_left _ hx1) with ⟨v, hv⟩ | ⟨i, hi, hxi⟩
    · exact absurd hv (hx2 v)
    · exact stage_le hg (a x i hx1 hi hxi)
  · exact stage_le hg (b hm)

/-- Somebody is on the way to the task in queue i. -/
def OnTheWay (i : Nat) (q : Pc) : Prop := q = .head ∨ ∃ k, q = .scan k ∧ k ≤ i + 1

/-- ... or will be woken up. -/
def Coming (N i : Nat) (s : St) : Prop := (∃ w, w < N ∧ OnTheWay i (s.pc w)) ∨ (0 < s.owed ∧ ∃ w t, w < N ∧ s.pc w = .nap t)

theorem coming_step {N i : Nat} {s s' : St} {e : List Ev} {l : Lbl} (hi : i < N) (hq : s.queue i ≠ []) (h : Coming N i s)
    (hs : step N s l = some (s', e)) (h1 : ∀ v x, .started v x ∉ e) (h2 : ∀ v, .exited v ∉ e) :
    elapsed e = 0 ∧ s'.queue i ≠ [] ∧ Coming N i s' := by
  have hq' : s'.queue i ≠ [] := by
    cases shape hs with
    | none e hq1 hn he hs hf => rw [hq1]; exact hq
    | push j hj hq1 hn => rw [hq1, upd_apply]; split <;> simp_all
    | take w j y hi hy hq1 hn => exact absurd List.mem_cons_self (h1 w y)
  refine (and_left_comm).1 ⟨hq', ?_⟩
  rcases h with ⟨w, hw, ho⟩ | ⟨ho, w, t, hw, ht⟩
  · have key : elapsed e = 0 ∧ OnTheWay i (s'.pc w) := by
      have ht : target w (i + 1) = i := rfl
      have h1 := h1 w
      have h2 := h2 w
      clear hq'
      cases l
      case tick =>
        simp only [step] at hs
        split at hs <;> simp only [Option.some.injEq, Prod.mk.injEq, reduceCtorEq] at hs
        rename_i hc
        have := List.all_eq_true.1 hc.2.2 w (by simpa using hw)
        rcases ho with ho | ⟨k, ho, _⟩ <;> simp [ho, patient] at this
      case notifyAll =>
        simp only [step] at hs
        split at hs <;> simp only [Option.some.injEq, Prod.mk.injEq, reduceCtorEq] at hs
        obtain ⟨rfl, rfl⟩ := hs
        simp only [wakeAll]
        rcases ho with ho | ⟨k, ho, hk⟩
        · simp [ho, OnTheWay, elapsed]
        · simp [ho, OnTheWay, elapsed, hk]
      all_goals
        simp only [step] at hs
        (repeat' split at hs) <;>
        simp only [Option.some.injEq, Prod.mk.injEq, reduceCtorEq] at hs <;> obtain ⟨rfl, rfl⟩ := hs <;>
        simp [elapsed, upd_apply, OnTheWay] at * <;>
        grind
    exact ⟨key.1, .inl ⟨w, hw, key.2⟩⟩
  · clear hq'
    cases l
    case tick =>
      simp only [step] at hs
      split at hs <;> simp only [Option.some.injEq, Prod.mk.injEq, reduceCtorEq] at hs
      omega
    case notifyAll =>
      simp only [step] at hs
      split at hs <;> simp only [Option.some.injEq, Prod.mk.injEq, reduceCtorEq] at hs
      obtain ⟨rfl, rfl⟩ := hs
      exact ⟨rfl, .inl ⟨w, hw, .inl (by simp [wakeAll, ht])⟩⟩
    case notify u =>
      simp only [step] at hs
      (repeat' split at hs) <;> simp only [Option.some.injEq, Prod.mk.injEq, reduceCtorEq] at hs
      rename_i hc _ _ _
      obtain ⟨rfl, rfl⟩ := hs
      exact ⟨rfl, .inl ⟨u, hc.2, .inl (by simp [upd_apply])⟩⟩
    case notifyNobody =>
      simp only [step] at hs
      split at hs <;> simp only [Option.some.injEq, Prod.mk.injEq, reduceCtorEq] at hs
      rename_i hc
      have := List.all_eq_true.1 hc.2 w (by simpa using hw)
      simp [ht] at this
    all_goals
      simp only [step] at hs
      (repeat' split at hs) <;>
      simp only [Option.some.injEq, Prod.mk.injEq, reduceCtorEq] at hs <;> obtain ⟨rfl, rfl⟩ := hs <;>
      simp only [Coming, OnTheWay, upd_apply, elapsed] <;>
      refine ⟨by simp, ?_⟩ <;> grind

/-- **C96**: if some worker sleeps when a task is put into the pool, the time does not go on before a task is started (or a worker ends because of quick_stop()). -/
theorem sleeping_worker_is_woken (N i : Nat) (s s1 s2 : St) (e m : List Ev) (ls : List Lbl) (w t : Nat) (hw : w < N) (ht : s.pc w = .nap t)
    (h1 : step N s (.push i) = some (s1, e)) (h2 : (machine N).runFrom s1 ls = some (s2, m))
    (hs : ∀ v x, .started v x ∉ m) (hx : ∀ v, .exited v ∉ m) : elapsed m = 0 := by
  simp only [step] at h1
  split at h1 <;> simp only [Option.some.injEq, Prod.mk.injEq, reduceCtorEq] at h1
  rename_i hi
  obtain ⟨rfl, rfl⟩ := h1
  have := runFrom_inv (machine N) (fun (s : St) (m : List Ev) => (∀ v x, .started v x ∉ m) → (∀ v, .exited v ∉ m) → elapsed m = 0 ∧ s.queue i ≠ [] ∧ Coming N i s)
    (fun s tr l s' e hI hst h1 h2 => by
      simp only [List.mem_append, not_or] at h1 h2
      obtain ⟨a, b, c⟩ := hI (fun v x => (h1 v x).1) (fun v => (h2 v).1)
      obtain ⟨a', b', c'⟩ := coming_step hi b c hst (fun v x => (h1 v x).2) (fun v => (h2 v).2)
      exact ⟨by rw [elapsed_append, a, a'], b', c'⟩) ls
    { s with queue := upd s.queue i (s.queue i ++ [s.next]), next := s.next + 1, owed := s.owed + 1 } [] s2 m
    (fun _ _ => ⟨rfl, by simp [upd_apply], .inr ⟨by simp, w, t, hw, ht⟩⟩) h2
  exact (this (by simpa using hs) (by simpa using hx)).1

/-- `s'` can be reached from `s` without time passing, and only worker `w` has moved (or only the owed notifications were sent). -/
structure Settled (N : Nat) (s s' : St) (w : Nat) : Prop where
  run : ∃ ls m, (machine N).runFrom s ls = some (s', m) ∧ .tick ∉ m
  pat : patient s'.now (s'.pc w) = true
  others : ∀ v, v ≠ w → s'.pc v = s.pc v
  now : s'.now = s.now
  owed : s'.owed = s.owed
  all : s'.owedAll = s.owedAll

/-- Only worker w has moved. -/
def moved (s : St) (w : Nat) (q : Nat → List Nat) (c : Pc) : St := { s with queue := q, pc := upd s.pc w c }

theorem settled_cons {N : Nat} {s s' : St} {w : Nat} {l : Lbl} {e : List Ev} (q : Nat → List Nat) (c : Pc) (hs : step N s l = some (moved s w q c, e))
    (he : .tick ∉ e) (h : Settled N (moved s w q c) s' w) : Settled N s s' w := by
  obtain ⟨⟨ls, m, hr, hm⟩, a, b, n, d, f⟩ := h
  refine ⟨⟨l :: ls, e ++ m, ?_, by simp [he, hm]⟩, a, fun v hv => (b v hv).trans (by simp [moved, upd_apply, hv]), n, d, f⟩
  have hs' : (machine N).step s l = some (moved s w q c, e) := hs
  simp [runFrom, hs', hr]

theorem settled_one {N : Nat} {s : St} {w : Nat} {l : Lbl} {e : List Ev} (q : Nat → List Nat) (c : Pc) (hs : step N s l = some (moved s w q c, e))
    (he : .tick ∉ e) (hp : patient s.now c = true) : Settled N s (moved s w q c) w :=
  settled_cons q c hs he ⟨⟨[], [], rfl, by simp⟩, by simpa [moved, upd_apply] using hp, fun _ _ => rfl, rfl, rfl, rfl⟩

theorem settle_again {N : Nat} {s : St} {w : Nat} (hw : w < N) (h : s.pc w = .again) : ∃ s', Settled N s s' w := by
  by_cases hd : done N s = true
  · exact ⟨_, settled_one (l := .work w) (e := [.exited w]) s.queue .gone (by simp [step, hw, h, hd, moved]) (by simp) rfl⟩
  · exact ⟨_, settled_cons (l := .work w) (e := []) s.queue .sleepy (by simp [step, hw, h, hd, moved]) (by simp)
      (settled_one (l := .sleep w 1000) (e := []) s.queue (.nap (s.now + 500)) (by simp [step, hw, moved, napTime, latch]) (by simp) (by simp [patient, moved]))⟩

theorem settle_scan {N : Nat} {w : Nat} (hw : w < N) : ∀ (n k : Nat), N + 1 - k ≤ n → ∀ s : St, s.pc w = .scan k → ∃ s', Settled N s s' w := by
  intro n
  induction n with
  | zero =>
    intro k hk s h
    have hk' : ¬ k ≤ N := by omega
    obtain ⟨s', hs'⟩ := settle_again (s := moved s w s.queue .again) hw (by simp [moved])
    exact ⟨s', settled_cons (l := .work w) (e := []) s.queue .again (by simp [step, hw, h, hk', moved]) (by simp) hs'⟩
  | succ n ih =>
    intro k hk s h
    by_cases hk' : k ≤ N
    · cases hq : s.queue (target w k) with
      | nil =>
        obtain ⟨s', hs'⟩ := ih (k + 1) (by omega) (moved s w s.queue (.scan (k + 1))) (by simp [moved])
        exact ⟨s', settled_cons (l := .work w) (e := []) s.queue (.scan (k + 1)) (by simp [step, hw, h, hk', hq, moved]) (by simp) hs'⟩
      | cons x r =>
        exact ⟨_, settled_one (l := .take w x) (e := [.started w x]) (upd s.queue (target w k) r) (.run x) (by simp [step, hw, h, hk', hq, moved]) (by simp) rfl⟩
    · obtain ⟨s', hs'⟩ := settle_again (s := moved s w s.queue .again) hw (by simp [moved])
      exact ⟨s', settled_cons (l := .work w) (e := []) s.queue .again (by simp [step, hw, h, hk', moved]) (by simp) hs'⟩

theorem settle_head {N : Nat} {w : Nat} (hw : w < N) (s : St) (h : s.pc w = .head) : ∃ s', Settled N s s' w := by
  by_cases hd : done N s = true
  · exact ⟨_, settled_one (l := .work w) (e := [.exited w]) s.queue .gone (by simp [step, hw, h, hd, moved]) (by simp) rfl⟩
  · obtain ⟨s', hs'⟩ := settle_scan hw (N + 1) 0 (by omega) (moved s w s.queue (.scan 0)) (by simp [moved])
    exact ⟨s', settled_cons (l := .work w) (e := []) s.queue (.scan 0) (by simp [step, hw, h, hd, moved]) (by simp) hs'⟩

/-- A worker is never stuck: it gets to sleep, to a task, or to its end. -/
theorem settle {N : Nat} {w : Nat} (hw : w < N) (s : St) : ∃ s', Settled N s s' w := by
  have stay : patient s.now (s.pc w) = true → ∃ s', Settled N s s' w := fun h => ⟨s, ⟨[], [], rfl, by simp⟩, h, fun _ _ => rfl, rfl, rfl, rfl⟩
  cases h : s.pc w with
  | head => exact settle_head hw s h
  | scan k => exact settle_scan hw _ k (Nat.le_refl _) s h
  | again => exact settle_again hw h
  | sleepy =>
    exact ⟨_, settled_one (l := .sleep w 1000) (e := []) s.queue (.nap (s.now + 500)) (by simp [step, hw, h, moved, napTime, latch]) (by simp) (by simp [patient])⟩
  | nap t =>
    by_cases ht : s.now < t
    · exact stay (by simp [h, patient, ht])
    · obtain ⟨s', hs'⟩ := settle_head hw (moved s w s.queue .head) (by simp [moved])
      exact ⟨s', settled_cons (l := .work w) (e := []) s.queue .head (by simp [step, hw, h, moved]; omega) (by simp) hs'⟩
  | run x => exact stay (by simp [h, patient])
  | gone => exact stay (by simp [h, patient])

theorem settle_all (N : Nat) : ∀ n, n ≤ N → ∀ s : St, ∃ s' ls m, (machine N).runFrom s ls = some (s', m) ∧ .tick ∉ m ∧
    (∀ v, v < n → patient s'.now (s'.pc v) = true) ∧ s'.owed = s.owed ∧ s'.owedAll = s.owedAll := by
  intro n
  induction n with
  | zero => intro _ s; exact ⟨s, [], [], rfl, by simp, by simp, rfl, rfl⟩
  | succ n ih =>
    intro hn s
    obtain ⟨s1, l1, m1, r1, t1, p1, o1, a1⟩ := ih (by omega) s
    obtain ⟨s2, ⟨⟨l2, m2, r2, t2⟩, p2, q2, n2, o2, a2⟩⟩ := settle (N := N) (w := n) (by omega) s1
    refine ⟨s2, l1 ++ l2, m1 ++ m2, by simp [runFrom_append, r1, r2], by simp [t1, t2], ?_, o2.trans o1, a2.trans a1⟩
    intro v hv
    by_cases hvn : v = n
    · subst hvn; exact p2
    · rw [q2 v hvn, n2]; exact p1 v (by omega)

theorem pay (N : Nat) : ∀ n (s : St), s.owed = n → ∃ s' ls m, (machine N).runFrom s ls = some (s', m) ∧ .tick ∉ m ∧ s'.owed = 0 ∧ s'.owedAll = s.owedAll := by
  intro n
  induction n with
  | zero => intro s h; exact ⟨s, [], [], rfl, by simp, h, rfl⟩
  | succ n ih =>
    intro s h
    have : ∃ l s1, step N s l = some (s1, []) ∧ s1.owed = n ∧ s1.owedAll = s.owedAll := by
      by_cases hx : ∃ w t, w < N ∧ s.pc w = .nap t
      · obtain ⟨w, t, hw, ht⟩ := hx
        exact ⟨.notify w, { s with pc := upd s.pc w .head, owed := s.owed - 1 }, by simp [step, hw, ht, h], by simp [h], rfl⟩
      · refine ⟨.notifyNobody, { s with owed := s.owed - 1 }, ?_, by simp [h], rfl⟩
        simp only [step]
        rw [if_pos]
        refine ⟨by omega, List.all_eq_true.2 fun w hw => ?_⟩
        cases hp : s.pc w with
        | nap t => exact absurd ⟨w, t, by simpa using hw, hp⟩ hx
        | _ => rfl
    obtain ⟨l, s1, hs, ho, ha⟩ := this
    obtain ⟨s', ls, m, hr, ht, h0, h1⟩ := ih s1 ho
    have hs' : (machine N).step s l = some (s1, []) := hs
    exact ⟨s', l :: ls, m, by simp [runFrom, hs', hr], ht, h0, h1.trans ha⟩

/-- The bounds are not due to a clock that cannot go on: from every reachable state the pool gets, without time passing, to a state in which time can pass, whatever the
tasks do. -/
theorem time_can_pass (N : Nat) (s : St) (tr : List Ev) (h : (machine N).Reaches s tr) :
    ∃ ls s' m, (machine N).runFrom s ls = some (s', m) ∧ .tick ∉ m ∧ ∃ s'' e, (machine N).step s' .tick = some (s'', e) := by
  have hreq : s.owedAll = true → s.stopReq = true := by
    refine Reaches.inv (M := machine N) (fun s _ => s.owedAll = true → s.stopReq = true) (by simp [machine, init]) ?_ h
    intro s tr l s' e hI hs
    cases l <;> simp only [machine, step] at hs <;> (repeat' split at hs) <;>
      simp only [Option.some.injEq, Prod.mk.injEq, reduceCtorEq] at hs <;> obtain ⟨rfl, rfl⟩ := hs <;> simp_all
  have h0 : ∃ s0 l0, (machine N).runFrom s l0 = some (s0, []) ∧ s0.owedAll = false := by
    cases ha : s.owedAll with
    | false => exact ⟨s, [], rfl, ha⟩
    | true => exact ⟨{ s with pc := wakeAll s.pc, owedAll := false }, [.notifyAll], by simp [runFrom, machine, step, hreq ha], rfl⟩
  obtain ⟨s0, l0, r0, a0⟩ := h0
  obtain ⟨s1, l1, m1, r1, t1, o1, a1⟩ := pay N _ s0 rfl
  obtain ⟨s2, l2, m2, r2, t2, p2, o2, a2⟩ := settle_all N N (Nat.le_refl _) s1
  refine ⟨l0 ++ (l1 ++ l2), s2, m1 ++ m2, by simp [runFrom_append, r0, r1, r2], by simp [t1, t2], ?_⟩
  refine ⟨{ s2 with now := s2.now + 1 }, [.tick], ?_⟩
  simp only [machine, step]
  rw [if_pos]
  exact ⟨o2.trans o1, a2.trans (a1.trans a0), List.all_eq_true.2 fun w hw => p2 w (by simpa using hw)⟩

/-- The labels of a run in which the notification is lost: the worker of a pool of one finds nothing, then a task is put into the pool and nobody is there to be notified,
then the worker goes to sleep. -/
def lostLabels (n : Nat) : List Lbl :=
  [.work 0, .work 0, .work 0, .work 0, .work 0, .push 0, .notifyNobody, .sleep 0 1000] ++ List.replicate n .tick

theorem ticks (n : Nat) : ∀ s : St, s.owed = 0 → s.owedAll = false → (∀ t, s.pc 0 = .nap t → s.now + n ≤ t) → (∃ t, s.pc 0 = .nap t) →
    (machine 1).runFrom s (List.replicate n .tick) = some ({ s with now := s.now + n }, List.replicate n .tick) := by
  induction n with
  | zero => intro s _ _ _ _; rfl
  | succ n ih =>
    intro s h1 h2 h3 ⟨t, ht⟩
    have := h3 t ht
    have hst : (machine 1).step s .tick = some ({ s with now := s.now + 1 }, [.tick]) := by
      simp only [machine, step, h1, h2, List.range_one, List.all_cons, List.all_nil, ht, patient]
      simp
      omega
    rw [List.replicate_succ, runFrom, hst]
    simp only
    rw [ih { s with now := s.now + 1 } h1 h2 (fun t' ht' => by have := h3 t' ht'; simp only; omega) ⟨t, ht⟩]
    simp only [List.replicate_succ, List.cons_append, List.nil_append]
    simp [Nat.add_assoc, Nat.add_comm 1 n]

/-- The state after it. -/
def lostState : St :=
  { queue := upd (fun _ => []) 0 [0], pc := upd (upd (upd (upd (upd (upd (fun _ => .head) 0 (.scan 0)) 0 (.scan 1)) 0 (.scan 2)) 0 .again) 0 .sleepy) 0 (.nap 500),
    owed := 0, owedAll := false, stopReq := false, stopNow := false, next := 1, now := 0 }

theorem slow_not (n d : Nat) (h : d < n) : ¬ NoticesWithin 1 d (.enqueued 0 :: List.replicate n .tick) := by
  intro hc
  have := hc [.enqueued 0] (List.replicate n .tick) 0 (by omega) (List.prefix_refl _) (by simp [Idle]) (by simp) (by simp [Still, List.mem_replicate])
    (.inl ⟨0, by simp, by simp [List.mem_replicate]⟩)
  simp [elapsed, List.count_replicate] at this
  omega

/-- **C96, refuted**: a worker that is about to go to sleep misses the notification, because `m_lock` is not taken for it: the task waits 500 ms although the only worker
is idle. -/
theorem wake_up_lost_refuted : ∃ s tr, (machine 1).Reaches s tr ∧ ¬ NoticesWithin 1 499 tr := by
  refine ⟨{ lostState with now := 500 }, .enqueued 0 :: List.replicate 500 .tick, ⟨lostLabels 500, ?_⟩, ?_⟩
  · have h0 : (machine 1).runFrom (machine 1).init [.work 0, .work 0, .work 0, .work 0, .work 0, .push 0, .notifyNobody, .sleep 0 1000] =
        some (lostState, [.enqueued 0]) := by rfl
    rw [run, lostLabels, runFrom_append, h0]
    simp only [Option.bind_some]
    rw [ticks 500 lostState rfl rfl (by rintro t ⟨⟩; simp [lostState]) ⟨500, rfl⟩]
    rfl
  · exact slow_not 500 499 (by omega)

/-- Concrete runs: a sleeping worker is woken up for a task and later ends because of stop(); the second worker sleeps out its nap of 3 ms. -/
theorem nap_nontrivial : ((machine 2).run
    [.work 0, .work 0, .work 0, .work 0, .work 0, .work 0, .sleep 0 700, .work 1, .work 1, .work 1, .work 1, .work 1, .work 1, .sleep 1 3, .tick, .tick,
     .push 1, .notify 0, .work 0, .work 0, .work 0, .take 0 0, .tick, .work 1, .finish 0, .reqStop, .notifyAll, .work 1, .work 0]).map (·.2) =
    some [.tick, .tick, .enqueued 0, .started 0 0, .tick, .finished 0 0, .stopRequested, .exited 1, .exited 0] := by decide

end Verif.Nap
