import Verif.Uring.More
import Mathlib.Data.List.Infix
/-!
# C98: operations are started and their completions delivered

What a batch hands to io_uring_submit may be taken only in part (the kernel stops at an entry it refuses; the return value of io_uring_submit is ignored, iouring.cc 116),
and the completion ring has 2048 entries; what does not fit stays with the kernel until io_uring_submit is called again (io_uring_cq_ready, iouring.cc 75, sees the ring only).
-/

namespace Verif.Uring

def doneOf (tr : List Ev) : List Nat :=
  tr.filterMap fun | .completed b _ _ => if endings b tr = 0 then some b else none | _ => none

def openOf (tr : List Ev) : List Nat :=
  tr.flatMap fun | .submitted _ b n _ _ => if endings b tr = 0 then List.replicate n b else [] | _ => []

theorem openOf_length (tr : List Ev) : (openOf tr).length = openOps tr := by
  have : ∀ t : List Ev, (t.flatMap fun | .submitted _ b n _ _ => if endings b tr = 0 then List.replicate n b else [] | _ => []).length =
      (t.map fun | .submitted _ b n _ _ => if endings b tr = 0 then n else 0 | _ => 0).sum := by
    intro t
    induction t with
    | nil => rfl
    | cons a t ih =>
      simp only [List.flatMap_cons, List.length_append, List.map_cons, List.sum_cons, ih]
      cases a <;> simp
      split <;> simp
  exact this tr

theorem openOf_count {tr : List Ev} {c b n k q : Nat} (h : Ev.submitted c b n k q ∈ tr) (he : endings b tr = 0) :
    n ≤ (openOf tr).count b := by
  have : ∀ t : List Ev, Ev.submitted c b n k q ∈ t →
      n ≤ (t.flatMap fun | .submitted _ b n _ _ => if endings b tr = 0 then List.replicate n b else [] | _ => []).count b := by
    intro t
    induction t with
    | nil => simp
    | cons a t ih =>
      intro hm
      simp only [List.flatMap_cons, List.count_append]
      rcases List.mem_cons.1 hm with rfl | hm
      · simp [he]
      · have := ih hm; omega
  exact this tr h

/-- The completions that have not been processed belong to operations of executions that have not ended. -/
theorem cq_le_openOps {s : St} {tr : List Ev} (h : Inv s tr) : s.cq.length ≤ openOps tr := by
  rw [← openOf_length, ← List.length_map (f := Cqe.b)]
  refine List.Subperm.length_le (List.subperm_ext_iff.2 ?_)
  intro b hb
  obtain ⟨x, hx, rfl⟩ := List.mem_map.1 hb
  obtain ⟨o, ho, -, hob⟩ := h.ownC x hx
  obtain ⟨⟨q, hq⟩, -, h3, -⟩ := h.live o ho
  have ht := h.total o.b
  have hc : 0 < (s.ops.map Op.b).count o.b := List.count_pos_iff.2 (List.mem_map.2 ⟨o, ho, rfl⟩)
  have he : endings o.b tr = 0 := by split at ht <;> omega
  have := openOf_count hq he
  rw [← hob]
  have h4 : (s.cq.map Cqe.b).count o.b = cqN s o.b := by
    simp only [cqN, List.count, List.countP_map]; congr
  omega

theorem caught_up_vis {s : St} {tr : List Ev} (h : machine.Reaches s tr) (hp : Proper tr) (hc : CaughtUp tr) : s.vis = s.cq.length := by
  revert hp hc
  refine Machine.Reaches.inv' (M := machine) (fun s tr => Proper tr → CaughtUp tr → s.vis = s.cq.length) (fun _ _ => rfl) ?_ h
  clear h s tr
  rintro s tr l s' e hr ih hs hp ⟨a, b, ht, hno, ha⟩
  have hpt := hp.mono (List.prefix_append tr e)
  have hi' := inv_of_reaches (hr.step hs) hp
  obtain ⟨v1, v2, v3⟩ := vis_inv hr
  change step s l = some (s', e) at hs
  -- the last submission, if any, is in the past
  have past : ∀ b', tr = a ++ b' → b = b' ++ e → s'.vis = s'.cq.length := by
    rintro b' rfl rfl
    have hv := ih hpt ⟨a, b', rfl, hno.left, ha⟩
    have hne : ∀ i, Ev.overflowed i ∉ e := fun i hi => hno i (List.mem_append_right _ hi)
    clear ih hpt hp ha hno hi' hr ht
    cases l <;> simp only [step] at hs <;> (repeat' split at hs) <;>
      simp only [Option.some.injEq, Prod.mk.injEq, reduceCtorEq] at hs <;> obtain ⟨rfl, rfl⟩ := hs <;> grind
  rcases List.append_eq_append_iff.1 ht with ⟨x, rfl, hx⟩ | ⟨x, rfl, hx⟩
  · -- a = tr ++ x, e = x ++ b
    rcases x with _ | ⟨y, x⟩
    · exact past [] (by simp) (by simpa using hx.symm)
    rcases ha with ha | ⟨ho, a', c, i, n, k, q, ha⟩
    · simp at ha
    have hm : Ev.submitted c i n k q ∈ y :: x := by
      have : (tr ++ y :: x).getLast? = (a' ++ [Ev.submitted c i n k q]).getLast? := by rw [ha]
      simp only [List.getLast?_append, List.getLast?_singleton, Option.some_or] at this
      rw [List.getLast?_eq_some_getLast (by simp)] at this
      simp only [Option.some_or, Option.some.injEq] at this
      rw [← this]; exact List.getLast_mem _
    have hme : Ev.submitted c i n k q ∈ e := by rw [hx]; exact List.mem_append_left _ hm
    cases l
    case exec c0 r acc =>
      simp only [step] at hs
      (repeat' split at hs) <;> simp only [Option.some.injEq, Prod.mk.injEq, reduceCtorEq] at hs <;> obtain ⟨rfl, rfl⟩ := hs
      · exact absurd (by simp) hi'.noub
      · simp at hme
      · exact absurd (by simp) hi'.noub
      · have hb : b = [] ∧ x = [] := by
          have := congrArg List.length hx
          simp only [List.length_cons, List.length_append, List.length_nil] at this
          exact ⟨List.eq_nil_of_length_eq_zero (by omega), List.eq_nil_of_length_eq_zero (by omega)⟩
        obtain ⟨rfl, rfl⟩ := hb
        have hl := cq_le_openOps hi'
        simp only [List.append_nil] at hx
        rw [← hx] at ho
        dsimp only at hl ⊢
        simp only [cqEntries]
        omega
    all_goals
      exfalso
      simp only [step] at hs
      clear hp hpt ih hi' past ht hx ha ho
      (repeat' split at hs) <;> simp only [Option.some.injEq, Prod.mk.injEq, reduceCtorEq] at hs <;>
        (obtain ⟨rfl, rfl⟩ := hs; simp at hme)
  · exact past x rfl hx

/-- **C98.**  A poll that begins when the loop is caught up finds no completion outside of the ring. -/
theorem poll_out_zero {s : St} {tr : List Ev} (h : machine.Reaches s tr) (hp : Proper tr) :
    ∀ p hit out, p ++ [.pollBegan hit out] <+: tr → CaughtUp p → out = 0 := by
  revert hp
  refine Machine.Reaches.inv' (M := machine) (fun _ tr => Proper tr → ∀ p hit out, p ++ [.pollBegan hit out] <+: tr → CaughtUp p → out = 0) ?_ ?_ h
  · intro _ p hit out hh; exact absurd hh not_concat_prefix_nil
  clear h s tr
  intro s tr l s' e hr ih hs hp p hit out hh hc
  have hpt := hp.mono (List.prefix_append tr e)
  rcases concat_prefix_append_cases hh with hh | ⟨q, hq, rfl⟩
  · exact ih hpt p hit out hh hc
  change step s l = some (s', e) at hs
  cases l
  case pollBegin =>
    simp only [step] at hs
    (repeat' split at hs) <;> simp only [Option.some.injEq, Prod.mk.injEq, reduceCtorEq] at hs <;> obtain ⟨rfl, rfl⟩ := hs
    · simp at hq
    · have : q = [] ∧ out = s.cq.length := by
        rcases q with _ | ⟨y, q⟩
        · simp at hq; exact ⟨rfl, hq.2⟩
        · simp only [List.cons_append, List.cons_prefix_cons] at hq
          obtain ⟨-, hq⟩ := hq
          obtain ⟨-, hq⟩ := concat_prefix_cons hq (by simp)
          simp at hq
      obtain ⟨rfl, rfl⟩ := this
      have := caught_up_vis hr hpt (by simpa using hc)
      omega
    · obtain ⟨rfl, he⟩ := concat_prefix_cons hq (by simp)
      simp only [Ev.pollBegan.injEq] at he
      have := caught_up_vis hr hpt (by simpa using hc)
      omega
  all_goals
    exfalso
    have hm : Ev.pollBegan hit out ∈ e := hq.subset (by simp)
    simp only [step] at hs
    clear hp ih hh hq hc hpt
    (repeat' split at hs) <;> simp only [Option.some.injEq, Prod.mk.injEq, reduceCtorEq] at hs <;>
      (obtain ⟨rfl, rfl⟩ := hs; simp at hm)

/-- **C98 (partial).**  A poll that began when all `n` results of an execution had been delivered leaves it ended, if since the beginning - or since a submission with at most
2048 operations in flight - no completion has found the ring full.  Missing: `many_completions_strand_refuted`. -/
theorem caught_up_poll_resumes_partial (s : St) (tr : List Ev) (h : machine.Reaches s tr) (hp : Proper tr)
    (p q : List Ev) (hit : Bool) (out : Nat) (hc : CaughtUp p) (hh : p ++ .pollBegan hit out :: q ++ [.polled] <+: tr) (hq : ∀ x o, Ev.pollBegan x o ∉ q)
    (c b n k0 q0 : Nat) (hb : Ev.submitted c b n k0 q0 ∈ p) (hfull : (results b p).length = n) :
    endings b (p ++ .pollBegan hit out :: q) = 1 := by
  have ho : out = 0 := by
    refine poll_out_zero h hp p hit out (List.IsPrefix.trans ?_ hh) hc
    exact ⟨q ++ [.polled], by simp⟩
  subst ho
  exact uring_poll_resumes s tr h hp p q hit hh hq c b n k0 q0 hb hfull

/-- **C98.**  If there are never more than 2048 operations in flight in one worker, its completion ring is never full. -/
theorem ring_never_full (s : St) (tr : List Ev) (h : machine.Reaches s tr) (hp : Proper tr)
    (hfew : ∀ p, p <+: tr → openOps p ≤ 2048) : NoOverflow tr := by
  revert hp hfew
  refine Machine.Reaches.inv' (M := machine) (fun _ tr => Proper tr → (∀ p, p <+: tr → openOps p ≤ 2048) → NoOverflow tr) ?_ ?_ h
  · intro _ _ b; simp
  clear h s tr
  intro s tr l s' e hr ih hs hp hfew b hb
  have hpt := hp.mono (List.prefix_append tr e)
  have hno := ih hpt (fun p hh => hfew p (hh.trans (List.prefix_append tr e)))
  rcases List.mem_append.1 hb with hb1 | hb1
  · exact hno b hb1
  clear hb
  have hi' := inv_of_reaches (hr.step hs) hp
  have hv := caught_up_vis hr hpt ⟨[], tr, rfl, hno, Or.inl rfl⟩
  have hl := cq_le_openOps hi'
  have hf := hfew _ (List.prefix_refl _)
  change step s l = some (s', e) at hs
  cases l
  case complete j res =>
    simp only [step] at hs
    (repeat' split at hs) <;> simp only [Option.some.injEq, Prod.mk.injEq, reduceCtorEq] at hs <;> obtain ⟨rfl, rfl⟩ := hs
    · simp at hb1
    · rename_i hfull
      simp only [List.length_append, List.length_cons, List.length_nil] at hl
      have : s.cq.length < cqEntries := by simp only [cqEntries]; omega
      exact hfull ⟨hv, by omega⟩
  all_goals
    simp only [step] at hs
    clear hp hi' hl hf hfew hpt
    (repeat' split at hs) <;> simp only [Option.some.injEq, Prod.mk.injEq, reduceCtorEq] at hs <;>
      (obtain ⟨rfl, rfl⟩ := hs; simp at hb1)

/-- **C98.**  If there are never more than 2048 operations in flight in one worker: a poll that began when all `n` results of an execution had been delivered
leaves it ended. -/
theorem few_ops_poll_resumes (s : St) (tr : List Ev) (h : machine.Reaches s tr) (hp : Proper tr)
    (hfew : ∀ p, p <+: tr → openOps p ≤ 2048)
    (p q : List Ev) (hit : Bool) (out : Nat) (hh : p ++ .pollBegan hit out :: q ++ [.polled] <+: tr) (hq : ∀ x o, Ev.pollBegan x o ∉ q)
    (c b n k0 q0 : Nat) (hb : Ev.submitted c b n k0 q0 ∈ p) (hfull : (results b p).length = n) :
    endings b (p ++ .pollBegan hit out :: q) = 1 := by
  refine caught_up_poll_resumes_partial s tr h hp p q hit out ⟨[], p, rfl, ?_, Or.inl rfl⟩ hh hq c b n k0 q0 hb hfull
  intro b hb
  refine ring_never_full s tr h hp hfew b (hh.subset ?_)
  simp [hb]

/-- Something of execution `b` waits for the next io_uring_submit. -/
def Held (s : St) (b : Nat) : Prop := s.dead = true ∨ (∃ x ∈ s.cq.drop s.vis, x.b = b) ∨ ∃ x ∈ s.sq, x.b = b

theorem held_step {s s' : St} {tr e : List Ev} {l : Lbl} {b : Nat} (hr : machine.Reaches s tr) (hp : Proper (tr ++ e)) (hh : Held s b)
    (hs : step s l = some (s', e)) (hn : ¬ Submits e) : Held s' b ∧ ∀ c r, Ev.resumed c b r ∉ e := by
  have hi := inv_of_reaches hr (hp.mono (List.prefix_append tr e))
  obtain ⟨v1, v2, -⟩ := vis_inv hr
  cases l
  case deal =>
    simp only [step] at hs
    split at hs
    · rename_i hdead
      split at hs
      · rename_i k hk
        have hk := v2 _ hk
        have hh : (∃ x ∈ s.cq.drop s.vis, x.b = b) ∨ ∃ x ∈ s.sq, x.b = b := by
          rcases hh with hh | hh
          · rw [hdead] at hh; simp at hh
          · exact hh
        split at hs
        · rename_i hcq
          rw [hcq] at v1; simp at v1; omega
        · rename_i x rest hcq
          have hd : ∀ y, y ∈ s.cq.drop s.vis ↔ y ∈ rest.drop (s.vis - 1) := by
            intro y
            rw [hcq, show s.vis = (s.vis - 1) + 1 by omega]; simp
          split at hs
          · simp only [Option.some.injEq, Prod.mk.injEq] at hs; obtain ⟨rfl, rfl⟩ := hs
            exact ⟨Or.inl rfl, by simp⟩
          · rename_i o hfind
            have hoc : o.c = x.c := by have := List.find?_some hfind; simpa using this
            have ho : o ∈ s.ops := List.mem_of_find?_eq_some hfind
            have hob : o.b = x.b := by
              obtain ⟨o', ho', h1, h2⟩ := hi.ownC x (by simp [hcq])
              have : o' = o := List.inj_on_of_nodup_map hi.ck ho' ho (h1.trans hoc.symm)
              subst this; exact h2
            obtain ⟨-, -, m2, -⟩ := hi.live o ho
            have hnew : ∀ s2 : St, s2.cq = rest → s2.vis = s.vis - 1 → s2.sq = s.sq → Held s2 b := by
              intro s2 h1 h2 h3
              rcases hh with ⟨y, hy, hyb⟩ | ⟨y, hy, hyb⟩
              · exact Or.inr (Or.inl ⟨y, by rw [h1, h2]; exact (hd y).1 hy, hyb⟩)
              · exact Or.inr (Or.inr ⟨y, by rw [h3]; exact hy, hyb⟩)
            split at hs <;> simp only [Option.some.injEq, Prod.mk.injEq] at hs <;> obtain ⟨rfl, rfl⟩ := hs
            · rename_i hfull
              refine ⟨hnew _ rfl rfl rfl, ?_⟩
              intro c r hm
              simp only [List.mem_singleton, Ev.resumed.injEq] at hm
              obtain ⟨-, hb, -⟩ := hm
              simp only [cqN, kernN, sqN, hcq, List.countP_cons, hob, beq_self_eq_true, if_true] at m2
              rcases hh with ⟨y, hy, hyb⟩ | ⟨y, hy, hyb⟩
              · have : 0 < rest.countP (·.b == x.b) :=
                  List.countP_pos_iff.2 ⟨y, List.mem_of_mem_drop ((hd y).1 hy), by simp [hyb, hb, hob]⟩
                omega
              · have : 0 < s.sq.countP (·.b == x.b) := List.countP_pos_iff.2 ⟨y, hy, by simp [hyb, hb, hob]⟩
                omega
            · exact ⟨hnew _ rfl rfl rfl, by simp⟩
      · simp at hs
    · simp at hs
  case complete j res =>
    simp only [step] at hs
    (repeat' split at hs) <;> simp only [Option.some.injEq, Prod.mk.injEq, reduceCtorEq] at hs <;> obtain ⟨rfl, rfl⟩ := hs
    all_goals
      rename_i hv
      refine ⟨?_, by simp⟩
      rcases hh with hh | ⟨y, hy, hyb⟩ | hh
      · exact Or.inl hh
      · first
        | (rw [hv.1] at hy; simp at hy)
        | exact Or.inr (Or.inl ⟨y, by dsimp only; rw [List.drop_append]; exact List.mem_append_left _ hy, hyb⟩)
      · exact Or.inr (Or.inr hh)
  case destroy =>
    simp only [step] at hs
    split at hs <;> simp only [Option.some.injEq, Prod.mk.injEq, reduceCtorEq] at hs
    obtain ⟨rfl, rfl⟩ := hs
    exact ⟨Or.inl rfl, by simp⟩
  case exec c r acc =>
    simp only [step] at hs
    (repeat' split at hs) <;> simp only [Option.some.injEq, Prod.mk.injEq, reduceCtorEq] at hs <;> obtain ⟨rfl, rfl⟩ := hs
    · exact absurd ⟨_, _, _, _, _, List.mem_cons_self⟩ hn
    · exact ⟨hh, by simp⟩
    · exact absurd ⟨_, _, _, _, _, List.mem_cons_self⟩ hn
    · exact absurd ⟨_, _, _, _, _, List.mem_cons_self⟩ hn
  all_goals
    simp only [step] at hs
    clear hi v1 v2 hp hr hn
    (repeat' split at hs) <;> simp only [Option.some.injEq, Prod.mk.injEq, reduceCtorEq] at hs <;>
      (obtain ⟨rfl, rfl⟩ := hs; first | exact ⟨hh, by simp⟩ | exact ⟨Or.inl rfl, by simp⟩)

theorem held_run (ls : List Lbl) : ∀ {s s' : St} {tr q : List Ev} {b : Nat}, machine.Reaches s tr → Held s b → machine.runFrom s ls = some (s', q) →
    Proper (tr ++ q) → ¬ Submits q → ∀ c r, Ev.resumed c b r ∉ q := by
  induction ls with
  | nil =>
    intro s s' tr q b _ _ h _ _ c r
    simp only [Machine.runFrom, Option.some.injEq, Prod.mk.injEq] at h
    obtain ⟨rfl, rfl⟩ := h; simp
  | cons l ls ih =>
    intro s s' tr q b hr hh h hp hn c r hm
    simp only [Machine.runFrom] at h
    split at h
    · simp at h
    · rename_i s1 e1 hst
      split at h
      · simp at h
      · rename_i s2 e2 hrest
        simp only [Option.some.injEq, Prod.mk.injEq] at h
        obtain ⟨rfl, rfl⟩ := h
        rw [← List.append_assoc] at hp
        have hn1 : ¬ Submits e1 := fun ⟨c, b, n, k, q, hq⟩ => hn ⟨c, b, n, k, q, List.mem_append_left _ hq⟩
        have hn2 : ¬ Submits e2 := fun ⟨c, b, n, k, q, hq⟩ => hn ⟨c, b, n, k, q, List.mem_append_right _ hq⟩
        obtain ⟨h1, h2⟩ := held_step hr (hp.mono (List.prefix_append _ _)) hh hst hn1
        rcases List.mem_append.1 hm with hm | hm
        · exact h2 c r hm
        · exact ih (hr.step hst) h1 hrest hp hn2 c r hm

/-- **C98, what fails.**  A completion that found the ring full is not delivered, however often the loop is polled, until the worker executes another batch:
the task waits although all its operations are done. -/
theorem overflowed_waits (s : St) (tr : List Ev) (h : machine.Reaches s tr) (hp : Proper tr) (p q : List Ev) (b : Nat)
    (ht : tr = p ++ .overflowed b :: q) (hn : ¬ Submits q) : ∀ c r, Ev.resumed c b r ∉ q := by
  have key : Held s b ∧ ∀ c r, Ev.resumed c b r ∉ q := by
    revert p q hp
    refine Machine.Reaches.inv' (M := machine) (fun s tr => Proper tr → ∀ p q, tr = p ++ .overflowed b :: q → ¬ Submits q →
      Held s b ∧ ∀ c r, Ev.resumed c b r ∉ q) (by simp) ?_ h
    clear h s tr
    intro s tr l s' e hr ih hs hp p q ht hn
    have hpt := hp.mono (List.prefix_append tr e)
    have inE : Ev.overflowed b ∈ e → Held s' b ∧ ∀ c r, Ev.resumed c b r ∉ e := by
      intro hb
      change step s l = some (s', e) at hs
      cases l
      case complete j res =>
        have v1 := (vis_inv hr).1
        simp only [step] at hs
        (repeat' split at hs) <;> simp only [Option.some.injEq, Prod.mk.injEq, reduceCtorEq] at hs <;> obtain ⟨rfl, rfl⟩ := hs
        · simp at hb
        · rename_i x hx hv
          simp only [List.mem_cons, reduceCtorEq, Ev.overflowed.injEq, List.not_mem_nil, or_false, false_or] at hb
          subst hb
          refine ⟨Or.inr (Or.inl ⟨⟨x.c, x.b, res⟩, ?_, rfl⟩), by simp⟩
          dsimp only
          rw [List.drop_append, show s.vis - s.cq.length = 0 by omega]
          simp
      all_goals
        exfalso
        simp only [step] at hs
        clear hp ih ht hpt
        (repeat' split at hs) <;> simp only [Option.some.injEq, Prod.mk.injEq, reduceCtorEq] at hs <;>
          (obtain ⟨rfl, rfl⟩ := hs; simp at hb)
    rcases List.append_eq_append_iff.1 ht with ⟨a, rfl, ha⟩ | ⟨a, rfl, ha⟩
    · have hb : Ev.overflowed b ∈ e := by rw [ha]; simp
      obtain ⟨h1, h2⟩ := inE hb
      exact ⟨h1, fun c r hm => h2 c r (by rw [ha]; simp [hm])⟩
    · rcases a with _ | ⟨x, a⟩
      · have hb : Ev.overflowed b ∈ e := by simp at ha; rw [← ha]; simp
        obtain ⟨h1, h2⟩ := inE hb
        exact ⟨h1, fun c r hm => h2 c r (by simp at ha; rw [← ha]; simp [hm])⟩
      · simp only [List.cons_append, List.cons.injEq] at ha
        obtain ⟨rfl, rfl⟩ := ha
        have hn1 : ¬ Submits a := fun ⟨c, b, n, k, q, hq⟩ => hn ⟨c, b, n, k, q, List.mem_append_left _ hq⟩
        have hn2 : ¬ Submits e := fun ⟨c, b, n, k, q, hq⟩ => hn ⟨c, b, n, k, q, List.mem_append_right _ hq⟩
        obtain ⟨h1, h2⟩ := ih hpt p a rfl hn1
        obtain ⟨h3, h4⟩ := held_step hr hp h1 hs hn2
        exact ⟨h3, fun c r hm => (List.mem_append.1 hm).elim (h2 c r) (h4 c r)⟩
  exact key.2

/-- **C98, what fails.**  io_uring_submit takes one of the two operations of a batch (the kernel stops at an entry it refuses).  The other one is not started, and
the task is not resumed, whatever happens, until the worker executes another batch. -/
theorem short_submit_strands_refuted :
    ∃ (s : St) (tr : List Ev), machine.Reaches s tr ∧ Proper tr ∧ Ev.submitted 0 0 2 0 0 ∈ tr ∧
      ∀ ls s' q, machine.runFrom s ls = some (s', q) → Proper (tr ++ q) → ¬ Submits q → ∀ c r, Ev.resumed c 0 r ∉ q := by
  have h : ∃ s, machine.Reaches s [.submitted 0 0 2 0 0, .completed 0 0 (-22)] ∧ Held s 0 :=
    ⟨_, ⟨[.newBatch 0 2, .exec 0 0 1, .complete 0 (-22)], rfl⟩, Or.inr (Or.inr ⟨⟨0, 0, 1⟩, by decide, rfl⟩)⟩
  obtain ⟨s, hr, hh⟩ := h
  refine ⟨s, _, hr, ⟨?_, by simp⟩, by simp, fun ls s' q hrun hp hn => held_run ls hr hh hrun hp hn⟩
  intro c b n k q hm
  simp at hm; omega

/-- **C98 (partial).**  If io_uring_submit takes everything, then every operation of an execution that has not ended has its result delivered, or the kernel is
working on it.  Missing: see `short_submit_strands_refuted`. -/
theorem all_started_partial (ls : List Lbl) (s : St) (tr : List Ev) (h : machine.run ls = some (s, tr)) (hp : Proper tr)
    (hacc : ∀ c r acc, Lbl.exec c r acc ∈ ls → 1024 ≤ acc) (c b n k q : Nat) (hb : Ev.submitted c b n k q ∈ tr) (he : endings b tr = 0) :
    (results b tr).length + (s.kern.filter (·.b == b)).length = n := by
  have hsq : ∀ (ls : List Lbl) (s0 s : St) (tr : List Ev), machine.runFrom s0 ls = some (s, tr) →
      (∀ c r acc, Lbl.exec c r acc ∈ ls → 1024 ≤ acc) → s0.sq = [] → s.sq = [] := by
    intro ls
    induction ls with
    | nil =>
      intro s0 s tr h _ h0
      simp only [Machine.runFrom, Option.some.injEq, Prod.mk.injEq] at h
      obtain ⟨rfl, rfl⟩ := h
      exact h0
    | cons l ls ih =>
      intro s0 s tr h hacc h0
      simp only [Machine.runFrom] at h
      split at h
      · simp at h
      · rename_i s1 e1 hst
        split at h
        · simp at h
        · rename_i s2 e2 hrest
          simp only [Option.some.injEq, Prod.mk.injEq] at h
          obtain ⟨rfl, rfl⟩ := h
          refine ih s1 s2 e2 hrest (fun c r acc hh => hacc c r acc (List.mem_cons_of_mem _ hh)) ?_
          change step s0 l = some (s1, e1) at hst
          cases l
          case exec c0 r acc =>
            have ha := hacc c0 r acc (by simp)
            simp only [step] at hst
            (repeat' split at hst) <;> simp only [Option.some.injEq, Prod.mk.injEq, reduceCtorEq] at hst <;> obtain ⟨rfl, rfl⟩ := hst
            · exact h0
            · exact h0
            · exact h0
            · rename_i hlen
              simp only [h0, List.nil_append, List.drop_eq_nil_iff, List.length_map, List.length_range]
              simp only [h0, List.length_nil, entries] at hlen
              omega
          all_goals
            simp only [step] at hst
            (repeat' split at hst) <;> simp only [Option.some.injEq, Prod.mk.injEq, reduceCtorEq] at hst <;>
              (obtain ⟨rfl, rfl⟩ := hst; first | exact h0 | rfl)
  have hs0 := hsq ls _ s tr h hacc rfl
  have hi := inv_of_reaches ⟨ls, h⟩ hp
  have ht := hi.total b
  rw [if_pos (hi.bn _ _ _ _ _ hb), he] at ht
  have hm : b ∈ s.ops.map Op.b := List.count_pos_iff.1 (by omega)
  obtain ⟨o, ho, rfl⟩ := List.mem_map.1 hm
  obtain ⟨⟨q1, h1⟩, h2, h3, -⟩ := hi.live o ho
  have hn := (hi.uniq _ _ _ _ _ _ _ _ _ h1 hb).2.1
  rw [← h2, List.length_append, List.length_map, ← List.countP_eq_length_filter, ← List.countP_eq_length_filter]
  simp only [cqN, kernN, sqN, hs0, List.countP_nil] at h3
  omega

theorem exec_all {s : St} {c r n : Nat} (h1 : s.dead = false) (h2 : s.poll = none) (h3 : s.sq = []) (h4 : s.stoped = false)
    (h5 : s.reps r = ⟨n, []⟩) (h6 : 0 < n ∧ n ≤ 1024) (h7 : ∀ o ∈ s.ops, o.r ≠ r ∧ o.c ≠ c) :
    machine.step s (.exec c r n) = some ({ s with ops := s.ops ++ [⟨c, r, s.next⟩], miss := 1, sq := [], kern := s.kern ++ (List.range n).map (⟨c, s.next, ·⟩), vis := min cqEntries s.cq.length, next := s.next + 1 }, [.submitted c s.next n 0 0]) := by
  have a1 : idle s = true := idle_iff.2 ⟨h1, h2⟩
  have a2 : inFlight s r = false := by
    simp only [inFlight, List.any_eq_false]; intro o ho; simpa using (h7 o ho).1
  have a3 : ∀ o ∈ s.ops, o.c ≠ c := fun o ho => (h7 o ho).2
  change step s (.exec c r n) = _
  simp only [step]
  rw [if_pos ⟨a1, a2, a3⟩, h5]
  dsimp only
  rw [if_neg (by omega), h4]
  simp only [Bool.false_eq_true, if_false]
  rw [h3, if_neg (by simp only [entries, List.length_nil]; omega)]
  simp only [List.nil_append, List.length_nil]
  rw [List.drop_eq_nil_of_le (by simp), List.take_of_length_le (by simp)]

/-- completions in a row -/
theorem completes (k : Nat) : ∀ s : St, s.dead = false → s.vis ≤ cqEntries → k ≤ s.kern.length →
    ∃ s' q, machine.runFrom s (List.replicate k (.complete 0 0)) = some (s', q) ∧ s'.dead = false ∧ s'.vis ≤ cqEntries ∧
      s'.kern = s.kern.drop k ∧ s'.cq.length = s.cq.length + k ∧ s'.ops = s.ops ∧ s'.sq = s.sq ∧
      ∀ x ∈ q, (∃ b i r, x = .completed b i r) ∨ ∃ b, x = .overflowed b := by
  induction k with
  | zero => intro s h1 h2 h3; exact ⟨s, [], rfl, h1, h2, by simp, by simp, rfl, rfl, by simp⟩
  | succ k ih =>
    intro s h1 h2 h3
    obtain ⟨x, xs, hx⟩ : ∃ x xs, s.kern = x :: xs := by
      rcases hk : s.kern with _ | ⟨x, xs⟩
      · rw [hk] at h3; simp at h3
      · exact ⟨x, xs, rfl⟩
    have hst : ∃ s1 e1, step s (.complete 0 0) = some (s1, e1) ∧ s1.dead = false ∧ s1.vis ≤ cqEntries ∧ s1.kern = xs ∧
        s1.cq.length = s.cq.length + 1 ∧ s1.ops = s.ops ∧ s1.sq = s.sq ∧ ∀ y ∈ e1, (∃ b i r, y = .completed b i r) ∨ ∃ b, y = .overflowed b := by
      simp only [step]
      rw [if_pos h1, hx]
      simp only [List.getElem?_cons_zero, List.eraseIdx_cons_zero]
      by_cases hv : s.vis = s.cq.length ∧ s.vis < cqEntries
      · rw [if_pos hv]; exact ⟨_, _, rfl, h1, by dsimp only; omega, rfl, by simp, rfl, rfl, by simp⟩
      · rw [if_neg hv]; exact ⟨_, _, rfl, h1, h2, rfl, by simp, rfl, rfl, by simp⟩
    obtain ⟨s1, e1, a0, a1, a2, a3, a4, a5, a6, a7⟩ := hst
    obtain ⟨s2, e2, b0, b1, b2, b3, b4, b5, b6, b7⟩ := ih s1 a1 a2 (by rw [a3]; rw [hx] at h3; simpa using h3)
    refine ⟨s2, e1 ++ e2, ?_, b1, b2, by rw [b3, a3, hx]; simp, by omega, b5.trans a5, b6.trans a6, ?_⟩
    · rw [List.replicate_succ]
      simp only [Machine.runFrom]
      rw [show machine.step s (.complete 0 0) = some (s1, e1) from a0]
      simp only [b0]
    · intro y hy
      rcases List.mem_append.1 hy with hy | hy
      · exact a7 y hy
      · exact b7 y hy

theorem reaches_run {s s' : St} {tr q : List Ev} {ls : List Lbl} (h : machine.Reaches s tr) (hr : machine.runFrom s ls = some (s', q)) :
    machine.Reaches s' (tr ++ q) := by
  obtain ⟨l0, h0⟩ := h
  refine ⟨l0 ++ ls, ?_⟩
  unfold Machine.run at *
  rw [Machine.runFrom_append, h0]
  simp [hr]

/-- **C98, what fails.**  Three tasks execute 1024 operations each; all operations complete before the next poll.  The third task is not resumed, whatever happens,
until the worker executes another batch: its last completions wait outside of the full ring. -/
theorem many_completions_strand_refuted :
    ∃ (s : St) (tr : List Ev), machine.Reaches s tr ∧ Proper tr ∧ Ev.submitted 2 2 1024 0 0 ∈ tr ∧ (results 2 tr).length = 1024 ∧
      ∀ ls s' q, machine.runFrom s ls = some (s', q) → Proper (tr ++ q) → ¬ Submits q → ∀ c r, Ev.resumed c 2 r ∉ q := by
  obtain ⟨n, hn⟩ : ∃ n, n = 1024 := ⟨_, rfl⟩
  have hn' : 0 < n ∧ n ≤ 1024 := by omega
  have hs : ∃ s, machine.Reaches s [.submitted 0 0 n 0 0, .submitted 1 1 n 0 0, .submitted 2 2 n 0 0] ∧ s.dead = false ∧ s.vis ≤ cqEntries ∧
      s.sq = [] ∧ s.cq = [] ∧ s.ops = [⟨0, 0, 0⟩, ⟨1, 1, 1⟩, ⟨2, 2, 2⟩] ∧
      s.kern = (List.range n).map (⟨0, 0, ·⟩) ++ (List.range n).map (⟨1, 1, ·⟩) ++ (List.range n).map (⟨2, 2, ·⟩) := by
    let s0 : St := { init with reps := upd (upd (upd init.reps 0 ⟨n, []⟩) 1 ⟨n, []⟩) 2 ⟨n, []⟩ }
    have h0 : machine.Reaches s0 [] := ⟨[.newBatch 0 n, .newBatch 1 n, .newBatch 2 n], rfl⟩
    have r1 := h0.step (exec_all (s := s0) (c := 0) (r := 0) (n := n) rfl rfl rfl rfl rfl hn' (by simp [s0, init]))
    have r2 := r1.step (exec_all (c := 1) (r := 1) (n := n) rfl rfl rfl rfl rfl hn' (by simp [s0, init]))
    have r3 := r2.step (exec_all (c := 2) (r := 2) (n := n) rfl rfl rfl rfl rfl hn' (by simp [s0, init]))
    exact ⟨_, r3, rfl, Nat.min_le_left _ _, rfl, rfl, rfl, rfl⟩
  obtain ⟨s, hr, h1, h2, h3, h4, h5, h6⟩ := hs
  obtain ⟨s1, q1, a0, a1, a2, a3, a4, a5, a6, a7⟩ := completes (3 * n - 1) s h1 h2 (by rw [h6]; simp; omega)
  have hr1 := reaches_run hr a0
  have hk : s1.kern = [⟨2, 2, n - 1⟩] := by
    rw [a3, h6]
    obtain ⟨m, rfl⟩ : ∃ m, n = m + 1 := ⟨n - 1, by omega⟩
    have e : ∀ f : Nat → Sqe, (List.range (m + 1)).map f = (List.range m).map f ++ [f m] := by intro f; rw [List.range_succ]; simp
    rw [List.drop_append, List.drop_eq_nil_of_le (by simp; omega), List.nil_append, e (⟨2, 2, ·⟩), List.drop_append,
      List.drop_eq_nil_of_le (by simp; omega), List.nil_append]
    simp only [List.length_append, List.length_map, List.length_range]
    rw [show 3 * (m + 1) - 1 - (m + 1 + (m + 1)) - m = 0 by omega]
    simp
  have hcq1 : s1.cq.length = 3 * n - 1 := by rw [a4, h4]; simp
  have hv : ¬ (s1.vis = s1.cq.length ∧ s1.vis < cqEntries) := by
    rintro ⟨g1, g2⟩
    simp only [cqEntries] at g2
    omega
  have hlast : machine.step s1 (.complete 0 0) = some ({ s1 with kern := [], cq := s1.cq ++ [⟨2, 2, 0⟩] }, [.completed 2 (n - 1) 0, .overflowed 2]) := by
    change step s1 (.complete 0 0) = _
    simp only [step]
    rw [if_pos a1, hk]
    simp only [List.getElem?_cons_zero, List.eraseIdx_cons_zero]
    rw [if_neg hv]
  have hr2 := hr1.step hlast
  have noS : ∀ c b m k q, Ev.submitted c b m k q ∉ q1 := by
    intro c b m k q hm
    rcases a7 _ hm with ⟨_, _, _, h⟩ | ⟨_, h⟩ <;> simp at h
  have hprop : Proper (([.submitted 0 0 n 0 0, .submitted 1 1 n 0 0, .submitted 2 2 n 0 0] ++ q1) ++ [.completed 2 (n - 1) 0, .overflowed 2]) := by
    constructor
    · intro c b m k q hm
      simp only [List.mem_append, List.mem_cons, List.not_mem_nil, or_false, reduceCtorEq, Ev.submitted.injEq, noS] at hm
      omega
    · intro k hm
      simp only [List.mem_append, List.mem_cons, List.not_mem_nil, or_false, reduceCtorEq, false_or] at hm
      rcases a7 _ hm with ⟨_, _, _, h⟩ | ⟨_, h⟩ <;> simp at h
  have hi := inv_of_reaches hr2 hprop
  have ho : (⟨2, 2, 2⟩ : Op) ∈ s1.ops := by rw [a5, h5]; simp
  obtain ⟨⟨q2, g1⟩, g2, g3, -⟩ := hi.live _ ho
  have hnn := (hi.uniq 2 2 n 0 0 2 _ 0 q2 (by simp) g1).2.1
  refine ⟨_, _, hr2, hprop, by simp [hn], ?_, ?_⟩
  · simp only [cqN, kernN, sqN, a6, h3, List.countP_nil] at g3
    rw [← g2, List.length_append, List.length_map, ← List.countP_eq_length_filter]
    dsimp only at g3 hnn ⊢
    omega
  · intro ls s' q hrun hp' hns
    refine held_run ls hr2 (Or.inr (Or.inl ⟨⟨2, 2, 0⟩, ?_, rfl⟩)) hrun hp' hns
    have := (vis_inv hr1).1
    dsimp only
    rw [List.drop_append, show s1.vis - s1.cq.length = 0 by omega]
    simp

/-- Two tasks, an operation not yet started at the first poll: the hypotheses of `few_ops_poll_resumes` are met, the poll resumes the second task. -/
theorem few_ops_nontrivial : ∃ (s : St) (tr p q : List Ev), machine.Reaches s tr ∧ Proper tr ∧ (∀ p, p <+: tr → openOps p ≤ 2048) ∧
    p ++ .pollBegan true 0 :: q ++ [.polled] <+: tr ∧ (∀ x o, Ev.pollBegan x o ∉ q) ∧ Ev.submitted 7 1 1 0 1 ∈ p ∧ (results 1 p).length = 1 ∧
    endings 0 (p ++ .pollBegan true 0 :: q) = 0 := by
  refine ⟨_, [.submitted 5 0 2 0 0, .submitted 7 1 1 0 1, .completed 1 0 10, .completed 0 1 21, .pollBegan true 0, .resumed 7 1 [10], .polled],
    [.submitted 5 0 2 0 0, .submitted 7 1 1 0 1, .completed 1 0 10, .completed 0 1 21], [.resumed 7 1 [10]],
    ⟨[.newBatch 0 2, .newBatch 1 1, .exec 5 0 1, .exec 7 1 9, .complete 2 10, .complete 1 21, .pollBegin, .deal, .deal, .pollEnd], rfl⟩,
    ⟨?_, by simp⟩, ?_, ⟨[], rfl⟩, by simp, by simp, by decide, by decide⟩
  · intro c b n k q hm
    simp at hm; omega
  · intro p hp
    have := (List.mem_inits _ _).2 hp
    clear hp
    revert p
    decide

/-- The hypotheses of `all_started_partial` are met by a run with one operation done and one in the kernel. -/
theorem all_started_nontrivial : ∃ (ls : List Lbl) (s : St) (tr : List Ev), machine.run ls = some (s, tr) ∧ Proper tr ∧
    (∀ c r acc, Lbl.exec c r acc ∈ ls → 1024 ≤ acc) ∧ Ev.submitted 5 0 2 0 0 ∈ tr ∧ endings 0 tr = 0 ∧ (results 0 tr).length = 1 := by
  refine ⟨[.newBatch 0 2, .exec 5 0 1024, .complete 1 21], _, [.submitted 5 0 2 0 0, .completed 0 1 21], rfl, ⟨?_, by simp⟩, ?_, by simp, by decide, by decide⟩
  · intro c b n k q hm
    simp at hm; omega
  · intro c r acc hm
    simp at hm; omega

end Verif.Uring
