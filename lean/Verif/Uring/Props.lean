import Verif.Uring.Proofs
/-!
# C35, C36, C37, C39: the io_uring loop
-/

namespace Verif.Uring

/-! ### C35 -/

/-- **C35.**  When a coroutine is resumed from an execution of a batch of `n` operations, the kernel has delivered exactly `n`
results for that execution, and the batch carries exactly these results (in the order of completion). -/
theorem uring_resumed_with_all_results (s : St) (tr : List Ev) (h : machine.Reaches s tr) (hp : Proper tr) :
    ∀ p c b rets, p ++ [.resumed c b rets] <+: tr →
      ∃ n q, Ev.submitted c b n 0 q ∈ p ∧ rets = results b p ∧ rets.length = n := by
  revert hp
  refine Machine.Reaches.inv' (M := machine) (fun _ tr => Proper tr → ∀ p c b rets, p ++ [.resumed c b rets] <+: tr →
      ∃ n q, Ev.submitted c b n 0 q ∈ p ∧ rets = results b p ∧ rets.length = n) ?_ ?_ h
  · intro _ p c b rets hh; exact absurd hh not_concat_prefix_nil
  clear h s tr
  intro s tr l s' e hr ih hs hp p c b rets hh
  have hpt := hp.mono (List.prefix_append tr e)
  have hi := inv_of_reaches hr hpt
  rcases concat_prefix_append_cases hh with hh | ⟨q, hq, rfl⟩
  · exact ih hpt p c b rets hh
  change step s l = some (s', e) at hs
  cases l
  case deal =>
    simp only [step] at hs
    (repeat' split at hs) <;> simp only [Option.some.injEq, Prod.mk.injEq, reduceCtorEq] at hs <;> obtain ⟨rfl, rfl⟩ := hs
    · simp at hq
    · have := hq.subset (List.mem_append_right _ (List.mem_singleton.2 rfl)); simp at this
    · rename_i k hk _ x rest hcq _ o hfind hfull
      obtain ⟨rfl, he⟩ := concat_prefix_cons hq (by simp)
      simp only [Ev.resumed.injEq] at he
      obtain ⟨rfl, rfl, rfl⟩ := he
      have hoc : o.c = x.c := by have := List.find?_some hfind; simpa using this
      have ho : o ∈ s.ops := List.mem_of_find?_eq_some hfind
      have hob : o.b = x.b := by
        obtain ⟨o', ho', h1, h2⟩ := hi.ownC x (by simp [hcq])
        have : o' = o := List.inj_on_of_nodup_map hi.ck ho' ho (h1.trans hoc.symm)
        subst this; exact h2
      obtain ⟨⟨q0, hq0⟩, m1, m2, m3⟩ := hi.live o ho
      have hfil : s.cq.filter (·.b == o.b) = x :: rest.filter (·.b == o.b) := by
        rw [hcq, List.filter_cons_of_pos (by simp [hob])]
      have hz : rest.filter (·.b == o.b) = [] := by
        simp only [cqN, List.countP_eq_length_filter, hfil, List.length_cons] at m2
        exact List.eq_nil_of_length_eq_zero (by omega)
      rw [hfil, hz] at m1
      refine ⟨_, q0, by simpa using hq0, ?_, by simp [hfull]⟩
      simpa using m1
    · simp at hq
  all_goals
    exfalso
    have hm : Ev.resumed c b rets ∈ e := hq.subset (by simp)
    simp only [step] at hs
    clear hp ih hh hq hi
    (repeat' split at hs) <;> simp only [Option.some.injEq, Prod.mk.injEq, reduceCtorEq] at hs <;>
      (obtain ⟨rfl, rfl⟩ := hs; simp at hm)

/-- **C35.**  An execution comes to at most one end: it is not resumed twice, nor resumed and destroyed. -/
theorem uring_at_most_once (s : St) (tr : List Ev) (h : machine.Reaches s tr) (hp : Proper tr) (b : Nat) :
    endings b tr ≤ 1 := by
  have := (inv_of_reaches h hp).total b
  split at this <;> omega

theorem results_length_le {s : St} {tr : List Ev} (h : machine.Reaches s tr) :
    Proper tr → ∀ c b n k q, Ev.submitted c b n k q ∈ tr → (results b tr).length ≤ n := by
  refine Machine.Reaches.inv' (M := machine) (fun _ tr => Proper tr →
    ∀ c b n k q, Ev.submitted c b n k q ∈ tr → (results b tr).length ≤ n) (by simp [machine]) ?_ h
  clear h s tr
  intro s tr l s' e hr ih hs hp c b n k q hm
  have hpt := hp.mono (List.prefix_append tr e)
  have hi := inv_of_reaches hr hpt
  have hr' := hr.step hs
  have hi' := inv_of_reaches hr' hp
  by_cases hlive : ∃ o ∈ s'.ops, o.b = b
  · obtain ⟨o, ho, rfl⟩ := hlive
    obtain ⟨⟨q1, h1⟩, h2, h3, h4⟩ := hi'.live o ho
    have := (hi'.uniq _ _ _ _ _ _ _ _ _ h1 hm).2.1
    rw [← h2, List.length_append, List.length_map, ← List.countP_eq_length_filter]
    simp only [cqN] at h3
    omega
  · change step s l = some (s', e) at hs
    have hnone : results b e = [] → Ev.submitted c b n k q ∈ tr → (results b (tr ++ e)).length ≤ n := by
      intro h1 h2; rw [results_append, h1]; simpa using ih hpt c b n k q h2
    cases l
    case complete j res =>
      simp only [step] at hs
      (repeat' split at hs) <;> simp only [Option.some.injEq, Prod.mk.injEq, reduceCtorEq] at hs <;>
      obtain ⟨rfl, rfl⟩ := hs <;>
      rename_i x hx _ <;>
      obtain ⟨o, ho, -, hob⟩ := hi.ownK x (List.mem_of_getElem? hx) <;>
      (by_cases hb : x.b = b
       · exact absurd ⟨o, ho, hob.trans hb⟩ hlive
       · exact hnone (by simp [results, hb]) (by simpa using hm))
    case exec c0 r acc =>
      simp only [step] at hs
      (repeat' split at hs) <;> simp only [Option.some.injEq, Prod.mk.injEq, reduceCtorEq] at hs <;> obtain ⟨rfl, rfl⟩ := hs
      · exact absurd (by simp) hi'.noub
      · exact hnone rfl (by simpa using hm)
      · exact absurd (by simp) hi'.noub
      · simp only [List.mem_append, List.mem_singleton, Ev.submitted.injEq] at hm
        rcases hm with hm | ⟨-, rfl, -⟩
        · exact hnone rfl hm
        · exact absurd ⟨_, List.mem_append_right _ (List.mem_singleton.2 rfl), rfl⟩ hlive
    all_goals
      simp only [step] at hs
      clear hp ih hi hi' hr hr' hlive
      (repeat' split at hs) <;> simp only [Option.some.injEq, Prod.mk.injEq, reduceCtorEq] at hs <;>
      (obtain ⟨rfl, rfl⟩ := hs
       refine hnone ?_ (by simpa using hm)
       first | rfl | simp [results])

/-- **C35.**  A poll that began when all `n` results of an execution had been delivered leaves it ended: the coroutine has been
resumed (or destroyed before).  If at its beginning no completion waited outside of the ring;
for that see `Verif.Uring.Overflow` (C98). -/
theorem uring_poll_resumes (s : St) (tr : List Ev) (h : machine.Reaches s tr) (hp : Proper tr)
    (p q : List Ev) (hit : Bool) (hh : p ++ .pollBegan hit 0 :: q ++ [.polled] <+: tr) (hq : ∀ x o, Ev.pollBegan x o ∉ q)
    (c b n k0 q0 : Nat) (hb : Ev.submitted c b n k0 q0 ∈ p) (hfull : (results b p).length = n) :
    endings b (p ++ .pollBegan hit 0 :: q) = 1 := by
  revert p q hit c b n k0 q0 hp
  refine Machine.Reaches.inv' (M := machine) (fun _ tr => Proper tr → ∀ p q hit, p ++ .pollBegan hit 0 :: q ++ [.polled] <+: tr →
    (∀ x o, Ev.pollBegan x o ∉ q) → ∀ c b n k0 q0, Ev.submitted c b n k0 q0 ∈ p → (results b p).length = n →
    endings b (p ++ .pollBegan hit 0 :: q) = 1) ?_ ?_ h
  · intro _ p q hit hh; exact absurd hh not_concat_prefix_nil
  clear h s tr
  intro s tr l s' e hr ih hs hp p q hit hh hq c b n k0 q0 hb hfull
  have hpt := hp.mono (List.prefix_append tr e)
  have hi := inv_of_reaches hr hpt
  have hlen := results_length_le hr hpt
  rcases concat_prefix_append_cases hh with hh | ⟨q', hq', hpq⟩
  · exact ih hpt p q hit hh hq c b n k0 q0 hb hfull
  have main : ∀ (st : Ev.submitted c b n k0 q0 ∈ tr), (∀ o ∈ s.ops, o.b = b → False) → endings b tr = 1 := by
    intro st hno
    have := hi.total b
    rw [if_pos (hi.bn _ _ _ _ _ st)] at this
    have hz : (s.ops.map Op.b).count b = 0 := by
      rw [List.count_eq_zero]; intro hm
      obtain ⟨o, ho, hob⟩ := List.mem_map.1 hm
      exact hno o ho hob
    omega
  change step s l = some (s', e) at hs
  cases l
  case pollEnd =>
    simp only [step] at hs
    split at hs <;> simp only [Option.some.injEq, Prod.mk.injEq, reduceCtorEq] at hs
    rename_i hc
    obtain ⟨rfl, rfl⟩ := hs
    obtain ⟨rfl, -⟩ := concat_prefix_cons hq' (by simp)
    rw [List.append_nil] at hpq
    obtain ⟨p1, q1, out, h1, h2, h3⟩ := hi.poll 0 hc.2
    have hsplit : p = p1 ∧ (hit = true ∧ 0 = out) ∧ q = q1 := by
      rw [h1] at hpq
      obtain ⟨g1, g2, g3⟩ := last_split_pred (fun x => ∃ hit o, x = Ev.pollBegan hit o) hpq ⟨_, _, rfl⟩ ⟨_, _, rfl⟩
        (by rintro z hz ⟨hit, o, rfl⟩; exact hq hit o hz) (by rintro z hz ⟨hit, o, rfl⟩; exact h2 hit o hz)
      exact ⟨g1, by simpa using g2, g3⟩
    obtain ⟨rfl, ⟨rfl, rfl⟩, rfl⟩ := hsplit
    rw [← h1]
    have hst : Ev.submitted c b n k0 q0 ∈ tr := by rw [h1]; exact List.mem_append_left _ hb
    refine main hst ?_
    intro o ho hob
    subst hob
    obtain ⟨⟨q2, g1⟩, g2, g3, g4⟩ := hi.live o ho
    have hn := (hi.uniq _ _ _ _ _ _ _ _ _ g1 hst).2.1
    have hle := hlen _ _ _ _ _ hst
    rw [h1, results_append, show Ev.pollBegan true 0 :: q = [Ev.pollBegan true 0] ++ q from rfl, results_append] at hle
    simp only [List.length_append, hfull] at hle
    have hqz : results o.b q = [] := List.eq_nil_of_length_eq_zero (by omega)
    have hcz : s.cq.filter (·.b == o.b) = [] := by
      rw [List.filter_eq_nil_iff]
      intro x hx hxb
      simp only [beq_iff_eq] at hxb
      have := h3 rfl x (by simpa using hx)
      rw [hxb] at this; exact this hqz
    rw [hcz] at g2
    have hge : n ≤ (results o.b tr).length := by
      rw [h1, results_append, List.length_append, hfull]; omega
    simp only [List.map_nil, List.append_nil] at g2
    rw [← g2] at hge
    omega
  case pollBegin =>
    simp only [step] at hs
    (repeat' split at hs) <;> simp only [Option.some.injEq, Prod.mk.injEq, reduceCtorEq] at hs <;> obtain ⟨rfl, rfl⟩ := hs
    · simp at hq'
    · rename_i hvis
      have hq1 : q' = [.pollBegan false s.cq.length] := by
        cases q' with
        | nil => simp at hq'
        | cons y ys => 
          simp only [List.cons_append, List.cons_prefix_cons] at hq'
          obtain ⟨rfl, hq'⟩ := hq'
          obtain ⟨rfl, -⟩ := concat_prefix_cons hq' (by simp)
          rfl
      subst hq1
      have hpt' : p = tr ∧ q = [] ∧ hit = false ∧ 0 = s.cq.length := by
        rcases List.eq_nil_or_concat q with rfl | ⟨q1, y, rfl⟩
        · have := List.append_inj' hpq rfl
          simp at this; exact ⟨this.1, rfl, this.2.1, this.2.2⟩
        · rw [show p ++ Ev.pollBegan hit 0 :: q1.concat y = (p ++ Ev.pollBegan hit 0 :: q1) ++ [y] by simp] at hpq
          have := List.append_inj' hpq rfl
          simp at this
          exact absurd (by simp [this.2]) (hq false s.cq.length)
      obtain ⟨rfl, rfl, rfl, hl⟩ := hpt'
      have hcq : s.cq = [] := List.eq_nil_of_length_eq_zero hl.symm
      have : endings b [Ev.pollBegan false 0] = 0 := rfl
      rw [endings_append, this]
      refine main hb ?_
      intro o ho hob
      subst hob
      obtain ⟨⟨q2, g1⟩, g2, g3, g4⟩ := hi.live o ho
      have hn := (hi.uniq _ _ _ _ _ _ _ _ _ g1 hb).2.1
      rw [hcq] at g2
      simp only [List.filter_nil, List.map_nil, List.append_nil] at g2
      rw [← g2] at hfull
      omega
    · have := hq'.subset (List.mem_append_right _ (List.mem_singleton.2 rfl)); simp at this
  all_goals
    exfalso
    have hm : Ev.polled ∈ e := hq'.subset (by simp)
    simp only [step] at hs
    clear hp ih hh hq' hi main hlen hpq
    (repeat' split at hs) <;> simp only [Option.some.injEq, Prod.mk.injEq, reduceCtorEq] at hs <;>
      (obtain ⟨rfl, rfl⟩ := hs; simp at hm)

/-- **C35, C36.**  With properly used batches there is no undefined behaviour and no failed assertion. -/
theorem uring_no_ub (s : St) (tr : List Ev) (h : machine.Reaches s tr) (hp : Proper tr) : Ev.ub ∉ tr :=
  (inv_of_reaches h hp).noub

/-- **C35.**  When the loop is destroyed every execution it accepted has come to exactly one end: no coroutine leaks. -/
theorem uring_nothing_leaks (s : St) (tr : List Ev) (h : machine.Reaches s tr) (hp : Proper tr) (he : Ev.ended ∈ tr)
    (c b n k q : Nat) (hb : Ev.submitted c b n k q ∈ tr) : endings b tr = 1 := by
  have hi := inv_of_reaches h hp
  have := hi.total b
  rw [if_pos (hi.bn _ _ _ _ _ hb), (hi.over he).1] at this
  simpa using this

end Verif.Uring
