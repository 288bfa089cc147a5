import Verif.OpBatch.Chain
/-!
# C38 (second half), C40, C62, C63: what happens to a batch in the kernel and what it reports

All theorems are about a batch built by any sequence `cs` of calls and handed to the kernel as the entries `sq`, and about every
execution of the kernel on them.
-/

namespace Verif.OpBatch

variable {cs : List Call} {addr : Nat} {sq : List Sqe}

/-- **C38.**  The operations run one after the other: an operation is started only after the one queued before it has finished
successfully. -/
theorem batch_sequential (hb : (build cs).bind (submit · addr) = some sq) (s : KSt) (tr : List KEv)
    (h : (chain sq).Reaches s tr) (p : List KEv) (i : Nat) (hp : p ++ [.began (i + 1)] <+: tr) :
    ∃ r, 0 ≤ r ∧ KEv.cqe i r ∈ p := by
  have sh := shape_of_submit hb
  revert p i
  refine Machine.Reaches.inv' (M := chain sq) (fun _ tr => ∀ p i, p ++ [.began (i + 1)] <+: tr →
    ∃ r, 0 ≤ r ∧ KEv.cqe i r ∈ p) ?_ ?_ h
  · intro p i hh; exact absurd hh not_concat_prefix_nil
  clear h s tr
  intro s tr l s' e hr ih hs p i hp
  rcases concat_prefix_append_cases hp with hp | ⟨q, hq, rfl⟩
  · exact ih p i hp
  have hi' := inv_of_reaches sh (hr.step hs)
  have hi := inv_of_reaches sh hr
  have hm : KEv.began (i + 1) ∈ e := hq.subset (by simp)
  have h1 := (hi'.c (i + 1) (by simp [hm])).2.2 i (by omega)
  change kstep sq s l = some (s', e) at hs
  cases l with
  | start j =>
    simp only [kstep] at hs
    split at hs
    · simp at hs
    · split at hs <;> simp only [Option.some.injEq, Prod.mk.injEq, reduceCtorEq] at hs
      obtain ⟨rfl, rfl⟩ := hs
      simp at hm; subst hm
      dsimp only at h1
      rw [upd_ne _ _ (by omega)] at h1
      obtain ⟨r, h2, h3⟩ := hi.b i true h1
      exact ⟨r, h3 rfl, by simp [h2]⟩
  | _ =>
    exfalso
    simp only [kstep] at hs
    (repeat' split at hs) <;> simp only [Option.some.injEq, Prod.mk.injEq, reduceCtorEq] at hs <;>
      (obtain ⟨-, rfl⟩ := hs; simp at hm)

/-- **C38.**  After a failure nothing more is done: when an operation reports an error, no later operation is ever started,
and all of them report that they were cancelled. -/
theorem batch_stops_at_failure (hb : (build cs).bind (submit · addr) = some sq) (s : KSt) (tr : List KEv)
    (h : (chain sq).Reaches s tr) (i j : Nat) (r : Int) (hij : i < j) (hj : j < (ops cs).length)
    (hr : KEv.cqe i r ∈ tr) (hneg : r < 0) :
    KEv.began j ∉ tr ∧ ∀ r', KEv.cqe j r' ∈ tr → r' = -ECANCELED := by
  have hi := inv_of_reaches (shape_of_submit hb) h
  have h1 : KEv.began j ∉ tr := by
    intro hbj
    obtain ⟨ok, h2, h3⟩ := hi.a i r hr
    rw [(hi.c j hbj).2.2 i hij] at h2
    injection h2 with h2
    have := h3 h2.symm
    omega
  exact ⟨h1, fun r' hr' => (hi.e j r' hr' hj).resolve_left h1⟩

theorem fst_unique {l : List (Nat × Int)} (hn : (l.map (·.1)).Nodup) {i : Nat} {r r' : Int} (h1 : (i, r) ∈ l)
    (h2 : (i, r') ∈ l) : r = r' := by
  induction l with
  | nil => simp at h1
  | cons x l ih =>
    simp only [List.map_cons, List.nodup_cons, List.mem_map, not_exists, not_and] at hn
    rcases List.mem_cons.1 h1 with h1 | h1 <;> rcases List.mem_cons.1 h2 with h2 | h2
    · rw [← h1] at h2; injection h2 with _ h2; exact h2.symm
    · exact absurd (by rw [← h1]) (hn.1 _ h2)
    · exact absurd (by rw [← h2]) (hn.1 _ h1)
    · exact ih hn.2 h1 h2

/-- **C38.**  Every entry reports at most once. -/
theorem batch_reports_once (hb : (build cs).bind (submit · addr) = some sq) (s : KSt) (tr : List KEv)
    (h : (chain sq).Reaches s tr) (i : Nat) (r r' : Int) (h1 : KEv.cqe i r ∈ tr) (h2 : KEv.cqe i r' ∈ tr) : r = r' := by
  have hi := inv_of_reaches (shape_of_submit hb) h
  rw [← mem_cqes] at h1 h2
  exact fst_unique hi.nd h1 h2

/-- **C38, C40.**  The operations report in the order in which they were queued. -/
theorem batch_reports_in_order (hb : (build cs).bind (submit · addr) = some sq) (s : KSt) (tr : List KEv)
    (h : (chain sq).Reaches s tr) (p : List KEv) (i : Nat) (r : Int) (hi1 : i + 1 < (ops cs).length)
    (hp : p ++ [.cqe (i + 1) r] <+: tr) : ∃ r', KEv.cqe i r' ∈ p := by
  have sh := shape_of_submit hb
  revert p i r
  refine Machine.Reaches.inv' (M := chain sq) (fun _ tr => ∀ p i r, i + 1 < (ops cs).length → p ++ [.cqe (i + 1) r] <+: tr →
    ∃ r', KEv.cqe i r' ∈ p) ?_ ?_ h
  · intro p i r _ hh; exact absurd hh not_concat_prefix_nil
  clear h s tr
  intro s tr l s' e hr ih hs p i r hi1 hp
  rcases concat_prefix_append_cases hp with hp | ⟨q, hq, rfl⟩
  · exact ih p i r hi1 hp
  have hi' := inv_of_reaches sh (hr.step hs)
  have hi := inv_of_reaches sh hr
  have hm : KEv.cqe (i + 1) r ∈ e := hq.subset (by simp)
  obtain ⟨ok, h1, -⟩ := hi'.a (i + 1) r (by simp [hm])
  have h2 := hi'.f (i + 1) hi1 (by rw [h1]; simp) i (by omega)
  cases hph : s'.ph i with
  | done ok' =>
    obtain ⟨r', h3, -⟩ := hi'.b i ok' hph
    refine ⟨r', ?_⟩
    rcases List.mem_append.1 h3 with h3 | h3
    · exact List.mem_append_left _ h3
    · exfalso
      change kstep sq s l = some (s', e) at hs
      cases l <;> simp only [kstep] at hs <;>
      (repeat' split at hs) <;> simp only [Option.some.injEq, Prod.mk.injEq, reduceCtorEq] at hs <;>
      (obtain ⟨-, rfl⟩ := hs; simp at hm h3 <;> omega)
  | _ => rw [hph] at h2; simp [Phase.isDone] at h2

/-! ### The time-out entry -/

/-- the time-out's own report, unless it has expired, comes after the reports of all operations -/
theorem timeout_last_unless_expired (hb : (build cs).bind (submit · addr) = some sq) (s : KSt) (tr : List KEv)
    (h : (chain sq).Reaches s tr) (p : List KEv) (hp : p ++ [.cqe (ops cs).length (-ECANCELED)] <+: tr) (i : Nat)
    (him : i < (ops cs).length) : ∃ r, KEv.cqe i r ∈ p := by
  have sh := shape_of_submit hb
  revert p i
  refine Machine.Reaches.inv' (M := chain sq) (fun _ tr => ∀ p, p ++ [.cqe (ops cs).length (-ECANCELED)] <+: tr → ∀ i,
    i < (ops cs).length → ∃ r, KEv.cqe i r ∈ p) ?_ ?_ h
  · intro p hh; exact absurd hh not_concat_prefix_nil
  clear h s tr
  intro s tr l s' e hr ih hs p hp i him
  rcases concat_prefix_append_cases hp with hp | ⟨q, hq, rfl⟩
  · exact ih p hp i him
  have hi := inv_of_reaches sh hr
  have hm : KEv.cqe (ops cs).length (-ECANCELED) ∈ e := hq.subset (by simp)
  change kstep sq s l = some (s', e) at hs
  cases l with
  | sever j =>
    simp only [kstep] at hs
    split at hs
    · simp at hs
    · rename_i x hx
      split at hs <;> simp only [Option.some.injEq, Prod.mk.injEq, reduceCtorEq] at hs
      rename_i hc
      obtain ⟨rfl, rfl⟩ := hs
      simp at hm
      subst hm
      have hil := (List.getElem?_eq_some_iff.1 hx).1
      have h1 : isTimeoutEntry x = true := by
        have := sh.tmo _ x hx
        cases hx' : isTimeoutEntry x with
        | true => rfl
        | false => rw [hx'] at this; simp at this
      rcases hc with ⟨h2, -⟩ | ⟨-, -, h3⟩
      · rw [h1] at h2; simp at h2
      · have hl := (sh.link _ hil).2 (by omega)
        rcases h3 with h3 | h3
        · rw [hl] at h3; simp at h3
        · have hdone : (s.ph i).isDone = true := by
            by_cases hi1 : i = (ops cs).length - 1
            · rw [hi1]; exact h3
            · refine hi.f ((ops cs).length - 1) (by omega) ?_ i (by omega)
              intro hw; rw [hw] at h3; simp [Phase.isDone] at h3
          cases hph : s.ph i with
          | done ok => obtain ⟨r, h4, -⟩ := hi.b i ok hph; exact ⟨r, by simp [h4]⟩
          | _ => rw [hph] at hdone; simp [Phase.isDone] at hdone
  | report j late =>
    exfalso
    simp only [kstep] at hs
    split at hs <;> simp only [Option.some.injEq, Prod.mk.injEq, reduceCtorEq] at hs
    obtain ⟨-, rfl⟩ := hs
    cases late <;> simp [ETIME, ECANCELED] at hm
  | cancelled j =>
    exfalso
    simp only [kstep] at hs
    split at hs <;> simp only [Option.some.injEq, Prod.mk.injEq, reduceCtorEq] at hs
    rename_i hc
    obtain ⟨-, rfl⟩ := hs
    simp at hm
    have := (hi.d j (Or.inr hc)).1
    omega
  | finish j res short =>
    exfalso
    simp only [kstep] at hs
    split at hs <;> simp only [Option.some.injEq, Prod.mk.injEq, reduceCtorEq] at hs
    rename_i hc
    obtain ⟨-, rfl⟩ := hs
    simp at hm
    have := (hi.d j hc).1
    omega
  | _ =>
    exfalso
    simp only [kstep] at hs
    (repeat' split at hs) <;> simp only [Option.some.injEq, Prod.mk.injEq, reduceCtorEq] at hs <;>
      (obtain ⟨-, rfl⟩ := hs; simp at hm)

/-- All entries have reported: this is when the awaiting coroutine is resumed. -/
def AllReported (sq : List Sqe) (tr : List KEv) : Prop := ∀ i, i < sq.length → ∃ r, KEv.cqe i r ∈ tr

/-- The batch `b` carries the results of the execution `tr`, stored one by one in the order of their completion, with any values
of errno at these moments. -/
def Carries (b : Rep) (cs : List Call) (tr : List KEv) : Prop :=
  ∃ stales : List Int, stales.length = (reported tr).length ∧ ∃ b0, build cs = some b0 ∧
    b = (stales.zip (reported tr)).foldl (fun b x => addRet b x.1 x.2) b0

theorem foldl_addRet (l : List (Int × Int)) (b : Rep) :
    l.foldl (fun b x => addRet b x.1 x.2) b = { b with rets := b.rets ++ l.map fun x => mkRet x.1 x.2 } := by
  induction l generalizing b with
  | nil => simp
  | cons x l ih => rw [List.foldl_cons, ih]; simp [addRet]

/-- results and reports correspond -/
theorem carries_rets {b : Rep} {tr : List KEv} (h : Carries b cs tr) :
    b.tmo = (deadline cs).isSome ∧ b.rets.map (·.ret) = reported tr ∧
      ∀ x ∈ b.rets, ∃ stale, x = mkRet stale x.ret := by
  obtain ⟨stales, hl, b0, hb0, rfl⟩ := h
  rw [build_eq] at hb0
  injection hb0 with hb0
  subst hb0
  rw [foldl_addRet]
  have hret : ∀ st r, (mkRet st r).ret = r := by intro st r; simp only [mkRet]; (repeat' split) <;> rfl
  refine ⟨rfl, ?_, ?_⟩
  · simp only [List.nil_append, List.map_map]
    have : (fun x : Int × Int => ((fun x => x.ret) ∘ fun x : Int × Int => mkRet x.1 x.2) x) = Prod.snd := by
      funext x; simp [hret]
    rw [show ((fun x : Ret => x.ret) ∘ fun x : Int × Int => mkRet x.1 x.2) = Prod.snd from this]
    rw [List.map_snd_zip (by omega)]
  · intro x hx
    simp only [List.nil_append, List.mem_map] at hx
    obtain ⟨y, -, rfl⟩ := hx
    exact ⟨y.1, by rw [hret]⟩

theorem errorCode_mkRet (stale r : Int) : errorCode (mkRet stale r) = 0 ↔ 0 ≤ r := by
  simp only [mkRet, errorCode]
  split
  · split
    · dsimp only; split <;> omega
    · dsimp only; split <;> omega
  · dsimp only; split <;> omega

theorem sq_length (hb : (build cs).bind (submit · addr) = some sq) :
    sq.length = (ops cs).length + (if deadline cs = none then 0 else 1) := by
  rw [(submit_eq hb).1, intended_length]

/-- **C40, all_success is never wrong when it says yes.**  Whatever the order of the reports and the values of errno:
when all entries have reported and all_success() is true, every operation of the user succeeded. -/
theorem all_success_sound (hb : (build cs).bind (submit · addr) = some sq) (s : KSt) (tr : List KEv)
    (h : (chain sq).Reaches s tr) (hall : AllReported sq tr) (b : Rep) (hc : Carries b cs tr) (hs : allSuccess b = true)
    (i : Nat) (him : i < (ops cs).length) : ∃ r, 0 ≤ r ∧ KEv.cqe i r ∈ tr := by
  have hi := inv_of_reaches (shape_of_submit hb) h
  obtain ⟨h1, h2, h3⟩ := carries_rets hc
  have hlen := sq_length hb
  obtain ⟨r, hr⟩ := hall i (by omega)
  refine ⟨r, ?_, hr⟩
  -- every result but possibly the last is non-negative
  have hpos : ∀ k x, b.rets[k]? = some x → k < b.rets.length - (if b.tmo then 1 else 0) → 0 ≤ x.ret := by
    intro k x hk hlt
    rw [allSuccess, List.all_eq_true] at hs
    have hm : x ∈ b.rets.take (b.rets.length - (if b.tmo then 1 else 0)) := by
      apply List.mem_of_getElem? (i := k)
      rw [List.getElem?_take, if_pos hlt]; exact hk
    have h4 := hs x hm
    obtain ⟨st, hst⟩ := h3 x (List.mem_of_getElem? hk)
    rw [hst] at h4
    simpa [errorCode_mkRet] using h4
  have hlr : b.rets.length = (cqes tr).length := by
    rw [← List.length_map (f := fun x : Ret => x.ret), h2, reported_eq, List.length_map]
  have hget : ∀ (k i' : Nat) (r' : Int), (cqes tr)[k]? = some (i', r') → ∃ x : Ret, b.rets[k]? = some x ∧ x.ret = r' := by
    intro k i' r' hk
    have : (b.rets.map (fun x : Ret => x.ret))[k]? = some r' := by rw [h2, reported_eq, List.getElem?_map, hk]; rfl
    rw [List.getElem?_map] at this
    cases hx : b.rets[k]? with
    | none => rw [hx] at this; simp at this
    | some x => rw [hx] at this; simp at this; exact ⟨x, rfl, this⟩
  obtain ⟨k, hk⟩ := List.getElem?_of_mem (mem_cqes.2 hr)
  obtain ⟨x, hx, rfl⟩ := hget k i r hk
  obtain hd | ⟨t, hd⟩ := deadline_cases cs
  · apply hpos k x hx
    rw [h1, hd]; simp
    exact (List.getElem?_eq_some_iff.1 hx).1
  · -- the time-out's own result is negative, so it must be the last one
    obtain ⟨rt, hrt⟩ := hall (ops cs).length (by rw [hlen, hd]; simp)
    obtain ⟨kt, hkt⟩ := List.getElem?_of_mem (mem_cqes.2 hrt)
    obtain ⟨xt, hxt, rfl⟩ := hget kt _ rt hkt
    have hneg : xt.ret < 0 := by
      rcases hi.t _ hrt with h5 | h5 | h5 <;> rw [h5] <;> simp [ETIME, ECANCELED]
    have hkt1 : kt < b.rets.length := (List.getElem?_eq_some_iff.1 hxt).1
    have hk1 : k < b.rets.length := (List.getElem?_eq_some_iff.1 hx).1
    have hlast : kt = b.rets.length - 1 := by
      have := hpos kt xt hxt
      rw [h1, hd] at this
      simp at this
      omega
    apply hpos k x hx
    rw [h1, hd]
    simp
    have : k ≠ kt := by
      rintro rfl
      rw [hk] at hkt
      injection hkt with hkt
      injection hkt with hkt _
      omega
    omega

/-- if the time-out did not expire, its result is the last one -/
theorem last_report (hb : (build cs).bind (submit · addr) = some sq) (s : KSt) (tr : List KEv)
    (h : (chain sq).Reaches s tr) (hexp : KEv.cqe (ops cs).length (-ECANCELED) ∈ tr) :
    ∃ l, cqes tr = l ++ [((ops cs).length, -ECANCELED)] ∧ ∀ x ∈ l, x.1 < (ops cs).length := by
  have sh := shape_of_submit hb
  have hi := inv_of_reaches sh h
  obtain ⟨p, q, hpq⟩ := List.append_of_mem hexp
  have hpre : p ++ [.cqe (ops cs).length (-ECANCELED)] <+: tr := ⟨q, by rw [hpq]; simp⟩
  have hbefore := timeout_last_unless_expired hb s tr h p hpre
  have hsplit : cqes tr = cqes p ++ ((ops cs).length, -ECANCELED) :: cqes q := by
    rw [hpq]; simp [cqes]
  have hnd := hi.nd
  rw [hsplit] at hnd
  simp only [List.map_append, List.map_cons] at hnd
  rw [List.nodup_append, List.nodup_cons] at hnd
  obtain ⟨-, ⟨n1, n2⟩, n3⟩ := hnd
  have hle : ∀ x ∈ cqes tr, x.1 ≤ (ops cs).length := by
    intro x hx
    obtain ⟨ok, h1, -⟩ := hi.a x.1 x.2 (mem_cqes.1 hx)
    have h2 := hi.g x.1 (by rw [h1]; simp)
    have := sh.len
    omega
  have hq : cqes q = [] := by
    rw [List.eq_nil_iff_forall_not_mem]
    rintro ⟨i, r⟩ hx
    have h1 := hle (i, r) (by rw [hsplit]; simp [hx])
    dsimp only at h1
    rcases Nat.lt_or_eq_of_le h1 with h1 | h1
    · obtain ⟨r', h2⟩ := hbefore i h1
      exact n3 i (List.mem_map.2 ⟨_, mem_cqes.2 h2, rfl⟩) i
        (List.mem_cons_of_mem _ (List.mem_map.2 ⟨(i, r), hx, rfl⟩)) rfl
    · subst h1; exact n1 (List.mem_map.2 ⟨_, hx, rfl⟩)
  refine ⟨cqes p, by rw [hsplit, hq], ?_⟩
  intro x hx
  have h1 := hle x (by rw [hsplit]; simp [hx])
  rcases Nat.lt_or_eq_of_le h1 with h1 | h1
  · exact h1
  · exact absurd h1 (n3 x.1 (List.mem_map.2 ⟨x, hx, rfl⟩) _ (by simp))

/-- **C40, all_success says yes when it should, unless a time-out expired.**  All operations have succeeded and there is no time-out or
it has not expired: all_success() is true. -/
theorem all_success_complete_partial (hb : (build cs).bind (submit · addr) = some sq) (s : KSt) (tr : List KEv)
    (h : (chain sq).Reaches s tr) (hexp : deadline cs = none ∨ KEv.cqe (ops cs).length (-ECANCELED) ∈ tr)
    (hok : ∀ i r, i < (ops cs).length → KEv.cqe i r ∈ tr → 0 ≤ r) (b : Rep) (hc : Carries b cs tr) :
    allSuccess b = true := by
  have sh := shape_of_submit hb
  have hi := inv_of_reaches sh h
  obtain ⟨h1, h2, h3⟩ := carries_rets hc
  have hsl := sq_length hb
  rw [allSuccess, List.all_eq_true]
  intro x hx
  obtain ⟨st, hst⟩ := h3 x (List.mem_of_mem_take hx)
  suffices hh : 0 ≤ x.ret by rw [hst]; simpa [errorCode_mkRet] using hh
  have hx' : x.ret ∈ (reported tr).take (b.rets.length - (if b.tmo then 1 else 0)) := by
    rw [← h2, ← List.map_take]; exact List.mem_map.2 ⟨x, hx, rfl⟩
  have hlr : b.rets.length = (cqes tr).length := by
    rw [← List.length_map (f := fun x : Ret => x.ret), h2, reported_eq, List.length_map]
  rw [reported_eq, ← List.map_take, hlr, h1] at hx'
  obtain ⟨⟨i, r⟩, hm, hr⟩ := List.mem_map.1 hx'
  dsimp only at hr
  rw [← hr]
  rcases hexp with hd | hd
  · rw [hd] at hm hsl
    simp at hm
    obtain ⟨ok, h4, -⟩ := hi.a i r (mem_cqes.1 hm)
    have h5 := hi.g i (by rw [h4]; simp)
    exact hok i r (by simp at hsl; omega) (mem_cqes.1 hm)
  · obtain ⟨l, hl, hlt⟩ := last_report hb s tr h hd
    have hdl : deadline cs ≠ none := by
      intro hn
      obtain ⟨ok, h4, -⟩ := hi.a _ _ hd
      have h5 := hi.g _ (by rw [h4]; simp)
      rw [hsl, hn] at h5
      simp at h5
    obtain ⟨t, ht⟩ := (deadline_cases cs).resolve_left hdl
    rw [hl, ht] at hm
    simp at hm
    exact hok i r (hlt _ hm) (by rw [← mem_cqes, hl]; simp [hm])

/-- **C40, is_timeout never raises a false alarm.**  Whatever the order of the reports: when all entries have reported and
is_timeout() is true, a time-out was set and it has expired (its own result is not "cancelled"). -/
theorem is_timeout_sound (hb : (build cs).bind (submit · addr) = some sq) (s : KSt) (tr : List KEv)
    (h : (chain sq).Reaches s tr) (hall : AllReported sq tr) (b : Rep) (hc : Carries b cs tr)
    (hs : isTimeout b = some true) :
    deadline cs ≠ none ∧ ∃ r, KEv.cqe (ops cs).length r ∈ tr ∧ r ≠ -ECANCELED := by
  obtain ⟨h1, h2, h3⟩ := carries_rets hc
  have hdl : deadline cs ≠ none := by
    intro hn
    rw [isTimeout, h1, hn] at hs
    simp at hs
  refine ⟨hdl, ?_⟩
  obtain ⟨r, hr⟩ := hall (ops cs).length (by rw [sq_length hb, if_neg hdl]; omega)
  refine ⟨r, hr, ?_⟩
  rintro rfl
  obtain ⟨l, hl, -⟩ := last_report hb s tr h hr
  rw [isTimeout] at hs
  split at hs
  · simp at hs
  · have h4 : (b.rets.map (·.ret)).getLast? = some (-ECANCELED) := by rw [h2, reported_eq, hl]; simp
    rw [List.getLast?_map] at h4
    cases hx : b.rets.getLast? with
    | none => rw [hx] at h4; simp at h4
    | some x =>
      rw [hx] at h4 hs
      simp only [Option.map_some, Option.some.injEq] at h4 hs
      obtain ⟨st, hst⟩ := h3 x (List.mem_of_getLast? hx)
      rw [h4] at hst
      rw [hst] at hs
      simp [mkRet, errorCode, ECANCELED] at hs

/-- **C40, is_timeout tells when the time-out's result comes last.**  The time-out has expired and reports after the operations:
is_timeout() is true. -/
theorem is_timeout_complete_partial (hb : (build cs).bind (submit · addr) = some sq) (s : KSt) (tr : List KEv)
    (h : (chain sq).Reaches s tr) (r : Int) (p : List KEv) (hp : tr = p ++ [.cqe (ops cs).length r]) (hr : r ≠ -ECANCELED)
    (hd : deadline cs ≠ none) (b : Rep) (hc : Carries b cs tr) : isTimeout b = some true := by
  obtain ⟨h1, h2, h3⟩ := carries_rets hc
  have hi := inv_of_reaches (shape_of_submit hb) h
  obtain ⟨t, ht⟩ := (deadline_cases cs).resolve_left hd
  have h4 : (b.rets.map (·.ret)).getLast? = some r := by rw [h2, hp]; simp [reported]
  rw [List.getLast?_map] at h4
  rw [isTimeout, h1, ht]
  cases hx : b.rets.getLast? with
  | none => rw [hx] at h4; simp at h4
  | some x =>
    rw [hx] at h4
    simp only [Option.map_some, Option.some.injEq] at h4
    obtain ⟨st, hst⟩ := h3 x (List.mem_of_getLast? hx)
    rw [h4] at hst
    have hrt := hi.t r (by rw [hp]; simp)
    rw [hst]
    rcases hrt with h5 | h5 | h5
    · subst h5; simp [mkRet, errorCode, ETIME, ECANCELED]
    · subst h5; simp [mkRet, errorCode, ECANCELED]
    · exact absurd h5 hr

/-- **C40, what fails.**  The time-out has expired and its result is stored before that of the cancelled operation:
is_timeout() says no. -/
theorem is_timeout_missed_refuted : ∃ (cs : List Call) (sq : List Sqe) (s : KSt) (tr : List KEv) (b : Rep),
    (build cs).bind (submit · 7) = some sq ∧ (chain sq).Reaches s tr ∧ AllReported sq tr ∧ Carries b cs tr ∧
    KEv.cqe 1 (-ETIME) ∈ tr ∧ isTimeout b = some false := by
  refine ⟨[.prep 0, .timeout (some 1)], _, _, [.began 0, .cqe 1 (-ETIME), .cqe 0 (-ECANCELED)], _, rfl,
    ⟨[.start 0, .arm 1, .tick, .fire 1, .report 1 false, .cancelled 0], rfl⟩, ?_, ⟨[0, 0], by decide, _, rfl, rfl⟩, by decide, by decide⟩
  intro i hi
  have hi : i < 2 := hi
  obtain rfl | rfl : i = 0 ∨ i = 1 := by omega
  · exact ⟨-ECANCELED, by simp⟩
  · exact ⟨-ETIME, by simp⟩

/-- **C40, what fails.**  All operations succeeded, but the time-out expired at the same moment and reports first:
all_success() says no. -/
theorem all_success_missed_refuted : ∃ (cs : List Call) (sq : List Sqe) (s : KSt) (tr : List KEv) (b : Rep),
    (build cs).bind (submit · 7) = some sq ∧ (chain sq).Reaches s tr ∧ AllReported sq tr ∧ Carries b cs tr ∧
    ops cs = [0] ∧ KEv.cqe 0 5 ∈ tr ∧ allSuccess b = false := by
  refine ⟨[.prep 0, .timeout (some 1)], _, _, [.began 0, .cqe 1 (-114), .cqe 0 5], _, rfl,
    ⟨[.start 0, .arm 1, .tick, .fire 1, .report 1 true, .finish 0 5 false], rfl⟩, ?_, ⟨[0, 0], by decide, _, rfl, rfl⟩, by decide,
    by decide, by decide⟩
  intro i hi
  have hi : i < 2 := hi
  obtain rfl | rfl : i = 0 ∨ i = 1 := by omega
  · exact ⟨5, by simp⟩
  · exact ⟨-114, by simp⟩

/-! ### C62: what the time-out of a batch covers -/

/-- **C62, proved for a single operation.**  The time-out has expired and the kernel has done everything it can do on its own:
the operation and the time-out have reported. -/
theorem single_timeout_covers_partial (hb : (build cs).bind (submit · addr) = some sq) (s : KSt) (tr : List KEv)
    (h : (chain sq).Reaches s tr) (t : Nat) (hd : deadline cs = some t) (h1 : (ops cs).length = 1) (ht : t ≤ s.now)
    (hs : Settled sq s) : AllReported sq tr := by
  have sh := shape_of_submit hb
  have hi := inv_of_reaches sh h
  have hsl := sq_length hb
  rw [hd, h1] at hsl
  simp at hsl
  obtain ⟨hl, hsq⟩ := submit_eq hb
  have hint : ∃ o, intended cs = [.op o, .timeout t] := by
    simp only [intended, hd]
    match hoo : ops cs, h1 with
    | [o], _ => exact ⟨o, rfl⟩
  obtain ⟨o, ho⟩ := hint
  have hx0 : sq[0]? = some ⟨.op o, true, addr⟩ := by rw [hsq 0, ho, hsl]; rfl
  have hx1 : sq[1]? = some ⟨.timeout t, false, addr⟩ := by rw [hsq 1, ho, hsl]; rfl
  have hl1 : linkedTo sq 1 = true := (sh.link 1 (by omega)).2 (by omega)
  have hl0 : linkedTo sq 0 = false := rfl
  have d0 : ∃ ok, s.ph 0 = .done ok := by
    cases h0 : s.ph 0 with
    | waiting => have := hs (.start 0) rfl; simp [kstep, hx0, isTimeoutEntry, h0, hl0] at this
    | running =>
      exfalso
      cases h2 : s.ph 1 with
      | waiting => have := hs (.arm 1) rfl; simp [kstep, hx1, isTimeoutEntry, h0, h2, hl1] at this
      | armed => have := hs (.fire 1) rfl; simp [kstep, hx1, h0, h2, ht] at this
      | fired => have := hs (.report 1 false) rfl; simp [kstep, h2] at this
      | done ok =>
        -- the time-out cannot be done while the operation is running
        obtain ⟨r, hr, -⟩ := hi.b 1 ok h2
        have hrr : ∀ (s : KSt) (tr : List KEv), (chain sq).Reaches s tr → ∀ r, KEv.cqe 1 r ∈ tr → s.ph 0 ≠ .running := by
          clear hs hr h0 h2 ht hi h tr s
          intro s tr h
          suffices (∀ r, KEv.cqe 1 r ∈ tr → s.ph 0 ≠ .running ∧ s.ph 0 ≠ .waiting) ∧
              (s.ph 1 = .fired → s.ph 0 ≠ .running ∧ s.ph 0 ≠ .waiting) from fun r hr => (this.1 r hr).1
          refine Machine.Reaches.inv' (M := chain sq) (fun s tr => (∀ r, KEv.cqe 1 r ∈ tr → s.ph 0 ≠ .running ∧ s.ph 0 ≠ .waiting) ∧
              (s.ph 1 = .fired → s.ph 0 ≠ .running ∧ s.ph 0 ≠ .waiting)) ?_ ?_ h
          · simp [chain]
          clear h s tr
          intro s tr l s' e hr ih hs
          have hi := inv_of_reaches sh hr
          change kstep sq s l = some (s', e) at hs
          cases l with
          | tick =>
            simp only [kstep, Option.some.injEq, Prod.mk.injEq] at hs
            obtain ⟨rfl, rfl⟩ := hs
            simpa using ih
          | start i =>
            simp only [kstep] at hs
            split at hs
            · simp at hs
            · rename_i x hx
              split at hs <;> simp only [Option.some.injEq, Prod.mk.injEq, reduceCtorEq] at hs
              rename_i hc
              obtain ⟨rfl, rfl⟩ := hs
              have : i = 0 := by have := (sh.tmo i x hx).1 hc.1; omega
              subst this
              refine ⟨fun r hr => ?_, fun h => ?_⟩
              · simp at hr; exact absurd hc.2.1 (ih.1 r hr).2
              · dsimp only at h; rw [upd_ne _ _ (by omega)] at h; exact absurd hc.2.1 (ih.2 h).2
          | arm i =>
            simp only [kstep] at hs
            split at hs
            · simp at hs
            · rename_i x hx
              split at hs <;> simp only [Option.some.injEq, Prod.mk.injEq, reduceCtorEq] at hs
              rename_i hc
              obtain ⟨rfl, rfl⟩ := hs
              have hil := (List.getElem?_eq_some_iff.1 hx).1
              have : i ≠ 0 := by
                rintro rfl
                rw [hx0] at hx; injection hx with hx; subst hx
                simp [isTimeoutEntry] at hc
              obtain rfl : i = 1 := by omega
              refine ⟨fun r hr => ?_, fun h => ?_⟩
              · simp at hr; dsimp only; rw [upd_ne _ _ (by omega)]; exact ih.1 r hr
              · dsimp only at h; rw [upd_same] at h; simp at h
          | fire i =>
            simp only [kstep] at hs
            split at hs
            · split at hs <;> simp only [Option.some.injEq, Prod.mk.injEq, reduceCtorEq] at hs
              rename_i hc
              obtain ⟨rfl, rfl⟩ := hs
              have := (hi.g2 i (Or.inl hc.1)).1
              obtain rfl : i = 1 := by omega
              have : upd (upd s.ph (1 - 1) Phase.canceling) 1 Phase.fired 0 = .canceling := by
                rw [upd_ne _ _ (by omega)]; exact upd_same _ _ _
              refine ⟨fun _ _ => ?_, fun _ => ?_⟩ <;> dsimp only <;> rw [this] <;> simp
            · simp at hs
          | report i late =>
            simp only [kstep] at hs
            split at hs <;> simp only [Option.some.injEq, Prod.mk.injEq, reduceCtorEq] at hs
            rename_i hc
            obtain ⟨rfl, rfl⟩ := hs
            have := (hi.g2 i (Or.inr hc)).1
            obtain rfl : i = 1 := by omega
            refine ⟨fun _ _ => ?_, fun _ => ?_⟩ <;> dsimp only <;> rw [upd_ne _ _ (by omega)] <;> exact ih.2 hc
          | cancelled i =>
            simp only [kstep] at hs
            split at hs <;> simp only [Option.some.injEq, Prod.mk.injEq, reduceCtorEq] at hs
            rename_i hc
            obtain ⟨rfl, rfl⟩ := hs
            have := (hi.d i (Or.inr hc)).1
            obtain rfl : i = 0 := by omega
            refine ⟨fun _ _ => ?_, fun _ => ?_⟩ <;> dsimp only <;> rw [upd_same] <;> simp
          | finish i res short =>
            simp only [kstep] at hs
            split at hs <;> simp only [Option.some.injEq, Prod.mk.injEq, reduceCtorEq] at hs
            rename_i hc
            obtain ⟨rfl, rfl⟩ := hs
            have := (hi.d i hc).1
            obtain rfl : i = 0 := by omega
            refine ⟨fun _ _ => ?_, fun _ => ?_⟩ <;> dsimp only <;> rw [upd_same] <;> simp
          | sever i =>
            simp only [kstep] at hs
            split at hs
            · simp at hs
            · rename_i x hx
              split at hs <;> simp only [Option.some.injEq, Prod.mk.injEq, reduceCtorEq] at hs
              rename_i hc
              obtain ⟨rfl, rfl⟩ := hs
              have hil := (List.getElem?_eq_some_iff.1 hx).1
              have : i ≠ 0 := by
                rintro rfl
                rw [hx0] at hx; injection hx with hx; subst hx
                simp [isTimeoutEntry, hl0] at hc
              obtain rfl : i = 1 := by omega
              rw [hx1] at hx; injection hx with hx; subst hx
              simp [isTimeoutEntry, hl1] at hc
              refine ⟨fun _ _ => ?_, fun _ => ?_⟩ <;> dsimp only <;> rw [upd_ne _ _ (by omega)] <;>
                (constructor <;> intro hh <;> rw [hh] at hc <;> simp [Phase.isDone] at hc)
        exact hrr s tr h r hr h0
      | running => have := (hi.d 1 (Or.inl h2)).1; omega
      | canceling => have := (hi.d 1 (Or.inr h2)).1; omega
    | canceling => have := hs (.cancelled 0) rfl; simp [kstep, h0] at this
    | armed => have := (hi.g2 0 (Or.inl h0)).1; omega
    | fired => have := (hi.g2 0 (Or.inr h0)).1; omega
    | done ok => exact ⟨ok, rfl⟩
  obtain ⟨ok0, d0⟩ := d0
  have d1 : ∃ ok, s.ph 1 = .done ok := by
    cases h2 : s.ph 1 with
    | waiting => have := hs (.sever 1) rfl; simp [kstep, hx1, isTimeoutEntry, h2, d0, Phase.isDone] at this
    | armed => have := hs (.sever 1) rfl; simp [kstep, hx1, isTimeoutEntry, h2, d0, Phase.isDone] at this
    | fired => have := hs (.report 1 false) rfl; simp [kstep, h2] at this
    | done ok => exact ⟨ok, rfl⟩
    | running => have := (hi.d 1 (Or.inl h2)).1; omega
    | canceling => have := (hi.d 1 (Or.inr h2)).1; omega
  obtain ⟨ok1, d1⟩ := d1
  intro i hil
  obtain rfl | rfl : i = 0 ∨ i = 1 := by omega
  · obtain ⟨r, hr, -⟩ := hi.b _ _ d0; exact ⟨r, hr⟩
  · obtain ⟨r, hr, -⟩ := hi.b _ _ d1; exact ⟨r, hr⟩

theorem run_ticks (sq : List Sqe) (s : KSt) (n : Nat) :
    (chain sq).runFrom s (List.replicate n .tick) = some ({ s with now := s.now + n }, []) := by
  induction n generalizing s with
  | zero => rfl
  | succ n ih =>
    rw [List.replicate_succ, Machine.runFrom]
    simp only [chain, kstep]
    rw [show ({ init := ⟨fun _ => .waiting, 0⟩, step := kstep sq } : Machine KSt KLbl KEv) = chain sq from rfl, ih]
    simp [Nat.add_assoc, Nat.add_comm 1 n]

/-- **C62, what fails.**  Every batch of two or more operations, whatever its time-out: the first operation may stay unfinished for any
length of time after the time-out has expired while the kernel has nothing left to do on its own, so that the awaiting
coroutine hangs: the time-out is attached to the last operation only and not even armed. -/
theorem batch_timeout_covers_whole_refuted (hb : (build cs).bind (submit · addr) = some sq) (h2 : 2 ≤ (ops cs).length) (T : Nat) :
    ∃ s tr, (chain sq).Reaches s tr ∧ T ≤ s.now ∧ Settled sq s ∧ reported tr = [] ∧ KEv.began 0 ∈ tr := by
  have sh := shape_of_submit hb
  have hsl := sq_length hb
  have h0 : 0 < sq.length := by omega
  have ht0 : isTimeoutEntry sq[0] = false := (sh.tmo 0 _ (List.getElem?_eq_getElem h0)).2 (by omega)
  refine ⟨⟨upd (fun _ => .waiting) 0 .running, T⟩, [.began 0], ⟨.start 0 :: List.replicate T .tick, ?_⟩, Nat.le_refl _, ?_, rfl, by simp⟩
  · rw [Machine.run, Machine.runFrom]
    have : (chain sq).step (chain sq).init (.start 0) = some (⟨upd (fun _ => .waiting) 0 .running, 0⟩, [.began 0]) := by
      simp [chain, kstep, List.getElem?_eq_getElem h0, ht0, linkedTo]
    rw [this]
    simp only [run_ticks]
    simp
  · intro l hl
    cases l with
    | tick => simp [KLbl.own] at hl
    | finish => simp [KLbl.own] at hl
    | report i late => simp [kstep, upd_apply]; split <;> simp
    | cancelled i => simp [kstep, upd_apply]; split <;> simp
    | fire i =>
      simp only [kstep]
      split
      · rw [if_neg]; simp [upd_apply]; intro h; split at h <;> simp at h
      · rfl
    | start i =>
      simp only [kstep]
      split
      · rfl
      · rename_i x hx
        have hil := (List.getElem?_eq_some_iff.1 hx).1
        rw [if_neg]
        rintro ⟨-, h4, h5⟩
        simp only [upd_apply] at h4 h5
        have hi0 : i ≠ 0 := by rintro rfl; simp at h4
        rcases h5 with h5 | h5
        · rw [(sh.link i hil).2 (by omega)] at h5; simp at h5
        · split at h5 <;> simp at h5
    | arm i =>
      simp only [kstep]
      split
      · rfl
      · rename_i x hx
        rw [if_neg]
        rintro ⟨h3, h4, h5, h6⟩
        have hil := (List.getElem?_eq_some_iff.1 hx).1
        have := (sh.link i hil).1 h5
        have hnm : ¬ i < (ops cs).length := by
          intro hh; rw [(sh.tmo i x hx).2 hh] at h3; simp at h3
        rw [upd_ne _ _ (by omega)] at h6
        simp at h6
    | sever i =>
      simp only [kstep]
      split
      · rfl
      · rename_i x hx
        have hil := (List.getElem?_eq_some_iff.1 hx).1
        rw [if_neg]
        simp only [upd_apply]
        rintro (⟨-, h4, h5, h6⟩ | ⟨h3, -, h6⟩)
        · split at h6 <;> simp at h6
        · have hnm : ¬ i < (ops cs).length := by
            intro hh; rw [(sh.tmo i x hx).2 hh] at h3; simp at h3
          rcases h6 with h6 | h6
          · rw [(sh.link i hil).2 (by omega)] at h6; simp at h6
          · split at h6 <;> simp [Phase.isDone] at h6

/-! ### C63: the result of a single operation -/

/-- **C63, proved when the time-out has not expired (or there is none).**  The result the awaiting coroutine gets from
`co_await` of a single operation is the result of that operation. -/
theorem single_result_own_partial (hb : (build cs).bind (submit · addr) = some sq) (s : KSt) (tr : List KEv)
    (h : (chain sq).Reaches s tr) (h1 : (ops cs).length = 1) (hall : AllReported sq tr)
    (hexp : deadline cs = none ∨ KEv.cqe 1 (-ECANCELED) ∈ tr) (b : Rep) (hc : Carries b cs tr) :
    ∃ stale r, KEv.cqe 0 r ∈ tr ∧ singleResult b = some (mkRet stale r) := by
  have sh := shape_of_submit hb
  have hi := inv_of_reaches sh h
  obtain ⟨-, h2, h3⟩ := carries_rets hc
  have hsl := sq_length hb
  obtain ⟨r, hr⟩ := hall 0 (by omega)
  have hfirst : ∃ r', (cqes tr).head? = some (0, r') := by
    rcases hexp with hd | hd
    · rw [hd, h1] at hsl
      simp at hsl
      cases hq : cqes tr with
      | nil => have := mem_cqes.2 hr; rw [hq] at this; simp at this
      | cons x l =>
        obtain ⟨i, r'⟩ := x
        have hm : KEv.cqe i r' ∈ tr := by rw [← mem_cqes, hq]; simp
        obtain ⟨ok, h4, -⟩ := hi.a i r' hm
        have := hi.g i (by rw [h4]; simp)
        obtain rfl : i = 0 := by omega
        exact ⟨r', rfl⟩
    · rw [← h1] at hd
      obtain ⟨l, hl, hlt⟩ := last_report hb s tr h hd
      cases l with
      | nil =>
        have := mem_cqes.2 hr
        rw [hl] at this
        simp at this
        omega
      | cons x l =>
        obtain ⟨i, r'⟩ := x
        have := hlt (i, r') (by simp)
        dsimp only at this
        obtain rfl : i = 0 := by omega
        exact ⟨r', by rw [hl]; rfl⟩
  obtain ⟨r', hr'⟩ := hfirst
  have hh : (b.rets.map (·.ret)).head? = some r' := by rw [h2, reported_eq, List.head?_map, hr']; rfl
  cases hbr : b.rets with
  | nil => rw [hbr] at hh; simp at hh
  | cons x l =>
    rw [hbr] at hh
    simp at hh
    obtain ⟨st, hst⟩ := h3 x (by rw [hbr]; simp)
    refine ⟨st, r', ?_, ?_⟩
    · rw [← mem_cqes]; exact List.mem_of_mem_head? hr'
    · rw [singleResult, hbr, ← hh, List.head?_cons, ← hst]

/-- **C63, what fails.**  A receive with a time-out delivers 5 bytes, the time-out expires at the same moment and reports
first: the caller is told that an error happened and that nothing was delivered, and the bytes are lost. -/
theorem single_result_lost_refuted : ∃ (cs : List Call) (sq : List Sqe) (s : KSt) (tr : List KEv) (b : Rep) (x : Ret),
    (build cs).bind (submit · 7) = some sq ∧ (chain sq).Reaches s tr ∧ AllReported sq tr ∧ Carries b cs tr ∧
    ops cs = [0] ∧ KEv.cqe 0 5 ∈ tr ∧ singleResult b = some x ∧ nbytesDelivered x = 0 ∧ errorCode x ≠ 0 := by
  refine ⟨[.prep 0, .timeout (some 1)], _, _, [.began 0, .cqe 1 (-114), .cqe 0 5], _, _, rfl,
    ⟨[.start 0, .arm 1, .tick, .fire 1, .report 1 true, .finish 0 5 false], rfl⟩, ?_, ⟨[0, 0], by decide, _, rfl, rfl⟩, by decide,
    by decide, rfl, by decide, by decide⟩
  intro i hi
  have hi : i < 2 := hi
  obtain rfl | rfl : i = 0 ∨ i = 1 := by omega
  · exact ⟨5, by simp⟩
  · exact ⟨-114, by simp⟩

/-! ### C39: a batch with a time-out cannot be reused at all -/

/-- **C39, what fails.**  After clear() of an executed batch that had a time-out, the next prep call dereferences the end of an
empty vector. -/
theorem clear_with_timeout_refuted : ∃ b b', build [.prep 0, .timeout (some 1)] = some b ∧
    clear (addRet (addRet b 0 5) 0 (-ECANCELED)) = some b' ∧ prep b' 3 = none ∧ timeout b' (some 9) = none :=
  ⟨_, _, rfl, rfl, by decide, by decide⟩

/-! ### C41: results -/

/-- **C41.**  For every result of the kernel except -1 and every value of errno: the error code is success exactly if the result is not
negative, otherwise the kernel's error; the number of bytes is the result or 0. -/
theorem ioret_truthful_partial (stale r : Int) (h : r ≠ -1) :
    errorCode (mkRet stale r) = (if 0 ≤ r then 0 else -r) ∧ nbytesDelivered (mkRet stale r) = max r 0 := by
  have hm : mkRet stale r = ⟨r, if r < 0 then -r else 0⟩ := by
    simp only [mkRet]
    split
    · rw [if_neg (fun hh => h hh.1)]
    · rfl
  rw [hm]
  simp only [errorCode, nbytesDelivered]
  split <;> constructor <;> (try split) <;> omega

/-- **C41.**  Whether there is an error at all, and the number of bytes, are always reported correctly. -/
theorem ioret_success_iff (stale r : Int) :
    (errorCode (mkRet stale r) = 0 ↔ 0 ≤ r) ∧ nbytesDelivered (mkRet stale r) = max r 0 := by
  refine ⟨errorCode_mkRet stale r, ?_⟩
  simp only [mkRet, nbytesDelivered]
  split
  · split
    · dsimp only; split <;> omega
    · dsimp only; split <;> omega
  · dsimp only; split <;> omega

/-- **C41, what fails.**  The kernel reports EPERM (-1); the thread's errno is still set from something else: that error is reported. -/
theorem ioret_stale_errno_refuted (stale : Int) (h : stale ≠ 0) : errorCode (mkRet stale (-1)) = stale := by
  simp [mkRet, errorCode, h]

/-- The hypotheses of the theorems are met by a batch of two reads with a time-out that does not expire. -/
example : ∃ (sq : List Sqe) (s : KSt) (tr : List KEv) (b : Rep),
    (build [.timeout (some 9), .prep 4, .prep 5]).bind (submit · 7) = some sq ∧ (chain sq).Reaches s tr ∧
    AllReported sq tr ∧ Carries b [.timeout (some 9), .prep 4, .prep 5] tr ∧ allSuccess b = true ∧ isTimeout b = some false := by
  refine ⟨_, _, [.began 0, .cqe 0 100, .began 1, .cqe 1 200, .cqe 2 (-ECANCELED)], _, rfl,
    ⟨[.start 0, .finish 0 100 false, .start 1, .arm 2, .finish 1 200 false, .sever 2], rfl⟩, ?_,
    ⟨[0, 3, 0], by decide, _, rfl, rfl⟩, by decide, by decide⟩
  intro i hi
  have hi : i < 3 := hi
  obtain rfl | rfl | rfl : i = 0 ∨ i = 1 ∨ i = 2 := by omega
  · exact ⟨100, by simp⟩
  · exact ⟨200, by simp⟩
  · exact ⟨-ECANCELED, by simp⟩

end Verif.OpBatch
