import Verif.Uring.Props
/-!
# C36, C37, C39 of the io_uring loop; witnesses
-/

namespace Verif.Uring

/-! ### C36 -/

/-- **C36, what fails.**  A batch of 1025 operations writes through a null pointer, although the ring is empty. -/
theorem uring_large_batch_refuted :
    ∃ (s : St) (tr : List Ev), machine.Reaches s tr ∧ Ev.submitted 0 0 1025 0 0 ∈ tr ∧ Ev.ub ∈ tr :=
  ⟨_, _, ⟨[.newBatch 0 1025, .exec 0 0 2000], rfl⟩, by simp [machine, init], by simp⟩

/-- **C36 (partial).**  If io_uring_submit always takes everything, the submission ring is empty whenever a batch is executed, so
that batches of up to 1024 operations are safe whatever else is outstanding (with `uring_no_ub`).
Missing: larger batches, see `uring_large_batch_refuted`. -/
theorem uring_batch_up_to_1024_partial (ls : List Lbl) (s : St) (tr : List Ev) (h : machine.run ls = some (s, tr))
    (hacc : ∀ c r acc, Lbl.exec c r acc ∈ ls → entries ≤ acc)
    (hn : ∀ c b n k q, Ev.submitted c b n k q ∈ tr → 1 ≤ n ∧ k = 0 ∧ n ≤ 1024) (hc : ∀ k, Ev.cleared k ∈ tr → 1 ≤ k) :
    Ev.ub ∉ tr := by
  have key : ∀ (ls : List Lbl) (s0 s : St) (tr0 tr : List Ev), machine.runFrom s0 ls = some (s, tr) →
      (∀ c r acc, Lbl.exec c r acc ∈ ls → entries ≤ acc) →
      s0.sq = [] → (∀ c b n k q, Ev.submitted c b n k q ∈ tr → n ≤ 1024) →
      ∀ c b n k q, Ev.submitted c b n k q ∈ tr → q = 0 := by
    intro ls
    induction ls with
    | nil =>
      intro s0 s tr0 tr h _ _ _ c b n k q hm
      simp only [Machine.runFrom, Option.some.injEq, Prod.mk.injEq] at h
      obtain ⟨rfl, rfl⟩ := h
      simp at hm
    | cons l ls ih =>
      intro s0 s tr0 tr h hacc h0 hn c b n k q hm
      simp only [Machine.runFrom] at h
      split at h
      · simp at h
      · rename_i s1 e1 hst
        split at h
        · simp at h
        · rename_i s2 e2 hrest
          simp only [Option.some.injEq, Prod.mk.injEq] at h
          obtain ⟨rfl, rfl⟩ := h
          change step s0 l = some (s1, e1) at hst
          have h1 : s1.sq = [] ∧ ∀ c b n k q, Ev.submitted c b n k q ∈ e1 → q = 0 := by
            cases l
            case exec c0 r acc =>
              have ha := hacc c0 r acc (by simp)
              simp only [step] at hst
              (repeat' split at hst) <;> simp only [Option.some.injEq, Prod.mk.injEq, reduceCtorEq] at hst <;>
                obtain ⟨rfl, rfl⟩ := hst
              · exact ⟨h0, by simp [h0]⟩
              · exact ⟨h0, by simp⟩
              · exact ⟨h0, by simp [h0]⟩
              · rename_i hlen
                refine ⟨?_, by simp [h0]⟩
                simp only [h0, List.nil_append, List.drop_eq_nil_iff, List.length_map, List.length_range]
                simp only [h0, List.length_nil] at hlen
                omega
            case destroy =>
              simp only [step] at hst
              split at hst <;> simp only [Option.some.injEq, Prod.mk.injEq, reduceCtorEq] at hst
              obtain ⟨rfl, rfl⟩ := hst
              exact ⟨rfl, by simp⟩
            all_goals
              simp only [step] at hst
              (repeat' split at hst) <;> simp only [Option.some.injEq, Prod.mk.injEq, reduceCtorEq] at hst <;>
                (obtain ⟨rfl, rfl⟩ := hst; exact ⟨h0, by simp⟩)
          rcases List.mem_append.1 hm with hm | hm
          · exact h1.2 _ _ _ _ _ hm
          · exact ih s1 s2 [] e2 hrest (fun c r acc hh => hacc c r acc (List.mem_cons_of_mem _ hh)) h1.1
              (fun c b n k q hh => hn c b n k q (List.mem_append_right _ hh)) c b n k q hm
  refine uring_no_ub s tr ⟨ls, h⟩ ⟨?_, hc⟩
  intro c b n k q hm
  have := key ls _ s [] tr h hacc rfl (fun c b n k q hm => (hn c b n k q hm).2.2) c b n k q hm
  have := hn c b n k q hm
  omega

/-! ### C37 -/

theorem misses_append (a b : List Ev) : misses (a ++ b) = b.foldl missStep (misses a) := by
  simp [misses]

theorem miss_inv {s : St} {tr : List Ev} (h : machine.Reaches s tr) :
    (s.dead = false → s.miss = 2 ^ misses tr % 2 ^ 32) ∧ (s.cleaning = true ↔ Ev.cleaned ∈ tr) := by
  refine Machine.Reaches.inv (M := machine) (fun s tr => (s.dead = false → s.miss = 2 ^ misses tr % 2 ^ 32) ∧
    (s.cleaning = true ↔ Ev.cleaned ∈ tr)) (by simp [machine, init, misses]) ?_ h
  clear h s tr
  intro s tr l s' e ih hs
  change step s l = some (s', e) at hs
  cases l
  case destroy =>
    simp only [step] at hs
    split at hs <;> simp only [Option.some.injEq, Prod.mk.injEq, reduceCtorEq] at hs
    obtain ⟨rfl, rfl⟩ := hs
    exact ⟨by simp, by simpa using ih.2⟩
  case pollBegin =>
    simp only [step] at hs
    split at hs
    · rename_i hidle
      rw [idle_iff] at hidle
      (repeat' split at hs) <;> simp only [Option.some.injEq, Prod.mk.injEq, reduceCtorEq] at hs <;> obtain ⟨rfl, rfl⟩ := hs
      · simpa using ih
      · refine ⟨?_, by simpa using ih.2⟩
        intro _
        rw [misses_append]
        simp only [List.foldl_cons, List.foldl_nil, missStep]
        rw [ih.1 hidle.1, Nat.mul_mod_mod, Nat.pow_succ' (n := misses tr)]
      · refine ⟨?_, by simpa using ih.2⟩
        intro _; rw [misses_append]; simp [missStep]
    · simp at hs
  case exec c r acc =>
    simp only [step] at hs
    (repeat' split at hs) <;> simp only [Option.some.injEq, Prod.mk.injEq, reduceCtorEq] at hs <;> obtain ⟨rfl, rfl⟩ := hs
    · exact ⟨by simp, by simpa using ih.2⟩
    · exact ⟨fun hd => by rw [misses_append]; simpa [missStep] using ih.1 hd, by simpa using ih.2⟩
    · exact ⟨by simp, by simpa using ih.2⟩
    · exact ⟨fun _ => by rw [misses_append]; simp [missStep], by simpa using ih.2⟩
  all_goals
    simp only [step] at hs
    (repeat' split at hs) <;> simp only [Option.some.injEq, Prod.mk.injEq, reduceCtorEq] at hs <;>
      (obtain ⟨rfl, rfl⟩ := hs
       exact ⟨fun hd => by first | simp at hd; done | (rw [misses_append]; simpa [missStep] using ih.1 hd), by simpa using ih.2⟩)

theorem outstanding_iff {s : St} {tr : List Ev} (h : machine.Reaches s tr) (hp : Proper tr) :
    Outstanding tr ↔ s.ops ≠ [] := by
  have hi := inv_of_reaches h hp
  constructor
  · rintro ⟨c, b, n, k, q, h1, h2⟩ hnil
    have := hi.total b
    rw [if_pos (hi.bn _ _ _ _ _ h1), h2, hnil] at this
    simp at this
  · intro hne
    obtain ⟨o, ho⟩ := List.exists_mem_of_ne_nil _ hne
    obtain ⟨⟨q, h1⟩, -⟩ := hi.live o ho
    refine ⟨_, _, _, _, _, h1, ?_⟩
    have := hi.total o.b
    have hpos : 0 < (s.ops.map Op.b).count o.b := List.count_pos_iff.2 (List.mem_map.2 ⟨o, ho, rfl⟩)
    split at this <;> omega

/-- **C37.**  The sleep (ms) the loop proposes, for every history: nothing while an operation is outstanding; otherwise
25·(2^m − 1), at most 200, after `m` polls without a completion since the last submission or completion
(in spite of the 32 bit counter); 10 s once stop was requested. -/
theorem uring_backoff (s : St) (tr : List Ev) (h : machine.Reaches s tr) (hp : Proper tr) (he : Ev.ended ∉ tr) :
    (Ev.cleaned ∈ tr → maxSleep s = 10000) ∧
    (Ev.cleaned ∉ tr → Outstanding tr → maxSleep s = 0) ∧
    (Ev.cleaned ∉ tr → ¬ Outstanding tr → maxSleep s = min 200 (25 * (2 ^ misses tr - 1))) := by
  have hi := inv_of_reaches h hp
  obtain ⟨h1, h2⟩ := miss_inv h
  have hdead : s.dead = false := by
    cases hd : s.dead with
    | false => rfl
    | true => exact absurd (hi.dead hd) he
  have hm := h1 hdead
  refine ⟨?_, ?_, ?_⟩
  · intro hc; simp [maxSleep, h2.2 hc]
  · intro hc ho
    have : s.cleaning = false := by
      cases hcl : s.cleaning with
      | false => rfl
      | true => exact absurd (h2.1 hcl) hc
    simp [maxSleep, this, (outstanding_iff h hp).1 ho]
  · intro hc ho
    have hcl : s.cleaning = false := by
      cases hcl : s.cleaning with
      | false => rfl
      | true => exact absurd (h2.1 hcl) hc
    have hops : s.ops = [] := by
      by_contra hne; exact ho ((outstanding_iff h hp).2 hne)
    simp only [maxSleep, hcl, hops, if_true, Bool.false_eq_true, if_false, Nat.one_mul, hm]
    by_cases hlt : misses tr < 32
    · have hp1 : 2 ^ misses tr < 2 ^ 32 := Nat.pow_lt_pow_right (by omega) hlt
      have hp0 : 0 < 2 ^ misses tr := Nat.pow_pos (by omega)
      rw [Nat.mod_eq_of_lt hp1]
      have : (2 ^ misses tr + (2 ^ 32 - 1)) % 2 ^ 32 = 2 ^ misses tr - 1 := by omega
      rw [this, Nat.mul_comm]
    · have hge : 2 ^ 32 ≤ 2 ^ misses tr := Nat.pow_le_pow_right (by omega) (by omega)
      have hz : 2 ^ misses tr % 2 ^ 32 = 0 := Nat.mod_eq_zero_of_dvd (Nat.pow_dvd_pow 2 (by omega))
      rw [hz]
      omega

/-- **C37.**  More misses never propose a shorter sleep, the proposal stays at most 200 ms before stop, and directly after a
submission or a poll with a completion it is 0. -/
theorem uring_backoff_bounds (s s' : St) (tr tr' : List Ev) (h : machine.Reaches s tr) (h' : machine.Reaches s' tr')
    (hp : Proper tr) (hp' : Proper tr') (he : Ev.ended ∉ tr) (he' : Ev.ended ∉ tr') (hc : Ev.cleaned ∉ tr)
    (hc' : Ev.cleaned ∉ tr') :
    maxSleep s ≤ 200 ∧ (misses tr = 0 → maxSleep s = 0) ∧
    (¬ Outstanding tr' → misses tr ≤ misses tr' → maxSleep s ≤ maxSleep s') := by
  have a := (uring_backoff s tr h hp he).2
  have b := (uring_backoff s' tr' h' hp' he').2
  by_cases ho : Outstanding tr
  · have := a.1 hc ho
    refine ⟨by omega, fun _ => this, fun _ _ => by omega⟩
  · have h1 := a.2 hc ho
    refine ⟨by omega, fun hz => by rw [h1, hz]; rfl, fun ho' hle => ?_⟩
    have h2 := b.2 hc' ho'
    rw [h1, h2]
    have : 2 ^ misses tr ≤ 2 ^ misses tr' := Nat.pow_le_pow_right (by omega) hle
    omega

/-! ### C39 -/

/-- **C39, what fails.**  If the batch object still carries as many results as it now has operations, e.g. because it
was executed, cleared and filled again, the coroutine executing it is never resumed, however long it waits. -/
theorem batch_reuse_never_resumes (s : St) (tr : List Ev) (h : machine.Reaches s tr)
    (c b n k q : Nat) (hb : Ev.submitted c b n k q ∈ tr) (hk : n ≤ k) : ∀ c' rets, Ev.resumed c' b rets ∉ tr := by
  have key : (∀ c b n k q, Ev.submitted c b n k q ∈ tr → b < s.next) ∧
      (∀ c b n k q c' n' k' q', Ev.submitted c b n k q ∈ tr → Ev.submitted c' b n' k' q' ∈ tr → n = n' ∧ k = k') ∧
      (s.ops.map Op.r).Nodup ∧
      (∀ o ∈ s.ops, ∃ k q, Ev.submitted o.c o.b (s.reps o.r).n k q ∈ tr ∧ k ≤ (s.reps o.r).rets.length) ∧
      (∀ c b rets, Ev.resumed c b rets ∈ tr → ∃ n k q, Ev.submitted c b n k q ∈ tr ∧ k < n) := by
    refine Machine.Reaches.inv (M := machine) (fun s tr => (∀ c b n k q, Ev.submitted c b n k q ∈ tr → b < s.next) ∧
      (∀ c b n k q c' n' k' q', Ev.submitted c b n k q ∈ tr → Ev.submitted c' b n' k' q' ∈ tr → n = n' ∧ k = k') ∧
      (s.ops.map Op.r).Nodup ∧
      (∀ o ∈ s.ops, ∃ k q, Ev.submitted o.c o.b (s.reps o.r).n k q ∈ tr ∧ k ≤ (s.reps o.r).rets.length) ∧
      (∀ c b rets, Ev.resumed c b rets ∈ tr → ∃ n k q, Ev.submitted c b n k q ∈ tr ∧ k < n)) ?_ ?_ h
    · simp [machine, init]
    clear h s tr hb hk
    intro s tr l s' e ⟨i1, i2, i3, i4, i5⟩ hs
    change step s l = some (s', e) at hs
    -- events that neither submit nor resume
    have neutral : (∀ c b n k q, Ev.submitted c b n k q ∉ e) → (∀ c b r, Ev.resumed c b r ∉ e) → s'.next = s.next →
        s'.ops.Sublist s.ops → (∀ o ∈ s'.ops, (s'.reps o.r).n = (s.reps o.r).n ∧
          (s.reps o.r).rets.length ≤ (s'.reps o.r).rets.length) →
        (∀ c b n k q, Ev.submitted c b n k q ∈ tr ++ e → b < s'.next) ∧
        (∀ c b n k q c' n' k' q', Ev.submitted c b n k q ∈ tr ++ e → Ev.submitted c' b n' k' q' ∈ tr ++ e → n = n' ∧ k = k') ∧
        (s'.ops.map Op.r).Nodup ∧
        (∀ o ∈ s'.ops, ∃ k q, Ev.submitted o.c o.b (s'.reps o.r).n k q ∈ tr ++ e ∧ k ≤ (s'.reps o.r).rets.length) ∧
        (∀ c b rets, Ev.resumed c b rets ∈ tr ++ e → ∃ n k q, Ev.submitted c b n k q ∈ tr ++ e ∧ k < n) := by
      intro n1 n2 n3 n4 n5
      refine ⟨?_, ?_, i3.sublist (n4.map _), ?_, ?_⟩
      · intro c b n k q hm
        rcases List.mem_append.1 hm with hm | hm
        · rw [n3]; exact i1 _ _ _ _ _ hm
        · exact absurd hm (n1 _ _ _ _ _)
      · intro c b n k q c' n' k' q' hm hm'
        rcases List.mem_append.1 hm with hm | hm
        · rcases List.mem_append.1 hm' with hm' | hm'
          · exact i2 _ _ _ _ _ _ _ _ _ hm hm'
          · exact absurd hm' (n1 _ _ _ _ _)
        · exact absurd hm (n1 _ _ _ _ _)
      · intro o ho
        obtain ⟨k, q, h1, h2⟩ := i4 o (n4.subset ho)
        obtain ⟨h3, h4⟩ := n5 o ho
        exact ⟨k, q, by rw [h3]; exact List.mem_append_left _ h1, by omega⟩
      · intro c b rets hm
        rcases List.mem_append.1 hm with hm | hm
        · obtain ⟨n, k, q, h1, h2⟩ := i5 _ _ _ hm
          exact ⟨n, k, q, List.mem_append_left _ h1, h2⟩
        · exact absurd hm (n2 _ _ _)
    cases l
    case exec c r acc =>
      simp only [step] at hs
      split at hs
      · rename_i hc
        have hfl := inFlight_false hc.2.1
        have sub : ∀ q k n, (∀ c' b' n' k' q', Ev.submitted c' b' n' k' q' ∈ tr ++ [Ev.submitted c s.next n k q] → b' < s.next + 1) ∧
            (∀ c1 b n1 k1 q1 c' n' k' q', Ev.submitted c1 b n1 k1 q1 ∈ tr ++ [Ev.submitted c s.next n k q] →
              Ev.submitted c' b n' k' q' ∈ tr ++ [Ev.submitted c s.next n k q] → n1 = n' ∧ k1 = k') := by
          intro q k n
          constructor
          · intro c' b' n' k' q' hm
            simp at hm
            rcases hm with hm | hm
            · have := i1 _ _ _ _ _ hm; omega
            · omega
          · intro c1 b n1 k1 q1 c' n' k' q' hm hm'
            simp at hm hm'
            rcases hm with hm | hm
            · rcases hm' with hm' | hm'
              · exact i2 _ _ _ _ _ _ _ _ _ hm hm'
              · have := i1 _ _ _ _ _ hm; omega
            · rcases hm' with hm' | hm'
              · have := i1 _ _ _ _ _ hm'; omega
              · omega
        have withub : ∀ n k q, (∀ c' b' n' k' q', Ev.submitted c' b' n' k' q' ∈ tr ++ [Ev.submitted c s.next n k q, .ub] ↔
            Ev.submitted c' b' n' k' q' ∈ tr ++ [Ev.submitted c s.next n k q]) := by
          intro n k q c' b' n' k' q'; simp
        (repeat' split at hs) <;> simp only [Option.some.injEq, Prod.mk.injEq, reduceCtorEq] at hs <;> obtain ⟨rfl, rfl⟩ := hs
        · simp only [withub]
          refine ⟨(sub _ _ _).1, (sub _ _ _).2, i3, ?_, ?_⟩
          · intro o ho; obtain ⟨k, q, h1, h2⟩ := i4 o ho; exact ⟨k, q, by simp [h1], h2⟩
          · intro c' b' rets hm; simp at hm; obtain ⟨n, k, q, h1, h2⟩ := i5 _ _ _ hm; exact ⟨n, k, q, by simp [h1], h2⟩
        · refine ⟨?_, ?_, i3, ?_, ?_⟩
          · intro c' b' n' k' q' hm; simp at hm; have := i1 _ _ _ _ _ hm; dsimp only; omega
          · intro c1 b n1 k1 q1 c' n' k' q' hm hm'; simp at hm hm'; exact i2 _ _ _ _ _ _ _ _ _ hm hm'
          · intro o ho; obtain ⟨k, q, h1, h2⟩ := i4 o ho; exact ⟨k, q, by simp [h1], h2⟩
          · intro c' b' rets hm; simp at hm; obtain ⟨n, k, q, h1, h2⟩ := i5 _ _ _ hm; exact ⟨n, k, q, by simp [h1], h2⟩
        · simp only [withub]
          refine ⟨(sub _ _ _).1, (sub _ _ _).2, i3, ?_, ?_⟩
          · intro o ho; obtain ⟨k, q, h1, h2⟩ := i4 o ho; exact ⟨k, q, by simp [h1], h2⟩
          · intro c' b' rets hm; simp at hm; obtain ⟨n, k, q, h1, h2⟩ := i5 _ _ _ hm; exact ⟨n, k, q, by simp [h1], h2⟩
        · refine ⟨(sub _ _ _).1, (sub _ _ _).2, ?_, ?_, ?_⟩
          · simp only [List.map_append, List.map_cons, List.map_nil]
            refine List.nodup_append.2 ⟨i3, by simp, ?_⟩
            intro x hx y hy
            obtain ⟨o, ho, rfl⟩ := List.mem_map.1 hx
            simp at hy; subst hy; exact hfl o ho
          · intro o ho
            rcases List.mem_append.1 ho with ho | ho
            · obtain ⟨k, q, h1, h2⟩ := i4 o ho; exact ⟨k, q, by simp [h1], h2⟩
            · simp only [List.mem_singleton] at ho; subst ho
              exact ⟨_, _, List.mem_append_right _ (List.mem_singleton.2 rfl), Nat.le_refl _⟩
          · intro c' b' rets hm; simp at hm; obtain ⟨n, k, q, h1, h2⟩ := i5 _ _ _ hm; exact ⟨n, k, q, by simp [h1], h2⟩
      · simp at hs
    case deal =>
      simp only [step] at hs
      (repeat' split at hs) <;> simp only [Option.some.injEq, Prod.mk.injEq, reduceCtorEq] at hs <;> obtain ⟨rfl, rfl⟩ := hs
      · exact neutral (by simp) (by simp) rfl (List.Sublist.refl _) (fun _ _ => ⟨rfl, Nat.le_refl _⟩)
      · exact neutral (by simp) (by simp) rfl (List.Sublist.refl _) (fun _ _ => ⟨rfl, Nat.le_refl _⟩)
      · rename_i x rest hcq _ o hfind hfull
        have ho : o ∈ s.ops := List.mem_of_find?_eq_some hfind
        have hreps : ∀ o' : Op, (upd s.reps o.r ⟨(s.reps o.r).n, (s.reps o.r).rets ++ [x.res]⟩ o'.r).n = (s.reps o'.r).n ∧
            (s.reps o'.r).rets.length ≤ (upd s.reps o.r ⟨(s.reps o.r).n, (s.reps o.r).rets ++ [x.res]⟩ o'.r).rets.length := by
          intro o'
          simp only [upd_apply]
          split
          · rename_i hr; rw [hr]; simp
          · simp
        refine ⟨?_, ?_, i3.sublist (List.filter_sublist.map _), ?_, ?_⟩
        · intro c b n k q hm; simp at hm; exact i1 _ _ _ _ _ hm
        · intro c b n k q c' n' k' q' hm hm'; simp at hm hm'; exact i2 _ _ _ _ _ _ _ _ _ hm hm'
        · intro o' ho'
          obtain ⟨k, q, h1, h2⟩ := i4 o' (List.mem_filter.1 ho').1
          obtain ⟨h3, h4⟩ := hreps o'
          exact ⟨k, q, by dsimp only; rw [h3]; simp [h1], by dsimp only; omega⟩
        · intro c b rets hm
          simp only [List.mem_append, List.mem_singleton, Ev.resumed.injEq] at hm
          rcases hm with hm | ⟨rfl, rfl, rfl⟩
          · obtain ⟨n, k, q, h1, h2⟩ := i5 _ _ _ hm; exact ⟨n, k, q, by simp [h1], h2⟩
          · obtain ⟨k, q, h1, h2⟩ := i4 o ho
            exact ⟨_, k, q, List.mem_append_left _ h1, by omega⟩
      · rename_i x rest hcq _ o hfind hfull
        refine neutral (by simp) (by simp) rfl (List.Sublist.refl _) ?_
        intro o' _
        dsimp only
        simp only [upd_apply]
        split
        · rename_i hr; rw [hr]; simp
        · simp
    case destroy =>
      simp only [step] at hs
      split at hs <;> simp only [Option.some.injEq, Prod.mk.injEq, reduceCtorEq] at hs
      obtain ⟨rfl, rfl⟩ := hs
      exact neutral (by simp) (by simp) rfl (List.nil_sublist _) (by simp)
    case newBatch r n =>
      simp only [step] at hs
      split at hs <;> simp only [Option.some.injEq, Prod.mk.injEq, reduceCtorEq] at hs
      rename_i hc
      obtain ⟨rfl, rfl⟩ := hs
      refine neutral (by simp) (by simp) rfl (List.Sublist.refl _) (fun o ho => ?_)
      dsimp only; rw [upd_ne _ _ (inFlight_false hc.2 o ho)]; simp
    case prep r =>
      simp only [step] at hs
      split at hs <;> simp only [Option.some.injEq, Prod.mk.injEq, reduceCtorEq] at hs
      rename_i hc
      obtain ⟨rfl, rfl⟩ := hs
      refine neutral (by simp) (by simp) rfl (List.Sublist.refl _) (fun o ho => ?_)
      dsimp only; rw [upd_ne _ _ (inFlight_false hc.2 o ho)]; simp
    case clear r =>
      simp only [step] at hs
      split at hs
      · rename_i hc
        split at hs <;> simp only [Option.some.injEq, Prod.mk.injEq, reduceCtorEq] at hs <;> obtain ⟨rfl, rfl⟩ := hs
        · exact neutral (by simp) (by simp) rfl (List.Sublist.refl _) (fun _ _ => ⟨rfl, Nat.le_refl _⟩)
        · refine neutral (by simp) (by simp) rfl (List.Sublist.refl _) (fun o ho => ?_)
          dsimp only; rw [upd_ne _ _ (inFlight_false hc.2 o ho)]; simp
      · simp at hs
    all_goals
      simp only [step] at hs
      (repeat' split at hs) <;> simp only [Option.some.injEq, Prod.mk.injEq, reduceCtorEq] at hs <;>
        (obtain ⟨rfl, rfl⟩ := hs
         exact neutral (by simp) (by simp) rfl (List.Sublist.refl _) (fun _ _ => ⟨rfl, Nat.le_refl _⟩))
  obtain ⟨-, k2, -, -, k5⟩ := key
  intro c' rets hm
  obtain ⟨n', k', q', h1, h2⟩ := k5 _ _ _ hm
  have := k2 _ _ _ _ _ _ _ _ _ h1 hb
  omega

/-- **C39, what fails.**  A batch is executed, cleared, filled with one operation and executed again; the operation
completes and the loop is polled, but the coroutine hangs. -/
theorem batch_reuse_hangs_refuted :
    ∃ (s : St) (tr : List Ev), machine.Reaches s tr ∧ Ev.resumed 0 0 [4] ∈ tr ∧ Ev.submitted 0 1 1 1 0 ∈ tr ∧
      results 1 tr = [5] ∧ endings 1 tr = 0 ∧ s.cq = [] ∧ s.kern = [] :=
  ⟨_, _, ⟨[.newBatch 0 1, .exec 0 0 9, .complete 0 4, .pollBegin, .deal, .pollEnd, .clear 0, .prep 0, .exec 0 0 9,
    .complete 0 5, .pollBegin, .deal, .pollEnd], rfl⟩, by decide, by decide, by decide, by decide, by decide, by decide⟩

/-- **C39, what fails.**  Filled with more operations than before, the coroutine is resumed too early, with a result of the
earlier execution; the late completion then fails an assertion. -/
theorem batch_reuse_resumes_early_refuted :
    ∃ (s : St) (tr : List Ev), machine.Reaches s tr ∧ Ev.submitted 0 1 2 1 0 ∈ tr ∧ Ev.resumed 0 1 [4, 5] ∈ tr ∧
      Ev.ub ∈ tr :=
  ⟨_, _, ⟨[.newBatch 0 1, .exec 0 0 9, .complete 0 4, .pollBegin, .deal, .pollEnd, .clear 0, .prep 0, .prep 0, .exec 0 0 9,
    .complete 0 5, .pollBegin, .deal, .pollEnd, .complete 0 6, .pollBegin, .deal], rfl⟩, by decide, by decide, by decide⟩

/-- Two coroutines with two batches, completions out of order: the hypotheses of the theorems of C35 are met. -/
example : ∃ (s : St) (tr : List Ev), machine.Reaches s tr ∧ Proper tr ∧ Ev.resumed 7 1 [10] ∈ tr ∧
    Ev.resumed 5 0 [21, 20] ∈ tr ∧ Ev.destroyed 5 2 ∈ tr ∧ Ev.ended ∈ tr := by
  refine ⟨_, _, ⟨[.newBatch 0 2, .newBatch 1 1, .exec 5 0 1, .exec 7 1 9, .complete 2 10, .complete 1 21, .pollBegin, .deal, .deal,
    .complete 0 20, .pollEnd, .pollBegin, .deal, .pollEnd, .newBatch 0 1, .exec 5 0 0, .pollBegin, .destroy], rfl⟩, ⟨?_, ?_⟩,
    by decide, by decide, by decide, by decide⟩
  · intro c b n k q hm
    simp at hm
    rcases hm with ⟨rfl, rfl, rfl, rfl, rfl⟩ | ⟨rfl, rfl, rfl, rfl, rfl⟩ | ⟨rfl, rfl, rfl, rfl, rfl⟩ <;> decide
  · intro k hm; simp at hm

end Verif.Uring
