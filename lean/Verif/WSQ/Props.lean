import Verif.WSQ.Solo
/-!
# Properties of `koios::work_stealing_queue` (C19, C20)

`machine spur`: any number of callers doing `thread_specific_preparation`, `enqueue`, `dequeue`
and `size` concurrently.
-/

namespace Verif.WSQ

/-! ### C19 -/

/-- **C19 (1).**  Whatever the interleaving of registrations, enqueues and dequeues (through
snapshots that may be stale, and even if underlying dequeues fail spuriously), every task is
dequeued at most once, and only if it was enqueued. -/
theorem wsq_at_most_once (spur : Bool) (s : St) (tr : List Ev) (h : (machine spur).Reaches s tr) (x : Nat) :
    timesGot x tr ≤ timesEnqueued x tr ∧ timesEnqueued x tr ≤ 1 := by
  obtain ⟨m, hi⟩ := inv_of_reaches h
  have h1 := hi.enq x
  refine ⟨?_, by rw [h1]; split <;> omega⟩
  by_cases hx : ∃ i, x ∈ s.content i
  · obtain ⟨i, hx⟩ := hx; have := hi.inq i x hx; omega
  · have := hi.out x (by simpa using hx); omega

/-- No registration is between its `exchange(nullptr)` and its `store`. -/
def Stable (s : St) : Prop := s.pub ≠ none

theorem solo0_of {spur : Bool} {s : St} {tr : List Ev} {a : Nat} (h : (machine spur).Reaches s tr)
    (hst : Stable s) (ha : s.pc a = .idle) : ∃ m, Solo0 a s m ∧ Inv s tr m := by
  obtain ⟨m, hi⟩ := inv_of_reaches h
  refine ⟨m, ⟨ha, ?_, hi.nk⟩, hi⟩
  rcases hi.cur with ⟨h1, _⟩ | ⟨h1, _⟩
  · exact h1
  · exact absurd h1 hst

/-- **C19 (2), C20: `size()` is exact.**  After any concurrent history, an undisturbed call of
`size()` returns the number of tasks enqueued so far minus the number dequeued so far: no task is
lost, whatever registrations replaced the map in between. -/
theorem wsq_size_exact (s : St) (tr : List Ev) (h : (machine false).Reaches s tr) (hst : Stable s)
    (a : Nat) (ha : s.pc a = .idle) (ev : Ev) (s' : St)
    (hsolo : (solo false a s).Reaches s' [.called a .size, ev]) :
    ev = .sizeIs a (allEnqueued tr - allGot tr) ∧ allGot tr ≤ allEnqueued tr := by
  obtain ⟨m, h0, hi⟩ := solo0_of h hst ha
  have := solo_result h0 (by simp) hsolo
  simp only [Ended] at this
  have hz := hi.size
  refine ⟨?_, by omega⟩
  rw [this.1]; congr 1; omega

/-- **C20.**  After any concurrent history, an undisturbed `dequeue` by a registered worker
returns nullopt iff every task enqueued so far has been dequeued; otherwise it returns one that
has been enqueued and not dequeued yet. -/
theorem wsq_dequeue_finds (s : St) (tr : List Ev) (h : (machine false).Reaches s tr) (hst : Stable s)
    (a : Nat) (ha : s.pc a = .idle) (t : Nat) (ht : Registered t tr) (ev : Ev) (s' : St)
    (hsolo : (solo false a s).Reaches s' [.called a (.deq t), ev]) :
    (ev = .gotNone a ∧ allEnqueued tr = allGot tr) ∨
    (∃ x, ev = .got a x ∧ timesEnqueued x tr = 1 ∧ timesGot x tr = 0 ∧ allGot tr < allEnqueued tr) := by
  obtain ⟨m, h0, hi⟩ := solo0_of h hst ha
  have := solo_result h0 (by simp) hsolo
  have hz := hi.size
  rcases this with ⟨i, x, rfl, him, hx, _⟩ | ⟨rfl, _, hemp⟩ | ⟨_, hk⟩
  · right
    have hq := hi.inq i x hx
    refine ⟨x, rfl, by rw [hi.enq x, if_pos hq.2], hq.1, ?_⟩
    have h1 := sum_erase (fun i => (s.content i).length) him
    have h2 := List.length_pos_of_mem hx
    unfold total at hz; omega
  · left
    refine ⟨rfl, ?_⟩
    have : total s.content m = 0 := by
      unfold total; rw [List.sum_eq_zero_iff_forall_eq_nat]
      intro n hn
      obtain ⟨i, h1, rfl⟩ := List.mem_map.1 hn
      simp [hemp i h1]
    omega
  · exact absurd ((hi.reg t).2 ht) hk

theorem solo_runFrom_cons {spur : Bool} {a : Nat} {s0 s s1 s2 : St} {l : Lbl} {ls : List Lbl} {e1 e2 : List Ev}
    (hl : l.agent = a) (h1 : step spur s l = some (s1, e1))
    (h2 : (solo spur a s0).runFrom s1 ls = some (s2, e2)) :
    (solo spur a s0).runFrom s (l :: ls) = some (s2, e1 ++ e2) := by
  have : (solo spur a s0).step s l = some (s1, e1) := by simp [solo, hl, h1]
  simp [Machine.runFrom, this, h2]

theorem steal_completes (a : Nat) (s0 : St) : ∀ (rest : List Nat) (s : St), s.pc a = .steal rest →
    ∃ ls s' ev, (solo false a s0).runFrom s ls = some (s', [ev]) := by
  intro rest
  induction rest with
  | nil =>
    intro s hs
    refine ⟨[.finish a], { s with pc := upd s.pc a .idle }, .gotNone a, ?_⟩
    exact solo_runFrom_cons (l := .finish a) (e1 := [.gotNone a]) rfl (by simp [step, hs]) rfl
  | cons i rest ih =>
    intro s hs
    cases hc : s.content i with
    | nil =>
      obtain ⟨ls, s', ev, h⟩ := ih { s with pc := upd s.pc a (.steal rest) } (by simp)
      refine ⟨.miss a i :: ls, s', ev, ?_⟩
      exact solo_runFrom_cons (l := .miss a i) (e1 := []) rfl (by simp [step, hs, hc]) h
    | cons x xs =>
      refine ⟨[.take a i x], { s with content := upd s.content i ((s.content i).erase x), pc := upd s.pc a .idle },
        .got a x, ?_⟩
      exact solo_runFrom_cons (l := .take a i x) (e1 := [.got a x]) rfl (by simp [step, hs, hc]) rfl

/-- **C20, termination.**  That undisturbed `dequeue` does return. -/
theorem wsq_dequeue_returns (s : St) (tr : List Ev) (h : (machine false).Reaches s tr) (hst : Stable s)
    (a : Nat) (ha : s.pc a = .idle) (t : Nat) (ht : Registered t tr) :
    ∃ ev s', (solo false a s).Reaches s' [.called a (.deq t), ev] := by
  obtain ⟨m, h0, hi⟩ := solo0_of h hst ha
  have hk := (hi.reg t).2 ht
  obtain ⟨⟨t', i⟩, hm, rfl⟩ := List.mem_map.1 hk
  dsimp only at *
  have l1 : step false s (.call a (.deq t')) = some ({ s with pc := upd s.pc a (.spin (.deq t')) }, [.called a (.deq t')]) := by
    simp [step, ha]
  have l2 : step false { s with pc := upd s.pc a (.spin (.deq t')) } (.load a) =
      some ({ s with pub := some m, pc := upd (upd s.pc a (.spin (.deq t'))) a (.deqOwn t' m) }, []) := by
    simp [step, h0.pub, pubAfterLoad, afterLoad]
  cases hc : s.content i with
  | nil =>
    let s2 : St := { s with pub := some m, pc := upd (upd (upd s.pc a (.spin (.deq t'))) a (.deqOwn t' m)) a (.steal (qids m)) }
    obtain ⟨ls, s', ev, h⟩ := steal_completes a s (qids m) s2 (by simp [s2])
    refine ⟨ev, s', .call a (.deq t') :: .load a :: .miss a i :: ls, ?_⟩
    exact solo_runFrom_cons rfl l1 (solo_runFrom_cons (e1 := []) rfl l2
      (solo_runFrom_cons (e1 := []) (l := .miss a i) rfl (by simp [step, hc, hm, s2]) h))
  | cons x xs =>
    exact ⟨_, _, [.call a (.deq t'), .load a, .take a i x],
      solo_runFrom_cons rfl l1 (solo_runFrom_cons (e1 := []) rfl l2
        (solo_runFrom_cons (e1 := [.got a x]) rfl (by simp [step, hc, hm]; exact rfl) rfl))⟩

/-- **C20, own queue first; C19, a consumer's queue is never dropped.**  Each registered worker has
one queue of its own, for good.  An `enqueue` addressed to `t` adds to `t`'s queue, and as long as
`t`'s queue is not empty an undisturbed `dequeue` by `t` takes from it. -/
theorem wsq_own_queue (s : St) (tr : List Ev) (h : (machine false).Reaches s tr)
    (t : Nat) (ht : Registered t tr) :
    ∃ i, (∀ (ls : List Lbl) (s1 : St) (e1 : List Ev), (machine false).runFrom s ls = some (s1, e1) → Stable s1 →
        ∀ a, s1.pc a = .idle → ∀ s2 ev,
        ((solo false a s1).Reaches s2 [.called a (.enq t), ev] →
          ∃ x, ev = .enqueued a x ∧ s2.content = upd s1.content i (s1.content i ++ [x])) ∧
        ((solo false a s1).Reaches s2 [.called a (.deq t), ev] → s1.content i ≠ [] →
          ∃ x, ev = .got a x ∧ x ∈ s1.content i ∧ s2.content = upd s1.content i ((s1.content i).erase x))) := by
  obtain ⟨m, hi⟩ := inv_of_reaches h
  have hk := (hi.reg t).2 ht
  obtain ⟨⟨t', i⟩, hm, rfl⟩ := List.mem_map.1 hk
  dsimp only at *
  refine ⟨i, ?_⟩
  intro ls s1 e1 hrun hst1 a ha s2 ev
  have := Machine.runFrom_inv (machine false) (fun s tr => ∃ m', Inv s tr m' ∧ m ⊆ m')
    (fun s tr l s' e ⟨m', h1, h2⟩ hs => by
      obtain ⟨m'', h3, h4⟩ := inv_step h1 hs
      exact ⟨m'', h3, fun p hp => h4 (h2 hp)⟩) ls s tr s1 e1 ⟨m, hi, fun _ => id⟩ hrun
  obtain ⟨m1, hi1, hsub⟩ := this
  have h0 : Solo0 a s1 m1 := by
    refine ⟨ha, ?_, hi1.nk⟩
    rcases hi1.cur with ⟨h1, _⟩ | ⟨h1, _⟩
    · exact h1
    · exact absurd h1 hst1
  have hm1 := hsub hm
  constructor
  · intro hsolo
    rcases solo_result h0 (by simp) hsolo with ⟨j, x, rfl, hc, _, hown⟩ | ⟨_, he⟩
    · have := key_unique hi1.nk (hown (mem_keys hm1)) hm1
      subst this; exact ⟨x, rfl, hc⟩
    · rw [he] at hm1; simp at hm1
  · intro hsolo hne
    rcases solo_result h0 (by simp) hsolo with ⟨j, x, rfl, _, hx, hc, hown⟩ | ⟨_, _, hemp⟩ | ⟨_, hk⟩
    · have := hown i hm1 hne; subst this; exact ⟨x, rfl, hx, hc⟩
    · exact absurd (hemp i (mem_qids hm1)) hne
    · exact absurd (mem_keys hm1) hk

/-! ### No undefined behaviour for disciplined callers -/

theorem Disciplined.mono {a b : List Ev} (h : Disciplined (a ++ b)) : Disciplined a :=
  ⟨fun p c t hp => h.1 p c t (hp.trans (List.prefix_append _ _)),
   fun p c t hp => h.2 p c t (hp.trans (List.prefix_append _ _))⟩

theorem Registered.mono {t : Nat} {a b : List Ev} (h : Registered t a) : Registered t (a ++ b) := by
  obtain ⟨c, hc⟩ := h; exact ⟨c, by simp [hc]⟩

/-- What is known about a caller inside of a call. -/
def Safe (tr : List Ev) : Pc → Prop
  | .spin (.enq _) => ∃ t, Registered t tr
  | .spin (.deq t) => Registered t tr
  | .enqPush _ m => m ≠ []
  | .deqOwn t m => t ∈ keys m
  | _ => True

theorem Safe.mono {tr e : List Ev} {p : Pc} (h : Safe tr p) : Safe (tr ++ e) p := by
  cases p with
  | spin o =>
    cases o with
    | enq t => obtain ⟨t, ht⟩ := h; exact ⟨t, ht.mono⟩
    | deq t => exact Registered.mono h
    | _ => trivial
  | _ => exact h

/-- **C19 (3).**  If nobody enqueues before the first registration returned and only registered
workers dequeue, no call runs into undefined behaviour, whatever the interleaving with further
registrations. -/
theorem wsq_no_ub (spur : Bool) (s : St) (tr : List Ev) (h : (machine spur).Reaches s tr)
    (hd : Disciplined tr) (a : Nat) : Ev.ub a ∉ tr := by
  have key : Disciplined tr → (∀ a, Ev.ub a ∉ tr) ∧ ∀ b, Safe tr (s.pc b) := by
    clear hd
    refine Machine.Reaches.inv' (M := machine spur)
      (fun s tr => Disciplined tr → (∀ a, Ev.ub a ∉ tr) ∧ ∀ b, Safe tr (s.pc b)) ?_ ?_ h
    · intro _; simp [machine, init, Safe]
    clear h s tr
    intro s tr l s' e hr ih hs hd
    change step spur s l = some (s', e) at hs
    obtain ⟨h1, h2⟩ := ih hd.mono
    obtain ⟨m, hi⟩ := inv_of_reaches hr
    have mv : ∀ (b : Nat) (p : Pc), Safe (tr ++ e) p → ∀ c, Safe (tr ++ e) (upd s.pc b p c) := by
      intro b p hp c
      rw [upd_apply]; split
      · exact hp
      · exact (h2 c).mono
    cases l with
    | call b o =>
      simp only [step] at hs
      split at hs
      · simp only [Option.some.injEq, Prod.mk.injEq] at hs; obtain ⟨rfl, rfl⟩ := hs
        refine ⟨by simpa using h1, mv b _ ?_⟩
        cases o with
        | enq t => obtain ⟨t', ht⟩ := hd.1 tr b t (List.prefix_refl _); exact ⟨t', ht.mono⟩
        | deq t => exact (hd.2 tr b t (List.prefix_refl _)).mono
        | _ => trivial
      · simp at hs
    | load b =>
      simp only [step] at hs
      split at hs
      · rename_i o m' hpc hpub
        simp only [Option.some.injEq, Prod.mk.injEq] at hs; obtain ⟨rfl, rfl⟩ := hs
        have hm : m' = m := by
          rcases hi.cur with ⟨h1, _⟩ | ⟨h1, _⟩ <;> simp_all
        subst hm
        refine ⟨by simpa using h1, mv b _ ?_⟩
        have hb := h2 b
        rw [hpc] at hb
        cases o with
        | enq t =>
          obtain ⟨t', ht⟩ := hb
          have := (hi.reg t').2 ht
          rintro rfl; simp [keys] at this
        | deq t => exact (hi.reg t).2 hb
        | _ => trivial
      · simp at hs
    | store b =>
      simp only [step] at hs
      split at hs
      · simp only [Option.some.injEq, Prod.mk.injEq] at hs; obtain ⟨rfl, rfl⟩ := hs
        exact ⟨by simpa using h1, mv b _ trivial⟩
      · simp at hs
    | push b i =>
      simp only [step] at hs
      split at hs
      · split at hs
        · simp only [Option.some.injEq, Prod.mk.injEq] at hs; obtain ⟨rfl, rfl⟩ := hs
          exact ⟨by simpa using h1, mv b _ trivial⟩
        · simp at hs
      · simp at hs
    | take b i x =>
      simp only [step] at hs
      split at hs
      · split at hs
        · simp only [Option.some.injEq, Prod.mk.injEq] at hs; obtain ⟨rfl, rfl⟩ := hs
          exact ⟨by simpa using h1, mv b _ trivial⟩
        · simp at hs
      · split at hs
        · simp only [Option.some.injEq, Prod.mk.injEq] at hs; obtain ⟨rfl, rfl⟩ := hs
          exact ⟨by simpa using h1, mv b _ trivial⟩
        · simp at hs
      · simp at hs
    | miss b i =>
      simp only [step] at hs
      split at hs
      · split at hs
        · simp only [Option.some.injEq, Prod.mk.injEq] at hs; obtain ⟨rfl, rfl⟩ := hs
          exact ⟨by simpa using h1, mv b _ trivial⟩
        · simp at hs
      · split at hs
        · simp only [Option.some.injEq, Prod.mk.injEq] at hs; obtain ⟨rfl, rfl⟩ := hs
          exact ⟨by simpa using h1, mv b _ trivial⟩
        · simp at hs
      · simp at hs
    | count b i =>
      simp only [step] at hs
      split at hs
      · split at hs
        · simp only [Option.some.injEq, Prod.mk.injEq] at hs; obtain ⟨rfl, rfl⟩ := hs
          exact ⟨by simpa using h1, mv b _ trivial⟩
        · simp at hs
      · simp at hs
    | finish b =>
      simp only [step] at hs
      split at hs
      · simp only [Option.some.injEq, Prod.mk.injEq] at hs; obtain ⟨rfl, rfl⟩ := hs
        exact ⟨by simpa using h1, mv b _ trivial⟩
      · simp only [Option.some.injEq, Prod.mk.injEq] at hs; obtain ⟨rfl, rfl⟩ := hs
        exact ⟨by simpa using h1, mv b _ trivial⟩
      · simp at hs
    | crash b =>
      simp only [step] at hs
      split at hs
      · rename_i hpc
        split at hs
        · rename_i hm
          have hb := h2 b; rw [hpc] at hb; exact absurd hm hb
        · simp at hs
      · rename_i hpc
        split at hs
        · rename_i hm
          have hb := h2 b; rw [hpc] at hb; exact absurd hb hm
        · simp at hs
      · simp at hs
  exact (key hd).1 a

/-- **Limits.**  Without the discipline both kinds of undefined behaviour happen: enqueueing into a
queue with no worker dereferences `begin()` of an empty map; a `dequeue` by an unregistered thread
dereferences the null pointer that `operator[]` inserted. -/
theorem wsq_undisciplined_ub_refuted :
    (∃ s tr, (machine false).Reaches s tr ∧ tr = [.called 0 (.enq 7), .ub 0]) ∧
    (∃ s tr, (machine false).Reaches s tr ∧ tr = [.called 0 (.add 7), .added 0 7, .called 1 (.deq 8), .ub 1]) :=
  ⟨⟨_, _, ⟨[.call 0 (.enq 7), .load 0, .crash 0], rfl⟩, rfl⟩,
   ⟨_, _, ⟨[.call 0 (.add 7), .load 0, .store 0, .call 1 (.deq 8), .load 1, .crash 1], rfl⟩, rfl⟩⟩

/-! ### Non-vacuity -/

/-- Worker 7 registers; 1 takes a snapshot for an enqueue, worker 8 registers meanwhile, the
enqueue goes through the stale snapshot; 8 steals it through the new map; a second task stays. -/
def sample : List Lbl :=
  [.call 0 (.add 7), .load 0, .store 0, .call 1 (.enq 7), .load 1, .call 2 (.add 8), .load 2, .push 1 0,
   .store 2, .call 2 (.deq 8), .load 2, .miss 2 1, .take 2 0 0, .call 1 (.enq 9), .load 1, .push 1 1]

example : ((machine false).run sample).map (·.2) = some
    [.called 0 (.add 7), .added 0 7, .called 1 (.enq 7), .called 2 (.add 8), .enqueued 1 0, .added 2 8,
     .called 2 (.deq 8), .got 2 0, .called 1 (.enq 9), .enqueued 1 1] := by decide

/-- The hypotheses of the theorems about undisturbed calls are met, and the calls do what they say. -/
example : ∃ s tr, (machine false).Reaches s tr ∧ Stable s ∧ s.pc 3 = .idle ∧ Registered 7 tr ∧
    (∃ s', (solo false 3 s).Reaches s' [.called 3 .size, .sizeIs 3 1]) ∧
    (∃ s', (solo false 3 s).Reaches s' [.called 3 (.deq 7), .got 3 1]) := by
  refine ⟨_, _, ⟨sample, rfl⟩, ?_, rfl, ⟨0, by decide⟩, ⟨_, [.call 3 .size, .load 3, .count 3 0, .count 3 1, .finish 3], rfl⟩,
    ⟨_, [.call 3 (.deq 7), .load 3, .miss 3 0, .miss 3 0, .take 3 1 1], rfl⟩⟩
  simp [Stable, pubAfterLoad]

end Verif.WSQ
