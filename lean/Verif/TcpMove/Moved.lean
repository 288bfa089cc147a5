import Verif.TcpMove.Props
/-!
# C114: what is left of a server that is moved while it runs
-/

namespace Verif.TcpMove
open Machine

variable {s s' : St} {l : Lbl} {e : List Ev}

/-- the holder of the server, and the loop's token, have the same stop state -/
def Own (i k o : Nat) (s : St) : Prop := i < s.nl ∧ (s.loop i).tok = some k ∧ o < s.no ∧ (s.obj o).src = some k

theorem whereIs_append (o : Nat) (p q : List Ev) : whereIs o (p ++ q) = whereIs (whereIs o p) q := by simp [whereIs, List.foldl_append]

theorem own_step {i k o : Nat} (h : Own i k o s) (hs : step s l = some (s', e)) : Own i k (whereIs o e) s' := by
  obtain ⟨h1, h2, h3, h4⟩ := h
  rcases step_cases hs with ⟨rfl, rfl, -⟩ | ⟨h5, -⟩
  · exact ⟨h1, h2, h3, h4⟩
  · clear hs
    cases l <;> simp only [stepLive] at h5 <;> (repeat' split at h5) <;> simp only [Option.some.injEq, Prod.mk.injEq, reduceCtorEq] at h5 <;> obtain ⟨rfl, rfl⟩ := h5 <;>
      simp only [Own, whereIs, List.foldl_cons, List.foldl_nil, setPc, upd_apply] <;> grind

theorem own_run {i k : Nat} (ls : List Lbl) : ∀ {s s' : St} {o : Nat} {q : List Ev}, Own i k o s → machine.runFrom s ls = some (s', q) → Own i k (whereIs o q) s' := by
  induction ls with
  | nil => intro s s' o q h hs; simp only [runFrom, Option.some.injEq, Prod.mk.injEq] at hs; obtain ⟨rfl, rfl⟩ := hs; exact h
  | cons l ls ih =>
    intro s s' o q h hs
    simp only [runFrom] at hs
    split at hs
    · cases hs
    · rename_i s1 e1 h1
      split at hs
      · cases hs
      · rename_i s2 e2 h2
        simp only [Option.some.injEq, Prod.mk.injEq] at hs
        obtain ⟨rfl, rfl⟩ := hs
        rw [whereIs_append]
        exact ih (own_step h h1) h2

/-- after the stop -/
def Halt (i k n : Nat) (s : St) : Prop := i < s.nl ∧ (s.loop i).tok = some k ∧ s.stopped k = true ∧ (n = 0 ∨ n = 1 ∧ (s.loop i).pc ≠ .ready)

theorem halt_step {i k n : Nat} (h : Halt i k n s) (hs : step s l = some (s', e)) : Halt i k (n + e.count (.acceptBegan i)) s' := by
  obtain ⟨h1, h2, h3, h4⟩ := h
  rcases step_cases hs with ⟨rfl, rfl, -⟩ | ⟨h5, -⟩
  · exact ⟨h1, h2, h3, by simpa using h4⟩
  · clear hs
    have h6 : requested s (s.loop i).tok = true := by rw [h2]; exact h3
    cases l <;> simp only [stepLive] at h5 <;> (repeat' split at h5) <;> simp only [Option.some.injEq, Prod.mk.injEq, reduceCtorEq] at h5 <;> obtain ⟨rfl, rfl⟩ := h5 <;>
      simp only [Halt, List.count_cons, List.count_nil, setPc, upd_apply] <;> grind

theorem halt_run {i k : Nat} (ls : List Lbl) : ∀ {s s' : St} {n : Nat} {q : List Ev}, Halt i k n s → machine.runFrom s ls = some (s', q) → n + q.count (.acceptBegan i) ≤ 1 := by
  induction ls with
  | nil =>
    intro s s' n q h hs; simp only [runFrom, Option.some.injEq, Prod.mk.injEq] at hs; obtain ⟨rfl, rfl⟩ := hs
    have := h.2.2.2
    simp only [List.count_nil]; omega
  | cons l ls ih =>
    intro s s' n q h hs
    simp only [runFrom] at hs
    split at hs
    · cases hs
    · rename_i s1 e1 h1
      split at hs
      · cases hs
      · rename_i s2 e2 h2
        simp only [Option.some.injEq, Prod.mk.injEq] at hs
        obtain ⟨rfl, rfl⟩ := hs
        have := ih (halt_step h h1) h2
        rw [List.count_append]; omega

/-- **C114**: stop() of the object where the server is now, wherever it was started and however often it was moved, reaches its accept loops: each submits at most one more accept. -/
theorem stop_reaches_loops {tr p q e1 e2 : List Ev} {s0 s1 s2 s3 s4 : St} {o i : Nat} {ls ls' : List Lbl} (_h : machine.Reaches s0 tr)
    (h1 : machine.step s0 (.launch o) = some (s1, e1)) (hi : Ev.launched o i ∈ e1)
    (h2 : machine.runFrom s1 ls = some (s2, p))
    (h3 : machine.step s2 (.stop (whereIs o p)) = some (s3, e2)) (he : Ev.stopCalled (whereIs o p) ∈ e2)
    (h4 : machine.runFrom s3 ls' = some (s4, q)) : q.count (.acceptBegan i) ≤ 1 := by
  have hown : ∃ k, Own i k o s1 := by
    rcases step_cases h1 with ⟨rfl, rfl, -⟩ | ⟨h5, -⟩
    · simp at hi
    · simp only [stepLive] at h5
      split at h5
      · rename_i hg
        simp only [Option.some.injEq, Prod.mk.injEq] at h5
        obtain ⟨rfl, rfl⟩ := h5
        simp only [List.mem_singleton, Ev.launched.injEq, true_and] at hi
        subst hi
        obtain ⟨k, hk⟩ := Option.ne_none_iff_exists'.1 hg.2.2
        exact ⟨k, Nat.lt_succ_self _, by simp [hk], hg.1, by simp [hk]⟩
      · cases h5
  obtain ⟨k, hk⟩ := hown
  obtain ⟨g1, g2, g3, g4⟩ := own_run ls hk h2
  have hhalt : Halt i k 0 s3 := by
    rcases step_cases h3 with ⟨rfl, rfl, -⟩ | ⟨h5, -⟩
    · simp at he
    · simp only [stepLive, g3, true_and, g4] at h5
      split at h5
      · simp only [Option.some.injEq, Prod.mk.injEq] at h5
        obtain ⟨rfl, rfl⟩ := h5
        exact ⟨g1, g2, by simp, Or.inl rfl⟩
      · cases h5
  have := halt_run ls' hhalt h4
  omega

/-- the object `a` has been moved while its loop `i` ran -/
def Deaf (i a n : Nat) (s : St) : Prop :=
  i < s.nl ∧ (s.loop i).this = a ∧ a < s.no ∧ (s.obj a).src = none ∧ (s.obj a).sock = false ∧ (n = 0 ∨ n = 1 ∧ (s.loop i).pc ≠ .accepting true)

theorem deaf_step {i a n : Nat} (h : Deaf i a n s) (hs : step s l = some (s', e)) : Deaf i a (n + e.countP fun x => match x with | .connected j _ => j == i | _ => false) s' := by
  obtain ⟨h1, h2, h3, h4, h5, h6⟩ := h
  rcases step_cases hs with ⟨rfl, rfl, -⟩ | ⟨h7, -⟩
  · exact ⟨h1, h2, h3, h4, h5, by simpa using h6⟩
  · clear hs
    cases l <;> simp only [stepLive] at h7 <;> (repeat' split at h7) <;> simp only [Option.some.injEq, Prod.mk.injEq, reduceCtorEq] at h7 <;> obtain ⟨rfl, rfl⟩ := h7 <;>
      simp only [Deaf, List.countP_cons, List.countP_nil, setPc, upd_apply] <;> grind

theorem deaf_run {i a : Nat} (ls : List Lbl) : ∀ {s s' : St} {n : Nat} {q : List Ev}, Deaf i a n s → machine.runFrom s ls = some (s', q) →
    n + q.countP (fun x => match x with | .connected j _ => j == i | _ => false) ≤ 1 := by
  induction ls with
  | nil =>
    intro s s' n q h hs; simp only [runFrom, Option.some.injEq, Prod.mk.injEq] at hs; obtain ⟨rfl, rfl⟩ := hs
    have := h.2.2.2.2.2
    simp only [List.countP_nil]; omega
  | cons l ls ih =>
    intro s s' n q h hs
    simp only [runFrom] at hs
    split at hs
    · cases hs
    · rename_i s1 e1 h1
      split at hs
      · cases hs
      · rename_i s2 e2 h2
        simp only [Option.some.injEq, Prod.mk.injEq] at hs
        obtain ⟨rfl, rfl⟩ := hs
        have := ih (deaf_step h h1) h2
        rw [List.countP_append]; omega

/-- **Refutation of C114**, for every history: once a server is moved while it runs, none of its loops accepts more than the one connection for which it may be waiting at that moment. -/
theorem moved_server_deaf_refuted {tr q e1 e2 : List Ev} {s0 s1 s2 s3 s4 : St} {p : List Ev} {o i : Nat} {ls ls' : List Lbl} (_h : machine.Reaches s0 tr)
    (h1 : machine.step s0 (.launch o) = some (s1, e1)) (hi : Ev.launched o i ∈ e1)
    (h2 : machine.runFrom s1 ls = some (s2, p))
    (h3 : machine.step s2 (.move o) = some (s3, e2)) (he : ∃ b, Ev.moved o b ∈ e2)
    (h4 : machine.runFrom s3 ls' = some (s4, q)) : q.countP (fun x => match x with | .connected j _ => j == i | _ => false) ≤ 1 := by
  have hthis : ∀ (ls : List Lbl) {s s' : St} {q : List Ev}, i < s.nl ∧ (s.loop i).this = o → machine.runFrom s ls = some (s', q) → i < s'.nl ∧ (s'.loop i).this = o := by
    intro ls
    induction ls with
    | nil => intro s s' q h hs; simp only [runFrom, Option.some.injEq, Prod.mk.injEq] at hs; obtain ⟨rfl, rfl⟩ := hs; exact h
    | cons l ls ih =>
      intro s s' q h hs
      simp only [runFrom] at hs
      split at hs
      · cases hs
      · rename_i t1 f1 g1
        split at hs
        · cases hs
        · rename_i t2 f2 g2
          simp only [Option.some.injEq, Prod.mk.injEq] at hs
          obtain ⟨rfl, rfl⟩ := hs
          refine ih ?_ g2
          rcases step_cases g1 with ⟨rfl, rfl, -⟩ | ⟨h7, -⟩
          · exact h
          · clear g1
            cases l <;> simp only [stepLive] at h7 <;> (repeat' split at h7) <;> simp only [Option.some.injEq, Prod.mk.injEq, reduceCtorEq] at h7 <;> obtain ⟨rfl, rfl⟩ := h7 <;>
              (try simp only [setPc, upd_apply]) <;> grind
  have h0 : i < s1.nl ∧ (s1.loop i).this = o := by
    rcases step_cases h1 with ⟨rfl, rfl, -⟩ | ⟨h5, -⟩
    · simp at hi
    · simp only [stepLive] at h5
      split at h5
      · simp only [Option.some.injEq, Prod.mk.injEq] at h5
        obtain ⟨rfl, rfl⟩ := h5
        simp only [List.mem_singleton, Ev.launched.injEq, true_and] at hi
        subst hi
        exact ⟨Nat.lt_succ_self _, by simp⟩
      · cases h5
  obtain ⟨g1, g2⟩ := hthis ls h0 h2
  have hd : Deaf i o 0 s3 := by
    rcases step_cases h3 with ⟨rfl, rfl, -⟩ | ⟨h5, -⟩
    · simp at he
    · simp only [stepLive] at h5
      split at h5
      · rename_i hg
        simp only [Option.some.injEq, Prod.mk.injEq] at h5
        obtain ⟨rfl, rfl⟩ := h5
        have : o ≠ s2.no := by omega
        exact ⟨g1, g2, Nat.lt_succ_of_lt hg.1, by simp [upd_ne _ _ this], by simp [upd_ne _ _ this], Or.inl rfl⟩
      · cases h5
  have := deaf_run ls' hd h4
  omega

/-- A program that destroys a server object only when the loops started with it have ended uses no destroyed object. -/
theorem no_use_after_destruction_partial {tr : List Ev} (h : machine.Reaches s tr) (hd : DestroyedAfterEnd tr) : Ev.undefined ∉ tr := by
  have key : ∀ s tr, machine.Reaches s tr → DestroyedAfterEnd tr → Ev.undefined ∉ tr ∧ ∀ i, i < s.nl → (s.obj (s.loop i).this).alive = false → (s.loop i).pc = .gone := by
    intro s tr h
    refine Reaches.inv' (M := machine) (fun s tr => DestroyedAfterEnd tr → Ev.undefined ∉ tr ∧ ∀ i, i < s.nl → (s.obj (s.loop i).this).alive = false → (s.loop i).pc = .gone) ?_ ?_ h
    · intro _; exact ⟨by simp, by simp [machine, init]⟩
    · intro s tr l s' e hr ih hs hd
      have hd0 : DestroyedAfterEnd tr := fun p o hp => hd p o (hp.trans (List.prefix_append _ _))
      obtain ⟨h1, h2⟩ := ih hd0
      have hI := (reaches_inv hr).1
      rcases step_cases hs with ⟨rfl, rfl, o, h3, h4, h5⟩ | ⟨h3, h4⟩
      · exfalso
        cases l <;> simp only [Lbl.uses, Option.some.injEq, reduceCtorEq] at h3 <;> subst h3 <;> simp only [stepLive] at h5 <;> split at h5
        all_goals first | (rename_i hg; have := h2 _ hg.1 h4; rw [hg.2] at this; cases this) | exact h5 rfl
      · clear hs
        refine ⟨?_, ?_⟩
        · rw [List.mem_append]
          rintro (h5 | h5)
          · exact h1 h5
          · cases l <;> simp only [stepLive] at h3 <;> (repeat' split at h3) <;> simp only [Option.some.injEq, Prod.mk.injEq, reduceCtorEq] at h3 <;> obtain ⟨rfl, rfl⟩ := h3 <;> simp at h5
        · cases l with
          | destroy a =>
            simp only [stepLive] at h3
            split at h3
            · simp only [Option.some.injEq, Prod.mk.injEq] at h3
              obtain ⟨rfl, rfl⟩ := h3
              intro i hi ha
              by_cases hq : (s.loop i).this = a
              · have := hd tr a (List.prefix_refl _) i (hq ▸ (hI.la i hi).1)
                exact (hI.le i hi).2 this
              · simp only [upd_ne _ _ hq] at ha
                exact h2 i hi ha
            · cases h3
          | _ =>
            have la := hI.la
            simp only [stepLive] at h3
            (repeat' split at h3) <;> simp only [Option.some.injEq, Prod.mk.injEq, reduceCtorEq] at h3 <;> obtain ⟨rfl, rfl⟩ := h3 <;>
              (try simp only [setPc, upd_apply]) <;> grind
  exact (key s tr h hd).1

/-- **Refutation of C114**: until_done of the object where the server is now returns while a loop runs, and that loop then accepts a connection. -/
theorem moved_until_done_refuted : ∃ s tr, machine.Reaches s tr ∧ tr = [.created 0, .launched 0 0, .began 0, .acceptBegan 0, .moved 0 1, .stopCalled 1, .isStop 1 true, .untilReturned 1, .connected 0 0] :=
  ⟨_, _, ⟨[.create, .launch 0, .begin 0, .test 0, .submit 0, .move 0, .stop 1, .isStop 1, .untilDone 1, .complete 0 true], rfl⟩, rfl⟩

/-- **Refutation of C114**: the moved-from object is destroyed (the holder of the server is not); its loops go on to use it. -/
theorem moved_from_destroyed_refuted : ∃ s tr, machine.Reaches s tr ∧ tr = [.created 0, .launched 0 0, .began 0, .acceptBegan 0, .moved 0 1, .destroyed 0, .connected 0 0, .undefined] :=
  ⟨_, _, ⟨[.create, .launch 0, .begin 0, .test 0, .submit 0, .move 0, .destroy 0, .complete 0 true, .test 0, .submit 0], rfl⟩, rfl⟩

/-- ... and if it is not destroyed, an accept of every iteration fails. -/
example : ∃ s tr, machine.Reaches s tr ∧ tr = [.created 0, .launched 0 0, .began 0, .moved 0 1, .acceptBegan 0, .noSocket 0, .acceptBegan 0, .noSocket 0] :=
  ⟨_, _, ⟨[.create, .launch 0, .begin 0, .move 0, .test 0, .submit 0, .complete 0 true, .test 0, .submit 0, .complete 0 true], rfl⟩, rfl⟩

/-- Moved before it is started, twice: it works, and stops. -/
example : ∃ s tr, machine.Reaches s tr ∧ tr = [.created 0, .moved 0 1, .moved 1 2, .launched 2 0, .began 0, .acceptBegan 0, .connected 0 0, .stopCalled 2, .isStop 2 false, .left 0, .isStop 2 true, .untilReturned 2] ∧ MovedBeforeStart tr := by
  refine ⟨_, _, ⟨[.create, .move 0, .move 1, .launch 2, .begin 0, .test 0, .submit 0, .complete 0 true, .stop 2, .isStop 2, .test 0, .leave 0, .isStop 2, .untilDone 2], rfl⟩, rfl, ?_⟩
  intro a b i h1 h2
  simp at h1 h2
  omega

end Verif.TcpMove
