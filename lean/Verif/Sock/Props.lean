import Verif.Sock.Model
/-!
# C80: the socket functions
-/

namespace Verif.Sock
open Machine OpBatch

/-- What has happened so far, by program counter. -/
def Past (j : Job) (tr : List Ev) : Pc → Prop
  | .idle => tr = []
  | .sockWait => tr = [.askedSocket (socketFlags j)]
  | .orphan => tr = [.askedSocket (socketFlags j), .destroyed]
  | .sockDone ret => (0 ≤ ret ∧ socketFlags j = 0 ∧ tr = [.askedSocket 0, .opened ret.toNat]) ∨
      (ret < 0 ∧ tr = [.askedSocket (socketFlags j), .failed ret.natAbs])
  | .run fd rest => socketFlags j = 0 ∧ ∃ (cs : List Nat) (done : List Act), done ++ rest = todo j ∧ (done = [] → cs = []) ∧
      tr = [.askedSocket 0, .opened fd] ++ cs.map (.connecting · fd) ++ done.map (.did · fd)
  | .connWait fd rest => socketFlags j = 0 ∧ ∃ a, todo j = .connect a :: rest ∧ tr = [.askedSocket 0, .opened fd, .connecting a fd]
  | .connDone fd ret rest => socketFlags j = 0 ∧ ∃ a, todo j = .connect a :: rest ∧
      ((0 ≤ ret ∧ tr = [.askedSocket 0, .opened fd, .connecting a fd, .did (.connect a) fd]) ∨
       (ret < 0 ∧ tr = [.askedSocket 0, .opened fd, .connecting a fd, .failed ret.natAbs]))
  | .fin =>
      -- returned
      (∃ (fd : Nat) (cs : List Nat), socketFlags j = 0 ∧ tr = [.askedSocket 0, .opened fd] ++ cs.map (.connecting · fd) ++ (todo j).map (.did · fd) ++ [.returned fd]) ∨
      -- the socket operation failed
      (∃ ret stale, ret < 0 ∧ tr = [.askedSocket (socketFlags j), .failed (Int.natAbs ret),
        .threw (thrown j (errorCode (mkRet stale ret)))]) ∨
      -- a later call failed
      (∃ (fd : Nat) (cs : List Nat) (done rest : List Act) (e code : Nat), rest ≠ [] ∧ done ++ rest = todo j ∧ socketFlags j = 0 ∧
        tr = [.askedSocket 0, .opened fd] ++ cs.map (.connecting · fd) ++ done.map (.did · fd) ++ [.failed e, .closed fd, .threw code]) ∨
      -- destroyed while the connect operation was in flight
      (∃ fd a mid, todo j = [.connect a] ∧ socketFlags j = 0 ∧ (mid = [] ∨ mid = [.did (.connect a) fd] ∨ ∃ e, mid = [.failed e]) ∧
        tr = [.askedSocket 0, .opened fd, .connecting a fd] ++ mid ++ [.destroyed, .closed fd]) ∨
      -- destroyed before it had the socket
      (∃ x, .destroyed ∈ tr ∧ (tr = [.askedSocket (socketFlags j), .destroyed, x] ∨
        tr = [.askedSocket (socketFlags j), x, .destroyed]) ∧ ((∃ fd, x = .opened fd) ∨ ∃ e, x = .failed e))

theorem todo_connect {j : Job} {done rest : List Act} {b : Nat} (h : done ++ .connect b :: rest = todo j) :
    done = [] ∧ rest = [] ∧ ∃ f, j = .connect b f := by
  cases j with
  | connect c f =>
    simp only [todo] at h
    cases done with
    | nil => simp at h; simp [h]
    | cons d ds => simp at h
  | bind c rp ra f =>
    exfalso
    have hm : Act.connect b ∈ todo (.bind c rp ra f) := by rw [← h]; simp
    cases rp <;> cases ra <;> simp [todo] at hm

theorem past_step {j : Job} {p p' : Pc} {tr e : List Ev} {l : Lbl} (h : Past j tr p) (hs : step j p l = some (p', e)) :
    Past j (tr ++ e) p' := by
  cases l
  case start =>
    simp only [step] at hs
    split at hs <;> simp only [Option.some.injEq, Prod.mk.injEq, reduceCtorEq] at hs
    obtain ⟨rfl, rfl⟩ := hs
    simp only [Past] at h ⊢; simp [h]
  case sockRet ret =>
    simp only [step] at hs
    split at hs
    · simp at hs
    rename_i hfl
    split at hs <;> simp only [Option.some.injEq, Prod.mk.injEq, reduceCtorEq] at hs
    · obtain ⟨rfl, rfl⟩ := hs
      simp only [Past] at h ⊢
      subst h
      by_cases hr : 0 ≤ ret
      · have : socketFlags j = 0 := by
          by_contra hc; exact hfl ⟨hr, hc⟩
        left; exact ⟨hr, this, by simp [hr, this]⟩
      · right; exact ⟨by omega, by simp [hr]⟩
    · obtain ⟨rfl, rfl⟩ := hs
      simp only [Past] at h ⊢
      subst h
      refine .inr (.inr (.inr (.inr ?_)))
      by_cases hr : 0 ≤ ret
      · exact ⟨.opened ret.toNat, by simp, .inl (by simp [hr]), .inl ⟨_, rfl⟩⟩
      · exact ⟨.failed ret.natAbs, by simp, .inl (by simp [hr]), .inr ⟨_, rfl⟩⟩
  case resume stale =>
    simp only [step] at hs
    split at hs
    · rename_i ret
      have hc := errorCode_mkRet stale ret
      split at hs <;> rename_i hcc <;> simp only [Option.some.injEq, Prod.mk.injEq] at hs <;> obtain ⟨rfl, rfl⟩ := hs
      · have hlt : ret < 0 := by
          by_contra hh; exact hcc (hc.2 (by omega))
        simp only [Past] at h ⊢
        rcases h with ⟨h1, _⟩ | ⟨_, rfl⟩
        · omega
        · exact .inr (.inl ⟨ret, stale, hlt, rfl⟩)
      · have hge : 0 ≤ ret := hc.1 (by simpa using hcc)
        simp only [Past] at h ⊢
        rcases h with ⟨_, hf, rfl⟩ | ⟨h1, _⟩
        · exact ⟨hf, [], [], rfl, fun _ => rfl, by simp⟩
        · omega
    · rename_i fd ret rest
      have hc := errorCode_mkRet stale ret
      split at hs <;> rename_i hcc <;> simp only [Option.some.injEq, Prod.mk.injEq] at hs <;> obtain ⟨rfl, rfl⟩ := hs
      · have hlt : ret < 0 := by
          by_contra hh; exact hcc (hc.2 (by omega))
        simp only [Past] at h ⊢
        obtain ⟨hf, a, ha, ⟨h1, _⟩ | ⟨_, rfl⟩⟩ := h
        · omega
        · exact .inr (.inr (.inl ⟨fd, [a], [], .connect a :: rest, _, _, by simp, by simp [ha], hf, rfl⟩))
      · have hge : 0 ≤ ret := hc.1 (by simpa using hcc)
        simp only [Past] at h ⊢
        obtain ⟨hf, a, ha, ⟨_, rfl⟩ | ⟨h1, _⟩⟩ := h
        · exact ⟨hf, [a], [.connect a], by simp [ha], by simp, by simp⟩
        · omega
    · simp at hs
  case call =>
    simp only [step] at hs
    split at hs <;> simp only [Option.some.injEq, Prod.mk.injEq, reduceCtorEq] at hs
    obtain ⟨rfl, rfl⟩ := hs
    simp only [Past] at h ⊢
    obtain ⟨hf, cs, done, hd, hcs, rfl⟩ := h
    obtain ⟨rfl, rfl, f, rfl⟩ := todo_connect hd
    exact ⟨hf, _, rfl, by simp [hcs rfl]⟩
  case connRet ret =>
    simp only [step] at hs
    split at hs
    · split at hs
      · simp only [Option.some.injEq, Prod.mk.injEq] at hs
        obtain ⟨rfl, rfl⟩ := hs
        simp only [Past] at h ⊢
        obtain ⟨hf, a, ha, rfl⟩ := h
        simp only [todo, List.cons.injEq, Act.connect.injEq] at ha
        obtain ⟨rfl, rfl⟩ := ha
        refine ⟨hf, _, rfl, ?_⟩
        by_cases hr : 0 ≤ ret
        · exact .inl ⟨hr, by simp [hr]⟩
        · exact .inr ⟨by omega, by simp [hr]⟩
      · simp at hs
    · simp at hs
  case sys err =>
    simp only [step] at hs
    split at hs
    · rename_i fd x rest
      simp only [Past] at h
      obtain ⟨hf, cs, done, hd, hcs, rfl⟩ := h
      split at hs
      · simp at hs
      · split at hs <;> simp only [Option.some.injEq, Prod.mk.injEq] at hs <;> obtain ⟨rfl, rfl⟩ := hs
        · simp only [Past]
          exact ⟨hf, cs, done ++ [x], by simp [hd], by simp, by simp⟩
        · simp only [Past]
          exact .inr (.inr (.inl ⟨fd, cs, done, x :: rest, err, err, by simp, hd, hf, rfl⟩))
    · simp at hs
  case ret =>
    simp only [step] at hs
    split at hs <;> simp only [Option.some.injEq, Prod.mk.injEq, reduceCtorEq] at hs
    obtain ⟨rfl, rfl⟩ := hs
    simp only [Past] at h ⊢
    obtain ⟨hf, cs, done, hd, hcs, rfl⟩ := h
    simp only [List.append_nil] at hd
    subst hd
    exact .inl ⟨_, cs, hf, rfl⟩
  case destroy =>
    simp only [step] at hs
    split at hs <;> simp only [Option.some.injEq, Prod.mk.injEq, reduceCtorEq] at hs <;> obtain ⟨rfl, rfl⟩ := hs <;>
      simp only [Past] at h ⊢
    · subst h; rfl
    · refine .inr (.inr (.inr (.inr ?_)))
      rcases h with ⟨_, hf, rfl⟩ | ⟨_, rfl⟩
      · exact ⟨_, by simp, .inr (by rw [hf]; rfl), .inl ⟨_, rfl⟩⟩
      · exact ⟨_, by simp, .inr rfl, .inr ⟨_, rfl⟩⟩
    · obtain ⟨hf, a, ha, rfl⟩ := h
      obtain ⟨_, rfl, _⟩ := todo_connect (done := []) ha.symm
      exact .inr (.inr (.inr (.inl ⟨_, a, [], ha, hf, .inl rfl, rfl⟩)))
    · obtain ⟨hf, a, ha, h⟩ := h
      obtain ⟨_, rfl, _⟩ := todo_connect (done := []) ha.symm
      rcases h with ⟨_, rfl⟩ | ⟨_, rfl⟩
      · exact .inr (.inr (.inr (.inl ⟨_, a, [_], ha, hf, .inr (.inl rfl), rfl⟩)))
      · exact .inr (.inr (.inr (.inl ⟨_, a, [_], ha, hf, .inr (.inr ⟨_, rfl⟩), rfl⟩)))

theorem past {j : Job} {p : Pc} {tr : List Ev} (h : (machine j).Reaches p tr) : Past j tr p :=
  Reaches.inv (M := machine j) (fun p tr => Past j tr p) rfl (fun _ _ _ _ _ hI hs => past_step hI hs) h

theorem todo_eq (j : Job) : todo j = j.acts := by cases j <;> rfl

theorem doneOn_append (fd : Nat) (a b : List Ev) : doneOn fd (a ++ b) = doneOn fd a ++ doneOn fd b := by
  simp [doneOn]

theorem doneOn_conn (fd : Nat) (l : List Nat) : doneOn fd (l.map (Ev.connecting · fd)) = [] := by
  induction l with
  | nil => rfl
  | cons a l ih => simpa [doneOn] using ih

theorem doneOn_map (fd : Nat) (l : List Act) : doneOn fd (l.map (Ev.did · fd)) = l := by
  induction l with
  | nil => rfl
  | cons a l ih => simp only [doneOn, List.map_cons, List.filterMap_cons, if_true] at ih ⊢; rw [ih]

/-- **C80.**  A socket that is returned was opened by this call, has been connected to, or bound to, the address the user named, with
the options the user asked for set before binding, and is open. -/
theorem returned_ready (j : Job) (p : Pc) (tr : List Ev) (h : (machine j).Reaches p tr) (fd : Nat) (hr : .returned fd ∈ tr) :
    .opened fd ∈ tr ∧ doneOn fd tr = j.acts ∧ (∀ n, .closed n ∉ tr) ∧ (∀ n, .opened n ∈ tr → n = fd) := by
  have hp := past h
  cases p <;> simp only [Past] at hp
  case fin =>
    rcases hp with ⟨n, _, _, rfl⟩ | ⟨_, _, _, rfl⟩ | ⟨_, _, _, _, _, _, _, _, _, rfl⟩ | ⟨_, _, _, _, _, hm, rfl⟩ | ⟨x, _, hx, hx'⟩
    · simp at hr
      subst hr
      refine ⟨by simp, ?_, by simp, by simp⟩
      simp only [doneOn_append, doneOn_map, doneOn_conn]
      simp [todo_eq, doneOn]
    · simp at hr
    · simp at hr
    · rcases hm with rfl | rfl | ⟨_, rfl⟩ <;> simp at hr
    · rcases hx' with ⟨_, rfl⟩ | ⟨_, rfl⟩ <;> rcases hx with rfl | rfl <;> simp at hr
  case sockDone => rcases hp with ⟨_, _, rfl⟩ | ⟨_, rfl⟩ <;> simp at hr
  case run => obtain ⟨_, _, _, _, _, rfl⟩ := hp; simp at hr
  case connWait => obtain ⟨_, _, _, rfl⟩ := hp; simp at hr
  case connDone => obtain ⟨_, _, _, ⟨_, rfl⟩ | ⟨_, rfl⟩⟩ := hp <;> simp at hr
  all_goals subst hp; simp at hr

/-- **C80.**  If an exception is thrown, a system call has failed, and every socket that was opened has been closed, once. -/
theorem error_closes (j : Job) (p : Pc) (tr : List Ev) (h : (machine j).Reaches p tr) (c : Nat) (hr : .threw c ∈ tr) :
    (∃ e, .failed e ∈ tr) ∧ ∀ fd, tr.count (.opened fd) = tr.count (.closed fd) := by
  have hp := past h
  cases p <;> simp only [Past] at hp
  case fin =>
    rcases hp with ⟨n, _, _, rfl⟩ | ⟨_, _, _, rfl⟩ | ⟨_, _, _, _, _, _, _, _, _, rfl⟩ | ⟨_, _, _, _, _, hm, rfl⟩ | ⟨x, _, hx, hx'⟩
    · simp at hr
    · exact ⟨⟨_, List.mem_cons_of_mem _ List.mem_cons_self⟩, by simp⟩
    · refine ⟨⟨_, List.mem_append_right _ List.mem_cons_self⟩, fun fd => ?_⟩
      simp only [List.count_append, List.count_cons, List.count_nil]
      simp [List.count_eq_zero_of_not_mem]
    · rcases hm with rfl | rfl | ⟨_, rfl⟩ <;> simp at hr
    · rcases hx' with ⟨_, rfl⟩ | ⟨_, rfl⟩ <;> rcases hx with rfl | rfl <;> simp at hr
  case sockDone => rcases hp with ⟨_, _, rfl⟩ | ⟨_, rfl⟩ <;> simp at hr
  case run => obtain ⟨_, _, _, _, _, rfl⟩ := hp; simp at hr
  case connWait => obtain ⟨_, _, _, rfl⟩ := hp; simp at hr
  case connDone => obtain ⟨_, _, _, ⟨_, rfl⟩ | ⟨_, rfl⟩⟩ := hp <;> simp at hr
  all_goals subst hp; simp at hr

/-- **C80.**  There is at most one outcome, it is the last thing that happens, and a call that has ended without being destroyed has one. -/
theorem one_outcome (j : Job) (p : Pc) (tr : List Ev) (h : (machine j).Reaches p tr) :
    (∀ a x b, tr = a ++ x :: b → isOutcome x = true → b = [] ∧ ∀ y ∈ a, isOutcome y = false) ∧
    (p = .fin → .destroyed ∉ tr → ∃ x ∈ tr, isOutcome x = true) := by
  have key : (∀ y ∈ tr, isOutcome y = false) ∨ ∃ l x, tr = l ++ [x] ∧ isOutcome x = true ∧ ∀ y ∈ l, isOutcome y = false := by
    have hp := past h
    cases p <;> simp only [Past] at hp
    case fin =>
      rcases hp with ⟨n, cs, _, rfl⟩ | ⟨_, _, _, rfl⟩ | ⟨n, cs, done, _, e, c, _, _, _, rfl⟩ | ⟨_, _, _, _, _, hm, rfl⟩ | ⟨x, _, hx, hx'⟩
      · refine .inr ⟨_, _, rfl, rfl, ?_⟩
        intro y hy; simp at hy; rcases hy with rfl | rfl | ⟨_, _, rfl⟩ | ⟨_, _, rfl⟩ <;> rfl
      · exact .inr ⟨[_, _], _, rfl, rfl, by simp [isOutcome]⟩
      · refine .inr ⟨[.askedSocket 0, .opened n] ++ cs.map (.connecting · n) ++ done.map (.did · n) ++ [.failed e, .closed n], .threw c, by simp, rfl, ?_⟩
        intro y hy; simp at hy; rcases hy with rfl | rfl | ⟨_, _, rfl⟩ | ⟨_, _, rfl⟩ | rfl | rfl <;> rfl
      · left; rcases hm with rfl | rfl | ⟨_, rfl⟩ <;> simp [isOutcome]
      · left; rcases hx' with ⟨_, rfl⟩ | ⟨_, rfl⟩ <;> rcases hx with rfl | rfl <;> simp [isOutcome]
    case sockDone => left; rcases hp with ⟨_, _, rfl⟩ | ⟨_, rfl⟩ <;> simp [isOutcome]
    case run =>
      left; obtain ⟨_, _, _, _, _, rfl⟩ := hp
      intro y hy; simp at hy; rcases hy with rfl | rfl | ⟨_, _, rfl⟩ | ⟨_, _, rfl⟩ <;> rfl
    case connWait => left; obtain ⟨_, _, _, rfl⟩ := hp; simp [isOutcome]
    case connDone => left; obtain ⟨_, _, _, ⟨_, rfl⟩ | ⟨_, rfl⟩⟩ := hp <;> simp [isOutcome]
    all_goals left; subst hp; simp [isOutcome]
  refine ⟨?_, ?_⟩
  · intro a x b htr hx
    rcases key with hk | ⟨l, z, rfl, hz, hl⟩
    · have := hk x (by rw [htr]; simp)
      rw [hx] at this; simp at this
    · rcases List.eq_nil_or_concat b with rfl | ⟨b', w, rfl⟩
      · have := List.append_inj' htr rfl
        exact ⟨rfl, by rw [← this.1]; exact hl⟩
      · exfalso
        have h2 : l ++ [z] = (a ++ x :: b') ++ [w] := by simpa using htr
        have := (List.append_inj' h2 rfl).1
        have := hl x (by rw [this]; simp)
        rw [hx] at this; simp at this
  · rintro rfl hd
    have hp := past h
    simp only [Past] at hp
    rcases hp with ⟨n, _, _, rfl⟩ | ⟨_, _, _, rfl⟩ | ⟨_, _, _, _, _, _, _, _, _, rfl⟩ | ⟨_, _, _, _, _, hm, rfl⟩ | ⟨x, hx, _⟩
    · exact ⟨.returned n, by simp, rfl⟩
    · exact ⟨_, by simp; exact .inr (.inr rfl), rfl⟩
    · exact ⟨.threw _, by simp; rfl, rfl⟩
    · simp at hd
    · exact absurd hx hd

/-- **C80.**  A coroutine that is destroyed while it waits for the connection closes its socket.  (While it waits for the socket it does
not, see below.) -/
theorem destroyed_connecting_closes_partial (j : Job) (p : Pc) (tr : List Ev) (h : (machine j).Reaches p tr) (a fd : Nat)
    (hc : .connecting a fd ∈ tr) (hd : .destroyed ∈ tr) :
    tr.count (.closed fd) = 1 ∧ ∀ n, tr.count (.opened n) = tr.count (.closed n) := by
  have hp := past h
  cases p <;> simp only [Past] at hp
  case fin =>
    rcases hp with ⟨n, _, _, rfl⟩ | ⟨_, _, _, rfl⟩ | ⟨_, _, _, _, _, _, _, _, _, rfl⟩ | ⟨_, _, _, _, _, hm, rfl⟩ | ⟨x, _, hx, hx'⟩
    · simp at hd
    · simp at hd
    · simp at hd
    · rcases hm with rfl | rfl | ⟨_, rfl⟩ <;> simp at hc <;> obtain ⟨rfl, rfl⟩ := hc <;> simp [List.count_cons]
    · rcases hx' with ⟨_, rfl⟩ | ⟨_, rfl⟩ <;> rcases hx with rfl | rfl <;> simp at hc
  case sockDone => rcases hp with ⟨_, _, rfl⟩ | ⟨_, rfl⟩ <;> simp at hd
  case run => obtain ⟨_, _, _, _, _, rfl⟩ := hp; simp at hd
  case connWait => obtain ⟨_, _, _, rfl⟩ := hp; simp at hd
  case connDone => obtain ⟨_, _, _, ⟨_, rfl⟩ | ⟨_, rfl⟩⟩ := hp <;> simp at hd
  all_goals subst hp; simp at hc

/-- **C80, what fails.**  Destroyed while the socket operation is in flight, or completed but not yet resumed, the coroutine leaves the
socket open: nothing that can happen afterwards closes it. -/
theorem destroyed_early_leaks_refuted (j : Job) (hf : socketFlags j = 0) (fd : Nat) :
    (∃ tr, (machine j).Reaches .fin tr ∧ tr.count (.opened fd) = 1 ∧ tr.count (.closed fd) = 0) ∧
    ∀ l, (machine j).step .fin l = none := by
  refine ⟨⟨[.askedSocket (socketFlags j), .opened fd, .destroyed], ⟨[.start, .sockRet fd, .destroy], ?_⟩, by simp, by simp⟩, ?_⟩
  · simp [Machine.run, Machine.runFrom, machine, step, hf]
  · intro l; cases l <;> simp [machine, step]

/-- **C80, what fails.**  The `flags` parameter: bind_get_sock_tcp ignores it; with any other value than 0 connect_get_sock never
returns a socket. -/
theorem flags_refuted (j : Job) (p : Pc) (tr : List Ev) (h : (machine j).Reaches p tr) :
    (∀ a rp ra f, j = .bind a rp ra f → ∀ g, .askedSocket g ∈ tr → g = 0) ∧
    (∀ a f, j = .connect a f → f ≠ 0 → ∀ fd, .returned fd ∉ tr) := by
  have hp := past h
  refine ⟨?_, ?_⟩
  · rintro a rp ra f rfl g hg
    have h0 : socketFlags (.bind a rp ra f) = 0 := rfl
    cases p <;> simp only [Past, h0] at hp
    case fin =>
      rcases hp with ⟨n, _, _, rfl⟩ | ⟨_, _, _, rfl⟩ | ⟨_, _, _, _, _, _, _, _, _, rfl⟩ | ⟨_, _, _, _, _, hm, rfl⟩ | ⟨x, _, hx, hx'⟩
      · simpa using hg
      · simpa using hg
      · simpa using hg
      · rcases hm with rfl | rfl | ⟨_, rfl⟩ <;> simpa using hg
      · rcases hx' with ⟨_, rfl⟩ | ⟨_, rfl⟩ <;> rcases hx with rfl | rfl <;> simpa using hg
    case sockDone => rcases hp with ⟨_, _, rfl⟩ | ⟨_, rfl⟩ <;> simpa using hg
    case run => obtain ⟨_, _, _, _, _, rfl⟩ := hp; simpa using hg
    case connWait => obtain ⟨_, _, _, rfl⟩ := hp; simpa using hg
    case connDone => obtain ⟨_, _, _, ⟨_, rfl⟩ | ⟨_, rfl⟩⟩ := hp <;> simpa using hg
    all_goals subst hp; simpa using hg
  · rintro a f rfl hf fd hr
    have h0 : socketFlags (.connect a f) ≠ 0 := hf
    cases p <;> simp only [Past] at hp
    case fin =>
      rcases hp with ⟨n, _, h1, rfl⟩ | ⟨_, _, _, rfl⟩ | ⟨_, _, _, _, _, _, _, _, h1, rfl⟩ | ⟨_, _, _, _, h1, hm, rfl⟩ | ⟨x, _, hx, hx'⟩
      · exact h0 h1
      · simp at hr
      · exact h0 h1
      · exact h0 h1
      · rcases hx' with ⟨_, rfl⟩ | ⟨_, rfl⟩ <;> rcases hx with rfl | rfl <;> simp at hr
    case sockDone => rcases hp with ⟨_, _, rfl⟩ | ⟨_, rfl⟩ <;> simp at hr
    case run => exact h0 hp.1
    case connWait => exact h0 hp.1
    case connDone => exact h0 hp.1
    all_goals subst hp; simp at hr

/-- **C80, what fails.**  Whatever the reason, the exception of connect_get_sock says "success". -/
theorem connect_code_lost_refuted (a f : Nat) (p : Pc) (tr : List Ev) (h : (machine (.connect a f)).Reaches p tr) (c : Nat)
    (hr : .threw c ∈ tr) : c = 0 := by
  have key : ∀ code, thrown (.connect a f) code = 0 := fun _ => rfl
  refine Reaches.inv' (M := machine (.connect a f)) (fun _ tr => ∀ c, .threw c ∈ tr → c = 0) (by simp) ?_ h c hr
  intro s tr l s' e hreach hI hs c hc
  rw [List.mem_append] at hc
  rcases hc with hc | hc
  · exact hI c hc
  have hs : step (.connect a f) s l = some (s', e) := hs
  cases l
  case sys err =>
    exfalso
    simp only [step] at hs
    split at hs
    · rename_i fd x rest
      have hp := past hreach
      simp only [Past] at hp
      obtain ⟨_, _, done, hd, _, _⟩ := hp
      have hx : x ∈ todo (.connect a f) := by rw [← hd]; simp
      simp only [todo, List.mem_singleton] at hx
      subst hx
      simp at hs
    · simp at hs
  all_goals
    simp only [step, key] at hs
    (repeat' split at hs) <;> simp only [Option.some.injEq, Prod.mk.injEq, reduceCtorEq] at hs <;> obtain ⟨rfl, rfl⟩ := hs <;>
      simp_all

/-- The hypotheses are met: a socket is bound with both options; a connection is refused. -/
example : (machine (.bind 7 true true 0)).Reaches .fin [.askedSocket 0, .opened 5, .did .reusePort 5, .did .reuseAddr 5,
    .did (.bind 7) 5, .returned 5] := ⟨[.start, .sockRet 5, .resume 0, .sys 0, .sys 0, .sys 0, .ret], by decide⟩

example : (machine (.connect 7 0)).Reaches .fin [.askedSocket 0, .opened 5, .connecting 7 5, .failed 111, .closed 5, .threw 0] :=
  ⟨[.start, .sockRet 5, .resume 0, .call, .connRet (-111), .resume 0], by decide⟩

example : (machine (.connect 7 0)).Reaches .fin [.askedSocket 0, .opened 5, .connecting 7 5, .destroyed, .closed 5] :=
  ⟨[.start, .sockRet 5, .resume 0, .call, .destroy], by decide⟩

end Verif.Sock
