import Verif.Fd.Model
/-!
# C79: descriptors are closed exactly once
-/

namespace Verif.Fd
open Machine

theorem TakesOnce.prefix {tr e : List Ev} (h : TakesOnce (tr ++ e)) : TakesOnce tr := by
  intro r a b c o o' hc
  exact h r a b (c ++ e) o o' (by rw [hc]; simp)

/-- membership in an extended trace -/
local macro "evs" : tactic => `(tactic| try simp only [upd_apply, List.mem_append, List.mem_cons, List.not_mem_nil, or_false,
  Ev.opened.injEq, Ev.took.injEq, Ev.closed.injEq, reduceCtorEq])

/-- Facts that hold whatever the user does. -/
structure Inv (s : St) (tr : List Ev) : Prop where
  resOpen : ∀ r v, s.res r = some v → 0 ≤ v → ∃ m k, v.toNat = m ∧ .opened r m k ∈ tr
  usedOf : ∀ r n k, .opened r n k ∈ tr → s.used r = true
  openOnce : ∀ r n k n' k', .opened r n k ∈ tr → .opened r n' k' ∈ tr → n = n' ∧ k = k'
  fileOnce : ∀ r n k r' n', .opened r n k ∈ tr → .opened r' n' k ∈ tr → r = r' ∧ n = n'
  fileLt : ∀ r n k, .opened r n k ∈ tr → k < s.nfile
  tabOpen : ∀ n k, s.table n = some k → ∃ r, .opened r n k ∈ tr
  ownTook : ∀ o n r, s.own o = some (n, r) → (∃ k, .opened r n k ∈ tr) ∧ ∃ o', .took r o' ∈ tr
  resUsed : ∀ r v, s.res r = some v → s.used r = true
  tookOpen : ∀ r o, .took r o ∈ tr → s.used r = true ∧ ∃ n k, .opened r n k ∈ tr
  gone : ∀ r n k, .opened r n k ∈ tr → s.table n ≠ some k → ∃ r' o, .closed r' o n (some k) ∈ tr
  closedGone : ∀ r o n k, .closed r o n (some k) ∈ tr → s.table n ≠ some k ∧ k < s.nfile

theorem inv_step {s s' : St} {tr e : List Ev} {l : Lbl} (h : Inv s tr) (hs : step s l = some (s', e)) : Inv s' (tr ++ e) := by
  obtain ⟨i1, i2, i3, i4, i5, i6, i7, i8, i9, i10, i11⟩ := h
  cases l
  case succeed r n =>
    simp only [step] at hs
    split at hs <;> simp only [Option.some.injEq, Prod.mk.injEq, reduceCtorEq] at hs
    obtain ⟨rfl, rfl⟩ := hs
    constructor <;> evs <;> grind
  case fail r er =>
    simp only [step] at hs
    split at hs <;> simp only [Option.some.injEq, Prod.mk.injEq, reduceCtorEq] at hs
    obtain ⟨rfl, rfl⟩ := hs
    constructor <;> evs <;> grind
  case getFd r o =>
    simp only [step] at hs
    (repeat' split at hs) <;> simp only [Option.some.injEq, Prod.mk.injEq, reduceCtorEq] at hs <;> obtain ⟨rfl, rfl⟩ := hs
    · constructor <;> evs <;> grind
    · constructor <;> evs <;> grind
  case discard r =>
    simp only [step] at hs
    split at hs <;> simp only [Option.some.injEq, Prod.mk.injEq, reduceCtorEq] at hs
    obtain ⟨rfl, rfl⟩ := hs
    constructor <;> evs <;> grind
  case move o o' =>
    simp only [step] at hs
    (repeat' split at hs) <;> simp only [Option.some.injEq, Prod.mk.injEq, reduceCtorEq] at hs
    obtain ⟨rfl, rfl⟩ := hs
    constructor <;> evs <;> grind
  case destroy o =>
    simp only [step, close] at hs
    (repeat' split at hs) <;> simp only [Option.some.injEq, Prod.mk.injEq, reduceCtorEq] at hs
    obtain ⟨rfl, rfl⟩ := hs
    constructor <;> evs <;> grind

theorem inv {s : St} {tr : List Ev} (h : machine.Reaches s tr) : Inv s tr := by
  refine Reaches.inv (M := machine) Inv ?_ (fun _ _ _ _ _ hI hs => inv_step hI hs) h
  constructor <;> simp [machine, St.init]

/-- Facts that need the discipline. -/
structure Once (s : St) (tr : List Ev) : Prop where
  live : ∀ o n r, s.own o = some (n, r) → ∃ k, s.table n = some k ∧ .opened r n k ∈ tr
  single : ∀ o n r o' n', s.own o = some (n, r) → s.own o' = some (n', r) → o = o'
  pending : ∀ r n k, .opened r n k ∈ tr → (∀ o, .took r o ∉ tr) → s.table n = some k
  closedOwn : ∀ r o n x, .closed r o n x ∈ tr → ∃ k, x = some k ∧ .opened r n k ∈ tr
  held : ∀ r n k o, .opened r n k ∈ tr → s.table n = some k → .took r o ∈ tr → ∃ o', s.own o' = some (n, r)

theorem not_took_of_once {tr : List Ev} {r o : Nat} (h : TakesOnce (tr ++ [.took r o])) : ∀ o', .took r o' ∉ tr := by
  intro o' hc
  obtain ⟨a, b, rfl⟩ := List.append_of_mem hc
  exact h r a b [] o' o (by simp)

theorem once_step {s s' : St} {tr e : List Ev} {l : Lbl} (hi : Inv s tr) (h : Once s tr) (ht : TakesOnce (tr ++ e))
    (hs : step s l = some (s', e)) : Once s' (tr ++ e) := by
  obtain ⟨i1, i2, i3, i4, i5, i6, i7, i8, i9, i10, i11⟩ := hi
  obtain ⟨o1, o2, o3, o4, o5⟩ := h
  cases l
  case succeed r n =>
    simp only [step] at hs
    split at hs <;> simp only [Option.some.injEq, Prod.mk.injEq, reduceCtorEq] at hs
    obtain ⟨rfl, rfl⟩ := hs
    clear ht
    constructor <;> evs <;> grind
  case fail r er =>
    simp only [step] at hs
    split at hs <;> simp only [Option.some.injEq, Prod.mk.injEq, reduceCtorEq] at hs
    obtain ⟨rfl, rfl⟩ := hs
    clear ht
    constructor <;> evs <;> grind
  case getFd r o =>
    simp only [step] at hs
    (repeat' split at hs) <;> simp only [Option.some.injEq, Prod.mk.injEq, reduceCtorEq] at hs <;> obtain ⟨rfl, rfl⟩ := hs
    · clear ht
      constructor <;> evs <;> grind
    · have hn := not_took_of_once ht
      clear ht
      constructor <;> evs <;> grind
  case discard r =>
    simp only [step] at hs
    split at hs <;> simp only [Option.some.injEq, Prod.mk.injEq, reduceCtorEq] at hs
    obtain ⟨rfl, rfl⟩ := hs
    clear ht
    constructor <;> evs <;> grind
  case move o o' =>
    simp only [step] at hs
    (repeat' split at hs) <;> simp only [Option.some.injEq, Prod.mk.injEq, reduceCtorEq] at hs
    obtain ⟨rfl, rfl⟩ := hs
    clear ht
    constructor <;> evs <;> grind
  case destroy o =>
    simp only [step, close] at hs
    (repeat' split at hs) <;> simp only [Option.some.injEq, Prod.mk.injEq, reduceCtorEq] at hs
    obtain ⟨rfl, rfl⟩ := hs
    clear ht
    constructor <;> evs <;> grind

theorem once {s : St} {tr : List Ev} (h : machine.Reaches s tr) (ht : TakesOnce tr) : Once s tr := by
  refine Reaches.inv' (M := machine) (fun s tr => TakesOnce tr → Once s tr) ?_
    (fun _ _ _ _ _ hr hI hs ht => once_step (inv hr) (hI ht.prefix) ht hs) h ht
  intro _
  constructor <;> simp [machine, St.init]

/-- **C79.**  If get_fd() is called at most once on every result, then whatever is closed by the owner made from a result is the very
file that was opened for that result: never somebody else's, never one that is already closed. -/
theorem closes_own_file_partial (s : St) (tr : List Ev) (h : machine.Reaches s tr) (ht : TakesOnce tr) (r o n : Nat) (x : Option Nat)
    (hc : .closed r o n x ∈ tr) : ∃ k, x = some k ∧ .opened r n k ∈ tr :=
  (once h ht).closedOwn r o n x hc

/-- **C79.**  Under the same condition, as long as an owner lives, its descriptor number stands for its own file. -/
theorem owner_valid_partial (s : St) (tr : List Ev) (h : machine.Reaches s tr) (ht : TakesOnce tr) (o n r : Nat)
    (ho : s.own o = some (n, r)) : ∃ k, s.table n = some k ∧ .opened r n k ∈ tr :=
  (once h ht).live o n r ho

/-- **C79.**  If moreover get_fd() has been called on every result that holds a descriptor, and all owners are gone, then every file
that was opened has been closed. -/
theorem no_leak_partial (s : St) (tr : List Ev) (h : machine.Reaches s tr) (ht : TakesOnce tr)
    (hall : ∀ r n k, .opened r n k ∈ tr → ∃ o, .took r o ∈ tr) (hown : ∀ o, s.own o = none) (r n k : Nat) (hk : .opened r n k ∈ tr) :
    ∃ o, .closed r o n (some k) ∈ tr := by
  have hi := inv h
  have ho := once h ht
  have hg : s.table n ≠ some k := by
    intro hc
    obtain ⟨o0, h0⟩ := hall r n k hk
    obtain ⟨o, ho⟩ := ho.held r n k o0 hk hc h0
    rw [hown] at ho; simp at ho
  obtain ⟨r', o, hc⟩ := hi.gone r n k hk hg
  obtain ⟨k', hk', hop⟩ := ho.closedOwn r' o n _ hc
  simp only [Option.some.injEq] at hk'
  subst hk'
  obtain ⟨rfl, _⟩ := hi.fileOnce r n k r' n hk hop
  exact ⟨o, hc⟩

theorem closed_split {tr a b : List Ev} {x y : Ev} (h : tr ++ [x] = a ++ y :: b) :
    (b = [] ∧ tr = a ∧ x = y) ∨ ∃ b', b = b' ++ [x] ∧ tr = a ++ y :: b' := by
  rcases List.eq_nil_or_concat b with rfl | ⟨b', z, rfl⟩
  · left
    have := List.append_inj' h rfl
    simp_all
  · right
    have : tr ++ [x] = (a ++ y :: b') ++ [z] := by simpa using h
    have := List.append_inj' this rfl
    simp_all

/-- **C79.**  No file is closed twice, whatever the user does. -/
theorem closed_once (s : St) (tr : List Ev) (h : machine.Reaches s tr) (k r o n r' o' n' : Nat) (a b c : List Ev) :
    tr ≠ a ++ .closed r o n (some k) :: b ++ .closed r' o' n' (some k) :: c := by
  revert a b c r o n r' o' n'
  refine Reaches.inv' (M := machine)
    (fun s tr => ∀ (r o n r' o' n' : Nat) (a b c : List Ev), tr ≠ a ++ .closed r o n (some k) :: b ++ .closed r' o' n' (some k) :: c) ?_ ?_ h
  · intro r o n r' o' n' a b c hc; simp [machine] at hc
  · intro s tr l s' e hr hI hs r o n r' o' n' a b c hc
    obtain ⟨i1, i2, i3, i4, i5, i6, i7, i8, i9, i10, i11⟩ := inv hr
    have hs : step s l = some (s', e) := hs
    have key : e = [] ∨ ∃ x, e = [x] ∧ (∀ q p m, x = .closed q p m (some k) → s.table m = some k) := by
      cases l <;> simp only [step, close] at hs <;> (repeat' split at hs) <;>
        simp only [Option.some.injEq, Prod.mk.injEq, reduceCtorEq] at hs <;> obtain ⟨rfl, rfl⟩ := hs <;> grind
    rcases key with rfl | ⟨x, rfl, hx⟩
    · exact hI r o n r' o' n' a b c (by simpa using hc)
    · rcases closed_split hc with ⟨_, htr, hxe⟩ | ⟨c', rfl, htr⟩
      · have h1 := hx _ _ _ hxe
        have hm : Ev.closed r o n (some k) ∈ tr := by rw [htr]; simp
        have h2 := i11 _ _ _ _ hm
        obtain ⟨q, hq⟩ := i6 _ _ h1
        have : n' = n := by
          by_contra hne
          -- the file was closed before: it was in the table then, under the number it was opened with
          have hop : ∃ q', Ev.opened q' n k ∈ tr := by
            revert hm
            refine Reaches.inv' (M := machine) (fun s tr => Ev.closed r o n (some k) ∈ tr → ∃ q', Ev.opened q' n k ∈ tr) ?_ ?_ hr
            · intro hm; simp at hm
            · intro s tr l s' e hr hI hs hm
              obtain ⟨_, _, _, _, _, j6, _⟩ := inv hr
              have hs : step s l = some (s', e) := hs
              cases l <;> simp only [step, close] at hs <;> (repeat' split at hs) <;>
                simp only [Option.some.injEq, Prod.mk.injEq, reduceCtorEq] at hs <;> obtain ⟨rfl, rfl⟩ := hs <;> grind
          obtain ⟨q', hq'⟩ := hop
          exact hne (i4 _ _ _ _ _ hq hq').2
        subst this
        exact h2.1 h1
      · exact hI r o n r' o' n' a b c' htr

/-- **C79.**  get_fd() throws only if the operation failed, whatever the user does: the descriptor of a successful operation, 0 included,
can always be taken. -/
theorem threw_only_if_failed (s : St) (tr : List Ev) (h : machine.Reaches s tr) (r : Nat) (hr : .threw r ∈ tr) :
    .failed r ∈ tr ∧ ∀ n k, .opened r n k ∉ tr := by
  have key := Reaches.inv (M := machine) (fun s tr => (∀ r, .threw r ∈ tr → .failed r ∈ tr) ∧
      (∀ r v, s.res r = some v → v < 0 → .failed r ∈ tr) ∧ (∀ r, .failed r ∈ tr → s.used r = true) ∧
      (∀ r n k, .opened r n k ∈ tr → s.used r = true ∧ .failed r ∉ tr)) ?_ ?_ h
  · exact ⟨key.1 r hr, fun n k hk => (key.2.2.2 r n k hk).2 (key.1 r hr)⟩
  · simp [machine, St.init]
  · rintro s tr l s' e ⟨h1, h2, h3, h4⟩ hs
    have hs : step s l = some (s', e) := hs
    cases l <;> simp only [step, close] at hs <;> (repeat' split at hs) <;>
      simp only [Option.some.injEq, Prod.mk.injEq, reduceCtorEq] at hs <;> obtain ⟨rfl, rfl⟩ := hs <;>
      refine ⟨?_, ?_, ?_, ?_⟩ <;> simp only [upd_apply, List.mem_append, List.mem_cons, List.not_mem_nil, or_false, Ev.opened.injEq,
        Ev.failed.injEq, Ev.threw.injEq, reduceCtorEq] <;> grind

/-- **C79, what fails.**  Nothing stops a program from calling get_fd() twice on a result (or on two copies of it).  Then the second
owner closes a file that another owner is using. -/
theorem double_take_refuted : ∃ s tr, machine.Reaches s tr ∧ (∃ o, s.own o = some (3, 1) ∧ s.table 3 = none) ∧
    .opened 1 3 1 ∈ tr ∧ .closed 0 11 3 (some 1) ∈ tr :=
  ⟨_, [.opened 0 3 0, .took 0 10, .took 0 11, .closed 0 10 3 (some 0), .opened 1 3 1, .took 1 12, .closed 0 11 3 (some 1)],
    ⟨[.succeed 0 3, .getFd 0 10, .getFd 0 11, .destroy 10, .succeed 1 3, .getFd 1 12, .destroy 11], rfl⟩,
    ⟨12, by decide, by decide⟩, by simp, by simp⟩

/-- **C79, what fails.**  A result that is dropped without get_fd() — because the coroutine returned early, or was destroyed while it
waited — leaves its file open for ever. -/
theorem dropped_result_refuted : ∃ s tr, machine.Reaches s tr ∧ .discarded 0 ∈ tr ∧
    ∀ ls s' tr', machine.runFrom s ls = some (s', tr') → s'.table 3 = some 0 := by
  refine ⟨_, [.opened 0 3 0, .discarded 0], ⟨[.succeed 0 3, .discard 0], rfl⟩, by simp, ?_⟩
  intro ls s' tr' hr
  have := runFrom_inv machine (fun s _ => s.table 3 = some 0 ∧ (∀ o n r, s.own o = some (n, r) → n ≠ 3) ∧
      (∀ r v, s.res r = some v → v ≠ 3)) ?_ ls _ [] s' tr' ?_ hr
  · exact this.1
  · intro s tr l s' e ⟨h1, h2, h3⟩ hs
    have hs : step s l = some (s', e) := hs
    cases l <;> simp only [step, close] at hs <;> (repeat' split at hs) <;>
      simp only [Option.some.injEq, Prod.mk.injEq, reduceCtorEq] at hs <;> obtain ⟨rfl, rfl⟩ := hs <;>
      refine ⟨?_, ?_, ?_⟩ <;> evs <;> grind
  · refine ⟨by decide, ?_, ?_⟩
    · intro o n r ho; simp [St.init, machine] at ho
    · intro r v hv
      simp only [upd_apply] at hv
      split at hv
      · simp at hv
      · simp [machine, St.init] at hv

/-- The hypotheses are met: two operations, one of them failing, one owner that is moved and destroyed. -/
example : ∃ s, machine.Reaches s [.opened 0 3 0, .failed 1, .took 0 10, .threw 1, .closed 0 11 3 (some 0)] ∧
    TakesOnce [.opened 0 3 0, .failed 1, .took 0 10, .threw 1, .closed 0 11 3 (some 0)] := by
  refine ⟨_, ⟨[.succeed 0 3, .fail 1 2, .getFd 0 10, .getFd 1 12, .move 10 11, .destroy 11], rfl⟩, ?_⟩
  intro r a b c o o' h
  have := congrArg (List.countP (fun e => match e with | .took _ _ => true | _ => false)) h
  simp [List.countP_cons] at this
  omega

end Verif.Fd
