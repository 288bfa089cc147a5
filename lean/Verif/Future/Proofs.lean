import Verif.Future.Model
/-!
Invariants of futures.
-/

namespace Verif.Future

@[simp] theorem resultIn_append (a b : List Ev) : resultIn (a ++ b) = (resultIn a).or (resultIn b) := by
  simp [resultIn, List.findSome?_append]
@[simp] theorem handedOut_append (a b : List Ev) : handedOut (a ++ b) = (handedOut a || handedOut b) := by
  simp [handedOut]
@[simp] theorem handOuts_append (a b : List Ev) : handOuts (a ++ b) = handOuts a + handOuts b := by
  simp [handOuts]

theorem rP (r : Res) : resultIn [.produced r] = some r := rfl
theorem rPW (r : Res) : resultIn [.produced r, .woken] = some r := rfl
theorem hP (r : Res) : handedOut [.produced r] = false := rfl
theorem hPW (r : Res) : handedOut [.produced r, .woken] = false := rfl
theorem oP (r : Res) : handOuts [.produced r] = 0 := rfl
theorem oPW (r : Res) : handOuts [.produced r, .woken] = 0 := rfl

theorem ans_res : (∀ b, resultIn [.readyRet b] = none) ∧ (∀ x, resultIn [.nonblkRet x] = none) ∧
    (∀ x, resultIn [.awaitRet x] = none) ∧ (∀ x, resultIn [.getRet x] = none) ∧ resultIn [.awaitCalled] = none ∧
    resultIn [.suspended] = none ∧ resultIn [.suspended, .woken] = none ∧ resultIn [.getCalled] = none ∧
    (∀ x, resultIn [.getCalled, .getRet x] = none) ∧ resultIn [.spurious] = none := by
  refine ⟨?_, ?_, ?_, ?_, rfl, rfl, rfl, rfl, ?_, rfl⟩ <;> intro x <;> rfl
theorem ans_h : (∀ b, handedOut [.readyRet b] = false) ∧ (∀ x, handedOut [.nonblkRet (.res x)] = true) ∧
    (∀ x, handedOut [.awaitRet (.res x)] = true) ∧ (∀ x, handedOut [.getRet (.res x)] = true) ∧
    handedOut [.nonblkRet .outOfRange] = false ∧ handedOut [.nonblkRet .logicError] = false ∧
    handedOut [.awaitRet .outOfRange] = false ∧ handedOut [.awaitRet .logicError] = false ∧
    handedOut [.getRet .outOfRange] = false ∧ handedOut [.getRet .logicError] = false ∧
    handedOut [.awaitCalled] = false ∧
    handedOut [.suspended] = false ∧ handedOut [.suspended, .woken] = false ∧ handedOut [.getCalled] = false ∧
    handedOut [.getCalled, .getRet .logicError] = false ∧ handedOut [.spurious] = false := by
  refine ⟨?_, ?_, ?_, ?_, rfl, rfl, rfl, rfl, rfl, rfl, rfl, rfl, rfl, rfl, rfl, rfl⟩ <;> intro x <;> rfl
theorem ans_o : (∀ b, handOuts [.readyRet b] = 0) ∧ (∀ x, handOuts [.nonblkRet (.res x)] = 1) ∧
    (∀ x, handOuts [.awaitRet (.res x)] = 1) ∧ (∀ x, handOuts [.getRet (.res x)] = 1) ∧
    handOuts [.nonblkRet .outOfRange] = 0 ∧ handOuts [.nonblkRet .logicError] = 0 ∧
    handOuts [.awaitRet .outOfRange] = 0 ∧ handOuts [.awaitRet .logicError] = 0 ∧
    handOuts [.getRet .outOfRange] = 0 ∧ handOuts [.getRet .logicError] = 0 ∧
    handOuts [.awaitCalled] = 0 ∧
    handOuts [.suspended] = 0 ∧ handOuts [.suspended, .woken] = 0 ∧ handOuts [.getCalled] = 0 ∧
    handOuts [.getCalled, .getRet .logicError] = 0 ∧ handOuts [.spurious] = 0 := by
  refine ⟨?_, ?_, ?_, ?_, rfl, rfl, rfl, rfl, rfl, rfl, rfl, rfl, rfl, rfl, rfl, rfl⟩ <;> intro x <;> rfl

/-- Facts that hold whatever the consumer does. -/
structure Inv (s : St) (tr : List Ev) : Prop where
  don   : s.done = (resultIn tr).isSome
  place : s.done = true → (s.ff = resultIn tr ∧ s.fut = none) ∨ (s.ff = none ∧ s.fut = resultIn tr)
  none' : s.done = false → s.ff = none ∧ s.fut = none ∧ s.got = false
  got   : s.got = handedOut tr
  cnt   : handOuts tr = if s.got then 1 else 0
  gotf  : s.got = true → s.fut.isSome
  park  : s.parked = true ↔ s.pc = .suspended
  susp  : s.pc = .suspended → s.done = false
  wok   : s.pc = .woken ∨ s.pc = .resuming → s.done = true
  sing  : s.pc = .suspending → s.fut = none
  wk    : times .suspended tr = times .woken tr + if s.pc = .suspended then 1 else 0

theorem inv_init : Inv init [] := by
  constructor <;> simp [init, resultIn, handedOut, handOuts, times]

theorem inv_step {s s' : St} {tr e : List Ev} {l : Lbl} (h : Inv s tr) (hs : step s l = some (s', e)) :
    Inv s' (tr ++ e) := by
  obtain ⟨ff, fut, got, parked, done, pc⟩ := s
  obtain ⟨h1, h2, h3, h4, h5, h6, h7, h8, h9, h10, h11⟩ := h
  dsimp only at *
  have c0 : ∀ x y : Ev, times x (tr ++ [y]) = times x tr + if y = x then 1 else 0 := by
    intro x y; simp [times, List.count_singleton]
  have c1 : ∀ x y z : Ev, times x (tr ++ [y, z]) = times x tr + (if y = x then 1 else 0) + if z = x then 1 else 0 := by
    intro x y z; simp only [times, List.count_append, List.count_cons, List.count_nil]
    simp only [beq_iff_eq]; omega
  cases l <;> cases fut <;> cases ff <;> cases got <;> cases parked <;> simp only [step, pull, nonblk, if_true, if_false, Bool.false_eq_true, Option.isSome] at hs
  all_goals
    (repeat' split at hs) <;> (try simp only [Option.some.injEq, Prod.mk.injEq, reduceCtorEq] at hs) <;>
    (try obtain ⟨rfl, rfl⟩ := hs) <;> (try contradiction)
  all_goals
    constructor <;> try simp only [resultIn_append, handedOut_append, handOuts_append, List.append_nil, c0, c1, rP, rPW, hP, hPW, oP, oPW, ans_res, ans_h, ans_o, Option.or_none, Bool.or_false, Bool.or_true, Option.isSome, reduceCtorEq, if_true, if_false, Bool.false_eq_true]
  all_goals clear c0 c1
  all_goals generalize resultIn tr = R at *
  all_goals generalize handedOut tr = H at *
  all_goals generalize handOuts tr = O at *
  all_goals generalize times _ tr = S at *
  all_goals first | grind | (simp_all; done) | skip

end Verif.Future
