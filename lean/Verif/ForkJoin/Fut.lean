import Verif.ForkJoin.Model
/-!
# One future as its task and the awaiting task use it
-/

namespace Verif.ForkJoin
open Verif.Nest (Body Exc Res Ev)

theorem dec_enc (r : Res) : dec (enc r) = r := by
  cases r with
  | val v => rfl
  | exc e => cases e <;> rfl

/-- What is known of the future of a task that has (not) ended. -/
structure FI (f : Future.St) (x : Option Res) : Prop where
  n1 : x = none → f.done = false ∧ f.ff = none ∧ f.fut = none ∧ f.got = false ∧ f.pc ≠ .woken ∧ f.pc ≠ .resuming
  pk : f.parked = true ↔ f.pc = .suspended
  d1 : ∀ r, x = some r → f.done = true ∧ f.pc ≠ .suspended ∧ (f.ff = some (enc r) ∨ f.fut = some (enc r))
  ff : ∀ r y, x = some r → f.ff = some y → y = enc r
  fu : ∀ r y, x = some r → f.fut = some y → y = enc r
  gt : f.got = true → f.fut ≠ none
  sg : f.pc = .suspending → f.fut = none
  bl : f.pc = .idle ∨ f.pc = .suspending ∨ f.pc = .suspended ∨ f.pc = .woken ∨ f.pc = .resuming

theorem fi_init : FI Future.init none := by constructor <;> simp [Future.init]

theorem fi_produce {f : Future.St} (h : FI f none) (r : Res) : ∃ f' e, Future.step f (.produce (enc r)) = some (f', e) ∧ FI f' (some r) ∧ f'.got = f.got ∧
    (f.pc = .suspended → Future.Ev.woken ∈ e ∧ f'.pc = .woken) ∧ (f.pc ≠ .suspended → Future.Ev.woken ∉ e ∧ f'.pc = f.pc) := by
  obtain ⟨ff, fut, got, parked, done, pc⟩ := f
  obtain ⟨n1, pk, d1, h1, h2, gt, sg, bl⟩ := h
  simp only at n1 pk d1 h1 h2 gt sg bl
  obtain ⟨rfl, rfl, rfl, rfl, n2, n3⟩ := n1 trivial
  cases parked <;> cases pc <;> simp at pk bl n2 n3 <;> simp only [Future.step, if_true, Bool.false_eq_true, if_false] <;>
    refine ⟨_, _, rfl, ?_, rfl, ?_, ?_⟩ <;> (try constructor) <;> simp

theorem fi_await {f : Future.St} {x : Option Res} (h : FI f x) (hp : f.pc = .idle) : ∃ f' e, Future.step f .await = some (f', e) ∧ FI f' x ∧ f'.got = f.got ∧
    (x = none → f'.pc = .suspending) ∧ (x ≠ none → f'.pc = .resuming) := by
  obtain ⟨ff, fut, got, parked, done, pc⟩ := f
  obtain ⟨n1, pk, d1, h1, h2, gt, sg, bl⟩ := h
  simp only at n1 pk d1 h1 h2 gt sg bl hp
  subst hp
  simp only [Future.step, if_true]
  refine ⟨_, _, rfl, ?_, ?_⟩
  · constructor <;> simp only [Future.pull] <;> cases x <;> cases fut <;> cases ff <;> simp_all
  · simp only [Future.pull]; cases x <;> cases fut <;> cases ff <;> simp_all

theorem fi_suspend {f : Future.St} {x : Option Res} (h : FI f x) (hp : f.pc = .suspending) : ∃ f' e, Future.step f .suspend = some (f', e) ∧ FI f' x ∧ f'.got = f.got ∧
    (x = none → f'.pc = .suspended ∧ Future.Ev.woken ∉ e) ∧ (x ≠ none → f'.pc = .woken ∧ Future.Ev.woken ∈ e) := by
  obtain ⟨ff, fut, got, parked, done, pc⟩ := f
  obtain ⟨n1, pk, d1, h1, h2, gt, sg, bl⟩ := h
  simp only at n1 pk d1 h1 h2 gt sg bl hp
  subst hp
  cases hx : x <;> cases hf : ff <;> simp_all [Future.step] <;> constructor <;> simp_all

theorem fi_resume {f : Future.St} {r : Res} (h : FI f (some r)) (hp : f.pc = .woken ∨ f.pc = .resuming) : ∃ f', FI f' (some r) ∧ f'.got = true ∧ f'.pc = .idle ∧
    Future.step f .resume = some (f', [.awaitRet (if f.got = true then .logicError else .res (enc r))]) := by
  obtain ⟨ff, fut, got, parked, done, pc⟩ := f
  obtain ⟨n1, pk, d1, h1, h2, gt, sg, bl⟩ := h
  simp only at n1 pk d1 h1 h2 gt sg bl hp
  have hp' : pc = .resuming ∨ pc = .woken := hp.symm
  simp only [Future.step, hp', if_true]
  cases fut <;> cases ff <;> cases got <;> simp_all [Future.nonblk, Future.pull] <;> constructor <;> simp_all

end Verif.ForkJoin
