import Verif.Life.Model
import Verif.Common.AtEvent
/-!
# Invariants of the life cycle's model
-/

namespace Verif.Life

def Mpc.emplaced (n : Nat) : Mpc → Nat
  | .starting k => k
  | _ => n

def Mpc.inDtor : Mpc → Bool
  | .starting _ | .latch | .user => false
  | _ => true

def Wpc.alive : Wpc → Bool
  | .none => false
  | _ => true

/-- has counted down the latch -/
def Wpc.past : Wpc → Bool
  | .loop | .run | .exited => true
  | _ => false

def Wpc.registered : Wpc → Bool
  | .reg | .loop | .run | .exited => true
  | _ => false

def Wpc.working : Wpc → Bool
  | .loop | .run => true
  | _ => false

def Call.active : Call → Bool
  | .joining _ | .recursing => true
  | _ => false

def late (n : Nat) (f : Nat → Wpc) : Nat := (List.range n).countP (fun i => !(f i).past)

theorem late_upd (n : Nat) (f : Nat → Wpc) (j : Nat) (v : Wpc) (hj : j < n) :
    late n (upd f j v) + (!(f j).past).toNat = late n f + (!v.past).toNat := by
  unfold late
  induction n with
  | zero => omega
  | succ n ih =>
    rw [List.range_succ, List.countP_append, List.countP_append, List.countP_singleton, List.countP_singleton]
    by_cases hjn : j = n
    · subst hjn
      have h0 : (List.range j).countP (fun i => !(upd f j v i).past) = (List.range j).countP (fun i => !(f i).past) := by
        apply List.countP_congr
        intro x hx
        rw [upd_ne _ _ (by have := List.mem_range.1 hx; omega)]
      rw [h0, upd_same]
      cases h1 : (f j).past <;> cases h2 : v.past <;> simp [h1, h2]
    · have := ih (by omega)
      rw [upd_ne _ _ (Ne.symm hjn)]
      omega

theorem late_zero (n : Nat) (f : Nat → Wpc) : late n f = 0 ↔ ∀ i, i < n → (f i).past = true := by
  unfold late
  rw [List.countP_eq_zero]
  simp

theorem free_idle {s : St} {c : Who} (h : free s c = true) : s.call c = .idle := by
  cases c <;> simp_all [free]

theorem free_after {s : St} {c : Who} (h : free s c = true) : s.mpc.after = true := by
  cases c <;> simp_all [free, Mpc.after]

theorem signal_after {s : St} {c : Who} (h : canSignal s c = true) : s.mpc.after = true := by
  cases c <;> simp_all [canSignal, Mpc.after]

theorem lt_succ_cases {P : Nat → Prop} {k : Nat} (h : ∀ i, i < k → P i) (hk : P k) : ∀ i, i < k + 1 → P i := by
  intro i hi
  rcases Nat.lt_succ_iff_lt_or_eq.1 hi with h1 | h1
  · exact h i h1
  · exact h1 ▸ hk

structure InvA (n : Nat) (s : St) (tr : List Ev) : Prop where
  em : ∀ i, (s.wpc i).alive = true ↔ i < s.mpc.emplaced n
  emn : s.mpc.emplaced n ≤ n
  cnt : s.counted + late n s.wpc = n
  aft : s.mpc.after = true → ∀ i, i < n → (s.wpc i).past = true
  pr : ∀ i, tr.count (.prepared i) = (s.wpc i).registered.toNat
  at' : ∀ i, s.attrs.count i = (s.wpc i).registered.toNat
  st : Ev.startReturned ∈ tr ↔ s.mpc.after = true
  ex : ∀ i, Ev.workerExited i ∈ tr ↔ s.wpc i = .exited

structure InvB (n : Nat) (manual : Bool) (s : St) : Prop where
  sr : s.stopReq = true ↔ s.once ≠ .fresh
  es : ∀ i, s.wpc i = .exited → s.stopReq = true
  jo : ∀ c k, s.call c = .joining k → k ≤ n ∧ ∀ i, i < k → s.wpc i = .exited
  ac : ∀ c, (s.call c).active = true ↔ s.once = .running c
  dn : s.once = .done → ∀ i, i < n → s.wpc i = .exited
  wc : ∀ i, s.call (.wrk i) ≠ .idle → (s.wpc i).working = true
  mc : s.call .main ≠ .idle → s.mpc = .user ∨ s.mpc = .dtorCall
  md : s.mpc = .dtorCall → s.call .main ≠ .idle
  xc : ∀ c, s.call c ≠ .idle → s.mpc.after = true
  dj : ∀ k, s.mpc = .dtorJoin k → k ≤ n ∧ (∀ i, i < k → s.wpc i = .exited) ∧ (manual = false → s.once = .done)
  gn : s.mpc = .gone → ∀ i, i < n → s.wpc i = .exited
  la : s.loopsAlive = false → s.mpc.inDtor = true
  blk : ∀ c, s.once = .fresh → s.call c ≠ .blocked

structure InvC (s : St) (tr : List Ev) : Prop where
  ret : ∀ c, Ev.stopReturned c ∈ tr → s.once = .done
  db : Ev.destroyBegan ∈ tr ↔ s.mpc.inDtor = true
  de : Ev.destroyed ∈ tr ↔ s.mpc = .gone
  sg : s.sig = true ↔ ∃ c, Ev.sigint c ∈ tr
  ca : ∀ c, s.call c ≠ .idle → Ev.stopCalled c ∈ tr
  on : s.once ≠ .fresh → ∃ c, Ev.stopCalled c ∈ tr
  cw : ∀ c, Ev.stopCalled c ∈ tr → s.call c ≠ .idle ∨ s.once = .done

theorem inDtor_after {m : Mpc} (h : m.inDtor = true) : m.after = true := by
  cases m <;> simp_all [Mpc.inDtor, Mpc.after]

theorem reach_a {n : Nat} {manual loops : Bool} {s : St} {tr : List Ev} (h : (machine n manual loops).Reaches s tr) : InvA n s tr := by
  refine Machine.Reaches.inv (M := machine n manual loops) (fun s tr => InvA n s tr) ?_ ?_ h
  · constructor <;> simp [machine, init, Mpc.emplaced, Mpc.after, Wpc.alive, Wpc.registered, late, Wpc.past]
  · rintro s tr l s' e ⟨em, emn, cnt, aft, pr, at', st, ex⟩ hs
    change step n manual loops s l = some (s', e) at hs
    simp only [step] at hs
    split at hs
    · simp at hs
    have lu := late_upd n s.wpc
    have lz := late_zero n s.wpc
    have wrange : ∀ i, (s.wpc i).alive = true → i < n := fun i hi => by have := (em i).1 hi; omega
    cases l with
    | _ =>
      simp only [stepLive] at hs
      (repeat' split at hs) <;> simp only [Option.some.injEq, Prod.mk.injEq, reduceCtorEq] at hs
      all_goals obtain ⟨rfl, rfl⟩ := hs
      all_goals constructor <;> (try dsimp only) <;> (try simp only [List.append_nil])
      all_goals first
        | assumption
        | ((try simp only [upd_apply]); (try simp only [List.mem_append, List.mem_cons, List.not_mem_nil, or_false, reduceCtorEq, List.count_append, List.count_cons, List.count_nil])
           first
            | assumption
            | grind [free, Mpc.emplaced, Mpc.after, Wpc.alive, Wpc.registered, Wpc.past])
        | skip

set_option maxHeartbeats 1000000 in
theorem reach_b {n : Nat} {manual loops : Bool} {s : St} {tr : List Ev} (h : (machine n manual loops).Reaches s tr) : InvB n manual s := by
  refine Machine.Reaches.inv' (M := machine n manual loops) (fun s tr => InvB n manual s) ?_ ?_ h
  · constructor <;> simp [machine, init, Call.active]
  · rintro s tr l s' e hr ⟨sr, es, jo, ac, dn, wc, mc, md, xc, dj, gn, la, blk⟩ hs
    obtain ⟨em, emn, -, aft, -, -, -, -⟩ := reach_a hr
    change step n manual loops s l = some (s', e) at hs
    simp only [step] at hs
    split at hs
    · simp at hs
    have wrange : ∀ i, (s.wpc i).alive = true → i < n := fun i hi => by have := (em i).1 hi; omega
    cases l with
    | _ =>
      simp only [stepLive] at hs
      (repeat' split at hs) <;> simp only [Option.some.injEq, Prod.mk.injEq, reduceCtorEq] at hs
      all_goals obtain ⟨rfl, rfl⟩ := hs
      all_goals constructor <;> (try dsimp only)
      all_goals first
        | assumption
        | ((try simp only [upd_apply])
           first
            | assumption
            | grind [free_idle, free_after, signal_after, Mpc.after, Mpc.inDtor, Wpc.working, Call.active]
            | grind [free, canSignal, Mpc.after, Mpc.inDtor, Wpc.alive, Wpc.working, Call.active, Wpc.past, Mpc.emplaced])
        | (rename_i c0 _ k0 hj hk hne hw
           intro c k hc
           rw [upd_apply] at hc
           split at hc
           · injection hc with hc
             subst hc
             exact ⟨by omega, lt_succ_cases (jo _ _ hj).2 hw⟩
           · exact jo c k hc)
        | (rename_i k0 hj hk hw
           intro k hk'
           injection hk' with hk'
           subst hk'
           exact ⟨by omega, lt_succ_cases (dj _ hj).2.1 hw, (dj _ hj).2.2⟩)
        | skip

set_option maxHeartbeats 1000000 in
theorem reach_c {n : Nat} {manual loops : Bool} {s : St} {tr : List Ev} (h : (machine n manual loops).Reaches s tr) : InvC s tr := by
  refine Machine.Reaches.inv' (M := machine n manual loops) (fun s tr => InvC s tr) ?_ ?_ h
  · constructor <;> simp [machine, init, Mpc.inDtor]
  · rintro s tr l s' e hr ⟨ret, db, de, sg, ca, on, cw⟩ hs
    obtain ⟨sr, es, jo, ac, dn, wc, mc, md, xc, dj, gn, la, blk⟩ := reach_b hr
    change step n manual loops s l = some (s', e) at hs
    simp only [step] at hs
    split at hs
    · simp at hs
    cases l with
    | _ =>
      simp only [stepLive] at hs
      (repeat' split at hs) <;> simp only [Option.some.injEq, Prod.mk.injEq, reduceCtorEq] at hs
      all_goals obtain ⟨rfl, rfl⟩ := hs
      all_goals constructor <;> (try dsimp only) <;> (try simp only [List.append_nil])
      all_goals first
        | assumption
        | ((try simp only [upd_apply]); (try simp only [List.mem_append, List.mem_cons, List.not_mem_nil, or_false, reduceCtorEq])
           first
            | assumption
            | grind [free, canSignal, Mpc.inDtor, Call.active])
        | skip

end Verif.Life
