import Verif.EndToEnd.Model
import Verif.Mutex.Proofs
import Verif.WaitGroup.Proofs
import Mathlib.Data.List.Nodup
/-!
# Invariants of the composed program
-/

namespace Verif.EndToEnd

variable {S : Type} {f : Nat → S → S} {x0 : S} {n W : Nat}

/-! ## Projections: an execution of the program is an execution of each part -/

theorem lockEv_map (e : List Mutex.Ev) : (e.map (Ev.lock (S := S))).filterMap lockEv = e := by
  induction e <;> simp_all [lockEv]
theorem lockEv_group (e : List WaitGroup.Ev) : (e.map (Ev.group (S := S))).filterMap lockEv = [] := by
  induction e <;> simp_all [lockEv]
theorem groupEv_map (e : List WaitGroup.Ev) : (e.map (Ev.group (S := S))).filterMap groupEv = e := by
  induction e <;> simp_all [groupEv]
theorem groupEv_lock (e : List Mutex.Ev) : (e.map (Ev.lock (S := S))).filterMap groupEv = [] := by
  induction e <;> simp_all [groupEv]

theorem lock_step {s s' : St S} {e : List (Ev S)} {w : Nat} {l : Mutex.Lbl} (hs : step f n W s (.lock w l) = some (s', e)) :
    ∃ mx' e', s.on w = some l.agent ∧ mayLock (s.prog l.agent) l = true ∧ Mutex.step false s.mx l = some (mx', e') ∧ e = e'.map .lock ∧
      s' = { s with mx := mx', prog := upd s.prog l.agent (lockProg (s.prog l.agent) l), on := lockOn s.on w l, ready := s.ready ++ e'.filterMap lockWoken } := by
  simp only [step] at hs
  split at hs
  · rename_i hc
    split at hs
    · rename_i mx' e' hm
      simp only [Option.some.injEq, Prod.mk.injEq] at hs
      exact ⟨mx', e', hc.1, hc.2, hm, hs.2.symm, hs.1.symm⟩
    · simp at hs
  · simp at hs

theorem group_step {s s' : St S} {e : List (Ev S)} {w t : Nat} {l : WaitGroup.Lbl} (hs : step f n W s (.group w t l) = some (s', e)) :
    ∃ wg' e', s.on w = some t ∧ mayGroup n s.spawned t (s.mx.pc t) (s.prog t) l = true ∧ WaitGroup.step s.wg l = some (wg', e') ∧ e = e'.map .group ∧
      s' = { s with wg := wg', prog := upd s.prog t (groupProg (s.prog t) l), on := groupOn s.on w l, ready := s.ready ++ e'.filterMap groupWoken } := by
  simp only [step] at hs
  split at hs
  · rename_i hc
    split at hs
    · rename_i wg' e' hm
      simp only [Option.some.injEq, Prod.mk.injEq] at hs
      exact ⟨wg', e', hc.1, hc.2, hm, hs.2.symm, hs.1.symm⟩
    · simp at hs
  · simp at hs

/-- The mutex of the program goes through an execution of the model of the mutex, the wait_group through one of the model of the wait_group. -/
theorem parts {s : St S} {tr : List (Ev S)} (h : (machine f x0 n W).Reaches s tr) :
    (Mutex.machine false).Reaches s.mx (tr.filterMap lockEv) ∧ WaitGroup.machine.Reaches s.wg (tr.filterMap groupEv) := by
  refine Machine.Reaches.inv (I := fun (s : St S) tr => (Mutex.machine false).Reaches s.mx (tr.filterMap lockEv) ∧ WaitGroup.machine.Reaches s.wg (tr.filterMap groupEv)) ?_ ?_ h
  · exact ⟨Machine.Reaches.init _, Machine.Reaches.init _⟩
  · rintro s tr l s' e ⟨h1, h2⟩ hs
    change step f n W s l = some (s', e) at hs
    cases l with
    | lock w l =>
      obtain ⟨mx', e', _, _, hm, rfl, rfl⟩ := lock_step hs
      simp only [List.filterMap_append, lockEv_map, groupEv_lock, List.append_nil]
      exact ⟨h1.step hm, h2⟩
    | group w t l =>
      obtain ⟨mx', e', _, _, hm, rfl, rfl⟩ := group_step hs
      simp only [List.filterMap_append, groupEv_map, lockEv_group, List.append_nil]
      exact ⟨h1, h2.step hm⟩
    | _ =>
      simp only [step] at hs
      (repeat' split at hs) <;> simp only [Option.some.injEq, Prod.mk.injEq, reduceCtorEq] at hs
      all_goals obtain ⟨rfl, rfl⟩ := hs
      all_goals simp only [List.filterMap_append, List.filterMap_cons, List.filterMap_nil, lockEv, groupEv, List.append_nil]
      all_goals exact ⟨h1, h2⟩

theorem mxInv {s : St S} {tr : List (Ev S)} (h : (machine f x0 n W).Reaches s tr) : Mutex.Inv s.mx (tr.filterMap lockEv) := Mutex.inv_of_reaches (parts h).1
theorem wgInv {s : St S} {tr : List (Ev S)} (h : (machine f x0 n W).Reaches s tr) : WaitGroup.Inv s.wg (tr.filterMap groupEv) := WaitGroup.inv_of_reaches (parts h).2

/-! ## Where everybody is -/

/-- places of main -/
def Prog.main : Prog → Bool
  | .mBegin | .mSpawning | .mWaiting | .mOver => true
  | _ => false

/-- the task is in the hands of the scheduler or of a worker -/
def Active (s : St S) (t : Nat) : Prop := s.prog t ≠ .unborn ∧ s.prog t ≠ .over ∧ s.prog t ≠ .mOver ∧ s.mx.pc t ≠ .queued ∧ s.wg.pc t ≠ .queued

/-- ... and may be waiting for a worker there -/
def MayWait (s : St S) (t : Nat) : Prop :=
  (s.prog t = .begun ∧ (s.mx.pc t = .idle ∨ s.mx.pc t = .woken)) ∨ s.prog t = .mBegin ∨ (s.prog t = .mWaiting ∧ s.wg.pc t = .idle)

structure Loc (n : Nat) (s : St S) : Prop where
  m0 : ∀ t, s.prog t = .loaded ∨ s.prog t = .stored → s.mx.pc t = .holding
  m1 : ∀ t, s.mx.pc t = .missed ∨ s.mx.pc t = .queued ∨ s.mx.pc t = .woken → s.prog t = .begun
  m2 : ∀ t, s.mx.pc t = .holding → s.prog t = .begun ∨ s.prog t = .loaded ∨ s.prog t = .stored
  m3 : ∀ t, s.mx.pc t = .rel1 ∨ s.mx.pc t = .rel2 ∨ s.mx.pc t = .rel3 → s.prog t = .releasing
  m4 : ∀ t u, s.mx.pc t = .relWake u → s.prog t = .releasing
  g1 : ∀ t, s.wg.pc t = .missed ∨ s.wg.pc t = .queued → s.prog t = .mWaiting
  g2 : ∀ t, s.wg.pc t = .waking → s.prog t = .signalling
  g3 : ∀ t u, s.wg.pc t = .waker u → s.prog t = .signalling
  mn : ∀ t, (s.prog t).main = true ↔ t = 0
  un : ∀ t, s.prog t = .unborn ↔ t ≠ 0 ∧ s.spawned < t
  sp : s.spawned ≤ n
  sb : s.prog 0 = .mBegin → s.spawned = 0
  sw : s.prog 0 = .mWaiting ∨ s.prog 0 = .mOver → s.spawned = n

structure Run (W : Nat) (s : St S) : Prop where
  rn : s.ready.Nodup
  rr : ∀ t, t ∈ s.ready → MayWait s t
  ro : ∀ t w, t ∈ s.ready → s.on w ≠ some t
  oo : ∀ t w w', s.on w = some t → s.on w' = some t → w = w'
  oa : ∀ t w, s.on w = some t → Active s t
  ar : ∀ t, Active s t → t ∈ s.ready ∨ ∃ w, s.on w = some t
  ow : ∀ t w, s.on w = some t → w < W

set_option maxHeartbeats 1000000 in
theorem loc_lock {s s' : St S} {tr : List Mutex.Ev} {e : List (Ev S)} {w : Nat} {l : Mutex.Lbl} (L : Loc n s) (M : Mutex.Inv s.mx tr)
    (hs : step f n W s (.lock w l) = some (s', e)) : Loc n s' := by
  obtain ⟨m0, m1, m2, m3, m4, g1, g2, g3, mn, un, sp, sb, sw⟩ := L
  obtain ⟨_, _, _, _, _, a1, a2, _, _⟩ := M
  obtain ⟨mx', e', ho, hp, hm, rfl, rfl⟩ := lock_step hs
  cases l <;> simp only [Mutex.step] at hm <;> (repeat' split at hm) <;> simp only [Option.some.injEq, Prod.mk.injEq, reduceCtorEq] at hm
  all_goals obtain ⟨rfl, rfl⟩ := hm
  all_goals simp only [mayLock, decide_eq_true_eq, Bool.false_eq_true, Mutex.Lbl.agent] at hp ho
  all_goals clear hs
  all_goals constructor <;> (try simp only [upd_apply, lockProg, Mutex.Lbl.agent])
  all_goals grind [Prog.main]

set_option maxHeartbeats 1000000 in
theorem loc_group {s s' : St S} {tr : List WaitGroup.Ev} {e : List (Ev S)} {w t : Nat} {l : WaitGroup.Lbl} (L : Loc n s) (G : WaitGroup.Inv s.wg tr)
    (hs : step f n W s (.group w t l) = some (s', e)) : Loc n s' := by
  obtain ⟨m0, m1, m2, m3, m4, g1, g2, g3, mn, un, sp, sb, sw⟩ := L
  obtain ⟨_, _, a1, _, a2, _, _⟩ := G
  obtain ⟨mx', e', ho, hp, hm, rfl, rfl⟩ := group_step hs
  cases l <;> simp only [WaitGroup.step] at hm <;> (repeat' split at hm) <;> simp only [Option.some.injEq, Prod.mk.injEq, reduceCtorEq] at hm
  all_goals obtain ⟨rfl, rfl⟩ := hm
  all_goals simp only [mayGroup, decide_eq_true_eq] at hp
  all_goals clear hs
  all_goals constructor <;> (try simp only [upd_apply, groupProg])
  all_goals grind [Prog.main]

theorem loc_inv {s : St S} {tr : List (Ev S)} (h : (machine f x0 n W).Reaches s tr) : Loc n s := by
  refine Machine.Reaches.inv' (I := fun (s : St S) _ => Loc n s) ?_ ?_ h
  · constructor <;> simp [machine, init, upd_apply, Mutex.init, WaitGroup.init]
    all_goals grind [Prog.main]
  · rintro s tr l s' e hr L hs
    change step f n W s l = some (s', e) at hs
    cases l with
    | lock w l => exact loc_lock L (mxInv hr) hs
    | group w t l => exact loc_group L (wgInv hr) hs
    | _ =>
      obtain ⟨m0, m1, m2, m3, m4, g1, g2, g3, mn, un, sp, sb, sw⟩ := L
      simp only [step] at hs
      (repeat' split at hs) <;> simp only [Option.some.injEq, Prod.mk.injEq, reduceCtorEq] at hs
      all_goals obtain ⟨rfl, rfl⟩ := hs
      all_goals constructor <;> (try simp only [upd_apply])
      all_goals grind [Prog.main]

set_option maxHeartbeats 1000000 in
theorem run_lock {s s' : St S} {tr : List Mutex.Ev} {e : List (Ev S)} {w : Nat} {l : Mutex.Lbl} (L : Loc n s) (M : Mutex.Inv s.mx tr) (R : Run W s)
    (hs : step f n W s (.lock w l) = some (s', e)) : Run W s' := by
  obtain ⟨m0, m1, m2, m3, m4, g1, g2, g3, mn, un, sp, sb, sw⟩ := L
  obtain ⟨rn, rr, ro, oo, oa, ar, ow⟩ := R
  obtain ⟨_, _, _, _, _, a1, a2, _, _⟩ := M
  obtain ⟨mx', e', ho, hp, hm, rfl, rfl⟩ := lock_step hs
  clear hs
  simp only [Active, MayWait] at oa ar rr
  cases l <;> simp only [Mutex.step] at hm <;> (repeat' split at hm) <;> simp only [Option.some.injEq, Prod.mk.injEq, reduceCtorEq] at hm
  all_goals obtain ⟨rfl, rfl⟩ := hm
  all_goals simp only [mayLock, decide_eq_true_eq, Bool.false_eq_true, Mutex.Lbl.agent] at hp ho
  all_goals constructor <;> (try simp only [upd_apply, lockProg, lockOn, lockWoken, Active, MayWait, Mutex.Lbl.agent, List.filterMap_cons, List.filterMap_nil, List.append_nil])
  all_goals first
    | assumption
    | grind

set_option maxHeartbeats 1000000 in
theorem run_group {s s' : St S} {tr : List WaitGroup.Ev} {e : List (Ev S)} {w t : Nat} {l : WaitGroup.Lbl} (L : Loc n s) (G : WaitGroup.Inv s.wg tr) (R : Run W s)
    (hs : step f n W s (.group w t l) = some (s', e)) : Run W s' := by
  obtain ⟨m0, m1, m2, m3, m4, g1, g2, g3, mn, un, sp, sb, sw⟩ := L
  obtain ⟨rn, rr, ro, oo, oa, ar, ow⟩ := R
  obtain ⟨_, _, a1, _, a2, _, _⟩ := G
  obtain ⟨mx', e', ho, hp, hm, rfl, rfl⟩ := group_step hs
  clear hs
  simp only [Active, MayWait] at oa ar rr
  cases l <;> simp only [WaitGroup.step] at hm <;> (repeat' split at hm) <;> simp only [Option.some.injEq, Prod.mk.injEq, reduceCtorEq] at hm
  all_goals obtain ⟨rfl, rfl⟩ := hm
  all_goals simp only [mayGroup, decide_eq_true_eq] at hp
  all_goals constructor <;> (try simp only [upd_apply, groupProg, groupOn, groupWoken, Active, MayWait, List.filterMap_cons, List.filterMap_nil, List.append_nil])
  all_goals first
    | assumption
    | grind

theorem Loc.idleM {s : St S} (L : Loc n s) {t : Nat} (h1 : s.prog t ≠ .begun) (h2 : s.prog t ≠ .loaded) (h3 : s.prog t ≠ .stored) (h4 : s.prog t ≠ .releasing) :
    s.mx.pc t = .idle := by
  obtain ⟨m0, m1, m2, m3, m4, g1, g2, g3, mn, un, sp, sb, sw⟩ := L
  cases hc : s.mx.pc t <;> grind

theorem Loc.idleG {s : St S} (L : Loc n s) {t : Nat} (h1 : s.prog t ≠ .mWaiting) (h2 : s.prog t ≠ .signalling) : s.wg.pc t = .idle := by
  obtain ⟨m0, m1, m2, m3, m4, g1, g2, g3, mn, un, sp, sb, sw⟩ := L
  cases hc : s.wg.pc t <;> grind

theorem run_inv {s : St S} {tr : List (Ev S)} (h : (machine f x0 n W).Reaches s tr) : Run W s := by
  refine Machine.Reaches.inv' (I := fun (s : St S) _ => Run W s) ?_ ?_ h
  · constructor <;> simp [machine, init, upd_apply, Mutex.init, WaitGroup.init, Active, MayWait]
    all_goals grind
  · rintro s tr l s' e hr R hs
    change step f n W s l = some (s', e) at hs
    have L := loc_inv hr
    cases l with
    | lock w l => exact run_lock L (mxInv hr) R hs
    | group w t l => exact run_group L (wgInv hr) R hs
    | _ =>
      have i1 : ∀ t, s.prog t = .unborn → s.mx.pc t = .idle := fun t ht => L.idleM (by simp [ht]) (by simp [ht]) (by simp [ht]) (by simp [ht])
      have i2 : ∀ t, s.prog t = .unborn → s.wg.pc t = .idle := fun t ht => L.idleG (by simp [ht]) (by simp [ht])
      obtain ⟨m0, m1, m2, m3, m4, g1, g2, g3, mn, un, sp, sb, sw⟩ := L
      obtain ⟨rn, rr, ro, oo, oa, ar, ow⟩ := R
      simp only [Active, MayWait] at oa ar rr
      simp only [step] at hs
      (repeat' split at hs) <;> simp only [Option.some.injEq, Prod.mk.injEq, reduceCtorEq] at hs
      all_goals obtain ⟨rfl, rfl⟩ := hs
      all_goals constructor <;> (try simp only [upd_apply, Active, MayWait])
      all_goals first
        | assumption
        | grind [List.Nodup.erase, List.Nodup.mem_erase_iff]

end Verif.EndToEnd
