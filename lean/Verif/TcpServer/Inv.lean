import Verif.TcpServer.Model
import Verif.Common.AtEvent
/-!
# Invariants of the tcp_server machine
-/

namespace Verif.TcpServer

/-- between the constructor and the destructor of wg_handler -/
def LPc.active : LPc → Bool
  | .testing | .ready | .accepting | .holding _ | .leaving => true
  | _ => false

def LPc.isReady : LPc → Bool
  | .ready => true
  | _ => false

def LPc.exists_ : LPc → Bool
  | .absent => false
  | _ => true

def LPc.begun : LPc → Bool
  | .absent | .queued => false
  | _ => true

def LPc.over : LPc → Bool
  | .draining | .gone => true
  | _ => false

def SPc.launched (n : Nat) : SPc → Nat
  | .before | .failed => 0
  | .launching k => k
  | .started => n

def activeCount (n : Nat) (f : Nat → LPc) : Nat := (List.range n).countP (fun i => (f i).active)

theorem activeCount_upd (n : Nat) (f : Nat → LPc) (j : Nat) (v : LPc) (hj : j < n) :
    activeCount n (upd f j v) + (f j).active.toNat = activeCount n f + v.active.toNat := by
  unfold activeCount
  induction n with
  | zero => omega
  | succ n ih =>
    rw [List.range_succ, List.countP_append, List.countP_append, List.countP_singleton, List.countP_singleton]
    by_cases hjn : j = n
    · subst hjn
      have h0 : (List.range j).countP (fun i => (upd f j v i).active) = (List.range j).countP (fun i => (f i).active) := by
        apply List.countP_congr
        intro x hx
        rw [upd_ne _ _ (by have := List.mem_range.1 hx; omega)]
      rw [h0, upd_same]
      cases h1 : (f j).active <;> cases h2 : v.active <;> simp [h1, h2]
    · have := ih (by omega)
      rw [upd_ne _ _ (Ne.symm hjn)]
      omega

theorem activeCount_zero (n : Nat) (f : Nat → LPc) : activeCount n f = 0 ↔ ∀ i, i < n → (f i).active = false := by
  unfold activeCount
  rw [List.countP_eq_zero]
  simp

theorem active_pos (n : Nat) (f : Nat → LPc) (i : Nat) (hi : i < n) (h : (f i).active = true) : 0 < activeCount n f := by
  rcases Nat.eq_zero_or_pos (activeCount n f) with h0 | h0
  · have := (activeCount_zero n f).1 h0 i hi; rw [h] at this; cases this
  · exact h0

structure Inv (n : Nat) (s : St) (tr : List Ev) : Prop where
  ex : ∀ i, (s.loop i).exists_ = true ↔ i < s.spc.launched n
  sp : s.spc.launched n ≤ n
  began : ∀ i, Ev.began i ∈ tr ↔ (s.loop i).begun = true
  left : ∀ i, Ev.left i ∈ tr ↔ (s.loop i).over = true
  cnt : s.count = activeCount n s.loop
  stop : s.stop = true ↔ Ev.stopCalled ∈ tr
  leaving : ∀ i, s.loop i = .leaving ∨ (s.loop i).over = true → s.stop = true
  fin : s.spc = .started ↔ Ev.startReturned ∈ tr
  la : ∀ i, tr.count (.launched i) = (decide (i < s.spc.launched n)).toNat
  uniq : ∀ i, tr.count (.began i) = (s.loop i).begun.toNat

structure SInv (n : Nat) (s : St) (tr : List Ev) : Prop where
  accs : ∀ p q, tr = p ++ .stopCalled :: q → ∀ i, q.countP (isAccept i) + (s.loop i).isReady.toNat ≤ 1
  drain : (∀ p q, tr = p ++ .stopCalled :: q → AllBegan n p) → ∀ i, s.loop i = .draining → s.count = 0

/-- splits of an extended trace -/
theorem splits_concat (tr : List Ev) (x : Ev) (P : List Ev → List Ev → Prop) :
    (∀ p q, tr ++ [x] = p ++ .stopCalled :: q → P p q) ↔
      (x = .stopCalled → P tr []) ∧ ∀ p q, tr = p ++ .stopCalled :: q → P p (q ++ [x]) := by
  constructor
  · intro h
    exact ⟨fun hx => h tr [] (by rw [hx]), fun p q hp => h p (q ++ [x]) (by simp [hp])⟩
  · rintro ⟨h1, h2⟩ p q hp
    rcases append_singleton_split hp with ⟨rfl, hx, rfl⟩ | ⟨b', rfl, hb⟩
    · exact h1 hx
    · exact h2 p b' hb

theorem step_cases {n : Nat} {s : St} {l : Lbl} {s' : St} {e : List Ev} (hs : step n s l = some (s', e)) :
    s.ub = false ∧ ((stepLive n s l = some (s', e) ∧ (s.alive = false → touches l = false)) ∨ (e = [.undefined] ∧ s'.ub = true ∧ s.alive = false ∧ touches l = true)) := by
  unfold step at hs
  split at hs
  · simp at hs
  rename_i hub
  refine ⟨by simpa using hub, ?_⟩
  split at hs
  · rename_i ha; exact Or.inl ⟨hs, by simp [ha]⟩
  rename_i ha
  split at hs
  · simp at hs
  split at hs
  · rename_i ht
    cases h : stepLive n s l with
    | none => rw [h] at hs; simp at hs
    | some r => rw [h] at hs; simp at hs; obtain ⟨rfl, rfl⟩ := hs; exact Or.inr ⟨rfl, rfl, by simpa using ha, ht⟩
  · rename_i ht; exact Or.inl ⟨hs, fun _ => by simpa using ht⟩

theorem live_ub {n : Nat} {s : St} {l : Lbl} {s' : St} {e : List Ev} (hs : stepLive n s l = some (s', e)) : s'.ub = s.ub := by
  cases l <;> simp only [stepLive] at hs <;> (repeat' split at hs) <;>
    simp only [Option.some.injEq, Prod.mk.injEq, reduceCtorEq] at hs <;> obtain ⟨rfl, rfl⟩ := hs <;> rfl

theorem live_single {n : Nat} {s : St} {l : Lbl} {s' : St} {e : List Ev} (hs : stepLive n s l = some (s', e)) : e.length ≤ 1 := by
  cases l <;> simp only [stepLive] at hs <;> (repeat' split at hs) <;>
    simp only [Option.some.injEq, Prod.mk.injEq, reduceCtorEq] at hs <;> obtain ⟨rfl, rfl⟩ := hs <;> simp

theorem step_single (n : Nat) (s : St) (l : Lbl) (s' : St) (e : List Ev) (hs : (machine n).step s l = some (s', e)) : e.length ≤ 1 := by
  rcases (step_cases hs).2 with ⟨h, -⟩ | ⟨rfl, -⟩
  · exact live_single h
  · simp

set_option maxHeartbeats 1000000 in
theorem inv_live (n : Nat) (s : St) (tr : List Ev) (l : Lbl) (s' : St) (e : List Ev) (h : Inv n s tr) (hs : stepLive n s l = some (s', e)) :
    Inv n s' (tr ++ e) := by
  obtain ⟨ex, sp, began, left, cnt, stop, leaving, fin, la, uniq⟩ := h
  have hlt : ∀ i, (s.loop i).exists_ = true → i < n := fun i hi => by have := (ex i).1 hi; omega
  have hu : ∀ j v, (s.loop j).exists_ = true → activeCount n (upd s.loop j v) + (s.loop j).active.toNat = activeCount n s.loop + v.active.toNat :=
    fun j v hj => activeCount_upd n s.loop j v (hlt j hj)
  have hk : ∀ k, s.spc = .launching k → s.loop k = .absent := by
    intro k hk
    have := ex k
    rw [hk] at this
    cases h : s.loop k <;> simp [h, LPc.exists_, SPc.launched] at this ⊢
  have hku : ∀ k, k < n → s.loop k = .absent → activeCount n (upd s.loop k .queued) = activeCount n s.loop := by
    intro k h1 h2
    have := activeCount_upd n s.loop k .queued h1
    rw [h2] at this; simpa [LPc.active] using this
  cases l with
  | _ =>
    simp only [stepLive] at hs
    (repeat' split at hs) <;> simp only [Option.some.injEq, Prod.mk.injEq, reduceCtorEq] at hs <;> obtain ⟨rfl, rfl⟩ := hs
    all_goals constructor <;> (try dsimp only) <;> (try simp only [List.append_nil])
    all_goals first
      | assumption
      | (intro i; have := ex i; (try simp only [upd_apply]); grind [LPc.exists_, SPc.launched])
      | (intro i; have := began i; (try simp only [upd_apply]); grind [LPc.begun])
      | (intro i; have := left i; (try simp only [upd_apply]); grind [LPc.over])
      | (intro i; have := leaving i; (try simp only [upd_apply]); grind [LPc.over])
      | (intro i; have := la i; (try simp only [List.count_append, List.count_singleton]); grind [SPc.launched])
      | (intro i; have := uniq i; (try simp only [List.count_append, List.count_singleton, upd_apply]); grind [LPc.begun])
      | (have h1 := hu _ .testing (by rw [‹s.loop _ = _›]; rfl); rw [‹s.loop _ = _›] at h1; simp only [LPc.active, Bool.toNat_false, Bool.toNat_true] at h1; omega)
      | (have h1 := hu _ .ready (by rw [‹s.loop _ = _›]; rfl); rw [‹s.loop _ = _›] at h1; simp only [LPc.active, Bool.toNat_false, Bool.toNat_true] at h1; omega)
      | (have h1 := hu _ .leaving (by rw [‹s.loop _ = _›]; rfl); rw [‹s.loop _ = _›] at h1; simp only [LPc.active, Bool.toNat_false, Bool.toNat_true] at h1; omega)
      | (have h1 := hu _ .accepting (by rw [‹s.loop _ = _›]; rfl); rw [‹s.loop _ = _›] at h1; simp only [LPc.active, Bool.toNat_false, Bool.toNat_true] at h1; omega)
      | (have h1 := hu _ (.holding s.nextc) (by rw [‹s.loop _ = _›]; rfl); rw [‹s.loop _ = _›] at h1; simp only [LPc.active, Bool.toNat_false, Bool.toNat_true] at h1; omega)
      | (have h1 := hu _ .draining (by rw [‹s.loop _ = _›]; rfl); rw [‹s.loop _ = _›] at h1; simp only [LPc.active, Bool.toNat_false, Bool.toNat_true] at h1; omega)
      | (have h1 := hu _ .gone (by rw [‹s.loop _ = _›]; rfl); rw [‹s.loop _ = _›] at h1; simp only [LPc.active, Bool.toNat_false, Bool.toNat_true] at h1; omega)
      | (have h0 := (‹s.loop _ = _ ∧ _›).1; have h1 := hu _ .gone (by rw [h0]; rfl); rw [h0] at h1; simp only [LPc.active, Bool.toNat_false, Bool.toNat_true] at h1; omega)
      | grind [SPc.launched]
      | skip
    all_goals
      rename_i k hsp _
      intro i; have h1 := la i; rw [hsp] at h1; rw [List.count_append, h1, List.count_singleton]
      simp only [SPc.launched, beq_iff_eq, Ev.launched.injEq]
      by_cases h2 : k = i
      · subst h2; simp
      · have h3 : decide (i < k + 1) = decide (i < k) := by rw [decide_eq_decide]; omega
        rw [if_neg h2]; exact congrArg Bool.toNat h3.symm

theorem sinv_live (n : Nat) (s : St) (tr : List Ev) (l : Lbl) (s' : St) (e : List Ev) (hi : Inv n s tr) (h : SInv n s tr) (hs : stepLive n s l = some (s', e)) :
    SInv n s' (tr ++ e) := by
  obtain ⟨accs, drain⟩ := h
  obtain ⟨ex, sp, began, left, cnt, stop, leaving, fin, la, uniq⟩ := hi
  have hsp : s.stop = true → ∃ p q, tr = p ++ .stopCalled :: q := fun h => List.append_of_mem (stop.1 h)
  have hlt : ∀ i, (s.loop i).exists_ = true → i < n := fun i hi => by have := (ex i).1 hi; omega
  have hb : ∀ i, s.loop i = .queued → (∀ p q, tr = p ++ .stopCalled :: q → AllBegan n p) → s.stop = false := by
    intro i hl ha
    cases hst : s.stop with
    | false => rfl
    | true =>
      obtain ⟨p, q, hpq⟩ := hsp hst
      have h1 := ha p q hpq i (hlt i (by rw [hl]; rfl))
      have h2 := (began i).1 (by rw [hpq]; simp [h1])
      rw [hl] at h2; cases h2
  have hpos : ∀ i, (s.loop i).active = true → 0 < s.count := by
    intro i hl; rw [cnt]; exact active_pos n s.loop i (hlt i (by cases h : s.loop i <;> simp [h, LPc.active, LPc.exists_] at hl ⊢)) hl
  have hnd : s.stop = false → ∀ i, s.loop i ≠ .draining := by
    intro h1 i h2
    have := leaving i (by rw [h2]; exact Or.inr rfl)
    rw [h1] at this; cases this
  cases l with
  | _ =>
    simp only [stepLive] at hs
    (repeat' split at hs) <;> simp only [Option.some.injEq, Prod.mk.injEq, reduceCtorEq] at hs <;> obtain ⟨rfl, rfl⟩ := hs
    all_goals constructor <;> (try dsimp only) <;> (try simp only [List.append_nil]) <;> (try simp only [splits_concat, reduceCtorEq, false_implies, true_and])
    all_goals first
      | assumption
      | (intro p q hpq i; have := accs p q hpq i; have := stop.2 (by rw [hpq]; simp)
         (try simp only [upd_apply, List.countP_append, List.countP_singleton]); grind [isAccept, LPc.isReady])
      | (refine ⟨fun _ i => ?_, fun p q hpq i => ?_⟩
         · cases (s.loop i).isReady <;> simp
         · have := accs p q hpq i; simp only [List.countP_append, List.countP_singleton]; grind [isAccept, LPc.isReady])
      | (rintro ⟨-, ha⟩ i hl; exact drain ha i hl)
      | (intro ha i; have := drain ha i; have hb := fun i hl => hb i hl ha; (try simp only [upd_apply]); grind [LPc.active])
      | skip

theorem reach_both {n : Nat} {s : St} {tr : List Ev} (h : (machine n).Reaches s tr) : s.ub = false → Inv n s tr ∧ SInv n s tr := by
  refine Machine.Reaches.inv (M := machine n) (fun s tr => s.ub = false → Inv n s tr ∧ SInv n s tr) ?_ ?_ h
  · intro _
    constructor <;> constructor <;> simp [machine, init, LPc.exists_, LPc.begun, LPc.over, SPc.launched, activeCount, LPc.active]
  · intro s tr l s' e ih hs hub
    rcases step_cases hs with ⟨h0, ⟨h1, -⟩ | ⟨-, h1, -⟩⟩
    · obtain ⟨hi, hsi⟩ := ih h0
      exact ⟨inv_live n s tr l s' e hi h1, sinv_live n s tr l s' e hi hsi h1⟩
    · rw [h1] at hub; cases hub

/-- the step of an event other than `undefined` -/
theorem at_ev {n : Nat} {s : St} {tr p q : List Ev} {x : Ev} (h : (machine n).Reaches s tr) (hx : tr = p ++ x :: q) (hu : x ≠ .undefined) :
    ∃ s1 l s2, (machine n).Reaches s1 p ∧ s1.ub = false ∧ stepLive n s1 l = some (s2, [x]) := by
  obtain ⟨s1, l, s2, hr, hs⟩ := h.at_event_single (step_single n) hx
  rcases step_cases hs with ⟨h0, ⟨h1, -⟩ | ⟨h1, -⟩⟩
  · exact ⟨s1, l, s2, hr, h0, h1⟩
  · simp at h1; exact absurd h1 hu

theorem count_zero {n : Nat} {s : St} {tr : List Ev} (hi : Inv n s tr) (h0 : s.count = 0) (i : Nat) (hb : Ev.began i ∈ tr) : Ev.left i ∈ tr := by
  rw [hi.cnt, activeCount_zero] at h0
  rw [hi.began] at hb
  rw [hi.left]
  have hlt : i < n := by
    have := (hi.ex i).1 (by cases h : s.loop i <;> simp [h, LPc.begun, LPc.exists_] at hb ⊢)
    have := hi.sp; omega
  have := h0 i hlt
  cases h : s.loop i <;> simp [h, LPc.begun, LPc.active, LPc.over] at hb this ⊢

/-- an invariant of the machine up to undefined behaviour -/
theorem reach_live {n : Nat} (I : St → List Ev → Prop) (h0 : I init []) (hs : ∀ s tr l s' e, I s tr → stepLive n s l = some (s', e) → I s' (tr ++ e))
    {s : St} {tr : List Ev} (h : (machine n).Reaches s tr) : s.ub = false → I s tr := by
  refine Machine.Reaches.inv (M := machine n) (fun s tr => s.ub = false → I s tr) (fun _ => h0) ?_ h
  intro s tr l s' e ih h1 hub
  rcases step_cases h1 with ⟨h2, ⟨h3, -⟩ | ⟨-, h3, -⟩⟩
  · exact hs s tr l s' e (ih h2) h3
  · rw [h3] at hub; cases hub

theorem reach_stop2 {n : Nat} {s : St} {tr : List Ev} (h : (machine n).Reaches s tr) (hub : s.ub = false) : ∀ u, s.cpc u = .isStop2 → s.stop = true := by
  refine reach_live (n := n) (fun s _ => ∀ u, s.cpc u = .isStop2 → s.stop = true) (by simp [init]) ?_ h hub
  intro s tr l s' e ih hs
  cases l <;> simp only [stepLive] at hs <;> (repeat' split at hs) <;>
    simp only [Option.some.injEq, Prod.mk.injEq, reduceCtorEq] at hs <;> obtain ⟨rfl, rfl⟩ := hs <;> (try simp only [upd_apply]) <;> grind

theorem reach_started {n : Nat} {s : St} {tr : List Ev} (h : (machine n).Reaches s tr) (hub : s.ub = false) : ¬ (s.spc = .before ∨ s.spc = .failed) → Ev.startCalled ∈ tr := by
  refine reach_live (n := n) (fun s tr => ¬ (s.spc = .before ∨ s.spc = .failed) → Ev.startCalled ∈ tr) (by simp [init]) ?_ h hub
  intro s tr l s' e ih hs
  cases l <;> simp only [stepLive] at hs <;> (repeat' split at hs) <;>
    simp only [Option.some.injEq, Prod.mk.injEq, reduceCtorEq] at hs <;> obtain ⟨rfl, rfl⟩ := hs <;> grind

structure CInv (s : St) (tr : List Ev) : Prop where
  same : ∀ i j c, s.loop i = .holding c → s.loop j = .holding c → i = j
  hold : ∀ i c, s.loop i = .holding c → Ev.connected c ∈ tr ∧ Ev.called c ∉ tr
  held : ∀ c, Ev.connected c ∈ tr → Ev.called c ∈ tr ∨ ∃ i, s.loop i = .holding c
  once : ∀ c, tr.count (.called c) ≤ 1
  conn : ∀ c, Ev.called c ∈ tr → Ev.connected c ∈ tr
  fresh : ∀ c, Ev.connected c ∈ tr ∨ Ev.overtaken c ∈ tr → c < s.nextc
  excl : ∀ c, Ev.overtaken c ∈ tr → Ev.connected c ∉ tr

theorem reach_cinv {n : Nat} {s : St} {tr : List Ev} (h : (machine n).Reaches s tr) (hub : s.ub = false) : CInv s tr := by
  refine (reach_live (n := n) (fun s tr => Inv n s tr ∧ CInv s tr) ?_ ?_ h hub).2
  · refine ⟨?_, ?_⟩
    · constructor <;> simp [init, LPc.exists_, LPc.begun, LPc.over, SPc.launched, activeCount, LPc.active]
    · constructor <;> simp [init]
  rintro s tr l s' e ⟨hi, ih⟩ hs
  refine ⟨inv_live n s tr l s' e hi hs, ?_⟩
  have hk : ∀ k, s.spc = .launching k → s.loop k = .absent := by
    intro k hk
    have := hi.ex k
    rw [hk] at this
    cases h : s.loop k <;> simp [h, LPc.exists_, SPc.launched] at this ⊢
  obtain ⟨same, hold, held, once, conn, fresh, excl⟩ := ih
  have hcount : ∀ c, Ev.called c ∉ tr → tr.count (.called c) = 0 := fun c => List.count_eq_zero.2
  cases l with
  | _ =>
    simp only [stepLive] at hs
    (repeat' split at hs) <;> simp only [Option.some.injEq, Prod.mk.injEq, reduceCtorEq] at hs <;> obtain ⟨rfl, rfl⟩ := hs
    all_goals constructor <;> (try dsimp only) <;> (try simp only [List.append_nil])
    all_goals first
      | assumption
      | (intro i j c; have h1 := same i j c; have h2 := hold i c; have h3 := hold j c; have h4 := fresh c; (try simp only [upd_apply]); grind)
      | (intro i c; have h1 := hold i c; have h2 := fresh c; have h3 := conn c; (try simp only [upd_apply]); grind)
      | (intro c; have h1 := held c; (try simp only [upd_apply]); grind)
      | (intro c; have h1 := once c; have h2 := hcount c; have h3 := fun i => hold i c; (try simp only [List.count_append, List.count_singleton]); grind)
      | (intro c; have h1 := conn c; have h2 := fresh c; have h3 := excl c; have h4 := fun i => hold i c; grind)
      | skip

/-- undefined behaviour is the last thing known -/
theorem reach_before_ub {n : Nat} {s : St} {tr : List Ev} (h : (machine n).Reaches s tr) : s.ub = true →
    ∃ s1 tr1, (machine n).Reaches s1 tr1 ∧ s1.ub = false ∧ tr = tr1 ++ [.undefined] := by
  refine Machine.Reaches.inv' (M := machine n) (fun s tr => s.ub = true → ∃ s1 tr1, (machine n).Reaches s1 tr1 ∧ s1.ub = false ∧ tr = tr1 ++ [.undefined]) ?_ ?_ h
  · intro h; cases h
  · intro s tr l s' e hr _ hs hub
    rcases step_cases hs with ⟨h0, ⟨h1, -⟩ | ⟨rfl, -⟩⟩
    · rw [live_ub h1, h0] at hub; cases hub
    · exact ⟨s, tr, hr, h0, rfl⟩

end Verif.TcpServer
