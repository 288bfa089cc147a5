import Verif.Leak.Model
/-!
# C84, invariants
-/

namespace Verif.Leak
open Machine

theorem count_frame_locs (g f : Nat) (l : List Loc) : (l.map (Item.loc f)).count (.frame g) = 0 := by
  induction l with
  | nil => rfl
  | cons a l ih => simp [List.count_cons, ih]

theorem count_prom_locs (g f : Nat) (l : List Loc) : (l.map (Item.loc f)).count (.prom g) = 0 := by
  induction l with
  | nil => rfl
  | cons a l ih => simp [List.count_cons, ih]

theorem count_loc_locs (g f : Nat) (a : Loc) (l : List Loc) : (l.map (Item.loc f)).count (.loc g a) = if g = f then l.count a else 0 := by
  induction l with
  | nil => simp
  | cons b l ih => simp only [List.map_cons, List.count_cons, ih]; grind

theorem count_frame_frames (g : Nat) (l : List Nat) : (l.map Item.frame).count (.frame g) = l.count g := by
  induction l with
  | nil => rfl
  | cons a l ih => simp only [List.map_cons, List.count_cons, ih]; grind

theorem count_prom_frames (g : Nat) (l : List Nat) : (l.map Item.frame).count (.prom g) = 0 := by
  induction l with
  | nil => rfl
  | cons a l ih => simp [List.count_cons, ih]

theorem count_loc_frames (g : Nat) (a : Loc) (l : List Nat) : (l.map Item.frame).count (.loc g a) = 0 := by
  induction l with
  | nil => rfl
  | cons b l ih => simp [List.count_cons, ih]

theorem count_range_filter (n g : Nat) (q : Nat → Bool) : ((List.range n).filter q).count g = if g < n ∧ q g = true then 1 else 0 := by
  induction n with
  | zero => simp
  | succ n ih =>
    rw [List.range_succ, List.filter_append, List.count_append, ih]
    simp only [List.filter_cons, List.filter_nil]
    split <;> (try simp only [List.count_cons, List.count_nil]) <;> grind

theorem count_rev_locs (l : List Loc) (a : Loc) : l.reverse.count a = l.count a := by simp

/-- The locals of a frame are destroyed before its promise. -/
def Ordered : List Item → Prop
  | [] => True
  | .prom f :: r => (∀ l, r.count (.loc f l) = 0) ∧ Ordered r
  | .frame _ :: r => Ordered r
  | .loc _ _ :: r => Ordered r

theorem ordered_locs (f : Nat) (l : List Loc) (r : List Item) : Ordered (l.map (Item.loc f) ++ r) ↔ Ordered r := by
  induction l with
  | nil => rfl
  | cons a l ih => simpa [Ordered] using ih

theorem ordered_frames (l : List Nat) : Ordered (l.map Item.frame) := by
  induction l with
  | nil => trivial
  | cons a l ih => simpa [Ordered] using ih

/-- Structure of the frames. -/
structure Inv (s : St) : Prop where
  zero : ∀ f, s.next ≤ f → s.st f = .none ∧ s.locs f = [] ∧ s.holder f = .nobody ∧ s.prom f = false ∧ s.fin f = false ∧ s.waiter f = none
  alive : ∀ f, f < s.next → s.st f ≠ .none
  cf : ∀ f, s.pending.count (.frame f) = if s.st f = .doomed then 1 else 0
  cp : ∀ f, s.pending.count (.prom f) = if s.st f = .dying ∨ s.st f = .ending then 1 else 0
  pl : ∀ f l, 0 < s.pending.count (.loc f l) → s.st f = .dying ∨ s.st f = .ending ∨ s.st f = .running
  lc : ∀ f, s.st f = .dying ∨ s.st f = .ending ∨ s.st f = .gone ∨ s.st f = .fresh → s.locs f = []
  pr : ∀ f, f < s.next → (s.prom f = true ↔ s.st f ≠ .gone)
  fn : ∀ f, s.fin f = true → s.st f = .ending ∨ s.st f = .gone
  en : ∀ f, s.st f = .ending → s.fin f = true
  wt : ∀ c p, s.waiter c = some p ↔ s.st p = .waiting c
  od : Ordered s.pending

local macro "cnts" : tactic => `(tactic| try simp only [upd_apply, List.count_append, List.count_cons, List.count_nil, count_frame_locs,
  count_prom_locs, count_loc_locs, count_frame_frames, count_prom_frames, count_loc_frames, count_range_filter, count_rev_locs,
  Item.frame.injEq, Item.loc.injEq, Item.prom.injEq, reduceCtorEq, beq_iff_eq])

set_option maxHeartbeats 4000000 in
theorem act_inv {s s' : St} {e : List Ev} {l : Lbl} (h : Inv s) (hp : s.pending = []) (hs : act s l = some (s', e)) : Inv s' := by
  obtain ⟨i1, i2, i3, i4, i5, i6, i7, i8, i9, i10, i11⟩ := h
  cases l <;> simp only [act] at hs <;> (try simp only [dropFut, doomAll, create] at hs) <;> (repeat' split at hs) <;>
    simp only [Option.some.injEq, Prod.mk.injEq, reduceCtorEq] at hs <;> obtain ⟨rfl, -⟩ := hs <;> simp only [hp, List.count_nil] at i3 i4 i5 <;>
    constructor <;> (try simp only [hp]) <;> cnts <;> (try simp only [ordered_locs, ordered_frames, Ordered]) <;> grind [isQueued]

set_option maxHeartbeats 4000000 in
theorem destroy_inv {s : St} {i : Item} {r : List Item} (h : Inv s) (hp : s.pending = i :: r) : Inv (destroy1 s r i).1 := by
  obtain ⟨i1, i2, i3, i4, i5, i6, i7, i8, i9, i10, i11⟩ := h
  rw [hp] at i3 i4 i5 i11
  rcases i with f | ⟨f, x | c⟩ | f <;> simp only [destroy1] <;> (try simp only [dropFut, dropProm]) <;> (repeat' split) <;>
    (simp only [List.count_cons, Item.frame.injEq, Item.loc.injEq, Item.prom.injEq, reduceCtorEq, beq_iff_eq] at i3 i4 i5) <;>
    (simp only [Ordered] at i11) <;> constructor <;> cnts <;> (try simp only [ordered_locs, Ordered]) <;> grind

theorem count_pop {l : List Loc} {a : Loc} (h : l.getLast? = some a) (b : Loc) : l.count b = l.dropLast.count b + if a = b then 1 else 0 := by
  obtain ⟨h1, h2⟩ := List.getLast?_eq_some_iff.1 h
  subst h2
  rw [List.dropLast_concat, List.count_append]
  simp only [List.count_cons, List.count_nil]; grind

/-- Who has the futures. -/
structure Hold (s : St) : Prop where
  ho : ∀ c p, (s.locs p).count (.obj c) + s.pending.count (.loc p (.obj c)) = if s.holder c = .task p then 1 else 0
  fr : ∀ c, s.st c = .fresh → s.holder c ≠ .nobody ∧ s.waiter c = none
  wh : ∀ c p, s.waiter c = some p → s.prom c = true ∨ s.holder c ≠ .nobody
  hb : ∀ c, s.holder c ≠ .nobody → c < s.next

set_option maxHeartbeats 4000000 in
theorem act_hold {s s' : St} {e : List Ev} {l : Lbl} (hi : Inv s) (h : Hold s) (hp : s.pending = []) (hs : act s l = some (s', e)) : Hold s' := by
  obtain ⟨j1, j2, j3, j4⟩ := h
  obtain ⟨i1, i2, -, -, -, i6, i7, i8, i9, i10, -⟩ := hi
  cases l
  case pop p =>
    simp only [act] at hs
    (repeat' split at hs) <;> simp only [Option.some.injEq, Prod.mk.injEq, reduceCtorEq] at hs
    rename_i l heq
    obtain ⟨rfl, -⟩ := hs
    have hd := count_pop heq
    generalize (s.locs p).dropLast = dl at hd
    simp only [hp, List.count_nil] at j1
    constructor <;> cnts <;> grind
  all_goals
    simp only [act] at hs
    try simp only [dropFut, doomAll, create] at hs
    (repeat' split at hs) <;>
      simp only [Option.some.injEq, Prod.mk.injEq, reduceCtorEq] at hs <;> obtain ⟨rfl, -⟩ := hs <;> simp only [hp, List.count_nil] at j1 <;>
      constructor <;> (try simp only [hp]) <;> cnts <;> grind [isQueued]

set_option maxHeartbeats 4000000 in
theorem destroy_hold {s : St} {i : Item} {r : List Item} (hi : Inv s) (h : Hold s) (hp : s.pending = i :: r) : Hold (destroy1 s r i).1 := by
  obtain ⟨j1, j2, j3, j4⟩ := h
  obtain ⟨i1, i2, i3, i4, i5, i6, i7, i8, i9, i10, -⟩ := hi
  rw [hp] at i3 i4 i5 j1
  rcases i with f | ⟨f, x | c⟩ | f <;> simp only [destroy1] <;> (try simp only [dropFut, dropProm]) <;> (repeat' split) <;>
    (simp only [List.count_cons, Item.frame.injEq, Item.loc.injEq, Item.prom.injEq, reduceCtorEq, beq_iff_eq] at i3 i4 i5 j1) <;>
    constructor <;> cnts <;> grind

/-- The trace. -/
structure Hist (s : St) (tr : List Ev) : Prop where
  gone : ∀ c, tr.count (.frameGone c) = if s.st c = .gone then 1 else 0
  fin : ∀ c, .finished c ∈ tr ↔ s.fin c = true
  cr : ∀ p c, .created (some p) c ∈ tr → c < s.next ∧ (s.holder c = .task p ∨ s.holder c = .nobody)
  crn : ∀ c, .created none c ∈ tr → c < s.next ∧ (s.holder c = .outside ∨ s.holder c = .nobody)
  crw : ∀ p c, .created (some p) c ∈ tr → s.st p = .waiting c → s.holder c = .task p
  aw : ∀ p c, .awaits p c ∈ tr → .got p c ∈ tr ∨ s.fin c = true ∨ s.st p = .waiting c ∨
    ((s.st p = .doomed ∨ s.st p = .dying ∨ s.st p = .gone) ∧ .created (some p) c ∉ tr)
  dr : ∀ c, .dropped c ∈ tr → c < s.next ∧ s.holder c = .nobody
  st : ∀ c, c < s.next → .started c ∉ tr → s.st c = .fresh ∨ s.st c = .doomed ∨ s.st c = .dying ∨ s.st c = .gone
  lo : ∀ p x, tr.count (.made p x) = tr.count (.destroyed p x) + (s.locs p).count (.plain x) + s.pending.count (.loc p (.plain x))

local macro "evs" : tactic => `(tactic| try simp only [upd_apply, List.mem_append, List.mem_cons, List.not_mem_nil, or_false, false_or,
  Ev.created.injEq, Ev.started.injEq, Ev.made.injEq, Ev.destroyed.injEq, Ev.awaits.injEq, Ev.got.injEq, Ev.finished.injEq, Ev.frameGone.injEq,
  Ev.dropped.injEq, reduceCtorEq, List.append_nil, List.count_append, List.count_cons, List.count_nil, count_frame_locs,
  count_prom_locs, count_loc_locs, count_frame_frames, count_prom_frames, count_loc_frames, count_range_filter, count_rev_locs,
  Item.frame.injEq, Item.loc.injEq, Item.prom.injEq, beq_iff_eq])

set_option maxHeartbeats 4000000 in
theorem act_hist {s s' : St} {e tr : List Ev} {l : Lbl} (hi : Inv s) (hh : Hold s) (h : Hist s tr) (hp : s.pending = [])
    (hs : act s l = some (s', e)) : Hist s' (tr ++ e) := by
  obtain ⟨k1, k2, k3, k4, k5, k6, k7, k8, k9⟩ := h
  obtain ⟨j1, j2, j3, j4⟩ := hh
  obtain ⟨i1, i2, -, -, -, i6, i7, i8, i9, i10, -⟩ := hi
  cases l
  case pop p =>
    simp only [act] at hs
    (repeat' split at hs) <;> simp only [Option.some.injEq, Prod.mk.injEq, reduceCtorEq] at hs
    rename_i l heq
    obtain ⟨rfl, rfl⟩ := hs
    have hd := count_pop heq
    generalize (s.locs p).dropLast = dl at hd
    simp only [hp, List.count_nil] at j1 k9
    constructor <;> evs <;> grind
  all_goals
    simp only [act] at hs
    try simp only [dropFut, doomAll, create] at hs
    (repeat' split at hs) <;>
      simp only [Option.some.injEq, Prod.mk.injEq, reduceCtorEq] at hs <;> obtain ⟨rfl, rfl⟩ := hs <;> simp only [hp, List.count_nil] at j1 k9 <;>
      constructor <;> (try simp only [hp]) <;> evs <;> grind [isQueued]

set_option maxHeartbeats 4000000 in
theorem destroy_hist {s : St} {tr : List Ev} {i : Item} {r : List Item} (hi : Inv s) (hh : Hold s) (h : Hist s tr) (hp : s.pending = i :: r) :
    Hist (destroy1 s r i).1 (tr ++ (destroy1 s r i).2) := by
  obtain ⟨k1, k2, k3, k4, k5, k6, k7, k8, k9⟩ := h
  obtain ⟨j1, j2, j3, j4⟩ := hh
  obtain ⟨i1, i2, i3, i4, i5, i6, i7, i8, i9, i10, -⟩ := hi
  rw [hp] at i3 i4 i5 j1 k9
  rcases i with f | ⟨f, x | c⟩ | f <;> simp only [destroy1] <;> (try simp only [dropFut, dropProm]) <;> (repeat' split) <;>
    (simp only [List.count_cons, Item.frame.injEq, Item.loc.injEq, Item.prom.injEq, reduceCtorEq, beq_iff_eq] at i3 i4 i5 j1 k9) <;>
    constructor <;> evs <;> grind

/-- All invariants. -/
structure All (s : St) (tr : List Ev) : Prop where
  inv : Inv s
  hold : Hold s
  hist : Hist s tr

theorem all_reach {s : St} {tr : List Ev} (h : machine.Reaches s tr) : All s tr := by
  refine Reaches.inv All ?_ ?_ h
  · refine ⟨?_, ?_, ?_⟩ <;> constructor <;> simp [machine, init, Ordered]
  · rintro s tr l s' e ⟨hi, hh, hk⟩ hs
    simp only [machine, step] at hs
    split at hs
    · rename_i hp
      exact ⟨act_inv hi hp hs, act_hold hi hh hp hs, act_hist hi hh hk hp hs⟩
    · rename_i i r hp
      split at hs <;> simp only [Option.some.injEq, reduceCtorEq] at hs
      have h1 := destroy_inv hi hp
      have h2 := destroy_hold hi hh hp
      have h3 := destroy_hist hi hh hk hp
      rw [hs] at h1 h2 h3
      exact ⟨h1, h2, h3⟩

end Verif.Leak
