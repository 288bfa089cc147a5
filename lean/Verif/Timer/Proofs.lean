import Verif.Timer.Model
import Mathlib.Data.List.Flatten
import Mathlib.Data.List.Nodup
import Mathlib.Data.List.Perm.Basic
/-!
# Invariant of the timer machine
-/

namespace Verif.Timer

/-! ### The heap loop -/

theorem popDue_perm (lib : HeapLib) (now : Int) : ∀ k h,
    ((popDue lib now k h).1 ++ (popDue lib now k h).2).Perm h := by
  intro k
  induction k with
  | zero => intro h; simp [popDue]
  | succ k ih =>
    intro h
    cases h with
    | nil => simp [popDue]
    | cons x h =>
      rw [popDue]
      split
      · dsimp only
        rw [← List.append_assoc]
        refine (List.perm_append_comm).trans ?_
        simp only [List.singleton_append]
        exact ((ih _).trans (lib.pop_perm x h)).cons x
      · simp

theorem popDue_heap (lib : HeapLib) (now : Int) : ∀ k h, lib.IsHeap h → lib.IsHeap (popDue lib now k h).1 := by
  intro k
  induction k with
  | zero => intro h hh; simpa [popDue] using hh
  | succ k ih =>
    intro h hh
    cases h with
    | nil => simpa [popDue] using hh
    | cons x h =>
      rw [popDue]
      split
      · exact ih _ (lib.pop_heap x h hh)
      · exact hh

theorem popDue_due (lib : HeapLib) (now : Int) : ∀ k h, ∀ x ∈ (popDue lib now k h).2, x.tp ≤ now := by
  intro k
  induction k with
  | zero => intro h x hx; simp [popDue] at hx
  | succ k ih =>
    intro h
    cases h with
    | nil => intro x hx; simp [popDue] at hx
    | cons y h =>
      rw [popDue]
      split
      · intro x hx
        rcases List.mem_append.1 hx with hx | hx
        · exact ih _ x hx
        · simp only [List.mem_singleton] at hx; subst hx; assumption
      · intro x hx; simp at hx

theorem popDue_rest (lib : HeapLib) (now : Int) : ∀ k h, lib.IsHeap h → h.length ≤ k →
    ∀ x ∈ (popDue lib now k h).1, now < x.tp := by
  intro k
  induction k with
  | zero => intro h _ hl x hx; have := List.eq_nil_of_length_eq_zero (Nat.le_zero.1 hl); subst this; simp [popDue] at hx
  | succ k ih =>
    intro h hh hl
    cases h with
    | nil => intro x hx; simp [popDue] at hx
    | cons y h =>
      rw [popDue]
      split
      · refine ih _ (lib.pop_heap y h hh) ?_
        rw [(lib.pop_perm y h).length_eq]
        simpa using hl
      · rename_i hn
        intro x hx
        rcases List.mem_cons.1 hx with rfl | hx
        · omega
        · have := lib.front y h hh x hx; omega

theorem popDue_sorted (lib : HeapLib) (now : Int) : ∀ k h, lib.IsHeap h →
    (popDue lib now k h).2.Pairwise fun a b => b.tp ≤ a.tp := by
  intro k
  induction k with
  | zero => intro h _; simp [popDue]
  | succ k ih =>
    intro h hh
    cases h with
    | nil => simp [popDue]
    | cons y h =>
      rw [popDue]
      split
      · simp only [List.pairwise_append]
        refine ⟨ih _ (lib.pop_heap y h hh), by simp, ?_⟩
        intro a ha b hb
        simp only [List.mem_singleton] at hb; subst hb
        have hmem : a ∈ lib.pop b h := (popDue_perm lib now k _).mem_iff.1 (List.mem_append_right _ ha)
        exact lib.front b h hh a ((lib.pop_perm b h).mem_iff.1 hmem)
      · simp

/-! ### Counting -/

theorem count_flatMap_upd {α : Type} [DecidableEq α] (f : Nat → List α) (t : Nat) (v : List α) (x : α) :
    ∀ l : List Nat, l.Nodup → t ∈ l →
      (l.flatMap (upd f t v)).count x + (f t).count x = (l.flatMap f).count x + v.count x := by
  intro l
  induction l with
  | nil => intro _ h; simp at h
  | cons a l ih =>
    intro hn hm
    simp only [List.flatMap_cons, List.count_append]
    rw [List.nodup_cons] at hn
    by_cases ha : a = t
    · subst ha
      have hrest : l.flatMap (upd f a v) = l.flatMap f := by
        refine List.flatMap_congr ?_
        intro b hb
        have : b ≠ a := fun h => hn.1 (h ▸ hb)
        simp [upd_apply, this]
      rw [hrest]
      simp only [upd_same]; omega
    · have hm' : t ∈ l := by
        rcases List.mem_cons.1 hm with h | h
        · exact absurd h.symm ha
        · exact h
      have := ih hn.2 hm'
      rw [upd_ne _ _ ha]
      omega

theorem flatMap_upd_not_mem {α : Type} (f : Nat → List α) (t : Nat) (v : List α) (l : List Nat) (h : t ∉ l) :
    l.flatMap (upd f t v) = l.flatMap f := by
  refine List.flatMap_congr ?_
  intro b hb
  have : b ≠ t := fun hc => h (hc ▸ hb)
  simp [upd_apply, this]

def pcId : PC → List Nat
  | .awaiting id _ => [id]
  | .adding id _ => [id]
  | _ => []

def pcIds (n : Nat) (pc : Nat → PC) : List Nat := (List.range n).flatMap fun t => pcId (pc t)

theorem pcIds_upd (n : Nat) (pc : Nat → PC) (t : Nat) (q : PC) (x : Nat) (ht : t < n) :
    (pcIds n (upd pc t q)).count x + (pcId (pc t)).count x = (pcIds n pc).count x + (pcId q).count x := by
  have := count_flatMap_upd (fun t => pcId (pc t)) t (pcId q) x (List.range n) List.nodup_range (by simpa using ht)
  have h2 : (fun t' => pcId (upd pc t q t')) = upd (fun t => pcId (pc t)) t (pcId q) := by
    funext t'; simp only [upd_apply]; split <;> rfl
  rw [pcIds, h2]; exact this

def hIds (regs : List Nat) (heap : Nat → List E) : List Nat := regs.flatMap fun t => (heap t).map E.id

theorem hIds_upd (regs : List Nat) (heap : Nat → List E) (t : Nat) (h : List E) (x : Nat) (hn : regs.Nodup) (ht : t ∈ regs) :
    (hIds regs (upd heap t h)).count x + ((heap t).map E.id).count x =
      (hIds regs heap).count x + (h.map E.id).count x := by
  have := count_flatMap_upd (fun t => (heap t).map E.id) t (h.map E.id) x regs hn ht
  have h2 : (fun t' => (upd heap t h t').map E.id) = upd (fun t => (heap t).map E.id) t (h.map E.id) := by
    funext t'; simp only [upd_apply]; split <;> rfl
  rw [hIds, h2]; exact this

theorem endings_append (id : Nat) (a b : List Ev) : endings id (a ++ b) = endings id a + endings id b := by
  simp [endings, List.countP_append]

theorem endings_resumed (id : Nat) (c : Int) (ps : List E) :
    endings id (ps.map fun x => Ev.resumed x.id c) = (ps.map E.id).count id := by
  simp only [endings, List.countP_map, List.count, List.countP_map]
  rfl

theorem endings_destroyed (id : Nat) (l : List Nat) : endings id (l.map Ev.destroyed) = l.count id := by
  simp only [endings, List.countP_map, List.count]
  rfl

/-! ### The invariant -/

structure Inv (lib : HeapLib) (n : Nat) (s : St) (tr : List Ev) : Prop where
  heapOk : ∀ t, lib.IsHeap (s.heap t)
  regsND : s.regs.Nodup
  passReg : ∀ t now, s.pc t = .passing now → t ∈ s.regs ∧ now ≤ s.clock
  pcLt : ∀ t, s.pc t ≠ .idle → t < n
  total : ∀ id, endings id tr + (hIds s.regs s.heap).count id + (pcIds n s.pc).count id =
    if id < s.next then 1 else 0
  asked : ∀ id, Asked id tr ↔ id < s.next
  dueA : ∀ t id d, s.pc t = .awaiting id d → ∃ t0 now due, Ev.asked t0 id now due ∈ tr ∧ due ≤ s.clock + d
  dueB : ∀ t id d, s.pc t = .adding id d → ∃ t0 now due, Ev.asked t0 id now due ∈ tr ∧ due ≤ s.clock + d
  dueH : ∀ t, ∀ x ∈ s.heap t, (∃ t0 now due, Ev.asked t0 x.id now due ∈ tr ∧ due ≤ x.tp) ∧ Ev.added t x.id x.tp ∈ tr
  early : ∀ id c, Ev.resumed id c ∈ tr → ∃ t0 now due, Ev.asked t0 id now due ∈ tr ∧ due ≤ c
  added : ∀ t id tp, Ev.added t id tp ∈ tr → (t ∈ s.regs ∧ ⟨tp, id⟩ ∈ s.heap t) ∨ endings id tr = 1
  stop  : Ev.stopped ∈ tr → s.stop = true
  over  : Ev.ended ∈ tr ↔ s.dead = true
  overE : s.dead = true → s.regs = [] ∧ ∀ t, s.pc t = .idle

theorem inv_init (lib : HeapLib) (n : Nat) : Inv lib n init [] := by
  have h : ∀ l : List Nat, l.flatMap (fun _ => ([] : List Nat)) = [] := by
    intro l; induction l <;> simp_all
  constructor <;> simp [init, lib.nil, endings, hIds, pcIds, pcId, Asked, h]

theorem hIds_mem {regs : List Nat} {heap : Nat → List E} {t : Nat} {x : E} (ht : t ∈ regs) (hx : x ∈ heap t) :
    1 ≤ (hIds regs heap).count x.id := by
  rw [Nat.succ_le_iff, List.count_pos_iff]
  simp only [hIds, List.mem_flatMap, List.mem_map]
  exact ⟨t, ht, x, hx, rfl⟩

theorem pcIds_mem {n : Nat} {pc : Nat → PC} {t id : Nat} (ht : t < n) (h : id ∈ pcId (pc t)) :
    1 ≤ (pcIds n pc).count id := by
  rw [Nat.succ_le_iff, List.count_pos_iff]
  simp only [pcIds, List.mem_flatMap, List.mem_range]
  exact ⟨t, ht, h⟩

theorem added_mono {tr e : List Ev} {id : Nat} (h : endings id tr = 1) (h2 : endings id (tr ++ e) ≤ 1) :
    endings id (tr ++ e) = 1 := by
  rw [endings_append] at *; omega

theorem unlocked_pc {n : Nat} {s : St} (h : unlocked n s = true) (hp : ∀ t, s.pc t ≠ .idle → t < n) :
    ∀ t now, s.pc t ≠ .passing now := by
  intro t now hc
  have ht := hp t (by simp [hc])
  simp only [unlocked, List.all_eq_true, List.mem_range] at h
  have := h t ht
  simp [hc] at this

theorem allIdle_pc {n : Nat} {s : St} (h : allIdle n s = true) (hp : ∀ t, s.pc t ≠ .idle → t < n) :
    ∀ t, s.pc t = .idle := by
  intro t
  by_contra hc
  have ht := hp t hc
  simp only [allIdle, List.all_eq_true, List.mem_range, decide_eq_true_eq] at h
  exact hc (h t ht)

theorem total_le {lib : HeapLib} {n : Nat} {s : St} {tr : List Ev} (h : Inv lib n s tr) (id : Nat) :
    endings id tr ≤ 1 := by
  have := h.total id
  split at this <;> omega

theorem flatMap_nil' {β : Type} (l : List Nat) : l.flatMap (fun _ => ([] : List β)) = [] := by
  induction l <;> simp_all

/-- Events that say nothing about a sleeping task. -/
def neutral : Ev → Bool
  | .prepared _ => true
  | .polled _ => true
  | .ub => true
  | _ => false

theorem inv_neutral {lib : HeapLib} {n : Nat} {s : St} {tr e : List Ev} (h : Inv lib n s tr)
    (he : ∀ x ∈ e, neutral x = true) : Inv lib n s (tr ++ e) := by
  obtain ⟨h1, h2, h3, h4, h5, h6, h7, h8, h9, h10, h11, h12, h13, h14⟩ := h
  have hn : ∀ x, neutral x = false → (x ∈ tr ++ e ↔ x ∈ tr) := by
    intro x hx
    constructor
    · intro hm
      rcases List.mem_append.1 hm with hm | hm
      · exact hm
      · have := he x hm; simp [hx] at this
    · intro hm; simp [hm]
  have hend : ∀ id, endings id (tr ++ e) = endings id tr := by
    intro id
    rw [endings_append]
    have : endings id e = 0 := by
      simp only [endings, List.countP_eq_zero]
      intro x hx
      have := he x hx
      cases x <;> simp_all [neutral, ending]
    omega
  have ha : ∀ t id now due, Ev.asked t id now due ∈ tr ++ e ↔ Ev.asked t id now due ∈ tr := fun _ _ _ _ => hn _ rfl
  constructor <;> try assumption
  · intro i; rw [hend]; exact h5 i
  · intro i; rw [← h6 i]; simp only [Asked, ha]
  · simp only [ha]; exact h7
  · simp only [ha]; exact h8
  · simp only [ha, hn _ (show neutral (Ev.added _ _ _) = false from rfl)]; exact h9
  · simp only [ha, hn _ (show neutral (Ev.resumed _ _) = false from rfl)]; exact h10
  · simp only [hend, hn _ (show neutral (Ev.added _ _ _) = false from rfl)]; exact h11
  · rw [hn _ (show neutral Ev.stopped = false from rfl)]; exact h12
  · rw [hn _ (show neutral Ev.ended = false from rfl)]; exact h13

set_option maxHeartbeats 1000000 in
theorem inv_step (lib : HeapLib) (n : Nat) {s : St} {tr : List Ev} {l : Lbl} {s' : St} {e : List Ev}
    (h : Inv lib n s tr) (hs : step lib n s l = some (s', e)) : Inv lib n s' (tr ++ e) := by
  have hle := total_le h
  obtain ⟨h1, h2, h3, h4, h5, h6, h7, h8, h9, h10, h11, h12, h13, h14⟩ := h
  have hz : ∀ e : List Ev, (∀ id, endings id e = 0) → ∀ id, endings id (tr ++ e) = endings id tr := by
    intro e he id; rw [endings_append, he]; rfl
  cases l with
  | tick d =>
    simp only [step, Option.some.injEq, Prod.mk.injEq] at hs; obtain ⟨rfl, rfl⟩ := hs
    simp only [List.append_nil]
    constructor <;> (try dsimp only) <;> try assumption
    · intro t now hp; have := h3 t now hp; exact ⟨this.1, by omega⟩
    · intro t id d' hp; obtain ⟨t0, nw, due, ha, hb⟩ := h7 t id d' hp; exact ⟨t0, nw, due, ha, by omega⟩
    · intro t id d' hp; obtain ⟨t0, nw, due, ha, hb⟩ := h8 t id d' hp; exact ⟨t0, nw, due, ha, by omega⟩
  | prep t =>
    simp only [step] at hs
    split at hs
    · rename_i hc
      split at hs
      · simp only [Option.some.injEq, Prod.mk.injEq] at hs; obtain ⟨rfl, rfl⟩ := hs
        refine inv_neutral ?_ (by simp [neutral])
        exact ⟨h1, h2, h3, h4, h5, h6, h7, h8, h9, h10, h11, h12, h13, h14⟩
      · rename_i ht
        simp only [Option.some.injEq, Prod.mk.injEq] at hs; obtain ⟨rfl, rfl⟩ := hs
        refine inv_neutral ?_ (by simp [neutral])
        have hids : hIds (s.regs ++ [t]) (upd s.heap t []) = hIds s.regs s.heap := by
          have e1 : (fun t' => (upd s.heap t [] t').map E.id) = upd (fun t => (s.heap t).map E.id) t [] := by
            funext t'; simp only [upd_apply]; split <;> rfl
          simp only [hIds, e1, List.flatMap_append, flatMap_upd_not_mem _ _ _ _ ht]
          simp
        constructor <;> (try dsimp only) <;> try assumption
        · intro t'; simp only [upd_apply]; split
          · exact lib.nil
          · exact h1 t'
        · rw [List.nodup_append]
          refine ⟨h2, by simp, ?_⟩
          intro a ha b hb
          simp only [List.mem_singleton] at hb; subst hb
          exact fun hab => ht (hab ▸ ha)
        · intro t' now hp; have := h3 t' now hp; exact ⟨by simp [this.1], this.2⟩
        · intro id; rw [hids]; exact h5 id
        · intro t' x hx
          simp only [upd_apply] at hx
          split at hx
          · simp at hx
          · exact h9 t' x hx
        · intro t' id tp hm
          rcases h11 t' id tp hm with ⟨ha, hb⟩ | hb
          · left
            have : t' ≠ t := fun hc => ht (hc ▸ ha)
            refine ⟨by simp [ha], ?_⟩
            rw [upd_ne _ _ this]; exact hb
          · exact Or.inr hb
        · intro hd; exact absurd hd (by simp [hc.2.1])
    · simp at hs
  | askFor t d =>
    simp only [step] at hs
    split at hs
    · rename_i hc
      obtain ⟨htn, hdead, hpc⟩ := hc
      simp only [Option.some.injEq, Prod.mk.injEq] at hs; obtain ⟨rfl, rfl⟩ := hs
      have he := hz [Ev.asked t s.next s.clock (s.clock + d)] (by intro id; rfl)
      constructor <;> (try dsimp only)
      · exact h1
      · exact h2
      · intro t' now; simp only [upd_apply]; split
        · simp
        · exact h3 t' now
      · intro t'; simp only [upd_apply]; split
        · rename_i ht; intro _; omega
        · exact h4 t'
      · intro id
        rw [he]
        have hp := pcIds_upd n s.pc t (.awaiting s.next d) id htn
        simp only [hpc, pcId, List.count_nil, List.count_cons] at hp
        have := h5 id
        by_cases hid : id = s.next
        · subst hid; simp at *; omega
        · have hne : ¬ s.next = id := fun h => hid h.symm
          simp only [beq_iff_eq, hne, if_false] at hp
          split at this <;> split <;> omega
      · intro id
        have := h6 id
        constructor
        · rintro ⟨t0, nw, due, hm⟩
          rcases List.mem_append.1 hm with hm | hm
          · have := this.1 ⟨t0, nw, due, hm⟩; omega
          · simp at hm; omega
        · intro hlt
          by_cases hid : id = s.next
          · exact ⟨t, s.clock, s.clock + d, by simp [hid]⟩
          · obtain ⟨t0, nw, due, hm⟩ := this.2 (by omega)
            exact ⟨t0, nw, due, by simp [hm]⟩
      · intro t' id d'; simp only [upd_apply]; split
        · intro hh; injection hh with ha hb
          exact ⟨t, s.clock, s.clock + d, by simp [ha], by omega⟩
        · intro hh; obtain ⟨t0, nw, due, ha, hb⟩ := h7 t' id d' hh; exact ⟨t0, nw, due, by simp [ha], hb⟩
      · intro t' id d'; simp only [upd_apply]; split
        · simp
        · intro hh; obtain ⟨t0, nw, due, ha, hb⟩ := h8 t' id d' hh; exact ⟨t0, nw, due, by simp [ha], hb⟩
      · intro t' x hx; obtain ⟨⟨t0, nw, due, ha, hb⟩, hc⟩ := h9 t' x hx
        exact ⟨⟨t0, nw, due, by simp [ha], hb⟩, by simp [hc]⟩
      · intro id c hm
        simp at hm
        obtain ⟨t0, nw, due, ha, hb⟩ := h10 id c hm; exact ⟨t0, nw, due, by simp [ha], hb⟩
      · intro t' id tp hm
        simp at hm
        rcases h11 t' id tp hm with ha | hb
        · exact Or.inl ha
        · right; rw [he]; exact hb
      · simpa using h12
      · simpa using h13
      · intro hd; simp [hdead] at hd
    · simp at hs
  | askUntil t tp =>
    simp only [step] at hs
    split at hs
    · rename_i hc
      obtain ⟨htn, hdead, hpc⟩ := hc
      simp only [Option.some.injEq, Prod.mk.injEq] at hs; obtain ⟨rfl, rfl⟩ := hs
      have he := hz [Ev.asked t s.next s.clock tp] (by intro id; rfl)
      generalize hd : (if tp - s.clock > 0 then tp - s.clock else 0) = d
      have hdd : tp ≤ s.clock + d := by split at hd <;> omega
      constructor <;> (try dsimp only)
      · exact h1
      · exact h2
      · intro t' now; simp only [upd_apply]; split
        · simp
        · exact h3 t' now
      · intro t'; simp only [upd_apply]; split
        · rename_i ht; intro _; omega
        · exact h4 t'
      · intro id
        rw [he]
        have hp := pcIds_upd n s.pc t (.awaiting s.next d) id htn
        simp only [hpc, pcId, List.count_nil, List.count_cons] at hp
        have := h5 id
        by_cases hid : id = s.next
        · subst hid; simp at *; omega
        · have hne : ¬ s.next = id := fun h => hid h.symm
          simp only [beq_iff_eq, hne, if_false] at hp
          split at this <;> split <;> omega
      · intro id
        have := h6 id
        constructor
        · rintro ⟨t0, nw, due, hm⟩
          rcases List.mem_append.1 hm with hm | hm
          · have := this.1 ⟨t0, nw, due, hm⟩; omega
          · simp at hm; omega
        · intro hlt
          by_cases hid : id = s.next
          · exact ⟨t, s.clock, tp, by simp [hid]⟩
          · obtain ⟨t0, nw, due, hm⟩ := this.2 (by omega)
            exact ⟨t0, nw, due, by simp [hm]⟩
      · intro t' id d'; simp only [upd_apply]; split
        · intro hh; injection hh with ha hb
          exact ⟨t, s.clock, tp, by simp [ha], by omega⟩
        · intro hh; obtain ⟨t0, nw, due, ha, hb⟩ := h7 t' id d' hh; exact ⟨t0, nw, due, by simp [ha], hb⟩
      · intro t' id d'; simp only [upd_apply]; split
        · simp
        · intro hh; obtain ⟨t0, nw, due, ha, hb⟩ := h8 t' id d' hh; exact ⟨t0, nw, due, by simp [ha], hb⟩
      · intro t' x hx; obtain ⟨⟨t0, nw, due, ha, hb⟩, hc⟩ := h9 t' x hx
        exact ⟨⟨t0, nw, due, by simp [ha], hb⟩, by simp [hc]⟩
      · intro id c hm
        simp at hm
        obtain ⟨t0, nw, due, ha, hb⟩ := h10 id c hm; exact ⟨t0, nw, due, by simp [ha], hb⟩
      · intro t' id tp hm
        simp at hm
        rcases h11 t' id tp hm with ha | hb
        · exact Or.inl ha
        · right; rw [he]; exact hb
      · simpa using h12
      · simpa using h13
      · intro hd; simp [hdead] at hd
    · simp at hs
  | await t =>
    simp only [step] at hs
    split at hs
    · rename_i htn
      split at hs
      · rename_i id d hpc
        have hdue := h7 t id d hpc
        have main : ∀ q e, (∀ x, endings x e + (pcId q).count x = [id].count x) →
            (∀ i c, Ev.resumed i c ∈ e → i = id ∧ d = 0 ∧ c = s.clock) →
            (∀ t0 i nw due, Ev.asked t0 i nw due ∉ e) → (∀ t0 i tp, Ev.added t0 i tp ∉ e) → Ev.stopped ∉ e → Ev.ended ∉ e →
            (q = .idle ∨ q = .adding id d) → Inv lib n { s with pc := upd s.pc t q } (tr ++ e) := by
          intro q e hq hr ha1 ha2 he1 he2 hqq
          have htot : ∀ x, endings x (tr ++ e) + (hIds s.regs s.heap).count x + (pcIds n (upd s.pc t q)).count x =
              if x < s.next then 1 else 0 := by
            intro x
            have hp := pcIds_upd n s.pc t q x htn
            rw [hpc] at hp
            have := hq x
            have h5 := h5 x
            rw [endings_append]
            have hid : pcId (.awaiting id d) = [id] := rfl
            rw [hid] at hp
            omega
          constructor <;> (try dsimp only)
          · exact h1
          · exact h2
          · intro t' now; simp only [upd_apply]; split
            · rcases hqq with rfl | rfl <;> simp
            · exact h3 t' now
          · intro t'; simp only [upd_apply]; split
            · rename_i ht; intro _; omega
            · exact h4 t'
          · exact htot
          · intro x
            rw [← h6 x]
            constructor
            · rintro ⟨t0, nw, due, hm⟩
              rcases List.mem_append.1 hm with hm | hm
              · exact ⟨t0, nw, due, hm⟩
              · exact absurd hm (ha1 _ _ _ _)
            · rintro ⟨t0, nw, due, hm⟩; exact ⟨t0, nw, due, by simp [hm]⟩
          · intro t' i d'; simp only [upd_apply]; split
            · rcases hqq with rfl | rfl <;> simp
            · intro hh; obtain ⟨t0, nw, due, ha, hb⟩ := h7 t' i d' hh; exact ⟨t0, nw, due, by simp [ha], hb⟩
          · intro t' i d'; simp only [upd_apply]; split
            · rcases hqq with rfl | rfl
              · simp
              · intro hh; injection hh with hh1 hh2; subst hh1; subst hh2
                obtain ⟨t0, nw, due, ha, hb⟩ := hdue; exact ⟨t0, nw, due, by simp [ha], hb⟩
            · intro hh; obtain ⟨t0, nw, due, ha, hb⟩ := h8 t' i d' hh; exact ⟨t0, nw, due, by simp [ha], hb⟩
          · intro t' x hx; obtain ⟨⟨t0, nw, due, ha, hb⟩, hc⟩ := h9 t' x hx
            exact ⟨⟨t0, nw, due, by simp [ha], hb⟩, by simp [hc]⟩
          · intro i c hm
            rcases List.mem_append.1 hm with hm | hm
            · obtain ⟨t0, nw, due, ha, hb⟩ := h10 i c hm; exact ⟨t0, nw, due, by simp [ha], hb⟩
            · obtain ⟨rfl, rfl, rfl⟩ := hr i c hm
              obtain ⟨t0, nw, due, ha, hb⟩ := hdue; exact ⟨t0, nw, due, by simp [ha], by omega⟩
          · intro t' i tp hm
            rcases List.mem_append.1 hm with hm | hm
            · rcases h11 t' i tp hm with ha | hb
              · exact Or.inl ha
              · right; exact added_mono hb (by have := htot i; split at this <;> omega)
            · exact absurd hm (ha2 _ _ _)
          · intro hm
            rcases List.mem_append.1 hm with hm | hm
            · exact h12 hm
            · exact absurd hm he1
          · rw [← h13]; simp [he2]
          · intro hd
            have := (h14 hd).2 t
            rw [hpc] at this; simp at this
        split at hs
        · rename_i hd0
          simp only [Option.some.injEq, Prod.mk.injEq] at hs; obtain ⟨rfl, rfl⟩ := hs
          exact main _ _ (by intro x; simp only [endings, pcId]; simp [List.countP_cons, ending, List.count_cons])
            (by simp [hd0]) (by simp) (by simp) (by simp) (by simp) (Or.inl rfl)
        · split at hs
          · simp only [Option.some.injEq, Prod.mk.injEq] at hs; obtain ⟨rfl, rfl⟩ := hs
            exact main _ _ (by intro x; simp only [endings, pcId]; simp [List.countP_cons, ending, List.count_cons])
              (by simp) (by simp) (by simp) (by simp) (by simp) (Or.inl rfl)
          · simp only [Option.some.injEq, Prod.mk.injEq] at hs; obtain ⟨rfl, rfl⟩ := hs
            exact main _ _ (by intro x; simp [endings, pcId])
              (by simp) (by simp) (by simp) (by simp) (by simp) (Or.inr rfl)
      · simp at hs
    · simp at hs
  | push t =>
    simp only [step] at hs
    split at hs
    · rename_i htn
      split at hs
      · rename_i id d hpc
        obtain ⟨t0, nw, due, hda, hdb⟩ := h8 t id d hpc
        split at hs
        · rename_i htr
          simp only [Option.some.injEq, Prod.mk.injEq] at hs; obtain ⟨rfl, rfl⟩ := hs
          have he := hz [Ev.added t id (s.clock + d)] (by intro id; rfl)
          have hmem : ∀ x, x ∈ lib.push (s.heap t) ⟨s.clock + d, id⟩ ↔ x = ⟨s.clock + d, id⟩ ∨ x ∈ s.heap t := by
            intro x; rw [(lib.push_perm _ _).mem_iff]; simp
          have htot : ∀ x, endings x (tr ++ [Ev.added t id (s.clock + d)]) +
              (hIds s.regs (upd s.heap t (lib.push (s.heap t) ⟨s.clock + d, id⟩))).count x +
              (pcIds n (upd s.pc t .idle)).count x = if x < s.next then 1 else 0 := by
            intro x
            have hp := pcIds_upd n s.pc t .idle x htn
            have hh := hIds_upd s.regs s.heap t (lib.push (s.heap t) ⟨s.clock + d, id⟩) x h2 htr
            have hpm := ((lib.push_perm (s.heap t) ⟨s.clock + d, id⟩).map E.id).count_eq x
            rw [hpc] at hp
            simp only [pcId, List.map_cons] at hp hpm
            rw [he, ← h5 x]
            rw [List.count_cons] at hpm
            rw [List.count_cons] at hp
            simp only [List.count_nil] at hp
            omega
          constructor <;> (try dsimp only)
          · intro t'; simp only [upd_apply]; split
            · exact lib.push_heap _ _ (h1 t)
            · exact h1 t'
          · exact h2
          · intro t' now; simp only [upd_apply]; split
            · simp
            · exact h3 t' now
          · intro t'; simp only [upd_apply]; split
            · simp
            · exact h4 t'
          · exact htot
          · intro x
            rw [← h6 x]
            constructor
            · rintro ⟨t0, nw, due, hm⟩; simp at hm; exact ⟨t0, nw, due, hm⟩
            · rintro ⟨t0, nw, due, hm⟩; exact ⟨t0, nw, due, by simp [hm]⟩
          · intro t' i d'; simp only [upd_apply]; split
            · simp
            · intro hh; obtain ⟨t0, nw, due, ha, hb⟩ := h7 t' i d' hh; exact ⟨t0, nw, due, by simp [ha], hb⟩
          · intro t' i d'; simp only [upd_apply]; split
            · simp
            · intro hh; obtain ⟨t0, nw, due, ha, hb⟩ := h8 t' i d' hh; exact ⟨t0, nw, due, by simp [ha], hb⟩
          · intro t' x hx
            simp only [upd_apply] at hx
            have old : ∀ t', x ∈ s.heap t' → (∃ t0 now due, Ev.asked t0 x.id now due ∈ tr ++ [Ev.added t id (s.clock + d)] ∧ due ≤ x.tp) ∧
                Ev.added t' x.id x.tp ∈ tr ++ [Ev.added t id (s.clock + d)] := by
              intro t' hx
              obtain ⟨⟨t0, nw, due, ha, hb⟩, hc⟩ := h9 t' x hx
              exact ⟨⟨t0, nw, due, by simp [ha], hb⟩, by simp [hc]⟩
            split at hx
            · rename_i htt; subst htt
              rcases (hmem x).1 hx with rfl | hx
              · exact ⟨⟨t0, nw, due, by simp [hda], hdb⟩, by simp⟩
              · exact old _ hx
            · exact old _ hx
          · intro i c hm
            simp at hm
            obtain ⟨t0, nw, due, ha, hb⟩ := h10 i c hm; exact ⟨t0, nw, due, by simp [ha], hb⟩
          · intro t' i tp hm
            rcases List.mem_append.1 hm with hm | hm
            · rcases h11 t' i tp hm with ⟨ha, hb⟩ | hb
              · left
                refine ⟨ha, ?_⟩
                simp only [upd_apply]; split
                · rename_i htt; subst htt; exact (hmem _).2 (Or.inr hb)
                · exact hb
              · right; rw [he]; exact hb
            · simp only [List.mem_singleton, Ev.added.injEq] at hm
              obtain ⟨rfl, rfl, rfl⟩ := hm
              left
              exact ⟨htr, by simp only [upd_same]; exact (hmem _).2 (Or.inl rfl)⟩
          · simpa using h12
          · simpa using h13
          · intro hd
            have := (h14 hd).2 t
            rw [hpc] at this; simp at this
        · simp only [Option.some.injEq, Prod.mk.injEq] at hs; obtain ⟨rfl, rfl⟩ := hs
          have he := hz [Ev.ub] (by intro id; rfl)
          constructor <;> try assumption
          · intro i; rw [he]; exact h5 i
          · intro i; rw [← h6 i]; simp [Asked]
          · intro t' i d' hh; obtain ⟨t0, nw, due, ha, hb⟩ := h7 t' i d' hh; exact ⟨t0, nw, due, by simp [ha], hb⟩
          · intro t' i d' hh; obtain ⟨t0, nw, due, ha, hb⟩ := h8 t' i d' hh; exact ⟨t0, nw, due, by simp [ha], hb⟩
          · intro t' x hx; obtain ⟨⟨t0, nw, due, ha, hb⟩, hc⟩ := h9 t' x hx
            exact ⟨⟨t0, nw, due, by simp [ha], hb⟩, by simp [hc]⟩
          · intro i c hm; simp at hm
            obtain ⟨t0, nw, due, ha, hb⟩ := h10 i c hm; exact ⟨t0, nw, due, by simp [ha], hb⟩
          · intro t' i tp hm; simp at hm; rw [he]; exact h11 t' i tp hm
          · simpa using h12
          · simpa using h13
      · simp at hs
    · simp at hs
  | passBegin t =>
    simp only [step] at hs
    split at hs
    · rename_i hc
      obtain ⟨htn, hdead, hpc⟩ := hc
      split at hs
      · rename_i htr
        split at hs
        · simp only [Option.some.injEq, Prod.mk.injEq] at hs; obtain ⟨rfl, rfl⟩ := hs
          refine inv_neutral ?_ (by simp [neutral])
          exact ⟨h1, h2, h3, h4, h5, h6, h7, h8, h9, h10, h11, h12, h13, h14⟩
        · simp only [Option.some.injEq, Prod.mk.injEq] at hs; obtain ⟨rfl, rfl⟩ := hs
          refine inv_neutral ?_ (by simp [neutral])
          constructor <;> (try dsimp only) <;> try assumption
          · intro t' now; simp only [upd_apply]; split
            · rename_i htt; intro hh; injection hh with hh; exact ⟨htt ▸ htr, by omega⟩
            · exact h3 t' now
          · intro t'; simp only [upd_apply]; split
            · rename_i ht; intro _; omega
            · exact h4 t'
          · intro x
            have hp := pcIds_upd n s.pc t (.passing s.clock) x htn
            rw [hpc] at hp
            simp only [pcId] at hp
            rw [← h5 x]; omega
          · intro t' i d'; simp only [upd_apply]; split
            · simp
            · exact h7 t' i d'
          · intro t' i d'; simp only [upd_apply]; split
            · simp
            · exact h8 t' i d'
          · intro hd; simp [hdead] at hd
      · simp only [Option.some.injEq, Prod.mk.injEq] at hs; obtain ⟨rfl, rfl⟩ := hs
        refine inv_neutral ?_ (by simp [neutral])
        exact ⟨h1, h2, h3, h4, h5, h6, h7, h8, h9, h10, h11, h12, h13, h14⟩
    · simp at hs
  | passEnd t =>
    simp only [step] at hs
    split at hs
    · rename_i htn
      split at hs
      · rename_i now hpc
        obtain ⟨htr, hnow⟩ := h3 t now hpc
        simp only [Option.some.injEq, Prod.mk.injEq] at hs; obtain ⟨rfl, rfl⟩ := hs
        have hperm := popDue_perm lib now (s.heap t).length (s.heap t)
        have hheap := popDue_heap lib now (s.heap t).length (s.heap t) (h1 t)
        have hdue := popDue_due lib now (s.heap t).length (s.heap t)
        generalize hr : (popDue lib now (s.heap t).length (s.heap t)).1 = r at *
        generalize hps : (popDue lib now (s.heap t).length (s.heap t)).2 = ps at *
        have hmem : ∀ x, x ∈ s.heap t ↔ x ∈ r ∨ x ∈ ps := by
          intro x; rw [← hperm.mem_iff]; simp
        have hen : ∀ x, endings x (tr ++ (ps.map (fun x => Ev.resumed x.id s.clock) ++ [.passed t now])) =
            endings x tr + (ps.map E.id).count x := by
          intro x
          rw [endings_append, endings_append, endings_resumed]
          rfl
        have htot : ∀ x, endings x (tr ++ (ps.map (fun x => Ev.resumed x.id s.clock) ++ [.passed t now])) +
              (hIds s.regs (upd s.heap t r)).count x +
              (pcIds n (upd s.pc t .idle)).count x = if x < s.next then 1 else 0 := by
          intro x
          have hp := pcIds_upd n s.pc t .idle x htn
          have hh := hIds_upd s.regs s.heap t r x h2 htr
          have hpm := (hperm.map E.id).count_eq x
          rw [hpc] at hp
          simp only [pcId] at hp
          simp only [List.map_append, List.count_append] at hpm
          rw [hen, ← h5 x]
          omega
        constructor <;> (try dsimp only)
        · intro t'; simp only [upd_apply]; split
          · exact hheap
          · exact h1 t'
        · exact h2
        · intro t' now; simp only [upd_apply]; split
          · simp
          · exact h3 t' now
        · intro t'; simp only [upd_apply]; split
          · simp
          · exact h4 t'
        · exact htot
        · intro x; rw [← h6 x]; simp [Asked]
        · intro t' i d'; simp only [upd_apply]; split
          · simp
          · intro hh; obtain ⟨t0, nw, due, ha, hb⟩ := h7 t' i d' hh; exact ⟨t0, nw, due, by simp [ha], hb⟩
        · intro t' i d'; simp only [upd_apply]; split
          · simp
          · intro hh; obtain ⟨t0, nw, due, ha, hb⟩ := h8 t' i d' hh; exact ⟨t0, nw, due, by simp [ha], hb⟩
        · intro t' x hx
          simp only [upd_apply] at hx
          have hx' : x ∈ s.heap t' := by
            split at hx
            · rename_i htt; subst htt; exact (hmem x).2 (Or.inl hx)
            · exact hx
          obtain ⟨⟨t0, nw, due, ha, hb⟩, hc⟩ := h9 t' x hx'
          exact ⟨⟨t0, nw, due, by simp [ha], hb⟩, by simp [hc]⟩
        · intro i c hm
          rcases List.mem_append.1 hm with hm | hm
          · obtain ⟨t0, nw, due, ha, hb⟩ := h10 i c hm; exact ⟨t0, nw, due, by simp [ha], hb⟩
          · simp only [List.mem_append, List.mem_map, Ev.resumed.injEq, List.mem_singleton, reduceCtorEq, or_false] at hm
            obtain ⟨x, hx, rfl, rfl⟩ := hm
            obtain ⟨⟨t0, nw, due, ha, hb⟩, hc⟩ := h9 t x ((hmem x).2 (Or.inr hx))
            have := hdue x hx
            exact ⟨t0, nw, due, by simp [ha], by omega⟩
        · intro t' i tp hm
          have hm : Ev.added t' i tp ∈ tr := by simpa using hm
          rcases h11 t' i tp hm with ⟨ha, hb⟩ | hb
          · by_cases htt : t' = t
            · subst htt
              rcases (hmem _).1 hb with hb | hb
              · left; exact ⟨ha, by simpa using hb⟩
              · right
                have h0 := htot i
                have h1 : 0 < (ps.map E.id).count i := List.count_pos_iff.2 (List.mem_map.2 ⟨_, hb, rfl⟩)
                have h2 := hen i
                split at h0 <;> omega
            · left; exact ⟨ha, by rw [upd_ne _ _ htt]; exact hb⟩
          · right; exact added_mono hb (by have := htot i; split at this <;> omega)
        · simpa using h12
        · simpa using h13
        · intro hd
          have := (h14 hd).2 t
          rw [hpc] at this; simp at this
      · simp at hs
    · simp at hs
  | stop =>
    simp only [step] at hs
    split at hs
    · simp only [Option.some.injEq, Prod.mk.injEq] at hs; obtain ⟨rfl, rfl⟩ := hs
      have he := hz [Ev.stopped] (by intro id; rfl)
      constructor <;> (try dsimp only) <;> try assumption
      · intro i; rw [he]; exact h5 i
      · intro i; rw [← h6 i]; simp [Asked]
      · intro t' i d' hh; obtain ⟨t0, nw, due, ha, hb⟩ := h7 t' i d' hh; exact ⟨t0, nw, due, by simp [ha], hb⟩
      · intro t' i d' hh; obtain ⟨t0, nw, due, ha, hb⟩ := h8 t' i d' hh; exact ⟨t0, nw, due, by simp [ha], hb⟩
      · intro t' x hx; obtain ⟨⟨t0, nw, due, ha, hb⟩, hc⟩ := h9 t' x hx
        exact ⟨⟨t0, nw, due, by simp [ha], hb⟩, by simp [hc]⟩
      · intro i c hm; simp at hm
        obtain ⟨t0, nw, due, ha, hb⟩ := h10 i c hm; exact ⟨t0, nw, due, by simp [ha], hb⟩
      · intro t' i tp hm; simp at hm; rw [he]; exact h11 t' i tp hm
      · simp
      · simpa using h13
    · simp at hs
  | quickStop =>
    simp only [step] at hs
    split at hs
    · rename_i hc
      simp only [Option.some.injEq, Prod.mk.injEq] at hs; obtain ⟨rfl, rfl⟩ := hs
      have hen : ∀ x, endings x (tr ++ ((pendingIds s).map Ev.destroyed ++ [.stopped])) =
          endings x tr + (hIds s.regs s.heap).count x := by
        intro x
        rw [endings_append, endings_append, endings_destroyed]
        rfl
      have hnil : hIds s.regs (fun _ => []) = [] := by simp only [hIds, List.map_nil]; exact flatMap_nil' _
      have htot : ∀ x, endings x (tr ++ ((pendingIds s).map Ev.destroyed ++ [.stopped])) +
          (hIds s.regs (fun _ => [])).count x + (pcIds n s.pc).count x = if x < s.next then 1 else 0 := by
        intro x; rw [hen, hnil, ← h5 x]; rfl
      constructor <;> (try dsimp only) <;> try assumption
      · intro _; exact lib.nil
      · intro i; rw [← h6 i]; simp [Asked]
      · intro t' i d' hh; obtain ⟨t0, nw, due, ha, hb⟩ := h7 t' i d' hh; exact ⟨t0, nw, due, by simp [ha], hb⟩
      · intro t' i d' hh; obtain ⟨t0, nw, due, ha, hb⟩ := h8 t' i d' hh; exact ⟨t0, nw, due, by simp [ha], hb⟩
      · intro t' x hx; simp at hx
      · intro i c hm; simp at hm
        obtain ⟨t0, nw, due, ha, hb⟩ := h10 i c hm; exact ⟨t0, nw, due, by simp [ha], hb⟩
      · intro t' i tp hm
        have hm : Ev.added t' i tp ∈ tr := by simpa using hm
        right
        have h0 := htot i
        have h2 := hen i
        rcases h11 t' i tp hm with ⟨ha, hb⟩ | hb
        · have := hIds_mem ha hb
          split at h0 <;> simp only at this <;> omega
        · split at h0 <;> omega
      · simp
      · simpa using h13
    · simp at hs
  | destroy =>
    simp only [step] at hs
    split at hs
    · rename_i hc
      simp only [Option.some.injEq, Prod.mk.injEq] at hs; obtain ⟨rfl, rfl⟩ := hs
      have hidle := allIdle_pc hc.2 h4
      have hen : ∀ x, endings x (tr ++ ((pendingIds s).map Ev.destroyed ++ [.ended])) =
          endings x tr + (hIds s.regs s.heap).count x := by
        intro x
        rw [endings_append, endings_append, endings_destroyed]
        rfl
      have htot : ∀ x, endings x (tr ++ ((pendingIds s).map Ev.destroyed ++ [.ended])) +
          (hIds [] (fun _ => [])).count x + (pcIds n s.pc).count x = if x < s.next then 1 else 0 := by
        intro x; rw [hen, ← h5 x]; rfl
      constructor <;> (try dsimp only) <;> try assumption
      · intro _; exact lib.nil
      · simp
      · intro t' now hp; rw [hidle t'] at hp; simp at hp
      · intro i; rw [← h6 i]; simp [Asked]
      · intro t' i d' hh; obtain ⟨t0, nw, due, ha, hb⟩ := h7 t' i d' hh; exact ⟨t0, nw, due, by simp [ha], hb⟩
      · intro t' i d' hh; obtain ⟨t0, nw, due, ha, hb⟩ := h8 t' i d' hh; exact ⟨t0, nw, due, by simp [ha], hb⟩
      · intro t' x hx; simp at hx
      · intro i c hm; simp at hm
        obtain ⟨t0, nw, due, ha, hb⟩ := h10 i c hm; exact ⟨t0, nw, due, by simp [ha], hb⟩
      · intro t' i tp hm
        have hm : Ev.added t' i tp ∈ tr := by simpa using hm
        right
        have h0 := htot i
        have h2 := hen i
        rcases h11 t' i tp hm with ⟨ha, hb⟩ | hb
        · have := hIds_mem ha hb
          split at h0 <;> simp only at this <;> omega
        · split at h0 <;> omega
      · simpa using h12
      · simp
      · intro _; exact ⟨rfl, hidle⟩
    · simp at hs

theorem inv_of_reaches {lib : HeapLib} {n : Nat} {s : St} {tr : List Ev} (h : (machine lib n).Reaches s tr) :
    Inv lib n s tr :=
  Machine.Reaches.inv (M := machine lib n) (Inv lib n) (inv_init lib n)
    (fun _ _ _ _ _ hi hs => inv_step lib n hi hs) h

end Verif.Timer
