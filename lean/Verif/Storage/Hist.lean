import Verif.Storage.Safe
/-!
# The history: what was asked, and what happened to each piece of memory
-/

namespace Verif.Storage

theorem all2_append {α β : Type} {R : α → β → Prop} : ∀ {a : List α} {b : List β} {a' : List α} {b' : List β}, All2 R a b → All2 R a' b' → All2 R (a ++ a') (b ++ b')
  | [], [], _, _, _, h => h
  | _ :: _, _ :: _, _, _, h, h' => ⟨h.1, all2_append h.2 h'⟩
  | [], _ :: _, _, _, h, _ => by simp [All2] at h
  | _ :: _, [], _, _, h, _ => by simp [All2] at h

theorem all2_mono {α β : Type} {R S : α → β → Prop} (hrs : ∀ x y, R x y → S x y) : ∀ {a : List α} {b : List β}, All2 R a b → All2 S a b
  | [], [], _ => trivial
  | _ :: _, _ :: _, h => ⟨hrs _ _ h.1, all2_mono hrs h.2⟩
  | [], _ :: _, h => by simp [All2] at h
  | _ :: _, [], h => by simp [All2] at h

theorem all2_snoc_inv {α β : Type} {R : α → β → Prop} : ∀ {l : List α} {b : List β} {y : β}, All2 R l (b ++ [y]) → ∃ x, l = l.dropLast ++ [x] ∧ l.drop (l.length - 1) = [x] ∧ All2 R l.dropLast b ∧ R x y
  | [], b, y, h => by cases b <;> simp [All2] at h
  | [x], [], y, h => ⟨x, by simp, by simp, trivial, h.1⟩
  | x :: x' :: l, [], y, h => by simp [All2] at h
  | [x], b :: bs, y, h => by
    obtain ⟨_, h2⟩ := h
    cases bs <;> simp [All2] at h2
  | x :: x' :: l, b :: bs, y, h => by
    obtain ⟨h1, h2⟩ := h
    obtain ⟨z, g1, g2, g3, g4⟩ := all2_snoc_inv (l := x' :: l) h2
    refine ⟨z, ?_, ?_, ?_, g4⟩
    · rw [List.dropLast_cons₂, List.cons_append, ← g1]
    · simpa using g2
    · rw [List.dropLast_cons₂]; exact ⟨h1, g3⟩

def Ref (m : Mem) (ns : List Node) : Option Nat → Option Nat → Prop
  | some a, some v => (∃ n ∈ ns, n.elem.buf = some a) ∧ (m.blk a).val = some v
  | none, none => True
  | _, _ => False

structure InvB (s : St) (tr : List Ev) : Prop where
  wfresh : ∀ b, s.nbt ≤ b → want tr b = {}
  stale : ∀ b B, s.bat b = .live B → B.stale = true → want tr b = {}
  refs : ∀ b B, s.bat b = .live B → B.stale = false → All2 (Ref s.mem B.nodes) B.refs (want tr b).entries ∧ B.tmo = (want tr b).tmo.isSome

def wantF (tr : List Ev) : Nat → Want := tr.foldl Want.next (fun _ => {})
theorem want_eq (tr : List Ev) (b : Nat) : want tr b = wantF tr b := rfl
theorem wantF_append (tr e : List Ev) : wantF (tr ++ e) = e.foldl Want.next (wantF tr) := by simp [wantF]

theorem dropEvs_id (la : Nat) (ns : List Node) (w : Nat → Want) : (dropEvs la ns).foldl Want.next w = w := by
  have : ∀ (l : List Ev), (∀ e ∈ l, (∃ a, e = .gone a) ∨ ∃ a r, e = .free a r) → ∀ w, l.foldl Want.next w = w := by
    intro l
    induction l with
    | nil => intros; rfl
    | cons x xs ih =>
      intro h w
      rw [List.foldl_cons]
      have hx : Want.next w x = w := by
        rcases h x (by simp) with ⟨a, rfl⟩ | ⟨a, r, rfl⟩ <;> rfl
      rw [hx]
      exact ih (fun e he => h e (by simp [he])) w
  refine this _ ?_ w
  intro e he
  obtain ⟨n, _, hn⟩ := List.mem_flatMap.1 he
  simp only [dropEv, List.mem_append, List.mem_flatMap, List.mem_cons, List.not_mem_nil, or_false] at hn
  rcases hn with ⟨a, _, rfl | rfl⟩ | rfl
  · exact .inl ⟨_, rfl⟩
  · exact .inr ⟨_, _, rfl⟩
  · exact .inr ⟨_, _, rfl⟩

theorem ref_new {s : St} (h : InvA s) {b v : Nat} {B : Batch} (hb : s.bat b = .live B) (ns : List Node) {x y : Option Nat} (hr : Ref s.mem B.nodes x y) :
    Ref { s.mem with nb := s.mem.nb + 2, blk := upd (upd s.mem.blk s.mem.nb ⟨B.la, none, true⟩) (s.mem.nb + 1) ⟨B.la, some v, true⟩ } (B.nodes ++ ns) x y := by
  match x, y, hr with
  | none, none, _ => trivial
  | some a, some w, ⟨⟨n, hn, hna⟩, hv⟩ =>
    have := (addrs_lt (fun n hn => h.node b B n hb hn) (List.mem_flatMap.2 ⟨n, hn, by simp [nodeAddrs, hna]⟩ : a ∈ addrs B.nodes)).1
    refine ⟨⟨n, by simp [hn], hna⟩, ?_⟩
    simp only [upd_apply]
    rw [if_neg (by omega), if_neg (by omega)]
    exact hv

theorem ref_other {s : St} (h : InvA s) {c : Nat} {C : Batch} (hc : s.bat c = .live C) (la v : Nat) {x y : Option Nat} (hr : Ref s.mem C.nodes x y) :
    Ref { s.mem with nb := s.mem.nb + 2, blk := upd (upd s.mem.blk s.mem.nb ⟨la, none, true⟩) (s.mem.nb + 1) ⟨la, some v, true⟩ } C.nodes x y := by
  match x, y, hr with
  | none, none, _ => trivial
  | some a, some w, ⟨⟨n, hn, hna⟩, hv⟩ =>
    have := (addrs_lt (fun n hn => h.node c C n hc hn) (List.mem_flatMap.2 ⟨n, hn, by simp [nodeAddrs, hna]⟩ : a ∈ addrs C.nodes)).1
    refine ⟨⟨n, hn, hna⟩, ?_⟩
    simp only [upd_apply]
    rw [if_neg (by omega), if_neg (by omega)]
    exact hv

theorem all2_ins {R S : Option Nat → Option Nat → Prop} (hrs : ∀ x y, R x y → S x y) {l : List (Option Nat)} {w : Want} {t : Bool} (h : All2 R l w.entries) (ht : t = w.tmo.isSome) {x v : Option Nat} (hx : S x v) :
    All2 S (ins t l x) ({ w with ops := w.ops ++ [v] } : Want).entries := by
  obtain ⟨ops, tmo⟩ := w
  cases tmo with
  | none =>
    simp only [Option.isSome_none] at ht
    subst ht
    simp only [Want.entries, Option.toList_none, List.map_nil, List.append_nil] at h ⊢
    exact all2_append (all2_mono hrs h) ⟨hx, trivial⟩
  | some t =>
    simp only [Option.isSome_some] at ht
    subst ht
    simp only [Want.entries, Option.toList_some, List.map_cons, List.map_nil] at h ⊢
    obtain ⟨z, g1, g2, g3, g4⟩ := all2_snoc_inv h
    simp only [ins, if_true, g2]
    exact all2_append (all2_append (all2_mono hrs g3) ⟨hx, trivial⟩) ⟨hrs _ _ g4, trivial⟩

theorem all2_insT {R S : Option Nat → Option Nat → Prop} (hrs : ∀ x y, R x y → S x y) {l : List (Option Nat)} {w : Want} {t : Bool} (h : All2 R l w.entries) (ht : t = w.tmo.isSome) {x : Option Nat} {v : Nat} (hx : S x (some v)) :
    All2 S (insT t l x) ({ w with tmo := some v } : Want).entries := by
  obtain ⟨ops, tmo⟩ := w
  cases tmo with
  | none =>
    simp only [Option.isSome_none] at ht
    subst ht
    simp only [Want.entries, Option.toList_none, List.map_nil, List.append_nil, Option.toList_some, List.map_cons] at h ⊢
    exact all2_append (all2_mono hrs h) ⟨hx, trivial⟩
  | some t =>
    simp only [Option.isSome_some] at ht
    subst ht
    simp only [Want.entries, Option.toList_some, List.map_cons, List.map_nil] at h ⊢
    obtain ⟨z, g1, g2, g3, g4⟩ := all2_snoc_inv h
    simp only [insT, if_true]
    exact all2_append (all2_mono hrs g3) ⟨hx, trivial⟩

theorem InvB.good {s s' : St} {l : Label} {tr e : List Ev} (hA : InvA s) (h : InvB s tr) (g : Good s l s' e) : InvB s' (tr ++ e) := by
  have hl := fun b B hb => hA.lt (b := b) (B := B) hb
  cases g with
  | userRes => exact ⟨fun b hb => by rw [want_eq, wantF_append]; exact h.wfresh b hb, fun b B hb hs => by rw [want_eq, wantF_append]; exact h.stale b B hb hs, fun b B hb hs => by rw [want_eq, wantF_append]; exact h.refs b B hb hs⟩
  | dropRes r hu hn => exact ⟨fun b hb => by rw [want_eq, wantF_append]; exact h.wfresh b hb, fun b B hb hs => by rw [want_eq, wantF_append]; exact h.stale b B hb hs, fun b B hb hs => by rw [want_eq, wantF_append]; exact h.refs b B hb hs⟩
  | newUser r ha hu =>
    refine ⟨fun b hb => by rw [want_eq, wantF_append]; exact h.wfresh b (Nat.le_of_succ_le hb), fun b B hb hs => by
      rw [want_eq, wantF_append]
      simp only [upd_apply] at hb
      split at hb
      · simp only [Slot.live.injEq] at hb; subst hb; simp at hs
      · exact h.stale b B hb hs, fun b B hb hs => ?_⟩
    rw [want_eq, wantF_append]
    simp only [upd_apply] at hb
    split at hb
    · rename_i hbn
      simp only [Slot.live.injEq] at hb
      subst hb; subst hbn
      have := h.wfresh s.nbt (Nat.le_refl _)
      rw [want_eq] at this
      simp [Want.next, this, Want.entries, All2]
    · exact h.refs b B hb hs
  | newOwn =>
    refine ⟨fun b hb => by rw [want_eq, wantF_append]; exact h.wfresh b (Nat.le_of_succ_le hb), fun b B hb hs => by
      rw [want_eq, wantF_append]
      simp only [upd_apply] at hb
      split at hb
      · simp only [Slot.live.injEq] at hb; subst hb; simp at hs
      · exact h.stale b B hb hs, fun b B hb hs => ?_⟩
    rw [want_eq, wantF_append]
    simp only [upd_apply] at hb
    split at hb
    · rename_i hbn
      simp only [Slot.live.injEq] at hb
      subst hb; subst hbn
      have := h.wfresh s.nbt (Nat.le_refl _)
      rw [want_eq] at this
      simp [Want.next, this, Want.entries, All2]
    · exact h.refs b B hb hs
  | prepN b B hb hst =>
    have hbn := hl b B hb
    refine ⟨fun c hc => ?_, fun c C hc hs => by
      rw [want_eq, wantF_append]
      simp only [List.foldl_cons, List.foldl_nil, Want.next, upd_apply]
      simp only [upd_apply] at hc
      split at hc
      · simp only [Slot.live.injEq] at hc; subst hc; simp [hst] at hs
      · rename_i hcb; rw [if_neg hcb]; exact h.stale c C hc hs, fun c C hc hs => ?_⟩
    · rw [want_eq, wantF_append]
      simp only [List.foldl_cons, List.foldl_nil, Want.next, upd_apply]
      simp only at hc
      rw [if_neg (by omega)]
      exact h.wfresh c hc
    · rw [want_eq, wantF_append]
      simp only [List.foldl_cons, List.foldl_nil, Want.next, upd_apply]
      simp only [upd_apply] at hc
      split at hc
      · rename_i hcb
        simp only [Slot.live.injEq] at hc
        subst hc; subst hcb
        obtain ⟨k1, k2⟩ := h.refs c B hb hst
        simp only [if_true]
        exact ⟨all2_ins (fun _ _ h => h) k1 k2 (x := none) (v := none) trivial, k2⟩
      · rename_i hcb
        rw [if_neg hcb]
        exact h.refs c C hc hs
  | prepS b v B hb hst =>
    have hbn := hl b B hb
    refine ⟨fun c hc => ?_, fun c C hc hs => by
      rw [want_eq, wantF_append]
      simp only [List.foldl_cons, List.foldl_nil, Want.next, upd_apply]
      simp only [upd_apply] at hc
      split at hc
      · simp only [Slot.live.injEq] at hc; subst hc; simp [hst] at hs
      · rename_i hcb; rw [if_neg hcb]; exact h.stale c C hc hs, fun c C hc hs => ?_⟩
    · rw [want_eq, wantF_append]
      simp only [List.foldl_cons, List.foldl_nil, Want.next, upd_apply]
      simp only at hc
      rw [if_neg (by omega)]
      exact h.wfresh c hc
    · rw [want_eq, wantF_append]
      simp only [List.foldl_cons, List.foldl_nil, Want.next, upd_apply]
      simp only [upd_apply] at hc
      split at hc
      · rename_i hcb
        simp only [Slot.live.injEq] at hc
        subst hc; subst hcb
        obtain ⟨k1, k2⟩ := h.refs c B hb hst
        simp only [if_true]
        refine ⟨all2_ins (fun x y => ref_new hA hb _) k1 k2 (v := some v) ?_, k2⟩
        exact ⟨⟨_, List.mem_append_right _ (List.mem_singleton.2 rfl), rfl⟩, by simp [upd_apply]⟩
      · rename_i hcb
        rw [if_neg hcb]
        obtain ⟨k1, k2⟩ := h.refs c C hc hs
        exact ⟨all2_mono (fun x y => ref_other hA hc _ _) k1, k2⟩
  | timeout b v B hb hst =>
    have hbn := hl b B hb
    refine ⟨fun c hc => ?_, fun c C hc hs => by
      rw [want_eq, wantF_append]
      simp only [List.foldl_cons, List.foldl_nil, Want.next, upd_apply]
      simp only [upd_apply] at hc
      split at hc
      · simp only [Slot.live.injEq] at hc; subst hc; simp [hst] at hs
      · rename_i hcb; rw [if_neg hcb]; exact h.stale c C hc hs, fun c C hc hs => ?_⟩
    · rw [want_eq, wantF_append]
      simp only [List.foldl_cons, List.foldl_nil, Want.next, upd_apply]
      simp only at hc
      rw [if_neg (by omega)]
      exact h.wfresh c hc
    · rw [want_eq, wantF_append]
      simp only [List.foldl_cons, List.foldl_nil, Want.next, upd_apply]
      simp only [upd_apply] at hc
      split at hc
      · rename_i hcb
        simp only [Slot.live.injEq] at hc
        subst hc; subst hcb
        obtain ⟨k1, k2⟩ := h.refs c B hb hst
        simp only [if_true]
        refine ⟨all2_insT (fun x y => ref_new hA hb _) k1 k2 ?_, rfl⟩
        exact ⟨⟨_, List.mem_append_right _ (List.mem_singleton.2 rfl), rfl⟩, by simp [upd_apply]⟩
      · rename_i hcb
        rw [if_neg hcb]
        obtain ⟨k1, k2⟩ := h.refs c C hc hs
        exact ⟨all2_mono (fun x y => ref_other hA hc _ _) k1, k2⟩
  | move b B hb =>
    have hbn := hl b B hb
    refine ⟨fun c hc => ?_, fun c C hc hs => by
      rw [want_eq, wantF_append]
      simp only [List.foldl_cons, List.foldl_nil, Want.next, upd_apply]
      simp only [upd_apply] at hc
      split at hc
      · rename_i hcb; rw [if_pos hcb]
      · rename_i hcb
        rw [if_neg hcb]
        split at hc
        · rename_i hcn
          simp only [Slot.live.injEq] at hc
          subst hc
          rw [if_pos hcn]
          exact h.stale b B hb hs
        · rename_i hcn
          rw [if_neg hcn]
          exact h.stale c C hc hs, fun c C hc hs => ?_⟩
    · rw [want_eq, wantF_append]
      simp only [List.foldl_cons, List.foldl_nil, Want.next, upd_apply]
      simp only at hc
      rw [if_neg (by omega), if_neg (by omega)]
      exact h.wfresh c (by omega)
    · rw [want_eq, wantF_append]
      simp only [List.foldl_cons, List.foldl_nil, Want.next, upd_apply]
      simp only [upd_apply] at hc
      split at hc
      · simp only [Slot.live.injEq] at hc
        subst hc
        simp at hs
      · rename_i hcb
        rw [if_neg hcb]
        split at hc
        · rename_i hcn
          simp only [Slot.live.injEq] at hc
          subst hc
          rw [if_pos hcn]
          exact h.refs b B hb hs
        · rename_i hcn
          rw [if_neg hcn]
          exact h.refs c C hc hs
  | destroy b B hb blk' hx al hal =>
    have hid : wantF (tr ++ (dropEvs B.la B.nodes ++ (B.own.toList.map .resGone ++ [.died b]))) = wantF tr := by
      rw [wantF_append, List.foldl_append, dropEvs_id]
      cases B.own <;> rfl
    refine ⟨fun c hc => by rw [want_eq, hid]; exact h.wfresh c hc, fun c C hc hs => by
      rw [want_eq, hid]
      simp only [upd_apply] at hc
      split at hc
      · simp at hc
      · exact h.stale c C hc hs, fun c C hc hs => ?_⟩
    rw [want_eq, hid]
    simp only [upd_apply] at hc
    split at hc
    · simp at hc
    · rename_i hcb
      obtain ⟨k1, k2⟩ := h.refs c C hc hs
      refine ⟨all2_mono ?_ k1, k2⟩
      intro x y hr
      match x, y, hr with
      | none, none, _ => trivial
      | some a, some w, ⟨⟨n, hn, hna⟩, hv⟩ =>
        refine ⟨⟨n, hn, hna⟩, ?_⟩
        simp only [hx]
        rw [if_neg]
        · exact hv
        · intro hab
          exact hcb (hA.disj c b C B a hc hb (List.mem_flatMap.2 ⟨n, hn, by simp [nodeAddrs, hna]⟩) hab)
  | execute b a B hb hst hr => simpa using (⟨h.wfresh, h.stale, h.refs⟩ : InvB { s with aw := upd s.aw a (some b) } tr)
  | copyAw a a' => simpa using (⟨h.wfresh, h.stale, h.refs⟩ : InvB { s with aw := upd s.aw a' (s.aw a) } tr)
  | suspend a b B ha hb hst hr => exact ⟨fun b hb => by rw [want_eq, wantF_append]; exact h.wfresh b hb, fun b B hb hs => by rw [want_eq, wantF_append]; exact h.stale b B hb hs, fun b B hb hs => by rw [want_eq, wantF_append]; exact h.refs b B hb hs⟩

theorem reach_B {s : St} {tr : List Ev} (h : (M true).Reaches s tr) : InvB s tr :=
  Machine.Reaches.inv' (I := InvB) ⟨fun _ _ => rfl, fun b B hb => by simp [M, init] at hb, fun b B hb => by simp [M, init] at hb⟩
    (fun _ _ _ _ _ hr hi hs => hi.good (reach_A hr) (step_good (reach_A hr) hs)) h

end Verif.Storage
