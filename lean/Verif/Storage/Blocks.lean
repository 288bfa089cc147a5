import Verif.Storage.Hist
/-!
# The history of each piece of memory
-/

namespace Verif.Storage

theorem count_gone (la x : Nat) : ∀ ns : List Node, (dropEvs la ns).count (.gone x) = (ns.flatMap (·.elem.buf.toList)).count x
  | [] => rfl
  | n :: ns => by
    have := count_gone la x ns
    simp only [dropEvs] at this
    simp only [dropEvs, List.flatMap_cons, List.count_append, this]
    congr 1
    cases hb : n.elem.buf with
    | none => simp [dropEv, hb]
    | some a =>
      simp only [dropEv, hb, Option.toList_some, List.flatMap_cons, List.flatMap_nil, List.append_nil, List.cons_append, List.nil_append, List.count_cons, List.count_nil]
      by_cases h : a = x <;> simp [h]

theorem count_free (la x r : Nat) : ∀ ns : List Node, (dropEvs la ns).count (.free x r) = if r = la then (addrs ns).count x else 0
  | [] => by simp [dropEvs, addrs]
  | n :: ns => by
    have := count_free la x r ns
    simp only [dropEvs, addrs] at this
    simp only [dropEvs, addrs, List.flatMap_cons, List.count_append, this]
    by_cases hr : r = la
    · subst hr
      simp only [if_true]
      congr 1
      cases hb : n.elem.buf with
      | none =>
        simp only [dropEv, nodeAddrs, hb, Option.toList_none, List.flatMap_nil, List.nil_append, List.count_cons, List.count_nil]
        by_cases h : n.blk = x <;> simp [h]
      | some a =>
        simp only [dropEv, nodeAddrs, hb, Option.toList_some, List.flatMap_cons, List.flatMap_nil, List.append_nil, List.cons_append, List.nil_append, List.count_cons, List.count_nil]
        by_cases h : n.blk = x <;> by_cases h' : a = x <;> simp [h, h']
    · have hr' : la ≠ r := fun h => hr h.symm
      simp only [hr, if_false, Nat.add_zero]
      cases hb : n.elem.buf <;> simp [dropEv, hb, List.count_cons, hr']

theorem bufs_sublist : ∀ ns : List Node, (ns.flatMap (·.elem.buf.toList)).Sublist (addrs ns)
  | [] => by simp [addrs]
  | n :: ns => by
    have := bufs_sublist ns
    simp only [addrs] at this
    simp only [addrs, List.flatMap_cons, nodeAddrs, List.cons_append]
    exact List.Sublist.cons _ (List.Sublist.append (List.Sublist.refl _) this)

theorem count_one : ∀ {l : List Nat}, l.Nodup → ∀ {x : Nat}, x ∈ l → l.count x = 1
  | y :: l, hnd, x, hx => by
    obtain ⟨h1, h2⟩ := List.nodup_cons.1 hnd
    by_cases h : y = x
    · subst h; simp [List.count_eq_zero_of_not_mem h1]
    · have hx' : x ∈ l := (List.mem_cons.1 hx).resolve_left (fun g => h g.symm)
      rw [List.count_cons_of_ne h]
      exact count_one h2 hx'

theorem count_gone_ok {m : Mem} {la : Nat} {ns : List Node} (hok : ∀ n ∈ ns, NodeOk m la n) (hnd : (addrs ns).Nodup) (x : Nat) :
    (dropEvs la ns).count (.gone x) = if x ∈ addrs ns ∧ (m.blk x).val.isSome = true then 1 else 0 := by
  rw [count_gone]
  have hmem : x ∈ ns.flatMap (·.elem.buf.toList) ↔ x ∈ addrs ns ∧ (m.blk x).val.isSome = true := by
    constructor
    · intro h
      refine ⟨(bufs_sublist ns).subset h, ?_⟩
      obtain ⟨n, hn, hx⟩ := List.mem_flatMap.1 h
      obtain ⟨h1, a, v, h2, h3, _⟩ := hok n hn
      simp only [h2, Option.toList_some, List.mem_singleton] at hx
      subst hx
      simp [h3]
    · rintro ⟨h, hv⟩
      obtain ⟨n, hn, hx⟩ := List.mem_flatMap.1 h
      obtain ⟨h1, a, v, h2, h3, h4, _⟩ := hok n hn
      simp only [nodeAddrs, h2, Option.toList_some, List.mem_cons, List.not_mem_nil, or_false] at hx
      rcases hx with rfl | rfl
      · simp [h4] at hv
      · exact List.mem_flatMap.2 ⟨n, hn, by simp [h2]⟩
  by_cases h : x ∈ ns.flatMap (·.elem.buf.toList)
  · rw [if_pos (hmem.1 h), count_one (hnd.sublist (bufs_sublist ns)) h]
  · rw [if_neg (fun g => h (hmem.2 g)), List.count_eq_zero_of_not_mem h]

theorem count_free_ok {la : Nat} {ns : List Node} (hnd : (addrs ns).Nodup) (x r : Nat) :
    (dropEvs la ns).count (.free x r) = if x ∈ addrs ns ∧ r = la then 1 else 0 := by
  rw [count_free]
  by_cases h : x ∈ addrs ns
  · rw [count_one hnd h]; simp [h]
  · rw [List.count_eq_zero_of_not_mem h]; simp [h]

/-- how often the object at `a` was destroyed, and its memory given back -/
structure InvC (s : St) (tr : List Ev) : Prop where
  alloc : ∀ a r, .alloc a r ∈ tr ↔ a < s.mem.nb ∧ (s.mem.blk a).res = r
  made : ∀ a v, .made a v ∈ tr → a < s.mem.nb ∧ ((s.mem.blk a).live = true → (s.mem.blk a).val = some v)
  val : ∀ a v, (s.mem.blk a).val = some v → .made a v ∈ tr
  res : ∀ r, .resGone r ∈ tr → s.mem.alive r = false ∧ r < s.mem.nr
  gone1 : ∀ a v, .made a v ∈ tr → (s.mem.blk a).live = false → tr.count (.gone a) = 1
  gone0 : ∀ a, (s.mem.blk a).live = true → tr.count (.gone a) = 0
  goneN : ∀ a, (∀ v, .made a v ∉ tr) → tr.count (.gone a) = 0
  free : ∀ a r, tr.count (.free a r) = if a < s.mem.nb ∧ (s.mem.blk a).live = false ∧ r = (s.mem.blk a).res then 1 else 0

theorem InvC.idle {s s' : St} {tr e : List Ev} (h : InvC s tr) (hb : s'.mem.blk = s.mem.blk) (hn : s'.mem.nb = s.mem.nb)
    (he : ∀ x ∈ e, (∀ a r, x ≠ .alloc a r) ∧ (∀ a v, x ≠ .made a v) ∧ (∀ a, x ≠ .gone a) ∧ (∀ a r, x ≠ .free a r))
    (hr : ∀ r, .resGone r ∈ tr ++ e → s'.mem.alive r = false ∧ r < s'.mem.nr) : InvC s' (tr ++ e) := by
  obtain ⟨h1, h2, h3, h4, h5, h5', h5'', h6⟩ := h
  have k1 : ∀ a r, Ev.alloc a r ∈ tr ++ e ↔ Ev.alloc a r ∈ tr := fun a r => by
    rw [List.mem_append]; exact ⟨fun g => g.elim id (fun g => absurd rfl ((he _ g).1 a r)), .inl⟩
  have k2 : ∀ a r, Ev.made a r ∈ tr ++ e ↔ Ev.made a r ∈ tr := fun a r => by
    rw [List.mem_append]; exact ⟨fun g => g.elim id (fun g => absurd rfl ((he _ g).2.1 a r)), .inl⟩
  have k3 : ∀ a, e.count (.gone a) = 0 := fun a => List.count_eq_zero_of_not_mem (fun g => (he _ g).2.2.1 a rfl)
  have k4 : ∀ a r, e.count (.free a r) = 0 := fun a r => List.count_eq_zero_of_not_mem (fun g => (he _ g).2.2.2 a r rfl)
  refine ⟨?_, ?_, ?_, hr, ?_, ?_, ?_, ?_⟩
  · intro a r; rw [k1, hb, hn]; exact h1 a r
  · intro a v; rw [k2, hb, hn]; exact h2 a v
  · intro a v; rw [k2, hb]; exact h3 a v
  · intro a v; rw [List.count_append, k3, hb, Nat.add_zero, k2]; exact h5 a v
  · intro a; rw [List.count_append, k3, hb, Nat.add_zero]; exact h5' a
  · intro a; rw [List.count_append, k3, Nat.add_zero]; simp only [k2]; exact h5'' a
  · intro a r; rw [List.count_append, k4, hb, hn, Nat.add_zero, h6]

theorem InvC.push {s s' : St} {tr e : List Ev} (hA : InvA s) (h : InvC s tr) (la v : Nat) (last : Ev) (hl : (∀ a r, last ≠ .alloc a r) ∧ (∀ a v, last ≠ .made a v) ∧ (∀ a, last ≠ .gone a) ∧ (∀ a r, last ≠ .free a r) ∧ (∀ r, last ≠ .resGone r))
    (hm : s'.mem = { s.mem with nb := s.mem.nb + 2, blk := upd (upd s.mem.blk s.mem.nb ⟨la, none, true⟩) (s.mem.nb + 1) ⟨la, some v, true⟩ })
    (he : e = [.alloc s.mem.nb la, .alloc (s.mem.nb + 1) la, .made (s.mem.nb + 1) v, last]) : InvC s' (tr ++ e) := by
  obtain ⟨h1, h2, h3, h4, h5, h5', h5'', h6⟩ := h
  subst he
  obtain ⟨l1, l2, l3, l4, l5⟩ := hl
  have k1 : ∀ a r, Ev.alloc a r ∈ tr ++ [.alloc s.mem.nb la, .alloc (s.mem.nb + 1) la, .made (s.mem.nb + 1) v, last] ↔ Ev.alloc a r ∈ tr ∨ ((a = s.mem.nb ∨ a = s.mem.nb + 1) ∧ r = la) := by
    intro a r
    have := l1 a r
    simp only [List.mem_append, List.mem_cons, List.not_mem_nil, Ev.alloc.injEq, reduceCtorEq]
    grind
  have k2 : ∀ a w, Ev.made a w ∈ tr ++ [.alloc s.mem.nb la, .alloc (s.mem.nb + 1) la, .made (s.mem.nb + 1) v, last] ↔ Ev.made a w ∈ tr ∨ (a = s.mem.nb + 1 ∧ w = v) := by
    intro a r
    have := l2 a r
    simp only [List.mem_append, List.mem_cons, List.not_mem_nil, Ev.made.injEq, reduceCtorEq]
    grind
  have k3 : ∀ a, List.count (Ev.gone a) [.alloc s.mem.nb la, .alloc (s.mem.nb + 1) la, .made (s.mem.nb + 1) v, last] = 0 := by
    intro a
    have := l3 a
    apply List.count_eq_zero_of_not_mem
    simp only [List.mem_cons, List.not_mem_nil, reduceCtorEq]
    grind
  have k4 : ∀ a r, List.count (Ev.free a r) [.alloc s.mem.nb la, .alloc (s.mem.nb + 1) la, .made (s.mem.nb + 1) v, last] = 0 := by
    intro a r
    have := l4 a r
    apply List.count_eq_zero_of_not_mem
    simp only [List.mem_cons, List.not_mem_nil, reduceCtorEq]
    grind
  have k5 : ∀ r, Ev.resGone r ∈ tr ++ [.alloc s.mem.nb la, .alloc (s.mem.nb + 1) la, .made (s.mem.nb + 1) v, last] → Ev.resGone r ∈ tr := by
    intro r
    have := l5 r
    simp only [List.mem_append, List.mem_cons, List.not_mem_nil, reduceCtorEq]
    grind
  refine ⟨?_, ?_, ?_, ?_, ?_, ?_, ?_, ?_⟩
  · intro a r
    rw [k1, h1, hm]
    simp only [upd_apply]
    grind
  · intro a w
    rw [k2, hm]
    have := h2 a w
    simp only [upd_apply]
    grind
  · intro a w
    rw [k2, hm]
    have := h3 a w
    simp only [upd_apply]
    grind
  · intro r hr
    rw [hm]
    exact h4 r (k5 r hr)
  · intro a w
    rw [List.count_append, k3, Nat.add_zero, hm, k2]
    simp only [upd_apply]
    have := h5 a
    grind
  · intro a
    rw [List.count_append, k3, Nat.add_zero, hm]
    simp only [upd_apply]
    have g1 := h5' a
    have g2 := h5'' a
    have g3 := h2 a
    by_cases e1 : a < s.mem.nb
    · grind
    · intro _
      exact g2 (fun v hv => e1 (g3 v hv).1)
  · intro a ha
    rw [List.count_append, k3, Nat.add_zero]
    exact h5'' a (fun v hv => ha v ((k2 a v).2 (.inl hv)))
  · intro a r
    rw [List.count_append, k4, Nat.add_zero, h6, hm]
    simp only [upd_apply]
    grind

theorem InvC.good {s s' : St} {l : Label} {tr e : List Ev} (hA : InvA s) (h : InvC s tr) (g : Good s l s' e) : InvC s' (tr ++ e) := by
  cases g with
  | userRes =>
    refine h.idle rfl rfl (by simp) ?_
    intro r hr
    have := h.res r (by simpa using hr)
    simp only [upd_apply]
    grind
  | dropRes r hu hn =>
    refine h.idle rfl rfl (by simp) ?_
    intro k hk
    simp only [List.mem_append, List.mem_singleton, Ev.resGone.injEq] at hk
    have hr : r < s.mem.nr := by
      rcases Nat.lt_or_ge r s.mem.nr with g | g
      · exact g
      · have := hA.res r g; simp_all
    rcases hk with hk | rfl
    · have := h.res k hk
      simp only [upd_apply]
      grind
    · simp [hr]
  | newUser r ha hu => exact h.idle rfl rfl (by simp) (fun r hr => h.res r (by simpa using hr))
  | newOwn =>
    refine h.idle rfl rfl (by simp) ?_
    intro r hr
    have := h.res r (by simpa using hr)
    simp only [upd_apply]
    grind
  | prepN b B hb hst => exact h.idle rfl rfl (by simp) (fun r hr => h.res r (by simpa using hr))
  | prepS b v B hb hst => exact h.push hA B.la v (.prepped b (some v)) (by simp) rfl rfl
  | timeout b v B hb hst => exact h.push hA B.la v (.timed b v) (by simp) rfl rfl
  | move b B hb => exact h.idle rfl rfl (by simp) (fun r hr => h.res r (by simpa using hr))
  | destroy b B hb blk' hx al hal =>
    obtain ⟨h1, h2, h3, h4, h5, h5', h5'', h6⟩ := h
    have hok := fun n hn => hA.node b B n hb hn
    have hnd := hA.nodup b B hb
    have hal' := fun x hx => addrs_lt hok (x := x) hx
    have htail : ∀ x ∈ B.own.toList.map Ev.resGone ++ [.died b], (∀ a r, x ≠ .alloc a r) ∧ (∀ a v, x ≠ .made a v) ∧ (∀ a, x ≠ .gone a) ∧ (∀ a r, x ≠ .free a r) := by
      intro x hx
      cases ho : B.own <;> simp [ho] at hx
      · subst hx; simp
      · rcases hx with rfl | rfl <;> simp
    have hdr : ∀ x ∈ dropEvs B.la B.nodes, (∀ a r, x ≠ .alloc a r) ∧ (∀ a v, x ≠ .made a v) ∧ (∀ r, x ≠ .resGone r) := by
      intro e he
      obtain ⟨n, _, hn⟩ := List.mem_flatMap.1 he
      simp only [dropEv, List.mem_append, List.mem_flatMap, List.mem_cons, List.not_mem_nil, or_false] at hn
      rcases hn with ⟨a, _, rfl | rfl⟩ | rfl <;> simp
    have k1 : ∀ a r, Ev.alloc a r ∈ tr ++ (dropEvs B.la B.nodes ++ (B.own.toList.map .resGone ++ [.died b])) ↔ Ev.alloc a r ∈ tr := fun a r => by
      simp only [List.mem_append (s := tr), List.mem_append (s := dropEvs B.la B.nodes)]
      exact ⟨fun g => g.elim id (fun g => g.elim (fun g => absurd rfl ((hdr _ g).1 a r)) (fun g => absurd rfl ((htail _ g).1 a r))), .inl⟩
    have k2 : ∀ a r, Ev.made a r ∈ tr ++ (dropEvs B.la B.nodes ++ (B.own.toList.map .resGone ++ [.died b])) ↔ Ev.made a r ∈ tr := fun a r => by
      simp only [List.mem_append (s := tr), List.mem_append (s := dropEvs B.la B.nodes)]
      exact ⟨fun g => g.elim id (fun g => g.elim (fun g => absurd rfl ((hdr _ g).2.1 a r)) (fun g => absurd rfl ((htail _ g).2.1 a r))), .inl⟩
    have k3 : ∀ a, List.count (Ev.gone a) (B.own.toList.map .resGone ++ [.died b]) = 0 := fun a => List.count_eq_zero_of_not_mem (fun g => (htail _ g).2.2.1 a rfl)
    have k4 : ∀ a r, List.count (Ev.free a r) (B.own.toList.map .resGone ++ [.died b]) = 0 := fun a r => List.count_eq_zero_of_not_mem (fun g => (htail _ g).2.2.2 a r rfl)
    have hres : ∀ r, B.own = some r → r = B.la ∧ r < s.mem.nr := by
      intro r hr
      obtain ⟨q1, q2, q3, q4, _⟩ := hA.shape b B hb
      cases hst : B.stale
      · rcases (q4 hst).2 with ⟨q, _⟩ | ⟨q, _⟩
        · rw [q] at hr; simp at hr; subst hr; exact ⟨rfl, q2⟩
        · rw [q] at hr; simp at hr
      · rw [(q3 hst).1] at hr; simp at hr
    refine ⟨?_, ?_, ?_, ?_, ?_, ?_, ?_, ?_⟩
    · intro a r
      rw [k1, h1]
      simp only [hx]
      split <;> simp
    · intro a v
      rw [k2]
      have := h2 a v
      simp only [hx]
      split
      · simp; exact fun g => (this g).1
      · exact this
    · intro a v
      rw [k2]
      have := h3 a v
      simp only [hx]
      split
      · simp
      · exact this
    · intro r hr
      have := hal r
      simp only [List.mem_append (s := tr), List.mem_append (s := dropEvs B.la B.nodes)] at hr
      rcases hr with hr | hr | hr
      · have := h4 r hr
        simp only
        grind
      · exact absurd rfl ((hdr _ hr).2.2 r)
      · have ho : B.own = some r := by
          cases ho : B.own <;> simp [ho] at hr
          rw [hr]
        have := hres r ho
        simp only
        grind
    · intro a v
      rw [List.count_append, List.count_append, k3, Nat.add_zero, count_gone_ok hok hnd, k2]
      simp only [hx]
      intro hv
      by_cases ha : a ∈ addrs B.nodes
      · have hl := (hal' a ha).2.2
        have hval := (h2 a v hv).2 hl
        intro _
        rw [h5' a hl]
        simp [ha, hval]
      · have := h5 a v hv
        simp only [ha, if_false, false_and]
        exact this
    · intro a
      rw [List.count_append, List.count_append, k3, Nat.add_zero, count_gone_ok hok hnd]
      simp only [hx]
      by_cases ha : a ∈ addrs B.nodes
      · simp [ha]
      · simp only [ha, if_false, false_and]
        exact h5' a
    · intro a hm
      have hm' : ∀ v, Ev.made a v ∉ tr := fun v hv => hm v ((k2 a v).2 hv)
      rw [List.count_append, List.count_append, k3, Nat.add_zero, count_gone_ok hok hnd, h5'' a hm']
      rw [if_neg]
      rintro ⟨_, hv⟩
      obtain ⟨v, hv⟩ := Option.isSome_iff_exists.1 hv
      exact hm' v (h3 a v hv)
    · intro a r
      rw [List.count_append, List.count_append, k4, Nat.add_zero, h6, count_free_ok hnd]
      simp only [hx]
      by_cases ha : a ∈ addrs B.nodes
      · obtain ⟨q1, q2, q3⟩ := hal' a ha
        simp [ha, q1, q2, q3]
      · simp [ha]
  | execute b a B hb hst hr => exact h.idle rfl rfl (by simp) (fun r hr => h.res r (by simpa using hr))
  | copyAw a a' => exact h.idle rfl rfl (by simp) (fun r hr => h.res r (by simpa using hr))
  | suspend a b B ha hb hst hr => exact h.idle rfl rfl (by simp) (fun r hr => h.res r (by simpa using hr))

theorem reach_C {s : St} {tr : List Ev} (h : (M true).Reaches s tr) : InvC s tr :=
  Machine.Reaches.inv' (I := InvC) (by constructor <;> simp [M, init])
    (fun _ _ _ _ _ hr hi hs => hi.good (reach_A hr) (step_good (reach_A hr) hs)) h

end Verif.Storage
