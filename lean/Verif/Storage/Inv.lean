import Verif.Storage.Model
/-!
# Invariants of the memory behind batches
-/

namespace Verif.Storage

def nodeAddrs (n : Node) : List Nat := n.blk :: n.elem.buf.toList
def addrs (ns : List Node) : List Nat := ns.flatMap nodeAddrs

def NodeOk (m : Mem) (la : Nat) (n : Node) : Prop :=
  n.elem.alloc = la ∧ ∃ a v, n.elem.buf = some a ∧ m.blk a = ⟨la, some v, true⟩ ∧ m.blk n.blk = ⟨la, none, true⟩ ∧ a < m.nb ∧ n.blk < m.nb

def dropEv (la : Nat) (n : Node) : List Ev := n.elem.buf.toList.flatMap (fun a => [.gone a, .free a la]) ++ [.free n.blk la]
def dropEvs (la : Nat) (ns : List Node) : List Ev := ns.flatMap (dropEv la)

theorem dropNode_ok (m : Mem) (la : Nat) (n : Node) (hal : m.alive la = true) (hn : NodeOk m la n) :
    ∃ blk', dropNode m la n = some ({ m with blk := blk' }, dropEv la n) ∧
      ∀ x, blk' x = if x ∈ nodeAddrs n then ⟨(m.blk x).res, none, false⟩ else m.blk x := by
  obtain ⟨h1, a, v, h2, h3, h4, h5, h6⟩ := hn
  have hne : n.blk ≠ a := by intro h; rw [h, h3] at h4; simp at h4
  refine ⟨upd (upd (upd m.blk a ⟨la, none, true⟩) a ⟨la, none, false⟩) n.blk ⟨la, none, false⟩, ?_, ?_⟩
  · simp [dropNode, dropElem, deleteThis, Mem.destruct, Mem.deallocate, h1, h2, h3, h4, hal, upd_apply, hne, dropEv]
  · intro x
    simp only [upd_apply, nodeAddrs, h2, Option.toList_some, List.mem_cons, List.not_mem_nil, or_false]
    grind

theorem dropNodes_ok (la : Nat) : ∀ (ns : List Node) (m : Mem), m.alive la = true → (∀ n ∈ ns, NodeOk m la n) → (addrs ns).Nodup →
    ∃ blk', dropNodes m la ns = some ({ m with blk := blk' }, dropEvs la ns) ∧
      ∀ x, blk' x = if x ∈ addrs ns then ⟨(m.blk x).res, none, false⟩ else m.blk x := by
  intro ns
  induction ns with
  | nil => intro m _ _ _; exact ⟨m.blk, by simp [dropNodes, dropEvs], by simp [addrs]⟩
  | cons n ns ih =>
    intro m hal hok hnd
    obtain ⟨blk1, h1, h1x⟩ := dropNode_ok m la n hal (hok n (by simp))
    have hnd' : (nodeAddrs n ++ addrs ns).Nodup := hnd
    obtain ⟨_, hnd2, hdis⟩ := List.nodup_append.1 hnd'
    obtain ⟨blk2, h2, h2x⟩ := ih { m with blk := blk1 } hal (by
      intro k hk
      obtain ⟨g1, a, v, g2, g3, g4, g5, g6⟩ := hok k (by simp [hk])
      have hka : a ∈ addrs ns := List.mem_flatMap.2 ⟨k, hk, by simp [nodeAddrs, g2]⟩
      have hkb : k.blk ∈ addrs ns := List.mem_flatMap.2 ⟨k, hk, by simp [nodeAddrs]⟩
      refine ⟨g1, a, v, g2, ?_, ?_, g5, g6⟩
      · simp only [h1x]; rw [if_neg (fun h => hdis _ h _ hka rfl)]; exact g3
      · simp only [h1x]; rw [if_neg (fun h => hdis _ h _ hkb rfl)]; exact g4) hnd2
    refine ⟨blk2, ?_, ?_⟩
    · simp only [dropNodes, h1, h2]
      simp [dropEvs]
    · intro x
      rw [h2x]
      simp only [h1x, addrs, List.flatMap_cons, List.mem_append]
      grind

structure InvA (s : St) : Prop where
  ub : s.ub = false
  fresh : ∀ b, s.nbt ≤ b → s.bat b = .unborn
  shape : ∀ b B, s.bat b = .live B → B.la = B.mr ∧ B.la < s.mem.nr ∧ (B.stale = true → B.own = none ∧ B.nodes = [] ∧ B.refs = []) ∧
    (B.stale = false → s.mem.alive B.la = true ∧ (B.own = some B.la ∧ s.mem.user B.la = false ∨ B.own = none ∧ s.mem.user B.la = true)) ∧
    (B.stale = false → B.tmo = true → B.refs ≠ [])
  res : ∀ r, s.mem.nr ≤ r → s.mem.alive r = false ∧ s.mem.user r = false
  uniq : ∀ b c B C r, s.bat b = .live B → s.bat c = .live C → B.own = some r → C.own = some r → b = c
  node : ∀ b B n, s.bat b = .live B → n ∈ B.nodes → NodeOk s.mem B.la n
  nodup : ∀ b B, s.bat b = .live B → (addrs B.nodes).Nodup
  disj : ∀ b c B C x, s.bat b = .live B → s.bat c = .live C → x ∈ addrs B.nodes → x ∈ addrs C.nodes → b = c
  held : ∀ a, (s.mem.blk a).live = true → ∃ b B, s.bat b = .live B ∧ a ∈ addrs B.nodes
  bnd : ∀ a, s.mem.nb ≤ a → s.mem.blk a = ⟨0, none, false⟩
  aws : ∀ a b B, s.aw a = some b → s.bat b = .live B → B.stale = false → B.refs ≠ []
  awb : ∀ a b, s.aw a = some b → b < s.nbt

theorem add_ok (m : Mem) (la v : Nat) (hal : m.alive la = true) :
    add m la la v = some ({ m with nb := m.nb + 2, blk := upd (upd m.blk m.nb ⟨la, none, true⟩) (m.nb + 1) ⟨la, some v, true⟩ },
      ⟨m.nb, ⟨la, some (m.nb + 1)⟩⟩, m.nb + 1, [.alloc m.nb la, .alloc (m.nb + 1) la, .made (m.nb + 1) v]) := by
  simp only [add, Mem.allocate, hal, if_true, Mem.construct, upd_same]
  simp
  funext x
  simp only [upd_apply]
  grind

theorem addrs_append (a b : List Node) : addrs (a ++ b) = addrs a ++ addrs b := by simp [addrs]

theorem addrs_lt {m : Mem} {la : Nat} {ns : List Node} (h : ∀ n ∈ ns, NodeOk m la n) {x : Nat} (hx : x ∈ addrs ns) : x < m.nb ∧ (m.blk x).res = la ∧ (m.blk x).live = true := by
  obtain ⟨n, hn, hx⟩ := List.mem_flatMap.1 hx
  obtain ⟨h1, a, v, h2, h3, h4, h5, h6⟩ := h n hn
  simp only [nodeAddrs, h2, Option.toList_some, List.mem_cons, List.not_mem_nil, or_false] at hx
  rcases hx with rfl | rfl
  · exact ⟨h6, by simp [h4], by simp [h4]⟩
  · exact ⟨h5, by simp [h3], by simp [h3]⟩

theorem NodeOk.congr {m m' : Mem} {la : Nat} {n : Node} (h : NodeOk m la n) (hb : ∀ x, x ∈ nodeAddrs n → m'.blk x = m.blk x) (hn : m.nb ≤ m'.nb) : NodeOk m' la n := by
  obtain ⟨h1, a, v, h2, h3, h4, h5, h6⟩ := h
  refine ⟨h1, a, v, h2, ?_, ?_, by omega, by omega⟩
  · rw [hb a (by simp [nodeAddrs, h2])]; exact h3
  · rw [hb n.blk (by simp [nodeAddrs])]; exact h4

/-- adding a node and rewriting the entries of a batch that is not moved from -/
theorem InvA.push {s : St} (h : InvA s) {b v : Nat} {B : Batch} (hb : s.bat b = .live B) (hst : B.stale = false) (refs : List (Option Nat)) (tmo : Bool) (hr : refs ≠ []) :
    InvA { s with mem := { s.mem with nb := s.mem.nb + 2, blk := upd (upd s.mem.blk s.mem.nb ⟨B.la, none, true⟩) (s.mem.nb + 1) ⟨B.la, some v, true⟩ },
                  bat := upd s.bat b (.live { B with refs := refs, tmo := tmo, nodes := B.nodes ++ [⟨s.mem.nb, ⟨B.la, some (s.mem.nb + 1)⟩⟩] }) } := by
  have hlt : ∀ c C x, s.bat c = .live C → x ∈ addrs C.nodes → x < s.mem.nb := fun c C x hc hx => (addrs_lt (fun n hn => h.node c C n hc hn) hx).1
  have hnew : addrs [(⟨s.mem.nb, ⟨B.la, some (s.mem.nb + 1)⟩⟩ : Node)] = [s.mem.nb, s.mem.nb + 1] := by simp [addrs, nodeAddrs]
  have hbn : b < s.nbt := by
    rcases Nat.lt_or_ge b s.nbt with g | g
    · exact g
    · rw [h.fresh b g] at hb; simp at hb
  have hcong : ∀ c C n, s.bat c = .live C → n ∈ C.nodes → NodeOk { s.mem with nb := s.mem.nb + 2, blk := upd (upd s.mem.blk s.mem.nb ⟨B.la, none, true⟩) (s.mem.nb + 1) ⟨B.la, some v, true⟩ } C.la n := by
    intro c C n hc hn
    refine (h.node c C n hc hn).congr ?_ (by simp)
    intro x hx
    have := hlt c C x hc (List.mem_flatMap.2 ⟨n, hn, hx⟩)
    simp only [upd_apply]
    grind
  have hbl : ∀ c C', upd s.bat b (.live { B with refs := refs, tmo := tmo, nodes := B.nodes ++ [⟨s.mem.nb, ⟨B.la, some (s.mem.nb + 1)⟩⟩] }) c = .live C' →
      ∃ C, s.bat c = .live C ∧ C'.la = C.la ∧ C'.mr = C.mr ∧ C'.own = C.own ∧ C'.stale = C.stale ∧
        ((c ≠ b ∧ C' = C) ∨ (c = b ∧ C'.refs = refs ∧ C'.nodes = C.nodes ++ [⟨s.mem.nb, ⟨B.la, some (s.mem.nb + 1)⟩⟩])) := by
    intro c C' hc
    simp only [upd_apply] at hc
    split at hc
    · rename_i hcb
      simp only [Slot.live.injEq] at hc
      subst hc; subst hcb
      exact ⟨B, hb, rfl, rfl, rfl, rfl, Or.inr ⟨rfl, rfl, rfl⟩⟩
    · exact ⟨C', hc, rfl, rfl, rfl, rfl, Or.inl ⟨by assumption, rfl⟩⟩
  have hadd : ∀ c C', upd s.bat b (.live { B with refs := refs, tmo := tmo, nodes := B.nodes ++ [⟨s.mem.nb, ⟨B.la, some (s.mem.nb + 1)⟩⟩] }) c = .live C' →
      ∃ C, s.bat c = .live C ∧ ∀ x, x ∈ addrs C'.nodes → x ∈ addrs C.nodes ∨ (c = b ∧ (x = s.mem.nb ∨ x = s.mem.nb + 1)) := by
    intro c C' hc
    obtain ⟨C, g1, _, _, _, _, g2⟩ := hbl c C' hc
    refine ⟨C, g1, fun x hx => ?_⟩
    rcases g2 with ⟨_, rfl⟩ | ⟨g3, _, g4⟩
    · exact .inl hx
    · rw [g4, addrs_append, hnew] at hx
      simp at hx
      grind
  refine ⟨h.ub, ?_, ?_, h.res, ?_, ?_, ?_, ?_, ?_, ?_, ?_, ?_⟩
  · intro c hc
    simp only [upd_apply] at *
    rw [if_neg (by omega)]
    exact h.fresh c hc
  · intro c C' hc
    obtain ⟨C, g1, g2, g3, g4, g5, g6⟩ := hbl c C' hc
    have := h.shape c C g1
    refine ⟨by rw [g2, g3]; exact this.1, by rw [g2]; exact this.2.1, ?_, by rw [g2, g4, g5]; exact this.2.2.2.1, ?_⟩
    · intro hs
      rcases g6 with ⟨_, rfl⟩ | ⟨rfl, _, _⟩
      · exact this.2.2.1 hs
      · rw [hb] at g1
        simp only [Slot.live.injEq] at g1
        subst g1
        rw [g5, hst] at hs; simp at hs
    · intro hs ht
      rcases g6 with ⟨_, rfl⟩ | ⟨rfl, g7, _⟩
      · exact this.2.2.2.2 hs ht
      · rw [g7]; exact hr
  · intro c d C' D' r hc hd h1 h2
    obtain ⟨C, g1, _, _, g4, _, _⟩ := hbl c C' hc
    obtain ⟨D, f1, _, _, f4, _, _⟩ := hbl d D' hd
    exact h.uniq c d C D r g1 f1 (g4 ▸ h1) (f4 ▸ h2)
  · intro c C' n hc hn
    obtain ⟨C, g1, g2, _, _, _, g6⟩ := hbl c C' hc
    rcases g6 with ⟨_, rfl⟩ | ⟨rfl, _, g8⟩
    · exact hcong c C' n g1 hn
    · rw [g8] at hn
      rcases List.mem_append.1 hn with hn1 | hn2
      · rw [g2]; exact hcong c C n g1 hn1
      · rw [hb] at g1
        simp only [Slot.live.injEq] at g1
        subst g1
        obtain rfl := List.eq_of_mem_singleton hn2
        rw [g2]
        exact ⟨rfl, s.mem.nb + 1, v, rfl, by simp [upd_apply], by simp [upd_apply], by simp, by simp⟩
  · intro c C' hc
    obtain ⟨C, g1, _, _, _, _, g6⟩ := hbl c C' hc
    rcases g6 with ⟨_, rfl⟩ | ⟨rfl, _, g8⟩
    · exact h.nodup c C' g1
    · rw [g8, addrs_append, hnew]
      refine List.nodup_append.2 ⟨h.nodup c C g1, by simp, ?_⟩
      intro x hx y hy
      have := hlt c C x g1 hx
      simp at hy
      omega
  · intro c d C' D' x hc hd hx hy
    obtain ⟨C, g1, g2⟩ := hadd c C' hc
    obtain ⟨D, f1, f2⟩ := hadd d D' hd
    rcases g2 x hx with g | ⟨g, g'⟩ <;> rcases f2 x hy with f | ⟨f, f'⟩
    · exact h.disj c d C D x g1 f1 g f
    · have := hlt c C x g1 g; omega
    · have := hlt d D x f1 f; omega
    · rw [g, f]
  · intro a ha
    by_cases h1 : a = s.mem.nb ∨ a = s.mem.nb + 1
    · refine ⟨b, _, upd_same _ _ _, ?_⟩
      simp only [addrs_append, hnew]
      simp; grind
    · simp only [upd_apply] at ha
      rw [if_neg (by grind), if_neg (by grind)] at ha
      obtain ⟨c, C, g1, g2⟩ := h.held a ha
      by_cases hcb : c = b
      · subst hcb
        rw [hb] at g1
        simp only [Slot.live.injEq] at g1
        subst g1
        exact ⟨c, _, upd_same _ _ _, by simp only [addrs_append]; simp [g2]⟩
      · exact ⟨c, C, by simp only [upd_apply]; rw [if_neg hcb]; exact g1, g2⟩
  · intro a ha
    simp only at ha
    simp only [upd_apply]
    rw [if_neg (by omega), if_neg (by omega)]
    exact h.bnd a (by omega)
  · intro a c C' h1 hc hs
    obtain ⟨C, g1, _, _, _, g5, g6⟩ := hbl c C' hc
    rcases g6 with ⟨_, rfl⟩ | ⟨rfl, g7, _⟩
    · exact h.aws a c C' h1 g1 hs
    · rw [g7]; exact hr
  · exact h.awb

end Verif.Storage
