import Verif.Storage.Inv
/-!
# The discipline keeps every batch's memory in order
-/

namespace Verif.Storage

theorem InvA.lt {s : St} (h : InvA s) {b : Nat} {B : Batch} (hb : s.bat b = .live B) : b < s.nbt := by
  rcases Nat.lt_or_ge b s.nbt with g | g
  · exact g
  · rw [h.fresh b g] at hb; simp at hb

theorem init_A : InvA init := by
  constructor <;> simp [init]
  all_goals grind

/-- only entries change -/
theorem InvA.relink {s : St} (h : InvA s) {b : Nat} {B : Batch} (hb : s.bat b = .live B) (hst : B.stale = false) (refs : List (Option Nat)) (hr : refs ≠ []) :
    InvA { s with bat := upd s.bat b (.live { B with refs := refs }) } := by
  obtain ⟨h1, h2, h3, h4, h5, h6, h7, h8, h9, h10, h11, h12⟩ := h
  have hbl : ∀ c C', upd s.bat b (.live { B with refs := refs }) c = .live C' → ∃ C, s.bat c = .live C ∧ C'.la = C.la ∧ C'.mr = C.mr ∧ C'.own = C.own ∧ C'.stale = C.stale ∧
      C'.nodes = C.nodes ∧ C'.tmo = C.tmo ∧ (C'.refs = C.refs ∨ (c = b ∧ C'.refs = refs)) := by
    intro c C' hc
    simp only [upd_apply] at hc
    split at hc
    · rename_i hcb
      simp only [Slot.live.injEq] at hc
      subst hc; subst hcb
      exact ⟨B, hb, rfl, rfl, rfl, rfl, rfl, rfl, .inr ⟨rfl, rfl⟩⟩
    · exact ⟨C', hc, rfl, rfl, rfl, rfl, rfl, rfl, .inl rfl⟩
  refine ⟨h1, ?_, ?_, h4, ?_, ?_, ?_, ?_, ?_, h10, ?_, h12⟩
  · intro c hc
    have := h2 c hc
    simp only [upd_apply]
    grind
  · intro c C' hc
    obtain ⟨C, g⟩ := hbl c C' hc
    have := h3 c C g.1
    grind
  · intro c d C' D' r hc hd e1 e2
    obtain ⟨C, g⟩ := hbl c C' hc
    obtain ⟨D, f⟩ := hbl d D' hd
    exact h5 c d C D r g.1 f.1 (by grind) (by grind)
  · intro c C' n hc hn
    obtain ⟨C, g⟩ := hbl c C' hc
    have := h6 c C n g.1 (by grind)
    grind
  · intro c C' hc
    obtain ⟨C, g⟩ := hbl c C' hc
    have := h7 c C g.1
    grind
  · intro c d C' D' x hc hd e1 e2
    obtain ⟨C, g⟩ := hbl c C' hc
    obtain ⟨D, f⟩ := hbl d D' hd
    exact h8 c d C D x g.1 f.1 (by grind) (by grind)
  · intro a ha
    obtain ⟨c, C, g1, g2⟩ := h9 a ha
    by_cases hcb : c = b
    · subst hcb
      rw [hb] at g1
      simp only [Slot.live.injEq] at g1
      subst g1
      exact ⟨c, _, upd_same _ _ _, g2⟩
    · exact ⟨c, C, by simp only [upd_apply]; rw [if_neg hcb]; exact g1, g2⟩
  · intro a c C' ha hc hs
    obtain ⟨C, g⟩ := hbl c C' hc
    have := h11 a c C ha g.1
    grind

theorem InvA.user {s : St} (h : InvA s) :
    InvA { s with mem := { s.mem with nr := s.mem.nr + 1, alive := upd s.mem.alive s.mem.nr true, user := upd s.mem.user s.mem.nr true } } := by
  obtain ⟨h1, h2, h3, h4, h5, h6, h7, h8, h9, h10, h11, h12⟩ := h
  refine ⟨h1, h2, ?_, ?_, h5, h6, h7, h8, h9, h10, h11, h12⟩
  · intro b B hb
    have := h3 b B hb
    simp only [upd_apply]
    grind
  · intro r hr
    simp only at hr
    have := h4 r (by omega)
    simp only [upd_apply]
    grind

theorem InvA.dropRes {s : St} (h : InvA s) {r : Nat} (hu : s.mem.user r = true) (hn : (List.range s.nbt).any (fun b => usesRes r (s.bat b)) = false) :
    InvA { s with mem := { s.mem with alive := upd s.mem.alive r false } } := by
  have hl := fun b B hb => h.lt (b := b) (B := B) hb
  obtain ⟨h1, h2, h3, h4, h5, h6, h7, h8, h9, h10, h11, h12⟩ := h
  refine ⟨h1, h2, ?_, ?_, h5, h6, h7, h8, h9, h10, h11, h12⟩
  · intro b B hb
    have := h3 b B hb
    have hne : B.la ≠ r := by
      intro he
      have := List.any_eq_false.1 hn b (List.mem_range.2 (hl b B hb))
      exact this (by rw [hb]; simp [usesRes, he])
    simp only [upd_apply]
    grind
  · intro k hk
    simp only at hk
    have := h4 k hk
    simp only [upd_apply]
    grind

theorem InvA.newUser {s : St} (h : InvA s) {r : Nat} (ha : s.mem.alive r = true) (hu : s.mem.user r = true) :
    InvA { s with nbt := s.nbt + 1, bat := upd s.bat s.nbt (.live ⟨none, r, r, [], [], false, false⟩) } := by
  have hl := fun b B hb => h.lt (b := b) (B := B) hb
  obtain ⟨h1, h2, h3, h4, h5, h6, h7, h8, h9, h10, h11, h12⟩ := h
  have hr : r < s.mem.nr := by
    rcases Nat.lt_or_ge r s.mem.nr with g | g
    · exact g
    · have := h4 r g; simp_all
  have hbl : ∀ c C', upd s.bat s.nbt (.live ⟨none, r, r, [], [], false, false⟩) c = .live C' → (s.bat c = .live C' ∧ c < s.nbt) ∨ (c = s.nbt ∧ C' = ⟨none, r, r, [], [], false, false⟩) := by
    intro c C' hc
    simp only [upd_apply] at hc
    split at hc
    · simp at hc; grind
    · exact .inl ⟨hc, hl c C' hc⟩
  refine ⟨h1, ?_, ?_, h4, ?_, ?_, ?_, ?_, ?_, h10, ?_, ?_⟩
  · intro c hc
    simp only at hc
    have := h2 c (by omega)
    simp only [upd_apply]
    grind
  · intro c C' hc
    rcases hbl c C' hc with ⟨g, g'⟩ | ⟨g, rfl⟩
    · exact h3 c C' g
    · simp; grind
  · intro c d C' D' k hc hd e1 e2
    rcases hbl c C' hc with ⟨g, g'⟩ | ⟨g, rfl⟩ <;> rcases hbl d D' hd with ⟨f, f'⟩ | ⟨f, rfl⟩ <;> first | exact h5 c d C' D' k g f e1 e2 | simp at e1 e2
  · intro c C' n hc hn
    rcases hbl c C' hc with ⟨g, g'⟩ | ⟨g, rfl⟩
    · exact h6 c C' n g hn
    · simp at hn
  · intro c C' hc
    rcases hbl c C' hc with ⟨g, g'⟩ | ⟨g, rfl⟩
    · exact h7 c C' g
    · simp [addrs]
  · intro c d C' D' k hc hd e1 e2
    rcases hbl c C' hc with ⟨g, g'⟩ | ⟨g, rfl⟩ <;> rcases hbl d D' hd with ⟨f, f'⟩ | ⟨f, rfl⟩ <;> first | exact h8 c d C' D' k g f e1 e2 | simp [addrs] at e1 e2
  · intro a ha
    obtain ⟨c, C, g1, g2⟩ := h9 a ha
    have := hl c C g1
    exact ⟨c, C, by simp only [upd_apply]; rw [if_neg (by omega)]; exact g1, g2⟩
  · intro a c C' ha' hc hs
    rcases hbl c C' hc with ⟨g, g'⟩ | ⟨g, rfl⟩
    · exact h11 a c C' ha' g hs
    · have := h12 a c ha'; omega
  · intro a c ha'
    have := h12 a c ha'
    simp only; omega

theorem InvA.newOwn {s : St} (h : InvA s) :
    InvA { s with mem := { s.mem with nr := s.mem.nr + 1, alive := upd s.mem.alive s.mem.nr true }, nbt := s.nbt + 1,
                  bat := upd s.bat s.nbt (.live ⟨some s.mem.nr, s.mem.nr, s.mem.nr, [], [], false, false⟩) } := by
  have hl := fun b B hb => h.lt (b := b) (B := B) hb
  obtain ⟨h1, h2, h3, h4, h5, h6, h7, h8, h9, h10, h11, h12⟩ := h
  have hbl : ∀ c C', upd s.bat s.nbt (.live ⟨some s.mem.nr, s.mem.nr, s.mem.nr, [], [], false, false⟩) c = .live C' →
      (s.bat c = .live C' ∧ c < s.nbt ∧ C'.own ≠ some s.mem.nr) ∨ (c = s.nbt ∧ C' = ⟨some s.mem.nr, s.mem.nr, s.mem.nr, [], [], false, false⟩) := by
    intro c C' hc
    simp only [upd_apply] at hc
    split at hc
    · simp at hc; grind
    · have := h3 c C' hc
      refine .inl ⟨hc, hl c C' hc, ?_⟩
      cases hs : C'.stale <;> grind
  refine ⟨h1, ?_, ?_, ?_, ?_, ?_, ?_, ?_, ?_, h10, ?_, ?_⟩
  · intro c hc
    simp only at hc
    have := h2 c (by omega)
    simp only [upd_apply]
    grind
  · intro c C' hc
    rcases hbl c C' hc with ⟨g, g'⟩ | ⟨g, rfl⟩
    · have := h3 c C' g
      simp only [upd_apply]
      grind
    · have := h4 s.mem.nr (Nat.le_refl _)
      simp [upd_apply]; grind
  · intro r hr
    simp only at hr
    have := h4 r (by omega)
    simp only [upd_apply]
    grind
  · intro c d C' D' k hc hd e1 e2
    rcases hbl c C' hc with ⟨g, g'⟩ | ⟨g, rfl⟩ <;> rcases hbl d D' hd with ⟨f, f'⟩ | ⟨f, rfl⟩ <;> first | exact h5 c d C' D' k g f e1 e2 | grind
  · intro c C' n hc hn
    rcases hbl c C' hc with ⟨g, g'⟩ | ⟨g, rfl⟩
    · exact h6 c C' n g hn
    · simp at hn
  · intro c C' hc
    rcases hbl c C' hc with ⟨g, g'⟩ | ⟨g, rfl⟩
    · exact h7 c C' g
    · simp [addrs]
  · intro c d C' D' k hc hd e1 e2
    rcases hbl c C' hc with ⟨g, g'⟩ | ⟨g, rfl⟩ <;> rcases hbl d D' hd with ⟨f, f'⟩ | ⟨f, rfl⟩ <;> first | exact h8 c d C' D' k g f e1 e2 | simp [addrs] at e1 e2
  · intro a ha
    obtain ⟨c, C, g1, g2⟩ := h9 a ha
    have := hl c C g1
    exact ⟨c, C, by simp only [upd_apply]; rw [if_neg (by omega)]; exact g1, g2⟩
  · intro a c C' ha' hc hs
    rcases hbl c C' hc with ⟨g, g'⟩ | ⟨g, rfl⟩
    · exact h11 a c C' ha' g hs
    · have := h12 a c ha'; omega
  · intro a c ha'
    have := h12 a c ha'
    simp only; omega

theorem InvA.move {s : St} (h : InvA s) {b : Nat} {B : Batch} (hb : s.bat b = .live B) :
    InvA { s with nbt := s.nbt + 1, bat := upd (upd s.bat s.nbt (.live B)) b (.live { B with own := none, nodes := [], refs := [], stale := true }) } := by
  have hl := fun b B hb => h.lt (b := b) (B := B) hb
  obtain ⟨h1, h2, h3, h4, h5, h6, h7, h8, h9, h10, h11, h12⟩ := h
  have hbl : ∀ c C', upd (upd s.bat s.nbt (.live B)) b (.live { B with own := none, nodes := [], refs := [], stale := true }) c = .live C' →
      (s.bat c = .live C' ∧ c < s.nbt ∧ c ≠ b) ∨ (c = s.nbt ∧ C' = B) ∨ (c = b ∧ C' = { B with own := none, nodes := [], refs := [], stale := true }) := by
    intro c C' hc
    simp only [upd_apply] at hc
    split at hc
    · simp at hc; grind
    · split at hc
      · simp at hc; grind
      · exact .inl ⟨hc, hl c C' hc, by assumption⟩
  have hbn := hl b B hb
  refine ⟨h1, ?_, ?_, h4, ?_, ?_, ?_, ?_, ?_, h10, ?_, ?_⟩
  · intro c hc
    simp only at hc
    have := h2 c (by omega)
    simp only [upd_apply]
    grind
  · intro c C' hc
    have hB := h3 b B hb
    rcases hbl c C' hc with ⟨g, g'⟩ | ⟨g, rfl⟩ | ⟨g, rfl⟩
    · exact h3 c C' g
    · exact hB
    · simp; grind
  · intro c d C' D' k hc hd e1 e2
    have h5' := fun c C' hc => h5 c b C' B k hc hb
    rcases hbl c C' hc with ⟨g, g'⟩ | ⟨g, rfl⟩ | ⟨g, rfl⟩ <;> rcases hbl d D' hd with ⟨f, f'⟩ | ⟨f, rfl⟩ | ⟨f, rfl⟩ <;> first | exact h5 c d C' D' k g f e1 e2 | grind
  · intro c C' n hc hn
    rcases hbl c C' hc with ⟨g, g'⟩ | ⟨g, rfl⟩ | ⟨g, rfl⟩
    · exact h6 c C' n g hn
    · exact h6 b _ n hb hn
    · simp at hn
  · intro c C' hc
    rcases hbl c C' hc with ⟨g, g'⟩ | ⟨g, rfl⟩ | ⟨g, rfl⟩
    · exact h7 c C' g
    · exact h7 b _ hb
    · simp [addrs]
  · intro c d C' D' k hc hd e1 e2
    have h8' := fun c C' hc => h8 c b C' B k hc hb
    rcases hbl c C' hc with ⟨g, g'⟩ | ⟨g, rfl⟩ | ⟨g, rfl⟩ <;> rcases hbl d D' hd with ⟨f, f'⟩ | ⟨f, rfl⟩ | ⟨f, rfl⟩ <;>
      first | exact h8 c d C' D' k g f e1 e2 | (exfalso; simp [addrs] at e1 e2; done) | grind
  · intro a ha
    obtain ⟨c, C, g1, g2⟩ := h9 a ha
    have := hl c C g1
    by_cases hcb : c = b
    · subst hcb
      rw [hb] at g1
      simp only [Slot.live.injEq] at g1
      subst g1
      exact ⟨s.nbt, B, by simp only [upd_apply]; rw [if_neg (by omega)]; simp, g2⟩
    · exact ⟨c, C, by simp only [upd_apply]; rw [if_neg hcb, if_neg (by omega)]; exact g1, g2⟩
  · intro a c C' ha' hc hs
    rcases hbl c C' hc with ⟨g, g'⟩ | ⟨g, rfl⟩ | ⟨g, rfl⟩
    · exact h11 a c C' ha' g hs
    · have := h12 a c ha'; omega
    · simp at hs
  · intro a c ha'
    have := h12 a c ha'
    simp only; omega

/-- the nodes of a batch are given back, and its own resource, if it has one, destroyed -/
theorem InvA.kill {s : St} (h : InvA s) {b : Nat} {B : Batch} (hb : s.bat b = .live B) (blk' : Nat → Blk)
    (hx : ∀ x, blk' x = if x ∈ addrs B.nodes then ⟨(s.mem.blk x).res, none, false⟩ else s.mem.blk x) (al : Nat → Bool)
    (hal : ∀ r, al r = s.mem.alive r ∨ (B.own = some r ∧ al r = false)) :
    InvA { s with mem := { s.mem with blk := blk', alive := al }, bat := upd s.bat b .dead } := by
  have hl := fun b B hb => h.lt (b := b) (B := B) hb
  obtain ⟨h1, h2, h3, h4, h5, h6, h7, h8, h9, h10, h11, h12⟩ := h
  have hbl : ∀ c C', upd s.bat b .dead c = .live C' → s.bat c = .live C' ∧ c ≠ b := by
    intro c C' hc
    simp only [upd_apply] at hc
    split at hc
    · simp at hc
    · exact ⟨hc, by assumption⟩
  have hbn := hl b B hb
  refine ⟨h1, ?_, ?_, ?_, ?_, ?_, ?_, ?_, ?_, ?_, ?_, h12⟩
  · intro c hc
    have := h2 c hc
    simp only at hc
    simp only [upd_apply]
    grind
  · intro c C' hc
    obtain ⟨g, g'⟩ := hbl c C' hc
    have hC := h3 c C' g
    have hB := h3 b B hb
    refine ⟨hC.1, hC.2.1, hC.2.2.1, ?_, hC.2.2.2.2⟩
    intro hs
    have h5' := h5 c b C' B C'.la g hb
    have := hal C'.la
    simp only
    cases hBs : B.stale <;> grind
  · intro r hr
    have := h4 r hr
    have h4' := hal r
    have hB := h3 b B hb
    simp only at hr
    simp only
    cases hBs : B.stale <;> grind
  · intro c d C' D' k hc hd e1 e2
    exact h5 c d C' D' k (hbl c C' hc).1 (hbl d D' hd).1 e1 e2
  · intro c C' n hc hn
    obtain ⟨g, g'⟩ := hbl c C' hc
    refine (h6 c C' n g hn).congr ?_ (Nat.le_refl _)
    intro x hxn
    simp only [hx]
    rw [if_neg]
    intro hxb
    exact g' (h8 c b C' B x g hb (List.mem_flatMap.2 ⟨n, hn, hxn⟩) hxb)
  · intro c C' hc
    exact h7 c C' (hbl c C' hc).1
  · intro c d C' D' k hc hd e1 e2
    exact h8 c d C' D' k (hbl c C' hc).1 (hbl d D' hd).1 e1 e2
  · intro a ha
    simp only [hx] at ha
    split at ha
    · simp at ha
    · obtain ⟨c, C, g1, g2⟩ := h9 a ha
      have hcb : c ≠ b := by
        rintro rfl
        rw [hb] at g1
        simp only [Slot.live.injEq] at g1
        subst g1
        contradiction
      exact ⟨c, C, by simp only [upd_apply]; rw [if_neg hcb]; exact g1, g2⟩
  · intro a ha
    simp only [hx]
    split
    · rename_i hm
      have := (addrs_lt (fun n hn => h6 b B n hb hn) hm).1
      simp only at ha
      omega
    · exact h10 a ha
  · intro a c C' ha' hc hs
    exact h11 a c C' ha' (hbl c C' hc).1 hs

/-- where the next entry goes -/
def ins (tmo : Bool) (l : List (Option Nat)) (x : Option Nat) : List (Option Nat) := if tmo then l.dropLast ++ [x] ++ l.drop (l.length - 1) else l ++ [x]
/-- where the time-out goes -/
def insT (tmo : Bool) (l : List (Option Nat)) (x : Option Nat) : List (Option Nat) := if tmo then l.dropLast ++ [x] else l ++ [x]

theorem ins_ne (t : Bool) (l : List (Option Nat)) (x : Option Nat) : ins t l x ≠ [] := by cases t <;> simp [ins]
theorem insT_ne (t : Bool) (l : List (Option Nat)) (x : Option Nat) : insT t l x ≠ [] := by cases t <;> simp [insT]

theorem getSqe_eq {B : Batch} (h : B.tmo = true → B.refs ≠ []) (x : Option Nat) : getSqe B x = some { B with refs := ins B.tmo B.refs x } := by
  cases ht : B.tmo <;> simp_all [getSqe, ins]

theorem tmoSqe_eq {B : Batch} (h : B.tmo = true → B.refs ≠ []) (a : Nat) : tmoSqe B a = some { B with refs := insT B.tmo B.refs (some a), tmo := true } := by
  cases ht : B.tmo <;> simp_all [tmoSqe, insT]

/-- The steps under the discipline, spelled out. -/
inductive Good (s : St) : Label → St → List Ev → Prop where
  | userRes : Good s .userRes { s with mem := { s.mem with nr := s.mem.nr + 1, alive := upd s.mem.alive s.mem.nr true, user := upd s.mem.user s.mem.nr true } } [.resMade s.mem.nr]
  | dropRes (r : Nat) (hu : s.mem.user r = true) (hn : (List.range s.nbt).any (fun b => usesRes r (s.bat b)) = false) :
      Good s (.dropRes r) { s with mem := { s.mem with alive := upd s.mem.alive r false } } [.resGone r]
  | newUser (r : Nat) (ha : s.mem.alive r = true) (hu : s.mem.user r = true) :
      Good s (.new (some r)) { s with nbt := s.nbt + 1, bat := upd s.bat s.nbt (.live ⟨none, r, r, [], [], false, false⟩) } [.born s.nbt]
  | newOwn : Good s (.new none) { s with mem := { s.mem with nr := s.mem.nr + 1, alive := upd s.mem.alive s.mem.nr true }, nbt := s.nbt + 1, bat := upd s.bat s.nbt (.live ⟨some s.mem.nr, s.mem.nr, s.mem.nr, [], [], false, false⟩) } [.resMade s.mem.nr, .born s.nbt]
  | prepN (b : Nat) (B : Batch) (hb : s.bat b = .live B) (hst : B.stale = false) :
      Good s (.prep b none) { s with bat := upd s.bat b (.live { B with refs := ins B.tmo B.refs none }) } [.prepped b none]
  | prepS (b v : Nat) (B : Batch) (hb : s.bat b = .live B) (hst : B.stale = false) :
      Good s (.prep b (some v)) { s with mem := { s.mem with nb := s.mem.nb + 2, blk := upd (upd s.mem.blk s.mem.nb ⟨B.la, none, true⟩) (s.mem.nb + 1) ⟨B.la, some v, true⟩ }, bat := upd s.bat b (.live { B with refs := ins B.tmo B.refs (some (s.mem.nb + 1)), tmo := B.tmo, nodes := B.nodes ++ [⟨s.mem.nb, ⟨B.la, some (s.mem.nb + 1)⟩⟩] }) }
        [.alloc s.mem.nb B.la, .alloc (s.mem.nb + 1) B.la, .made (s.mem.nb + 1) v, .prepped b (some v)]
  | timeout (b v : Nat) (B : Batch) (hb : s.bat b = .live B) (hst : B.stale = false) :
      Good s (.timeout b v) { s with mem := { s.mem with nb := s.mem.nb + 2, blk := upd (upd s.mem.blk s.mem.nb ⟨B.la, none, true⟩) (s.mem.nb + 1) ⟨B.la, some v, true⟩ }, bat := upd s.bat b (.live { B with refs := insT B.tmo B.refs (some (s.mem.nb + 1)), tmo := true, nodes := B.nodes ++ [⟨s.mem.nb, ⟨B.la, some (s.mem.nb + 1)⟩⟩] }) }
        [.alloc s.mem.nb B.la, .alloc (s.mem.nb + 1) B.la, .made (s.mem.nb + 1) v, .timed b v]
  | move (b : Nat) (B : Batch) (hb : s.bat b = .live B) :
      Good s (.moveCtor b) { s with nbt := s.nbt + 1, bat := upd (upd s.bat s.nbt (.live B)) b (.live { B with own := none, nodes := [], refs := [], stale := true }) } [.moved b s.nbt]
  | destroy (b : Nat) (B : Batch) (hb : s.bat b = .live B) (blk' : Nat → Blk)
      (hx : ∀ x, blk' x = if x ∈ addrs B.nodes then ⟨(s.mem.blk x).res, none, false⟩ else s.mem.blk x) (al : Nat → Bool)
      (hal : ∀ r, al r = s.mem.alive r ∧ B.own ≠ some r ∨ (B.own = some r ∧ al r = false)) :
      Good s (.destroy b) { s with mem := { s.mem with blk := blk', alive := al }, bat := upd s.bat b .dead } (dropEvs B.la B.nodes ++ (B.own.toList.map .resGone ++ [.died b]))
  | execute (b a : Nat) (B : Batch) (hb : s.bat b = .live B) (hst : B.stale = false) (hr : B.refs ≠ []) : Good s (.execute b a) { s with aw := upd s.aw a (some b) } []
  | copyAw (a a' : Nat) : Good s (.copyAw a a') { s with aw := upd s.aw a' (s.aw a) } []
  | suspend (a b : Nat) (B : Batch) (ha : s.aw a = some b) (hb : s.bat b = .live B) (hst : B.stale = false) (hr : B.refs ≠ []) : Good s (.suspend a) s [.submitted b B.refs]

theorem good_step {s : St} (h : InvA s) (l : Label) : stepLive true s l = none ∨ ∃ s' e, stepLive true s l = some (some (s', e)) ∧ Good s l s' e := by
  cases l with
  | userRes => exact .inr ⟨_, _, rfl, .userRes⟩
  | dropRes r =>
    simp only [stepLive]
    split
    · exact .inl rfl
    · split
      · exact .inl rfl
      · rename_i h1 h2
        refine .inr ⟨_, _, rfl, .dropRes r ?_ ?_⟩
        · cases hu : s.mem.user r <;> simp_all
        · simpa using h2
  | new mr =>
    cases mr with
    | none => exact .inr ⟨_, _, rfl, .newOwn⟩
    | some r =>
      simp only [stepLive]
      split
      · rename_i h1
        simp only [Bool.and_eq_true] at h1
        exact .inr ⟨_, _, rfl, .newUser r h1.1 h1.2⟩
      · exact .inl rfl
  | prep b v =>
    cases hb : s.bat b with
    | unborn => simp [stepLive, hb]
    | dead => simp [stepLive, hb]
    | live B =>
      obtain ⟨k1, _, _, k4, k5⟩ := h.shape b B hb
      cases hst : B.stale with
      | true => simp [stepLive, hb, hst]
      | false =>
        right
        have hal := (k4 hst).1
        cases v with
        | none =>
          refine ⟨_, _, ?_, .prepN b B hb hst⟩
          simp [stepLive, hb, hst, hal, getSqe_eq (k5 hst)]
        | some v =>
          refine ⟨_, _, ?_, .prepS b v B hb hst⟩
          simp [stepLive, hb, hst, ← k1, add_ok _ _ _ hal, getSqe_eq (k5 hst)]
  | timeout b v =>
    cases hb : s.bat b with
    | unborn => simp [stepLive, hb]
    | dead => simp [stepLive, hb]
    | live B =>
      obtain ⟨k1, _, _, k4, k5⟩ := h.shape b B hb
      cases hst : B.stale with
      | true => simp [stepLive, hb, hst]
      | false =>
        right
        have hal := (k4 hst).1
        refine ⟨_, _, ?_, .timeout b v B hb hst⟩
        simp [stepLive, hb, hst, ← k1, add_ok _ _ _ hal, tmoSqe_eq (k5 hst)]
  | moveCtor b =>
    cases hb : s.bat b with
    | unborn => simp [stepLive, hb]
    | dead => simp [stepLive, hb]
    | live B =>
      right
      exact ⟨_, _, by simp [stepLive, hb], .move b B hb⟩
  | moveAssign b c => simp [stepLive]
  | destroy b =>
    cases hb : s.bat b with
    | unborn => simp [stepLive, hb]
    | dead => simp [stepLive, hb]
    | live B =>
      right
      obtain ⟨k1, _, k3, k4, k5⟩ := h.shape b B hb
      have hdrop : ∃ blk', dropNodes s.mem B.la B.nodes = some ({ s.mem with blk := blk' }, dropEvs B.la B.nodes) ∧
          ∀ x, blk' x = if x ∈ addrs B.nodes then ⟨(s.mem.blk x).res, none, false⟩ else s.mem.blk x := by
        cases hst : B.stale with
        | false => exact dropNodes_ok B.la B.nodes s.mem (k4 hst).1 (fun n hn => h.node b B n hb hn) (h.nodup b B hb)
        | true =>
          obtain ⟨_, k, _⟩ := k3 hst
          exact ⟨s.mem.blk, by simp [k, dropNodes, dropEvs], by simp [k, addrs]⟩
      obtain ⟨blk', e1, e2⟩ := hdrop
      cases ho : B.own with
      | none =>
        have g := Good.destroy (s := s) b B hb blk' e2 s.mem.alive (fun r => .inl ⟨rfl, by simp [ho]⟩)
        refine ⟨_, _, ?_, g⟩
        simp [stepLive, hb, e1, ho]
      | some r =>
        have g := Good.destroy (s := s) b B hb blk' e2 (upd s.mem.alive r false) (fun k => by simp only [upd_apply]; grind)
        refine ⟨_, _, ?_, g⟩
        simp [stepLive, hb, e1, ho]
  | execute b a =>
    cases hb : s.bat b with
    | unborn => simp [stepLive, hb]
    | dead => simp [stepLive, hb]
    | live B =>
      cases hst : B.stale with
      | true => simp [stepLive, hb, hst]
      | false =>
        by_cases hr : B.refs = []
        · exact .inl (by simp [stepLive, hb, hst, hr])
        · exact .inr ⟨_, _, by simp [stepLive, hb, hst, hr], .execute b a B hb hst hr⟩
  | copyAw a a' => exact .inr ⟨_, _, rfl, .copyAw a a'⟩
  | suspend a =>
    cases ha : s.aw a with
    | none => simp [stepLive, ha]
    | some b =>
      cases hb : s.bat b with
      | unborn => simp [stepLive, ha, hb]
      | dead => simp [stepLive, ha, hb]
      | live B =>
        cases hst : B.stale with
        | true => simp [stepLive, ha, hb, hst]
        | false =>
          have hr := h.aws a b B ha hb hst
          exact .inr ⟨_, _, by simp [stepLive, ha, hb, hst, hr], .suspend a b B ha hb hst hr⟩

theorem InvA.good {s s' : St} {l : Label} {e : List Ev} (h : InvA s) (g : Good s l s' e) : InvA s' := by
  cases g with
  | userRes => exact h.user
  | dropRes r hu hn => exact h.dropRes hu hn
  | newUser r ha hu => exact h.newUser ha hu
  | newOwn => exact h.newOwn
  | prepN b B hb hst => exact h.relink hb hst _ (ins_ne _ _ _)
  | prepS b v B hb hst => exact h.push hb hst _ _ (ins_ne _ _ _)
  | timeout b v B hb hst => exact h.push hb hst _ _ (insT_ne _ _ _)
  | move b B hb => exact h.move hb
  | destroy b B hb blk' hx al hal => exact h.kill hb blk' hx al (fun r => by rcases hal r with g | g <;> grind)
  | execute b a B hb hst hr =>
    have hl := h.lt hb
    obtain ⟨h1, h2, h3, h4, h5, h6, h7, h8, h9, h10, h11, h12⟩ := h
    refine ⟨h1, h2, h3, h4, h5, h6, h7, h8, h9, h10, ?_, ?_⟩
    · intro x c C hx hc hs
      simp only [upd_apply] at hx
      split at hx
      · simp at hx; subst hx
        simp only at hc
        rw [hb] at hc; simp at hc; subst hc; exact hr
      · exact h11 x c C hx hc hs
    · intro x c hx
      simp only [upd_apply] at hx
      split at hx
      · simp at hx; subst hx; exact hl
      · exact h12 x c hx
  | copyAw a a' =>
    obtain ⟨h1, h2, h3, h4, h5, h6, h7, h8, h9, h10, h11, h12⟩ := h
    refine ⟨h1, h2, h3, h4, h5, h6, h7, h8, h9, h10, ?_, ?_⟩
    · intro x c C hx hc hs
      simp only [upd_apply] at hx
      split at hx
      · exact h11 _ c C hx hc hs
      · exact h11 x c C hx hc hs
    · intro x c hx
      simp only [upd_apply] at hx
      split at hx
      · exact h12 _ c hx
      · exact h12 x c hx
  | suspend a b B ha hb hst hr => exact h

theorem step_good {s s' : St} {l : Label} {e : List Ev} (h : InvA s) (hs : (M true).step s l = some (s', e)) : Good s l s' e := by
  simp only [M, step, h.ub, Bool.false_eq_true, if_false] at hs
  rcases good_step h l with g | ⟨s1, e1, g, g'⟩
  · simp [g] at hs
  · simp only [g, Option.some.injEq, Prod.mk.injEq] at hs
    obtain ⟨rfl, rfl⟩ := hs
    exact g'

theorem reach_A {s : St} {tr : List Ev} (h : (M true).Reaches s tr) : InvA s :=
  Machine.Reaches.inv (I := fun s _ => InvA s) init_A (fun _ _ _ _ _ hi hs => hi.good (step_good hi hs)) h

end Verif.Storage
