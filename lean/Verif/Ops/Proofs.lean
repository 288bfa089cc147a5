import Verif.Ops.Model
/-!
# Proofs about the operations (C77, C78)
-/

namespace Verif.Ops

theorem cstr_mono {mem : List Obj} {w : Word} {p : Bytes} (e : List Obj) (h : cstr mem w = some p) :
    cstr (mem ++ e) w = some p := by
  match w, h with
  | .obj i 0, h =>
    simp only [cstr] at h ⊢
    cases hm : mem[i]? with
    | none => simp [hm] at h
    | some o =>
      rw [List.getElem?_append_left (List.getElem?_eq_some_iff.1 hm).1, hm]
      rw [hm] at h; exact h
  | .obj i 1, h =>
    simp only [cstr] at h ⊢
    cases hm : mem[i]? with
    | none => simp [hm] at h
    | some o =>
      rw [List.getElem?_append_left (List.getElem?_eq_some_iff.1 hm).1, hm]
      rw [hm] at h; exact h

/-- objects added later do not change what an entry means -/
theorem decode_mono {mem : List Obj} {x : Sqe} (e : List Obj) (h : decode mem x ≠ .invalid) :
    decode (mem ++ e) x = decode mem x := by
  obtain ⟨opc, fd, addr, len, off, fl, link, ud⟩ := x
  cases opc <;> simp only [decode] at h ⊢
  case connect =>
    split at h
    · rename_i i n
      cases hm : mem[i]? with
      | none => simp [hm] at h
      | some o => rw [List.getElem?_append_left (List.getElem?_eq_some_iff.1 hm).1, hm]
    · simp at h
  case openat =>
    cases hc : cstr mem addr with
    | none => simp [hc] at h
    | some p => rw [cstr_mono e hc]
  case unlinkat =>
    cases hc : cstr mem addr with
    | none => simp [hc] at h
    | some p => rw [cstr_mono e hc]
  case renameat =>
    cases hc : cstr mem addr with
    | none => simp [hc] at h
    | some p =>
      cases hc' : cstr mem off with
      | none => simp [hc, hc'] at h
      | some q => rw [cstr_mono e hc, cstr_mono e hc']
  case linkTimeout =>
    split at h
    · rename_i i
      cases hm : mem[i]? with
      | none => simp [hm] at h
      | some o => rw [List.getElem?_append_left (List.getElem?_eq_some_iff.1 hm).1, hm]
    · simp at h

theorem decode_link_ud (mem : List Obj) (x : Sqe) (l : Bool) (u : Nat) :
    decode mem { x with link := l, ud := u } = decode mem x := rfl

theorem takeWhile_noNul {p : Bytes} (h : NoNul p) : p.takeWhile (· != 0#8) = p := by
  induction p with
  | nil => rfl
  | cons b p ih =>
    rw [List.takeWhile_cons_of_pos (by simpa using h b (by simp)), ih (fun c hc => h c (by simp [hc]))]

theorem want_ne_invalid (op : Op) : op.want ≠ .invalid := by cases op <;> simp [Op.want]

theorem u32_toNat {n : Nat} (h : n < 2 ^ 32) : (u32 n).toNat = n := by
  simp only [u32, BitVec.toNat_ofNat]; exact Nat.mod_eq_of_lt h

theorem u64_setWidth (x : W32) : (u64 x).setWidth 32 = x := by
  unfold u64
  ext i hi
  simp [BitVec.getLsbD_signExtend, hi]
  intro _; omega

theorem setWidth_setWidth (x : W32) : (x.setWidth 64).setWidth 32 = x := by
  ext i hi
  simp [hi]

/-- Every prep function adds exactly one entry, at the place get_sqe gives it, possibly after storing objects; the entry is linked
and, for an operation the interface can express, means the system call the user named. -/
theorem prep_spec (b : Batch) (op : Op) : ∃ e x, prep b op = getSqe { b with objs := b.objs ++ e } x ∧ x.link = true ∧ x.ud = 0 ∧
    (op.Fits → decode (b.objs ++ e) x = op.want) := by
  cases op
  case read fd buf size off =>
    exact ⟨[], _, by simp only [List.append_nil]; rfl, rfl, rfl, fun h => by
      simp [decode, prepRead, linked, prepRw, Op.want, u32_toNat h]⟩
  case write fd buf size off =>
    exact ⟨[], _, by simp only [List.append_nil]; rfl, rfl, rfl, fun h => by
      simp [decode, prepWrite, linked, prepRw, Op.want, u32_toNat h]⟩
  case send fd buf size flags =>
    exact ⟨[], _, by simp only [List.append_nil]; rfl, rfl, rfl, fun h => by
      simp [decode, prepSend, linked, prepRw, Op.want, u32_toNat h]⟩
  case recv fd buf size flags =>
    exact ⟨[], _, by simp only [List.append_nil]; rfl, rfl, rfl, fun h => by
      simp [decode, prepRecv, linked, prepRw, Op.want, u32_toNat h]⟩
  case sendmsg fd msg flags =>
    exact ⟨[], _, by simp only [List.append_nil]; rfl, rfl, rfl, fun _ => by
      simp [decode, prepSendmsg, linked, prepRw, Op.want]⟩
  case recvmsg fd msg flags =>
    exact ⟨[], _, by simp only [List.append_nil]; rfl, rfl, rfl, fun _ => by
      simp [decode, prepRecvmsg, linked, prepRw, Op.want]⟩
  case accept fd =>
    exact ⟨[], _, by simp only [List.append_nil]; rfl, rfl, rfl, fun _ => by
      simp [decode, prepAccept, linked, prepRw, Op.want]⟩
  case connect fd sock len =>
    exact ⟨[.sock sock], _, rfl, rfl, rfl, fun _ => by
      simp [decode, prepConnect, linked, prepRw, Op.want]⟩
  case openat dir path flags mode =>
    exact ⟨[.path path], _, rfl, rfl, rfl, fun h => by
      simp [decode, prepOpenat, linked, prepRw, Op.want, cstr, takeWhile_noNul h]⟩
  case unlink path flags =>
    exact ⟨[.path path], _, rfl, rfl, rfl, fun h => by
      simp [decode, prepUnlink, prepUnlinkat, linked, prepRw, Op.want, cstr, takeWhile_noNul h]⟩
  case unlinkat dir path flags =>
    exact ⟨[.path path], _, rfl, rfl, rfl, fun h => by
      simp [decode, prepUnlinkat, linked, prepRw, Op.want, cstr, takeWhile_noNul h]⟩
  case rename old new =>
    exact ⟨[.rename old new], _, rfl, rfl, rfl, fun h => by
      simp [decode, prepRename, prepRenameat, linked, prepRw, Op.want, cstr, takeWhile_noNul h.1, takeWhile_noNul h.2]⟩
  case renameat od old nd new flags =>
    exact ⟨[.rename old new], _, rfl, rfl, rfl, fun h => by
      simp [decode, prepRenameat, linked, prepRw, Op.want, cstr, takeWhile_noNul h.1, takeWhile_noNul h.2]⟩
  case renameatNoreplace od old nd new =>
    exact ⟨[.rename old new], _, rfl, rfl, rfl, fun h => by
      simp [decode, prepRenameat, linked, prepRw, Op.want, cstr, takeWhile_noNul h.1, takeWhile_noNul h.2]⟩
  case socket domain type protocol flags =>
    exact ⟨[], _, by simp only [List.append_nil]; rfl, rfl, rfl, fun h => by
      have h : flags = 0 := h
      simp [decode, prepSocket, linked, prepRw, Op.want, h, u64_setWidth]⟩
  case fsync fd =>
    exact ⟨[], _, by simp only [List.append_nil]; rfl, rfl, rfl, fun _ => by
      simp [decode, prepFsync, linked, prepRw, Op.want]⟩
  case fdatasync fd =>
    exact ⟨[], _, by simp only [List.append_nil]; rfl, rfl, rfl, fun _ => by
      simp [decode, prepFsync, linked, prepRw, Op.want, IORING_FSYNC_DATASYNC]⟩
  case syncFileRange fd len off flags =>
    exact ⟨[], _, by simp only [List.append_nil]; rfl, rfl, rfl, fun _ => by
      simp [decode, prepSyncFileRange, linked, prepRw, Op.want]⟩
  case nop =>
    exact ⟨[], _, by simp only [List.append_nil]; rfl, rfl, rfl, fun _ => by
      simp [decode, prepNop, linked, prepRw, Op.want]⟩

/-- The contents of a batch: entries of the operations, then the time-out. -/
structure Holds (b : Batch) (rs : List Req) (d : Option Int) : Prop where
  ex : ∃ l t, b.sqes = l ++ t ∧ l.map (decode b.objs) = rs ∧ t.map (decode b.objs) = d.toList.map Req.deadline ∧
    (∀ x ∈ l, x.link = true)
  tmo : b.tmo = d.isSome
  ok : .invalid ∉ rs

theorem map_decode_mono {mem e : List Obj} {l : List Sqe} {rs : List Req} (h : l.map (decode mem) = rs) (hn : .invalid ∉ rs) :
    l.map (decode (mem ++ e)) = rs := by
  subst h
  refine List.map_congr_left fun x hx => decode_mono e ?_
  intro hc
  exact hn (by rw [← hc]; exact List.mem_map_of_mem hx)

theorem holds_fresh : Holds fresh [] none := ⟨⟨[], [], rfl, rfl, rfl, by simp⟩, rfl, by simp⟩

theorem holds_prep {b : Batch} {rs : List Req} {d : Option Int} (h : Holds b rs d) (op : Op) (hf : op.Fits) :
    ∃ b', prep b op = some b' ∧ Holds b' (rs ++ [op.want]) d := by
  obtain ⟨e, x, hp, hl, _, hw⟩ := prep_spec b op
  obtain ⟨⟨l, t, hs, hlr, ht, hlk⟩, htm, hok⟩ := h
  have hw := hw hf
  have hok' : Req.invalid ∉ rs ++ [op.want] := by
    simp only [List.mem_append, List.mem_singleton, not_or]
    exact ⟨hok, fun hc => want_ne_invalid op hc.symm⟩
  have hlr' := map_decode_mono (e := e) hlr hok
  have ht' := map_decode_mono (e := e) ht (by cases d <;> simp)
  rw [hp, getSqe]
  cases d with
  | none =>
    simp only [Option.isSome_none] at htm
    have : t = [] := by simpa using ht
    subst this
    simp only [htm, if_pos]
    refine ⟨_, rfl, ⟨l ++ [x], [], by simp [hs], by simp [hlr', hw], by simp, ?_⟩, rfl, hok'⟩
    intro y hy
    simp only [List.mem_append, List.mem_singleton] at hy
    rcases hy with hy | rfl
    · exact hlk _ hy
    · exact hl
  | some tp =>
    simp only [Option.isSome_some] at htm
    obtain ⟨y, rfl⟩ : ∃ y, t = [y] := List.length_eq_one_iff.1 (by simpa using congrArg List.length ht)
    have hne : b.sqes ≠ [] := by rw [hs]; simp
    simp only [htm, if_neg hne, Bool.true_eq_false, if_false]
    refine ⟨_, rfl, ⟨l ++ [x], [y], by simp [hs], by simp [hlr', hw], ht', ?_⟩, rfl, hok'⟩
    intro z hz
    simp only [List.mem_append, List.mem_singleton] at hz
    rcases hz with hz | rfl
    · exact hlk _ hz
    · exact hl

theorem holds_timeoutAt {b : Batch} {rs : List Req} {d : Option Int} (h : Holds b rs d) (tp : Int) :
    ∃ b', timeoutAt b tp = some b' ∧ Holds b' rs (if tp = tpMax then d else some tp) := by
  rw [timeoutAt]
  split
  · exact ⟨b, rfl, h⟩
  obtain ⟨⟨l, t, hs, hlr, ht, hlk⟩, htm, hok⟩ := h
  have hlr' := map_decode_mono (e := [.ts tp]) hlr hok
  cases d with
  | none =>
    simp only [Option.isSome_none] at htm
    have : t = [] := by simpa using ht
    subst this
    simp only [htm, addObj, getSqe, if_true, Option.map_some]
    refine ⟨_, rfl, ⟨l, [_], by simp only [hs, List.append_nil]; rfl, hlr', ?_, hlk⟩, rfl, hok⟩
    simp [decode, prepLinkTimeout, prepRw, REALTIME_ABS]
  | some t0 =>
    simp only [Option.isSome_some] at htm
    obtain ⟨y, rfl⟩ : ∃ y, t = [y] := List.length_eq_one_iff.1 (by simpa using congrArg List.length ht)
    have hne : b.sqes ≠ [] := by rw [hs]; simp
    simp only [htm, addObj, if_true, if_neg hne]
    refine ⟨_, rfl, ⟨l, [_], by simp only [hs, List.dropLast_concat]; rfl, hlr', ?_, hlk⟩, rfl, hok⟩
    simp [decode, prepLinkTimeout, prepRw, REALTIME_ABS]

theorem plusNow_eq {now ms : Int} (h1 : -(2 ^ 63) ≤ ms * 1000000) (h2 : ms * 1000000 < 2 ^ 63)
    (h3 : -(2 ^ 63) ≤ now + ms * 1000000) (h4 : now + ms * 1000000 < tpMax) :
    plusNow now ms = some (now + ms * 1000000) := by
  unfold tpMax at h4
  simp only [plusNow, i64]
  rw [if_pos ⟨h1, h2⟩]
  simp only [Option.bind_eq_bind, Option.bind_some]
  rw [if_pos ⟨h3, by omega⟩]

theorem holds_timeoutAfter {b : Batch} {rs : List Req} {d : Option Int} (h : Holds b rs d) (now ms : Int)
    (hf : (Tm.after ms).Fits now) :
    ∃ b', timeoutAfter b now ms = some b' ∧ Holds b' rs (if ms = msMax then d else some (now + ms * 1000000)) := by
  rw [timeoutAfter]
  split
  · exact ⟨b, rfl, h⟩
  rename_i hne
  obtain hc | ⟨h1, h2, h3, h4⟩ := hf
  · exact absurd hc hne
  rw [plusNow_eq h1 h2 h3 h4]
  obtain ⟨b', hb, hh⟩ := holds_timeoutAt h (now + ms * 1000000)
  rw [if_neg (by omega)] at hh
  exact ⟨b', hb, hh⟩

theorem deadlineOf_snoc_prep (cs : List Call) (o : Op) : deadlineOf (cs ++ [.prep o]) = deadlineOf cs := by
  simp [deadlineOf]

theorem deadlineOf_snoc_timeout (cs : List Call) (now : Int) (t : Tm) :
    deadlineOf (cs ++ [.timeout now t]) = (t.deadline now).or (deadlineOf cs) := by
  cases h : t.deadline now <;> simp [deadlineOf, h]

theorem build_holds (cs : List Call) (hf : ∀ c ∈ cs, c.Fits) :
    ∃ b, build cs = some b ∧ Holds b ((opsOf cs).map Op.want) (deadlineOf cs) := by
  induction cs using List.reverseRecOn with
  | nil => exact ⟨fresh, rfl, holds_fresh⟩
  | append_singleton cs c ih =>
    obtain ⟨b, hb, hh⟩ := ih fun c hc => hf c (by simp [hc])
    have : build (cs ++ [c]) = (build cs).bind fun b => call b c := by
      simp [build, List.foldlM_append]
    rw [this, hb, Option.bind_some]
    have hc := hf c (by simp)
    cases c with
    | prep op =>
      obtain ⟨b', hp, hh'⟩ := holds_prep hh op hc
      refine ⟨b', hp, ?_⟩
      rw [deadlineOf_snoc_prep]
      simpa [opsOf] using hh'
    | timeout now t =>
      have hops : opsOf (cs ++ [.timeout now t]) = opsOf cs := by simp [opsOf]
      rw [deadlineOf_snoc_timeout, hops]
      cases t with
      | «at» tp =>
        obtain ⟨b', hp, hh'⟩ := holds_timeoutAt hh tp
        refine ⟨b', hp, ?_⟩
        simp only [Tm.deadline]
        by_cases h : tp = tpMax <;> simp only [h, if_true, if_false] at hh' ⊢ <;> simpa using hh'
      | after ms =>
        obtain ⟨b', hp, hh'⟩ := holds_timeoutAfter hh now ms hc
        refine ⟨b', hp, ?_⟩
        simp only [Tm.deadline]
        by_cases h : ms = msMax <;> simp only [h, if_true, if_false] at hh' ⊢ <;> simpa using hh'

theorem submit_spec (b : Batch) (ud : Nat) (hne : b.sqes ≠ []) (hl : ∀ i x, b.sqes[i]? = some x → i + 1 < b.sqes.length → x.link = true) :
    ∃ sq, submit b ud = some sq ∧ sq.map (decode b.objs) = b.sqes.map (decode b.objs) ∧
      ∀ i x, sq[i]? = some x → x.ud = ud ∧ (x.link = true ↔ i + 1 < sq.length) := by
  obtain ⟨l, y, hs⟩ : ∃ l y, b.sqes = l ++ [y] := ⟨_, _, (List.dropLast_concat_getLast hne).symm⟩
  have hform : submit b ud = some (l.map (fun x => { x with ud := ud }) ++ [{ y with ud := ud, link := false }]) := by
    rw [submit, if_neg hne, hs]
    simp [List.map_append, List.dropLast_concat]
  refine ⟨_, hform, ?_, ?_⟩
  · rw [hs]
    simp only [List.map_append, List.map_map, List.map_cons, List.map_nil]
    rfl
  · intro i x hx
    rcases Nat.lt_trichotomy i l.length with hi | rfl | hi
    · rw [List.getElem?_append_left (by simpa using hi)] at hx
      simp only [List.getElem?_map, List.getElem?_eq_getElem hi, Option.map_some, Option.some.injEq] at hx
      subst hx
      have := hl i l[i] (by rw [hs, List.getElem?_append_left hi, List.getElem?_eq_getElem hi]) (by rw [hs]; simp; omega)
      simp [this, hi]
    · rw [List.getElem?_append_right (by simp)] at hx
      simp only [List.length_map, Nat.sub_self, List.getElem?_cons_zero, Option.some.injEq] at hx
      subst hx
      simp
    · rw [List.getElem?_eq_none (by simp; omega)] at hx
      simp at hx

/-- what a batch that holds `rs` and the deadline `d` hands to the kernel -/
theorem holds_submit {b : Batch} {rs : List Req} {d : Option Int} (h : Holds b rs d) (ud : Nat)
    (hne : rs ≠ [] ∨ d ≠ none) :
    ∃ sq, submit b ud = some sq ∧ sq.map (decode b.objs) = rs ++ d.toList.map .deadline ∧
      ∀ i x, sq[i]? = some x → x.ud = ud ∧ (x.link = true ↔ i + 1 < sq.length) := by
  obtain ⟨⟨l, t, hs, hlr, ht, hlk⟩, htm, hok⟩ := h
  have htl : t.length = d.toList.length := by simpa using congrArg List.length ht
  have hne' : b.sqes ≠ [] := by
    rw [hs]
    intro hc
    obtain ⟨rfl, rfl⟩ := List.append_eq_nil_iff.1 hc
    simp only [List.map_nil] at hlr ht
    rcases hne with hne | hne
    · exact hne hlr.symm
    · cases d with
      | none => exact hne rfl
      | some t => simp at ht
  obtain ⟨sq, h1, h2, h3⟩ := submit_spec b ud hne' (by
    intro i x hx hi
    rw [hs] at hx hi
    simp only [List.length_append] at hi
    have hd : d.toList.length ≤ 1 := by cases d <;> simp
    have : i < l.length := by omega
    rw [List.getElem?_append_left this] at hx
    exact hlk x (List.mem_of_getElem? hx))
  refine ⟨sq, h1, ?_, h3⟩
  rw [h2, hs, List.map_append, hlr, ht]

end Verif.Ops
