import Verif.Ops.Proofs
/-!
# C77, C78: what the kernel is asked for
-/

namespace Verif.Ops

/-- **C77.**  Whatever operations and time-outs are put into a fresh batch, in whatever order, as long as the interface can express
them: no call is undefined, and if there is anything to do, the kernel is asked for exactly the system calls the user named, with
the user's arguments, in the user's order, followed by the last deadline that was set; all entries but the last are linked to their
successor, and all carry the identity of the awaiting coroutine. -/
theorem batch_requests_partial (cs : List Call) (hf : ∀ c ∈ cs, c.Fits) (ud : Nat) :
    ∃ b, build cs = some b ∧ (wanted cs ≠ [] → ∃ sq, submit b ud = some sq ∧ sq.map (decode b.objs) = wanted cs ∧
      ∀ i x, sq[i]? = some x → x.ud = ud ∧ (x.link = true ↔ i + 1 < sq.length)) := by
  obtain ⟨b, hb, hh⟩ := build_holds cs hf
  refine ⟨b, hb, fun hne => holds_submit hh ud ?_⟩
  by_cases h : (opsOf cs).map Op.want = []
  · refine .inr fun hd => hne ?_
    rw [wanted, h, hd]; rfl
  · exact .inl h

/-- The operation a function is named after; sockets are made non-blocking (the comment in iouring_awaitables.cc 18). -/
def Api.op : Api → Op
  | .read _ fd buf size off _ => .read fd buf size off
  | .write _ fd buf size off _ => .write fd buf size off
  | .send _ fd buf size flags _ => .send fd buf size flags
  | .recv _ fd buf size flags _ => .recv fd buf size flags
  | .sendmsg fd msg flags _ => .sendmsg fd msg flags
  | .recvmsg fd msg flags _ => .recvmsg fd msg flags
  | .accept fd _ => .accept fd
  | .connect fd sock len _ => .connect fd sock len
  | .openat dir path flags mode => .openat dir path flags mode
  | .unlink path flags => .unlink path flags
  | .unlinkat dir path flags => .unlinkat dir path flags
  | .rename old new => .rename old new
  | .renameat od old nd new flags => .renameat od old nd new flags
  | .renameatNoreplace od old nd new => .renameatNoreplace od old nd new
  | .socket domain type protocol flags => .socket domain (type ||| SOCK_NONBLOCK) protocol flags
  | .fsync fd => .fsync fd
  | .fdatasync fd => .fdatasync fd
  | .syncFileRange fd len off flags => .syncFileRange fd len off flags
  | .nop => .nop

/-- The time-out the user gave, `time_point::max()` where the function takes none. -/
def Api.tm : Api → Tm
  | .read _ _ _ _ _ t | .write _ _ _ _ _ t | .send _ _ _ _ _ t | .recv _ _ _ _ _ t => t
  | .accept _ t | .connect _ _ _ t => t
  | .sendmsg _ _ _ tp | .recvmsg _ _ _ tp => .at tp
  | _ => .at tpMax

/-- The overloads that check for `milliseconds::max()`. -/
def Api.checksMax : Api → Bool
  | .read chars _ _ _ _ _ | .write chars _ _ _ _ _ | .send chars _ _ _ _ _ | .recv chars _ _ _ _ _ => !chars
  | .accept _ _ | .connect _ _ _ _ => false
  | _ => true

theorem holds_opAt (op : Op) (hf : op.Fits) (tp : Int) :
    ∃ b, opAt op tp = some b ∧ Holds b [op.want] ((Tm.at tp).deadline 0) := by
  obtain ⟨b, hb, hh⟩ := holds_prep holds_fresh op hf
  obtain ⟨b', hb', hh'⟩ := holds_timeoutAt hh tp
  exact ⟨b', by simp [opAt, hb, hb'], by simpa [Tm.deadline] using hh'⟩

theorem holds_opAfter (op : Op) (hf : op.Fits) (now ms : Int) (ht : (Tm.after ms).Fits now) :
    ∃ b, opAfter op now ms = some b ∧ Holds b [op.want] ((Tm.after ms).deadline now) := by
  obtain ⟨b, hb, hh⟩ := holds_prep holds_fresh op hf
  obtain ⟨b', hb', hh'⟩ := holds_timeoutAfter hh now ms ht
  exact ⟨b', by simp [opAfter, hb, hb'], by simpa [Tm.deadline] using hh'⟩

theorem holds_opPlusNow (op : Op) (hf : op.Fits) (now ms : Int) (ht : (Tm.after ms).Fits now) (hm : ms ≠ msMax) :
    ∃ b, opPlusNow op now ms = some b ∧ Holds b [op.want] ((Tm.after ms).deadline now) := by
  obtain hc | ⟨h1, h2, h3, h4⟩ := ht
  · exact absurd hc hm
  obtain ⟨b, hb, hh⟩ := holds_opAt op hf (now + ms * 1000000)
  refine ⟨b, by simp [opPlusNow, plusNow_eq h1 h2 h3 h4, hb], ?_⟩
  simp only [Tm.deadline, if_neg hm]
  rw [Tm.deadline, if_neg (by omega)] at hh
  exact hh

theorem holds_op (op : Op) (hf : op.Fits) (now : Int) :
    ∃ b, prep fresh op = some b ∧ Holds b [op.want] ((Tm.at tpMax).deadline now) := by
  obtain ⟨b, hb, hh⟩ := holds_prep holds_fresh op hf
  exact ⟨b, hb, by simpa [Tm.deadline] using hh⟩

theorem run_holds (a : Api) (now : Int) (hf : a.op.Fits) (ht : a.tm.Fits now) (hm : a.tm = .after msMax → a.checksMax = true) :
    ∃ b, a.run now = some b ∧ Holds b [a.op.want] (a.tm.deadline now) := by
  cases a
  case read c fd buf size off t =>
    cases t with
    | «at» tp => exact holds_opAt _ hf tp
    | after ms =>
      cases c
      · exact holds_opAfter _ hf now ms ht
      · exact holds_opPlusNow _ hf now ms ht fun hc => by simp [Api.tm, Api.checksMax, hc] at hm
  case write c fd buf size off t =>
    cases t with
    | «at» tp => exact holds_opAt _ hf tp
    | after ms =>
      cases c
      · exact holds_opAfter _ hf now ms ht
      · exact holds_opPlusNow _ hf now ms ht fun hc => by simp [Api.tm, Api.checksMax, hc] at hm
  case send c fd buf size off t =>
    cases t with
    | «at» tp => exact holds_opAt _ hf tp
    | after ms =>
      cases c
      · exact holds_opAfter _ hf now ms ht
      · exact holds_opPlusNow _ hf now ms ht fun hc => by simp [Api.tm, Api.checksMax, hc] at hm
  case recv c fd buf size off t =>
    cases t with
    | «at» tp => exact holds_opAt _ hf tp
    | after ms =>
      cases c
      · exact holds_opAfter _ hf now ms ht
      · exact holds_opPlusNow _ hf now ms ht fun hc => by simp [Api.tm, Api.checksMax, hc] at hm
  case accept fd t =>
    cases t with
    | «at» tp => exact holds_opAt _ hf tp
    | after ms => exact holds_opPlusNow _ hf now ms ht fun hc => by simp [Api.tm, Api.checksMax, hc] at hm
  case connect fd sock len t =>
    cases t with
    | «at» tp => exact holds_opAt _ hf tp
    | after ms => exact holds_opPlusNow _ hf now ms ht fun hc => by simp [Api.tm, Api.checksMax, hc] at hm
  case sendmsg fd msg flags tp => exact holds_opAt _ hf tp
  case recvmsg fd msg flags tp => exact holds_opAt _ hf tp
  all_goals exact holds_op _ hf now

/-- **C77 for the single-operation functions.**  Each function asks the kernel for the one system call it is named after, with the
user's arguments, and for the deadline the user gave, if any. -/
theorem single_op_requests_partial (a : Api) (now : Int) (hf : a.op.Fits) (ht : a.tm.Fits now)
    (hm : a.tm = .after msMax → a.checksMax = true) (ud : Nat) :
    ∃ b sq, a.run now = some b ∧ submit b ud = some sq ∧
      sq.map (decode b.objs) = a.op.want :: (a.tm.deadline now).toList.map .deadline ∧ ∀ x ∈ sq, x.ud = ud := by
  obtain ⟨b, hb, hh⟩ := run_holds a now hf ht hm
  obtain ⟨sq, h1, h2, h3⟩ := holds_submit hh ud (.inl (by simp))
  refine ⟨b, sq, hb, h1, h2, fun x hx => ?_⟩
  obtain ⟨i, hi⟩ := List.mem_iff_getElem?.1 hx
  exact (h3 i x hi).1

/-- **C78.**  The overloads of a function agree: for bytes or characters, with a time span or with the wall-clock time at which it
ends, the kernel is asked for the same.  `a` and `a'` are any two calls that name the same operation and whose time-outs end at the
same time, if at all. -/
theorem overloads_agree_partial (a a' : Api) (now : Int) (ud : Nat) (hop : a.op = a'.op)
    (hd : a.tm.deadline now = a'.tm.deadline now) (hf : a.op.Fits) (ht : a.tm.Fits now) (ht' : a'.tm.Fits now)
    (hm : a.tm = .after msMax → a.checksMax = true) (hm' : a'.tm = .after msMax → a'.checksMax = true) :
    ∃ b b' sq sq', a.run now = some b ∧ a'.run now = some b' ∧ submit b ud = some sq ∧ submit b' ud = some sq' ∧
      sq.map (decode b.objs) = sq'.map (decode b'.objs) := by
  obtain ⟨b, sq, h1, h2, h3, _⟩ := single_op_requests_partial a now hf ht hm ud
  obtain ⟨b', sq', h1', h2', h3', _⟩ := single_op_requests_partial a' now (hop ▸ hf) ht' hm' ud
  exact ⟨b, b', sq, sq', h1, h1', h2, h2', by rw [h3, h3', hop, hd]⟩

/-- A span and the time at which it ends are two such time-outs. -/
theorem span_deadline {now ms : Int} (ht : (Tm.after ms).Fits now) (hm : ms ≠ msMax) :
    (Tm.after ms).deadline now = (Tm.at (now + ms * 1000000)).deadline now := by
  obtain hc | ⟨_, _, _, h4⟩ := ht
  · exact absurd hc hm
  · simp only [Tm.deadline, if_neg hm]; rw [if_neg (by omega)]

/-- **C78 refuted** in general: `milliseconds::max()`, which the overload for bytes takes as "no time-out", is undefined behaviour
(a signed overflow) in the overload for characters, and in `accept` and `connect`, at every time. -/
theorem max_span_refuted (fd : W32) (buf : W64) (size : Nat) (off : W64) (sock : Bytes) (len : W32) (now : Int) (hs : size < 2 ^ 32) :
    (∃ b sq, (Api.read false fd buf size off (.after msMax)).run now = some b ∧ submit b 0 = some sq ∧
      sq.map (decode b.objs) = [.read fd buf size off]) ∧
    (Api.read true fd buf size off (.after msMax)).run now = none ∧
    (Api.write true fd buf size off (.after msMax)).run now = none ∧
    (Api.send true fd buf size (off.setWidth 32) (.after msMax)).run now = none ∧
    (Api.recv true fd buf size (off.setWidth 32) (.after msMax)).run now = none ∧
    (Api.accept fd (.after msMax)).run now = none ∧
    (Api.connect fd sock len (.after msMax)).run now = none := by
  have hp : plusNow now msMax = none := by
    simp [plusNow, i64, msMax]
  refine ⟨?_, ?_, ?_, ?_, ?_, ?_, ?_⟩
  · obtain ⟨b, sq, h1, h2, h3, _⟩ := single_op_requests_partial (.read false fd buf size off (.after msMax)) now hs (.inl rfl)
      (fun _ => rfl) 0
    exact ⟨b, sq, h1, h2, by rw [h3]; simp [Api.op, Op.want, Api.tm, Tm.deadline]⟩
  all_goals simp [Api.run, opPlusNow, hp]

/-- A span just below the largest one is undefined behaviour in every overload. -/
theorem huge_span_refuted (fd : W32) (buf : W64) (size : Nat) (off : W64) (now : Int) (c : Bool) :
    (Api.read c fd buf size off (.after (msMax - 1))).run now = none := by
  have hp : plusNow now (msMax - 1) = none := by
    simp [plusNow, i64, msMax]
  have hne : msMax - 1 ≠ msMax := by decide
  cases c <;> simp [Api.run, opPlusNow, opAfter, timeoutAfter, hp, hne]

/-- **C77 refuted** for large buffers: of a buffer of `size` bytes only `size mod 2^32` are asked for.  Reading into a buffer of
exactly 4 GiB asks for nothing, and the answer is indistinguishable from the end of the file. -/
theorem large_buffer_refuted (fd : W32) (buf : W64) (size : Nat) (off : W64) :
    ∃ b, build [.prep (.read fd buf size off)] = some b ∧
      b.sqes.map (decode b.objs) = [.read fd buf (size % 2 ^ 32) off] :=
  ⟨_, rfl, by simp [decode, prepRead, linked, prepRw, u32, fresh]⟩

/-- the same for the other transfers -/
theorem large_buffer_refuted' (fd : W32) (buf : W64) (size : Nat) (off : W64) (flags : W32) :
    ∃ b, build [.prep (.write fd buf size off), .prep (.send fd buf size flags), .prep (.recv fd buf size flags)] = some b ∧
      b.sqes.map (decode b.objs) =
        [.write fd buf (size % 2 ^ 32) off, .send fd buf (size % 2 ^ 32) flags, .recv fd buf (size % 2 ^ 32) flags] :=
  ⟨_, rfl, by simp [decode, prepWrite, prepSend, prepRecv, linked, prepRw, u32, fresh]⟩

/-- **C77 refuted** for paths with a zero byte: another file is opened or removed, the one named by the part before the zero byte. -/
theorem nul_path_refuted (dir flags mode : W32) (p q : Bytes) (hp : NoNul p) :
    ∃ b, build [.prep (.openat dir (p ++ 0 :: q) flags mode), .prep (.unlinkat dir (p ++ 0 :: q) flags)] = some b ∧
      b.sqes.map (decode b.objs) = [.openat dir p flags mode, .unlinkat dir p flags] := by
  have h : (p ++ 0#8 :: q).takeWhile (· != 0#8) = p := by
    rw [List.takeWhile_append_of_pos]
    · simp
    · intro b hb; simpa using hp b hb
  exact ⟨_, rfl, by simp [decode, prepOpenat, prepUnlinkat, linked, prepRw, fresh, addObj, cstr, h]⟩

/-- **C77 refuted** for the `flags` parameter of `socket` and of `connect_get_sock`: with any value but 0 the kernel refuses. -/
theorem socket_flags_refuted (domain type protocol flags : W32) (h : flags ≠ 0) (now : Int) :
    ∃ b, (Api.socket domain type protocol flags).run now = some b ∧ b.sqes.map (decode b.objs) = [.invalid] := by
  refine ⟨_, rfl, ?_⟩
  have h : ¬ flags = 0#32 := h
  simp [decode, prepSocket, linked, prepRw, fresh, h]

/-- The hypotheses are met by a batch with a time-out set before the last operation, and by an operation with a time span. -/
example : wanted [.timeout 5 (.at 9), .prep (.rename [47, 97] [98]), .timeout 6 (.after 3), .prep (.fdatasync 4)] =
    [.renameat AT_FDCWD [47, 97] AT_FDCWD [98] 0, .fsync 4 true, .deadline 3000006] := by decide

example : ∀ c ∈ ([.timeout 5 (.at 9), .prep (.rename [47, 97] [98]), .timeout 6 (.after 3), .prep (.fdatasync 4)] : List Call),
    c.Fits := by
  intro c hc
  simp only [List.mem_cons, List.not_mem_nil, or_false] at hc
  rcases hc with rfl | rfl | rfl | rfl <;> simp [Call.Fits, Tm.Fits, Op.Fits, NoNul, tpMax]

example : (Api.recv true 3 0x1000 512 0 (.after 250)).op.Fits ∧ (Api.recv true 3 0x1000 512 0 (.after 250)).tm.Fits 1700000000000000000 ∧
    (Api.recv true 3 0x1000 512 0 (.after 250)).tm.deadline 1700000000000000000 = some 1700000000250000000 := by
  refine ⟨by simp [Api.op, Op.Fits], by simp [Api.tm, Tm.Fits, tpMax], by decide⟩

end Verif.Ops
