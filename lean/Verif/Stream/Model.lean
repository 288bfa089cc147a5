import Verif.Stream.Spec
import Verif.OpBatch.Model
/-!
# Model of the byte-stream functions

`append_all`, `after_read_or_recv`, `recv_fill_buffer`, `read_fill_buffer` (src/iouring_awaitables.cc 61-156),
`unique_file_state` (src/unique_file_state.cc), `send_pb_message`, `recv_pb_message` (include/koios/iouring_protobuf.h).

Every function is run against a list of answers of its environment, one per pass of its loop; the list ranges over all
behaviours of the kernel.  If the list ends before the function returns, the function is still running (`none`).
Nobody else writes to the file or reads from the stream.
-/

namespace Verif.Stream
open Verif.OpBatch (Ret mkRet errorCode nbytesDelivered ETIME)

/-! ### Files -/

structure File where
  data : Bytes
  append : Bool                     -- O_APPEND

/-- The kernel's answer to a write or send: it takes some of the bytes, or fails with -e (`stale`: errno of the calling thread). -/
inductive WAns where
  | wrote (k : Nat)
  | failed (e : Nat) (stale : Int)
  deriving DecidableEq, Repr

/-- one io_uring write of `d` at offset `off` -/
def kwrite (f : File) (off : Nat) (d : Bytes) : WAns → File × Ret
  | .wrote k =>
    let w := d.take k
    ({ f with data := if f.append then f.data ++ w else f.data.take off ++ w ++ f.data.drop (off + w.length) },
      mkRet 0 w.length)
  | .failed e stale => (f, mkRet stale (-(e + 1)))

/-- append_all with an error code (iouring_awaitables.cc 73-86); the offset argument of uring::write defaults to 0.
`ec` is the caller's error_code object. -/
def appendAll : List WAns → File → Bytes → Int → File × Option Int
  | _, f, [], ec => (f, some ec)
  | [], f, _ :: _, _ => (f, none)
  | a :: as, f, b :: bs, _ =>
    let r := kwrite f 0 (b :: bs) a
    if errorCode r.2 ≠ 0 then (r.1, some (errorCode r.2))
    else appendAll as r.1 ((b :: bs).drop (nbytesDelivered r.2).toNat) (errorCode r.2)

/-- unique_file_state::append_async (unique_file_state.cc 23-47) while it holds m_fs_io_lock: `left` is a 64-bit size_t, the whole
buffer is passed to every write. -/
def appendAsync : List WAns → File → Bytes → Nat → Int → File × Option Int
  | [], f, _, left, ec => if left = 0 then (f, some ec) else (f, none)
  | a :: as, f, buf, left, ec =>
    if left = 0 then (f, some ec)
    else
      let r := kwrite f 0 buf a
      if errorCode r.2 ≠ 0 then (r.1, some (errorCode r.2))
      else appendAsync as r.1 buf ((left + (2 ^ 64 - (nbytesDelivered r.2).toNat)) % 2 ^ 64) (errorCode r.2)

/-- the contents of a std::filesystem::path after it was moved from (libstdc++: the move constructor clears the source) -/
def movedFrom (_path : String) : String := ""

/-- ::open(2) of an existing file: `none` = -1; with flags O_APPEND only, the access mode is O_RDONLY -/
def kopen (fileExists : String → Bool) (path : String) (writable : Bool) : Option (String × Bool) :=
  if fileExists path then some (path, writable) else none

/-- unique_file_state::unique_file_state (unique_file_state.cc 14-21): the members are initialized in the order m_path, m_fd, so `path` has
been moved from when it is passed to open().  `none`: the constructor throws; otherwise the file opened and whether it may be
written. -/
def construct (fileExists : String → Bool) (path : String) : Option (String × Bool) :=
  kopen fileExists (movedFrom path) false

/-! ### Filling a buffer -/

/-- The answer to a read or receive. -/
inductive RAns where
  | got (k : Nat)                      -- at most k bytes are delivered (0: end of file, peer closed)
  | failed (e : Nat) (stale : Int)
  | lost (k : Nat)                     -- k bytes are delivered, but the first result is that of the time-out (C63)
  | threw (ec : Int)                   -- the operation throws a koios exception with that code
  deriving DecidableEq, Repr

structure RSt where
  mem : Bytes                          -- the caller's memory
  pos : Nat                            -- the span `buffer`: start
  len : Nat                            -- and size
  wrote : Nat                          -- wrote_nbytes
  ec : Int                             -- the caller's error_code
  cur : Nat                            -- bytes of the stream consumed so far (receive only)
  deriving DecidableEq, Repr

/-- the kernel writes `d` into memory from `pos` on -/
def poke (mem : Bytes) (pos : Nat) (d : Bytes) : Bytes := mem.take pos ++ d ++ mem.drop (pos + d.length)

/-- after_read_or_recv (iouring_awaitables.cc 88-102): new ec, wrote_nbytes and span -/
def afterReadOrRecv (r : Ret) (s : RSt) : RSt :=
  if errorCode r = 0 then
    { s with wrote := s.wrote + (nbytesDelivered r).toNat,
             pos := s.pos + min (nbytesDelivered r).toNat s.len, len := s.len - min (nbytesDelivered r).toNat s.len }
  else if errorCode r = ETIME then { s with pos := 0, len := 0 }
  else { s with ec := errorCode r, pos := 0, len := 0 }

/-- where the next operation reads: a receive continues the stream (112-116), a read is done at `offset + wrote_nbytes` (139-143) -/
def srcPos (offset : Option Nat) (s : RSt) : Nat :=
  match offset with | none => s.cur | some o => o + s.wrote

/-- recv_fill_buffer (104-129, `offset = none`) and read_fill_buffer (131-156).  `src` is the stream or the file.  The Boolean of each
answer: `system_clock::now() < timeout`. -/
def fill (offset : Option Nat) (src : Bytes) : List (Bool × RAns) → RSt → RSt × Option Nat
  | [], s => if s.ec ≠ 0 ∨ s.len = 0 then (s, some s.wrote) else (s, none)
  | (inTime, a) :: as, s =>
    if s.ec ≠ 0 ∨ s.len = 0 then (s, some s.wrote)
    else if inTime = false then (s, some s.wrote)
    else
      let d := fun k => ((src.drop (srcPos offset s)).take s.len).take k
      match a with
      | .got k =>
        fill offset src as
          (afterReadOrRecv (mkRet 0 (d k).length) { s with mem := poke s.mem s.pos (d k), cur := s.cur + (d k).length })
      | .failed e stale => fill offset src as (afterReadOrRecv (mkRet stale (-(e + 1))) s)
      | .lost k =>
        fill offset src as
          (afterReadOrRecv (mkRet 0 (-ETIME)) { s with mem := poke s.mem s.pos (d k), cur := s.cur + (d k).length })
      | .threw ec => ({ s with ec := ec }, some 0)

/-- the state at the call: the buffer is all of `mem` -/
def fillInit (mem : Bytes) (cur : Nat) : RSt := ⟨mem, 0, mem.length, 0, 0, cur⟩

/-! ### Protobuf messages -/

/-- the kernel's side of one send of `d` -/
def ksend (wire : Bytes) (d : Bytes) : WAns → Bytes × Ret
  | .wrote k => (wire ++ d.take k, mkRet 0 (d.take k).length)
  | .failed e stale => (wire, mkRet stale (-(e + 1)))

/-- the prefix loop of send_pb_message (iouring_protobuf.h 39-48): `.inl` = co_return false; `.inr`: leaves the loop with the rest of the answers -/
def sendPrefix : List WAns → Bytes → Bytes → Nat → Bytes × Option (Bool × List WAns)
  | [], wire, _, _ => (wire, none)
  | a :: as, wire, pre, retry =>
    let r := ksend wire pre a
    if retry + 1 > 5 then (r.1, some (false, as))
    else if errorCode r.2 = ETIME then sendPrefix as r.1 pre (retry + 1)
    else (r.1, some (true, as))

/-- the body loop (52-69) -/
def sendBody : List WAns → Bytes → Bytes → Nat → Bytes × Option Unit
  | [], wire, left, retry => if left = [] ∨ retry > 10 then (wire, some ()) else (wire, none)
  | a :: as, wire, left, retry =>
    if left = [] ∨ retry > 10 then (wire, some ())
    else
      let r := ksend wire left a
      if errorCode r.2 ≠ 0 ∧ errorCode r.2 ≠ ETIME then (r.1, some ())
      else if errorCode r.2 = 0 then sendBody as r.1 (left.drop (nbytesDelivered r.2).toNat) retry
      else sendBody as r.1 left (retry + 1)

/-- send_pb_message (28-72); static_cast<uint32_t>(size) -/
def sendPb (F : Format) (m : F.Msg) (as : List WAns) (wire : Bytes) : Bytes × Option Bool :=
  if F.initialized m = false then (wire, some false)
  else
    let p := sendPrefix as wire (bigEndian ((F.ser m).length % 2 ^ 32)) 0
    match p.2 with
    | none => (p.1, none)
    | some (false, _) => (p.1, some false)
    | some (true, as') =>
      let b := sendBody as' p.1 (F.ser m) 0
      (b.1, b.2.map fun _ => true)

/-- decode_big_endian_from<uint32_t> -/
def decodeBE (b : Bytes) : Nat := b.foldl (fun acc x => acc * 256 + x.toNat) 0

/-- recv_pb_message (74-93): `as1`, `as2` are the answers during the two recv_fill_buffer calls, `cur` the number of bytes consumed
from the stream before.  The number of bytes received by the first call is not looked at.  Result: bytes consumed afterwards, and the message if true is
returned (none = false). -/
def recvPb (F : Format) (src : Bytes) (as1 as2 : List (Bool × RAns)) (cur : Nat) : Nat × Option (Option F.Msg) :=
  let p := fill none src as1 (fillInit [0, 0, 0, 0] cur)
  match p.2 with
  | none => (p.1.cur, none)
  | some _ =>
    if p.1.ec ≠ 0 then (p.1.cur, some none)
    else
      let n := decodeBE p.1.mem
      let q := fill none src as2 (fillInit (List.replicate n 0) p.1.cur)
      match q.2 with
      | none => (q.1.cur, none)
      | some received =>
        if q.1.ec ≠ 0 ∨ received ≠ n then (q.1.cur, some none)
        else (q.1.cur, some (F.parse q.1.mem))

end Verif.Stream
