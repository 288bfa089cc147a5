import Verif.Ops.Spec
/-!
# Model of `op_batch::prep_*`, `op_batch::timeout` and the single-operation functions

First the ABI (liburing's io_uring_prep_* and how the kernel reads an entry: an assumption, taken from liburing and io_uring_enter(2)),
then the library: src/iouring_op_batch.cc, include/koios/iouring_op_batch.h 303-320, src/iouring_op_batch_rep.cc,
src/iouring_op_batch_execute_aw.cc, src/iouring_op_functions.cc, include/koios/iouring_op_functions.h.
-/

namespace Verif.Ops

/-! ### The ABI -/

inductive Opcode where
  | nop | read | write | send | recv | sendmsg | recvmsg | accept | connect | openat | unlinkat | renameat | socket
  | fsync | syncFileRange | linkTimeout
  deriving DecidableEq, Repr

/-- What a 64-bit field of an entry holds: a number or an address of the user, or the address of field `fld` of the `i`-th object
the batch owns. -/
inductive Word where
  | num (x : W64)
  | obj (i fld : Nat)
  deriving DecidableEq, Repr

/-- The objects of iouring_op_batch.cc the batch keeps in its op_peripheral (22-32 sock_data, 205-210 path_data, 249-258
rename_data, 368-378 timeout_data). -/
inductive Obj where
  | path (s : Bytes)
  | rename (f t : Bytes)
  | sock (b : Bytes)
  | ts (t : Int)
  deriving DecidableEq, Repr

/-- io_uring_sqe: the fields the library uses; `link` is IOSQE_IO_LINK, `opFlags` the union of the flag words. -/
structure Sqe where
  opcode : Opcode
  fd : W32
  addr : Word
  len : W32
  off : Word
  opFlags : W32
  link : Bool
  ud : Nat
  deriving DecidableEq, Repr

/-- io_uring_prep_rw: everything not named is 0 -/
def prepRw (op : Opcode) (fd : W32) (addr : Word) (len : W32) (off : Word) : Sqe := ⟨op, fd, addr, len, off, 0, false, 0⟩

def null : Word := .num 0
/-- the conversion of a size_t to a 32-bit unsigned -/
def u32 (n : Nat) : W32 := BitVec.ofNat 32 n
/-- the conversion of an int to a 64-bit unsigned (sign extension) -/
def u64 (x : W32) : W64 := x.signExtend 64

def prepRead (fd : W32) (buf : W64) (n : W32) (off : W64) : Sqe := prepRw .read fd (.num buf) n (.num off)
def prepWrite (fd : W32) (buf : W64) (n : W32) (off : W64) : Sqe := prepRw .write fd (.num buf) n (.num off)
def prepSend (fd : W32) (buf : W64) (n : Nat) (flags : W32) : Sqe :=
  { prepRw .send fd (.num buf) (u32 n) (.num 0) with opFlags := flags }
def prepRecv (fd : W32) (buf : W64) (n : Nat) (flags : W32) : Sqe :=
  { prepRw .recv fd (.num buf) (u32 n) (.num 0) with opFlags := flags }
def prepSendmsg (fd : W32) (msg : W64) (flags : W32) : Sqe :=
  { prepRw .sendmsg fd (.num msg) 1 (.num 0) with opFlags := flags }
def prepRecvmsg (fd : W32) (msg : W64) (flags : W32) : Sqe :=
  { prepRw .recvmsg fd (.num msg) 1 (.num 0) with opFlags := flags }
def prepAccept (fd : W32) (addr addrlen : Word) (flags : W32) : Sqe :=
  { prepRw .accept fd addr 0 addrlen with opFlags := flags }
def prepConnect (fd : W32) (addr : Word) (addrlen : W32) : Sqe := prepRw .connect fd addr 0 (.num (addrlen.setWidth 64))
def prepOpenat (dir : W32) (path : Word) (flags mode : W32) : Sqe :=
  { prepRw .openat dir path mode (.num 0) with opFlags := flags }
def prepUnlinkat (dir : W32) (path : Word) (flags : W32) : Sqe :=
  { prepRw .unlinkat dir path 0 (.num 0) with opFlags := flags }
def prepUnlink (path : Word) (flags : W32) : Sqe := prepUnlinkat AT_FDCWD path flags
def prepRenameat (od : W32) (old : Word) (nd : W32) (new : Word) (flags : W32) : Sqe :=
  { prepRw .renameat od old nd new with opFlags := flags }
def prepRename (old new : Word) : Sqe := prepRenameat AT_FDCWD old AT_FDCWD new 0
def prepSocket (domain type protocol flags : W32) : Sqe :=
  { prepRw .socket domain null protocol (.num (u64 type)) with opFlags := flags }
def prepFsync (fd : W32) (flags : W32) : Sqe := { prepRw .fsync fd null 0 (.num 0) with opFlags := flags }
def prepSyncFileRange (fd : W32) (len : W32) (off : W64) (flags : W32) : Sqe :=
  { prepRw .syncFileRange fd null len (.num off) with opFlags := flags }
def prepNop : Sqe := prepRw .nop (-1) null 0 (.num 0)
def prepLinkTimeout (ts : Word) (flags : W32) : Sqe := { prepRw .linkTimeout (-1) ts 1 (.num 0) with opFlags := flags }

def IORING_FSYNC_DATASYNC : W32 := 1#32
/-- IORING_TIMEOUT_REALTIME | IORING_TIMEOUT_ABS -/
def REALTIME_ABS : W32 := 8#32 ||| 1#32

/-- a C string the kernel reads at an address: up to the first zero byte -/
def cstr (mem : List Obj) : Word → Option Bytes
  | .obj i 0 => match mem[i]? with
    | some (.path s) => some (s.takeWhile (· != 0))
    | some (.rename f _) => some (f.takeWhile (· != 0))
    | _ => none
  | .obj i 1 => match mem[i]? with
    | some (.rename _ t) => some (t.takeWhile (· != 0))
    | _ => none
  | _ => none

/-- How the kernel reads an entry: which system call it stands for.  `invalid` where the kernel refuses the entry, or where it
would read memory that is not there. -/
def decode (mem : List Obj) (x : Sqe) : Req :=
  match x.opcode with
  | .nop => .nop
  | .read => match x.addr, x.off with
    | .num buf, .num off => .read x.fd buf x.len.toNat off
    | _, _ => .invalid
  | .write => match x.addr, x.off with
    | .num buf, .num off => .write x.fd buf x.len.toNat off
    | _, _ => .invalid
  | .send => match x.addr with
    | .num buf => .send x.fd buf x.len.toNat x.opFlags
    | _ => .invalid
  | .recv => match x.addr with
    | .num buf => .recv x.fd buf x.len.toNat x.opFlags
    | _ => .invalid
  | .sendmsg => match x.addr with
    | .num msg => .sendmsg x.fd msg x.opFlags
    | _ => .invalid
  | .recvmsg => match x.addr with
    | .num msg => .recvmsg x.fd msg x.opFlags
    | _ => .invalid
  | .accept => if x.addr = null ∧ x.off = null ∧ x.len = 0 then .accept x.fd x.opFlags else .invalid
  | .connect => match x.addr, x.off with
    | .obj i 0, .num n => match mem[i]? with
      | some (.sock b) => .connect x.fd (b.take (n.setWidth 32).toNat)
      | _ => .invalid
    | _, _ => .invalid
  | .openat => match cstr mem x.addr with
    | some p => .openat x.fd p x.opFlags x.len
    | none => .invalid
  | .unlinkat => match cstr mem x.addr with
    | some p => .unlinkat x.fd p x.opFlags
    | none => .invalid
  | .renameat => match cstr mem x.addr, cstr mem x.off with
    | some p, some q => .renameat x.fd p x.len q x.opFlags
    | _, _ => .invalid
  | .socket => match x.off with
    | .num ty => if x.addr = null ∧ x.opFlags = 0 then .socket x.fd (ty.setWidth 32) x.len else .invalid
    | _ => .invalid
  | .fsync => if x.opFlags = 0 then .fsync x.fd false
    else if x.opFlags = 0x1#32 then .fsync x.fd true else .invalid
  | .syncFileRange => match x.off with
    | .num off => .syncFileRange x.fd x.len off x.opFlags
    | _ => .invalid
  | .linkTimeout => match x.addr with
    | .obj i 0 => match mem[i]? with
      | some (.ts t) => if x.opFlags = 0x9#32 ∧ x.len = 1 then   -- bit 0: absolute, bit 3: wall clock
          .deadline t else .invalid
      | _ => .invalid
    | _ => .invalid

/-! ### The library -/

/-- op_batch: the entries of m_rep, the objects of m_peripheral (a std::list: an object keeps its address), m_was_timeout_set -/
structure Batch where
  sqes : List Sqe
  objs : List Obj
  tmo : Bool
  deriving DecidableEq, Repr

/-- iouring_op_batch.h 53-60 -/
def fresh : Batch := ⟨[], [], false⟩

/-- op_batch_rep::get_sqe (iouring_op_batch_rep.cc 12-17) and writing the entry `x` through the pointer; `none`: `prev(end())` of an
empty vector -/
def getSqe (b : Batch) (x : Sqe) : Option Batch :=
  if b.tmo = false then some { b with sqes := b.sqes ++ [x] }
  else if b.sqes = [] then none
  else some { b with sqes := b.sqes.dropLast ++ [x] ++ b.sqes.drop (b.sqes.length - 1) }

/-- op_peripheral::add: the new object and its place -/
def addObj (b : Batch) (o : Obj) : Batch × Nat := ({ b with objs := b.objs ++ [o] }, b.objs.length)

/-- the last two lines of every prep function: `cur_sqe->flags |= IOSQE_IO_LINK` -/
def linked (x : Sqe) : Sqe := { x with link := true }

/-- the prep_* functions, iouring_op_batch.cc 34-355; the overloads for `span<char>` (iouring_op_batch.h 128-190) only change the
type of the elements -/
def prep (b : Batch) : Op → Option Batch
  | .accept fd => getSqe b (linked (prepAccept fd null null 0))                                      -- 34-41
  | .send fd buf size flags => getSqe b (linked (prepSend fd buf size flags))                        -- 43-56
  | .recv fd buf size flags => getSqe b (linked (prepRecv fd buf size flags))                        -- 58-70
  | .sendmsg fd msg flags => getSqe b (linked (prepSendmsg fd msg flags))                            -- 72-80
  | .recvmsg fd msg flags => getSqe b (linked (prepRecvmsg fd msg flags))                            -- 82-90
  | .read fd buf size off => getSqe b (linked (prepRead fd buf (u32 size) off))                      -- 92-104
  | .write fd buf size off => getSqe b (linked (prepWrite fd buf (u32 size) off))                    -- 106-118
  | .connect fd sock len =>                                                                          -- 120-135
    let (b, i) := addObj b (.sock sock)
    getSqe b (linked (prepConnect fd (.obj i 0) len))
  | .openat dir path flags mode =>                                                                   -- 212-222
    let (b, i) := addObj b (.path path)
    getSqe b (linked (prepOpenat dir (.obj i 0) flags mode))
  | .unlink path flags =>                                                                            -- 224-234
    let (b, i) := addObj b (.path path)
    getSqe b (linked (prepUnlink (.obj i 0) flags))
  | .unlinkat dir path flags =>                                                                      -- 236-247
    let (b, i) := addObj b (.path path)
    getSqe b (linked (prepUnlinkat dir (.obj i 0) flags))
  | .rename old new =>                                                                               -- 260-269
    let (b, i) := addObj b (.rename old new)
    getSqe b (linked (prepRename (.obj i 0) (.obj i 1)))
  | .renameat od old nd new flags =>                                                                 -- 271-288
    let (b, i) := addObj b (.rename old new)
    getSqe b (linked (prepRenameat od (.obj i 0) nd (.obj i 1) flags))
  | .renameatNoreplace od old nd new =>                                                              -- 290-306
    let (b, i) := addObj b (.rename old new)
    getSqe b (linked (prepRenameat od (.obj i 0) nd (.obj i 1) RENAME_NOREPLACE))
  | .socket domain type protocol flags => getSqe b (linked (prepSocket domain type protocol flags))  -- 308-316
  | .syncFileRange fd len off flags => getSqe b (linked (prepSyncFileRange fd len off flags))        -- 318-328
  | .fsync fd => getSqe b (linked (prepFsync fd 0))                                                  -- 330-337
  | .fdatasync fd => getSqe b (linked (prepFsync fd IORING_FSYNC_DATASYNC))                          -- 339-346
  | .nop => getSqe b (linked prepNop)                                                                -- 348-355

/-- op_batch::timeout(time_point), iouring_op_batch.cc 357-388 -/
def timeoutAt (b : Batch) (tp : Int) : Option Batch :=
  if tp = tpMax then some b
  else if b.tmo then
    if b.sqes = [] then none
    else
      let (b', i) := addObj b (.ts tp)
      some { b' with sqes := b.sqes.dropLast ++ [prepLinkTimeout (.obj i 0) REALTIME_ABS], tmo := true }
  else
    let (b', i) := addObj b (.ts tp)
    (getSqe b' (prepLinkTimeout (.obj i 0) REALTIME_ABS)).map fun b'' => { b'' with tmo := true }

/-- a signed 64-bit value -/
def i64 (x : Int) : Option Int := if -(2 ^ 63) ≤ x ∧ x < 2 ^ 63 then some x else none

/-- `ms + system_clock::now()`: the common type of milliseconds and the clock's nanoseconds is nanoseconds, so the span is
multiplied by a million first; a signed overflow is undefined behaviour (`none`) -/
def plusNow (now ms : Int) : Option Int := do
  let ns ← i64 (ms * 1000000)
  i64 (now + ns)

/-- op_batch::timeout(duration), iouring_op_batch.h 313-318, for milliseconds -/
def timeoutAfter (b : Batch) (now ms : Int) : Option Batch :=
  if ms = msMax then some b else do timeoutAt b (← plusNow now ms)

def call (b : Batch) : Call → Option Batch
  | .prep op => prep b op
  | .timeout _ (.at tp) => timeoutAt b tp
  | .timeout now (.after ms) => timeoutAfter b now ms

/-- a sequence of calls on a fresh batch -/
def build (cs : List Call) : Option Batch := cs.foldlM call fresh

/-- execute() asserts a non-empty batch (iouring_op_batch.cc 14-20); await_suspend (iouring_op_batch_execute_aw.cc 14-27) -/
def submit (b : Batch) (ud : Nat) : Option (List Sqe) :=
  if b.sqes = [] then none
  else
    let s := b.sqes.map fun x => { x with ud := ud }
    some (s.dropLast ++ (s.drop (s.length - 1)).map fun x => { x with link := false })

/-! ### The single-operation functions, src/iouring_op_functions.cc -/

/-- The functions; `chars`: the overload for a span of `char` instead of `std::byte`. -/
inductive Api where
  | read (chars : Bool) (fd : W32) (buf : W64) (size : Nat) (off : W64) (t : Tm)
  | write (chars : Bool) (fd : W32) (buf : W64) (size : Nat) (off : W64) (t : Tm)
  | send (chars : Bool) (fd : W32) (buf : W64) (size : Nat) (flags : W32) (t : Tm)
  | recv (chars : Bool) (fd : W32) (buf : W64) (size : Nat) (flags : W32) (t : Tm)
  | sendmsg (fd : W32) (msg : W64) (flags : W32) (tp : Int)
  | recvmsg (fd : W32) (msg : W64) (flags : W32) (tp : Int)
  | accept (fd : W32) (t : Tm)
  | connect (fd : W32) (sock : Bytes) (len : W32) (t : Tm)
  | openat (dir : W32) (path : Bytes) (flags mode : W32)
  | unlink (path : Bytes) (flags : W32)
  | unlinkat (dir : W32) (path : Bytes) (flags : W32)
  | rename (old new : Bytes)
  | renameat (olddir : W32) (old : Bytes) (newdir : W32) (new : Bytes) (flags : W32)
  | renameatNoreplace (olddir : W32) (old : Bytes) (newdir : W32) (new : Bytes)
  | socket (domain type protocol flags : W32)
  | fsync (fd : W32)
  | fdatasync (fd : W32)
  | syncFileRange (fd : W32) (len : W32) (off : W64) (flags : W32)
  | nop
  deriving DecidableEq, Repr

/-- `result.batch().prep_…(…).timeout(tp)` -/
def opAt (op : Op) (tp : Int) : Option Batch := do timeoutAt (← prep fresh op) tp
/-- `result.batch().prep_…(…).timeout(ms)` -/
def opAfter (op : Op) (now ms : Int) : Option Batch := do timeoutAfter (← prep fresh op) now ms
/-- `return f(…, tmot + system_clock::now())` -/
def opPlusNow (op : Op) (now ms : Int) : Option Batch := do opAt op (← plusNow now ms)

/-- the batch a function returns, when the clock shows `now` -/
def Api.run (now : Int) : Api → Option Batch
  | .read _ fd buf size off (.at tp) => opAt (.read fd buf size off) tp                        -- 11-20, 33-40
  | .read false fd buf size off (.after ms) => opAfter (.read fd buf size off) now ms          -- 22-31
  | .read true fd buf size off (.after ms) => opPlusNow (.read fd buf size off) now ms         -- 42-49
  | .write _ fd buf size off (.at tp) => opAt (.write fd buf size off) tp                      -- 51-60, 73-80
  | .write false fd buf size off (.after ms) => opAfter (.write fd buf size off) now ms        -- 62-71
  | .write true fd buf size off (.after ms) => opPlusNow (.write fd buf size off) now ms       -- 82-89
  | .send _ fd buf size flags (.at tp) => opAt (.send fd buf size flags) tp                    -- 91-109
  | .send false fd buf size flags (.after ms) => opAfter (.send fd buf size flags) now ms      -- 111-120
  | .send true fd buf size flags (.after ms) => opPlusNow (.send fd buf size flags) now ms     -- 122-129
  | .recv _ fd buf size flags (.at tp) => opAt (.recv fd buf size flags) tp                    -- 131-149
  | .recv false fd buf size flags (.after ms) => opAfter (.recv fd buf size flags) now ms      -- 151-160
  | .recv true fd buf size flags (.after ms) => opPlusNow (.recv fd buf size flags) now ms     -- 162-169
  | .rename old new => prep fresh (.rename old new)                                            -- 171-178
  | .renameat od old nd new flags => prep fresh (.renameat od old nd new flags)                -- 180-188
  | .renameatNoreplace od old nd new => prep fresh (.renameatNoreplace od old nd new)          -- 190-199
  | .socket domain type protocol flags =>
    prep fresh (.socket domain (type ||| SOCK_NONBLOCK) protocol flags)                        -- 201-207
  | .openat dir path flags mode => prep fresh (.openat dir path flags mode)                    -- 209-217
  | .unlink path flags => prep fresh (.unlink path flags)                                      -- 219-225
  | .unlinkat dir path flags => prep fresh (.unlinkat dir path flags)                          -- 227-234
  | .fsync fd => prep fresh (.fsync fd)                                                        -- 236-241
  | .fdatasync fd => prep fresh (.fdatasync fd)                                                -- 243-248
  | .syncFileRange fd len off flags => prep fresh (.syncFileRange fd len off flags)            -- 250-257
  | .sendmsg fd msg flags tp => opAt (.sendmsg fd msg flags) tp                                -- 259-268
  | .recvmsg fd msg flags tp => opAt (.recvmsg fd msg flags) tp                                -- 270-279
  | .connect fd sock len (.at tp) => opAt (.connect fd sock len) tp                            -- 281-290
  | .connect fd sock len (.after ms) => opPlusNow (.connect fd sock len) now ms                -- iouring_op_functions.h 161-168
  | .accept fd (.at tp) => opAt (.accept fd) tp                                                -- 292-299
  | .accept fd (.after ms) => opPlusNow (.accept fd) now ms                                    -- iouring_op_functions.h 190-195
  | .nop => prep fresh .nop                                                                    -- 323-328

end Verif.Ops
