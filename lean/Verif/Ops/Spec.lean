import Verif.Common.Trace
/-!
# What a user of the single-operation functions and of `op_batch::prep_*` relies on (C77, C78)

The user names an operation (`Op`); the kernel is asked for a system call (`Req`).  `Op.want` says which one: the system call of the
same name with the arguments the user wrote.  Numbers are the machine words of the C interface: `int`, `unsigned` and `mode_t` are
32 bits, `uint64_t` and addresses 64 bits; the size of a buffer is a natural number.  Time points are nanoseconds since the epoch,
time spans are milliseconds.
-/

namespace Verif.Ops

abbrev W32 := BitVec 32
abbrev W64 := BitVec 64
abbrev Bytes := List (BitVec 8)

/-- AT_FDCWD = -100: a relative path starts at the working directory -/
def AT_FDCWD : W32 := BitVec.ofInt 32 (-100)
def RENAME_NOREPLACE : W32 := 1#32
def SOCK_NONBLOCK : W32 := 0x800#32

/-- A system call the kernel may be asked to make. -/
inductive Req where
  | read (fd : W32) (buf : W64) (len : Nat) (off : W64)
  | write (fd : W32) (buf : W64) (len : Nat) (off : W64)
  | send (fd : W32) (buf : W64) (len : Nat) (flags : W32)
  | recv (fd : W32) (buf : W64) (len : Nat) (flags : W32)
  | sendmsg (fd : W32) (msg : W64) (flags : W32)
  | recvmsg (fd : W32) (msg : W64) (flags : W32)
  | accept (fd : W32) (flags : W32)                       -- without storing the peer's address
  | connect (fd : W32) (addr : Bytes)
  | openat (dir : W32) (path : Bytes) (flags mode : W32)
  | unlinkat (dir : W32) (path : Bytes) (flags : W32)
  | renameat (olddir : W32) (old : Bytes) (newdir : W32) (new : Bytes) (flags : W32)
  | socket (domain type protocol : W32)
  | fsync (fd : W32) (dataOnly : Bool)
  | syncFileRange (fd : W32) (len : W32) (off : W64) (flags : W32)
  | nop
  | deadline (t : Int)                                    -- give up the preceding request at this wall-clock time
  | invalid                                               -- the kernel refuses the entry
  deriving DecidableEq, Repr

/-- An operation as the user names it (the prep_* functions of `op_batch`).  `connect` gets the socket address the user's IP
address and port stand for (`addr->to_sockaddr(port)`): the bytes of a sockaddr_storage, and how many of them count. -/
inductive Op where
  | read (fd : W32) (buf : W64) (size : Nat) (off : W64)
  | write (fd : W32) (buf : W64) (size : Nat) (off : W64)
  | send (fd : W32) (buf : W64) (size : Nat) (flags : W32)
  | recv (fd : W32) (buf : W64) (size : Nat) (flags : W32)
  | sendmsg (fd : W32) (msg : W64) (flags : W32)
  | recvmsg (fd : W32) (msg : W64) (flags : W32)
  | accept (fd : W32)
  | connect (fd : W32) (sock : Bytes) (len : W32)
  | openat (dir : W32) (path : Bytes) (flags mode : W32)
  | unlink (path : Bytes) (flags : W32)
  | unlinkat (dir : W32) (path : Bytes) (flags : W32)
  | rename (old new : Bytes)
  | renameat (olddir : W32) (old : Bytes) (newdir : W32) (new : Bytes) (flags : W32)
  | renameatNoreplace (olddir : W32) (old : Bytes) (newdir : W32) (new : Bytes)
  | socket (domain type protocol flags : W32)
  | fsync (fd : W32)
  | fdatasync (fd : W32)
  | syncFileRange (fd : W32) (len : W32) (off : W64) (flags : W32)
  | nop
  deriving DecidableEq, Repr

/-- The system call an operation stands for. -/
def Op.want : Op → Req
  | .read fd buf size off => .read fd buf size off
  | .write fd buf size off => .write fd buf size off
  | .send fd buf size flags => .send fd buf size flags
  | .recv fd buf size flags => .recv fd buf size flags
  | .sendmsg fd msg flags => .sendmsg fd msg flags
  | .recvmsg fd msg flags => .recvmsg fd msg flags
  | .accept fd => .accept fd 0
  | .connect fd sock len => .connect fd (sock.take len.toNat)
  | .openat dir path flags mode => .openat dir path flags mode
  | .unlink path flags => .unlinkat AT_FDCWD path flags
  | .unlinkat dir path flags => .unlinkat dir path flags
  | .rename old new => .renameat AT_FDCWD old AT_FDCWD new 0
  | .renameat od old nd new flags => .renameat od old nd new flags
  | .renameatNoreplace od old nd new => .renameat od old nd new RENAME_NOREPLACE
  | .socket domain type protocol _ => .socket domain type protocol
  | .fsync fd => .fsync fd false
  | .fdatasync fd => .fsync fd true
  | .syncFileRange fd len off flags => .syncFileRange fd len off flags
  | .nop => .nop

/-- a path the kernel can be given: no byte is 0 -/
def NoNul (p : Bytes) : Prop := ∀ b ∈ p, b ≠ 0

/-- The operations the interface can express: buffers below 4 GiB, paths without zero bytes, no flags for `socket`. -/
def Op.Fits : Op → Prop
  | .read _ _ size _ => size < 2 ^ 32
  | .write _ _ size _ => size < 2 ^ 32
  | .send _ _ size _ => size < 2 ^ 32
  | .recv _ _ size _ => size < 2 ^ 32
  | .openat _ path _ _ => NoNul path
  | .unlink path _ => NoNul path
  | .unlinkat _ path _ => NoNul path
  | .rename old new => NoNul old ∧ NoNul new
  | .renameat _ old _ new _ => NoNul old ∧ NoNul new
  | .renameatNoreplace _ old _ new => NoNul old ∧ NoNul new
  | .socket _ _ _ flags => flags = 0
  | _ => True

/-- the largest time point, which means "no time-out"; the largest time span, which means the same -/
def tpMax : Int := 2 ^ 63 - 1
def msMax : Int := 2 ^ 63 - 1

/-- What the user gives as time-out: a wall-clock time, or a time span in milliseconds. -/
inductive Tm where
  | at (tp : Int)
  | after (ms : Int)
  deriving DecidableEq, Repr

/-- The wall-clock time at which the operation has to be given up, if any. -/
def Tm.deadline (now : Int) : Tm → Option Int
  | .at tp => if tp = tpMax then none else some tp
  | .after ms => if ms = msMax then none else some (now + ms * 1000000)

/-- The time-out is a value the clock can represent. -/
def Tm.Fits (now : Int) : Tm → Prop
  | .at _ => True
  | .after ms => ms = msMax ∨ (-(2 ^ 63) ≤ ms * 1000000 ∧ ms * 1000000 < 2 ^ 63 ∧
      -(2 ^ 63) ≤ now + ms * 1000000 ∧ now + ms * 1000000 < tpMax)

/-- A call on a batch under construction, made when the clock shows `now`. -/
inductive Call where
  | prep (op : Op)
  | timeout (now : Int) (t : Tm)
  deriving DecidableEq, Repr

def Call.Fits : Call → Prop
  | .prep op => op.Fits
  | .timeout now t => t.Fits now

/-- The user's operations in the order in which they were queued. -/
def opsOf (cs : List Call) : List Op := cs.filterMap fun | .prep o => some o | _ => none

/-- The time-out that counts: the last one that was set. -/
def deadlineOf (cs : List Call) : Option Int :=
  (cs.filterMap fun | .timeout now t => t.deadline now | _ => none).getLast?

/-- What the kernel has to be asked for. -/
def wanted (cs : List Call) : List Req :=
  (opsOf cs).map Op.want ++ (deadlineOf cs).toList.map .deadline

end Verif.Ops
