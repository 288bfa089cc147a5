/-!
# What a user of the byte-stream functions relies on (C43, C44, C45, C46)
-/

namespace Verif.Stream

abbrev Bytes := List UInt8

/-- A message format: how messages become bytes and back.  Protobuf is used through these functions only. -/
structure Format where
  Msg : Type
  initialized : Msg → Bool
  ser : Msg → Bytes
  parse : Bytes → Option Msg

/-- The assumption about protobuf: an initialized message is recovered from its bytes. -/
def Format.Lossless (F : Format) : Prop := ∀ m, F.initialized m = true → F.parse (F.ser m) = some m

/-- The number `n` as four bytes, most significant first. -/
def bigEndian (n : Nat) : Bytes := [n / 2 ^ 24, n / 2 ^ 16, n / 2 ^ 8, n].map UInt8.ofNat

/-- A message on the wire: its length in four bytes, then its bytes. -/
def frame (F : Format) (m : F.Msg) : Bytes := bigEndian (F.ser m).length ++ F.ser m

end Verif.Stream
