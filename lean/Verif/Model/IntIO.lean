import Verif.Model.Prelude

/-!
# Integers in binary streams (include/kigumi/io.h)

Bytes are numbers below 256.  An input stream is the rest of its characters with the bits `eofbit` and `failbit` (`badbit` is not set by streams in memory).
An output stream is the list of bytes written.
-/
namespace Kigumi.IO
open Kigumi Outcome

abbrev Byte := Fin 256

/-- An input stream. -/
structure In where
  rest : List Byte
  eof : Bool
  fail : Bool
  deriving DecidableEq, Repr

namespace In
/-- `good()` -/
def good (s : In) : Bool := !s.eof && !s.fail

/-- `in.read(p, n)` where the `n` bytes at `p` are `old`: the stream and the bytes at `p` afterwards.  A stream that is not good gets `failbit`; the end of the characters sets
`eofbit` and `failbit`, and the bytes that were there are stored. -/
def read (s : In) (old : List Byte) : In × List Byte :=
  if s.good then
    let got := s.rest.take old.length
    (⟨s.rest.drop old.length, decide (got.length < old.length), decide (got.length < old.length)⟩, got ++ old.drop got.length)
  else ({ s with fail := true }, old)
end In

/-- An integer type: signed or not, and its size in bytes (two's complement, C++20). -/
structure IntTy where
  signed : Bool
  bytes : Nat
  deriving DecidableEq, Repr

namespace IntTy
def bits (t : IntTy) : Nat := 8 * t.bytes
/-- The smallest value. -/
def min (t : IntTy) : Int := if t.signed then -(2 ^ (t.bits - 1) : Nat) else 0
/-- One more than the largest value. -/
def sup (t : IntTy) : Int := if t.signed then (2 ^ (t.bits - 1) : Nat) else (2 ^ t.bits : Nat)
/-- The number that is represented modulo `2 ^ bits`. -/
def wrap (t : IntTy) (v : Int) : Int :=
  let u := v % (2 ^ t.bits : Nat)
  if t.signed && decide ((2 ^ (t.bits - 1) : Nat) ≤ u) then u - (2 ^ t.bits : Nat) else u

def uint8 : IntTy := ⟨false, 1⟩
def int32 : IntTy := ⟨true, 4⟩
def size : IntTy := ⟨false, 8⟩
end IntTy

/-- `checked_cast<To>` (io.h:13-20): `std::in_range` compares the mathematical values, `static_cast` converts modulo `2 ^ bits`. -/
def checkedCast (to : IntTy) (v : Int) : Outcome Int :=
  if !(decide (to.min ≤ v) && decide (v < to.sup)) then exn "checked_cast failed" else ok (to.wrap v)

/-- The bytes of a number, least significant first. -/
def leBytes : Nat → Nat → List Byte
  | 0, _ => []
  | n + 1, v => ⟨v % 256, Nat.mod_lt _ (by decide)⟩ :: leBytes n (v / 256)

/-- The number with these bytes, least significant first. -/
def leVal : List Byte → Nat
  | [] => 0
  | b :: bs => b.val + 256 * leVal bs

/-- Byte order of the host. -/
inductive Host where
  | little
  | big
  deriving DecidableEq, Repr

/-- An object of an integer type in memory. -/
def store (h : Host) (t : IntTy) (v : Int) : List Byte :=
  let le := leBytes t.bytes (v % (2 ^ t.bits : Nat)).toNat
  match h with
  | .little => le
  | .big => le.reverse

/-- The value of an object in memory. -/
def load (h : Host) (t : IntTy) (m : List Byte) : Int :=
  t.wrap (leVal (match h with
    | .little => m
    | .big => m.reverse))

/-- `native_to_little_inplace`, `little_to_native_inplace`: on memory. -/
def swapLittle (h : Host) (m : List Byte) : List Byte :=
  match h with
  | .little => m
  | .big => m.reverse

/-- `Write<T>` for an integer type (io.h:22-31): the bytes written. -/
def writeInt (h : Host) (t : IntTy) (v : Int) : List Byte := swapLittle h (store h t v)

/-- `Read<T>` for an integer type (io.h:33-41): the new stream and the value; `old` is the value before.  If the read fails midway, the first bytes are overwritten. -/
def readInt (h : Host) (t : IntTy) (old : Int) (s : In) : In × Int :=
  let (s, m) := s.read (store h t old)
  (s, load h t (swapLittle h m))

/-- `kigumi_write<U>` (io.h:43-51) of a value of type `T`. -/
def kigumiWrite (h : Host) (u t : IntTy) (v : Int) : Outcome (List Byte) :=
  if u = t then ok (writeInt h t v)
  else (checkedCast u v).bind fun x => ok (writeInt h u x)

/-- `kigumi_read<U>` (io.h:53-63) to a variable of type `T` with value `old`. -/
def kigumiRead (h : Host) (u t : IntTy) (old : Int) (s : In) : Outcome (In × Int) :=
  if u = t then ok (readInt h t old s)
  else
    let (s, x) := readInt h u 0 s
    (checkedCast t x).bind fun y => ok (s, y)

end Kigumi.IO
