import Verif.Model.Bytes
/-
detail/field.hpp: fixed-width big-endian integers; detail/stream.hpp.
Integers are natural numbers; the C++ types `size_t`/`uint64_t` are large enough for
every intermediate result here because the shifted bytes never exceed 64 bits.
-/
namespace NuDB

/-- `(t >> s) & 0xff` stored to a byte (field.hpp 187-253). -/
def octet (t s : Nat) : UInt8 := UInt8.ofNat ((t >>> s) &&& 0xff)

/-- `write<uint16_t>` (field.hpp 182-191), without the assertion `u <= 0xffff`:
the value is truncated to 16 bits. -/
def putU16 (u : Nat) : Bytes := [octet u 8, octet u 0]
/-- `write<uint24_t>` (field.hpp 193-204). -/
def putU24 (u : Nat) : Bytes := [octet u 16, octet u 8, octet u 0]
/-- `write<uint32_t>` (field.hpp 206-218). -/
def putU32 (u : Nat) : Bytes := [octet u 24, octet u 16, octet u 8, octet u 0]
/-- `write<uint48_t>` (field.hpp 220-234). -/
def putU48 (u : Nat) : Bytes :=
  [octet u 40, octet u 32, octet u 24, octet u 16, octet u 8, octet u 0]
/-- `write<uint64_t>` (field.hpp 236-252). -/
def putU64 (u : Nat) : Bytes :=
  [octet u 56, octet u 48, octet u 40, octet u 32, octet u 24, octet u 16, octet u 8,
   octet u 0]
/-- `write<uint8_t>` (field.hpp 173-180). -/
def putU8 (u : Nat) : Bytes := [octet u 0]

/-- Byte `i` of a field, as the `*p++` of `readp`. All callers pass a pointer to at
least as many bytes as the field has (they take a slice of exactly that size). -/
def byteAt (p : Bytes) (i : Nat) : Nat := (p.getD i 0).toNat

/-- `readp<uint8_t>` (field.hpp 77-84). -/
def getU8 (p : Bytes) : Nat := byteAt p 0
/-- `readp<uint16_t>` (field.hpp 86-96). -/
def getU16 (p : Bytes) : Nat :=
  let t := byteAt p 0 <<< 8
  byteAt p 1 ||| t
/-- `readp<uint24_t>` (field.hpp 98-109). -/
def getU24 (p : Bytes) : Nat :=
  let t := byteAt p 0 <<< 16
  let t := (byteAt p 1 <<< 8) ||| t
  byteAt p 2 ||| t
/-- `readp<uint32_t>` (field.hpp 111-123). -/
def getU32 (p : Bytes) : Nat :=
  let t := byteAt p 0 <<< 24
  let t := (byteAt p 1 <<< 16) ||| t
  let t := (byteAt p 2 <<< 8) ||| t
  byteAt p 3 ||| t
/-- `readp<uint48_t>` (field.hpp 125-139). -/
def getU48 (p : Bytes) : Nat :=
  let t := byteAt p 0 <<< 40
  let t := (byteAt p 1 <<< 32) ||| t
  let t := (byteAt p 2 <<< 24) ||| t
  let t := (byteAt p 3 <<< 16) ||| t
  let t := (byteAt p 4 <<< 8) ||| t
  byteAt p 5 ||| t
/-- `readp<uint64_t>` (field.hpp 141-157). -/
def getU64 (p : Bytes) : Nat :=
  let t := byteAt p 0 <<< 56
  let t := (byteAt p 1 <<< 48) ||| t
  let t := (byteAt p 2 <<< 40) ||| t
  let t := (byteAt p 3 <<< 32) ||| t
  let t := (byteAt p 4 <<< 24) ||| t
  let t := (byteAt p 5 <<< 16) ||| t
  let t := (byteAt p 6 <<< 8) ||| t
  byteAt p 7 ||| t

/-- `istream_t::data` (stream.hpp 54-69): take `n` bytes off the front, or fail.
The assertion and the exception on a short stream are modelled as the exception. -/
def isData (is : Bytes) (n : Nat) : Res (Bytes × Bytes) :=
  if n ≤ is.length then .ok (is.take n, is.drop n) else .error .throw

/-- `read_size48` (field.hpp 161-169): asserts that the value fits 32 bits. -/
def getSize48 (p : Bytes) : Res Nat := do
  let v := getU48 p
  assert (v ≤ 0xffffffff)
  return v

end NuDB
