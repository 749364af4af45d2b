import Verif.Model.Format
/-
detail/xxhash.hpp, xxhasher.hpp, detail/endian.hpp: the default hash function, on a machine
with explicit byte order and addresses.
-/
namespace NuDB.XX

/-- The machine. `little`: the byte order (`is_little_endian`, endian.hpp 38-41).
`strict`: dereferencing a pointer that is not suitably aligned for its type is undefined, as
the C++ standard says; otherwise such an access works like an aligned one. -/
structure Machine where
  little : Bool
  strict : Bool

/-- The number with these bytes, the most significant one first. -/
def bigVal : Bytes → Nat
  | [] => 0
  | b :: bs => b.toNat * 256 ^ bs.length + bigVal bs

/-- The integer a machine loads from these bytes. -/
def Machine.load (m : Machine) (bs : Bytes) : Nat :=
  if m.little then bigVal bs.reverse else bigVal bs

/-- A buffer in memory: its address and its bytes. Accesses outside are undefined. -/
structure Buf where
  addr : Nat
  bytes : Bytes

/-- `XXH_read32`, `XXH_read64` (xxhash.hpp 112-128): `memcpy` of `n` bytes at position `p`
of the buffer into an integer. -/
def copy (m : Machine) (b : Buf) (n p : Nat) : Res UInt64 := do
  let bs ← peek b.bytes p n
  .ok (UInt64.ofNat (m.load bs))

/-- `*reinterpret_cast<std::uint32_t const*>(p)` and the same for 64 bits
(xxhash.hpp 135, 152, 168, 185). -/
def deref (m : Machine) (b : Buf) (n p : Nat) : Res UInt64 :=
  if m.strict && (b.addr + p) % n != 0 then .error .ub else copy m b n p

/-- `NUDB_XXH_swap32` (xxhash.hpp 75-85). The builtin functions used by some compilers are
assumed to be the same. 32 bit integers are kept in 64 bits here, so the result of the first
shift is cut off by the mask. -/
def swap32 (x : UInt64) : UInt64 :=
  ((x <<< 24) &&& (0xff000000 : UInt64)) ||| ((x <<< 8) &&& (0x00ff0000 : UInt64)) ||| ((x >>> 8) &&& (0x0000ff00 : UInt64)) |||
  ((x >>> 24) &&& (0x000000ff : UInt64))

/-- `NUDB_XXH_swap64` (xxhash.hpp 87-101). -/
def swap64 (x : UInt64) : UInt64 :=
  ((x <<< 56) &&& (0xff00000000000000 : UInt64)) ||| ((x <<< 40) &&& (0x00ff000000000000 : UInt64)) |||
  ((x <<< 24) &&& (0x0000ff0000000000 : UInt64)) ||| ((x <<< 8) &&& (0x000000ff00000000 : UInt64)) |||
  ((x >>> 8) &&& (0x00000000ff000000 : UInt64)) ||| ((x >>> 24) &&& (0x0000000000ff0000 : UInt64)) |||
  ((x >>> 40) &&& (0x000000000000ff00 : UInt64)) ||| ((x >>> 56) &&& (0x00000000000000ff : UInt64))

/-- `XXH_readLE32_align` (xxhash.hpp 130-161). -/
def readLE32 (m : Machine) (aligned : Bool) (b : Buf) (p : Nat) : Res UInt64 :=
  match m.little, aligned with
  | true, true => deref m b 4 p
  | true, false => copy m b 4 p
  | false, true => (deref m b 4 p).map swap32
  | false, false => (copy m b 4 p).map swap32

/-- `XXH_readLE64_align` (xxhash.hpp 163-194). -/
def readLE64 (m : Machine) (aligned : Bool) (b : Buf) (p : Nat) : Res UInt64 :=
  match m.little, aligned with
  | true, true => deref m b 8 p
  | true, false => copy m b 8 p
  | false, true => (deref m b 8 p).map swap64
  | false, false => (copy m b 8 p).map swap64

def prime64_1 : UInt64 := 11400714785074694791 -- xxhash.hpp 103
def prime64_2 : UInt64 := 14029467366897019727 -- xxhash.hpp 104
def prime64_3 : UInt64 := 1609587929392839161 -- xxhash.hpp 105
def prime64_4 : UInt64 := 9650029242287828579 -- xxhash.hpp 106
def prime64_5 : UInt64 := 2870177450012600261 -- xxhash.hpp 107

/-- `NUDB_XXH_rotl64` (xxhash.hpp 56-61). -/
def rotl64 (x r : UInt64) : UInt64 := (x <<< r) ||| (x >>> (64 - r))

/-- `XXH64_round` (xxhash.hpp 196-204). -/
def round (acc input : UInt64) : UInt64 :=
  let acc := acc + input * prime64_2
  let acc := rotl64 acc 31
  acc * prime64_1

/-- `XXH64_mergeRound` (xxhash.hpp 206-214). -/
def mergeRound (acc val : UInt64) : UInt64 :=
  let val := round 0 val
  let acc := acc ^^^ val
  acc * prime64_1 + prime64_4

/-- The loop over 32 bytes (xxhash.hpp 246-253): the accumulators and the position. `fuel`
bounds the iterations; the length of the buffer suffices. -/
def loop32 (m : Machine) (al : Bool) (b : Buf) (limit : Nat) :
    Nat → UInt64 → UInt64 → UInt64 → UInt64 → Nat → Res ((UInt64 × UInt64 × UInt64 × UInt64) × Nat)
  | 0, _, _, _, _, _ => .error .hang
  | fuel + 1, v1, v2, v3, v4, p => do
    let v1 := round v1 (← readLE64 m al b p)
    let p := p + 8
    let v2 := round v2 (← readLE64 m al b p)
    let p := p + 8
    let v3 := round v3 (← readLE64 m al b p)
    let p := p + 8
    let v4 := round v4 (← readLE64 m al b p)
    let p := p + 8
    if p ≤ limit then loop32 m al b limit fuel v1 v2 v3 v4 p else .ok ((v1, v2, v3, v4), p)

/-- xxhash.hpp 269-275 -/
def loop8 (m : Machine) (al : Bool) (b : Buf) : Nat → UInt64 → Nat → Res (UInt64 × Nat)
  | 0, _, _ => .error .hang
  | fuel + 1, h, p =>
    if p + 8 ≤ b.bytes.length then do
      let k1 := round 0 (← readLE64 m al b p)
      let h := h ^^^ k1
      loop8 m al b fuel (rotl64 h 27 * prime64_1 + prime64_4) (p + 8)
    else .ok (h, p)

/-- xxhash.hpp 276-281 -/
def step4 (m : Machine) (al : Bool) (b : Buf) (h : UInt64) (p : Nat) : Res (UInt64 × Nat) :=
  if p + 4 ≤ b.bytes.length then do
    let h := h ^^^ ((← readLE32 m al b p) * prime64_1)
    .ok (rotl64 h 23 * prime64_2 + prime64_3, p + 4)
  else .ok (h, p)

/-- xxhash.hpp 282-287 -/
def loop1 (b : Buf) : Nat → UInt64 → Nat → Res UInt64
  | 0, _, _ => .error .hang
  | fuel + 1, h, p =>
    if p < b.bytes.length then do
      let x ← peek b.bytes p 1
      let h := h ^^^ ((x.headD 0).toUInt64 * prime64_5)
      loop1 b fuel (rotl64 h 11 * prime64_1) (p + 1)
    else .ok h

/-- The beginning of `XXH64_endian_align` (xxhash.hpp 238-267). -/
def first (m : Machine) (al : Bool) (b : Buf) (seed : UInt64) : Res (UInt64 × Nat) :=
  let len := b.bytes.length
  if 32 ≤ len then do
    let ((v1, v2, v3, v4), p) ← loop32 m al b (len - 32) len
      (seed + prime64_1 + prime64_2) (seed + prime64_2) (seed + 0) (seed - prime64_1) 0
    let h := rotl64 v1 1 + rotl64 v2 7 + rotl64 v3 12 + rotl64 v4 18
    let h := mergeRound h v1
    let h := mergeRound h v2
    let h := mergeRound h v3
    let h := mergeRound h v4
    .ok (h, p)
  else .ok (seed + prime64_5, 0)

/-- `XXH64_endian_align` (xxhash.hpp 216-294). -/
def endianAlign (m : Machine) (al : Bool) (b : Buf) (seed : UInt64) : Res UInt64 := do
  let len := b.bytes.length
  let (h, p) ← first m al b seed
  let h := h + UInt64.ofNat len
  let (h, p) ← loop8 m al b (len + 1) h p
  let (h, p) ← step4 m al b h p
  let h ← loop1 b (len + 1) h p
  let h := h ^^^ (h >>> 33)
  let h := h * prime64_2
  let h := h ^^^ (h >>> 29)
  let h := h * prime64_3
  let h := h ^^^ (h >>> 32)
  .ok h

/-- `XXH64` (xxhash.hpp 312-323) and `xxhasher::operator()` (xxhasher.hpp 36-40). The
variant for aligned access is chosen if the buffer is *not* aligned. -/
def XXH64 (m : Machine) (b : Buf) (seed : UInt64) : Res UInt64 :=
  if b.addr % 8 = 0 then endianAlign m false b seed else endianAlign m true b seed

/-- The bytes of a 64-bit variable in memory. -/
def Machine.store (m : Machine) (v : Nat) : Bytes := if m.little then (putU64 v).reverse else putU64 v

/-- `to_little_endian` (endian.hpp 55-85). -/
def toLittleEndian (m : Machine) (v : Nat) : Nat :=
  if m.little then v
  else m.load [octet v 0, octet v 8, octet v 16, octet v 24, octet v 32, octet v 40, octet v 48, octet v 56]

/-- `pepper<xxhasher>` (format.hpp 171-178): the hash of a variable at an aligned address
`addr`. -/
def pepper (m : Machine) (addr salt : Nat) : Res UInt64 :=
  XXH64 m ⟨addr, m.store (toLittleEndian m salt)⟩ (UInt64.ofNat salt)

end NuDB.XX
