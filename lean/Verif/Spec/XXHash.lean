/-
XXH64 as a function of a seed and a byte string, following the description of the algorithm
by its author (xxHash fast digest algorithm, XXH64): words are little-endian.
-/
namespace NuDB.Spec

def prime1 : UInt64 := 0x9E3779B185EBCA87
def prime2 : UInt64 := 0xC2B2AE3D27D4EB4F
def prime3 : UInt64 := 0x165667B19E3779F9
def prime4 : UInt64 := 0x85EBCA77C2B2AE63
def prime5 : UInt64 := 0x27D4EB2F165667C5

/-- The number with these bytes, the least significant one first. -/
def leVal : List UInt8 → Nat
  | [] => 0
  | b :: bs => b.toNat + 256 * leVal bs

/-- The first `n` bytes as a little-endian number. -/
def word (n : Nat) (bs : List UInt8) : UInt64 := UInt64.ofNat (leVal (bs.take n))

/-- Rotation to the left, `0 < r < 64`. -/
def rotl (x : UInt64) (r : UInt64) : UInt64 := (x <<< r) ||| (x >>> (64 - r))

def round (acc lane : UInt64) : UInt64 := rotl (acc + lane * prime2) 31 * prime1

def merge (acc v : UInt64) : UInt64 := (acc ^^^ round 0 v) * prime1 + prime4

/-- Steps 2 and 3: the accumulators after all stripes of 32 bytes, and the remaining bytes. -/
def stripes (v1 v2 v3 v4 : UInt64) (bs : List UInt8) : UInt64 × List UInt8 :=
  if 32 ≤ bs.length then
    stripes (round v1 (word 8 bs)) (round v2 (word 8 (bs.drop 8))) (round v3 (word 8 (bs.drop 16)))
      (round v4 (word 8 (bs.drop 24))) (bs.drop 32)
  else
    (merge (merge (merge (merge (rotl v1 1 + rotl v2 7 + rotl v3 12 + rotl v4 18) v1) v2) v3) v4, bs)
termination_by bs.length

/-- Step 5: the remaining words of 8 bytes. -/
def lanes (acc : UInt64) (bs : List UInt8) : UInt64 × List UInt8 :=
  if 8 ≤ bs.length then lanes (rotl (acc ^^^ round 0 (word 8 bs)) 27 * prime1 + prime4) (bs.drop 8)
  else (acc, bs)
termination_by bs.length

/-- Step 5: a word of 4 bytes. -/
def half (acc : UInt64) (bs : List UInt8) : UInt64 × List UInt8 :=
  if 4 ≤ bs.length then (rotl (acc ^^^ (word 4 bs * prime1)) 23 * prime2 + prime3, bs.drop 4)
  else (acc, bs)

/-- Step 5: single bytes. -/
def single (acc : UInt64) : List UInt8 → UInt64
  | [] => acc
  | b :: bs => single (rotl (acc ^^^ (b.toUInt64 * prime5)) 11 * prime1) bs

/-- Step 6. -/
def avalanche (h : UInt64) : UInt64 :=
  let h := h ^^^ (h >>> 33)
  let h := h * prime2
  let h := h ^^^ (h >>> 29)
  let h := h * prime3
  h ^^^ (h >>> 32)

/-- XXH64. -/
def xxh64 (seed : UInt64) (bs : List UInt8) : UInt64 :=
  let (acc, rest) :=
    if 32 ≤ bs.length then stripes (seed + prime1 + prime2) (seed + prime2) seed (seed - prime1) bs
    else (seed + prime5, bs)
  let (acc, rest) := lanes (acc + UInt64.ofNat bs.length) rest
  let (acc, rest) := half acc rest
  avalanche (single acc rest)

end NuDB.Spec
