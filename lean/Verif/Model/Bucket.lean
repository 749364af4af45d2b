import Verif.Model.Format
/-
detail/bucket.hpp: bucket addressing and manipulation of bucket blobs in memory.
-/
namespace NuDB

/-- `bucket_index` (bucket.hpp 25-35); the assertion on the modulus is left to callers. -/
def bucketIndex (h buckets modulus : Nat) : Nat :=
  let n := h % modulus
  if n ≥ buckets then n - modulus / 2 else n

/-- `bucket_t::value_type` (bucket.hpp 58-63). -/
structure Entry where
  offset : Nat
  size : Nat
  hash : Nat
deriving DecidableEq, Repr

/-- `bucket_t` (bucket.hpp 48-56): cached count and overflow offset plus the blob.
`p` is the memory `p_` points to; it has `bs` bytes. -/
structure Bkt where
  bs : Nat
  size : Nat
  spill : Nat
  p : Bytes
deriving DecidableEq, Repr

namespace Bkt

/-- Constructor from memory (bucket.hpp 181-192). -/
def ofMem (bs : Nat) (p : Bytes) : Res Bkt := do
  let size ← peek p 0 2
  let spill ← peek p 2 6
  return { bs := bs, size := getU16 size, spill := getU48 spill, p := p }

/-- `clear` (bucket.hpp 215-222). -/
def clear (b : Bkt) : Res Bkt := do
  let p ← poke b.p 0 (zeros b.bs)
  return { b with size := 0, spill := 0, p := p }

/-- Constructor of an empty bucket (bucket.hpp 194-204). -/
def ofEmpty (bs : Nat) (p : Bytes) : Res Bkt :=
  clear { bs := bs, size := 0, spill := 0, p := p }

/-- `actual_size` (bucket.hpp 82-86). -/
def actualSize (b : Bkt) : Nat := bucketSize b.size

/-- `full` (bucket.hpp 94-99). -/
def full (b : Bkt) : Bool := b.size ≥ bucketCapacity b.bs

/-- `update` (bucket.hpp 425-434): count and overflow offset go back to the blob. -/
def update (b : Bkt) : Res Bkt := do
  assert (b.size ≤ 0xffff)
  assert (b.spill ≤ 0xffffffffffff)
  let p ← poke b.p 0 (putU16 b.size ++ putU48 b.spill)
  return { b with p := p }

/-- `spill(noff_t)` (bucket.hpp 206-213). -/
def setSpill (b : Bkt) (offset : Nat) : Res Bkt := update { b with spill := offset }

/-- `at` (bucket.hpp 224-249). -/
def get (b : Bkt) (i : Nat) : Res Entry := do
  let e ← peek b.p (2 + 6 + i * 18) 18
  let size ← getSize48 (slice e 6 6)
  return { offset := getU48 (slice e 0 6), size := size, hash := getU48 (slice e 12 6) }

/-- The loop of `lower_bound` (bucket.hpp 269-287). `fuel` bounds the number of
iterations; `lowerBound` passes enough for any input. -/
def lbLoop (p : Bytes) (h : Nat) : Nat → Nat → Nat → Res Nat
  | 0, _, _ => .error .hang
  | fuel + 1, first, count =>
    if count > 0 then do
      let step := count / 2
      let i := first + step
      let f ← peek p (2 + 6 + 6 + 6 + i * 18) 6
      let h1 := getU48 f
      if h1 < h then lbLoop p h fuel (i + 1) (count - (step + 1))
      else lbLoop p h fuel first step
    else .ok first

/-- `lower_bound` (bucket.hpp 251-288). -/
def lowerBound (b : Bkt) (h : Nat) : Res Nat := lbLoop b.p h (b.size + 1) 0 b.size

/-- The 18 bytes of a bucket entry as written by `insert` (bucket.hpp 313-320). -/
def putEntry (e : Entry) : Bytes := putU48 e.offset ++ putU48 e.size ++ putU48 e.hash

/-- `insert` (bucket.hpp 290-321). -/
def insert (b : Bkt) (offset size h : Nat) : Res Bkt := do
  let i ← lowerBound b h
  let tail ← peek b.p (8 + i * 18) ((b.size - i) * 18)
  let p ← poke b.p (8 + (i + 1) * 18) tail
  let b ← update { b with size := b.size + 1, p := p }
  assert (offset ≤ 0xffffffffffff)
  assert (size ≤ 0xffffffffffff)
  assert (h ≤ 0xffffffffffff)
  let p ← poke b.p (8 + i * 18) (putEntry ⟨offset, size, h⟩)
  return { b with p := p }

/-- The `memmove` of `erase` (bucket.hpp 337-341). -/
def eraseMove (p : Bytes) (i size : Nat) : Res Bytes :=
  if i < size then do
    let tail ← peek p (8 + (i + 1) * 18) ((size - i) * 18)
    poke p (8 + i * 18) tail
  else .ok p

/-- `erase` (bucket.hpp 323-344). Erasing from an empty bucket would wrap the count;
it is classified as undefined behaviour. -/
def erase (b : Bkt) (i : Nat) : Res Bkt := do
  if b.size = 0 then .error .ub
  else
    let size := b.size - 1
    let p ← eraseMove b.p i size
    let p ← poke p (8 + size * 18) (zeros 18)
    update { b with size := size, p := p }

/-- The bytes copied by `write(ostream&)` (bucket.hpp 396-406). -/
def compact (b : Bkt) : Res Bytes := peek b.p 0 b.actualSize

/-- The block written by `write(File&)` (bucket.hpp 408-423): the blob padded with
zeros; a blob longer than the block would make the `memset` length wrap. -/
def padded (b : Bkt) : Res Bytes :=
  if b.actualSize ≤ b.bs then poke b.p b.actualSize (zeros (b.bs - b.actualSize))
  else .error .ub

end Bkt

end NuDB
