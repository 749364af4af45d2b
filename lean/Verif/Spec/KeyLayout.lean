import Verif.Spec.Layout
import Verif.Model.Bucket
/-
The layout of a key file, as documented, and how the items of its buckets relate to the
records of the data file. `Entry` is used only as the triple of offset, size and hash.
-/
namespace NuDB.Spec

/-- The smallest power of two that is not below `n`. -/
def IsCeilPow2 (n m : Nat) : Prop := (∃ k, m = 2 ^ k) ∧ n ≤ m ∧ ∀ k, n ≤ 2 ^ k → m ≤ 2 ^ k

/-- The bucket in which an item belongs when there are `n` buckets: the hash modulo the next
power of two, less half of that if there is no such bucket. -/
def Addressed (h n i : Nat) : Prop :=
  ∃ m, IsCeilPow2 n m ∧ ((h % m < n ∧ i = h % m) ∨ (n ≤ h % m ∧ i + m / 2 = h % m))

/-- The upper 48 bits of a digest. -/
def hash48 (d : UInt64) : Nat := d.toNat / 2 ^ 16

/-- Header fields of the key file `K`. -/
def keySizeOf (K : Bytes) : Nat := value (bytesAt K 26 2)
def saltOf (K : Bytes) : Nat := value (bytesAt K 28 8)
def blockSizeOf (K : Bytes) : Nat := value (bytesAt K 44 2)
def loadFactorOf (K : Bytes) : Nat := value (bytesAt K 46 2)

/-- Number of buckets: the first block is the header. -/
def bucketsOf (K : Bytes) : Nat := K.length / blockSizeOf K - 1

/-- Bytes of a block that are in use: count, link and as many items of 18 bytes as fit. -/
def bucketBytes (bs : Nat) : Nat := 8 + 18 * ((bs - 8) / 18)

/-- The bytes of bucket `n`. -/
def bucketAt (K : Bytes) (n : Nat) : Bytes := bytesAt K ((n + 1) * blockSizeOf K) (bucketBytes (blockSizeOf K))

/-- Item `i` of a bucket: offset, size, hash. -/
def itemAt (b : Bytes) (i : Nat) : Entry :=
  ⟨value (bytesAt b (8 + 18 * i) 6), value (bytesAt b (14 + 18 * i) 6), value (bytesAt b (20 + 18 * i) 6)⟩

/-- Number of items in a bucket. -/
def countIn (b : Bytes) : Nat := value (bytesAt b 0 2)

/-- The items of a bucket. -/
def itemsIn (b : Bytes) : List Entry := (List.range (countIn b)).map (itemAt b)

/-- Offset of the overflow bucket in the data file, or zero. -/
def linkIn (b : Bytes) : Nat := value (bytesAt b 2 6)

/-- `bs` is the bucket `b` followed by its overflow buckets in the data file `D`. -/
inductive Chained (D : Bytes) (len : Nat) : Bytes → List Bytes → Prop
  | last {b : Bytes} (h : linkIn b = 0) : Chained D len b [b]
  | more {b : Bytes} {bs : List Bytes} (h : linkIn b ≠ 0) (hr : linkIn b + len ≤ D.length)
      (ht : Chained D len (bytesAt D (linkIn b) len) bs) : Chained D len b (b :: bs)

/-- The chain of bucket `n`. -/
def ChainOf (D K : Bytes) (n : Nat) (bs : List Bytes) : Prop :=
  Chained D (bucketBytes (blockSizeOf K)) (bucketAt K n) bs

/-- The value records with their offsets; the first record is at `o`. -/
def located : Nat → List Record → List (Nat × Bytes × Bytes)
  | _, [] => []
  | o, .value k v :: rs => (o, k, v) :: located (o + (Record.value k v).bytes.length) rs
  | o, .overflow b :: rs => located (o + (Record.overflow b).bytes.length) rs

/-- The bodies of the overflow records with their offsets; the first record is at `o`. -/
def bodies : Nat → List Record → List (Nat × Bytes)
  | _, [] => []
  | o, .value k v :: rs => bodies (o + (Record.value k v).bytes.length) rs
  | o, .overflow b :: rs => (o + 8, b) :: bodies (o + (Record.overflow b).bytes.length) rs

/-- Items in a chain of buckets. -/
def chainKeys (bs : List Bytes) : Nat := (bs.map countIn).sum

/-- Bytes of the overflow records of a chain. -/
def chainBytes (bs : List Bytes) : Nat := (bs.tail.map (fun b => 8 + (8 + 18 * countIn b))).sum

/-- What the second phase of `verify_normal` tests for an item: at its offset there are its
size and a key with its hash. -/
structure Looks (H : Hasher) (salt keySize : Nat) (D : Bytes) (e : Entry) : Prop where
  range : e.offset + 6 + keySize ≤ D.length
  size : value (bytesAt D e.offset 6) = e.size
  hash : hash48 (H (UInt64.ofNat salt) (bytesAt D (e.offset + 6) keySize)) = e.hash

/-- Number of reads that lead to the item with offset `o` and hash `h` of a chain: the buckets are read in order, and in each
the items with this hash are tried in order, which takes one read for each item that is not the right one. -/
def searchCost (o h : Nat) : List Bytes → Nat
  | [] => 0
  | b :: bs =>
    let same := (itemsIn b).filter (fun e => e.hash == h)
    if same.any (fun e => e.offset == o) then 1 + (same.takeWhile (fun e => e.offset != o)).length
    else 1 + same.length + searchCost o h bs

/-- The reads that lead to each of the items of a chain, together. -/
def chainCost (bs : List Bytes) : Nat := ((bs.flatMap itemsIn).map (fun e => searchCost e.offset e.hash bs)).sum

end NuDB.Spec
