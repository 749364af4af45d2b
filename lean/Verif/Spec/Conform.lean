import Verif.Spec.KeyLayout
import Verif.Spec.History
import Verif.Model.Verify
/-
The documented format of a pair of data file and key file, as a whole.
-/
namespace NuDB.Spec

/-- Header of a key file. -/
structure KeyHead (H : Hasher) (a : CreateArgs) (lf : Nat) (K : Bytes) : Prop where
  signature : bytesAt K 0 8 = [0x6e, 0x75, 0x64, 0x62, 0x2e, 0x6b, 0x65, 0x79]
  version : value (bytesAt K 8 2) = 2
  uid : value (bytesAt K 10 8) = a.uid
  appnum : value (bytesAt K 18 8) = a.appnum
  keySize : keySizeOf K = a.keySize
  salt : saltOf K = a.salt
  /-- the digest of the 8 bytes of the salt, least significant byte first -/
  pepper : value (bytesAt K 36 8) = (H (UInt64.ofNat a.salt) (bigEndian 8 a.salt).reverse).toNat
  blockSize : blockSizeOf K = a.blockSize
  /-- in units of 1/65536 -/
  loadFactor : value (bytesAt K 46 2) = lf
  reserved : ∀ x ∈ bytesAt K 48 56, x = 0

/-- A bucket: the items fit the block and are ordered by hash. -/
structure BucketFormat (blockSize : Nat) (b : Bytes) : Prop where
  room : countIn b ≤ (blockSize - 8) / 18
  sorted : (itemsIn b).Pairwise (fun x y => x.hash ≤ y.hash)

/-- `e` is the item for a value record among `rs` that belongs in bucket `n` of `N`. -/
def ItemOf (H : Hasher) (salt N n : Nat) (rs : List Record) (e : Entry) : Prop :=
  ∃ k v, (e.offset, k, v) ∈ located 92 rs ∧ e.size = v.length ∧ e.hash = hash48 (H (UInt64.ofNat salt) k) ∧
    Addressed e.hash N n

/-- `D` and `K` are a database with the mapping `m`; `rs` are the records in the data file, `cs` the chains of
buckets. -/
structure Conforms (H : Hasher) (a : CreateArgs) (lf : Nat) (D K : Bytes) (m : Map) (rs : List Record)
    (cs : List (List Bytes)) : Prop where
  data : DataFile a.keySize D rs
  uid : value (bytesAt D 10 8) = a.uid
  appnum : value (bytesAt D 18 8) = a.appnum
  keys : ((values rs).map Prod.fst).Nodup
  pairs : ∀ k v, (k, v) ∈ values rs ↔ k.length = a.keySize ∧ m k = some v
  head : KeyHead H a lf K
  size : K.length = (bucketsOf K + 1) * a.blockSize ∧ 1 ≤ bucketsOf K
  len : cs.length = bucketsOf K
  chain : ∀ n (h : n < cs.length), ChainOf D K n cs[n]
  format : ∀ bs ∈ cs, ∀ b ∈ bs, BucketFormat a.blockSize b
  /-- only full buckets overflow into the data file -/
  full : ∀ bs ∈ cs, ∀ b ∈ bs.tail, countIn b = (a.blockSize - 8) / 18
  /-- links lead to overflow records -/
  links : ∀ bs ∈ cs, ∀ b ∈ bs, linkIn b ≠ 0 →
    (linkIn b, bytesAt D (linkIn b) (bucketBytes a.blockSize)) ∈ bodies 92 rs
  /-- each value record is listed exactly once, in the bucket it belongs to, and nothing else is listed -/
  items : ∀ n (h : n < cs.length), (cs[n].flatMap itemsIn).Nodup ∧
    ∀ e, e ∈ cs[n].flatMap itemsIn ↔ ItemOf H a.salt (bucketsOf K) n rs e
  /-- blocks of the key file are padded with zeroes -/
  padding : ∀ n, n < bucketsOf K → ∀ i, 8 + 18 * countIn (bucketAt K n) ≤ i → i < a.blockSize →
    K[(n + 1) * a.blockSize + i]? = some 0

/-- The counters reported by `verify`. Entry `j` of the histogram counts the buckets with `j` overflow records, the last
one those with at least 9. -/
structure Counted (rs : List Record) (cs : List (List Bytes)) (i : Info) : Prop where
  valueCount : i.valueCount = (values rs).length
  valueBytes : i.valueBytes = ((values rs).map (fun p => p.2.length)).sum
  keyCount : i.keyCount = (values rs).length
  spillCount : i.spillCount = (cs.map (fun bs => bs.length - 1)).sum
  spillBytes : i.spillBytes = (cs.map chainBytes).sum
  spillCountTot : i.spillCountTot = (overflows rs).length
  hist : i.hist = (List.range 10).map (fun j => (cs.filter (fun bs => min (bs.length - 1) 9 == j)).length)
  /-- the dividend of `avg_fetch` -/
  fetches : i.fetches = (cs.map chainCost).sum
  /-- only `verify_normal` reports this one correctly -/
  spillBytesTot : i.algorithm = 0 → i.spillBytesTot = ((overflows rs).map (fun b => 8 + b.length)).sum

end NuDB.Spec
