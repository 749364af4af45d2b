import Verif.Spec.KeyLayout
/-
What the log file means, for arbitrary bytes after its header.
-/
namespace NuDB.Spec

/-- The record at the front of the log: the number of a bucket (8 bytes), then the used part
of its block (count, link, 18 bytes per item), and the bytes after it. There is no record if
the bytes end before. -/
def frontRecord (l : Bytes) : Option (Nat × Bytes × Bytes) :=
  if l.length < 16 then none
  else if l.length < 16 + 18 * countIn (l.drop 8) then none
  else some (value (bytesAt l 0 8), bytesAt l 8 (8 + 18 * countIn (l.drop 8)),
    l.drop (16 + 18 * countIn (l.drop 8)))

/-- A file cut or extended with zeros to `n` bytes. -/
def resized (f : Bytes) (n : Nat) : Bytes := f.take n ++ List.replicate (n - f.length) 0

/-- The key file `K` with another block for bucket `n`, filled up with zeros. -/
def withBlock (bs : Nat) (K : Bytes) (n : Nat) (body : Bytes) : Bytes :=
  resized K ((n + 1) * bs) ++ resized body bs ++ K.drop ((n + 2) * bs)

/-- The overflow bucket that a bucket refers to lies within a data file of `d` bytes. -/
def LinkOk (bs d : Nat) (body : Bytes) : Prop := linkIn body = 0 ∨ linkIn body + bucketBytes bs ≤ d

/-- `Replay bs d B l K K' r`: applying the records `l` to the key file `K`, which has `B`
buckets of `bs` bytes, turns it into `K'` and ends with `r`. The data file has `d` bytes. -/
inductive Replay (bs d B : Nat) : Bytes → Bytes → Bytes → Res Unit → Prop
  /-- no further record -/
  | stop {l K : Bytes} (h : frontRecord l = none) (hn : 8 ≤ l.length → value (bytesAt l 0 8) < 2 ^ 32) :
      Replay bs d B l K K (.ok ())
  /-- numbers of 2^32 and more violate an assertion -/
  | number {l K : Bytes} (h : 8 ≤ l.length) (hn : 2 ^ 32 ≤ value (bytesAt l 0 8)) :
      Replay bs d B l K K (.error .abort)
  /-- more items than fit into the block: memory beyond the block is overwritten -/
  | overrun {l K body rest : Bytes} {n : Nat} (h : frontRecord l = some (n, body, rest)) (hn : n < 2 ^ 32)
      (hb : bs < body.length) : Replay bs d B l K K (.error .ub)
  | link {l K body rest : Bytes} {n : Nat} (h : frontRecord l = some (n, body, rest)) (hn : n < 2 ^ 32)
      (hb : body.length ≤ bs) (hl : ¬ LinkOk bs d body) : Replay bs d B l K K (.error (.err .invalid_log_spill))
  | index {l K body rest : Bytes} {n : Nat} (h : frontRecord l = some (n, body, rest)) (hn : n < 2 ^ 32)
      (hb : body.length ≤ bs) (hl : LinkOk bs d body) (hi : B < n) :
      Replay bs d B l K K (.error (.err .invalid_log_index))
  | record {l K K' body rest : Bytes} {n : Nat} {r : Res Unit} (h : frontRecord l = some (n, body, rest))
      (hn : n < 2 ^ 32) (hb : body.length ≤ bs) (hl : LinkOk bs d body) (hi : n ≤ B)
      (ht : Replay bs d B rest (withBlock bs K n body) K' r) : Replay bs d B l K K' r

/-- No record has a number of 2^32 or more, or more items than fit into a block of `bs`
bytes. -/
inductive Sane (bs : Nat) : Bytes → Prop
  | stop {l : Bytes} (h : frontRecord l = none) (hn : 8 ≤ l.length → value (bytesAt l 0 8) < 2 ^ 32) : Sane bs l
  | record {l body rest : Bytes} {n : Nat} (h : frontRecord l = some (n, body, rest)) (hn : n < 2 ^ 32)
      (hb : body.length ≤ bs) (ht : Sane bs rest) : Sane bs l

/-- Data file, key file and log of the same database, as far as the headers tell. The fields
from the uid to the block size have the same place in the key file and in the log. -/
structure Matching (H : Hasher) (D K L : Bytes) : Prop where
  dlen : 92 ≤ D.length
  /-- "nudb.dat" -/
  dsig : bytesAt D 0 8 = [0x6e, 0x75, 0x64, 0x62, 0x2e, 0x64, 0x61, 0x74]
  dver : value (bytesAt D 8 2) = 2
  /-- at least one bucket -/
  klen : 2 * blockSizeOf K ≤ K.length
  /-- "nudb.key" -/
  ksig : bytesAt K 0 8 = [0x6e, 0x75, 0x64, 0x62, 0x2e, 0x6b, 0x65, 0x79]
  kver : value (bytesAt K 8 2) = 2
  keySize : 1 ≤ keySizeOf K
  block : 104 ≤ blockSizeOf K
  load : 1 ≤ loadFactorOf K
  /-- the key file stores a hash of its salt, least significant byte first -/
  hash : value (bytesAt K 36 8) = (H (UInt64.ofNat (saltOf K)) (bigEndian 8 (saltOf K)).reverse).toNat
  /-- uid, application number, size of keys -/
  dk : bytesAt D 10 18 = bytesAt K 10 18
  llen : 62 ≤ L.length
  /-- "nudb.log" -/
  lsig : bytesAt L 0 8 = [0x6e, 0x75, 0x64, 0x62, 0x2e, 0x6c, 0x6f, 0x67]
  lver : value (bytesAt L 8 2) = 2
  /-- uid, application number, size of keys, salt, hash of the salt, block size -/
  lk : bytesAt L 10 36 = bytesAt K 10 36

/-- The sizes of the files before the commit, recorded in the log. -/
def loggedKeySize (L : Bytes) : Nat := value (bytesAt L 46 8)
def loggedDatSize (L : Bytes) : Nat := value (bytesAt L 54 8)

end NuDB.Spec
