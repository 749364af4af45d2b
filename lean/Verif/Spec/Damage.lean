import Verif.Spec.History
import Verif.Spec.Log
/-
Use of a store whose files somebody else overwrites.
-/
namespace NuDB.Spec

/-- Before the first record of the log `l` that is not complete or has a number of 2^32 or more, no record has more
items than fit into a block of `bs` bytes. -/
inductive LogFits (bs : Nat) : Bytes → Prop
  | stop {l : Bytes} (h : frontRecord l = none) : LogFits bs l
  | number {l : Bytes} (h : 8 ≤ l.length) (hn : 2 ^ 32 ≤ value (bytesAt l 0 8)) : LogFits bs l
  | record {l body rest : Bytes} {n : Nat} (h : frontRecord l = some (n, body, rest)) (hb : body.length ≤ bs)
      (ht : LogFits bs rest) : LogFits bs l

/-- If there is a log file left to recover from, then its records fit into the blocks of the key file (otherwise `open`
need not stay within its memory, see C48_undefined); and the size of the key file is a number of 64 bits. Nothing else
is said about the content of the files, or whether they exist. -/
structure Openable (fs : Fs) : Prop where
  size : ∀ K, bytesOf fs .key = some K → K.length < 2 ^ 64
  log : ∀ K L, bytesOf fs .key = some K → bytesOf fs .log = some L → LogFits (blockSizeOf K) (L.drop 62)

/-- States of a program that uses a store although anything may happen to the data file and the key file between its
calls, even while the store is open. The store is `none` while closed. -/
inductive Abused (c : Cfg) : Option Store → Fs → Prop
  /-- a closed store: the files, if there are any, have any content -/
  | closed (fs : Fs) : Abused c none fs
  /-- a call that returns, with success or an error -/
  | call {so so' : Option Store} {op : Op} {ret : Ret} {σ : Schedule} {w w' : World} (h : Abused c so w.fs)
      (ho : op = .open → Openable w.fs) (hr : perform c op so σ w = (.ok (so', ret), w')) : Abused c so' w'.fs
  /-- somebody replaces the bytes in the data file or the key file -/
  | damage {so : Option Store} {fs : Fs} {p : Path} (h : Abused c so fs) (hp : p = .dat ∨ p = .key) (f : FileSt) :
      Abused c so (fs.set p (some f))

/-- Items that fit into a block of the key file. -/
def roomOf (K : Bytes) : Nat := (blockSizeOf K - 8) / 18

/-- Positions of records when the data file `D` is read from front to back, where overflow records hold as many items
as their count tells. -/
inductive RecordAt (keySize : Nat) (D : Bytes) : Nat → Prop
  | first : RecordAt keySize D 92
  | value {o : Nat} (h : RecordAt keySize D o) (hn : value (bytesAt D o 6) ≠ 0) :
      RecordAt keySize D (o + 6 + keySize + value (bytesAt D o 6))
  | overflow {o : Nat} (h : RecordAt keySize D o) (hn : value (bytesAt D o 6) = 0) :
      RecordAt keySize D (o + 8 + (8 + 18 * value (bytesAt D (o + 8) 2)))

/-- The counts of the buckets and of the overflow records, as far as these have the size of a full bucket, are not
greater than there is room for. Nothing else is said about the files. -/
structure CountsFit (D K : Bytes) : Prop where
  records : ∀ o, RecordAt (keySizeOf K) D o → value (bytesAt D o 6) = 0 → value (bytesAt D (o + 6) 2) = 8 + 18 * roomOf K →
    value (bytesAt D (o + 8) 2) ≤ roomOf K
  buckets : ∀ n, n < bucketsOf K → value (bytesAt K ((n + 1) * blockSizeOf K) 2) ≤ roomOf K

/-- Data file and key file of the same database, as far as the headers tell. -/
structure Headed (H : Hasher) (D K : Bytes) : Prop where
  dlen : 92 ≤ D.length
  /-- "nudb.dat" -/
  dsig : bytesAt D 0 8 = [0x6e, 0x75, 0x64, 0x62, 0x2e, 0x64, 0x61, 0x74]
  dver : value (bytesAt D 8 2) = 2
  /-- at least one bucket -/
  klen : 2 * blockSizeOf K ≤ K.length
  /-- "nudb.key" -/
  ksig : bytesAt K 0 8 = [0x6e, 0x75, 0x64, 0x62, 0x2e, 0x6b, 0x65, 0x79]
  kver : value (bytesAt K 8 2) = 2
  keySize : 1 ≤ keySizeOf K
  block : 104 ≤ blockSizeOf K
  load : 1 ≤ loadFactorOf K
  /-- the key file stores a hash of its salt, least significant byte first -/
  hash : value (bytesAt K 36 8) = (H (UInt64.ofNat (saltOf K)) (bigEndian 8 (saltOf K)).reverse).toNat
  /-- uid, application number, size of keys -/
  dk : bytesAt D 10 18 = bytesAt K 10 18

end NuDB.Spec
