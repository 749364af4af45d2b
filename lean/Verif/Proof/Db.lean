import Verif.Proof.BulkIO
import Verif.Proof.Pow2
import Verif.Model.Store
/- Layout of a well formed database. -/
namespace NuDB

/-- What is fixed when a database is created. -/
structure Conf where
  uid : Nat
  appnum : Nat
  keySize : Nat
  salt : Nat
  blockSize : Nat
  loadFactor : Nat
  /-- there may be overflow records of another block size (after `rekey`) -/
  mixed : Bool := false

structure Conf.Ok (cf : Conf) : Prop where
  uid : cf.uid < 2 ^ 64
  appnum : cf.appnum < 2 ^ 64
  salt : cf.salt < 2 ^ 64
  key1 : 1 ≤ cf.keySize
  key2 : cf.keySize < 2 ^ 16
  bs1 : 104 ≤ cf.blockSize
  bs2 : cf.blockSize < 2 ^ 16
  lf1 : 1 ≤ cf.loadFactor
  lf2 : cf.loadFactor < 2 ^ 16

namespace Conf

def cap (cf : Conf) : Nat := bucketCapacity cf.blockSize

def dh (cf : Conf) : DatHeader :=
  { type := datType, version := currentVersion, uid := cf.uid, appnum := cf.appnum,
    keySize := cf.keySize }

def kh (cf : Conf) (H : Hasher) (B : Nat) : KeyHeader :=
  { type := keyType, version := currentVersion, uid := cf.uid, appnum := cf.appnum,
    keySize := cf.keySize, salt := cf.salt, pepper := pepper H cf.salt,
    blockSize := cf.blockSize, loadFactor := cf.loadFactor, capacity := cf.cap, buckets := B,
    modulus := ceilPow2 B }

def lh (cf : Conf) (H : Hasher) (kl dl : Nat) : LogHeader :=
  { type := logType, version := currentVersion, uid := cf.uid, appnum := cf.appnum,
    keySize := cf.keySize, salt := cf.salt, pepper := pepper H cf.salt,
    blockSize := cf.blockSize, keyFileSize := kl, datFileSize := dl }

def hash (cf : Conf) (H : Hasher) (key : Bytes) : Nat := hashKey H cf.salt key

theorem logHeaderOf_kh (cf : Conf) (H : Hasher) (B kl dl : Nat) :
    logHeaderOf H (cf.kh H B) kl dl = cf.lh H kl dl := rfl

theorem putKeyHeader_kh (cf : Conf) (H : Hasher) (B B' : Nat) :
    putKeyHeader (cf.kh H B) = putKeyHeader (cf.kh H B') := rfl

end Conf

theorem hashKey_lt (H : Hasher) (salt : Nat) (key : Bytes) : hashKey H salt key < 2 ^ 48 := by
  unfold hashKey makeHash48
  exact Nat.lt_of_le_of_lt Nat.and_le_right (by decide)

theorem pepper_lt (H : Hasher) (salt : Nat) : pepper H salt < 2 ^ 64 := UInt64.toNat_lt _

theorem Conf.Ok.cap_le {cf : Conf} (h : cf.Ok) : bucketSize cf.cap ≤ cf.blockSize := by
  have := h.bs1
  unfold Conf.cap bucketSize bucketCapacity keyHeaderSize
  rw [if_neg (by simp; omega)]
  omega

theorem Conf.Ok.cap_pos {cf : Conf} (h : cf.Ok) : 1 ≤ cf.cap := by
  have := h.bs1
  unfold Conf.cap bucketCapacity keyHeaderSize
  rw [if_neg (by simp; omega)]
  omega

/-- A record of the data file. -/
inductive Rec
  | data (key value : Bytes)
  | spill (es : List Entry) (link : Nat)

def encRec : Rec → Bytes
  | .data k v => dataRecord k v
  | .spill es s => putU48 0 ++ putU16 (bucketSize es.length) ++ encBkt es s

def encRecs (rs : List Rec) : Bytes := rs.flatMap encRec

@[simp] theorem encRecs_nil : encRecs [] = [] := rfl
@[simp] theorem encRecs_cons (r : Rec) (rs : List Rec) : encRecs (r :: rs) = encRec r ++ encRecs rs := rfl
theorem encRecs_append (a b : List Rec) : encRecs (a ++ b) = encRecs a ++ encRecs b := by
  simp [encRecs]

/-- The pairs stored in the data file together with their bucket entries. -/
def itemsOf (hash : Bytes → Nat) : Nat → List Rec → List (Entry × (Bytes × Bytes))
  | _, [] => []
  | o, .data k v :: rs =>
    (⟨o, v.length, hash k⟩, (k, v)) :: itemsOf hash (o + (encRec (.data k v)).length) rs
  | o, .spill es s :: rs => itemsOf hash (o + (encRec (.spill es s)).length) rs

def pairsOf : List Rec → List (Bytes × Bytes)
  | [] => []
  | .data k v :: rs => (k, v) :: pairsOf rs
  | .spill _ _ :: rs => pairsOf rs

theorem itemsOf_pairs (hash : Bytes → Nat) (o : Nat) (rs : List Rec) :
    (itemsOf hash o rs).map (·.2) = pairsOf rs := by
  induction rs generalizing o with
  | nil => rfl
  | cons r rs ih => cases r <;> simp [itemsOf, pairsOf, ih]

theorem pairsOf_append (a b : List Rec) : pairsOf (a ++ b) = pairsOf a ++ pairsOf b := by
  induction a with
  | nil => rfl
  | cons r rs ih => cases r <;> simp [pairsOf, ih]

theorem itemsOf_append (hash : Bytes → Nat) (o : Nat) (a b : List Rec) :
    itemsOf hash o (a ++ b) = itemsOf hash o a ++ itemsOf hash (o + (encRecs a).length) b := by
  induction a generalizing o with
  | nil => simp [itemsOf]
  | cons r rs ih =>
    cases r <;> simp [itemsOf, ih, Nat.add_assoc]

/-- `e` is the entry for a pair whose bytes are in `D`. -/
structure Stored (hash : Bytes → Nat) (ks : Nat) (D : Bytes) (e : Entry) (k v : Bytes) : Prop where
  key : k.length = ks
  size : e.size = v.length
  hash : e.hash = hash k
  range : e.offset + 6 + ks + e.size ≤ D.length
  len : slice D e.offset 6 = putU48 v.length
  bytes : slice D (e.offset + 6) (ks + e.size) = k ++ v

structure Rec.Ok (cf : Conf) (r : Rec) : Prop where
  data : ∀ k v, r = .data k v → k.length = cf.keySize ∧ 1 ≤ v.length ∧ v.length < 2 ^ 32
  spill : ∀ es s, r = .spill es s → bucketSize es.length < 2 ^ 16 ∧ (∀ e ∈ es, e.Fit) ∧ Sorted es ∧ s < 2 ^ 48
  full : ∀ es s, r = .spill es s → es.length = cf.cap ∨ cf.mixed = true

theorem itemsOf_stored {hash : Bytes → Nat} {ks : Nat} {rs : List Rec}
    (hr : ∀ r ∈ rs, ∀ k v, r = .data k v → k.length = ks) {pre post : Bytes} :
    ∀ x ∈ itemsOf hash pre.length rs,
      Stored hash ks (pre ++ encRecs rs ++ post) x.1 x.2.1 x.2.2 := by
  induction rs generalizing pre with
  | nil => intro x hx; simp [itemsOf] at hx
  | cons r rs ih =>
    have hrest : ∀ x ∈ itemsOf hash (pre ++ encRec r).length rs,
        Stored hash ks (pre ++ encRecs (r :: rs) ++ post) x.1 x.2.1 x.2.2 := by
      intro x hx
      have := ih (pre := pre ++ encRec r) (fun r' h => hr r' (by simp [h])) x hx
      simpa using this
    cases r with
    | data k v =>
      intro x hx
      simp only [itemsOf, List.mem_cons] at hx
      rcases hx with rfl | hx
      · have hk := hr (.data k v) (by simp) k v rfl
        refine ⟨hk, rfl, rfl, ?_, ?_, ?_⟩
        · simp [encRec, dataRecord, hk]; omega
        · simp only [encRecs_cons, encRec, dataRecord, List.append_assoc]
          exact slice_mid' rfl rfl
        · simp only [encRecs_cons, encRec, dataRecord, List.append_assoc]
          have e : pre ++ (putU48 v.length ++ (k ++ (v ++ (encRecs rs ++ post)))) =
              (pre ++ putU48 v.length) ++ ((k ++ v) ++ (encRecs rs ++ post)) := by simp
          rw [e]
          exact slice_mid' (by simp) (by simp [hk])
      · exact hrest x (by simpa using hx)
    | spill es s =>
      intro x hx
      simp only [itemsOf] at hx
      exact hrest x (by simpa using hx)

theorem Stored.mono {hash : Bytes → Nat} {ks : Nat} {D D' : Bytes} {e : Entry} {k v : Bytes}
    (h : Stored hash ks D e k v) (hp : D <+: D') : Stored hash ks D' e k v where
  key := h.key
  size := h.size
  hash := h.hash
  range := by have := h.range; have := hp.length_le; omega
  len := by rw [slice_eq_of_prefix hp (by have := h.range; omega)]; exact h.len
  bytes := by rw [slice_eq_of_prefix hp (by have := h.range; omega)]; exact h.bytes

/-- The offset `s` is that of the body of an overflow record of the file, the bucket `es` with link `s'`. -/
def Linked (D : Bytes) (s : Nat) (es : List Entry) (s' : Nat) : Prop :=
  ∃ (cf : Conf) (rs : List Rec), cf.Ok ∧ (∀ r ∈ rs ++ [.spill es s'], r.Ok cf) ∧
    putDatHeader cf.dh ++ encRecs (rs ++ [.spill es s']) <+: D ∧ s = (putDatHeader cf.dh ++ encRecs rs).length + 8

/-- A chain of overflow records starting at offset `s`: all full, links pointing back. -/
inductive Chain (D : Bytes) (cap : Nat) : Nat → List Entry → Prop
  | nil : Chain D cap 0 []
  | link {s s' : Nat} {es L : List Entry} (h0 : s ≠ 0) (h48 : s < 2 ^ 48)
      (hr : s + bucketSize cap ≤ D.length)
      (hb : slice D s (bucketSize cap) = encBkt es s') (hl : es.length = cap) (hs : Sorted es)
      (hf : ∀ e ∈ es, e.Fit) (hd : s' < s) (hw : Linked D s es s') (ht : Chain D cap s' L) : Chain D cap s (es ++ L)

theorem Chain.mono {D D' : Bytes} {cap s : Nat} {L : List Entry} (h : Chain D cap s L)
    (hp : D <+: D') : Chain D' cap s L := by
  induction h with
  | nil => exact .nil
  | link h0 h48 hr hb hl hs hf hd hw _ ih =>
    exact .link h0 h48 (Nat.le_trans hr hp.length_le) (by rw [slice_eq_of_prefix hp hr]; exact hb)
      hl hs hf hd (let ⟨cf, rs, a1, a2, a3, a4⟩ := hw; ⟨cf, rs, a1, a2, a3.trans hp, a4⟩) ih

theorem Chain.zero {D : Bytes} {cap : Nat} {L : List Entry} (h : Chain D cap 0 L) : L = [] := by
  cases h with
  | nil => rfl
  | link h0 => exact absurd rfl h0

theorem Chain.fit {D : Bytes} {cap s : Nat} {L : List Entry} (h : Chain D cap s L) :
    ∀ e ∈ L, e.Fit := by
  induction h with
  | nil => simp
  | link h0 h48 hr hb hl hs hf hd hw _ ih =>
    intro e he
    rcases List.mem_append.mp he with he | he
    · exact hf e he
    · exact ih e he

theorem Chain.lt48 {D : Bytes} {cap s : Nat} {L : List Entry} (h : Chain D cap s L) : s < 2 ^ 48 := by
  cases h with
  | nil => decide
  | link _ h48 => exact h48

theorem Chain.le_length {D : Bytes} {cap s : Nat} {L : List Entry} (h : Chain D cap s L) :
    s ≠ 0 → s + bucketSize cap ≤ D.length := by
  cases h with
  | nil => intro h; exact absurd rfl h
  | link _ _ hr => intro _; exact hr

/-- A bucket with its overflow chain holds the entries `T`. -/
structure BucketOk (D : Bytes) (cap : Nat) (es : List Entry) (s : Nat) (T : List Entry) : Prop where
  len : es.length ≤ cap
  sorted : Sorted es
  fit : ∀ e ∈ es, e.Fit
  empty : es = [] → s = 0
  chain : ∃ L, Chain D cap s L ∧ (es ++ L).Perm T

theorem BucketOk.mono {D D' : Bytes} {cap : Nat} {es : List Entry} {s : Nat} {T : List Entry}
    (h : BucketOk D cap es s T) (hp : D <+: D') : BucketOk D' cap es s T where
  len := h.len
  sorted := h.sorted
  fit := h.fit
  empty := h.empty
  chain := let ⟨L, h1, h2⟩ := h.chain; ⟨L, h1.mono hp, h2⟩

theorem BucketOk.perm {D : Bytes} {cap : Nat} {es : List Entry} {s : Nat} {T T' : List Entry}
    (h : BucketOk D cap es s T) (hp : T.Perm T') : BucketOk D cap es s T' where
  len := h.len
  sorted := h.sorted
  fit := h.fit
  empty := h.empty
  chain := let ⟨L, h1, h2⟩ := h.chain; ⟨L, h1, h2.trans hp⟩

theorem BucketOk.lt48 {D : Bytes} {cap : Nat} {es : List Entry} {s : Nat} {T : List Entry}
    (h : BucketOk D cap es s T) : s < 2 ^ 48 := let ⟨_, h1, _⟩ := h.chain; h1.lt48

theorem BucketOk.fitT {D : Bytes} {cap : Nat} {es : List Entry} {s : Nat} {T : List Entry}
    (h : BucketOk D cap es s T) : ∀ e ∈ T, e.Fit := by
  obtain ⟨L, h1, h2⟩ := h.chain
  intro e he
  rcases List.mem_append.mp (h2.mem_iff.mpr he) with he | he
  · exact h.fit e he
  · exact h1.fit e he

theorem bucketOk_empty (D : Bytes) (cap : Nat) : BucketOk D cap [] 0 [] where
  len := Nat.zero_le _
  sorted := List.Pairwise.nil
  fit := by simp
  empty := fun _ => rfl
  chain := ⟨[], .nil, List.Perm.refl _⟩

/-- Bytes of a key file block. -/
def encBlock (bs : Nat) (es : List Entry) (s : Nat) : Bytes :=
  encBkt es s ++ zeros (bs - bucketSize es.length)

/-- Which bucket an entry belongs to. -/
def inBucket (B m n : Nat) (e : Entry) : Bool := bucketIndex e.hash B m == n

/-- Contents of buckets: entries and overflow link. -/
abbrev View := Nat → List Entry × Nat

/-- The buckets below `B` hold exactly the entries `T`, each where its hash says. -/
def Filed (D : Bytes) (cap B m : Nat) (view : View) (T : List Entry) : Prop :=
  ∀ n, n < B → BucketOk D cap (view n).1 (view n).2 (T.filter (inBucket B m n))

/-- The key file consists of a header and the blocks described by `view`. -/
structure KeyFile (c : Cfg) (cf : Conf) (K : Bytes) (B : Nat) (view : View) : Prop where
  len : K.length = (B + 1) * cf.blockSize
  head : K.take 104 = putKeyHeader (cf.kh c.H B)
  blocks : ∀ n, n < B →
    slice K ((n + 1) * cf.blockSize) cf.blockSize = encBlock cf.blockSize (view n).1 (view n).2

/-- The data file consists of a header and records. -/
structure DatFile (cf : Conf) (D : Bytes) (recs : List Rec) : Prop where
  eq : D = putDatHeader cf.dh ++ encRecs recs
  ok : ∀ r ∈ recs, r.Ok cf
  nodup : ((pairsOf recs).map (·.1)).Nodup

/-- Items of the data file. -/
def items (c : Cfg) (cf : Conf) (recs : List Rec) : List (Entry × (Bytes × Bytes)) :=
  itemsOf (cf.hash c.H) 92 recs

/-- A well formed database. -/
structure Db (c : Cfg) (cf : Conf) (D K : Bytes) (recs : List Rec) (B : Nat) (view : View) :
    Prop where
  conf : cf.Ok
  dat : DatFile cf D recs
  dlen : D.length ≤ 2 ^ 49
  b1 : 1 ≤ B
  b2 : B ≤ 2 ^ 32
  key : KeyFile c cf K B view
  filed : Filed D cf.cap B (ceilPow2 B) view ((items c cf recs).map (·.1))

/-- The files `D`, `K` hold exactly the pairs `ps`. -/
def Holds (c : Cfg) (cf : Conf) (D K : Bytes) (ps : List (Bytes × Bytes)) : Prop :=
  ∃ recs B view, Db c cf D K recs B view ∧ pairsOf recs = ps

@[simp] theorem putDatHeader_length (dh : DatHeader) : (putDatHeader dh).length = 92 := rfl

theorem DatFile.stored {c : Cfg} {cf : Conf} {D : Bytes} {recs : List Rec}
    (h : DatFile cf D recs) :
    ∀ x ∈ items c cf recs, Stored (cf.hash c.H) cf.keySize D x.1 x.2.1 x.2.2 := by
  intro x hx
  have := itemsOf_stored (hash := cf.hash c.H) (ks := cf.keySize) (rs := recs)
    (fun r hr k v e => ((h.ok r hr).data k v e).1) (pre := putDatHeader cf.dh) (post := [])
    x (by simpa [items] using hx)
  rw [h.eq]; simpa using this

end NuDB
