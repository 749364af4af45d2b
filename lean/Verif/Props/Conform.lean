import Verif.Proof.Conform
import Verif.Spec.Conform
/-
C49: the files have the documented format.
-/
namespace NuDB

open Spec

variable {c : Cfg} {a : CreateArgs} {lf : Nat} {short : Prop} {t : List Label} {fs : Fs}

theorem kvOf_mem {ps : List (Bytes × Bytes)} (hn : (ps.map (·.1)).Nodup) {k v : Bytes} :
    kvOf ps k = some v ↔ (k, v) ∈ ps := kvOf_some hn

theorem le64_eq (n : Nat) : le64 n = (bigEndian 8 n).reverse := by
  rw [← C18_u64.layout]
  rfl

/-- The parameters of a database as arguments of `create`. -/
def Conf.args (cf : Conf) : CreateArgs :=
  { appnum := cf.appnum, uid := cf.uid, salt := cf.salt, keySize := cf.keySize, blockSize := cf.blockSize, load := .nan }

theorem keyHead_of {cf : Conf} {K : Bytes} {B : Nat} (hc : cf.Ok)
    (h : K.take 104 = putKeyHeader (cf.kh c.H B)) : KeyHead c.H cf.args cf.loadFactor K := by
  have e : K = putKeyHeader (cf.kh c.H B) ++ K.drop 104 := by rw [← h, List.take_append_drop]
  unfold putKeyHeader at e
  simp only [List.append_assoc] at e
  refine ⟨?_, ?_, ?_, ?_, ?_, ?_, ?_, ?_, ?_, ?_⟩
  · rw [e, bytesAt_eq]; exact slice_mid' (x := []) (y := keyType) (o := 0) (n := 8) rfl rfl
  · exact value_u16 (x := keyType) e rfl (by show 2 < 2 ^ 16; decide)
  · exact value_u64 (x := keyType ++ putU16 (cf.kh c.H B).version) (by rw [List.append_assoc]; exact e) rfl hc.uid
  · exact value_u64 (x := keyType ++ (putU16 (cf.kh c.H B).version ++ putU64 (cf.kh c.H B).uid)) (by simp only [List.append_assoc]; exact e) rfl hc.appnum
  · exact value_u16 (x := keyType ++ (putU16 (cf.kh c.H B).version ++ (putU64 (cf.kh c.H B).uid ++ putU64 (cf.kh c.H B).appnum)))
      (by simp only [List.append_assoc]; exact e) rfl hc.key2
  · exact value_u64 (x := keyType ++ (putU16 (cf.kh c.H B).version ++ (putU64 (cf.kh c.H B).uid ++ (putU64 (cf.kh c.H B).appnum ++
      putU16 (cf.kh c.H B).keySize)))) (by simp only [List.append_assoc]; exact e) rfl hc.salt
  · have := value_u64 (x := keyType ++ (putU16 (cf.kh c.H B).version ++ (putU64 (cf.kh c.H B).uid ++ (putU64 (cf.kh c.H B).appnum ++
      (putU16 (cf.kh c.H B).keySize ++ putU64 (cf.kh c.H B).salt))))) (o := 36) (by simp only [List.append_assoc]; exact e) rfl (pepper_lt c.H cf.salt)
    rw [this]
    unfold pepper
    rw [le64_eq]
    rfl
  · exact value_u16 (x := keyType ++ (putU16 (cf.kh c.H B).version ++ (putU64 (cf.kh c.H B).uid ++ (putU64 (cf.kh c.H B).appnum ++
      (putU16 (cf.kh c.H B).keySize ++ (putU64 (cf.kh c.H B).salt ++ putU64 (cf.kh c.H B).pepper))))))
      (by simp only [List.append_assoc]; exact e) rfl hc.bs2
  · exact value_u16 (x := keyType ++ (putU16 (cf.kh c.H B).version ++ (putU64 (cf.kh c.H B).uid ++ (putU64 (cf.kh c.H B).appnum ++
      (putU16 (cf.kh c.H B).keySize ++ (putU64 (cf.kh c.H B).salt ++ (putU64 (cf.kh c.H B).pepper ++ putU16 (cf.kh c.H B).blockSize)))))))
      (by simp only [List.append_assoc]; exact e) rfl hc.lf2
  · have : bytesAt K 48 56 = zeros 56 := by
      rw [bytesAt_eq]
      conv => lhs; rw [e]
      exact slice_mid' (x := keyType ++ (putU16 (cf.kh c.H B).version ++ (putU64 (cf.kh c.H B).uid ++ (putU64 (cf.kh c.H B).appnum ++
      (putU16 (cf.kh c.H B).keySize ++ (putU64 (cf.kh c.H B).salt ++ (putU64 (cf.kh c.H B).pepper ++ (putU16 (cf.kh c.H B).blockSize ++
        putU16 (cf.kh c.H B).loadFactor)))))))) (y := zeros 56) (z := K.drop 104) (o := 48) rfl (by simp)
    rw [this]
    intro x hx
    simpa [zeros] using hx

theorem Db.dataFile {cf : Conf} {D K : Bytes} {recs : List Rec} {B : Nat} {view : View} (h : Db c cf D K recs B view) :
    DataFile cf.keySize D (recs.map Rec.toRecord) ∧ value (bytesAt D 10 8) = cf.uid ∧ value (bytesAt D 18 8) = cf.appnum := by
  have e := h.dat.eq
  unfold putDatHeader at e
  simp only [List.append_assoc] at e
  refine ⟨⟨putDatHeader cf.dh, ⟨rfl, rfl, ?_, ?_, h.conf.key1⟩, by rw [layout_toRecord]; exact h.dat.eq, h.recOk⟩, ?_, ?_⟩
  · exact value_u16 (x := datType) (n := 2) (y := putU64 cf.dh.uid ++ (putU64 cf.dh.appnum ++ (putU16 cf.dh.keySize ++ zeros 64)))
      (by unfold putDatHeader; simp only [List.append_assoc]; rfl) rfl (by decide)
  · exact value_u16 (x := datType ++ (putU16 cf.dh.version ++ (putU64 cf.dh.uid ++ putU64 cf.dh.appnum)))
      (y := zeros 64) (by unfold putDatHeader; simp only [List.append_assoc]; rfl) rfl h.conf.key2
  · exact value_u64 (x := datType ++ putU16 cf.dh.version) (by rw [List.append_assoc]; exact e) rfl h.conf.uid
  · exact value_u64 (x := datType ++ (putU16 cf.dh.version ++ putU64 cf.dh.uid)) (by simp only [List.append_assoc]; exact e) rfl h.conf.appnum

theorem pairs_len {cf : Conf} {D : Bytes} {recs : List Rec} (h : DatFile cf D recs) {k v : Bytes} (hm : (k, v) ∈ pairsOf recs) :
    k.length = cf.keySize := by
  have hok := h.ok
  clear h
  induction recs with
  | nil => cases hm
  | cons r rs ih =>
    cases r with
    | data k' v' =>
      simp only [pairsOf, List.mem_cons, Prod.mk.injEq] at hm
      rcases hm with ⟨rfl, rfl⟩ | hm
      · exact ((hok _ List.mem_cons_self).data _ _ rfl).1
      · exact ih hm (fun r hr => hok r (by simp [hr]))
    | spill es s => exact ih hm (fun r hr => hok r (by simp [hr]))

/-- A well formed database has the documented format. -/
theorem conforms_of {cf : Conf} {D K : Bytes} {recs : List Rec} {B : Nat} {view : View} {m : Map} (h : Db c cf D K recs B view)
    (hm : ∀ k, k.length = cf.keySize → kvOf (pairsOf recs) k = m k) :
    ∃ cs, Conforms c.H cf.args cf.loadFactor D K m (recs.map Rec.toRecord) cs ∧
      Chains D K cf.blockSize 0 cs ∧ ∃ T, cs = (List.range B).map T ∧ GoodTable (cf.kh c.H B) D K T ∧
        ∀ n, n < B → ((T n).flatMap itemsIn).Perm (((items c cf recs).map (·.1)).filter (inBucket B (ceilPow2 B) n)) := by
  obtain ⟨hd, hu, ha⟩ := h.dataFile
  obtain ⟨k1, k2, k3⟩ := h.klen
  have hkh := keyHead_of (c := c) h.conf h.key.head
  have hbs : blockSizeOf K = cf.blockSize := hkh.blockSize
  have hB : bucketsOf K = B := by unfold bucketsOf; rw [hbs]; exact k3
  obtain ⟨T, hT, hP⟩ := h.table
  have hn : ∀ n (h : n < ((List.range B).map T).length), ((List.range B).map T)[n] = T n := by intro n h; simp
  have hmem : ∀ bs, bs ∈ (List.range B).map T → ∃ n, n < B ∧ bs = T n := by
    intro bs hbs
    obtain ⟨n, h1, h2⟩ := List.mem_map.1 hbs
    exact ⟨n, List.mem_range.1 h1, h2.symm⟩
  have hch : ∀ k n, n + k ≤ B → Chains D K cf.blockSize n ((List.range' n k).map T) := by
    intro k
    induction k with
    | zero => intro n _; exact .nil _
    | succ k ih => intro n hk; exact .cons (hT.chain n (by show n < B; omega)) (ih (n + 1) (by omega))
  refine ⟨(List.range B).map T, ⟨hd, hu, ha, ?_, ?_, hkh, ?_, by rw [hB]; simp, ?_, ?_, ?_, ?_, ?_, ?_⟩, ?_, T, rfl, hT, fun n hn => (hP n hn).1⟩
  · rw [values_toRecord]; exact h.dat.nodup
  · intro k v
    rw [values_toRecord]
    constructor
    · intro hkv
      have hl := pairs_len h.dat hkv
      exact ⟨hl, by rw [← hm k hl]; exact (kvOf_mem h.dat.nodup).2 hkv⟩
    · rintro ⟨hl, hkv⟩
      rw [← hm k hl] at hkv
      exact (kvOf_mem h.dat.nodup).1 hkv
  · rw [hB]; exact ⟨h.key.len, h.b1⟩
  · intro n hnn
    rw [hn]
    unfold ChainOf bucketAt
    rw [hbs]
    exact hT.chain n (by show n < B; simpa using hnn)
  · intro bs hb b hb'
    obtain ⟨n, h1, rfl⟩ := hmem bs hb
    have hg := hT.good n h1 b hb'
    refine ⟨hg.room, ?_⟩
    rw [List.pairwise_iff_getElem]
    intro i j hi hj hij
    rw [itemsIn_length] at hi hj
    have := hg.sorted i j (by omega) hj
    simpa [itemsIn] using this
  · intro bs hb b hb'
    obtain ⟨n, h1, rfl⟩ := hmem bs hb
    exact (hP n h1).2 b hb'
  · intro bs hb b hb'
    obtain ⟨n, h1, rfl⟩ := hmem bs hb
    exact h.links h1 (hT.chain n h1) b hb'
  · intro n hnn
    have hnB : n < B := by simpa using hnn
    rw [hn, (hP n hnB).1.nodup_iff, h.listed]
    refine ⟨located_nodup Entry.offset (fun _ => rfl), ?_⟩
    intro e
    rw [(hP n hnB).1.mem_iff, h.listed, hB]
    have hadr : ∀ k, Addressed (hash48 (c.H (UInt64.ofNat cf.salt) k)) B (homeOf c (cf.kh c.H B) k) := by
      intro k
      rw [← hashKey_eq]
      have h1 := h.b1
      have h2 := h.b2
      exact (C21_in_range h1 (by omega) _).2.2
    constructor
    · intro he
      obtain ⟨y, hy, rfl⟩ := List.mem_map.1 he
      obtain ⟨hy, hh⟩ := List.mem_filter.1 hy
      have hh : homeOf c (cf.kh c.H B) y.2.1 = n := by simpa using hh
      refine ⟨y.2.1, y.2.2, hy, rfl, hashKey_eq _ _ _, ?_⟩
      show Addressed (hashKey c.H cf.salt y.2.1) B n
      rw [hashKey_eq, ← hh]
      exact hadr _
    · rintro ⟨k, v, h1, h2, h3, h4⟩
      rw [h3] at h4
      refine List.mem_map.2 ⟨(e.offset, k, v), List.mem_filter.2 ⟨h1, ?_⟩, ?_⟩
      · have := addressed_unique (hadr k) h4
        simpa using this
      · have h3' : e.hash = hashKey c.H cf.salt k := by rw [hashKey_eq]; exact h3
        cases e
        dsimp only at *
        rw [h2, h3']
  · intro n hnn i hi1 hi2
    rw [hB] at hnn
    have hi2 : i < cf.blockSize := hi2
    obtain ⟨ts, _, _, _, _, hc, _⟩ := h.bucket hnn
    have hc : countIn (bucketAt K n) = (view n).1.length := by unfold bucketAt; rw [hbs]; exact hc
    rw [hc] at hi1
    have hb := h.key.blocks n hnn
    have : (slice K ((n + 1) * cf.blockSize) cf.blockSize)[i]? = K[(n + 1) * cf.blockSize + i]? := by
      simp only [slice, List.getElem?_take, List.getElem?_drop]
      rw [if_pos hi2]
    show K[(n + 1) * cf.blockSize + i]? = some 0
    rw [← this, hb, encBlock, List.getElem?_append_right (by simp only [encBkt_length, bucketSize]; omega)]
    simp only [encBkt_length, zeros, bucketSize, List.getElem?_replicate]
    rw [if_pos (by omega)]
  · have := hch B 0 (by omega)
    rwa [List.range_eq_range']

/-- The files of a closed database. -/
theorem closed_db {D K : Bytes} (hc : Creatable a lf) (hr : Reachable c a short t (none, fs)) (hl : fs .log = none)
    (hD : bytesOf fs .dat = some D) (hK : bytesOf fs .key = some K) :
    ∃ recs B view df kf, Settled c (a.conf lf) fs D K recs B view ∧ fs .dat = some df ∧ fs .key = some kf ∧ df.cur = D ∧ kf.cur = K := by
  obtain ⟨D', K', recs, B, view, hS, _⟩ := settled hc hr hl
  obtain ⟨df, hd, sd⟩ := hS.closed.dat
  obtain ⟨kf, hk, sk⟩ := hS.closed.key
  have e : D' = D := by rw [bytesOf, hd] at hD; simpa [sd.cur] using hD
  have e' : K' = K := by rw [bytesOf, hk] at hK; simpa [sk.cur] using hK
  subst e e'
  exact ⟨recs, B, view, df, kf, hS, hd, hk, sd.cur, sk.cur⟩

theorem conforms_settled {cf : Conf} {a : CreateArgs} {D K : Bytes} {m : Map} {rs : List Record} {cs : List (List Bytes)}
    (h : Conforms c.H cf.args lf D K m rs cs) (h1 : a.uid = cf.uid) (h2 : a.appnum = cf.appnum) (h3 : a.salt = cf.salt)
    (h4 : a.keySize = cf.keySize) (h5 : a.blockSize = cf.blockSize) : Conforms c.H a lf D K m rs cs := by
  cases a
  dsimp only at h1 h2 h3 h4 h5
  subst h1 h2 h3 h4 h5
  exact ⟨h.data, h.uid, h.appnum, h.keys, h.pairs, ⟨h.head.signature, h.head.version, h.head.uid, h.head.appnum, h.head.keySize,
    h.head.salt, h.head.pepper, h.head.blockSize, h.head.loadFactor, h.head.reserved⟩, h.size, h.len, h.chain, h.format, h.full, h.links, h.items, h.padding⟩

theorem full_overflows {cf : Conf} {D K : Bytes} {recs : List Rec} {B : Nat} {view : View} (h : Db c cf D K recs B view) (hm : cf.mixed = false) :
    ∀ b ∈ overflows (recs.map Rec.toRecord), b.length = bucketBytes cf.blockSize ∧ countIn b = (cf.blockSize - 8) / 18 := by
  intro b hb
  simp only [overflows, List.mem_filterMap, List.mem_map] at hb
  obtain ⟨x, ⟨r, hr, rfl⟩, hx⟩ := hb
  have h104 := h.conf.bs1
  have hcap : cf.cap = (cf.blockSize - 8) / 18 := by
    unfold Conf.cap bucketCapacity keyHeaderSize
    rw [if_neg (by simp; omega)]
  cases r with
  | data k v => simp [Rec.toRecord] at hx
  | spill es s =>
    simp only [Rec.toRecord, Option.some.injEq] at hx
    have hf := ((h.dat.ok _ hr).full es s rfl).resolve_right (by simp [hm])
    obtain ⟨s1, s2, s3, s4⟩ := (h.dat.ok _ hr).spill es s rfl
    have s1' : bucketSize es.length = 8 + es.length * 18 := rfl
    obtain ⟨a1, _, _⟩ := enc_block (t := []) (blk := encBkt es s) (by simp) (by omega) s4 s2
    rw [← hx, a1, hf, hcap, encBkt_length, hf, hcap]
    unfold bucketSize bucketBytes
    omega

/-- C49: after any history the files of a closed database without log file have the documented format, with the
mapping that lookups answer. Overflow records are full buckets. -/
theorem C49_format {m : Map} {D K : Bytes} (hc : Creatable a lf) (hr : Reachable c a short t (none, fs)) (hl : fs .log = none)
    (hm : Answers c a.keySize fs m) (hD : bytesOf fs .dat = some D) (hK : bytesOf fs .key = some K) :
    ∃ rs cs, Conforms c.H a lf D K m rs cs ∧
      ∀ b ∈ overflows rs, b.length = bucketBytes a.blockSize ∧ countIn b = (a.blockSize - 8) / 18 := by
  obtain ⟨recs, B, view, df, kf, hS, _⟩ := closed_db hc hr hl hD hK
  obtain ⟨cs, h, _⟩ := conforms_of (m := m) hS.db (fun k hk => hS.map.unique hm hk)
  have hf := full_overflows hS.db rfl
  exact ⟨recs.map Rec.toRecord, cs, conforms_settled (cf := a.conf lf) (a := a) h rfl rfl rfl rfl rfl, hf⟩

/-- A database with nine pairs and overflow records. -/
example : ∃ t fs m D K, Creatable demoArgs 32768 ∧ Reachable demoCfg demoArgs False t (none, fs) ∧ fs .log = none ∧
    Answers demoCfg demoArgs.keySize fs m ∧ bytesOf fs .dat = some D ∧ bytesOf fs .key = some K := by
  obtain ⟨t, fs, h1, h2⟩ := demo_closed
  obtain ⟨D', K', recs, B, view, hS, _⟩ := settled demo_creatable h1 h2
  obtain ⟨df, hd, sd⟩ := hS.closed.dat
  obtain ⟨kf, hk, sk⟩ := hS.closed.key
  exact ⟨t, fs, _, D', K', demo_creatable, h1, h2, hS.map, by rw [bytesOf, hd]; simp [sd.cur], by rw [bytesOf, hk]; simp [sk.cur]⟩

end NuDB
