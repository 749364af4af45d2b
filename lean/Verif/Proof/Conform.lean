import Verif.Proof.VerifyAccept2
import Verif.Proof.Settled
/- Databases written by the library have the documented layout. -/
namespace NuDB

open Spec

theorem value_u48 {p x y : Bytes} {o n : Nat} (h : p = x ++ (putU48 n ++ y)) (ho : o = x.length) (hn : n < 2 ^ 48) :
    value (bytesAt p o 6) = n := by
  rw [h, bytesAt_eq, slice_mid' ho (by simp), ← C18_u48.reads _ (by simp), C18_u48.roundtrip _ (by simpa using hn)]

theorem value_u16 {p x y : Bytes} {o n : Nat} (h : p = x ++ (putU16 n ++ y)) (ho : o = x.length) (hn : n < 2 ^ 16) :
    value (bytesAt p o 2) = n := by
  rw [h, bytesAt_eq, slice_mid' ho (by simp), ← C18_u16.reads _ (by simp), C18_u16.roundtrip _ (by simpa using hn)]

theorem value_u64 {p x y : Bytes} {o n : Nat} (h : p = x ++ (putU64 n ++ y)) (ho : o = x.length) (hn : n < 2 ^ 64) :
    value (bytesAt p o 8) = n := by
  rw [h, bytesAt_eq, slice_mid' ho (by simp), ← C18_u64.reads _ (by simp), C18_u64.roundtrip _ (by simpa using hn)]

/-- What is read from the bytes of a bucket. -/
theorem enc_block {es : List Entry} {s : Nat} {t blk : Bytes} (hb : blk = encBkt es s ++ t) (hl : es.length < 2 ^ 16) (hs : s < 2 ^ 48)
    (hf : ∀ e ∈ es, e.Fit) : countIn blk = es.length ∧ linkIn blk = s ∧ itemsIn blk = es := by
  have h1 : countIn blk = es.length := value_u16 (x := []) (y := putU48 s ++ (encEntries es ++ t)) (by rw [hb, encBkt]; simp) rfl hl
  refine ⟨h1, value_u48 (x := putU16 es.length) (y := encEntries es ++ t) (by rw [hb, encBkt]; simp) (by simp) hs, ?_⟩
  unfold itemsIn
  rw [h1]
  apply List.ext_getElem (by simp)
  intro i hi1 hi2
  simp only [List.getElem_map, List.getElem_range]
  have hi : i < es.length := hi2
  have hfi := hf es[i] (List.getElem_mem hi)
  have e : blk = (putU16 es.length ++ putU48 s ++ encEntries (es.take i)) ++ (putU48 es[i].offset ++ (putU48 es[i].size ++ (putU48 es[i].hash ++
      (encEntries (es.drop (i + 1)) ++ t)))) := by
    rw [hb, encBkt, encEntries_at hi, Bkt.putEntry]; simp
  have hlen : (putU16 es.length ++ putU48 s ++ encEntries (es.take i)).length = 8 + 18 * i := by
    simp; omega
  unfold itemAt
  rw [value_u48 e hlen.symm hfi.offset]
  rw [value_u48 (x := (putU16 es.length ++ putU48 s ++ encEntries (es.take i)) ++ putU48 es[i].offset)
    (y := putU48 es[i].hash ++ (encEntries (es.drop (i + 1)) ++ t)) (by rw [e]; simp) (by rw [List.length_append, hlen]; simp; omega)
    (Nat.lt_trans hfi.size (by decide))]
  rw [value_u48 (x := (putU16 es.length ++ putU48 s ++ encEntries (es.take i)) ++ putU48 es[i].offset ++ putU48 es[i].size)
    (y := encEntries (es.drop (i + 1)) ++ t) (by rw [e]; simp) (by rw [List.length_append, List.length_append, hlen]; simp; omega) hfi.hash]

theorem good_of_enc {bs : Nat} {es : List Entry} {blk : Bytes} (h1 : countIn blk = es.length) (h3 : itemsIn blk = es)
    (hl : es.length ≤ (bs - 8) / 18) (hs : Sorted es) (hf : ∀ e ∈ es, e.Fit) : GoodBlk bs blk := by
  have hi : ∀ i (hi : i < es.length), itemAt blk i = es[i] := by
    intro i hi
    have : (itemsIn blk)[i]'(by rw [h3]; exact hi) = es[i] := by simp only [h3]
    rw [← this]
    simp [itemsIn]
  refine ⟨by rw [h1]; exact hl, ?_, ?_⟩
  · intro i j hij hj
    rw [h1] at hj
    rw [hi i (by omega), hi j hj]
    rcases Nat.lt_or_ge i j with h | h
    · exact (List.pairwise_iff_getElem.1 hs) i j (by omega) hj h
    · have : i = j := by omega
      subst this; exact Nat.le_refl _
  · intro i hj
    rw [h1] at hj
    rw [hi i hj]
    exact (hf _ (List.getElem_mem hj)).size

/-- The overflow buckets behind a link. -/
theorem Chain.behind {D : Bytes} {bs s : Nat} {L : List Entry} (h104 : 104 ≤ bs) (h16 : bs < 2 ^ 16) (h : Chain D (bucketCapacity bs) s L) :
    ∃ ts, Behind D (bucketBytes bs) s ts ∧ ts.flatMap itemsIn = L ∧ GoodChain bs ts ∧ (∀ b ∈ ts, countIn b = (bs - 8) / 18) ∧
      ts.length ≤ s := by
  have hcap : bucketCapacity bs = (bs - 8) / 18 := by
    unfold bucketCapacity keyHeaderSize
    rw [if_neg (by simp; omega)]
  have hbb := bucketBytes_eq h104
  rw [hbb]
  induction h with
  | nil => exact ⟨[], .inl ⟨rfl, rfl⟩, rfl, (fun b hb => by cases hb), (fun b hb => by cases hb), Nat.le_refl _⟩
  | @link s s' es L h0 h48 hr hb hl hs hf hd hlk _ ih =>
    obtain ⟨ts, h1, h2, h3, h4, h5⟩ := ih
    obtain ⟨a1, a2, a3⟩ := enc_block (s := s') (t := []) (blk := slice D s (bucketSize (bucketCapacity bs))) (by rw [hb]; simp) (by omega) (by omega) hf
    have hg := good_of_enc (bs := bs) a1 a3 (by omega) hs hf
    refine ⟨slice D s (bucketSize (bucketCapacity bs)) :: ts, .inr ⟨h0, hr, ?_⟩, ?_, ?_, ?_, ?_⟩
    · rw [bytesAt_eq]
      rw [← a2] at h1
      exact h1.chained
    · rw [List.flatMap_cons, a3, h2]
    · intro b hb'
      rcases List.mem_cons.1 hb' with rfl | hb'
      · exact hg
      · exact h3 b hb'
    · intro b hb'
      rcases List.mem_cons.1 hb' with rfl | hb'
      · rw [a1, hl, hcap]
      · exact h4 b hb'
    · simp only [List.length_cons]; omega

section
variable {c : Cfg} {cf : Conf} {D K : Bytes} {recs : List Rec} {B : Nat} {view : View}

theorem items_located (hash : Bytes → Nat) (rs : List Rec) : ∀ o,
    (itemsOf hash o rs).map (·.1) = (located o (rs.map Rec.toRecord)).map (fun y => ⟨y.1, y.2.2.length, hash y.2.1⟩) := by
  induction rs with
  | nil => intro o; rfl
  | cons r rs ih =>
    intro o
    cases r with
    | data k v =>
      simp only [itemsOf, List.map_cons, Rec.toRecord, located, ih]
      rw [← toRecord_bytes]; rfl
    | spill es s =>
      simp only [itemsOf, List.map_cons, Rec.toRecord, located, ih]
      rw [← toRecord_bytes]; rfl

/-- A bucket of the key file with its overflow buckets. -/
theorem Db.bucket (h : Db c cf D K recs B view) {n : Nat} (hn : n < B) :
    ∃ ts, Chained D (bucketBytes cf.blockSize) (bytesAt K ((n + 1) * cf.blockSize) (bucketBytes cf.blockSize))
        (bytesAt K ((n + 1) * cf.blockSize) (bucketBytes cf.blockSize) :: ts) ∧
      GoodChain cf.blockSize (bytesAt K ((n + 1) * cf.blockSize) (bucketBytes cf.blockSize) :: ts) ∧
      (∀ b ∈ ts, countIn b = (cf.blockSize - 8) / 18) ∧ ts.length ≤ D.length ∧
      countIn (bytesAt K ((n + 1) * cf.blockSize) (bucketBytes cf.blockSize)) = (view n).1.length ∧
      ((bytesAt K ((n + 1) * cf.blockSize) (bucketBytes cf.blockSize) :: ts).flatMap itemsIn).Perm
        (((items c cf recs).map (·.1)).filter (inBucket B (ceilPow2 B) n)) := by
  have h104 := h.conf.bs1
  have h16 := h.conf.bs2
  have hcap : cf.cap = (cf.blockSize - 8) / 18 := by
    unfold Conf.cap bucketCapacity keyHeaderSize
    rw [if_neg (by simp; omega)]
  have hbb := bucketBytes_eq h104
  have hb := h.filed n hn
  obtain ⟨L, hL, hp⟩ := hb.chain
  have hlt := hL.lt48
  have hle := hL.le_length
  obtain ⟨t, ht⟩ := slice_block (h.key.blocks n hn) (h.conf.cap_le) hb.len
  have hlen := hb.len
  obtain ⟨a1, a2, a3⟩ := enc_block ht (by omega) hlt hb.fit
  have hg := good_of_enc (bs := cf.blockSize) a1 a3 (by omega) hb.sorted hb.fit
  obtain ⟨ts, b1, b2, b3, b4, b5⟩ := hL.behind h104 h16
  have e : bytesAt K ((n + 1) * cf.blockSize) (bucketBytes cf.blockSize) = slice K ((n + 1) * cf.blockSize) (bucketSize cf.cap) := by
    rw [bytesAt_eq, hbb]; rfl
  rw [e]
  rw [← a2] at b1
  refine ⟨ts, b1.chained, ?_, b4, ?_, a1, ?_⟩
  · intro b hb'
    rcases List.mem_cons.1 hb' with rfl | hb'
    · exact hg
    · exact b3 b hb'
  · rw [a2] at b1
    rcases b1 with ⟨_, rfl⟩ | ⟨h0, _⟩
    · simp
    · have := hle h0
      omega
  · rw [List.flatMap_cons, a3, b2]
    exact hp

theorem layout_split {ks : Nat} (a : List Record) : ∀ {rs : List Record}, (∀ r ∈ a, r.Ok ks) → (∀ r ∈ rs, r.Ok ks) →
    layout a <+: layout rs → ∃ t, rs = a ++ t := by
  induction a with
  | nil => intro rs _ _ _; exact ⟨rs, rfl⟩
  | cons r a ih =>
    intro rs h1 h2 h
    cases rs with
    | nil =>
      have h3 := h.length_le
      have h6 := record_pos r
      rw [layout_cons, List.length_append] at h3
      have h0 : (layout []).length = 0 := rfl
      omega
    | cons r' rs =>
      obtain ⟨u, hu⟩ := h
      rw [layout_cons, layout_cons, List.append_assoc] at hu
      obtain ⟨e1, e2⟩ := record_inj (h1 r (by simp)) (h2 r' (by simp)) hu
      obtain ⟨t, ht⟩ := ih (fun x hx => h1 x (by simp [hx])) (fun x hx => h2 x (by simp [hx])) ⟨u, e2⟩
      exact ⟨t, by rw [← e1, ht]; rfl⟩

theorem bodies_append (a b : List Record) : ∀ o, bodies o (a ++ b) = bodies o a ++ bodies (o + (layout a).length) b := by
  induction a with
  | nil => intro o; rfl
  | cons r a ih =>
    intro o
    cases r <;> simp only [List.cons_append, bodies, ih, layout_cons, List.length_append, Nat.add_assoc]

/-- Records up to a link, as far as they are in a file with these records. -/
theorem Linked.body {es : List Entry} {s s' : Nat} (h : Linked D s es s') (hc : cf.Ok) (hd : DatFile cf D recs) :
    (s, encBkt es s') ∈ bodies 92 (recs.map Rec.toRecord) := by
  obtain ⟨cf', rs, h1, h2, h3, rfl⟩ := h
  have hok : ∀ {cf : Conf} {l : List Rec}, (∀ r ∈ l, r.Ok cf) → ∀ x ∈ l.map Rec.toRecord, x.Ok cf.keySize := by
    intro cf l hl x hx
    obtain ⟨r, hr, rfl⟩ := List.mem_map.1 hx
    have := hl r hr
    cases r with
    | data k v => exact this.data k v rfl
    | spill es s =>
      show (encBkt es s).length < 2 ^ 16
      rw [encBkt_length]
      exact (this.spill es s rfl).1
  obtain ⟨u, hu⟩ := h3
  rw [hd.eq, List.append_assoc] at hu
  obtain ⟨e1, e2⟩ := List.append_inj hu (by simp)
  have hv : ∀ {cf : Conf}, cf.Ok → value (bytesAt (putDatHeader cf.dh) 26 2) = cf.keySize := fun {cf} hcf =>
    value_u16 (x := datType ++ (putU16 cf.dh.version ++ (putU64 cf.dh.uid ++ putU64 cf.dh.appnum)))
      (y := zeros 64) (by unfold putDatHeader; simp only [List.append_assoc]; rfl) rfl hcf.key2
  have hks : cf'.keySize = cf.keySize := by rw [← hv h1, ← hv hc, e1]
  have h2' := hok h2
  rw [hks] at h2'
  obtain ⟨t, ht⟩ := layout_split _ h2' (hok hd.ok) ⟨u, by rw [layout_toRecord, layout_toRecord]; exact e2⟩
  rw [ht, List.map_append, bodies_append, bodies_append]
  refine List.mem_append_left _ (List.mem_append_right _ ?_)
  rw [layout_toRecord]
  simp [bodies, Rec.toRecord]

/-- The links of a chain. -/
theorem Chain.links {X : List (Nat × Bytes)} {bs s : Nat} {L : List Entry} (h104 : 104 ≤ bs) (h16 : bs < 2 ^ 16)
    (hX : ∀ s es s', Linked D s es s' → (s, encBkt es s') ∈ X) (h : Chain D (bucketCapacity bs) s L) :
    ∀ {ts : List Bytes}, Behind D (bucketBytes bs) s ts →
      (s ≠ 0 → (s, bytesAt D s (bucketBytes bs)) ∈ X) ∧ ∀ b ∈ ts, linkIn b ≠ 0 → (linkIn b, bytesAt D (linkIn b) (bucketBytes bs)) ∈ X := by
  have hcap : bucketCapacity bs = (bs - 8) / 18 := by
    unfold bucketCapacity keyHeaderSize
    rw [if_neg (by simp; omega)]
  have hbb := bucketBytes_eq h104
  rw [hbb]
  induction h with
  | nil =>
    intro ts hb
    rcases hb with ⟨_, rfl⟩ | ⟨h0, _⟩
    · exact ⟨fun h => absurd rfl h, fun b hb => by cases hb⟩
    · exact absurd rfl h0
  | @link s s' es L h0 h48 hr hb hl hs hf hd hlk _ ih =>
    intro ts hbh
    obtain ⟨a1, a2, a3⟩ := enc_block (s := s') (t := []) (blk := slice D s (bucketSize (bucketCapacity bs))) (by rw [hb]; simp) (by omega) (by omega) hf
    rcases hbh with ⟨h0', _⟩ | ⟨_, _, hch⟩
    · exact absurd h0' h0
    have hq := hX _ _ _ hlk
    rw [bytesAt_eq] at hch ⊢
    refine ⟨fun _ => by rw [hb]; exact hq, ?_⟩
    cases hch with
    | last h =>
      intro b hb' hl'
      rw [List.mem_singleton.1 hb'] at hl'
      exact absurd h hl'
    | more h hr' ht =>
      rw [a2] at h hr' ht
      obtain ⟨g1, g2⟩ := ih (.inr ⟨h, hr', ht⟩)
      intro b hb' hl'
      rcases List.mem_cons.1 hb' with rfl | hb'
      · rw [a2]; exact g1 h
      · exact g2 b hb' hl'

theorem Db.links (h : Db c cf D K recs B view) {n : Nat} (hn : n < B) {bs : List Bytes}
    (hch : Chained D (bucketBytes cf.blockSize) (bytesAt K ((n + 1) * cf.blockSize) (bucketBytes cf.blockSize)) bs) :
    ∀ b ∈ bs, linkIn b ≠ 0 → (linkIn b, bytesAt D (linkIn b) (bucketBytes cf.blockSize)) ∈ bodies 92 (recs.map Rec.toRecord) := by
  have h104 := h.conf.bs1
  have h16 := h.conf.bs2
  have hcap : cf.cap = (cf.blockSize - 8) / 18 := by
    unfold Conf.cap bucketCapacity keyHeaderSize
    rw [if_neg (by simp; omega)]
  have hbb := bucketBytes_eq h104
  have hb := h.filed n hn
  obtain ⟨L, hL, hp⟩ := hb.chain
  obtain ⟨t, ht⟩ := slice_block (h.key.blocks n hn) (h.conf.cap_le) hb.len
  have hlen := hb.len
  obtain ⟨a1, a2, a3⟩ := enc_block ht (by omega) hL.lt48 hb.fit
  have e : bytesAt K ((n + 1) * cf.blockSize) (bucketBytes cf.blockSize) = slice K ((n + 1) * cf.blockSize) (bucketSize cf.cap) := by
    rw [bytesAt_eq, hbb]; rfl
  rw [e] at hch
  cases hch with
  | last h0 =>
    intro b hb' hl'
    rw [List.mem_singleton.1 hb'] at hl'
    exact absurd h0 hl'
  | more h0 hr ht =>
    rw [a2] at h0 hr ht
    obtain ⟨g1, g2⟩ := hL.links h104 h16 (fun s es s' hlk => hlk.body h.conf h.dat) (.inr ⟨h0, hr, ht⟩)
    intro b hb' hl'
    rcases List.mem_cons.1 hb' with rfl | hb'
    · rw [a2]; exact g1 h0
    · exact g2 b hb' hl'

/-- The headers pass the tests. -/
theorem Db.heads (h : Db c cf D K recs B view) : Heads c D K (cf.kh c.H B) := by
  obtain ⟨h1, h2, h3⟩ := h.klen
  have hd : 92 ≤ D.length := by rw [h.dat.eq]; simp
  have e := get_dh h.dat h.conf (List.prefix_refl D)
  refine ⟨hd, by omega, ?_, by rw [e]; exact verifyDat_ok h.conf, verifyKey_ok h.conf h.b1, by rw [e]; exact verifyDatKey_ok h.conf h.b1⟩
  rw [get_kh h.conf h.key.head, h3]

theorem Db.parse (h : Db c cf D K recs B view) : D = D.take 92 ++ layout (recs.map Rec.toRecord) ∧
    D.take 92 = putDatHeader cf.dh := by
  have e : D.take 92 = putDatHeader cf.dh := by
    rw [h.dat.eq, List.take_append_of_le_length (by simp), List.take_of_length_le (by simp)]
  rw [e, layout_toRecord]
  exact ⟨h.dat.eq, rfl⟩

theorem Db.recOk (h : Db c cf D K recs B view) : ∀ x ∈ recs.map Rec.toRecord, x.Ok cf.keySize := by
  intro x hx
  obtain ⟨r, hr, rfl⟩ := List.mem_map.1 hx
  have := h.dat.ok r hr
  cases r with
  | data k v => exact this.data k v rfl
  | spill es s =>
    show (encBkt es s).length < 2 ^ 16
    rw [encBkt_length]
    exact (this.spill es s rfl).1

theorem Db.mod (h : Db c cf D K recs B view) : ceilPow2 B ≤ 2 ^ 32 := by
  have h1 := h.b1
  have h2 := h.b2
  exact (ceilPow2_is h1 (by omega)).2.2 32 h2

/-- The table as a function. -/
theorem Db.table (h : Db c cf D K recs B view) : ∃ T, GoodTable (cf.kh c.H B) D K T ∧
    ∀ n, n < B → ((T n).flatMap itemsIn).Perm (((items c cf recs).map (·.1)).filter (inBucket B (ceilPow2 B) n)) ∧
      (∀ b ∈ (T n).tail, countIn b = (cf.blockSize - 8) / 18) := by
  have key : ∀ n, ∃ t : List Bytes, n < B →
      (Chained D (bucketBytes cf.blockSize) (bytesAt K ((n + 1) * cf.blockSize) (bucketBytes cf.blockSize)) t ∧
      GoodChain cf.blockSize t ∧ (∀ b ∈ t.tail, countIn b = (cf.blockSize - 8) / 18) ∧ t.length ≤ D.length + 2 ∧
      (t.flatMap itemsIn).Perm (((items c cf recs).map (·.1)).filter (inBucket B (ceilPow2 B) n))) := by
    intro n
    by_cases hn : n < B
    · obtain ⟨ts, h1, h2, h3, h4, _, h5⟩ := h.bucket hn
      exact ⟨_, fun _ => ⟨h1, h2, h3, by simp only [List.length_cons]; omega, h5⟩⟩
    · exact ⟨[], fun h => absurd h hn⟩
  obtain ⟨T, hT⟩ := Classical.axiomOfChoice key
  refine ⟨T, ⟨h.conf.bs1, h.conf.bs2, rfl, h.mod, ?_, fun n hn => (hT n hn).1, fun n hn => (hT n hn).2.1, fun n hn => (hT n hn).2.2.2.1⟩,
    fun n hn => ⟨(hT n hn).2.2.2.2, (hT n hn).2.2.1⟩⟩
  rw [h.key.len]; exact Nat.le_refl _

/-- The items listed in bucket `n` are those of the records with that home. -/
theorem Db.listed (_h : Db c cf D K recs B view) {n : Nat} :
    ((items c cf recs).map (·.1)).filter (inBucket B (ceilPow2 B) n) =
      ((located 92 (recs.map Rec.toRecord)).filter (fun y => homeOf c (cf.kh c.H B) y.2.1 == n)).map
        (fun y => ⟨y.1, y.2.2.length, hashKey c.H cf.salt y.2.1⟩) := by
  unfold items
  rw [items_located, List.filter_map]
  rfl

theorem Db.indexed (h : Db c cf D K recs B view) {T : Nat → List Bytes}
    (hT : ∀ n, n < B → ((T n).flatMap itemsIn).Perm (((items c cf recs).map (·.1)).filter (inBucket B (ceilPow2 B) n))) :
    Indexed c (cf.kh c.H B) T ((located 92 (recs.map Rec.toRecord)).map (fun y => (y.1, y.2.1))) := by
  have h1 := h.b1
  have h2 := h.b2
  intro x hx
  obtain ⟨y, hy, rfl⟩ := List.mem_map.1 hx
  have hlt : homeOf c (cf.kh c.H B) y.2.1 < B := (C21_in_range h1 (by omega) _).2.1
  refine ⟨hlt, ⟨y.1, y.2.2.length, hashKey c.H cf.salt y.2.1⟩, ?_, rfl, rfl⟩
  rw [(hT _ hlt).mem_iff, h.listed]
  exact List.mem_map.2 ⟨y, List.mem_filter.2 ⟨hy, by simp⟩, rfl⟩

theorem Db.counts (h : Db c cf D K recs B view) {T : Nat → List Bytes}
    (hT : ∀ n, n < B → ((T n).flatMap itemsIn).Perm (((items c cf recs).map (·.1)).filter (inBucket B (ceilPow2 B) n))) :
    ∀ n, n < B → homeCount c (cf.kh c.H B) n (recs.map Rec.toRecord) = chainKeys (T n) := by
  intro n hn
  rw [chainKeys_eq, (hT n hn).length_eq, h.listed, List.length_map, homeCount_located]

theorem Db.looks (h : Db c cf D K recs B view) {e : Entry} (he : e ∈ (items c cf recs).map (·.1)) :
    Looks c.H cf.salt cf.keySize D e := by
  obtain ⟨x, hx, rfl⟩ := List.mem_map.1 he
  have hs := h.dat.stored x hx
  have hr := hs.range
  have hf : x.2.2.length < 2 ^ 48 := by
    have h1 := h.dlen
    obtain ⟨r, hr1⟩ : ∃ r ∈ recs, r = .data x.2.1 x.2.2 := by
      have : x.2 ∈ pairsOf recs := by
        rw [← itemsOf_pairs (cf.hash c.H) 92]; exact List.mem_map.2 ⟨x, hx, rfl⟩
      clear hs hr he hx h1
      generalize x.2 = p at this
      clear h
      induction recs with
      | nil => cases this
      | cons r rs ih =>
        cases r with
        | data k v =>
          simp only [pairsOf, List.mem_cons] at this
          rcases this with rfl | this
          · exact ⟨_, List.mem_cons_self .., rfl⟩
          · obtain ⟨r, h1, h2⟩ := ih this; exact ⟨r, List.mem_cons_of_mem _ h1, h2⟩
        | spill es s =>
          simp only [pairsOf] at this
          obtain ⟨r, h1, h2⟩ := ih this; exact ⟨r, List.mem_cons_of_mem _ h1, h2⟩
    have := ((h.dat.ok r hr1.1).data _ _ hr1.2).2.2
    omega
  refine ⟨by omega, ?_, ?_⟩
  · rw [bytesAt_eq, hs.len, ← C18_u48.reads _ (by simp), C18_u48.roundtrip _ (by simpa using hf), hs.size]
  · rw [hs.hash, bytesAt_eq, ← take_slice (n := cf.keySize + x.1.size) (by omega), hs.bytes, ← hs.key]
    simp [Conf.hash, hashKey_eq]

/-- The records as `verify_normal` sees them. -/
def Rec.loose : Rec → Loose
  | .data k v => .value k v
  | .spill es s => .spill (encBkt es s)

theorem Db.loose (h : Db c cf D K recs B view) (hm : cf.mixed = false) :
    D = D.take 92 ++ looseLayout cf.cap (recs.map Rec.loose) ∧ (∀ x ∈ recs.map Rec.loose, x.Ok cf.keySize cf.cap) ∧
    (locatedL cf.cap 92 (recs.map Rec.loose)) = (located 92 (recs.map Rec.toRecord)).map (fun y => (y.1, y.2.1)) := by
  have hb : ∀ r ∈ recs, r.loose.bytes cf.cap = r.toRecord.bytes := by
    intro r hr
    have := h.dat.ok r hr
    cases r with
    | data k v => rfl
    | spill es s =>
      have hf := (this.full es s rfl).resolve_right (by rw [hm]; simp)
      rw [Rec.toRecord, overflow_record, Rec.loose, Loose.bytes, encBkt_length, hf]
  have hl : looseLayout cf.cap (recs.map Rec.loose) = layout (recs.map Rec.toRecord) := by
    clear h
    induction recs with
    | nil => rfl
    | cons r rs ih =>
      rw [List.map_cons, List.map_cons, layout_cons, ← ih (fun r hr => hb r (by simp [hr])), ← hb r (by simp)]
      simp [looseLayout]
  refine ⟨by rw [hl]; exact h.parse.1, ?_, ?_⟩
  · intro x hx
    obtain ⟨r, hr, rfl⟩ := List.mem_map.1 hx
    have := h.dat.ok r hr
    cases r with
    | data k v => exact this.data k v rfl
    | spill es s =>
      have hf := (this.full es s rfl).resolve_right (by rw [hm]; simp)
      obtain ⟨s1, s2, s3, s4⟩ := this.spill es s rfl
      have s1' : bucketSize es.length = 8 + es.length * 18 := rfl
      obtain ⟨a1, _, _⟩ := enc_block (t := []) (blk := encBkt es s) (by simp) (by omega) s4 s2
      show (encBkt es s).length = _ ∧ countIn (encBkt es s) ≤ _
      rw [a1, encBkt_length]
      omega
  · clear hl h
    generalize 92 = o
    induction recs generalizing o with
    | nil => rfl
    | cons r rs ih =>
      have hbr := hb r (by simp)
      have ih := ih (fun r hr => hb r (by simp [hr]))
      cases r with
      | data k v =>
        simp only [List.map_cons, Rec.loose, Rec.toRecord, locatedL, located, ih]
      | spill es s =>
        simp only [Rec.loose, Rec.toRecord] at hbr
        simp only [List.map_cons, Rec.loose, Rec.toRecord, locatedL, located, hbr, ih]

theorem Db.spillSizes (h : Db c cf D K recs B view) (hm : cf.mixed = false) (hb : bucketCapacity (bucketSize cf.cap) = cf.cap ∨ overflows (recs.map Rec.toRecord) = []) :
    SpillSizes (recs.map Rec.toRecord) := by
  rcases hb with hb | hb
  · intro b hbm
    simp only [overflows, List.mem_filterMap, List.mem_map] at hbm
    obtain ⟨x, ⟨r, hr, rfl⟩, hx⟩ := hbm
    cases r with
    | data k v => simp [Rec.toRecord] at hx
    | spill es s =>
      simp only [Rec.toRecord, Option.some.injEq] at hx
      have hf := ((h.dat.ok _ hr).full es s rfl).resolve_right (by rw [hm]; simp)
      rw [← hx, encBkt_length, hf, hb]
  · intro b hbm
    rw [hb] at hbm
    cases hbm

theorem Db.compact (h : Db c cf D K recs B view) : ∀ x ∈ recs.map Rec.toRecord, Compact x := by
  intro x hx
  obtain ⟨r, hr, rfl⟩ := List.mem_map.1 hx
  have := h.dat.ok r hr
  cases r with
  | data k v => trivial
  | spill es s =>
    obtain ⟨s1, s2, s3, s4⟩ := this.spill es s rfl
    have s1' : bucketSize es.length = 8 + es.length * 18 := rfl
    obtain ⟨a1, _, _⟩ := enc_block (t := []) (blk := encBkt es s) (by simp) (by omega) s4 s2
    show (encBkt es s).length = _
    rw [a1, encBkt_length]
    omega

end

end NuDB
