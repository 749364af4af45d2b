import Verif.Proof.Fetch
/- `fetch` and the presence test of `insert` against the list of stored pairs. -/
namespace NuDB

/-- Value of a key in a list of pairs. -/
def kvOf (ps : List (Bytes × Bytes)) (k : Bytes) : Option Bytes :=
  (ps.find? (fun p => p.1 == k)).map (·.2)

theorem kvOf_none {ps : List (Bytes × Bytes)} {k : Bytes} : kvOf ps k = none ↔ k ∉ ps.map (·.1) := by
  simp only [kvOf, Option.map_eq_none_iff, List.find?_eq_none, List.mem_map, beq_iff_eq]
  constructor
  · rintro h ⟨p, hp, rfl⟩; exact h p hp rfl
  · intro h p hp e; exact h ⟨p, hp, e⟩

theorem kvOf_some {ps : List (Bytes × Bytes)} {k v : Bytes} (hn : (ps.map (·.1)).Nodup) :
    kvOf ps k = some v ↔ (k, v) ∈ ps := by
  induction ps with
  | nil => simp [kvOf]
  | cons p ps ih =>
    simp only [List.map_cons, List.nodup_cons] at hn
    by_cases h : p.1 = k
    · simp only [kvOf, List.find?_cons, beq_iff_eq, h, Option.map_some, Option.some.injEq, List.mem_cons, beq_self_eq_true]
      constructor
      · rintro rfl; left; rw [← h]
      · rintro (e | e)
        · rw [← e]
        · exfalso; apply hn.1; rw [h]; exact List.mem_map.mpr ⟨_, e, rfl⟩
    · have : kvOf (p :: ps) k = kvOf ps k := by simp [kvOf, List.find?_cons, h]
      rw [this, ih hn.2, List.mem_cons]
      constructor
      · exact .inr
      · rintro (e | e)
        · exact absurd (by rw [← e]) h
        · exact e

section
variable {c : Cfg} {cf : Conf} {D : Bytes} {recs : List Rec} {B m n : Nat} {E : List Entry}

/-- The items behind the entries of one bucket. -/
theorem entry_item (hd : DatFile cf D recs)
    (hp : E.Perm (((items c cf recs).map (·.1)).filter (inBucket B m n))) {e : Entry} (he : e ∈ E) :
    ∃ k v, (k, v) ∈ pairsOf recs ∧ Stored (cf.hash c.H) cf.keySize D e k v := by
  have h1 := hp.mem_iff.mp he
  simp only [List.mem_filter, List.mem_map] at h1
  obtain ⟨⟨x, hx, rfl⟩, _⟩ := h1
  refine ⟨x.2.1, x.2.2, ?_, hd.stored x hx⟩
  rw [← itemsOf_pairs (cf.hash c.H) 92 recs]
  exact List.mem_map.mpr ⟨x, hx, rfl⟩

theorem item_entry (hd : DatFile cf D recs) {key v : Bytes}
    (hn : n = bucketIndex (cf.hash c.H key) B m)
    (hp : E.Perm (((items c cf recs).map (·.1)).filter (inBucket B m n)))
    (hk : (key, v) ∈ pairsOf recs) :
    ∃ e ∈ E, Stored (cf.hash c.H) cf.keySize D e key v := by
  rw [← itemsOf_pairs (cf.hash c.H) 92 recs] at hk
  obtain ⟨x, hx, he⟩ := List.mem_map.mp hk
  have hs := hd.stored (c := c) x hx
  rw [he] at hs
  refine ⟨x.1, ?_, hs⟩
  rw [hp.mem_iff]
  simp only [List.mem_filter, List.mem_map, inBucket, beq_iff_eq]
  refine ⟨⟨x, hx, rfl⟩, ?_⟩
  rw [hs.hash, hn]

theorem inRange_of (hd : DatFile cf D recs) {F : Bytes} (hF : D <+: F)
    (hp : E.Perm (((items c cf recs).map (·.1)).filter (inBucket B m n))) :
    InRange F cf.keySize E := by
  intro e he
  obtain ⟨k, v, _, hs⟩ := entry_item hd hp he
  exact (hs.mono hF).range

theorem stored_key {hash : Bytes → Nat} {ks : Nat} {e : Entry} {k v : Bytes}
    (hs : Stored hash ks D e k v) : slice D (e.offset + 6) ks = k := by
  have h : slice (slice D (e.offset + 6) (ks + e.size)) 0 ks = slice (k ++ v) 0 ks := by rw [hs.bytes]
  rw [slice_slice (by omega)] at h
  rw [show e.offset + 6 + 0 = e.offset + 6 from rfl] at h
  rw [h, ← hs.key]; simp [slice]

theorem scan_some (hd : DatFile cf D recs) {F : Bytes} (hF : D <+: F)
    (hp : E.Perm (((items c cf recs).map (·.1)).filter (inBucket B m n))) {h : Nat} {key v : Bytes}
    (hk : key.length = cf.keySize)
    (hs : ScanPost F cf.keySize h key E (some v)) : kvOf (pairsOf recs) key = some v := by
  obtain ⟨e, he, _, hb⟩ := hs.found v rfl
  obtain ⟨k', v', hm, hst⟩ := entry_item hd hp he
  have hst' := (hst.mono hF).bytes
  rw [hb] at hst'
  obtain ⟨e1, e2⟩ := List.append_inj hst' (by rw [hk, hst.key])
  subst e1 e2
  exact (kvOf_some hd.nodup).mpr hm

theorem scan_none (hd : DatFile cf D recs) {F : Bytes} (hF : D <+: F) {key : Bytes}
    (hn : n = bucketIndex (cf.hash c.H key) B m)
    (hp : E.Perm (((items c cf recs).map (·.1)).filter (inBucket B m n)))
    (hs : ScanPost F cf.keySize (cf.hash c.H key) key E none) : kvOf (pairsOf recs) key = none := by
  cases hkv : kvOf (pairsOf recs) key with
  | none => rfl
  | some v =>
    exfalso
    obtain ⟨e, he, hst⟩ := item_entry hd hn hp ((kvOf_some hd.nodup).mp hkv)
    exact hs.missing rfl e he hst.hash (stored_key (hst.mono hF))

theorem scan_exists (hd : DatFile cf D recs) {F : Bytes} (hF : D <+: F) {key : Bytes}
    (hn : n = bucketIndex (cf.hash c.H key) B m)
    (hp : E.Perm (((items c cf recs).map (·.1)).filter (inBucket B m n))) :
    (∃ e ∈ E, e.hash = cf.hash c.H key ∧ slice F (e.offset + 6) cf.keySize = key) ↔
      (kvOf (pairsOf recs) key).isSome := by
  constructor
  · rintro ⟨e, he, _, hb⟩
    obtain ⟨k', v', hm, hst⟩ := entry_item hd hp he
    have := stored_key (hst.mono hF)
    rw [hb] at this
    subst this
    rw [(kvOf_some hd.nodup).mpr hm]; rfl
  · intro h
    obtain ⟨v, hv⟩ := Option.isSome_iff_exists.mp h
    obtain ⟨e, he, hst⟩ := item_entry hd hn hp ((kvOf_some hd.nodup).mp hv)
    exact ⟨e, he, hst.hash, stored_key (hst.mono hF)⟩

end

/-- A cached blob holds a bucket. -/
structure Blob (bs : Nat) (p : Bytes) (es : List Entry) (s : Nat) : Prop where
  len : p.length = bs
  enc : ∃ t, p = encBkt es s ++ t

/-- The files and the memory of an open store together describe the records `recs`
and the buckets `view`. -/
structure Ready (c : Cfg) (cf : Conf) (s : Store) (fs : Fs) (D : Bytes) (recs : List Rec)
    (view : View) : Prop where
  conf : cf.Ok
  kh : ∃ B0, s.kh = cf.kh c.H B0
  b1 : 1 ≤ s.buckets
  mod : IsModulus s.buckets s.modulus
  mle : s.modulus ≤ 2 ^ 32
  dat : DatFile cf D recs
  file : ∃ f, fs .dat = some f ∧ D <+: f.cur
  filed : Filed D cf.cap s.buckets s.modulus view ((items c cf recs).map (·.1))
  key : ∃ f, fs .key = some f ∧ ∀ n, n < s.buckets →
    (∃ p, s.c1.find n = some p ∧ Blob cf.blockSize p (view n).1 (view n).2) ∨
    (s.c1.find n = none ∧ (n + 1) * cf.blockSize + cf.blockSize ≤ f.cur.length ∧
      slice f.cur ((n + 1) * cf.blockSize) cf.blockSize =
        encBlock cf.blockSize (view n).1 (view n).2)

theorem Blob.load {bs : Nat} {p : Bytes} {es : List Entry} {s : Nat} (h : Blob bs p es s)
    (hb : bs < 2 ^ 16) (hf : ∀ e ∈ es, e.Fit) (hs : s < 2 ^ 48) :
    ∃ b, Bkt.ofMem bs p = .ok b ∧ Rep b es s ∧ b.bs = bs ∧ b.p = p := by
  obtain ⟨t, rfl⟩ := h.enc
  exact ofMem_enc h.len hb hf hs

theorem slice_block {bs cap : Nat} {K : Bytes} {o : Nat} {es : List Entry} {s : Nat}
    (h : slice K o bs = encBlock bs es s) (hc : bucketSize cap ≤ bs) (hl : es.length ≤ cap) :
    ∃ t, slice K o (bucketSize cap) = encBkt es s ++ t := by
  have h1 : slice (slice K o bs) 0 (bucketSize cap) = slice K o (bucketSize cap) := by
    rw [slice_slice (by omega)]; rfl
  have h2 : bucketSize es.length ≤ bucketSize cap := by simp [bucketSize]; omega
  rw [← h1, h, encBlock]
  refine ⟨zeros (bucketSize cap - bucketSize es.length), ?_⟩
  simp only [slice, List.drop_zero, List.take_append, encBkt_length, zeros_take]
  rw [List.take_of_length_le (by simp; omega)]
  congr 2; omega

section
variable {c : Cfg} {cf : Conf} {s : Store} {D : Bytes} {recs : List Rec} {view : View}
  {σ : Schedule} {w : World} {X : Exc → World → Prop}

theorem bucketIndexA_ok {h B m : Nat} (hm : m ≤ 2 ^ 32) :
    bucketIndexA h B m = .ok (bucketIndex h B m) := by
  unfold bucketIndexA
  rw [assert_ok (by simp; omega)]; rfl

/-- Bringing a bucket to memory during a lookup. -/
theorem wp_getBucket (hr : Ready c cf s w.fs D recs view) {n : Nat} (hn : n < s.buckets)
    {α : Type} {k : Bkt → M α} {Q : α → World → Prop}
    (hk : ∀ b w', Quiet w w' → Rep b (view n).1 (view n).2 → b.bs = cf.blockSize →
      wp σ (k b) Q X w')
    (hX : ∀ x w', IsFault x → Faulty σ → Quiet w w' → X x w') :
    wp σ (match s.c1.find n with
      | some p => do
        let b ← M.lift (Bkt.ofMem s.kh.blockSize p)
        k b
      | none => do
        let b ← M.lift (Bkt.ofMem s.kh.blockSize (c.fresh s.kh.blockSize))
        let b ← b.readFile .key ((n + 1) * s.kh.blockSize)
        k b) Q X w := by
  obtain ⟨B0, hkh⟩ := hr.kh
  have hbs : s.kh.blockSize = cf.blockSize := by rw [hkh]; rfl
  obtain ⟨f, hf, hblk⟩ := hr.key
  have hok := hr.filed n hn
  rw [hbs]
  rcases hblk n hn with ⟨p, hp, hb⟩ | ⟨hp, hlen, hb⟩
  · rw [hp]
    obtain ⟨b, h1, h2, h3, _⟩ := hb.load hr.conf.bs2 hok.fit hok.lt48
    apply wp_bind
    apply wp_lift_ok h1
    exact hk b w (Quiet.refl w) h2 h3
  · rw [hp]
    have h104 := hr.conf.bs1
    obtain ⟨b, h1, h2, h3⟩ := ofMem_any (bs := cf.blockSize) (p := c.fresh cf.blockSize)
      (by simp; omega)
    apply wp_bind
    apply wp_lift_ok h1
    apply wp_bind
    have hcap : bucketCapacity b.bs = cf.cap := by rw [h2]; rfl
    obtain ⟨t, ht⟩ := slice_block hb hr.conf.cap_le hok.len
    apply wp_readFile (es := (view n).1) (s := (view n).2) (t := t) hf
    · rw [hcap]; have := hr.conf.cap_le; omega
    · rw [hcap]; exact ht
    · rw [h3, h2]; simp
    · rw [hcap, h2]; exact hr.conf.cap_le
    · rw [h2]; exact hr.conf.bs2
    · exact hok.fit
    · exact hok.lt48
    · rw [hcap]; exact hok.len
    · intro b' hb' hbs'
      exact hk b' _ (Quiet.tick w) hb' (by rw [hbs', h2])
    · intro x hx hfa; exact hX x _ hx hfa (Quiet.tick w)

/-- The answer of a store to a lookup. -/
def answer (s : Store) (recs : List Rec) (key : Bytes) : Option Bytes :=
  match s.p1.find key with
  | some it => some it.data
  | none =>
    match s.p0.find key with
    | some it => some it.data
    | none => kvOf (pairsOf recs) key

theorem wp_fetch (hr : Ready c cf s w.fs D recs view) (hec : s.ec = none) {key : Bytes}
    (hk : key.length = cf.keySize) {Q : Bytes → World → Prop}
    (hQ : ∀ v w', Quiet w w' → answer s recs key = some v → Q v w')
    (hN : ∀ w', Quiet w w' → answer s recs key = none → X (.err .key_not_found) w')
    (hX : ∀ x w', IsFault x → Faulty σ → Quiet w w' → X x w') :
    wp σ (fetch c s key) Q X w := by
  obtain ⟨B0, hkh⟩ := hr.kh
  unfold fetch
  simp only [hec]
  cases h1 : s.p1.find key with
  | some it => exact wp_ret (hQ _ _ (Quiet.refl w) (by simp [answer, h1]))
  | none =>
    cases h0 : s.p0.find key with
    | some it => exact wp_ret (hQ _ _ (Quiet.refl w) (by simp [answer, h1, h0]))
    | none =>
      have hans : answer s recs key = kvOf (pairsOf recs) key := by simp [answer, h1, h0]
      simp only
      apply wp_bind
      apply wp_lift_ok (bucketIndexA_ok hr.mle)
      have hhash : hashKey c.H s.kh.salt key = cf.hash c.H key := by rw [hkh]; rfl
      rw [hhash]
      generalize hn : bucketIndex (cf.hash c.H key) s.buckets s.modulus = n
      have hlt : n < s.buckets := by rw [← hn]; exact bucketIndex_lt hr.b1 hr.mod _
      obtain ⟨f, hf, hpre⟩ := hr.file
      apply wp_bind
      have hfuel : ∀ (Q : Nat → World → Prop), Q (f.cur.length + 2) w → wp σ lookupFuel Q X w := by
        intro Q h; unfold wp lookupFuel; simp only [hf]; exact h
      apply hfuel
      apply wp_getBucket hr hlt
      · intro b w1 hq hb hbs
        have hok := (hr.filed n hlt)
        obtain ⟨L, hch, hperm⟩ := hok.chain
        have hf1 : w1.fs .dat = some f := by rw [hq.fs]; exact hf
        have hle : (view n).2 < f.cur.length + 2 := by
          by_cases h0 : (view n).2 = 0
          · omega
          · have := (hch.mono hpre).le_length h0; omega
        apply wp_fetchBucket hr.conf (by rw [hkh]; rfl) (by rw [hkh]; rfl) hk hf1 _ b (view n).1 L
          (view n).2 hle hb hok.sorted hbs (hch.mono hpre) (inRange_of hr.dat hpre hperm)
        · intro v w' hq' hp
          exact hQ v w' (hq.trans hq') (by rw [hans]; exact scan_some hr.dat hpre hperm hk hp)
        · intro w' hq' hp
          exact hN w' (hq.trans hq') (by rw [hans]; exact scan_none hr.dat hpre hn.symm hperm hp)
        · intro x w' hx hfa hq'; exact hX x w' hx hfa (hq.trans hq')
      · exact hX

theorem wp_insertCheck (hr : Ready c cf s w.fs D recs view) {key : Bytes}
    (hk : key.length = cf.keySize) {Q : Unit → World → Prop}
    (hQ : ∀ w', Quiet w w' → answer s recs key = none → Q () w')
    (hN : ∀ w', Quiet w w' → (answer s recs key).isSome → X (.err .key_exists) w')
    (hX : ∀ x w', IsFault x → Faulty σ → Quiet w w' → X x w') :
    wp σ (insertCheck c s (hashKey c.H s.kh.salt key) key) Q X w := by
  obtain ⟨B0, hkh⟩ := hr.kh
  unfold insertCheck
  cases h1 : s.p1.find key with
  | some it => simp only [Option.isSome_some, Bool.true_or, if_true]
               exact wp_fail (hN _ (Quiet.refl w) (by simp [answer, h1]))
  | none =>
    cases h0 : s.p0.find key with
    | some it => simp only [Option.isSome_some, Bool.or_true, if_true]
                 exact wp_fail (hN _ (Quiet.refl w) (by simp [answer, h1, h0]))
    | none =>
      have hans : answer s recs key = kvOf (pairsOf recs) key := by simp [answer, h1, h0]
      simp only [Option.isSome_none, Bool.or_self, Bool.false_eq_true, if_false]
      apply wp_bind
      apply wp_lift_ok (bucketIndexA_ok hr.mle)
      have hhash : hashKey c.H s.kh.salt key = cf.hash c.H key := by rw [hkh]; rfl
      rw [hhash]
      generalize hn : bucketIndex (cf.hash c.H key) s.buckets s.modulus = n
      have hlt : n < s.buckets := by rw [← hn]; exact bucketIndex_lt hr.b1 hr.mod _
      obtain ⟨f, hf, hpre⟩ := hr.file
      apply wp_bind
      have hfuel : ∀ (Q : Nat → World → Prop), Q (f.cur.length + 2) w → wp σ lookupFuel Q X w := by
        intro Q h; unfold wp lookupFuel; simp only [hf]; exact h
      apply hfuel
      have main : ∀ b w1, Quiet w w1 → Rep b (view n).1 (view n).2 → b.bs = cf.blockSize →
          wp σ (do
            let found ← existsBucket c s.kh (cf.hash c.H key) key (f.cur.length + 2) b
            if found then M.fail .key_exists else M.ret ()) Q X w1 := by
        intro b w1 hq hb hbs
        have hok := (hr.filed n hlt)
        obtain ⟨L, hch, hperm⟩ := hok.chain
        have hf1 : w1.fs .dat = some f := by rw [hq.fs]; exact hf
        have hle : (view n).2 < f.cur.length + 2 := by
          by_cases h0 : (view n).2 = 0
          · omega
          · have := (hch.mono hpre).le_length h0; omega
        apply wp_bind
        apply wp_existsBucket hr.conf (by rw [hkh]; rfl) (by rw [hkh]; rfl) hk hf1 _ b (view n).1 L
          (view n).2 hle hb hok.sorted hbs (hch.mono hpre) (inRange_of hr.dat hpre hperm)
        · intro r w' hq' hp
          rw [scan_exists hr.dat hpre hn.symm hperm, ← hans] at hp
          cases r with
          | true => exact wp_fail (hN w' (hq.trans hq') (hp.mp rfl))
          | false =>
            refine wp_ret (hQ w' (hq.trans hq') ?_)
            cases ha : answer s recs key with
            | none => rfl
            | some v => rw [ha] at hp; have := hp.mpr rfl; cases this
        · intro x w' hx hfa hq'; exact hX x w' hx hfa (hq.trans hq')
      have := wp_getBucket (σ := σ) (X := X) hr hlt (Q := Q) (k := fun b => do
            let found ← existsBucket c s.kh (cf.hash c.H key) key (f.cur.length + 2) b
            if found then M.fail .key_exists else M.ret ()) main hX
      split
      · rename_i p hp; simp only [hp] at this; exact this
      · rename_i hp; simp only [hp] at this; exact this

end

end NuDB
