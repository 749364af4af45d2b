import Verif.Proof.VerifySound2
/- What a successful run of `verify_fast` implies for arbitrary files. -/
namespace NuDB

open Spec

theorem putU48_inj {a b : Nat} (ha : a < 2 ^ 48) (hb : b < 2 ^ 48) (h : putU48 a = putU48 b) : a = b := by
  rw [← getU48_putU48 ha, ← getU48_putU48 hb, h]

theorem putU16_inj {a b : Nat} (ha : a < 2 ^ 16) (hb : b < 2 ^ 16) (h : putU16 a = putU16 b) : a = b := by
  rw [← getU16_putU16 ha, ← getU16_putU16 hb, h]

theorem record_inj {ks : Nat} {r r' : Record} {x x' : Bytes} (hr : r.Ok ks) (hr' : r'.Ok ks)
    (h : r.bytes ++ x = r'.bytes ++ x') : r = r' ∧ x = x' := by
  cases r with
  | value k v =>
    obtain ⟨h1, h2, h3⟩ := hr
    cases r' with
    | value k' v' =>
      obtain ⟨h1', h2', h3'⟩ := hr'
      simp only [value_record, List.append_assoc] at h
      obtain ⟨e1, e2⟩ := List.append_inj h (by simp)
      have e1 := putU48_inj (by omega) (by omega) e1
      obtain ⟨e3, e4⟩ := List.append_inj e2 (by omega)
      obtain ⟨e5, e6⟩ := List.append_inj e4 e1
      exact ⟨by rw [e3, e5], e6⟩
    | overflow b =>
      simp only [value_record, overflow_record, List.append_assoc] at h
      obtain ⟨e1, e2⟩ := List.append_inj h (by simp)
      have e1 := putU48_inj (by omega) (by omega) e1
      omega
  | overflow b =>
    have hb : b.length < 2 ^ 16 := hr
    cases r' with
    | value k' v' =>
      obtain ⟨h1', h2', h3'⟩ := hr'
      simp only [value_record, overflow_record, List.append_assoc] at h
      obtain ⟨e1, e2⟩ := List.append_inj h (by simp)
      have e1 := putU48_inj (by omega) (by omega) e1
      omega
    | overflow b' =>
      have hb' : b'.length < 2 ^ 16 := hr'
      simp only [overflow_record, List.append_assoc] at h
      obtain ⟨_, e2⟩ := List.append_inj h (by simp)
      obtain ⟨e3, e4⟩ := List.append_inj e2 (by simp)
      have e3 := putU16_inj hb hb' e3
      obtain ⟨e5, e6⟩ := List.append_inj e4 e3
      exact ⟨by rw [e5], e6⟩

theorem record_pos (r : Record) : 6 ≤ r.bytes.length := by
  cases r <;> simp [Record.bytes, bigEndian] <;> omega

/-- The records are determined by the bytes. -/
theorem layout_inj {ks : Nat} (rs : List Record) : ∀ {rs' : List Record}, (∀ r ∈ rs, r.Ok ks) → (∀ r ∈ rs', r.Ok ks) →
    layout rs = layout rs' → rs = rs' := by
  induction rs with
  | nil =>
    intro rs' _ _ h
    cases rs' with
    | nil => rfl
    | cons r rs' =>
      have h1 := congrArg List.length h
      have h6 := record_pos r
      rw [layout_cons, List.length_append] at h1
      have h0 : (layout []).length = 0 := rfl
      omega
  | cons r rs ih =>
    intro rs' h1 h2 h
    cases rs' with
    | nil =>
      have h1 := congrArg List.length h
      have h6 := record_pos r
      rw [layout_cons, List.length_append] at h1
      have h0 : (layout []).length = 0 := rfl
      omega
    | cons r' rs' =>
      rw [layout_cons, layout_cons] at h
      obtain ⟨e1, e2⟩ := record_inj (h1 r (by simp)) (h2 r' (by simp)) h
      rw [e1, ih (fun x hx => h1 x (by simp [hx])) (fun x hx => h2 x (by simp [hx])) e2]

/-- The overflow buckets behind a link. -/
def Behind (D : Bytes) (len s : Nat) (ts : List Bytes) : Prop :=
  (s = 0 ∧ ts = []) ∨ (s ≠ 0 ∧ s + len ≤ D.length ∧ Chained D len (bytesAt D s len) ts)

theorem Behind.chained {D : Bytes} {len : Nat} {b : Bytes} {ts : List Bytes} (h : Behind D len (linkIn b) ts) :
    Chained D len b (b :: ts) := by
  rcases h with ⟨h0, rfl⟩ | ⟨h0, h1, h2⟩
  · exact .last h0
  · exact .more h0 h1 h2

/-- A bucket object for overflow records. -/
structure TmpOk (kh : KeyHeader) (tmp : Bkt) : Prop where
  bs : tmp.bs = kh.blockSize
  plen : tmp.p.length = kh.blockSize

section
variable {σ : Schedule} {c : Cfg} {kh : KeyHeader} {df kf : FileSt} {nwork : Nat}

theorem pc_fastCount {Q : Bkt × Nat × Nat × Info → World → Prop} (h104 : 104 ≤ kh.blockSize) (fuel : Nat) :
    ∀ {spill : Nat} {tmp : Bkt} {nkeys nspill : Nat} {info : Info} {w : World}, w.fs .dat = some df → TmpOk kh tmp →
    (∀ ts tmp' w', Quiet w w' → Behind df.cur (bucketBytes kh.blockSize) spill ts → TmpOk kh tmp' →
      Q (tmp', nkeys + chainKeys ts, nspill + ts.length, { info with spillCount := info.spillCount + ts.length, spillBytes := info.spillBytes + (ts.map (fun b => 8 + (8 + 18 * countIn b))).sum }) w') →
    pc σ (fastCount fuel spill tmp nkeys nspill info) Q w := by
  induction fuel with
  | zero => intros; exact pc_raise
  | succ fuel ih =>
    intro spill tmp nkeys nspill info w hf ht hQ
    unfold fastCount
    split
    · rename_i h0
      apply wp_bind
      apply pc_shortAs
      apply pc_readFile (f := df) hf (by rw [ht.bs]; exact h104)
      intro b1 w1 q1 hl hld hbs hpl _
      rw [ht.bs] at hl hld hbs
      apply ih (by rw [q1.fs]; exact hf) ⟨hbs, hpl.trans ht.plen⟩
      intro ts tmp' w' q' hbh ht'
      rw [hld.spill] at hbh
      have hch := hbh.chained
      have := hQ (bytesAt df.cur spill (bucketBytes kh.blockSize) :: ts) tmp' w' (q1.trans q') (.inr ⟨h0, hl, hch⟩) ht'
      have e1 : nkeys + b1.size + chainKeys ts = nkeys + chainKeys (bytesAt df.cur spill (bucketBytes kh.blockSize) :: ts) := by
        rw [hld.size]; simp [chainKeys]; omega
      have e2 : nspill + 1 + ts.length = nspill + (bytesAt df.cur spill (bucketBytes kh.blockSize) :: ts).length := by
        simp; omega
      have e3 : info.spillCount + 1 + ts.length = info.spillCount + (bytesAt df.cur spill (bucketBytes kh.blockSize) :: ts).length := by
        simp; omega
      have e4 : info.spillBytes + (6 + 2 + b1.actualSize) + (ts.map (fun b => 8 + (8 + 18 * countIn b))).sum =
          info.spillBytes + ((bytesAt df.cur spill (bucketBytes kh.blockSize) :: ts).map (fun b => 8 + (8 + 18 * countIn b))).sum := by
        unfold Bkt.actualSize bucketSize; rw [hld.size]; simp; omega
      dsimp only
      rw [e1, e2, e3, e4]
      exact this
    · rename_i h0
      simp only [ne_eq, Decidable.not_not] at h0
      apply wp_ret
      have := hQ [] tmp w (Quiet.refl w) (.inl ⟨h0, rfl⟩) ht
      simpa [chainKeys] using this

/-- The buffer contains the blocks `b0, ..., b0+bn-1`. -/
def Buffered (kh : KeyHeader) (K mem : Bytes) (b0 bn : Nat) : Prop :=
  bn * kh.blockSize ≤ mem.length ∧ ∀ i, i < bn → bytesAt K ((b0 + i + 1) * kh.blockSize) (bucketBytes kh.blockSize) <+:
    slice mem (i * kh.blockSize) kh.blockSize

theorem pc_fastCounts {mem : Bytes} {b0 bn : Nat} {Q : Bkt × List Nat × Info → World → Prop} (h104 : 104 ≤ kh.blockSize)
    (hlen : ∀ i, i < bn → (bytesAt kf.cur ((b0 + i + 1) * kh.blockSize) (bucketBytes kh.blockSize)).length = bucketBytes kh.blockSize)
    (hmem : Buffered kh kf.cur mem b0 bn) (k : Nat) :
    ∀ {i : Nat} {tmp : Bkt} {info : Info} {w : World}, i + k ≤ bn → w.fs .dat = some df → TmpOk kh tmp →
    (∀ cs tmp' w', Quiet w w' → cs.length = k → Chains df.cur kf.cur kh.blockSize (b0 + i) cs → TmpOk kh tmp' →
      Q (tmp', cs.map chainKeys, info.tabled cs) w') →
    pc σ (fastCounts kh.blockSize mem k i tmp info) Q w := by
  induction k generalizing Q with
  | zero =>
    intro i tmp info w hi hf ht hQ
    unfold fastCounts
    exact wp_ret (hQ [] tmp w (Quiet.refl w) rfl (.nil _) ht)
  | succ k ih =>
    intro i tmp info w hi hf ht hQ
    unfold fastCounts
    apply wp_bind
    apply pc_lift
    intro b hb
    have h8 : 8 ≤ bucketBytes kh.blockSize := by unfold bucketBytes; omega
    obtain ⟨_, _, hsz, hsp⟩ := ofMem_loaded hb (hmem.2 i (by omega)) (by rw [hlen i (by omega)]; exact h8)
    apply wp_bind
    apply pc_lookupFuel
    intro fuel
    apply wp_bind
    apply pc_fastCount h104 fuel hf ht
    intro ts tmp1 w1 q1 hbh ht1
    rw [hsp] at hbh
    have hch := hbh.chained
    dsimp only
    apply wp_bind
    apply ih (i := i + 1) (by omega) (by rw [q1.fs]; exact hf) ht1
    intro cs tmp2 w2 q2 hcl hcs ht2
    apply wp_ret
    have := hQ (_ :: cs) tmp2 w2 (q1.trans q2) (by simp [hcl]) (.cons hch hcs) ht2
    rw [hsz]
    have e : (info.tabled ((bytesAt kf.cur ((b0 + i + 1) * kh.blockSize) (bucketBytes kh.blockSize) :: ts) :: cs)) =
      Info.tabled { info with spillCount := info.spillCount + ts.length, spillBytes := info.spillBytes + (ts.map (fun b => 8 + (8 + 18 * countIn b))).sum, hist := bumpHist info.hist (0 + ts.length), keyCount := info.keyCount + (countIn (bytesAt kf.cur ((b0 + i + 1) * kh.blockSize) (bucketBytes kh.blockSize)) + chainKeys ts) } cs := by
      simp [Info.tabled, Info.chained, chainKeys, chainBytes]
    rw [e] at this
    exact this

/-- Bucket of a key. -/
def homeOf (c : Cfg) (kh : KeyHeader) (k : Bytes) : Nat := bucketIndex (hashKey c.H kh.salt k) kh.buckets kh.modulus

/-- Values in the buckets from `b0` to `b1 - 1`. -/
def within (c : Cfg) (kh : KeyHeader) (b0 b1 : Nat) (rs : List Record) : List (Bytes × Bytes) :=
  (values rs).filter (fun p => b0 ≤ homeOf c kh p.1 && homeOf c kh p.1 < b1)

/-- The same with the offsets of the records. -/
def withinAt (c : Cfg) (kh : KeyHeader) (b0 b1 : Nat) (l : List (Nat × Bytes × Bytes)) : List (Nat × Bytes × Bytes) :=
  l.filter (fun y => b0 ≤ homeOf c kh y.2.1 && homeOf c kh y.2.1 < b1)

/-- Number of values with home `n`. -/
def homeCount (c : Cfg) (kh : KeyHeader) (n : Nat) (rs : List Record) : Nat :=
  ((values rs).filter (fun p => homeOf c kh p.1 == n)).length

/-- The counters after a pass over the records. -/
def Info.passed (i : Info) (c : Cfg) (kh : KeyHeader) (b0 b1 tmpBytes : Nat) (rs : List Record) (f : Nat) : Info :=
  { i with fetches := f, valueCount := i.valueCount + (within c kh b0 b1 rs).length,
           valueBytes := i.valueBytes + ((within c kh b0 b1 rs).map (fun p => p.2.length)).sum,
           spillCountTot := i.spillCountTot + (if b0 = 0 then (overflows rs).length else 0),
           spillBytesTot := i.spillBytesTot + (if b0 = 0 then (overflows rs).length * (8 + tmpBytes) else 0) }

theorem prefix_append_left {blk mem t : Bytes} {o n : Nat} (h : blk <+: slice mem o n) : blk <+: mem.drop o ++ t := by
  refine h.trans ((List.take_prefix _ _).trans (List.prefix_append _ _))

/-- What `verify_fast` asks of the sizes of overflow records. -/
def SpillSizes (rs : List Record) : Prop := ∀ b ∈ overflows rs, bucketSize (bucketCapacity b.length) = b.length

/-- State of the scan of `verify_fast`. -/
structure FastAt (df : FileSt) (r : Reader) (o : Nat) : Prop where
  inv : RInv r df.cur
  path : r.path = .dat
  last : r.last = df.cur.length
  pos : r.pos = o

theorem take_slice {F : Bytes} {o n m : Nat} (h : m ≤ n) : (slice F o n).take m = slice F o m := by
  simp only [slice, List.take_take]; congr 1; omega

theorem drop_slice {F : Bytes} {o n m : Nat} : (slice F o (m + n)).drop m = slice F (o + m) n := by
  simp only [slice, List.drop_take, List.drop_drop]; congr 1; omega

theorem slice_prefix_split {F pre : Bytes} {n : Nat} (h : pre <+: F) (hn : pre.length + n ≤ F.length) :
    pre ++ slice F pre.length n <+: F := by
  obtain ⟨t, rfl⟩ := h
  rw [slice_append_right (Nat.le_refl _), Nat.sub_self]
  simp only [slice, List.drop_zero, List.prefix_append_right_inj]
  exact List.take_prefix _ _

theorem pc_fastStep {b0 b1 work : Nat} {mem : Bytes} {tmp : Bkt} {nkeys : List Nat} {r : Reader} {info : Info} {pre : Bytes} {w : World}
    {Q : Bkt × List Nat × Reader × Info → World → Prop} (h104 : 104 ≤ kh.blockSize)
    (hlen : ∀ i, i < b1 - b0 → (bytesAt kf.cur ((b0 + i + 1) * kh.blockSize) (bucketBytes kh.blockSize)).length = bucketBytes kh.blockSize)
    (hmem : Buffered kh kf.cur mem b0 (b1 - b0)) (hf : w.fs .dat = some df) (ht : TmpOk kh tmp)
    (hcount : ∀ i, i < b1 - b0 → countIn (bytesAt kf.cur ((b0 + i + 1) * kh.blockSize) (bucketBytes kh.blockSize)) ≤ (kh.blockSize - 8) / 18)
    (hs : FastAt df r pre.length) (hpre : pre <+: df.cur)
    (hQ : ∀ p nkeys' r' w' x f, Quiet { w with out := w'.out } w' → p.length = kh.blockSize → x.Ok kh.keySize → SpillSizes [x] →
      pre ++ x.bytes <+: df.cur → FastAt df r' (pre ++ x.bytes).length →
      (∀ y ∈ located pre.length [x], b0 ≤ homeOf c kh y.2.1 → homeOf c kh y.2.1 < b1 → HomeListed c kh df.cur kf.cur y.1 y.2.1) →
      nkeys'.length = nkeys.length →
      (∀ j, j < b1 - b0 → nkeys'.getD j 0 + homeCount c kh (b0 + j) [x] = nkeys.getD j 0 ∨ nkeys.length ≤ j) →
      (∀ g, Costing c kh df.cur kf.cur g → f = info.fetches + costSum g (withinAt c kh b0 b1 (located pre.length [x]))) →
      Q ({ tmp with p := p }, nkeys', r', info.passed c kh b0 b1 tmp.actualSize [x] f) w') :
    pc σ (fastStep c kh b0 b1 work nwork mem tmp nkeys r info) Q w := by
  unfold fastStep
  dsimp only
  apply wp_bind
  apply pc_shortAs
  apply pc_prepare (f := df) (by rw [hs.path]; exact hf) hs.inv
  intro r1 w1 n1 q1
  rw [hs.pos]
  have a1 := n1.pos
  have a3 := hs.pos
  have a6 := n1.le
  have hl := hs.last
  have h6 : (slice df.cur pre.length 6).length = 6 := slice_length_of_le (by omega)
  apply wp_bind
  apply pc_lift
  intro size hsize
  obtain ⟨hsv, hs32⟩ := getSize48_inv h6 hsize
  have e6 : slice df.cur pre.length 6 = putU48 size := by
    rw [hsv, ← C18_u48.reads _ h6, (putU48_getU48 h6).1]
  dsimp only
  split
  · rename_i hpos
    apply wp_bind
    apply pc_shortAs
    apply pc_prepare (f := df) (by rw [n1.path, hs.path, q1.fs]; exact hf) n1.inv
    intro r2 w2 n2 q2
    have a2 := n2.pos
    have a7 := n2.le
    have a8 := n1.last
    dsimp only
    rw [take_slice (by omega)]
    generalize hkk : slice df.cur r1.pos kh.keySize = k
    have hkl : k.length = kh.keySize := by rw [← hkk]; exact slice_length_of_le (by omega)
    generalize hvv : slice df.cur (r1.pos + kh.keySize) size = v
    have hvl : v.length = size := by rw [← hvv]; exact slice_length_of_le (by omega)
    have hbytes : slice df.cur pre.length (6 + (kh.keySize + size)) = (Record.value k v).bytes := by
      rw [value_record, hvl, ← e6, ← hkk, ← hvv, slice_split, slice_split, a1, a3]
    have hok : (Record.value k v).Ok kh.keySize := ⟨hkl, by omega, by omega⟩
    have hblen : (Record.value k v).bytes.length = 6 + (kh.keySize + size) := by
      rw [value_record]; simp [hkl, hvl]
    have hpre' : pre ++ (Record.value k v).bytes <+: df.cur := by
      rw [← hbytes]; exact slice_prefix_split hpre (by omega)
    have hat : FastAt df r2 (pre ++ (Record.value k v).bytes).length :=
      ⟨n2.inv, n2.path.trans (n1.path.trans hs.path), n2.last.trans (n1.last.trans hs.last), by
        rw [List.length_append, hblen]; omega⟩
    apply wp_bind
    apply pc_lift
    intro n hn
    have hn : n = homeOf c kh k := bucketIndexA_inv hn
    by_cases hin : n < b0 ∨ n ≥ b1
    · rw [if_pos hin]
      apply wp_ret
      have := hQ tmp.p nkeys r2 w2 (.value k v) info.fetches ⟨by rw [q2.fs, q1.fs], rfl⟩ ht.plen hok (by intro b hb; cases hb) hpre' hat ?_ rfl ?_ (by
          intro g _
          simp only [withinAt, located, List.filter_cons, List.filter_nil]
          rw [if_neg (by simp; omega)]
          rfl)
      · have e : info.passed c kh b0 b1 tmp.actualSize [.value k v] info.fetches = info := by
          have : within c kh b0 b1 [.value k v] = [] := by
            simp only [within, values, List.filterMap_cons, List.filterMap_nil, List.filter_cons, List.filter_nil]
            rw [if_neg (by simp; omega)]
          simp [Info.passed, this, overflows]
        rw [e] at this
        exact this
      · intro y hy h1 h2
        simp only [located, List.mem_singleton] at hy
        subst hy
        dsimp only at h1 h2
        omega
      · intro j hj
        left
        have : homeCount c kh (b0 + j) [.value k v] = 0 := by
          simp only [homeCount, values, List.filterMap_cons, List.filterMap_nil, List.filter_cons, List.filter_nil]
          rw [if_neg (by simp; omega)]
          rfl
        omega
    · rw [if_neg hin]
      have hi : n - b0 < b1 - b0 := by omega
      have hni : b0 + (n - b0) = n := by omega
      have hpf := hmem.2 (n - b0) hi
      have hl1 := hlen (n - b0) hi
      have hc1 := hcount (n - b0) hi
      rw [hni] at hpf hl1 hc1
      apply wp_bind
      apply pc_lift
      intro b hb
      have h8 : 8 ≤ bucketBytes kh.blockSize := by unfold bucketBytes; omega
      have hpf2 := prefix_append_left (t := tmp.p) hpf
      obtain ⟨hb1, hb2, hb3, hb4⟩ := ofMem_loaded hb hpf2 (by rw [hl1]; exact h8)
      have hld : Loaded b (bytesAt kf.cur ((n + 1) * kh.blockSize) (bucketBytes kh.blockSize)) :=
        ⟨by rw [hb2]; exact hpf2, hb3, hb4, by rw [hl1, hb3]; have : bucketBytes kh.blockSize = 8 + 18 * ((kh.blockSize - 8) / 18) := rfl; omega⟩
      apply wp_bind
      apply pc_lookupFuel
      intro fuel
      apply wp_bind
      apply pc_seekValueFast (df := df) fuel (by rw [q2.fs, q1.fs]; exact hf) hld (by rw [ht.bs]; exact h104)
      intro f p w3 q3 hp hL hC
      rw [ht.bs, hn] at hL hC
      dsimp only
      split
      · exact pc_fail
      · rename_i hk0
        apply wp_bind
        apply wp_emit
        apply wp_ret
        have := hQ p (nkeys.set (n - b0) (nkeys.getD (n - b0) 0 - 1)) r2 { w3 with out := w3.out ++ [.progress (work + pre.length) nwork] }
          (.value k v) (info.fetches + 1 + f) ⟨by show w3.fs = _; rw [q3.fs, q2.fs, q1.fs], rfl⟩ (hp.trans ht.plen) hok (by intro b hb; cases hb) hpre' hat ?_ (by simp) ?_ (by
            intro g hg
            simp only [withinAt, located, List.filter_cons, List.filter_nil]
            rw [if_pos (by simp; omega)]
            simp only [costSum, List.map_cons, List.map_nil, List.sum_cons, List.sum_nil]
            rw [← hg _ _ _ hC]
            omega)
        · have e : info.passed c kh b0 b1 tmp.actualSize [.value k v] (info.fetches + 1 + f) =
              { info with fetches := info.fetches + 1 + f, valueCount := info.valueCount + 1, valueBytes := info.valueBytes + size } := by
            have : within c kh b0 b1 [.value k v] = [(k, v)] := by
              simp only [within, values, List.filterMap_cons, List.filterMap_nil, List.filter_cons, List.filter_nil]
              rw [if_pos (by simp; omega)]
            simp [Info.passed, this, overflows, hvl]
          rw [e] at this
          exact this
        · intro y hy _ _
          simp only [located, List.mem_singleton] at hy
          subst hy
          exact hL
        · intro j hj
          by_cases hjl : j < nkeys.length
          · left
            simp only [homeCount, values, List.filterMap_cons, List.filterMap_nil, List.filter_cons, List.filter_nil]
            by_cases hjn : j = n - b0
            · subst hjn
              rw [if_pos (by simp; omega)]
              simp only [List.getD_eq_getElem?_getD, List.getElem?_set_self hjl, List.length_singleton, Option.getD_some] at hk0 ⊢
              omega
            · rw [if_neg (by simp; omega)]
              simp only [List.getD_eq_getElem?_getD, List.getElem?_set_ne (Ne.symm hjn), List.length_nil, Nat.add_zero]
          · right; omega
  · rename_i hpos
    have h0 : size = 0 := by omega
    subst h0
    apply wp_bind
    apply pc_shortAs
    apply pc_prepare (f := df) (by rw [n1.path, hs.path, q1.fs]; exact hf) n1.inv
    intro r2 w2 n2 q2
    have a2 := n2.pos
    have a7 := n2.le
    have a8 := n1.last
    dsimp only
    split
    · exact pc_fail
    rename_i hne
    apply wp_bind
    apply pc_shortAs
    apply pc_prepare (f := df) (by rw [n2.path, n1.path, hs.path, q2.fs, q1.fs]; exact hf) n2.inv
    intro r3 w3 n3 q3
    have a9 := n3.pos
    have a10 := n3.le
    have a11 := n2.last
    have h2 : (slice df.cur r1.pos 2).length = 2 := slice_length_of_le (by omega)
    generalize hsz : getU16 (slice df.cur r1.pos 2) = size at *
    have e2 : slice df.cur r1.pos 2 = putU16 size := by rw [← hsz, (putU16_getU16 h2).1]
    have hs16 : size < 2 ^ 16 := by rw [← hsz]; exact getU16_lt h2
    generalize hbb : slice df.cur r2.pos size = body
    have hbl : body.length = size := by rw [← hbb]; exact slice_length_of_le (by omega)
    have hbytes : slice df.cur pre.length (6 + (2 + size)) = (Record.overflow body).bytes := by
      rw [overflow_record, hbl, ← e6, ← e2, ← hbb, slice_split, slice_split, a2, a1, a3]
    have hok : (Record.overflow body).Ok kh.keySize := by show body.length < 2 ^ 16; omega
    have hsz' : SpillSizes [.overflow body] := by
      intro b hb
      simp only [overflows, List.filterMap_cons, List.filterMap_nil, List.mem_singleton] at hb
      subst hb
      rw [hbl]
      exact Decidable.not_not.1 hne
    have hblen : (Record.overflow body).bytes.length = 6 + (2 + size) := by
      rw [overflow_record]; simp [hbl]
    have hpre' : pre ++ (Record.overflow body).bytes <+: df.cur := by
      rw [← hbytes]; exact slice_prefix_split hpre (by omega)
    have hat : FastAt df r3 (pre ++ (Record.overflow body).bytes).length :=
      ⟨n3.inv, n3.path.trans (n2.path.trans (n1.path.trans hs.path)), n3.last.trans (n2.last.trans (n1.last.trans hs.last)), by
        rw [List.length_append, hblen]; omega⟩
    dsimp only
    apply wp_bind
    apply wp_emit
    apply wp_ret
    have := hQ tmp.p nkeys r3 { w3 with out := w3.out ++ [.progress (work + pre.length) nwork] } (.overflow body) info.fetches
      ⟨by show w3.fs = _; rw [q3.fs, q2.fs, q1.fs], rfl⟩ ht.plen hok hsz' hpre' hat (by intro y hy; simp [located] at hy) rfl
      (by intro j hj; left; simp [homeCount, values]) (fun g _ => rfl)
    have e : info.passed c kh b0 b1 tmp.actualSize [.overflow body] info.fetches =
        (if b0 = 0 then { info with spillCountTot := info.spillCountTot + 1, spillBytesTot := info.spillBytesTot + (6 + 2 + tmp.actualSize) } else info) := by
      have h1 : within c kh b0 b1 [.overflow body] = [] := rfl
      have h2 : overflows [.overflow body] = [body] := rfl
      simp only [Info.passed, h1, h2]
      split <;> simp
    rw [e] at this
    exact this

theorem SpillSizes.cons {x : Record} {rs : List Record} (h : SpillSizes [x]) (h' : SpillSizes rs) : SpillSizes (x :: rs) := by
  intro b hb
  rw [show x :: rs = [x] ++ rs from rfl, overflows, List.filterMap_append, List.mem_append] at hb
  exact hb.elim (h b) (h' b)

theorem located_cons (o : Nat) (x : Record) (rs : List Record) :
    located o (x :: rs) = located o [x] ++ located (o + x.bytes.length) rs := by
  cases x <;> simp [located]

theorem homeCount_cons (c : Cfg) (kh : KeyHeader) (n : Nat) (x : Record) (rs : List Record) :
    homeCount c kh n (x :: rs) = homeCount c kh n [x] + homeCount c kh n rs := by
  have : values (x :: rs) = values [x] ++ values rs := by
    rw [show x :: rs = [x] ++ rs from rfl]; simp only [values, List.filterMap_append]
  simp only [homeCount, this, List.filter_append, List.length_append]

theorem Info.passed_cons (i : Info) (b0 b1 t : Nat) (x : Record) (rs : List Record) (f g : Nat) :
    (i.passed c kh b0 b1 t [x] f).passed c kh b0 b1 t rs g = i.passed c kh b0 b1 t (x :: rs) g := by
  have h1 : values (x :: rs) = values [x] ++ values rs := by
    rw [show x :: rs = [x] ++ rs from rfl]; simp only [values, List.filterMap_append]
  have h2 : overflows (x :: rs) = overflows [x] ++ overflows rs := by
    rw [show x :: rs = [x] ++ rs from rfl]; simp only [overflows, List.filterMap_append]
  simp only [Info.passed, within, h1, h2, List.filter_append, List.length_append, List.map_append, List.sum_append, Nat.add_mul]
  split <;> simp [Nat.add_assoc]

theorem Info.passed_nil (i : Info) (b0 b1 t : Nat) : i.passed c kh b0 b1 t [] i.fetches = i := by
  simp [Info.passed, within, values, overflows]

theorem costSum_within (g : Nat → Bytes → Nat) (a b : List (Nat × Bytes × Bytes)) (b0 b1 : Nat) :
    costSum g (withinAt c kh b0 b1 (a ++ b)) = costSum g (withinAt c kh b0 b1 a) + costSum g (withinAt c kh b0 b1 b) := by
  simp [costSum, withinAt, List.filter_append, List.map_append]

theorem pc_fastScan {b0 b1 work : Nat} {mem : Bytes} {Q : Bkt × List Nat × Info → World → Prop} (h104 : 104 ≤ kh.blockSize)
    (hlen : ∀ i, i < b1 - b0 → (bytesAt kf.cur ((b0 + i + 1) * kh.blockSize) (bucketBytes kh.blockSize)).length = bucketBytes kh.blockSize)
    (hmem : Buffered kh kf.cur mem b0 (b1 - b0))
    (hcount : ∀ i, i < b1 - b0 → countIn (bytesAt kf.cur ((b0 + i + 1) * kh.blockSize) (bucketBytes kh.blockSize)) ≤ (kh.blockSize - 8) / 18)
    (fuel : Nat) : ∀ {tmp : Bkt} {nkeys : List Nat} {r : Reader} {info : Info} {pre : Bytes} {w : World}, w.fs .dat = some df →
    TmpOk kh tmp → FastAt df r pre.length → pre <+: df.cur → b1 - b0 ≤ nkeys.length →
    (∀ tmp' nkeys' w' rs f, w'.fs = w.fs → TmpOk kh tmp' → (∀ x ∈ rs, x.Ok kh.keySize) → SpillSizes rs → df.cur = pre ++ layout rs →
      (∀ y ∈ located pre.length rs, b0 ≤ homeOf c kh y.2.1 → homeOf c kh y.2.1 < b1 → HomeListed c kh df.cur kf.cur y.1 y.2.1) →
      nkeys'.length = nkeys.length → (∀ j, j < b1 - b0 → nkeys'.getD j 0 + homeCount c kh (b0 + j) rs = nkeys.getD j 0) →
      (∀ g, Costing c kh df.cur kf.cur g → f = info.fetches + costSum g (withinAt c kh b0 b1 (located pre.length rs))) →
      Q (tmp', nkeys', info.passed c kh b0 b1 tmp.actualSize rs f) w') →
    pc σ (fastScan c kh b0 b1 work nwork mem fuel tmp nkeys r info) Q w := by
  induction fuel generalizing Q with
  | zero => intros; exact pc_raise
  | succ fuel ih =>
    intro tmp nkeys r info pre w hf ht hs hpre hnk hQ
    unfold fastScan
    split
    · rename_i he
      apply wp_ret
      have hlt : pre.length = df.cur.length := by
        unfold Reader.eof at he
        have h1 := hs.pos
        have h2 := hs.last
        have h3 := hpre.length_le
        simp only [ge_iff_le, decide_eq_true_eq] at he
        omega
      have hD : df.cur = pre := (hpre.eq_of_length hlt).symm
      have := hQ tmp nkeys w [] info.fetches rfl ht (by intro x hx; cases hx) (by intro x hx; cases hx) (by simp [layout, hD]) (by intro y hy; cases hy) rfl
        (by intro j _; simp [homeCount, values]) (fun g _ => rfl)
      rwa [Info.passed_nil] at this
    · apply wp_bind
      apply pc_fastStep h104 hlen hmem hf ht hcount hs hpre
      intro p nkeys1 r1 w1 x f q1 hp hok hz hpre1 hat hh hn1 hc1 hf1
      dsimp only
      apply ih (tmp := { tmp with p := p }) (by rw [q1.fs]; exact hf) ⟨ht.bs, hp⟩ hat hpre1 (by omega)
      intro tmp' nkeys' w' rs g hfs ht' hoks hzs hD hhs hn' hc' hf2
      rw [show Bkt.actualSize { tmp with p := p } = tmp.actualSize from rfl, Info.passed_cons]
      refine hQ tmp' nkeys' w' (x :: rs) g (by rw [hfs, q1.fs]) ht' ?_ (hz.cons hzs) ?_ ?_ (hn'.trans hn1) ?_ ?_
      · intro y hy
        rcases List.mem_cons.1 hy with rfl | hy
        · exact hok
        · exact hoks y hy
      · rw [hD, layout_cons, List.append_assoc]
      · intro y hy
        rw [located_cons, List.mem_append] at hy
        rcases hy with hy | hy
        · exact hh y hy
        · exact hhs y (by rw [List.length_append]; exact hy)
      · intro j hj
        have h1 := hc' j hj
        have h2 := hc1 j hj
        rw [homeCount_cons]
        omega
      · intro g' hg
        rw [located_cons, costSum_within, hf2 g' hg, List.length_append]
        show f + _ = _
        rw [hf1 g' hg]; omega

/-- What the passes over the buckets from `b0` on have established. -/
structure FastDone (c : Cfg) (kh : KeyHeader) (D K : Bytes) (b0 : Nat) (rs : List Record) (cs : List (List Bytes)) : Prop where
  parse : D = D.take 92 ++ layout rs
  ok : ∀ x ∈ rs, x.Ok kh.keySize
  sizes : SpillSizes rs
  listed : ∀ y ∈ located 92 rs, b0 ≤ homeOf c kh y.2.1 → homeOf c kh y.2.1 < kh.buckets → HomeListed c kh D K y.1 y.2.1
  counts : ∀ j, b0 + j < kh.buckets → homeCount c kh (b0 + j) rs = chainKeys (cs.getD j [])

/-- The counters, except those depending on uninitialised memory. -/
structure FastInfo (c : Cfg) (kh : KeyHeader) (D K : Bytes) (b0 : Nat) (rs : List Record) (cs : List (List Bytes)) (i i' : Info) : Prop where
  algorithm : i'.algorithm = i.algorithm
  valueCount : i'.valueCount = i.valueCount + (within c kh b0 kh.buckets rs).length
  valueBytes : i'.valueBytes = i.valueBytes + ((within c kh b0 kh.buckets rs).map (fun p => p.2.length)).sum
  keyCount : i'.keyCount = (i.tabled cs).keyCount
  spillCount : i'.spillCount = (i.tabled cs).spillCount
  spillBytes : i'.spillBytes = (i.tabled cs).spillBytes
  hist : i'.hist = (i.tabled cs).hist
  spillCountTot : i'.spillCountTot = i.spillCountTot + (if b0 = 0 then (overflows rs).length else 0)
  fetches : ∀ g, Costing c kh D K g → i'.fetches = i.fetches + costSum g (withinAt c kh b0 kh.buckets (located 92 rs))

theorem within_split {b0 b1 b2 : Nat} (h1 : b0 ≤ b1) (h2 : b1 ≤ b2) (rs : List Record) :
    (within c kh b0 b2 rs).length = (within c kh b0 b1 rs).length + (within c kh b1 b2 rs).length ∧
    ((within c kh b0 b2 rs).map (fun p => p.2.length)).sum =
      ((within c kh b0 b1 rs).map (fun p => p.2.length)).sum + ((within c kh b1 b2 rs).map (fun p => p.2.length)).sum := by
  unfold within
  induction values rs with
  | nil => simp
  | cons p l ih =>
    simp only [List.filter_cons]
    by_cases ha : b0 ≤ homeOf c kh p.1 <;> by_cases hb : homeOf c kh p.1 < b1 <;> by_cases hc : homeOf c kh p.1 < b2 <;>
      by_cases hd : b1 ≤ homeOf c kh p.1 <;> simp only [ha, hb, hc, hd, decide_true, decide_false, Bool.and_true, Bool.and_false,
        Bool.false_eq_true, if_true, if_false, List.length_cons, List.map_cons, List.sum_cons] <;> omega

theorem costSum_split {b0 b1 b2 : Nat} (h1 : b0 ≤ b1) (h2 : b1 ≤ b2) (g : Nat → Bytes → Nat) (l : List (Nat × Bytes × Bytes)) :
    costSum g (withinAt c kh b0 b2 l) = costSum g (withinAt c kh b0 b1 l) + costSum g (withinAt c kh b1 b2 l) := by
  unfold withinAt costSum
  induction l with
  | nil => simp
  | cons p l ih =>
    simp only [List.filter_cons]
    by_cases ha : b0 ≤ homeOf c kh p.2.1 <;> by_cases hb : homeOf c kh p.2.1 < b1 <;> by_cases hc : homeOf c kh p.2.1 < b2 <;>
      by_cases hd : b1 ≤ homeOf c kh p.2.1 <;> simp only [ha, hb, hc, hd, decide_true, decide_false, Bool.and_true, Bool.and_false,
        Bool.false_eq_true, if_true, if_false, List.map_cons, List.sum_cons] <;> omega

theorem tabled_append (i : Info) (a b : List (List Bytes)) : i.tabled (a ++ b) = (i.tabled a).tabled b := by
  induction a generalizing i with
  | nil => rfl
  | cons x a ih => simp only [List.cons_append, Info.tabled, ih]

/-- The counters of the table depend on the same counters only. -/
theorem tabled_same {i j : Info} (cs : List (List Bytes)) (h1 : i.keyCount = j.keyCount) (h2 : i.spillCount = j.spillCount)
    (h3 : i.spillBytes = j.spillBytes) (h4 : i.hist = j.hist) :
    (i.tabled cs).keyCount = (j.tabled cs).keyCount ∧ (i.tabled cs).spillCount = (j.tabled cs).spillCount ∧
    (i.tabled cs).spillBytes = (j.tabled cs).spillBytes ∧ (i.tabled cs).hist = (j.tabled cs).hist := by
  induction cs generalizing i j with
  | nil => exact ⟨h1, h2, h3, h4⟩
  | cons x cs ih =>
    simp only [Info.tabled]
    apply ih <;> simp [Info.chained, h1, h2, h3, h4]

theorem tabled_rest (i : Info) (cs : List (List Bytes)) : (i.tabled cs).algorithm = i.algorithm ∧
    (i.tabled cs).valueCount = i.valueCount ∧ (i.tabled cs).valueBytes = i.valueBytes ∧
    (i.tabled cs).spillCountTot = i.spillCountTot ∧ (i.tabled cs).fetches = i.fetches := by
  induction cs generalizing i with
  | nil => exact ⟨rfl, rfl, rfl, rfl, rfl⟩
  | cons x cs ih =>
    simp only [Info.tabled]
    exact ih _

theorem pc_fastChunks {chunk : Nat} {Q : Info → World → Prop} (h104 : 104 ≤ kh.blockSize) (h92 : 92 ≤ df.cur.length)
    (hch : 1 ≤ chunk)
    (hcount : ∀ n, n < kh.buckets → countIn (bytesAt kf.cur ((n + 1) * kh.blockSize) (bucketBytes kh.blockSize)) ≤ (kh.blockSize - 8) / 18)
    (fuel : Nat) : ∀ {b0 work : Nat} {mem : Bytes} {tmp : Bkt} {info : Info} {w : World}, w.fs .dat = some df → w.fs .key = some kf →
    TmpOk kh tmp → mem.length = chunk * kh.blockSize →
    (∀ cs info' w', w'.fs = w.fs → cs.length = kh.buckets - b0 → Chains df.cur kf.cur kh.blockSize b0 cs →
      (b0 < kh.buckets → ∃ rs, FastDone c kh df.cur kf.cur b0 rs cs ∧ FastInfo c kh df.cur kf.cur b0 rs cs info info') →
      (kh.buckets ≤ b0 → info' = info) → Q info' w') →
    pc σ (fastChunks c kh df.cur.length chunk nwork fuel b0 work mem tmp info) Q w := by
  induction fuel generalizing Q with
  | zero => intros; exact pc_raise
  | succ fuel ih =>
    intro b0 work mem tmp info w hf hk ht hm hQ
    unfold fastChunks
    split
    · rename_i hb
      dsimp only
      generalize hb1 : min (b0 + chunk) kh.buckets = b1
      have hlt : b0 < b1 := by omega
      have hle : b1 ≤ kh.buckets := by omega
      have hpos : (b1 - b0) * kh.blockSize ≠ 0 := by
        have : 1 * 104 ≤ (b1 - b0) * kh.blockSize := Nat.mul_le_mul (by omega) h104
        omega
      apply wp_bind
      apply pc_fRead hk hpos
      intro hrd
      apply wp_bind
      apply pc_lift
      intro mem1 hp
      have hm1 := poke_len hp
      have hbl : bucketBytes kh.blockSize ≤ kh.blockSize := by unfold bucketBytes; omega
      have hblk : ∀ i, i < b1 - b0 → (i + 1) * kh.blockSize ≤ (b1 - b0) * kh.blockSize := fun i hi => Nat.mul_le_mul_right _ hi
      have hin : ∀ i, i < b1 - b0 → (b0 + i + 1) * kh.blockSize + kh.blockSize ≤ kf.cur.length := by
        intro i hi
        have h1 := hblk i hi
        have h2 : (b0 + i + 1) * kh.blockSize = (b0 + 1) * kh.blockSize + i * kh.blockSize := by
          rw [← Nat.add_mul]; congr 1; omega
        have h3 : (i + 1) * kh.blockSize = i * kh.blockSize + kh.blockSize := Nat.succ_mul _ _
        omega
      have hlen : ∀ i, i < b1 - b0 → (bytesAt kf.cur ((b0 + i + 1) * kh.blockSize) (bucketBytes kh.blockSize)).length = bucketBytes kh.blockSize := by
        intro i hi
        have := hin i hi
        rw [bytesAt_eq]
        exact slice_length_of_le (by omega)
      have hbuf : Buffered kh kf.cur mem1 b0 (b1 - b0) := by
        have hml : (b1 - b0) * kh.blockSize ≤ mem1.length := by
          rw [hm1, hm]; exact Nat.mul_le_mul_right _ (by omega)
        refine ⟨hml, ?_⟩
        intro i hi
        have h0 := hin i hi
        have h1 := hblk i hi
        have h3 : (i + 1) * kh.blockSize = i * kh.blockSize + kh.blockSize := Nat.succ_mul _ _
        have hdl : (slice kf.cur ((b0 + 1) * kh.blockSize) ((b1 - b0) * kh.blockSize)).length = (b1 - b0) * kh.blockSize :=
          slice_length_of_le hrd
        have e : slice mem1 (i * kh.blockSize) kh.blockSize = slice kf.cur ((b0 + i + 1) * kh.blockSize) kh.blockSize := by
          rw [poke_ok (by omega)] at hp
          injection hp with hp
          rw [← hp]
          unfold put
          simp only [List.take_zero, List.nil_append]
          rw [slice_append_left (by omega), slice_slice (by omega)]
          congr 1
          rw [← Nat.add_mul]; congr 1; omega
        rw [e, bytesAt_eq, ← take_slice hbl]
        exact List.take_prefix _ _
      apply wp_bind
      apply wp_emit
      apply wp_bind
      apply pc_fastCounts (i := 0) h104 hlen hbuf (b1 - b0) (by omega) (by exact hf) ht
      intro cs tmp1 w1 q1 hcl hcs ht1
      simp only [Nat.add_zero] at hcs
      dsimp only
      apply wp_bind
      have hp92 : (df.cur.take 92).length = 92 := by simp; omega
      have hfs1 : w1.fs = w.fs := by rw [q1.fs]; rfl
      apply pc_fastScan (df := df) (pre := df.cur.take 92) h104 hlen hbuf
        (fun i hi => hcount (b0 + i) (by omega)) _ (by rw [hfs1]; exact hf) ht1
        ⟨rinv_new c _ (Nat.le_refl _) h92, rfl, rfl, by rw [hp92]; rfl⟩ (List.take_prefix _ _) (by simp [hcl])
      intro tmp2 nkeys2 w2 rs f hfs2 ht2 hok hz hD hl hn hc hfe
      rw [hp92] at hl hfe
      dsimp only
      split
      · exact pc_fail
      · rename_i hany
        have hzero : ∀ j, nkeys2.getD j 0 = 0 := by
          intro j
          rw [List.getD_eq_getElem?_getD]
          by_cases hj : j < nkeys2.length
          · rw [List.getElem?_eq_getElem hj]
            simp only [List.any_eq_true, decide_eq_true_eq, not_exists, not_and, Decidable.not_not] at hany
            exact hany _ (List.getElem_mem hj)
          · rw [List.getElem?_eq_none (by omega)]; rfl
        apply ih (by rw [hfs2, hfs1]; exact hf) (by rw [hfs2, hfs1]; exact hk) ht2 (hm1.trans hm)
        intro cs' info' w' hfs' hcl' hcs' hmore hdone
        have hcs2 : Chains df.cur kf.cur kh.blockSize (b0 + cs.length) cs' := by
          by_cases hend : b0 + chunk ≤ kh.buckets
          · rw [hcl, show b0 + (b1 - b0) = b0 + chunk by omega]; exact hcs'
          · have : cs' = [] := List.length_eq_zero_iff.1 (by omega)
            rw [this]; exact .nil _
        refine hQ (cs ++ cs') info' w' (by rw [hfs', hfs2, hfs1]) ?_ (hcs.append hcs2) ?_ (by omega)
        · rw [List.length_append]; omega
        · intro _
          have hch1 : ∀ j, j < b1 - b0 → homeCount c kh (b0 + j) rs = chainKeys ((cs ++ cs').getD j []) := by
            intro j hj
            have h1 := hc j hj
            rw [hzero j] at h1
            rw [List.getD_eq_getElem?_getD, List.getElem?_map] at h1
            rw [List.getD_eq_getElem?_getD, List.getElem?_append_left (by omega)]
            rw [List.getElem?_eq_getElem (by omega)] at h1 ⊢
            simpa using h1
          have ht0 := tabled_rest info cs
          by_cases hend : b0 + chunk < kh.buckets
          · obtain ⟨rs', hd, hi⟩ := hmore hend
            have hrs : rs' = rs := by
              apply layout_inj (ks := kh.keySize) rs' hd.ok hok
              exact List.append_cancel_left (hd.parse.symm.trans hD)
            subst hrs
            have hb1' : b1 = b0 + chunk := by omega
            refine ⟨rs', ⟨hd.parse, hok, hz, ?_, ?_⟩, ?_⟩
            · intro y hy h1 h2
              by_cases h3 : homeOf c kh y.2.1 < b1
              · exact hl y hy h1 h3
              · exact hd.listed y hy (by omega) h2
            · intro j hj
              by_cases h3 : j < b1 - b0
              · exact hch1 j h3
              · have := hd.counts (j - chunk) (by omega)
                rw [show b0 + chunk + (j - chunk) = b0 + j by omega] at this
                rw [this, List.getD_eq_getElem?_getD, List.getD_eq_getElem?_getD, List.getElem?_append_right (by omega), hcl,
                  show j - (b1 - b0) = j - chunk by omega]
            · have hw := within_split (c := c) (kh := kh) (b0 := b0) (b1 := b1) (b2 := kh.buckets) (by omega) hle rs'
              have htb := tabled_same (i := (info.tabled cs).passed c kh b0 b1 tmp1.actualSize rs' f) (j := info.tabled cs) cs' rfl rfl rfl rfl
              rw [← tabled_append] at htb
              rw [← hb1'] at hi
              refine ⟨hi.algorithm.trans ht0.1, ?_, ?_, hi.keyCount.trans htb.1, hi.spillCount.trans htb.2.1,
                hi.spillBytes.trans htb.2.2.1, hi.hist.trans htb.2.2.2, ?_, ?_⟩
              · rw [hi.valueCount, hw.1]
                show (info.tabled cs).valueCount + _ + _ = _
                rw [ht0.2.1]; omega
              · rw [hi.valueBytes, hw.2]
                show (info.tabled cs).valueBytes + _ + _ = _
                rw [ht0.2.2.1]; omega
              · rw [hi.spillCountTot]
                show (info.tabled cs).spillCountTot + _ + _ = _
                rw [ht0.2.2.2.1, if_neg (by omega : ¬ b1 = 0)]; omega
              · intro g hg
                rw [hi.fetches g hg, costSum_split (b0 := b0) (b1 := b1) (by omega) hle g]
                show f + _ = _
                rw [hfe g hg, ht0.2.2.2.2]; omega
          · have he := hdone (by omega)
            have hb1' : b1 = kh.buckets := by omega
            subst he
            have hnil : cs' = [] := List.length_eq_zero_iff.1 (by omega)
            subst hnil
            rw [List.append_nil] at hch1 ⊢
            rw [hb1'] at hl
            refine ⟨rs, ⟨hD, hok, hz, fun y hy h1 h2 => hl y hy h1 h2, fun j hj => hch1 j (by omega)⟩, ?_⟩
            rw [hb1']
            refine ⟨ht0.1, ?_, ?_, rfl, rfl, rfl, rfl, ?_, ?_⟩
            · show (info.tabled cs).valueCount + _ = _; rw [ht0.2.1]
            · show (info.tabled cs).valueBytes + _ = _; rw [ht0.2.2.1]
            · show (info.tabled cs).spillCountTot + _ = _; rw [ht0.2.2.2.1]
            · intro g hg
              show f = _
              rw [hfe g hg, ht0.2.2.2.2, hb1']
    · rename_i hb
      exact wp_ret (hQ [] info w rfl (by simp; omega) (.nil _) (fun h => absurd h hb) (fun _ => rfl))

end

end NuDB
