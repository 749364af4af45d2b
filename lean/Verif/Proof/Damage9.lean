import Verif.Proof.Damage8
import Verif.Proof.LogHeaders
/- Files whose counts are greater than there is room for. -/
namespace NuDB

open Spec

variable {c : Cfg} {D K : Bytes}

theorem Spec.Headed.heads (h : Headed c.H D K) : Heads c D K (getKeyHeader (slice K 0 104) K.length) := by
  have hD := h.dlen
  have hK : 208 ≤ K.length := by have := h.klen; have := h.block; omega
  have hfk := getKeyHeader_fields (K := K) (by omega)
  have dk16 : value (bytesAt D 26 2) = value (bytesAt K 26 2) := by rw [bytesAt_of_eq h.dk 26 2 (by omega) (by omega)]
  have dk64 : ∀ o, 10 ≤ o → o + 8 ≤ 28 → value (bytesAt D o 8) = value (bytesAt K o 8) := by
    intro o h1 h2; rw [bytesAt_of_eq h.dk o 8 h1 h2]
  have hks : 1 ≤ value (bytesAt K 26 2) := h.keySize
  have hsalt : value (bytesAt K 36 8) = pepper c.H (value (bytesAt K 28 8)) := by
    have := h.hash
    unfold pepper
    rw [le64_reverse]
    exact this
  have hvd : verifyDat (getDatHeader (slice D 0 92)) = .ok () := by
    unfold verifyDat getDatHeader
    simp only [bytesAt_u16 (f := D) (n := 92) (o := 8) (by omega) hD, bytesAt_u16 (f := D) (n := 92) (o := 26) (by omega) hD]
    rw [if_neg, if_neg, if_neg]
    · omega
    · simpa [currentVersion] using h.dver
    · rw [slice_bytesAt (by omega)]; exact fun hn => hn h.dsig
  have hvk : verifyKey c.H (getKeyHeader (slice K 0 104) K.length) = .ok () := by
    have hb : 1 ≤ (getKeyHeader (slice K 0 104) K.length).buckets := by
      rw [hfk.2.2.1, bucketsOfSize_eq (by have := h.block; omega)]
      have := (Nat.le_div_iff_mul_le (by have := h.block; omega)).mpr h.klen
      omega
    have hc : 1 ≤ (getKeyHeader (slice K 0 104) K.length).capacity := by
      rw [hfk.2.1]; exact capacity_pos h.block
    have h1 : (getKeyHeader (slice K 0 104) K.length).type = keyType := by
      show slice (slice K 0 104) 0 8 = _
      rw [slice_bytesAt (by omega)]; exact h.ksig
    have h2 : (getKeyHeader (slice K 0 104) K.length).version = 2 := by
      show getU16 (slice (slice K 0 104) 8 2) = _
      rw [bytesAt_u16 (by omega) (by omega)]; exact h.kver
    have h3 : (getKeyHeader (slice K 0 104) K.length).pepper = value (bytesAt K 36 8) := by
      show getU64 (slice (slice K 0 104) 36 8) = _
      rw [bytesAt_u64 (by omega) (by omega)]
    unfold verifyKey
    rw [if_neg (by simp [h1]), if_neg (by simp [h2, currentVersion]), if_neg (by rw [hfk.2.2.2.1]; have := h.keySize; omega),
      if_neg (by rw [h3, hfk.2.2.2.2.1]; simpa [saltOf] using hsalt),
      if_neg (by rw [hfk.2.2.2.2.2]; have := h.load; omega), if_neg (by omega), if_neg (by omega)]
  refine ⟨hD, by omega, rfl, hvd, hvk, ?_⟩
  · have e1 : (getKeyHeader (slice K 0 104) K.length).uid = (getDatHeader (slice D 0 92)).uid := by
      show getU64 (slice (slice K 0 104) 10 8) = getU64 (slice (slice D 0 92) 10 8)
      rw [bytesAt_u64 (by omega) (by omega), bytesAt_u64 (by omega) (by omega), dk64 10 (by omega) (by omega)]
    have e2 : (getKeyHeader (slice K 0 104) K.length).appnum = (getDatHeader (slice D 0 92)).appnum := by
      show getU64 (slice (slice K 0 104) 18 8) = getU64 (slice (slice D 0 92) 18 8)
      rw [bytesAt_u64 (by omega) (by omega), bytesAt_u64 (by omega) (by omega), dk64 18 (by omega) (by omega)]
    have e3 : (getKeyHeader (slice K 0 104) K.length).keySize = (getDatHeader (slice D 0 92)).keySize := by
      show getU16 (slice (slice K 0 104) 26 2) = getU16 (slice (slice D 0 92) 26 2)
      rw [bytesAt_u16 (by omega) (by omega), bytesAt_u16 (by omega) (by omega), dk16]
    unfold verifyDatKey
    rw [hvk]
    show (if _ then _ else if _ then _ else if _ then _ else _) = _
    rw [if_neg (fun h => h e1), if_neg (fun h => h e2), if_neg (fun h => h e3)]

section
variable {w : World} {df kf : FileSt}

/-- `verify` without faults comes to one of the two algorithms. -/
theorem calm_verify {n : Nat} {kh : KeyHeader} {Q : Info → World → Prop} {X : Exc → World → Prop} (hd : w.fs .dat = some df)
    (hk : w.fs .key = some kf) (h : Heads c df.cur kf.cur kh)
    (hq : ∀ w', w'.fs = w.fs → wp calm (if chooseNormal kh df.cur.length kf.cur.length n then verifyNormal c kh df.cur.length kf.cur.length
      else verifyFast c kh df.cur.length kf.cur.length n) Q X w') : wp calm (verify c n) Q X w := by
  have hF : ∀ {x : Exc} {w' : World}, IsFault x → Faulty calm → X x w' := fun _ hf => (not_faulty_calm hf).elim
  have h92 := h.dlen
  have h104 := h.klen
  have hv1 := h.dat
  have hv2 := h.key
  have hv3 := h.both
  obtain rfl := h.head
  unfold verify
  apply wp_bind
  refine wp_fOpen hd ?_ (fun x hx h => hF hx h)
  apply wp_bind
  refine wp_fOpen (f := kf) (by exact hk) ?_ (fun x hx h => hF hx h)
  apply wp_bind
  unfold readDatHeader
  apply wp_bind
  refine wp_fRead (f := df) (by exact hd) (by simp only [datHeaderSize]; omega) ?_ (fun x hx h => hF hx h)
  apply wp_ret
  apply wp_bind
  refine wp_check_ok hv1 ?_
  apply wp_bind
  unfold readKeyHeader
  apply wp_bind
  refine wp_fRead (f := kf) (by exact hk) (by simp only [keyHeaderSize]; omega) ?_ (fun x hx h => hF hx h)
  apply wp_bind
  refine wp_fSize (f := kf) (by exact hk) ?_ (fun x hx h => hF hx h)
  apply wp_ret
  apply wp_bind
  refine wp_check_ok hv2 ?_
  apply wp_bind
  refine wp_check_ok hv3 ?_
  apply wp_bind
  refine wp_fSize (f := kf) (by exact hk) ?_ (fun x hx h => hF hx h)
  apply wp_bind
  refine wp_fSize (f := df) (by exact hd) ?_ (fun x hx h => hF hx h)
  exact hq _ rfl

/-- A reader of the whole data file. -/
structure RFull (D : Bytes) (r : Reader) : Prop where
  inv : RInv r D
  path : r.path = .dat
  last : r.last = D.length

theorem cprepare {r : Reader} {n : Nat} {f : FileSt} {Q : Bytes × Reader → World → Prop} {X : Exc → World → Prop} (hf : w.fs .dat = some f)
    (hr : RFull f.cur r) (hn : r.pos + n ≤ f.cur.length)
    (hq : ∀ r' w', RFull f.cur r' → r'.pos = r.pos + n → w'.fs = w.fs → Q (bytesAt f.cur r.pos n, r') w') :
    wp calm (r.prepare c n) Q X w := by
  refine wp_prepare (by rw [hr.path]; exact hf) hr.inv ?_ (fun h => ?_) (fun x hx h _ _ => (not_faulty_calm h).elim)
  · intro r' w' h1 h2 _
    exact hq r' w' ⟨h1.inv, h1.path.trans hr.path, h1.last.trans hr.last⟩ h1.pos h2
  · rw [hr.last] at h
    omega

theorem cshortAs {α : Type} {m : M α} {e : Err} {Q : α → World → Prop} (h : wp calm m Q (fun x _ => x = .ub) w) :
    wp calm (shortAs e m) Q (fun x _ => x = .ub) w := by
  unfold shortAs
  apply wp_bind
  apply wp_attempt
  refine wp_conseq h ?_ ?_
  · intro a w1 h1; exact wp_ret h1
  · rintro x w1 rfl
    rfl

theorem csize {r : Reader} {f : FileSt} {n : Nat} {Q : Nat → World → Prop} {X : Exc → World → Prop}
    (hl : r.pos + 6 ≤ f.cur.length) (hv : value (bytesAt f.cur r.pos 6) = n) (hn : n < 2 ^ 32) (hq : Q n w) :
    wp calm (M.lift (getSize48 (bytesAt f.cur r.pos 6))) Q X w := by
  refine wp_lift_ok ?_ hq
  unfold getSize48
  dsimp only
  rw [C18_u48.reads _ (bytesAt_len hl), hv, assert_ok (by simp; omega)]
  rfl

theorem cnormalStep {kh : KeyHeader} {nwork work : Nat} {b : Bkt} {r : Reader} {info : Info} {f : FileSt}
    {Q : Bkt × Reader × Nat × Info → World → Prop}
    (hc : 1 ≤ bucketCapacity kh.blockSize) (hcap : kh.capacity = bucketCapacity kh.blockSize)
    (hf : w.fs .dat = some f) (hr : RFull f.cur r) (hb : b.p.length = kh.blockSize + (6 + kh.keySize))
    (h0 : value (bytesAt f.cur r.pos 6) = 0) (h1 : value (bytesAt f.cur (r.pos + 6) 2) = 8 + 18 * bucketCapacity kh.blockSize)
    (h2 : kh.blockSize + 6 + kh.keySize < 8 + 18 * value (bytesAt f.cur (r.pos + 8) 2))
    (h3 : r.pos + 16 + 18 * value (bytesAt f.cur (r.pos + 8) 2) ≤ f.cur.length) :
    wp calm (normalStep c kh nwork b r work info) Q (fun x _ => x = .ub) w := by
  have h8 := cap_room hc
  unfold normalStep
  dsimp only
  apply wp_bind
  refine cprepare hf hr (by omega) ?_
  intro r1 w1 i1 q1 e1
  have hf1 : w1.fs .dat = some f := by rw [e1]; exact hf
  apply wp_bind
  refine csize (by omega) h0 (by decide) ?_
  rw [if_neg (by omega)]
  apply wp_bind
  apply cshortAs
  dsimp only
  refine cprepare hf1 i1 (by omega) ?_
  intro r2 w2 i2 q2 e2
  have hf2 : w2.fs .dat = some f := by rw [e2]; exact hf1
  dsimp only
  rw [if_neg]
  rotate_left
  · intro hn
    apply hn
    rw [q1, C18_u16.reads _ (bytesAt_len (by omega)), h1, hcap]
    unfold bucketSize
    omega
  apply wp_bind
  apply cshortAs
  unfold Bkt.readBulk Bkt.readHead
  apply wp_bind
  apply wp_bind
  dsimp only
  refine cprepare hf2 i2 (by omega) ?_
  intro r3 w3 i3 q3 e3
  have hf3 : w3.fs .dat = some f := by rw [e3]; exact hf2
  have q2' : r2.pos = r.pos + 8 := by rw [q2, q1]
  have hn : getU16 (slice (bytesAt f.cur r2.pos 8) 0 2) = value (bytesAt f.cur (r.pos + 8) 2) := by
    have : slice (bytesAt f.cur r2.pos 8) 0 2 = bytesAt f.cur r2.pos 2 := by
      unfold slice bytesAt
      rw [List.drop_zero, List.take_take]
      rfl
    rw [this, C18_u16.reads _ (bytesAt_len (by omega)), q2']
  have hw : ∀ a d, (putU16 a ++ putU48 d).length = 8 := fun _ _ => rfl
  have hup : ∀ x y, x < 2 ^ 16 → y < 2 ^ 48 → Bkt.update { b with size := x, spill := y } =
      .ok { b with size := x, spill := y, p := put b.p 0 (putU16 x ++ putU48 y) } := by
    intro x y hx hy
    unfold Bkt.update
    rw [assert_ok (by simp; omega)]
    show (assert _ >>= _) = _
    rw [assert_ok (by simp; omega)]
    show (poke b.p 0 _ >>= _) = _
    rw [poke_ok (by rw [hw]; omega)]
    rfl
  apply wp_bind
  refine wp_lift_ok (hup _ _ (getU16_lt (slice_length_of_le (by rw [bytesAt_len (by omega)]; omega)))
    (getU48_lt (slice_length_of_le (by rw [bytesAt_len (by omega)]; omega)))) ?_
  apply wp_ret
  dsimp only
  unfold Bkt.readBody
  apply wp_bind
  dsimp only
  rw [hn]
  refine cprepare hf3 i3 (by omega) ?_
  intro r4 w4 i4 q4 e4
  dsimp only
  apply wp_bind
  refine wp_lift_error (x := .ub) ?_ rfl
  unfold poke
  rw [if_neg]
  rw [bytesAt_len (by omega), put_length (by rw [hw]; omega), hb]
  omega

theorem cverifyNormal {kh : KeyHeader} {n : Nat} {f : FileSt} {Q : Info → World → Prop} (hc : 1 ≤ bucketCapacity kh.blockSize)
    (hcap : kh.capacity = bucketCapacity kh.blockSize) (hf : w.fs .dat = some f)
    (h0 : value (bytesAt f.cur 92 6) = 0) (h1 : value (bytesAt f.cur 98 2) = 8 + 18 * bucketCapacity kh.blockSize)
    (h2 : kh.blockSize + 6 + kh.keySize < 8 + 18 * value (bytesAt f.cur 100 2))
    (h3 : 108 + 18 * value (bytesAt f.cur 100 2) ≤ f.cur.length) :
    wp calm (verifyNormal c kh f.cur.length n) Q (fun x _ => x = .ub) w := by
  have h8 := cap_room hc
  unfold verifyNormal
  dsimp only
  apply wp_bind
  apply wp_emit
  apply wp_bind
  have hl : (c.fresh (kh.blockSize + (6 + kh.keySize))).length = kh.blockSize + (6 + kh.keySize) := fresh_length _ _
  obtain ⟨b, hb, e⟩ : ∃ b, Bkt.ofMem kh.blockSize (c.fresh (kh.blockSize + (6 + kh.keySize))) = .ok b ∧
      b.p = c.fresh (kh.blockSize + (6 + kh.keySize)) := by
    unfold Bkt.ofMem
    rw [peek_ok (by omega)]
    show ∃ b, (peek _ 2 6 >>= _) = _ ∧ _
    rw [peek_ok (by omega)]
    exact ⟨_, rfl, rfl⟩
  refine wp_lift_ok hb ?_
  apply wp_bind
  unfold normalScan
  rw [if_neg]
  · apply wp_bind
    exact cnormalStep hc hcap (by exact hf) ⟨rinv_new c .dat (Nat.le_refl _) (by simp only [datHeaderSize]; omega), rfl, rfl⟩ (by rw [e, hl])
      h0 h1 h2 h3
  · show ¬ (decide (92 - 0 ≥ f.cur.length) = true)
    simp only [decide_eq_true_eq]
    omega

theorem cseek {h off fuel f : Nat} {b tmp : Bkt} {Q : Nat × Bkt → World → Prop} (hs : 1 ≤ b.size) (hl : b.p.length < 26 + 18 * (b.size / 2)) :
    wp calm (seekValueFast h off (fuel + 1) b tmp f) Q (fun x _ => x = .ub) w := by
  unfold seekValueFast
  apply wp_bind
  refine wp_lift_error (x := .ub) ?_ rfl
  unfold Bkt.lowerBound Bkt.lbLoop
  rw [if_pos (by omega)]
  dsimp only
  have : peek b.p (2 + 6 + 6 + 6 + (0 + b.size / 2) * 18) 6 = .error .ub := by
    unfold peek
    rw [if_neg (by omega)]
  rw [this]
  rfl

theorem cfastStep {kh : KeyHeader} {work nwork size : Nat} {mem : Bytes} {tmp : Bkt} {nkeys : List Nat} {r : Reader} {info : Info} {f : FileSt}
    {Q : Bkt × List Nat × Reader × Info → World → Prop} (hb : kh.buckets = 1) (hm : kh.modulus = 1) (hf : w.fs .dat = some f)
    (hr : RFull f.cur r) (hv : value (bytesAt f.cur r.pos 6) = size) (h0 : 1 ≤ size) (hn : size < 2 ^ 32)
    (hl : r.pos + 6 + kh.keySize + size ≤ f.cur.length) (h8 : 8 ≤ mem.length) (hc : 1 ≤ getU16 (slice mem 0 2))
    (ho : mem.length + tmp.p.length < 26 + 18 * (getU16 (slice mem 0 2) / 2)) :
    wp calm (fastStep c kh 0 1 work nwork mem tmp nkeys r info) Q (fun x _ => x = .ub) w := by
  unfold fastStep
  dsimp only
  apply wp_bind
  apply cshortAs
  refine cprepare hf hr (by omega) ?_
  intro r1 w1 i1 q1 e1
  have hf1 : w1.fs .dat = some f := by rw [e1]; exact hf
  apply wp_bind
  refine csize (by omega) hv hn ?_
  rw [if_pos (by omega)]
  apply wp_bind
  apply cshortAs
  dsimp only
  refine cprepare hf1 i1 (by omega) ?_
  intro r2 w2 i2 q2 e2
  dsimp only
  apply wp_bind
  refine wp_lift_ok (bucketIndexA_ok (by rw [hm]; decide)) ?_
  have e0 : ∀ h, bucketIndex h kh.buckets kh.modulus = 0 := by
    intro h
    unfold bucketIndex
    rw [hb, hm, Nat.mod_one]
    rfl
  rw [e0, if_neg (by omega)]
  apply wp_bind
  rw [Nat.zero_sub, Nat.zero_mul, List.drop_zero]
  have hbk : Bkt.ofMem kh.blockSize (mem ++ tmp.p) =
      .ok ⟨kh.blockSize, getU16 (slice mem 0 2), getU48 (slice mem 2 6), mem ++ tmp.p⟩ := by
    unfold Bkt.ofMem
    have g : ∀ o n, o + n ≤ 8 → slice (mem ++ tmp.p) o n = slice mem o n := by
      intro o n h
      unfold slice
      rw [List.drop_append_of_le_length (by omega), List.take_append_of_le_length (by rw [List.length_drop]; omega)]
    rw [peek_ok (by rw [List.length_append]; omega)]
    show (peek _ 2 6 >>= _) = _
    rw [peek_ok (by rw [List.length_append]; omega), g 0 2 (by omega), g 2 6 (by omega)]
    rfl
  refine wp_lift_ok hbk ?_
  apply wp_bind
  have : ∀ {R : Nat → World → Prop}, (∀ fuel, R (fuel + 1) w2) → wp calm lookupFuel R (fun x _ => x = .ub) w2 := by
    intro R h
    unfold wp lookupFuel
    dsimp only
    split <;> exact h _
  refine this fun fuel => ?_
  apply wp_bind
  refine cseek hc ?_
  rw [List.length_append]
  exact ho

theorem cverifyFast {kh : KeyHeader} {n m size : Nat} {f kf : FileSt} {Q : Info → World → Prop} (h104 : 104 ≤ kh.blockSize)
    (hf : w.fs .dat = some f) (hk : w.fs .key = some kf) (hkl : 2 * kh.blockSize ≤ kf.cur.length)
    (hb : kh.buckets = 1) (hm : kh.modulus = 1) (hn : 2 * kh.blockSize + 8 ≤ n)
    (hv : value (bytesAt f.cur 92 6) = size) (h0 : 1 ≤ size) (h32 : size < 2 ^ 32)
    (hl : 98 + kh.keySize + size ≤ f.cur.length)
    (hs : value (bytesAt kf.cur (kh.blockSize + 2) 6) = 0)
    (ho : 2 * kh.blockSize < 26 + 18 * (value (bytesAt kf.cur kh.blockSize 2) / 2)) :
    wp calm (verifyFast c kh f.cur.length m n) Q (fun x _ => x = .ub) w := by
  have hch : fastChunk kh n = 1 := by
    unfold fastChunk
    rw [if_pos (by omega), hb]
    have : 1 ≤ (n - kh.blockSize) / (kh.blockSize + 8) := (Nat.le_div_iff_mul_le (by omega)).mpr (by omega)
    omega
  unfold verifyFast
  rw [if_neg (by omega)]
  dsimp only
  rw [hch]
  apply wp_bind
  apply wp_emit
  apply wp_bind
  have hlen : (c.fresh ((1 + 1) * kh.blockSize)).length = 2 * kh.blockSize := fresh_length _ _
  rw [Nat.one_mul]
  obtain ⟨tmp, ht, e⟩ : ∃ b, Bkt.ofMem kh.blockSize ((c.fresh ((1 + 1) * kh.blockSize)).drop kh.blockSize) = .ok b ∧
      b.p = (c.fresh ((1 + 1) * kh.blockSize)).drop kh.blockSize := by
    unfold Bkt.ofMem
    rw [peek_ok (by rw [List.length_drop]; omega)]
    show ∃ b, (peek _ 2 6 >>= _) = _ ∧ _
    rw [peek_ok (by rw [List.length_drop]; omega)]
    exact ⟨_, rfl, rfl⟩
  refine wp_lift_ok ht ?_
  unfold fastChunks
  rw [if_pos (by omega), hb]
  simp only [Nat.zero_add, Nat.min_self, Nat.sub_zero, Nat.one_mul]
  apply wp_bind
  refine wp_fRead (f := kf) (by exact hk) (by omega) ?_ (fun x hx h => (not_faulty_calm h).elim)
  apply wp_bind
  have hml : ((c.fresh ((1 + 1) * kh.blockSize)).take kh.blockSize).length = kh.blockSize := by rw [List.length_take]; omega
  have hdl : (slice kf.cur kh.blockSize kh.blockSize).length = kh.blockSize := slice_length_of_le (by omega)
  refine wp_lift_ok (poke_ok (by omega)) ?_
  have hput : put ((c.fresh ((1 + 1) * kh.blockSize)).take kh.blockSize) 0 (slice kf.cur kh.blockSize kh.blockSize) =
      slice kf.cur kh.blockSize kh.blockSize := by
    unfold put
    rw [List.drop_of_length_le (by omega)]
    simp
  rw [hput]
  have g : ∀ o n, o + n ≤ 8 → slice (slice kf.cur kh.blockSize kh.blockSize) o n = bytesAt kf.cur (kh.blockSize + o) n :=
    fun o n h => slice_slice (by omega)
  apply wp_bind
  apply wp_emit
  apply wp_bind
  unfold fastCounts
  apply wp_bind
  rw [Nat.zero_mul]
  have hself : slice (slice kf.cur kh.blockSize kh.blockSize) 0 kh.blockSize = slice kf.cur kh.blockSize kh.blockSize := by
    rw [slice_slice (by omega), Nat.add_zero]
  rw [hself]
  have hbk : Bkt.ofMem kh.blockSize (slice kf.cur kh.blockSize kh.blockSize) =
      .ok ⟨kh.blockSize, getU16 (bytesAt kf.cur kh.blockSize 2), getU48 (bytesAt kf.cur (kh.blockSize + 2) 6), slice kf.cur kh.blockSize kh.blockSize⟩ := by
    unfold Bkt.ofMem
    rw [peek_ok (by omega)]
    show (peek _ 2 6 >>= _) = _
    rw [peek_ok (by omega), g 0 2 (by omega), g 2 6 (by omega)]
    rfl
  refine wp_lift_ok hbk ?_
  apply wp_bind
  have hfuel : ∀ {w2 : World} {R : Nat → World → Prop}, (∀ fuel, R (fuel + 1) w2) → wp calm lookupFuel R (fun x _ => x = .ub) w2 := by
    intro w2 R h
    unfold wp lookupFuel
    dsimp only
    split <;> exact h _
  refine hfuel fun fuel => ?_
  apply wp_bind
  have hz : getU48 (bytesAt kf.cur (kh.blockSize + 2) 6) = 0 := by
    rw [C18_u48.reads _ (bytesAt_len (by omega))]; exact hs
  dsimp only
  rw [hz]
  unfold fastCount
  rw [if_neg (by simp)]
  apply wp_ret
  dsimp only
  unfold fastCounts
  apply wp_bind
  apply wp_ret
  apply wp_ret
  dsimp only
  apply wp_bind
  unfold fastScan
  rw [if_neg]
  · apply wp_bind
    refine cfastStep hb hm (by exact hf) ⟨rinv_new c .dat (Nat.le_refl _) (by simp only [datHeaderSize]; omega), rfl, rfl⟩ hv h0 h32 hl (by omega) ?_ ?_
    · rw [g 0 2 (by omega), C18_u16.reads _ (bytesAt_len (by omega)), Nat.add_zero]
      omega
    · rw [g 0 2 (by omega), C18_u16.reads _ (bytesAt_len (by omega)), Nat.add_zero, e, hdl, List.length_drop, hlen]
      omega
  · show ¬ (decide (92 - 0 ≥ f.cur.length) = true)
    simp only [decide_eq_true_eq]
    omega

end

end NuDB
