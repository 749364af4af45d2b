import Verif.Proof.RecoverAny
import Verif.Props.Reject
/- Files with matching headers pass all tests of `recover`. -/
namespace NuDB

open Spec

theorem bytesAt_bytesAt {f : Bytes} {o n o' n' : Nat} (h : o' + n' ≤ n) :
    bytesAt (bytesAt f o n) o' n' = bytesAt f (o + o') n' := slice_slice h

theorem bytesAt_of_eq {f g : Bytes} {o n : Nat} (h : bytesAt f o n = bytesAt g o n) (o' n' : Nat)
    (h1 : o ≤ o') (h2 : o' + n' ≤ o + n) : bytesAt f o' n' = bytesAt g o' n' := by
  have := congrArg (fun x => bytesAt x (o' - o) n') h
  rwa [bytesAt_bytesAt (by omega), bytesAt_bytesAt (by omega), show o + (o' - o) = o' from by omega] at this

theorem bytesAt_u16 {f : Bytes} {o n : Nat} (h : o + 2 ≤ n) (hn : n ≤ f.length) :
    getU16 (slice (slice f 0 n) o 2) = value (bytesAt f o 2) := by
  rw [slice_bytesAt h]; exact C18_u16.reads _ (bytesAt_len (by omega))

theorem bytesAt_u64 {f : Bytes} {o n : Nat} (h : o + 8 ≤ n) (hn : n ≤ f.length) :
    getU64 (slice (slice f 0 n) o 8) = value (bytesAt f o 8) := by
  rw [slice_bytesAt h]; exact C18_u64.reads _ (bytesAt_len (by omega))

theorem capacity_pos {bs : Nat} (h : 104 ≤ bs) : 1 ≤ bucketCapacity bs := by
  unfold bucketCapacity
  rw [if_neg]
  · show 1 ≤ (bs - 8) / 18
    omega
  · show ¬ ((decide (bs < 104) || decide (bs < 8)) = true)
    simp; omega

variable {c : Cfg} {D K L : Bytes}

theorem Spec.Matching.valid (h : Matching c.H D K L) (hs : loggedKeySize L ≠ 0) : ValidFor c D K L := by
  have hD := h.dlen
  have hK : 208 ≤ K.length := by have := h.klen; have := h.block; omega
  have hL := h.llen
  have hfk := getKeyHeader_fields (K := K) (by omega)
  have key16 : ∀ o, 10 ≤ o → o + 2 ≤ 46 → value (bytesAt L o 2) = value (bytesAt K o 2) := by
    intro o h1 h2; rw [bytesAt_of_eq h.lk o 2 h1 h2]
  have key64 : ∀ o, 10 ≤ o → o + 8 ≤ 46 → value (bytesAt L o 8) = value (bytesAt K o 8) := by
    intro o h1 h2; rw [bytesAt_of_eq h.lk o 8 h1 h2]
  have dk16 : value (bytesAt D 26 2) = value (bytesAt K 26 2) := by rw [bytesAt_of_eq h.dk 26 2 (by omega) (by omega)]
  have dk64 : ∀ o, 10 ≤ o → o + 8 ≤ 28 → value (bytesAt D o 8) = value (bytesAt K o 8) := by
    intro o h1 h2; rw [bytesAt_of_eq h.dk o 8 h1 h2]
  have hks : 1 ≤ value (bytesAt K 26 2) := h.keySize
  have hsalt : value (bytesAt K 36 8) = pepper c.H (value (bytesAt K 28 8)) := by
    have := h.hash
    unfold pepper
    rw [le64_reverse]
    exact this
  have hvd : verifyDat (getDatHeader (slice D 0 92)) = .ok () := by
    unfold verifyDat getDatHeader
    simp only [bytesAt_u16 (f := D) (n := 92) (o := 8) (by omega) hD, bytesAt_u16 (f := D) (n := 92) (o := 26) (by omega) hD]
    rw [if_neg, if_neg, if_neg]
    · omega
    · simpa [currentVersion] using h.dver
    · rw [slice_bytesAt (by omega)]; exact fun hn => hn h.dsig
  have hvl : verifyLog c.H (getLogHeader (slice L 0 62)) = .ok () := by
    unfold verifyLog getLogHeader
    simp only [bytesAt_u16 (f := L) (n := 62) (o := 8) (by omega) hL, bytesAt_u16 (f := L) (n := 62) (o := 26) (by omega) hL,
      bytesAt_u64 (f := L) (n := 62) (o := 28) (by omega) hL, bytesAt_u64 (f := L) (n := 62) (o := 36) (by omega) hL]
    rw [if_neg, if_neg, if_neg, if_neg]
    · rw [key16 26 (by omega) (by omega)]; omega
    · rw [key64 36 (by omega) (by omega), key64 28 (by omega) (by omega)]; simpa using hsalt
    · simpa [currentVersion] using h.lver
    · rw [slice_bytesAt (by omega)]; exact fun hn => hn h.lsig
  have hvk : verifyKey c.H (getKeyHeader (slice K 0 104) K.length) = .ok () := by
    have hb : 1 ≤ (getKeyHeader (slice K 0 104) K.length).buckets := by
      rw [hfk.2.2.1, bucketsOfSize_eq (by have := h.block; omega)]
      have := (Nat.le_div_iff_mul_le (by have := h.block; omega)).mpr h.klen
      omega
    have hc : 1 ≤ (getKeyHeader (slice K 0 104) K.length).capacity := by
      rw [hfk.2.1]; exact capacity_pos h.block
    have h1 : (getKeyHeader (slice K 0 104) K.length).type = keyType := by
      show slice (slice K 0 104) 0 8 = _
      rw [slice_bytesAt (by omega)]; exact h.ksig
    have h2 : (getKeyHeader (slice K 0 104) K.length).version = 2 := by
      show getU16 (slice (slice K 0 104) 8 2) = _
      rw [bytesAt_u16 (by omega) (by omega)]; exact h.kver
    have h3 : (getKeyHeader (slice K 0 104) K.length).pepper = value (bytesAt K 36 8) := by
      show getU64 (slice (slice K 0 104) 36 8) = _
      rw [bytesAt_u64 (by omega) (by omega)]
    unfold verifyKey
    rw [if_neg (by simp [h1]), if_neg (by simp [h2, currentVersion]), if_neg (by rw [hfk.2.2.2.1]; have := h.keySize; omega),
      if_neg (by rw [h3, hfk.2.2.2.2.1]; simpa [saltOf] using hsalt),
      if_neg (by rw [hfk.2.2.2.2.2]; have := h.load; omega), if_neg (by omega), if_neg (by omega)]
  refine ⟨hD, hvd, by omega, hL, hvl, ?_, hvk, ?_, ?_⟩
  · show getU64 (slice (slice L 0 62) 46 8) ≠ 0
    rw [bytesAt_u64 (by omega) hL]; exact hs
  · have e1 : (getKeyHeader (slice K 0 104) K.length).uid = (getDatHeader (slice D 0 92)).uid := by
      show getU64 (slice (slice K 0 104) 10 8) = getU64 (slice (slice D 0 92) 10 8)
      rw [bytesAt_u64 (by omega) (by omega), bytesAt_u64 (by omega) (by omega), dk64 10 (by omega) (by omega)]
    have e2 : (getKeyHeader (slice K 0 104) K.length).appnum = (getDatHeader (slice D 0 92)).appnum := by
      show getU64 (slice (slice K 0 104) 18 8) = getU64 (slice (slice D 0 92) 18 8)
      rw [bytesAt_u64 (by omega) (by omega), bytesAt_u64 (by omega) (by omega), dk64 18 (by omega) (by omega)]
    have e3 : (getKeyHeader (slice K 0 104) K.length).keySize = (getDatHeader (slice D 0 92)).keySize := by
      show getU16 (slice (slice K 0 104) 26 2) = getU16 (slice (slice D 0 92) 26 2)
      rw [bytesAt_u16 (by omega) (by omega), bytesAt_u16 (by omega) (by omega), dk16]
    unfold verifyDatKey
    rw [hvk]
    show (if _ then _ else if _ then _ else if _ then _ else _) = _
    rw [if_neg (fun h => h e1), if_neg (fun h => h e2), if_neg (fun h => h e3)]
  · have a16 : ∀ o, 10 ≤ o → o + 2 ≤ 46 → getU16 (slice (slice K 0 104) o 2) = getU16 (slice (slice L 0 62) o 2) := by
      intro o h1 h2
      rw [bytesAt_u16 (by omega) (by omega), bytesAt_u16 (by omega) (by omega), key16 o h1 h2]
    have a64 : ∀ o, 10 ≤ o → o + 8 ≤ 46 → getU64 (slice (slice K 0 104) o 8) = getU64 (slice (slice L 0 62) o 8) := by
      intro o h1 h2
      rw [bytesAt_u64 (by omega) (by omega), bytesAt_u64 (by omega) (by omega), key64 o h1 h2]
    have e1 : (getKeyHeader (slice K 0 104) K.length).uid = (getLogHeader (slice L 0 62)).uid := a64 10 (by omega) (by omega)
    have e2 : (getKeyHeader (slice K 0 104) K.length).appnum = (getLogHeader (slice L 0 62)).appnum := a64 18 (by omega) (by omega)
    have e3 : (getKeyHeader (slice K 0 104) K.length).keySize = (getLogHeader (slice L 0 62)).keySize := a16 26 (by omega) (by omega)
    have e4 : (getKeyHeader (slice K 0 104) K.length).salt = (getLogHeader (slice L 0 62)).salt := a64 28 (by omega) (by omega)
    have e5 : (getKeyHeader (slice K 0 104) K.length).pepper = (getLogHeader (slice L 0 62)).pepper := a64 36 (by omega) (by omega)
    have e6 : (getKeyHeader (slice K 0 104) K.length).blockSize = (getLogHeader (slice L 0 62)).blockSize := a16 44 (by omega) (by omega)
    unfold verifyKeyLog
    rw [hvl]
    show (if _ then _ else if _ then _ else if _ then _ else if _ then _ else if _ then _ else if _ then _ else _) = _
    rw [if_neg (fun h => h e1), if_neg (fun h => h e2), if_neg (fun h => h e3), if_neg (fun h => h e4), if_neg (fun h => h e5),
      if_neg (fun h => h e6)]

theorem bytes_u16 {x y : Bytes} (hx : x.length = 2) (hy : y.length = 2) (h : getU16 x = getU16 y) : x = y := by
  rw [← (putU16_getU16 hx).1, ← (putU16_getU16 hy).1, h]

theorem bytes_u64 {x y : Bytes} (hx : x.length = 8) (hy : y.length = 8) (h : getU64 x = getU64 y) : x = y := by
  rw [← (putU64_getU64 hx).1, ← (putU64_getU64 hy).1, h]

theorem bytesAt_add (f : Bytes) (o m n : Nat) : bytesAt f o (m + n) = bytesAt f o m ++ bytesAt f (o + m) n := by
  unfold bytesAt
  rw [List.take_add, List.drop_drop]

theorem ValidFor.matching (h : ValidFor c D K L) : Matching c.H D K L ∧ loggedKeySize L ≠ 0 := by
  obtain ⟨hD, h1, hK, hL, h2, h3, h4, h5, h6⟩ := h
  have hfk := getKeyHeader_fields (K := K) (by omega)
  have e3 : ∀ (p : Prop) [Decidable p] (e : Err) (r : Except Err Unit), (if p then .error e else r) = .ok () → ¬ p ∧ r = .ok () := by
    intro p _ e r h
    split at h
    · cases h
    · exact ⟨by assumption, h⟩
  have b2 : ∀ {f : Bytes} {n o : Nat}, o + 2 ≤ n → n ≤ f.length → slice (slice f 0 n) o 2 = bytesAt f o 2 ∧ (bytesAt f o 2).length = 2 :=
    fun h1 h2 => ⟨slice_bytesAt h1, bytesAt_len (by omega)⟩
  have i2 : ∀ {f g : Bytes} {n m o : Nat}, o + 2 ≤ n → n ≤ f.length → o + 2 ≤ m → m ≤ g.length →
      ¬ getU16 (slice (slice f 0 n) o 2) ≠ getU16 (slice (slice g 0 m) o 2) → bytesAt f o 2 = bytesAt g o 2 := by
    intro f g n m o h1 h2 h3 h4 h5
    rw [slice_bytesAt h1, slice_bytesAt h3] at h5
    exact bytes_u16 (bytesAt_len (by omega)) (bytesAt_len (by omega)) (Classical.not_not.mp h5)
  have i8 : ∀ {f g : Bytes} {n m o : Nat}, o + 8 ≤ n → n ≤ f.length → o + 8 ≤ m → m ≤ g.length →
      ¬ getU64 (slice (slice f 0 n) o 8) ≠ getU64 (slice (slice g 0 m) o 8) → bytesAt f o 8 = bytesAt g o 8 := by
    intro f g n m o h1 h2 h3 h4 h5
    rw [slice_bytesAt h1, slice_bytesAt h3] at h5
    exact bytes_u64 (bytesAt_len (by omega)) (bytesAt_len (by omega)) (Classical.not_not.mp h5)
  -- data file
  obtain ⟨d1, h1⟩ := e3 _ _ _ h1
  obtain ⟨d2, _⟩ := e3 _ _ _ h1
  -- log
  obtain ⟨l1, h2'⟩ := e3 _ _ _ h2
  obtain ⟨l2, _⟩ := e3 _ _ _ h2'
  -- key file
  unfold verifyDatKey at h5
  rw [h4] at h5
  unfold verifyKeyLog at h6
  rw [h2] at h6
  obtain ⟨k1, h4⟩ := e3 _ _ _ h4
  obtain ⟨k2, h4⟩ := e3 _ _ _ h4
  obtain ⟨k3, h4⟩ := e3 _ _ _ h4
  obtain ⟨k4, h4⟩ := e3 _ _ _ h4
  obtain ⟨k5, h4⟩ := e3 _ _ _ h4
  obtain ⟨k6, h4⟩ := e3 _ _ _ h4
  obtain ⟨k7, _⟩ := e3 _ _ _ h4
  obtain ⟨a1, h5⟩ := e3 _ _ _ h5
  obtain ⟨a2, h5⟩ := e3 _ _ _ h5
  obtain ⟨a3, _⟩ := e3 _ _ _ h5
  obtain ⟨g1, h6⟩ := e3 _ _ _ h6
  obtain ⟨g2, h6⟩ := e3 _ _ _ h6
  obtain ⟨g3, h6⟩ := e3 _ _ _ h6
  obtain ⟨g4, h6⟩ := e3 _ _ _ h6
  obtain ⟨g5, h6⟩ := e3 _ _ _ h6
  obtain ⟨g6, _⟩ := e3 _ _ _ h6
  have a1 := i8 (f := K) (g := D) (n := 104) (m := 92) (o := 10) (by omega) (by omega) (by omega) (by omega) a1
  have a2 := i8 (f := K) (g := D) (n := 104) (m := 92) (o := 18) (by omega) (by omega) (by omega) (by omega) a2
  have a3 := i2 (f := K) (g := D) (n := 104) (m := 92) (o := 26) (by omega) (by omega) (by omega) (by omega) a3
  have g1 := i8 (f := K) (g := L) (n := 104) (m := 62) (o := 10) (by omega) (by omega) (by omega) (by omega) g1
  have g2 := i8 (f := K) (g := L) (n := 104) (m := 62) (o := 18) (by omega) (by omega) (by omega) (by omega) g2
  have g3 := i2 (f := K) (g := L) (n := 104) (m := 62) (o := 26) (by omega) (by omega) (by omega) (by omega) g3
  have g4 := i8 (f := K) (g := L) (n := 104) (m := 62) (o := 28) (by omega) (by omega) (by omega) (by omega) g4
  have g5 := i8 (f := K) (g := L) (n := 104) (m := 62) (o := 36) (by omega) (by omega) (by omega) (by omega) g5
  have g6 := i2 (f := K) (g := L) (n := 104) (m := 62) (o := 44) (by omega) (by omega) (by omega) (by omega) g6
  have hblock : 104 ≤ blockSizeOf K := by
    rw [hfk.2.1] at k6
    apply Decidable.byContradiction
    intro hlt
    have : bucketCapacity (blockSizeOf K) = 0 := by
      unfold bucketCapacity
      apply if_pos
      show ((decide (blockSizeOf K < 104) || decide (blockSizeOf K < 8)) = true)
      simp; omega
    omega
  have lk : bytesAt L 10 36 = bytesAt K 10 36 := by
    rw [bytesAt_add L 10 8 28, bytesAt_add K 10 8 28, bytesAt_add L 18 8 20, bytesAt_add K 18 8 20,
      bytesAt_add L 26 2 18, bytesAt_add K 26 2 18, bytesAt_add L 28 8 10, bytesAt_add K 28 8 10,
      bytesAt_add L 36 8 2, bytesAt_add K 36 8 2, g1, g2, g3, g4, g5, g6]
  have dk : bytesAt D 10 18 = bytesAt K 10 18 := by
    rw [bytesAt_add D 10 8 10, bytesAt_add K 10 8 10, bytesAt_add D 18 8 2, bytesAt_add K 18 8 2, a1, a2, a3]
  refine ⟨⟨hD, ?_, ?_, ?_, ?_, ?_, ?_, hblock, ?_, ?_, dk, hL, ?_, ?_, lk⟩, ?_⟩
  · have := Classical.not_not.mp d1
    rw [← slice_bytesAt (f := D) (n := 92) (by omega)]; exact this
  · rw [← bytesAt_u16 (n := 92) (by omega) hD]; exact Classical.not_not.mp d2
  · rw [hfk.2.2.1, bucketsOfSize_eq (by omega)] at k7
    have h8 : 2 ≤ K.length / blockSizeOf K := by omega
    have := (Nat.le_div_iff_mul_le (by omega)).mp h8
    omega
  · have := Classical.not_not.mp k1
    rw [← slice_bytesAt (f := K) (n := 104) (by omega)]; exact this
  · rw [← bytesAt_u16 (n := 104) (by omega) (by omega)]; exact Classical.not_not.mp k2
  · rw [hfk.2.2.2.1] at k3; omega
  · rw [hfk.2.2.2.2.2] at k5; omega
  · have := Classical.not_not.mp k4
    rw [hfk.2.2.2.2.1] at this
    unfold pepper at this
    rw [le64_reverse] at this
    rw [← bytesAt_u64 (n := 104) (by omega) (by omega)]; exact this
  · have := Classical.not_not.mp l1
    rw [← slice_bytesAt (f := L) (n := 62) (by omega)]; exact this
  · rw [← bytesAt_u16 (n := 62) (by omega) hL]; exact Classical.not_not.mp l2
  · unfold loggedKeySize
    rw [← bytesAt_u64 (n := 62) (by omega) hL]; exact h3

end NuDB
