import Verif.Spec.Codec
import Verif.Proof.Field
import Verif.Model.Format
/-
C18: integer fields.  C17: file headers.
-/
namespace NuDB

open Spec

/-- What C18 says about a pair of functions writing and reading a field of `w` bytes. -/
structure BigEndianField (w : Nat) (write : Nat → Bytes) (read : Bytes → Nat) : Prop where
  /-- most significant byte first -/
  layout : ∀ n, write n = bigEndian w n
  /-- reading back what was written -/
  roundtrip : ∀ n, n < 256 ^ w → read (write n) = n
  /-- reading is positional notation -/
  reads : ∀ p : Bytes, p.length = w → read p = value p
  /-- each byte string of the width is the encoding of exactly one value that fits -/
  bijective : ∀ p : Bytes, p.length = w → ∃ n, (n < 256 ^ w ∧ write n = p) ∧
    ∀ m, m < 256 ^ w → write m = p → m = n

private theorem octet_be (n s k : Nat) (h : 2 ^ s = k) : octet n s = UInt8.ofNat (n / k) := by
  apply UInt8.toNat_inj.mp
  rw [octet_toNat, h]; simp

private theorem mkField {w : Nat} {write : Nat → Bytes} {read : Bytes → Nat}
    (layout : ∀ n, write n = bigEndian w n)
    (rt : ∀ n, read (write n) = n % 256 ^ w)
    (reads : ∀ p : Bytes, p.length = w → read p = value p)
    (inv : ∀ p : Bytes, p.length = w → write (read p) = p ∧ read p < 256 ^ w) :
    BigEndianField w write read where
  layout := layout
  roundtrip n h := by rw [rt, Nat.mod_eq_of_lt h]
  reads := reads
  bijective p hp := by
    refine ⟨read p, ⟨(inv p hp).2, (inv p hp).1⟩, ?_⟩
    intro m hm hw
    rw [← hw, rt, Nat.mod_eq_of_lt hm]

private theorem lenS' {n : Nat} {p : Bytes} (h : p.length = n + 1) :
    ∃ a q, p = a :: q ∧ q.length = n := by
  cases p with
  | nil => simp at h
  | cons a q => exact ⟨a, q, rfl, by simpa using h⟩

/-- C18 for 8-bit fields. -/
theorem C18_u8 : BigEndianField 1 putU8 getU8 := by
  refine mkField ?_ ?_ ?_ ?_
  · intro n; simp only [putU8, bigEndian]; rw [octet_be n 0 (256 ^ 0) rfl]
  · intro n; rw [getU8_putU8_mod]
  · intro p hp
    obtain ⟨a, q, rfl, h1⟩ := lenS' hp
    obtain rfl := List.length_eq_zero_iff.mp h1
    simp [getU8_eq, value]
  · intro p hp; exact putU8_getU8 hp

/-- C18 for 16-bit fields. -/
theorem C18_u16 : BigEndianField 2 putU16 getU16 := by
  refine mkField ?_ ?_ ?_ ?_
  · intro n; simp only [putU16, bigEndian]
    rw [octet_be n 0 (256 ^ 0) rfl, octet_be n 8 (256 ^ 1) rfl]
  · intro n; rw [getU16_putU16_mod]
  · intro p hp
    obtain ⟨a, q, rfl, h1⟩ := lenS' hp
    obtain ⟨b, q, rfl, h2⟩ := lenS' h1
    obtain rfl := List.length_eq_zero_iff.mp h2
    simp [getU16_eq, value]
  · intro p hp; exact putU16_getU16 hp

/-- C18 for 24-bit fields. -/
theorem C18_u24 : BigEndianField 3 putU24 getU24 := by
  refine mkField ?_ ?_ ?_ ?_
  · intro n; simp only [putU24, bigEndian]
    rw [octet_be n 0 (256 ^ 0) rfl, octet_be n 8 (256 ^ 1) rfl, octet_be n 16 (256 ^ 2) rfl]
  · intro n; rw [getU24_putU24_mod]
  · intro p hp
    obtain ⟨a, q, rfl, h1⟩ := lenS' hp
    obtain ⟨b, q, rfl, h2⟩ := lenS' h1
    obtain ⟨c, q, rfl, h3⟩ := lenS' h2
    obtain rfl := List.length_eq_zero_iff.mp h3
    simp [getU24_eq, value]; omega
  · intro p hp; exact putU24_getU24 hp

/-- C18 for 32-bit fields. -/
theorem C18_u32 : BigEndianField 4 putU32 getU32 := by
  refine mkField ?_ ?_ ?_ ?_
  · intro n; simp only [putU32, bigEndian]
    rw [octet_be n 0 (256 ^ 0) rfl, octet_be n 8 (256 ^ 1) rfl, octet_be n 16 (256 ^ 2) rfl,
      octet_be n 24 (256 ^ 3) rfl]
  · intro n; rw [getU32_putU32_mod]
  · intro p hp
    obtain ⟨a, q, rfl, h1⟩ := lenS' hp
    obtain ⟨b, q, rfl, h2⟩ := lenS' h1
    obtain ⟨c, q, rfl, h3⟩ := lenS' h2
    obtain ⟨d, q, rfl, h4⟩ := lenS' h3
    obtain rfl := List.length_eq_zero_iff.mp h4
    simp [getU32_eq, value]; omega
  · intro p hp; exact putU32_getU32 hp

/-- C18 for 48-bit fields. -/
theorem C18_u48 : BigEndianField 6 putU48 getU48 := by
  refine mkField ?_ ?_ ?_ ?_
  · intro n; simp only [putU48, bigEndian]
    rw [octet_be n 0 (256 ^ 0) rfl, octet_be n 8 (256 ^ 1) rfl, octet_be n 16 (256 ^ 2) rfl,
      octet_be n 24 (256 ^ 3) rfl, octet_be n 32 (256 ^ 4) rfl, octet_be n 40 (256 ^ 5) rfl]
  · intro n; rw [getU48_putU48_mod]
  · intro p hp
    obtain ⟨a, q, rfl, h1⟩ := lenS' hp
    obtain ⟨b, q, rfl, h2⟩ := lenS' h1
    obtain ⟨c, q, rfl, h3⟩ := lenS' h2
    obtain ⟨d, q, rfl, h4⟩ := lenS' h3
    obtain ⟨e, q, rfl, h5⟩ := lenS' h4
    obtain ⟨f, q, rfl, h6⟩ := lenS' h5
    obtain rfl := List.length_eq_zero_iff.mp h6
    simp [getU48_eq, value]; omega
  · intro p hp; exact putU48_getU48 hp

/-- C18 for 64-bit fields. -/
theorem C18_u64 : BigEndianField 8 putU64 getU64 := by
  refine mkField ?_ ?_ ?_ ?_
  · intro n; simp only [putU64, bigEndian]
    rw [octet_be n 0 (256 ^ 0) rfl, octet_be n 8 (256 ^ 1) rfl, octet_be n 16 (256 ^ 2) rfl,
      octet_be n 24 (256 ^ 3) rfl, octet_be n 32 (256 ^ 4) rfl, octet_be n 40 (256 ^ 5) rfl,
      octet_be n 48 (256 ^ 6) rfl, octet_be n 56 (256 ^ 7) rfl]
  · intro n; rw [getU64_putU64_mod]
  · intro p hp
    obtain ⟨a, q, rfl, h1⟩ := lenS' hp
    obtain ⟨b, q, rfl, h2⟩ := lenS' h1
    obtain ⟨c, q, rfl, h3⟩ := lenS' h2
    obtain ⟨d, q, rfl, h4⟩ := lenS' h3
    obtain ⟨e, q, rfl, h5⟩ := lenS' h4
    obtain ⟨f, q, rfl, h6⟩ := lenS' h5
    obtain ⟨g, q, rfl, h7⟩ := lenS' h6
    obtain ⟨i, q, rfl, h8⟩ := lenS' h7
    obtain rfl := List.length_eq_zero_iff.mp h8
    simp [getU64_eq, value]; omega
  · intro p hp; exact putU64_getU64 hp

example : putU48 0x123456789abc = [0x12, 0x34, 0x56, 0x78, 0x9a, 0xbc] ∧
    getU48 [0x12, 0x34, 0x56, 0x78, 0x9a, 0xbc] = 0x123456789abc := by decide

/-- C17, data file header: 92 bytes, and all fields are read back. -/
theorem C17_dat (dh : DatHeader) (ht : dh.type = datType) (hv : dh.version < 2 ^ 16)
    (hu : dh.uid < 2 ^ 64) (ha : dh.appnum < 2 ^ 64) (hk : dh.keySize < 2 ^ 16) :
    (putDatHeader dh).length = 92 ∧ getDatHeader (putDatHeader dh) = dh := by
  refine ⟨rfl, ?_⟩
  obtain ⟨t, v, u, a, k⟩ := dh
  simp only at ht hv hu ha hk
  subst ht
  have h : getDatHeader (putDatHeader ⟨datType, v, u, a, k⟩) =
    ⟨datType, getU16 (putU16 v), getU64 (putU64 u), getU64 (putU64 a), getU16 (putU16 k)⟩ := rfl
  rw [h, getU16_putU16 hv, getU16_putU16 hk, getU64_putU64 hu, getU64_putU64 ha]

example : getDatHeader (putDatHeader ⟨datType, 2, 0xfedcba9876543210, 7, 65535⟩) =
    ⟨datType, 2, 0xfedcba9876543210, 7, 65535⟩ := by decide

/-- C17, key file header: 104 bytes, and all fields are read back. The number of buckets
is not stored; it is the number of whole blocks after the first one. -/
theorem C17_key (kh : KeyHeader) (fileSize : Nat) (ht : kh.type = keyType)
    (hv : kh.version < 2 ^ 16) (hu : kh.uid < 2 ^ 64) (ha : kh.appnum < 2 ^ 64)
    (hk : kh.keySize < 2 ^ 16) (hs : kh.salt < 2 ^ 64) (hp : kh.pepper < 2 ^ 64)
    (hb : kh.blockSize < 2 ^ 16) (hl : kh.loadFactor < 2 ^ 16) :
    (putKeyHeader kh).length = 104 ∧
    getKeyHeader (putKeyHeader kh) fileSize =
      { kh with
        capacity := bucketCapacity kh.blockSize
        buckets := fileSize / kh.blockSize - 1
        modulus := ceilPow2 (fileSize / kh.blockSize - 1) } := by
  refine ⟨rfl, ?_⟩
  obtain ⟨t, v, u, a, k, s, p, b, l, c, n, m⟩ := kh
  simp only at ht hv hu ha hk hs hp hb hl
  subst ht
  have hn : bucketsOfSize fileSize b = fileSize / b - 1 := by
    simp only [bucketsOfSize]
    rcases Nat.eq_zero_or_pos b with rfl | hb0
    · simp
    · split
      · rename_i h
        have : fileSize = (fileSize - b) + b := by omega
        have h2 := Nat.add_div_right (fileSize - b) hb0
        rw [← this] at h2; rw [h2]; rfl
      · rename_i h
        have : fileSize / b ≤ 1 := by
          have : fileSize / b ≤ b / b := Nat.div_le_div_right (by omega)
          rwa [Nat.div_self hb0] at this
        omega
  have h : getKeyHeader (putKeyHeader ⟨keyType, v, u, a, k, s, p, b, l, c, n, m⟩) fileSize =
    ⟨keyType, getU16 (putU16 v), getU64 (putU64 u), getU64 (putU64 a), getU16 (putU16 k),
      getU64 (putU64 s), getU64 (putU64 p), getU16 (putU16 b), getU16 (putU16 l),
      bucketCapacity (getU16 (putU16 b)), bucketsOfSize fileSize (getU16 (putU16 b)),
      ceilPow2 (bucketsOfSize fileSize (getU16 (putU16 b)))⟩ := rfl
  rw [h, getU16_putU16 hv, getU16_putU16 hk, getU64_putU64 hu, getU64_putU64 ha,
    getU64_putU64 hs, getU64_putU64 hp, getU16_putU16 hb, getU16_putU16 hl, hn]

example : let kh : KeyHeader := ⟨keyType, 2, 5, 7, 32, 11, 13, 4096, 32768, 227, 3, 4⟩
    getKeyHeader (putKeyHeader kh) (4 * 4096) = kh := by decide

/-- C17, log file header: 62 bytes, and all fields are read back. -/
theorem C17_log (lh : LogHeader) (ht : lh.type = logType) (hv : lh.version < 2 ^ 16)
    (hu : lh.uid < 2 ^ 64) (ha : lh.appnum < 2 ^ 64) (hk : lh.keySize < 2 ^ 16)
    (hs : lh.salt < 2 ^ 64) (hp : lh.pepper < 2 ^ 64) (hb : lh.blockSize < 2 ^ 16)
    (hkf : lh.keyFileSize < 2 ^ 64) (hdf : lh.datFileSize < 2 ^ 64) :
    (putLogHeader lh).length = 62 ∧ getLogHeader (putLogHeader lh) = lh := by
  refine ⟨rfl, ?_⟩
  obtain ⟨t, v, u, a, k, s, p, b, kf, df⟩ := lh
  simp only at ht hv hu ha hk hs hp hb hkf hdf
  subst ht
  have h : getLogHeader (putLogHeader ⟨logType, v, u, a, k, s, p, b, kf, df⟩) =
    ⟨logType, getU16 (putU16 v), getU64 (putU64 u), getU64 (putU64 a), getU16 (putU16 k),
      getU64 (putU64 s), getU64 (putU64 p), getU16 (putU16 b), getU64 (putU64 kf),
      getU64 (putU64 df)⟩ := rfl
  rw [h, getU16_putU16 hv, getU16_putU16 hk, getU64_putU64 hu, getU64_putU64 ha,
    getU64_putU64 hs, getU64_putU64 hp, getU16_putU16 hb, getU64_putU64 hkf, getU64_putU64 hdf]

example : let lh : LogHeader := ⟨logType, 2, 5, 7, 32, 11, 13, 4096, 16384, 1000000⟩
    getLogHeader (putLogHeader lh) = lh := by decide

end NuDB
