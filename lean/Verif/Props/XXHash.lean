import Verif.Proof.XXHash
import Verif.Proof.Field
/-
C44: the hash function does not depend on the machine.
-/
namespace NuDB

open Spec

section
variable {m m' : XX.Machine} {b b' : XX.Buf} {seed v : UInt64}

/-- C44: whenever the implementation yields a value, it is the XXH64 of the bytes and the
seed, whatever the byte order of the machine and the address of the buffer. -/
theorem C44_value (h : XX.XXH64 m b seed = .ok v) : v = xxh64 seed b.bytes := by
  have := XX.XXH64_cases m b seed
  split at this
  · rw [this] at h; cases h
  · rw [this] at h; cases h; rfl

/-- C44 in part: for buffers at multiples of 8, and for all buffers on machines where loads
need not be aligned, the value is the same on all machines. Missing: buffers that are not
aligned where unaligned loads are undefined, see `C44_undefined`. -/
theorem C44_partial (h : b.addr % 8 = 0 ∨ m.strict = false) : XX.XXH64 m b seed = .ok (xxh64 seed b.bytes) := by
  have := XX.XXH64_cases m b seed
  split at this
  · rename_i hb
    rcases h with h | h
    · omega
    · rw [hb.1] at h; cases h
  · exact this

/-- What is wrong with C44: a buffer that is not aligned is read through pointers to 64-bit
(or 32-bit) integers, which is undefined. (`XXH64` chooses the variant for aligned buffers
if the buffer is not aligned, and the other one if it is.) -/
theorem C44_undefined (hs : m.strict = true) (hl : 8 ≤ b.bytes.length) (ha : b.addr % 8 ≠ 0) :
    XX.XXH64 m b seed = .error .ub := by
  have := XX.XXH64_cases m b seed
  rw [if_pos ⟨hs, .inl ⟨hl, ha⟩⟩] at this
  exact this

/-- The same for four to seven bytes. -/
theorem C44_undefined_short (hs : m.strict = true) (hl : 4 ≤ b.bytes.length) (hu : b.bytes.length < 8)
    (ha : b.addr % 4 ≠ 0) : XX.XXH64 m b seed = .error .ub := by
  have := XX.XXH64_cases m b seed
  rw [if_pos ⟨hs, .inr ⟨hl, hu, ha⟩⟩] at this
  exact this

theorem leVal_byte (bs : Bytes) (i : Nat) : leVal bs / 2 ^ (8 * i) % 256 = (bs.getD i 0).toNat := by
  induction bs generalizing i with
  | nil => simp [leVal]
  | cons b bs ih =>
    have hb := b.toNat_lt
    cases i with
    | zero => simp only [leVal, Nat.mul_zero, Nat.pow_zero, Nat.div_one]; simp
    | succ i =>
      have : 2 ^ (8 * (i + 1)) = 256 * 2 ^ (8 * i) := by rw [Nat.mul_add, Nat.pow_add, Nat.mul_comm]
      rw [this, ← Nat.div_div_eq_div_mul]
      have : leVal (b :: bs) / 256 = leVal bs := by simp only [leVal]; omega
      rw [this, ih]
      simp

/-- The bytes of a variable holding the salt in little-endian order. -/
theorem store_littleEndian (m : XX.Machine) (salt : Nat) :
    m.store (XX.toLittleEndian m salt) = le64 salt := by
  unfold XX.Machine.store XX.toLittleEndian
  cases hm : m.little
  · simp only [Bool.false_eq_true, if_false, XX.load_eq, hm]
    have key := fun i => octet_eq (leVal_byte [octet salt 0, octet salt 8, octet salt 16, octet salt 24, octet salt 32,
      octet salt 40, octet salt 48, octet salt 56].reverse i)
    unfold putU64
    rw [key 7, key 6, key 5, key 4, key 3, key 2, key 1, key 0]
    rfl
  · rfl

/-- C44 for the pepper, which is stored in the files: every machine computes the same one
from a salt, the one of the model of the database with XXH64 as hash function. -/
theorem C44_pepper {addr salt : Nat} (ha : addr % 8 = 0) :
    XX.pepper m addr salt = .ok (UInt64.ofNat (pepper xxh64 salt)) := by
  unfold XX.pepper pepper
  rw [C44_partial (.inl ha), store_littleEndian m salt]
  simp

end

/- Known values of XXH64. -/
example : xxh64 0 [] = 0xEF46DB3751D8E999 := by decide +kernel
example : xxh64 0 [97, 98, 99] = 0x44BC2CF5AD770999 := by decide +kernel
/-- "Nobody inspects the spammish repetition" -/
example : xxh64 0 [78, 111, 98, 111, 100, 121, 32, 105, 110, 115, 112, 101, 99, 116, 115, 32, 116, 104, 101, 32, 115,
    112, 97, 109, 109, 105, 115, 104, 32, 114, 101, 112, 101, 116, 105, 116, 105, 111, 110] = 0xfbcea83c8a378bf1 := by
  decide +kernel

/- Instances: aligned on a big-endian machine, not aligned on a tolerant and on a strict
machine. -/
example : ∃ v, XX.XXH64 ⟨false, true⟩ ⟨4096, List.replicate 45 7⟩ 1 = .ok v := ⟨_, C44_partial (.inl rfl)⟩
example : XX.XXH64 ⟨false, false⟩ ⟨4097, List.replicate 45 7⟩ 1 = XX.XXH64 ⟨true, true⟩ ⟨4096, List.replicate 45 7⟩ 1 := by
  rw [C44_partial (.inr rfl), C44_partial (.inl rfl)]
example : XX.XXH64 ⟨true, true⟩ ⟨4097, List.replicate 45 7⟩ 1 = .error .ub :=
  C44_undefined rfl (by decide) (by decide)
example : XX.XXH64 ⟨true, true⟩ ⟨4098, [1, 2, 3, 4, 5]⟩ 1 = .error .ub :=
  C44_undefined_short rfl (by decide) (by decide) (by decide)
example : XX.pepper ⟨false, true⟩ 64 13 = XX.pepper ⟨true, true⟩ 8 13 := by
  rw [C44_pepper rfl, C44_pepper rfl]

end NuDB
