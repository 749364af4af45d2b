import Verif.Model.Field
import Verif.Proof.Bytes
/- Field codecs are big-endian positional notation. -/
namespace NuDB

theorem octet_toNat (t s : Nat) : (octet t s).toNat = t / 2 ^ s % 256 := by
  simp only [octet, Nat.shiftRight_eq_div_pow]
  rw [show (0xff : Nat) = 2 ^ 8 - 1 from rfl, Nat.and_two_pow_sub_one_eq_mod]
  simp

theorem or_shift {a b s : Nat} (h : b < 2 ^ s) : (a <<< s) ||| b = a * 2 ^ s + b := by
  rw [← Nat.shiftLeft_add_eq_or_of_lt h, Nat.shiftLeft_eq]

theorem or_shift' {a b s : Nat} (h : b < 2 ^ s) : b ||| (a <<< s) = a * 2 ^ s + b := by
  rw [Nat.or_comm, or_shift h]

theorem byteAt_lt (p : Bytes) (i : Nat) : byteAt p i < 256 := by
  simp only [byteAt]; exact UInt8.toNat_lt _

section
variable (a b c d e f g h : UInt8)

private theorem lt8 (a : UInt8) : a.toNat < 256 := UInt8.toNat_lt a

theorem shl_or (x y s t : Nat) (hy : y < 2 ^ s) :
    (y <<< t) ||| (x <<< (s + t)) = (x * 2 ^ s + y) <<< t := by
  rw [Nat.add_comm s t, Nat.add_comm t s, Nat.shiftLeft_add, ← Nat.shiftLeft_or_distrib, or_shift' hy]

theorem getU8_eq : getU8 [a] = a.toNat := rfl

theorem getU16_eq : getU16 [a, b] = a.toNat * 256 + b.toNat := by
  simp only [getU16, byteAt, List.getD_cons_zero, List.getD_cons_succ]
  rw [or_shift' (lt8 b)]

theorem getU24_eq : getU24 [a, b, c] = (a.toNat * 256 + b.toNat) * 256 + c.toNat := by
  simp only [getU24, byteAt, List.getD_cons_zero, List.getD_cons_succ]
  rw [shl_or a.toNat b.toNat 8 8 (lt8 b), or_shift' (lt8 c)]

theorem getU32_eq : getU32 [a, b, c, d] =
    ((a.toNat * 256 + b.toNat) * 256 + c.toNat) * 256 + d.toNat := by
  simp only [getU32, byteAt, List.getD_cons_zero, List.getD_cons_succ]
  rw [shl_or a.toNat b.toNat 8 16 (lt8 b), shl_or _ c.toNat 8 8 (lt8 c), or_shift' (lt8 d)]

theorem getU48_eq : getU48 [a, b, c, d, e, f] =
    ((((a.toNat * 256 + b.toNat) * 256 + c.toNat) * 256 + d.toNat) * 256 + e.toNat) * 256 +
      f.toNat := by
  simp only [getU48, byteAt, List.getD_cons_zero, List.getD_cons_succ]
  rw [shl_or a.toNat b.toNat 8 32 (lt8 b), shl_or _ c.toNat 8 24 (lt8 c),
    shl_or _ d.toNat 8 16 (lt8 d), shl_or _ e.toNat 8 8 (lt8 e), or_shift' (lt8 f)]

theorem getU64_eq : getU64 [a, b, c, d, e, f, g, h] =
    ((((((a.toNat * 256 + b.toNat) * 256 + c.toNat) * 256 + d.toNat) * 256 + e.toNat) * 256 +
      f.toNat) * 256 + g.toNat) * 256 + h.toNat := by
  simp only [getU64, byteAt, List.getD_cons_zero, List.getD_cons_succ]
  rw [shl_or a.toNat b.toNat 8 48 (lt8 b), shl_or _ c.toNat 8 40 (lt8 c),
    shl_or _ d.toNat 8 32 (lt8 d), shl_or _ e.toNat 8 24 (lt8 e), shl_or _ f.toNat 8 16 (lt8 f),
    shl_or _ g.toNat 8 8 (lt8 g), or_shift' (lt8 h)]
end

@[simp] theorem putU8_length (u : Nat) : (putU8 u).length = 1 := rfl
@[simp] theorem putU16_length (u : Nat) : (putU16 u).length = 2 := rfl
@[simp] theorem putU24_length (u : Nat) : (putU24 u).length = 3 := rfl
@[simp] theorem putU32_length (u : Nat) : (putU32 u).length = 4 := rfl
@[simp] theorem putU48_length (u : Nat) : (putU48 u).length = 6 := rfl
@[simp] theorem putU64_length (u : Nat) : (putU64 u).length = 8 := rfl

theorem getU8_putU8_mod (u : Nat) : getU8 (putU8 u) = u % 2 ^ 8 := by
  rw [putU8, getU8_eq, octet_toNat]; omega
theorem getU16_putU16_mod (u : Nat) : getU16 (putU16 u) = u % 2 ^ 16 := by
  rw [putU16, getU16_eq]; simp only [octet_toNat]; omega
theorem getU24_putU24_mod (u : Nat) : getU24 (putU24 u) = u % 2 ^ 24 := by
  rw [putU24, getU24_eq]; simp only [octet_toNat]; omega
theorem getU32_putU32_mod (u : Nat) : getU32 (putU32 u) = u % 2 ^ 32 := by
  rw [putU32, getU32_eq]; simp only [octet_toNat]; omega
theorem getU48_putU48_mod (u : Nat) : getU48 (putU48 u) = u % 2 ^ 48 := by
  rw [putU48, getU48_eq]; simp only [octet_toNat]; omega
theorem getU64_putU64_mod (u : Nat) : getU64 (putU64 u) = u % 2 ^ 64 := by
  rw [putU64, getU64_eq]; simp only [octet_toNat]; omega

theorem getU16_putU16 {u : Nat} (h : u < 2 ^ 16) : getU16 (putU16 u) = u := by
  rw [getU16_putU16_mod, Nat.mod_eq_of_lt h]
theorem getU48_putU48 {u : Nat} (h : u < 2 ^ 48) : getU48 (putU48 u) = u := by
  rw [getU48_putU48_mod, Nat.mod_eq_of_lt h]
theorem getU64_putU64 {u : Nat} (h : u < 2 ^ 64) : getU64 (putU64 u) = u := by
  rw [getU64_putU64_mod, Nat.mod_eq_of_lt h]

theorem octet_eq {t s : Nat} {a : UInt8} (h : t / 2 ^ s % 256 = a.toNat) : octet t s = a := by
  apply UInt8.toNat_inj.mp; rw [octet_toNat, h]

private theorem lenS {n : Nat} {p : Bytes} (h : p.length = n + 1) :
    ∃ a q, p = a :: q ∧ q.length = n := by
  cases p with
  | nil => simp at h
  | cons a q => exact ⟨a, q, rfl, by simpa using h⟩
private theorem len1 {p : Bytes} (h : p.length = 1) : ∃ a, p = [a] := List.length_eq_one_iff.mp h
private theorem len2 {p : Bytes} (h : p.length = 2) : ∃ a b, p = [a, b] := by
  obtain ⟨a, q, rfl, h1⟩ := lenS h
  obtain ⟨b, rfl⟩ := len1 h1
  exact ⟨a, b, rfl⟩
private theorem len3 {p : Bytes} (h : p.length = 3) : ∃ a b c, p = [a, b, c] := by
  obtain ⟨a, q, rfl, h1⟩ := lenS h
  obtain ⟨b, c, rfl⟩ := len2 h1
  exact ⟨a, b, c, rfl⟩
private theorem len4 {p : Bytes} (h : p.length = 4) : ∃ a b c d, p = [a, b, c, d] := by
  obtain ⟨a, q, rfl, h1⟩ := lenS h
  obtain ⟨b, c, d, rfl⟩ := len3 h1
  exact ⟨a, b, c, d, rfl⟩
private theorem len6 {p : Bytes} (h : p.length = 6) : ∃ a b c d e f, p = [a, b, c, d, e, f] := by
  obtain ⟨a, q, rfl, h1⟩ := lenS h
  obtain ⟨b, q, rfl, h2⟩ := lenS h1
  obtain ⟨c, d, e, f, rfl⟩ := len4 h2
  exact ⟨a, b, c, d, e, f, rfl⟩
private theorem len8 {p : Bytes} (h : p.length = 8) :
    ∃ a b c d e f g i, p = [a, b, c, d, e, f, g, i] := by
  obtain ⟨a, q, rfl, h1⟩ := lenS h
  obtain ⟨b, q, rfl, h2⟩ := lenS h1
  obtain ⟨c, d, e, f, g, i, rfl⟩ := len6 h2
  exact ⟨a, b, c, d, e, f, g, i, rfl⟩

theorem putU8_getU8 {p : Bytes} (h : p.length = 1) : putU8 (getU8 p) = p ∧ getU8 p < 2 ^ 8 := by
  obtain ⟨a, rfl⟩ := len1 h
  have := lt8 a
  rw [getU8_eq, putU8, octet_eq (a := a)]
  · exact ⟨rfl, this⟩
  · omega
theorem putU16_getU16 {p : Bytes} (h : p.length = 2) :
    putU16 (getU16 p) = p ∧ getU16 p < 2 ^ 16 := by
  obtain ⟨a, b, rfl⟩ := len2 h
  have := lt8 a; have := lt8 b
  rw [getU16_eq, putU16, octet_eq (a := a), octet_eq (a := b)]
  · exact ⟨rfl, by omega⟩
  all_goals omega
theorem putU24_getU24 {p : Bytes} (h : p.length = 3) :
    putU24 (getU24 p) = p ∧ getU24 p < 2 ^ 24 := by
  obtain ⟨a, b, c, rfl⟩ := len3 h
  have := lt8 a; have := lt8 b; have := lt8 c
  rw [getU24_eq, putU24, octet_eq (a := a), octet_eq (a := b), octet_eq (a := c)]
  · exact ⟨rfl, by omega⟩
  all_goals omega
theorem putU32_getU32 {p : Bytes} (h : p.length = 4) :
    putU32 (getU32 p) = p ∧ getU32 p < 2 ^ 32 := by
  obtain ⟨a, b, c, d, rfl⟩ := len4 h
  have := lt8 a; have := lt8 b; have := lt8 c; have := lt8 d
  rw [getU32_eq, putU32, octet_eq (a := a), octet_eq (a := b), octet_eq (a := c),
    octet_eq (a := d)]
  · exact ⟨rfl, by omega⟩
  all_goals omega
theorem putU48_getU48 {p : Bytes} (h : p.length = 6) :
    putU48 (getU48 p) = p ∧ getU48 p < 2 ^ 48 := by
  obtain ⟨a, b, c, d, e, f, rfl⟩ := len6 h
  have := lt8 a; have := lt8 b; have := lt8 c; have := lt8 d; have := lt8 e; have := lt8 f
  rw [getU48_eq, putU48, octet_eq (a := a), octet_eq (a := b), octet_eq (a := c),
    octet_eq (a := d), octet_eq (a := e), octet_eq (a := f)]
  · exact ⟨rfl, by omega⟩
  all_goals omega
theorem putU64_getU64 {p : Bytes} (h : p.length = 8) :
    putU64 (getU64 p) = p ∧ getU64 p < 2 ^ 64 := by
  obtain ⟨a, b, c, d, e, f, g, i, rfl⟩ := len8 h
  have := lt8 a; have := lt8 b; have := lt8 c; have := lt8 d; have := lt8 e; have := lt8 f
  have := lt8 g; have := lt8 i
  rw [getU64_eq, putU64, octet_eq (a := a), octet_eq (a := b), octet_eq (a := c),
    octet_eq (a := d), octet_eq (a := e), octet_eq (a := f), octet_eq (a := g),
    octet_eq (a := i)]
  · exact ⟨rfl, by omega⟩
  all_goals omega

theorem getU16_lt {p : Bytes} (h : p.length = 2) : getU16 p < 2 ^ 16 := (putU16_getU16 h).2
theorem getU48_lt {p : Bytes} (h : p.length = 6) : getU48 p < 2 ^ 48 := (putU48_getU48 h).2
theorem getU64_lt {p : Bytes} (h : p.length = 8) : getU64 p < 2 ^ 64 := (putU64_getU64 h).2

end NuDB
