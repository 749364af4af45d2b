import Verif.Model.Word
/-
C71: every function finds a bucket at the same place.
-/
namespace NuDB

/-- The number of every bucket that `bucket_index` yields fits in 32 bits. -/
theorem C71_index {h buckets modulus n : Nat} (hm : 0 < modulus) (hi : bucketIndexA h buckets modulus = .ok n) : n < 2 ^ 32 := by
  unfold bucketIndexA at hi
  by_cases ha : modulus ≤ 0x100000000
  · have : n = bucketIndex h buckets modulus := by
      simp [assert, ha, bind, pure, Except.bind, Except.pure] at hi
      exact hi.symm
    subst this
    have := Nat.mod_lt h hm
    show (if h % modulus ≥ buckets then h % modulus - modulus / 2 else h % modulus) < 2 ^ 32
    split <;> omega
  · simp [assert, ha, bind, pure, Except.bind, Except.pure] at hi

private theorem word_small {W n : Nat} (h : n < 2 ^ W) : word W n = n := Nat.mod_eq_of_lt h

private theorem mul_small {n b : Nat} (hn : n < 2 ^ 47) (hb : b < 2 ^ 16) : (n + 1) * b < 2 ^ 64 := by
  have h1 : (n + 1) * b ≤ 2 ^ 47 * 2 ^ 16 := Nat.mul_le_mul hn (Nat.le_of_lt hb)
  exact Nat.lt_of_le_of_lt h1 (by decide)

/-- C71 with 64 bits: every function computes the true address. -/
theorem C71_partial (a : Access) {n b : Nat} (hn : n < 2 ^ 47) (hb : b < 2 ^ 16) : a.addr 64 n b = (n + 1) * b := by
  have h := mul_small hn hb
  have h1 : word 64 (n + 1) = n + 1 := word_small (by omega)
  have h2 : word 64 n = n := word_small (by omega)
  have h3 := word_small h
  cases a <;> simp only [Access.addr, mulNarrow, mulWide, h1, h2, h3]

/-- C71 with words of any width of at most 64 bits: the address is right if it fits in a word. -/
theorem C71_small_partial {W : Nat} (hW : W ≤ 64) (a : Access) {n b : Nat} (hb : 0 < b) (h : (n + 1) * b < 2 ^ W) :
    a.addr W n b = (n + 1) * b := by
  have h0 : n + 1 < 2 ^ W := Nat.lt_of_le_of_lt (Nat.le_mul_of_pos_right _ hb) h
  have h1 : word W (n + 1) = n + 1 := word_small h0
  have h2 : word W n = n := word_small (by omega)
  have h3 := word_small h
  have h4 : word 64 ((n + 1) * b) = (n + 1) * b := word_small (Nat.lt_of_lt_of_le h (Nat.pow_le_pow_right (by decide) hW))
  cases a <;> simp only [Access.addr, mulNarrow, mulWide, h1, h2, h3, h4]

/-- C71 with 32 bits, for every function except `fetch`, `commit` and `rekey`: the address is right for all buckets. -/
theorem C71_wide_partial (a : Access) (h1 : a ≠ .fetch) (h2 : a ≠ .commit) (h3 : a ≠ .rekey) {n b : Nat} (hn : n + 1 < 2 ^ 32)
    (hb : b < 2 ^ 16) : a.addr 32 n b = (n + 1) * b := by
  have e1 : word 32 (n + 1) = n + 1 := word_small hn
  have e2 : word 32 n = n := word_small (by omega)
  have e3 := word_small (mul_small (n := n) (by omega) hb)
  cases a <;> first | contradiction | simp only [Access.addr, mulWide, e1, e2, e3]

/-- C71: blocks of different buckets do not overlap, and none overlaps the header, with 64 bits. -/
theorem C71_apart_partial (a a' : Access) {n n' b : Nat} (hn : n < 2 ^ 47) (hn' : n' < 2 ^ 47) (hb : b < 2 ^ 16) :
    b ≤ a.addr 64 n b ∧ (n < n' → a.addr 64 n b + b ≤ a'.addr 64 n' b) := by
  rw [C71_partial a hn hb, C71_partial a' hn' hb]
  refine ⟨Nat.le_mul_of_pos_left _ (by omega), fun h => ?_⟩
  rw [← Nat.succ_mul]
  exact Nat.mul_le_mul_right _ (by omega)

/-- C71: `rekey` extends the key file so that it ends after the last bucket, with 64 bits. -/
theorem C71_end_partial {buckets b : Nat} (hn : buckets < 2 ^ 47) (hb : b < 2 ^ 16) (h0 : 0 < b) :
    rekeyEnd 64 buckets b + 1 = b + buckets * b := by
  have h1 : word 64 (buckets + 1) = buckets + 1 := word_small (by omega)
  have h2 := word_small (mul_small hn hb)
  unfold rekeyEnd mulWide
  rw [h1, h2, Nat.succ_mul]
  omega

/-- C71 is false with 32 bits as soon as a key file with blocks of 4096 bytes has 2^20 buckets: `insert` takes the bucket from
beyond 4 GiB, `fetch` reads the header of the key file instead, and `commit` and `rekey` write the bucket over the header. -/
theorem C71_violated : Access.addr 32 .insert (2 ^ 20 - 1) 4096 = 2 ^ 20 * 4096 ∧ Access.addr 32 .fetch (2 ^ 20 - 1) 4096 = 0 ∧
    Access.addr 32 .commit (2 ^ 20 - 1) 4096 = 0 ∧ Access.addr 32 .rekey (2 ^ 20 - 1) 4096 = 0 := by
  refine ⟨?_, ?_, ?_, ?_⟩ <;> decide

/-! ### The premises are satisfiable -/

example : bucketIndexA 0xffffffffffff 0xffffffff 0x100000000 = .ok 0x7fffffff := rfl

example : (2 ^ 32 - 1 : Nat) < 2 ^ 47 ∧ 65535 < 2 ^ 16 ∧ Access.addr 64 .commit (2 ^ 32 - 1) 65535 = 2 ^ 32 * 65535 := by decide

example : (1000 + 1) * 4096 < 2 ^ 32 := by decide

example : (Access.verifyFast ≠ .fetch ∧ Access.verifyFast ≠ .commit ∧ Access.verifyFast ≠ .rekey) ∧ 2 ^ 31 + 1 < 2 ^ 32 ∧
    Access.addr 32 .verifyFast (2 ^ 31) 4096 = (2 ^ 31 + 1) * 4096 := by decide

end NuDB
