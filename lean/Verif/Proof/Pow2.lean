import Verif.Model.Bucket
/- `ceilPow2` and bucket addressing. -/
namespace NuDB

/-- `m` is the least power of two that is at least `B` (for `B ≥ 1`). -/
def IsModulus (B m : Nat) : Prop := (∃ k, m = 2 ^ k) ∧ m < 2 * B ∧ B ≤ m

theorem mask_zero (x k : Nat) (h : x < 2 ^ (k + k)) :
    ((x &&& ((2 ^ k - 1) <<< k)) == 0) = decide (x < 2 ^ k) := by
  have e : x &&& ((2 ^ k - 1) <<< k) = (x >>> k) <<< k := by
    have h1 : x >>> k < 2 ^ k := by
      rw [Nat.shiftRight_eq_div_pow, Nat.div_lt_iff_lt_mul (Nat.two_pow_pos k), ← Nat.pow_add]
      exact h
    apply Nat.eq_of_testBit_eq
    intro i
    simp only [Nat.testBit_and, Nat.testBit_shiftLeft, Nat.testBit_shiftRight]
    by_cases hi : i ≥ k
    · have : k + (i - k) = i := by omega
      simp only [hi, this, decide_true, Bool.true_and, Nat.testBit_two_pow_sub_one]
      by_cases h3 : i - k < k
      · simp [h3]
      · have : x < 2 ^ i := Nat.lt_of_lt_of_le h (Nat.pow_le_pow_right (by omega) (by omega))
        simp [Nat.testBit_lt_two_pow this]
    · simp [hi]
  rw [e, Nat.shiftLeft_eq, Nat.shiftRight_eq_div_pow]
  by_cases hx : x < 2 ^ k
  · simp [hx, Nat.div_eq_of_lt hx]
  · have h2 : 0 < x / 2 ^ k := Nat.div_pos (by omega) (Nat.two_pow_pos k)
    have h3 : 0 < x / 2 ^ k * 2 ^ k := Nat.mul_pos h2 (Nat.two_pow_pos k)
    simp only [hx, decide_false]
    exact beq_eq_false_iff_ne.mpr (by omega)

theorem step_spec {x0 y0 k : Nat} {s : Nat × Nat} {t : Nat}
    (ht : t = (2 ^ k - 1) <<< k) (hlt : s.1 < 2 ^ (k + k)) (hpos : 0 < s.1)
    (hx : s.1 = x0 / 2 ^ (s.2 - y0)) (hy : y0 ≤ s.2) :
    (ceilPow2Step t k s).1 < 2 ^ k ∧ 0 < (ceilPow2Step t k s).1 ∧
    (ceilPow2Step t k s).1 = x0 / 2 ^ ((ceilPow2Step t k s).2 - y0) ∧
    y0 ≤ (ceilPow2Step t k s).2 := by
  subst ht
  have hm := mask_zero s.1 k hlt
  simp only [ceilPow2Step, hm]
  by_cases h : s.1 < 2 ^ k
  · simp only [h, decide_true, if_true, Nat.shiftRight_zero, Nat.add_zero]
    exact ⟨trivial, hpos, hx, hy⟩
  · simp only [h, decide_false]
    simp only [Bool.false_eq_true, if_false, Nat.shiftRight_eq_div_pow]
    refine ⟨?_, ?_, ?_, by omega⟩
    · rw [Nat.div_lt_iff_lt_mul (Nat.two_pow_pos k), ← Nat.pow_add]; exact hlt
    · exact Nat.div_pos (by omega) (Nat.two_pow_pos k)
    · have : s.2 + k - y0 = (s.2 - y0) + k := by omega
      rw [this, Nat.pow_add, ← Nat.div_div_eq_div_mul, ← hx]

theorem and_pred {x k : Nat} (h1 : 2 ^ k ≤ x) (h2 : x < 2 ^ (k + 1)) :
    ((x &&& (x - 1)) == 0) = decide (x = 2 ^ k) := by
  by_cases h : x = 2 ^ k
  · subst h
    simp [Nat.and_two_pow_sub_one_eq_mod]
  · simp only [h, decide_false]
    apply beq_eq_false_iff_ne.mpr
    intro hz
    have hb : (x &&& (x - 1)).testBit k = true := by
      rw [Nat.testBit_and]
      have t1 : ∀ y, 2 ^ k ≤ y → y < 2 ^ (k + 1) → y.testBit k = true := by
        intro y ha hb
        rw [Nat.testBit_eq_decide_div_mod_eq]
        have : y / 2 ^ k = 1 := by
          rw [Nat.pow_succ] at hb
          apply Nat.div_eq_of_lt_le <;> omega
        simp [this]
      rw [t1 x h1 h2, t1 (x - 1) (by omega) (by omega)]; rfl
    rw [hz] at hb
    simp at hb

theorem ceilPow2_spec {x : Nat} (h0 : 1 ≤ x) (h64 : x < 2 ^ 64) :
    ∃ k, 2 ^ k ≤ x ∧ x < 2 ^ (k + 1) ∧
      ceilPow2 x = if x = 2 ^ k then 2 ^ k else 2 ^ (k + 1) := by
  have hne : x ≠ 0 := by omega
  generalize hy : (if x &&& (x - 1) == 0 then 0 else 1) = y
  have e : ceilPow2 x = 1 <<< (ceilPow2Step 0x2 1 (ceilPow2Step 0xC 2 (ceilPow2Step 0xF0 4
      (ceilPow2Step 0xFF00 8 (ceilPow2Step 0xFFFF0000 16
      (ceilPow2Step 0xFFFFFFFF00000000 32 (x, y))))))).2 := by
    simp only [ceilPow2, hne, if_false, hy]
  have s0 : ((x, y) : Nat × Nat).1 = x / 2 ^ (((x, y) : Nat × Nat).2 - y) := by simp
  obtain ⟨a1, b1, c1, d1⟩ := step_spec (x0 := x) (y0 := y) (k := 32) (t := 0xFFFFFFFF00000000)
    (s := (x, y)) (by decide) h64 h0 s0 (Nat.le_refl _)
  generalize ceilPow2Step 0xFFFFFFFF00000000 32 (x, y) = s1 at *
  obtain ⟨a2, b2, c2, d2⟩ := step_spec (x0 := x) (y0 := y) (k := 16) (t := 0xFFFF0000)
    (s := s1) (by decide) a1 b1 c1 d1
  generalize ceilPow2Step 0xFFFF0000 16 s1 = s2 at *
  obtain ⟨a3, b3, c3, d3⟩ := step_spec (x0 := x) (y0 := y) (k := 8) (t := 0xFF00)
    (s := s2) (by decide) a2 b2 c2 d2
  generalize ceilPow2Step 0xFF00 8 s2 = s3 at *
  obtain ⟨a4, b4, c4, d4⟩ := step_spec (x0 := x) (y0 := y) (k := 4) (t := 0xF0)
    (s := s3) (by decide) a3 b3 c3 d3
  generalize ceilPow2Step 0xF0 4 s3 = s4 at *
  obtain ⟨a5, b5, c5, d5⟩ := step_spec (x0 := x) (y0 := y) (k := 2) (t := 0xC)
    (s := s4) (by decide) a4 b4 c4 d4
  generalize ceilPow2Step 0xC 2 s4 = s5 at *
  obtain ⟨a6, b6, c6, d6⟩ := step_spec (x0 := x) (y0 := y) (k := 1) (t := 0x2)
    (s := s5) (by decide) a5 b5 c5 d5
  generalize ceilPow2Step 0x2 1 s5 = s6 at *
  have one : s6.1 = 1 := by omega
  rw [one] at c6
  refine ⟨s6.2 - y, ?_, ?_, ?_⟩
  · have := Nat.div_mul_le_self x (2 ^ (s6.2 - y))
    rw [← c6] at this; omega
  · have := Nat.lt_mul_div_succ x (Nat.two_pow_pos (s6.2 - y))
    rw [← c6] at this
    rw [Nat.pow_succ]; omega
  · have l1 : 2 ^ (s6.2 - y) ≤ x := by
      have := Nat.div_mul_le_self x (2 ^ (s6.2 - y))
      rw [← c6] at this; omega
    have l2 : x < 2 ^ (s6.2 - y + 1) := by
      have := Nat.lt_mul_div_succ x (Nat.two_pow_pos (s6.2 - y))
      rw [← c6] at this
      rw [Nat.pow_succ]; omega
    rw [and_pred l1 l2] at hy
    rw [e, Nat.one_shiftLeft]
    by_cases hp : x = 2 ^ (s6.2 - y)
    · rw [if_pos hp]
      have : y = 0 := by rw [← hy]; simp [← hp]
      simp [this]
    · rw [if_neg hp]
      have : y = 1 := by rw [← hy]; simp [hp]
      subst this
      congr 1; omega

theorem ceilPow2_isModulus {x : Nat} (h0 : 1 ≤ x) (h64 : x < 2 ^ 64) :
    IsModulus x (ceilPow2 x) := by
  obtain ⟨k, h1, h2, h3⟩ := ceilPow2_spec h0 h64
  rw [h3]
  have : 2 ^ (k + 1) = 2 * 2 ^ k := by rw [Nat.pow_succ]; omega
  split
  · rename_i h; exact ⟨⟨k, rfl⟩, by omega, by omega⟩
  · rename_i h; exact ⟨⟨k + 1, rfl⟩, by omega, by omega⟩

theorem IsModulus.unique {B m m' : Nat} (h : IsModulus B m) (h' : IsModulus B m') : m = m' := by
  obtain ⟨⟨k, rfl⟩, h1, h2⟩ := h
  obtain ⟨⟨k', rfl⟩, h1', h2'⟩ := h'
  have key : ∀ a b, 2 ^ a < 2 * B → B ≤ 2 ^ b → a ≤ b := by
    intro a b ha hb
    by_cases hc : a ≤ b
    · exact hc
    · exfalso
      have : 2 ^ (b + 1) ≤ 2 ^ a := Nat.pow_le_pow_right (by omega) (by omega)
      rw [Nat.pow_succ] at this; omega
  have := key k k' h1 h2'
  have := key k' k h1' h2
  have : k = k' := by omega
  rw [this]

theorem IsModulus.eq_ceilPow2 {B m : Nat} (h0 : 1 ≤ B) (h64 : B < 2 ^ 64) (h : IsModulus B m) :
    m = ceilPow2 B := h.unique (ceilPow2_isModulus h0 h64)

/-- The modulus after the table has grown by one (basic_store.ipp 660-661). -/
def nextModulus (B m : Nat) : Nat := if B = m then m * 2 else m

theorem IsModulus.next {B m : Nat} (h0 : 1 ≤ B) (h : IsModulus B m) :
    IsModulus (B + 1) (nextModulus B m) := by
  obtain ⟨⟨k, rfl⟩, h1, h2⟩ := h
  simp only [nextModulus]
  split
  · exact ⟨⟨k + 1, by rw [Nat.pow_succ]⟩, by omega, by omega⟩
  · exact ⟨⟨k, rfl⟩, by omega, by omega⟩

theorem IsModulus.pos {B m : Nat} (h0 : 1 ≤ B) (h : IsModulus B m) : 1 ≤ m := by
  have := h.2.2; omega

theorem IsModulus.half {B m : Nat} (h : IsModulus B m) (hB : 2 ≤ B) : m = m / 2 + m / 2 := by
  obtain ⟨⟨k, rfl⟩, h1, h2⟩ := h
  cases k with
  | zero => simp at h2; omega
  | succ k => rw [Nat.pow_succ]; omega

theorem bucketIndex_lt {B m : Nat} (h0 : 1 ≤ B) (hm : IsModulus B m) (h : Nat) :
    bucketIndex h B m < B := by
  have hp := hm.pos h0
  have hlt : h % m < m := Nat.mod_lt _ (by omega)
  simp only [bucketIndex]
  split
  · rename_i hge
    have : 2 ≤ B ∨ B = 1 := by omega
    rcases this with h2 | h1
    · have := hm.half h2
      have := hm.2.1
      omega
    · subst h1
      have := hm.2.1; have := hm.2.2
      omega
  · omega

theorem bucketIndex_grow {B m : Nat} (h0 : 1 ≤ B) (hm : IsModulus B m) (h : Nat) :
    let m' := nextModulus B m
    let n1 := B - m' / 2
    (bucketIndex h (B + 1) m' = bucketIndex h B m ∧ bucketIndex h (B + 1) m' ≠ B) ∨
    (bucketIndex h (B + 1) m' = B ∧ bucketIndex h B m = n1) := by
  have hp := hm.pos h0
  have hlt : h % m < m := Nat.mod_lt _ (by omega)
  simp only [bucketIndex, nextModulus]
  by_cases hB : B = m
  · subst hB
    simp only [if_true]
    have h3 : h % (B * 2) = h % B ∨ h % (B * 2) = h % B + B := by
      rw [Nat.mod_mul]
      have : h / B % 2 = 0 ∨ h / B % 2 = 1 := by omega
      rcases this with h | h <;> rw [h] <;> omega
    have h4 : B * 2 / 2 = B := by omega
    rw [h4]
    rcases h3 with h3 | h3 <;> rw [h3]
    · rw [if_neg (by omega), if_neg (by omega)]; omega
    · by_cases hz : h % B = 0
      · rw [if_neg (by omega), if_neg (by omega)]; omega
      · rw [if_pos (by omega), if_neg (by omega)]; omega
  · simp only [hB, if_false]
    have h2 : 2 ≤ B ∨ B = 1 := by omega
    have hh : m / 2 < B := by have := hm.2.1; omega
    have hB2 := hm.2.2
    have hm2 : 1 < m := by omega
    have hmlt := hm.2.1
    have hl : m = m / 2 + m / 2 := by
      rcases h2 with h2 | h2
      · exact hm.half h2
      · omega
    by_cases hn : h % m < B
    · rw [if_neg (by omega), if_neg (by omega)]; omega
    · by_cases hn2 : h % m = B
      · rw [if_neg (by omega), if_pos (by omega)]; omega
      · rw [if_pos (by omega), if_pos (by omega)]; omega

end NuDB
