import Verif.Proof.Float
import Verif.Spec.Rounding
import Mathlib.Tactic.Linarith
import Mathlib.Tactic.FieldSimp
import Mathlib.Tactic.NormNum
import Mathlib.Tactic.Positivity
import Mathlib.Tactic.Ring
/-
The rounding of `Model/Float` is that of IEEE 754.
-/
namespace NuDB

open Spec

theorem int_far {A : ℚ} {q j : ℤ} (hq : |(q : ℚ) - A| ≤ 1 / 2) (hj : j ≠ q) : 1 / 2 ≤ |(j : ℚ) - A| := by
  have h1 : (1 : ℚ) ≤ |(j : ℚ) - q| := by
    have : (1 : ℤ) ≤ |j - q| := Int.one_le_abs (sub_ne_zero.mpr hj)
    exact_mod_cast this
  have h2 : |(j : ℚ) - q| ≤ |(j : ℚ) - A| + |(q : ℚ) - A| := by
    rw [abs_sub_comm (q : ℚ) A]
    exact abs_sub_le _ _ _
  linarith

/-- A rounded number in units of its last bit. -/
theorem nearest_units {A u : ℚ} {q : ℕ} (hu : 0 < u) (hl : (2 : ℚ) ^ 23 ≤ A) (hq : |(q : ℚ) - A| ≤ 1 / 2)
    (y : ℚ) (k : ℤ) (m : ℕ) (hm : m < 2 ^ 24) (hy : y = m * 2 ^ k) :
    |(q : ℚ) - A| ≤ |y - A| ∧ (y ≠ q → |y - A| = |(q : ℚ) - A| → |(q : ℚ) - A| = 1 / 2) := by
  have hint : ∀ j : ℤ, |(q : ℚ) - A| ≤ |(j : ℚ) - A| ∧ ((j : ℚ) ≠ q → |(j : ℚ) - A| = |(q : ℚ) - A| → |(q : ℚ) - A| = 1 / 2) := by
    intro j
    by_cases hj : j = (q : ℤ)
    · subst hj
      exact ⟨le_of_eq rfl, fun h => absurd (Int.cast_natCast q) h⟩
    · have := int_far (q := (q : ℤ)) (by simpa using hq) hj
      exact ⟨le_trans hq this, fun _ h => le_antisymm hq (h ▸ this)⟩
  by_cases hk : 0 ≤ k
  · obtain ⟨k, rfl⟩ := Int.eq_ofNat_of_zero_le hk
    have e : y = ((m * 2 ^ k : ℤ) : ℚ) := by rw [hy]; push_cast; rfl
    rw [e]
    exact hint _
  · have h1 : (2 : ℚ) ^ k ≤ 1 / 2 := by
      have : (2 : ℚ) ^ k ≤ 2 ^ (-1 : ℤ) := zpow_le_zpow_right₀ (by norm_num) (by omega)
      simpa using this
    have h2 : (m : ℚ) < 2 ^ 24 := by exact_mod_cast hm
    have h3 : y < 2 ^ 23 := by
      rw [hy]
      calc (m : ℚ) * 2 ^ k ≤ m * (1 / 2) := mul_le_mul_of_nonneg_left h1 (by positivity)
        _ < 2 ^ 23 := by linarith
    have h4 := (hint (2 ^ 23)).1
    have h5 : |((2 ^ 23 : ℤ) : ℚ) - A| = A - 2 ^ 23 := by
      rw [abs_of_nonpos (by push_cast; linarith)]; push_cast; ring
    have h6 : |y - A| = A - y := by rw [abs_of_nonpos (by linarith)]; ring
    rw [h5] at h4
    rw [h6]
    exact ⟨by linarith, fun _ h => by linarith⟩

/-- C81: rounding in the model is what IEEE 754 asks for. -/
theorem C81_rounding (n d : ℕ) (hd : 0 < d) (hs : n = 0 ∨ d ≤ n * 2 ^ 160) :
    NearestEven (floatValue (F32.round n d)) (n / d) := by
  by_cases hn : n = 0
  · subst hn
    have e : floatValue (F32.round 0 d) = 0 := by simp [F32.round, floatValue]
    rw [e]
    refine ⟨⟨0, 0, by norm_num, by simp⟩, fun y _ => by simp, fun y _ hne h => ?_⟩
    simp at h
    exact absurd h hne
  · obtain ⟨l, q, h⟩ := F32.rounded (by omega) hd (by omega : d ≤ n * 2 ^ 160)
    have hdq : (0 : ℚ) < d := by exact_mod_cast hd
    obtain ⟨u, hu⟩ : ∃ u : ℚ, u = 2 ^ l / 2 ^ 183 := ⟨_, rfl⟩
    obtain ⟨A, hA⟩ : ∃ A : ℚ, A = n * 2 ^ 183 / (d * 2 ^ l) := ⟨_, rfl⟩
    have hup : 0 < u := by rw [hu]; positivity
    have hb : (0 : ℚ) < d * 2 ^ l := by positivity
    have ev : floatValue (F32.round n d) = q * u := by
      rw [h.eq, floatValue, hu]; push_cast; ring
    have en : (n : ℚ) / d = A * u := by rw [hA, hu]; field_simp
    have hAb : A * (d * 2 ^ l) = n * 2 ^ 183 := by rw [hA]; field_simp
    have low : (d : ℚ) * 2 ^ l ≤ n * 2 ^ 160 := by exact_mod_cast h.low
    have n1 : 2 * ((q : ℚ) * (d * 2 ^ l)) ≤ 2 * (n * 2 ^ 183) + d * 2 ^ l := by exact_mod_cast h.near.1
    have n2 : 2 * ((n : ℚ) * 2 ^ 183) ≤ 2 * (q * (d * 2 ^ l)) + d * 2 ^ l := by exact_mod_cast h.near.2
    have hl : (2 : ℚ) ^ 23 ≤ A := by
      apply le_of_mul_le_mul_right _ hb
      rw [hAb]
      calc (2 : ℚ) ^ 23 * (d * 2 ^ l) ≤ 2 ^ 23 * (n * 2 ^ 160) := mul_le_mul_of_nonneg_left low (by positivity)
        _ = n * 2 ^ 183 := by ring
    have hq : |(q : ℚ) - A| ≤ 1 / 2 := by
      rw [abs_le]
      rw [← hAb] at n1 n2
      constructor
      · apply le_of_mul_le_mul_right _ hb
        linarith
      · apply le_of_mul_le_mul_right _ hb
        linarith
    have heven : |(q : ℚ) - A| = 1 / 2 → q % 2 = 0 := by
      intro hh
      apply h.even
      rcases abs_eq (by norm_num : (0 : ℚ) ≤ 1 / 2) |>.mp hh with h1 | h1
      · left
        have : 2 * ((q : ℚ) * (d * 2 ^ l)) = 2 * (n * 2 ^ 183) + d * 2 ^ l := by
          rw [← hAb, show (q : ℚ) = A + 1 / 2 by linarith]; ring
        exact_mod_cast this
      · right
        have : 2 * ((n : ℚ) * 2 ^ 183) = 2 * (q * (d * 2 ^ l)) + d * 2 ^ l := by
          rw [← hAb, show A = (q : ℚ) + 1 / 2 by linarith]; ring
        exact_mod_cast this
    have q1 : 2 ^ 23 ≤ q := by
      apply h.down
      have := Nat.mul_le_mul_left (2 ^ 23) h.low
      calc 2 ^ 23 * (d * 2 ^ l) ≤ 2 ^ 23 * (n * 2 ^ 160) := this
        _ = n * 2 ^ 183 := by ring
    have q2 : q ≤ 2 ^ 24 := by
      apply h.up
      have := Nat.mul_le_mul_left (2 ^ 23) (le_of_lt h.high)
      calc n * 2 ^ 183 = 2 ^ 23 * (n * 2 ^ 160) := by ring
        _ ≤ 2 ^ 23 * (d * 2 ^ (l + 1)) := this
        _ = 2 ^ 24 * (d * 2 ^ l) := by ring
    have hun : u = 2 ^ ((l : ℤ) - 183) := by
      rw [hu, zpow_sub₀ (by norm_num : (2 : ℚ) ≠ 0)]; norm_cast
    have key : ∀ y, IsFloat y → |(q : ℚ) - A| ≤ |y / u - A| ∧ (y / u ≠ q → |y / u - A| = |(q : ℚ) - A| → |(q : ℚ) - A| = 1 / 2) := by
      rintro y ⟨m, e, hm, rfl⟩
      refine nearest_units hup hl hq _ (e - ((l : ℤ) - 183)) m hm ?_
      rw [hun, mul_div_assoc, ← zpow_sub₀ (by norm_num : (2 : ℚ) ≠ 0)]
    have sc : ∀ z : ℚ, |z * u - A * u| = |z - A| * u := by
      intro z; rw [← sub_mul, abs_mul, abs_of_pos hup]
    have scy : ∀ y : ℚ, |y - A * u| = |y / u - A| * u := by
      intro y; rw [← sc, div_mul_cancel₀ y (ne_of_gt hup)]
    rw [ev, en]
    refine ⟨?_, ?_, ?_⟩
    · by_cases hq24 : q = 2 ^ 24
      · refine ⟨2 ^ 23, (l : ℤ) - 183 + 1, by norm_num, ?_⟩
        rw [hun, zpow_add₀ (by norm_num : (2 : ℚ) ≠ 0), hq24]; push_cast; ring
      · exact ⟨q, (l : ℤ) - 183, by omega, by rw [hun]⟩
    · intro y hy
      rw [sc, scy]
      exact mul_le_mul_of_nonneg_right (key y hy).1 (le_of_lt hup)
    · intro y hy hne hh
      rw [sc, scy] at hh
      have h1 := mul_right_cancel₀ (ne_of_gt hup) hh
      have h2 := heven ((key y hy).2 (fun h0 => hne (by rw [← h0, div_mul_cancel₀ y (ne_of_gt hup)])) h1)
      by_cases hq24 : q = 2 ^ 24
      · refine ⟨2 ^ 23, (l : ℤ) - 183 + 1, by norm_num, by norm_num, by norm_num, ?_⟩
        rw [hun, zpow_add₀ (by norm_num : (2 : ℚ) ≠ 0), hq24]; push_cast; ring
      · exact ⟨q, (l : ℤ) - 183, q1, by omega, h2, by rw [hun]⟩

/-- A halfway case: 2^24 + 1 is rounded down, to an even significand; and the premises hold for a quotient. -/
example : floatValue (F32.round (2 ^ 24 + 1) 1) = 2 ^ 24 ∧ (0 < 3 ∧ (1 = 0 ∨ 3 ≤ 1 * 2 ^ 160)) := by
  have : F32.round (2 ^ 24 + 1) 1 = ⟨2 ^ 23 * 2 ^ 184, 2 ^ 183⟩ := by decide +kernel
  refine ⟨?_, by norm_num⟩
  rw [this, floatValue]
  norm_num

end NuDB
