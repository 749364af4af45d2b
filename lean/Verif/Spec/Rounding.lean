import Verif.Model.Float
import Mathlib.Algebra.Order.Field.Rat
import Mathlib.Algebra.Order.Field.Power
/-
IEEE 754: numbers of 24 significant bits, and rounding to the nearest of them.
-/
namespace NuDB.Spec

/-- The value of a number of type `float`. -/
def floatValue (x : F32) : ℚ := x.num / x.den

/-- A number with 24 significant bits (the exponent is not bounded). -/
def IsFloat (y : ℚ) : Prop := ∃ (m : ℕ) (e : ℤ), m < 2 ^ 24 ∧ y = m * 2 ^ e

/-- A number whose significand, of exactly 24 bits, is even. -/
def IsEven (y : ℚ) : Prop := ∃ (m : ℕ) (e : ℤ), 2 ^ 23 ≤ m ∧ m < 2 ^ 24 ∧ m % 2 = 0 ∧ y = m * 2 ^ e

/-- `x` is `v` rounded to the nearest number with 24 significant bits, in halfway cases to the even one. -/
structure NearestEven (x v : ℚ) : Prop where
  float : IsFloat x
  nearest : ∀ y, IsFloat y → |x - v| ≤ |y - v|
  halfway : ∀ y, IsFloat y → y ≠ x → |y - v| = |x - v| → IsEven x

end NuDB.Spec
