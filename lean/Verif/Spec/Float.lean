import Verif.Model.Float
/-
Numbers of type `float` and fractions.
-/
namespace NuDB.Spec

/-- `x` is the fraction `n / d` with a relative error of at most 2^-k. -/
structure Near (k : Nat) (x : F32) (n d : Nat) : Prop where
  den : 0 < x.den
  upper : x.num * d * 2 ^ k ≤ n * x.den * (2 ^ k + 1)
  lower : n * x.den * (2 ^ k - 1) ≤ x.num * d * 2 ^ k

end NuDB.Spec
