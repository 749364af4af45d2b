import Verif.Model.Bytes
/-
Specification for the summary of the benchmark.
-/
namespace NuDB.Spec

/-- The samples recorded for `n` items; `dict` has pairs of a number of items and a sample. -/
def recorded (dict : List (Nat × Nat)) (n : Nat) : List Nat :=
  dict.filterMap (fun p => if p.1 = n then some p.2 else none)

end NuDB.Spec
