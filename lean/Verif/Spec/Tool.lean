import Verif.Model.Bytes
/-
Numbers as the command line tool shows them.
-/
namespace NuDB.Spec

/-- The value of a hexadecimal digit. -/
def hexDigitValue (ch : Char) : Nat :=
  if '0' ≤ ch ∧ ch ≤ '9' then ch.toNat - '0'.toNat else ch.toNat - 'a'.toNat + 10

/-- The number written with these hexadecimal digits. -/
def hexValue (l : List Char) : Nat := l.foldl (fun n ch => 16 * n + hexDigitValue ch) 0

/-- A number of bytes counted in entry `i` of the histogram. -/
def InClass (i n : Nat) : Prop := 2 ^ i ≤ n ∧ n < 2 ^ (i + 1)

instance (i n : Nat) : Decidable (InClass i n) := by unfold InClass; infer_instance

end NuDB.Spec
