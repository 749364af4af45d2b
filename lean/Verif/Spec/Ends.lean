import Verif.Spec.Damage
/-
Chains of overflow records that do not end.
-/
namespace NuDB.Spec

/-- Overflow buckets for `room` items in the data file `D`, the first one at offset `o`, each of which lies completely
within the file and refers to the next one. As the file is finite, some of them occur again and again. -/
def Endless (D : Bytes) (room o : Nat) : Prop :=
  ∃ f : Nat → Nat, f 0 = o ∧ ∀ i, f i ≠ 0 ∧ f i + (8 + 18 * room) ≤ D.length ∧ f (i + 1) = value (bytesAt D (f i + 2) 6)

end NuDB.Spec
