import Verif.Spec.Conform
/-
How many file operations a call makes.
-/
namespace NuDB.Spec

/-- The number of pairs whose key has the same hash as `k`; only the upper 48 bits of a digest are stored. -/
def rivals (H : Hasher) (salt : Nat) (k : Bytes) (ps : List (Bytes × Bytes)) : Nat :=
  ps.countP (fun p => hash48 (H (UInt64.ofNat salt) p.1) = hash48 (H (UInt64.ofNat salt) k))

/-- From `w`, the program makes at most `n` file operations and changes no file, whatever happens to the operations. -/
def Reads (σ : Schedule) (w : World) (m : M α) (n : Nat) : Prop := (m σ w).2.fs = w.fs ∧ (m σ w).2.clock ≤ w.clock + n

/-- Number of file operations of the program from `w`, if none fails. -/
def opsOf (m : M α) (w : World) : Nat := (m calm w).2.clock - w.clock

end NuDB.Spec
