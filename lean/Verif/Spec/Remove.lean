import Verif.Spec.History
/-
Which files a program removes.
-/
namespace NuDB.Spec

/-- The process dies at its file operation number `i`, which has no effect. Before, everything happens as in `σ`. -/
def diesAt (σ : Schedule) (i : Nat) : Schedule := fun j => if j < i then σ j else .crash 0

/-- While `m` runs, some file operation removes the log file, which is `f` until then: if the process dies just before
this operation the file is there, if it dies just after it the file is not there. -/
def RemovesLog (m : M α) (σ : Schedule) (w : World) (f : FileSt) : Prop :=
  ∃ i, (m (diesAt σ i) w).2.fs .log = some f ∧ (m (diesAt σ (i + 1)) w).2.fs .log = none

end NuDB.Spec
