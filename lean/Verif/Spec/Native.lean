import Verif.Spec.Crash
import Verif.Model.Native
/-
What the layer above may rely on: a member function of `File` behaves as one operation.
-/
namespace NuDB.Spec

/-- `g` reads like `f`, and whatever a power failure can make of `g` it can make of `f`. So whoever is
prepared for `f` is prepared for `g`. -/
structure Covered (g f : FileSt) : Prop where
  reads : g.cur = f.cur
  ordered : ∀ img, Ordered g img → Ordered f img
  unordered : ∀ img, Unordered g img → Unordered f img

/-- Likewise for all files. -/
def AllCovered (gs fs : Fs) : Prop :=
  ∀ p, (gs p = none ∧ fs p = none) ∨ ∃ g f, gs p = some g ∧ fs p = some f ∧ Covered g f

/-- The single operation `m`, with some fault of the environment or none, takes the file `f` to a
file that covers `g`, and has the result `r`. -/
def Single (p : Path) (m : M α) (f : FileSt) (r : Res α) (g : FileSt) : Prop :=
  ∃ (fault : Fault) (f' : FileSt), Covered g f' ∧ ∀ (σ : Schedule) (w : World), σ w.clock = fault → w.fs p = some f →
    m σ w = (r, ⟨w.fs.set p (some f'), w.clock + 1, w.out⟩)

/-- The system call gets on. -/
def Reply.advances : Reply → Bool
  | .some n => 0 < n
  | .intr => false
  | .fail => true
  | .die _ => true

end NuDB.Spec
