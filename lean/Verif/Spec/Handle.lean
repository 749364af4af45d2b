import Verif.Model.Handle
/-
Proper use of file descriptors, told by the system calls alone.
-/
namespace NuDB.Spec
open NuDB.Handle

/-- The descriptor `d` now refers to the file `p`, or to none. -/
def rebind (L : Nat → Option Path) (d : Nat) (p : Option Path) : Nat → Option Path := fun x => if x = d then p else L x

/-- `Sound excl tr L`: in the sequence `tr` of system calls each descriptor is used and closed only while it is open, and
closed at most once; after it the open descriptors are those that `L` maps to a file. If `excl` is true, moreover, no file is
opened while it is open, and none is erased while it is open. (Otherwise these calls fail on Windows, where files are opened
without sharing, win32_file.ipp 62-68, 80-86.) -/
inductive Sound (excl : Bool) : List Sys → (Nat → Option Path) → Prop
  | nil : Sound excl [] (fun _ => none)
  | «open» {tr L d p} : Sound excl tr L → L d = none → (excl = true → ∀ x, L x ≠ some p) →
      Sound excl (tr ++ [.open d p]) (rebind L d (some p))
  | use {tr L d} : Sound excl tr L → L d ≠ none → Sound excl (tr ++ [.use d]) L
  | close {tr L d} : Sound excl tr L → L d ≠ none → Sound excl (tr ++ [.close d]) (rebind L d none)
  | erase {tr L p} : Sound excl tr L → (excl = true → ∀ x, L x ≠ some p) → Sound excl (tr ++ [.erase p]) L

/-- Each of the three files is open, with one descriptor. -/
def OneEach (L : Nat → Option Path) : Prop := (∀ p, ∃ d, L d = some p) ∧ ∀ d d' p, L d = some p → L d' = some p → d = d'

end NuDB.Spec
