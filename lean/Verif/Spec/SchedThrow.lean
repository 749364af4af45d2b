import Verif.Spec.Sched
import Verif.Model.ContextThrow
/-
What is observed of the flush scheduler if flushes may throw.
-/
namespace NuDB.Spec
open NuDB.Sched

/-- The events without the exceptions. -/
def plain (xs : List EvX) : List Ev :=
  xs.filterMap (fun
    | .ev e => some e
    | .threw _ _ => none)

/-- A schedule: which thread does what. -/
def execX : Ctx → List (Nat × ActX) → Option (Ctx × List EvX)
  | c, [] => some (c, [])
  | c, (t, a) :: rest =>
    match stepX c t a with
    | none => none
    | some (c, es) =>
      match execX c rest with
      | none => none
      | some (c, es') => some (c, es ++ es')

end NuDB.Spec
