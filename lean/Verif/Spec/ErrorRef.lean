import Verif.Model.ErrorRef
/-
What it means that the content of `ec` before a call does not matter.
-/
namespace NuDB.Spec

/-- The effects of the call, its result and the content of `ec` afterwards are the same whatever `ec` contains before. -/
def Indifferent (f : EcM α) : Prop := ∀ ec σ w, f ec σ w = f none σ w

/-- Called with a clear `ec`, the function does what `m` does: it has the same effects, the same result if there is no error,
and an error of `m` is in `ec` afterwards. -/
def Reports (f : EcM α) (m : M α) : Prop := ∀ σ w, f none σ w =
  match m σ w with
  | (.ok a, w') => (.ok (some a, none), w')
  | (.error (.err e), w') => (.ok (none, some e), w')
  | (.error x, w') => (.error x, w')

/-- Called with an error in `ec`, the function does nothing: it returns early, and leaves an error in `ec`, the files as they
are, and calls no callback. -/
def Refuses (f : EcM α) : Prop := ∀ e σ w r ec w', f (some e) σ w = (.ok (r, ec), w') →
  r = none ∧ ec ≠ none ∧ w'.fs = w.fs ∧ w'.out = w.out

end NuDB.Spec
