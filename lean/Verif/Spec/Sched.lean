import Verif.Model.Context
/-
What the flush scheduler is expected to do, told by what is observed for a single store.
-/
namespace NuDB.Spec
open NuDB.Sched

/-- The life of a store: not registered; registered; its turn to be flushed has come; being
flushed. -/
inductive Life
  | gone | idle | queued | busy
deriving DecidableEq, Repr

/-- How an event changes the life of store `s`; `none` if the event must not happen.
A round takes every registered store that is idle, and no other. -/
def advance (s : Nat) (l : Life) : Ev → Option Life
  | .registered x => if x = s then (if l = .gone then some .idle else none) else some l
  | .round xs =>
    if s ∈ xs then (if l = .idle then some .queued else none)
    else (if l = .idle then none else some l)
  | .started x => if x = s then (if l = .queued then some .busy else none) else some l
  | .finished x => if x = s then (if l = .busy then some .idle else none) else some l
  | .unregistered x => if x = s then (if l = .busy then none else some .gone) else some l

/-- The life of store `s` after the events `es`. -/
def life (s : Nat) (es : List Ev) : Option Life := es.foldlM (advance s) .gone

/-- An event that starts a flush. -/
def isStarted : Ev → Bool
  | .started _ => true
  | _ => false

/-- A thread executes `flush()` of store `s`. -/
def InFlush (c : Ctx) (t s : Nat) : Prop :=
  (∃ f, c.pc t = .runFlush f s) ∨ c.pc t = .flFlush s

/-- A thread executes `run`. -/
def InRun : PC → Bool
  | .runTop _ | .runTimed | .runIdle | .runLoop _ | .runFlush _ _ | .runLeave => true
  | _ => false

/-- A thread in `run` that starts rounds (`first` is true, context.ipp 61-65). -/
def Leads : PC → Bool
  | .runTop f | .runLoop f | .runFlush f _ => f
  | .runTimed => true
  | _ => false

/-- A schedule: which thread does what. -/
def exec : Ctx → List (Nat × Act) → Option (Ctx × List Ev)
  | c, [] => some (c, [])
  | c, (t, a) :: rest =>
    match step c t a with
    | none => none
    | some (c, es) =>
      match exec c rest with
      | none => none
      | some (c, es') => some (c, es ++ es')

end NuDB.Spec
