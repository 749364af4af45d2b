import Verif.Model.Context
/-
The flush scheduler when `store->flush()` throws (impl/context.ipp 206). `flush` is not `noexcept` (detail/store_base.hpp), and
`commit` allocates memory in many places. `flush_one` has no handler: the lines after the call are skipped, the exception
leaves `run` or `flush` and arrives at their caller. If the caller is the thread made by `start` the process is
terminated (std::thread), so the execution ends there.
-/
namespace NuDB.Sched

/-- What is observed: the events of `Ev`; `threw s r`: the flush of store `s` threw an exception in a thread that executes
`run` (`r = true`) or `flush` (`r = false`). -/
inductive EvX
  | ev (e : Ev)
  | threw (s : Nat) (r : Bool)
deriving DecidableEq, Repr

/-- What a thread does next. -/
inductive ActX
  | act (a : Act)
  | throw
deriving DecidableEq, Repr

/-- One step of thread `t`. -/
def stepX (c : Ctx) (t : Nat) : ActX → Option (Ctx × List EvX)
  | .act a => (step c t a).map fun (c, es) => (c, es.map .ev)
  -- context.ipp 206, then out of 113 or 141
  | .throw =>
    match c.pc t with
    | .runFlush _ s => if c.thread = some t then none else some (c.at t .out, [.threw s true])
    | .flFlush s => some (c.at t .out, [.threw s false])
    | _ => none

/-- Runs: what happened, in order. -/
inductive RunX : Ctx → List EvX → Ctx → Prop
  | refl (c) : RunX c [] c
  | step {c es c' t a es' c''} : RunX c es c' → stepX c' t a = some (c'', es') → RunX c (es ++ es') c''

end NuDB.Sched
