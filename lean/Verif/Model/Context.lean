import Verif.Model.Bytes
/-
The flush scheduler: context.hpp and impl/context.ipp with any number of threads.

Each step below is a section of code that runs while `m_` is locked, or the time between two
such sections. The lists of stores are sequences here; `Props/List` shows that the linked lists
behave like sequences. Waiting on a condition variable may end at any time (spurious wakeups and
timeouts are allowed by C++), the predicate is evaluated then. `woken` tells which waiting threads
were notified; it plays no role for what threads may do.
-/
namespace NuDB.Sched

/-- `store_base::state` (store_base.hpp 32-38). -/
inductive St
  | waiting | flushing | intermediate | none
deriving DecidableEq, Repr

/-- Where a thread is. -/
inductive PC
  | out                               -- in none of the functions
  | spawned                           -- new thread, before `run` (context.ipp 30)
  | runTop (first : Bool)             -- `run`, before the lock of line 71
  | runTimed                          -- `run`, in `wait_until` of line 76
  | runIdle                           -- `run`, in `wait` of line 101
  | runLoop (first : Bool)            -- `run`, before a call of `flush_one` (line 113)
  | runFlush (first : Bool) (s : Nat) -- `run`, in `store->flush()` (line 206)
  | runLeave                          -- `run`, before the lock of line 117
  | flLoop                            -- `flush`, before a call of `flush_one` (line 141)
  | flFlush (s : Nat)                 -- `flush`, in `store->flush()` (line 206)
  | erWait (s : Nat)                  -- `erase`, in `wait` of line 171
  | stWait                            -- `stop_all`, in `wait` of line 43
  | stJoin (u : Nat)                  -- `stop_all`, in `join` of line 51
deriving DecidableEq, Repr

/-- `context` (context.hpp 140-151), the member `state_` of all stores, and the threads. -/
structure Ctx where
  waiting : List Nat
  flushing : List Nat
  st : Nat → St
  num : Nat
  stop : Bool
  thread : Option Nat
  pc : Nat → PC
  woken : Nat → Bool

/-- What is observed. `round l`: the stores `l` were moved from `waiting_` to `flushing_`.
`unregistered s`: `erase(s)` is about to return. -/
inductive Ev
  | registered (s : Nat) | round (l : List Nat) | started (s : Nat) | finished (s : Nat)
  | unregistered (s : Nat)
deriving DecidableEq, Repr

/-- What a thread does next: call a function, or go on in the one it is in. -/
inductive Act
  | run | flush | insert (s : Nat) | erase (s : Nat) | start (u : Nat) | stopAll | go
deriving DecidableEq, Repr

def Ctx.at (c : Ctx) (t : Nat) (p : PC) : Ctx :=
  { c with pc := fun x => if x = t then p else c.pc x
           woken := fun x => if x = t then false else c.woken x }

def Ctx.setSt (c : Ctx) (s : Nat) (v : St) : Ctx :=
  { c with st := fun x => if x = s then v else c.st x }

/-- Threads waiting on `cv_w_` (context.ipp 43, 171). -/
def PC.onW : PC → Bool
  | .erWait _ | .stWait => true
  | _ => false

/-- Threads waiting on `cv_f_` (context.ipp 76, 101). -/
def PC.onF : PC → Bool
  | .runTimed | .runIdle => true
  | _ => false

/-- `cv_w_.notify_all()`. -/
def Ctx.notifyW (c : Ctx) : Ctx := { c with woken := fun x => c.woken x || (c.pc x).onW }

/-- `cv_f_.notify_all()`. -/
def Ctx.notifyF (c : Ctx) : Ctx := { c with woken := fun x => c.woken x || (c.pc x).onF }

/-- Moving everything in `waiting_` to `flushing_` (context.ipp 82-85, 133-136). -/
def Ctx.moveAll (c : Ctx) : Ctx :=
  { c with st := fun x => if x ∈ c.waiting then .flushing else c.st x
           flushing := c.flushing ++ c.waiting
           waiting := [] }

/-- `insert` (context.ipp 145-153). -/
def Ctx.insert (c : Ctx) (s : Nat) : Ctx :=
  { c.setSt s .waiting with waiting := c.waiting ++ [s] }.notifyW

/-- `erase` of a store in state `waiting` or `flushing` (context.ipp 163-169, 176-184, 189). -/
def Ctx.remove (c : Ctx) (s : Nat) : Ctx :=
  match c.st s with
  | .waiting => ({ c with waiting := c.waiting.filter (fun x => x ≠ s) }.notifyW).setSt s .none
  | .flushing => { c with flushing := c.flushing.filter (fun x => x ≠ s) }.setSt s .none
  | _ => c.setSt s .none

/-- First part of `flush_one` (context.ipp 196-204): the store, if there is one. -/
def Ctx.take (c : Ctx) : Option (Nat × Ctx) :=
  match c.flushing with
  | [] => none
  | s :: l => some (s, { c.setSt s .intermediate with flushing := l })

/-- Second part of `flush_one` (context.ipp 208-212). -/
def Ctx.giveBack (c : Ctx) (s : Nat) : Ctx :=
  { c.setSt s .waiting with waiting := c.waiting ++ [s] }.notifyW

/-- `run` after `wait_until` (context.ipp 77-98): the thread goes to the top of the loop, to
the flush loop, or leaves. -/
def Ctx.timed (c : Ctx) (t : Nat) : Ctx × List Ev :=
  if c.stop then (c.at t .runLeave, [])
  else
    let (c, es) := if c.waiting.isEmpty then (c, []) else (c.moveAll, [Ev.round c.waiting])
    if c.flushing.isEmpty then (c.at t (.runTop true), es)
    else if c.num > 1 then (c.notifyF.at t (.runTop true), es)
    else (c.at t (.runLoop true), es)

/-- `stop_all` once no thread is left (context.ipp 48-54). -/
def Ctx.halted (c : Ctx) (t : Nat) : Ctx :=
  match c.thread with
  | some u => c.at t (.stJoin u)
  | none => { c with stop := false }.at t .out

/-- One step of thread `t`; `none` if the thread cannot do this now. A store may be inserted
only if it is not registered (basic_store.ipp 130, 187: `open` of a store that is not open). -/
def step (c : Ctx) (t : Nat) (a : Act) : Option (Ctx × List Ev) :=
  match c.pc t, a with
  -- context.ipp 61-65
  | .out, .run | .spawned, .go =>
    some ({ c with num := c.num + 1 }.at t (.runTop (c.num + 1 == 1)), [])
  -- context.ipp 126-137
  | .out, .flush =>
    if c.stop || c.num > 0 then some (c, [])
    else some (c.moveAll.at t .flLoop, [.round c.waiting])
  | .out, .insert s =>
    if c.st s = .none then some (c.insert s, [.registered s]) else none
  -- context.ipp 156-190
  | .out, .erase s =>
    match c.st s with
    | .none => some (c, [])
    | .intermediate => some (c.at t (.erWait s), [])
    | _ => some (c.remove s, [.unregistered s])
  -- context.ipp 25-31
  | .out, .start u =>
    if u ≠ t ∧ c.pc u = .out then
      if c.stop = false ∧ c.thread = none then some ({ c with thread := some u }.at u .spawned, [])
      else some (c, [])
    else none
  -- context.ipp 37-47
  | .out, .stopAll =>
    if c.stop then some (c, [])
    else
      let c := ({ c with stop := true }.notifyF).notifyW
      if c.num = 0 then some (c.halted t, []) else some (c.at t .stWait, [])
  -- context.ipp 71-107
  | .runTop first, .go =>
    if c.stop then some (c.at t .runLeave, [])
    else if first then some (c.at t .runTimed, [])
    else if c.flushing.isEmpty then some (c.at t .runIdle, [])
    else some (c.at t (.runLoop false), [])
  | .runTimed, .go => some (c.timed t)
  | .runIdle, .go =>
    if c.stop then some (c.at t .runLeave, [])
    else if c.flushing.isEmpty then some (c.at t .runIdle, [])
    else some (c.at t (.runLoop false), [])
  -- context.ipp 112-114
  | .runLoop first, .go =>
    match c.take with
    | none => some (c.at t (.runTop first), [])
    | some (s, c) => some (c.at t (.runFlush first s), [.started s])
  | .runFlush first s, .go => some ((c.giveBack s).at t (.runLoop first), [.finished s])
  -- context.ipp 117-119
  | .runLeave, .go => some (({ c with num := c.num - 1 }.notifyW).at t .out, [])
  -- context.ipp 140-142
  | .flLoop, .go =>
    match c.take with
    | none => some (c.at t .out, [])
    | some (s, c) => some (c.at t (.flFlush s), [.started s])
  | .flFlush s, .go => some ((c.giveBack s).at t .flLoop, [.finished s])
  -- context.ipp 171-189
  | .erWait s, .go =>
    if c.st s = .intermediate then some (c.at t (.erWait s), [])
    else some ((c.remove s).at t .out, [.unregistered s])
  -- context.ipp 43-54
  | .stWait, .go => if c.num = 0 then some (c.halted t, []) else some (c.at t .stWait, [])
  | .stJoin u, .go =>
    if c.pc u = .out then some ({ c with thread := none, stop := false }.at t .out, []) else none
  | _, _ => none

/-- No store, no thread. -/
def init : Ctx :=
  ⟨[], [], fun _ => .none, 0, false, none, fun _ => .out, fun _ => false⟩

/-- Runs: what happened, in order. -/
inductive Run : Ctx → List Ev → Ctx → Prop
  | refl (c) : Run c [] c
  | step {c es c' t a es' c''} : Run c es c' → step c' t a = some (c'', es') → Run c (es ++ es') c''

end NuDB.Sched
