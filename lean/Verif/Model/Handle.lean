import Verif.Model.File
/-
Files as objects that own a descriptor (posix_file.hpp, posix_file.ipp 15-100; win32_file.ipp likewise), and the library functions
reduced to what they do with such objects: which are opened, used, moved, closed and destroyed, on every path through the
function. What is read or written, and why an operation fails, is left open: a sequence of decisions is given from outside.
-/
namespace NuDB.Handle

/-- Variables of type `File`. `.local`: those of the function called. `.inner`: those of `recover` when `open` calls it.
`.temp`: in `boost::optional<state> s` of `open` (basic_store.ipp 165) and `state s` of `close` (basic_store.ipp 211). `.member`:
in `s_` of the store. -/
inductive Owner
  | «local» | inner | temp | member
deriving DecidableEq, Repr

/-- A variable: whose, and for which file. -/
structure Var where
  o : Owner
  f : Path
deriving DecidableEq

/-- System calls on files. -/
inductive Sys
  /-- file `p` is opened or created, with descriptor `d` -/
  | «open» (d : Nat) (p : Path)
  /-- reading, writing, … -/
  | use (d : Nat)
  | close (d : Nat)
  | erase (p : Path)
deriving DecidableEq

/-- The state: the member `fd_` of each variable (`none` is -1), the system calls made so far, the next descriptor (a number
that is not in use), the decisions and how many of them have been taken, and whether the store is open (`open_`). -/
structure W where
  fd : Var → Option Nat
  trace : List Sys
  next : Nat
  dec : Nat → Nat
  t : Nat
  isOpen : Bool

/-- Result of a piece of code: it goes on, the function returns (`true` without error), or an assertion fails or a system call
gets the descriptor -1. -/
inductive Out (α : Type)
  | ok (a : α) (w : W)
  | ret (b : Bool) (w : W)
  | ub

/-- Pieces of code. -/
def HM (α : Type) := W → Out α

instance : Monad HM where
  pure a := fun w => .ok a w
  bind m f := fun w =>
    match m w with
    | .ok a w => f a w
    | .ret b w => .ret b w
    | .ub => .ub

/-- `return`, without (`true`) or with an error. -/
def ret (b : Bool) : HM α := fun w => .ret b w

/-- A decision from outside. -/
def choose : HM Nat := fun w => .ok (w.dec w.t) { w with t := w.t + 1 }

/-- What `File::create` and `File::open` report. -/
inductive Opened
  | ok | noent | fail
deriving DecidableEq

/-- The file is opened. -/
def give (v : Var) : HM Unit := fun w =>
  .ok () { w with fd := fun u => if u = v then some w.next else w.fd u, trace := w.trace ++ [.open w.next v.f], next := w.next + 1 }

/-- `create` and `open` (posix_file.ipp 56-86): the object must not be open (lines 62, 77). A failure can leave the object open
(`posix_fadvise`, lines 67, 83); then the error is whatever `errno` is, which may even be ENOENT if `stale` is true, see C56. -/
def openF (stale : Bool) (v : Var) : HM Opened := fun w =>
  if (w.fd v).isSome then .ub
  else
    (do
      match ← choose with
      | 0 => give v; pure .ok
      | 1 => pure .noent
      | 2 => give v; pure .fail
      | 3 => if stale then give v; pure .noent else pure .fail
      | _ => pure .fail : HM Opened) w

/-- `size`, `read`, `write`, `sync`, `trunc` (posix_file.ipp 100-199): success? -/
def use (v : Var) : HM Bool := fun w =>
  match w.fd v with
  | none => .ub
  | some d => .ok (w.dec w.t == 0) { w with trace := w.trace ++ [.use d], t := w.t + 1 }

/-- `close` (posix_file.ipp 44-54), also called by the destructor (posix_file.ipp 16-21). -/
def closeF (v : Var) : HM Unit := fun w =>
  match w.fd v with
  | none => .ok () w
  | some d => .ok () { w with fd := fun u => if u = v then none else w.fd u, trace := w.trace ++ [.close d] }

/-- Move construction (posix_file.ipp 23-29) of `v` from `u`. -/
def moveF (u v : Var) : HM Unit := fun w =>
  .ok () { w with fd := fun x => if x = v then w.fd u else if x = u then none else w.fd x }

/-- `File::erase` and `erase_file` (posix_file.ipp 88-99, file.hpp): success? -/
def eraseF (p : Path) : HM Bool := fun w =>
  .ok (w.dec w.t == 0) { w with trace := w.trace ++ [.erase p], t := w.t + 1 }

/-- `if(ec) return;` after an operation. -/
def orRet (m : HM Bool) : HM Unit := do
  if ← m then pure () else ret false

/-- Opening a file, `if(ec) return;`. -/
def openR (stale : Bool) (v : Var) : HM Unit := do
  match ← openF stale v with
  | .ok => pure ()
  | _ => ret false

/-- A check of what was read, `if(ec) return;`. -/
def check : HM Unit := do
  match ← choose with
  | 0 => pure ()
  | _ => ret false

/-- `n` operations on files of `vs` (not empty), chosen from outside; each may fail. -/
def usesN (v : Var) (vs : List Var) : Nat → HM Unit
  | 0 => pure ()
  | n + 1 => do
    let i ← choose
    orRet (use (vs.getD i v))
    check
    usesN v vs n

/-- Any number of operations on the files `v :: vs`. -/
def uses (v : Var) (vs : List Var) : HM Unit := do
  let n ← choose
  usesN v (v :: vs) n

/-- Destructors. -/
def destroy : List Var → HM Unit
  | [] => pure ()
  | v :: vs => do
    closeF v
    destroy vs

/-- A function (or block) with the variables `vs`: they are destroyed when it is left. -/
def scope (vs : List Var) (body : HM Unit) : HM Bool := fun w =>
  match body w with
  | .ok _ w => (do destroy vs; pure true : HM Bool) w
  | .ret b w => (do destroy vs; pure b : HM Bool) w
  | .ub => .ub

def lvar (p : Path) : Var := ⟨.local, p⟩
def ivar (p : Path) : Var := ⟨.inner, p⟩
def tvar (p : Path) : Var := ⟨.temp, p⟩
def mvar (p : Path) : Var := ⟨.member, p⟩

/-- `recover` (recover.ipp 29-205); its variables belong to `o`. -/
def recover (stale : Bool) (o : Owner) : HM Bool :=
  scope [⟨o, .log⟩, ⟨o, .key⟩, ⟨o, .dat⟩] do
    openR stale ⟨o, .dat⟩
    uses ⟨o, .dat⟩ []
    check
    openR stale ⟨o, .key⟩
    orRet (use ⟨o, .key⟩)
    -- key file too small (66-77)
    if (← choose) = 1 then
      closeF ⟨o, .key⟩
      orRet (eraseF .log)
      orRet (eraseF .key)
      ret false
    match ← openF stale ⟨o, .log⟩ with
    | .noent => ret true
    | .fail => ret false
    | .ok => pure ()
    orRet (use ⟨o, .log⟩)
    let _ ← use ⟨o, .log⟩
    -- log header incomplete (93-99)
    if (← choose) = 0 then
      uses ⟨o, .log⟩ []
      check
      -- the log is of a rekey (106-107, 171-193)
      if (← choose) = 0 then
        uses ⟨o, .dat⟩ []
        closeF ⟨o, .key⟩
        orRet (eraseF .key)
      else
        uses ⟨o, .log⟩ [⟨o, .key⟩]
        uses ⟨o, .dat⟩ []
        uses ⟨o, .key⟩ []
    -- clear_log (194-204)
    uses ⟨o, .log⟩ []
    closeF ⟨o, .log⟩
    orRet (eraseF .log)

/-- `create` (create.ipp 91-148): the block. -/
def createBody (stale : Bool) : HM Unit := do
  openR stale (lvar .dat)
  openR stale (lvar .key)
  openR stale (lvar .log)
  uses (lvar .dat) [lvar .key, lvar .log]

/-- `create` (create.ipp 49-156). Which files are erased after a failure (149-155) is left open. -/
def create (stale : Bool) : HM Bool := do
  if ← scope [lvar .log, lvar .key, lvar .dat] (createBody stale) then pure true
  else
    if (← choose) = 0 then let _ ← eraseF .dat
    if (← choose) = 0 then let _ ← eraseF .key
    if (← choose) = 0 then let _ ← eraseF .log
    pure false

/-- `rekey` (rekey.ipp 28-244). -/
def rekey (stale : Bool) : HM Bool :=
  scope [lvar .key, lvar .log, lvar .dat] do
    openR stale (lvar .dat)
    uses (lvar .dat) []
    check
    -- the log file must not exist (66-75)
    match ← openF stale (lvar .log) with
    | .noent => pure ()
    | _ => ret false
    openR stale (lvar .key)
    uses (lvar .key) []
    openR stale (lvar .log)
    uses (lvar .log) []
    uses (lvar .key) []
    uses (lvar .dat) [lvar .key]
    closeF (lvar .log)
    orRet (eraseF .log)

/-- `visit` (visit.ipp 27-92). -/
def visit (stale : Bool) : HM Bool :=
  scope [lvar .dat] do
    openR stale (lvar .dat)
    uses (lvar .dat) []

/-- `verify` (verify.ipp 539-630). -/
def verify (stale : Bool) : HM Bool :=
  scope [lvar .key, lvar .dat] do
    openR stale (lvar .dat)
    openR stale (lvar .key)
    uses (lvar .dat) [lvar .key]

/-- A `state` is constructed from another one by moving (basic_store.hpp 92, basic_store.ipp 28-48). -/
def moveState (o o' : Owner) : HM Unit := do
  moveF ⟨o, .dat⟩ ⟨o', .dat⟩
  moveF ⟨o, .key⟩ ⟨o', .key⟩
  moveF ⟨o, .log⟩ ⟨o', .log⟩

/-- A `state` is destroyed. -/
def dropState (o : Owner) : HM Unit := destroy [⟨o, .log⟩, ⟨o, .key⟩, ⟨o, .dat⟩]

def setOpen (b : Bool) : HM Unit := fun w => .ok () { w with isOpen := b }

/-- `basic_store::open` (basic_store.ipp 118-188). `emplace` (184) destroys the `state` that is there. -/
def openStore (stale : Bool) : HM Bool := do
  if ← recover stale .inner then
    scope [tvar .log, tvar .key, tvar .dat, lvar .log, lvar .key, lvar .dat] do
      openR stale (lvar .dat)
      openR stale (lvar .key)
      openR stale (lvar .log)
      uses (lvar .dat) [lvar .key]
      check
      moveState .local .temp
      check
      dropState .member
      moveState .temp .member
      setOpen true
  else pure false

/-- `fetch`, `insert` and `flush`: they use the files of the store (basic_store.ipp 222-480, 580-800). -/
def useStore : HM Bool := scope [] (uses (mvar .dat) [mvar .key, mvar .log])

/-- `basic_store::close` (basic_store.ipp 190-217), if the store is open. -/
def closeStore : HM Bool := do
  setOpen false
  -- commit, or an error that occurred before (199-209)
  if ← scope [] (do uses (mvar .dat) [mvar .key, mvar .log]; check) then
    closeF (mvar .log)
    scope [tvar .log, tvar .key, tvar .dat] do
      moveState .member .temp
      orRet (eraseF .log)
  else pure false

/-- `~basic_store` (basic_store.ipp 52-62). -/
def destroyStore : HM Bool := do
  if (← (fun w => .ok w.isOpen w : HM Bool)) then let _ ← closeStore
  dropState .member
  pure true

/-- Calls of an application that has one store and uses the files while the store is not open. -/
inductive Call
  | create | recover | rekey | visit | verify | «open» | use | close | destroy
deriving DecidableEq

/-- A call: whether it succeeded. The requirements of the documentation: `open` if the store is not open, `use` and `close` if
it is, the free functions if it is not. A call against them is not made; `close` of a store that is not open does nothing
(basic_store.ipp 194). -/
def call (stale : Bool) (c : Call) : HM Bool := fun w =>
  match c, w.isOpen with
  | .create, false => create stale w
  | .recover, false => recover stale .local w
  | .rekey, false => rekey stale w
  | .visit, false => visit stale w
  | .verify, false => verify stale w
  | .open, false => openStore stale w
  | .use, true => useStore w
  | .close, true => closeStore w
  | .close, false => .ok true w
  | .destroy, _ => destroyStore w
  | _, _ => .ok false w

/-- A sequence of calls, with the results. -/
def calls (stale : Bool) : List Call → HM (List (Call × Bool))
  | [] => pure []
  | c :: cs => do
    let b ← call stale c
    let r ← calls stale cs
    pure ((c, b) :: r)

/-- No file is open. -/
def W.init (dec : Nat → Nat) : W := ⟨fun _ => none, [], 0, dec, 0, false⟩

end NuDB.Handle
