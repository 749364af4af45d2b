import Verif.Model.Concurrent
import Verif.Spec.History
/-
What clients of a store shared by several threads may observe. `Ev` and `Act` are from
Model/Concurrent: the events are calls, returns, and the moments at which an `insert` takes
effect.
-/
namespace NuDB.Spec

open Conc

/-- The thread of an event. -/
def thread : Ev → Nat
  | .call t _ => t
  | .ret t _ => t
  | .added t _ _ => t

/-- The pairs present after the events `tr`: the initial ones and the ones added. -/
def contents (m : Map) : List Ev → Map
  | [] => m
  | .added _ k v :: tr => contents (m.add k v) tr
  | _ :: tr => contents m tr

/-- Thread `t` neither calls nor returns. -/
def Inside (t : Nat) (tr : List Ev) : Prop :=
  ∀ e ∈ tr, (∀ op, e ≠ .call t op) ∧ ∀ r, e ≠ .ret t r

/-- Thread `t` does nothing observable. -/
def Silent (t : Nat) (tr : List Ev) : Prop := ∀ e ∈ tr, thread e ≠ t

/-- A call that returned: before it happened `pre`, during it `mid`, after it `post`. -/
def Call (tr : List Ev) (t : Nat) (op : COp) (r : CRet) (pre mid post : List Ev) : Prop :=
  tr = pre ++ .call t op :: (mid ++ .ret t r :: post) ∧ Inside t mid

/-- The map `m` gives the answer `r` to `op` without being changed. -/
def Answer (m : Map) : COp → CRet → Prop
  | .fetch k, r => r = match m k with | some v => .found v | none => .error .key_not_found
  | .insert k _, r => r = .error .key_exists ∧ m k ≠ none

/-- The result `r` of a call is right, if `pre` happened before the call and `mid` during
the call: at some moment of the call the map answered so, or at some moment the call added
its pair, which was not there before. `fault` tells that a file operation failed. -/
inductive Right (m : Map) (fault : Prop) (t : Nat) (op : COp) (r : CRet) (pre mid : List Ev) : Prop
  | answer (mid₁ mid₂ : List Ev) (h : mid = mid₁ ++ mid₂) (hs : Silent t mid)
      (ha : Answer (contents m (pre ++ .call t op :: mid₁)) op r)
  | added (k v : Bytes) (mid₁ mid₂ : List Ev) (h : mid = mid₁ ++ .added t k v :: mid₂)
      (h₁ : Silent t mid₁) (h₂ : Silent t mid₂) (ho : op = .insert k v) (hr : r = .done)
      (ha : contents m (pre ++ .call t op :: mid₁) k = none)
  | failed (hs : Silent t mid) (hr : r = .error .io) (hf : fault)

/-- Every call has returned. -/
def Complete (tr : List Ev) : Prop :=
  ∀ t op pre rest, tr = pre ++ .call t op :: rest → ∃ r mid post, Call tr t op r pre mid post

/-- A pair is added only by a thread inside a call of `insert` with this pair, and only if
the key was absent. -/
def Owned (m : Map) (tr : List Ev) : Prop :=
  ∀ pre t k v post, tr = pre ++ .added t k v :: post →
    contents m pre k = none ∧
    ∃ pre' mid, pre = pre' ++ .call t (.insert k v) :: mid ∧ Silent t mid

/-- The action makes a file operation fail. -/
def Act.Faulty : Act → Prop
  | .go _ f => f ≠ .none
  | .goF f => f ≠ .none
  | _ => False

/-- Some file operation fails. -/
def Faults (acts : List Act) : Prop := ∃ a ∈ acts, Act.Faulty a

/-- A freshly opened store, or one that was used by a single thread so far and has just been
flushed, with the pairs `m`. -/
structure Started (c : Cfg) (a : CreateArgs) (short : Prop) (s : Store) (fs : Fs) (m : Map) : Prop where
  reach : ∃ t, Reachable c a short t (some s, fs)
  ok : s.ec = none
  flushed : s.p1 = []
  pairs : Lookups c a.keySize s fs m

/-- `now` happened before some flush started. -/
def Began (c : Cfg) (acts : List Act) (x : Sys) (now : List Ev) : Prop :=
  ∃ acts₁ acts₂ x₁, acts = acts₁ ++ .flush :: acts₂ ∧ run c acts₁ x = some (x₁, now)

/-- `kept` happened before a flush started that has completed without an error. -/
def Completed (c : Cfg) (acts : List Act) (x : Sys) (kept : List Ev) : Prop :=
  ∃ acts₁ acts₂ acts₃ x₁ x₂ tr₂, acts = acts₁ ++ .flush :: (acts₂ ++ acts₃) ∧ run c acts₁ x = some (x₁, kept) ∧
    run c (.flush :: acts₂) x₁ = some (x₂, tr₂) ∧ x₂.fl = .idle ∧ x₂.s.ec = none

/-- The next operation of a program reads the bytes from `off` to `off + n` of the key file. -/
inductive ReadsKey : Prog α → (off n : Nat) → Prop
  | read {off n k} : ReadsKey (.read .key off n k) off n

/-- The next operation of a program may change the bytes from `off` to `off + n` of the key
file. -/
inductive ChangesKey : Prog α → (off n : Nat) → Prop
  | write {off b k} : ChangesKey (.write .key off b k) off b.length
  | append {off b k} : ChangesKey (.append .key off b k) off b.length
  | trunc {size k off n} : ChangesKey (.trunc .key size k) off n

/-- Thread `t` is reading these bytes of the key file. -/
inductive Reading (x : Sys) (t : Nat) (off n : Nat) : Prop
  | fetchC {k b blob p} (h : x.pc t = .fetchC k b blob p) (hp : ReadsKey p off n)
  | fetchK {k b g p} (h : x.pc t = .fetchK k b g p) (hp : ReadsKey p off n)
  | insC {k v b blob p rest} (h : x.pc t = .insC k v b blob p rest) (hp : ReadsKey p off n)
  | insS {k v p} (h : x.pc t = .insS k v p) (hp : ReadsKey p off n)
  | insK {k v b g p} (h : x.pc t = .insK k v b g p) (hp : ReadsKey p off n)

/-- The flusher is changing these bytes of the key file. -/
inductive Changing (x : Sys) (off n : Nat) : Prop
  | prep {p} (h : x.fl = .prep p) (hp : ChangesKey p off n)
  | log {p} (h : x.fl = .log p) (hp : ChangesKey p off n)
  | keys {p} (h : x.fl = .keys p) (hp : ChangesKey p off n)

/-- Thread `t` is looking for its key in a bucket from the key file and was given the
generation `g` when it started to. -/
inductive Holding (x : Sys) (t g : Nat) : Prop
  | fetch {k n p} (h : x.pc t = .fetchK k n g p)
  | insert {k v n p} (h : x.pc t = .insK k v n g p)

/-- The flusher waits for readers before it changes the key file. -/
def Waiting (c : Cfg) (x : Sys) : Prop :=
  (∃ u, x.fl = .log (.ret u)) ∧ step c x (.goF .none) = none

end NuDB.Spec
