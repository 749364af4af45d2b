import Verif.Model.Store
import Verif.Spec.Crash
/-
What a client of the store may observe: a mathematical map with a volatile part, together
with the executions of the modelled code. Nothing here mentions the layout of files.
-/
namespace NuDB.Spec

/-- A map from keys to values. -/
abbrev Map := Bytes → Option Bytes

def Map.empty : Map := fun _ => none

/-- The map with one more pair. -/
def Map.add (m : Map) (k v : Bytes) : Map := fun k' => if k' = k then some v else m k'

/-- Both maps together. -/
def Map.union (d b : Map) : Map := fun k => (d k).or (b k)

/-- Calls of a client. `flush` stands for the work of the background thread. -/
inductive Op
  | insert (key value : Bytes)
  | fetch (key : Bytes)
  | flush
  | close
  | open

/-- What a call reports. -/
inductive Ret
  | done
  | found (value : Bytes)
  | error (e : Err)
deriving DecidableEq

/-- Observations. `disturbed` tells that some file operation may have failed during the
call; `died` that the process ended during the call (and the machine perhaps, too). -/
inductive Label
  | call (op : Op) (ret : Ret) (disturbed : Bool)
  | died (op : Op)

/-- The abstract store. Open: the durable map and the pairs inserted since the last flush.
Failed: a flush failed; the files hold one of two maps. Closed: likewise. -/
inductive St
  | opened (d b : Map)
  | failed (m₀ m₁ : Map)
  | closed (m₀ m₁ : Map)

/-- What may happen. -/
inductive Step : St → Label → St → Prop
  | insertNew {d b k v x} (h : Map.union d b k = none) :
      Step (.opened d b) (.call (.insert k v) .done x) (.opened d (b.add k v))
  | insertOld {d b k v u x} (h : Map.union d b k = some u) :
      Step (.opened d b) (.call (.insert k v) (.error .key_exists) x) (.opened d b)
  | fetchHit {d b k v x} (h : Map.union d b k = some v) :
      Step (.opened d b) (.call (.fetch k) (.found v) x) (.opened d b)
  | fetchMiss {d b k x} (h : Map.union d b k = none) :
      Step (.opened d b) (.call (.fetch k) (.error .key_not_found) x) (.opened d b)
  | flush {d b x} :
      Step (.opened d b) (.call .flush .done x) (.opened (Map.union d b) Map.empty)
  | close {d b x} :
      Step (.opened d b) (.call .close .done x) (.closed (Map.union d b) (Map.union d b))
  | open₀ {m₀ m₁ x} : Step (.closed m₀ m₁) (.call .open .done x) (.opened m₀ Map.empty)
  | open₁ {m₀ m₁ x} : Step (.closed m₀ m₁) (.call .open .done x) (.opened m₁ Map.empty)
  /- failing file operations -/
  | insertErr {d b k v} :
      Step (.opened d b) (.call (.insert k v) (.error .io) true) (.opened d b)
  | fetchErr {d b k} : Step (.opened d b) (.call (.fetch k) (.error .io) true) (.opened d b)
  | flushErr {d b} :
      Step (.opened d b) (.call .flush (.error .io) true) (.failed d (Map.union d b))
  | closeErr {d b} :
      Step (.opened d b) (.call .close (.error .io) true) (.closed d (Map.union d b))
  | openErr {m₀ m₁} : Step (.closed m₀ m₁) (.call .open (.error .io) true) (.closed m₀ m₁)
  /- after a failed flush -/
  | dead {m₀ m₁ op x} (h : op ≠ .close) (h' : op ≠ .open) :
      Step (.failed m₀ m₁) (.call op (.error .io) x) (.failed m₀ m₁)
  | deadClose {m₀ m₁ x} : Step (.failed m₀ m₁) (.call .close (.error .io) x) (.closed m₀ m₁)
  /- crashes -/
  | die {d b op} : Step (.opened d b) (.died op) (.closed d (Map.union d b))
  | dieFailed {m₀ m₁ op} : Step (.failed m₀ m₁) (.died op) (.closed m₀ m₁)
  | dieClosed {m₀ m₁ op} : Step (.closed m₀ m₁) (.died op) (.closed m₀ m₁)

/-- Sequences of steps with their observations. -/
inductive Run {σ : Type} (step : σ → Label → σ → Prop) : σ → List Label → σ → Prop
  | nil (a : σ) : Run step a [] a
  | snoc {a b c : σ} {t : List Label} {l : Label} (h : Run step a t b) (h' : step b l c) :
      Run step a (t ++ [l]) c

/-- The code executed for a call. Calls that the state of the store does not permit (for
instance `fetch` on a closed store) are not made. -/
def perform (c : Cfg) : Op → Option Store → M (Option Store × Ret)
  | .insert k v, some s => do
    match ← M.attempt (insert c s k v) with
    | .ok s' => M.ret (some s', .done)
    | .error e => M.ret (some s, .error e)
  | .fetch k, some s => do
    match ← M.attempt (fetch c s k) with
    | .ok v => M.ret (some s, .found v)
    | .error e => M.ret (some s, .error e)
  | .flush, some s => do
    let s' ← flush c s
    match s'.ec with
    | none => M.ret (some s', .done)
    | some e => M.ret (some s', .error e)
  | .close, some s => do
    match ← close c s with
    | none => M.ret (none, .done)
    | some e => M.ret (none, .error e)
  | .open, none => do
    match ← M.attempt (openStore c) with
    | .ok s => M.ret (some s, .done)
    | .error e => M.ret (none, .error e)
  | _, _ => M.raise .abort

/-- Calls that a client may make: keys have the fixed size, values are not empty and
shorter than 4 GiB. -/
def Allowed (keySize : Nat) : Op → Option Store → Prop
  | .insert k v, some _ => k.length = keySize ∧ 1 ≤ v.length ∧ v.length < 2 ^ 32
  | .fetch k, some _ => k.length = keySize
  | .flush, some _ => True
  | .close, some _ => True
  | .open, none => True
  | _, _ => False

/-- `recover` mishandles a failing read of a log longer than its read buffer of 1024
blocks (see `Findings`). So either (`short`) logs are short because at most about 500
values are flushed at a time, or reads do not fail during `open`; crashes are always
considered. -/
structure Mild (blockSize : Nat) (short : Prop) (σ : Schedule) (op : Op) (so : Option Store) :
    Prop where
  reads : op = .open → (∀ i k, σ i ≠ .fail k) ∨ short
  log : short → ∀ s, so = some s → 2 * s.p1.length * (8 + blockSize) ≤ 1024 * blockSize

/-- Executions of the code: a client makes calls one after the other, files suffer from
arbitrary faults, and when the process dies the disk may hold any image that `Restart`
permits. -/
inductive Exec (c : Cfg) (keySize blockSize : Nat) (short : Prop) :
    Option Store × Fs → Label → Option Store × Fs → Prop
  | call {so so' fs w' op ret x} {w : World} (σ : Schedule)
      (ha : Allowed keySize op so) (hm : Mild blockSize short σ op so) (hw : w.fs = fs)
      (h : perform c op so σ w = (.ok (so', ret), w'))
      (hx : x = false → ∀ i, σ i = .none) :
      Exec c keySize blockSize short (so, fs) (.call op ret x) (so', w'.fs)
  | died {so fs fs' w' op e} {w : World} (σ : Schedule)
      (ha : Allowed keySize op so) (hm : Mild blockSize short σ op so) (hw : w.fs = fs)
      (h : perform c op so σ w = (.error e, w')) (he : e = .crash ∨ e = .abort)
      (hr : Restart w'.fs fs') :
      Exec c keySize blockSize short (so, fs) (.died op) (none, fs')

/-- The pairs inserted during a sequence of calls. -/
def inserted (t : List Label) : List (Bytes × Bytes) :=
  t.filterMap (fun
    | .call (.insert k v) .done _ => some (k, v)
    | _ => none)

/-- Bytes of the records of some pairs. -/
def volume (ps : List (Bytes × Bytes)) : Nat := (ps.map (fun p => 6 + p.1.length + p.2.length)).sum

/-- The pairs certainly fit into the 48-bit offsets of the file format, whatever the hash
function. -/
def Fits (blockSize : Nat) (ps : List (Bytes × Bytes)) : Prop :=
  100 + volume ps + ps.length * (ps.length + 1) * (8 + blockSize) < 2 ^ 48 ∧ ps.length < 2 ^ 32

/-- Arguments of `create` that the documentation permits, with the resulting load factor in
units of 1/65536. -/
structure Creatable (a : CreateArgs) (lf : Nat) : Prop where
  uid : a.uid < 2 ^ 64
  appnum : a.appnum < 2 ^ 64
  salt : a.salt < 2 ^ 64
  key : 1 ≤ a.keySize ∧ a.keySize < 2 ^ 16
  block : 104 ≤ a.blockSize ∧ a.blockSize < 2 ^ 16
  load : ∃ num den, a.load = .rat num den ∧ 0 < num ∧ num < den ∧ lf = 65536 * num.toNat / den
  /-- `create` accepts smaller load factors, too, but the database cannot be opened then
  (see `Findings`). -/
  lf : 1 ≤ lf

/-- States reached from a freshly created database, with the observations on the way. -/
def Reachable (c : Cfg) (a : CreateArgs) (short : Prop) (t : List Label)
    (sys : Option Store × Fs) : Prop :=
  ∃ (σ : Schedule) (asserts : Bool) (w₀ w₁ : World), (∀ p, w₀.fs p = none) ∧
    create c asserts a σ w₀ = (.ok (), w₁) ∧
    Run (Exec c a.keySize a.blockSize short) (none, w₁.fs) t sys

/-- Some file operation fails or the process dies. -/
def Disturbed (σ : Schedule) : Prop := ∃ i, σ i ≠ .none

/-- Observations after which everything inserted before is still there: everything but
death, a failing flush and a failing close. -/
def Kept : Label → Prop
  | .call .flush r _ => r = .done
  | .call .close r _ => r = .done
  | .call _ _ _ => True
  | .died _ => False

/-- What a lookup in an undisturbed environment reports for every key. -/
def Lookups (c : Cfg) (keySize : Nat) (s : Store) (fs : Fs) (m : Map) : Prop :=
  ∀ (w : World), w.fs = fs → ∀ k : Bytes, k.length = keySize →
    (fetch c s k calm w).1 = match m k with
      | some v => .ok v
      | none => .error (.err .key_not_found)

/-- The files hold exactly the map `m`: undisturbed, `recover` succeeds, then `open`
succeeds, and then lookups answer as `m` says. -/
def Answers (c : Cfg) (keySize : Nat) (fs : Fs) (m : Map) : Prop :=
  ∃ w₁ s w₂, recover c calm ⟨fs, 0, []⟩ = (.ok (), w₁) ∧
    openStore c calm w₁ = (.ok s, w₂) ∧ Lookups c keySize s w₂.fs m

/-- Attempts at recovery, each of which may be hit by faults or by a crash and is then
followed by a restart. `Mild` explains the restriction on failing reads. -/
inductive Attempts (c : Cfg) (short : Prop) : Fs → Fs → Prop
  | none (fs : Fs) : Attempts c short fs fs
  | more {fs fs₁ fs₂ : Fs} {w w' : World} {r : Except Exc Unit} (h : Attempts c short fs fs₁)
      (σ : Schedule) (hσ : (∀ i k, σ i ≠ .fail k) ∨ short) (hw : w.fs = fs₁)
      (hr : recover c σ w = (r, w')) (hs : Restart w'.fs fs₂) : Attempts c short fs fs₂

/-- The current bytes of a file. -/
def bytesOf (fs : Fs) (p : Path) : Option Bytes := (fs p).map FileSt.cur

/-- A client that makes some calls, one after the other. -/
def runOps (c : Cfg) : List Op → Option Store → M (List Ret × Option Store)
  | [], so => M.ret ([], so)
  | op :: ops, so => do
    let (so', r) ← perform c op so
    let (rs, so'') ← runOps c ops so'
    M.ret (r :: rs, so'')

/-- The answers of a map to these calls; `open` tells whether the store is open. `none` if
a call is not permitted. -/
def mapOps : List Op → (isOpen : Bool) → Map → Option (List Ret)
  | [], _, _ => some []
  | .insert k v :: ops, true, m =>
    match m k with
    | none => (mapOps ops true (m.add k v)).map (.done :: ·)
    | some _ => (mapOps ops true m).map (.error .key_exists :: ·)
  | .fetch k :: ops, true, m =>
    match m k with
    | none => (mapOps ops true m).map (.error .key_not_found :: ·)
    | some v => (mapOps ops true m).map (.found v :: ·)
  | .flush :: ops, true, m => (mapOps ops true m).map (.done :: ·)
  | .close :: ops, true, m => (mapOps ops false m).map (.done :: ·)
  | .open :: ops, false, m => (mapOps ops true m).map (.done :: ·)
  | _ :: _, _, _ => none

/-- Arguments of the right size. -/
def Op.Sound (keySize : Nat) : Op → Prop
  | .insert k v => k.length = keySize ∧ 1 ≤ v.length ∧ v.length < 2 ^ 32
  | .fetch k => k.length = keySize
  | _ => True

/-- The pairs that some calls try to insert. -/
def attempted (ops : List Op) : List (Bytes × Bytes) :=
  ops.filterMap (fun
    | .insert k v => some (k, v)
    | _ => none)

end NuDB.Spec
