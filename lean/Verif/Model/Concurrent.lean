import Verif.Model.Prog
/-
Interleavings of `fetch` and `insert` calls of any number of threads with the flush of the
context's worker (impl/basic_store.ipp 220-454, 580-804, detail/gentex.hpp).

One step of the model is one file operation, one section under the exclusive lock on `m_`,
or the part of a call between acquiring and releasing a lock that uses no file. Reads and
writes of files by different threads overlap: a write of the flusher becomes visible in
portions of arbitrary size (`Act.part`), and readers may read between any two portions.

Assumed: the mutexes (`m_` shared/exclusive, `u_`, the one inside `gentex`) and the
condition variable behave as specified by the standard; at most one flush of a store runs
at a time (theorems C40); the counters of `gentex` do not overflow; the store is not
opened or closed during the execution.
-/
namespace NuDB.Conc

/-- The calls. -/
inductive COp
  | fetch (k : Bytes)
  | insert (k v : Bytes)
deriving DecidableEq

/-- Their results: `fetch` called its callback with a value, `insert` returned without
error, or an error code. -/
inductive CRet
  | found (v : Bytes)
  | done
  | error (e : Err)
deriving DecidableEq

/-- What happens in an execution: a thread calls and returns; `added` marks the moment when
`insert` puts the item into the pool (basic_store.ipp 337). -/
inductive Ev
  | call (t : Nat) (op : COp)
  | ret (t : Nat) (r : CRet)
  | added (t : Nat) (k v : Bytes)
deriving DecidableEq

/-- Program counter of a thread in `fetch` or `insert`. -/
inductive Pc
  /-- not in a call -/
  | out
  /-- all locks released; about to return -/
  | ret (r : CRet)
  /-- `fetch` before testing `ecb_` (line 231) -/
  | fetch0 (key : Bytes)
  /-- `fetch` before locking `m_` (line 238) -/
  | fetch1 (key : Bytes)
  /-- `fetch` in the bucket `blob` with index `n` of `c1`, holding `m_` shared (line 254) -/
  | fetchC (key : Bytes) (n : Nat) (blob : Bytes) (p : Prog Bytes)
  /-- `fetch` reading bucket `n` from the key file, holding generation `g` (line 256-263) -/
  | fetchK (key : Bytes) (n g : Nat) (p : Prog Bytes)
  /-- `insert` before testing `ecb_` (line 278) -/
  | ins0 (k v : Bytes)
  /-- `insert` before locking `u_` (line 288) -/
  | ins1 (k v : Bytes)
  /-- `insert` holding `u_`, before locking `m_` (line 290) -/
  | ins2 (k v : Bytes)
  /-- `insert` in the first bucket of `exists`, taken from `c1`, holding `m_` shared
  (line 301-302); `rest` is the remainder of `exists` -/
  | insC (k v : Bytes) (n : Nat) (blob : Bytes) (p : Prog Bool) (rest : Prog Bool)
  /-- `insert` in the further buckets of `exists`, `m_` released -/
  | insS (k v : Bytes) (p : Prog Bool)
  /-- `insert` reading bucket `n` from the key file, holding generation `g` (line 316-325) -/
  | insK (k v : Bytes) (n g : Nat) (p : Prog Bool)
  /-- `insert` before locking `m_` exclusively (line 336) -/
  | ins3 (k v : Bytes)

/-- Program counter of the flusher. -/
inductive FPc
  /-- no flush running -/
  | idle
  /-- `commit` until the new buckets are published (line 591-694) -/
  | prep (p : Prog Work)
  /-- writing the log (line 703-727), then waiting for readers (line 728) -/
  | log (p : Prog Unit)
  /-- writing the key file and completing (line 730-749) -/
  | keys (p : Prog Unit)

/-- `gentex_t` (gentex.hpp 22-48). -/
structure Gentex where
  gen : Nat
  cur : Nat
  prev : Nat

namespace Gentex

/-- `start` (gentex.hpp 50-59). -/
def start (g : Gentex) : Gentex := { gen := g.gen + 1, cur := 0, prev := g.prev + g.cur }

/-- `lock_gen` (gentex.hpp 71-80); the returned generation is `gen`. -/
def lock (g : Gentex) : Gentex := { g with cur := g.cur + 1 }

/-- `unlock_gen` (gentex.hpp 82-98). -/
def unlock (g : Gentex) (gen : Nat) : Gentex :=
  if gen = g.gen then { g with cur := g.cur - 1 } else { g with prev := g.prev - 1 }

end Gentex

/-- The whole system. `shared` are the threads holding `m_` shared, `owner` the thread
holding `u_`. Sections with `m_` held exclusively are single steps. `wr` is how many bytes
of the flusher's current write have been written already. -/
structure Sys where
  fs : Fs
  s : Store
  shared : List Nat
  owner : Option Nat
  g : Gentex
  fl : FPc
  wr : Nat
  pc : Nat → Pc

/-- Put a thread to a new place. -/
def Sys.goto (x : Sys) (t : Nat) (q : Pc) : Sys := { x with pc := fun u => if u = t then q else x.pc u }

/-- Release `m_` held shared. -/
def Sys.unshare (x : Sys) (t : Nat) : Sys := { x with shared := x.shared.erase t }

/-- Release `u_`. -/
def Sys.release (x : Sys) : Sys := { x with owner := none }

/-- Release a generation. -/
def Sys.leave (x : Sys) (g : Nat) : Sys := { x with g := x.g.unlock g }

/-- The files as other threads see them while the flusher's current operation is in
progress. -/
def Sys.seen (x : Sys) : Fs :=
  match x.fl with
  | .idle => x.fs
  | .prep p => (p.step (.crash x.wr) x.fs).2
  | .log p => (p.step (.crash x.wr) x.fs).2
  | .keys p => (p.step (.crash x.wr) x.fs).2

/-- A step of a thread that only reads. `none` for any other operation. -/
def readStep (f : Fault) (fs : Fs) : Prog α → Option (Prog α)
  | .read p off n k => some (Prog.step f (.read p off n k) fs).1
  | _ => none

/-- See `lookupFuel`. -/
def fuelOf (fs : Fs) : Nat := match fs .dat with | some f => f.cur.length + 2 | none => 2

/-- What the environment decides: a thread calls, a thread makes a step (with a fault of
the file operation if it performs one), a flush starts, the flusher makes a step, the
current write of the flusher proceeds to `j` bytes. -/
inductive Act
  | call (t : Nat) (op : COp)
  | go (t : Nat) (f : Fault)
  | flush
  | goF (f : Fault)
  | part (j : Nat)

/-- The arguments the documentation allows (basic_store.hpp 356-410). -/
def Legal (s : Store) : COp → Bool
  | .fetch k => k.length == s.kh.keySize
  | .insert k v => k.length == s.kh.keySize && 1 ≤ v.length && v.length ≤ 0xffffffff

/-- Bucket of a key from the key file, then `fetch` in it (basic_store.ipp 257-263). -/
def fetchDiskP (c : Cfg) (s : Store) (key : Bytes) (fuel n : Nat) : Prog Bytes := do
  let b ← Prog.lift (Bkt.ofMem s.kh.blockSize (c.fresh s.kh.blockSize))
  let b ← b.readFileP .key ((n + 1) * s.kh.blockSize)
  fetchBucketP c s.kh (hashKey c.H s.kh.salt key) key fuel b

/-- Bucket of a key from the cache, then `fetch` in it (basic_store.ipp 254). -/
def fetchCacheP (c : Cfg) (s : Store) (key : Bytes) (fuel : Nat) (blob : Bytes) : Prog Bytes := do
  let b ← Prog.lift (Bkt.ofMem s.kh.blockSize blob)
  fetchBucketP c s.kh (hashKey c.H s.kh.salt key) key fuel b

/-- Bucket of a key from the key file, then `exists` in it (basic_store.ipp 318-325). -/
def existsDiskP (c : Cfg) (s : Store) (key : Bytes) (fuel n : Nat) : Prog Bool := do
  let b ← Prog.lift (Bkt.ofMem s.kh.blockSize (c.fresh s.kh.blockSize))
  let b ← b.readFileP .key ((n + 1) * s.kh.blockSize)
  existsBucketP c s.kh (hashKey c.H s.kh.salt key) key fuel b

/-- The first iteration of `exists` in a bucket of the cache (basic_store.ipp 301). -/
def existsCacheP (c : Cfg) (s : Store) (key : Bytes) (blob : Bytes) : Prog Bool := do
  let b ← Prog.lift (Bkt.ofMem s.kh.blockSize blob)
  existsFirstP s.kh (hashKey c.H s.kh.salt key) key b

/-- The further iterations (basic_store.ipp 443-451). -/
def existsMoreP (c : Cfg) (s : Store) (key : Bytes) (fuel : Nat) (blob : Bytes) : Prog Bool := do
  let b ← Prog.lift (Bkt.ofMem s.kh.blockSize blob)
  existsRestP c s.kh (existsBucketP c s.kh (hashKey c.H s.kh.salt key) key (fuel - 1)) b.spill

/-- `fetch` with `m_` locked shared, until it is released or a file is used
(basic_store.ipp 238-256). -/
def fetchLocked (c : Cfg) (x : Sys) (t : Nat) (key : Bytes) : Option Sys :=
  match x.s.p1.find key with
  | some it => some (x.goto t (.ret (.found it.data)))
  | none =>
  match x.s.p0.find key with
  | some it => some (x.goto t (.ret (.found it.data)))
  | none =>
  match bucketIndexA (hashKey c.H x.s.kh.salt key) x.s.buckets x.s.modulus with
  | .error _ => none
  | .ok n =>
    let fuel := fuelOf x.fs
    match x.s.c1.find n with
    | some blob =>
      some ({ x with shared := t :: x.shared }.goto t (.fetchC key n blob (fetchCacheP c x.s key fuel blob)))
    | none =>
      some ({ x with g := x.g.lock }.goto t (.fetchK key n x.g.gen (fetchDiskP c x.s key fuel n)))

/-- `insert` with `u_` and `m_` locked, until `m_` is released or a file is used
(basic_store.ipp 290-317). -/
def insertLocked (c : Cfg) (x : Sys) (t : Nat) (k v : Bytes) : Option Sys :=
  if (x.s.p1.find k).isSome || (x.s.p0.find k).isSome then
    some (x.release.goto t (.ret (.error .key_exists)))
  else
  match bucketIndexA (hashKey c.H x.s.kh.salt k) x.s.buckets x.s.modulus with
  | .error _ => none
  | .ok n =>
    let fuel := fuelOf x.fs
    match x.s.c1.find n with
    | some blob =>
      some ({ x with shared := t :: x.shared }.goto t
        (.insC k v n blob (existsCacheP c x.s k blob) (existsMoreP c x.s k fuel blob)))
    | none =>
      some ({ x with g := x.g.lock }.goto t (.insK k v n x.g.gen (existsDiskP c x.s k fuel n)))

/-- A step of thread `t`. A failed assertion, undefined behaviour or a crash have no
successor. -/
def threadStep (c : Cfg) (x : Sys) (t : Nat) (f : Fault) : Option (Sys × List Ev) :=
  match x.pc t with
  | .out => none
  | .ret r => some (x.goto t .out, [.ret t r])
  | .fetch0 key =>
    match x.s.ec with
    | some e => some (x.goto t (.ret (.error e)), [])
    | none => some (x.goto t (.fetch1 key), [])
  | .fetch1 key => (fetchLocked c x t key).map (·, [])
  | .fetchC key n blob p =>
    match p with
    | .ret v => some ((x.unshare t).goto t (.ret (.found v)), [])
    | .raise (.err e) => some ((x.unshare t).goto t (.ret (.error e)), [])
    | p => (readStep f x.seen p).map (fun q => (x.goto t (.fetchC key n blob q), []))
  | .fetchK key n g p =>
    match p with
    | .ret v => some ((x.leave g).goto t (.ret (.found v)), [])
    | .raise (.err e) => some ((x.leave g).goto t (.ret (.error e)), [])
    | p => (readStep f x.seen p).map (fun q => (x.goto t (.fetchK key n g q), []))
  | .ins0 k v =>
    match x.s.ec with
    | some e => some (x.goto t (.ret (.error e)), [])
    | none => some (x.goto t (.ins1 k v), [])
  | .ins1 k v =>
    match x.owner with
    | some _ => none
    | none => some ({ x with owner := some t }.goto t (.ins2 k v), [])
  | .ins2 k v => (insertLocked c x t k v).map (·, [])
  | .insC k v n blob p rest =>
    match p with
    | .ret true => some ((x.unshare t).release.goto t (.ret (.error .key_exists)), [])
    | .ret false => some ((x.unshare t).goto t (.insS k v rest), [])
    | .raise (.err e) => some ((x.unshare t).release.goto t (.ret (.error e)), [])
    | p => (readStep f x.seen p).map (fun q => (x.goto t (.insC k v n blob q rest), []))
  | .insS k v p =>
    match p with
    | .ret true => some (x.release.goto t (.ret (.error .key_exists)), [])
    | .ret false => some (x.goto t (.ins3 k v), [])
    | .raise (.err e) => some (x.release.goto t (.ret (.error e)), [])
    | p => (readStep f x.seen p).map (fun q => (x.goto t (.insS k v q), []))
  | .insK k v n g p =>
    match p with
    | .ret true => some ((x.leave g).release.goto t (.ret (.error .key_exists)), [])
    | .ret false => some ((x.leave g).goto t (.ins3 k v), [])
    | .raise (.err e) => some ((x.leave g).release.goto t (.ret (.error e)), [])
    | p => (readStep f x.seen p).map (fun q => (x.goto t (.insK k v n g q), []))
  | .ins3 k v =>
    if x.shared = [] then
      match x.s.p1.insert ⟨hashKey c.H x.s.kh.salt k, k, v⟩ with
      | .error _ => none
      | .ok p1 => some ({ x with s := { x.s with p1 := p1 } }.release.goto t (.ret .done), [.added t k v])
    else none

/-- `flush` until `m_` is released (basic_store.ipp 768-771, 589-590). -/
def flushStart (c : Cfg) (x : Sys) : Option Sys :=
  match x.fl with
  | .idle =>
    if x.shared = [] then
      if x.s.p1.isEmpty then some x
      else
        let s := { x.s with p0 := x.s.p1, p1 := x.s.p0 }
        some { x with s := s, fl := .prep (commitPrepareP c s), wr := 0 }
    else none
  | _ => none

/-- The flush failed (basic_store.ipp 775-779). -/
def Sys.broken (x : Sys) (e : Err) : Sys := { x with s := { x.s with ec := some e }, fl := .idle, wr := 0 }

/-- A step of the flusher. -/
def flusherStep (c : Cfg) (x : Sys) (f : Fault) : Option Sys :=
  match x.fl with
  | .idle => none
  | .prep p =>
    match p with
    | .ret w =>
      -- basic_store.ipp 695-701
      if x.shared = [] then
        some { x with
          s := { x.s with c1 := w.c1, p0 := [], buckets := w.buckets, modulus := w.modulus, frac := w.frac }
          g := x.g.start
          fl := .log (commitLogP c x.s.kh.blockSize w.c0)
          wr := 0 }
      else none
    | .raise (.err e) => some (x.broken e)
    | .raise _ => none
    | p => let r := p.step f x.fs; some { x with fs := r.2, fl := .prep r.1, wr := 0 }
  | .log p =>
    match p with
    | .ret _ =>
      -- `g_.finish()` returns when no reader of an older generation is left
      if x.g.prev = 0 then some { x with fl := .keys (commitKeysP c x.s.kh.blockSize x.s.c1), wr := 0 }
      else none
    | .raise (.err e) => some (x.broken e)
    | .raise _ => none
    | p => let r := p.step f x.fs; some { x with fs := r.2, fl := .log r.1, wr := 0 }
  | .keys p =>
    match p with
    | .ret _ =>
      -- basic_store.ipp 753-754
      if x.shared = [] then some { x with s := { x.s with c1 := [] }, fl := .idle, wr := 0 }
      else none
    | .raise (.err e) => some (x.broken e)
    | .raise _ => none
    | p => let r := p.step f x.fs; some { x with fs := r.2, fl := .keys r.1, wr := 0 }

/-- Not a crash. -/
def Fault.mild : Fault → Bool
  | .crash _ => false
  | _ => true

/-- One step of the system: the new state and the events. -/
def step (c : Cfg) (x : Sys) : Act → Option (Sys × List Ev)
  | .call t op =>
    match x.pc t with
    | .out =>
      if Legal x.s op then
        match op with
        | .fetch k => some (x.goto t (.fetch0 k), [.call t op])
        | .insert k v => some (x.goto t (.ins0 k v), [.call t op])
      else none
    | _ => none
  | .go t f => if Fault.mild f then threadStep c x t f else none
  | .flush => (flushStart c x).map (·, [])
  | .goF f => if Fault.mild f then (flusherStep c x f).map (·, []) else none
  | .part j => if x.wr ≤ j then some ({ x with wr := j }, []) else none

/-- The system when a store `s` has been opened on the files `fs` and no thread uses it
yet. -/
def Sys.init (s : Store) (fs : Fs) : Sys :=
  { fs := fs, s := s, shared := [], owner := none, g := ⟨0, 0, 0⟩, fl := .idle, wr := 0, pc := fun _ => .out }

/-- Executing a list of actions, the events collected. -/
def run (c : Cfg) : List Act → Sys → Option (Sys × List Ev)
  | [], x => some (x, [])
  | a :: rest, x =>
    match step c x a with
    | none => none
    | some (y, es) => (run c rest y).map (fun r => (r.1, es ++ r.2))

end NuDB.Conc
