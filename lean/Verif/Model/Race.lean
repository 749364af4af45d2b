import Verif.Spec.Race
/-
Which memory `fetch`, `insert`, `set_burst`, the observers and the flush by a context access, under
which locks (impl/basic_store.ipp 62-115, 220-466, 580-804, impl/context.ipp flush_one,
detail/gentex.hpp). Every access is a step of its own, so that accesses of different threads are
interleaved without restriction other than by the locks.

Decisions that depend on data (is the key in the pool, did a file operation fail, how many rounds
has a loop) are left open (`Sk.pick`), so the model has more executions than the program, except
that tests of `ecb_` and `ec_` are exact. Left out are memory that only one thread can reach (local
variables and buffers, the cache `c0`) and files; the allocator is assumed to order the release of
memory before its reuse. A store is opened before and closed after the execution.
-/
namespace NuDB.Race

/-- The mutexes: `m_` and `u_` of the store, the one in `g_` (gentex.hpp 25), the one of the context. -/
inductive Mu
  | m | u | g | ctx
deriving DecidableEq, Repr

/-- Members of the store. `kh` stands for all that is constant between `open` and `close`: `kh`, `hasher`,
paths, file objects, `thresh_`, `dataWriteSize_`, `logWriteSize_`, `ctx_`. `buckets` are `buckets_` and
`modulus_`; `p0`, `p1`, `c1` the objects with arena, sizes and head of the map; `when` is `when` and `rate`;
`gen` the counters of `g_`; `list` the lists of the context and the links and `state_` in the store. -/
inductive Fld
  | open_ | kh | buckets | frac | p0 | p1 | c1 | ec | when | burst | gen | list
deriving DecidableEq, Repr

/-- Memory locations. The two pools exchange their contents, so the contents have names of their own
(`false` and `true`): `first` are the tree and the items with key, data, hash and size, `second`
the offsets stored with them (pool.hpp 31-32). Likewise caches are numbered: `blocks` are the table and
the buckets up to `actual_size`, `pad` the rest of the blocks. -/
inductive Loc
  | fld (f : Fld)
  | first (pool : Bool)
  | second (pool : Bool)
  | blocks (cache : Nat)
  | pad (cache : Nat)
deriving DecidableEq, Repr

/-- Locations as the code names them: the contents of `p0` and `p1`, of the local cache `c1` of `commit`
(`own`) and of the member `c1` (`pub`). -/
inductive Var
  | fld (f : Fld)
  | first0 | first1 | second0 | second1
  | own | pub | padOwn | padPub
deriving DecidableEq, Repr

/-- Single steps of a thread. The last five have no effect on memory of their own; they keep track of
contents: exchange of `p0` and `p1`, construction of the local cache, exchange of the caches, and the
removal of the store from the list of stores to flush and its return. -/
inductive Op
  | rd (v : Var) | wr (v : Var)
  | lock (m : Mu) (k : Mode) | unlock (m : Mu) (k : Mode)
  /-- assignment of an error to `ec_` -/
  | fail
  /-- `ecb_.store(true)` -/
  | store
  | swapPools | newCache | publish | take | put
deriving DecidableEq, Repr

/-- The steps of a call. -/
inductive Sk
  | done
  | op (o : Op) (k : Sk)
  /-- `if(ecb_)` -/
  | load (k : Bool → Sk)
  /-- `if(ec_)` -/
  | test (k : Bool → Sk)
  /-- a decision -/
  | pick (k : Nat → Sk)

/-- Several steps. -/
def Sk.ops : List Op → Sk → Sk
  | [], k => k
  | o :: l, k => .op o (Sk.ops l k)

/-- Two possibilities. -/
def Sk.either (a b : Sk) : Sk := .pick (fun n => if n = 0 then a else b)

/-- A loop with `n` rounds. -/
def Sk.rounds (body : Sk → Sk) : Nat → Sk → Sk
  | 0, k => k
  | n + 1, k => body (Sk.rounds body n k)

/-- A loop. -/
def Sk.loop (body : Sk → Sk) (k : Sk) : Sk := .pick (fun n => Sk.rounds body n k)

/-- `genlock` is constructed (gentex.hpp 71-80). -/
def genLock (k : Sk) : Sk := .ops [.lock .g .excl, .wr (.fld .gen), .unlock .g .excl] k

/-- `genlock` is destroyed (gentex.hpp 82-98). -/
def genUnlock (k : Sk) : Sk := .ops [.lock .g .excl, .wr (.fld .gen), .unlock .g .excl] k

/-- `fetch` (basic_store.ipp 220-264 and 351-398). -/
def fetchSk : Sk :=
  .op (.rd (.fld .open_)) <| .load fun b =>
  if b then .ops [.rd (.fld .ec)] .done
  else .ops [.rd (.fld .kh), .lock .m .shared, .rd (.fld .p1), .rd .first1] <|
    -- the callback is called with the item of `p1` (line 248)
    .either (.ops [.rd .first1, .unlock .m .shared] .done) <|
    .ops [.rd (.fld .p0), .rd .first0] <|
    .either (.ops [.rd .first0, .unlock .m .shared] .done) <|
    .ops [.rd (.fld .buckets), .rd (.fld .c1), .rd .pub] <|
    .either
      -- line 254; the loops read the first bucket under the lock
      (.loop (fun k => .ops [.rd .pub, .rd (.fld .kh)] k) (.ops [.unlock .m .shared] .done))
      -- line 255-263
      (genLock <| .ops [.unlock .m .shared] <| .loop (fun k => .ops [.rd (.fld .kh)] k) <| genUnlock .done)

/-- The end of `insert` (basic_store.ipp 335-349). -/
def insertEnd : Sk :=
  .ops [.lock .m .excl, .wr (.fld .p1), .wr .first1, .wr .second1, .rd (.fld .when), .rd (.fld .p1),
    .rd (.fld .kh), .rd (.fld .burst), .unlock .m .excl, .unlock .u .excl] .done

/-- `insert` (basic_store.ipp 266-349, `exists` 400-454). -/
def insertSk : Sk :=
  .op (.rd (.fld .open_)) <| .load fun b =>
  if b then .ops [.rd (.fld .ec)] .done
  else .ops [.rd (.fld .kh), .lock .u .excl, .lock .m .shared, .rd (.fld .p1), .rd .first1] <|
    .either (.ops [.unlock .m .shared, .unlock .u .excl] .done) <|
    .ops [.rd (.fld .p0), .rd .first0] <|
    .either (.ops [.unlock .m .shared, .unlock .u .excl] .done) <|
    .ops [.rd (.fld .buckets), .rd (.fld .c1), .rd .pub] <|
    .either
      -- line 301-311; `exists` returns from the first bucket, or releases `m_` behind it
      (.loop (fun k => .ops [.rd .pub, .rd (.fld .kh)] k) <|
        .either (.ops [.unlock .m .shared, .unlock .u .excl] .done) <|
        .ops [.unlock .m .shared] <|
        .loop (fun k => .ops [.rd (.fld .kh)] k) <|
        .either (.ops [.unlock .u .excl] .done) insertEnd)
      -- line 314-332
      (genLock <| .ops [.unlock .m .shared] <| .loop (fun k => .ops [.rd (.fld .kh)] k) <| genUnlock <|
        .either (.ops [.unlock .u .excl] .done) insertEnd)

/-- `set_burst` (basic_store.ipp 456-466). -/
def setBurstSk : Sk := .ops [.lock .m .excl, .rd (.fld .kh), .wr (.fld .burst), .unlock .m .excl] .done

/-- `is_open`, `dat_path`, `key_size` and so on (basic_store.ipp 62-115). -/
def observeSk : Sk := .ops [.rd (.fld .open_), .rd (.fld .kh)] .done

/-- A file operation in `commit` and the test behind it: `bad` is what follows an error. -/
def fileOp (bad k : Sk) : Sk :=
  .op (.rd (.fld .kh)) <| .either (.op .fail (.test fun b => if b then bad else k)) (.test fun b => if b then bad else k)

/-- `flush_one` after the flush (context.ipp 219-223). -/
def flushReturn : Sk := .ops [.lock .ctx .excl, .wr (.fld .list), .put, .unlock .ctx .excl] .done

/-- `return` from `commit` because of an error, without `m_`: the local cache is destroyed, `flush` tests `ec_`
and returns (basic_store.ipp 775-779). The test is always positive here. -/
def commitFailed : Sk := .op (.wr .own) <| .test fun b => if b then .ops [.store] flushReturn else flushReturn

/-- The end of `flush` with `m_` locked (basic_store.ipp 801-803). -/
def flushEnd : Sk :=
  .ops [.wr (.fld .p1), .unlock .m .excl] <| .test fun b => if b then .ops [.store] flushReturn else flushReturn

/-- `commit` from the waiting for readers on (basic_store.ipp 728-755) and `flush` behind it (775-801). -/
def commitKeysSk : Sk :=
  .ops [.lock .g .excl] <| .loop (fun k => .ops [.rd (.fld .gen), .unlock .g .excl, .lock .g .excl] k) <|
  .ops [.rd (.fld .gen), .unlock .g .excl] <|
  .ops [.rd (.fld .c1), .rd .pub] <|
  -- `bucket::write` clears the padding and writes the block
  .loop (fun k => .ops [.rd .pub, .wr .padPub, .rd .padPub] <| fileOp commitFailed k) <|
  fileOp commitFailed <| fileOp commitFailed <| fileOp commitFailed <| fileOp commitFailed <|
  .ops [.lock .m .excl, .wr (.fld .c1), .wr .pub, .wr .padPub, .wr .own] <|
  -- line 775, 781-789
  .test fun b => if b then .ops [.store, .unlock .m .excl] flushReturn
  else .ops [.rd (.fld .when), .rd (.fld .burst), .wr (.fld .when)] flushEnd

/-- `commit` from the publication of the new buckets on (basic_store.ipp 694-727). -/
def commitPublish : Sk :=
  .ops [.lock .m .excl, .wr (.fld .c1), .wr .own, .wr .pub, .publish, .wr (.fld .p0), .wr .first0, .wr .second0,
    .wr (.fld .buckets), .lock .g .excl, .wr (.fld .gen), .unlock .g .excl, .unlock .m .excl] <|
  fileOp commitFailed <| .loop (fun k => fileOp commitFailed k) <| fileOp commitFailed <| fileOp commitFailed commitKeysSk

/-- `commit` after the size of the key file was determined (basic_store.ipp 616-691). -/
def commitRest : Sk :=
  -- size of the data file, log header, `sync`, size of the data file
  fileOp commitFailed <| fileOp commitFailed <| fileOp commitFailed <|
  .ops [.rd (.fld .buckets)] <| fileOp commitFailed <|
  .ops [.rd (.fld .p0), .rd .first0] <|
  -- line 636-650
  .loop (fun k => .ops [.wr .second0, .rd .first0] <| fileOp commitFailed <| .ops [.rd .first0] k) <|
  -- line 653-686
  .loop (fun k => .ops [.rd .first0, .rd (.fld .frac), .wr (.fld .frac)] <|
    .loop (fun k => .ops [.rd .own, .wr .own, .wr .padOwn] <| fileOp commitFailed k) <|
    .ops [.rd .second0, .rd .first0, .wr .own] k) <|
  fileOp commitFailed commitPublish

/-- `commit` (basic_store.ipp 580-616), `m_` being locked, until the size of the key file is determined (line
613), and the rest. -/
def commitSk : Sk :=
  .ops [.rd (.fld .p1), .wr (.fld .p0), .wr (.fld .p1), .swapPools, .unlock .m .excl, .rd (.fld .p0), .rd (.fld .kh),
    .newCache, .wr .own, .rd (.fld .p0)] <|
  fileOp commitFailed commitRest

/-- `flush` (basic_store.ipp 757-804), called by `flush_one` (context.ipp 202-224). If the store is not the
first in the list, another store is flushed. -/
def flushSk : Sk :=
  .ops [.lock .ctx .excl, .rd (.fld .list)] <|
  .either (.ops [.unlock .ctx .excl] .done) <|
  .ops [.take, .wr (.fld .list), .unlock .ctx .excl, .lock .m .excl, .rd (.fld .kh), .wr (.fld .when), .rd (.fld .p1)] <|
  .either flushEnd commitSk

/-- The calls. -/
inductive Call
  | fetch | insert | setBurst | observe | flushOne
deriving DecidableEq, Repr

/-- Their steps. -/
def Call.sk : Call → Sk
  | .fetch => fetchSk
  | .insert => insertSk
  | .setBurst => setBurstSk
  | .observe => observeSk
  | .flushOne => flushSk

/-- The state: what each thread has yet to do, the locks it holds, whether the call it is in has seen `ecb_`
set; who took the store from the list for flushing; which content `p1` has, which content the caches have,
and how many caches there were; whether `ec_` and `ecb_` are set. -/
structure Sys where
  pc : Nat → Sk
  held : Nat → Mu → Option Mode
  saw : Nat → Bool
  token : Option Nat
  flip : Bool
  own : Nat
  pub : Nat
  next : Nat
  ec : Bool
  ecb : Bool

/-- An open store that nobody uses yet. -/
def Sys.init : Sys :=
  { pc := fun _ => .done, held := fun _ _ => none, saw := fun _ => false, token := none, flip := true,
    own := 0, pub := 1, next := 2, ec := false, ecb := false }

/-- The location that a name in the code denotes. -/
def Sys.loc (x : Sys) : Var → Loc
  | .fld f => .fld f
  | .first0 => .first (!x.flip)
  | .first1 => .first x.flip
  | .second0 => .second (!x.flip)
  | .second1 => .second x.flip
  | .own => .blocks x.own
  | .pub => .blocks x.pub
  | .padOwn => .pad x.own
  | .padPub => .pad x.pub

/-- Put a thread to a new place. -/
def Sys.goto (x : Sys) (t : Nat) (k : Sk) : Sys := { x with pc := fun u => if u = t then k else x.pc u }

/-- Set what a thread holds. -/
def Sys.hold (x : Sys) (t : Nat) (m : Mu) (k : Option Mode) : Sys :=
  { x with held := fun u n => if u = t ∧ n = m then k else x.held u n }

/-- Can the lock be acquired? -/
def Sys.Free (x : Sys) (m : Mu) : Mode → Prop
  | .excl => ∀ u, x.held u m = none
  | .shared => ∀ u, x.held u m ≠ some .excl

/-- A single step of thread `t`; the first part is whether it is possible, then follow new state and event. -/
def Op.run (o : Op) (x : Sys) (t : Nat) : Prop × Sys × Ev Loc Mu :=
  match o with
  | .rd v => (True, x, .read (x.loc v))
  | .wr v => (True, x, .write (x.loc v))
  | .lock m k => (x.Free m k, x.hold t m (some k), .lock m k)
  | .unlock m k => (x.held t m = some k, x.hold t m none, .unlock m k)
  | .fail => (True, { x with ec := true }, .write (.fld .ec))
  | .store => (True, { x with ecb := true }, .store)
  | .swapPools => (True, { x with flip := !x.flip }, .other)
  | .newCache => (True, { x with own := x.next, next := x.next + 1 }, .other)
  | .publish => (True, { x with own := x.pub, pub := x.own }, .other)
  | .take => (x.token = none, { x with token := some t }, .other)
  | .put => (x.token = some t, { x with token := none }, .other)

/-- One step of thread `t`, with the event. -/
inductive Step (x : Sys) (t : Nat) : Sys → Ev Loc Mu → Prop
  | call (c : Call) : x.pc t = .done → Step x t ({ x with saw := fun u => if u = t then false else x.saw u }.goto t c.sk) .other
  | op {o k} : x.pc t = .op o k → (o.run x t).1 → Step x t ((o.run x t).2.1.goto t k) (o.run x t).2.2
  | load {k} : x.pc t = .load k →
      Step x t ({ x with saw := fun u => if u = t then x.ecb else x.saw u }.goto t (k x.ecb)) .load
  | test {k} : x.pc t = .test k → Step x t (x.goto t (k x.ec)) (.read (.fld .ec))
  | pick {k} (n : Nat) : x.pc t = .pick k → Step x t (x.goto t (k n)) .other

/-- Executions: the events and the state reached. -/
inductive Exec : Trace Loc Mu → Sys → Prop
  | init : Exec [] Sys.init
  | step {tr x t y e} : Exec tr x → Step x t y e → Exec (tr ++ [(t, e)]) y

/-- `ec_` is not written any more once `ecb_` is set. -/
def Once (tr : Trace Loc Mu) : Prop :=
  ∀ i j t u : Nat, i < j → tr[i]? = some (t, .store) → tr[j]? ≠ some (u, .write (.fld .ec))

end NuDB.Race
