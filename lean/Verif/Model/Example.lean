import Verif.Model.ErrorRef
/-
The example program (examples/example.cpp), which is also in the documentation.
-/
namespace NuDB

/-- What the example does not determine: the numbers from `make_uid()` (called by the second form of
`create`, create.ipp 158-179) and `make_salt()`, the byte order of the machine, whether assertions are enabled, and how often the background thread has called `flush` before
each of the calls made on the store. -/
structure ExampleEnv where
  uid : Nat
  salt : Nat
  little : Bool
  asserts : Bool
  flushes : Nat → Nat

/-- The arguments of `create` (example.cpp 21-28); `block_size(".")` is 4096 (file.hpp 25-32). -/
def ExampleEnv.args (x : ExampleEnv) : CreateArgs :=
  { appnum := 1, uid := x.uid, salt := x.salt, keySize := 4, blockSize := 4096, load := .rat 1 2 }

/-- The memory of the variable `i` of type `std::uint32_t`, of which the program passes the address
as the key (example.cpp 16, 33-34, 36-37). -/
def ExampleEnv.key (x : ExampleEnv) (i : Nat) : Bytes := if x.little then (putU32 i).reverse else putU32 i

/-- What happens when a member function is called on a store that is not open: the assertion
`BOOST_ASSERT(is_open())` fails (basic_store.ipp 230, 277) or, without assertions, the code uses a
`boost::optional` that contains nothing. -/
def ExampleEnv.notOpen (x : ExampleEnv) : Exc := if x.asserts then .abort else .ub

/-- The background thread flushes the store some times (basic_store.ipp 757-804), unless it is not open. -/
def flushTimes (c : Cfg) : Nat → Option Store → M (Option Store)
  | 0, so => M.ret so
  | _ + 1, none => M.ret none
  | n + 1, some s => do
    let s ← flush c s
    flushTimes c n (some s)

/-- The loop that inserts (example.cpp 33-34), with the content of `ec`. -/
def exampleInserts (c : Cfg) (x : ExampleEnv) : List Nat → Option Store → Option Err → M (Option Store × Option Err)
  | [], so, ec => M.ret (so, ec)
  | i :: is, so, ec => do
    match ← flushTimes c (x.flushes i) so with
    | none => M.raise x.notOpen
    | some s => do
      let (r, ec) ← insertE c s (x.key i) [0] ec
      exampleInserts c x is (some (r.getD s)) ec

/-- The loop that fetches (example.cpp 36-41): the results are what the callback got each time, if it
was called, the store, and the content of `ec`. -/
def exampleFetches (c : Cfg) (x : ExampleEnv) :
    List Nat → Option Store → Option Err → M (List (Option Bytes) × Option Store × Option Err)
  | [], so, ec => M.ret ([], so, ec)
  | i :: is, so, ec => do
    match ← flushTimes c (x.flushes (1000 + i)) so with
    | none => M.raise x.notOpen
    | some s => do
      let (r, ec) ← fetchE c s (x.key i) ec
      let (rs, so, ec) ← exampleFetches c x is (some s) ec
      M.ret (r :: rs, so, ec)

/-- `db.close(ec)` (example.cpp 42, basic_store.ipp 190-218), which does nothing if the store is not open.
The store is closed afterwards even if there is an error. -/
def exampleClose (c : Cfg) (so : Option Store) (ec : Option Err) : M (Option Store × Option Err) :=
  match so with
  | none => M.ret (none, ec)
  | some s => do
    let (_, ec) ← closeE c s ec
    M.ret (none, ec)

/-- `main` (example.cpp 12-46). The result: what the callback got at each `fetch`, and the store and the
content of `ec` at the end. The destructor of the store closes it if it is open, which is not the case. -/
def exampleMain (c : Cfg) (x : ExampleEnv) : M (List (Option Bytes) × Option Store × Option Err) := do
  let (_, ec) ← createE c x.asserts x.args none
  let (so, ec) ← openE c ec
  let (so, ec) ← exampleInserts c x (List.range 1000) so ec
  let (found, so, ec) ← exampleFetches c x (List.range 1000) so ec
  let so ← flushTimes c (x.flushes 2000) so
  let (so, ec) ← exampleClose c so ec
  eraseQuiet .dat
  eraseQuiet .key
  eraseQuiet .log
  M.ret (found, so, ec)

end NuDB
