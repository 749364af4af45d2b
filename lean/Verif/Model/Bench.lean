import Verif.Model.Store
import Verif.Model.XorShift
/-
The benchmark (bench/bench.cpp) for NuDB, without the measurement of times.
-/
namespace NuDB

/-- The command line of the benchmark (bench.cpp 375-379), and what the program does not determine: the number from `make_uid()`,
whether assertions are enabled, the two distributions of the standard library (the sizes of values, test_store.hpp 264, and
the `j`-th index drawn from those below `n`, bench.cpp 95-115), and how often the background thread has called
`flush` before the insert of an item, before a `close`, and before a `fetch`. -/
structure BenchEnv where
  batch : Nat
  batches : Nat
  keySize : Nat
  blockSize : Nat
  load : Load
  uid : Nat
  asserts : Bool
  sizef : XorShift.Engine → Nat × XorShift.Engine
  pick : Nat → Nat → Nat
  flushInsert : Nat → Nat
  flushClose : Nat → Nat
  flushFetch : Nat → Nat → Nat

/-- The arguments of `create` (test_store.hpp 214-215, 265-272). -/
def BenchEnv.args (x : BenchEnv) : CreateArgs :=
  { appnum := 1, uid := x.uid, salt := 42, keySize := x.keySize, blockSize := x.blockSize, load := x.load }

/-- `ts_[i]` (test_store.hpp 307-323). The exception for the last of the 2^64 items is left out, its item is empty here. -/
def BenchEnv.item (x : BenchEnv) (i : Nat) : XorShift.Item := (XorShift.item x.sizef x.keySize (UInt64.ofNat i)).getD ⟨[], []⟩

/-- What can be seen of the benchmark besides times: the samples (for each the kind, `true` for inserts, and the number
of items, bench.cpp 147-154), the amounts of work reported as progress, and the values that `fetch` found. -/
structure BenchOut where
  samples : List (Bool × Nat)
  reports : List Nat
  values : List Bytes

/-- The background thread flushes the store some times (basic_store.ipp 757-804). -/
def benchFlush (c : Cfg) : Nat → Store → M Store
  | 0, s => M.ret s
  | n + 1, s => do
    let s ← flush c s
    benchFlush c n s

/-- `time_block` (bench.cpp 118-128) with `gen_key_value` (bench.cpp 77-93), whose `cur_` is the second argument, and the
function that inserts (bench.cpp 241-245). An error is thrown as an exception and so ends the benchmark (bench.cpp 269-272). -/
def benchInserts (c : Cfg) (x : BenchEnv) : Nat → Nat → Store → M Store
  | 0, _, s => M.ret s
  | left + 1, cur, s => do
    let s ← benchFlush c (x.flushInsert cur) s
    let s ← insert c s (x.item cur).key (x.item cur).data
    benchInserts c x left (cur + 1) s

/-- `time_block` (bench.cpp 118-128) with `rand_existing_key` (bench.cpp 95-115) for the `n` items so far and the function that fetches
(bench.cpp 247-251), from the `j`-th draw. -/
def benchFetches (c : Cfg) (x : BenchEnv) (n : Nat) : Nat → Nat → Store → M (List Bytes × Store)
  | 0, _, s => M.ret ([], s)
  | left + 1, j, s => do
    let s ← benchFlush c (x.flushFetch n j) s
    let v ← fetch c s (x.item (x.pick n j)).key
    let (vs, s) ← benchFetches c x n left (j + 1) s
    M.ret (v :: vs, s)

/-- `basic_test_store::open` (test_store.hpp 333-345). -/
def benchOpen (c : Cfg) (x : BenchEnv) : M Store := do
  let s ← openStore c
  if s.kh.keySize ≠ x.keySize then M.fail .invalid_key_size
  else if s.kh.blockSize ≠ x.blockSize then M.fail .invalid_block_size
  else M.ret s

/-- `pre_fetch_hook` (bench.cpp 253-262). -/
def benchHook (c : Cfg) (x : BenchEnv) (s : Store) : M Store := do
  match ← close c s with
  | some e => M.fail e
  | none => benchOpen c x

/-- `time_fetch_insert_interleaved` (bench.cpp 130-157): `next` is `next_insert_index` and `start` the `batch_start_` of `bench_progress`
(bench.cpp 57-75). -/
def benchBatches (c : Cfg) (x : BenchEnv) : Nat → Nat → Nat → Store → M (BenchOut × Store)
  | 0, _, _, s => M.ret (⟨[], [], []⟩, s)
  | left + 1, next, start, s => do
    let s ← benchInserts c x x.batch next s
    let s ← benchFlush c (x.flushClose next) s
    let s ← benchHook c x s
    let (vs, s) ← benchFetches c x (next + x.batch) x.batch 0 s
    let (o, s) ← benchBatches c x left (next + x.batch) (start + x.batch + x.batch) s
    M.ret (⟨(true, next) :: (false, next + x.batch) :: o.samples,
      (start + x.batch) :: (start + x.batch + x.batch) :: o.reports, vs ++ o.values⟩, s)

/-- `do_timings` (bench.cpp 218-283) up to the end of the `try` block, in a new directory (temp_dir.hpp 31-44). The destructor of `test_store` afterwards
erases the files of the store while it is open (test_store.hpp 300-305), which is not modelled. -/
def benchRun (c : Cfg) (x : BenchEnv) : M (BenchOut × Store) := do
  create c x.asserts x.args
  let s ← benchOpen c x
  benchBatches c x x.batches 0 0 s

/-- The samples for `n` items among all, which are pairs of a number of items and operations per second. The latter are numbers of type
`double`, given here as multiples of 1 / `unit`, without rounding (bench.cpp 505-506: `lower_bound`, `upper_bound`). -/
def samplesAt (dict : List (Nat × Nat)) (n : Nat) : List Nat := (dict.filter (fun p => p.1 == n)).map (·.2)

/-- `std::accumulate` with the initial value `0`, so the sum is an `int`, to which each result of the lambda is converted (bench.cpp 511-514).
The conversion cuts off the fraction and is undefined behaviour if the number does not fit. -/
def benchTotal (unit : Nat) : Nat → List Nat → Except Exc Nat
  | t, [] => .ok t
  | t, a :: l =>
    if (t * unit + a) / unit < 2 ^ 31 then benchTotal unit ((t * unit + a) / unit) l else .error .ub

/-- `write_val` (bench.cpp 501-517): `none` is "NA". The division is that of integers (line 515). -/
def benchShown (unit : Nat) (dict : List (Nat × Nat)) (n : Nat) : Except Exc (Option Nat) :=
  if samplesAt dict n = [] then .ok none
  else
    match benchTotal unit 0 (samplesAt dict n) with
    | .error e => .error e
    | .ok t => .ok (some (t / (samplesAt dict n).length))

end NuDB
