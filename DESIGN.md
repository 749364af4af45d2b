# Formal model of NuDB — design

Source: `/repo` (CPPAlliance/NuDB, pinned commit), read as text, never built or run.
All line numbers in Lean comments refer to files below `/repo/include/nudb/`.
Lean sources: `lean/Verif/{Model,Spec,Proof,Props}`.

* `Model` — the code, function by function, with citations.
* `Spec` — what the properties talk about: abstract maps, documented file layout,
  crashes, executions, memory. Small, without helper lemmas.
* `Props` — the property theorems, each with an `example` of a concrete case.
* `Proof` — invariants and lemmas; need not be read to know what is claimed.

## 1. Trusted base

* The Lean 4.33.0 kernel and the three standard axioms `propext`, `Classical.choice`,
  `Quot.sound` (section 6). No own axioms, no `sorry`, no `native_decide`, no
  `bv_decide`. Mathlib is used in `Proof/XorShift` (pigeonhole principle) and in `Spec/Rounding`, `Props/Rounding` (rational numbers) only.
* That the definitions in `Model` say what the C++ says. Simplifications are stated in
  the comments next to them and collected in section 3.
* That the definitions in `Spec` and the theorem statements in `Props` say what the
  English properties say.

## 2. Layers of the model

| layer | Lean | code |
|---|---|---|
| bytes, slices, checked memory access, outcomes | `Model/Bytes` | uses of `memcpy/memmove/memset` |
| big-endian fields | `Model/Field` | `detail/field.hpp`, `detail/stream.hpp` |
| headers, capacities, powers of two, header checks | `Model/Format` | `detail/format.hpp` |
| bucket blobs | `Model/Bucket` | `detail/bucket.hpp` |
| files with faults, unsynced data; the monad `M` | `Model/File` | `file.hpp`, `impl/posix_file.ipp`, `native_file.hpp` |
| commit with blocks, bucket objects and streams in memory | `Model/Heap` | `impl/basic_store.ipp` (again), `detail/cache.hpp`, `detail/stream.hpp`, `detail/bulkio.hpp` |
| the loops around system calls, `errno` | `Model/Native` | `impl/posix_file.ipp`, `impl/win32_file.ipp` |
| sequential reader and writer, bucket I/O | `Model/BulkIO` | `detail/bulkio.hpp`, `detail/buffer.hpp`, `detail/bucket.hpp` |
| insert buffer and bucket cache (as values) | `Model/Pool` | `detail/pool.hpp`, `detail/cache.hpp` |
| create, recover | `Model/Recover` | `impl/create.ipp`, `impl/recover.ipp` |
| open, close, fetch, insert, flush, commit | `Model/Store` | `impl/basic_store.ipp` |
| visit, rekey | `Model/Rekey` | `impl/visit.ipp`, `impl/rekey.ipp` |
| verify (both algorithms) | `Model/Verify` | `impl/verify.ipp` |
| arena and insert buffer in memory | `Model/Arena` | `detail/arena.hpp`, `detail/pool.hpp` |
| intrusive list | `Model/List` | `context.hpp`, `impl/context.ipp`, `store_base.hpp` |
| scheduler with threads | `Model/Context` | `impl/context.ipp` |
| store functions as trees of file operations | `Model/Prog` | `impl/basic_store.ipp` (again) |
| threads, locks, generations, interleavings | `Model/Concurrent` | `impl/basic_store.ipp`, `detail/gentex.hpp` |
| accesses of memory, mutexes | `Model/Race` | `impl/basic_store.ipp`, `impl/context.ipp`, `detail/gentex.hpp` |
| XXH64 on a machine with addresses and byte order | `Model/XXHash` | `detail/xxhash.hpp`, `xxhasher.hpp`, `detail/endian.hpp` |
| throttling, `set_burst`, rates | `Model/Throttle` | `impl/basic_store.ipp` |
| error codes and conditions | `Model/Error` | `error.hpp`, `impl/error.ipp` |
| the parameter `ec` | `Model/ErrorRef` | `impl/basic_store.ipp` (again) |
| generation lock | `Model/Genlock` | `detail/gentex.hpp` |
| sizes and addresses in machine words | `Model/Word` | `detail/format.hpp`, `impl/basic_store.ipp` |
| calls from callbacks | `Model/Nested` | `impl/basic_store.ipp` |
| exceptions in flushes; end of a context | `Model/ContextThrow`, `Model/ContextEnd` | `impl/context.ipp` |
| failing files of the tests | `Model/FailFile` | `_experimental/test/fail_file.hpp` |
| command line tool | `Model/Tool` | `tools/nudb.cpp` (`do_info`, `do_rekey`, `do_visit`), `_experimental/util.hpp` (`log2`, `fdec`, `fhex`, `fhist`) |
| iteration in a database in use | `Model/Meanwhile` | `visit` (visit.ipp 23-92) and `bulk_reader::prepare` again, each file operation on the files as others left them |
| progress display | `Model/Display` | `_experimental/util.hpp` (class `progress`), `chrono_util.hpp`, the waiting time in `basic_seconds_clock.hpp` |
| example program | `Model/Example` | `examples/example.cpp`, all of it; flushes by the background thread happen before calls only |
| benchmark | `Model/Bench` | `bench/bench.cpp` (`do_timings` and all it calls, `bench_progress`, `write_val`), `test_store.hpp` (`create`, `open`); without times, RocksDB and the options; flushes by the background thread happen before calls only |
| random items of the tests | `Model/XorShift` | `_experimental/test/xor_shift_engine.hpp`, `test_store.hpp` (`operator[]`, `rngfill`) |
| rounding of `float` | `Model/Float` | `impl/rekey.ipp` (number of buckets), `impl/verify.ipp` (quotients, `Model/Ratios`) |
| file handles | `Model/Handle` | `impl/posix_file.ipp`, `impl/*.ipp` (again) |

### Effects and outcomes

Programs are functions `M α = Schedule → World → Except Exc α × World`. `World` holds the
three files (data, key, log), a counter of file operations and the list of callback
invocations (`Event`). Each file remembers its content at the last successful sync and
the writes and truncations since then. The schedule gives, for every file operation in
turn, "works", "fails after k bytes" or "the process dies after k bytes"; theorems
quantify over all schedules, hence over every failing operation, every partial write and
every crash point. Outcomes other than a value: an error code, `crash`, `abort` (failed
`BOOST_ASSERT`), `ub` (undefined behaviour: access out of bounds, use of a file that is not
open), `throw` (C++ exception) and `hang` (endless loop). Loops are recursive functions
with fuel; running out of fuel is `hang`, and theorems show that it does not happen.

### Executions

`Spec/History` defines executions of a client: a database is made by `create`, then
calls of `insert`, `fetch`, `flush`, `close`, `open` follow in any permitted order, each
under an arbitrary schedule. If the process dies, a restart follows, where the disk holds
any image that `Spec.Restart` permits. `Reachable` are the states that can occur. An
`abort` is treated like a death of the process.

### Power loss (`Spec/Crash`)

After a power failure data and key file may hold at every position the byte of *any*
version since the last sync (or zero where some version had no byte), with any length
between the shortest and the longest version; the log file holds a prefix of its unsynced
writes, the last one cut at any byte. Creation of files is durable, and removal of the
data and key file. Removal of the log file need not be: next to a key file it may be back,
empty, which is all that can come back according to C67 (except after `rekey`, see there). The
order assumption on the log is necessary: C47 proves for every database that without it
recovery destroys committed data.

## 3. What is modelled and what is not

Modelled: all functions of `include/nudb` except the following.

* Allocation failure (modelled only in `Model/Arena`), thread creation, clocks. The
  throttling in `insert` and the measurement of rates (`basic_store.ipp` 330-353,
  769-797) are in `Model/Throttle` only.
* `std::size_t` is a natural number without wrap-around, except in `Model/Arena`,
  `Model/XXHash`, `Model/Word` (addresses of buckets) and where `verify` chooses an algorithm. Values that do not fit the
  width of a field are `abort` where the code has an assertion, otherwise they are
  truncated as in the code (`create` with `asserts = false`).
* `test` helpers and `_experimental` (except `fail_file`, `xor_shift_engine`, the items of `test_store` and how it creates and opens the store, the formatting of numbers and `progress` in `util.hpp`, and `chrono_util.hpp`), the options of the tool, the text of its progress display (`pretty_time`) and the remaining time computed there in floating point, and `win32_file` except the loops of `read` and `write`. A member
  function of a file is one operation that completes, fails or stops after k bytes; C55 proves
  that the loops of `posix_file` (`EINTR`, short `pread`/`pwrite`) are covered by that. A failing
  `fsync` leaves all unsynced data as it was (some systems discard it silently).
* File handles are identified with paths; the three paths are distinct.
* `prepare(n)` and filling the stream are one step of the writer; buckets are values, those of a
  cache are stored back explicitly. C57 proves for `commit`, and C60
  for the others, that this is justified.
* Floating point: a load factor is a rational number, NaN or infinity. The number of
  buckets computed by rekey in `float` is an arbitrary parameter, except in `Model/Float` (C81). In `verify`, the work
  estimate uses exact arithmetic, the statistics that are quotients
  (`avg_fetch`, `waste`, `overhead`, `actual_load`) are in `Model/Ratios` (C82), and the fields copied from the headers
  are left out.
* Iteration order of `std::unordered_map` is an arbitrary permutation, fresh memory has
  arbitrary content.
* In the sequential model a flush is one call. `Model/Concurrent` interleaves single
  file operations and lock sections; writes of the flushing thread become visible in
  arbitrary portions. Mutexes and condition variables behave as the standard says (no
  fairness). `open` and `close` are not concurrent with other calls (the documentation
  forbids it).
* `Model/Race` has the accesses of memory of each call, without data: which branch is taken is left open except at tests
  of `ec_` and `ecb_`. The allocator orders the release of memory before its reuse.
* `Model/Nested` has the lock operations of each call only, in the order of the code. `boost::shared_mutex` gives precedence to a
  waiting writer.
* `Proof/Prog` proves that the trees of `Model/Prog`, run without interference, are the
  functions of `Model/Store`.
* `Model/Context`: time-outs and spurious wakeups may occur at any moment.

## 4. Properties

"Big" below is a data file within 2^33 bytes of the 2^48 limit; there an assertion may fail.
P = proved in full, p = partial (the English statement is false or out of reach; what is
missing is stated).

| id | | how |
|---|---|---|
| C01 C02 C03 C05 C14 | P | `Props/Map`: the invariant `Db` (Proof/Db) links the bytes of data and key file to a list of pairs; every call is a forward simulation step of `Spec.Step` on maps; `Cfg.H` (hash), `Cfg.junk`, `Cfg.order` are universally quantified. `C05_histories` for all faults and crashes, `C05_answers` for undisturbed runs |
| C04 | P | `close` then `open` from any reachable state |
| C06 C09 C12 | P | `Props/Atomic`: crash invariant (`Prepared`, `Idle`, ... in Proof/Crash, Commit, Finish) kept by every file operation of `commit`; `recover` proved from it |
| C07 | P | after success no file has unsynced data and the log is empty |
| C08 | p | any number of interrupted recoveries, with any crash. Failing (not crashing) reads only for logs of at most 1024 blocks. Missing: longer logs, where the claim is false (finding 11) |
| C10 | P | `C10_no_log` for arbitrary files, `C10_twice` |
| C11 | P | store with an error performs no file operation (`C11_inert`), histories (`C11_history`) |
| C13 | P | `Props/Append`: every version of the data file extends the old content |
| C15 | P | overflow links decrease; a bound on the number of file operations |
| C16 | p | `Props/Total`: no `ub`, no `throw`, no `hang` in any reachable state. `Props/Full`: the same over whole lives with rekeys. Missing: `bucket_index` asserts at most 2^32 buckets, which can be violated with a data file of 92 bytes (C16_violated) |
| C17 C18 | P | `Props/Codec`: codecs equal the positional encoding of `Spec/Codec` |
| C19 C20 | P | `Props/Bucket` |
| C21 | P | `Props/Address`, arithmetic on `bucket_index` |
| C22 C23 | P | invariant of `buckets`, `modulus`, `frac`; key file length after any session |
| C24 | p | `Props/Create`. Missing: key sizes from 2^16 and load factors below 1/65536, where the claim is false |
| C25 | p | existing files: full. Cleanup: missing the case of a failing `posix_fadvise`, where it is false |
| C26 | p | `Props/Reject`. Missing: key files not longer than a header, rekey logs: false |
| C27 | P | `Props/Visit`: any data file of the documented layout |
| C28 | p | callback errors: full. Truncation: false inside values (exception) and at record boundaries (no error) |
| C29 | P | `Props/Rekey`: loop invariant over chunks; any number of buckets ≥ 1 |
| C30 | P | any interruption, power failure, interrupted recoveries. Not part of the claim: the log is not removed if recovery dies between two removals (C30_stuck) |
| C31 | P | arbitrary files |
| C32 | p | false (C32_lost for every database); the old data survives (C32_old_data_partial) |
| C33 | p | counts: full (`Counted`, with `fetches` = sum of `chainCost` over the chains). Acceptance: false for some block sizes (C33_rejects) and after rekey (C33_rejects_rekeyed) |
| C34 | p | `Props/VerifySound`: arbitrary files; exact meaning of success for both algorithms; the English claim is false (C34_phantom, C34_misses, C34_sizes) |
| C35 | p | false (C35_undetected); unlisted duplicates are detected |
| C36 C37 C38 C51 | P | `Props/Concurrent`: inductive invariant over all interleavings (Proof/Conc*), any number of threads, failing file operations |
| C39 | P | `Props/Bulk` |
| C40 | P | `Props/Sched`: scheduler as transition system, any number of threads and stores |
| C41 | P | `Props/List`: linked memory refines sequences |
| C42 C43 | P | `Props/Memory`, `Props/Pool`: heap with blocks; every history |
| C44 | p | `Props/XXHash`. Missing: unaligned buffers, undefined by the standard because the alignment test is inverted |
| C45 | P | `Props/Torn`: every truncation of the log |
| C46 | p | visit, rekey: full, arbitrary files. verify: bound false for verify_normal (C46_exceeds) |
| C47 | p | false (C47_lost, C47_header for every database, C47_witness reachable); up to 15 zeros are harmless |
| C48 | p | `Props/Log`: exact effect of `recover` for arbitrary files; false for overlong records (C48_undefined) and large indexes (C48_abort) |
| C52 | P | `Props/Lifetime`: whole lives with any number of rekeys (`Spec/Lifetime`); every closed database, also one written by `rekey`, satisfies the invariant from which histories start (Proof/Lifetime); unsynced files after `rekey` are handled by a simulation that ignores the synced part (Proof/Blind2) |
| C53 | P | `Props/ConcCrash`: the invariant of the concurrent executions (Proof/Conc*) records how many events are permanent and how many will be when the running flush completes; these two moments are the beginning or starts of flushes; at every moment the files, including a partial write, satisfy the crash invariant of the single-threaded development (Proof/ConcSafe) |
| C54 | P | `Props/SharedLife`: sessions of several threads are a further kind of change in the lives of C52 (Spec/Lifetime `shared`, `ended`). The end of a session, or its death, is shown to be a state from which the single-threaded simulation continues (Proof/Lifetime `session_end`, `session_died`); what is kept over whole lives is shown by induction over the abstract changes (Proof/Lived). Restrictions: a session starts with an empty pool; after a failed flush in a session only its end is covered |
| C55 | P | `Props/Native` over `Model/Native`: a list of replies of the operating system drives the loops. Induction over the list: the pieces written so far together act like one `write` operation, also after power failure (`Covered`, Proof/Native `covered_pieces`). `C55_program`: induction over the program. Restriction: concurrent writers touch other places of the file than a read |
| C56 | p | `Props/Native`: case distinction over the two system calls. Missing: `errno` holding an unrelated `ENOENT` or `EEXIST`, where it is false (`C56_violated`) |
| C57 | P | `Props/Heap` over `Model/Heap`: memory is a list of blocks, a bucket object has its counters and an address, the writer a buffer with a count, a stream a position in it. Simulation (`Proof/Heap`, `Proof/HeapCommit`): all blocks in use are different (`Lay`), each object agrees with its memory (`Holds`), streams are filled as announced (`Filled`); so every function does what its counterpart in `Model/Store` does unless that is undefined. Combined with C16 for all lives of databases |
| C58 | p | `Props/Params`: unfolding of the checks of `create`; `C58_accepts` from the specification of `create`. Missing: `rekey` checks nothing (`C58_rekey_violated`) |
| C59 | p | `Props/Race` over `Model/Race` (each access of memory a step, any number of threads and context workers); `Spec/Race` has happens-before and data race as in the standard. A discipline of locks and ownership is checked for all calls and shown invariant (`Proof/Race`); for two conflicting accesses the lock transfers in between give a chain of happens-before (`Proof/RaceOrder`, `Proof/RaceFree`). For programs without data races the standard guarantees sequentially consistent executions, which are the ones modelled. Missing: `ec_`, where it is false (`C59_violated`) |
| C60 | P | `Props/HeapRead` over `Model/HeapRead`: streams are pointers with the generation of the buffer, which a request may move or replace; buckets of rekey and verify are positions in one buffer, the content of which is whatever was left. `C60_stream` is against the file content; the others are simulations (`Proof/HeapRead`, `HeapLookup`, `HeapRekey`, `HeapVerify`) of the functions with values, combined with C16, C27, C33 for databases |
| C61 | P | `Props/Throttle` over `Model/Throttle` (the lines of `insert` and `flush` that deal with rates, with time). Invariant: the data at the last insert that did not sleep, and the number of inserts since, each of which keeps `u_` for 25 ms. The quotient in single precision is any function that is at most one part in 2^20 too small |
| C62 | P | `Props/Damage` over `Spec/Damage` (`Abused`: a session during which anything may replace data file and key file). Hoare triples without any relation between files and store: `Fine` (buckets in memory hold at most as many entries as fit, because `bucket::read` of a file tests the count), for every function of the store, in `Proof/Damage`-`Damage6`. A log to recover from may be present if its records fit into a block (`Openable`; otherwise see C48). `C62_endless`: lookups need not end |
| C63 | p | Same method for `verify` (`Proof/Damage7`, `Damage8`) under `CountsFit`. False otherwise: two families of files with undefined behaviour (`Proof/Damage9`), one for each algorithm |
| C64 | P | `Props/Ends` over `Spec/Ends` (`Endless D room o`: an infinite sequence of positions, each of which holds an overflow bucket that refers to the next). `Proof/Ends`-`Ends6`: rules for "if the outcome is `hang` then ..."; sequential readers get closer to the end of the file; chains longer than the file (lookups, `verify`) or than the number of 48 bit offsets (`split`, while the file grows) visit an offset twice |
| C65 | P | `Props/Share` over `Spec/Share` (bytes that a thread is reading, bytes that the flusher is changing), from the invariant of C36: reads of the data file are inside the part that existed when the thread looked into memory, and the data file is only appended to; key file as in C38; induction over the steps of others |
| C66 | P | `Props/Live` over `Spec/Live` (infinite executions, fairness): the relation "one step of the same thread" is well-founded, for threads and for the flusher (Proof/Live), so each makes finitely many steps per call or flush; with C51 (somebody can go on) and fairness everything returns. Old generations are given back because a reader never waits. Witness of starvation of an `insert`: a periodic execution |
| C67 | p | `Props/Remove` over `Spec/Remove` (`RemovesLog`: compare the runs that die before and after one operation). Every program is `Timed` (Proof/Timed: it looks at the schedule only from its own clock on, and dies where the schedule says so), hence the removing operation of `m >>= k` is one of `m` or of `k` (`removes_bind`); then case by case. False for `rekey`; two more witnesses show which other changes of directories have to be durable |
| C68 | p | `Props/Error` over `Model/Error` (numbers, messages, equivalence of codes and conditions; other categories are arbitrary functions). Case analysis over all errors. False for the message of success. |
| C69 | p | `Props/Genlock` over `Spec/Genlock`: invariant `GenCounted` (the counters are the numbers of locks that hold the current and older generations), by induction over programs. Proved without move and swap, which forget the generation: three witnesses. |
| C70 | p | `Props/ErrorRef` over `Spec/ErrorRef`; `Model/ErrorRef` has the functions with `error_code& ec` as an argument that is read and written. With a clear `ec` they do the same as the functions of the other models (`Reports`), by induction over loops. With a set `ec` (any error) nothing is inserted, found on disk or opened. |
| C71 | p | `Props/Word`: the nine places at which an address of a bucket is computed, with words of W bits (`Model/Word`). All give the true address for 64 bits; this justifies that the other models compute with natural numbers. For 32 bits three of them lack a conversion: witness at 4 GiB. |
| C72 | p | `Props/Nested` over `Spec/Nested`: lock operations of calls with nested calls from callbacks (`Model/Nested`). Invariant: what a thread holds agrees with the rest of its program, and the order generations, `u_`, `m_` is kept; then some thread can always go on. Proved if callbacks invoked with `m_` locked make no calls; otherwise two deadlocks. |
| C73 | P | `Props/Cost` over `Spec/Cost`: number of operations of `fetch` and `insert` in any reachable open store, under any faults, against chain and records that `Conforms` describes. An item is only looked at if its hash agrees, an overflow record only if the chain has it. |
| C74 | p | `Props/ContextThrow` over `Model/ContextThrow`: the scheduler of C40 with one more step, the exception out of `store->flush()`. A flush that threw is treated like one that is still running in a thread of its own, so the invariant of C40 carries over. |
| C75 | p | `Props/Locks` over `Spec/Locks` and the invariant of C36: who holds `m_` and `u_` at each file operation. |
| C76 | p | `Model/Handle`: `File` objects with descriptors, and the functions reduced to what they do with them, with arbitrary outcomes; `Spec/Handle` states proper use by the system calls alone; a Hoare logic over the set of open variables (`Proof/Handle`, `Proof/HandleFuns`), induction over calls in `Props/Handle`. |
| C77 | p | `Model/Context` with `Model/ContextEnd` (the test in `~context`); `Spec/Stop`: executions during a call of `stop_all`, counting the steps of serving threads. Invariant of all executions (`StopInv`: at most one thread is in `stop_all`, and `stop_` is set then; a thread before `run` is the one in `t_`) and an invariant of the call (`During`) with a weight for each serving thread that decreases. Not true as documented, see finding 28 |
| C78 | P | `Spec/Work`: all sequences of file operations of the tree of a commit (`Model/Prog`), with arbitrary answers, and their weight. `Proof/Work`: a budget calculus for trees (`Pays`) with the cached blobs as invariant. A witness reaches the bounds. Reads and appends of the data file are not bounded: a split reads the whole chain of a bucket |
| C79 | p | `Props/Report`: two successful runs of `verify` on the same closed database, with different memory, buffer sizes and schedules; the chains of a database use distinct overflow records. Counterexamples for `spill_bytes_tot` of `verify_fast` |
| C80 | P | `Props/Average`: exact number of operations of `fetch` on a freshly opened store (`searchCost` of `Spec/KeyLayout`, which also specifies the `fetches` of `verify`), summed over all stored keys |
| C81 | p | `Props/RekeyCount`: rounding to 24 bits (`Model/Float`), shown to be that of IEEE 754 (`Spec/Rounding`, `Props/Rounding`), its relative error, exactness for small numbers (`Proof/Float`); error of the quotient, rounding up; C29 for `rekey` with the computed number of buckets. Missing: more than 2^23 items exactly, where it is false |
| C82 | p | `Props/Ratios`: quotients of `Model/Ratios`, error of a quotient and monotonicity of rounding from `Proof/Float`, counters from C33. Missing: `waste` in reports of `verify_fast`, where it is false |
| C83 | P | `Props/FailFile`: `fail_file` as an interpretation of `Prog` (`Model/FailFile`); simulation by a schedule of failures, operation by operation; counting of the failures met (`Proof/FailFile`) |
| C84 | P | `Props/XorShift`: `x ^ x >> n`, `x ^ x << n` and multiplication by odd constants are injective on 64 bits, so the generator permutes its finitely many states (`Proof/XorShift`, pigeonhole principle of Mathlib) |
| C85 | P | `Props/Tool`: invariants of the loops that format numbers (`Proof/Tool`); the report of `visit` from C27, the new key file from C81 |
| C86 | p | `Props/Choice`: arithmetic on `chooseNormal`, which of the two algorithms ran is in the report. Missing: the choice of the fast algorithm, which is wrong |
| C87 | p | `Props/Meanwhile`: two runs side by side, one whose files others append to and one on a fixed copy, have the same outcome (`Proof/Meanwhile`); then C27, C28, C13. During a flush (`Proof/Toward`): every function that `flush` calls only appends to the data file, so what it leaves when interrupted is an initial part of what it leaves when interrupted later. `C87_use_partial` puts both together: any calls, and any number of flushes seen half done. Missing: an iteration that begins while a record is half written |
| C88 | p | `Props/Display`: induction over the reports with the state of the display; `Proof/Display`: the first report of each algorithm is 0, by a walk through its functions; amounts from C46. Missing: more than the total reported by verify_normal; `round` of negative durations |
| C89 | p | `Props/Example`: the program makes the calls of a history of C05, with a clear `ec` as in C70; then the files are removed. Missing: an orderly end if `create` fails |
| C90 | p | `Props/Bench`: the calls of the benchmark are a history of C05; the map holds the first n items after n inserts. Missing: keys that collide (a premise; false, see `C90_keys_violated`), and the destructor of `test_store` |
| C91 | p | `Props/Bench`: error of the integer sum, by induction over the samples. Missing: the exact average, and samples that do not fit into an `int` (both false) |
| C49 | P | `Props/Conform`: documented layout (`Spec/Layout`, `Spec/KeyLayout`, `Spec/Conform`) after every history and rekey; links lead to overflow records |
| C50 | p | holds while `stop_all` is not called; false otherwise (C50_orphan) |

## 5. Findings: where the code disagrees with its documentation or the property

With the theorem that proves the disagreement, if there is one.

1. `create` stores key sizes above 65535 truncated (`C24_long_keys`), accepts load factors
   below 1/65536, storing 0, which `open` rejects (`C24_tiny_load_factor`), and
   converts a NaN load factor to an integer, undefined behaviour (`C24_nan`).
2. `create` leaves a file behind if `posix_fadvise` fails (`C25_fadvise`).
   `posix_fadvise` returns its error and does not set `errno`, which the code reports: `open` may
   report that a file does not exist that it has just opened, or success (`C56_violated`, `C56_silent`).
3. `open` removes a key file not longer than its header (`C26_short_key_file`) and any key
   file next to a log of an interrupted rekey (`C26_rekey_log`).
4. `visit` does not test the error of its second `prepare`: a data file cut inside
   a value makes it throw `std::logic_error` (`C28_cut_value`).
5. `rekey` returns without syncing its last writes and after removing the log: a power
   failure can leave an empty database (`C32_lost`).
6. A crash in `recover` after an interrupted rekey, between removing the key file and
   removing the log, blocks `recover`, `open` and `rekey` for ever (`C30_stuck`).
7. `verify` never detects duplicate keys that are both listed (`C35_undetected`), does not
   compare sizes in the fast algorithm (`C34_sizes`), accepts items inside of values and misses overflow
   records in the normal algorithm (`C34_phantom`, `C34_misses`).
8. `verify_fast` rejects valid databases with overflow records and block sizes 104 to 115
   (`C33_rejects`), `verify_normal` those with overflow records from before a rekey with
   another block size (`C33_rejects_rekeyed`); its progress can exceed the total
   (`C46_exceeds`). `spill_bytes_tot` of `verify_fast` adds the size of an unrelated bucket
   (verify.ipp 487-488), which is uninitialised memory if no bucket of the first chunk has an overflow record: the number and the waste
   computed from it are arbitrary (`C79_violated`, `C79_negative`).
9. `recover` does not compare the entry count of a log record with the capacity: undefined behaviour
   (`C48_undefined`); a bucket number from 2^32 violates an assertion
   (`C48_abort`); the number one past the last bucket is accepted.
10. Without ordered persistence of the log, recovery destroys committed data (`C47_lost`,
    `C47_witness`); a zeroed log header blocks `open` (`C47_header`).
11. After a failing read of the log `recover` writes a wrong bucket to the key file before it
    reports the error (`recoverStep`); with an incomplete last record the damage is permanent (`C08_violated`,
    `C08_witness`).
12. A thread that enters `context::run` while `stop_all` joins leaves a context that is
    served but never starts a flush (`C50_orphan`). A second concurrent `stop_all`
    returns without waiting.
13. XXH64 sends unaligned input to the code that dereferences integer pointers
    (`C44_undefined`, `C44_undefined_short`).
14. `bucket_index` asserts at most 2^32 buckets, but neither `rekey` nor `commit` keeps to that limit: after a
    `rekey` with 2^32 buckets the next growth of the table fails the assertion (`C16_violated`).
15. `rekey` with an item count of zero reports success and gives a key file without buckets, which `open`
    rejects, even for an empty database; block size and load factor are not checked either: with blocks
    smaller than the header, the header is written over the end of a buffer (`C58_rekey_violated`).
16. `posix_file::write` repeats a `pwrite` that returns zero for ever; `win32_file::write` reports an
   error (`C55_stuck`, `C55_win32_zero`).
17. Data race: `flush` does not test `ecb_`. After a failed flush, items inserted meanwhile make the next flush
    call `commit` with `ec_`, and a failing `kf.size(ec)` (line 613) writes it while `fetch` and `insert`, having
    seen `ecb_` set, read it (lines 231-235, 278-282) (`C59_violated`). All other accesses are ordered, also the
    assignment in line 641 that a comment in the code has doubts about.
18. `verify` on damaged files: `verify_normal` reads overflow records by `bucket::read(bulk_reader&)`, which does not
    test the count and copies up to 1.1 MB over a buffer of one block (`C63_normal_violation`); `verify_fast` uses the
    counts of the buckets in its buffer untested (`C63_fast_violation`). `recover` has the first problem with the log
    (C48). A lookup in a cyclic chain of overflow records never ends (`C62_endless`).
19. No directory is ever synced. That is harmless for the removal of the log file, except by `rekey`, which removes it
    without emptying it: a completed `rekey` may be undone by the next `recover` (C67_rekey_violated). If the removal of the
    key file by `recover` or the creation of the log file by `open` is lost, a database may be left that opens and lacks
    everything, or some of the flushed pairs (C67_key_violated, C67_created_violated).
20. `genlock`: move constructor, move assignment and `swap` do not transfer `gen_`. A moved lock reads an uninitialised
    member when it is destroyed, or gives back the wrong generation, after which `finish` waits forever
    (`C69_move_violated`, `C69_swap_violated`, `C69_assign_violated`). The store neither moves nor swaps locks.
21. The message of the error code 0, success, is "key not found" (`C68_success_violated`).
22. `ec` is tested after each operation but never cleared: if it contains an error when a call is made, `insert` inserts
    nothing, `fetch` finds only what is in memory (and leaves the error), `open` does not open, `create` leaves an
    empty data file behind. So a program that passes the same `ec` to all its calls, as `examples/example.cpp` does,
    loses everything it inserts after a `fetch` of a missing key (C70). `visit`, `verify`, `recover` and `rekey` do nothing then
    (`C70_others_violated`).
23. `fetch` (`basic_store.ipp` 260), `commit` (733) and `rekey` (232) compute the address of a bucket as a product of two
    `std::size_t`, without the conversion to `noff_t` that `insert`, `load`, `recover` and `verify` have. With 32 bits
    and a key file of 4 GiB or more, `fetch` reads the wrong block and `commit` overwrites the header of
    the key file or other buckets (`C71_violated`).
24. `fetch` invokes its callback while it holds `m_` shared if the value is in the pool or in a cached bucket. A callback that calls
    `insert` or `set_burst` then deadlocks, one that calls `fetch` deadlocks if a flush or an insert asks for the lock in between
    (`C72_insert_violated`, `C72_fetch_violated`). The documentation does not mention this.
25. `flush_one` has no handler for exceptions of `store->flush()` (which allocates memory). If one is thrown the store stays in
    state `intermediate`: `close` and the destructor of the store wait forever (`C74_close_violated`). If it leaves `run`,
    `num_threads_` stays too large: `stop_all` and the destructor of the context wait forever (`C74_stop_violated`), `flush` does
    nothing any more, and if the thread was the leading one nothing is scheduled again (`C74_rounds_violated`).
26. README (Concurrency): "Locks are never held during disk reads and writes". `insert` holds `u_` during all its reads, so other
    inserts wait for them; `fetch` holds `m_` shared while it reads the data file for a bucket in the cache, so meanwhile no insert
    can complete (`C75_insert_violated`, `C75_fetch_violated`).
27. basic_store.hpp 293 says that after an error in `close` "the database is still closed". But the function returns before it
    closes the files (basic_store.ipp 206-210): all three stay open until the store is destroyed or opened again, and `open` opens them
    a second time first, which on Windows fails because they are opened without sharing (`C76_close_violated`,
    `C76_reopen_violated`).
28. `stop_all` is documented to block until all threads have stopped. A second call during the first returns at once (context.ipp 38-39)
    while stores are being flushed (`C77_second_violated`); since the destructor of `context` calls it, a destructor concurrent with
    a call of `stop_all` destroys the context under the feet of its threads. Threads in `flush()` are not waited for (`C77_flush_violated`), and
    a thread that enters `run` while the started thread is joined keeps running (`C77_enter_violated`). The destructor's check for stores
    that are still open misses one whose flush threw (`C77_lost_violated`).
29. `rekey` computes the number of buckets in single precision. From 2^23 items on it can be off by one: with blocks of 4096 bytes and the load factor 1/2 there
    is one too few for 16777230 items and one too many for 16777343 (`C81_violated`). The load factor is not checked, unlike in `create`: 0 or NaN, and
    a block size too small for a bucket, lead to a conversion with undefined behaviour (`C81_undefined`).
30. The tool: `nudb info` always exits with success, even if no file could be read (`do_info` returns nothing). Its help says that `verify` with a buffer size
    uses the fast algorithm, but `verify` decides by itself (verify.ipp 599-625). `--count` is declared as `uint64_t` and read as `size_t`: where these are
    different types `nudb rekey` always throws `bad_any_cast`.
31. `verify` is to use the algorithm that reads less, but takes `load_factor`, a number of 65536ths, for the load factor itself (verify.ipp 616). So the bytes read by the
    normal algorithm are estimated 65536 times too high, and with a buffer of two blocks and 8 bytes or more nearly always the fast one is used, even if it reads the whole
    data file once for every bucket: 13 GB a million times in `C86_large`. See also `C86_violated`, and the last part of `C86_partial` (always the fast one for data files up
    to `load_factor * capacity * block_size` bytes, 30 GB with the usual parameters).
32. Iteration in a database in use: the documentation (main.qbk, "there is no risk of other operations corrupting an iteration in progress") is right about records that
    are complete when `visit` reads the size of the file (C87). But if a flush has written a part of a record at that moment, `visit` takes the file for damaged and reports
    `short_read` or throws (`C87_violated`; `C87_flush_violated` for a flush of the model), after giving all pairs from before the flush (`C87_flush_partial`, `C87_use_partial`).
33. Progress display: `verify_normal` can report more than the total (finding on C46), and `progress` then computes `total - amount` without sign: 2^64 - 104 in `C88_wraps`. The
    remaining time becomes too large for its type, and the conversion is undefined behaviour. `prev_` and `estimate_` have no value until a report of 0 arrives (`C88_first`); all callers
    begin with one. `round` for durations is wrong for negative ones (`C88_round_violated`). The thread of `basic_seconds_clock` does not wait in the last tenth of each second: it keeps sampling the
    clock for 100 ms (`C88_clock`).
34. The example program does not look at errors (C89). If `create` fails, for instance because a file was left by an earlier run that was killed, the old error in `ec` also lets `open`
    return early, and the first `insert` is called on a store that is not open: a failing assertion, or undefined behaviour if assertions are disabled (`C89_create_violated`,
    `C89_existing_violated`).
35. The benchmark ends with `key_exists` if two items have equal keys, which are random: always for `--key_size 1` with more than 256 items in a batch (`C90_keys_violated`,
    `C90_short_violated`). Its summary adds numbers of type `double` in an `int` (bench.cpp 511: the initial value is `0`), so fractions are lost, the division is that of
    integers, and samples from 2^31 on are undefined behaviour (`C91_fraction_violated`, `C91_range_violated`).
36. Further observations: the form of `create` without `uid` does not pass its template parameter `File` on (create.ipp 176), so it always uses `native_file`; `avg_fetch` is documented as key file reads per fetch but counts all reads except that of the value (C80); `frac_` is reset at each `open`; a moved-from pool keeps its data size (`C43_moved`); `arena` sizes near
    2^64 wrap around (premise of C42).

## 6. Axioms per theorem

Printed by `#print axioms` for every theorem named in MANIFEST.json:

| axioms | theorems |
|---|---|
| none | C68_success_violated, C71_violated, C81_violated, C86_large, C88_first, C88_round_violated |
| `propext` | C24_long_keys, C24_nan, C24_tiny_load_factor, C25_fadvise, C26_rekey_log, C26_short_key_file, C27_data_file_only, C41_push, C41_splice, C41_walk, C43_moved, C52_starts, C55_win32_zero, C56_create_partial, C56_open_partial, C56_silent, C56_violated, C58_rekey_violated, C64_create, C69_assign_violated, C69_move_violated, C69_swap_violated, C70_close_partial, C70_close_violated, C70_create_partial, C70_fetch_partial, C70_found_violated, C70_insert_violated, C70_open_violated, C70_others_partial, C70_others_violated, C83_size, C83_sync, Handle.C76_rekey_violated, Nested.C72_insert_violated |
| `propext`, `Quot.sound` | C10_no_log, C11_inert, C25_cleanup_partial, C30_stuck_witness, C38_late, C39_write, C41, C41_erase, C55_read_ends, C55_size, C55_stuck, C55_sync, C55_write_ends, C58_create_partial, C64_more_rounds, C67_created_violated, C68_equal, C68_foreign, C70_fetch_violated, C70_insert_partial, C70_not_indifferent, C70_open_partial, C70_violated, C71_apart_partial, C71_end_partial, C71_index, C71_partial, C71_small_partial, C71_wide_partial, C78, C78_commit, C78_memory, C78_reached, C79_negative, C79_violated, C81_undefined, C82_violated, C83_commit, C83_covered, C84_items, C84_seeds, C85_fdec, C85_fhist, C86_violated, C87_alone, C87_copy, C88_display, C88_round_partial, C89_create_violated, Handle.C76_close_violated, Handle.C76_destroy, Handle.C76_functions, Handle.C76_partial, Handle.C76_reopen_violated, Nested.C72_fetch_violated, Sched.C40, Sched.C40_closed, Sched.C40_drained, Sched.C40_round, Sched.C74_close_call, Sched.C74_close_violated, Sched.C74_partial, Sched.C74_witness, Sched.C77_destructor, Sched.C77_enter_violated, Sched.C77_flush_violated, Sched.C77_lost_violated, Sched.C77_second_violated, Throttle.C61_bounded, Throttle.C61_measured, Throttle.C61_unmeasured |
| `propext`, `Classical.choice`, `Quot.sound` | all other theorems in MANIFEST.json (272) |

## 7. Mutation tests

`seeded/LOG.jsonl` has one line per wrong program: definition, edit, broken claim, theorems whose
proofs failed, property theorems lost with them, theorems tightened. Survivors and what
was done about them are in the `note` fields.
