{"id": "C01", "title": "A successful insert is visible to every later fetch", "statement": "If insert(k,v) returned without error and no error, crash or close has happened since, then fetch(k) invokes the callback exactly once, with exactly the bytes of v, no matter how many other keys were inserted and how often buffered data was flushed to the files in between.", "quantifier": "every key, every value, every hash function, every valid block size and load factor, every finite history of insert/fetch/flush between the insert and the fetch", "why_tests_cant": "Whether a key is found depends on which buckets were split, spilled, cached or rewritten in between; the number of such histories is unbounded and tests only sample random ones.", "anchors": ["include/nudb/impl/basic_store.ipp: basic_store::fetch, insert, commit, split, load", "include/nudb/basic_store.hpp: fetch, insert", "include/nudb/detail/bucket.hpp"]}
{"id": "C02", "title": "A key that was never inserted is never found", "statement": "fetch(k) for a key that was not inserted reports key_not_found and never invokes the callback, even if k has the same hash as stored keys.", "quantifier": "every key, every database reachable by any history, every hash function (including constant ones)", "why_tests_cant": "Needs absence of false positives for every key outside an arbitrary set under arbitrary hash collisions.", "anchors": ["include/nudb/impl/basic_store.ipp: fetch", "include/nudb/basic_store.hpp: fetch"]}
{"id": "C03", "title": "Keys are unique and values immutable", "statement": "insert(k,_) reports key_exists whenever k was already inserted, wherever the earlier value lives now (insert buffer, buffer being flushed, files), and leaves every stored value unchanged; hence the value associated with a key never changes.", "quantifier": "every history and every key/value pair", "why_tests_cant": "The duplicate check consults four places (two pools, cache, files with spill chains); all combinations of placement and collision cannot be enumerated.", "anchors": ["include/nudb/impl/basic_store.ipp: insert, exists", "include/nudb/basic_store.hpp: insert"]}
{"id": "C04", "title": "Clean close then open preserves exactly the stored pairs", "statement": "After close() returned without error, open() on the same files succeeds and afterwards fetch answers exactly as before the close for every key: present keys return their value, absent ones key_not_found.", "quantifier": "every reachable database and every key", "why_tests_cant": "Quantifies over all databases and all keys, including layouts only reached after many splits and spills.", "anchors": ["include/nudb/impl/basic_store.ipp: open, close, commit", "include/nudb/impl/recover.ipp"]}
{"id": "C05", "title": "The store refines a finite map", "statement": "Starting from a freshly created database, any sequence of insert, fetch, background flush, close and open operations returns the results that a mathematical insert-only map from keys to values would return.", "quantifier": "every finite operation sequence, every hash function, every key size 1..65535, every block size and load factor accepted by create", "why_tests_cant": "Unbounded histories and unbounded parameter space.", "anchors": ["include/nudb/basic_store.hpp", "include/nudb/impl/basic_store.ipp", "include/nudb/impl/create.ipp", "include/nudb/impl/recover.ipp"]}
{"id": "C06", "title": "A commit interrupted by a crash is all-or-nothing", "statement": "If the process or the machine dies at any point while buffered inserts are being committed, then after recover() the database contains either exactly the pairs it contained before the commit or exactly those plus all pairs of the commit; never a part, never damage to older pairs.", "quantifier": "every crash point between or inside any file operation of the commit, every content of the commit, every subset of unsynced data/key file bytes reaching the disk and every prefix of the unsynced log bytes reaching the disk", "why_tests_cant": "Crash points times persistence outcomes are astronomically many; the test suite only fails the n-th file operation and never drops unsynced writes.", "anchors": ["include/nudb/impl/basic_store.ipp: commit", "include/nudb/impl/recover.ipp: recover", "include/nudb/detail/format.hpp: log_file_header"]}
{"id": "C07", "title": "A completed commit is durable", "statement": "Once a flush or close has completed without error, all pairs inserted before it survive any later crash and recovery.", "quantifier": "every history, every later crash point, every persistence outcome", "why_tests_cant": "Requires that no future execution can roll back behind a finished commit.", "anchors": ["include/nudb/impl/basic_store.ipp: commit, close", "include/nudb/impl/recover.ipp"]}
{"id": "C08", "title": "Recovery may itself be interrupted any number of times", "statement": "If recover() crashes or fails at any point, any number of times in a row, a later undisturbed recover() still produces the same final database as an undisturbed first run would have been allowed to produce.", "quantifier": "every number of interruptions, every crash point inside recover, every persistence outcome", "why_tests_cant": "Nested crashes of unbounded depth.", "anchors": ["include/nudb/impl/recover.ipp: recover"]}
{"id": "C09", "title": "Rollback is byte-exact", "statement": "When recover() rolls a commit back, the data file and the key file are byte for byte what they were before the interrupted commit started, and no log file is left.", "quantifier": "every interrupted commit", "why_tests_cant": "Equality of whole files over all interrupted executions.", "anchors": ["include/nudb/impl/recover.ipp: recover", "include/nudb/detail/bucket.hpp: bucket_t::write, read"]}
{"id": "C10", "title": "Recovery is a no-op on a cleanly closed database", "statement": "recover() on a database without log file, or with an empty or incomplete log header, changes neither data nor key file and reports success; a second recover() after a successful one changes nothing.", "quantifier": "every pair of well formed files", "why_tests_cant": "All databases.", "anchors": ["include/nudb/impl/recover.ipp: recover"]}
{"id": "C11", "title": "After a failed commit the store is inert", "statement": "Once an I/O failure occurred while committing, every later fetch and insert on the open store reports that same failure without invoking callbacks or accepting data, close() reports it, and none of flush, insert, fetch, close writes to any file any more.", "quantifier": "every failing file operation, every later operation sequence until reopen", "why_tests_cant": "All subsequent histories.", "anchors": ["include/nudb/impl/basic_store.ipp: fetch, insert, flush, close, commit"]}
{"id": "C12", "title": "I/O errors never damage previously committed data", "statement": "If any file operation of a commit fails (including writes that were partially applied), reopening the database yields all previously committed pairs unchanged, and either all or none of the pairs of the failed commit.", "quantifier": "every position of the failing operation, every length of the partially applied write", "why_tests_cant": "Failure position and partial length are unbounded.", "anchors": ["include/nudb/impl/basic_store.ipp: commit", "include/nudb/impl/recover.ipp", "include/nudb/impl/posix_file.ipp: write"]}
{"id": "C13", "title": "The data file is append-only", "statement": "No store operation changes a byte of the data file that existed when it started; the file only grows, except that recovery cuts it back to the size recorded before the interrupted commit.", "quantifier": "every operation, every state, including failing and crashing executions", "why_tests_cant": "Universally quantified over executions and file positions.", "anchors": ["include/nudb/impl/basic_store.ipp: commit, split", "include/nudb/detail/bucket.hpp: maybe_spill", "include/nudb/impl/rekey.ipp"]}
{"id": "C14", "title": "Hash quality never affects correctness", "statement": "All results of fetch and insert are independent of the hash function used, including ones that map all keys to the same value; hash collisions affect only performance.", "quantifier": "every function from (seed, bytes) to 64-bit values", "why_tests_cant": "Function-valued quantifier.", "anchors": ["include/nudb/impl/basic_store.ipp: fetch, exists", "include/nudb/detail/bucket.hpp: lower_bound", "include/nudb/detail/format.hpp: hash"]}
{"id": "C15", "title": "Lookups terminate", "statement": "On every database produced by the library, fetch and insert finish after finitely many file reads: chains of overflow buckets never loop.", "quantifier": "every reachable database and key", "why_tests_cant": "Non-termination cannot be observed by a test, and all reachable databases are quantified.", "anchors": ["include/nudb/impl/basic_store.ipp: fetch, exists, split", "include/nudb/detail/bucket.hpp: maybe_spill"]}
{"id": "C16", "title": "No memory-unsafe bucket access on library-produced files", "statement": "While operating on files produced by the library, bucket manipulation never reads or writes outside its buffer, no assertion fires and no uninitialised size is used, provided the data file stays below 2^48 bytes.", "quantifier": "every operation on every reachable database", "why_tests_cant": "All reachable bucket fill states.", "anchors": ["include/nudb/detail/bucket.hpp", "include/nudb/impl/basic_store.ipp", "include/nudb/impl/rekey.ipp"]}
{"id": "C17", "title": "File headers survive a round trip", "statement": "Reading back a data, key or log file header that was written yields the same fields, for all field values that fit the documented widths, and the headers occupy exactly 92, 104 and 62 bytes.", "quantifier": "all field values", "why_tests_cant": "2^300 header values.", "anchors": ["include/nudb/detail/format.hpp: read, write (dat_file_header, key_file_header, log_file_header)", "include/nudb/detail/stream.hpp"]}
{"id": "C18", "title": "Integers are stored big-endian without loss", "statement": "Every unsigned integer that fits the field width (8,16,24,32,48,64 bits) is read back unchanged from the bytes written, most significant byte first; every byte string of the width is the encoding of exactly one value.", "quantifier": "all values of all widths", "why_tests_cant": "Up to 2^64 values.", "anchors": ["include/nudb/detail/field.hpp: write, readp, read"]}
{"id": "C19", "title": "Buckets survive a round trip", "statement": "Writing a bucket to a key file block, to a spill record or to a log record and reading it back yields the same entries in the same order and the same overflow link; unused bytes of a key file block are zero.", "quantifier": "all buckets up to capacity for all block sizes", "why_tests_cant": "Arbitrary contents and capacities.", "anchors": ["include/nudb/detail/bucket.hpp: read, write, update, at"]}
{"id": "C20", "title": "In-bucket search is correct", "statement": "Looking up a hash in a bucket finds the first entry with an equal or larger hash, so that scanning from there visits exactly the entries with that hash; insertion and removal keep entries ordered and lose none.", "quantifier": "every ordered bucket of every size, every hash", "why_tests_cant": "Binary search over unbounded arrays with duplicates.", "anchors": ["include/nudb/detail/bucket.hpp: lower_bound, insert, erase"]}
{"id": "C21", "title": "Growing the table moves items only between the split pair", "statement": "For every hash the chosen bucket is in range; when the table grows by one bucket an item either stays where it was or moves from the one designated bucket to the new last bucket.", "quantifier": "all 48-bit hashes, all bucket counts from 1", "why_tests_cant": "Unbounded table sizes.", "anchors": ["include/nudb/detail/bucket.hpp: bucket_index", "include/nudb/detail/format.hpp: ceil_pow2", "include/nudb/impl/basic_store.ipp: commit"]}
{"id": "C22", "title": "Bucket addressing does not depend on session boundaries", "statement": "The addressing parameters recomputed from the key file size on open are the same ones the previous session used when it stopped.", "quantifier": "every number of inserts and splits", "why_tests_cant": "All table sizes and histories.", "anchors": ["include/nudb/impl/basic_store.ipp: open, commit", "include/nudb/detail/format.hpp: ceil_pow2, read(key_file_header)"]}
{"id": "C23", "title": "The key file grows with the number of inserts as configured", "statement": "Within one session, after k inserted and flushed values the number of buckets has grown by exactly floor((t/2 + 65536*k)/t) where t = max(65536, load_factor*capacity) in 1/65536 units, independent of how the inserts are grouped into flushes; at most one bucket is added per insert.", "quantifier": "every k, every grouping, every configuration", "why_tests_cant": "Unbounded counts.", "anchors": ["include/nudb/impl/basic_store.ipp: open, commit"]}
{"id": "C24", "title": "create produces a valid empty database", "statement": "If create succeeds then open with the same hasher succeeds, reports the same application number, key size and block size, and no key is found.", "quantifier": "all application numbers, salts, uids, key sizes, block sizes and load factors", "why_tests_cant": "Parameter space; in particular values that do not fit the stored field width.", "anchors": ["include/nudb/impl/create.ipp: create", "include/nudb/create.hpp", "include/nudb/impl/basic_store.ipp: open, appnum, key_size, block_size"]}
{"id": "C25", "title": "create never destroys existing files and cleans up after itself", "statement": "create reports an error and leaves pre-existing files untouched if any of the three paths exists; if it fails for any other reason the files it made are removed.", "quantifier": "every initial file system state, every failing file operation", "why_tests_cant": "All failure positions and initial states.", "anchors": ["include/nudb/impl/create.ipp: create", "include/nudb/native_file.hpp: erase_file"]}
{"id": "C26", "title": "open rejects foreign files without modifying them", "statement": "open reports an error and leaves data and key file untouched if either header has a wrong signature or version, or if the two files disagree in uid, application number or key size, or if the hash function does not match the one used at creation (as far as it hashes the salt differently).", "quantifier": "all header contents", "why_tests_cant": "All possible header bytes.", "anchors": ["include/nudb/impl/basic_store.ipp: open", "include/nudb/detail/format.hpp: verify", "include/nudb/impl/recover.ipp"]}
{"id": "C27", "title": "visit enumerates exactly the stored pairs", "statement": "visit on a library-produced data file invokes the callback exactly once for every stored pair, with the right key and value, in the order they were written, skipping overflow records, without using the key file.", "quantifier": "every reachable data file", "why_tests_cant": "All interleavings of value and overflow records, all buffer boundaries of the sequential reader.", "anchors": ["include/nudb/impl/visit.ipp: visit", "include/nudb/visit.hpp", "include/nudb/detail/bulkio.hpp: bulk_reader"]}
{"id": "C28", "title": "visit reports damage and callback errors", "statement": "visit stops at the first error set by the callback and reports it; on a truncated data file it reports an error code.", "quantifier": "every callback, every truncation point", "why_tests_cant": "All truncation points and callbacks.", "anchors": ["include/nudb/impl/visit.ipp: visit", "include/nudb/detail/stream.hpp: istream_t::data"]}
{"id": "C29", "title": "rekey rebuilds an equivalent key file", "statement": "After a successful rekey the database made of the data file and the new key file answers every fetch like the original one; the previous bytes of the data file are unchanged; the result does not depend on the buffer size.", "quantifier": "every reachable data file, every new block size/load factor/item count, every buffer size, every hash function", "why_tests_cant": "All databases and parameters.", "anchors": ["include/nudb/impl/rekey.ipp: rekey", "include/nudb/rekey.hpp"]}
{"id": "C30", "title": "An interrupted rekey is undone by recover", "statement": "If rekey is interrupted at any point after its log was written, recover() restores the data file byte for byte and removes the incomplete key file.", "quantifier": "every crash point and persistence outcome, including crashes of that recover itself", "why_tests_cant": "All crash points; nested crashes.", "anchors": ["include/nudb/impl/rekey.ipp: rekey", "include/nudb/impl/recover.ipp: recover"]}
{"id": "C31", "title": "rekey refuses to run over an existing key or log file", "statement": "If a log file or the target key file exists, rekey reports an error and changes no existing file.", "quantifier": "every initial file system state", "why_tests_cant": "All states.", "anchors": ["include/nudb/impl/rekey.ipp: rekey", "include/nudb/rekey.hpp"]}
{"id": "C32", "title": "A completed rekey is durable", "statement": "Once rekey has returned without error the rebuilt database survives a crash.", "quantifier": "every persistence outcome after completion", "why_tests_cant": "Tests never drop unsynced writes.", "anchors": ["include/nudb/impl/rekey.ipp: rekey"]}
{"id": "C33", "title": "verify accepts every valid database", "statement": "verify on every library-produced database reports success with the true numbers of values, buckets, overflow records and bytes, whichever algorithm the buffer size selects.", "quantifier": "every reachable database, every buffer size", "why_tests_cant": "All databases.", "anchors": ["include/nudb/impl/verify.ipp: verify_normal, verify_fast, verify", "include/nudb/verify.hpp"]}
{"id": "C34", "title": "verify success implies every stored value can be fetched", "statement": "If verify reports success for arbitrary files then every value record in the data file is listed in the bucket its key hashes to, and every listed item refers to a value record.", "quantifier": "all file contents whatsoever, including corrupted ones", "why_tests_cant": "Soundness of a checker over all inputs.", "anchors": ["include/nudb/impl/verify.ipp: verify_normal, verify_fast"]}
{"id": "C35", "title": "verify detects duplicate keys", "statement": "verify reports an error when the data file contains two value records with equal keys, as its documentation promises.", "quantifier": "all files", "why_tests_cant": "All files; needs a counterexample or a proof.", "anchors": ["include/nudb/verify.hpp: verify", "include/nudb/impl/verify.ipp"]}
{"id": "C36", "title": "Concurrent fetches are linearizable with flushes and inserts", "statement": "Under every interleaving of any number of fetching threads with inserting threads and the flushing thread, each fetch returns a result that is correct at some moment between its call and its return; in particular an inserted key is never temporarily invisible.", "quantifier": "every schedule of any number of threads, every history", "why_tests_cant": "Schedules cannot be enumerated or forced by tests.", "anchors": ["include/nudb/impl/basic_store.ipp: fetch, commit", "include/nudb/detail/gentex.hpp", "include/nudb/detail/cache.hpp"]}
{"id": "C37", "title": "Concurrent inserts of the same key: exactly one wins", "statement": "If several threads insert the same absent key concurrently, with flushes at any moment, exactly one insert succeeds, the others report key_exists, and the stored value is the winner's.", "quantifier": "every schedule of any number of inserting threads and flushes", "why_tests_cant": "Schedules.", "anchors": ["include/nudb/impl/basic_store.ipp: insert, commit"]}
{"id": "C38", "title": "Key file blocks are never read while being overwritten", "statement": "A thread reading a key file block never overlaps with the flushing thread writing that block, so it never sees a torn block; the flushing thread does not wait for readers that started after it announced the write.", "quantifier": "every schedule", "why_tests_cant": "Schedules.", "anchors": ["include/nudb/detail/gentex.hpp: gentex", "include/nudb/impl/basic_store.ipp: commit, fetch, insert"]}
{"id": "C39", "title": "Buffered sequential I/O is transparent", "statement": "Reading through the sequential reader returns the bytes of the file in order for every sequence of request sizes and every buffer size, and fails exactly if a request goes past the end; writing through the sequential writer followed by a flush leaves the concatenation of all pieces in the file.", "quantifier": "every file, every buffer size, every sequence of request sizes", "why_tests_cant": "All chunk boundaries.", "anchors": ["include/nudb/detail/bulkio.hpp: bulk_reader, bulk_writer", "include/nudb/detail/buffer.hpp"]}
{"id": "C40", "title": "The flush scheduler serves every open store and no closed one", "statement": "In each round the scheduler starts one flush for every registered store; once close has unregistered a store no flush of it is running or will start.", "quantifier": "every number of stores and threads, every schedule", "why_tests_cant": "Schedules.", "anchors": ["include/nudb/impl/context.ipp: context::run, flush, insert, erase, flush_one", "include/nudb/detail/store_base.hpp"]}
{"id": "C41", "title": "The scheduler's list operations are list operations", "statement": "The intrusive doubly linked list used to register stores behaves as a sequence: push_back appends, erase removes exactly the given element, splicing moves one sequence in front of the end of another; forward and backward links stay consistent.", "quantifier": "every list and element", "why_tests_cant": "Unbounded pointer structures.", "anchors": ["include/nudb/detail/store_base.hpp", "include/nudb/context.hpp: context::list", "include/nudb/impl/context.ipp: list"]}
{"id": "C42", "title": "Memory handed out for buffered values never overlaps", "statement": "Blocks returned by the insert buffer allocator are disjoint, 8-byte aligned relative to their block, inside memory owned by the allocator, and stay valid until clear().", "quantifier": "every sequence of allocation sizes", "why_tests_cant": "Unbounded sequences.", "anchors": ["include/nudb/detail/arena.hpp: arena_t::alloc, clear, swap"]}
{"id": "C43", "title": "The insert buffer is an ordered map", "statement": "The insert buffer returns for each key the value inserted for it, iterates in ascending key order, and reports the exact number of buffered items and bytes; swapping exchanges two buffers.", "quantifier": "every sequence of inserts", "why_tests_cant": "Unbounded.", "anchors": ["include/nudb/detail/pool.hpp: pool_t"]}
{"id": "C44", "title": "Hash values do not depend on memory alignment or byte order of the machine", "statement": "xxhasher yields the same 64-bit value for the same bytes and seed whatever the address of the buffer and the endianness of the machine, so files can be moved between machines.", "quantifier": "every byte string, seed, address alignment and byte order", "why_tests_cant": "Unbounded inputs; big-endian hardware is not available to the tests.", "anchors": ["include/nudb/detail/xxhash.hpp: XXH64, XXH64_endian_align", "include/nudb/xxhasher.hpp", "include/nudb/detail/format.hpp: pepper, to_little_endian"]}
{"id": "C45", "title": "A torn log is harmless", "statement": "If the log ends in the middle of its header or of a record, recover ignores the incomplete tail, and the result is still the pre-commit database.", "quantifier": "every truncation point of every log produced by a commit", "why_tests_cant": "All truncation points of all logs.", "anchors": ["include/nudb/impl/recover.ipp: recover", "include/nudb/detail/bulkio.hpp: bulk_reader::prepare"]}
{"id": "C46", "title": "Progress reports are monotone and bounded", "statement": "The progress callback of rekey, visit and verify receives non-decreasing amounts not exceeding the reported total.", "quantifier": "every database and buffer size", "why_tests_cant": "All databases.", "anchors": ["include/nudb/impl/rekey.ipp", "include/nudb/impl/visit.ipp", "include/nudb/impl/verify.ipp", "include/nudb/progress.hpp"]}
{"id": "C47", "title": "Recovery survives log space that was allocated but never written", "statement": "If the machine dies while the log is being written and the file system kept the new log size but not the log content (reads back zeros), recover still yields the pre-commit database.", "quantifier": "every crash point, every subset of unsynced log bytes", "why_tests_cant": "Tests never model metadata reaching the disk before data.", "anchors": ["include/nudb/impl/recover.ipp: recover", "include/nudb/impl/basic_store.ipp: commit"]}
{"id": "C48", "title": "recover rejects corrupt logs without damage", "statement": "For a log file with arbitrary content recover either applies it or reports an error, and never accesses memory out of bounds.", "quantifier": "all log file contents", "why_tests_cant": "All byte strings.", "anchors": ["include/nudb/impl/recover.ipp: recover", "include/nudb/detail/bucket.hpp: bucket_t::read(bulk_reader)"]}
{"id": "C49", "title": "Files have the documented format", "statement": "After every history that leaves the database closed, and after every successful rekey, the data file is a header followed by value and overflow records and the key file is a header followed by buckets, exactly as documented: each key appears in exactly one value record, each value record in exactly one item, and that item is in the chain of the bucket its hash selects, with its offset, size and hash; unused space is zero.", "quantifier": "every reachable database, all parameters of create and rekey", "why_tests_cant": "All histories, keys, hash functions and block sizes.", "anchors": ["include/nudb/detail/format.hpp", "include/nudb/detail/bucket.hpp", "include/nudb/impl/basic_store.ipp: commit", "include/nudb/impl/rekey.ipp"]}
{"id": "C50", "title": "While a thread serves the context, flush rounds keep being started", "statement": "Whenever at least one thread executes context::run and the context has not been told to stop, one of these threads is the one that starts the rounds, so that inserted data is flushed about every second.", "quantifier": "every number of threads and stores, every schedule of run, start, stop_all, flush, open and close", "why_tests_cant": "Schedules; the failing one needs two threads to enter run while stop_all is joining the internal thread.", "anchors": ["include/nudb/impl/context.ipp: context::run, start, stop_all"]}
{"id": "C51", "title": "Concurrent use never deadlocks and fails no assertion", "statement": "Under every interleaving of any number of fetching and inserting threads with flushes, a thread inside a call can make its next step, or it waits for a mutex held by another thread, and then some thread inside a call can make its next step; the flushing thread can make its next step or waits for such a thread. No assertion fails and there is no undefined behaviour, as long as no file operation fails and the file format's limits are not reached.", "quantifier": "every schedule of any number of threads and flushes", "why_tests_cant": "Schedules; deadlocks need rare combinations of lock holders.", "anchors": ["include/nudb/impl/basic_store.ipp: fetch, insert, commit, flush", "include/nudb/detail/gentex.hpp"]}
{"id": "C52", "title": "Everything holds on over the whole life of a database, across rekeys", "statement": "A database is created, used, closed, rebuilt by rekey with other parameters (after any number of interrupted attempts, each followed by recover), used again, and so on. Over its whole life all results are those of one finite map whose keys are only ever added: a pair that was inserted is found later, also after rekey; and a pair that was inserted before a successful flush or close survives every later crash, failure, power loss and rekey. While there is no key file no data is lost, and rekey succeeds as soon as it is not disturbed.", "quantifier": "every creation, all sequences of calls with any faults, crashes and power losses, any number of rekeys with any documented arguments", "why_tests_cant": "Tests rekey one fresh database once; they do not crash, rekey repeatedly, or continue to use the result.", "anchors": ["include/nudb/impl/rekey.ipp", "include/nudb/impl/recover.ipp", "include/nudb/impl/basic_store.ipp"]}
{"id": "C53", "title": "A crash while several threads use the store loses nothing that was flushed", "statement": "Several threads call fetch and insert on one store while flushes run in the background. If at any moment, also in the middle of a write, the process dies or power fails, and recover is run (itself possibly interrupted by further crashes), then the database holds exactly the pairs that were present at the beginning or at the moment some flush started: never a torn mixture, nothing that was not inserted. This moment is not before the start of any flush that has completed without an error, so a pair whose insert returned before such a flush started survives.", "quantifier": "every number of threads, every interleaving of their steps with those of the flusher, every failing file operation, every moment and kind of crash, any number of interrupted recoveries", "why_tests_cant": "Tests crash a store at file operations of a single thread; the moments at which other threads insert during the commit are not enumerated.", "anchors": ["include/nudb/impl/basic_store.ipp", "include/nudb/impl/recover.ipp", "include/nudb/detail/gentex.hpp"]}
{"id": "C54", "title": "Sessions of several threads and crashes during them are part of the life of a database", "statement": "At any time in the life of a database (created, used, crashed, rebuilt by rekey, used again) several threads may use the open store while flushes run in the background; the session ends when all calls have returned, or the process dies or power fails in the middle of it, and life goes on. In every session the threads observe what the one finite map of the database prescribes. A pair that some thread inserted is found in all later sessions as long as nothing fails; once a flush that started after the insert returned has completed, in the same session or later, the pair survives every later crash, failure, power loss, session and rekey. Whatever is ever found was passed to insert.", "quantifier": "every creation, all sequences of calls and of sessions with any number of threads, every interleaving, every failing file operation and moment of death, any number of rekeys", "why_tests_cant": "Tests run one kind of use on one fresh database; they do not alternate single-threaded use, concurrent use, crashes and rekeys.", "anchors": ["include/nudb/impl/basic_store.ipp", "include/nudb/impl/recover.ipp", "include/nudb/impl/rekey.ipp"]}
{"id": "C55", "title": "Signals and partial transfers of system calls are invisible", "statement": "The member functions read, write, sync, trunc and size of posix_file (read and write of win32_file) repeat system calls that are interrupted by signals or transfer fewer bytes than requested. Each behaves as one operation: it completes with exactly the requested bytes, reports the end of the file, or fails or dies having carried out an initial part of the write; what a power failure can make of the several pieces it could also have made of the single write. Hence any program has, through posix_file, only results that it has with the single operations. The loops end when enough system calls make progress.", "quantifier": "all sequences of outcomes of system calls, all offsets, sizes and file contents, all programs", "why_tests_cant": "A test cannot make the operating system interrupt or shorten chosen system calls.", "anchors": ["include/nudb/impl/posix_file.ipp", "include/nudb/impl/win32_file.ipp"]}
{"id": "C56", "title": "open and create report the reason of a failure", "statement": "If posix_file::open or posix_file::create fails, the error code is the reason of the failure, and if it succeeds no error is reported; in particular no_such_file (file_exists) is reported only if the file is missing (exists), which recovery and create rely on.", "quantifier": "all outcomes of the system calls, all values of errno before the call", "why_tests_cant": "A failing posix_fadvise cannot be provoked, nor can errno be chosen.", "anchors": ["include/nudb/impl/posix_file.ipp"]}
{"id": "C57", "title": "Commit uses memory as intended", "statement": "In a commit, caches hand out pointers to blocks, bucket objects keep counters next to the memory they point to, buffers are reused, and streams write into the write buffer without a test. Still every stream is filled with exactly as many bytes as were prepared, nothing is stored outside of a block or buffer, no two buckets share memory, no bucket object is used after its block was changed through another one, and nothing depends on the content of fresh or stale memory. So a flush issues the same file operations and leaves the same store as if buckets and records were values.", "quantifier": "all histories of a database including crashes, failures and rekeys, all schedules of failures, all contents of fresh memory", "why_tests_cant": "Stale pointers and gaps show only for particular sequences of splits and spills, and depend on what memory contains.", "anchors": ["include/nudb/impl/basic_store.ipp", "include/nudb/detail/bucket.hpp", "include/nudb/detail/cache.hpp", "include/nudb/detail/bulkio.hpp", "include/nudb/detail/stream.hpp"]}
{"id": "C58", "title": "Unusable parameters are refused", "statement": "create and rekey refuse parameters that cannot work (key size zero, block sizes that do not fit 16 bits or cannot hold the key file header, load factors not between zero and one, zero buckets) with the fitting error before they touch a file, and do not refuse others.", "quantifier": "all parameters, all states of the file system, all schedules of failures", "why_tests_cant": "Parameter space.", "anchors": ["include/nudb/impl/create.ipp: create", "include/nudb/impl/rekey.ipp: rekey"]}
{"id": "C59", "title": "No data races", "statement": "While a store is open, fetch, insert, set_burst and the observers may be called by any number of threads while any number of threads of the context flush: any two accesses of the same memory location by different threads, of which one is a write, are ordered by mutexes or by the atomic flag (data race freedom in the sense of the C++ standard).", "quantifier": "all numbers of threads, all sequences of calls, all interleavings of single accesses, all failures of file operations", "why_tests_cant": "A race detector sees the interleavings that happen; the accesses in error paths overlap with others only for moments.", "anchors": ["include/nudb/impl/basic_store.ipp: fetch, insert, exists, commit, flush", "include/nudb/detail/gentex.hpp", "include/nudb/impl/context.ipp: flush_one"]}
{"id": "C60", "title": "Reading functions use memory as intended", "statement": "Streams returned by bulk_reader point to the right bytes until the next request, however the buffer is moved or replaced; the buckets that rekey and verify keep in one buffer do not overlap in use; buffers that are reused show no old content. So visit, recover, open, fetch, insert, rekey and verify do with pointers exactly what they do with values.", "quantifier": "all sizes of buffers, all file contents, all sequences of requests and calls, all schedules of failures", "why_tests_cant": "A stale pointer often still points to the same bytes; old content of a buffer is visible only for particular contents.", "anchors": ["include/nudb/detail/bulkio.hpp: bulk_reader", "include/nudb/detail/stream.hpp: istream", "include/nudb/impl/rekey.ipp: rekey", "include/nudb/impl/verify.ipp", "include/nudb/impl/recover.ipp: recover", "include/nudb/visit.hpp", "include/nudb/impl/basic_store.ipp: fetch, insert, exists"]}
{"id": "C61", "title": "The insert buffer is bounded by throttling", "statement": "Once a flush larger than the burst size has been measured, the data buffered by insert never exceeds the larger of the burst size and what could be written at the measured rate since the last flush began, apart from one value for each 25 ms of that time and one more.", "quantifier": "all sequences of inserts by any number of threads, flushes and changes of the burst size, all timings, all sizes of values, all rounding of the floating point quotient", "why_tests_cant": "Depends on timing; memory runs out only under load on slow disks.", "anchors": ["include/nudb/impl/basic_store.ipp: insert, flush, set_burst"]}
{"id": "C62", "title": "Damaged files cannot make the store misuse memory", "statement": "Whatever bytes the data file and the key file hold when a store is opened, with or without a log to recover from whose records fit into a block, and whatever replaces them while it is open, no call of open, insert, fetch, flush or close and no rekey accesses memory out of bounds or lets an internal exception escape; it returns a result or an error, fails an assertion or does not end.", "quantifier": "all contents of the data file and key file at any time, all logs whose records fit into a block, all sequences of calls, all faults of the file system, all hash functions", "why_tests_cant": "Needs every combination of corrupted counts, links, sizes and offsets.", "anchors": ["include/nudb/detail/bucket.hpp: read", "include/nudb/impl/basic_store.ipp", "include/nudb/detail/format.hpp: verify", "include/nudb/impl/rekey.ipp"]}
{"id": "C63", "title": "verify is safe on damaged files", "statement": "verify, whose purpose is to find damage, does not access memory out of bounds whatever the data file and the key file contain.", "quantifier": "all contents of the data file and key file, all buffer sizes, all faults", "why_tests_cant": "Needs every combination of corrupted counts; an overrun may go unnoticed.", "anchors": ["include/nudb/impl/verify.ipp", "include/nudb/detail/bucket.hpp: read(bulk_reader)"]}
{"id": "C64", "title": "Loops end unless overflow records form a circle", "statement": "create, recover, open, visit and rekey end whatever the files contain. fetch, insert, flush, close and verify end whatever the files contain, unless overflow records in the data file refer to each other in circles.", "quantifier": "all contents of the files, damaged or not, all arguments, all schedules of faults", "why_tests_cant": "An endless loop needs a particular damaged file; tests use intact files.", "anchors": ["include/nudb/impl/basic_store.ipp: fetch, exists, split", "include/nudb/impl/recover.ipp", "include/nudb/impl/rekey.ipp", "include/nudb/impl/verify.ipp", "include/nudb/impl/visit.ipp"]}
{"id": "C65", "title": "Bytes do not change while a thread reads them", "statement": "While a thread in fetch or insert reads bytes of the data file or the key file, the flushing thread changes none of these bytes, for as long as the read takes; and these bytes are there. So a read that is not atomic, or overlaps with writes in any way, yields the same bytes as one that happens at once.", "quantifier": "all interleavings of any number of fetching and inserting threads with flushes, with failing file operations", "why_tests_cant": "Operating systems usually make small reads look atomic; a test would need a file system that tears them at the right moment.", "anchors": ["include/nudb/impl/basic_store.ipp: fetch, insert, exists, commit", "include/nudb/detail/gentex.hpp"]}
{"id": "C66", "title": "Calls return and flushes complete", "statement": "Every fetch returns, whatever other threads and the flushing thread do, as long as its own thread is scheduled. As long as some call is running some call returns later; when no more calls are made all calls return; and a flush completes, also while calls go on as long as there are moments at which the lock is free. (A single insert may wait forever for the lock that serialises inserts if other threads keep inserting and always get it first.)", "quantifier": "all infinite executions of any number of threads with flushes under a fair scheduler; failing file operations allowed, except that completion of a flush is claimed without them", "why_tests_cant": "A test observes finite executions of some schedules; that something happens eventually in all of them cannot be observed.", "anchors": ["include/nudb/impl/basic_store.ipp: fetch, insert, exists, commit, flush", "include/nudb/detail/gentex.hpp"]}
{"id": "C67", "title": "Removal of the log file need not be durable", "statement": "The library never syncs a directory. Nevertheless nothing depends on the removal of the log file reaching the disk: when a log file is removed it is already empty and synced, so that if it is back after a power failure it is empty, and recovery ignores it.", "quantifier": "all histories of open, insert, fetch, flush and close with arbitrary faults and power failures; every removal of a log file by these calls, by recover on arbitrary files, and by rekey", "why_tests_cant": "Tests neither cut the power nor undo the removal of files, and there are many points in time at which this can happen.", "anchors": ["include/nudb/impl/basic_store.ipp: close, commit", "include/nudb/impl/recover.ipp: clear_log", "include/nudb/impl/rekey.ipp: end"]}
{"id": "C68", "title": "Error codes are unambiguous", "statement": "Each error of the library has a number of its own, different from 0, which means success, and a non-empty message of its own, which is not the message of success or of an unknown number. A code compares equal to a condition of the library exactly if it is the code of the library with the same number; every code equals its own default condition.", "quantifier": "all errors, all numbers, all codes of other categories", "why_tests_cant": "A test compares some codes; two errors with the same number or text are noticed only if the test happens to compare them.", "anchors": ["include/nudb/error.hpp: error", "include/nudb/impl/error.ipp: nudb_category"]}
{"id": "C69", "title": "A generation lock gives back what it took", "statement": "However locks of type genlock are made, moved, exchanged, locked, unlocked and destroyed, the counters of the gentex tell at every moment how many locks hold the current generation and how many hold an older one, so that finish waits exactly as long as a lock holds an older generation.", "quantifier": "all programs over any number of locks, interleaved with any number of starts of a generation", "why_tests_cant": "The counts are wrong only after particular sequences of moves and generations, and the effect is a flush that waits forever or not long enough.", "anchors": ["include/nudb/detail/gentex.hpp: genlock, gentex_t"]}
{"id": "C70", "title": "An error code is an output only", "statement": "What a call does and reports depends on its arguments and on the state of the database, not on what the error code passed by reference contains before the call: after success it is clear, after failure it contains the error of this call.", "quantifier": "all calls of create, open, fetch, insert and close, all states, all previous contents of the error code, all faults", "why_tests_cant": "Tests pass a fresh error code to each call or stop at the first error.", "anchors": ["include/nudb/impl/basic_store.ipp: open, close, fetch, insert, exists", "include/nudb/impl/create.ipp", "include/nudb/impl/posix_file.ipp"]}
{"id": "C71", "title": "Every function finds a bucket at the same place", "statement": "The functions that read or write bucket n of a key file (fetch, insert, flush, recover, rekey, both algorithms of verify) all compute the address (n+1)*block_size, on every platform; hence blocks of different buckets do not overlap, and none overlaps the header. The key file made by rekey ends after the last bucket.", "quantifier": "all bucket numbers that bucket_index can yield, all block sizes, all widths of size_t", "why_tests_cant": "A product that wraps around needs a key file of more than 4 GiB, or 2^64 bytes; tests use small files.", "anchors": ["include/nudb/impl/basic_store.ipp: fetch, insert, load, commit", "include/nudb/impl/recover.ipp: recover", "include/nudb/impl/rekey.ipp: rekey", "include/nudb/impl/verify.ipp: verify_normal, verify_fast", "include/nudb/detail/bucket.hpp: bucket_index"]}
{"id": "C72", "title": "Callbacks of fetch may call the store", "statement": "fetch is safe to call concurrently with any function except close, and nothing forbids its callback to call the store. Whatever calls callbacks make, and however they are nested and interleaved with other threads and with flushes, calls do not wait for each other forever: every execution comes to an end with all calls returned.", "quantifier": "all numbers of threads, all sequences of calls and nested calls, all interleavings", "why_tests_cant": "Whether a callback runs with a lock held depends on whether the value is in memory; nested fetches wait for each other only if a writer arrives in between.", "anchors": ["include/nudb/impl/basic_store.ipp: fetch, insert, set_burst, commit, flush", "include/nudb/detail/gentex.hpp", "include/nudb/detail/mutex.hpp"]}
{"id": "C73", "title": "Lookups need few reads", "statement": "Between flushes, fetch and insert change no file and perform at most one read per bucket of the chain that the key belongs to plus one read per stored key with the same 48-bit hash, whether reads fail or not. So without overflow records and hash collisions an absent key costs at most one read and a present key at most two; a value that is still in memory costs none.", "quantifier": "all histories of a database, all keys, all hash functions, all faults", "why_tests_cant": "Tests observe results, not numbers of operations, and the bound concerns every distribution of keys over buckets.", "anchors": ["include/nudb/impl/basic_store.ipp: fetch, insert, exists", "README.md 204-205, 297", "doc/main.qbk 86-88"]}
{"id": "C74", "title": "A flush that throws harms no other store", "statement": "An exception thrown by the flush of one store (memory exhausted) does not disturb the flush scheduler: every store keeps to the rules of C40, all other stores are flushed as before, the store whose flush threw can be closed, and the context can be stopped.", "quantifier": "all executions with any number of threads and stores, and any set of flushes that throw", "why_tests_cant": "Exhausted memory inside a background thread is hard to provoke, and a wait that never ends cannot be told from a long one.", "anchors": ["include/nudb/impl/context.ipp: flush_one, run, flush, erase, stop_all", "include/nudb/detail/store_base.hpp: flush"]}
{"id": "C75", "title": "Locks and disk operations", "statement": "Locks are never held during disk reads and writes. Fetches are fully concurrent: a thread in fetch never waits for another one. Inserts are serialized. (README, Concurrency.)", "quantifier": "all executions of any number of threads calling fetch and insert with flushes running, all databases, all faults", "why_tests_cant": "Tests observe results, not which mutex is held while a file is read.", "anchors": ["include/nudb/impl/basic_store.ipp: fetch, insert, commit, flush", "README.md 328-333"]}
{"id": "C76", "title": "File handles", "statement": "Whatever operation fails and whatever the files contain, each file handle is used and closed only while it is open and closed once; create, recover, rekey, visit and verify close all that they opened; an open store has each of its three files open exactly once, and a store that is not open has none open, in particular after a close that fails (\"If an error occurs, the database is still closed\", basic_store.hpp). No file is opened or erased while it is open.", "quantifier": "all sequences of calls, all outcomes of all file operations, all contents of files", "why_tests_cant": "The tests' files do not count handles, and few error paths are reached.", "anchors": ["include/nudb/impl/posix_file.ipp 15-100", "include/nudb/impl/basic_store.ipp: open, close, ~basic_store", "include/nudb/impl/recover.ipp", "include/nudb/impl/rekey.ipp", "include/nudb/impl/create.ipp"]}
{"id": "C77", "title": "Stopping and destroying a context", "statement": "When stop_all returns, no thread executes run (the documentation: \"Halts execution of all threads. Blocks until all threads have completed any ongoing operation and have stopped\"), the thread made by start has been joined, and the context can be started again. stop_all returns once the threads serving the context have taken a bounded number of steps: it flushes only what was already queued, and nobody sleeps on unnotified. The destructor of a context that no thread uses throws exactly if a store is registered.", "quantifier": "all executions with any number of threads and stores and any interleaving", "why_tests_cant": "Which steps other threads take between the notification and the join depends on the interleaving; the tests stop contexts in a few schedules.", "anchors": ["include/nudb/impl/context.ipp 15-54", "include/nudb/impl/context.ipp 56-120", "include/nudb/context.hpp 34-72"]}
{"id": "C78", "title": "The work of a flush is bounded by what was inserted", "statement": "A flush of n inserted values reads at most 2n blocks of the key file, rewrites at most 3n whole blocks of it and no other byte, appends at most 62 + 2n(8 + block size) bytes to the log file, syncs at most five times and keeps at most 2n + 3n blocks in memory, whatever the size of the database and the contents of its files (README: \"memory usage [is] independent of the size of the database\").", "quantifier": "all stores, all contents of files and answers of the file system, all points of interruption", "why_tests_cant": "Tests measure a few databases; the bound is over all contents, including those where each insertion splits a bucket.", "anchors": ["include/nudb/impl/basic_store.ipp 468-578", "include/nudb/impl/basic_store.ipp 580-755", "include/nudb/detail/cache.hpp", "include/nudb/detail/bulkio.hpp 117-191", "README.md 29-36"]}
{"id": "C79", "title": "The statistics of verify describe the files", "statement": "The counters that verify reports for a closed database are determined by the files and the hash function; they do not depend on the buffer size, on the algorithm chosen, or on the content of uninitialised memory. The overflow records in use are distinct records of the data file, so that the waste, (spill_bytes_tot - spill_bytes) / dat_file_size, is between 0 and 1.", "quantifier": "every reachable closed database, all buffer sizes, all contents of fresh memory, all behaviours of the file system that let verify succeed", "why_tests_cant": "Tests run one buffer size on one database and print the statistics; the wrong ones depend on memory the allocator happens to return.", "anchors": ["include/nudb/impl/verify.ipp 27-276", "include/nudb/impl/verify.ipp 278-533", "include/nudb/verify.hpp"]}
{"id": "C80", "title": "avg_fetch is the mean cost of finding a value", "statement": "For a closed database that verify accepts, the reported number of fetches, the dividend of avg_fetch, equals the number of file operations that a freshly opened store makes to fetch each stored key once, less one operation per key, the one that reads the value itself.", "quantifier": "every reachable closed database, both algorithms of verify, all buffer sizes and hash functions, all stored keys", "why_tests_cant": "Tests print avg_fetch but never compare it with the reads that fetch makes; the two are computed by separate code.", "anchors": ["include/nudb/impl/verify.ipp 118-148", "include/nudb/impl/verify.ipp 395-440", "include/nudb/impl/basic_store.ipp 220-264", "include/nudb/impl/basic_store.ipp 356-408", "include/nudb/verify.hpp 99-100"]}
{"id": "C81", "title": "rekey makes as many buckets as the load factor asks for", "statement": "Called with the number of items in the data file, rekey makes the least number of buckets for which the items fill no more than the given load factor of their capacity; the computation is in single precision, and its result is defined and at least 1.", "quantifier": "all item counts from 1 to 2^47, all bucket capacities below 2^16, all load factors from 2^-16 to 1", "why_tests_cant": "Tests rekey a few thousand items, where single precision is exact; the error appears from 2^24 items on, and differs from one count to the next.", "anchors": ["include/nudb/impl/rekey.ipp 84-89", "include/nudb/rekey.hpp 63-70"]}
{"id": "C82", "title": "The quotients reported by verify", "statement": "For a closed database that verify accepts, no quotient in the report divides by zero, and up to the precision of float avg_fetch is the number of fetches per stored pair, overhead is the size of both files divided by the bytes of all pairs with their sizes, less 1, and not negative, actual_load is the number of pairs divided by the room in the buckets, and waste is the share of the data file in overflow records that are not in use, between 0 and 1.", "quantifier": "every reachable closed database, all buffer sizes, hash functions and behaviours of the file system that let verify succeed", "why_tests_cant": "Tests print the quotients; nothing compares them with the database, and waste depends on uninitialised memory.", "anchors": ["include/nudb/impl/verify.ipp 252-275", "include/nudb/impl/verify.ipp 509-532", "include/nudb/verify.hpp 90-112"]}
{"id": "C83", "title": "What the failures injected by fail_file cover", "statement": "With fail_file as the file type, every run of a program of the library ends like a run in which some file operations fail: same result, same contents. As the target goes up from 1 the failures of reads, syncs and truncations and two failures of every write (before the first byte and after half of the bytes) are met one by one in order, and with any larger target the run is undisturbed. Other failures (of size, of a write after another number of bytes, crashes) are never met, and nothing is ever synced.", "quantifier": "all programs made of file operations, in particular those of basic_store, all contents of the files, all targets", "why_tests_cant": "It is a statement about what the tests themselves cover.", "anchors": ["include/nudb/_experimental/test/fail_file.hpp 111-141", "include/nudb/_experimental/test/fail_file.hpp 267-337"]}
{"id": "C84", "title": "The random numbers and items of the tests", "statement": "The generator of the tests rejects the seed 0 only. Different seeds give different states at every step, no state is ever the fixed point 0, and the states come back to the first one without any repetition before. Every index of test_store but the largest 64-bit number has an item, with a key and value of the sizes asked for and drawn, made from a state that belongs to no other index; but with keys of one byte two of the first 257 items have the same key.", "quantifier": "all seeds, numbers of steps, indices, key sizes and distributions of sizes", "why_tests_cant": "The tests rely on it: two equal items, or a generator stuck at 0, would silently reduce what they cover.", "anchors": ["include/nudb/_experimental/test/xor_shift_engine.hpp 68-100", "include/nudb/_experimental/test/test_store.hpp 307-380"]}
{"id": "C85", "title": "The reports of the command line tool", "statement": "The numbers shown by the tool nudb are right: log2 is the number of the highest bit, decimal numbers have a comma before every three digits from the end, hexadecimal numbers of 64 bits have sixteen digits, and of a histogram only the zeros at its end are left out. On any data file `nudb visit` reports the number of pairs, and in entry i of the histogram the number of those whose value has at least 2^i and less than 2^(i+1) bytes, or a file operation failed and an error is reported; on a database these are exactly the stored pairs. `nudb info` recognises the files of a database and shows what was given to create. The number reported by `nudb visit`, given to `nudb rekey` after the key file was lost, restores a database with the same answers.", "quantifier": "all 64-bit numbers, data files, schedules of failures, histories of a store, buffer sizes and salts", "why_tests_cant": "The tool has no tests, and the numbers of pairs and sizes are unbounded.", "anchors": ["tools/nudb.cpp 285-502", "include/nudb/_experimental/util.hpp 20-88"]}
{"id": "C86", "title": "verify uses the algorithm that reads less", "statement": "With a buffer for at least two blocks and one counter, verify uses whichever of its two algorithms is expected to read fewer bytes: the normal one, which reads one block for each key, or the fast one, which reads the data file once for each group of buckets that fits in the buffer. With a smaller buffer it uses the normal one.", "quantifier": "all histories of a closed database, buffer sizes and schedules of failures", "why_tests_cant": "Both algorithms give the same answers, so a wrong choice shows only as time on large databases.", "anchors": ["include/nudb/impl/verify.ipp 599-629"]}
{"id": "C87", "title": "Iteration while the database is in use", "statement": "Since the data file is append only, there is no risk of other operations corrupting an iteration in progress: visit on the data file of a database in use succeeds and gives to the callback exactly the pairs that are in the data file when visit reads its size, each once and in the order of the file.", "quantifier": "all data files, all ways in which others append to the data file between any two file operations of visit, all callbacks and schedules of failures", "why_tests_cant": "The tests iterate over closed databases only, and the moments at which others append are not under the control of a test.", "anchors": ["doc/main.qbk (Iteration can be performed on the data file directly)", "include/nudb/impl/visit.ipp 23-92", "include/nudb/detail/bulkio.hpp 65-104"]}
{"id": "C88", "title": "The progress display of the command line tool", "statement": "While visit, rekey or verify run with the progress display of the tool, no member is used before it has a value; the first line is shown at least 30 seconds after the start and each further one at least a minute after the last; whenever work is reported, the last line shown is not older than a minute, or the work began less than 30 seconds before; and every line shows the amount and total of a report, the true time since the start and since the last line, the work done since the last line and the work that is left. The clock behind it is sampled at least every 900 milliseconds. Durations are rounded to the nearest number, downwards and upwards as the names of the functions say.", "quantifier": "all files, arguments, callbacks, schedules of failures and times of the reports by a clock that does not go back; all durations", "why_tests_cant": "The display depends on time and has no tests; the lines depend on when the reports come.", "anchors": ["include/nudb/_experimental/util.hpp 215-284", "include/nudb/_experimental/chrono_util.hpp 15-56", "include/nudb/_experimental/basic_seconds_clock.hpp 87-104", "tools/nudb.cpp 395-482"]}
{"id": "C89", "title": "The example program", "statement": "The program of the documentation and of examples/example.cpp creates a database, opens the database, inserts several key/value pairs, fetches the key/value pairs, closes the database, then erases the database files. If it cannot do this, it ends without undefined behaviour or a failing assertion.", "quantifier": "all random numbers, hash functions, byte orders and contents of the directory, and all numbers of flushes by the background thread before each call", "why_tests_cant": "The example is compiled but its results are looked at by nobody, itself included; the moments of flushes are not under the control of a test.", "anchors": ["examples/example.cpp 12-46", "doc/main.qbk 151-160", "include/nudb/impl/create.ipp 158-179"]}
{"id": "C90", "title": "The benchmark runs to its end", "statement": "The benchmark for NuDB, run without failures in its new directory, inserts every item of every batch and then fetches randomly chosen items among those inserted so far, each of which is found with its value; no call reports an error. For each batch it records one sample for inserts, with the number of items before the batch, and one for fetches, with the number after it, and its progress reports rise in steps of a batch up to the total.", "quantifier": "all command lines, hash functions, distributions of the standard library within their documented ranges, and numbers of flushes by the background thread before each call", "why_tests_cant": "The benchmark runs for a long time with random data and looks at no value that it fetches.", "anchors": ["bench/bench.cpp 57-157", "bench/bench.cpp 218-283", "include/nudb/_experimental/test/test_store.hpp 257-345"]}
{"id": "C91", "title": "The summary of the benchmark shows averages", "statement": "For a number of items the summary of the benchmark shows the average of the samples recorded for that number, or NA if there are none, without undefined behaviour.", "quantifier": "all lists of samples", "why_tests_cant": "The output depends on measured times; nobody compares it with the samples.", "anchors": ["bench/bench.cpp 501-517"]}
