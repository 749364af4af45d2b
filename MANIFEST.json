{"claims": [
{"property": "C01", "status": "proved", "theorems": ["NuDB.C01_fetch_inserted"], "note": "Sequential histories of a created database with any faults and crashes; the concurrent part is C36."},
{"property": "C02", "status": "proved", "theorems": ["NuDB.C02_fetch_absent"], "note": "Any reachable open store, any hash function."},
{"property": "C03", "status": "proved", "theorems": ["NuDB.C03_insert_existing"], "note": "insert reports key_exists and leaves the files alone; immutability of the value is C01."},
{"property": "C04", "status": "proved", "theorems": ["NuDB.C04_close_open"], "note": "Any reachable open store, close under any fault schedule that lets it succeed."},
{"property": "C05", "status": "proved", "theorems": ["NuDB.C05_histories", "NuDB.C05_answers", "NuDB.C05_fits"], "note": "Refinement of histories with faults and crashes, and equality of answers without faults. The only other outcome of a call is a failed assertion when the data file reaches 2^48 bytes or after 2^32 insertions; C05_fits excludes it by a bound on the inserted data."},
{"property": "C06", "status": "proved", "theorems": ["NuDB.C06_commit_atomic", "NuDB.C06_close_atomic"], "note": "Power loss persists unsynced changes of data and key file in any order, those of the log in order."},
{"property": "C07", "status": "proved", "theorems": ["NuDB.C07_durable"], "note": "After a flush or close that reported success, any later history and restart."},
{"property": "C08", "status": "partial", "theorems": ["NuDB.C08_recover_interrupted_partial", "NuDB.C08_violated", "NuDB.C08_witness"], "note": "Any number of attempts, crashes anywhere. Failing (not crashing) reads only for logs of up to 1024 blocks; longer logs with failing reads violate the claim (C08_violated, C08_witness)."},
{"property": "C09", "status": "proved", "theorems": ["NuDB.C09_rollback_exact"], "note": "Bytes of both files restored exactly, no log left."},
{"property": "C10", "status": "proved", "theorems": ["NuDB.C10_no_log", "NuDB.C10_twice"], "note": "C10_no_log for arbitrary files with valid headers, under any faults."},
{"property": "C11", "status": "proved", "theorems": ["NuDB.C11_inert", "NuDB.C11_history"], "note": "C11_inert for arbitrary stores and environments, C11_history for whole executions."},
{"property": "C12", "status": "proved", "theorems": ["NuDB.C12_failed_commit", "NuDB.C12_any_history"], "note": "Every fault schedule, partial writes included."},
{"property": "C13", "status": "proved", "theorems": ["NuDB.C13_append_only", "NuDB.C13_recover"], "note": "Every call, every outcome, every fault schedule and power loss; recover and open only cut the file to the logged size."},
{"property": "C14", "status": "proved", "theorems": ["NuDB.C14_any_hash", "NuDB.C14_fits"], "note": "Same answers for any two hash functions."},
{"property": "C15", "status": "proved", "theorems": ["NuDB.C15_lookups_end"], "note": "No endless loop, and a bound on the number of file operations."},
{"property": "C16", "status": "partial", "theorems": ["NuDB.C16_defined_partial", "NuDB.C16_recover", "NuDB.C16_lifetime_partial", "NuDB.C16_rekey_partial", "NuDB.C16_violated"], "note": "No undefined behaviour at all on files made by the library, over whole lives with rekeys. Assertions can fail only near the limit of 2^48 bytes, or if there may be more than 2^32 buckets (assertion in bucket_index). False as stated: that assertion fails for a data file of 92 bytes (witness)."},
{"property": "C17", "status": "proved", "theorems": ["NuDB.C17_dat", "NuDB.C17_key", "NuDB.C17_log"], "note": "Round trip and size of the three headers."},
{"property": "C18", "status": "proved", "theorems": ["NuDB.C18_u8", "NuDB.C18_u16", "NuDB.C18_u24", "NuDB.C18_u32", "NuDB.C18_u48", "NuDB.C18_u64"], "note": "Each field codec equals the positional big-endian encoding, both directions."},
{"property": "C19", "status": "proved", "theorems": ["NuDB.C19_key_block", "NuDB.C19_spill", "NuDB.C19_log"], "note": "Write and read back of a bucket through key file block, spill record (bulk writer) and log record, for all entries that fit the field widths."},
{"property": "C20", "status": "proved", "theorems": ["NuDB.C20_search", "NuDB.C20_insert", "NuDB.C20_erase"], "note": "Lower bound, insertion and removal on the bucket buffer."},
{"property": "C21", "status": "proved", "theorems": ["NuDB.C21_in_range", "NuDB.C21_growth"], "note": "All hashes and bucket counts below 2^64."},
{"property": "C22", "status": "proved", "theorems": ["NuDB.C22_matches_file", "NuDB.C22_reopen", "NuDB.C22_close"], "note": "Every reachable open store; after close, after a kill, after power loss."},
{"property": "C23", "status": "proved", "theorems": ["NuDB.C23_growth"], "note": "Length of the key file after any session of inserts, lookups and flushes, in the presence of faults."},
{"property": "C24", "status": "partial", "theorems": ["NuDB.C24_new_database_partial", "NuDB.C24_tiny_load_factor", "NuDB.C24_long_keys", "NuDB.C24_nan"], "note": "Proved for key sizes below 2^16 and load factors of at least 1/65536; outside these the English claim is false, with concrete witnesses."},
{"property": "C25", "status": "partial", "theorems": ["NuDB.C25_existing", "NuDB.C25_existing_cleanup", "NuDB.C25_cleanup_partial", "NuDB.C25_fadvise"], "note": "Existing files are never touched (full). Cleanup holds if the failing step had no effect; a failure of posix_fadvise inside create leaves the file behind (witness)."},
{"property": "C26", "status": "partial", "theorems": ["NuDB.C26_open_rejects_partial", "NuDB.C26_short_key_file", "NuDB.C26_rekey_log"], "note": "Proved for key files longer than a header and no log of an interrupted rekey; a shorter key file, or one next to a rekey log, is removed by the recovery inside open (witnesses)."},
{"property": "C27", "status": "proved", "theorems": ["NuDB.C27_visit", "NuDB.C27_database", "NuDB.C27_order", "NuDB.C27_data_file_only"], "note": "for every data file of the documented layout, for every closed database without log file (visit reports exactly the map, every key once), order of appended pairs for a flush, independence of key and log file"},
{"property": "C28", "status": "partial", "theorems": ["NuDB.C28_callback", "NuDB.C28_truncated_partial", "NuDB.C28_cut_value"], "note": "callback errors proved for every callback; truncation at any byte: short_read is reported, but within a value visit throws an exception instead of reporting an error code, and a file ending with a complete record is taken as complete"},
{"property": "C29", "status": "proved", "theorems": ["NuDB.C29_rekey", "NuDB.C29_succeeds", "NuDB.C29_buffer_size"], "note": "for every closed database without log file, all parameters in the documented ranges, every buffer size and fault schedule: lookups answer as before, the data file is only extended, the key file has the new parameters; success without faults while the offsets fit; the number of buckets (float computation) is a parameter"},
{"property": "C30", "status": "proved", "theorems": ["NuDB.C30_interrupted", "NuDB.C30_undone", "NuDB.C30_stuck", "NuDB.C30_stuck_witness"], "note": "Everything claimed is proved: data file restored and key file removed after any interruption, any power failure and any interrupted recoveries. Beyond the claim: the log file is removed as well unless a recovery dies between removing key and log file, in which case it stays for ever and blocks recover, open and rekey (witness)"},
{"property": "C31", "status": "proved", "theorems": ["NuDB.C31_refuses", "NuDB.C31_codes"], "note": "arbitrary files and faults: nothing is changed; error codes for data files with a valid header"},
{"property": "C32", "status": "partial", "theorems": ["NuDB.C32_lost", "NuDB.C32_old_data_partial", "NuDB.C32_synced_partial"], "note": "false as stated: rekey does not sync its last writes and a power failure after any completed rekey can leave an empty database (proved for every database); the old data survives, and everything survives once both files are synced"},
{"property": "C33", "status": "partial", "theorems": ["NuDB.C33_counts", "NuDB.C33_accepts_partial", "NuDB.C33_rejects", "NuDB.C33_rejects_rekeyed"], "note": "Counts reported by a success are the true ones (full, both algorithms), fetches included: it is the number of reads that lead to the items of the chains (chainCost). Acceptance proved for block sizes of at least 116, or without overflow records, or with a buffer for verify_normal; otherwise false: verify_fast rejects every database with block sizes 104 to 115 and overflow records, verify_normal rejects rekeyed databases with overflow records of another size."},
{"property": "C34", "status": "partial", "theorems": ["NuDB.C34_fast_partial", "NuDB.C34_normal_partial", "NuDB.C34_phantom", "NuDB.C34_misses", "NuDB.C34_sizes"], "note": "Arbitrary files. verify_fast: items correspond one to one to value records by offset and hash; sizes untested (witness). verify_normal: value records are listed; it misparses overflow records with a wrong count and accepts items inside of values (witnesses)."},
{"property": "C35", "status": "partial", "theorems": ["NuDB.C35_detected_partial", "NuDB.C35_undetected"], "note": "False as stated: files with two records for a key, both listed, are accepted with every buffer size (witness). A duplicate that is not listed is detected (arbitrary files)."},
{"property": "C36", "status": "proved", "theorems": ["NuDB.C36", "NuDB.C36_calls", "NuDB.C36_visible", "NuDB.C36_old"], "note": "Every interleaving of file operations (writes visible in arbitrary portions) and lock sections of any number of threads with flushes; with failing file operations a call may instead report the failure."},
{"property": "C37", "status": "proved", "theorems": ["NuDB.C37", "NuDB.C37_once", "NuDB.C37_results"], "note": "Same executions."},
{"property": "C38", "status": "proved", "theorems": ["NuDB.C38", "NuDB.C38_wait", "NuDB.C38_late"], "note": "Same executions."},
{"property": "C39", "status": "proved", "theorems": ["NuDB.C39_read", "NuDB.C39_write"], "note": "Every sequence of request sizes and every buffer size."},
{"property": "C40", "status": "proved", "theorems": ["NuDB.Sched.C40", "NuDB.Sched.C40_closed", "NuDB.Sched.C40_round", "NuDB.Sched.C40_turn", "NuDB.Sched.C40_drained", "NuDB.Sched.C40_wakeup"], "note": "Any number of stores and threads, every schedule: rounds take every idle registered store, exactly one flush each, never after unregistration; queued stores get their turn; no lost wakeups."},
{"property": "C41", "status": "proved", "theorems": ["NuDB.C41_push", "NuDB.C41_erase", "NuDB.C41_splice", "NuDB.C41_walk", "NuDB.C41"], "note": "Linked lists on a heap of nodes refine sequences, for every history of operations."},
{"property": "C42", "status": "proved", "theorems": ["NuDB.C42"], "note": "Every history of allocations, clears, swaps, moves and periodic activity on any number of arenas; sizes below 2^63."},
{"property": "C43", "status": "proved", "theorems": ["NuDB.C43", "NuDB.C43_model", "NuDB.C43_moved"], "note": "Every history of insert, find, clear, swap on pools whose cells lie in arena memory."},
{"property": "C44", "status": "partial", "theorems": ["NuDB.C44_partial", "NuDB.C44_value", "NuDB.C44_pepper", "NuDB.C44_undefined", "NuDB.C44_undefined_short"], "note": "Wherever the implementation's result is defined it is the XXH64 of the bytes, on every machine. Missing: buffers that are not aligned are read through misaligned integer pointers (the alignment test is inverted), undefined by the standard (witness)."},
{"property": "C45", "status": "proved", "theorems": ["NuDB.C45_torn_record", "NuDB.C45_any_truncation"], "note": "Every truncation of the log of any set of buckets; complete records undo any damage to their buckets."},
{"property": "C46", "status": "partial", "theorems": ["NuDB.C46_visit", "NuDB.C46_rekey", "NuDB.C46_verify_partial", "NuDB.C46_exceeds"], "note": "visit and rekey: full, arbitrary files and faults. verify: monotone with constant total on arbitrary files, bounded for verify_fast; verify_normal can exceed the total (witness), but not if there are at most as many values as the load factor suggests."},
{"property": "C47", "status": "partial", "theorems": ["NuDB.C47_few_zeros_partial", "NuDB.C47_lost", "NuDB.C47_header", "NuDB.C47_witness", "NuDB.C47_header_witness"], "note": "False as stated: 16 or more zeros in place of log records are taken for an empty bucket 0 and committed data is lost without an error; a zeroed header blocks open (proved for every database, with a reachable crash). Holds for up to 15 zeros after complete records."},
{"property": "C48", "status": "partial", "theorems": ["NuDB.C48_partial", "NuDB.C48_replay", "NuDB.C48_refused", "NuDB.C48_own_log", "NuDB.C48_undefined", "NuDB.C48_abort"], "note": "Arbitrary files and schedules. Exact effect for matching headers, refusal without changes otherwise. False as stated: a record with more items than fit into a block is copied beyond its end, and a bucket number of 2^32 or more violates an assertion (both proved); these two cases are excluded from C48_partial."},
{"property": "C49", "status": "proved", "theorems": ["NuDB.C49_format", "NuDB.C49_rekey"], "note": "Every reachable closed database and every rekeyed one. Links lead to the bodies of overflow records of the data file."},
{"property": "C50", "status": "partial", "theorems": ["NuDB.Sched.C50_partial", "NuDB.Sched.C50_orphan"], "note": "Holds as long as stop_all is not called; false otherwise: threads entering run during the join inside stop_all can leave a context that is served but never flushes (witness)."},
{"property": "C51", "status": "proved", "theorems": ["NuDB.C51", "NuDB.C51_flusher"], "note": "Same executions. Mutexes and the condition variable are assumed to behave as specified; at most one flush at a time (C40)."},
{"property": "C52", "status": "proved", "theorems": ["NuDB.C52_histories", "NuDB.C52_lookups", "NuDB.C52_found", "NuDB.C52_durable", "NuDB.C52_restart", "NuDB.C52_fresh", "NuDB.C52_keyless", "NuDB.C52_opens", "NuDB.C52_starts"], "note": "Arbitrary interleavings of calls, crashes, power losses, removals of the key file, interrupted and completed rekeys. Two restrictions that other findings force: no power loss between the end of rekey and the moment its unsynced writes are on disk (C32), and recover after an interrupted rekey runs undisturbed (C30). rekey succeeds if the overflow records fit into 48-bit offsets."},
{"property": "C53", "status": "proved", "theorems": ["NuDB.C53", "NuDB.C53_flushed", "NuDB.C53_durable", "NuDB.C53_old", "NuDB.C53_only"], "note": "All interleavings of any number of threads with flushes, partially carried out writes included; recovery may be interrupted by crashes (failing reads during recovery: see C08)."},
{"property": "C54", "status": "proved", "theorems": ["NuDB.C54_calls", "NuDB.C54_restart", "NuDB.C54_found", "NuDB.C54_durable", "NuDB.C54_flushed", "NuDB.C54_only", "NuDB.C54_only_restart"], "note": "Life as in C52 with its restrictions, plus sessions of several threads. A session starts when no pair is unflushed (just opened or flushed) and not between rekey and the moment its writes are on disk; a session in which a flush failed is covered until the process ends (C53), not by continuing to use the store."},
{"property": "C55", "status": "proved", "theorems": ["NuDB.C55_read", "NuDB.C55_write", "NuDB.C55_append", "NuDB.C55_sync", "NuDB.C55_trunc", "NuDB.C55_size", "NuDB.C55_win32_read", "NuDB.C55_win32_write", "NuDB.C55_read_undisturbed", "NuDB.C55_write_undisturbed", "NuDB.C55_read_ends", "NuDB.C55_write_ends", "NuDB.C55_program", "NuDB.C55_stuck", "NuDB.C55_win32_zero"], "note": "For every sequence of outcomes of the system calls. Observed: a write whose system call transfers nothing is repeated for ever by posix_file (C55_stuck), whereas win32_file reports an error."},
{"property": "C56", "status": "partial", "theorems": ["NuDB.C56_open_partial", "NuDB.C56_create_partial", "NuDB.C56_violated", "NuDB.C56_silent"], "note": "False as stated: posix_fadvise returns its error and does not set errno, which the code reports; so open can report no_such_file for a file it has just opened, or nothing. Holds if errno was zero or some unrelated error."},
{"property": "C57", "status": "proved", "theorems": ["NuDB.C57_stream", "NuDB.C57_flush", "NuDB.C57_close", "NuDB.C57_memory", "NuDB.C57_defined"], "note": "Model/Heap has addresses, bucket objects with their own counters, and streams into the write buffer; a simulation shows that it does what Model/Store does. Excluded are the cases in which C16 is false (assertions on 2^32 buckets and offsets close to 2^48)."},
{"property": "C58", "status": "partial", "theorems": ["NuDB.C58_create_partial", "NuDB.C58_accepts", "NuDB.C58_rekey_violated"], "note": "create: proved, up to the parameters of findings 1 that it lets pass. rekey checks nothing: with an item count of zero (even if correct) it succeeds and makes a database that cannot be opened; also for tiny load factors; with small blocks it writes the header over the end of a buffer."},
{"property": "C59", "status": "partial", "theorems": ["NuDB.Race.C59_others", "NuDB.Race.C59_partial", "NuDB.Race.C59_only", "NuDB.Race.C59_violated", "NuDB.Race.C59_reached"], "note": "Every memory location but ec_ is free of races in every execution (C59_others); with ec_ if it is not written after ecb_ was set (C59_partial). False for ec_: flush does not test ecb_, so after a failed flush the next one can write ec_ at the failure of kf.size while fetch or insert reads it (C59_violated, C59_reached; C59_only: no other place)."},
{"property": "C60", "status": "proved", "theorems": ["NuDB.C60_stream", "NuDB.C60_visit", "NuDB.C60_recover", "NuDB.C60_open", "NuDB.C60_fetch", "NuDB.C60_insert", "NuDB.C60_rekey", "NuDB.C60_verify", "NuDB.C60_calls", "NuDB.C60_defined", "NuDB.C60_rekeyed", "NuDB.C60_recovered", "NuDB.C60_visited", "NuDB.C60_verified"], "note": "For any files the functions with memory do the same as those with values unless the latter are undefined or hit an assertion; for databases C16, C27 and C33 exclude that (with their exceptions: offsets close to 2^48, 2^32 buckets, verify with small blocks)."},
{"property": "C61", "status": "proved", "theorems": ["NuDB.Throttle.C61_bounded", "NuDB.Throttle.C61_measured", "NuDB.Throttle.C61_unmeasured"], "note": "Model/Throttle has times; u_ is held while insert sleeps. Observed: before the first flush that is larger than the burst size (and measured) there is no bound (C61_unmeasured), e.g. if the first flush is slow."},
{"property": "C62", "status": "proved", "theorems": ["NuDB.C62_session", "NuDB.C62_rekey", "NuDB.C62_endless"], "note": "For open, insert, fetch, flush, close and rekey, for any content of data and key file, replaced at any time while the store is open; with faults. If there is a log when the store is opened, its records must fit into a block (otherwise open may overrun memory, C48_undefined); the rest of the log, including its header and the links in it, is arbitrary. A cycle of overflow records makes a lookup endless (C62_endless)."},
{"property": "C63", "status": "partial", "theorems": ["NuDB.C63_verify_partial", "NuDB.C63_normal_violation", "NuDB.C63_fast_violation"], "note": "False: the count of an overflow record (verify_normal) or bucket (verify_fast) is not tested; the former overwrites memory, the latter reads behind the buffer. Proved if these counts are not greater than there is room for, with any other damage."},
{"property": "C64", "status": "proved", "theorems": ["NuDB.C64_create", "NuDB.C64_recover", "NuDB.C64_open", "NuDB.C64_visit", "NuDB.C64_rekey", "NuDB.C64_lookup", "NuDB.C64_flush", "NuDB.C64_verify", "NuDB.C64_more_rounds", "NuDB.C64_forever"], "note": "An endless loop is the outcome hang: a loop used up a number of rounds. That this number suffices is part of the claim: an exceeded number yields an endless chain in the data file (pigeonhole), and C64_more_rounds, C64_forever for lookups. Example files with hanging fetch and verify."},
{"property": "C65", "status": "proved", "theorems": ["NuDB.C65", "NuDB.C65_stable"], "note": "Executions of Model/Concurrent. Justifies that reads are single steps of that model. Extends C38 to the data file and to whole files."},
{"property": "C66", "status": "proved", "theorems": ["NuDB.C66", "NuDB.C66_steps", "NuDB.C66_some", "NuDB.C66_calls", "NuDB.C66_flush", "NuDB.C66_flush_busy", "NuDB.C66_starves"], "note": "Infinite executions of Model/Concurrent, weak fairness; C66_flush_busy assumes that the flusher is not overtaken forever at the mutex. C66_starves: a fair execution in which one insert never returns. The flusher may stop at the limits of the file format, as in C51_flusher."},
{"property": "C67", "status": "partial", "theorems": ["NuDB.C67_emptied_partial", "NuDB.C67_recover_partial", "NuDB.C67_rekey_violated", "NuDB.C67_key_violated", "NuDB.C67_created_violated"], "note": "Proved for open, insert, fetch, flush, close in every reachable state and for recover on any files whose key file is longer than its header. That an empty log file may come back is part of PowerLoss, hence of C05-C08, C52 and all other theorems about power failures. False for rekey, which removes its log without emptying it: the completed rekey is undone. The removal of the key file by recover and the creation of the log file by open do have to be durable (C67_key_violated, C67_created_violated)."},
{"property": "C68", "status": "partial", "theorems": ["NuDB.C68_numbers", "NuDB.C68_messages_partial", "NuDB.C68_success_violated", "NuDB.C68_equal", "NuDB.C68_foreign", "NuDB.C68_default"], "note": "All of it except one point: the message of 0 and of every unknown number is that of key_not_found, as the switch falls back on it (C68_success_violated)."},
{"property": "C69", "status": "partial", "theorems": ["NuDB.C69_counted_partial", "NuDB.C69_finish_partial", "NuDB.C69_move_violated", "NuDB.C69_swap_violated", "NuDB.C69_assign_violated"], "note": "Proved for programs that neither move nor exchange locks nor release a locked one; the store does none of this. False otherwise: move constructor, move assignment and swap forget the generation, which leads to a read of an uninitialised member or to wrong counters."},
{"property": "C70", "status": "partial", "theorems": ["NuDB.C70_fetch_partial", "NuDB.C70_insert_partial", "NuDB.C70_open_partial", "NuDB.C70_create_partial", "NuDB.C70_close_partial", "NuDB.C70_others_partial", "NuDB.C70_others_violated", "NuDB.C70_fetch_violated", "NuDB.C70_found_violated", "NuDB.C70_insert_violated", "NuDB.C70_open_violated", "NuDB.C70_close_violated", "NuDB.C70_create_violated", "NuDB.C70_violated", "NuDB.C70_not_indifferent"], "note": "False: the code tests ec after each operation and never clears it. With an error left in ec, e.g. key_not_found from an earlier fetch, insert never inserts, fetch finds nothing on disk, open does not open, create leaves a data file behind, and recover, visit, rekey and verify do nothing. Proved: with a clear ec each call does what the rest of the model says and reports its own error; this also justifies that errors are exceptional outcomes there."},
{"property": "C71", "status": "partial", "theorems": ["NuDB.C71_index", "NuDB.C71_partial", "NuDB.C71_small_partial", "NuDB.C71_wide_partial", "NuDB.C71_apart_partial", "NuDB.C71_end_partial", "NuDB.C71_violated"], "note": "Proved for 64-bit size_t, and for every width as long as the key file is smaller than 2^width. False for 32 bits and larger key files: fetch, commit and rekey multiply without the conversion to noff_t which the other places have, so that fetch reads and commit overwrites the header of the key file."},
{"property": "C72", "status": "partial", "theorems": ["NuDB.Nested.C72_partial", "NuDB.Nested.C72_returns_partial", "NuDB.Nested.C72_insert_violated", "NuDB.Nested.C72_fetch_violated"], "note": "Proved if callbacks for values found in memory (pool or cache) make no calls; callbacks for values from the files may. False otherwise, with two witnesses: fetch holds m_ shared during the callback."},
{"property": "C73", "status": "proved", "theorems": ["NuDB.C73_fetch", "NuDB.C73_insert", "NuDB.C73_typical", "NuDB.C73_memory"], "note": "Counted in the model of the sequential store, i.e. while no flush of another thread is under way: one operation of World.clock per call of File::read. The bound is reached (example)."},
{"property": "C74", "status": "partial", "theorems": ["NuDB.Sched.C74_partial", "NuDB.Sched.C74_threads", "NuDB.Sched.C74_close_violated", "NuDB.Sched.C74_close_call", "NuDB.Sched.C74_stop_violated", "NuDB.Sched.C74_rounds_violated", "NuDB.Sched.C74_witness"], "note": "The rules of C40 hold for every store whatever flushes throw. False: a store whose flush threw can never be closed; if the exception left run the context can never be stopped, and no round is started again if the thread was the one that starts them. An exception in the thread made by start terminates the process: such executions end there."},
{"property": "C75", "status": "partial", "theorems": ["NuDB.C75_partial", "NuDB.C75_insert_violated", "NuDB.C75_fetch_violated", "NuDB.C75_writes", "NuDB.C75_fetches", "NuDB.C75_inserts"], "note": "In the model of C36. True for fetches from the key file and for writes; all reads of insert are made with u_ locked, and those of fetch in a cached bucket with m_ locked (shared). Fetches never wait (the lock preference of shared_timed_mutex is not modelled here, see C72), inserts are serialized."},
{"property": "C76", "status": "partial", "theorems": ["NuDB.Handle.C76_partial", "NuDB.Handle.C76_destroy", "NuDB.Handle.C76_functions", "NuDB.Handle.C76_close_violated", "NuDB.Handle.C76_reopen_violated", "NuDB.Handle.C76_rekey_violated"], "note": "The control flow of the functions with respect to files, all outcomes left open (Model/Handle). False: after a failing close the three files stay open until the store is destroyed or opened again, and opening it again opens them twice. rekey uses an open object for create if posix_fadvise fails with a stale ENOENT. Exceptions (bad_alloc) are not modelled here."},
{"property": "C77", "status": "partial", "theorems": ["NuDB.Sched.C77_partial", "NuDB.Sched.C77_progress", "NuDB.Sched.C77_destructor", "NuDB.Sched.C77_second_violated", "NuDB.Sched.C77_flush_violated", "NuDB.Sched.C77_enter_violated", "NuDB.Sched.C77_lost_violated"], "note": "For the first of several calls of stop_all and threads in run that were there before: proved, with a bound for the steps of the threads that serve the context. False: a second stop_all returns at once while stores are being flushed; threads in flush() are not waited for; a thread that enters run while stop_all joins the started thread goes on after it; a store whose flush threw in flush() is missed by the check of the destructor."},
{"property": "C78", "status": "proved", "theorems": ["NuDB.C78", "NuDB.C78_memory", "NuDB.C78_commit", "NuDB.C78_reached"], "note": "All operation sequences of the commit as a tree of file operations (Model/Prog, shown in C78_commit to be the sequential commit), the answers of the file system being arbitrary. The bounds for reads, writes, syncs and caches are reached. Not bounded: reads and appends of the data file, since a split follows the whole chain of overflow records."},
{"property": "C79", "status": "partial", "theorems": ["NuDB.C79_partial", "NuDB.C79_waste_partial", "NuDB.C79_violated", "NuDB.C79_negative"], "note": "All counters (fetches, the dividend of avg_fetch, included) are equal for any two successful runs, and with verify_normal the waste is between 0 and 1. False for spill_bytes_tot of verify_fast: it adds the size of a bucket object that may still be uninitialised, so the same file gives 16 or 4642 (C79_violated), and the waste can be negative (C79_negative). The floating point numbers themselves are not modelled."},
{"property": "C80", "status": "proved", "theorems": ["NuDB.C80_average"], "note": "Both algorithms, through Counted.fetches (C33). The operations are counted in undisturbed runs of fetch; the clock of the model counts one per file operation. verify.hpp calls avg_fetch the number of key file reads, which it is not (example beside the theorem)."},
{"property": "C81", "status": "partial", "theorems": ["NuDB.C81_partial", "NuDB.C81_rounding", "NuDB.C81_exact", "NuDB.C81_defined", "NuDB.C81_rekey", "NuDB.C81_violated", "NuDB.C81_undefined", "NuDB.C81_zero"], "note": "False beyond 2^23 items (block size 4096, load factor 1/2): off by one bucket in either direction (C81_violated). Proved: exact below 2^24 (numerator of the load times items), relative error at most 2^-22 for all, result defined and at least 1, and C29 for a rekey that computes the number itself (C81_rekey). The range of the exponent of float is not modelled; it is not left for the arguments allowed here."},
{"property": "C82", "status": "partial", "theorems": ["NuDB.C82_partial", "NuDB.C82_violated"], "note": "All four quotients within 2^-22 and in range for every closed database; false for waste in a report of verify_fast, which can exceed 10^16 (C82_violated). The counters themselves are those of C33 and C79. The subtraction of 1 in overhead is left out: what is bounded is the quotient, which is at least 1."},
{"property": "C83", "status": "proved", "theorems": ["NuDB.C83_covered", "NuDB.C83_enumerates", "NuDB.C83_commit", "NuDB.C83_missed", "NuDB.C83_size", "NuDB.C83_sync"], "note": "For programs as trees of file operations (Model/Prog), without open, create and erase, which fail_file passes on. The wrapped file works and all three files exist. The programs must not have undefined behaviour for the enumeration (an append elsewhere than at the end)."},
{"property": "C84", "status": "proved", "theorems": ["NuDB.C84_seeds", "NuDB.C84_period", "NuDB.C84_items", "NuDB.C84_collision"], "note": "std::uniform_int_distribution, whose algorithm the standard leaves open, is an arbitrary function. Bytes of a number as on a little endian machine. Nothing is claimed about the statistical quality of the numbers, nor that longer keys differ."},
{"property": "C85", "status": "proved", "theorems": ["NuDB.C85_log2", "NuDB.C85_fdec", "NuDB.C85_fhex", "NuDB.C85_fhist", "NuDB.C85_visit", "NuDB.C85_database", "NuDB.C85_info", "NuDB.C85_rekey"], "note": "Without the parsing of options and the output itself. nudb rekey needs at least one pair (for the number 0 the key file has no buckets, see finding 15) and at most 2^31 * 227 / 2."},
{"property": "C86", "status": "partial", "theorems": ["NuDB.C86_partial", "NuDB.C86_violated", "NuDB.C86_large"], "note": "Compared are the estimates of the code, with the load factor as the fraction it stands for. False: the code takes the load factor times 65536, so the fast algorithm is used although it is expected to read more, up to 65536 times as much (C86_violated, C86_large). Proved: the normal one is used only where it is expected to read less, the fast one whenever one pass is enough; both unless the products exceed 64 bits."},
{"property": "C87", "status": "partial", "theorems": ["NuDB.C87_partial", "NuDB.C87_copy", "NuDB.C87_complete", "NuDB.C87_in_use", "NuDB.C87_alone", "NuDB.C87_violated", "NuDB.C87_flush_partial", "NuDB.C87_use_partial", "NuDB.C87_flush_violated"], "note": "Appending by others is invisible: everything happens as on a copy of the data file made when its size was read; on the files of an open store, between calls, the iteration is correct and complete. False if the last record is incomplete at that moment, as it can be during a flush (a write may take several system calls): visit then reports short_read or throws, although the pairs before are still given correctly. C87_flush_partial: while a flush of the modelled store is carried out, its operations alternating in any way with those of visit, all pairs from before the flush are given, then an initial part of the insert buffer; C87_use_partial: the same with any calls and any number of flushes meanwhile, in terms of what fetch finds; C87_flush_violated: at one such moment visit throws."},
{"property": "C88", "status": "partial", "theorems": ["NuDB.C88_display", "NuDB.C88_visit", "NuDB.C88_rekey", "NuDB.C88_verify_partial", "NuDB.C88_wraps", "NuDB.C88_first", "NuDB.C88_floor", "NuDB.C88_ceil", "NuDB.C88_round_partial", "NuDB.C88_round_violated", "NuDB.C88_clock"], "note": "Times are unbounded integers; the remaining time, computed in floating point, and the text of the lines are not modelled. False in two cases: verify_normal can report more than the total (C46_exceeds), the work left then wraps around and the remaining time is out of range (C88_wraps); and round is wrong for negative durations, which the display does not use (C88_round_violated). The display relies on the first report being zero (C88_first), which is proved for all three algorithms on arbitrary files."},
{"property": "C89", "status": "partial", "theorems": ["NuDB.C89_example_partial", "NuDB.C89_create_violated", "NuDB.C89_existing_violated"], "note": "Proved: where none of its files exist and without failing file operations, no call reports an error, every fetch gives the value, and no file is left at the end. False otherwise: errors are not looked at, so if create fails, e.g. since a file of an earlier run is there, the first insert on the store, which is not open, fails an assertion or is undefined behaviour."},
{"property": "C90", "status": "partial", "theorems": ["NuDB.C90_bench_partial", "NuDB.C90_keys_violated", "NuDB.C90_short_violated"], "note": "Proved: if the keys of the items differ and the items fit into the file, no call reports an error, every fetch gives the value of its item, and samples and progress reports are as claimed. False if keys collide: the benchmark ends with key_exists, e.g. always for key_size 1 and more than 256 items in the first batch. The destructor of test_store is not modelled."},
{"property": "C91", "status": "partial", "theorems": ["NuDB.C91_none", "NuDB.C91_summary_partial", "NuDB.C91_fraction_violated", "NuDB.C91_range_violated"], "note": "Proved: NA is shown exactly if there are no samples; otherwise the number shown is at most the average and less than 2 below it, unless the sum does not fit into an int. False: the sum is an int, so fractions are lost, and a large sample is undefined behaviour."}
]}
