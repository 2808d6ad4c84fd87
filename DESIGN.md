# Formal model of irvingow/lsmdb in Lean 4 — design

`/repo` is an early LevelDB rewrite: there is no DB yet. What exists is `util/` (coding, hash, random, logging,
status, arena, LRU cache, POSIX env, logger, test utilities), `helpers/memenv`, `db/skiplist.h`, the `Env`
interface (`include/lsmdb/env.h`, `util/env.cc`) and a command-line tool. All of that is modelled, function by
function; the unit tests and the empty headers are not.

## Layout

* `lean/Verif/Model/*.lean` — the model; every definition cites the file and lines it models, and says where it
  simplifies.
* `lean/Verif/Spec/*.lean` — small specifications, written without looking inside the model (byte order, a set, an
  ordered set with cursors, an abstract cache, a file system as names and byte strings, who holds which lock, ...).
* `lean/Verif/Proof/*.lean` — helper lemmas and invariants. Nothing here has to be read to understand a claim.
* `lean/Verif/Props/*.lean` — the property theorems `Cnn_...`, each section with an `example` that a concrete non-trivial
  case meets the hypotheses.
* `lean/Verif/RepoTests/*.lean` — the unit tests of /repo (hash, logging, status, cache, memenv, arena), transcribed call by call and
  run on the model by kernel reduction, the largest scaled down (evaluated at full size outside the build, they pass too). They
  are evidence for the fidelity of the model, and no part of any claim.
* `properties.jsonl` — the properties in English; `MANIFEST.json` — which theorems prove which property (generated by
  `tools/manifest.py` from the theorem names and `tools/notes.json`).
* `seeded/LOG.jsonl` — wrong programs the theorems were tested against (`tools/mutate.py` runs them in a scratch copy).

A property the code violates is kept in full: a theorem gives the violating execution (a concrete one, or a whole family),
the rest is proved as `..._partial`, and the manifest says `partial`.

## Trusted base

1. **Lean's kernel** (Lean 4.33.0), and Mathlib as a library of theorems checked by that kernel.
2. **Axioms**: at most `propext`, `Classical.choice`, `Quot.sound` (what `#print axioms` reports for each theorem of the
   manifest; listed theorem by theorem in `AXIOMS.md`). No axioms of our own, no compiled evaluation. Concrete examples use `decide +kernel`, i.e. kernel reduction.
3. **The fidelity of the model** — obtained by reading `/repo`; nothing was built or run. What it rests on:
   * *C++*: a byte is `UInt8`; `uint32_t`/`uint64_t`/`size_t` are `UInt32`/`UInt64`, or `Nat` reduced mod 2^64 where
     wrap-around is observable, and plain `Nat` where nothing that fits into memory can wrap (said at the definition). `int`
     overflow is a fault, except in `std::atomic<int>`, which wraps. The platform is LP64.
   * *Undefined behaviour is an outcome.* Functions that can go wrong return `Except Fault α`: null dereference, out of
     bounds, use after free, double free, uninitialised read, failed assertion, arithmetic fault, divergence. Theorems say
     which calls cannot fault. Allocation failure (`std::bad_alloc`) is modelled for `Status` (C87), for
     `Cache::Insert` (C88), for the in-memory Env (C89), for `Schedule` (C90), for the POSIX Env and its files (C91) and for the arena and the skip list in it (C85),
     and not elsewhere.
   * *The heap* is explicit (numbers as addresses, freed objects distinguishable); addresses are not reused.
   * *Loops* without an obvious bound take fuel; running out of fuel is the fault `diverges`, and the theorems show it does
     not happen.
   * *The operating system* (`Model/Kernel`) is an assumption, not code of the repository: paths are a flat map to
     inodes, descriptors with offsets, mappings. Every system call is decided by a `Choice`: what other threads and processes
     do to the kernel state before it (`other`, an arbitrary function, restricted in some theorems), whether it fails and
     with which errno, and how much a `read`/`write` transfers. When the choices run out the machine crashes there, so
     theorems over all `choices` cover all crash points. Crash model: a file may have any content it had since its last
     successful sync (including a prefix of a write in progress), a name any meaning it had since the directory was last
     synced. `close` releases the descriptor even when it reports an error (Linux). Renaming a directory is not
     modelled (fails).
   * *fcntl locks* (`Model/PosixLock`): per process and inode; closing any descriptor of the file releases them (POSIX).
   * *Threads*: `std::mutex` excludes and orders; so interleavings of steps describe what is protected by a mutex (C108 proves for `Schedule` and the cache that the accesses are ordered by happens-before).
     `std::condition_variable` may wake up spuriously. `std::atomic` with release/acquire/relaxed orders is modelled for the
     skip list by views (a reader's load may return any store not older than what it has seen; one writer) and as single atomic
     read-modify-write steps for the limiter. Steps are interleaved; where code reads without a lock, the model has a
     separate step there. For the cache and the in-memory Env the absence of data races (C84) is what justifies interleaving.
   * *C library*: `snprintf`, `memcmp`, `memcpy`, `std::map`, `std::set`, `std::string` as the standards say;
     `strerror` is an arbitrary function. `fwrite` on the log hands everything to the stream; stream errors are not modelled.

## What is modelled, and what is not

| source | model | not modelled |
|---|---|---|
| include/lsmdb/slice.h | `Model/Slice` | |
| util/coding.{h,cc} | `Model/Coding` | little-endian fast paths do not exist in this code |
| util/hash.cc | `Model/Hash` | |
| util/random.h | `Model/Random` | |
| util/logging.cc | `Model/Logging` | |
| include/lsmdb/status.h, util/status.cc | `Model/Status` (packed buffer and heap of buffers with owners), `Model/StatusOom` (the same when `new` throws) | |
| util/arena.{h,cc} | `Model/Arena` (flat addresses, arbitrary `new[]`), `Model/ArenaConc` (`MemoryUsage` from other threads) | overflow of `memory_usage_` |
| db/skiplist.h | `Model/SkipList` (nodes, towers, stores in a log; readers with views), `Model/SkipArena` (nodes as bytes in an arena shared with others, `new[]` may throw), `Model/SkipThrow` (comparator that throws) | |
| include/lsmdb/cache.h, util/cache.cc | `Model/Cache` (one call at a time), `Model/CacheConc` (threads, mutexes, one step per statement), `Model/CacheOom` (failing allocations), `Model/CacheReent` (deleters that call the cache) | throwing deleters; in `Model/Cache` and `Model/CacheConc` deleters do not call the cache |
| helpers/memenv/memenv.cc | `Model/MemEnv` (one call at a time), `Model/MemEnvOom` (failing allocations), `Model/MemEnvConc` (threads, mutexes, one step per statement), `Model/EnvMem` (as an `Env`) | two threads in the constructor or destructor of the same object (not permitted to clients) |
| include/lsmdb/env.h, util/env.cc | `Model/EnvI` (interface, EnvWapper, ErrorEnv, read/write whole files, Log) | destructors of the abstract classes |
| util/env_posix.cc | `Model/PosixFile` (file classes), `Model/PosixEnv` (the Env, one call at a time), `Model/EnvPosix` (as an `Env`), `Model/Limiter`, `Model/Schedule`, `Model/PosixLock` (threads), `Model/PosixConc` (the file operations of one Env used by threads, one step per system call or atomic operation), `Model/PosixOom`, `Model/SchedOom` (the same when memory or threads run out), `Model/Startup` (singleton, limits, test helper) | `StartThread` and `SleepForMicroseconds` beyond being forwarded; O_CLOEXEC |
| util/posix_logger.h | `Model/Logger`, `Model/LoggerConc` (threads) | `localtime_r`, the text of the thread id (arbitrary here), stream errors |
| util/env_posix_test_helper.h | `Model/Startup` | |
| util/test_util.{h,cc} | `Model/TestUtil`, `Model/EnvI` (ErrorEnv) | floating point (the period of CompressibleString is arbitrary) |
| db/lsmdb_util.cc | `Model/Tool` | |
| port/port_stdcxx.h, util/mutexlock.h | as steps of the concurrent models | Snappy, CRC32C and heap-profile stubs (return constants) |
| port/thread_annotations.h, util/noncopyable.h, export.h, the one-line headers (db.h, table.h, options.h, ...), tests, CMake | | no behaviour |

## Properties: what is modelled and how it is proved

| id | model | proof |
|----|-------|-------|
| C01–C05 | Coding: bounded buffers, unrolled `EncodeVarint32` | `toNat` arithmetic; induction on the decoder loop; streams by induction on the list |
| C06 | Slice: memcmp loop | induction; order laws from a lexicographic specification |
| C07, C08 | Hash: 4-byte words, tail switch | equality with a recursive specification; invertibility of the mixing steps |
| C09–C11 | Random | modular arithmetic; primality of 2^31-1 and order of 16807 (Mathlib) |
| C12–C14 | Logging | digit lemmas; maximal-run characterisation; per-byte decoding |
| C15, C16 | Status | representation invariant; induction over operation sequences on a heap of owned buffers |
| C17–C19 | Arena | invariant over histories (live block, past allocations) |
| C20–C22, C24, C25 | SkipList | invariant: each level is a sorted chain, sublist of the one below; well-founded descent |
| C23 | SkipList, stores in a log, readers at views | the reader's position stays on the chain in every later memory; the linearization point is the reader's new view |
| C26–C37 | Cache | representation invariant (pointers to lists), refinement to an abstract cache, history induction |
| C38–C45, C65 | MemEnv | refinement to byte strings and a name map; violating executions |
| C46 | EnvI over both Envs | composition of the per-call theorems, with crash and interference conditions |
| C47–C52 | PosixFile, Kernel | invariants over operation sequences and all choices (`Sat` triples with crash postconditions) |
| C53 | Limiter | inductive invariant over interleavings |
| C54–C56, C60, C62, C65, C69–C71, C75 | PosixEnv, PosixFile, Kernel | invariants over histories with failing system calls; frame conditions |
| C57, C58 | PosixLock (threads and processes), PosixEnv (`C57_env_*`) | inductive invariants; violating executions for C58 |
| C59 | Schedule | safety invariant over interleavings; liveness for fair infinite executions by a ranking argument |
| C61 | Logger | case analysis on lengths, both passes; violating executions |
| C63 | EnvI | bisimulation with the target |
| C64, C72 | Startup | case analysis; all interleavings of initialisation collapse to call order (function-local static) |
| C67, C68 | Tool, TestUtil | induction |
| C73, C74 | EnvPosix | direct |
| C83 | EnvI over EnvPosix, Kernel | invariant at every system call: the target's name, its history and the inodes it may mean are untouched; then the rename step |
| C84 | CacheConc, MemEnvConc + Spec/Race | accesses are derived from the meaning of the statements; lock discipline of all remaining code as an invariant; for the unlocked handle reads: a step that changes the entry frees it, which would make the reader's next step a fault (C78/C81) |
| C85 | SkipArena, Arena | simulation of SkipList: node numbers to addresses; nodes and client allocations pairwise disjoint by the arena's invariant; an aborted insertion only raises `max_height_` |
| C86 | LoggerConc, Logger | small-step model: `fwrite` and `fflush` lock the stream (POSIX), the library puts characters into the buffer and hands them on in any portions; invariant: file ++ buffer ++ rest of the line being written = old contents ++ lines; C61 says what a line is |
| C76–C78 | CacheConc | reduction: a body under the mutex equals its atomic method; linearization by a ghost history; well-founded measure for termination |
| C79 | EnvMem, EnvPosix | every interface call is the call of the history model |
| C87 | StatusOom, Status | the invariant of C16, kept by every operation that throws except copy assignment over an error |
| C88 | CacheOom, Cache | the invariant of C26–C33 without the load of the table; an Insert that throws after linking is an Insert whose handle nobody releases |
| C89 | MemEnvOom, MemEnv | the refinement of C40 for calls that throw, up to files that are allocated but unreachable (simulation) |
| C90 | SchedOom, Schedule | invariant: a history is one of C59, or one of C59 followed by an exception and steps of a system whose mutex is never free again |
| C91 | PosixOom, PosixEnv | simulation: a call that returns is the call of PosixEnv; invariant: the accounts of C54 but for what exceptions lost; the lock table but for the names exceptions lost |
| C92 | PosixConc | threads as free-monad programs of system calls, limiter and lock table operations; ownership invariant (ghost owner of every descriptor, mapping, lock, slot; weakest preconditions of each call); simulation of the one-thread model by a thread that runs alone |
| C93 | PosixSolo | invariant over runs of the machine of C92 that follows one object: what its calls have done so far is a run of the one-thread model in which the steps of the other threads are actions of the environment (`Trail`, `Serial`, `Track`); fuel monotonicity; then C47, C48, C69 apply |
| C94 | PosixReads | invariant over runs of the machine of C92: the object keeps its descriptor, mapping or name (`Here`), and each read of each thread is at one of the points of its program with what it needs (`Phase`: opening, reading through its own descriptor, closing) |
| C95 | PosixApart | each program of a call names only the paths of the call, its object and the directory of its file (`Only`, by structure of the programs); a step that does not name the file and writes or syncs only through descriptors of other files leaves it alone (`exec_apart`); who has a descriptor is followed with the owners of C92 (`Held`) |
| C96 | PosixCreate | the call has four phases (not yet opened, opened, failed, stopped at a fault); steps of others keep each phase (`Creating.step`, with `exec_absent` for a file that does not exist yet and `Held` of C95 for one that does); when the call returns the new object is the only holder of the file, and C93 applies |
| C97 | PosixLoad | `Leads`: at each step of the opening programs, which descriptor and mapping of the file they have so far, and that whoever runs the rest owns them (so no other thread can close or unmap them, by the ownership invariant of C92); `Loading.step` for steps of the call and of others; the finished object satisfies `Serves`/`ReadableAt`, and C94/C93 apply |
| C98 | PosixTrip | when Close has returned OK the object has no descriptor, so by the ownership invariant nobody has one of the file (`Held.released`): the state from which C97 starts; the file is still a regular one (`Held.dir`) |
| C99 | PosixPool | invariant `Peace` kept by every step (names lead to files of the set and conversely, contents unchanged, no writable descriptor of them), plus for the call observed a predicate kept along the way (`Along`); reading from the object then by C93/C94 |
| C100 | PosixPoolRand | as C99, with the steps of NewRandomAccessFile (`Far`, `Has2`: which file the descriptor and the mapping are of, which size was asked for) and of reads that open the file (`TempRead`); counterexamples are concrete runs |
| C101 | PosixInstall | invariant `Firm`: the files of the names are unwritten and on disk, and every name that a crash may bring back is of one of them; the temporary file by C93 (`Installing.written`), the rename by the steps of the call (`rename_along`) |
| C102 | PosixFinal | the object stays what it was opened as (`Labelled`); the steps of the Sync call: open of the directory, its fsync (`syncing_along`); after it nothing else is pending for the names (`Clean`), which steps keep because names are only ever remembered with the meaning they had (`exec_touch`) |
| C103 | PosixNames | forward simulation to an atomic map of names (`Lin.step`): each call has one step that changes or looks at names (`before_body`), what a step does to names is `exec_moves`; "exactly one wins" is proved of the atomic object alone (`Atomic.race`) |
| C104 | PosixTerm | a potential on programs (`EndsBy`: steps left, interruptions that may still come) computed by recursion over the tree of answers, a triple for each function and loop (`endsBy_*`), carried along any run (`During.endsBy`) |
| C105 | CacheReent | threads have stacks of calls; invariant: a level below the top holds exactly one mutex and no mutex is held twice; with deleters that go up, stacks are sorted by shard, so the largest waited-for shard has an owner that does not wait |
| C106 | CacheConc, CachePrune | on the atomic cache of C76: the current entry of a key is cached while referred to (induction over sequential histories); the only writer of a key determines its current entry (counting calls of the history); during Prune the entry has no references and is not cached in the shards already visited; an entry that has left does not come back |
| C107 | MemEnvConc, MemReads | on the atomic file system of C80: an order of the Appends, and for every call the number of them it saw, are kept along (the number is fixed when the call takes effect); counts of slices that were called, had their effect, and returned bound it from both sides; the position of a SequentialFile is the length of what it returned |
| C108 | HappensBefore, SchedSync, CacheSync, Sync | on the executions of C59 and C76: happens-before is the least transitive relation with program order, unlock → later lock of the same mutex, thread start → the thread's steps; invariant: what a thread, or a released mutex, knows (which earlier steps happen before); the holder of a mutex knows what the mutex knows; the call that made an item or entry is known to the mutex, from when the item or entry is under it. Not modelled: what hardware does with unordered accesses (there are none between the steps claimed) |
| C109 | PosixLock, HappensBefore, LockSync | on the executions of C57: a step is made by the thread that moves; only `Insert` and `Remove` of a process's table take and release a mutex (system calls do not synchronize). Invariant: the unlocking thread still owns the name, or the table's mutex, and every thread on the way to a grant of the name, knows the unlock call |
| C110 | MemEnvConc, HappensBefore, MemSync | on the executions of C80: a step is made by the thread that moves, the mutexes that it takes and releases are read off the state. What a statement accesses is defined by its meaning (its effect depends on, or changes, the part). The code of every method holds the mutex of the part at every access (predicate `Locked` over the code, for every method); who holds the same mutex is ordered. For names: predicate `Asks` (no positive answer without having seen the name in the map), and an invariant that every thread with `mutex_` after the making call knows it. For bytes: every step that makes a file longer is a step of an `Append` call, by at most its length in all (predicate `Grows`), and a reader's answer is bounded by the size that it read in an earlier step (`Blind`); the accesses are ordered by the first theorem |
| C111 | ArenaConc, HappensBefore | the modification order of `memory_usage_` is a list, each thread has the index of the newest value that it knows, a relaxed load returns any value from there on, `fetch_add` reads the last one; messages carry the index (release and acquire). The code of a call is given separately (`Code`: at most one `fetch_add`) and is proved to do what `Model/Arena` does (`code_step`). Invariant: the values increase strictly, each is the usage after a prefix of the calls; indices grow along happens-before |
| C112 | SkipThrow | the methods again, statement by statement, in a monad of object, number of comparisons so far, and outcome (returned, threw, fault), so that an exception keeps the object as it is at that moment; which calls throw is an arbitrary predicate. Searches are proved to change nothing and to compute what `Model/SkipList` computes unless they throw (`RO`, closed under bind); no statement after the first store compares; histories by induction, with `Insert` on fresh keys from C24 |
| C80–C82, C66 | MemEnvConc | a small concurrent separation argument: a ghost view per thread (what it knows while it holds `mutex_`, `refs_mutex_`, `blocks_mutex_`, a reference), an invariant over the shared state, every method verified statement by statement, then simulation of the atomic file system; a lock order for deadlock freedom and a well-founded measure for termination |

Properties that are false of the code, with the theorem that shows it: C25 (`C25_debug_build_aborts`), C36
(`C36_capacity_lost`), C42 (`C42_new_name_is_poisoned`), C43 (`C43_self_rename_deletes`), C45 (`C45_lock_does_not_exclude`), C50
(`C50_append_after_close_lost`), C52 (`C52_root_manifest_cannot_sync`), C55 (`C55_wraps`, `C55_size_race`), C56
(`C56_skips_past_the_end`, `C56_huge_skip_moves_back`), C58 (`C58_failed_lock_releases`, `C58_unlock_race`), C61, C62
(`C62_default_leaves_result`), C64 (`C64_negative_violated`), C65 (`C65_memenv_reports_io_error`), C66
(`C66_skip_races_with_truncation`, `C66_torn_run`), C70 (`C70_mmap_no_short_read`, ...), C71 (`C71_truncated_listing`), C73
(`C73_no_directory`), C77 (`C77_torn`), C87 (`C87_assignment_dangles`), C88 (`C88_key_crash`,
`C88_failed_insert_stays`), C89 (`C89_failed_rename_loses_target`, `C89_failed_open_empties`,
`C89_failed_append_partly`, `C89_failed_create_leaks`), C90 (`C90_throw_stops`, `C90_returned_lost`), C91 (the `C91_..._violated` theorems). Limits inside properties that otherwise hold are theorems too: C46
(`C46_posix_leftover`, `C46_posix_sync_name_lost`), C49 (`C49_later_success`), C53 (`C53_overlapping_calls`...), C60
(`C60_logger_reports_close_error`).

No property was found that cannot be expressed in the model.
