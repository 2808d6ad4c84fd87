{"id": "C01", "title": "Fixed-width integers round-trip", "statement": "PutFixed32/PutFixed64 append exactly 4/8 bytes, least-significant byte first, to the destination without disturbing what was there, and DecodeFixed32/DecodeFixed64 on those bytes returns the value that was put.", "quantifier": "every 32-bit and 64-bit value, every previous content of the destination string", "why_tests_cant": "2^64 values times every prior string; a test samples a handful.", "anchors": ["util/coding.h:EncodeFixed32", "util/coding.h:DecodeFixed32", "util/coding.h:EncodeFixed64", "util/coding.h:DecodeFixed64", "util/coding.cc:PutFixed32", "util/coding.cc:PutFixed64"]}
{"id": "C02", "title": "Varints round-trip in any stream", "statement": "A value written with PutVarint32/PutVarint64 is read back by GetVarint32/GetVarint64, which leaves the input slice exactly at the first byte after the value; hence any sequence of values written one after the other is read back in order, followed by the untouched rest of the stream.", "quantifier": "every value, every list of values, every trailing bytes, every storage the slice is embedded in", "why_tests_cant": "Unbounded sequences and 2^64 values.", "anchors": ["util/coding.cc:EncodeVarint32", "util/coding.cc:EncodeVarint64", "util/coding.cc:PutVarint32", "util/coding.cc:PutVarint64", "util/coding.cc:GetVarint32", "util/coding.cc:GetVarint64", "util/coding.cc:GetVarint32PtrFallback", "util/coding.cc:GetVarint64Ptr", "util/coding.h:GetVarint32Ptr"]}
{"id": "C03", "title": "VarintLength is exact and encodings fit their buffers", "statement": "VarintLength(v) is exactly the number of bytes PutVarint64(v) (and PutVarint32(v) for 32-bit v) appends; it is at most 5 for a 32-bit and at most 10 for a 64-bit value, so the on-stack buffers never overflow, it is the smallest number of 7-bit groups that can hold v, and both widths produce the same bytes for the same number.", "quantifier": "every 32-bit and 64-bit value", "why_tests_cant": "Needs every value; a boundary error at one of the 9 thresholds corrupts the stack.", "anchors": ["util/coding.cc:VarintLength", "util/coding.cc:PutVarint32", "util/coding.cc:PutVarint64"]}
{"id": "C04", "title": "Varint decoding is safe on arbitrary bytes", "statement": "On any input, including corrupt or truncated data, the varint readers terminate, look only at bytes inside [p, limit), and either fail leaving the input slice and the output value untouched, or consume between 1 and 5 (10) bytes that end at the first byte below 128. They fail exactly when there is no such byte among the first 5 (10); in particular every strict prefix of a valid encoding is rejected. The result does not depend on bytes outside the range.", "quantifier": "every byte string of every length, every position, every surrounding memory content", "why_tests_cant": "Malformed inputs form an unbounded space; out-of-bounds reads do not fail tests reliably.", "anchors": ["util/coding.h:GetVarint32Ptr", "util/coding.cc:GetVarint32PtrFallback", "util/coding.cc:GetVarint64Ptr", "util/coding.cc:GetVarint32", "util/coding.cc:GetVarint64"]}
{"id": "C05", "title": "Length-prefixed strings round-trip and never escape the input", "statement": "Any list of byte strings (each shorter than 2^32 bytes) written with PutLengthPrefixedSlice is read back in order by GetLengthPrefixedSlice. On arbitrary input a successful read yields a slice lying wholly inside the input, immediately followed by the remaining input; no byte outside the input is read.", "quantifier": "every list of strings below the 32-bit length limit; every input byte string for the safety half", "why_tests_cant": "Unbounded sequences of strings of unbounded lengths; adversarial length fields.", "anchors": ["util/coding.cc:PutLengthPrefixedSlice", "util/coding.cc:GetLengthPrefixedSlice"]}
{"id": "C06", "title": "Slice comparison is the byte-wise lexicographic total order", "statement": "Slice::compare is negative, zero or positive exactly when the left bytes are lexicographically before, equal to or after the right bytes (bytes as unsigned numbers, proper prefix first); it is a total order, agrees with operator== / !=; starts_with holds exactly for prefixes; no comparison reads outside either slice.", "quantifier": "every pair (and triple) of byte strings, wherever they sit in memory", "why_tests_cant": "Ordering laws quantify over all triples of strings; signedness errors appear only on rare bytes.", "anchors": ["include/lsmdb/slice.h:Slice::compare", "include/lsmdb/slice.h:operator==", "include/lsmdb/slice.h:starts_with", "include/lsmdb/slice.h:remove_prefix"]}
{"id": "C07", "title": "Hash depends only on the bytes and the seed", "statement": "Hash(data, n, seed) reads exactly the n bytes given and no other, and equals the documented murmur-like function of those bytes (as unsigned, little-endian words) and the seed, whatever the alignment or surrounding memory.", "quantifier": "every byte string of every length, every seed, every surrounding memory", "why_tests_cant": "Out-of-bounds or sign-extension errors show only for particular lengths and bytes.", "anchors": ["util/hash.cc:Hash"]}
{"id": "C08", "title": "Hash loses no information it does not have to", "statement": "For fixed data Hash is a bijection of the seed, and two strings of equal length that differ only inside one aligned 4-byte block (or only in the trailing 1-3 bytes) never collide; in particular all 2^32 four-byte keys have distinct hashes.", "quantifier": "every length, every pair of such strings, every seed", "why_tests_cant": "2^32 x 2^32 pairs; no sampling can exclude a collision.", "anchors": ["util/hash.cc:Hash"]}
{"id": "C09", "title": "Random::Next is the Lehmer generator and never gets stuck", "statement": "From any seed given to the constructor every call of Next returns (16807 * previous) mod (2^31-1), and the returned value always lies in [1, 2^31-2].", "quantifier": "every 32-bit seed, every number of calls", "why_tests_cant": "The reduction trick fails only for rare states, if at all; a stuck generator needs an unbounded run to exclude.", "anchors": ["util/random.h:Random::Random", "util/random.h:Random::Next"]}
{"id": "C10", "title": "Random has full period", "statement": "From any seed the sequence of values returned by Next visits every number of [1, 2^31-2] exactly once before it repeats.", "quantifier": "every seed, the whole 2^31-2 cycle", "why_tests_cant": "Two billion calls per seed for two billion seeds.", "anchors": ["util/random.h:Random::Next"]}
{"id": "C11", "title": "Random helpers stay in their documented ranges", "statement": "Uniform(n) is in [0, n-1] for n > 0; OneIn(1) is always true; Skewed(max_log) is in [0, 2^max_log - 1] for 0 <= max_log <= 30 and never divides by zero or shifts out of range there.", "quantifier": "every generator state, every n and max_log in range", "why_tests_cant": "A single bad state would index out of range.", "anchors": ["util/random.h:Random::Uniform", "util/random.h:Random::OneIn", "util/random.h:Random::Skewed"]}
{"id": "C12", "title": "Decimal numbers round-trip", "statement": "ConsumeDecimalNumber applied to NumberToString(n) followed by anything that does not start with a digit succeeds, yields n and leaves exactly what followed; AppendNumberTo leaves what was already in the string untouched; NumberToString never produces leading zeros and never overflows its 30-byte buffer.", "quantifier": "every 64-bit n, every following bytes, every existing string", "why_tests_cant": "2^64 values.", "anchors": ["util/logging.cc:AppendNumberTo", "util/logging.cc:NumberToString", "util/logging.cc:ConsumeDecimalNumber"]}
{"id": "C13", "title": "Decimal parsing is exact on arbitrary input", "statement": "ConsumeDecimalNumber succeeds exactly when the input starts with a digit and its maximal run of digits denotes a number at most 2^64-1; then it returns that number and drops exactly that run. If the number is too large it fails and leaves the input and the output untouched; with no digit it fails leaving the input where it was. It never wraps around silently.", "quantifier": "every input byte string", "why_tests_cant": "Overflow boundary behaviour for runs of unbounded length.", "anchors": ["util/logging.cc:ConsumeDecimalNumber"]}
{"id": "C14", "title": "Escaped strings are printable and faithful", "statement": "EscapeString output contains only printable ASCII, leaves a printable string unchanged, replaces each other byte by \\x and two lower-case hex digits, is compositional under concatenation, and the original can be recovered whenever it contains no backslash. (It is not recoverable in general: the code does not escape the backslash.)", "quantifier": "every byte string", "why_tests_cant": "All byte values in all positions; injectivity is a statement about pairs.", "anchors": ["util/logging.cc:AppendEscapedStringTo", "util/logging.cc:EscapeString"]}
{"id": "C15", "title": "Status keeps its kind and message", "statement": "A Status built as NotFound/Corruption/NotSupported/InvalidArgument/IOError with messages m1, m2 reports exactly that kind (exactly one predicate true, ok() false) and prints as kind prefix, m1, and, if m2 is non-empty, ': ' and m2; OK prints 'OK' and only ok() is true. Copying, assigning (including self-assignment), moving never changes what the destination reports.", "quantifier": "every kind and message pair whose packed size fits in 32 bits, every sequence of copies, assignments and moves", "why_tests_cant": "Unbounded messages and operation sequences.", "anchors": ["include/lsmdb/status.h:Status", "util/status.cc:Status::Status", "util/status.cc:Status::CopyState", "util/status.cc:Status::ToString"]}
{"id": "C16", "title": "Status never leaks or double-frees", "statement": "In any program that constructs, copies, assigns, moves and destroys Status objects in any order (including self-assignment and self-move), every message buffer is owned by exactly one live Status, is never used after being freed, never freed twice, and all buffers are freed once all objects are destroyed.", "quantifier": "every finite sequence of Status operations over any number of variables", "why_tests_cant": "Aliasing sequences are unbounded; double frees need a specific order.", "anchors": ["include/lsmdb/status.h:Status", "util/status.cc:Status::CopyState"]}
{"id": "C17", "title": "Arena allocations never overlap", "statement": "Every block returned by Allocate or AllocateAligned lies wholly inside memory the arena owns and is disjoint from every block returned before, so data written through one pointer is never changed through another, for the whole life of the arena.", "quantifier": "every sequence of Allocate/AllocateAligned calls of any positive sizes below 2^64-8, every placement of the underlying blocks, any of the underlying allocations possibly throwing", "why_tests_cant": "Overlap needs particular size sequences and block boundaries.", "anchors": ["util/arena.h:Arena::Allocate", "util/arena.cc:Arena::AllocateAligned", "util/arena.cc:Arena::AllocateFallback", "util/arena.cc:Arena::AllocateNewBlock"]}
{"id": "C18", "title": "AllocateAligned is aligned", "statement": "Every pointer returned by AllocateAligned is a multiple of 8, whatever unaligned allocations came before.", "quantifier": "every call history", "why_tests_cant": "Misalignment appears only after particular residues.", "anchors": ["util/arena.cc:Arena::AllocateAligned"]}
{"id": "C19", "title": "Arena memory accounting is exact and bounded", "statement": "MemoryUsage never decreases, is at least the sum of all requested sizes, equals the bytes obtained from the system plus one pointer per block, and the destructor frees every block exactly once. Waste is bounded: with at most 7 alignment bytes counted per request, the memory obtained is at most about 4/3 (4096/3066) of what was requested plus one standard block.", "quantifier": "every call history", "why_tests_cant": "Requires arbitrary histories.", "anchors": ["util/arena.h:Arena::MemoryUsage", "util/arena.cc:Arena::AllocateNewBlock", "util/arena.cc:Arena::AllocateFallback", "util/arena.cc:Arena::~Arena"]}
{"id": "C20", "title": "SkipList is a set", "statement": "After inserting any keys no two of which compare equal, in any order and with whatever tower heights the random generator yields, Contains(k) is true exactly when a key comparing equal to k was inserted.", "quantifier": "every comparator that is a strict total order, every insertion sequence, every random seed", "why_tests_cant": "Correctness must hold for every tower shape and insertion order.", "anchors": ["db/skiplist.h:SkipList::Insert", "db/skiplist.h:SkipList::Contains", "db/skiplist.h:SkipList::FindGreaterOrEqual"]}
{"id": "C21", "title": "SkipList iteration is complete and sorted", "statement": "SeekToFirst followed by Next until invalid yields exactly the inserted keys, each once, in strictly increasing order; SeekToLast followed by Prev yields the same in reverse; the iterator is valid after SeekToFirst/SeekToLast exactly when the list is not empty.", "quantifier": "every comparator, insertion sequence and tower heights", "why_tests_cant": "Every shape and order.", "anchors": ["db/skiplist.h:SkipList::Iterator::Next", "db/skiplist.h:SkipList::Iterator::Prev", "db/skiplist.h:SkipList::Iterator::SeekToFirst", "db/skiplist.h:SkipList::Iterator::SeekToLast", "db/skiplist.h:SkipList::FindLessThan", "db/skiplist.h:SkipList::FindLast"]}
{"id": "C22", "title": "SkipList Seek finds the least upper neighbour, Prev the greatest lower one", "statement": "Seek(t) positions at the smallest inserted key >= t and is invalid exactly when there is none; Prev from a key positions at the largest inserted key smaller than it, invalid exactly when there is none.", "quantifier": "every content, every target, present or not", "why_tests_cant": "Every shape and target.", "anchors": ["db/skiplist.h:SkipList::Iterator::Seek", "db/skiplist.h:SkipList::FindGreaterOrEqual", "db/skiplist.h:SkipList::FindLessThan"]}
{"id": "C23", "title": "SkipList reads are linearizable against a concurrent writer", "statement": "A reader that runs Contains, Seek, SeekToFirst, SeekToLast, Next or Prev without any lock while one writer is inserting gets the answer that is correct for the set of keys at some moment that is not before anything that happens before the read and not after the end of the read, and these moments never go backwards for one reader; inserts completed before (in the happens-before sense) are always seen, keys whose insertion has not begun are never seen, and no half-built node or out-of-range link is ever observed.", "quantifier": "every interleaving of reader and writer steps, every stale-but-coherent release/acquire read and any stale value of the list height, every history", "why_tests_cant": "Data-race schedules are unbounded and weak-memory behaviours do not occur on the test machine.", "anchors": ["db/skiplist.h:SkipList::Insert", "db/skiplist.h:SkipList::FindGreaterOrEqual", "db/skiplist.h:SkipList::FindLessThan", "db/skiplist.h:SkipList::FindLast", "db/skiplist.h:Node::Next", "db/skiplist.h:Node::SetNext"]}
{"id": "C24", "title": "SkipList searches terminate without touching bad memory", "statement": "For every content, Contains, Seek, Prev, SeekToLast and Insert terminate, never dereference null, never read a link above a node's tower height, and towers have height 1 to 12. A search by a reader that runs while the writer goes on also ends: if the writer gets no further than its i-th insertion meanwhile, after at most i + 12 loads, whatever they return, and none of the loads faults.", "quantifier": "every content, target and random state; for concurrent readers every schedule and every value the memory model lets a load return", "why_tests_cant": "Memory errors need particular tower shapes.", "anchors": ["db/skiplist.h:SkipList::RandomHeight", "db/skiplist.h:SkipList::FindGreaterOrEqual", "db/skiplist.h:SkipList::Insert"]}
{"id": "C25", "title": "SkipList::Insert of a fresh key never aborts", "statement": "Inserting a key that is not in the list succeeds, in release and in assertion-enabled builds.", "quantifier": "every list content, fresh key, random state and build mode", "why_tests_cant": "The skip list has no unit test at all; the claim ranges over all states.", "anchors": ["db/skiplist.h:SkipList::RandomHeight", "db/skiplist.h:SkipList::Insert"]}
{"id": "C26", "title": "Cache lookups return the current mapping or nothing", "statement": "Lookup(k) returns null or a handle to the value of the most recent Insert(k,...) that has not been followed by Erase(k); it never returns a value of another key, an overwritten or an erased value.", "quantifier": "every history of Insert/Lookup/Release/Erase/Prune over any keys and any hash values, any capacity", "why_tests_cant": "Unbounded histories, hash collisions and evictions.", "anchors": ["util/cache.cc:LRUCache::Lookup", "util/cache.cc:LRUCache::Insert", "util/cache.cc:LRUCache::Erase", "util/cache.cc:HandleTable"]}
{"id": "C27", "title": "A held cache handle stays valid", "statement": "Until it has been released as often as it was obtained, a handle's value is unchanged and its entry is not passed to the deleter, even if the key is overwritten, erased, evicted or pruned.", "quantifier": "every history respecting the Release protocol", "why_tests_cant": "Use-after-free depends on rare orders of eviction and release.", "anchors": ["util/cache.cc:LRUCache::Ref", "util/cache.cc:LRUCache::Unref", "util/cache.cc:LRUCache::FinishErase", "util/cache.cc:LRUCache::Release"]}
{"id": "C28", "title": "The cache deleter runs exactly once per entry", "statement": "Every inserted entry is passed to its deleter at most once, with its own key and value; and exactly once after all its handles are released and it has left the cache or the cache is destroyed. No entry is leaked.", "quantifier": "every history respecting the Release protocol, followed by destruction", "why_tests_cant": "Leaks and double deletes depend on arbitrary histories.", "anchors": ["util/cache.cc:LRUCache::Unref", "util/cache.cc:LRUCache::~LRUCache", "util/cache.cc:LRUCache::FinishErase"]}
{"id": "C29", "title": "Cache usage accounting and capacity bound", "statement": "TotalCharge is exactly the sum (in size_t arithmetic) of the charges of the entries a Lookup could currently return; right after an Insert a shard exceeds its capacity only if every one of its cached entries is in use by a client; no other call increases the usage. (An entry larger than the capacity that was inserted and released does keep the cache over its capacity, without any client reference, until the next Insert into its shard.)", "quantifier": "every history, every charge and capacity (sums below 2^64)", "why_tests_cant": "Accounting drift accumulates over unbounded histories.", "anchors": ["util/cache.cc:LRUCache::Insert", "util/cache.cc:LRUCache::TotalCharge", "util/cache.cc:LRUCache::FinishErase", "util/cache.cc:ShardedLRUCache::TotalCharge"]}
{"id": "C30", "title": "Cache eviction is least-recently-used", "statement": "When Insert evicts, it evicts only entries not in use, in order from the one whose last use ended longest ago, and stops as soon as usage fits; an entry that stays is never less recently used than an evicted one.", "quantifier": "every history", "why_tests_cant": "LRU order is a property of complete histories.", "anchors": ["util/cache.cc:LRUCache::Insert", "util/cache.cc:LRUCache::LRU_Append", "util/cache.cc:LRUCache::Unref"]}
{"id": "C31", "title": "Erase and other keys", "statement": "After Erase(k) Lookup(k) is null until the next Insert(k); Erase, Lookup and Release never change what a Lookup of another key returns.", "quantifier": "every state and every pair of keys, including keys with equal hashes", "why_tests_cant": "All collisions and states.", "anchors": ["util/cache.cc:LRUCache::Erase", "util/cache.cc:HandleTable::Remove"]}
{"id": "C32", "title": "Prune drops exactly the idle entries", "statement": "After Prune an entry is still in the cache exactly if it was there before and is referenced by a client.", "quantifier": "every state", "why_tests_cant": "All states.", "anchors": ["util/cache.cc:LRUCache::Prune", "util/cache.cc:ShardedLRUCache::Prune"]}
{"id": "C33", "title": "Capacity zero disables caching", "statement": "With capacity 0 Insert still returns a usable handle, no Lookup ever hits, TotalCharge stays 0 and the entry is passed to the deleter when its handle is released.", "quantifier": "every history on a zero-capacity cache", "why_tests_cant": "All histories.", "anchors": ["util/cache.cc:LRUCache::Insert", "util/cache.cc:NewLRUCache"]}
{"id": "C34", "title": "Cache ids are unique", "statement": "All values returned by NewId, to any threads in any order, are distinct (until 2^64 calls).", "quantifier": "every interleaving and number of calls", "why_tests_cant": "Needs all interleavings.", "anchors": ["util/cache.cc:ShardedLRUCache::NewId"]}
{"id": "C35", "title": "The cache's hash table is exact for every hash function", "statement": "As long as fewer than 2^31 entries are cached: whatever the hash values (even all equal) and across every table resize, every cached key is found, no uncached key is found, and no entry is lost or duplicated; the table never has more entries than buckets after an insert. (Growing to more than 2^31 entries never terminates.)", "quantifier": "every sequence of table inserts/removes with arbitrary hash values", "why_tests_cant": "Bucket chains and resizes under adversarial hashes.", "anchors": ["util/cache.cc:HandleTable::FindPointer", "util/cache.cc:HandleTable::Insert", "util/cache.cc:HandleTable::Remove", "util/cache.cc:HandleTable::Resize"]}
{"id": "C36", "title": "NewLRUCache honours the requested capacity", "statement": "A cache created with capacity c has total shard capacity at least c and less than c + 16.", "quantifier": "every 64-bit capacity", "why_tests_cant": "Fails only at the very top of the range.", "anchors": ["util/cache.cc:ShardedLRUCache::ShardedLRUCache"]}
{"id": "C37", "title": "The cache is memory safe", "statement": "No history that respects the Release protocol makes the cache dereference a null or dangling pointer, corrupt its lists, or trip an assertion.", "quantifier": "every history respecting the Release protocol", "why_tests_cant": "Pointer-level errors need particular orders.", "anchors": ["util/cache.cc:LRUCache::LRU_Remove", "util/cache.cc:LRUCache::LRU_Append", "util/cache.cc:HandleTable::FindPointer"]}
{"id": "C38", "title": "In-memory files are byte sequences", "statement": "A memenv file behaves as the concatenation of everything appended since creation/truncation, however the appends are chunked across the 8 KiB blocks: size is the total length; Read(offset, n) returns exactly the bytes [offset, min(offset+n, size)), fails exactly when offset > size, and never reads uninitialised or foreign memory.", "quantifier": "every list of appends of any sizes, every offset and length", "why_tests_cant": "Block-boundary errors need particular sizes.", "anchors": ["helpers/memenv/memenv.cc:FileState::Append", "helpers/memenv/memenv.cc:FileState::Read", "helpers/memenv/memenv.cc:FileState::Truncate"]}
{"id": "C39", "title": "In-memory sequential reads partition the file", "statement": "Successive Reads and Skips on a memenv sequential file return consecutive pieces; reading until an empty result returns the whole remaining contents whatever the request sizes; Skip stops at end of file.", "quantifier": "every file content, every sequence of positive read sizes and skips", "why_tests_cant": "Arbitrary request sequences.", "anchors": ["helpers/memenv/memenv.cc:SequentialFileImpl::Read", "helpers/memenv/memenv.cc:SequentialFileImpl::Skip"]}
{"id": "C40", "title": "In-memory Env implements a file namespace", "statement": "FileExists, GetFileSize, NewWritableFile, NewSequentialFile, NewRandomAccessFile, RemoveFile, RenameFile behave as a map from names to byte sequences: a missing file gives a non-OK status, stores null, and changes nothing; NewWritableFile leaves an empty file; Remove and Rename have exactly the documented effect on the map and leave every other name untouched.", "quantifier": "every history of Env operations (outside the two defects of C42, C43)", "why_tests_cant": "Arbitrary histories and names.", "anchors": ["helpers/memenv/memenv.cc:InMemoryEnv"]}
{"id": "C41", "title": "Open in-memory files survive removal, and are freed exactly once", "statement": "A memenv file object opened before its name is removed, renamed or overwritten stays usable; the storage is released exactly when the last name and the last open file object are gone, never earlier and never twice.", "quantifier": "every history of open/close/remove/rename", "why_tests_cant": "Reference counting errors need particular orders.", "anchors": ["helpers/memenv/memenv.cc:FileState::Ref", "helpers/memenv/memenv.cc:FileState::Unref", "helpers/memenv/memenv.cc:InMemoryEnv::RemoveFileInternal", "helpers/memenv/memenv.cc:InMemoryEnv::~InMemoryEnv"]}
{"id": "C42", "title": "NewAppendableFile creates a readable file", "statement": "Appending through NewAppendableFile to a name that did not exist creates a file with that name whose contents are the appended data, and later operations on that name work.", "quantifier": "every state and name", "why_tests_cant": "The unit test only covers the existing-file case; a claim about every state.", "anchors": ["helpers/memenv/memenv.cc:InMemoryEnv::NewAppendableFile"]}
{"id": "C43", "title": "RenameFile moves the file, also onto itself", "statement": "After RenameFile(src, dst) returns OK, dst has the contents src had, src no longer exists unless src = dst, and no other file changed.", "quantifier": "every state and every pair of names, equal or not", "why_tests_cant": "Aliased arguments are a corner tests skip.", "anchors": ["helpers/memenv/memenv.cc:InMemoryEnv::RenameFile"]}
{"id": "C44", "title": "GetChildren lists exactly the files under the directory", "statement": "memenv GetChildren(d) returns, in sorted order and without duplicates, exactly the strings s such that d + '/' + s is an existing file.", "quantifier": "every state and directory name", "why_tests_cant": "Every set of names, including names that are prefixes of each other.", "anchors": ["helpers/memenv/memenv.cc:InMemoryEnv::GetChildren"]}
{"id": "C45", "title": "LockFile excludes (in-memory Env)", "statement": "While somebody holds the lock on a file, LockFile on the same file fails.", "quantifier": "every history", "why_tests_cant": "Statement about all histories.", "anchors": ["helpers/memenv/memenv.cc:InMemoryEnv::LockFile", "include/lsmdb/env.h:Env::LockFile"]}
{"id": "C46", "title": "WriteStringToFile / ReadFileToString round-trip", "statement": "After WriteStringToFile(env, data, f) returns OK, ReadFileToString(env, f) returns OK with exactly data, on the in-memory Env and, for every pattern of short reads, short writes and interrupted system calls, on the POSIX Env (there ReadFileToString may also report a system call that failed, never wrong data with OK). A failing write reports the failure and removes the file, unless it could not be opened (then nothing was done) or unlink fails too (which is not reported). After WriteStringToFileSync a crash cannot change the contents (the name is not made durable).", "quantifier": "every data, name, prior state, system-call outcome pattern, and actions of other processes that leave this file and these descriptors alone", "why_tests_cant": "Short transfers and EINTR are outside test control.", "anchors": ["util/env.cc:DoWriteStringToFile", "util/env.cc:ReadFileToString", "util/env_posix.cc:PosixWritableFile", "util/env_posix.cc:PosixSequentialFile"]}
{"id": "C47", "title": "Buffered POSIX writes deliver the stream exactly", "statement": "As long as no call returned an error, the bytes in the file followed by the bytes still buffered are exactly the concatenation of all appended data, in order, once each, for every pattern of short writes and EINTR; after a successful Flush, Sync or Close all of it is in the file; the 64 KiB buffer never overflows.", "quantifier": "every sequence of Append/Flush/Sync calls of any sizes, every pattern of write() results", "why_tests_cant": "write() outcome patterns cannot be enumerated or provoked by tests.", "anchors": ["util/env_posix.cc:PosixWritableFile::Append", "util/env_posix.cc:PosixWritableFile::FlushBuffer", "util/env_posix.cc:PosixWritableFile::WriteUnbuffered"]}
{"id": "C48", "title": "Synced data survives a crash", "statement": "After Sync returned OK, no earlier call having failed, a crash at any later point leaves a file that begins with everything appended before that Sync; as long as no call has returned an error, a crash at any point leaves the contents at opening (or what a crash could have left then) followed by a prefix of the appended stream.", "quantifier": "every operation sequence, every system-call outcome pattern, every crash point and every subset of unsynced data surviving as a prefix", "why_tests_cant": "Crash points cannot be tested exhaustively.", "anchors": ["util/env_posix.cc:PosixWritableFile::Sync", "util/env_posix.cc:PosixWritableFile::SyncFd"]}
{"id": "C49", "title": "Write errors are reported, and only a prefix was written", "statement": "If a write() fails, the Append/Flush/Sync/Close that triggered it returns the error, and at that moment the file holds a prefix of the appended stream. A later success of the same object does not mean the stream is intact: bytes buffered at the failure are gone.", "quantifier": "every operation sequence and failure point", "why_tests_cant": "Failures at every point.", "anchors": ["util/env_posix.cc:PosixWritableFile::FlushBuffer", "util/env_posix.cc:PosixWritableFile::Append"]}
{"id": "C50", "title": "Using a closed POSIX file is an error", "statement": "After Close, Append does not report success for data that is never going to reach the file.", "quantifier": "every state after Close, every data", "why_tests_cant": "Statement about all post-close uses.", "anchors": ["util/env_posix.cc:PosixWritableFile::Append", "util/env_posix.cc:PosixWritableFile::Close", "util/env_posix.cc:PosixWritableFile::~PosixWritableFile"]}
{"id": "C51", "title": "Manifest files sync their directory first", "statement": "Sync of a file whose base name starts with MANIFEST syncs the containing directory before any of its still-buffered data is written or synced, and fails without writing if that fails; files with other names never touch the directory.", "quantifier": "every file name, every system-call outcome pattern", "why_tests_cant": "Ordering of system calls under every failure pattern.", "anchors": ["util/env_posix.cc:PosixWritableFile::Sync", "util/env_posix.cc:PosixWritableFile::SyncDirIfManifest", "util/env_posix.cc:PosixWritableFile::IsManifest"]}
{"id": "C52", "title": "Paths are split correctly", "statement": "For every file name the base name has no separator and, when there is a separator, name = directory + '/' + base name; with no separator the directory is '.'; the directory opened for a manifest is always the directory that contains it.", "quantifier": "every path string", "why_tests_cant": "All path shapes, including files in the root directory.", "anchors": ["util/env_posix.cc:PosixWritableFile::Dirname", "util/env_posix.cc:PosixWritableFile::Basename"]}
{"id": "C53", "title": "The resource limiter never over-allocates", "statement": "However many threads call Acquire and Release in whatever interleaving, at most the configured number of successful acquisitions are outstanding at any time; when no call is in progress exactly limit minus outstanding acquisitions would succeed. A call that overlaps no other fails only when nothing is available. A call of Acquire is refused only if at some moment during the call the acquisitions outstanding and the calls of other threads in progress are together at least the limit.", "quantifier": "every number of threads, every interleaving of the atomic operations, every limit", "why_tests_cant": "Interleavings are unbounded.", "anchors": ["util/env_posix.cc:Limiter::Acquire", "util/env_posix.cc:Limiter::Release"]}
{"id": "C54", "title": "POSIX Env leaks no descriptors and no limiter slots", "statement": "Over any history of opening and destroying files, with any system call failing, the open descriptors and mappings are exactly those owned by live file objects, no descriptor is closed twice, and the limiter counters equal their limits minus the live mmap / permanently-open files.", "quantifier": "every history and every pattern of system-call failures", "why_tests_cant": "Failure paths are hard to provoke.", "anchors": ["util/env_posix.cc:PosixEnv::NewRandomAccessFile", "util/env_posix.cc:PosixRandomAccessFile", "util/env_posix.cc:PosixMmapReadableFile", "util/env_posix.cc:PosixEnv::NewSequentialFile", "util/env_posix.cc:PosixEnv::NewWritableFile"]}
{"id": "C55", "title": "Memory-mapped reads stay inside the mapping", "statement": "PosixMmapReadableFile::Read returns either an error or a slice lying inside the mapped file.", "quantifier": "every 64-bit offset and length", "why_tests_cant": "Wrap-around occurs only at extreme arguments.", "anchors": ["util/env_posix.cc:PosixMmapReadableFile::Read"]}
{"id": "C56", "title": "POSIX sequential Skip stops at end of file", "statement": "Skip(n) advances by n bytes, but not beyond the end of the file, for every n.", "quantifier": "every position, file size and 64-bit n", "why_tests_cant": "Extreme arguments and files that grow later.", "anchors": ["util/env_posix.cc:PosixSequentialFile::Skip", "include/lsmdb/env.h:SequentialFile::Skip"]}
{"id": "C57", "title": "LockFile excludes within a process", "statement": "At most one successful LockFile per name is outstanding in a process, for every interleaving of LockFile and UnlockFile calls by any threads.", "quantifier": "every interleaving", "why_tests_cant": "Interleavings are unbounded.", "anchors": ["util/env_posix.cc:PosixLockTable", "util/env_posix.cc:PosixEnv::LockFile", "util/env_posix.cc:PosixEnv::UnlockFile"]}
{"id": "C58", "title": "LockFile excludes across processes", "statement": "While a process holds a lock obtained by LockFile and has not called UnlockFile, LockFile on that file in any other process fails.", "quantifier": "every interleaving of LockFile/UnlockFile calls in all processes and threads", "why_tests_cant": "Cross-process schedules; POSIX drops a process's lock when any descriptor of the file is closed.", "anchors": ["util/env_posix.cc:PosixEnv::LockFile", "util/env_posix.cc:PosixEnv::UnlockFile", "util/env_posix.cc:LockOrUnlock"]}
{"id": "C59", "title": "Scheduled work runs exactly once, in order", "statement": "Every function passed to Schedule is run exactly once by the background thread, in the order of the Schedule calls; the background thread never sleeps forever while work is pending.", "quantifier": "every interleaving of Schedule calls by any threads with the background thread, including spurious wake-ups", "why_tests_cant": "Lost wake-ups need a rare interleaving.", "anchors": ["util/env_posix.cc:PosixEnv::Schedule", "util/env_posix.cc:PosixEnv::BackgroundThreadMain"]}
{"id": "C60", "title": "System errors are classified correctly", "statement": "A failing POSIX Env operation reports NotFound exactly when the system error is ENOENT and IOError otherwise, with the file name as message.", "quantifier": "every error number and name", "why_tests_cant": "Every errno.", "anchors": ["util/env_posix.cc:PosixError"]}
{"id": "C61", "title": "Log lines are written whole", "statement": "Each Logv call writes exactly the header followed by the complete formatted message followed by one newline unless the message already ends in one, for messages of every length, without overrunning its buffers.", "quantifier": "every message (any length and content) and header within the documented size", "why_tests_cant": "Off-by-one errors at the 512-byte boundary.", "anchors": ["util/posix_logger.h:PosixLogger::Logv"]}
{"id": "C62", "title": "A failing open stores null", "statement": "Whenever an Env open operation (NewSequentialFile, NewRandomAccessFile, NewWritableFile, NewAppendableFile) fails it stores null in *result, including the default implementation inherited by an Env that does not support appending.", "quantifier": "every Env in the code base and every failure", "why_tests_cant": "Quantifies over every failure of every implementation.", "anchors": ["util/env.cc:Env::NewAppendableFile", "util/env_posix.cc:PosixEnv", "helpers/memenv/memenv.cc:InMemoryEnv"]}
{"id": "C63", "title": "EnvWrapper is transparent", "statement": "Every call on an EnvWapper has exactly the effect and result of the same call on its target, for any depth of wrapping; ErrorEnv differs only in the two file-creating calls while its error flag is set, and counts exactly those failures.", "quantifier": "every Env, call and wrapping depth", "why_tests_cant": "Quantifies over all Envs and histories.", "anchors": ["include/lsmdb/env.h:EnvWapper", "util/test_util.h:ErrorEnv"]}
{"id": "C64", "title": "The open-file limit is a fifth of the system limit", "statement": "MaxOpenFiles returns the configured limit if one is set, 50 if the system limit is unknown, the largest int if it is unlimited, and otherwise a fifth of the system limit, never a negative number.", "quantifier": "every 64-bit system limit and configuration", "why_tests_cant": "Conversion from 64 to 32 bits wraps only for huge limits.", "anchors": ["util/env_posix.cc:MaxOpenFiles"]}
{"id": "C65", "title": "Missing files are reported as NotFound", "statement": "Opening a file that does not exist for reading returns a NotFound status, as env.h asks of every implementation.", "quantifier": "every Env implementation, every state and missing name", "why_tests_cant": "Quantifies over all states.", "anchors": ["include/lsmdb/env.h:Env::NewSequentialFile", "helpers/memenv/memenv.cc:InMemoryEnv::NewSequentialFile", "util/env_posix.cc:PosixEnv::NewSequentialFile"]}
{"id": "C66", "title": "Concurrent Skip and truncation in the in-memory Env", "statement": "A memenv Skip that returns OK never moves the position beyond the end of the file as it was at some moment during the call.", "quantifier": "every interleaving of Skip with truncation of the same file by another thread", "why_tests_cant": "Needs a specific interleaving of two locks.", "anchors": ["helpers/memenv/memenv.cc:SequentialFileImpl::Skip", "helpers/memenv/memenv.cc:FileState::Size"]}
{"id": "C67", "title": "Command-line tool exit code", "statement": "lsmdb_util exits with 0 exactly when its first argument is 'dump' and with 1 otherwise, printing the usage text exactly in the latter case.", "quantifier": "every argument vector", "why_tests_cant": "All argument vectors.", "anchors": ["db/lsmdb_util.cc:main"]}
{"id": "C68", "title": "Random test data has the promised shape", "statement": "RandomString yields exactly len printable characters, one per draw of the generator in order, RandomKey exactly len characters of the fixed alphabet, CompressibleString exactly len bytes that repeat a random block of max(1, len*fraction rounded and truncated) bytes; a negative length is refused.", "quantifier": "every generator state, length and fraction", "why_tests_cant": "All states and lengths.", "anchors": ["util/test_util.cc:RandomString", "util/test_util.cc:RandomKey", "util/test_util.cc:CompressibleString"]}
{"id": "C69", "title": "POSIX sequential reads partition the file", "statement": "On a file opened with NewSequentialFile on the POSIX Env, successive Read calls return consecutive pieces of the file, at most as long as asked, without gap or repetition; a Skip of n bytes moves by exactly n; a call that fails does not move; an empty result to a request for at least one byte means the end of the file.", "quantifier": "every file, every sequence of Read and Skip calls, every pattern of short, interrupted and failing system calls, while others at most append to the file", "why_tests_cant": "All sequences of calls and all patterns of short, interrupted and failed reads.", "anchors": ["util/env_posix.cc:PosixSequentialFile::Read", "util/env_posix.cc:PosixSequentialFile::Skip", "util/env_posix.cc:PosixEnv::NewSequentialFile"]}
{"id": "C70", "title": "POSIX random-access reads return the file's bytes", "statement": "A Read(offset, n) that returns OK on a file opened with NewRandomAccessFile returns bytes of the opened file from that offset, at most n, and an empty result only at the end of the file; the same whichever of the three implementations (mapped, own descriptor, reopened by name) is behind the file.", "quantifier": "every file, offset, length, open-file budget and pattern of short and failing system calls", "why_tests_cant": "All offsets, budgets, and failure patterns.", "anchors": ["util/env_posix.cc:PosixRandomAccessFile::Read", "util/env_posix.cc:PosixMmapReadableFile::Read", "util/env_posix.cc:PosixEnv::NewRandomAccessFile"]}
{"id": "C71", "title": "The POSIX namespace is a map", "statement": "RemoveFile, CreateDir, RemoveDir and RenameFile on the POSIX Env either return OK and change exactly the names they are given (a renamed file keeps its contents and replaces a file under the target name), or return an error and change nothing; FileExists, GetFileSize and GetChildren report the names, sizes and directory entries there are.", "quantifier": "every file system of files and directories, every path, every failure of a system call, every interference of other processes before the call", "why_tests_cant": "All namespaces, paths and failures.", "anchors": ["util/env_posix.cc:PosixEnv::FileExists", "util/env_posix.cc:PosixEnv::GetChildren", "util/env_posix.cc:PosixEnv::RemoveFile", "util/env_posix.cc:PosixEnv::CreateDir", "util/env_posix.cc:PosixEnv::RemoveDir", "util/env_posix.cc:PosixEnv::GetFileSize", "util/env_posix.cc:PosixEnv::RenameFile"]}
{"id": "C72", "title": "Env::Default always yields the same Env", "statement": "Every call of Env::Default in a process returns the same Env, created on the first call with the limits configured before it; setting the test limits after the Env exists is rejected in debug builds and without effect in release builds.", "quantifier": "every sequence of Default and limit-setting calls and every system limit", "why_tests_cant": "All call sequences; a test process creates the singleton once.", "anchors": ["util/env_posix.cc:Env::Default", "util/env_posix.cc:SingletonEnv", "util/env_posix.cc:EnvPosixTestHelper::SetReadOnlyFDLimit", "util/env_posix.cc:EnvPosixTestHelper::SetReadOnlyMMapLimit"]}
{"id": "C73", "title": "The test directory", "statement": "GetTestDirectory returns OK and, in every call of a process, the same path: TEST_TMPDIR if it is set and not empty, otherwise /tmp/lsmdbtest- and the user's number, so that different users get different directories; afterwards the directory exists.", "quantifier": "every environment, user number and behaviour of mkdir", "why_tests_cant": "All users and all failures of mkdir.", "anchors": ["util/env_posix.cc:PosixEnv::GetTestDirectory", "helpers/memenv/memenv.cc:InMemoryEnv::GetTestDirectory"]}
{"id": "C74", "title": "NowMicros orders times as the clock does", "statement": "NowMicros returns the microseconds of the system clock, so of two calls the one at the earlier clock time returns the smaller number.", "quantifier": "every clock value up to the year 500000", "why_tests_cant": "All clock values.", "anchors": ["util/env_posix.cc:PosixEnv::NowMicros"]}
{"id": "C75", "title": "Reading changes nothing", "statement": "A program that only opens files for reading, reads, skips, lists directories, asks for sizes and existence and destroys those objects leaves every file, directory and name as it was, including what a crash can make of them.", "quantifier": "every such history, every failure of a system call, every crash point", "why_tests_cant": "All histories, failures and crash points.", "anchors": ["util/env_posix.cc:PosixSequentialFile", "util/env_posix.cc:PosixRandomAccessFile", "util/env_posix.cc:PosixMmapReadableFile", "util/env_posix.cc:PosixEnv"]}
{"id": "C76", "title": "The cache is linearizable", "statement": "Used by any number of threads at the same time, the cache behaves as if each Insert, Lookup, Release, Erase, Value and NewId took effect at one moment between its call and its return (Prune at one moment per shard): a Lookup returns nothing or a handle of its own key; Value returns what was inserted with the handle; a handle replaced or erased before a Lookup began is not returned by it; no two Inserts return the same handle and no two NewIds the same id; a deleter runs at most once, never while a client holds a reference, and, when no call is in progress, has run exactly for the entries that are neither referenced nor cached.", "quantifier": "every number of threads, every interleaving of the steps of the calls, every client that releases no more references than it got", "why_tests_cant": "The interleavings are unbounded and a test sees only the few the scheduler happens to choose.", "anchors": ["util/cache.cc:ShardedLRUCache", "util/cache.cc:LRUCache::Insert", "util/cache.cc:LRUCache::Lookup", "util/cache.cc:LRUCache::Release", "util/cache.cc:LRUCache::Erase", "util/cache.cc:LRUCache::Prune", "include/lsmdb/cache.h:Cache"]}
{"id": "C77", "title": "TotalCharge is a total the cache had", "statement": "TotalCharge returns the sum of the charges of the cached entries at some moment between its call and its return.", "quantifier": "every interleaving with other calls", "why_tests_cant": "The window between the shards is a few instructions wide; no test hits it reliably.", "anchors": ["util/cache.cc:ShardedLRUCache::TotalCharge", "util/cache.cc:LRUCache::TotalCharge"]}
{"id": "C78", "title": "The shared cache is free of faults, deadlocks and endless calls", "statement": "When many threads use the cache, no call dereferences a bad pointer or fails an assertion, the threads never block each other for good, and the calls in progress end after finitely many steps however the threads are scheduled.", "quantifier": "every number of threads, every schedule", "why_tests_cant": "Absence of deadlock and of faults must hold in all interleavings.", "anchors": ["util/cache.cc:ShardedLRUCache", "util/cache.cc:LRUCache", "util/mutexlock.h:MutexLock", "port/port_stdcxx.h:Mutex"]}
{"id": "C79", "title": "The Envs behind the Env interface", "statement": "A client that holds an Env* to an in-memory Env gets, from every method of the interface, what the in-memory file system prescribes: the right status, NULL or a new object for an open call, *file_size untouched on an error, the names it asked for in the order it gave them; UnlockFile takes back any lock that is out and accepts NULL; the test directory is /test; time, threads and scheduling are those of the base Env, and none of these touches a file. A client that holds an Env* to the POSIX Env gets from every method what the POSIX calls prescribe, with the arguments in the order it gave them.", "quantifier": "every reachable state of the in-memory Env, every state of the POSIX Env and of the system, every method of Env, all arguments, every base Env", "why_tests_cant": "It ranges over all states and all base Envs; a swapped or dropped argument in one of nineteen forwarders shows only for particular histories.", "anchors": ["helpers/memenv/memenv.cc:InMemoryEnv", "include/lsmdb/env.h:Env", "include/lsmdb/env.h:EnvWapper", "util/env_posix.cc:PosixEnv"]}
{"id": "C80", "title": "The in-memory Env is linearizable", "statement": "Used by any number of threads at the same time, the in-memory Env and its file objects behave as if each call took effect at one moment between its call and its return (Skip at two, see C66), by the file system semantics of C38 to C44; when no call is in progress the Env answers every further call as that file system. In particular no two calls return the same file object, and concurrent appends to one file, through one or many file objects, are never lost, torn or mixed: the file is the concatenation, in some order, of all slices appended.", "quantifier": "every number of threads, every interleaving of the statements of the calls, every client that uses a file object only between its opening and its deletion, a SequentialFile from one thread at a time, and destroys the Env only when no Env call is in progress", "why_tests_cant": "The interleavings are unbounded and a test sees only the few that the scheduler happens to choose.", "anchors": ["helpers/memenv/memenv.cc:InMemoryEnv", "helpers/memenv/memenv.cc:FileState", "helpers/memenv/memenv.cc:WritableFileImpl", "util/mutexlock.h:MutexLock", "include/lsmdb/env.h:Env"]}
{"id": "C81", "title": "The shared in-memory Env frees every file exactly once and never uses freed memory", "statement": "When many threads use the in-memory Env, no step dereferences a null or freed pointer, reads unwritten bytes, uses a mutex of a deleted object, deletes an object whose mutex is held, or fails an assertion; no file is freed twice; when no call is in progress, exactly the files without a name and without an open file object have been freed; and after the Env and all file objects are deleted nothing is left.", "quantifier": "every number of threads, every interleaving, every rule-abiding client", "why_tests_cant": "A use after free shows only in the interleaving where the last reference goes away at that moment.", "anchors": ["helpers/memenv/memenv.cc:FileState::Ref", "helpers/memenv/memenv.cc:FileState::Unref", "helpers/memenv/memenv.cc:InMemoryEnv::RemoveFileInternal", "helpers/memenv/memenv.cc:InMemoryEnv::~InMemoryEnv"]}
{"id": "C82", "title": "The shared in-memory Env is free of deadlocks and endless calls", "statement": "However threads use the in-memory Env, they never block each other for good: while a call is in progress some thread can go on; the calls in progress end after finitely many steps under every schedule, and can all be completed.", "quantifier": "every number of threads, every schedule, every moment", "why_tests_cant": "Absence of deadlock must hold in all interleavings.", "anchors": ["helpers/memenv/memenv.cc:InMemoryEnv", "helpers/memenv/memenv.cc:FileState", "util/mutexlock.h:MutexLock", "port/port_stdcxx.h:Mutex"]}
{"id": "C83", "title": "Replacing a file by a synced temporary file is atomic, also in a crash", "statement": "A client that writes new contents with WriteStringToFileSync to a temporary name and, if that returned OK, calls RenameFile onto the target: whenever the machine crashes, before, during or after these calls, the target reads afterwards as it could have read after a crash before the calls, or as exactly the new contents, never empty, partial or mixed; if the client is told OK the target has the new contents at once, if it is told of an error the target is the file it was with the contents it had. (With WriteStringToFile instead of ...Sync this is false.)", "quantifier": "every file system, every contents and names, every pattern of system-call failures, short writes and interruptions, every crash point, every subset of unsynced data and names surviving the crash", "why_tests_cant": "crash points and what survives a crash cannot be enumerated by a test, and a test run does not crash the machine", "anchors": ["util/env.cc:DoWriteStringToFile", "util/env.cc:WriteStringToFileSync", "util/env_posix.cc:PosixEnv::RenameFile", "util/env_posix.cc:PosixWritableFile::Sync"]}
{"id": "C84", "title": "The cache and the in-memory Env have no data races", "statement": "However many threads use one cache or one in-memory Env, no two of them are ever about to access the same memory with one of the accesses a write or a deallocation: this includes Value and Release, which read a handle's entry without taking a mutex while other threads change the shard, and the mutexes inside file objects that are freed when the last reference goes away.", "quantifier": "every number of threads, every interleaving, every rule-abiding client", "why_tests_cant": "A race is undefined behaviour in any interleaving, whether or not a test run (even under a sanitizer) happens to hit it.", "anchors": ["util/cache.cc:LRUCache", "util/cache.cc:ShardedLRUCache", "helpers/memenv/memenv.cc:FileState", "helpers/memenv/memenv.cc:InMemoryEnv", "util/mutexlock.h:MutexLock"]}
{"id": "C85", "title": "A skip list and the other users of its arena do not disturb each other", "statement": "A SkipList constructed in an Arena that was and is also used for other things: Insert, Contains and the Iterator operations read and write only the memory of the list's own nodes (each access lies in a block the arena owns, is aligned, and reads what was last stored there); inserting throws only when new[] does, and then the list keeps exactly the keys it had and works on; Contains and iterators, also ones obtained before later insertions, are right about the keys inserted so far, whatever the client allocates from the arena and stores in its allocations; and the client finds its data unchanged.", "quantifier": "every arena history before construction, every interleaving of insertions (failing ones included), iterator operations, client allocations and client stores, every placement of blocks by new[], every key size and every state of the generator", "why_tests_cant": "Overlaps and out-of-block accesses need particular key sizes, tower heights, block boundaries and block placements, and usually corrupt silently.", "anchors": ["db/skiplist.h:SkipList::NewNode", "db/skiplist.h:SkipList::Node", "db/skiplist.h:SkipList::Insert", "util/arena.cc:Arena::AllocateAligned", "util/arena.h:Arena::Allocate"]}
{"id": "C86", "title": "Several threads may log through one Logger", "statement": "When any number of threads call Logv on one Logger from NewLogger, then at every moment the file is a beginning of its old contents followed by whole lines, each the line of one call and the lines of one thread in the order of its calls; the lines of all calls that have returned are already with the operating system, so they stay if the process is killed; when no call is under way the file is exactly the old contents and one line per call; and every call under way can complete.", "quantifier": "every number of threads, every interleaving of their calls and of the C library's buffering and flushing, every moment in between, every call C61 promises a line for", "why_tests_cant": "Torn or lost lines depend on the interleaving and on when the library flushes its buffer; a test sees a few schedules.", "anchors": ["util/posix_logger.h:PosixLogger::Logv"]}
{"id": "C87", "title": "A Status operation that runs out of memory has no effect", "statement": "Constructing an error, copying a Status and assigning one Status to another need memory when the result is an error. When the memory is not available the operation throws std::bad_alloc and changes nothing: every Status keeps its value and can be queried, assigned to and destroyed, and no buffer is lost or freed twice.", "quantifier": "every sequence of constructions, copies, moves, assignments and destructions on any number of Status objects and every choice of the allocations that fail", "why_tests_cant": "Tests do not make operator new fail at each allocation of each sequence; a dangling buffer shows only later, when the object is destroyed.", "anchors": ["include/lsmdb/status.h:Status::operator=", "include/lsmdb/status.h:Status::Status", "util/status.cc:Status::CopyState", "util/status.cc:Status::Status"]}
{"id": "C88", "title": "A cache Insert that runs out of memory has no effect", "statement": "When Cache::Insert cannot get the memory it needs it throws std::bad_alloc and the cache is as before: the key keeps its old entry or stays absent, TotalCharge is unchanged, nothing is leaked or passed to a deleter, handles held stay valid, and all later calls, and the destruction of the cache after all handles have been released, work as if the failed call had not been made. No other method needs memory.", "quantifier": "every history of calls, every set of failing allocations in it, every hash function, capacity, key, value and charge", "why_tests_cant": "Tests do not make each allocation of each Insert fail; the table grows only at particular sizes, and the damage (a pinned entry nobody holds) is silent until destruction.", "anchors": ["util/cache.cc:LRUCache::Insert", "util/cache.cc:HandleTable::Insert", "util/cache.cc:HandleTable::Resize"]}
{"id": "C89", "title": "A call of the in-memory Env that runs out of memory has no effect", "statement": "When a call of the in-memory Env or of one of its files cannot get the memory it needs it throws std::bad_alloc and the file system is as before: no name appears or disappears, no file changes, no storage is lost, open files stay usable; and later calls work as if the failed call had not been made. A call throws only if memory ran out.", "quantifier": "every history of calls, every set of failing allocations in it, all names, data, offsets and sizes", "why_tests_cant": "Tests do not make each allocation of each call fail in each state; what a failed call leaves behind shows only in the answers of later calls.", "anchors": ["helpers/memenv/memenv.cc:InMemoryEnv", "helpers/memenv/memenv.cc:FileState::Append", "helpers/memenv/memenv.cc:InMemoryEnv::RenameFile", "helpers/memenv/memenv.cc:InMemoryEnv::NewWritableFile"]}
{"id": "C90", "title": "A Schedule that runs out of threads or memory has no effect", "statement": "When Schedule cannot start the background thread or cannot get memory for the queue it throws, its function is never run, and everything else goes on: functions already scheduled are still run, and later calls of Schedule return and have their functions run, once each, in order and one at a time.", "quantifier": "every interleaving of any number of threads calling Schedule (the functions themselves included), every choice of the attempts that fail", "why_tests_cant": "Tests do not make thread creation or the allocation in the queue fail; the damage (a mutex nobody unlocks) shows as a hang of other threads later.", "anchors": ["util/env_posix.cc:PosixEnv::Schedule", "util/env_posix.cc:PosixEnv::BackgroundThreadMain"]}
{"id": "C91", "title": "POSIX Env calls that run out of memory have no effect", "statement": "A call on the POSIX Env or on one of its files or loggers that cannot get memory throws and nothing else happens: no file is changed or emptied, no descriptor, mapping or limiter slot is lost, no lock stays taken, no later call is affected, and the process goes on. A call that returns did what it always does. Calls throw only if memory runs out.", "quantifier": "every history of calls, every choice of the allocations that fail (error messages, objects, lock table entries, child names), every outcome of the system calls", "why_tests_cant": "Tests do not make single allocations fail; leaks, a mutex that stays locked, bytes written twice or a descriptor closed twice show later and elsewhere.", "anchors": ["util/env_posix.cc:PosixEnv", "util/env_posix.cc:PosixWritableFile", "util/env_posix.cc:PosixRandomAccessFile", "util/env_posix.cc:PosixLockTable", "util/env_posix.cc:PosixError"]}
{"id": "C92", "title": "Threads sharing one POSIX Env keep its accounts and do not disturb each other", "statement": "Several threads may use one POSIX Env at the same time, each object being used by one thread at a time (concurrent Reads of one RandomAccessFile are allowed). At every moment no thread is about to touch a descriptor, mapping or lock that belongs to another call, to another object or to code outside of the Env; no descriptor is closed twice; objects own distinct descriptors, mappings and locks; the limits on mappings and open files hold. When no call is running, what is open or locked and the free slots are exactly accounted for by the live objects, and once these are deleted everything is released. Calls do not wait for each other. Calls that do not overlap behave as with one thread.", "quantifier": "every number of threads, every interleaving of their system calls, limiter operations and lock table operations, every history of calls, every outcome of the system calls", "why_tests_cant": "A descriptor closed twice, or closed by the wrong thread after its number was reused, or a slot lost between two atomic operations shows only under rare interleavings combined with failing system calls.", "anchors": ["util/env_posix.cc:PosixEnv", "util/env_posix.cc:Limiter", "util/env_posix.cc:PosixLockTable", "util/env_posix.cc:PosixRandomAccessFile", "util/env_posix.cc:PosixMmapReadableFile", "util/env_posix.cc:PosixWritableFile"]}
{"id": "C93", "title": "A file used in a program with many threads behaves as in a program with one", "statement": "Many threads use one POSIX Env, each object being used by one thread at a time. As long as nobody but the calls on a writable file object changes its file, these calls, in the order in which they are made and by whichever threads, return the statuses and leave the contents that a single thread making the same calls would get in some world in which nobody else touches the file: after successful calls the file holds the appended bytes in order, all of them after a successful Flush, Sync or Close; at every moment a crash leaves only a prefix of the stream, and after a successful Sync never less than what was appended before it. The calls on a sequential file whose contents others at most extend deliver its bytes in order, without gap or repetition.", "quantifier": "every number of threads, every interleaving of their system calls, every history of calls on the object and on other objects, every outcome of the system calls (failures, interruptions, short counts), every moment of a crash", "why_tests_cant": "That another thread closes and reopens the same descriptor number between two system calls of a call, or that a buffer or a file position is affected by a call on another object, shows only under rare interleavings.", "anchors": ["util/env_posix.cc:PosixWritableFile", "util/env_posix.cc:PosixSequentialFile", "util/env_posix.cc:PosixEnv"]}
{"id": "C94", "title": "Threads may read one random-access file at the same time", "statement": "Many threads use one POSIX Env and read from the same RandomAccessFile object at the same time, while others open, write, rename, remove and delete other things, and append to the same file. As long as nobody shortens or overwrites the file (and, for an object that opens the file by name for each read, nobody removes or replaces the name), every read that succeeds returns bytes of the file at the asked offset: at most as many as asked for, at least one unless none was asked for or the offset is at or beyond the end; a read that fails returns none. Reads of the same offset agree. A slice into a mapped file shows the asked bytes of the file as long as the object exists, even after the file is removed.", "quantifier": "every number of threads, every interleaving of their system calls, every kind of random-access file (mapped, permanent descriptor, opened for each read), every offset below 2^64 and length, every outcome of the system calls", "why_tests_cant": "A read through a shared file position, or through a descriptor number that another thread has closed and reopened, gives wrong bytes only under rare interleavings.", "anchors": ["util/env_posix.cc:PosixRandomAccessFile::Read", "util/env_posix.cc:PosixMmapReadableFile::Read", "include/env.h:RandomAccessFile::Read"]}
{"id": "C95", "title": "Calls about other files never touch a file", "statement": "Many threads use one POSIX Env. A file that has one name and of which only one object has a descriptor changes only in calls on that object and keeps its name, as long as no call names the file or something inside of it: whatever the threads open, write, sync, rename, remove, lock or delete elsewhere, in whatever order, whatever fails. So what is in the file after successful calls, after a Sync, and after a crash is what the calls on the object alone determine. A file that nobody has open for writing keeps its contents and name as long as the calls that name it only open it for reading or ask about it, and all reads of it by all threads return its bytes.", "quantifier": "every number of threads, every interleaving of their system calls, every calls on other files and objects, every outcome of the system calls, every crash point", "why_tests_cant": "A write to a descriptor number that was closed and reused, or a rename, truncate or unlink of a wrong path on some error path, corrupts an unrelated file only under rare interleavings and failures.", "anchors": ["util/env_posix.cc:PosixWritableFile", "util/env_posix.cc:PosixEnv::RenameFile", "util/env_posix.cc:PosixEnv::LockFile", "util/env_posix.cc:PosixWritableFile::SyncDirIfManifest"]}
{"id": "C96", "title": "A file created by one thread of many is that thread's file", "statement": "Many threads use one POSIX Env. A thread calls NewWritableFile or NewAppendableFile for a file that nobody uses (or that does not exist) while the others go on with other files. If the call returns OK, the new object writes to a file of that name, empty or with the contents it had; until some call names the file again it keeps that name, nothing but calls on the object changes it, and a successful Flush, Sync or Close leaves in it the old contents (if appending) followed by everything appended, by whichever threads, in the order of the calls; synced data survives any crash; before that a crash leaves what could have been there before or a prefix of the stream. If the call fails, the file is as it was, or still absent.", "quantifier": "every number of threads, every interleaving of their system calls before, during and after the call, every calls on other files and objects, every outcome of the system calls, every crash point", "why_tests_cant": "That an open call connects the object to the file of that name, and to no file another thread is creating, closing or removing at that moment, depends on the interleaving of system calls of all threads and on which of them fail.", "anchors": ["util/env_posix.cc:PosixEnv::NewWritableFile", "util/env_posix.cc:PosixEnv::NewAppendableFile", "util/env_posix.cc:PosixWritableFile"]}
{"id": "C97", "title": "A file opened for reading by one thread of many is read as it is", "statement": "Many threads use one POSIX Env. While nobody writes to a file, removes or renames it (other threads may open it for reading too, ask about it, and do anything with other files), a thread calls NewRandomAccessFile or NewSequentialFile for it. If the call returns OK, whichever way the resource limits made the object read the file (permanent descriptor, mapping, or opening it for each read), each read of the random-access object by any thread returns bytes of that file at the offset asked for (none only if none are asked for or there are none; a mapped file: exactly those asked for, or an error), and the reads and skips of the sequential object walk through the file from its beginning without gap or repetition, also across failing calls. Name and contents of the file stay.", "quantifier": "every number of threads, every interleaving of their system calls before, during and after the call, every state of the limits, every calls on other files and objects, every outcome of the system calls", "why_tests_cant": "NewRandomAccessFile opens, counts, asks for the size, maps and closes in separate steps, between which other threads open, close and map files and take descriptor numbers; which of the three objects results depends on the schedule.", "anchors": ["util/env_posix.cc:PosixEnv::NewRandomAccessFile", "util/env_posix.cc:PosixEnv::NewSequentialFile", "util/env_posix.cc:PosixRandomAccessFile", "util/env_posix.cc:PosixMmapReadableFile", "util/env_posix.cc:PosixSequentialFile"]}
{"id": "C98", "title": "What one thread writes another one reads", "statement": "Many threads use one POSIX Env. One creates a file nobody uses (or opens it for appending), threads append to it and close it, and all these calls return OK, while the others do other things. From then on, while nobody writes to the file, removes or renames it: a thread that opens it as a random-access file gets an object whose reads, by any thread, return exactly the bytes at the offset asked for of the old contents (if appending) followed by everything appended in the order of the calls; a thread that opens it as a sequential file reads just that, in order; a thread that asks for its size gets the number of these bytes (or an error).", "quantifier": "every number of threads, every interleaving of the system calls of all of them, every lists of appended data and read requests, every state of the limits, every calls on other files and objects, every outcome of the other system calls", "why_tests_cant": "The write buffer, the descriptor table, the limits and the name space are shared by all threads; that nothing of the stream is lost, repeated or mixed with other files between the writer and the reader must hold for every interleaving.", "anchors": ["util/env_posix.cc:PosixEnv::NewWritableFile", "util/env_posix.cc:PosixEnv::NewAppendableFile", "util/env_posix.cc:PosixWritableFile", "util/env_posix.cc:PosixEnv::NewRandomAccessFile", "util/env_posix.cc:PosixEnv::NewSequentialFile", "util/env_posix.cc:PosixEnv::GetFileSize"]}
{"id": "C99", "title": "Files renamed over each other while threads read them", "statement": "Many threads use one POSIX Env. A set of names refers to a set of files nobody writes to. Threads rename these files over each other, remove them and open them, in any interleaving (but create nothing under these names, and give the files no other names). A thread that opens one of the names as a sequential file reads, up to any later moment, one of the files wholly and in order: never a mixture of two files, never a part. A thread that asks for the size gets the size of one of the files, or an error. If nobody removes a certain name or renames the file with that name to another one, and no system call fails, the name is never missing: FileExists answers true and NewSequentialFile returns an object. A random-access object that has a descriptor or mapping of one of the files goes on reading this file, also when another one is renamed over it or it is removed.", "quantifier": "every number of threads, every set of names and files, every interleaving of the system calls of all threads, every calls by the others within the rule, every outcome of the other system calls", "why_tests_cant": "That renaming is seen by every other thread either not at all or wholly, at every moment, is a statement about all interleavings of the system calls.", "anchors": ["util/env_posix.cc:PosixEnv::RenameFile", "util/env_posix.cc:PosixEnv::RemoveFile", "util/env_posix.cc:PosixEnv::NewSequentialFile", "util/env_posix.cc:PosixEnv::FileExists", "util/env_posix.cc:PosixEnv::GetFileSize", "util/env_posix.cc:PosixSequentialFile"]}
{"id": "C100", "title": "A random-access file opened under a name that files are renamed to reads one file", "statement": "Many threads use one POSIX Env; a set of names refers to a set of files nobody writes to, and threads rename them over each other, remove them and open them. All reads, by any threads, from one object that NewRandomAccessFile returned OK for one of these names return bytes of one and the same file of the set, at the offset asked for.", "quantifier": "every number of threads, every set of names and files, every interleaving of the system calls of all threads, every state of the limits, every outcome of the other system calls", "why_tests_cant": "NewRandomAccessFile opens the file, then asks for the size by name, then maps; objects without a slot open the file for each read. What happens if another file takes the name in between depends on the schedule.", "anchors": ["util/env_posix.cc:PosixEnv::NewRandomAccessFile", "util/env_posix.cc:PosixEnv::RenameFile", "util/env_posix.cc:PosixRandomAccessFile", "util/env_posix.cc:PosixMmapReadableFile"]}
{"id": "C101", "title": "Replacing a file by a synced temporary file and a rename is atomic under crashes, with many threads", "statement": "Many threads use one POSIX Env. A file that is on disk with its name is to be replaced: a thread creates a temporary file with NewWritableFile, threads append to it, Sync it and Close it, all with OK, and a thread renames it to the target with RenameFile, while the others read the target and do what they want elsewhere. Whenever the machine stops, the target then has exactly the old contents (before the rename), or exactly the old or exactly the new contents: it is never missing or mixed. As long as the machine runs, every thread that opens the target reads the old contents or the new contents in full, and once RenameFile has returned OK, the new ones. More generally, files on disk that are renamed over each other are one of the files in full, or missing, after a crash, and never missing if nobody takes the name away.", "quantifier": "every number of threads, every contents and split into appends, every interleaving of the system calls of all threads, every outcome of the other system calls, every crash point, every choice of what a crash keeps", "why_tests_cant": "crash points, what a crash keeps and the interleaving with the other threads are chosen by the environment", "anchors": ["util/env_posix.cc:PosixEnv::RenameFile", "util/env_posix.cc:PosixWritableFile::Sync", "util/env_posix.cc:PosixWritableFile::Close", "util/env_posix.cc:PosixEnv::NewWritableFile", "util/env_posix.cc:PosixEnv::NewSequentialFile"]}
{"id": "C102", "title": "A Sync of a MANIFEST file that returns OK makes the names in its directory permanent, with many threads", "statement": "Many threads use one POSIX Env; a file was opened for writing under a name whose last component begins with MANIFEST. If Sync of that file returns OK, then whenever the machine stops later, every name in its directory that nobody has changed since before the Sync means what it meant then: what was created, renamed or removed there before the Sync stays so. In particular a file that was created there, written, synced and closed without an error has its name and exactly its contents after any later crash, and a target that was replaced by RenameFile with OK has the new contents after any later crash, as long as nobody renames, removes or rewrites it.", "quantifier": "every number of threads, every contents and split into appends, every interleaving of the system calls of all threads, every outcome of the other system calls, every crash point, every choice of what a crash keeps", "why_tests_cant": "crash points, what a crash keeps and the interleaving with the other threads are chosen by the environment", "anchors": ["util/env_posix.cc:PosixWritableFile::Sync", "util/env_posix.cc:PosixWritableFile::SyncDirIfManifest", "util/env_posix.cc:PosixWritableFile::SyncFd", "util/env_posix.cc:PosixWritableFile::IsManifest", "util/env_posix.cc:PosixWritableFile::Dirname"]}
{"id": "C103", "title": "As far as names go, each call of the POSIX Env takes effect at one moment", "statement": "Many threads use one POSIX Env. Every history of calls and returns is one in which each call takes effect on the names of files and directories at a single moment between its call and its return, and gives the answer that is right at that moment: CreateDir makes a directory where nothing is; RemoveFile removes a file; RemoveDir an empty directory; RenameFile moves a file and replaces another in the same moment; NewWritableFile, NewAppendableFile, NewLogger and LockFile create the file if nothing is there; FileExists, GetFileSize, GetChildren and NewSequentialFile answer according to the names at that moment; a call that fails changes nothing (except that NewLogger and LockFile may have created the file); all other calls leave the names alone. Hence of all threads that create the same directory, or remove the same file, at most one gets OK, and exactly one if no system call fails without a reason; and FileExists and GetChildren find a file that nobody touches, whatever the other threads do.", "quantifier": "every number of threads, every sequence of calls on each, every interleaving of their system calls, every failure of system calls, every change that other processes make to names meanwhile", "why_tests_cant": "the order in which the system calls of several threads happen is chosen by the environment", "anchors": ["util/env_posix.cc:PosixEnv::CreateDir", "util/env_posix.cc:PosixEnv::RemoveFile", "util/env_posix.cc:PosixEnv::RemoveDir", "util/env_posix.cc:PosixEnv::RenameFile", "util/env_posix.cc:PosixEnv::GetChildren", "util/env_posix.cc:PosixEnv::FileExists", "util/env_posix.cc:PosixEnv::LockFile", "util/env_posix.cc:PosixEnv::NewLogger"]}
{"id": "C104", "title": "Calls of the POSIX Env return, whatever the other threads do", "statement": "Many threads use one POSIX Env. A call never waits for another thread: at every moment it has a next step that it can take, or it is about to return. It takes at most six steps (system calls, operations on the limiters and on the lock table), plus one for each byte it has to write (at most 65536 of them were appended before), plus one for each entry of the directory it lists, plus one for each read or write that the system interrupted or that wrote nothing; the number does not depend on what other threads do. Without the last term no bound holds: a Read that is interrupted again and again goes on for as long as that.", "quantifier": "every number of threads, every sequence of calls on each, every interleaving of their steps, every failure of system calls, partial writes and interruptions", "why_tests_cant": "a test sees some schedules and some numbers of interruptions; that a call ends is a statement about all of them", "anchors": ["util/env_posix.cc:PosixSequentialFile::Read", "util/env_posix.cc:PosixWritableFile::WriteUnbuffered", "util/env_posix.cc:PosixEnv::GetChildren", "util/env_posix.cc:Limiter::Acquire", "util/env_posix.cc:PosixWritableFile::Sync"]}
{"id": "C105", "title": "A deleter may use the cache", "statement": "The deleter given to Cache::Insert is the client's code, and the interface does not say what it may do. If it calls methods of the same cache, the threads still do not block each other: while some thread is in the cache, some thread in the cache can go on. (False: a deleter that makes a call about a key in the shard of its entry never returns, and that shard is locked for ever; two deleters that only use each other's shards can block two threads for ever.)", "quantifier": "every capacity, every number of threads, every program of calls of clients and of deleters (depending on the answers), every interleaving, deleters within deleters to any depth", "why_tests_cant": "whether two keys share a shard depends on the hash of the key, and the deadlock of two threads on the schedule; that nothing blocks is a statement about all schedules", "anchors": ["util/cache.cc:LRUCache::Unref", "util/cache.cc:LRUCache::Release", "util/cache.cc:LRUCache::Insert", "include/lsmdb/cache.h:Cache::Insert", "port/port_stdcxx.h:Mutex"]}
{"id": "C106", "title": "Entries in use stay in a shared cache, unused ones leave with Prune", "statement": "When many threads use one cache: an entry that some client keeps a reference to, and that no other Insert or Erase of its key came after, is found by every Lookup of its key, whatever other threads insert, erase and prune meanwhile and however small the cache is (unless the capacity of a shard is 0). And when Prune returns, the deleter of every entry that nobody referred to when Prune was called, and that no Lookup asked for meanwhile, has run exactly once.", "quantifier": "every capacity, every number of threads, every program of calls that follows the rules, every interleaving of the steps, every key, entry, Lookup and Prune", "why_tests_cant": "Prune locks one shard after the other, so calls of other threads fall between its parts in every possible way; a lost or leaked entry needs a particular schedule", "anchors": ["util/cache.cc:ShardedLRUCache::Prune", "util/cache.cc:LRUCache::Prune", "util/cache.cc:LRUCache::Lookup", "util/cache.cc:LRUCache::Insert", "util/cache.cc:LRUCache::Unref"]}
{"id": "C107", "title": "Readers of an in-memory file that is being written", "statement": "While any number of threads append to an in-memory file, a thread that reads it at an offset or asks for its size gets the answer of the file after some number of whole Appends: all that returned before the read was called, none that was called after it returned, and never fewer than an earlier read saw; all readers agree on one order of the Appends, in which an Append comes behind everything that was seen before it was called. What a SequentialFile returns, read by read, is a beginning of the file, each read going on where the last one ended, without gaps or repetitions. When all calls have returned, the file is the concatenation of all slices in that order.", "quantifier": "every number of threads and file objects, every program of calls that follows the rules, every name that is created at most once and not renamed, every interleaving of the statements, every read", "why_tests_cant": "the reader and the writers interleave at every statement of ReadAt and Append, and the answers of all readers must fit one order; a torn or reordered view needs a particular schedule", "anchors": ["helpers/memenv/memenv.cc:FileState::Read", "helpers/memenv/memenv.cc:FileState::Append", "helpers/memenv/memenv.cc:SequentialFileImpl::Read", "helpers/memenv/memenv.cc:RandomAccessFileImpl::Read", "helpers/memenv/memenv.cc:InMemoryEnv::GetFileSize"]}
{"id": "C108", "title": "Safe publication between threads", "statement": "What a thread wrote before it called Schedule is visible to the scheduled function, and what it wrote before it called Cache::Insert is visible to every thread that gets a handle to the entry and to the deleter: in the happens-before order of the C++ memory model (program order, release and acquisition of the library's mutexes, thread start) the call of Schedule comes before the run of the function, the call of Insert before every return of a handle to the entry and before the run of its deleter, and every call of Release for the handle before the run of the deleter. Any two accesses to the state that the mutexes protect, made by whichever threads, are ordered, so they are no data race.", "quantifier": "every number of threads, every program of calls that follows the rules, every interleaving of the statements, every pair of a call and a later run, return or deletion", "why_tests_cant": "a missing happens-before edge shows only on weakly ordered hardware under rare timings; whether two steps are ordered is a property of the whole execution", "anchors": ["util/env_posix.cc:PosixEnv::Schedule", "util/env_posix.cc:PosixEnv::BackgroundThreadMain", "util/cache.cc:LRUCache::Insert", "util/cache.cc:LRUCache::Lookup", "util/cache.cc:LRUCache::Release", "util/cache.cc:LRUCache::Unref", "port/port_stdcxx.h:Mutex", "util/mutexlock.h:MutexLock"]}
{"id": "C109", "title": "A file lock orders the threads of its process", "statement": "Threads of one process that use LockFile to exclude each other also see each other's writes: in the happens-before order of the C++ memory model the call of UnlockFile for a lock comes before every later return of LockFile that grants the same name in the same process (unless that UnlockFile fails or a process exits in between). So two critical sections under the same name are ordered: the earlier holder called UnlockFile before the later one was granted the lock, and everything it did before that call is visible to the later one. The order comes from the mutex of the lock table; the kernel's lock on the file contributes nothing to it.", "quantifier": "every number of processes and threads, every program of calls that unlocks only what the process holds, every interleaving of the steps of LockFile and UnlockFile, every failure of open and fcntl, every pair of an unlock and a later lock", "why_tests_cant": "a missing happens-before edge shows only on weakly ordered hardware under rare timings; the claim is about all schedules of all threads", "anchors": ["util/env_posix.cc:PosixEnv::LockFile", "util/env_posix.cc:PosixEnv::UnlockFile", "util/env_posix.cc:PosixLockTable::Insert", "util/env_posix.cc:PosixLockTable::Remove"]}
{"id": "C110", "title": "The shared in-memory Env has no data races on its files, and publishes them", "statement": "Threads may use one in-memory Env, and the same files, at the same time without data races in the sense of the C++ memory model: any two accesses to the map of the names, to the reference count of a file, or to the contents and the size of a file are ordered by happens-before. Whoever is told that there is a file of some name (by FileExists, GetChildren, GetFileSize, by opening it for reading, by removing or renaming it) comes after a call that makes a file of that name, in whichever thread, so it sees what that thread wrote before the call. Whoever sees the first s bytes of a file (by Read or GetFileSize) comes after calls of Append for that file that together have at least s bytes, so it sees what the appending threads wrote before those calls.", "quantifier": "every number of threads, every program of calls that follows the rules for file objects and for deleting the Env, every interleaving of the single statements, lock operations and unlock operations of the methods, every pair of accesses, every answer that shows a file or bytes of it", "why_tests_cant": "a missing lock shows only on weakly ordered hardware or under rare timings, and not at all in a test with one thread; the claim is about all pairs of accesses in all schedules", "anchors": ["helpers/memenv/memenv.cc:FileState::Ref", "helpers/memenv/memenv.cc:FileState::Unref", "helpers/memenv/memenv.cc:FileState::Size", "helpers/memenv/memenv.cc:FileState::Truncate", "helpers/memenv/memenv.cc:FileState::Read", "helpers/memenv/memenv.cc:FileState::Append", "helpers/memenv/memenv.cc:InMemoryEnv", "util/mutexlock.h:MutexLock"]}
{"id": "C111", "title": "MemoryUsage read by other threads is never wrong, only late", "statement": "While one thread allocates from an arena, any other threads may call MemoryUsage, without synchronization. Every value they get is exactly the usage of the arena after some number of the allocating thread's calls, never a value in between or a torn one: no more calls than had begun, at least all calls whose return happens before the read, and at least what any read that happens before this one has seen, so no thread ever sees the usage go down. Once everything that was allocated happens before the read, the value is exact.", "quantifier": "every number of reading threads, every history of calls of the allocating thread and every behaviour of new[], every interleaving, every value that the C++ memory model allows a relaxed load to return, every way in which the threads synchronize otherwise", "why_tests_cant": "stale values of relaxed loads depend on the machine and on timing; strongly ordered hardware does not show them at all", "anchors": ["util/arena.h:Arena::MemoryUsage", "util/arena.cc:Arena::AllocateNewBlock", "util/arena.cc:Arena::AllocateFallback", "util/arena.cc:Arena::AllocateAligned", "util/arena.h:Arena::Allocate"]}
{"id": "C112", "title": "A comparator that throws does no harm to a skip list", "statement": "If the comparator of a SkipList throws, at whichever of its calls, the exception reaches the caller and the list is as it was before the call: a failed Insert has made no store to shared memory, allocated no node and not advanced the generator of heights; a failed Contains or iterator operation has changed nothing, and the iterator is still where it was. Calls that no exception leaves do what they always do. So a client that catches the exceptions and goes on has exactly the list of the keys whose insertion was completed.", "quantifier": "every list, every key, every comparator and every set of its calls that throw, every history of insertions with exceptions caught in between, every position of the iterator", "why_tests_cant": "the exception may come from any comparison in any history; a store moved before a comparison (max_height_, the tower) is harmless in every test whose comparator does not throw", "anchors": ["db/skiplist.h:SkipList::Insert", "db/skiplist.h:SkipList::FindGreaterOrEqual", "db/skiplist.h:SkipList::FindLessThan", "db/skiplist.h:SkipList::KeyIsAfterNode", "db/skiplist.h:SkipList::Contains", "db/skiplist.h:SkipList::Iterator"]}
