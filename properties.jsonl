{"id": "C01", "title": "Put then Get returns the value", "statement": "After Put(k, v) on any tree reachable from New() by a single-threaded history, Get(k) returns (v, true).", "quantifier": "every history of Put/Delete/Get calls, every key (empty, long, prefix of another key) and value shorter than 2^32 bytes", "why_tests_cant": "the tree shape depends on the whole history (splits, growth, shrinking, path compression); only a sample of histories can be run", "anchors": ["art/art.go:ART.Put", "art/art.go:ART.Get", "art/art.go:node.insert", "art/art.go:node.search", "art/node.go:insertSplitPrefix", "art/node.go:updateOrExpand"]}
{"id": "C02", "title": "Put leaves other keys alone", "statement": "Put(k, v) does not change what Get(k') returns for any k' != k.", "quantifier": "every reachable tree, every pair of distinct keys", "why_tests_cant": "a wrong split or growth step loses an unrelated key only for particular shapes and key lengths", "anchors": ["art/art.go:node.insert", "art/node.go:growAndInsert", "art/node.go:insertSplitPrefix", "art/node.go:updateOrExpand"]}
{"id": "C03", "title": "Delete removes the key", "statement": "After Delete(k) of a key that is present, Get(k) reports not found.", "quantifier": "every reachable tree and every present key", "why_tests_cant": "shrinking and path compression run only in certain shapes", "anchors": ["art/art.go:ART.Delete", "art/art.go:node.remove", "art/node.go:removeChild", "art/node.go:removeChildAndShrink", "art/node.go:compressChild"]}
{"id": "C04", "title": "Delete leaves other keys alone", "statement": "Delete(k) does not change what Get(k') returns for any k' != k.", "quantifier": "every reachable tree, every pair of distinct keys", "why_tests_cant": "merging compressed prefixes while shrinking can misplace a subtree only for some prefix lengths (below, at and above the 8 stored bytes)", "anchors": ["art/art.go:node.remove", "art/node.go:compressChild", "art/node.go:removeChildAndShrink"]}
{"id": "C05", "title": "Delete of an absent key returns and changes nothing", "statement": "Delete(k) of a key that is not present returns to its caller and leaves every Get unchanged.", "quantifier": "every reachable tree and every absent key", "why_tests_cant": "absence must hold for infinitely many keys and shapes; non-termination is not observable by a terminating test", "anchors": ["art/art.go:ART.Delete", "art/art.go:node.remove"]}
{"id": "C06", "title": "Sequential map refinement", "statement": "Every single-threaded sequence of Put, Get and Delete calls gives exactly the outputs of a mathematical map from byte strings to byte strings.", "quantifier": "every finite operation sequence", "why_tests_cant": "the set of histories is infinite and the structure is history dependent", "anchors": ["art/art.go:ART", "art/art.go:node.search", "art/art.go:node.insert", "art/art.go:node.remove", "art/node.go:node"]}
{"id": "C07", "title": "No sequential panic", "statement": "No Put, Get or Delete call in a single-threaded history panics (index out of range, nil dereference, unreachable code).", "quantifier": "every finite operation sequence", "why_tests_cant": "panics hide in shapes that samples do not reach (stored-prefix boundary, empty nodes, 256 children)", "anchors": ["art/art.go:node.insert", "art/art.go:node.remove", "art/node.go:checkPrefix", "art/node.go:prefixMismatch", "art/node.go:fullKey", "art/range.go:firstChild"]}
{"id": "C08", "title": "Single-threaded Put and Get finish at the first attempt", "statement": "Without concurrent callers, the internal retry loop of Get and Put runs its body once, and the descent below it is finite.", "quantifier": "every reachable tree and key", "why_tests_cant": "termination for all shapes cannot be sampled", "anchors": ["art/art.go:ART.Get", "art/art.go:ART.Put", "art/node.go:fullKey", "art/node.go:prefixMismatch"]}
{"id": "C09", "title": "Fan-out: all 256 branches", "statement": "A branching point stores up to 256 different next bytes; every add, growth (4,16,48,256), removal and shrink keeps exactly the right byte-to-child association, including when the 8-bit child counter wraps to 0 at 256 children.", "quantifier": "every container state reachable by any add/remove order over all 256 bytes", "why_tests_cant": "2^256 subsets and unbounded orders of add/remove; slot allocation in the 48-way node depends on history", "anchors": ["art/node.go:node4", "art/node.go:node16", "art/node.go:node48", "art/node.go:node256", "art/node.go:allocSlot", "art/node.go:freeSlot", "art/node.go:findChild", "art/node.go:insertChild", "art/node.go:growAndInsert", "art/node.go:removeChild", "art/node.go:removeChildAndShrink", "art/node.go:shouldShrink"]}
{"id": "C10", "title": "Optimistic path compression is sound", "statement": "A lookup that agrees with a stored path only on the 8 bytes kept per compressed edge, but differs in the bytes that are not kept, reports not found (and its Delete does not remove the other key).", "quantifier": "every reachable tree and every key, with compressed edges of any length", "why_tests_cant": "requires adversarial keys equal on the kept bytes and different later, for all lengths", "anchors": ["art/node.go:checkPrefix", "art/node.go:maxPrefixLen", "art/art.go:node.search", "art/art.go:node.remove"]}
{"id": "C11", "title": "Space is proportional to live keys", "statement": "After any history the tree holds at most (number of live keys + 1) inner nodes: nothing is leaked by deletes and no chain of one-child nodes survives.", "quantifier": "every finite operation sequence", "why_tests_cant": "leaks accumulate only over particular long histories", "anchors": ["art/node.go:shouldShrink", "art/node.go:shouldCompress", "art/node.go:compressChild", "art/node.go:removeChildAndShrink"]}
{"id": "C12", "title": "Stored key and value bytes are private and exact", "statement": "What is stored is an exact copy of the key and value bytes given to Put: the packed leaf decodes to exactly those bytes.", "quantifier": "every key and value shorter than 2^32 bytes", "why_tests_cant": "packed layout offsets must be right for all lengths", "anchors": ["art/node.go:newLeaf", "art/node.go:leaf.key", "art/node.go:leaf.value", "art/node.go:leaf.match"]}
{"id": "C13", "title": "Get is read-only", "statement": "Get never changes the tree: any two Gets commute and any later call behaves as if the Get had not happened.", "quantifier": "every reachable tree and key", "why_tests_cant": "non-effects on all later histories cannot be enumerated", "anchors": ["art/art.go:node.search"]}
{"id": "C14", "title": "Concurrent Get is linearizable", "statement": "Under any interleaving with concurrent Put and Delete, what Get(k) returns is what the map held for k at one instant between the call and its return.", "quantifier": "every number of threads, every schedule of individual memory accesses, every history", "why_tests_cant": "the schedule space is unbounded", "anchors": ["art/art.go:node.search", "art/lock.go:rLock", "art/lock.go:rUnlock", "art/lock.go:lockCheck"]}
{"id": "C15", "title": "Concurrent Put is atomic and takes effect once", "statement": "Under any interleaving, a completed Put(k, v) changes the map at exactly one instant between call and return, from m to m[k := v], and at no other instant; no update is lost.", "quantifier": "every number of threads, schedule and history", "why_tests_cant": "the schedule space is unbounded", "anchors": ["art/art.go:node.insert", "art/lock.go:upgradeToLock", "art/lock.go:upgradeToLockWithNode", "art/lock.go:rUnlockWithNode"]}
{"id": "C16", "title": "Concurrent Delete is atomic", "statement": "Under any interleaving, a completed Delete(k) either removes k at exactly one instant between call and return, or changes nothing and k was absent at some instant between call and return.", "quantifier": "every number of threads, schedule and history", "why_tests_cant": "the schedule space is unbounded", "anchors": ["art/art.go:node.remove", "art/lock.go:lock", "art/lock.go:unlockObsolete"]}
{"id": "C17", "title": "Writers exclude each other", "statement": "At every instant at most one thread holds the write lock of a node, a node changes only while its lock is held, and every lock taken by a call is released when the call returns.", "quantifier": "every schedule", "why_tests_cant": "a missing unlock on one of many failure paths shows up only in rare schedules", "anchors": ["art/lock.go:upgradeToLock", "art/lock.go:unlock", "art/lock.go:rUnlockWithNode", "art/lock.go:upgradeToLockWithNode"]}
{"id": "C18", "title": "A validated read is a snapshot", "statement": "If a reader's version check succeeds, everything it read from that node since it recorded the version is the content of the node at that instant (no torn or stale mixture), and the version word never returns to an earlier value.", "quantifier": "every schedule of reads and writes on a node", "why_tests_cant": "torn reads need precise interleavings", "anchors": ["art/lock.go:rLock", "art/lock.go:rUnlock", "art/lock.go:unlock", "art/lock.go:unlockObsolete"]}
{"id": "C19", "title": "Replaced nodes are never used again", "statement": "Once a node was replaced (grown, shrunk or merged away) no thread locks or changes it again, and no thread that revalidates it succeeds.", "quantifier": "every schedule", "why_tests_cant": "needs a reader paused across a replacement", "anchors": ["art/lock.go:unlockObsolete", "art/lock.go:rLock"]}
{"id": "C20", "title": "No deadlock", "statement": "In every reachable state in which some node is locked, some thread that holds a lock can take a step that does not wait for a lock.", "quantifier": "every reachable state of every schedule", "why_tests_cant": "absence of deadlock is a statement about all schedules", "anchors": ["art/node.go:compressChild", "art/lock.go:lock", "art/lock.go:waitUnlock"]}
{"id": "C21", "title": "No concurrent panic", "statement": "No Put, Get or Delete call panics under any interleaving.", "quantifier": "every schedule", "why_tests_cant": "the panicking interleaving needs a preemption between two specific loads", "anchors": ["art/art.go:node.insert", "art/node.go:prefixMismatch"]}
{"id": "C22", "title": "SuRF Get finds every stored key with its value", "statement": "For a filter built from sorted distinct keys, Get(keys[i]) returns (vals[i] truncated to valueSize, true).", "quantifier": "every non-empty strictly sorted key list (except the single empty key, which Build rejects), every value list, every suffix configuration with at most 64 bits, every size hint, every hash function", "why_tests_cant": "a false negative depends on the joint bit layout of all keys", "anchors": ["surf/builder.go:Build", "surf/builder.go:buildNodes", "surf/builder.go:buildDense", "surf/louds_dense.go:loudsDense.Get", "surf/louds_sparse.go:loudsSparse.Get", "surf/surf.go:SuRF.Get"]}
{"id": "C23", "title": "SuRF Get never panics", "statement": "Get(q) on a built filter returns for every query q.", "quantifier": "every built filter and every byte string q", "why_tests_cant": "out-of-range succinct-vector accesses depend on the query and layout", "anchors": ["surf/surf.go:SuRF.Get", "surf/louds_dense.go:loudsDense.Get", "surf/louds_sparse.go:loudsSparse.Get", "surf/bits_vec.go:Rank", "surf/bits_vec.go:Select"]}
{"id": "C24", "title": "A Get hit returns the value of a related stored key", "statement": "If Get(q) returns (v, true) then v is the value of some stored key that agrees with q on the branching path followed.", "quantifier": "every built filter and every q", "why_tests_cant": "the space of queries is infinite", "anchors": ["surf/louds_dense.go:loudsDense.Get", "surf/louds_sparse.go:loudsSparse.Get", "surf/louds_dense.go:suffixPos", "surf/louds_sparse.go:suffixPos"]}
{"id": "C25", "title": "Suffix bits only filter", "statement": "Adding hash or real suffix bits never turns a miss into a hit: every q found with suffixes is found without.", "quantifier": "every key list, suffix configuration and query", "why_tests_cant": "all pairs of configurations and queries", "anchors": ["surf/bits_vec.go:CheckEquality", "surf/bits_vec.go:constructSuffix"]}
{"id": "C26", "title": "The dense/sparse cut-off does not change stored-key answers", "statement": "For stored keys, Get and the value returned do not depend on bitsPerKeyHint.", "quantifier": "every key list and every pair of hints", "why_tests_cant": "the cut-off can be at any level", "anchors": ["surf/builder.go:determineCutoffLevel", "surf/louds_dense.go:loudsDense.Init", "surf/louds_sparse.go:loudsSparse.Init"]}
{"id": "C27", "title": "HasOverlap has no false negatives", "statement": "If some stored key lies in [start, end] (or [start, end) when includeEnd is false) then HasOverlap(start, end, includeEnd) is true.", "quantifier": "every built filter and every range", "why_tests_cant": "ranges and layouts are unbounded; failures depend on neighbouring nodes in the packed label array", "anchors": ["surf/surf.go:HasOverlap", "surf/surf.go:Iterator.Seek", "surf/louds_sparse.go:sparseIter.Seek", "surf/louds_dense.go:denseIter.Seek", "surf/bits_vec.go:SearchGreaterThan", "surf/bits_vec.go:suffixVector.Compare"]}
{"id": "C28", "title": "Seek finds the lower bound", "statement": "After Seek(k) without suffix bits, the iterator stands on the first stored key whose stored truncated form is not below k, or is invalid if there is none.", "quantifier": "every built filter and every k", "why_tests_cant": "as above", "anchors": ["surf/surf.go:Iterator.Seek", "surf/louds_sparse.go:sparseIter.Seek", "surf/louds_dense.go:denseIter.Seek", "surf/louds_sparse.go:moveToLeftInNextSubTrie"]}
{"id": "C29", "title": "Forward iteration visits every key once in order", "statement": "SeekToFirst followed by Next until invalid yields exactly one position per stored key, in key order, with that key's value.", "quantifier": "every built filter", "why_tests_cant": "all key sets and cut-offs", "anchors": ["surf/surf.go:SeekToFirst", "surf/surf.go:Iterator.Next", "surf/louds_dense.go:denseIter.Next", "surf/louds_sparse.go:sparseIter.Next"]}
{"id": "C30", "title": "Backward iteration visits every key once in reverse order", "statement": "SeekToLast followed by Prev until invalid yields exactly one position per stored key, in reverse order, with that key's value.", "quantifier": "every built filter", "why_tests_cant": "all key sets and cut-offs", "anchors": ["surf/surf.go:SeekToLast", "surf/surf.go:Iterator.Prev", "surf/louds_dense.go:denseIter.Prev", "surf/louds_sparse.go:sparseIter.Prev", "surf/louds_dense.go:prevPos"]}
{"id": "C31", "title": "Iterator keys are prefixes of stored keys", "statement": "At every valid position reached by SeekToFirst/Next, Key() is a prefix of the stored key whose value Value() returns.", "quantifier": "every built filter and position", "why_tests_cant": "all key sets", "anchors": ["surf/surf.go:Iterator.Key", "surf/surf.go:Iterator.Value", "surf/louds_dense.go:denseIter.Key", "surf/louds_sparse.go:sparseIter.Key"]}
{"id": "C32", "title": "Iterator never panics", "statement": "Seek, Next and Prev in any order on a built filter never panic.", "quantifier": "every built filter and call sequence", "why_tests_cant": "the panicking call sequences depend on the key set", "anchors": ["surf/surf.go:Iterator", "surf/louds_dense.go:denseIter.Prev", "surf/louds_sparse.go:sparseIter.Prev"]}
{"id": "C33", "title": "Marshal and Unmarshal round-trip", "statement": "Unmarshal(Marshal(s)) restores a filter equal to s in every field used by queries.", "quantifier": "every built filter", "why_tests_cant": "variable-length sections with padding must line up for all sizes", "anchors": ["surf/surf.go:Marshal", "surf/surf.go:Unmarshal", "surf/surf.go:WriteTo", "surf/louds_dense.go:loudsDense.WriteTo", "surf/louds_dense.go:loudsDense.Unmarshal", "surf/louds_sparse.go:loudsSparse.WriteTo", "surf/louds_sparse.go:loudsSparse.Unmarshal", "surf/bits_vec.go:prefixVec.WriteTo", "surf/bits_vec.go:prefixVec.Unmarshal"]}
{"id": "C34", "title": "A restored filter answers every query identically", "statement": "For every query, Get on Unmarshal(Marshal(s)) gives what Get on s gives.", "quantifier": "every built filter and query", "why_tests_cant": "all queries", "anchors": ["surf/surf.go:Unmarshal", "surf/surf.go:SuRF.Get"]}
{"id": "C35", "title": "MarshalSize is exact and 8-aligned", "statement": "len(Marshal(s)) = MarshalSize(), the index part is MarshalNoValueSize() bytes, and both are multiples of 8.", "quantifier": "every filter", "why_tests_cant": "all sizes", "anchors": ["surf/surf.go:MarshalSize", "surf/surf.go:MarshalNoValueSize", "surf/bits_vec.go:MarshalSize", "surf/bits_vec.go:rawMarshalSize", "surf/bits.go:align"]}
{"id": "C36", "title": "Unmarshal ignores what follows", "statement": "Unmarshal(Marshal(s) followed by any bytes) equals Unmarshal(Marshal(s)).", "quantifier": "every filter and every trailing byte string", "why_tests_cant": "all trailing data", "anchors": ["surf/surf.go:Unmarshal", "surf/bits_vec.go:Unmarshal"]}
{"id": "C37", "title": "WriteTo to a failing writer", "statement": "If the writer fails at any write call, WriteTo returns that error and what reached the writer is a prefix of Marshal(s); if it never fails the whole of Marshal(s) is written.", "quantifier": "every filter and every failure point", "why_tests_cant": "every crash point of the writer", "anchors": ["surf/surf.go:WriteTo", "surf/bits_vec.go:WriteTo"]}
{"id": "C38", "title": "Build accepts every non-empty sorted key set", "statement": "Build on a non-empty strictly sorted list of keys with values of at least valueSize bytes never panics.", "quantifier": "every such list", "why_tests_cant": "all key sets", "anchors": ["surf/builder.go:Build", "surf/builder.go:buildNodes"]}
{"id": "C39", "title": "select64 returns the n-th set bit", "statement": "The portable select64 returns the position of the n-th set bit of its word, for every n from 1 to the number of set bits.", "quantifier": "all 2^64 words and all valid ranks", "why_tests_cant": "2^64 words", "anchors": ["surf/bits.go:select64Broadword", "surf/bits.go:selectInByte", "surf/bits.go:findFirstSet"]}
{"id": "C40", "title": "The BMI2 and portable select64 agree", "statement": "On amd64 with BMI2 the assembly gives the same result as the portable version for every word and valid rank.", "quantifier": "all 2^64 words and all valid ranks", "why_tests_cant": "2^64 words", "anchors": ["surf/bits_amd64.s:select64", "surf/bits.go:select64Broadword"]}
{"id": "C41", "title": "Rank counts set bits", "statement": "Rank(p) is the number of set bits at positions 0..p for every position of the vector, for both block sizes.", "quantifier": "every bit vector and position", "why_tests_cant": "unbounded vector sizes, block boundaries", "anchors": ["surf/bits_vec.go:rankVector.init", "surf/bits_vec.go:rankVectorDense.Rank", "surf/bits_vec.go:rankVectorSparse.Rank", "surf/bits.go:popcountBlock"]}
{"id": "C42", "title": "Select finds the n-th set bit", "statement": "On a vector whose first bit is set, Select(n) is the position of the n-th set bit, for every n from 1 to the number of set bits.", "quantifier": "every bit vector whose bit 0 is set and every valid rank", "why_tests_cant": "unbounded vector sizes, sample boundaries", "anchors": ["surf/bits_vec.go:selectVector.Init", "surf/bits_vec.go:selectVector.Select"]}
{"id": "C43", "title": "Distance to next and previous set bit", "statement": "The distance functions return the exact distance to the nearest set bit after / before a position (or to the end / one before the start).", "quantifier": "every bit vector and position", "why_tests_cant": "unbounded sizes, word boundaries", "anchors": ["surf/bits_vec.go:DistanceToNextSetBit", "surf/bits_vec.go:DistanceToPrevSetBit"]}
{"id": "C44", "title": "Levels are concatenated bit-exactly", "statement": "The flattened vector holds exactly the first n_i bits of each level, one level after the other, whatever the bit counts.", "quantifier": "every list of levels and bit counts", "why_tests_cant": "unbounded sizes, all shift amounts", "anchors": ["surf/bits_vec.go:bitVector.Init"]}
{"id": "C45", "title": "Stored suffixes are read back exactly", "statement": "The i-th suffix written by the builder is the i-th suffix read by the filter, for every suffix width up to 64 bits.", "quantifier": "every suffix width 1..64 and every suffix sequence", "why_tests_cant": "all word-straddling combinations", "anchors": ["surf/builder.go:insertSuffix", "surf/bits_vec.go:suffixVector.read"]}
{"id": "C46", "title": "All calls together are linearizable", "statement": "For every interleaving of Get, Put and Delete calls there is one sequential order of calls, containing every call that returned with its result (and possibly some calls still running that have taken effect), that is legal from the empty map, keeps every call before all calls that started after it returned, and ends in the map that the tree holds.", "quantifier": "every run of any number of calls", "why_tests_cant": "all interleavings, unbounded; per-call atomicity (C14-C16) does not by itself give one common order", "anchors": ["art/art.go:Get", "art/art.go:Put", "art/art.go:Delete"]}
{"id": "C47", "title": "64-bit lock words behave like unbounded versions", "statement": "The operations of lock.go on the 64-bit word (add 2 to lock, add 2 to unlock, add 3 to make obsolete, compare-and-swap, comparing for equality) agree with the lock bit, obsolete bit and unbounded counter of the model as long as fewer than 2^62 steps are made; a version recorded on such a stretch and found unchanged means that the node was not locked for writing in between.", "quantifier": "every run, every node, stretches of up to 2^62 steps", "why_tests_cant": "wrap-around needs 2^62 lock operations", "anchors": ["art/lock.go:rLock", "art/lock.go:upgradeToLock", "art/lock.go:unlock", "art/lock.go:unlockObsolete"]}
{"id": "C48", "title": "The BMI2 path changes no result", "statement": "Build, Get, HasOverlap and every iterator operation give the same result, panics included, on machines with and without BMI2 (PDEP/TZCNT against broadword select).", "quantifier": "all keys, filters, iterator states and queries", "why_tests_cant": "a test runs on one machine; all words and all positions are involved", "anchors": ["surf/bits_vec.go:selectVector.Select", "surf/bits.go:select64", "surf/bits_amd64.s"]}
{"id": "C49", "title": "A filter takes linear space", "statement": "For n keys the filter has less than n nodes (or one), at most 2n sparse labels, exactly n values and n suffixes, prefixes of no more bytes than the keys; the marshalled size is at most n(valueSize + suffix bits/8 + 9) bytes, 96 bytes per dense node, the bytes of the keys, and 512 bytes.", "quantifier": "all sorted key sets, configurations and hints", "why_tests_cant": "unbounded key sets", "anchors": ["surf/builder.go:Build", "surf/surf.go:MarshalSize"]}
{"id": "C50", "title": "The hint bounds the dense levels", "statement": "If there is a dense level, dense bitmaps, sparse labels and suffixes take no more bits than bitsPerKeyHint times the number of keys; a larger hint never gives fewer dense levels; a hint of 0 gives none; a negative hint gives all but the last level.", "quantifier": "all sorted key sets, configurations and hints", "why_tests_cant": "unbounded key sets and hints", "anchors": ["surf/builder.go:determineCutoffLevel"]}
{"id": "C51", "title": "Seek of a stored key stops on it", "statement": "Seek(k) for a stored key k stops on k, with its value, in every filter and with any suffixes; Next then goes through the keys from k on; HasOverlap(k, k, true) is true with real suffixes of less than 16 bits or without dense levels.", "quantifier": "all sorted key sets, configurations, hints, stored keys, and positions reached before", "why_tests_cant": "unbounded key sets and call sequences", "anchors": ["surf/surf.go:Seek", "surf/surf.go:HasOverlap"]}
{"id": "C52", "title": "Seek of the empty key starts a full scan", "statement": "Seek with the empty key and then Next until invalid goes through all stored keys in order, once each, with their values, in every filter.", "quantifier": "all sorted key sets, configurations, hints, and positions reached before", "why_tests_cant": "unbounded key sets", "anchors": ["surf/surf.go:Seek", "surf/surf.go:Next"]}
{"id": "C53", "title": "What backward iteration shows", "statement": "With a dense level SeekToLast stops on the greatest key; Prev then goes, in reverse order and once each, through exactly those stored keys below it that continue with a byte other than 0x00 (or with the same byte) where the keys part, less one corner case; likewise after Seek(k) of a stored key; without dense levels Prev goes through all keys below k, and SeekToLast leaves the iterator invalid.", "quantifier": "all sorted key sets, configurations, hints, and positions reached before", "why_tests_cant": "unbounded key sets; the exact set of keys that are out of reach cannot be sampled", "anchors": ["surf/surf.go:SeekToLast", "surf/surf.go:Prev", "surf/louds_dense.go:denseIter.prev"]}
{"id": "C54", "title": "What Get answers, exactly", "statement": "Get(q) reports a hit with the value of a stored key k exactly if q leads to k and the suffix bits kept of k agree with those of q; which queries lead to k is given by the bytes of the stored keys and the number of dense levels (q begins with what is kept of k; or q is k, when k is a prefix of others; and two quirks: q ends where the sparse node of such a k begins, or q is empty and the only key begins with 0xff). Everything else is a miss. Hash suffixes of more than 57 bits tell no keys apart.", "quantifier": "all sorted key sets, configurations, hints and queries", "why_tests_cant": "tests show single hits and misses; the set of all false positives is infinite", "anchors": ["surf/surf.go:Get", "surf/louds_dense.go:Get", "surf/louds_sparse.go:Get", "surf/bits_vec.go:CheckSuffix"]}
{"id": "C55", "title": "Where Seek stops and what HasOverlap answers, exactly", "statement": "For searches that do not leave a prefix key on a sparse level where no stored key goes: Seek(q) stops on the first stored key that what is kept of it (path and real suffix bits) does not show to be below q; HasOverlap(start, end, includeEnd) does not panic and is true exactly if there is such a key for start and what is kept of it does not show it to be above end (or equal to it, without includeEnd). So a wrong answer true is possible only if what is kept of some key is a prefix of a bound, or if end is a proper prefix of a key that is a prefix of another.", "quantifier": "all sorted key sets, configurations (real suffixes under 16 bits for HasOverlap), hints, ranges and positions reached before", "why_tests_cant": "false positives depend on all keys, the cut-off and the suffix bits at once", "anchors": ["surf/surf.go:Seek", "surf/surf.go:HasOverlap", "surf/surf.go:Iterator.compare", "surf/bits_vec.go:suffixVector.Compare"]}
{"id": "C56", "title": "Locks are held briefly", "statement": "From the first lock it takes on, a call makes at most eight more steps (a critical section being one) before it holds none, however it goes; and while it holds a lock it does not wait in waitUnlock.", "quantifier": "every run of any number of calls", "why_tests_cant": "schedules and paths through Delete are unbounded", "anchors": ["art/lock.go:lock", "art/art.go:insert", "art/art.go:remove", "art/node.go:compressChild"]}
{"id": "C57", "title": "Get changes nothing and is quick when left alone", "statement": "No step of a Get changes a node, a version or a lock. In any stretch of a run in which nobody changes the tree a Get makes at most 10*len(key)+16 steps, wherever in its loop it is at the beginning.", "quantifier": "every run of any number of calls, every key and every stretch", "why_tests_cant": "schedules, keys and trees are unbounded; restarts depend on timing", "anchors": ["art/art.go:Get", "art/art.go:search"]}
{"id": "C58", "title": "A call that nobody disturbs returns", "statement": "A Get or Put, or a Delete that comes to an end when it runs alone, that begins while nobody holds a lock, and during which nobody else changes the tree, never waits, returns within a number of its own steps that depends on the tree and the call only, and returns and leaves what it does when run alone.", "quantifier": "every run of any number of calls, every instant without locks", "why_tests_cant": "schedules and trees are unbounded", "anchors": ["art/art.go:Get", "art/art.go:Put", "art/art.go:Delete"]}
{"id": "C59", "title": "Which iterator calls panic, for every search", "statement": "After any sequence of Seek (of any keys at all), Next, Prev and, with a dense level, SeekToFirst and SeekToLast, none of these calls panics, except Prev on a key that is a prefix of all keys in a filter with a dense level, which always does; on a valid iterator Key and Value do not panic and Value is the value of a stored key, even if the search has left the way of every stored key; HasOverlap never panics, whatever the bounds.", "quantifier": "all sorted key sets, configurations, hints, call sequences, searches and ranges", "why_tests_cant": "a search that goes astray may end in any node of the sparse part; panics there depend on all bit vectors at once", "anchors": ["surf/surf.go:Seek", "surf/surf.go:Next", "surf/surf.go:Prev", "surf/surf.go:HasOverlap", "surf/louds_sparse.go:sparseIter.Seek"]}
{"id": "C60", "title": "Which Deletes of absent keys never return", "statement": "Running alone, Delete(k) of a key k that is not stored never returns if there is a stored key l, no prefix of another stored key, such that k goes on behind every place where l parts from other stored keys and agrees with l there and in the first eight bytes behind each of these places but the last; otherwise it returns and changes nothing. With a single stored key it does not return exactly if the two keys begin with the same byte.", "quantifier": "all call histories and all keys", "why_tests_cant": "a test can only show single keys for which Delete hangs or returns; the set of them depends on all stored keys", "anchors": ["art/art.go:Delete", "art/art.go:remove", "art/node.go:checkPrefix"]}
{"id": "C61", "title": "The tree does not remember how it was built", "statement": "Inner nodes other than the root are exactly at the places where two stored keys part; prefix lengths, the prefix bytes kept, prefix leaves and what hangs under each byte follow from the stored keys and values. So two histories that lead to the same map lead to the same tree, up to the kinds of the nodes (4, 16, 48, 256).", "quantifier": "all pairs of call histories", "why_tests_cant": "unbounded histories; needs an argument over all insertions, splits, merges and shrinkings", "anchors": ["art/art.go:insert", "art/art.go:remove", "art/node.go:compressChild", "art/node.go:updateOrExpand"]}
{"id": "C62", "title": "A Put panics only if a Delete merges nodes meanwhile", "statement": "A call that panics does so only if, while it was running, a Delete made the prefix of a node longer (the merge of a node with its only child): so without Deletes no call panics. Only Deletes make prefixes longer.", "quantifier": "every run of any number of calls whose reads give the prefix lengths that are there, single words of memory", "why_tests_cant": "schedules are unbounded; the panic needs a merge between two particular loads", "anchors": ["art/node.go:prefixMismatch", "art/node.go:fullKey", "art/art.go:insert", "art/node.go:compressChild"]}
{"id": "C63", "title": "The tree has its shape at every instant", "statement": "At every instant of a run of any number of calls, whatever calls are under way, the inner nodes are exactly at the places where keys of the current map part, and prefixes, prefix leaves and what hangs under each byte follow from that map.", "quantifier": "every run of any number of calls, every instant", "why_tests_cant": "intermediate states of concurrent calls are out of reach for tests", "anchors": ["art/art.go:insert", "art/art.go:remove", "art/node.go:compressChild"]}
{"id": "C64", "title": "Space is linear in the number of keys, at every instant", "statement": "At every instant of a run of any number of calls, a node16 has at least 4, a node48 at least 13 and a node256 at least 38 children, the child count is right (256 counts as 0), and the child pointers allocated in all inner nodes of the tree are at most 7 times the number of keys, and 4.", "quantifier": "every run of any number of calls, every instant", "why_tests_cant": "unbounded histories; worst cases of growing and shrinking cannot be sampled", "anchors": ["art/node.go:growAndInsert", "art/node.go:removeChildAndShrink", "art/node.go:shouldShrink"]}
{"id": "C65", "title": "firstChild and lastChild", "statement": "Of a node that any insertions and removals have left with at least one child, firstChild and lastChild return a child; in node48 and node256 the ones under the least and the greatest byte. (In node4 and node16 the order is that of insertion.)", "quantifier": "all sequences of insertions and removals", "why_tests_cant": "unbounded sequences through all node kinds", "anchors": ["art/range.go:firstChild", "art/range.go:lastChild"]}
{"id": "C66", "title": "What Build demands of its input", "statement": "For keys in order, repetitions allowed, Build returns exactly if there is a key, not only the empty one, no key occurs twice and every key has a value of at least valueSize bytes. For keys in any order Build returns only if, besides, no key is a prefix of the one before it. Values beyond the number of keys are ignored. (Other violations of the order are not noticed and may give wrong answers, and so does a second Build on the same builder.)", "quantifier": "all key and value lists, all configurations of at most 64 suffix bits, all hints", "why_tests_cant": "the input space of malformed arguments is unbounded", "anchors": ["surf/builder.go:Build", "surf/builder.go:buildNodes", "surf/builder.go:insertValue"]}
{"id": "C67", "title": "Critical sections and reads need not be atomic", "statement": "Take the calls in small steps: within a critical section the locked nodes hold anything, changed any number of times, until each is as it should be when its lock is released (an obsolete one never needs to be); and a racy read looks at its node any number of times. Then still every run is linearizable, a node is locked exactly while a call holds its lock, calls that have ended hold no lock, and no Get or Delete panics. Every such run follows, step by step, a run in which critical sections and reads are single steps, and the schedules used as counterexamples are runs of small steps too.", "quantifier": "any number of calls, all interleavings of small steps, all stray values in locked nodes", "why_tests_cant": "torn reads occur in interleavings of single loads and stores no test can enumerate", "anchors": ["art/art.go:search", "art/art.go:insert", "art/art.go:remove", "art/lock.go", "art/node.go:compressChild", "art/node.go:insertSplitPrefix"]}
{"id": "C68", "title": "Of calls that run at the same time one returns after boundedly many steps", "statement": "When calls run at the same time, whatever the schedule, at least one of them returns after a number of steps that depends only on the tree and the calls (lock-freedom apart from waiting for a lock that is held).", "quantifier": "all runs in which any number of calls make steps in any order, all trees and all keys and values", "why_tests_cant": "A livelock needs a schedule that repeats exactly, which the Go scheduler does not produce on demand; that a bound exists (or that none does) is a statement about runs of every length.", "anchors": ["art/art.go:insert", "art/lock.go:rUnlockWithNode", "art/lock.go:upgradeToLockWithNode"]}
{"id": "C69", "title": "A truncated filter is not accepted", "statement": "If the bytes of a marshalled filter lose any number of bytes at their end, Unmarshal panics on what is left instead of returning a filter, whatever the receiver holds and whatever lies behind the end of the slice (Go checks the upper bounds of slice expressions against the capacity). The complete bytes are accepted whatever follows them.", "quantifier": "all filters that Build returns (sizes fit 32 bits), all proper prefixes of their bytes, all receivers, all contents behind the end of the slice", "why_tests_cant": "The cut can fall at any byte of any filter, and whether a cut goes unnoticed depends on the alignment paddings and on bytes outside the slice; a test tries a few cuts of a few filters.", "anchors": ["surf/surf.go:Unmarshal", "surf/bits_vec.go:Unmarshal", "surf/louds_dense.go:Unmarshal", "surf/louds_sparse.go:Unmarshal"]}
{"id": "C70", "title": "Unmarshal into a used filter forgets what it held", "statement": "Unmarshal gives the same filter whether it is called on a new SuRF or on one that holds another filter: all queries and iterators answer as those of the marshalled filter, and marshalling the result returns the bytes it was unmarshalled from.", "quantifier": "all filters that Build returns (sizes fit 32 bits), all receivers, all slices that start with the bytes of the filter, all queries", "why_tests_cant": "What is left over depends on the pair of old and new filter; tests unmarshal into a new SuRF.", "anchors": ["surf/surf.go:Unmarshal", "surf/bits_vec.go:suffixVector.Unmarshal", "surf/bits_vec.go:suffixVector.WriteTo"]}
{"id": "C71", "title": "How often a hash suffix lets an absent key through", "statement": "Let q not be stored, and let the hash of q vary over all 64-bit words while the other hashes stay. With h <= 57 hash bits (and any real bits) at most one word in 2^h makes Get(q) find something; with hash bits only exactly one in 2^h if q leads to a stored key, none otherwise. With more than 57 hash bits every word does if q leads to a stored key.", "quantifier": "all key sets, values, hash functions, suffix lengths, hints, all queries that are not stored", "why_tests_cant": "It is a count over 2^64 hash values; a test sees one hash function, and a rate measured on samples proves no bound.", "anchors": ["surf/bits_vec.go:constructHashSuffix", "surf/bits_vec.go:CheckEquality", "surf/surf.go:Get"]}
{"id": "C72", "title": "Get is right in the 32-bit arithmetic of the code", "statement": "Positions, ranks, offsets and depths are uint32 in the code and wrap around silently. On every filter of at most 2^23 keys with less than 2^32 bytes of values, and for every query shorter than 2^29 bytes, Get computed with wrapping 32-bit arithmetic gives what Get with unbounded numbers gives; in particular every stored key is found with its value. A query with 2^29 bytes left at its leaf is the first for which the arithmetic does wrap: it counts as too short for the real suffix.", "quantifier": "all key sets of up to 2^23 keys, values, hash functions, suffix lengths, hints, all queries of less than 2^29 bytes", "why_tests_cant": "The limits are at millions of keys, gigabytes of values and half-gigabyte queries; tests stay far below them and cannot tell wrapping from exact arithmetic.", "anchors": ["surf/surf.go:Get", "surf/louds_dense.go:Get", "surf/louds_sparse.go:Get", "surf/bits_vec.go:rank,Select,CheckEquality,constructRealSuffix,GetPrefix"]}
{"id": "C73", "title": "Iterators and HasOverlap are right in the 32-bit arithmetic of the code", "statement": "On every filter of at most 2^23 keys with less than 2^32 bytes of values, none of whose keys is longer than M bytes with (M+2)(M+1) <= 2^31, any sequence of Seek (for less than 2^29 bytes), Next, Prev and, with a dense level, SeekToFirst and SeekToLast leads to the same place in wrapping 32-bit arithmetic as with unbounded numbers, or panics in both; Value is the same there, a scan from Seek of the empty key reads every key and value in order, and HasOverlap answers the same for bounds of less than 2^29 bytes. For a range end with 2^29 bytes behind the leaf HasOverlap can say no although a stored key is in the range.", "quantifier": "all key sets within the limits, values, hash functions, suffix lengths, hints, all sequences of calls, all bounds of less than 2^29 bytes", "why_tests_cant": "The limits are far beyond what tests build; wrap-around of depths and positions depends on the whole history of an iterator.", "anchors": ["surf/surf.go:HasOverlap,Seek,Next,Prev,SeekToFirst,SeekToLast,Value", "surf/louds_dense.go:denseIter", "surf/louds_sparse.go:sparseIter", "surf/bits_vec.go:Compare,SearchGreaterThan,DistanceToPrevSetBit"]}
{"id": "C74", "title": "Build is right in the 32-bit and 64-bit arithmetic of the code", "statement": "For every sorted, distinct, non-empty list of at most 2^23 keys other than [\"\"], each shorter than 2^29 bytes, with less than 2^32 bytes of keys and of values altogether, Build with all uint32 and uint64 arithmetic wrapping around returns, without panic, the same filter as with unbounded numbers. Together with the same facts about Get and the iterators: a filter built and read in wrapping arithmetic returns every stored key with its value, and a scan shows all keys in order. A level of 2^23 nodes is the first to go wrong: it counts as size 0 when the cut-off level is chosen.", "quantifier": "all key lists within the limits, all values, hash functions, suffix lengths, size hints, both select implementations", "why_tests_cant": "Millions of keys per level are needed before any counter gets near its limit, and no test can cover all key sets that keep below it.", "anchors": ["surf/builder.go:Build,buildNodes,determineCutoffLevel,denseSizeNoSuffix,sparseSizeNoSuffix,buildDense", "surf/bits_vec.go:Init,initRankLut,initSelectLut", "surf/louds_dense.go:init", "surf/louds_sparse.go:init"]}
{"id": "C75", "title": "The tree is right in the 32-bit arithmetic of the code, for any number of threads", "statement": "For keys shorter than 2^31 bytes: every run of any number of concurrent Get, Put and Delete calls in which all uint32 sums and differences of depths and prefix lengths wrap around is, instant by instant, a run with unbounded numbers: the same nodes in memory, the same locks held, the same calls begun, returned with the same results, and panicked. So such runs are linearizable, no Get and no Delete panics, and a finished call holds no lock. No prefix length of 2^31 or more is ever stored. (The arithmetic does wrap for longer keys: a key of 2^32 bytes is taken for the empty one.)", "quantifier": "all interleavings of any number of calls, all keys below 2^31 bytes, all values, all that a read of a changed node may return, except that a prefix length read is one the node has had", "why_tests_cant": "Lengths near 2^32 do not occur in tests, and stale reads combine a depth from one version of the tree with a prefix length from another, so that no single tree shows the sums that are computed.", "anchors": ["art/art.go:search,insert,remove", "art/node.go:checkPrefix,prefixMismatch,updateOrExpand,insertSplitPrefix,compressChild"]}
{"id": "C76", "title": "What a second Build on the same Builder does", "statement": "Build never empties its Builder. On a Builder that has built a first list of keys (both lists valid, of at least two keys, together less than 2^32 bytes), a second Build returns if the first filter has no dense level; if both filters would have dense levels it panics; and whenever it returns, every query whose first byte begins no key of the first list is answered not found, although it may be one of the keys just stored. On a new Builder it is the Build of the other properties.", "quantifier": "all pairs of key lists, values, hash functions, suffix lengths, size hints, all queries", "why_tests_cant": "The tests use every Builder once; what goes wrong depends on both lists and on the two cut-off levels.", "anchors": ["surf/builder.go:Builder,Build,buildNodes,buildDense,initDenseVectors,ensureLevel", "surf/surf.go:Get"]}
{"id": "C77", "title": "What a caller can do to the filter through a value Get returned", "statement": "Get returns a part of the filter's own value bytes, not a copy, with a capacity that reaches to the end of the vector. In a filter built from valid input every stored key has a place of its own in the two value vectors and every place is that of a stored key. Writing into a returned value (copy) changes the value of exactly that key. Appending to it overwrites the values that lie behind it in the vector with the appended bytes, as far as these reach and if they fit, and changes no other value; unless the value is the last of its vector, appending one value gives another stored key that value. Whatever is written into the value bytes, which queries are found, HasOverlap and the positions and keys of iterators stay the same.", "quantifier": "all valid key lists, values, value sizes, suffix lengths, size hints, all bytes written, all queries", "why_tests_cant": "The tests never modify a returned value; which keys an append damages depends on the order of the leaves over the levels.", "anchors": ["surf/bits_vec.go:valueVector.Init,Get", "surf/louds_dense.go:Get", "surf/louds_sparse.go:Get", "surf/surf.go:Get,Value"]}
{"id": "C78", "title": "The tree is right when sections and reads are many steps and the arithmetic is that of the code", "statement": "For keys shorter than 2^31 bytes: every run of concurrent Get, Put and Delete calls in which critical sections store and racy reads load field by field (as in C67) and all uint32 sums and differences wrap around (as in C75) is, instant by instant, a run of small steps with unbounded numbers: the same nodes in memory, also in the middle of critical sections, the same locks held, the same calls begun, returned with the same results, and panicked. So such runs are linearizable, no Get and no Delete panics, a node is locked exactly if a call holds its lock, a finished call holds no lock, and no prefix length of 2^31 or more is ever stored, not even in the middle of a critical section.", "quantifier": "all runs of any number of calls, all interleavings of loads and stores under sequential consistency, all keys shorter than 2^31 bytes", "why_tests_cant": "A wrapped length needs a torn read at the right instant together with a very long key; tests have neither.", "anchors": ["art/art.go:Get,Put,Delete", "art/node.go:compressChild,insertSplitPrefix,checkPrefix,prefixMismatch", "art/lock.go"]}
{"id": "C79", "title": "The slices Key returns are the iterator's own buffers", "statement": "Iterator.Key returns a slice of one of two buffers of the iterator, not a copy: read at once it is the key. If the dense part of the iterator is complete the slice is its buffer; after Next, Prev, SeekToFirst or SeekToLast a slice kept by the caller reads as the first bytes of the new buffer followed by what it had behind them (all of the new buffer, unless it moved to a larger array). Otherwise the slice is in the buffer of Key, and the next call of Key does the same to it, or it is alone in an array, and never changes. Whatever bytes the caller writes through, or appends to, slices it was given, all further calls of Next, Prev and Key succeed as before and come to the same positions and values; the keys are the same but for some of their first bytes, which are as the caller left them in the buffer; and after Seek, SeekToFirst or SeekToLast all is as if nothing had been written.", "quantifier": "all filters, all sequences of calls, all growth policies of append, all writes by the caller into slices it was given", "why_tests_cant": "Whether a kept key is overwritten depends on the capacities append has chosen, on whether the position is in dense or sparse levels, and on which call comes next; tests copy or compare the key at once.", "anchors": ["surf/surf.go:Key,Reset", "surf/louds_dense.go:denseIter.Key,append,setAt,truncate"]}
{"id": "C80", "title": "Values of a restored filter are memory of the caller's slice", "statement": "Unmarshal makes no copies: the dense and then the sparse values of the restored filter lie in the slice it was given, each behind its 8-byte header, and the capacity of a value Get returns reaches to that of the slice. Writing into the value of a stored key changes that value and no other. Appending to it, if the capacity of the slice suffices, overwrites what lies behind it in the slice: later values of the same vector; padding, header and values of the sparse vector (padding + 8 + valueSize bytes appended to the last dense value give the first sparse key the last valueSize of them); and behind the filter the caller's own bytes, which the bytes appended to the last sparse value replace while all values stay. Otherwise nothing changes. The index in front of the values is not touched.", "quantifier": "all filters built from valid input, all slices and capacities behind the marshalled bytes, all stored keys, all bytes written or appended", "why_tests_cant": "It takes a filter with values in dense and sparse levels, a slice with something behind the filter, and a caller that appends to a value; a test that unmarshals and queries sees nothing.", "anchors": ["surf/surf.go:Unmarshal,Get", "surf/bits_vec.go:valueVector.Unmarshal,valueVector.Get"]}
{"id": "C81", "title": "Values Get returns are memory of the tree", "statement": "Put copies the key and the value into a block of its own; Get returns a slice of that block with no spare capacity. No call ever looks at or writes into the value part of a block, so under every schedule the tree behaves the same whatever callers store in these slices. Bytes stored through the slice that a Get of k returned show at once, without any lock, under k as long as the leaf this Get found is in the tree, and under no other key; once the key has been put again or deleted the leaf never comes back, and such stores change nothing in the tree. In the order in which calls take effect, a Get of k returns the block of the last Put of k; two Gets with no Put or Delete of k between them return the same memory.", "quantifier": "all runs of any number of concurrent calls, all keys and values shorter than 2^32 bytes, all stores through returned slices at all instants", "why_tests_cant": "Tests compare returned values and drop them; whether a returned slice is a copy shows only when it is written to, and what else the write reaches depends on which leaf the tree holds at that moment of a concurrent run.", "anchors": ["art/node.go:newLeaf,value", "art/art.go:Get,Put", "art/art.go:search,insert,updateOrExpandLeaf"]}
{"id": "C82", "title": "Critical sections store by store behind store buffers", "statement": "With every critical section executed one load or store of one field at a time, on processors with store buffers (x86-TSO: stores reach memory later, in their order; a processor sees its own first; LOCK instructions wait until the buffer is empty), and reads of nodes that may be torn at any point between these stores, every execution is linearizable to the map, with the same guarantees as with sections done in one step: at each instant the same calls have returned the same, and the tree in memory stands for the map whenever no section is under way. Stores still in a buffer go to nodes locked by the call that made them; no section panics at any of its stores; a node is locked exactly if a call holds its lock; when a call returns, all its stores have reached memory, though the pointer to the compressed child is stored after this child has been unlocked.", "quantifier": "all runs of any number of concurrent Get, Put and Delete calls, all interleavings of single loads, stores and arrivals of buffered stores at memory, all keys and values shorter than 2^32 bytes", "why_tests_cant": "Store buffers drain within nanoseconds and differ between machines; a test cannot hold a store back while another goroutine reads the half-written node, and the race detector only reports that such accesses exist, which they do by design.", "anchors": ["art/lock.go:lock,unlock,unlockObsolete,upgradeToLock", "art/node.go:insertChild,growAndInsert,updateOrExpand,updatePrefixLeaf,removeChild,removeChildAndShrink,compressChild,insertSplitPrefix", "art/art.go:insert,remove"]}
{"id": "C83", "title": "No place in memory aligns the words of a restored filter", "statement": "Unmarshal turns parts of the given slice into []uint64 and []uint32 without copying. For every slice it accepts, counted from its beginning: the words of the dense levels begin 4 bytes behind a multiple of 8, those of dense suffixes 1 byte, those of the sparse levels at multiples of 8 and those of sparse suffixes 5 bytes behind one; tables of uint32 begin at multiples of 4. So wherever the slice lies, a filter with dense and sparse levels has words that are not aligned, and in an aligned slice all suffix words are at odd addresses.", "quantifier": "all slices Unmarshal accepts, of any contents and capacity, at all addresses", "why_tests_cant": "On amd64 unaligned loads work, so tests pass; the addresses depend on the allocator and on the sizes of all parts before.", "anchors": ["surf/louds_dense.go:WriteTo,Unmarshal", "surf/louds_sparse.go:Unmarshal", "surf/bits_vec.go:rankVector.Unmarshal,selectVector.Unmarshal,suffixVector.Unmarshal"]}
{"id": "C84", "title": "A restored filter lives in the caller's slice", "statement": "The arrays of a restored filter are disjoint parts of the slice given to Unmarshal, within its length, and for the bytes Marshal wrote within these, whatever follows them. At any later time the filter is the one its copied numbers and the present bytes of these parts make: changes to any other byte (headers, padding, what lies behind) change nothing, and if another filter with the same layout is read into the slice, the old filter answers as the new one. So clearing or reusing the slice makes Get lose stored keys or panic.", "quantifier": "all slices Unmarshal accepts, of any contents and capacity, all later contents of memory; all filters built from valid input", "why_tests_cant": "Tests unmarshal from a slice that nobody touches afterwards; which bytes the filter depends on shows only when each is changed on its own.", "anchors": ["surf/surf.go:Unmarshal", "surf/louds_dense.go:Unmarshal", "surf/louds_sparse.go:Unmarshal", "surf/bits_vec.go:rankVector.Unmarshal,selectVector.Unmarshal,labelVector.Unmarshal,prefixVector.Unmarshal,suffixVector.Unmarshal,valueVector.Unmarshal"]}
{"id": "C85", "title": "The tree relies on versions being loaded after the reads they validate", "statement": "If every version that validates a read of a node is loaded after the fields of the node (as on amd64), every execution is linearizable, even if reads mix what the node was at different instants. If it may be loaded before (as on arm64, where atomic.LoadUint64 is a load-acquire, which does not keep earlier plain loads in front of it), this is lost with three one-byte keys in one node: beside a Delete of another key, a Get of a key that was put before and is never deleted finds nothing, and a Delete returns without having deleted its key. It takes no Delete: a Get also misses its key beside a Put that splits the prefix of the node. All that is read in these executions is what the node held at some instant of the read.", "quantifier": "all runs of any number of concurrent calls for the first part; two executions for the second", "why_tests_cant": "Tests run on amd64, where the reordering cannot happen; on arm64 it needs a cache miss at the right instant, and go:norace keeps the race detector from reporting the accesses.", "anchors": ["art/lock.go:lockCheck,rUnlock", "art/art.go:search,remove", "art/node.go:removeChild,findChild"]}
{"id": "C86", "title": "Which memory the slices of a leaf point to", "statement": "All numbers that key and value load from a leaf, and the bytes of the slices they make, are within the block newLeaf made, do not overlap and cover all of it but the type byte. The slice value returns points into the slot of the Go heap that holds the leaf, except if the value is empty and the block ends with its slot: then it points to the next slot, or, if the slot is the last one of its span, to no slot at all, which the garbage collector takes for a corrupted heap. The slice key returns always points into the slot. The length of a key is never loaded from an aligned address.", "quantifier": "all keys and values shorter than 2^32 bytes, all spans, slots and positions of the block in its slot", "why_tests_cant": "Whether a leaf is in the last slot of a span when a garbage collection comes while the result of Get is held is up to the allocator; tests with non-empty values never see it.", "anchors": ["art/node.go:newLeaf,key,value,match"]}
{"id": "C87", "title": "What Get does on a filter restored from damaged bytes", "statement": "Whatever bytes a slice holds, if Unmarshal accepts it, Get on the restored filter comes back for every key, with a result or with a panic: the dense part makes at most one round per byte of the key and one more, whatever the height in the slice says, the sparse part as well, and each Select at most one round per word of the louds vector. A value Get returns is within the caller's slice up to its capacity and has the length the slice gives as the size of values; it need not be within the filter or within the length of the slice. A slice stays accepted with any number in its first four bytes, which becomes the number of dense levels, so NewIterator and HasOverlap may ask for 32 GiB whatever the length of the slice.", "quantifier": "all contents, lengths and capacities of the slice, all keys shorter than 2^32 bytes, all fingerprint functions, with and without BMI2", "why_tests_cant": "Tests restore filters that were just marshalled; the ways in which bytes can be wrong cannot be enumerated, and a loop that does not end or a value taken from behind the filter shows up only for particular wrong bytes.", "anchors": ["surf/surf.go:Get,HasOverlap,Unmarshal,NewIterator", "surf/louds_dense.go:Get,Unmarshal,Init", "surf/louds_sparse.go:Get,Unmarshal,Init", "surf/bits_vec.go:Get,Select,CheckPrefix,GetPrefix,CheckEquality"]}
{"id": "C88", "title": "Whether loops over a restored filter end", "statement": "Whatever a filter holds, however its iterator has been moved before, and whatever the slices it cuts keys, prefixes and suffixes from contain: if the number of bits of the dense labels is a multiple of 64 and fills the words of the vector, a loop `for ; it.Valid(); it.Next()` ends; if that vector has fewer than 2^26 words, a loop over Prev ends. The number of rounds is bounded by the number of levels. Filters that Build returns meet both conditions; a filter restored from any slice meets the first if the number in the slice is a multiple of 64, and the second if the slice has less than 512 MiB. The first condition is needed: a slice that differs from what Marshal wrote in three bytes is accepted, Get finds every key in it, and a scan with Next never ends.", "quantifier": "all contents of filters, all sequences of calls of Seek, SeekToFirst, SeekToLast, Next and Prev, all contents of key buffers, prefixes and suffixes; with and without BMI2", "why_tests_cant": "A loop that does not end shows up only for particular wrong bytes, and no test can tell it from a long loop; that loops end on all filters is a statement about an order on positions, not about any filter.", "anchors": ["surf/surf.go:Next,Prev,incrDenseIter,decrDenseIter,Unmarshal", "surf/louds_dense.go:Next,Prev,nextPos,prevPos,MoveToLeftMostKey,MoveToRightMostKey", "surf/louds_sparse.go:Next,Prev,MoveToLeftMostKey,MoveToRightMostKey", "surf/bits_vec.go:DistanceToNextSetBit,DistanceToPrevSetBit"]}
{"id": "C89", "title": "How many steps an undisturbed call takes", "statement": "A call that starts while nobody holds a lock and during which no other goroutine changes the tree never waits and returns after at most so many accesses to shared memory (and the return), where n is the length of its key and L the length of the longest key in the tree: 5n+8 for Get, 5n+17 for Delete, and 8n+12 plus (floor(n/10)+1) times 4*max(L-9,0) for Put. So the number of keys in the tree does not matter at all, and the lengths of the other keys matter for Put only, which looks up the bytes of long prefixes in leaves below. Each of the three bounds is reached by some call.", "quantifier": "all runs of the step model, all instants without a held lock, all trees reachable by interleaved calls, all keys and values; Delete under the proviso that the call returns when run alone", "why_tests_cant": "Tests measure time, and time on particular trees; a bound on the steps for every reachable tree and every key needs the shape invariant of the tree, and that the number of keys does not enter cannot be seen from any number of measurements.", "anchors": ["art/art.go:Get,Put,Delete,search,insert,remove", "art/node.go:fullKey,prefixMismatch,checkPrefix,insertSplitPrefix,updateOrExpand,compressChild"]}
{"id": "C90", "title": "Put is quadratic in the length of its key, Get is linear", "statement": "Store the 2^n keys that consist of n blocks of ten bytes, each block being nine fixed bytes and then one of two bytes. However these keys came into the tree, an undisturbed Put of one of them takes at least 2n^2+10n accesses to shared memory, because at every level it walks down to a leaf to look up the ninth byte of the prefix; an undisturbed Get of the same key takes at most 50n+9. Such trees are reached by runs of Put calls for every n, and the Put returns.", "quantifier": "every n with 10n < 2^32, all runs, all instants without a held lock at which the tree stands for exactly those keys, every stored key and every value", "why_tests_cant": "The trees in question have 2^n keys and the difference grows with n; for the n a test can afford the quadratic part is smaller than the linear one.", "anchors": ["art/art.go:Put,insert,Get,search", "art/node.go:prefixMismatch,fullKey,checkPrefix"]}
{"id": "C91", "title": "What Get of a filter reads does not depend on the filter", "statement": "Get on a built filter reads at most 541 elements of the filter's arrays (words of bit vectors, entries of rank and select tables, labels, prefix bytes and offsets) for each byte of the query and 268 more, whatever the number and the lengths of the keys in the filter. In particular Select, which scans the LOUDS vector word by word from a sampled position, reads at most 255 elements. Neither holds for filters restored from other bytes than MarshalBinary writes: for every n up to 2^26-3 there are bytes from which a filter is restored on which Get with a query of one byte reads more than n elements.", "quantifier": "all key and value lists that Build accepts, all suffix configurations up to 64 bits, all size hints, with and without BMI2, all queries; for the restored filters every n with n + 2 < 2^26", "why_tests_cant": "A scan whose length is bounded only through the structure of the vector (fewer than 64 nodes of at most 257 labels between two samples) is fast on every tested filter even if the bound fails; that no filter of any size makes Get slow cannot be measured.", "anchors": ["surf/bits_vec.go:Select,DistanceToNextSetBit,Search,Rank,GetPrefix,CheckPrefix,CheckEquality", "surf/louds_dense.go:Get", "surf/louds_sparse.go:Get,firstLabelPos,nodeSize", "surf/surf.go:Get,Unmarshal"]}
{"id": "C92", "title": "All locks can be released by those who hold them", "statement": "From every reachable state of the tree, whatever calls are under way, all locks get free if the calls that hold one go on, in a suitable order, for at most eight steps each, and nobody else makes a step; then no node is locked. A call that waits for a lock can go on afterwards. So no state is a deadlock or leads to one inevitably, and no call need help another that only waits.", "quantifier": "all runs of any number of Get, Put and Delete calls on any keys, all instants", "why_tests_cant": "That the locks can be released from every state speaks about what could happen next, in every one of unboundedly many interleavings; a test sees one continuation of a few.", "anchors": ["art/lock.go:lock,unlock,unlockObsolete,waitUnlock,upgradeToLock,upgradeToLockWithNode,rUnlockWithNode", "art/node.go:insertSplitPrefix,growAndInsert,removeChildAndShrink,compressChild,updateOrExpand", "art/art.go:insert,remove"]}
{"id": "C93", "title": "The loops of lock.go do what one step would, but may go on for ever", "statement": "With waitUnlock and lock modelled load by load and compare-and-swap by compare-and-swap, every run is, but for steps inside these loops that change nothing, a run in which each is one atomic step taken when the lock is free, and conversely; so everything proved with atomic waits holds with the loops. A call that waits makes at most 31 loads in a row before it calls runtime.Gosched. It can always get through by steps of those who hold a lock, followed by its own. But it may starve: for every N there is a run in which a Get looks N times at one lock without getting through while N Puts, one after the other, begin and return.", "quantifier": "all runs of any number of Get, Put and Delete calls; for the last part every N", "why_tests_cant": "A test cannot schedule the loads of a spin loop, so it neither shows that an unlucky compare-and-swap is harmless in all interleavings nor that a wait has no bound.", "anchors": ["art/lock.go:waitUnlock,lock,rLock,upgradeToLock,spinCount"]}
{"id": "C94", "title": "What Next and SeekToFirst of an iterator read", "statement": "On an iterator of a built filter, wherever Seek, Next, Prev (and, with a dense level, SeekToFirst and SeekToLast) have left it, Next reads at most 34 elements of the filter's arrays for each dense level, 557 for each sparse level and 546 more, and, unless it runs out, one for each byte of the key it gets to and two more; if no search went astray this is at most 558 for each byte of the longest key and 1105 more, however many keys the filter holds. On an iterator that has run out it reads nothing. SeekToFirst with a dense level has the bound 25, 278, one and 298.", "quantifier": "all sorted inputs, all configurations, all sequences of calls before, both versions of select64", "why_tests_cant": "The bound speaks about every filter and every place in it; the worst places (long gaps of labels, full blocks of the select table) are met by tests only by chance, and a test sees time, not reads.", "anchors": ["surf/louds_dense.go:Next,MoveToLeftMostKey,append,nextPos,SetToFirstInRoot", "surf/louds_sparse.go:Next,MoveToLeftMostKey,append,setAt", "surf/surf.go:Next,SeekToFirst,incrDenseIter,incrSparseIter", "surf/bits_vec.go:DistanceToNextSetBit,GetPrefix"]}
{"id": "C95", "title": "What Seek of an iterator reads", "statement": "On an iterator of a built filter, wherever it has been left, and for any searched bytes, Seek reads at most 96 elements of the filter's arrays for each dense level, 1109 for each sparse level, four for each searched byte and 814 more, and, unless it runs out, one for each byte of the key it gets to and two more; if no search goes astray this is at most 1110 for each byte of the longest key, four for each searched byte and 1925 more, however many keys the filter holds.", "quantifier": "all sorted inputs, all configurations, all sequences of calls before, all searched bytes, both versions of select64", "why_tests_cant": "The bound speaks about every filter, every query and every place; the expensive searches (a suffix compared at the end of a long path, then a climb to the next sub-trie and a descent) are met by tests only by chance, and a test sees time, not reads.", "anchors": ["surf/louds_dense.go:Seek,compareSuffixGreaterThan", "surf/louds_sparse.go:Seek,moveToLeftInNextSubTrie,compareSuffixGreaterThan", "surf/surf.go:Seek", "surf/bits_vec.go:SearchGreaterThan,Search,Compare,GetPrefix"]}
{"id": "C96", "title": "What HasOverlap and Value read", "statement": "HasOverlap of a built filter reads what Seek to the first bound reads and at most 21 elements of the filter's arrays more (none if the search runs out), whatever the second bound is; if the search does not go astray this is at most 1110 for each byte of the longest key, four for each byte of the first bound and 1946 more. Value on an iterator that has not run out, wherever calls have left it, reads at most nine elements besides the value.", "quantifier": "all sorted inputs, all configurations, all pairs of bounds, all sequences of calls before, both versions of select64", "why_tests_cant": "The bound speaks about every filter and every range, however many keys lie in it; a test sees time, not reads.", "anchors": ["surf/surf.go:HasOverlap,Value,compare", "surf/louds_dense.go:Compare,Value,suffixPos", "surf/louds_sparse.go:Compare,Value,suffixPos", "surf/bits_vec.go:Compare"]}
{"id": "C97", "title": "What Prev and SeekToLast of an iterator read", "statement": "Wherever calls have left an iterator of a built filter with fewer than 2^32 dense levels, Prev (unless it panics) reads at most 34 elements of the filter's arrays for each dense level, 557 for each sparse level and 546 more, and, unless it runs out, one for each byte of the key it gets to and two more; if no search before went astray this is at most 558 for each byte of the longest stored key and 1105 more. On an iterator that has run out it reads nothing. SeekToLast with a dense level reads at most 24 for each dense level, 278 for each sparse level, one for each byte of the key and 297 more.", "quantifier": "all sorted inputs, all configurations, all sequences of calls before, both versions of select64", "why_tests_cant": "The bound speaks about every filter however many keys it holds; a test sees time, not reads.", "anchors": ["surf/louds_dense.go:Prev,MoveToRightMostKey,prevPos,SetToLastInRoot", "surf/louds_sparse.go:Prev,MoveToRightMostKey,lastLabelPos", "surf/surf.go:Prev,SeekToLast,decrDenseIter,decrSparseIter", "surf/bits_vec.go:DistanceToPrevSetBit"]}
{"id": "C98", "title": "A scan reads in proportion to the bytes of the keys", "statement": "Wherever calls have left an iterator of a built filter, as long as no search went astray, Next from a key x reads at most nine elements of the filter's arrays for each byte of x, 278 for each byte of the key it gets to and 584 more; if it runs out, nine for each byte of x and 28 more. The same holds for Prev with ten in place of nine (and 586, 30), where it does not panic. The height of the filter and the number of keys do not matter. A loop of Next to the end reads at most 287 elements for each byte of the stored keys and 584 for each key.", "quantifier": "all sorted inputs, all configurations, all sequences of calls before, both versions of select64", "why_tests_cant": "A test can time a scan of some filter; that the work follows the keys shown, and not the height or the size of the filter, is a statement about all of them.", "anchors": ["surf/louds_dense.go:Next,Prev,MoveToLeftMostKey,MoveToRightMostKey,append", "surf/louds_sparse.go:Next,Prev,MoveToLeftMostKey,MoveToRightMostKey,append", "surf/surf.go:Next,Prev,incrDenseIter,decrDenseIter"]}
{"id": "C99", "title": "A search for a range reads in proportion to what it shows", "statement": "Wherever calls have left an iterator of a built filter, Seek reads at most 603 elements of the filter's arrays for each searched byte and 329 more, and, unless it runs out, 278 for each byte of the key it gets to and 556 more; HasOverlap the same for its first bound and 21 more, whatever the second bound is. A Seek that does not go astray followed by Next as long as the keys shown are wanted reads at most 603 elements for each searched byte, 287 for each byte of the keys shown and wanted, 584 for each of them, 278 for each byte of the key it stops at and 885 more. The height of the filter and the number of keys it holds do not matter.", "quantifier": "all sorted inputs, all configurations, all searched bytes, all conditions on the keys wanted, all sequences of calls before, both versions of select64", "why_tests_cant": "A test can time a range of some filter; that the work follows the bytes searched for and the keys shown, and not the height or the size of the filter, is a statement about all of them.", "anchors": ["surf/louds_dense.go:Seek,Next,compareSuffixGreaterThan", "surf/louds_sparse.go:Seek,moveToLeftInNextSubTrie,compareSuffixGreaterThan", "surf/surf.go:Seek,Next,HasOverlap,incrDenseIter"]}
{"id": "C100", "title": "A scan from either end reads in proportion to what it shows", "statement": "On a built filter with a dense level, SeekToFirst reads at most 278 elements of the filter's arrays for each byte of the key it gets to and 584 more, SeekToLast 278 and 583, wherever the iterator was. From wherever calls have left an iterator without a search that went astray, Prev as long as the keys shown are wanted, where no call panics, reads at most 288 elements for each byte of the keys shown and wanted, 586 for each of them, 278 for each byte of the key it stops at and 556 more. The height of the filter and the number of keys it holds do not matter.", "quantifier": "all sorted inputs, all configurations with fewer than 2^32 dense levels, all conditions on the keys wanted, all sequences of calls before, both versions of select64", "why_tests_cant": "A test can time a backward scan of some filter; that the work follows the keys shown, and not the height or the size of the filter, is a statement about all of them.", "anchors": ["surf/louds_dense.go:Prev,MoveToRightMostKey,SetToFirstInRoot,SetToLastInRoot", "surf/louds_sparse.go:Prev,MoveToRightMostKey", "surf/surf.go:Prev,SeekToFirst,SeekToLast,decrDenseIter"]}
{"id": "C101", "title": "A loop over a range shows exactly the keys it should", "statement": "After Seek(q), for a search that does not go astray, on an iterator after any calls, a loop of Key, Value and Next as long as a condition on the key shown holds does not panic and shows exactly this: of the stored pairs whose key the search does not pass over, in their order, as far as the keys are kept and with the first bytes of the values, those in front of the first one for which the condition fails (or as many of them as a limit allows). With any hash suffixes, and with real suffixes of at most eight bits (or less than 16 if the keys are long enough), a loop from start as long as the key shown is less than stop misses no stored key from start to stop.", "quantifier": "all sorted inputs, all configurations, all searched bytes, all conditions and limits, all sequences of calls before, both versions of select64", "why_tests_cant": "A test compares some ranges of some filters; that no key of any range is missed or shown twice, whatever the suffixes and the cut between dense and sparse levels, is a statement about all of them.", "anchors": ["surf/surf.go:Seek,Next,Key,Value,Valid", "surf/louds_dense.go:Seek,Next", "surf/louds_sparse.go:Seek,Next"]}
{"id": "C102", "title": "When HasOverlap and a loop over the range agree", "statement": "In a filter without real suffixes (with any hash suffixes), if the search for start does not go astray: HasOverlap(start, stop, false) is true exactly if a loop of Seek(start) and Next as long as the key shown is less than stop shows a key, or the first key it would show is kept as stop and not known to be whole; HasOverlap(start, stop, true) is true exactly if a loop as long as the key shown is at most stop shows a key, or the first key it would show is a longer one taken for stop.", "quantifier": "all sorted inputs, all configurations without real suffixes, all ranges, both versions of select64", "why_tests_cant": "The two corners in which the answers differ need keys that end where the filter stops keeping them; for the rest the agreement is a statement about all filters and ranges.", "anchors": ["surf/surf.go:HasOverlap,compare,Seek,Next", "surf/louds_dense.go:Compare", "surf/louds_sparse.go:Compare"]}
{"id": "C103", "title": "A hit of Get is where Seek stops", "statement": "In a filter without real suffixes, or with both hash and real suffixes, if Get(q) finds a value then Seek(q), on an iterator after any calls of which no search went astray, stops on a key, and Value there is the value Get found; this search does not go astray either, whatever q is.", "quantifier": "all sorted inputs, all configurations but those with real suffixes alone, all queries for which Get answers yes (false positives too), all iterators after any such calls, both versions of select64", "why_tests_cant": "Get and Seek walk the two halves of the tree by separate code and compare suffixes differently; agreement on false positives needs all queries, and with real suffixes alone it fails.", "anchors": ["surf/surf.go:Get,Seek,Value", "surf/louds_dense.go:Get,Seek", "surf/louds_sparse.go:Get,Seek", "surf/bits_vec.go:CheckEquality,Compare"]}
{"id": "C104", "title": "A hit of Get and the range of one key", "statement": "In a filter without real suffixes, or with hash suffixes and real suffixes of less than 16 bits, if Get(q) finds a value then HasOverlap(q, q, true) is true exactly if the key that Seek(q) shows is a prefix of q, or the key it stands for is taken for q; so if no key is a prefix of another and q is not empty, every hit of Get is an overlap of the range from q to q.", "quantifier": "all sorted inputs, all configurations but those with real suffixes alone or of 16 and more bits, all queries for which Get answers yes, both versions of select64", "why_tests_cant": "A caller may use either question for one key; where the answers differ it takes a key that is a prefix of another, below the first sparse level, and a query that ends where its node begins.", "anchors": ["surf/surf.go:Get,HasOverlap,Seek,compare", "surf/louds_dense.go:Get,Compare", "surf/louds_sparse.go:Get,Compare"]}
{"id": "C105", "title": "Where Seek stops if Get hits, with real suffixes alone", "statement": "In a filter with real suffixes and no hash suffixes, if Get(q) finds the value of the n-th key, Seek(q), on an iterator after any calls of which no search went astray, stops on this key if it is a prefix of another or its suffix is not below that of q; else all bits of its suffix are 0, and Seek(q) stops on the next key, or is invalid if there is none.", "quantifier": "all sorted inputs, all lengths of real suffixes, all queries for which Get answers yes, all iterators after any such calls, both versions of select64", "why_tests_cant": "Get takes a suffix of zeros to agree with everything, while Seek compares it as a number; that the two differ here, by exactly one key, and nowhere else, is a statement about all filters and queries.", "anchors": ["surf/surf.go:Get,Seek,Value", "surf/bits_vec.go:CheckEquality,Compare", "surf/louds_dense.go:Get,Seek", "surf/louds_sparse.go:Get,Seek"]}
{"id": "C106", "title": "Get by Seek and a comparison", "statement": "In a filter without suffixes, if no key is a prefix of another, Get(q) for a non-empty q finds the value v exactly if Seek(q), on an iterator after any calls, stops on a key that is shown as a prefix of q, with the value v.", "quantifier": "all sorted inputs of which no key is a prefix of another, all queries, all iterators after any calls, both versions of select64", "why_tests_cant": "Get and Seek are separate code over the same bit vectors; that one can be had from the other for every query, hits and misses, is a statement about all filters.", "anchors": ["surf/surf.go:Get,Seek,Key,Value", "surf/louds_dense.go:Get,Seek", "surf/louds_sparse.go:Get,Seek"]}
{"id": "C107", "title": "A loop can be resumed by the key it shows", "statement": "If an iterator, after any calls of which no search went astray, is valid and shows the key x, then Seek(x) on any iterator after such calls, in any filter, does not go astray, stops on x again with the same value, and any loop with Next from there shows the same keys and values as one with the first iterator.", "quantifier": "all sorted inputs, all configurations, all iterators after any such calls, all loop conditions, both versions of select64", "why_tests_cant": "Key returns a truncated key; that a search for it, with suffixes of any kind, leads to exactly the position it was read at is a statement about all key sets and histories.", "anchors": ["surf/surf.go:Seek,Key,Value,Next", "surf/bits_vec.go:Compare", "surf/louds_dense.go:Seek", "surf/louds_sparse.go:Seek"]}
{"id": "C108", "title": "Prev and Next undo each other", "statement": "On an iterator after any calls of which no search went astray: if Prev leaves it valid, Next goes back to where it was (same key, value, and rest of a loop). If it is valid and Next leaves it valid, Prev does not panic, and goes back to where it was if this key is in reach of Prev from the next one, as it always is without dense levels; else it leaves the iterator invalid.", "quantifier": "all sorted inputs, all configurations, all iterators after any such calls, both versions of select64", "why_tests_cant": "A client that goes back and forth relies on it at every position of every filter; the only exception, keys with a zero byte where all keys part, is easy to miss.", "anchors": ["surf/surf.go:Next,Prev", "surf/louds_dense.go:Next,Prev", "surf/louds_sparse.go:Next,Prev"]}
{"id": "C109", "title": "A wider range overlaps if a narrower one does", "statement": "In a filter without real suffixes, or with real suffixes of at most eight bits (and any hash suffixes), if HasOverlap(start, stop, false) is true, then for start' <= start and stop <= stop' so are HasOverlap(start', stop', false) and HasOverlap(start', stop', true), if neither search goes astray; and HasOverlap(start, stop, true) implies HasOverlap(start', stop', true) unless another key is taken for stop.", "quantifier": "all sorted inputs, all configurations with real suffixes of at most eight bits or none, all pairs of ranges one of which contains the other, both versions of select64", "why_tests_cant": "It relates the answers to two questions; where it fails (a key that is a prefix of another taken for the end, an end too short for a longer real suffix) both answers look plausible.", "anchors": ["surf/surf.go:HasOverlap,Seek,compare", "surf/louds_dense.go:Seek,Compare", "surf/louds_sparse.go:Seek,Compare"]}
{"id": "C110", "title": "A search for more stops later", "statement": "In a filter without real suffixes, or with real suffixes of at most eight bits (and any hash suffixes), for q <= q', if neither search goes astray, what Seek(q') and a loop with Next show is the end of what Seek(q) and a loop with Next show, and what is shown in front of it is less than q'.", "quantifier": "all sorted inputs, all configurations with real suffixes of at most eight bits or none, all pairs of queries, all iterators after any calls of which no search went astray, both versions of select64", "why_tests_cant": "It relates two searches; a client that splits a range into parts relies on it for every place to split.", "anchors": ["surf/surf.go:Seek,Next,Key", "surf/louds_dense.go:Seek,Next", "surf/louds_sparse.go:Seek,Next"]}
{"id": "C111", "title": "A range overlaps exactly if one of its parts does", "statement": "In a filter without real suffixes, or with real suffixes of at most eight bits (and any hash suffixes), for a <= b <= c, if neither the search for a nor that for b goes astray, HasOverlap(a, c, e) = HasOverlap(a, b, false) || HasOverlap(b, c, e), for both values of e.", "quantifier": "all sorted inputs, all configurations with real suffixes of at most eight bits or none, all ranges and all places to split them, both versions of select64", "why_tests_cant": "It is an equation between the answers to three questions, for every way to split a range; no single answer shows that it fails.", "anchors": ["surf/surf.go:HasOverlap,Seek,compare", "surf/louds_dense.go:Seek,Compare", "surf/louds_sparse.go:Seek,Compare"]}
{"id": "C112", "title": "Asking for keys with a prefix", "statement": "In a filter without real suffixes (with any hash suffixes), for p = a + [c] with c less than 0xff and p' = a + [c+1], if the search for p does not go astray, HasOverlap(p, p', false) is true exactly if there is a stored key that begins with p, or one that is not known whole and is kept as a prefix of p or as p'.", "quantifier": "all sorted inputs, all configurations without real suffixes, all prefixes that do not end with 0xff, both versions of select64", "why_tests_cant": "The usual way to ask for a prefix; that it misses none, and which false answers it gives (among them keys that begin with p'), is a statement about all key sets and prefixes.", "anchors": ["surf/surf.go:HasOverlap,Seek,compare", "surf/louds_dense.go:Seek,Compare", "surf/louds_sparse.go:Seek,Compare"]}
