# Formal model of CodingCrush/myk in Lean 4

Two Go packages are modelled:

* `art`  – adaptive radix tree with optimistic lock coupling (`art/art.go`, `node.go`, `lock.go`, `range.go`);
* `surf` – succinct range filter (`surf/builder.go`, `bits.go`, `bits_vec.go`, `louds_dense.go`,
  `louds_sparse.go`, `surf.go`, `bits_amd64.s`).

Tests, benchmarks, failpoint hooks and datasets are not modelled.

## How Go is represented

| Go | Lean |
|---|---|
| `[]byte`, keys, values | `List UInt8` |
| `uint64` bit-vector words, `node48.slots` | `BitVec 64` (shifts by >= 64 give 0, subtraction wraps, as in Go) |
| `uint32`/`int` positions, counts, depths | `Nat` (assumption: no position exceeds 2^32; for `Build`, `Get`, the iterators and `HasOverlap` it is discharged by C74, C72 and C73, which have the same code modulo 2^32 in `Surf/WrapBuild.lean`, `Surf/Wrap.lean` and `Surf/WrapIter.lean`; for the calls of the tree by C75 with `Art/Wrap.lean`, for keys below 2^31 bytes; where the code *relies* on wrap-around – `numChildren uint8` at 256 – a `UInt8` is used) |
| run-time panic (index out of range, nil dereference, `panic(..)`) | `none` in the `Option` monad; every slice access is an explicit `xs[i]?` |
| retry loop `for { if attempt() {return} }` | the attempt's boolean is modelled; sequentially a `false` attempt that leaves the heap unchanged is divergence |
| pointer to inner node | address in a heap `Nat -> Option Node`; `**node` (nodeLoc) = (owner address, slot) |
| leaf (packed byte block) | the packed byte block itself (`Leaf.mem`); that nodes hold pointers to it is modelled in `Art/Names.lean`, `Props/ArtNames.lean` (C81) |
| goroutines | each call is a process of its own (a thread is a sequence of them); `Art/System.lean` has one step per lock operation, version load, racy read, or critical section, in any order. See below |
| `farm.Fingerprint64` | a parameter `fp : List UInt8 -> BitVec 64` (theorems hold for every hash function) |
| `io.Writer` | an arbitrary action in an arbitrary lawful monad (state, errors, short writes all included) |

Memory: the model of C14–C67 is sequentially consistent. On amd64 this is proved to lose nothing (C82): there critical sections are done store by store through store buffers (x86-TSO).
Not modelled: weaker machines (arm64) as a whole, and a compiler that reorders plain accesses (the Go memory model gives nothing for racy plain accesses). Of arm64, one liberty is modelled, the load of a version ahead of the plain reads it validates (`Art/Early.lean`); it is enough to break the tree (C85).

## Trusted base

* Lean 4.33.0 kernel; axioms at most `propext`, `Classical.choice`, `Quot.sound` (checked by `vcheck`).
* The reading of the Go source into the model. Every model definition cites file and lines.
* The modelling table above.

## What is modelled and how it is proved

### ART, sequential (C01–C13)

* `Art/Node.lean`: the four containers with their arrays (keys, children, index, slots, 8-bit counter), growing, shrinking, leaf codec, prefix
  functions. `Art/Prog.lean`: `search`, `insert`, `remove` and their helpers as programs over shared-memory instructions (`wait`, `load`, `cas`,
  `lock`, `unlock`, `read`, `write` of a whole critical section, ...), following art.go statement by statement.
* `Art/Cont*.lean`, `Art/NodeLemmas.lean`: each container operation against the finite map `UInt8 -> Option Ref` (C09, `Props/ArtNode.lean`).
* `Art/Tree.lean`, `HeapTree.lean`, `Commit*.lean`: the heap invariant `HTr`. A ghost "end path" `E : Addr -> List UInt8` never changes during
  the life of a node; every live inner node `n` stores the last `prefixLen` bytes of `E n` (first 8 only), every child under byte `b` starts at
  `E n ++ [b]`, every leaf key is located by its own bytes, every non-root node has one parent and at least two children. Every critical section of insert / remove
  keeps the invariant and changes the map as it should.
* `Art/Seq*.lean`, `Walk*.lean`, `Fuel.lean`, `Count.lean`: one call alone. `Props/ArtSeq.lean`: C01–C08, C10, C11, C13.

The loops have fuel; theorems are about any fuel that is enough, C08 says how much is, and what is returned does not depend on it.
Keys and values are shorter than 2^32 bytes (the leaf header has 32-bit lengths).
C05 is false of the code (`art.go:318` negates the check): witness theorem + partial theorem.

### ART, concurrent (C14–C21)

* `Art/System.lean`: any number of calls, any interleaving. `owner` records who took which lock; nothing in the programs depends on it.
* A racy `read a v` (a read from a node at which the version `v` was recorded) returns the contents if the version is still `v`, else *anything*
  of the same node type: torn and stale reads are included. Exception: `numChildren` of garbage is read only as part of `shouldShrink`, which does not panic.
  A call that reads several fields under one recorded version makes several reads where the code branches or loops on
  them again (this is how C21 fails).
* A critical section (between the last lock taken and the first unlock) is one step in `Art/System.lean`. That this loses nothing is proved (C67): in `Art/Fine.lean` the locked nodes hold
  anything during the section, a racy read looks many times, and every run of such small steps follows a run of large ones.
  What remains assumed there: the root pointer is stored at one instant, new nodes are filled before a pointer to them is stored, and a section reads a field before it overwrites it.
  `compressChild` stores the pointer to the merged child after it has unlocked it; the model puts this store into the section, and C67 covers the code's order.
  In C82 (`Art/Stores.lean`, `Art/Tso.lean`) the sections are programs of single loads and stores in the order of the code, behind store buffers. Simplified there: the stores that fill a new node and the store of
  the pointer to it reach memory together (nobody can see the node in between); every field is one machine word at most and is stored in one piece, bytes of arrays one by one; `copy` stores the elements in ascending order.
  C78 has the small steps of C67 with 32-bit arithmetic.
* Spinning on a lock is no step: `wait` and `lock` can be taken only when the node is unlocked. (`Art/Spin.lean` has the loops step by step; C93 shows that the two systems have the same runs, but for steps inside the loops.) Version words are natural numbers (no wrap of the 62-bit counter).
* `panic`, an address outside the heap, or a section that panics make the call `crashed`; C21 shows which calls can get there.
* `Art/RG.lean`: state with ghosts (`E`, live set, owners, history of all maps), invariant `Inv`, `Rely` (what others may do), weakest preconditions `wp`. `ConcGet`, `ConcPut`, `ConcIns`,
  `ConcDel`, `ConcLock`: the three operations verified against it. `Art/Sound.lean`: for every run these proofs hold together (`Run.si`).
* `Props/ArtConc.lean`: C14–C21. The specification, `Stands h m`, is "the leaves reachable from the root of `h` are exactly the pairs of `m`".
  C20 orders locks by end path. C21 is false of the code for `Put`; the witness is a run that reads only what the nodes hold.

### SuRF

Builder output is shown to be the level-order encoding of the trie defined by the sorted key list; the bit
vectors are shown to be plain boolean lists (C41–C44); `Get` on the succinct form is shown equal to `Get` on the trie for every query
(C22–C26, `Surf/Locate*`, `FindLemmas`, `Props/SurfGet.lean`).

Iterators (C27–C32, `Surf/Iter.lean`) are modelled statement by statement. A position is a way down the trie (`Surf/Way.lean`) and an item of the node it leads to;
`IterDense`, `IterSparse`, `Back`, `IterWhole` show what every move does to it, `SeekSpec`, `SeekDense`, `SeekSparse` where `Seek` stops, `SufOrder`, `Overlap` what comparing
yields. The invariant of an iterator is `At b y` ("stands on the pair `y`, the pairs before it are `b`") or `Done`. `Surf/Shape.lean` specifies what is kept of a key
(`form`), which keys are held by end items (`isEnd`) and on which level (`level`) by how far keys agree, and shows that the trie does so. `Props/SurfIter.lean`: C27–C32
are false of the code in identified corner cases (witness theorems); the `_partial` theorems hold outside of these.

Go allows `buf[:n]` up to the capacity of `buf`; the model (`cutTo`) counts n beyond the length as a panic, because a `List` has no spare capacity. The theorems that say when
iterator calls return (C59, C27–C30) show that this does not happen on built filters where they apply; in the witness of C32 the panic is an index out of range, not such a cut.
A slice whose capacity matters is modelled as memory plus a place (C77), or as an array and a length (C79), with `append` in place or into a new array of any capacity.

Marshalling (C33–C37, `Surf/Marshal*.lean`, `BuiltOk.lean`, `Props/Marshal.lean`) is modelled at byte level, all sections, for every filter that `Build` returns and
whose numbers fit their 32-bit fields. C38 is false for the single empty key (witness), proved otherwise; C25 is false across cut-offs (witness), proved at equal
cut-offs and, in general, for queries that are not proper prefixes of a stored key.
`Surf/Marshal.lean` has `Unmarshal` into a new `SuRF` from a slice without spare capacity; `Surf/Receive.lean` has any receiver, any capacity and `uint32` sizes that wrap
around (C69, C70). In both the restored filter holds copies; in Go it shares memory with the slice (which must be aligned). What follows for the values `Get` hands out is C80, in the model `Surf/Shared.lean`. `Surf/Layout.lean` has the restored filter as numbers and parts of the slice, and what it is as the contents of the slice change (C83, C84). `Surf/Damaged.lean` has `Get` on filters with any contents (C87).

Bit level (C39–C45, `Surf/Bits*.lean`, `Vec`, `Select64`, `RankLemmas`, `DistLemmas`, `Props/Bits.lean`): word-level proofs for all words and all sizes. C43 deviates
at the last bit of a vector whose length is a multiple of 64 (witness); the rest is proved.

Reads (C91, C94-C100; `Surf/Reads.lean`, `Surf/ReadsIter.lean`, `Surf/ReadsSeek.lean`, `Surf/ReadsOverlap.lean`, `Surf/ReadsPrev.lean`): `Get`, `Next`, `Prev`, `SeekToFirst`, `SeekToLast`, `Seek`, `HasOverlap` and `Value` written a second time in a monad that counts the elements read from the filter's arrays; each counted part is proved to return what the part
without counter returns. The counts say nothing about time spent on the key or in `farm.Fingerprint64`.

### One line per property

| | Modelled and how proved |
|---|---|
| C01–C04 | `seqPut`/`seqGet`/`seqDelete` on any tree satisfying `Tree.Inv`; heap invariant, one critical section at a time |
| C05 | false (`C05_violated`: the call never returns); proved when the search for the key does not end at another key's leaf |
| C06 | any sequence of calls refines a finite map, by induction on the sequence |
| C07 | the sequential programs never reach `none` |
| C08 | the first attempt succeeds; the fuel bound is the length of the key |
| C09 | containers against a function of the byte, all four kinds, 256 children included |
| C10 | `search` skips more than 8 prefix bytes; the leaf comparison decides |
| C11 | number of inner nodes against number of leaves, by counting parents |
| C12 | the leaf codec, at byte level |
| C13 | `search` has no writing instruction and ends in the same heap |
| C14–C16 | rely/guarantee proof of each operation, history of maps as ghost |
| C17–C19 | invariant of the concurrent system |
| C20 | locks are ordered by end path; a run in which every call is blocked has none |
| C21 | false for `Put` (`C21_violated`); proved for `Get`, `Delete` and for `Put` under the stated condition |
| C22–C24, C26 | `Build` gives the level-order encoding of the trie of the keys; `Get` runs down this trie |
| C25 | false across cut-offs (`C25_witness`); proved at equal cut-offs |
| C27, C28, C32 | false (witnesses) for queries that leave a prefix key on a sparse level where no stored key goes, and C27 for long real suffixes; proved for all other queries: `Seek` against the ordered list of pairs |
| C29, C30 | false in the corner cases 3–5 below (witnesses), proved otherwise: a move of the iterator is a step in the list of pairs |
| C31 | what `Key` returns is the specification `form` |
| C33–C36 | byte-level codec of every section |
| C37 | any lawful writer, any failure point |
| C38 | false for `[""]` (witness), proved otherwise |
| C39, C40 | the broadword steps as sums over bytes; PDEP as a specification of the instruction |
| C41, C42, C44, C45 | bit vectors as boolean lists |
| C43 | false for a full last word (witness), proved otherwise |
| C46 | the history of maps of the concurrent proof is turned into one list of calls (`Art/Lin.lean`) |
| C47 | a run raises a version by at most 3 a step, so the low 64 bits are injective on 2^62 steps (`Art/LockWord.lean`) |
| C48 | every caller of `select64` stays in the range of C40 (`Surf/Bmi.lean`) |
| C49 | counting nodes, items and leaves of the trie by induction (`Surf/Size.lean`); gives also C33–C36 with conditions on the input only (`C33_input`, ...) |
| C50 | the loop of `determineCutoffLevel` and the sizes of the levels (`Surf/Cutoff.lean`) |
| C51 | `Seek` follows the way of the key itself, which never leaves a node (`Surf/Self.lean`) |
| C52 | the empty key is never compared with a label, so `Seek` goes to the first pair |
| C53 | each `Prev` is a step back in the list of pairs or the end; which of the two is a condition on the way (`Surf/Back.lean`), restated by the bytes of the keys |
| C54 | `Get` is the search `find` on the tree of key groups (C23); `find_comes` and `comes_find` (`Surf/Exact.lean`) give the leaf it ends on, restated by the bytes of the keys; the suffix bits as numbers are in `Surf/SufValue.lean` |
| C55 | `Seek` against the ordered list of pairs as in C28, with all suffixes; every branch of `compare` evaluated (`Surf/OverlapExact.lean`), restated by the bytes of the keys |
| C56 | `Brief` (`Art/Brief.lean`), a condition on programs that counts the steps while locks are held, shown for every program and kept by every step of a run; a run that reaches the bound is given |
| C57 | `Att` and `Few` (`Art/Few.lean`): the steps of one attempt whatever it reads, and while the heap stands still, where no check can fail because nodes in the tree are not obsolete |
| C58 | `Solo` (`Art/Alone.lean`) from the theorems about calls running alone (C07, C08), as a heap without locks in a run satisfies the sequential invariant |
| C59 | `Roam` (`Surf/Astray.lean`): an invariant of the iterator that does not fix the way it went, only that each recorded position lies on the level it is recorded for; kept by all calls (`Props/SurfTotal.lean`) |
| C60 | the paths of the nodes are the places where keys part (`HTr.parts`, `HTr.node_at`); induction over the descent of `remove` (`Art/Absent.lean`, `Props/ArtShape.lean`) |
| C61 | from the tree invariant and the same two lemmas (`Props/ArtShape.lean`) |
| C62 | no step but a merge makes a prefix longer (`Run.mild`), nodes keep the shape that `Put` needs (`Firm`), and a second weakest precondition, `np`, for programs that do not panic, over all of `insert` (`Art/Firm.lean`, `Art/NoPanic.lean`, `Props/ArtPanic.lean`) |
| C63 | the proof of C61 needs only the tree invariant, which holds at every instant of a run (`Props/ArtSpace.lean`) |
| C64 | the lower bounds are part of the tree invariant; each node has at most 7 places per item but one, each item is a node or a key (`HTr.room`, `Art/Count.lean`) |
| C65 | the loops of range.go against the byte map of C09 (`Art/Range.lean`, `Props/ArtNode.lean`) |
| C66 | induction on the nesting of `buildNodes` for arbitrary lists (`Surf/Demand.lean`); the other direction is C38 (`Props/SurfInput.lean`) |
| C67 | simulation (`Art/FineSim.lean`): nodes agree with the run of large steps but for those being changed; needs that sections touch only locked nodes and reads happen at versions found before (`Art/Polite.lean`); `Props/ArtFine.lean` |
| C68 | symbolic execution of two `Put`s on a fixed tree with arbitrary versions, induction over rounds (refuted); the part that holds from C57 and C58; `Props/ArtLive.lean` |
| C69 | each part of `Unmarshal`: success looks at nothing behind the length and is unchanged when bytes are added; with the round trip (C33) a proper prefix cannot succeed; `Surf/Receive.lean`, `Props/Receive.lean` |
| C70 | no query reads the suffix words of a filter without suffixes (function by function, `Surf/Over.lean`); length of what is written; a concrete pair of filters refutes the part on marshalling; `Props/Receive.lean` |
| C71 | `Build` uses the hashes of the keys only (induction over `buildNodes`); `Get` ends at one leaf whatever the hash of the query (C54); counting words by blocks; `Props/SurfRate.lean` |
| C72 | `Get` once more with all `uint32` arithmetic modulo 2^32 (`Surf/Wrap.lean`); step by step the same result as with unbounded numbers when the vectors are small (`Surf/WrapLemmas.lean`), which they are for 2^23 keys (`Surf/WrapBuilt.lean`); `Props/SurfWrap.lean` |
| C73 | the iterators and `HasOverlap` once more modulo 2^32 (`Surf/WrapIter.lean`); an invariant on all positions and prefix lengths an iterator keeps, whatever was called before (`Surf/WrapIterDense.lean`, `Surf/WrapIterSparse.lean`), met by filters of keys that are not too long (`Surf/WrapIterBuilt.lean`); `Props/SurfWrapIter.lean` |
| C74 | `Build` once more modulo 2^32 and 2^64 (`Surf/WrapBuild.lean`); the same levels as long as each level is small (`Surf/WrapBuildLemmas.lean`), the same cut-off and the same vectors (`Surf/WrapBuildAll.lean`); the levels of 2^23 keys are small by the counting bounds of `Surf/Size.lean`; `Props/SurfWrapBuild.lean` |
| C75 | the calls once more modulo 2^32 (`Art/Wrap.lean`); the functions agree on short lengths (`Art/WrapLemmas.lean`), the programs step by step (`Art/WrapNear.lean`, `Art/WrapProg.lean`), the runs by a forward simulation whose invariant bounds every stored prefix length by the longest key ever stored (`Art/WrapSim.lean`); `Props/ArtWrap.lean` |
| C76 | `Build` with what the `Builder` keeps as an argument (`Surf/Reuse.lean`); the levels then hold the nodes of both tries, by the general form of `buildNodes_spec`; a second root does not fit into the four words of the old dense root level, and the walk of `Get` from the old root misses; `Props/SurfReuse.lean` |
| C77 | `Get` modelled again with the place of the value in the value vectors (`Surf/Alias.lean`), tied to `Get` by `SuRF.get_ref`; a place is the number of the leaf at which the walk ends (`Surf/AliasBuilt.lean`), so different keys have different places, and by counting leaves there are no others; `copy` and `append` are stores into a byte array (`Props/SurfAlias.lean`) |
| C78 | small steps with the programs modulo 2^32 (`Art/FineWrap.lean`); forward simulation to the small steps over the natural numbers, where the bound on prefix lengths comes from the run of large steps that C67 gives for the run so far, and for the run with the section under way committed (`Art/FineWrapSim.lean`); `Props/ArtFineWrap.lean` |
| C79 | the iterator with its two key buffers in memory (`Surf/KeyBuf.lean`); every call follows the one of `Surf/Iter.lean` by appending to, or cutting and appending to, a slice (`Surf/KeyBufLemmas.lean`, `Surf/KeyBufIter.lean`), and what that does to memory is shown once, by induction on the appends; a relation between iterators that differ in the bytes of the buffer is kept by all moves (`Surf/KeyBufNear.lean`); `Props/SurfKeyBuf.lean` |
| C80 | `Unmarshal` with the memory of the slice and the places of the values in it (`Surf/Shared.lean`); the places follow from the layout of the marshalled bytes (C33, C69), the rest from reading a value byte by byte before and after a part of memory is overwritten, and from the distinct places of the values (C77); `Props/SurfShared.lean` |
| C81 | pointers to leaves as names of blocks with a map from names to contents; every program does the same on a heap with all leaves replaced by leaves of the same keys (`Art/Names.lean` for the nodes, `Prog.Sim` in `Art/NamesProg.lean` for the programs and runs); whom a write reaches from C14, C15 and the different names of `Put`s, the order from C46; `Props/ArtNames.lean` |
| C82 | sections as programs of single loads and stores (`Art/Stores.lean`: `code_run` proves that they do what the functions of the model do; `Art/TsoProg.lean`: the calls with these sections), the machine with store buffers (`Art/Tso.lean`), a simulation by the runs in small steps of C67, in which a section writes to a private copy that shows when the lock is released (`Art/TsoSec.lean`, `Art/TsoSim.lean`); `Props/ArtTso.lean` |
| C83 | the restored filter as parts of the slice (`Surf/Layout.lean`): each part of `Unmarshal` keeps the offset modulo 8, so offsets modulo 8 are known for every accepted slice; `Props/SurfLayout.lean` |
| C84 | `Surf/Layout.lean`: reading the filter off memory gives what `Unmarshal` of `Surf/Receive.lean` gives (`FilterAt.agrees`), the parts follow each other (`FilterAt.chain`), a longer slice does not matter (`FilterAt.longer`); `Props/SurfLayout.lean` |
| C85 | a machine on which versions may be loaded ahead of reads, and reads look at a node at two instants (`Art/Early.lean`); without loads ahead its runs are simulated by those of C67; with them, three schedules are evaluated, and a `Get` that misses a key put before it began is shown to fit no order of the calls; `Props/ArtEarly.lean` |
| C86 | the offsets that `key` and `value` compute, in the block of the leaf and in a slot of a span; arithmetic; `Props/ArtBlock.lean` |
| C87 | `Get` with `uint32` arithmetic, slices up to their capacity and loops whose rounds are counted, on a filter with any contents (`Surf/Damaged.lean`); induction on the rounds; inversion of every way `Get` returns a value; `Unmarshal` reads the first four bytes only as the height (`SameTail`, `Blind`); `Props/SurfDamaged.lean` |
| C88 | the iterators with `uint32` arithmetic (`Surf/WrapIter.lean`); the positions per level, read as the digits of a number, grow with every `Next` and shrink with every `Prev`; invariant of all calls (types of the fields, flags without dense levels); inversion of `Unmarshal`; a cycle of two iterators for the scan without end; `Props/SurfScan.lean` |
| C89 | the step model of the tree; a count of the steps of a program run alone (`Art/Time.lean`), bounds by induction on the depth with the shape invariant; the three extreme calls evaluated; `Props/ArtSteps.lean` |
| C90 | a lower bound on the steps (`Art/Slow.lean`); the tree over all `2^n` block keys level by level (`Art/Tower.lean`); `Props/ArtTower.lean` |
| C91 | `Get` once more in a monad that counts reads (`Surf/Reads.lean`), bounds part by part (`Surf/ReadsGet.lean`); the set bits of a built LOUDS vector lie at most 257 apart (`Surf/ReadsBuilt.lean`); `Props/SurfReads.lean` |
| C92 | each holder of a lock has at most eight steps left to its last unlock (C56) and one of them can always step; sum of the steps left as measure; `Props/ArtRelease.lean` |
| C93 | `Art/Spin.lean` has a second system with the position of every call in the loops of lock.go; simulation both ways, a countdown for `Gosched`, C92 carried over (`Props/ArtSpin.lean`); an invariant over rounds for starvation (`Props/ArtStarve.lean`) |
| C94 | `Next` and `SeekToFirst` in the counting monad (`Surf/ReadsIter.lean`), bounds with the growth of the key buffers as a credit for the prefixes read; every dense node has a label, so the next one is less than 512 bits away (`Surf/ReadsNear.lean`); `Props/SurfReadsIter.lean` |
| C95 | `Seek` in the counting monad (`Surf/ReadsSeek.lean`), on top of the bounds for `Next` and the descents; the binary search over at most 257 labels has at most nine steps; `Props/SurfReadsSeek.lean` |
| C96 | `HasOverlap`, `Compare` and `Value` in the counting monad (`Surf/ReadsOverlap.lean`), on top of C95; `Props/SurfReadsOverlap.lean` |
| C97 | `Prev` and `SeekToLast` in the counting monad (`Surf/ReadsPrev.lean`), bounds as for C94; every dense node has a label, so the previous one is at most 512 bits away, and a child is never the root, so the way down does not run out; `Props/SurfReadsPrev.lean` |
| C98 | the bounds of C94 and C97 once more, with the bytes appended on the way down as credit for the levels and the level on the way up bounded by the key left (`Surf/ReadsScan.lean`); the sum over a scan by induction on the keys left; `Props/SurfReadsScan.lean` |
| C99 | the search of C95 once more: every level on the way down is paid by a searched byte, the level of the iterator never exceeds the bytes searched so far, and the bytes appended behind them are credit for the levels to the left-most key (`Surf/ReadsFind.lean`); a range by induction on the steps with the credit of C98; `Props/SurfReadsFind.lean` |
| C100 | the credit of C98 for the ways down at either end, and a backward range by induction on the steps as in C99; `Props/SurfReadsBack.lean` |
| C101 | the position behind `Seek` (C55) and the position behind each `Next` (C29) put together by induction on the rounds of the loop; that no key of a range is missed follows from the order of the keys and the order of suffixes (C27); `Props/SurfRange.lean` |
| C102 | the exact answers of C55 and C101 compared: without real suffixes a key may precede the end of the range if what is kept of it is less, or is the end itself and not known to be whole; `Props/SurfAgree.lean` |
| C103 | the exact answers of C54 and C55 compared: a query that leads to a key begins with all that tells the key from the others, so a search passes over the keys before it, and stays on it since the suffixes agree; `Props/SurfHit.lean` |
| C104 | with C103 the key found is the first not passed over, and C55 says when it may precede, or is taken for, the end of the range; `Props/SurfHit.lean` |
| C105 | as C103; with real suffixes alone `Get` may also hit by a suffix of zeros, and then the search passes over the key, and over no key behind it; `Props/SurfHit.lean` |
| C106 | C103 one way; the other way a key that is no prefix of another and is kept as a prefix of the query is met by it (C54); `Props/SurfResume.lean` |
| C107 | what is kept of a key leads a search to it: the keys before are passed over, it and the keys behind are not, as real suffixes cannot be taken from so short a query; `Props/SurfResume.lean` |
| C108 | `Next` goes to the next position, `Prev` to the one before or to none; positions are determined by what is before them; `Props/SurfTurn.lean` |
| C109 | with real suffixes of at most eight bits, which are the upper bits of the next byte and so in the order of the keys, a search for more passes over more keys, what is kept of the keys is in their order, and what may precede an end may precede a later one; then C55; `Props/SurfWiden.lean` |
| C110 | the keys not passed over are the last ones, and a search for more passes over more (C109); then C101; `Props/SurfMono.lean` |
| C111 | a key is passed over by a search only if it may precede what is searched, so the first key found for the range is found by the first part, or else by the second (C55, C109); `Props/SurfSplit.lean` |
| C112 | all that is from p to below p' begins with p; each of the keys named is not passed over and may precede p', so the first key found may too (C55, C109); `Props/SurfPrefix.lean` |

## Reading seeded/LOG.jsonl

Each line is one wrong edit of the model, made in a scratch copy and built.
- `outcome: caught` means that the build failed at the theorems in `theorems_failed`. These are often lemmas. A failing proof of a lemma shows that the lemma pins down the edited definition; it is a counterexample to the claim only where `counterexample_found_by_running_the_model` is given.
- `claim_theorems_no_longer_proved` lists the theorems of the claim whose module imports (or is) a failing module. Importing is weaker than using, so the list may be too long.
- Many definitions have a copy with 32-bit arithmetic or counted reads. An edit to one copy always fails at the comparison of the two, even if no answer changes.
- `outcome: survived` is also used where only such a comparison failed and the claim the edit was aimed at is untouched: y_3 and y_9, both edits of `seekTail` (`louds_sparse.go:324-337`). `Built.s_seekLoop` shows that, on a built filter and for a query that does not meet disagreement 7 (`Clear`), the loop of the sparse `Seek` returns before this tail is reached. No theorem about answers constrains `seekTail`.

## Disagreements between code and properties found while modelling 

1. `art.go:318` `return !currNode.rUnlock(version)`: sequential Delete of an absent key that ends at another key's leaf never returns (which keys these are is C60).
2. `node.go:611-615`: a concurrent merge of the node with its parent between two loads of `prefixLen` makes Put read `n.prefix[8]` (`C21_violated`); nothing else makes a call panic (C62).
3. `surf.go:103` + `surf.go:163`: with no dense level, `SeekToFirst`/`SeekToLast` never make the iterator valid.
   `Next` after `SeekToFirst` panics then if the first key is a prefix of all others.
4. `surf.go:156`: with a dense root, a key that is a prefix of all keys is skipped by `SeekToFirst`; it is also never reached by `Prev`.
5. `louds_dense.go:166` `pos <= dist`: label 0x00 at the dense root is lost by `Prev`.
6. `louds_dense.go:232`: `Seek` to a key that is a prefix of all keys, then `Prev`, panics if the root is dense.
7. `louds_sparse.go:307-309`, `bits_vec.go:475`: after `Search` skipped a terminator, `SearchGreaterThan` scans one label too many; Seek misses keys, HasOverlap has false negatives (e.g. keys "k","kb", range ["ka","kz"]).
8. `bits_vec.go:671-678`, `786`: real suffixes longer than 8 bits are not order preserving (short keys, `key[i]` instead of `key[level+i]`), HasOverlap has false negatives; with 16 bits or more even `HasOverlap(k, k, true)` of a stored key can be false (`C27_witness_real`).
9. `builder.go:135`: `Build` of the single empty key panics.
10. `louds_sparse.go`: a sparse node does not compare its prefix when the query has ended in `Get`, a dense one does; so adding suffixes, which moves the cut-off for a given hint, can turn a miss into a hit (`C25_witness`).
11. `bits_vec.go` (`constructHashSuffix`): the hash is shifted out to the left by `64 - 7 - hashSuffixLen`; for more than 57 bits this number wraps around and the suffix is 0 for every key (`C54_hash`).
12. `louds_sparse.go` (`sparseIter.Compare`): when the end of the range is used up by the dense part, an end item counts as equal to it without comparing the bytes between; `HasOverlap("", "", true)` is true of the keys "k", "ka", "kb" without dense levels (`TakenFor`, C55).
13. The same spot as 7: `Seek` may stop on a position of another node; the iterator is valid then and shows a key that begins no stored key, with the value of another one (`C59_witness_astray`). It never panics because of this (C59).
14. `builder.go` (`Build`): keys out of order are noticed only where a key is a prefix of the one before it (a panic); otherwise the filter may answer a stored key with the value of another (`C66_witness_order`). A builder is not reset by `Build`: a second `Build` on it returns a filter that misses its own keys and holds those of the first (`C66_witness_reuse`).
15. `art.go` (`insert`), `lock.go:23-41`: two locks are taken one after the other, and the first is released again if the second cannot be had. A `Put` that splits a node's prefix locks the parent first, one that adds a leaf to the node locks the node first and then checks the parent's version; taken turns with, both fail and start again, for ever if the schedule repeats (`C68_livelock`). Nothing in the code (no back-off) breaks the tie.
16. `bits_vec.go:727` (`suffixVector.Unmarshal`): for a filter without suffixes the field `bits` of the receiver is not reset. A `SuRF` that held a filter with suffixes and is reused answers correctly, but `Marshal` then writes the stale words: the result is longer than `MarshalSize`, and `Unmarshal` of it panics (`C70_violated`).
17. `bits_vec.go:651, 776`: `(uint32(len(key))-level)*8` wraps for a query with 2^29 bytes or more after its leaf, so that a query of half a gigabyte can be judged too short for the real suffix it does have (`C72_long`). Stored keys are not affected: the same wrap made their stored suffix 0, which matches all. `HasOverlap` is: with a range end of that length it can answer no although a stored key is in the range (`C73_long_end`).
18. `builder.go:299`: `2 * denseFanout * b.nodeCounts[l]` is a `uint32` product, widened only afterwards: a level of 2^23 nodes (2^32 bits of dense vectors) counts as size 0 when the cut-off level is chosen, so the size hint does not limit it (`C74_wraps`). Below 2^23 keys no level gets there (`C74_build`).
19. `builder.go:88-108`: `Build` does not empty the `Builder`. A second `Build` on the same `Builder` appends its nodes behind those of the first: it panics if both have dense levels, and otherwise the root of the second filter is that of the first, so that new keys are not found (`C76_lost`, `C76_dense`, `C76_witness_lost`, `C76_witness_panic`).
20. `bits_vec.go:155-158`: `valueVector.Get` returns `v.bytes[off : off+v.valueSize]`, memory of the filter whose capacity runs on to the end of the vector. A caller that appends to a value it got from `Get` or `Value` overwrites the values of other keys (`C77_next`, `C77_witness`); a full slice expression `v.bytes[off : off+v.valueSize : off+v.valueSize]` would prevent that. Writing into the value changes it in the filter (`C77_copy`).
21. `surf.go:186-193`: `Iterator.Key` returns the iterator's own buffer. A caller that keeps keys while iterating (`ks = append(ks, it.Key())`) finds other bytes in them later (`C79_kept`, `C79_kept_key`, `C79_witness`), and one that changes a key it was given gets wrong keys from `Next` and `Prev` until it seeks again (`C79_written`, `C79_witness_poke`). Nothing in the package says so.
22. `surf.go:78-84`, `bits_vec.go:198`: for a restored filter finding 20 is worse, as the values have the capacity of the slice given to `Unmarshal`. Appending to the last dense value reaches the values of the sparse levels, and appending to the last value overwrites what the caller has behind the filter in the same slice, such as the next block of a file (`C80_spill`, `C80_behind`, `C80_witness`).
23. `node.go:177-191`: `Get` on the tree returns a slice of the leaf itself. Whoever writes into it changes the stored value for everyone, with no lock taken and no version changed, so that concurrent readers of the same key race with it (`C81_write`, `C81_example`). `append` is safe, as the slice has no spare capacity (`C81_block`), and after the next `Put` or `Delete` of the key the slice is the caller's alone (`C81_stale`).
24. `louds_dense.go:102-142`: the dense part begins with a 4-byte height and no padding, so the `[]uint64` that `bits_vec.go` makes of the bytes behind it begin 4 bytes off a multiple of 8, while those of the sparse part begin at multiples of 8; the 13-byte header of suffixes (`bits_vec.go:717-734`) puts theirs at odd addresses of an aligned slice. No place in memory makes all words of a filter with dense and sparse levels aligned (`C83_words`, `C83_never_aligned`, `C83_suffixes`). amd64 and arm64 do not mind; `go vet`-style pointer checks (`-d=checkptr`, on with `-race`) and machines without unaligned loads do.
25. `surf.go:78-84`: a restored filter has no memory of its own. A caller that reads the next block into the buffer it gave to `Unmarshal` changes the filter: it then answers as another filter (`C84_reused`, `C84_reused_witness`), forgets keys or panics (`C84_witness`). The documentation does not say so.
26. `lock.go:15-21`, `art.go:88-97`: `lockCheck` loads the version with `atomic.LoadUint64` after plain reads of the node. On arm64 this is a load-acquire, which does not wait for plain loads before it; so the version can be checked before the children are read, and a `Get` or `Delete` that runs beside a `Delete` of another key in the same node misses a key that is there (`C85_get_misses`, `C85_delete_misses`). With nothing but `Put` running, a `Get` can miss a key in a node whose prefix is split (`C85_get_misses_puts`). On amd64 loads are done in order, and the tree is right (C82). `//go:norace` (art.go:64) hides the race.
27. `node.go:180-191`: `value` computes the pointer of the slice with `unsafe` even if the value is empty; it then points just past the block of the leaf, which the rules of `unsafe.Pointer` forbid. If the block fills its slot of the Go heap (with an empty value: keys of 7, 15, 23, 39, 55, ... bytes) the slice that `Get` returns points to another object, or from the last slot of a span to the limit of the span (`C86_beyond`, `C86_example`); a garbage collection that finds such a pointer ends the program ("found bad pointer in Go heap").
28. `surf.go:79-84`, `bits_vec.go:155-158`, `554-566`: `Unmarshal` checks nothing (there is no checksum, and no number is compared with another), and values and prefixes are cut out of arrays whose capacity reaches to the end of the caller's slice. With one bit wrong in the size of the values, `Get` returns the caller's bytes behind the filter, or a wrong value, or panics (`C87_witness`). It always comes back and never leaves the caller's slice (`C87_any_slice`). `NewIterator` and `HasOverlap` allocate by the heights in the slice, up to 32 GiB and more for a slice of any length (`C87_iterators`).
29. `bits_vec.go:74-108`, `louds_dense.go:210-221`: where no bit is set behind a position, `DistanceToNextSetBit` takes the number of bits of the vector for the next position, and `Next` leaves a node only if the next position equals the old one or lies in a later node. If the number of bits in a damaged slice is not a multiple of 64, and a label is set beyond it, the next position lies before the old one, and a scan goes round for ever (`C88_witness`: three bytes are wrong, `Get` still finds every key). Otherwise loops over `Next` end, whatever the slice holds (`C88_next_ends`, `C88_restored`).
30. `node.go:610-640`, `575-608`: `Put` calls `fullKey`, which walks down to a leaf, at every node on its path whose prefix is longer than eight bytes. Where such nodes follow each other, `Put` is quadratic in the length of its key (`C90_put_slow`), while `Get`, which compares the stored eight bytes only and the whole key at the leaf, is linear (`C89_steps`, `C90_get_fast`). Neither depends on the number of keys.
31. `lock.go:65-78`: a call that waits for a lock has no turn to wait for. If the lock is taken again whenever the call looks, it never gets through, however many others come and go meanwhile (`C93_starve`); a `Get` of a key whose node is written all the time can wait without bound.
