{
 "claims": [
  {
   "property": "C01",
   "status": "proved",
   "theorems": [
    "Art.Props.C01_put_get"
   ],
   "note": "Any history of calls that returned; any key and value shorter than 2^32 bytes; any fuel that is enough."
  },
  {
   "property": "C02",
   "status": "proved",
   "theorems": [
    "Art.Props.C02_put_frame"
   ],
   "note": ""
  },
  {
   "property": "C03",
   "status": "proved",
   "theorems": [
    "Art.Props.C03_delete_get"
   ],
   "note": "Includes that Delete of a present key returns."
  },
  {
   "property": "C04",
   "status": "proved",
   "theorems": [
    "Art.Props.C04_delete_frame"
   ],
   "note": ""
  },
  {
   "property": "C05",
   "status": "partial",
   "theorems": [
    "Art.Props.C05_delete_absent_partial",
    "Art.Props.C05_violated",
    "Art.Props.C05_false"
   ],
   "note": "The claim is false: art.go:318 negates the version check, so Delete of an absent key whose search ends at another key's leaf never returns (C05_violated: Put(\"hello\"); Delete(\"hfoo\")). Proved: if it returns, nothing has changed; otherwise it loops forever without panic."
  },
  {
   "property": "C06",
   "status": "proved",
   "theorems": [
    "Art.Props.C06_refinement",
    "Art.Props.C06_outputs",
    "Art.Props.C06_returns"
   ],
   "note": "Outputs of every call that returns; Get, Put and Delete of a present key do return (Delete of an absent key: C05)."
  },
  {
   "property": "C07",
   "status": "proved",
   "theorems": [
    "Art.Props.C07_no_panic"
   ],
   "note": ""
  },
  {
   "property": "C08",
   "status": "proved",
   "theorems": [
    "Art.Props.C08_put_once",
    "Art.Props.C08_get_once"
   ],
   "note": ""
  },
  {
   "property": "C09",
   "status": "proved",
   "theorems": [
    "Art.Props.C09_fanout"
   ],
   "note": "Any sequence of puts and removals over all 256 bytes, through all four node types; compared with a plain map."
  },
  {
   "property": "C10",
   "status": "proved",
   "theorems": [
    "Art.Props.C10_optimistic"
   ],
   "note": ""
  },
  {
   "property": "C100",
   "status": "proved",
   "theorems": [
    "Surf.Props.C100_first",
    "Surf.Props.C100_last",
    "Surf.Props.C100_back"
   ],
   "note": "C100_back speaks about the calls of Prev that do not panic (see C59). C100_example counts the reads in a filter of twenty levels."
  },
  {
   "property": "C101",
   "status": "proved",
   "theorems": [
    "Surf.Props.C101_range",
    "Surf.Props.C101_complete"
   ],
   "note": "For searches that are not supported see C28 and C59. C101_example shows a range of three keys out of six."
  },
  {
   "property": "C102",
   "status": "proved",
   "theorems": [
    "Surf.Props.C102_open",
    "Surf.Props.C102_closed"
   ],
   "note": "C102_example shows two ranges where the answers agree and one where they do not."
  },
  {
   "property": "C103",
   "status": "proved",
   "theorems": [
    "Surf.Props.C103_hit"
   ],
   "note": "C103_example shows two false positives on which both agree; C103_witness shows that with real suffixes alone Seek may pass over the key Get finds."
  },
  {
   "property": "C104",
   "status": "proved",
   "theorems": [
    "Surf.Props.C104_point",
    "Surf.Props.C104_free"
   ],
   "note": "C104_example shows a false positive on which both agree; C104_witness shows a hit of Get on which HasOverlap says no."
  },
  {
   "property": "C105",
   "status": "proved",
   "theorems": [
    "Surf.Props.C105_hit"
   ],
   "note": "C105_example shows both cases."
  },
  {
   "property": "C106",
   "status": "proved",
   "theorems": [
    "Surf.Props.C106_free"
   ],
   "note": "C106_example shows a hit and a miss."
  },
  {
   "property": "C107",
   "status": "proved",
   "theorems": [
    "Surf.Props.C107_resume"
   ],
   "note": "C107_example resumes a loop in a filter with real suffixes and a key that is a prefix of another."
  },
  {
   "property": "C108",
   "status": "proved",
   "theorems": [
    "Surf.Props.C108_prev_next",
    "Surf.Props.C108_next_prev"
   ],
   "note": "C108_example turns around twice; C108_witness shows a position from which Prev does not find back."
  },
  {
   "property": "C109",
   "status": "proved",
   "theorems": [
    "Surf.Props.C109_open",
    "Surf.Props.C109_closed"
   ],
   "note": "C109_example widens a range; C109_witness and C109_witness_real show that neither the condition on the end nor that on the suffixes can be dropped."
  },
  {
   "property": "C11",
   "status": "proved",
   "theorems": [
    "Art.Props.C11_space"
   ],
   "note": ""
  },
  {
   "property": "C110",
   "status": "proved",
   "theorems": [
    "Surf.Props.C110_seek"
   ],
   "note": "C110_example shows two searches; C110_witness shows that it fails with real suffixes of twelve bits."
  },
  {
   "property": "C111",
   "status": "proved",
   "theorems": [
    "Surf.Props.C111_split"
   ],
   "note": "C111_example splits two ranges; C111_witness shows that it fails with real suffixes of twelve bits."
  },
  {
   "property": "C112",
   "status": "proved",
   "theorems": [
    "Surf.Props.C112_prefix"
   ],
   "note": "C112_example shows a yes, a no, and the two kinds of false yes."
  },
  {
   "property": "C12",
   "status": "proved",
   "theorems": [
    "Art.Props.C12_leaf"
   ],
   "note": "Keys and values shorter than 2^32 bytes."
  },
  {
   "property": "C13",
   "status": "proved",
   "theorems": [
    "Art.Props.C13_get_readonly"
   ],
   "note": ""
  },
  {
   "property": "C14",
   "status": "proved",
   "theorems": [
    "Art.Props.C14_get",
    "Art.Props.C14_get_silent",
    "Art.Props.C14_map"
   ],
   "note": "Any number of calls, any interleaving; the critical sections are single steps (justified by C17/C18), racy reads return anything of the right kind."
  },
  {
   "property": "C15",
   "status": "proved",
   "theorems": [
    "Art.Props.C15_put",
    "Art.Props.C15_only_effects",
    "Art.Props.C15_at_most_once"
   ],
   "note": "Also for calls that have not returned or have panicked: at most one change, and only their own effect."
  },
  {
   "property": "C16",
   "status": "proved",
   "theorems": [
    "Art.Props.C16_delete",
    "Art.Props.C15_only_effects",
    "Art.Props.C15_at_most_once"
   ],
   "note": ""
  },
  {
   "property": "C17",
   "status": "proved",
   "theorems": [
    "Art.Props.C17_locked_iff",
    "Art.Props.C17_lock_steps",
    "Art.Props.C17_change",
    "Art.Props.C17_released"
   ],
   "note": "Also for a call that has panicked."
  },
  {
   "property": "C18",
   "status": "proved",
   "theorems": [
    "Art.Props.C18_version_monotone",
    "Art.Props.C18_snapshot",
    "Art.Props.C18_validated_read"
   ],
   "note": "Version words are natural numbers (no wrap of the 62-bit counter)."
  },
  {
   "property": "C19",
   "status": "proved",
   "theorems": [
    "Art.Props.C19_obsolete",
    "Art.Props.C19_gone",
    "Art.Props.C19_frozen"
   ],
   "note": ""
  },
  {
   "property": "C20",
   "status": "proved",
   "theorems": [
    "Art.Props.C20_no_deadlock",
    "Art.Props.C20_progress"
   ],
   "note": "Locks are taken downwards along the tree; the holder of the lowest lock can step."
  },
  {
   "property": "C21",
   "status": "partial",
   "theorems": [
    "Art.Props.C21_no_panic_partial",
    "Art.Props.C21_panic_free",
    "Art.Props.C21_violated"
   ],
   "note": "The claim is false for Put: a concurrent Delete can merge the node with its parent between the two reads of prefixLen in prefixMismatch (node.go:611-614), and n.prefix[8] panics (C21_violated is such a run). Proved: Get and Delete never panic, and a Put that panics holds no lock."
  },
  {
   "property": "C22",
   "status": "proved",
   "theorems": [
    "Surf.Props.C22_stored"
   ],
   "note": "Keys are not [\"\"] alone (Build rejects it); at most 64 suffix bits; fewer than 2^32 key bytes in total."
  },
  {
   "property": "C23",
   "status": "proved",
   "theorems": [
    "Surf.Props.C23_total"
   ],
   "note": "For every filter Build returns on sorted keys."
  },
  {
   "property": "C24",
   "status": "proved",
   "theorems": [
    "Surf.Props.C24_related",
    "Surf.Props.C24_hash"
   ],
   "note": "Also: with a pure hash suffix the stored key has the hash bits of the query."
  },
  {
   "property": "C25",
   "status": "partial",
   "theorems": [
    "Surf.Props.C25_same_cutoff",
    "Surf.Props.C25_filter_partial",
    "Surf.Props.C25_witness"
   ],
   "note": "False as stated: suffixes shift the dense/sparse cut-off for a given hint, and a sparse node does not compare its prefix when the query has ended; C25_witness finds \"k\" with real suffixes and not without. Proved: at equal cut-offs, and in general except for queries that are proper prefixes of a stored key."
  },
  {
   "property": "C26",
   "status": "proved",
   "theorems": [
    "Surf.Props.C26_hint"
   ],
   "note": ""
  },
  {
   "property": "C27",
   "status": "partial",
   "theorems": [
    "Surf.Props.C27_overlap_partial",
    "Surf.Props.C27_witness_end",
    "Surf.Props.C27_witness_short",
    "Surf.Props.C27_witness_stop",
    "Surf.Props.C27_witness_real"
   ],
   "note": "False as stated: a key that is a prefix of another one on a sparse level makes Seek overshoot (C27_witness_end), and real suffixes of more than 8 bits do not keep the order for short keys or bounds (C27_witness_short, C27_witness_stop), with 16 bits not even for a range of one stored key (C27_witness_real). Proved for every range whose bounds do not leave such a prefix key where no stored key goes (Supported), with real suffixes of less than 16 bits, if keys and bounds are as long as the suffixes (no condition up to 8 bits), and any hash suffixes."
  },
  {
   "property": "C28",
   "status": "partial",
   "theorems": [
    "Surf.Props.C28_seek_partial",
    "Surf.Props.C28_below_partial",
    "Surf.Props.C28_witness"
   ],
   "note": "False for a key that goes on after a prefix key on a sparse level with a byte no stored key goes on with (C28_witness); proved for all other keys (Supported). A truncated form that is a proper prefix of k, not known to be a whole key, counts as not below k (its key may be above)."
  },
  {
   "property": "C29",
   "status": "partial",
   "theorems": [
    "Surf.Props.C29_forward_partial",
    "Surf.Props.C29_sparse",
    "Surf.Props.C29_witness_sparse",
    "Surf.Props.C29_witness_first"
   ],
   "note": "False without dense levels (C29_sparse: never valid, whatever is called next) and for a key that is a prefix of all keys (left out). Proved for every filter with a dense level: all other keys, in order, once each, with values."
  },
  {
   "property": "C30",
   "status": "partial",
   "theorems": [
    "Surf.Props.C30_backward_partial",
    "Surf.Props.C29_sparse",
    "Surf.Props.C30_witness_sparse",
    "Surf.Props.C30_witness_first",
    "Surf.Props.C30_witness_zero"
   ],
   "note": "False without dense levels (C29_sparse), for a key that is a prefix of all keys, and for a byte 0x00 where all keys part. Proved for filters with a dense level when neither occurs; C53 says exactly what happens otherwise."
  },
  {
   "property": "C31",
   "status": "proved",
   "theorems": [
    "Surf.Props.C31_key",
    "Surf.Props.C31_any"
   ],
   "note": "Key() is given exactly (form: the key up to the byte that tells it from all others). C31_any covers every sequence of calls, with Seek of Supported keys; SeekToFirst and SeekToLast in it only with a dense level (without one they leave the iterator invalid)."
  },
  {
   "property": "C32",
   "status": "partial",
   "theorems": [
    "Surf.Props.C32_total_partial",
    "Surf.Props.C32_witness",
    "Surf.Props.C59_total"
   ],
   "note": "False: Seek to a key that is a prefix of all keys, then Prev, panics (C32_witness). Proved for any sequence of Seek (of Supported keys), Next, Prev, and SeekToFirst/SeekToLast with a dense level: only Prev can panic, and exactly on a key that is a prefix of all keys in a filter with a dense level. C59_total is the same without the condition on the keys sought."
  },
  {
   "property": "C33",
   "status": "proved",
   "theorems": [
    "Surf.Props.C33_roundtrip",
    "Surf.Props.C33_input"
   ],
   "note": "Every filter returned by Build whose numbers fit uint32."
  },
  {
   "property": "C34",
   "status": "proved",
   "theorems": [
    "Surf.Props.C34_same_answers",
    "Surf.Props.C34_same_ranges",
    "Surf.Props.C34_input"
   ],
   "note": "Get; the restored struct is equal, so every other query agrees too."
  },
  {
   "property": "C35",
   "status": "proved",
   "theorems": [
    "Surf.Props.C35_size",
    "Surf.Props.C35_input"
   ],
   "note": "Every filter returned by Build."
  },
  {
   "property": "C36",
   "status": "proved",
   "theorems": [
    "Surf.Props.C36_trailing",
    "Surf.Props.C33_input"
   ],
   "note": "Every filter returned by Build, every trailing byte string."
  },
  {
   "property": "C37",
   "status": "proved",
   "theorems": [
    "Surf.Props.C37_writeTo"
   ],
   "note": "Every filter, every lawful io.Writer (arbitrary state machine)."
  },
  {
   "property": "C38",
   "status": "partial",
   "theorems": [
    "Surf.Props.C38_build_partial",
    "Surf.Props.C38_witness",
    "Surf.Props.C38_witness_nil"
   ],
   "note": "False for the key list [\"\"], on which Build always panics (builder.go:135, C38_witness). Proved for every other non-empty sorted key list."
  },
  {
   "property": "C39",
   "status": "proved",
   "theorems": [
    "Surf.Props.C39_select64_portable"
   ],
   "note": "All words, all valid ranks."
  },
  {
   "property": "C40",
   "status": "proved",
   "theorems": [
    "Surf.Props.C40_select64_bmi2_agrees"
   ],
   "note": "PDEP/TZCNT modelled by their documented meaning."
  },
  {
   "property": "C41",
   "status": "proved",
   "theorems": [
    "Surf.Props.C41_rank"
   ],
   "note": "Both block sizes, after Init from any well-stored levels."
  },
  {
   "property": "C42",
   "status": "proved",
   "theorems": [
    "Surf.Props.C42_select"
   ],
   "note": "With and without BMI2."
  },
  {
   "property": "C43",
   "status": "partial",
   "theorems": [
    "Surf.Props.C43_next_partial",
    "Surf.Props.C43_next_violated",
    "Surf.Props.C43_next_last",
    "Surf.Props.C43_prev"
   ],
   "note": "Code deviates at the last bit of a vector whose length is a multiple of 64, where the distance is always 0 (C43_next_last); everything else proved."
  },
  {
   "property": "C44",
   "status": "proved",
   "theorems": [
    "Surf.Props.C44_init_concatenates"
   ],
   "note": "Any number of levels and any bit counts."
  },
  {
   "property": "C45",
   "status": "proved",
   "theorems": [
    "Surf.Props.C45_suffix_roundtrip"
   ],
   "note": "Writer of builder.go and reader of bits_vec.go, all widths 1..64."
  },
  {
   "property": "C46",
   "status": "proved",
   "theorems": [
    "Art.Props.C46_linearizable"
   ],
   "note": "Art/Lin.lean has the specification (Op, Legal)."
  },
  {
   "property": "C47",
   "status": "proved",
   "theorems": [
    "Art.Props.C47_words",
    "Art.Props.C47_snapshot"
   ],
   "note": ""
  },
  {
   "property": "C48",
   "status": "proved",
   "theorems": [
    "Surf.Props.C48_build",
    "Surf.Props.C48_query",
    "Surf.Props.C48_iterator",
    "Surf.Props.C48_select"
   ],
   "note": ""
  },
  {
   "property": "C49",
   "status": "proved",
   "theorems": [
    "Surf.Props.C49_counts",
    "Surf.Props.C49_space"
   ],
   "note": "isPrefixVec has a bit for every node of the trie, dense or not (louds_dense.go:35); the labels include the sentinel behind the last one."
  },
  {
   "property": "C50",
   "status": "proved",
   "theorems": [
    "Surf.Props.C50_bound",
    "Surf.Props.C50_mono",
    "Surf.Props.C50_zero",
    "Surf.Props.C50_negative"
   ],
   "note": "The sentinel behind the last sparse label is not counted. Conditions: number of keys times hint below 2^64 (the product does not wrap); for negative hints, fewer than 2^32 keys."
  },
  {
   "property": "C51",
   "status": "proved",
   "theorems": [
    "Surf.Props.C51_seek",
    "Surf.Props.C51_scan",
    "Surf.Props.C51_overlap"
   ],
   "note": ""
  },
  {
   "property": "C52",
   "status": "proved",
   "theorems": [
    "Surf.Props.C52_scan"
   ],
   "note": ""
  },
  {
   "property": "C53",
   "status": "proved",
   "theorems": [
    "Surf.Props.C53_last",
    "Surf.Props.C53_seek",
    "Surf.Props.C53_sparse"
   ],
   "note": "backTo is the specification of which keys are in reach, by the bytes of the keys and the number of dense levels."
  },
  {
   "property": "C54",
   "status": "proved",
   "theorems": [
    "Surf.Props.C54_hit",
    "Surf.Props.C54_miss",
    "Surf.Props.C54_hash"
   ],
   "note": "Meets and sameSuffix are the specification: by the bytes of the keys, the number of dense levels and the suffix bits."
  },
  {
   "property": "C55",
   "status": "proved",
   "theorems": [
    "Surf.Props.C55_seek",
    "Surf.Props.C55_overlap",
    "Surf.Props.C55_precise"
   ],
   "note": "PassedBy, MayPrecede and TakenFor are the specification. Supported is the same condition as in C27 and C28."
  },
  {
   "property": "C56",
   "status": "proved",
   "theorems": [
    "Art.Props.C56_brief",
    "Art.Props.C56_no_wait"
   ],
   "note": "The changes of a critical section count as one step, as everywhere in the concurrent model."
  },
  {
   "property": "C57",
   "status": "proved",
   "theorems": [
    "Art.Props.C57_reads",
    "Art.Props.C57_bound"
   ],
   "note": ""
  },
  {
   "property": "C58",
   "status": "proved",
   "theorems": [
    "Art.Props.C58_undisturbed",
    "Art.Props.C58_finish"
   ],
   "note": "Delete of an absent key may not end even when it runs alone, see C05."
  },
  {
   "property": "C59",
   "status": "proved",
   "theorems": [
    "Surf.Props.C59_total",
    "Surf.Props.C59_overlap",
    "Surf.Props.C59_witness_astray"
   ],
   "note": "Stated with the exception (Prev on a key that is a prefix of all keys), as an equivalence. SeekToFirst and SeekToLast without dense levels are left out, see C29_witness_sparse."
  },
  {
   "property": "C60",
   "status": "proved",
   "theorems": [
    "Art.Props.C60_delete",
    "Art.Props.C60_returns",
    "Art.Props.C60_first",
    "Art.Props.C60_single"
   ],
   "note": "TakenFor, Compared and Parts are the specification, in terms of the stored keys only."
  },
  {
   "property": "C61",
   "status": "proved",
   "theorems": [
    "Art.Props.C61_shape",
    "Art.Props.C61_history"
   ],
   "note": "Single-threaded histories."
  },
  {
   "property": "C62",
   "status": "proved",
   "theorems": [
    "Art.Props.C62_panic",
    "Art.Props.C62_no_delete",
    "Art.Props.C62_lengthens"
   ],
   "note": "ReadsLens asks that reads of a node give the prefix length it has at that moment; the rest of what is read may be outdated. C21 is the statement without conditions, which is false."
  },
  {
   "property": "C63",
   "status": "proved",
   "theorems": [
    "Art.Props.C63_shape"
   ],
   "note": "The changes of a critical section count as one step, as everywhere in the concurrent model."
  },
  {
   "property": "C64",
   "status": "proved",
   "theorems": [
    "Art.Props.C64_fitting",
    "Art.Props.C64_space"
   ],
   "note": ""
  },
  {
   "property": "C65",
   "status": "proved",
   "theorems": [
    "Art.Props.C65_ends",
    "Art.Props.C65_empty",
    "Art.Props.C65_witness_order"
   ],
   "note": "lastChild is not called from anywhere; without children it panics."
  },
  {
   "property": "C66",
   "status": "proved",
   "theorems": [
    "Surf.Props.C66_demands",
    "Surf.Props.C66_iff",
    "Surf.Props.C66_extra",
    "Surf.Props.C66_fuel",
    "Surf.Props.C66_witness_order",
    "Surf.Props.C66_witness_reuse"
   ],
   "note": "For slices without spare capacity: Go's vals[i:j] and value[:n] read past the length of a slice up to its capacity."
  },
  {
   "property": "C67",
   "status": "proved",
   "theorems": [
    "Art.Props.C67_refines",
    "Art.Props.C67_linearizable",
    "Art.Props.C67_locked_iff",
    "Art.Props.C67_released",
    "Art.Props.C67_no_panic",
    "Art.Props.C67_exec",
    "Art.Props.C67_violated"
   ],
   "note": "Assumed: sequential consistency; the root pointer is stored at one instant, and new nodes are filled before a pointer to them can be seen."
  },
  {
   "property": "C68",
   "status": "partial",
   "theorems": [
    "Art.Props.C68_progress_partial",
    "Art.Props.C68_livelock",
    "Art.Props.C68_violated",
    "Art.Props.C68_example"
   ],
   "note": "The full statement is false and is refuted (C68_violated): a Put that splits the prefix of a node and a Put that adds a leaf to the same node can make each other start again for ever, each taking its first lock for nothing (C68_livelock). Proved: a call returns within a bound depending only on heap and call if no others but Gets make steps meanwhile."
  },
  {
   "property": "C69",
   "status": "proved",
   "theorems": [
    "Surf.Props.C69_truncated",
    "Surf.Props.C69_complete",
    "Surf.Props.C69_prefix_free"
   ],
   "note": "Unmarshal is modelled with any receiver, any spare capacity and uint32 sizes that wrap around (Verif.Surf.Receive)."
  },
  {
   "property": "C70",
   "status": "partial",
   "theorems": [
    "Surf.Props.C70_queries_partial",
    "Surf.Props.C70_marshal_partial",
    "Surf.Props.C70_violated"
   ],
   "note": "The statement on marshalling is false and is refuted (C70_violated): suffixVector.Unmarshal keeps the suffix words of the receiver when the new filter has no suffixes, and WriteTo writes them. Proved: all queries and iterators are right; the filter is restored exactly iff no such words are left, and Marshal is eight bytes too long for each."
  },
  {
   "property": "C71",
   "status": "proved",
   "theorems": [
    "Surf.Props.C71_rate",
    "Surf.Props.C71_exact",
    "Surf.Props.C71_long",
    "Surf.Props.build_congr"
   ],
   "note": "Counts over the 2^64 values of the hash at the query, everything else fixed. What it means that a query leads to a stored key is Meets (C54)."
  },
  {
   "property": "C72",
   "status": "proved",
   "theorems": [
    "Surf.Props.C72_get",
    "Surf.Props.C72_stored",
    "Surf.Props.C72_long",
    "Surf.Props.small_of_input"
   ],
   "note": "Surf/Wrap.lean is the whole path of Get with every uint32 operation modulo 2^32; Surf/WrapLemmas.lean carries each step over. The builder itself is not remodelled in 32 bits."
  },
  {
   "property": "C73",
   "status": "proved",
   "theorems": [
    "Surf.Props.C73_calls",
    "Surf.Props.C73_follow",
    "Surf.Props.C73_overlap",
    "Surf.Props.C73_scan",
    "Surf.Props.C73_long_end",
    "Surf.Props.iSmall_of_input"
   ],
   "note": "Surf/WrapIter.lean has both iterators and HasOverlap with every uint32 operation modulo 2^32; WrapIterDense and WrapIterSparse carry each step over with an invariant on all stored positions and lengths."
  },
  {
   "property": "C74",
   "status": "proved",
   "theorems": [
    "Surf.Props.C74_build",
    "Surf.Props.C74_stored",
    "Surf.Props.C74_scan",
    "Surf.Props.C74_restored",
    "Surf.Props.C74_wraps"
   ],
   "note": "Surf/WrapBuild.lean has all of Build with uint32 and uint64 operations modulo 2^32 and 2^64; WrapBuildLemmas and WrapBuildAll carry each step over; the bounds on nodes, items, suffixes and prefixes come from the counting lemmas of Surf/Size.lean."
  },
  {
   "property": "C75",
   "status": "proved",
   "theorems": [
    "Art.Props.C75_refines",
    "Art.Props.C75_lengths",
    "Art.Props.C75_linearizable",
    "Art.Props.C75_no_panic",
    "Art.Props.C75_released",
    "Art.Props.C75_wraps",
    "Art.Props.C75_long"
   ],
   "note": "Art/Wrap.lean has all calls with uint32 operations modulo 2^32; Art/WrapNear.lean and WrapProg.lean relate the programs, Art/WrapSim.lean the runs, using the invariant of C14 for the bound on the stored prefix lengths."
  },
  {
   "property": "C76",
   "status": "proved",
   "theorems": [
    "Surf.Props.C76_new",
    "Surf.Props.C76_returns",
    "Surf.Props.C76_dense",
    "Surf.Props.C76_lost",
    "Surf.Props.C76_witness_lost",
    "Surf.Props.C76_witness_panic"
   ],
   "note": "Surf/Reuse.lean: Build with the slices the Builder keeps as an argument; level i then holds the nodes of both tries (buildNodes_spec is proved for any starting levels), so the first root stays node 0, and the second root has no room in the old dense vectors."
  },
  {
   "property": "C77",
   "status": "proved",
   "theorems": [
    "Surf.Props.C77_slice",
    "Surf.Props.C77_frame",
    "Surf.Props.C77_own",
    "Surf.Props.C77_all",
    "Surf.Props.C77_copy",
    "Surf.Props.C77_append",
    "Surf.Props.C77_append_new",
    "Surf.Props.C77_next",
    "Surf.Props.C77_witness"
   ],
   "note": "Surf/Alias.lean models Get once more with the place of the value instead of the value, ties it to Get (SuRF.get_ref), and shows that nothing else reads the value bytes; Surf/AliasBuilt.lean finds the places in a built filter. The memory of the two value vectors is taken as two arrays, as Build makes them; in a restored filter both lie in the buffer given to Unmarshal."
  },
  {
   "property": "C78",
   "status": "proved",
   "theorems": [
    "Art.Props.C78_refines",
    "Art.Props.C78_linearizable",
    "Art.Props.C78_lengths",
    "Art.Props.C78_locked_iff",
    "Art.Props.C78_released",
    "Art.Props.C78_no_panic",
    "Art.Props.C78_exec",
    "Art.Props.C78_violated"
   ],
   "note": "Art/FineWrap.lean has the small steps of Art/Fine.lean with the programs of Art/Wrap.lean. A prefix length that is read has been stored before, and within a section only lengths are stored that the node has, smaller ones, and the one the section leaves (Stored); all else in a node being changed is arbitrary."
  },
  {
   "property": "C79",
   "status": "proved",
   "theorems": [
    "Surf.Props.C79_call",
    "Surf.Props.C79_same",
    "Surf.Props.C79_new",
    "Surf.Props.C79_key",
    "Surf.Props.C79_kept",
    "Surf.Props.C79_kept_key",
    "Surf.Props.C79_own",
    "Surf.Props.C79_blind",
    "Surf.Props.C79_reset",
    "Surf.Props.C79_written",
    "Surf.Props.C79_seek_again",
    "Surf.Props.C79_witness",
    "Surf.Props.C79_witness_poke"
   ],
   "note": "Surf/KeyBuf.lean models the iterator with memory: arrays, slices with capacity, append in place or into a new array whose capacity an arbitrary function chooses. The theorems assume that the calls succeed in the model with lists (C32 says when). The buffer of the sparse part is never handed out."
  },
  {
   "property": "C80",
   "status": "proved",
   "theorems": [
    "Surf.Props.C80_places",
    "Surf.Props.C80_copy",
    "Surf.Props.C80_append",
    "Surf.Props.C80_append_new",
    "Surf.Props.C80_spill",
    "Surf.Props.C80_behind",
    "Surf.Props.C80_witness"
   ],
   "note": "Surf/Shared.lean keeps the memory of the slice and the places of the value vectors in it. Assumed: valid input, and sizes that fit the marshalled format (follows from at most 2^24 keys with less than 2^32 bytes of values)."
  },
  {
   "property": "C81",
   "status": "proved",
   "theorems": [
    "Art.Props.C81_block",
    "Art.Props.C81_steps",
    "Art.Props.C81_run",
    "Art.Props.C81_tree",
    "Art.Props.C81_write",
    "Art.Props.C81_stale",
    "Art.Props.C81_order",
    "Art.Props.C81_example"
   ],
   "note": "Pointers to leaves are modelled by names of blocks in place of values, with a map from names to contents; Prog.Sim (Art/NamesProg.lean) proves that every program does the same for every such map. Different Puts use different names. Callers store within the slices only."
  },
  {
   "property": "C82",
   "status": "proved",
   "theorems": [
    "Art.Props.C82_refines",
    "Art.Props.C82_linearizable",
    "Art.Props.C82_locked_iff",
    "Art.Props.C82_released",
    "Art.Props.C82_no_panic",
    "Art.Props.C82_exclusive",
    "Art.Props.C82_sections",
    "Art.Props.C82_drained",
    "Art.Props.C82_example",
    "Art.Props.C82_violated",
    "Art.code_run",
    "Art.erase_call"
   ],
   "note": "The machine is Verif/Art/Tso.lean. That the stores one after the other do what the functions of the model say is code_run; that the programs are the same otherwise is erase_call. The stores that fill a new node and the store of the pointer to it are one item of the buffer. Put can panic (known from C21), shown on this machine by C82_violated. Weaker memory (arm64) and reordering of plain accesses by the compiler are not modelled."
  },
  {
   "property": "C83",
   "status": "proved",
   "theorems": [
    "Surf.Props.C83_words",
    "Surf.Props.C83_never_aligned",
    "Surf.Props.C83_suffixes",
    "Surf.Props.C83_example"
   ],
   "note": "Places are offsets in the slice, in Verif/Surf/Layout.lean; that the restored filter is the one of Verif/Surf/Receive.lean is C84_view."
  },
  {
   "property": "C84",
   "status": "proved",
   "theorems": [
    "Surf.Props.C84_view",
    "Surf.Props.C84_apart",
    "Surf.Props.C84_frame",
    "Surf.Props.C84_reused",
    "Surf.Props.C84_built",
    "Surf.Props.C84_witness",
    "Surf.Props.C84_reused_witness"
   ],
   "note": "Unmarshal into a new SuRF. That Get, Seek etc. depend on the filter only is by their definitions, which take the filter as the slice stands when they are called; the slice changing during a call is not modelled."
  },
  {
   "property": "C85",
   "status": "proved",
   "theorems": [
    "Art.Props.C85_in_order",
    "Art.Props.C85_get_misses",
    "Art.Props.C85_get_misses_puts",
    "Art.Props.C85_delete_misses",
    "Art.Props.C85_example"
   ],
   "note": "The machine is Verif/Art/Early.lean; it has only a part of the executions of arm64, which is enough for the second half. That it has no others (LDAR does not order earlier plain loads) is by the architecture manual, not by proof."
  },
  {
   "property": "C86",
   "status": "proved",
   "theorems": [
    "Art.Props.C86_inside",
    "Art.Props.C86_pointer",
    "Art.Props.C86_key_pointer",
    "Art.Props.C86_beyond",
    "Art.Props.C86_alignment",
    "Art.Props.C86_example"
   ],
   "note": "Leaves are those newLeaf makes (no other function makes leaves). The part of the Go runtime it speaks of (spans, slots, findObject) is described in Verif/Props/ArtBlock.lean and not verified."
  },
  {
   "property": "C87",
   "status": "proved",
   "theorems": [
    "Surf.Props.C87_any_slice",
    "Surf.Props.C87_returns",
    "Surf.Props.C87_rounds",
    "Surf.Props.C87_within",
    "Surf.Props.C87_same",
    "Surf.Props.C87_height",
    "Surf.Props.C87_iterators",
    "Surf.Props.C87_witness",
    "Surf.Props.C87_prefix_witness",
    "Surf.Props.C87_type_witness",
    "Surf.Props.C87_example"
   ],
   "note": "Get is modelled once more, with uint32 arithmetic, array reads up to capacity and counted loops (Verif/Surf/Damaged.lean); C87_same ties it to the Get of C72. For iterators over damaged filters see C88."
  },
  {
   "property": "C88",
   "status": "proved",
   "theorems": [
    "Surf.Props.C88_next_ends",
    "Surf.Props.C88_prev_ends",
    "Surf.Props.C88_restored",
    "Surf.Props.C88_built",
    "Surf.Props.C88_witness",
    "Surf.Props.C88_example"
   ],
   "note": "On the iterators of C73 (uint32 arithmetic). Key buffers, prefixes and suffixes may change from call to call (Slack), so nothing depends on how far slice expressions reach. That a single call comes back needs no proof in the model: its loops count levels, and Select is bounded by C87."
  },
  {
   "property": "C89",
   "status": "proved",
   "theorems": [
    "Art.Props.C89_steps",
    "Art.Props.C89_finish",
    "Art.Props.C89_tight_get",
    "Art.Props.C89_tight_put",
    "Art.Props.C89_tight_delete"
   ],
   "note": "Steps are the steps of the step model, one access to shared memory each (loads of a child, version loads, compare-and-swap, stores); work on local bytes is not counted. C89_finish: the call left to itself does return. The proviso for Delete excludes the Delete that never returns (Delete of an absent key, see C05). C89_tight_*: runs in which the call has not returned after exactly the bound, so the bounds cannot be lowered; they also satisfy the hypotheses."
  },
  {
   "property": "C90",
   "status": "proved",
   "theorems": [
    "Art.Props.C90_put_slow",
    "Art.Props.C90_get_fast",
    "Art.Props.C90_example"
   ],
   "note": "The shape of the tree is derived from the set of its keys alone (the shape invariant leaves no choice up to node kinds). C90_example builds the tree by 2^n Put calls in one run and shows the hypotheses and that the Put returns, for every n."
  },
  {
   "property": "C91",
   "status": "proved",
   "theorems": [
    "Surf.Props.C91_reads",
    "Surf.Props.C91_select",
    "Surf.Props.C91_restored"
   ],
   "note": "Counted are reads of elements, each time; a slice expression reads nothing, bytes.IndexByte and bytes.Equal are counted as reading everything they are given. The counted Get returns exactly what the model of Get returns (part of the theorem)."
  },
  {
   "property": "C92",
   "status": "proved",
   "theorems": [
    "Art.Props.C92_release",
    "Art.Props.C92_through"
   ],
   "note": "Steps as in the model of the concurrent system; L is any list that contains the calls holding locks. C92_example has a state with three locks held."
  },
  {
   "property": "C93",
   "status": "proved",
   "theorems": [
    "Art.Props.C93_sim",
    "Art.Props.C93_lift",
    "Art.Props.C93_yields",
    "Art.Props.C93_yields_exact",
    "Art.Props.C93_through",
    "Art.Props.C93_starve"
   ],
   "note": "The last part is shown for Get of the empty key beside Puts of the empty key."
  },
  {
   "property": "C94",
   "status": "proved",
   "theorems": [
    "Surf.Props.C94_next",
    "Surf.Props.C94_keys",
    "Surf.Props.C94_done",
    "Surf.Props.C94_first"
   ],
   "note": "C94_next gives the bound in terms of the levels and the key, C94_keys in terms of the longest stored key. C94_example shows that the bytes of the key do count."
  },
  {
   "property": "C95",
   "status": "proved",
   "theorems": [
    "Surf.Props.C95_seek",
    "Surf.Props.C95_keys"
   ],
   "note": "C95_seek gives the bound in terms of the levels, the query and the key, C95_keys in terms of the longest stored key. C95_example counts the reads of three searches."
  },
  {
   "property": "C96",
   "status": "proved",
   "theorems": [
    "Surf.Props.C96_overlap",
    "Surf.Props.C96_keys",
    "Surf.Props.C96_value"
   ],
   "note": "C96_overlap compares with the reads of Seek, C96_keys is in terms of the longest stored key. C96_example counts the reads for three ranges."
  },
  {
   "property": "C97",
   "status": "proved",
   "theorems": [
    "Surf.Props.C97_prev",
    "Surf.Props.C97_keys",
    "Surf.Props.C97_done",
    "Surf.Props.C97_last"
   ],
   "note": "C97_prev holds for every sequence of calls, C97_keys is in terms of the longest stored key and for searches that do not go astray (C28). Which calls of Prev panic is C59. C97_example counts the reads of a scan backwards."
  },
  {
   "property": "C98",
   "status": "proved",
   "theorems": [
    "Surf.Props.C98_next",
    "Surf.Props.C98_prev",
    "Surf.Props.C98_scan"
   ],
   "note": "C98_scan follows the iterator from wherever it is to the end. C98_example and C98_example_high count the reads of two scans, the second in a filter of twenty levels."
  },
  {
   "property": "C99",
   "status": "proved",
   "theorems": [
    "Surf.Props.C99_seek",
    "Surf.Props.C99_overlap",
    "Surf.Props.C99_range"
   ],
   "note": "C99_range holds for every condition on the keys shown and for every limit on their number. C99_example counts the reads of four searches in a filter of twenty levels, C99_example_range those of a range."
  }
 ]
}