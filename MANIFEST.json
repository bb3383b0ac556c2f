{
 "claims": [
  {
   "property": "C01",
   "status": "proved",
   "theorems": [
    "Verif.Props.C01.history_is_map",
    "Verif.Props.C01.last_put_found",
    "Verif.Props.C01.removed_absent",
    "Verif.Props.C01.never_stored_absent",
    "Verif.Props.C01.other_keys_unchanged"
   ],
   "note": "Every finite history of put/update/abandon/remove/gc on the trie model runs to completion and answers every lookup like a map. Sequential code; C++ undefined behaviour and endless loops are the outcome none, which is excluded."
  },
  {
   "property": "C02",
   "status": "proved",
   "theorems": [
    "Verif.Props.C02.find_insert_reports",
    "Verif.Props.C02.commit_stores",
    "Verif.Props.C02.abandon_keeps",
    "Verif.Props.C02.remove_reports",
    "Verif.Props.C02.outcomes_truthful"
   ],
   "note": "Return values of find_insert and remove, and abandoned cursors, on all reachable tables."
  },
  {
   "property": "C03",
   "status": "proved",
   "theorems": [
    "Verif.Props.C03.forward_scan",
    "Verif.Props.C03.forward_scan_all",
    "Verif.Props.C03.overflow"
   ],
   "note": "Keys and start key up to 256 bytes (size of the scan's buffer; MASSTREE_MAXKEYLEN is 255); no concurrent writers. overflow shows the bound is needed."
  },
  {
   "property": "C04",
   "status": "proved",
   "theorems": [
    "Verif.Props.C04.reverse_scan",
    "Verif.Props.C04.reverse_of_forward"
   ],
   "note": "Keys and start key up to 256 bytes; no concurrent writers."
  },
  {
   "property": "C05",
   "status": "proved",
   "theorems": [
    "Verif.Props.C05.slice_is_code",
    "Verif.Props.C05.unparse_slice",
    "Verif.Props.C05.unparse_trim",
    "Verif.Props.C05.compareKeys_neg",
    "Verif.Props.C05.compareKeys_zero",
    "Verif.Props.C05.layer_order",
    "Verif.Props.C05.trieCompare_spec",
    "Verif.Props.C05.identity",
    "Verif.Props.C05.make_comparable_doc_false"
   ],
   "note": "slice order and identity of the trie comparison, for all byte strings"
  },
  {
   "property": "C06",
   "status": "proved",
   "theorems": [
    "Verif.Props.C06.nodes_good",
    "Verif.Props.C06.leaves_ordered",
    "Verif.Props.C06.descent_reaches",
    "Verif.Props.C06.shared_slice_layer"
   ],
   "note": "Shape of every node of every layer after any history, stated with definitions that do not use the proof invariant."
  },
  {
   "property": "C07",
   "status": "proved",
   "theorems": [
    "Verif.Props.C07.insertFromBack_spec",
    "Verif.Props.C07.insertSelected_spec",
    "Verif.Props.C07.remove_spec",
    "Verif.Props.C07.removeToBack_spec",
    "Verif.Props.C07.rotate_spec",
    "Verif.Props.C07.rotate_doc_false",
    "Verif.Props.C07.exchange_spec",
    "Verif.Props.C07.exchangeValues_spec",
    "Verif.Props.C07.makeSorted_spec",
    "Verif.Props.C07.reachable_isOrdering",
    "Verif.Props.C07.insert_fresh"
   ],
   "note": "kpermuter<15>, every edit, all reachable words"
  },
  {
   "property": "C08",
   "status": "proved",
   "theorems": [
    "Verif.Props.C08.upper_spec",
    "Verif.Props.C08.lower_spec",
    "Verif.Props.C08.findUpper_spec",
    "Verif.Props.C08.findLower_spec",
    "Verif.Props.C08.binary_eq_linear"
   ],
   "note": "all four searches, any node size, any comparison consistent with a strict order"
  },
  {
   "property": "C09",
   "status": "proved",
   "theorems": [
    "Verif.Props.C09.keys_frozen",
    "Verif.Props.C09.found",
    "Verif.Props.C09.missing",
    "Verif.Props.C09.search",
    "Verif.Props.C09.values_mixed",
    "Verif.Props.C09.removed_value"
   ],
   "note": "Single leaf, one step per store, real 32-bit version word, sequentially consistent memory. values_mixed shows that values of two slots need not belong to one instant; removed_value shows that the instant of a value may lie before its read."
  },
  {
   "property": "C10",
   "status": "proved",
   "theorems": [
    "Verif.Props.C10.mutual_exclusion",
    "Verif.Props.C10.word_wellformed",
    "Verif.Props.C10.holder_writes_current",
    "Verif.Props.C10.deleted_forever",
    "Verif.Props.C10.lock_unlock_id",
    "Verif.Props.C10.session_isleaf",
    "Verif.Props.C10.session_deleted",
    "Verif.Props.C10.session_counter",
    "Verif.Props.C10.change_detected",
    "Verif.Props.C10.change_detected_sharp",
    "Verif.Props.C10.split_detected",
    "Verif.Props.C10.lock_invisible",
    "Verif.Props.C10.marked_is_dirty",
    "Verif.Props.C10.insert_no_split",
    "Verif.Props.C10.insert_overflow_splits",
    "Verif.Props.C10.fresh",
    "Verif.Props.C10.marks_apart"
   ],
   "note": "32-bit version word; mutual exclusion over all interleavings of any number of threads (sequentially consistent, reads and writes of the holder are separate steps); change detection for fewer than 2^19 lock sessions, with the bound shown sharp A new version word is stable, alive, no root and counts nothing; a session of inserts alone is not reported as a split unless the six-bit insert counter overflows, which is shown to happen."
  },
  {
   "property": "C11",
   "status": "proved",
   "theorems": [
    "Verif.Props.C11.lookup",
    "Verif.Props.C11.update",
    "Verif.Props.C11.linearizable",
    "Verif.Props.C11.present",
    "Verif.Props.C11.unchanged",
    "Verif.Props.C11.link_stays",
    "Verif.Props.C11.through",
    "Verif.Props.C11.balanced",
    "Verif.Props.C11.leaves_abut",
    "Verif.Props.C11.lookup_finishes",
    "Verif.Props.C11.update_finishes"
   ],
   "note": "Sequentially consistent steps of one layer (Verif/Blink): reach_leaf, advance_to_key, find_unlocked, find_locked, make_split with locked_parent, internode splits and new roots, any number of threads; inductive invariant with responsibility ranges. Entries are removed but not leaves (see C46). Layers are composed assuming updates keep links. In every reachable state the tree has levels with all leaves at the bottom; while nobody holds a lock the leaves abut, every lookup can finish by its own steps with the current value, and every update can finish. The steps allow more than the code (a reader may retry at any time), so finishing is shown to be possible, not forced."
  },
  {
   "property": "C12",
   "status": "proved",
   "theorems": [
    "Verif.Props.C12.next_walk",
    "Verif.Props.C12.walk_live",
    "Verif.Props.C12.quiescent",
    "Verif.Props.C12.prev_link",
    "Verif.Props.C12.kept",
    "Verif.Props.C12.split_done",
    "Verif.Props.C12.unlink_done",
    "Verif.Props.C12.prev_valid",
    "Verif.Props.C12.no_deadlock",
    "Verif.Props.C12.removed_still_met"
   ],
   "note": "One step per shared access of lock_next, link_split and unlink; any number of operations. Walking next_ from the first leaf always meets all live leaves in key order (also leaves whose removal is finished while a neighbouring split is half done: removed_still_met), prev_ is right except in the last step of an unlink, operations cannot block each other."
  },
  {
   "property": "C13",
   "status": "proved",
   "theorems": [
    "Verif.Props.C13.section_protects",
    "Verif.Props.C13.held_not_freed",
    "Verif.Props.C13.linked_not_freed",
    "Verif.Props.C13.freed_retired",
    "Verif.Props.C13.freeable",
    "Verif.Props.C13.retire_first_unsafe",
    "Verif.Props.C13.delayed_store_unsafe",
    "Verif.Props.C13.overlapping_ticks_unsafe"
   ],
   "note": "All interleavings of rcu_start/stop/quiesce, record_rcu, hard_rcu_quiesce, epochinc and the non-atomic scan of min_active_epoch, any number of threads, circular 64-bit epochs. section_protects is the property; held_not_freed adds that nobody holds freed memory if objects are unlinked before the epoch advances. Assumes sequential consistency, non-overlapping epochinc and sections shorter than 2^60 increments; delayed_store_unsafe, overlapping_ticks_unsafe and retire_first_unsafe show that the code is unsafe without them."
  },
  {
   "property": "C14",
   "status": "proved",
   "theorems": [
    "Verif.Props.C14.in_order",
    "Verif.Props.C14.at_most_once",
    "Verif.Props.C14.freed_when_safe",
    "Verif.Props.C14.retire_succeeds",
    "Verif.Props.C14.stop_ends",
    "Verif.Props.C14.freed_grows",
    "Verif.Props.C14.progress",
    "Verif.Props.C14.eventually_freed",
    "Verif.Props.C14.nothing_missed"
   ],
   "note": "limbo_group and its users in threadinfo, with group boundaries, reuse of groups, marks and callbacks that retire more objects. in_order/at_most_once: frees are a prefix of retirements. freed_when_safe: bound. progress/eventually_freed/nothing_missed/stop_ends: liveness and termination. retire_succeeds: no assertion fails."
  },
  {
   "property": "C15",
   "status": "proved",
   "theorems": [
    "Verif.Props.C15.strictly_increasing",
    "Verif.Props.C15.removal_between",
    "Verif.Props.C15.stored_is_last",
    "Verif.Props.C15.all_even",
    "Verif.Props.C15.race_breaks_order",
    "Verif.Props.C15.no_race_keeps_order"
   ],
   "note": "Updates are steps under the leaf lock; race_breaks_order shows that the unlocked compare-and-swap of remove_leaf on the neighbour's phantom epoch can be lost."
  },
  {
   "property": "C16",
   "status": "proved",
   "theorems": [
    "Verif.Props.C16.update_spec",
    "Verif.Props.C16.create_spec",
    "Verif.Props.C16.create1_spec",
    "Verif.Props.C16.col_readable",
    "Verif.Props.C16.duplicate_column_overruns",
    "Verif.Props.C16.unsorted_columns_overrun",
    "Verif.Props.C16.oversized_value_lost"
   ],
   "note": "Updates of value_bag rows with strictly increasing columns; duplicate or unsorted columns, which the server passes on unchecked, and rows of 64 KiB or more are shown to break."
  },
  {
   "property": "C17",
   "status": "proved",
   "theorems": [
    "Verif.Props.C17.put_spec",
    "Verif.Props.C17.create_spec",
    "Verif.Props.C17.create1_spec",
    "Verif.Props.C17.puts_spec",
    "Verif.Props.C17.vupdate_spec",
    "Verif.Props.C17.vsnapshot_spec",
    "Verif.Props.C17.snapshot_consistent",
    "Verif.Props.C17.duplicate_column_freed_twice",
    "Verif.Props.C17.unsorted_columns_out_of_bounds",
    "Verif.Props.C17.in_place_keeps_timestamp",
    "Verif.Props.C17.growing_snapshot_frees_live_columns",
    "Verif.Props.C17.snapshot_one_column_out_of_bounds",
    "Verif.Props.C17.freeAll_spec",
    "Verif.Props.C17.vfreeAll_spec"
   ],
   "note": "value_array puts (contents, old row unchanged, frees) and value_versioned_array updates; consistency of the versioned snapshot against concurrent in-place updates. Negative results: duplicate columns, stale timestamp in place, storage growth frees live columns, single column out of range."
  },
  {
   "property": "C18",
   "status": "proved",
   "theorems": [
    "Verif.Props.C18.update_spec",
    "Verif.Props.C18.overlay_spec",
    "Verif.Props.C18.replace_spec",
    "Verif.Props.C18.col_spec",
    "Verif.Props.C18.col_after_put",
    "Verif.Props.C18.gap_undefined",
    "Verif.Props.C18.longer_replace_overreads",
    "Verif.Props.C18.create_overreads"
   ],
   "note": "Exact contents of every update of a value_string row, including the undefined bytes and the over-read that the code allows."
  },
  {
   "property": "C19",
   "status": "proved",
   "theorems": [
    "Verif.Props.C19.round_trip",
    "Verif.Props.C19.round_trip_feed",
    "Verif.Props.C19.unambiguous",
    "Verif.Props.C19.messages",
    "Verif.Props.C19.integers",
    "Verif.Props.C19.strings",
    "Verif.Props.C19.array_headers",
    "Verif.Props.C19.skips",
    "Verif.Props.C19.skip_wide_stays"
   ],
   "note": "Streaming parser and pointer parser, all nested values; integers compare by number as Json operator== does. skip_wide_stays: skip_primitives does not skip 64-bit integers."
  },
  {
   "property": "C20",
   "status": "proved",
   "theorems": [
    "Verif.Props.C20.chunk_independent",
    "Verif.Props.C20.as_one_call",
    "Verif.Props.C20.resume",
    "Verif.Props.C20.feed_uses_all",
    "Verif.Props.C20.consume_returns_early",
    "Verif.Props.C20.huge_length_undefined"
   ],
   "note": "All byte streams and all cuttings, through the receive loop; consume_returns_early: a single call may stop early, huge_length_undefined: lengths >= 2^31."
  },
  {
   "property": "C21",
   "status": "proved",
   "theorems": [
    "Verif.Props.C21.round_trip",
    "Verif.Props.C21.torn",
    "Verif.Props.C21.fitting_prefix",
    "Verif.Props.C21.append",
    "Verif.Props.C21.long_key_stops"
   ],
   "note": "Byte-level model of every log record's store and of logrec extract, including the unwritten padding. round_trip and torn hold for all record sequences and cut points; long_key_stops shows that a key above 255 bytes, which the writer accepts, stops replay."
  },
  {
   "property": "C22",
   "status": "proved",
   "theorems": [
    "Verif.Props.C22.never_overruns",
    "Verif.Props.C22.reads_back",
    "Verif.Props.C22.disk_is_prefix",
    "Verif.Props.C22.all_or_wait",
    "Verif.Props.C22.too_large_waits"
   ],
   "note": "One log with any number of recording threads and its logger, each critical section a step; buffers are byte lists and a write outside is undefined. All action sequences from a new log. too_large_waits shows that a request larger than the buffer never gets in."
  },
  {
   "property": "C23",
   "status": "proved",
   "theorems": [
    "Verif.Props.C23.order_independent",
    "Verif.Props.C23.order_independent_incomplete",
    "Verif.Props.C23.bag_lawful",
    "Verif.Props.C23.changes_read_back",
    "Verif.Props.C23.remove_undefined"
   ],
   "note": "Model of logrecord::run/apply with delta markers, generic in the row type, with the bag row type and the real change set parser as instance. order_independent: any permutation of the records of a history gives exactly the row of the history. remove_undefined: replaying a removal parses marker bytes and is undefined, so histories with removals are not covered for the real parser (they are for any parser that accepts the marker)."
  },
  {
   "property": "C24",
   "status": "proved",
   "theorems": [
    "Verif.Props.C24.stale_unchanged",
    "Verif.Props.C24.never_back",
    "Verif.Props.C24.idempotent",
    "Verif.Props.C24.over_checkpoint",
    "Verif.Props.C24.pending_twice_lost"
   ],
   "note": "stale_unchanged and never_back hold for every record and every reachable cell; idempotent and over_checkpoint for complete logs in any order with any repetition. pending_twice_lost shows the one way repetition does harm."
  },
  {
   "property": "C25",
   "status": "proved",
   "theorems": [
    "Verif.Props.C25.cut_exact",
    "Verif.Props.C25.replayed_exactly",
    "Verif.Props.C25.no_gap",
    "Verif.Props.C25.empty_log_breaks",
    "Verif.Props.C25.unlogged_wake_breaks",
    "Verif.Props.C25.slow_breaks",
    "Verif.Props.C25.stall_breaks",
    "Verif.Props.C25.rest_records_no_wake",
    "Verif.Props.C25.rested_epochs_equal"
   ],
   "note": "cut_exact: no gap or excess in logs that were not quiescent. replayed_exactly: the same for any nonempty log relative to what is on disk. no_gap: over all logs, under three conditions that the witnesses empty_log_breaks, unlogged_wake_breaks and slow_breaks show to be necessary; the code does not guarantee them (see DESIGN.md). stall_breaks: a record delayed by a full buffer breaks cut_exact. rest_records_no_wake: dead code at log.cc:263."
  },
  {
   "property": "C26",
   "status": "proved",
   "theorems": [
    "Verif.Props.C26.commit_durable",
    "Verif.Props.C26.recovers_prefix",
    "Verif.Props.C26.recovers_prefix_fresh",
    "Verif.Props.C26.replay_defined",
    "Verif.Props.C26.never_flushed_commits",
    "Verif.Props.C26.slow_update_committed",
    "Verif.Props.C26.slow_update_lost",
    "Verif.Props.C26.refused",
    "Verif.Props.C26.accepted"
   ],
   "note": "commit_durable: safety of the commit decision. recovers_prefix: end-to-end recovery from checkpoint and logs gives a prefix of the history; recovers_prefix_fresh the same without a checkpoint; replay_defined: no assertion of the selection loop fails. Conditions and their necessity: never_flushed_commits, slow_update_committed, slow_update_lost, refused (recovery's assertion can fail after a proper commit)."
  },
  {
   "property": "C27",
   "status": "proved",
   "theorems": [
    "Verif.Props.C27.never_partial",
    "Verif.Props.C27.parts_complete",
    "Verif.Props.C27.previous_or_new",
    "Verif.Props.C27.commits_undone",
    "Verif.Props.C27.parts_lost"
   ],
   "note": "File system with arbitrary unsynced contents and ordered directory changes; all interleavings of the checkpoint threads, all crash points, any number of restarts. Witnesses for undone commits and lost part files."
  },
  {
   "property": "C28",
   "status": "proved",
   "theorems": [
    "Verif.Props.C28.round_trip",
    "Verif.Props.C28.scan_round_trip",
    "Verif.Checkpoint.bag_lawful",
    "Verif.Checkpoint.string_lawful",
    "Verif.Checkpoint.array_lawful",
    "Verif.Checkpoint.versioned_lawful"
   ],
   "note": "round_trip: for every row format satisfying Lawful and every list of entries, the bytes written by ckstate for the entries of a part (before the end key, without remove markers) are read back by read_checkpoint as the same keys, rows and order. scan_round_trip: the same when the entries are those the forward scan from the part's start key visits in any reachable table. The four row types are shown to be Lawful, each on the rows that fit their 16- or 32-bit sizes."
  },
  {
   "property": "C29",
   "status": "proved",
   "theorems": [
    "Verif.Props.C29.reads_back",
    "Verif.Props.C29.one_assign",
    "Verif.Props.C29.word_readable",
    "Verif.Props.C29.safe_size_suffices",
    "Verif.Props.C29.assign_ksuf",
    "Verif.Props.C29.assign_ksuf_reachable",
    "Verif.Props.C29.move_drops",
    "Verif.Props.C29.largest_capacity_overflows"
   ],
   "note": "Stringbag and leaf::assign_ksuf; the largest capacity allowed by the constructor's assertion is excluded, with a proved counterexample."
  },
  {
   "property": "C30",
   "status": "proved",
   "theorems": [
    "Verif.Props.C30.less_iff",
    "Verif.Props.C30.lessEqual_iff",
    "Verif.Props.C30.operators_iff",
    "Verif.Props.C30.rep_window",
    "Verif.Props.C30.less_both_iff",
    "Verif.Props.C30.less_total",
    "Verif.Props.C30.lessEqual_eq_opLe_iff",
    "Verif.Props.C30.nextNonzero_ne_zero",
    "Verif.Props.C30.nextNonzero_rep",
    "Verif.Props.C30.less_nextNonzero",
    "Verif.Props.C30.inc_rep",
    "Verif.Props.C30.less_inc"
   ],
   "note": "64-bit words; exact exception (values exactly half the range apart) characterised"
  },
  {
   "property": "C31",
   "status": "proved",
   "theorems": [
    "Verif.Props.C31.limited_scan",
    "Verif.Props.C31.at_most",
    "Verif.Props.C31.zero_limit_returns_all"
   ],
   "note": "Limit at least 1, as the code asserts; zero_limit_returns_all shows what a limit of zero does. Includes the string buffer the reply's keys point into."
  },
  {
   "property": "C32",
   "status": "proved",
   "theorems": [
    "Verif.Props.C32.equalsSloppy_spec",
    "Verif.Props.C32.equalsSloppy_outside"
   ],
   "note": "equals_sloppy is byte equality under every memory content, and reads stay in aligned words"
  },
  {
   "property": "C33",
   "status": "proved",
   "theorems": [
    "Verif.Props.C33.findLowestZeroNibble_spec",
    "Verif.Props.C33.ifloorLog2_spec",
    "Verif.Props.C33.iceilLog2_spec",
    "Verif.Props.C33.iceil_spec",
    "Verif.Props.C33.ffsMsb_spec"
   ],
   "note": "all five bit utilities against arithmetic specifications, for all 64-bit words"
  },
  {
   "property": "C34",
   "status": "proved",
   "theorems": [
    "Verif.Props.C34.covered",
    "Verif.Props.C34.disjoint",
    "Verif.Props.C34.pivots_increasing",
    "Verif.Props.C34.partition",
    "Verif.Props.C34.empty_pivot",
    "Verif.Props.C34.defined_without_holes",
    "Verif.Props.C34.restored",
    "Verif.Props.C34.zero_key_twice",
    "Verif.Props.C34.empty_leaf_twice",
    "Verif.Props.C34.hole_crashes"
   ],
   "note": "Ranges cover the keys, pivots increase, and the ranges are disjoint unless a pivot is empty; when a pivot can be empty; recovery from the part files; null child followed by findpv (witness). The table is at rest while pivots are chosen."
  },
  {
   "property": "C35",
   "status": "proved",
   "theorems": [
    "Verif.Props.C35.answered",
    "Verif.Props.C35.answers",
    "Verif.Props.C35.refused",
    "Verif.Props.C35.otherwise_stops",
    "Verif.Props.C35.served_as_map",
    "Verif.Props.C35.replies_in_order",
    "Verif.Props.C35.handshake_first",
    "Verif.Props.C35.refusal_ends",
    "Verif.Props.C35.client_served",
    "Verif.Props.C35.next_served",
    "Verif.Props.C35.udp_answers",
    "Verif.Props.C35.wrong_types_stop",
    "Verif.Props.C35.missing_looks_found",
    "Verif.Props.C35.numbers_cut",
    "Verif.Props.C35.handshake_aborts",
    "Verif.Props.C35.pipelined_dropped",
    "Verif.Props.C35.huge_maxkeylen",
    "Verif.Props.C35.udp_repeats",
    "Verif.Props.C35.put_then_get",
    "Verif.Props.C35.put_new_then_get"
   ],
   "note": "answered and answers together determine onego on every table of keys of at most 256 bytes, relative to the specification Answer over a map; refused is an equivalence. wrong_types_stop, missing_looks_found, numbers_cut, handshake_aborts, pipelined_dropped, huge_maxkeylen and udp_repeats show where the code does less than one would expect. With the default row type, a put followed by a get gives the values put."
  },
  {
   "property": "C36",
   "status": "proved",
   "theorems": [
    "Verif.Props.C36.gc_invisible",
    "Verif.Props.C36.remove_gc_reinsert"
   ],
   "note": "Histories with gc_layer callbacks at arbitrary moments compared with the same histories without them. Scans follow from C03 once lookups agree."
  },
  {
   "property": "C37",
   "status": "proved",
   "theorems": [
    "Verif.Props.C37.order",
    "Verif.Props.C37.no_cycle",
    "Verif.Props.C37.chain_ends",
    "Verif.Props.C37.progress"
   ],
   "note": "Interleavings of lookups, inserts, splits of leaves and internodes, new layers, removals with collapse and redirect, and gc_layer, over any number of threads and layers, with the leaf list of C12 in each layer. Keys are left open, so the model has more executions than the code. no_cycle: the wait-for relation has no cycle; chain_ends: every chain of waiting threads ends; order: threads wait only for nodes later in the order (layer depth, height) than all they hold; progress: while a lock is held, some holder can go on by its own steps, including the marks of the leaf list. try_lock in gc_layer does not wait. Starvation and livelock are not addressed."
  },
  {
   "property": "C38",
   "status": "proved",
   "theorems": [
    "Verif.Props.C38.destroy_tree",
    "Verif.Props.C38.frees_once",
    "Verif.Props.C38.storable",
    "Verif.Props.C38.rows_kept",
    "Verif.Props.C38.stale_leaks"
   ],
   "note": "For every table and every layout of it in memory; layouts exist for every reachable table (storable). Rows are not freed (rows_kept) and nodes reachable only from the current root of a layer with a stale pointer leak (stale_leaks)."
  },
  {
   "property": "C39",
   "status": "proved",
   "theorems": [
    "Verif.Props.C39.report",
    "Verif.Props.C39.short_noted",
    "Verif.Props.C39.nested_layers",
    "Verif.Props.C39.heights_sum",
    "Verif.Props.C39.suffix_length_wrong",
    "Verif.Props.C39.stale_undercounts"
   ],
   "note": "Also proved: the length histogram is wrong for suffix keys, and the JSON report undercounts through stale layer pointers."
  },
  {
   "property": "C40",
   "status": "proved",
   "theorems": [
    "Verif.Props.C40.decimal_order",
    "Verif.Props.C40.binary_order",
    "Verif.Props.C40.set_spec",
    "Verif.Props.C40.set_too_wide",
    "Verif.Props.C40.set_width",
    "Verif.Props.C40.set_order",
    "Verif.Props.C40.increment_spec",
    "Verif.Props.C40.increment_set",
    "Verif.Props.C40.binary_increment_spec"
   ],
   "note": "Including where the width or the number overflows."
  },
  {
   "property": "C41",
   "status": "proved",
   "theorems": [
    "Verif.Props.C41.buffered",
    "Verif.Props.C41.filed",
    "Verif.Props.C41.flushed",
    "Verif.Props.C41.stream",
    "Verif.Props.C41.full_append_hangs",
    "Verif.Props.C41.full_append_loops",
    "Verif.Props.C41.huge_write_overruns",
    "Verif.Props.C41.zero_capacity_hangs",
    "Verif.Props.C41.append_doubles",
    "Verif.Props.C41.failure_repeats"
   ],
   "note": "All operation sequences up to 2^31 bytes and streams of any length; witnesses for the 32-bit limits, capacity 0 and failed writes."
  },
  {
   "property": "C42",
   "status": "proved",
   "theorems": [
    "Verif.Props.C42.no_empty_leaf",
    "Verif.Props.C42.uncommitted_leaves_empty"
   ],
   "note": "Every layer of every table reached by complete operations; witness for the uncommitted insertion."
  },
  {
   "property": "C43",
   "status": "proved",
   "theorems": [
    "Verif.Props.C43.accepts_exactly",
    "Verif.Props.C43.accepts_pieces",
    "Verif.Props.C43.unambiguous",
    "Verif.Props.C43.error_final",
    "Verif.Props.C43.can_finish",
    "Verif.Props.C43.encoder_in_format",
    "Verif.Props.C43.object_items",
    "Verif.Props.C43.integer_read",
    "Verif.Props.C43.string_read",
    "Verif.Props.C43.narrow_skipped",
    "Verif.Props.C43.float_read",
    "Verif.Props.C43.widen_value",
    "Verif.Props.C43.widen_special",
    "Verif.Props.C43.widen_sign"
   ],
   "note": "Both directions of the equivalence with a grammar written as an inductive relation; lengths of 2^31 and more are undefined behaviour in the code and are not messages of the grammar. Floats are compared with the IEEE 754 value of their bits."
  },
  {
   "property": "C44",
   "status": "proved",
   "theorems": [
    "Verif.Props.C44.put_read_back",
    "Verif.Props.C44.log_is_history",
    "Verif.Props.C44.log_rebuilds_row",
    "Verif.Props.C44.log_files_rebuild_row",
    "Verif.Props.C44.recovers_served",
    "Verif.Props.C44.connection_remembers",
    "Verif.Props.C44.encoded_plain",
    "Verif.Props.C44.forgotten_put_unreadable",
    "Verif.Props.C44.forgotten_put_undefined",
    "Verif.Props.C44.split_put_unreadable",
    "Verif.Props.C44.wide_sequence_unreadable",
    "Verif.Props.C44.double_column_unreadable",
    "Verif.Props.C44.split_example"
   ],
   "note": "Composes the server (C35), the log format and buffers (C21, C22), replay (C23) and recovery (C26). Served requests are those that return; requests run one at a time; timestamps of a key are even and increasing as C15 has them; keys removed are excluded because replaying a remove is undefined (C23)."
  },
  {
   "property": "C45",
   "status": "proved",
   "theorems": [
    "Verif.Props.C45.retired_once",
    "Verif.Props.C45.retired_for_good",
    "Verif.Props.C45.retired_hidden",
    "Verif.Props.C45.parent_found",
    "Verif.Props.C45.layer_pointer_leads",
    "Verif.Props.C45.quiet_exact",
    "Verif.Props.C45.layer_pointer_dangles"
   ],
   "note": "Locks, parent, child and layer pointers and the leaf lists of all layers; keys and node widths are left open, so the model has more executions than the code. The last sentence is a witness run of two threads."
  },
  {
   "property": "C46",
   "status": "proved",
   "theorems": [
    "Verif.Props.C46.lost",
    "Verif.Props.C46.binary_agrees",
    "Verif.Props.C46.linear_agrees"
   ],
   "note": "Refutes linearizability with leaf removals: a run of the code's steps after which an inserted key cannot be found, and an invariant of all continuations."
  },
  {
   "property": "C47",
   "status": "proved",
   "theorems": [
    "Verif.Props.C47.binary_counts",
    "Verif.Props.C47.linear_counts",
    "Verif.Props.C47.lookup",
    "Verif.Props.C47.update",
    "Verif.Props.C47.linearizable",
    "Verif.Props.C47.present",
    "Verif.Props.C47.unchanged",
    "Verif.Props.C47.held"
   ],
   "note": "Sequentially consistent steps of one layer with removals (Verif/Prune): finish_remove, remove_leaf, redirect, unlink besides those of C11, any number of threads. For runs in which each change of an internode finds the child meant, which C46 shows to be needed; inductive invariant with effective ranges of nodes. Both searches of internodes are shown to count."
  },
  {
   "property": "C48",
   "status": "proved",
   "theorems": [
    "Verif.Props.C48.alone",
    "Verif.Props.C48.one_writer",
    "Verif.Props.C48.remove_assert",
    "Verif.Props.C48.redirect_assert",
    "Verif.Props.C48.insert_place",
    "Verif.Props.C48.internode",
    "Verif.Props.C48.found"
   ],
   "note": "Runs of the model of C46 and C47 with an invariant (Verif/Prune/Neat*.lean) that relates every key of an internode to the smallest key for which the child on its right is responsible, except, during a removal, on the way up from the removed node. The condition is on locks and on the steps of removals only; with one writer it is derived."
  },
  {
   "property": "C49",
   "status": "proved",
   "theorems": [
    "Verif.Props.C49.disjoint",
    "Verif.Props.C49.allocate",
    "Verif.Props.C49.contents",
    "Verif.Props.C49.one_list",
    "Verif.Props.C49.no_leak",
    "Verif.Props.C49.refill_all",
    "Verif.Props.C49.free_then_alloc",
    "Verif.Props.C49.double_free",
    "Verif.Props.C49.tags",
    "Verif.Props.C49.leaf_size"
   ],
   "note": "Words of memory; the system returns new areas; a block in limbo counts as in use (that nobody frees too early is C13)."
  },
  {
   "property": "C50",
   "status": "proved",
   "theorems": [
    "Verif.Props.C50.values",
    "Verif.Props.C50.memory",
    "Verif.Props.C50.no_leak",
    "Verif.Props.C50.c_str",
    "Verif.Props.C50.slice_nonneg",
    "Verif.Props.C50.slice_from_end",
    "Verif.Props.C50.slice_without_end",
    "Verif.Props.C50.mutable_unshared",
    "Verif.Props.C50.mutable_shared",
    "Verif.Props.C50.unique_shares",
    "Verif.Props.C50.moved_from_dangles",
    "Verif.Props.C50.self_move_dangles",
    "Verif.Props.C50.substr_overflow"
   ],
   "note": "Refinement of all sequences of operations to values; memory exact. The inverted is_shared, the sharing result of unique, dangling moved-from strings and the overflow of substr are proved as witnesses. Not modelled: failing allocation, lengths of 2^31, threads."
  },
  {
   "property": "C51",
   "status": "proved",
   "theorems": [
    "Verif.Props.C51.ordered",
    "Verif.Props.C51.from_start",
    "Verif.Props.C51.genuine",
    "Verif.Props.C51.complete",
    "Verif.Props.C51.stopped",
    "Verif.Props.C51.unchanged",
    "Verif.Props.C51.not_snapshot"
   ],
   "note": "Runs of Blink, and tidy runs of Prune (with removal of leaves, under the assumption of C47), observed by a scan in either direction. not_snapshot shows that nothing stronger holds for the whole."
  },
  {
   "property": "C52",
   "status": "proved",
   "theorems": [
    "Verif.Props.C52.ordered",
    "Verif.Props.C52.from_start",
    "Verif.Props.C52.genuine",
    "Verif.Props.C52.complete",
    "Verif.Props.C52.stopped",
    "Verif.Props.C52.unchanged"
   ],
   "note": "Layers are runs as in C51; that they hang together (entries at their positions, no empty key below the root, a layer is unlinked only when empty and for good) is the hypothesis Range.Tree, which C57 proves of histories in which entries change as the code changes them. The key buffer is taken to be large enough (C03)."
  },
  {
   "property": "C53",
   "status": "proved",
   "theorems": [
    "Verif.Props.C53.round_trip",
    "Verif.Props.C53.unparse_injective",
    "Verif.Props.C53.stream",
    "Verif.Props.C53.line_separator",
    "Verif.Props.C53.zero_char",
    "Verif.Props.C53.not_utf8",
    "Verif.Props.C53.same_key",
    "Verif.Props.C53.large",
    "Verif.Props.C53.trailing",
    "Verif.Props.C53.minus"
   ],
   "note": "Round trip for all values that meet the stated conditions, for all manipulators; beside it, witnesses that each condition is needed."
  },
  {
   "property": "C54",
   "status": "proved",
   "theorems": [
    "Verif.Props.C54.cut",
    "Verif.Props.C54.cut_any",
    "Verif.Props.C54.cut_same",
    "Verif.Props.C54.printed",
    "Verif.Props.C54.ascii",
    "Verif.Props.C54.beyond"
   ],
   "note": "For all texts and cuts; beyond is the witness of the read beyond the end of a chunk."
  },
  {
   "property": "C55",
   "status": "proved",
   "theorems": [
    "Verif.Props.C55.utf8_only",
    "Verif.Props.C55.raw",
    "Verif.Props.C55.spelling",
    "Verif.Props.C55.escape",
    "Verif.Props.C55.two_bytes",
    "Verif.Props.C55.small_letters"
   ],
   "note": "Both directions for literals without escapes; all spellings for characters that the parser gets right, with the exact set of characters that it gets wrong."
  },
  {
   "property": "C56",
   "status": "proved",
   "theorems": [
    "Verif.Props.C56.refused",
    "Verif.Props.C56.nested",
    "Verif.Props.C56.unlimited"
   ],
   "note": "The limit for arrays is exact; unlimited shows that there is none in general."
  },
  {
   "property": "C57",
   "status": "proved",
   "theorems": [
    "Verif.Props.C57.read",
    "Verif.Props.C57.put",
    "Verif.Props.C57.remove",
    "Verif.Props.C57.created",
    "Verif.Props.C57.collected",
    "Verif.Props.C57.detached",
    "Verif.Props.C57.way",
    "Verif.Props.C57.only",
    "Verif.Props.C57.scan",
    "Verif.Props.C57.publications"
   ],
   "note": "Layers are runs as in C11 and C47 with one clock; that threads publish only what Range.Role says (as the code does, C01), one at a time, is part of what a history is. A layer is collected only when its root is a leaf."
  },
  {
   "property": "C58",
   "status": "proved",
   "theorems": [
    "Verif.Props.C58.matched",
    "Verif.Props.C58.drained",
    "Verif.Props.C58.waits_iff",
    "Verif.Props.C58.under_way",
    "Verif.Props.C58.refused",
    "Verif.Props.C58.late_reply_confused",
    "Verif.Props.C58.window_zero",
    "Verif.Props.C58.composed",
    "Verif.Props.C58.received",
    "Verif.Props.C58.not_received",
    "Verif.Props.C58.answered",
    "Verif.Props.C58.put_told",
    "Verif.Props.C58.putCol_told",
    "Verif.Props.C58.getCol_told",
    "Verif.Props.C58.getWhole_told",
    "Verif.Props.C58.getSync_told",
    "Verif.Props.C58.remove_told",
    "Verif.Props.C58.column_lists_stop"
   ],
   "note": "The window for any run of sends, replies in any order and synchronous requests; messages, receiving and the whole way to the server and back composed with C35; what the client makes of answers, with the exceptions. Callbacks and memory of replies are not modelled."
  },
  {
   "property": "C59",
   "status": "proved",
   "theorems": [
    "Verif.Props.C59.refines",
    "Verif.Props.C59.looked_up",
    "Verif.Props.C59.one_per_key",
    "Verif.Props.C59.listed",
    "Verif.Props.C59.erased_while_listing",
    "Verif.Props.C59.merged",
    "Verif.Props.C59.table_doubles",
    "Verif.Props.C59.table_exponential",
    "Verif.Props.C59.sixteen",
    "Verif.Props.C59.places_never_reused",
    "Verif.Props.C59.erase_unused"
   ],
   "note": "For every hash function and every sequence of operations on one object that is not shared. Indices are unbounded, values copied; the memory of the item array is modelled only by its capacity."
  },
  {
   "property": "C60",
   "status": "proved",
   "theorems": [
    "Verif.Props.C60.exclusive",
    "Verif.Props.C60.drained",
    "Verif.Props.C60.undisturbed",
    "Verif.Props.C60.memory_sequential",
    "Verif.Props.C60.seen_in_memory",
    "Verif.Props.C60.in_order",
    "Verif.Props.C60.found",
    "Verif.Props.C60.missing",
    "Verif.Props.C60.found_in_memory",
    "Verif.Props.C60.lockable",
    "Verif.Props.C60.fenced",
    "Verif.Props.C60.one_finds",
    "Verif.Props.C60.both_miss"
   ],
   "note": "Any number of threads and objects, any programs that respect locks. Objects are whole nodes; pointers between nodes, and the chain of accesses of an operation over several nodes, are not part of the model."
  },
  {
   "property": "C61",
   "status": "proved",
   "theorems": [
    "Verif.Props.C61.places",
    "Verif.Props.C61.safe",
    "Verif.Props.C61.memory",
    "Verif.Props.C61.seen",
    "Verif.Props.C61.one_reads",
    "Verif.Props.C61.disciplined",
    "Verif.Props.C61.fence_helps",
    "Verif.Props.C61.without_fence"
   ],
   "note": "A condition checked on the machine without buffers is enough. Compare-and-exchange is used only to take locks. That the tree's code meets the condition but for the missing fence, and for reads that are checked later, is argued in the file, not proved."
  },
  {
   "property": "C62",
   "status": "proved",
   "theorems": [
    "Verif.Props.C62.zero_iff",
    "Verif.Props.C62.by_tokens",
    "Verif.Props.C62.antisymmetric",
    "Verif.Props.C62.transitive",
    "Verif.Props.C62.numeric",
    "Verif.Props.C62.numeric_negative",
    "Verif.Props.C62.fractions_not_antisymmetric",
    "Verif.Props.C62.cycle"
   ],
   "note": "Bytes are numbers; classification of characters is that of the C locale. The findings are theorems about the code as it is."
  },
  {
   "property": "C63",
   "status": "proved",
   "theorems": [
    "Verif.Props.C63.follows",
    "Verif.Props.C63.answers",
    "Verif.Props.C63.correct",
    "Verif.Props.C63.correct_bracket_first",
    "Verif.Props.C63.class_taken",
    "Verif.Props.C63.class_meant",
    "Verif.Props.C63.first_missed",
    "Verif.Props.C63.bracket_taken",
    "Verif.Props.C63.negated_matches_first",
    "Verif.Props.C63.reads_past_end"
   ],
   "note": "The byte after the pattern is an outcome of its own (none). Matches and parse are the meaning of patterns, stated without the state sets of the code."
  },
  {
   "property": "C64",
   "status": "proved",
   "theorems": [
    "Verif.Props.C64.base64_round_trip",
    "Verif.Props.C64.base64_alphabet",
    "Verif.Props.C64.base64_padded_length",
    "Verif.Props.C64.base64_encode_fits",
    "Verif.Props.C64.base64_accepts",
    "Verif.Props.C64.base64_decode_fits",
    "Verif.Props.C64.uri_round_trip",
    "Verif.Props.C64.uri_bytewise",
    "Verif.Props.C64.uri_alphabet",
    "Verif.Props.C64.hex_round_trip",
    "Verif.Props.C64.printable_printable",
    "Verif.Props.C64.escaped_round_trip",
    "Verif.Props.C64.printable_round_trip",
    "Verif.Props.C64.printable_unchanged",
    "Verif.Props.C64.printable_not_injective"
   ],
   "note": "Lengths are such that the expressions for the reserved space do not overflow int. The decoders unpercent, unhex and unescape are specifications."
  },
  {
   "property": "C65",
   "status": "proved",
   "theorems": [
    "Verif.Props.C65.compare_less",
    "Verif.Props.C65.compare_equal",
    "Verif.Props.C65.compare_greater",
    "Verif.Props.C65.equals_iff",
    "Verif.Props.C65.starts_with_iff",
    "Verif.Props.C65.left_char",
    "Verif.Props.C65.right_char",
    "Verif.Props.C65.left_str",
    "Verif.Props.C65.right_str",
    "Verif.Props.C65.right_str_undefined",
    "Verif.Props.C65.right_str_beyond",
    "Verif.Props.C65.number",
    "Verif.Props.C65.number_plus",
    "Verif.Props.C65.number_minus",
    "Verif.Props.C65.number_exact",
    "Verif.Props.C65.no_number",
    "Verif.Props.C65.trimmed",
    "Verif.Props.C65.lower_eq",
    "Verif.Props.C65.upper_eq",
    "Verif.Props.C65.white_iff",
    "Verif.Props.C65.ltrim_eq",
    "Verif.Props.C65.rtrim_eq",
    "Verif.Props.C65.trim_eq"
   ],
   "note": "memcmp beyond the memory of the string is an outcome of its own (none). Locale C."
  },
  {
   "property": "C66",
   "status": "proved",
   "theorems": [
    "Verif.Props.C66.skips",
    "Verif.Props.C66.utf8_pieces",
    "Verif.Props.C66.pieces_unique",
    "Verif.Props.C66.utf8_bom",
    "Verif.Props.C66.utf8_no_bom",
    "Verif.Props.C66.utf8_valid",
    "Verif.Props.C66.utf8_identity",
    "Verif.Props.C66.cesu8_pieces",
    "Verif.Props.C66.cesu8_valid",
    "Verif.Props.C66.cesu8_converts",
    "Verif.Props.C66.cesu8_never_replaces",
    "Verif.Props.C66.utf16_pieces",
    "Verif.Props.C66.reads16_unique",
    "Verif.Props.C66.utf16_converts",
    "Verif.Props.C66.utf16_wrong",
    "Verif.Props.C66.utf16_bom",
    "Verif.Props.C66.utf16_order",
    "Verif.Props.C66.table_wrong",
    "Verif.Props.C66.windows_bytewise",
    "Verif.Props.C66.windows_byte",
    "Verif.Props.C66.windows_converts",
    "Verif.Props.C66.to_utf8_text",
    "Verif.Props.C66.to_utf8_identity",
    "Verif.Props.C66.to_utf8_windows",
    "Verif.Props.C66.bom_alone",
    "Verif.Props.C66.to_utf8_mixed",
    "Verif.Props.C66.mixed_unique"
   ],
   "note": "Text.skipChar, parseCesu, utf8ToUtf8, cesu8ToUtf8, utf16ToUtf8, utf16, windows1252, toUtf8 model string.cc:1055-1351. The inputs are read as pieces (characters, pairs, bad bytes) in exactly one way, and the output is the rendering of the pieces. Findings: replacement never written for CESU-8, U+0800..U+7FFF wrong, two wrong table entries, lone byte order mark kept."
  },
  {
   "property": "C67",
   "status": "proved",
   "theorems": [
    "Verif.Props.C67.texts",
    "Verif.Props.C67.reads_known",
    "Verif.Props.C67.blocks",
    "Verif.Props.C67.no_leak",
    "Verif.Props.C67.c_str",
    "Verif.Props.C67.grow_overflow",
    "Verif.Props.C67.printf_one_too_many",
    "Verif.Props.C67.printf_new",
    "Verif.Props.C67.pushes_run",
    "Verif.Props.C67.cost"
   ],
   "note": "StringAccum over a heap of blocks; allocation never fails; transfer_from, append_encoded and append_break_lines are not modelled."
  },
  {
   "property": "C68",
   "status": "proved",
   "theorems": [
    "Verif.Props.C68.simple_low_bits",
    "Verif.Props.C68.simple_parity",
    "Verif.Props.C68.simple_period",
    "Verif.Props.C68.simple_hits",
    "Verif.Props.C68.nr_range",
    "Verif.Props.C68.nr_bit17",
    "Verif.Props.C68.nr_high_bits",
    "Verif.Props.C68.nr_period",
    "Verif.Props.C68.psdes_result",
    "Verif.Props.C68.rounds_injective",
    "Verif.Props.C68.uniform_fails",
    "Verif.Props.C68.uniform_value",
    "Verif.Props.C68.uniform_count",
    "Verif.Props.C68.uniform_simple_parity",
    "Verif.Props.C68.uniform_nr_bit17",
    "Verif.Props.C68.shuffle_perm",
    "Verif.Props.C68.psdes_from_seed"
   ],
   "note": "kvrandom_random (libc) and the Bernoulli distribution are not modelled"
  },
  {
   "property": "C69",
   "status": "proved",
   "theorems": [
    "Verif.Props.C69.runs",
    "Verif.Props.C69.contents",
    "Verif.Props.C69.memory",
    "Verif.Props.C69.nothing_left",
    "Verif.Props.C69.inside",
    "Verif.Props.C69.growths",
    "Verif.Props.C69.alias_undefined",
    "Verif.Props.C69.limit_undefined",
    "Verif.Props.C69.limit_reached",
    "Verif.Props.C69.zero_capacity"
   ],
   "note": "Objects with lifetimes in blocks of slots; allocation does not fail; assignment between vectors of different N or allocator is not modelled (it is the same code)."
  },
  {
   "property": "C70",
   "status": "proved",
   "theorems": [
    "Verif.Props.C70.one_meaning",
    "Verif.Props.C70.found",
    "Verif.Props.C70.ambiguous",
    "Verif.Props.C70.found_only",
    "Verif.Props.C70.negated",
    "Verif.Props.C70.twice_negated",
    "Verif.Props.C70.types",
    "Verif.Props.C70.line",
    "Verif.Props.C70.dashes",
    "Verif.Props.C70.ends",
    "Verif.Props.C70.bad_ends",
    "Verif.Props.C70.order_matters",
    "Verif.Props.C70.mtd_test",
    "Verif.Props.C70.bool_values",
    "Verif.Props.C70.bool_zero",
    "Verif.Props.C70.list_overread",
    "Verif.Props.C70.list_inside"
   ],
   "note": "Only '-' begins short options (no program here changes that), UTF-8 off; what value functions make of strings is a parameter, except parse_bool; messages are not modelled."
  },
  {
   "property": "C71",
   "status": "proved",
   "theorems": [
    "Verif.Props.C71.runs",
    "Verif.Props.C71.releases",
    "Verif.Props.C71.fresh",
    "Verif.Props.C71.uses",
    "Verif.Props.C71.wrong_message",
    "Verif.Props.C71.right_message",
    "Verif.Props.C71.no_type",
    "Verif.Props.C71.bag_size",
    "Verif.Props.C71.destroy_stops"
   ],
   "note": "Headers are not written by callers; memory given back to the system is not looked at. Line and file of headers are not modelled. bag_size is about the callers: rows of the bag layout."
  },
  {
   "property": "C72",
   "status": "proved",
   "theorems": [
    "Verif.Props.C72.values",
    "Verif.Props.C72.memory",
    "Verif.Props.C72.no_leak",
    "Verif.Props.C72.own_element",
    "Verif.Props.C72.own_cycle",
    "Verif.Props.C72.own_insert",
    "Verif.Props.C72.own_cycle_shared"
   ],
   "note": "Arrays; Json objects are not in this model (C59). Counts and sizes are unbounded numbers. New blocks never reuse an address. own_element, own_cycle and own_insert are the exceptions. own_cycle_shared has the case of a shared array."
  },
  {
   "property": "C73",
   "status": "proved",
   "theorems": [
    "Verif.Props.C73.kinds",
    "Verif.Props.C73.empty_iff",
    "Verif.Props.C73.empty_string",
    "Verif.Props.C73.to_b",
    "Verif.Props.C73.truth",
    "Verif.Props.C73.to_i",
    "Verif.Props.C73.to_i_decimal",
    "Verif.Props.C73.to_i_spaces",
    "Verif.Props.C73.to_i_bases",
    "Verif.Props.C73.to_i_nul",
    "Verif.Props.C73.to_i_double",
    "Verif.Props.C73.to_s",
    "Verif.Props.C73.to_s_to_i",
    "Verif.Props.C73.octal",
    "Verif.Props.C73.to_ref",
    "Verif.Props.C73.to_ref_undefined",
    "Verif.Props.C73.eq_iff",
    "Verif.Props.C73.eq_equivalence",
    "Verif.Props.C73.not_structural",
    "Verif.Props.C73.wrap_self",
    "Verif.Props.C73.arith",
    "Verif.Props.C73.arith_double",
    "Verif.Props.C73.sub_double",
    "Verif.Props.C73.arith_refused",
    "Verif.Props.C73.add_own",
    "Verif.Props.C73.add_json",
    "Verif.Props.C73.get_key",
    "Verif.Props.C73.get_key_wraps",
    "Verif.Props.C73.space_iff"
   ],
   "note": "Doubles are bits with arbitrary operations (Floats); strtol and strtoul with base 0 are modelled, strtod and printing of doubles are parameters. The witnesses add_own, arith_refused, empty_string, empty_iff, to_ref_undefined, octal, not_structural and get_key_wraps are about the exceptions."
  },
  {
   "property": "C74",
   "status": "proved",
   "theorems": [
    "Verif.Props.C74.safe_write",
    "Verif.Props.C74.write_completes",
    "Verif.Props.C74.checked_write",
    "Verif.Props.C74.safe_read",
    "Verif.Props.C74.read_contents",
    "Verif.Props.C74.read_completes",
    "Verif.Props.C74.error_looks_empty",
    "Verif.Props.C74.read_file",
    "Verif.Props.C74.sync_write",
    "Verif.Props.C74.atomic_write",
    "Verif.Props.C74.write_read",
    "Verif.Props.C74.sync_write_loses",
    "Verif.Props.C74.tmp_stays",
    "Verif.Props.C74.write_errno",
    "Verif.Props.C74.write_zero_errno",
    "Verif.Props.C74.write_succeeds",
    "Verif.Props.C74.close_fails"
   ],
   "note": "All sequences of answers; a call that has no answer yet has not returned. Crashes are C27."
  },
  {
   "property": "C75",
   "status": "proved",
   "theorems": [
    "Verif.Props.C75.parse_int",
    "Verif.Props.C75.kept_self",
    "Verif.Props.C75.kept_range",
    "Verif.Props.C75.numeral_unique",
    "Verif.Props.C75.parse_decimal",
    "Verif.Props.C75.int_wraps",
    "Verif.Props.C75.suffix",
    "Verif.Props.C75.suffix_refused",
    "Verif.Props.C75.parse_double"
   ],
   "note": "strtod and products of doubles are parameters; long has 64 bits."
  },
  {
   "property": "C76",
   "status": "proved",
   "theorems": [
    "Verif.Props.C76.parts",
    "Verif.Props.C76.order",
    "Verif.Props.C76.difference",
    "Verif.Props.C76.difference_backwards",
    "Verif.Props.C76.epochs",
    "Verif.Props.C76.epochs_coarse",
    "Verif.Props.C76.parts_any"
   ],
   "note": "Clock before 2^32 seconds."
  },
  {
   "property": "C77",
   "status": "proved",
   "theorems": [
    "Verif.Props.C77.stats",
    "Verif.Props.C77.max_right",
    "Verif.Props.C77.single_report",
    "Verif.Props.C77.to_i",
    "Verif.Props.C77.to_i_overflow",
    "Verif.Props.C77.max_key",
    "Verif.Props.C77.max_key_not"
   ],
   "note": "Whole numbers for doubles in kvstats."
  },
  {
   "property": "C78",
   "status": "proved",
   "theorems": [
    "Verif.Props.C78.log_names",
    "Verif.Props.C78.ckp_names",
    "Verif.Props.C78.kinds",
    "Verif.Props.C78.log_name_fits",
    "Verif.Props.C78.ckp_name_fits",
    "Verif.Props.C78.ckp_name_overflows",
    "Verif.Props.C78.tokens_join",
    "Verif.Props.C78.tokens_good",
    "Verif.Props.C78.tokens_flatten",
    "Verif.Props.C78.directories_some",
    "Verif.Props.C78.directories_default",
    "Verif.Props.C78.logs_distinct",
    "Verif.Props.C78.logs_read_iff",
    "Verif.Props.C78.logs_lost",
    "Verif.Props.C78.replay_stops",
    "Verif.Props.C78.old_log_cuts",
    "Verif.Props.C78.restart_fewer",
    "Verif.Props.C78.restart_same",
    "Verif.Props.C78.restart_more",
    "Verif.Props.C78.restart_moved",
    "Verif.Props.C78.restart_none",
    "Verif.Props.C78.delete_keeps",
    "Verif.Props.C78.delete_new",
    "Verif.Props.C78.delete_old",
    "Verif.Props.C78.cores",
    "Verif.Props.C78.cores_negative",
    "Verif.Props.C78.pick",
    "Verif.Props.C78.pick_none",
    "Verif.Props.C78.turns",
    "Verif.Props.C78.turns_all"
   ],
   "note": "Contents of checkpoint files and logs are the subject of C21-C28; here files are names, generations and parts. Settings do not change during a run."
  },
  {
   "property": "C79",
   "status": "proved",
   "theorems": [
    "Verif.Props.C79.blank_iff",
    "Verif.Props.C79.broken",
    "Verif.Props.C79.lines_fit",
    "Verif.Props.C79.short",
    "Verif.Props.C79.lines_words",
    "Verif.Props.C79.output_words",
    "Verif.Props.C79.output",
    "Verif.Props.C79.one_too_long"
   ],
   "note": "The lines are given by the relation Broken between text and lines, stated without the loop."
  },
  {
   "property": "C80",
   "status": "proved",
   "theorems": [
    "Verif.Props.C80.barrier",
    "Verif.Props.C80.returns",
    "Verif.Props.C80.active_range",
    "Verif.Props.C80.not_missed",
    "Verif.Props.C80.progress",
    "Verif.Props.C80.ends",
    "Verif.Props.C80.run_short",
    "Verif.Props.C80.run_over"
   ],
   "note": "Critical sections under rec_mu are single steps; condition variables with sleeping threads and spurious wake-ups are modelled."
  },
  {
   "property": "C81",
   "status": "proved",
   "theorems": [
    "Verif.Props.C81.safe",
    "Verif.Props.C81.queue",
    "Verif.Props.C81.waited",
    "Verif.Props.C81.fifo",
    "Verif.Props.C81.accepted",
    "Verif.Props.C81.served",
    "Verif.Props.C81.hog",
    "Verif.Props.C81.select_events",
    "Verif.Props.C81.select_nfds",
    "Verif.Props.C81.select_stop"
   ],
   "note": "both versions of tcpfds and the loop; what a request computes is in the models of the server"
  },
  {
   "property": "C82",
   "status": "proved",
   "theorems": [
    "Verif.Props.C82.find_eq",
    "Verif.Props.C82.names_eq",
    "Verif.Props.C82.first_eq",
    "Verif.Props.C82.widths_spec",
    "Verif.Props.C82.choose_spec",
    "Verif.Props.C82.line_eq",
    "Verif.Props.C82.place",
    "Verif.Props.C82.aligned",
    "Verif.Props.C82.fits"
   ],
   "note": "linked list with head and tail, and the layout in columns"
  },
  {
   "property": "C83",
   "status": "proved",
   "theorems": [
    "Verif.Props.C83.reply_right",
    "Verif.Props.C83.reply_wrong",
    "Verif.Props.C83.window_eq",
    "Verif.Props.C83.idle_iff",
    "Verif.Props.C83.send_waits_iff",
    "Verif.Props.C83.accepts_iff",
    "Verif.Props.C83.idx_lt",
    "Verif.Props.C83.window_zero"
   ],
   "note": "the window against the history of all requests; numbers wrap at 2^32"
  },
  {
   "property": "C84",
   "status": "proved",
   "theorems": [
    "Verif.Props.C84.append_ok",
    "Verif.Props.C84.format_means",
    "Verif.Props.C84.message_ok",
    "Verif.Props.C84.text_ub_iff",
    "Verif.Props.C84.text_ok",
    "Verif.Props.C84.message_255",
    "Verif.Props.C84.char_ub_iff",
    "Verif.Props.C84.trailing_twice",
    "Verif.Props.C84.char_printable",
    "Verif.Props.C84.char_injective",
    "Verif.Props.C84.char_octal"
   ],
   "note": "Clp_BuildString and Clp_vbsprintf without UTF-8; %C, %d, %O, %V are not modelled. Characters are shown printably and injectively."
  }
 ]
}
