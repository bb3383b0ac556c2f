{"id": "C01", "title": "Table behaves as a map over a history of operations", "statement": "Starting from a freshly initialised table, after any finite sequence of single-threaded inserts, updates and removes on arbitrary byte-string keys, looking up any key returns exactly the value most recently stored under that key, and reports 'not found' exactly when the key was never stored or was removed since. In particular no operation on one key changes what a lookup of a different key returns, whatever splits, layer creations or node removals it triggers.", "quantifier": "all finite operation histories; all byte-string keys of any length including empty keys, keys with embedded or trailing zero bytes, and keys sharing prefixes of any length; all values", "why_tests_cant": "The tree shape reached depends on the whole history; tests sample a handful of key distributions and can never cover every interleaving of splits, twig layers, suffix conflicts and leaf deletions.", "anchors": ["masstree_get.hh: tcursor::find_locked, unlocked_tcursor::find_unlocked", "masstree_insert.hh: tcursor::find_insert, make_new_layer, finish", "masstree_split.hh: leaf::split_into, internode::split_into, tcursor::make_split", "masstree_remove.hh: tcursor::finish_remove, remove_leaf, redirect, gc_layer"]}
{"id": "C02", "title": "Find-or-insert and remove report presence truthfully", "statement": "The boolean returned by the find-for-insert entry point is true exactly when the key is currently in the table, and a remove request reports success exactly when the key was present; a cursor that is finished without committing leaves the contents unchanged.", "quantifier": "all tables reachable by any history; all keys; both outcomes of commit or abandon", "why_tests_cant": "Requires knowing the presence of every possible key in every reachable tree, including keys that differ only past an 8-byte boundary or only in trailing zero bytes.", "anchors": ["masstree_insert.hh: tcursor::find_insert, tcursor::finish", "masstree_tcursor.hh: tcursor", "kvrow.hh: query::run_put, run_replace, run_remove"]}
{"id": "C03", "title": "Forward scan is complete, ordered and duplicate-free", "statement": "With no concurrent writers, a forward scan from a start key visits exactly the stored keys that are >= the start key (or > it, if the caller asked not to emit the first key), each once, in strictly increasing byte-lexicographic order, paired with their current values, and stops at the first key for which the visitor returns false (that key being the last visited).", "quantifier": "all reachable tables; all start keys, present or not; both settings of emit-first-key; all visitor stop points; keys short enough for the scan key buffer, which the code does not check", "why_tests_cant": "Scan walks a per-layer state machine whose behaviour depends on every combination of start-key suffix, layer nesting and leaf boundaries; the space is unbounded in key length and tree size.", "anchors": ["masstree_scan.hh: scanstackelt::find_initial, find_retry, find_next, basic_table::scan, forward_scan_helper"]}
{"id": "C04", "title": "Reverse scan is complete, ordered and duplicate-free", "statement": "With no concurrent writers, a reverse scan from a start key visits exactly the stored keys that are <= the start key (or < it, if the caller asked not to emit the first key), each once, in strictly decreasing byte-lexicographic order, paired with their current values, stopping when the visitor returns false.", "quantifier": "all reachable tables; all start keys; both settings of emit-first-key; all visitor stop points; keys short enough for the scan key buffer, which the code does not check", "why_tests_cant": "Same unbounded space as forward scan; the reverse helper has its own off-by-one and layer-entry rules that only show up for particular prefix relations.", "anchors": ["masstree_scan.hh: reverse_scan_helper, basic_table::rscan"]}
{"id": "C05", "title": "8-byte slicing preserves byte-lexicographic order and identity of keys", "statement": "Cutting a key into successive 8-byte big-endian integers plus a remaining length, and comparing (integer, length) pairs layer by layer, decides equality and byte-lexicographic order of the whole keys: two keys compare equal exactly when they are the same byte string, including keys that differ only by trailing zero bytes.", "quantifier": "all pairs of byte strings of all lengths", "why_tests_cant": "Infinite domain; the hard cases (zero bytes at slice boundaries, lengths 7/8/9, prefixes) are exactly the ones samples miss.", "anchors": ["string_slice.hh: string_slice::make_comparable, unparse_comparable", "masstree_key.hh: key::compare, key::shift, key::unparse"]}
{"id": "C06", "title": "Every stored key stays reachable through the index after any split", "statement": "After any history, descending from the root by the separator keys reaches, for every key, the unique leaf whose range contains it: all entries of a leaf lie within the range delimited by the separators above it, entries with equal 8-byte slices are never spread over two leaves, and no node exceeds its capacity.", "quantifier": "all histories of inserts and removes; all keys; all tree heights and layers", "why_tests_cant": "It is an invariant over unboundedly many states; violating trees can pass lookups of sampled keys for a long time.", "anchors": ["masstree_split.hh: leaf::split_into, internode::split_into, tcursor::make_split", "masstree_struct.hh: node_base::reach_leaf, internode", "ksearch.hh: key_bound_binary"]}
{"id": "C07", "title": "Compact ordering word always denotes a permutation, and its edits do what they claim", "statement": "The packed 64-bit word that stores a leaf's key order always encodes a permutation of the 15 slots together with a size; inserting at a position allocates a slot that was free, shifts later positions by one and disturbs no other entry; removing frees exactly the chosen slot and keeps the relative order of the rest; exchange and rotation rearrange exactly the positions they name.", "quantifier": "all 64-bit words reachable from the constructors by any sequence of edits with in-range arguments; all positions", "why_tests_cant": "There are 15! * 16 reachable words; exhaustive testing is infeasible and the bit-mask arithmetic fails only at edge positions (0, 15, shift by 64).", "anchors": ["kpermuter.hh: kpermuter<15>::make_empty, make_sorted, insert_from_back, insert_selected, remove, remove_to_back, exchange, rotate"]}
{"id": "C08", "title": "In-node search returns the right position for every node content", "statement": "Binary search and linear search over a node's ordered keys return the same answer: the lower-bound search finds the unique position holding the key if there is one and otherwise the insertion position, and the upper-bound search returns the number of separators that are <= the key.", "quantifier": "all sorted key sequences of any size; all search keys; any comparison function consistent with the order", "why_tests_cant": "Off-by-one errors depend on size and position; must hold for all sizes and all key placements at once.", "anchors": ["ksearch.hh: key_bound_binary::upper, lower, lower_by, key_bound_linear"]}
{"id": "C09", "title": "Lock-free readers only trust consistent node contents", "statement": "If a lock-free reader takes a stable version of a leaf, reads its permutation, reads any fields of the active slots in any order while writers run, and then finds the version unchanged, every key field it read (first bytes, length code, suffix) had the value it held at the single instant when the permutation was read, and every value it read was the value of that key at some instant between the two version reads, provided the lock was released fewer than 2^19 times in between.", "quantifier": "all interleavings of one reader with any number of writers performing locked inserts, replacements, removals, splits and suffix container changes, one store at a time; all read sequences", "why_tests_cant": "Races depend on instruction-level schedules; no finite test enumerates them.", "anchors": ["nodeversion.hh: nodeversion::stable, has_changed, mark_insert, mark_split, unlock", "masstree_get.hh: find_unlocked"]}
{"id": "C10", "title": "Node locks are mutually exclusive and version words stay well formed", "statement": "At any moment at most one thread holds a given node's lock; taking and releasing the lock without marking a change leaves the version unchanged; releasing after a marked insert or split always yields a version that readers holding an older stable version will see as changed; the 'deleted' and 'is leaf' flags are never lost.", "quantifier": "all version words, all sequences of lock/mark/unlock by any number of threads", "why_tests_cant": "Counter wrap-around (after 2^6 inserts, 2^25 changes) and flag-mask interactions happen only after long runs.", "anchors": ["nodeversion.hh: nodeversion::lock, try_lock, unlock, mark_insert, mark_split, mark_change, mark_deleted, mark_nonroot"]}
{"id": "C11", "title": "A lock-free lookup racing with inserts, removals of entries and splits is linearizable", "statement": "In every execution of any number of lookups, inserts, value replacements, removals of entries, leaf splits and internode splits of a layer there is one history of the map the layer represents, which changes only when an update publishes, by applying that update to the current value. A lookup returns a value that was current at some instant during the lookup (so a key present throughout is found, however many splits move it), and an update that returns takes effect exactly once, during the update. Lookups through several layers return the value of the whole key at some instant during the lookup, as links to layers stay. All leaves of a layer stay at the same depth, and no operation gets stuck: from every reachable state in which nobody holds a lock, wherever a lookup is, it can finish by steps of its own and then returns the current value; an update can finish as well.", "quantifier": "all schedules of one or more readers with writers; all sequences of splits", "why_tests_cant": "Only specific interleavings (split between index descent and leaf read) expose errors; the schedule space is infinite.", "anchors": ["masstree_get.hh: unlocked_tcursor::find_unlocked", "masstree_struct.hh: reach_leaf, leaf::advance_to_key, stable_last_key_compare", "masstree_split.hh"]}
{"id": "C12", "title": "Doubly linked leaf list survives concurrent splits and removals", "statement": "Whatever the interleaving of leaf splits and leaf unlinks by different threads, following next-links from the first leaf ends, goes through ever larger keys and meets every live leaf (except a new leaf whose split has not yet stored it on the left); each live leaf's back-pointer is its live predecessor, or, in the last step of that one's removal, the predecessor's predecessor; no live leaf is dropped before its own unlink ends; and as long as operations are under way, one of them can finish alone. A leaf whose unlink has returned can still be met while a split next to it is half done.", "quantifier": "all interleavings of any number of concurrent link and unlink operations", "why_tests_cant": "Lost-update races between adjacent operations need precise schedules of three or more threads.", "anchors": ["btree_leaflink.hh: btree_leaflink::lock_next, link_split, unlink"]}
{"id": "C13", "title": "Retired memory is never reused while a reader may still hold it", "statement": "Memory retired through the deferred-free interface is not freed until every thread that was inside a read-side section when it was retired has left that section, for every sequentially consistent interleaving of section entry/exit, retirement, epoch advance (scanning the threads one by one) and reclamation, if epoch advances do not overlap; and if retired objects are unlinked before the epoch next advances, no thread ever holds freed memory. The code does not ensure the last condition (several places retire first and unlink later), the store order (no fence in rcu_start) or the absence of overlapping epoch advances (signal handler), and without each of them a thread can hold freed memory.", "quantifier": "all interleavings; any number of threads; epochs over their full circular range as long as no thread stays in one section for 2^60 epoch increments", "why_tests_cant": "Use-after-free needs a specific multi-thread schedule across several epoch ticks.", "anchors": ["kvthread.hh: threadinfo::rcu_start, rcu_stop, rcu_quiesce, record_rcu, min_active_epoch", "kvthread.cc: threadinfo::hard_rcu_quiesce", "mtd.cc: epochinc"]}
{"id": "C14", "title": "Deferred frees happen exactly once and in order", "statement": "Every object handed to deferred free is freed at most once, in retirement order, never before its epoch is safe, and once its epoch becomes safe repeated quiescing frees it, regardless of how many objects are queued or where the queue's fixed-size blocks begin and end.", "quantifier": "all sequences of retirements and quiescent calls; all queue lengths and block boundaries", "why_tests_cant": "Block-boundary and epoch-marker placement cases depend on counts modulo the block size over long runs.", "anchors": ["kvthread.hh: limbo_group, limbo_element", "kvthread.cc: limbo_group::clean_until, threadinfo::hard_rcu_quiesce, refill_rcu"]}
{"id": "C15", "title": "Timestamps of successive versions of a key strictly increase", "statement": "For each key, the timestamps assigned to its successive stored versions strictly increase over the table's life, including across removal and re-insertion, and across threads whose clocks lag each other; a removal's timestamp lies strictly between the version it removes and any later re-insertion.", "quantifier": "all histories of put, replace and remove by any number of threads with arbitrarily skewed thread clocks, of leaf splits, layer creations and leaf or layer removals; all keys; histories of fewer than 2^60 steps; a leaf's removal does not interleave with the assignment of the neighbour's phantom epoch (the code lets it, and order is then lost: race_breaks_order)", "why_tests_cant": "Ordering errors need a thread with a lagging clock to re-insert a key another thread removed, in the right leaf.", "anchors": ["kvrow.hh: query::apply_put, apply_replace, apply_remove, run_put, run_remove", "kvthread.hh: threadinfo::update_timestamp, observe_phantoms", "masstree_struct.hh: leaf::phantom_epoch_"]}
{"id": "C16", "title": "Multi-column rows (bag layout): put changes exactly the named columns", "statement": "Storing a set of (column, value) pairs, with strictly increasing columns as the code's precondition asks, into a row yields a row in which each named column holds the value given for it, every other existing column is unchanged byte for byte, columns never written read as empty, and the old row is not modified, so a concurrent reader sees the whole old row or the whole new row. (Columns out of order or repeated, which the server does not reject, break the row.)", "quantifier": "all rows the code can build, all lists of column updates with strictly increasing columns (columns beyond the current width included), all byte-string values whose total encoded size fits the offset type", "why_tests_cant": "Offset arithmetic depends on the lengths of all columns at once; unbounded combinations.", "anchors": ["value_bag.hh: value_bag::update, col, create, create1"]}
{"id": "C17", "title": "Multi-column rows (array layouts): put changes exactly the named columns", "statement": "The same column-wise overlay guarantee holds for the array row layout, including rows that grow: named columns change, others do not, the old row still reads as before, and exactly the strings the new row no longer uses are freed, none twice. For the in-place versioned layout a reader that revalidates the row version gets all columns as they were at one instant, however updates interleave. Deleting a row frees each of its strings once and nothing else.", "quantifier": "all rows, all update lists with strictly increasing columns, all widths, all sequences of puts; all interleavings of updates in place with a reader, as long as fewer than 2^31 updates finish during one read attempt", "why_tests_cant": "As C16; in-place update additionally races with readers.", "anchors": ["value_array.hh, value_array.cc: value_array::update, col, make_sized_row", "value_versioned_array.hh, value_versioned_array.cc: update, snapshot"]}
{"id": "C18", "title": "Substring rows: put writes exactly the addressed byte ranges", "statement": "For the string row layout, storing values at byte offsets yields a string equal to the old one overlaid with the new bytes at those offsets, extended if needed, with every byte outside the written ranges and inside the kept length unchanged; every byte of the result is defined when the updates leave no gap past the old end. Replacing the whole column gives exactly the new value. (A gap leaves undefined bytes, and replacing by a longer value reads past the old row: the code does not prevent either.)", "quantifier": "all old strings, all lists of (offset,length) updates, all values", "why_tests_cant": "Gaps past the old end and combinations of overlapping ranges form an infinite space.", "anchors": ["value_string.hh: value_string::update, col, make_index"]}
{"id": "C19", "title": "Message encoding round-trips", "statement": "Encoding any supported value (null, boolean, signed or unsigned integer, string, array, map, arbitrarily nested) and decoding the bytes gives back an equal value and consumes exactly the bytes produced, and encodings can be concatenated without ambiguity.", "quantifier": "all values of every type and nesting; all integers over the full 64-bit range; all string lengths below 2^31; arbitrary trailing bytes", "why_tests_cant": "Size-class boundaries (2^7, 2^8, 2^16, 2^32) for four kinds of item and unbounded nesting.", "anchors": ["msgpack.hh: format::write_int, write_string, write_array_header, write_map_header, unparser, parser", "msgpack.cc: streaming_parser::consume, parser::operator>>"]}
{"id": "C20", "title": "Incremental decoding is independent of how the bytes are split into packets", "statement": "Feeding an encoded request to the incremental decoder in any sequence of chunks yields the same final result, the same success or failure verdict and the same number of consumed bytes as feeding it all at once.", "quantifier": "all byte streams, valid or not; all ways to split them into chunks (including one byte at a time and empty chunks)", "why_tests_cant": "The number of chunkings is exponential in the message length, and partial-item state is kept in several forms.", "anchors": ["msgpack.cc: streaming_parser::consume", "msgpack.hh: streaming_parser", "mtd.cc: conn::receive"]}
{"id": "C21", "title": "Log records round-trip and a torn tail loses only the torn record", "statement": "Writing any sequence of log records and reading the log back yields exactly that sequence; if the log is cut at an arbitrary byte, reading yields exactly the records that fit completely before the cut.", "quantifier": "all record sequences (all commands, keys up to the maximum key length, values, timestamps); all cut points", "why_tests_cant": "A crash can tear the log at any of its bytes; every record boundary must be recognised.", "anchors": ["log.cc: logrec_base/logrec_epoch/logrec_kv/logrec_kvdelta::store, logrecord::extract, logreplay::replayandclean1"]}
{"id": "C22", "title": "Appending to the in-memory log never overruns its buffer", "statement": "However keys, values, epochs and wake-ups are interleaved, recording an update writes only within the log buffer and writes the complete record group or waits; nothing already recorded is overwritten.", "quantifier": "all buffer fill levels, key and value lengths, epoch/quiescence/wake states", "why_tests_cant": "The overflow needs a fill level within a few bytes of the limit together with a simultaneous epoch and wake marker.", "anchors": ["log.cc: loginfo::record, loginfo::run"]}
{"id": "C23", "title": "Log replay gives the same row regardless of the order in which log files are replayed", "statement": "Replaying the logged updates of one key in any order, interleaved arbitrarily across log files, ends with the same value and timestamp as replaying them in timestamp order, when every update in the chain is present.", "quantifier": "all sets of logged puts, replaces and modifies of a key with distinct timestamps and consistent previous-timestamp links, whose change sets parse; all permutations; all row types whose operations set the timestamp they are given (removals are undefined in the code: their replay parses the marker bytes as a change set)", "why_tests_cant": "n! orders of replay for n updates; recovery runs log threads concurrently.", "anchors": ["log.cc: logrecord::apply, logrecord::run, row_delta_marker"]}
{"id": "C24", "title": "Replay is idempotent and never goes back in time", "statement": "Replaying a record whose timestamp is not newer than the stored row and the pending modifications leaves what is stored unchanged, and no replay makes a stored row older; so replaying a complete log again, or replaying a log over a checkpoint that already contains some of its updates, gives the same contents as replaying it once.", "quantifier": "all stored rows and records; all log contents without removals, in any order, repeated any number of times once the log is complete (a modification repeated while it still waits for an earlier update is lost in the code)", "why_tests_cant": "Requires all pairs of stored state and record, including half-assembled delta chains.", "anchors": ["log.cc: logrecord::apply", "checkpoint.hh: ckstate::visit_value", "kvrow.hh: query_helper"]}
{"id": "C25", "title": "Recovery cuts all logs at one consistent epoch", "statement": "Recovery computes one epoch from what is left of all logs and replays every log up to it. From a log whose remains do not end in a quiescence notification it replays exactly the updates of the epochs before that bound (and from the checkpoint's first epoch on): none of them is missing on disk and none of a later epoch is replayed. Over all logs there is no gap: if an update is replayed, every update recorded before it in any log is replayed too, provided something is left of every log, updates are recorded in the current epoch, and a logger that notices a wake-up before its log has recorded it goes quiescent in the same turn. Each of these three conditions is necessary: without it a later update can survive while an earlier one is lost.", "quantifier": "all executions of any number of logs and loggers; all crash points, each log cut after any number of records; all checkpoint epochs", "why_tests_cant": "Depends on how flushes, quiescence and wake records of several loggers interleave before a crash.", "anchors": ["mtd.cc: recover", "log.cc: logreplay::info, min_post_quiescent_wake_epoch, replayandclean1"]}
{"id": "C26", "title": "Checkpoint plus logs lose no durable update", "statement": "A checkpoint is committed only when every update of the epochs up to its max_epoch, hence every update it may contain, is on disk in the logs. If recovery from it starts, the result is a state of the past: there is a number m such that for every key (never removed) the recovered row is the row after the first m updates of the whole history; the first m updates are exactly those left on disk in epochs before the replay bound, and include every update of the checkpoint's epochs. Conditions: updates are recorded in the epoch read for them, every log had been flushed at least once, something is left of every log, loggers notice wake-ups as in C25. Witnesses show that without them a committed checkpoint can hold an update that is not durable, and a durable update can be lost.", "quantifier": "all executions of any number of logs, loggers and updates; all times at which the scan reads each row and the checkpointer looks at each log; all crash points after the commit, each log cut anywhere after its synced part; all interleavings of the replaying threads; all row types whose operations set the timestamp", "why_tests_cant": "Crash points are unboundedly many and interact with concurrent updates.", "anchors": ["mtd.cc: conc_checkpointer, prepare_checkpoint, commit_checkpoint, recovercheckpoint", "checkpoint.cc: ckstate::visit_value"]}
{"id": "C27", "title": "Checkpoint metadata replacement is atomic", "statement": "The file naming the latest checkpoint is replaced such that after a crash at any point the name refers either to the complete previous contents or to the complete new contents, never to a partial file; over any number of checkpoints, crashes and restarts it is complete and not older than the one found at the last start, and on one order-preserving file system the part files it refers to are complete too. The directory is not synced, so commits that have returned can be undone, and with several file systems part files can be missing.", "quantifier": "all crash points between the individual file-system operations; all old and new contents", "why_tests_cant": "Crash injection at every system call and every subset of unsynced data is not enumerable by tests.", "anchors": ["file.cc: atomic_write_file_contents, sync_write_file_contents", "mtd.cc: commit_checkpoint"]}
{"id": "C28", "title": "Checkpoint encode/decode round-trips", "statement": "Reading back a checkpoint part file yields exactly the (key, timestamp, row) entries that were visited while writing it, in order, minus internal markers.", "quantifier": "all four row types, all reachable tables and ranges, all keys and rows whose encoded lengths fit msgpack's 32-bit lengths", "why_tests_cant": "Unbounded contents; binary-safe framing must hold for every byte value.", "anchors": ["checkpoint.cc: ckstate::visit_value", "checkpoint.hh: ckstate::visit_value", "mtd.cc: recovercheckpoint"]}
{"id": "C29", "title": "Key-suffix storage never corrupts a neighbour", "statement": "Storing or replacing the long-key remainder of one entry in a leaf's suffix area either succeeds and then reads back exactly, leaving all other entries' remainders unchanged, or fails without modifying anything; it never writes outside the area. Moving to a larger area takes along the remainders in use and nothing else.", "quantifier": "all sequences of assignments to slots, all lengths and capacities below the largest the header can encode", "why_tests_cant": "Allocation positions depend on the full assignment history.", "anchors": ["stringbag.hh: stringbag::assign, get, safe_size, overhead"]}
{"id": "C30", "title": "Circular epoch comparison is a correct order within half the range", "statement": "Comparing wrap-around epoch numbers is antisymmetric and agrees with the order of the unbounded counters they represent for values less than half the range apart, including across wrap-around; 'next non-zero' never produces zero and is later than its argument. (Values exactly half the range apart each compare less than the other.)", "quantifier": "all 64-bit values and all pairs within the window", "why_tests_cant": "2^128 pairs; wrap-around does not happen in test runs.", "anchors": ["circular_int.hh: circular_int::less, next_nonzero", "timestamp.hh"]}
{"id": "C31", "title": "Limited scans return at most the requested number of live rows, in order", "statement": "A scan request for n rows returns the first n non-marker rows at or after the start key (all of them if fewer), skips rows that are internal markers without counting them, and never visits past the n-th.", "quantifier": "all tables, start keys and limits n >= 1 (the code asserts n > 0; with assertions off, n = 0 returns every row), both directions", "why_tests_cant": "Interaction of marker rows, limits and leaf boundaries.", "anchors": ["kvrow.hh: query::run_scan, run_rscan, query_json_scanner"]}
{"id": "C32", "title": "A short-string equality shortcut equals byte comparison", "statement": "The word-based equality test for short strings returns the same answer as comparing the bytes, and the bytes it reads outside the strings do not influence the answer.", "quantifier": "all byte contents inside and outside the strings, all lengths 0..8 and above", "why_tests_cant": "Out-of-range bytes vary with memory layout, which tests do not control.", "anchors": ["string_slice.hh: string_slice::equals_sloppy, make_sloppy", "masstree_struct.hh: leaf::ksuf_equals"]}
{"id": "C33", "title": "Bit tricks compute what their documentation says", "statement": "find_lowest_zero_nibble returns the index of the lowest zero nibble or -1; rounding up/down to powers of two and multiples return the documented value whenever it is representable.", "quantifier": "all 64-bit words", "why_tests_cant": "2^64 inputs.", "anchors": ["compiler.hh: find_lowest_zero_nibble, iceil_log2, ifloor_log2, iceil", "kvthread.hh: threadinfo::pool_allocate"]}
{"id": "C34", "title": "Checkpoint partitioning covers the key space without overlap", "statement": "The split points chosen for a parallel checkpoint of a table at rest are increasing keys and the ranges they delimit cover every key; every key is in exactly one range unless a split point is the empty string, which needs a leftmost leaf that is empty or a key whose first eight bytes are zero. Reading the part files of all ranges back in any order restores the table in every case. Finding the split points follows no null pointer if no internode has lost its first child, and can follow one otherwise.", "quantifier": "all operation histories, all worker counts, all keys", "why_tests_cant": "Depends on the tree shape at each height and on key prefixes of chosen split keys.", "anchors": ["query_masstree.cc: query_table::findpivots", "mtd.cc: checkpoint threads", "checkpoint.hh: ckstate"]}
{"id": "C35", "title": "The server answers each request with the reply its command and outcome call for", "statement": "The reply to a request carries the request's sequence number, the reply code for its command and the outcome the table operation had, as given by a map from keys to rows, and the table changes exactly as this map; a request with an unknown command, or a put without complete column-value pairs, is answered with -1, changes nothing and ends its connection; any other request (wrong types) ends the server. Every connection is sent its replies in order, whatever the cutting of its bytes into reads, and nothing is served on it before its handshake is accepted. With the default row type, columns put are read back as put and other columns as before.", "quantifier": "all request values, any connection history", "why_tests_cant": "All shapes of decoded values, all cuttings of the byte stream and all interleavings of connections must be covered.", "anchors": ["mtd.cc: onego, handshake, tcp_threadfunc", "kvproto.hh"]}
{"id": "C36", "title": "Removing the last key of a nested layer and garbage-collecting it hides no key", "statement": "Whenever a nested layer is found empty and is collapsed, or a root of a layer is replaced by its child, lookups, inserts and scans through the parent still behave as the same map.", "quantifier": "all histories that empty a layer, with re-insertions before or after collection", "why_tests_cant": "Collection is deferred and can interleave with re-insertion under the same prefix.", "anchors": ["masstree_remove.hh: gc_layer, gc_layer_rcu_callback", "masstree_struct.hh: maybe_parent, is_root"]}
{"id": "C37", "title": "Locks are acquired in an order that cannot deadlock", "statement": "No set of concurrent inserts, splits, removals and leaf-list operations can reach a state in which threads wait for each other's locks in a cycle.", "quantifier": "all interleavings; any number of threads", "why_tests_cant": "Deadlock requires specific schedules across several nodes.", "anchors": ["masstree_struct.hh: locked_parent", "masstree_split.hh: make_split", "masstree_remove.hh: remove_leaf, redirect", "btree_leaflink.hh"]}
{"id": "C38", "title": "Destroying a table releases every node exactly once", "statement": "Destroying a table ends without touching freed memory and hands each node and each external suffix bag that the table's pointers lead to, in all layers, to the allocator exactly once, and nothing else but the callback itself. Rows are not released, and nodes above a stale layer pointer leak.", "quantifier": "all reachable tables including nested layers with replaced roots", "why_tests_cant": "Leaks and double frees depend on tree shapes that only some histories build.", "anchors": ["masstree_remove.hh: destroy_rcu_callback, basic_table::destroy"]}
{"id": "C39", "title": "Statistics report the true number of keys", "statement": "In a table whose layer pointers lead to the current layer roots, the report's total equals the number of keys, key_by_layer has the number of keys found in each layer, l1_size_sum the number of keys below the first layer, l1_count the number of nested layers, and the heights printed by stats add up to the number of keys; key_by_length is exact for keys of up to eight bytes and 55 too high for keys stored with a suffix. With a stale layer pointer the JSON report counts fewer keys.", "quantifier": "all tables", "why_tests_cant": "Unbounded shapes.", "anchors": ["masstree_stats.hh: node_json_stats, json_stats"]}
{"id": "C40", "title": "Fast decimal keys enumerate in numeric order", "statement": "Fixed-width decimal key strings compare in numeric order, and the in-place decimal or binary increment of such a string gives the string of the next number whenever it does not overflow the width.", "quantifier": "all numbers and widths", "why_tests_cant": "Carry chains of every length.", "anchors": ["misc.hh: quick_istr::set, increment_from_end, binary_increment_from_end"]}
{"id": "C41", "title": "Output buffers keep every byte and stay within their memory", "statement": "For any sequence of appends, reservations, writes and flushes whose total size is at most 2^31 bytes, every operation ends, no store leaves the buffer, and the bytes received by the file followed by the bytes in the buffer are exactly the bytes written, in order, provided no write fails. A stream of whole writes to a file may be arbitrarily long. Beyond 32-bit sizes growing the buffer loops for ever or overruns; a failed write makes bytes be sent twice.", "quantifier": "all operation sequences, all buffer sizes, all patterns of short and blocked writes", "why_tests_cant": "Involves sizes of gigabytes and arbitrary interleavings of short writes.", "anchors": ["kvio.hh: kvout::append, kvout::reserve", "kvio.cc: kvout::grow, kvflush, kvwrite, new_kvout, new_bufkvout"]}
{"id": "C42", "title": "No empty leaf stays in a layer except the leftmost one", "statement": "After any sequence of complete operations every layer of the tree has all its leaves but the leftmost one nonempty: removing the last key of a leaf unlinks the leaf, and neither splits nor layer creation leave an empty leaf behind. A cursor that prepares an insertion and then finishes without one can leave an empty leaf.", "quantifier": "all operation histories, all layers", "why_tests_cant": "Depends on the shape reached by long mixed histories of splits, removals and layer creation.", "anchors": ["masstree_remove.hh: tcursor::remove_leaf, tcursor::finish_remove", "masstree_split.hh: tcursor::make_split", "masstree_insert.hh: tcursor::make_new_layer, tcursor::finish_insert"]}
{"id": "C43", "title": "The message decoder accepts exactly the message format", "statement": "The streaming message parser, given any bytes in any pieces, ends with a value exactly when the bytes begin with a message for that value in the format (any width of integer or length may be used, an object key may be a string or an integer, a repeated key takes the last value), and it stops right after that message. No message is a prefix of another. After an error no continuation is a message; between items and within a string some continuation is. A 4-byte float is read as a double of the same value and sign. The log's own reader of such bytes reads every form of integers and strings and skips every primitive of at most 32 bits.", "quantifier": "all byte strings, all ways of cutting them, all nesting depths and widths", "why_tests_cant": "Tests encode with the program's own encoder, which uses only the shortest forms; clients may send any form, and the set of accepted and rejected byte strings is infinite.", "anchors": ["msgpack.cc: streaming_parser::consume", "msgpack.hh: format, parser"]}
{"id": "C44", "title": "What the server logs for its requests replays to the rows it holds", "statement": "For any sequence of requests served from an empty table, the log records the server writes for them (the change set cut out of the bytes the connection remembers for a put, the row for a replacement, with the previous timestamp of the row) describe the history of the row of every key that was not removed: replayed in any order, from memory or from the bytes of the log files, they give the row the table holds; and after a crash, recovery from a checkpoint and the logs gives, for one number of requests, the rows the table held after that many requests. A connection remembers the bytes of every request that lies in one input buffer, however it arrives in pieces. A put that crosses the end of a buffer, one with a 64-bit sequence number and one with a column given as a double are served, but what is logged for them cannot be read.", "quantifier": "all request sequences, all encodings in the message format, all ways of cutting the input, all orders of replay, all crash points", "why_tests_cant": "Tests use one client encoding, short requests and no crashes; whether the logged bytes are what recovery needs depends on buffer positions and on the encoding the client chose.", "anchors": ["mtd.cc: onego, conn::receive, hard_check, recent_string", "log.cc: logset, loginfo::record", "kvrow.hh: query::run_put, run_replace", "msgpack.hh: parser::skip_primitives"]}
{"id": "C45", "title": "Concurrent operations give every node back once and lose none", "statement": "Provided that remove_leaf takes out of a parent the node it removes, as its assertion says (C46 has a run where it takes out another), for all interleavings of lookups, splits, layer creations, leaf removals, collapses of internode chains and collapses of empty layers, no node is given to deallocate_rcu twice, and whenever no lock is held the nodes ever made and not given back are exactly those reachable from the first leaf over parent, child and layer pointers. A node given back is no node's child any more, unless the thread that takes it out still holds its lock; remove_leaf never follows a null parent pointer; following parent pointers from a layer pointer leads to a root that has not been given back. A layer pointer itself may be left naming a node that has been given back.", "quantifier": "all interleavings; any number of threads, nodes and layers; nodes of any width", "why_tests_cant": "A leak or a double free in removal needs a schedule in which splits, collapses and layer removal overlap on the same nodes.", "anchors": ["masstree_remove.hh: remove_leaf, gc_layer", "masstree_split.hh: make_split", "masstree_insert.hh: make_new_layer", "masstree_get.hh: find_locked", "masstree_struct.hh: locked_parent"]}
{"id": "C46", "title": "Removing a leaf races with a split of its neighbour", "statement": "It is false that lookups, inserts, splits and removals of leaves that race are linearizable. Two threads insert the same key into a full last leaf, and one of them removes it again: with some schedule both inserts and the removal return, the insert of the other thread being last, and the root then leads from the key to a deleted leaf. As long as no other key is changed, no lookup of the key ever returns and no update of it ever finds a leaf to change; the deleted leaf, which has been given to RCU, stays in the tree. Both search methods of internodes are affected.", "quantifier": "all continuations of the run, with any number of threads", "why_tests_cant": "The window is between the unlinking of a leaf and the locking of its parent; a test has to hit it with an insert of the very key just removed.", "anchors": ["masstree_remove.hh: remove_leaf", "masstree_split.hh: make_split", "masstree_struct.hh: advance_to_key, reach_leaf", "ksearch.hh: key_upper_bound_by"]}
{"id": "C47", "title": "Lookups racing with removals of leaves are linearizable in tidy runs", "statement": "Take any execution of one layer in which threads look up keys, insert, remove entries, split leaves and internodes, and remove leaves and internodes that have become empty. If whenever an internode is changed the search finds the child that is meant (asserted by the code for removals) and the new key is between its neighbours, then the execution is linearizable: there is one history of the map that changes only by publications; every lookup returns a value that was current during the lookup; every update that returns takes effect exactly once, during the update; in particular a key that is present all the time is found although leaves around it come and go, and nobody changes a deleted leaf. C46 shows that the condition is needed.", "quantifier": "all tidy executions, any number of threads, any interleaving, any tree size", "why_tests_cant": "Removal of a leaf takes many separate steps (mark, unlink, lock parent, take out, redirect keys above, collapse internodes), with readers anywhere in between; tests see a tiny part of the interleavings.", "anchors": ["masstree_remove.hh: finish_remove, remove_leaf, redirect", "masstree_split.hh: make_split", "masstree_struct.hh: reach_leaf, advance_to_key, locked_parent, stable_last_key_compare", "masstree_get.hh: find_unlocked, find_locked", "btree_leaflink.hh: unlink"]}
{"id": "C48", "title": "With one writer at a time, or with leaves removed by one thread alone, removals lose nothing", "statement": "Take any execution of one layer with lookups, inserts, removals, splits, and removals of leaves and internodes. If while a thread removes a leaf, from marking it deleted to the end, no other thread has a node locked (other threads may search and read anywhere), then the assertions of remove_leaf and redirect hold, a new node is always put right after the one it was split off, the keys of internodes stay strictly increasing, and the execution is linearizable; in particular a key nobody changes is found. So it is if at most one thread at a time is updating, with any number of readers. C46 shows that this fails with concurrent writers.", "quantifier": "all executions in which leaves are removed alone, any number of threads, any interleaving, any tree size", "why_tests_cant": "The condition separates the executions that are safe from those that lose keys; a test can neither enumerate the interleavings of readers with the many steps of a removal nor all shapes of trees in which keys above a removed leaf must be redirected.", "anchors": ["masstree_remove.hh: remove_leaf, redirect", "masstree_split.hh: make_split", "masstree_struct.hh: reach_leaf, advance_to_key, locked_parent"]}
{"id": "C49", "title": "The memory pools of threads hand out blocks that do not overlap, and lose none", "statement": "Threads get blocks for tree nodes from lists of free blocks, one list per thread and number of cache lines, filled by cutting up large areas; a block goes to the list of the thread that frees it, at once or when its epoch is over. In every execution in which only blocks in use are freed, once and with as many lines as they were asked for: two blocks in use have no byte in common; a new block is not null, not in use, within memory of the system, and at a cache line; the bytes of a block in use are changed only by writes to them; a free block is in one list of one thread, once; no block is lost, and an area is cut into as many blocks as it has room for. The number of lines that the epoch-based free takes from the tag is that of the block, and leaves are always freed with the size they were made with, also after their bag of suffixes was replaced.", "quantifier": "all executions of any number of threads, all sizes up to 20 lines, all areas", "why_tests_cant": "Overlap needs a particular order of frees by different threads and of refills; a test sees only the few it runs, and a lost or shared block shows up late and elsewhere.", "anchors": ["kvthread.hh: pool_allocate, pool_deallocate, pool_deallocate_rcu, free_rcu", "kvthread.cc: initialize_pool, refill_pool", "masstree_struct.hh: leaf::make, allocated_size", "mtcounters.hh: memtag"]}
{"id": "C50", "title": "Strings that share memory behave as values, and their memory is freed exactly when the last one goes", "statement": "Strings refer to parts of reference-counted blocks that several strings share; a string whose end is the end of what is used of its block grows in place, others are copied. For every sequence of constructions from buffers and constants, copies, moves, substrings, assignments and appends (also of parts of the string itself), fills, c_str, unique, shrink_to_fit, swaps and destructions, in which strings that were moved from are only assigned, swapped or destroyed, and none is moved to itself: no freed memory and no byte beyond a block is touched; every string has the characters it would have if strings shared nothing; the reference count of a block is the number of strings that hold it, and it is freed exactly when there are none, so that nothing remains when all strings are destroyed; c_str gives the characters followed by NUL; substrings with negative positions and lengths are those of the documentation. Writing through mutable_data changes no other string if the string shares no memory. If it does, the code returns the shared memory, because its test for sharing is inverted.", "quantifier": "all sequences of operations on any number of strings, all contents", "why_tests_cant": "Whether an append is in place depends on who else appended before; aliasing needs particular combinations of sharing, substrings and self-assignment, of which there are infinitely many.", "anchors": ["string.cc: assign, append_uninitialized, append, substr, mutable_data, create_memo, delete_memo", "string.hh: rep_type, memo_type, c_str, is_shared, unique, shrink_to_fit, move construction and assignment"]}
{"id": "C51", "title": "Scans racing with inserts, updates, splits and removals miss nothing that stays and invent nothing", "statement": "A scan of a layer, forward or in reverse, reads leaves one access at a time while other threads insert, update and remove entries, split nodes and remove leaves. The entries it visits are in strict order from where it starts (none twice), and each was in the layer, with the value visited, at some time during the scan. Every entry to be visited that is in the layer at all times from the start to the end of the scan is visited; if the scan is stopped early, every such entry before the one visited last. So an entry that nobody changes meanwhile is visited with its value if and only if it is there. What is visited altogether need not be the contents of the layer at any one time.", "quantifier": "all executions of any number of threads, all scans in both directions from any position, any number of leaves, restarts and retries", "why_tests_cant": "Whether a scan misses an entry depends on how splits and removals of leaves fall between its reads of versions, permutations and links; the number of interleavings is unbounded.", "anchors": ["masstree_scan.hh: scanstackelt::find_initial, find_retry, find_next, forward_scan_helper, reverse_scan_helper, basic_table::scan", "masstree_key.hh: assign_store_ikey, shift_clear, shift_clear_reverse"]}
{"id": "C52", "title": "Scans of the whole tree racing with changes miss no key that stays and invent none", "statement": "A scan of the tree from any byte string, forward or in reverse, goes down into layers and back up while other threads insert, update and remove keys, split nodes, remove leaves, create layers, and remove empty ones. The keys it visits are in strict byte-lexicographic order (or its reverse) from the start key, which itself is visited only if asked for; each was in the tree with the value visited at some time during the scan. Every key to be visited that is in the tree at all times of the scan is visited, also if it moves to a new layer meanwhile; if the scan is stopped early, every such key before one that was visited. A key that nobody changes meanwhile is visited with its value if and only if it is there.", "quantifier": "all executions of any number of threads, all start keys and stored keys of any length, any depth of layers, both directions", "why_tests_cant": "The scan of a layer, the layers below, and the changes of all of them interleave without bound; the state kept across layers (stack, key buffer, upper_bound_) matters only for particular interleavings.", "anchors": ["masstree_scan.hh: basic_table::scan, scanstackelt::find_initial, find_retry, find_next, forward_scan_helper, reverse_scan_helper", "masstree_key.hh: shift, unshift, shift_clear, shift_clear_reverse, assign_store_ikey, assign_store_suffix, assign_store_length"]}
{"id": "C53", "title": "Printed Json is read back as the same value", "statement": "For every Json value without doubles whose integers are between -2^63+1 and 2^64-1, whose strings and keys are the UTF-8 of characters other than U+0000, U+2028 and U+2029, whose objects have no key twice, and whose containers are at most 2048 deep: the text that unparse prints for it, on one line or on several with any indentation, separators and newline, is parsed back as that value. So different values are printed differently. The parser stops right after such a text, whatever follows it (for a number: anything but a digit, a point or an e). The conditions are needed: a string with U+2028 is read back as another string, one with U+0000 is refused, an integer 2^64 is read as 0, the array value of a key that is repeated is appended to.", "quantifier": "all values of any size, all manipulators, all texts that follow", "why_tests_cant": "Values, strings and nestings are unbounded; the printer and the parser have different tables of escapes and the failures are at single characters.", "anchors": ["json.cc: Json::hard_unparse, unparse_indent, assign_parse, streaming_parser::consume, consume_string, consume_backslash, consume_stringpart, consume_primitive, consume_number", "json.hh: Json::unparse", "string_base.hh: String_base::encode_json", "straccum.cc: StringAccum::append_utf8, append(long), append(unsigned long)"]}
{"id": "C54", "title": "The streaming parser's outcome does not depend on how the text is cut", "statement": "If a text is given to Json::streaming_parser in chunks, cut anywhere, also inside numbers, words, escapes and characters, the parser accepts if and only if it accepts the text in one piece, with the same value, and leaves the same rest, provided no chunk ends with 0xE0, 0xED, 0xF0 or 0xF4, the lead bytes after which not all continuations are characters. Without that provision it holds whenever no byte beyond a chunk is read; a chunk that ends so is read beyond its end.", "quantifier": "all byte strings, all ways to cut them into any number of chunks", "why_tests_cant": "The ways to cut a text are exponential in its length, and the state that is kept between chunks (partial number, word, escape) must agree with a parse that never stops.", "anchors": ["json.cc: Json::hard_unparse, unparse_indent, assign_parse, streaming_parser::consume, consume_string, consume_backslash, consume_stringpart, consume_primitive, consume_number"]}
{"id": "C55", "title": "The Json parser takes exactly UTF-8 strings and decodes escapes", "statement": "A string literal without quotes and backslashes inside is accepted if and only if its bytes are the UTF-8 of characters from U+0020 on (no overlong forms, surrogates, numbers above U+10FFFF, or cut characters), and then its value is those bytes. A literal in which every character is written as it is, with a short escape, with \\u and four hexadecimal digits, or with a surrogate pair of such escapes, is parsed to the UTF-8 of the characters. A single \\u escape of a character gives that character if and only if it is not U+0000, U+0800 to U+7FFF, U+FFFE or U+FFFF; those between U+0800 and U+7FFF give two bytes that are another text.", "quantifier": "all byte strings; all sequences of characters and spellings", "why_tests_cant": "The claim is an equivalence over all byte strings, with the boundaries of UTF-8 in the second byte of three- and four-byte forms.", "anchors": ["json.cc: streaming_parser::consume_string, consume_stringpart, consume_backslash", "straccum.hh, straccum.cc: StringAccum::append_utf8"]}
{"id": "C56", "title": "The nesting limit of the Json parser holds for arrays and is bypassed by objects", "statement": "A text that begins with more than 2049 opening brackets is refused, whatever follows, and a value in n arrays is accepted if and only if n is at most 2049. But for every n the text of an object in 2048 arrays whose member is a value in n arrays is accepted and yields that value, so the parser bounds the depth of no value in general.", "quantifier": "all n, all texts that follow", "why_tests_cant": "The limit is compared by equality with a stack whose size can step over it; which nestings do is a statement about all depths.", "anchors": ["json.cc: streaming_parser::consume", "json.hh: streaming_parser::max_depth"]}
{"id": "C57", "title": "Operations on the whole tree are linearizable while layers are created and collected", "statement": "Threads look up, insert, replace and remove keys of any length, each going down through layers without locks, while others put keys into new layers and collect layers that have become empty. A lookup returns what the tree had for its key at some time between its begin and its end, even if the layers it went through were taken out meanwhile. An insertion gives its key the value at one moment in between and changes no other key (or the key has the value already, or it finds a link or another key's suffix, leaves it and goes on); a removal removes the key with the value it found, at one moment, and no other, or there was a time in between at which the key was not there. Creating a layer, collecting one, and changes in layers that are not linked do not change what is in the tree. Whenever the contents of the tree change, it is one key, and some thread publishes an entry for that key in the layer where it belongs. There is one way to every layer. Scans meanwhile visit every key that stays.", "quantifier": "all executions of any number of threads with any number of layers at any depth, all keys and values", "why_tests_cant": "The dangerous cases need one thread to hold a pointer into a layer that another empties, marks and unlinks between two of its accesses, at any depth; these windows are a few instructions wide.", "anchors": ["masstree_get.hh: unlocked_tcursor::find_unlocked, tcursor::find_locked", "masstree_insert.hh: find_insert, make_new_layer, finish_insert", "masstree_remove.hh: gc_layer, gc_layer_rcu_callback, finish_remove"]}
{"id": "C58", "title": "A client matches replies with requests, and takes for the answer what the map holds", "statement": "A client has up to a window of requests under way and matches each reply with its request by a 32-bit sequence number, in whatever order replies come and also after the numbers have wrapped around: the reply to a request under way passes all checks and is taken for that request; a second reply, or one to a request not sent, is noticed; the window is empty exactly if everything is answered; the client waits only if a reply is due; at most a window of requests are unanswered. Messages contain nothing of earlier messages. On a connection of a running server, whatever else the server does and however the bytes are cut into blocks, the handshake succeeds, the replies are received one by one, the k-th carries the number of the k-th request, is the specified answer for the map at that point of the server's history, and is matched with that request. The client then is told whether a put inserted or updated, and the column or first column for a get. Exceptions are proved: a get of a missing key is told the key, a remove callback fails a precondition, column lists end the server, a window of 0 hangs.", "quantifier": "all windows that the option check allows, all request sequences of any length, all orders of replies, all ways to cut bytes into blocks, all executions of the server", "why_tests_cant": "Sequence numbers wrap after 2^32 requests, replies come out of order only with UDP under load, and every way to cut a byte stream into blocks would have to be tried; the client is itself the test tool, so that nothing checks it.", "anchors": ["mtclient.hh: KVConn::send*, receive, handshake", "mtclient.cc: child::check_flush, checkasync, get, aget, aput, aremove, KVConn::hard_check", "mtd.cc: onego, tcp_threadfunc"]}
{"id": "C59", "title": "A Json object is a finite map in order of insertion, whatever the hash function", "statement": "After any sequence of settings, insertions, erasures and clearings of a new object, its hash table and item array behave as a list of distinct keys with values in order of insertion: every operation returns what it returns on the list, a key is looked up as in the list, the size is the number of keys, chains end and stay inside the arrays, an iterator goes through the list in order and may erase the item it is at, and merging puts the other object's items in order. The only undefined operation is an erasure before anything was put in. The table is not bounded by the number of keys: each key beyond the fifth with the same hash code doubles it, and there are such keys in any number (sixteen are shown), so that its memory is exponential in the number of keys. The places of erased items are never used again.", "quantifier": "all hash functions, keys, values and sequences of operations; for the growth of the table, all numbers of keys and the hash function of the code", "why_tests_cant": "Wrong links show only with particular collisions and erasures in chains of particular lengths, also after rehashing; random keys never collide enough to double the table repeatedly.", "anchors": ["json.cc: Json::ObjectJson::grow, rehash, find_insert, get_insert, erase", "json.hh: Json::ObjectJson::find, bucket, const_object_iterator::fix, set, unset, insert, erase, merge", "string.cc: String_generic::hashcode"]}
{"id": "C60", "title": "Locks, versions and validated lookups survive store buffers; the visibility of a returned put does not", "statement": "On a machine whose threads buffer their stores in order and read their own buffers (x86-TSO), where locks are taken by compare-and-exchange with an empty buffer and everything else, including the unlocking, is a plain store: two threads never have the same object locked, an object is not locked while stores of another thread to it are on their way, and nobody else changes what the holder sees. Memory goes through the states of a machine without buffers. Whatever a thread sees of an object is in memory at that time or by the time its buffer has drained, and stores of a thread to different objects become visible in the order they were made. Hence what each thread sees of a leaf is a run of the leaf without buffers, and validated lookups find and miss keys rightly. But two threads that each put a key in another leaf and then get the other's key can both miss it, which no order of the operations explains; with empty buffers at the gets they cannot.", "quantifier": "all numbers of threads and objects, all programs that store to objects only under their locks, all delays of stores", "why_tests_cant": "The delay of a store is a matter of nanoseconds and depends on the processor; a test that does not look for the reordering with the two gets in exactly that window never sees it, and a test on another processor proves nothing.", "anchors": ["nodeversion.hh: nodeversion::lock, try_lock, unlock, mark_*", "compiler.hh: fence, acquire_fence, release_fence, memory_fence, bool_cmpxchg", "masstree_get.hh: unlocked_tcursor::find_unlocked", "masstree_insert.hh: tcursor::finish_insert, finish"]}
{"id": "C61", "title": "Programs that fence between their stores and unlocked loads do not notice store buffers", "statement": "Let a program, on a machine without store buffers, store only to objects its thread has locked, take locks only by compare-and-exchange, and not load an object it has not locked after a store until a fence or compare-and-exchange. Then on a machine with store buffers (x86-TSO) the threads together get only to places, with all they have read, to which they can get without buffers; memory has only contents it can have without; and what a thread would read fits its place as without. The condition on loads is needed: two threads that each update their object under its lock and then read the other's both read the old value with buffers, never without, and never with buffers if they fence in between.", "quantifier": "all programs, also nondeterministic ones, any number of threads and objects, all delays of stores", "why_tests_cant": "It is a statement about all programs and all timings of the processor; a test can only fail to see a reordering.", "anchors": ["nodeversion.hh: nodeversion::lock, try_lock, unlock", "compiler.hh: bool_cmpxchg, fence, memory_fence", "masstree_struct.hh: node_base::locked_parent"]}
{"id": "C62", "title": "The natural order of strings is an order only without periods and without bytes above z", "statement": "natural_compare gives zero for equal strings alone. Strings without periods are compared token by token, where a run of digits is one token with its value (negative after a dash at the start or after a space), then the number of its leading zeros, and letters are compared without case; the first byte that differs decides between strings with the same tokens. On such strings a is less than b exactly if b is greater than a, and if also no byte is above 'z' the comparison is transitive; after a common beginning the smaller number decides, however many digits it has. With fractions this fails: of 0.1 and 0.01 (any two different powers of 0.1) each is less than the other. With a byte c above 'z' there is a cycle: letter < c < digit < letter.", "quantifier": "all byte strings of any length and any content", "why_tests_cant": "That a comparison function is an order is a statement about all pairs and triples of strings; a test sees an inconsistent sort only if the wrong triple happens to be compared in the wrong order.", "anchors": ["string.cc: String_generic::natural_compare"]}
{"id": "C63", "title": "Glob patterns match what they denote, except that a class misses its first character and takes the closing bracket", "statement": "For every pattern without '[', glob_match answers true exactly for the strings the pattern denotes (? any character, * any string, backslash quotes, all else itself), although it works on a set of states and strips the literal end of the pattern first. For every pattern its answer is what the pattern denotes if a class is taken to hold its characters from the second on and ']'. Hence [abc] does not match a and matches ], and [^a] matches a; classes that begin with ']' are right. If every '[' has its ']' nothing outside the pattern is read; otherwise the byte after the pattern can be read.", "quantifier": "all strings and patterns", "why_tests_cant": "The equivalence with the denotation holds for all patterns and strings; tests sample a few patterns, and the ones in the repository have no class.", "anchors": ["string.cc: String_generic::glob_match"]}
{"id": "C64", "title": "Encodings are undone by decoders, except for printable", "statement": "decode_base64 gives back what encode_base64 encoded, padded or not; it accepts exactly strings over the 64 digits whose number is not one more than a multiple of four, followed by any number of '='; a bad digit in any place is found by the one test of the sign of the combined word; both write within what they reserve. Percent-decoding undoes encode_uri_component, whose output has only unreserved characters and '%'; reading pairs of digits undoes to_hex. printable gives printable characters for every type, and with C escapes the bytes from the first unprintable one on are read back by a reader of C escapes. But the part before that byte is copied with quotes and backslashes unescaped, so printable(2) of a newline and of backslash-n are the same, and every string with an unprintable byte shares its form with another string.", "quantifier": "all byte strings of any length; all strings given to the decoder", "why_tests_cant": "Round trips and exact acceptance are statements about all byte strings and all combinations of bad digits; the tests in the repository have three strings for the URI encoding and none for base 64.", "anchors": ["string_base.hh: String_base::encode_base64, decode_base64, encode_uri_component, upper_hex_nibble", "string.cc: base64_encoding_table, base64_decoding_map, String::printable, hard_printable, to_hex"]}
{"id": "C65", "title": "String comparisons, searches and number parsing do what they say, except that find_right can look beyond the end", "statement": "compare is the lexicographic order of bytes (also if both strings start at the same address), equals is equality, starts_with the prefix relation. find_left finds the first place of a character or string at or after the start position, whatever that position is, and looks at nothing outside the string; find_right finds the last place at or before it, for a string if the position is at or beyond the end or leaves room for the string. Otherwise find_right compares bytes beyond the end: undefined if memory ends there, and it can return a place where the string is not contained. to_i is the value of sign and digits at the start, reduced modulo 2^64 to the range of long, hence exact within it, and 0 without digits. trim cuts exactly the spaces at both ends; lower and upper change exactly the ASCII letters.", "quantifier": "all strings, positions (also negative and beyond the end) and contents of the memory behind the string", "why_tests_cant": "A read beyond the end usually meets mapped memory and usually finds other bytes; only with a substring whose continuation matches is the answer visibly wrong.", "anchors": ["string.cc: String_generic::compare, find_left, find_right, to_i, String::lower, upper", "string_base.hh: String_generic::equals, starts_with, ltrim, rtrim, trim"]}
{"id": "C66", "title": "Conversions to UTF-8 read their input rightly; characters from U+0800 to U+7FFF and parts of Windows-1252 come out wrong", "statement": "utf8_to_utf8 gives well-formed UTF-8 without zeros for every input: it keeps every character and drops or replaces every bad byte with the continuation bytes after it, so that well-formed text without zeros is not changed. cesu8_to_utf8 does the same and joins pairs of surrogates, but never writes the replacement character it is asked for. The conversions from UTF-16 read every sequence of words rightly in both byte orders, take the byte order from the mark, drop or replace lone surrogates, and give UTF-8 exactly for the characters other than U+0800 to U+7FFF, U+FFFE, U+FFFF and zero. windows1252_to_utf8 is right exactly for the bytes outside a list of 19; the table is wrong at 0x88 and 0x98. to_utf8 leaves well-formed text without zeros alone, takes text whose first byte that is not ASCII begins no character for Windows-1252, and does not drop a byte order mark that stands alone.", "quantifier": "all byte strings, all sequences of 16-bit words, all characters, both byte orders", "why_tests_cant": "The characters and bytes for which it goes wrong are a part of the range; tests with Latin letters or with emoji pass.", "anchors": ["string.cc: skip_utf8_char, parse_cesu8_char, windows1252_to_utf8, utf16be_to_utf8, utf16le_to_utf8, utf16_to_utf8, cesu8_to_utf8, utf8_to_utf8, to_utf8", "string.hh: skip_utf8_bom", "straccum.cc: StringAccum::append_utf8_hard"]}
{"id": "C67", "title": "Accumulators hold what was appended, own their memory alone, and grow in time", "statement": "Whatever sequence of operations a program does on any number of StringAccums (construction, copying, moving, swapping, appending of bytes, of parts of other accumulators and of parts of itself, filling, printing, resizing, c_str, take_string, destruction), as long as no text gets longer than 2^31 - 2^19 - 13 nothing undefined happens, each accumulator and each string taken reads as the list of bytes appended, and each block of memory belongs to exactly one of them; nothing is left when all are destroyed. From a capacity of 2^31 - 2^19 on growing overflows int although the text would fit. vsnprintf adds the length of the whole text: if one byte did not fit the text gets a NUL in its place, if more did not fit in a new accumulator the assertion fails. Growing byte by byte copies at most 2n + 128 bytes for n up to a megabyte and quadratically many beyond.", "quantifier": "all sequences of operations, all byte strings, all lengths", "why_tests_cant": "Appending an accumulator to itself goes wrong only when it must grow at that moment, growth near 2^31 needs gigabytes, and the messages that overflow vsnprintf are those of rare failures.", "anchors": ["straccum.cc: grow, resize, hard_extend, c_str, append_fill, hard_append, take_string, swap, vsnprintf", "straccum.hh: StringAccum"]}
{"id": "C68", "title": "What the random number generators of the tests and benchmarks can give", "statement": "kvrandom_lcg_nr_simple steps twice per call: two results agree in their lowest k+1 bits iff their numbers agree in their lowest k bits, so the lowest bit is the seed's forever, the period is exactly 2^31, and every number with the seed's parity occurs. kvrandom_lcg_nr stays below 2^31, has exactly the multiples of 2^30 as periods, never changes bit 17, and repeats its bits from 17 on after exactly 2^13 results. kvrandom_psdes_nr's n-th result after seed is [n+1], and its rounds are injective. kvrandom_uniform_int_distribution stays in [a, b] and draws each value floor(2^32/n) times, plus one for values numbered below 2^32 mod n; it divides by zero exactly if b + 1 = a, i.e. for the whole type. With the generators' stuck bits, ranges of even size (simple) or of a size divisible by 2^18 (combined) are drawn from only in half. The tests' shuffles permute the array whatever the generator gives.", "quantifier": "all seeds, all numbers of results, all ranges, all arrays of less than 2^32 elements", "why_tests_cant": "Periods of 2^30 are not run through, and a bit that never changes is invisible in tests that only use the numbers as keys.", "anchors": ["kvrandom.hh: kvrandom_lcg_nr_simple, kvrandom_lcg_nr, kvrandom_psdes_nr, kvrandom_uniform_int_distribution", "kvrandom.cc: psdes", "kvtest.hh: kvtest_rw1_seed (shuffle)"]}
{"id": "C69", "title": "Small vectors are lists, keep small ones inside, and give back their memory", "statement": "Whatever sequence of operations a program does on any number of small_vectors (construction, copying, push_back by copy and by move from values and from elements of vectors, pop_back, clear, resize, assignment, erase, writing an element, destruction), as long as no vector gets more than 2^31 elements nothing undefined happens, every object that is constructed is destroyed exactly once, each vector has the size and the elements of the list it stands for, and each block of memory belongs to exactly one vector; nothing is left when all are destroyed. While no vector has more than N elements nothing is allocated. n push_backs allocate g times where the capacity N * 2^g stays below 2n. Exceptions: push_back of a reference to an element of the vector itself when it is full reads the element after it has gone; at a capacity of 2^31 the doubled capacity is 0; with N = 0 the first push_back writes outside and resize never ends.", "quantifier": "all sequences of operations, all element types and what a move leaves behind, all N, all sizes", "why_tests_cant": "Growth at 2^31 elements takes gigabytes, and a reference to an element that has been moved away usually still reads the old bytes.", "anchors": ["small_vector.hh: small_vector (grow, push_back, pop_back, clear, resize, operator=, erase, destructor)"]}
{"id": "C70", "title": "Command lines mean what they say", "statement": "For every table of options with names that are not empty and that differ between options: a long option is found exactly if what is given before '=' is the name of an option or begins the names of that option only (a preferred option also wins against names that go on after its own), whatever the order of the table; if it begins names of several options nothing is found; otherwise only dashes of the name may have been left out. 'no-' before the name negates an option that allows it and 'no-no-' does not. A command line made of any mixture of '--name', '--name=value', '--name value', '--no-name', groups of letters '-abc', '-cvalue', '-c=value', '-c value' and plain words is read as exactly those settings in that order and then the end; everything after '--' is read verbatim. An option whose value may be left out never takes the next word, letters attached to it that are no value are read as further options, and a wrong value after '=' is an error. Every command line comes to its end after at most as many calls as it has characters and words, and no assertion fails. The table of value types stays sorted and inside its array however many are added, and finds the last one added. Exceptions: '0' is not accepted as false, options that agree only without dashes depend on the order of the table, options with one id are not told apart, and a bad option ends the loop in main as the end does.", "quantifier": "all tables of options and value types, all command lines", "why_tests_cant": "Whether an abbreviation is ambiguous depends on every pair of names in a table, and the ways to write settings can be mixed without limit.", "anchors": ["clp.c: compare_options, calculate_lmm, Clp_SetOptions", "clp.c: argcmp, find_prefix_opt, find_long, find_short", "clp.c: val_type_binsearch, Clp_AddType", "clp.c: next_argument, Clp_Next, parse_bool", "mtd.cc: options, main"]}
{"id": "C71", "title": "Memory debugging lets right programs run and stops wrong releases", "statement": "With memory debugging enabled, for every sequence of allocations, releases, deferred releases and frees by any threads in which callers release only blocks in use with the size and type they were allocated with: no assertion of the allocation functions fails, and after any such sequence a further release of a block that the system has not taken back goes through exactly if the block is in use and the size and type (with the pool) are right; so every double release, also after a deferred one or by another thread, and every mixture of pool and other memory, is stopped. A use is let through exactly if the block is in use or waits for its readers and is of the type allowed. Blocks handed out are held by nobody. Rows of the bag layout are released with the size they were allocated with, whatever updates built them. Exceptions: the callback that destroys a table is released with a wrong size and so stopped, a double release into a pool is reported as a pointer that was never allocated, and a release without type is not checked for the type.", "quantifier": "all sequences of calls of any number of threads, all sizes, types and addresses", "why_tests_cant": "The checks are themselves the test oracle: whether they miss an error or stop a right program depends on what the links of free lists leave in the headers in every history.", "anchors": ["memdebug.hh: make, free_checks, check_free, check_rcu, check_free_after_rcu, check_use", "memdebug.cc: hard_free_checks, hard_assert_use", "kvthread.hh: allocate, deallocate, deallocate_rcu, pool_allocate, pool_deallocate, pool_deallocate_rcu, free_rcu", "kvthread.cc: refill_pool, initialize_pool", "value_bag.hh: update, size, deallocate", "masstree_remove.hh: destroy_rcu_callback"]}
{"id": "C72", "title": "Json arrays that share memory behave as values", "statement": "For every program of assignments, copies, moves, push_back, insert, pop_back, erase, resize, reserve, clear and reads of Json variables and their nested elements x[i][j]... in which no statement assigns (a part of) a variable to (a part of) itself: the program never uses a released block or a place outside of a block; in the end every variable reads as the value it would have if every copy had been a full copy; a block exists exactly if some variable leads to it, and its count is the number of its references, so that nothing is left once no variable is an array. Passing a variable to push_back or insert on its own elements is included. Exceptions: j = j[0] uses the released array, j[0] = j makes an array that contains itself (reading it never ends and it is never released), and inserting an element of the array itself by j.insert(pos, j[i]) inserts the element before for i behind pos, and at the end copies memory that was never written.", "quantifier": "all programs (sequences of statements, with any number of variables, nesting, indices and sharing) and all resulting memory layouts", "why_tests_cant": "Whether a change leaks into another variable, a block is released too early, or is kept for ever depends on which blocks are shared at that moment, which depends on the whole history; the graph of sharing is unbounded.", "anchors": ["json.cc: ArrayJson::make, ArrayJson::destroy, hard_uniqueify_array, uniqueify_array_insert, erase, reserve, resize, clear, hard_get, hard_get_insert", "json.hh: ComplexJson::ref, ComplexJson::deref, uniqueify_array, Json(const Json&), operator=, get, get_insert, push_back, pop_back, insert, Json_array_proxy"]}
{"id": "C73", "title": "Plain Json values are tested, converted, compared and added as described, except for unsigned numbers, += and strings without a block", "statement": "For every Json value and all its byte representations: the tests of the type tell its kind; to_b and to_s give what their descriptions say; to_i and to_u give the value of whole numbers, booleans, nulls and sizes, exactly if it fits and otherwise modulo 2^64, the integer part of doubles that fit, and for strings the decimal number in them, with white space in front, kept within the type (0x and 0 in front mean hexadecimal and octal); integers printed by to_s are read back. Equality holds exactly for the same null, text, boolean, whole number (signed or unsigned), equal doubles, and arrays or objects with the same block, so it is an equivalence where equality of doubles is. Adding, subtracting, incrementing and negating nulls and signed numbers gives the sum, difference and so on in 64 bits. A string finds an array element exactly if it is a decimal number without needless zeros. Exceptions: j += x and j -= x for a whole number x double j or make it 0 whatever x is; arithmetic stops for numbers kept as unsigned; if (j) takes the empty string Json(\"\") and -0.0 for true; empty() and size() of a string without reference count take its characters for an array; to_i(int&) stores numbers that do not fit and returns true, and is undefined for doubles that do not; \"010\" is 8 but \"010 \" is 10; get(\"4294967296\") is element 0.", "quantifier": "all values, all representations (unused bytes, strings with and without block), all texts of numbers, all operands; any arithmetic of doubles", "why_tests_cant": "The functions work on reinterpreted bits: sign, width, type code and unused bytes interact, and the wrong cases are single points of 2^64 or depend on how a string was made.", "anchors": ["json.hh: truthy, is_null ... empty, size, to_i, to_u, to_b, to_s, force_number, force_double, add, subtract, operator+=, operator-=, operator-", "json.cc: hard_to_i, hard_to_u, hard_to_b, hard_to_s, operator==, string_to_int_key, hard_get"]}
{"id": "C74", "title": "Files are read and written whole in whatever pieces the system moves them, and failures are reported with the right error", "statement": "Whatever sequence of partial transfers, interruptions, zero returns and errors the calls of read and write answer with: safe_write returns the number of bytes written, which are the first bytes of the buffer in order and each once, or -1 with nothing written and the error in errno; fewer bytes than asked for, or -1, only after a call that returned 0 or failed with an error other than EINTR; safe_read likewise fills the beginning of the buffer with the beginning of the file, leaving the rest of both. If the calls only move at least one byte or are interrupted, everything is written or read. checked_write returns only if all was written. read_file_contents gives the whole file with errno 0 (by name: the error of close, if any), or the empty text with the error of the failing call, never part of it, and closes what it opened. sync_write_file_contents returns 0 exactly if nothing failed, and then the file has the contents and was synced; it closes its descriptor exactly once. atomic_write_file_contents returns 0 with the file having the contents and the temporary file gone, or -1 with the file as it was and errno telling the failing call; no other file changes, and reading gives back what was written. Exceptions: after a write that returned 0 the result is -1 with an old errno; after a failure the temporary file stays; the caller of read_file_contents(fd) that ignores errno (recovery does) takes an unreadable file for an empty one.", "quantifier": "all buffers, counts, files, contents and names; all finite sequences of answers of the system to read and write, and all failures of open, fsync, close and rename", "why_tests_cant": "Short transfers, interruptions and errors at a particular call hardly occur in tests, and their sequences are unbounded.", "anchors": ["file.hh:24-41", "file.hh:43-60", "file.hh:62-67", "file.cc:20-40", "file.cc:42-56", "file.cc:58-78", "file.cc:80-89", "log.cc:831", "mtd.cc:1369", "mtd.cc:1517-1518", "mtd.cc:1575"]}
{"id": "C75", "title": "Numbers on the command line are accepted exactly as described, but not checked against the range of their type", "statement": "For the types int, unsigned, long and unsigned long, a text is accepted exactly if it is an optional sign (no minus for unsigned types) followed by decimal digits, 0 and octal digits, or 0x or 0X and hexadecimal digits, with nothing before or after; the value is the nearest number of 64 bits to the one meant, of which int and unsigned keep the lower 32 bits, so that every number of the type is read as itself, in particular in decimal. Exception: numbers outside the type are accepted silently as others (--threads=4294967297 is 1, and anything beyond 2^63 is -1). A double is accepted exactly if strtod reads all of a text that is not empty and has no white space in front. A number with suffix is accepted exactly if nothing or one of K, M, B, G in either case follows what strtod reads, and is multiplied by 10^3, 10^6, 10^9, 10^9; a suffix alone is refused.", "quantifier": "all texts, all earlier values in the parser, all four integer types, any strtod", "why_tests_cant": "Tests try a few spellings; which texts are accepted is an infinite language, and the wrong values begin beyond 2^31.", "anchors": ["clp.c:1108-1141", "clp.c:1143-1159", "clp.c:564-569", "clp.h:84-104", "misc.cc:20-40", "mtd.cc:578-594", "mtclient.cc:464-487"]}
{"id": "C76", "title": "Time stamps order and subtract like times", "statement": "For clock readings before 2^32 seconds: the parts of a time stamp are its seconds and microseconds; time stamps are ordered exactly like the times; the difference of a time stamp and an earlier or equal one is the time stamp of the time between, with microseconds below a million; epochs made by shifting time stamps right by 16 bits do not go back as long as the clock does not, and advance whenever 65.536 ms have passed. Exception: subtracting a later time stamp gives the seconds modulo 2^32.", "quantifier": "all pairs of clock readings", "why_tests_cant": "The borrow from the seconds and the change of the second are met by chance.", "anchors": ["timestamp.hh:30-46", "mttest.cc:298", "mttest.cc:1099", "masstree_print.hh:93", "masstree_print.hh:154"]}
{"id": "C77", "title": "Statistics, numbers in Str and the greatest key", "statement": "kvstats keeps count, sum and sum of squares of the numbers added, and the least of them; its max is the greatest of them and -1, so it is right exactly if one of them is at least -1; with one number the report divides by zero. Str::to_i gives the number of every text of digits that is 57 below 2^63, and -1 for every other text for which it is defined, also the empty one; it is undefined for 2^63 and already for 2^63 - 1, as the digit is added before '0' is subtracted. Str::maxkey is greater than every text of at most 256 bytes, so than all keys.", "quantifier": "all lists of whole numbers; all texts; all keys of at most 256 bytes", "why_tests_cant": "Unbounded lists and texts; the wrong cases are at the ends of the ranges.", "anchors": ["kvstats.hh:20-51", "str.hh:125-131", "str.cc:19-51", "mtd.cc:455-461", "kvtest.hh:1573", "configure.ac:332-336"]}
{"id": "C78", "title": "Files of the server, and restarts with other settings", "statement": "The names of logs, checkpoint parts and the file that names the checkpoint tell kind, directory, generation and number, so they never coincide. Log names fit in the room made for them; checkpoint names fit in 256 bytes for directories of up to 216 bytes and overflow from 244 on. Lists of directories are the nonempty fields between commas, and there is always one. A restarted server reads all logs that were written exactly if it has at least as many threads and the same directory for each log. With the same settings it reads the whole checkpoint; with fewer threads it silently takes only the first parts; with more threads, or another directory for a part, it stops at an assertion. A log left over from a run with more threads limits the replay of all logs to its last epoch when it is seen again. Deleting the old checkpoint leaves the new one whole. There is a core for every thread and connections go to existing threads in turn; without threads the first connection divides by zero.", "quantifier": "all directories, numbers, generations, settings, disks, parts and logs; all lists of cores and connections", "why_tests_cant": "It relates two runs with arbitrary different settings; tests restart with the same settings, and names of directories are short.", "anchors": ["mtd.cc:603", "mtd.cc:616-630", "mtd.cc:657-702", "mtd.cc:852-859", "mtd.cc:1236-1257", "mtd.cc:1330-1339", "mtd.cc:1362-1387", "mtd.cc:1442-1455", "mtd.cc:1535-1566", "mtd.cc:1568-1589", "log.cc:701-743"]}
{"id": "C79", "title": "Breaking text into lines", "statement": "StringAccum::append_break_lines appends, each with margin and newline, lines that follow each other in the text with only white space between them and have exactly its words in order, none split, lost or joined. Every line but the last ends in white space and would exceed the length with the next word. A line has at most the asked length, or one byte more that is white space, or is a single word. A text that fits is one line, unchanged.", "quantifier": "all texts, lengths (also negative) and margins", "why_tests_cant": "No test calls the function; the pointers skip one byte per word, and only a proof over all layouts of white space shows that no letter is skipped.", "anchors": ["straccum.cc:369-396", "straccum.hh:121"]}
{"id": "C80", "title": "The phases of recovery are barriers, and recovery ends", "statement": "With any numbers of checkpoint threads and loggers: a thread works in a phase of recovery only while it is the phase, and only after all threads have finished the earlier phases they take part in; when recphase returns, all have finished the phase and none works; rec_nactive is the number of threads that have not finished the phase, so it is never negative; no thread waits for a phase that is over, and none sleeps while its phase is there. As long as recovery is not over some thread can go on without being woken for no reason, and every step brings the end nearer, so recovery ends with all threads through.", "quantifier": "all interleavings of any number of threads, with spurious wake-ups", "why_tests_cant": "Lost wake-ups and missed phases depend on the schedule of many threads at start-up.", "anchors": ["mtd.cc:1312-1349", "mtd.cc:1330-1339", "mtd.cc:1380-1478", "log.cc:837-867", "log.hh:162-163"]}
{"id": "C81", "title": "The loop of a TCP thread: each waiting connection once, none that is deleted", "statement": "In every run of the loop of a TCP thread no deleted connection is used and no call of epoll_ctl fails; no connection is twice on the queue of those that wait, and exactly the allocated connections are watched, each under its own open descriptor. After wait exactly the connections that were reported are on the queue; they are served in order, and none is served again before those that waited with it; a served connection waits again exactly if bytes are left in its buffer and is deleted exactly if it is closed; of new connections exactly those with a good handshake stay. The version with select is a map from descriptors below FD_SETSIZE to connections: after any additions and removals it reports the connections of the ready descriptors, each once, without access outside its vector, and its first argument is the largest watched descriptor plus one. A connection that always leaves bytes in its buffer keeps the thread from looking at the others.", "quantifier": "all sequences of events, new connections and ends of services; all sequences of additions and removals", "why_tests_cant": "Use of a deleted connection needs a particular order of closes, reused addresses and reused descriptors among many clients.", "anchors": ["mtd.cc:1009-1047", "mtd.cc:1049-1093", "mtd.cc:1111-1178", "mtd.cc:474-480"]}
{"id": "C82", "title": "The list of tests keeps its order, and is printed complete and in columns", "statement": "Tests form a list in the order of their construction: first gives the first, find ends and gives the first with the name, and the collected names are all names in order. print_names takes the largest number of columns up to the given one with which the widths and margins sum to at most 78, or 1; the width of a column is that of its longest name, and no access is outside the vector of widths. Each name is in exactly one line and column; a line consists of the names that belong there, each behind three spaces and, except the last, filled with spaces to the width of its column, so names of a column begin at the same place and lines with several columns have at most 78 bytes.", "quantifier": "all lists of tests with distinct addresses; all lists of names and numbers of columns", "why_tests_cant": "The layout depends on the number and lengths of all names; programs here have one list of names each.", "anchors": ["testrunner.hh:6-33", "testrunner.cc:24-54"]}
{"id": "C83", "title": "The window of a client: every reply meets its request", "statement": "With any window the client accepts other than 0, any number of requests (also more than 2^32) and replies in any order, as over UDP: the reply to a request that is not answered passes all assertions and the callback gets what that very request left in its slot; no other reply is accepted, neither a second one nor one with a number that was not sent. The window begins with the oldest request that is not answered and ends with the last one sent; a request waits exactly if the one a window before it is not answered; waiting for all ends exactly when all are answered. The accepted windows are the powers of two up to 512 and 0, and no access is outside the array; with window 0 no request is ever sent.", "quantifier": "all windows, all sequences of requests and replies", "why_tests_cant": "A slot used too early shows only with particular reorderings of replies, and a wrong comparison of numbers only after 2^32 requests.", "anchors": ["mtclient.cc:56-94", "mtclient.cc:520-522", "mtclient.cc:791-811", "mtclient.cc:883-934", "mtclient.cc:939-1111"]}
{"id": "C84", "title": "Messages about options: what is built, and when a byte is written outside", "statement": "For every format of text and the conversions %s, %c, %%, %<, %, and %> (unknown ones are copied; %C, %d, %O and %V are left out), without UTF-8 and with no character that is shown in octal: the message is exactly what the format means with its arguments, whatever the lengths, and growing the buffer keeps what is there; appending never writes outside. A character is shown with printable characters only, and what is shown tells which byte it was. Two writes can go outside: the zero byte behind the message, exactly if the message fills the buffer, which needs a length of 256 or 256 doubled some times (such as %s with 255 bytes and the newline); and the zero byte of sprintf for a character shown in octal, exactly if four bytes are left. A format that ends with a single percent sign gives its last piece twice.", "quantifier": "all formats of these conversions, all arguments, all buffers that can arise", "why_tests_cant": "A byte past the end shows only for one length in 256 and mostly without effect.", "anchors": ["clp.c:2020-2076", "clp.c:2089-2211", "clp.c:2213-2221", "clp.c:2281-2292"]}
