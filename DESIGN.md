# Design: a Lean 4 model of masstree-beta

Source modelled: `/repo` (kohler/masstree-beta, C++), read as text; never built or run.
Lean project: `lean/` (Lean 4.33.0; Mathlib modules imported one at a time where used).

## Trusted base

* The Lean 4 kernel.
* Axioms: only Lean's standard `propext`, `Classical.choice`, `Quot.sound`, which every property
  theorem may depend on.  No axiom is added, no `sorry`/`admit`, no `native_decide`, no `bv_decide`.
* The reading of the C++ text.  Every model definition cites file and lines.  The model was written
  by hand; nothing ties it mechanically to the compiled code.
* The statements: the specifications in `Verif/Props/` and the definitions they use.
* C++ assumptions: little-endian x86-64, unaligned access allowed, `sizeof(int) = 4`,
  `sizeof(long) = 8`; default parameters `nodeparams<15,15>`, 64-bit ikeys, 32-bit node versions,
  `MASSTREE_MAXKEYLEN` 255.
* Memory: the concurrent models are interleavings of atomic steps on sequentially consistent
  memory.  The code uses compiler fences on x86, which has store buffers.  C60 models these: the
  contents of nodes that are stored to under their locks go through the same states in memory, and
  in what each thread sees, as without buffers, so that theorems about one node (C09, C10) carry
  over; theorems that relate instants of different threads to the calls and returns of operations
  on several nodes (linearization in C11, C47, C51, C57) need the buffers to be empty at the
  returns (`C60.both_miss`).  With a fence at the end of each update nothing would be noticed of the
  buffers (C61, which is about programs in general).  For epochs see `C13.delayed_store_unsafe`.
* Allocation always succeeds; addresses are abstract.

## Layout

* `Verif/<Topic>/` — for each topic the definitions transcribed from the code, with citations
  (`Model.lean` in most topics), and the lemmas and invariants about them.
* `Verif/Props/Cxx.lean` — per property the specification, the property theorems, theorems that show
  where the code does less (or other) than one would expect, and concrete cases as `example`s.
* `properties.jsonl`, `MANIFEST.json` — the properties and the theorems that prove them.
* `seeded/LOG.jsonl` — wrong programs tried against the theorems.

Conventions: undefined behaviour, failed assertions and endless loops are outcomes of their own
(`none`, `stop`, `ub`), not values.  Loops are functions with fuel or well-founded recursion; the
theorems say that enough fuel exists.  Concurrent code is a step relation in which each step does at
most one shared access (or one critical section, where the file says so), for any number of threads.

## What is modelled

| topic | code | properties | method |
|---|---|---|---|
| `Key` | `masstree_key.hh`, `string_slice.hh` | C05, C32 | order isomorphism, induction on length |
| `Bits`, `CircularInt` | `compiler.hh`, `circular_int.hh` | C30, C33 | 64-bit words as numbers |
| `Permuter` | `kpermuter.hh` | C07 | words decode to lists |
| `KSearch` | `ksearch.hh` | C08 | loop invariants, any size |
| `Tree` | one layer: `masstree_struct/insert/split/remove/tcursor.hh` | C06, C34, C42 | invariants over operations |
| `Trie` | layers: `masstree_get/insert/remove.hh`, `gc_layer` | C01, C02, C06, C36, C42 | refinement to a map |
| `Scan` | `masstree_scan.hh`, `kvrow.hh` scans | C03, C04, C31 | equality with the sorted contents |
| `StringBag` | `stringbag.hh`, `assign_ksuf` | C29 | byte-level invariant |
| `Decimal` | `quick_istr`, key increments | C40 | induction on digits |
| `NodeVersion`, `Seqlock` | `nodeversion.hh`, version snapshot of rows | C10, C17 | interleavings of any number of threads |
| `LeafRead` | readers and writers of one leaf | C09 | inductive invariant |
| `Blink` | one layer under lookups, inserts, removals of entries, splits | C11 | inductive invariant, history variable; levels, and ways to finish |
| `Prune` | the same with removals of leaves and internodes | C46–C48 | a run that loses a key, and an invariant of what follows; inductive invariants of tidy runs and of runs with lone removals |
| `Range` | scans (`masstree_scan.hh`) of a layer of `Blink` or `Prune`, one access at a time, and of trees of such layers; operations on the tree while layers are created and collected | C51, C52, C57 | invariants of the observer; linearization points |
| `Tso` | locks, versions and leaves with store buffers (x86-TSO); programs with loads, stores, compare-and-exchange, fences | C60, C61 | inductive invariant over programs of any kind; refinement to a machine without buffers |
| `Leaflink` | `btree_leaflink.hh` | C12 | inductive invariant |
| `LockOrder` | locks, links and retirement of nodes in all operations | C37, C45 | inductive invariants, acyclicity |
| `Rcu` | `kvthread.hh/.cc`, `epochinc` | C13, C14 | inductive invariant; refinement to a FIFO |
| `Pool` | memory pools of `kvthread.hh/.cc`, sizes of leaves | C49 | inductive invariant over runs of any number of threads |
| `Timestamp` | `kvrow.hh`, phantom epochs | C15 | invariant over histories |
| `Strings` | `string.hh/.cc`: construction, assignment, moves, `append`, `substr`, `c_str`, `mutable_data` | C50 | reference counts and sharing of memory; refinement to values |
| `Row` | `value_bag/array/versioned_array/string.hh` | C16, C17, C18 | overlay theorems |
| `Msgpack` | `msgpack.hh/.cc` | C19, C20, C43 | round trip; chunk independence; equivalence with a grammar |
| `Json` | printing and parsing of text: `json.hh/.cc`, `encode_json`, `append_utf8`; hash tables of objects, `hashcode` | C53–C56, C59 | round trip; a parser by single bytes that the code refines; equivalence with UTF-8; invariant over chains |
| `Text` | `string.cc`, `string_base.hh`: natural order, glob patterns, encodings, comparisons, searches, conversions to UTF-8 | C62–C66 | order by tokens; equivalence with denotations; round trip; unique reading |
| `Accum` | `straccum.hh/.cc`: `StringAccum` | C67 | ownership of blocks; refinement to lists of bytes; cost by induction |
| `Accum` (lines) | `straccum.cc`: `append_break_lines` | C79 | relation between text and lines; words |
| `SmallVector` | `small_vector.hh` | C69 | slots with lifetimes of objects; refinement to lists |
| `Options` | `clp.c`: `Clp_NewParser`, `Clp_AddType`, `Clp_Next`; the options of `mtd.cc` | C70 | meaning of abbreviations stated on the table; round trip of command lines |
| `Options` (values) | `parse_int`, `parse_double` of `clp.c`, `clp_parse_suffixdouble` of `misc.cc` | C75 | equivalence with a grammar of numerals |
| `Memdebug` | `memdebug.hh`, `memdebug.cc`; allocation in `kvthread.hh` with `HAVE_MEMDEBUG` | C71 | invariant: headers agree with a history of blocks kept without them |
| `JsonNum` | `json.hh`, `json.cc`: tests, conversions, `==`, arithmetic of plain values, keys of arrays | C73 | functions on the sixteen bytes against values; round trip of integers |
| `File` | `file.hh`, `file.cc`: reading and writing whole files through a system that moves parts, interrupts and fails | C74 | induction over the answers of the system |
| `Misc` | `timestamp.hh`, `kvstats.hh`, `Str::to_i`, `Str::maxkey` | C76, C77 | arithmetic of words; induction on lists |
| `Startup` | `mtd.cc`: options for directories, threads and cores, names of log and checkpoint files, choice of a thread | C78 | unique last field of names; induction on lists |
| `Phases` | `recphase`, `waituntilphase`, `inactive` of `mtd.cc`, used by `recover` and `logreplay::replay` | C80 | inductive invariant over interleavings; progress and a measure |
| `TcpLoop` | `tcpfds` (epoll and select) and the loop of `tcp_threadfunc` in `mtd.cc` | C81 | inductive invariant over runs; refinement of the vector to a map |
| `Runner` | `testrunner.hh`, `testrunner.cc`: the list of tests and `print_names` | C82 | refinement of a linked list; induction on columns |
| `Window` | `mtclient.cc`: the window of requests (`check_flush`, `checkasync`, `aget`, ...) | C83 | inductive invariant: slots against a history of all requests |
| `Message` | `clp.c`: `Clp_BuildString`, `Clp_vbsprintf` (without UTF-8, `%C`, `%d`, `%O`, `%V`) | C84 | relation of formats to their meaning; invariant of the buffer |
| `JsonArr` | `json.hh`, `json.cc`: arrays with reference counts | C72 | refinement: memory of counted blocks against plain lists |
| `Random` | `kvrandom.hh/.cc`, shuffles of `kvtest.hh` | C68 | linear congruential sequences modulo powers of two; counting residues |
| `Log` | `log.hh/.cc`: records, buffers, loggers, replay, recovery | C21–C26 | byte-level round trip; invariants over executions |
| `Checkpoint` | `checkpoint.hh/.cc`, checkpoint threads of `mtd.cc` | C26–C28 | round trip; crash model of a file system |
| `IO` | `kvio.hh/.cc` | C41 | invariant over operations |
| `Stats`, `Destroy` | `masstree_stats.hh`, `masstree_remove.hh` destroy | C38, C39 | induction on trees; queue invariant |
| `Server` | `onego`, `handshake`, input buffer, TCP and UDP loops of `mtd.cc` | C35, C44 | specification over a map; invariant over connections; composition with logs and recovery |
| `Client` | `KVConn` of `mtclient.hh`; `get`, `aget`, …, `checkasync` of `mtclient.cc` | C58 | invariant over the window; composition with the server |

Not modelled: the workloads of the client (`mtclient`), test drivers (`kvtest`, `mttest`), printing of trees, `json.cc` beyond the
text of values, the tables of objects, arrays and plain values (doubles, shared objects), `malloc` and huge pages (pools get any new area), command line and start-up, the
`str`/`leafref` configuration variants, out-of-memory strings, the messages and other option
characters of `clp`, the small-key string tables.

## Main limits

* C01–C04, C06, C31, C34, C36, C38, C39, C42: sequential executions of the tree code.  Concurrency is
  covered by C09–C13, C37 and C45 on models of their own, each with the part of the state it needs.  C11 has
  removals of entries but not of leaves; C47 has them, but assumes that whenever an internode is changed the search
  finds the child that is meant (asserted at masstree_remove.hh:224 and 268, not for inserts) and the new key is between
  its neighbours (not asserted); C46 shows that this can fail.  C48 derives it if while a thread removes a leaf no other
  thread has a node locked, in particular with one writer at a time.  C12 has removals for the leaf list; C37 and C45 have all operations but only their locks and links, no keys,
  and assume that `remove_leaf` takes out the node it removes, which C46 shows can fail.  C51 is about the runs of C11 and C47.
  C52 is about layers that are such runs, each, and assumes that they hang together as they should (`Range.Tree`: entries are at
  their positions, and a layer is taken out only when it is empty, for good).  C57 proves that of histories in which threads
  publish what the code publishes (`Range.Sys`, `Range.Role`); there a layer is collected only when its root is a leaf, nobody who
  locks a marked leaf later changes it, and a new layer is complete when its link is published.  That the code publishes only that
  is assumed; C01 has it for the sequential code.
* C25, C26: the conclusions need the conditions named in the theorems; the witnesses show that the code
  does not ensure them.
* C35, C44: requests are executed one at a time.
* C53–C56: doubles are the text given to `strtod`; `%.12g` loses digits.

## Findings

Places where the code, its comments or a natural expectation disagree.  A name is a theorem in
`Verif/Props` that proves it; the others are observations from reading.

Data structures
* `kpermuter::rotate`: its comment has the effect wrong (`C07.rotate_doc_false`).
* `make_comparable` documentation (`C05.make_comparable_doc_false`).
* `circular_int`: two values exactly 2^63 apart are each less than the other (C30).
* Node versions: after exactly 2^19 splits the version word repeats (`C10.change_detected_sharp`).
* Leaf splits: the loop for equal ikeys does not end if `leaf_width ≤ 9` (default 15).
* `stable_last_key_compare`: its comment says `perm[0]` is 0 in an unused leaf, it is 14 (harmless).
* `stringbag`: a capacity of exactly `max_size()` wraps (`C29.largest_capacity_overflows`); suffixes of more
  than 32–64 KB in total are guarded by an assertion only.
* `quick_istr::set` with a width above 31 overruns (`C40.set_too_wide`); incrementing a string of nines or
  0xff runs past its start.
* Scans: storing a key longer than 256 bytes overflows the key buffer (`C03.overflow`); a limit of 0 returns all
  rows if assertions are off (`C31.zero_limit_returns_all`).
* A scan is no snapshot: it may visit a key and not one that was inserted before that (`C51.not_snapshot`).
* `find_insert` followed by `finish(0)` may leave an empty leaf (`C42.uncommitted_leaves_empty`).
* A nested layer emptied leftmost leaf first gets no `gc_layer` callback and stays.
* `findpivots`: an empty pivot means "no limit" to the reader (`C34.zero_key_twice`, `C34.empty_leaf_twice`); `findpv`
  may follow a null `child_[0]` (`C34.hole_crashes`).
* `destroy`: stale layer pointers leak nodes (`C38.stale_leaks`), rows are not released (`C38.rows_kept`), the callback
  is freed with `sizeof(this)`.
* `json_stats`: undercounts behind stale layer pointers (`C39.stale_undercounts`), lengths of suffix keys are 55 too
  large (`C39.suffix_length_wrong`).
* `String::is_shared` is inverted, so `mutable_data` of a string that shares its memory returns the shared memory
  (`C50.mutable_shared`); `StringAccum::transfer_from` (straccum.cc:139-148) asks it too, and takes over the memory of
  strings that share it.  Strings moved from, or moved to themselves, keep pointers that dangle
  (`C50.moved_from_dangles`, `C50.self_move_dangles`); `substr` overflows (`C50.substr_overflow`);
  `unique` may return a string that shares (`C50.unique_shares`).

Rows
* `value_bag`: rows of 64 KiB wrap (`C16.oversized_value_lost`); duplicate or unsorted columns, which the server does
  not reject, overrun (`C16.duplicate_column_overruns`, `C16.unsorted_columns_overrun`).
* `value_array`: duplicate columns are freed twice (`C17.duplicate_column_freed_twice`), unsorted ones are read out of
  bounds (`C17.unsorted_columns_out_of_bounds`).
* `value_versioned_array`: an update in place keeps the timestamp (`C17.in_place_keeps_timestamp`); snapshots may free
  live columns (`C17.growing_snapshot_frees_live_columns`) or read out of bounds (`C17.snapshot_one_column_out_of_bounds`).
* `value_string`: gaps are uninitialised and sources over-read (`C18.gap_undefined`, `C18.longer_replace_overreads`,
  `C18.create_overreads`).

Concurrency
* Values of two slots read under one validated version need not belong to one instant (`C09.values_mixed`; by design).
* `unlock` is a plain store (nodeversion.hh:140), and nothing else orders it before later loads: of two threads that each put a key
  and then get the other's, both may miss (`C60.both_miss`), which no order of the four operations explains (`C60.one_finds`).
* A removed leaf may still be met along `next_` while a neighbouring split is half done (`C12.removed_still_met`).
* Objects retired before they are unlinked (kvrow.hh:197, 234, 264; masstree_remove.hh:108, 191, 248) can be freed too
  early if the epoch advances in between (`C13.retire_first_unsafe`); `rcu_start` has no store-load fence
  (`C13.delayed_store_unsafe`); overlapping ticks move the epoch back (`C13.overlapping_ticks_unsafe`).
* A layer pointer can be left naming an internode that was divided and later collapsed and given to `deallocate_rcu`
  (`C45.layer_pointer_dangles`); after the grace period the next lookup through it reads freed memory.  This needs an insert
  that divides the layer's root and, at the same time, removers that came through the pointer before and empty all but one
  child of the left half.  Nothing repairs the pointer before the node goes: `find_locked` repairs it only on the way down
  (masstree_get.hh:92, 106-110).  `basic_table::root_` is repaired in the same way (masstree_struct.hh:790-799).
* A completed insert can be lost for good (`C46.lost`).  Leaf n is full and last.  Thread A, about to insert key k, has the
  version of n.  Thread B inserts k, so that n splits off the leaf c with k alone, and removes k: c is marked deleted and
  unlinked, and B has yet to lock the parent (masstree_remove.hh:209-218).  A sees that n has split, finds no next leaf, and
  splits n again at k into n and d; d goes behind c into the parent, which now has k twice, and A returns.  B looks for c by
  k, finds d (masstree_remove.hh:224 asserts that it does not) and takes it out.  The parent now leads from k to the deleted
  leaf c, which is freed after the grace period; until then all operations on k retry for ever.
* The unlocked compare-and-swap of `remove_leaf` on a neighbour's phantom epoch can be lost (`C15.race_breaks_order`).

Messages and server
* Streaming parser: lengths of 2^31 or more become negative (`C20.huge_length_undefined`); one call may return early
  (`C20.consume_returns_early`).  `skip_primitives` does not skip 64-bit integers (`C19.skip_wide_stays`), which
  `onego` relies on to find the change set to log (mtd.cc:976-981).
* A get of a missing key echoes the request (`C35.missing_looks_found`); the client takes the key for the value
  (`C58.getWhole_told`, `C58.getSync_told`), and a synchronous get of a row with several columns stops it.
* Client: `-w 0` passes the check of the window size and hangs (`C58.window_zero`); an asynchronous remove with a callback
  reads a truth value as a number (`C58.remove_told`; no test uses one); a reply that is 2^32 requests late is taken for another
  (`C58.late_reply_confused`).
* Requests of the wrong types end the server (`C35.wrong_types_stop`), where checks are compiled out they are undefined
  behaviour; client requests with column lists are of this kind (`C58.column_lists_stop`; mtclient.hh:91-98, 133-142).
* Commands, columns and limits are silently cut to 32 or 16 bits (`C35.numbers_cut`).
* A handshake with a third element that is not an object, or that arrives in two pieces, ends the server
  (`C35.handshake_aborts`); bytes sent behind it close the connection (`C35.pipelined_dropped`); a maximum key length of
  2^63 is accepted (`C35.huge_maxkeylen`).
* UDP: the whole buffer is parsed, so an empty datagram repeats the last request (`C35.udp_repeats`); no handshake is
  needed; a refused request gets no reply.
* The key `Str` of a put refers to a request element that is overwritten before the key is logged.
* Output buffers: sizes above 2^31 (`C41.full_append_hangs`, `C41.huge_write_overruns`), capacity 0
  (`C41.zero_capacity_hangs`), appends to a file double the buffer (`C41.append_doubles`), a failed write sends bytes
  again (`C41.failure_repeats`).

Json text
* `append_utf8` writes U+0800 to U+7FFF with two bytes (straccum.cc:206), so the escapes `\u0800` to `\u7FFF` are
  decoded to other texts (`C55.escape`, `C55.two_bytes`), and strings with U+2028 or U+2029, which `encode_json`
  escapes, are not read back (`C53.line_separator`).
* U+0000 is printed but refused (`C53.zero_char`), as is the second half of a surrogate pair with small letters
  (`C55.small_letters`).
* A chunk that ends with 0xE0, 0xED, 0xF0 or 0xF4 in a string is read beyond its end (`C54.beyond`, json.cc:933-937).
* The nesting limit is bypassed with objects (`C56.unlimited`).
* A repeated key whose first value is an array: the later value is appended (`C53.same_key`).
* Integers wrap at 2^64, `-9223372036854775808` overflows (`C53.large`), `-e5` is a number (`C53.minus`), and only one
  whitespace character may follow a value in `assign_parse` (`C53.trailing`).
* The table of an object doubles with every key beyond the fifth that has the same hash code (`C59.table_doubles`); hash codes are not
  keyed and collisions are easy to find, so that one message of a few dozen keys from a client takes all memory
  (`C59.table_exponential`; msgpack.cc:176).
* `unset` or `erase` on an object into which nothing was ever put reads an empty vector (`C59.erase_unused`, json.cc:201); items of
  erased keys are not reused (`C59.places_never_reused`).
* An object converted to an array with the key "4294967295" writes outside the array: `i + 1` is 0 (json.cc:267-274, by inspection).
* `Json::empty` of a string takes its bytes for a container (json.hh:1747-1750).

Strings
* `natural_compare` is no order: of 0.1 and 0.01 each is less (`C62.fractions_not_antisymmetric`, string.cc:202-203), and bytes above
  `z` make cycles (`C62.cycle`).
* `glob_match`: `[abc]` misses `a` and takes `]`, `[^a]` matches `a` (`C63.first_missed`, `C63.bracket_taken`,
  `C63.negated_matches_first`, string.cc:452-455); `[a*` reads beyond the pattern (`C63.reads_past_end`).
* `printable(2)` escapes quotes and backslashes only after the first byte that is not printable (`C64.printable_unchanged`,
  `C64.printable_not_injective`, string.cc:1000-1005).
* `find_right` for a string, with a position less than the length but too near to the end, compares bytes beyond the end
  (`C65.right_str_undefined`, `C65.right_str_beyond`, string.cc:378-384).
* `cesu8_to_utf8` never writes the replacement character, as the bad byte is overwritten with zero before it is tested
  (`C66.cesu8_never_replaces`, string.cc:1221-1229).  UTF-16 and Windows-1252 text with characters from U+0800 to U+7FFF comes out as
  bytes that are other or no characters (`C66.utf16_wrong`, `C66.windows_byte`; the fault is `append_utf8_hard`'s), the table for
  Windows-1252 has 0x20C6 and 0x20DC for 0x02C6 and 0x02DC (`C66.table_wrong`, string.cc:1104-1109), and `to_utf8` keeps a byte order mark
  that stands alone (`C66.bom_alone`, string.cc:1292).
* `StringAccum::vsnprintf` adds the length that `vsnprintf` returns, which is that of the whole text: a message longer than announced ends
  with a NUL, or fails the assertion in `adjust_length` (`C67.printf_one_too_many`, `C67.printf_new`, straccum.cc:340); the server's
  self test reports failures this way (mtd.cc:354, 368).  Growing overflows `int` from a capacity of 2^31 - 2^19 on
  (`C67.grow_overflow`, straccum.cc:91), and copies quadratically many bytes beyond a megabyte (`C67.cost`).  Read but not modelled:
  `transfer_from` (straccum.cc:139-148) tests the inverted `is_shared` (see C50), so it takes over the memory of strings that are shared
  and copies those that are not; `append_encoded` (straccum.hh:533-560, used by a test only) sets `r_.s` to null before `grow` copies
  from it, and drops what was encoded in the last round.

Small vectors
* `push_back(v[i])` on a full vector reads the element after it was moved and its memory freed (`C69.alias_undefined`,
  small_vector.hh:249-251); the tree and the parser push only other values.  `capacity() * 2` is an `unsigned`, so that a full vector of
  2^31 elements "grows" to 0 (`C69.limit_undefined`, small_vector.hh:142).

Memory debugging
* A second release of a block that is in a pool is stopped, but reported as of a pointer that was never allocated, never as a double
  free: the link of the pool is written over the mark (`C71.wrong_message`, kvthread.hh:245).
* A release without a type is not checked for its type (`C71.no_type`, memdebug.cc:44, 54); no caller does so with these functions.
* Destroying a table stops the program if memory debugging is on, as the size of the callback is wrong (`C71.destroy_stops`,
  masstree_remove.hh:354).  Rows of the bag layout are released with the right size (`C71.bag_size`).

Files
* `recover` reads the file that names the checkpoint with `read_file_contents(fd)` and does not look at `errno` (mtd.cc:1369): if the
  read fails the text is empty (`C74.error_looks_empty`), which is taken for no checkpoint, silently.
* A `write` that returns 0 makes `sync_write_file_contents` return -1 with whatever `errno` was before (`C74.write_zero_errno`).
* After a failure the temporary file stays (`C74.tmp_stays`); the next attempt truncates it.

The loop of a TCP thread
* `wait` is called only when the queue is empty, and a connection stays on it while bytes are left in its buffer: a client whose
  requests never end where a read ends keeps the thread from its other connections and from new ones (`C81.hog`, mtd.cc:1128, 1163-1164).
  If the bytes left are part of a request, the next `receive` blocks in `read` (mtd.cc:1151 says it should not).
* Without epoll the 1024th descriptor ends the server (`C81.select_stop`, mtd.cc:1076).

The client
* `mtclient --window=0` passes the check for powers of two and then never sends: `check_flush` waits for a window smaller than 0
  (`C83.accepts_iff`, `C83.window_zero`, mtclient.cc:92, 521-522).

Messages about options
* `build_string_text` writes the zero byte without asking for room: a message that with its newline has 256 bytes (or 512, ...; any
  such length at which the buffer is just full) writes one byte behind the buffer (`C84.text_ub_iff`, `C84.message_255`, clp.c:2215).
* `%c` asks for four bytes, but `sprintf` of an octal character writes five (`C84.char_ub_iff`, clp.c:2121, 2130).
* A format that ends with a single `%` prints its last piece twice (`C84.trailing_twice`, clp.c:2194-2196, 2210).

Restart with other settings (the number of threads is the number of processors unless `--threads` is given, mtd.cc:603)
* With fewer threads the logs and checkpoint parts from that number on are not read, without notice (`C78.logs_lost`,
  `C78.restart_fewer`).  The number of parts is stored in `kvd-ckp-gen` (mtd.cc:1558) but `recover` does not look at it.
* With more threads a server with a checkpoint does not start: the missing part has generation 0 and the assertion at mtd.cc:1337
  fails (`C78.restart_more`); so if the directory of a part is another, for example after adding one (`C78.restart_moved`).
* With fewer threads and then more again, the old logs are read and limit the replay of all logs to their last epoch, so what the run
  between logged after that is dropped (`C78.old_log_cuts`).
* For a log that is not there (new with more threads, say) `logreplay::replay` leaves `rec_log_infos[which].quiescent` uninitialised
  (log.cc:842-847, mtd.cc:1386; the epochs are 0 by the constructor of `circular_int`), and `recover` reads it (mtd.cc:1427, 1448).  The
  model of C25 takes logs that are there.
* A directory for checkpoints with a name of 244 bytes or more overflows `path[256]` (`C78.ckp_name_overflows`, mtd.cc:1332-1335).
* `--threads=0` is accepted, and the first connection divides by zero (`C78.pick_none`, mtd.cc:857).  A negative stride of `--cores` is
  accepted and makes negative cores for `CPU_SET` (`C78.cores_negative`, mtd.cc:672-673, 1101).

Small helpers
* `append_break_lines` leaves one white space byte at the end of a broken line and does not count it, so a line can be one longer than
  asked for (`C79.one_too_long`, straccum.cc:377-389).  At the end of the text `s` is advanced beyond the end, which is undefined for
  pointers but harmless here; the model does not count it.
* `kvstats` starts `max` at -1, which stays if all numbers are below (`C77.max_right`, kvstats.hh:24, 29); with one number
  `print_report` divides by zero (`C77.single_report`, kvstats.hh:43).
* `Str::to_i` overflows already for the text of 2^63 - 1 (`C77.to_i_overflow`, str.hh:129).

Plain Json values
* `j += x` and `j -= x` for a `Json` `x` that holds a whole number add or subtract `j` itself (`C73.add_own`, json.hh:3096-3098,
  3105-3107: `u_` instead of `x.u_`): 5 += 3 gives 10 and 5 -= 3 gives 0.  No program here uses them.
* `++`, `+=` and `-` stop at a precondition for numbers kept as unsigned (`C73.arith_refused`, json.hh:2056, 2062), for which
  json.hh:2068-2071 has a case.
* A string without a block for its reference count has the type of a null: `empty()` and `size()` take its characters for an array or
  object (`C73.empty_iff`, json.hh:1747-1756); `Json("")` is such a string, and the read is beyond its one byte.  Printing with
  indentation calls `empty()` on elements (json.cc:577, 585).  For the same reason `if (j)` takes `Json("")` for true while `to_b()`
  says false (`C73.empty_string`, json.hh:1664).
* `to_i(int&)` returns true for integers that do not fit (`C73.to_ref`), and converts doubles before it knows that they fit
  (`C73.to_ref_undefined`, json.hh:1796).
* `to_i()` of the string "010" is 8, of "010 " it is 10 (`C73.octal`, json.cc:408, 415).
* `get("4294967296")` of an array is its first element (`C73.get_key_wraps`, json.cc:222-225).

Shared Json arrays
* `j = j[0]` reads the element after the array around it was released (`C72.own_element`, json.hh:2926-2934: `deref()` comes before
  `u_ = x.u_`, and `x` lies in what was released).
* `j[0] = j` puts the array into itself (`C72.own_cycle`, json.hh:1391-1393: the element is located before the reference is counted, so
  the array is not copied).  `j[0].push_back(j)` is right, as its argument is a copy made first (in `C72.values`).
* `j.insert(pos, j[i])` inserts element `i - 1` if `i` is behind `pos`, and `j.push_back(j[j.size()])` copies unwritten memory instead of
  a null (`C72.own_insert`, json.hh:2526, 2572: the place is made before the element is looked up, the order since C++17).

Command lines
* `parse_bool` tests `1` where `0` is meant, so `0` is refused (`C70.bool_zero`, clp.c:1181; clp.h:82 says it is accepted).
* Numbers that an option's type cannot hold are accepted and become others (`C75.int_wraps`, clp.c:1127-1129): `--threads=4294967297`
  is one thread.
* If dashes are left out, several options can agree and the first in the table is taken without a message (`C70.order_matters`,
  clp.c:984-986).  Options with one id are not told apart: `mtd --test-r` runs the test `rw1` (`C70.mtd_test`, mtd.cc:582-590).
* The loops of the programs end at a bad option as they do at the end (`C70.bad_ends`, mtd.cc:608): after a message
  `mtd --logdri=/x --port=9` serves with the standard directories and port.
* A list of at most three strings that also allows numbers has one entry more in its messages than in its array of names
  (`C70.list_overread`, clp.c:1241, 1251-1253); no program here has such a list.

Random numbers
* `kvrandom_lcg_nr_simple` steps twice per call (kvrandom.hh:43-46): the lowest bit never changes (`C68.simple_parity`), while the comment
  at kvrandom.hh:53-55 says that it flips with every call, and half of the numbers never occur (`C68.simple_period`).
* `kvrandom_lcg_nr` is said to use only the higher digits, but its upper bits are bits 1 to 14 of a result: bit 17 is constant and the
  bits from 17 on repeat after 8192 results (`C68.nr_bit17`, `C68.nr_high_bits`).
* `kvrandom_uniform_int_distribution` over the whole type divides by zero (`C68.uniform_fails`).

Logs, recovery, checkpoints
* A put is served but logged unreadably if its bytes cross the end of a 20 KB input buffer (`C44.split_example`), if its
  sequence number takes 64 bits (`C44.wide_sequence_unreadable`) or a column is a double (`C44.double_column_unreadable`).
* Keys above 255 bytes are logged but stop replay (`C21.long_key_stops`); the empty key is not replayed.
* Records larger than the buffer wait forever (`C22.too_large_waits`).
* Replay of a remove parses marker bytes (`C23.remove_undefined`); a pending modification replayed twice is lost
  (`C24.pending_twice_lost`).
* Consistent cut: stalled or slow recorders (`C25.stall_breaks`, `C25.slow_breaks`), absorbed wake-ups
  (`C25.unlogged_wake_breaks`), empty logs (`C25.empty_log_breaks`); log.cc:263 is dead code (`C25.rest_records_no_wake`)
  and the comment at log.hh:79 is false (`C25.rested_epochs_equal`).
* Checkpoints may commit early or lose slow updates (`C26.never_flushed_commits`, `C26.slow_update_committed`,
  `C26.slow_update_lost`); recovery may refuse a proper checkpoint (`C26.refused`).
* The directory is never synced: commits can be undone and part files lost (`C27.commits_undone`, `C27.parts_lost`).
