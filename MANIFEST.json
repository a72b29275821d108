{"claims": [
  {"property": "C01", "status": "proved", "theorems": ["Hyperbee.get_latest"], "note": "Also Hyperbee.history_refines: every reply of every history is the one the abstract database allows."},
  {"property": "C02", "status": "proved", "theorems": ["Hyperbee.put_reports"], "note": ""},
  {"property": "C03", "status": "proved", "theorems": ["Hyperbee.del_removes"], "note": ""},
  {"property": "C04", "status": "proved", "theorems": ["Hyperbee.del_absent"], "note": "That f is not called is expressed as: reply and state are the same for every f."},
  {"property": "C05", "status": "proved", "theorems": ["Hyperbee.putCas_decides"], "note": "That f is called exactly with the two entries is expressed as: only its value there matters, and it decides."},
  {"property": "C06", "status": "proved", "theorems": ["Hyperbee.delCas_decides"], "note": ""},
  {"property": "C07", "status": "proved", "theorems": ["Hyperbee.version_counts", "Hyperbee.version_monotone"], "note": "version() is 0 or 1 plus the number of effective writes; it never decreases, on arbitrary states."},
  {"property": "C08", "status": "proved", "theorems": ["Hyperbee.stored_btree"], "note": "StoresRoot/IsBTree are defined on the decoded blocks only; the tree is unique and its keys are exactly those get finds."},
  {"property": "C09", "status": "proved", "theorems": ["Hyperbee.full_traversal"], "note": "Stated through get: the yielded list is exactly what get finds. Completion after 5 + 4n ready polls."},
  {"property": "C10", "status": "proved", "theorems": ["Hyperbee.range_traversal", "Hyperbee.build_fields", "Hyperbee.traversal"], "note": "The interval is InRange of Spec.lean; build_fields ties it to the builder."},
  {"property": "C100", "status": "proved", "theorems": ["Hyperbee.paging_ends", "Hyperbee.paging_whole"], "note": "With C94. Every builder without explicit infinities; for the others paging is refused (paging_false)."},
  {"property": "C101", "status": "proved", "theorems": ["Hyperbee.fails_at_once", "Hyperbee.troubled_ends_soon"], "note": "Calls about one entry: get, put, del; streams are C99. Dropped futures give no reply and are excluded by hypothesis in troubled_ends_soon."},
  {"property": "C102", "status": "proved", "theorems": ["Hyperbee.debug_undisturbed", "Hyperbee.debug_no_trace", "Hyperbee.debug_reads_fail"], "note": "The first needs no assumption on the core (Rooms: the memory of the handle agrees with its core). What height and print return alone is C50 and C57. Writing calls that overlap with them are not covered (C31 shows what overlapping writes do to readers)."},
  {"property": "C103", "status": "proved", "theorems": ["Hyperbee.debug_is_snapshot"], "note": "TellsOf (Props/DebugOwn) says what is shown in terms of the stored tree of SpecTree (as C50 and C57) and, for the other reading calls, as C66. print polled less than it needs has returned nothing (text none)."},
  {"property": "C104", "status": "partial", "theorems": ["Hyperbee.sub_paging_false", "Hyperbee.sub_paging_partial", "Hyperbee.sub_paging_ends_partial", "Hyperbee.sub_paging_whole_partial"], "note": "False in general: with an open bound, a key of another sub-database whose name continues this one is let through with the wrong bytes cut off, and the next page begins again at the start; sub_paging_false shows pages going round for ever although nothing is written. sub_paging_partial, sub_paging_ends_partial and sub_paging_whole_partial prove the whole claim when both bounds are keys, and with open bounds when every stored key beginning with the prefix goes on with the separator, the separator is not empty, and the prefix is not empty and does not end in 255; bounds given as explicit infinities are left out (C94)."},
  {"property": "C105", "status": "partial", "theorems": ["Hyperbee.sub_handmade_false", "Hyperbee.sub_handmade_exact", "Hyperbee.sub_handmade_partial", "Hyperbee.sub_handmade_quiet"], "note": "False as stated: going forwards with bounds the wrong way round the entry at the lower bound is yielded, and an upper bound of minus infinity is taken for none (sub_handmade_false); open bounds let foreign keys through (C25). sub_handmade_exact says for every configuration, prefix and separator exactly what is gone through, yielded, and when it panics; sub_handmade_partial is the statement itself when both bounds are keys and it goes backwards or they are the right way round; sub_handmade_quiet: nothing later changes."},
  {"property": "C106", "status": "partial", "theorems": ["Hyperbee.sub_whole_false", "Hyperbee.sub_whole_iff", "Hyperbee.sub_whole_partial"], "note": "False of the code: with the default separator every configuration misses entries or yields foreign ones on some contents (sub_whole_false). sub_whole_iff: there is such a configuration exactly if the prefix is not empty and does not end in 255 and the separator has no bytes other than 255. sub_whole_partial: for given contents there is always an upper bound up to which a traversal reads just the sub-database."},
  {"property": "C107", "status": "partial", "theorems": ["Hyperbee.sub_read_error_false", "Hyperbee.sub_read_error_partial", "Hyperbee.sub_read_error_del_partial", "Hyperbee.sub_read_errors_partial"], "note": "False for deletions: sub_read_error_false shows a deletion in one sub-database that returns an I/O error and destroys a key of another sub-database for good. Proved for every other call, and for deletions that would delete nothing or from a leaf that can spare the key; for all deletions it is proved that the core is unchanged, so that nothing is lost if the database is opened anew. The replies of traversals in which reads fail are left open here (for the database itself see C72)."},
  {"property": "C108", "status": "partial", "theorems": ["Hyperbee.sub_gaps_false", "Hyperbee.sub_gaps_partial", "Hyperbee.sub_gaps_sound_partial"], "note": "False in that the stream may panic: sub_gaps_false shows one that yields the error of a failed read and panics when polled again. Everything else is proved when both bounds are keys, and with open bounds when every stored key beginning with the prefix goes on with the separator, the separator is not empty, and the prefix is not empty and does not end in 255 (otherwise foreign entries come even when no read fails, C105); bounds given as explicit infinities are left out (C94). The panic happens only after an item saying that the place to begin in a node could not be read."},
  {"property": "C109", "status": "partial", "theorems": ["Hyperbee.page_faults_false", "Hyperbee.page_faults_partial", "Hyperbee.page_faults_kept"], "note": "The full statement is false: a client that goes on behind the last entry seen misses what an error before it stood for (page_faults_false). Proved for a client that keeps of each page what comes before its first error and goes on behind that, with no bound given as an infinity; page_faults_kept says what is kept."},
  {"property": "C11", "status": "proved", "theorems": ["Hyperbee.reversed_traversal"], "note": "For any two finished traversals of a configuration and its reverse, under any schedules."},
  {"property": "C12", "status": "proved", "theorems": ["Hyperbee.schedule_free", "Hyperbee.never_forgotten"], "note": "A poll that returns Pending has woken the task or waits for a read that was not ready."},
  {"property": "C13", "status": "proved", "theorems": ["Hyperbee.unwritten_traversal", "Hyperbee.emptied_traversal"], "note": "No write has happened / every get returns None."},
  {"property": "C14", "status": "proved", "theorems": ["Hyperbee.append_only", "Hyperbee.never_rewritten"], "note": "On arbitrary states, including corrupt cores and failing storage."},
  {"property": "C15", "status": "proved", "theorems": ["Hyperbee.crash_contents", "Hyperbee.crash_continues"], "note": ""},
  {"property": "C16", "status": "proved", "theorems": ["Hyperbee.cache_invisible", "Hyperbee.cores_decide"], "note": "A warm handle, a cold handle and any two handles with the same core give the same replies to every command sequence and append the same bytes."},
  {"property": "C17", "status": "proved", "theorems": ["Hyperbee.old_version", "Hyperbee.old_version_contents"], "note": ""},
  {"property": "C18", "status": "proved", "theorems": ["Hyperbee.handles_agree", "Hyperbee.handles_read_latest"], "note": "Whole calls only; overlapping calls are C31 and C42."},
  {"property": "C19", "status": "proved", "theorems": ["Hyperbee.no_failure"], "note": "Every loop of the model has a step bound; running out of it is an explicit error that is proved not to happen. The only error replies are the documented ones."},
  {"property": "C20", "status": "proved", "theorems": ["Hyperbee.varint_roundtrip", "Hyperbee.block_roundtrip", "Hyperbee.encodeBlock_injective", "Hyperbee.header_roundtrip", "Hyperbee.limits_only_refuse", "Hyperbee.reachable_decode"], "note": "Decoders with prost's limits (10-byte varints, 64 bits, 32-bit keys, UTF-8). Numbers below 2^64 and blocks shorter than 2^64 bytes."},
  {"property": "C21", "status": "proved", "theorems": ["Hyperbee.block_references"], "note": ""},
  {"property": "C22", "status": "proved", "theorems": ["Hyperbee.sub_call", "Hyperbee.sub_history", "Hyperbee.sub_is_database", "Hyperbee.sub_readback"], "note": "Every call, arbitrary mixed histories over any number of sub-databases."},
  {"property": "C23", "status": "partial", "theorems": ["Hyperbee.sub_not_isolated", "Hyperbee.apart_of_sep", "Hyperbee.apart_of_length", "Hyperbee.sub_isolated_partial", "Hyperbee.sub_isolated_runs_partial", "Hyperbee.sub_isolated_traversal_partial"], "note": "False as stated (witness with a prefix containing the separator); proved for prefixes neither of which, with the separator, begins the other, with two sufficient conditions."},
  {"property": "C24", "status": "proved", "theorems": ["Hyperbee.sub_bounded_traversal"], "note": "All prefixes, separators, contents and poll schedules."},
  {"property": "C25", "status": "partial", "theorems": ["Hyperbee.sub_unbounded_wrong", "Hyperbee.sub_misses_everything", "Hyperbee.sub_wrong_infinity", "Hyperbee.sub_open_traversal_partial", "Hyperbee.sub_full_traversal_partial", "Hyperbee.own_keys"], "note": "False as stated (witnesses; nothing is ever yielded for the empty prefix and prefixes ending in 255); proved for the other prefixes when no foreign key begins with the prefix."},
  {"property": "C26", "status": "partial", "theorems": ["Hyperbee.builder_rejects_sensible", "Hyperbee.builder_accepts_empty", "Hyperbee.builder_partial", "Hyperbee.builder_one_sided"], "note": "False as stated: the builder rejects a sensible range and accepts an empty one (witnesses); the _partial theorem says what acceptance does guarantee."},
  {"property": "C27", "status": "proved", "theorems": ["Hyperbee.bounds_check", "Hyperbee.bounds_check_unvalidated"], "note": "Agreement of the bounds check with the interval for configurations the builder accepts; witness that it fails for a configuration the builder never saw."},
  {"property": "C28", "status": "proved", "theorems": ["Hyperbee.create_header_writes", "Hyperbee.create_header_refused", "Hyperbee.first_put_header", "Hyperbee.header_irrelevant", "Hyperbee.header_reader_exact", "Hyperbee.format_header_reads"], "note": "The appended block reads back when shorter than 2^64 bytes. Later histories have the same replies and blocks whatever the metadata."},
  {"property": "C29", "status": "proved", "theorems": ["Hyperbee.byteLt_iff", "Hyperbee.limit_order", "Hyperbee.limit_order_flip", "Hyperbee.byte_order"], "note": "Limits compare with keys as -inf < every key < +inf and bytewise."},
  {"property": "C30", "status": "proved", "theorems": ["Hyperbee.get_fetches", "Hyperbee.get_fetches_log", "Hyperbee.get_fetches_none"], "note": "Blocks fetched are those newly in the cache; five per level plus one, logarithmic in the number of keys; with only these blocks readable the reply is the same."},
  {"property": "C31", "status": "partial", "theorems": ["Hyperbee.overlapping_puts_false", "Hyperbee.overlapping_puts_destroy", "Hyperbee.overlapping_puts_brick", "Hyperbee.overlapping_del_panics", "Hyperbee.calls_in_turn_partial", "Hyperbee.overlapping_puts_partial"], "note": "False of the code: overlapping puts lose an update, can lose a third key that neither is about, and can leave a database in which nearly every lookup and put panics for ever, also when reopened; a put or get overlapping a del can itself panic (witnesses). Proved for calls that do not overlap; behind a readers-writer lock see C73."},
  {"property": "C32", "status": "partial", "theorems": ["Hyperbee.failed_write_false", "Hyperbee.failed_put_false", "Hyperbee.failed_write_partial", "Hyperbee.needless_append_partial"], "note": "False of the code: cached nodes stay changed (witnesses). Proved for failures from any step on: the error is returned, the core is unchanged or has its header, a reopened handle is unaffected; calls that append nothing are unaffected."},
  {"property": "C33", "status": "partial", "theorems": ["Hyperbee.not_snapshot", "Hyperbee.stream_panics", "Hyperbee.stream_repeats", "Hyperbee.stream_misses", "Hyperbee.snapshot_partial", "Hyperbee.stream_honest_partial"], "note": "False of the code for writes through the same handle: the stream can yield later entries, repeat an entry, miss entries or panic (witnesses). Proved: a snapshot for writes through any other handles and reads through the same one; for any writes at all, each entry is the content of the block it names and in range."},
  {"property": "C34", "status": "proved", "theorems": ["Hyperbee.height_log", "Hyperbee.height_log_needs_keys"], "note": ""},
  {"property": "C35", "status": "proved", "theorems": ["Hyperbee.write_size", "Hyperbee.levels_step", "Hyperbee.has_levels"], "note": ""},
  {"property": "C36", "status": "proved", "theorems": ["Hyperbee.emptied_forgets", "Hyperbee.emptied_is_fresh", "Hyperbee.emptied_seq_visible", "Hyperbee.emptied_traversal"], "note": "For compare functions that do not look at block numbers; emptied_seq_visible shows that one which does can tell an emptied database from a new one."},
  {"property": "C37", "status": "partial", "theorems": ["Hyperbee.c_get_partial", "Hyperbee.c_get_decides", "Hyperbee.c_get_silent", "Hyperbee.c_get_any", "Hyperbee.c_get_harmless"], "note": "False of the code: for absent keys and keys without value the spawned task panics at todo!() and the callback is never called (c_get_silent). Proved: exactly when it is called, with what (in any state, c_get_any), and that the panic does no harm to the handle."},
  {"property": "C38", "status": "proved", "theorems": ["Hyperbee.value_of_last_write", "Hyperbee.contents_confluent"], "note": ""},
  {"property": "C39", "status": "proved", "theorems": ["Hyperbee.reads_quiet"], "note": ""},
  {"property": "C40", "status": "proved", "theorems": ["Hyperbee.values_kept"], "note": ""},
  {"property": "C41", "status": "proved", "theorems": ["Hyperbee.tombstone_block", "Hyperbee.tombstone_never_read"], "note": ""},
  {"property": "C42", "status": "proved", "theorems": ["Hyperbee.readers_undisturbed", "Hyperbee.readers_finish", "Hyperbee.readers_leave_no_trace"], "note": "For any core contents and any readable blocks; all readers, all schedules. readers_finish: every call given turns infinitely often ends."},
  {"property": "C43", "status": "partial", "theorems": ["Hyperbee.corrupt_panics", "Hyperbee.corrupt_loops", "Hyperbee.corrupt_read_false", "Hyperbee.corrupt_get_partial", "Hyperbee.corrupt_traverse_partial", "Hyperbee.corrupt_height_partial", "Hyperbee.sound_get_partial", "Hyperbee.written_sound"], "note": "False of the code: forged blocks make a lookup panic at three places (corrupt_panics) or descend forever (corrupt_loops). Proved instead, for every core, every set of readable blocks and any earlier reads: a lookup, traversal or height call ends in a result, a decode or missing-block error, or one of four named failures, each implying a particular defect of the blocks (Blame); cores without those defects never panic or diverge a lookup, and written_sound shows that cores written by the library, even with undecodable blocks put in place of some, have none."},
  {"property": "C44", "status": "proved", "theorems": ["Hyperbee.replica_get", "Hyperbee.replica_get_full", "Hyperbee.replica_fetch"], "note": "Replica that lags behind, holds any changing set of blocks and has read anything before; fetching the named block and retrying ends with the right answer."},
  {"property": "C45", "status": "partial", "theorems": ["Hyperbee.numeric_limits_unordered", "Hyperbee.numeric_limits_partial"], "note": "False as stated (witness); holds for limits with equally many digits."},
  {"property": "C46", "status": "proved", "theorems": ["Hyperbee.ffi_call", "Hyperbee.ffi_history"], "note": "Every call agrees with the Rust method on any state; histories agree with the abstract database."},
  {"property": "C47", "status": "proved", "theorems": ["Hyperbee.seq_names_block", "Hyperbee.put_names_block", "Hyperbee.traverse_names_block"], "note": ""},
  {"property": "C48", "status": "partial", "theorems": ["Hyperbee.repoll_panics", "Hyperbee.repoll_partial", "Hyperbee.repoll_dichotomy"], "note": "False of the code for streams that end at a key outside the interval (repoll_panics). Proved when every stored key lies in the interval; repoll_dichotomy: every ended stream either returns None for ever or panics at once."},
  {"property": "C49", "status": "partial", "theorems": ["Hyperbee.dropped_write_false", "Hyperbee.dropped_put_false", "Hyperbee.dropped_first_put_false", "Hyperbee.dropped_write_partial", "Hyperbee.dropped_search_partial"], "note": "False of the code: cached nodes stay changed (witnesses: a dropped del persisted by a later put; a handle that can no longer read; a header left behind). Proved: the core is unchanged or has its header, so a reopened handle is unaffected; and the handle itself is unaffected before the first write."},
  {"property": "C50", "status": "proved", "theorems": ["Hyperbee.height_levels"], "note": "Common depth of all leaves of the stored tree; 0 without a root; only the cache changes."},
  {"property": "C51", "status": "proved", "theorems": ["Hyperbee.sub_yields", "Hyperbee.sub_key_kept"], "note": "Any configuration, any state, any key."},
  {"property": "C52", "status": "partial", "theorems": ["Hyperbee.read_during_write_false", "Hyperbee.read_during_split_misses", "Hyperbee.read_during_split_panics", "Hyperbee.read_during_del_mixes", "Hyperbee.read_during_write_partial", "Hyperbee.read_during_write_honest_partial"], "note": "False of the code: a get overlapping a put can fail with NoBlockAtSeq, miss a present key or panic; overlapping a del it can return another key's value (witnesses). Holds as long as no write has yet changed a node or the core; and on every schedule each entry reported is the content of the block it names, traversal entries being in range."},
  {"property": "C53", "status": "partial", "theorems": ["Hyperbee.no_deadlock_false", "Hyperbee.no_deadlock_dels_false", "Hyperbee.no_deadlock_partial", "Hyperbee.no_deadlock_del_partial", "Hyperbee.no_deadlock_dels_partial", "Hyperbee.readers_never_wait_partial", "Hyperbee.alone_never_waits_partial"], "note": "False as stated: a traversal and a put deadlock (get_n_keys_and_children keeps a read guard while it asks for another), and three deletions alone can too (merging asks for the child list it holds). Proved: calls other than traversals and deletions always come to their replies in fair runs; with deletions, all reply if and only if no ring of deletions forms, each holding the child list another asks for; readers (with traversals) never wait; a single call never waits. Traversals beside writers: C67 says exactly when they stand still."},
  {"property": "C54", "status": "proved", "theorems": ["Hyperbee.format_unique", "Hyperbee.format_header_unique", "Hyperbee.format_injective", "Hyperbee.write_format", "Hyperbee.create_header_format", "Hyperbee.core_format"], "note": "For every reachable state. The format is stated with literal tag bytes and shortest numbers, apart from the encoder."},
  {"property": "C55", "status": "proved", "theorems": ["Hyperbee.reader_exact", "Hyperbee.reads_unique", "Hyperbee.format_reads", "Hyperbee.reads_blockOf"], "note": "Exact for all byte strings, for the reader with prost's limits (ten bytes and 64 bits per number, 32 bits per key, 100 levels of nesting)."},
  {"property": "C56", "status": "proved", "theorems": ["Hyperbee.foreign_core", "Hyperbee.shows_unique", "Hyperbee.foreign_core_grows", "Hyperbee.foreign_header", "Hyperbee.header_no_nodes"], "note": "For every core in order and every sequence of calls."},
  {"property": "C57", "status": "proved", "theorems": ["Hyperbee.print_outline", "Hyperbee.print_no_root", "Hyperbee.print_readable"], "note": "utf8Valid_iff ties the modelled UTF-8 check to Lean's String.utf8EncodeChar"},
  {"property": "C58", "status": "proved", "theorems": ["Hyperbee.sub_isolated_iff", "Hyperbee.apart_iff"], "note": "The exact form of C23."},
  {"property": "C59", "status": "proved", "theorems": ["Hyperbee.builder_accepts", "Hyperbee.builder_accepts_empty_iff", "Hyperbee.builder_rejects_sensible_iff"], "note": "The exact form of C26."},
  {"property": "C60", "status": "proved", "theorems": ["Hyperbee.numeric_limits_order"], "note": "The exact form of C45; the number of digits is tied to the number on both sides."},
  {"property": "C61", "status": "proved", "theorems": ["Hyperbee.sub_traversal_exact", "Hyperbee.sub_crossed"], "note": "The exact form of C25, for accepted configurations. sub_crossed covers the two kinds of bounds sub_traversal_exact leaves out."},
  {"property": "C62", "status": "proved", "theorems": ["Hyperbee.repoll_exact"], "note": "The exact form of C48: both directions, for panics and for None."},
  {"property": "C63", "status": "proved", "theorems": ["Hyperbee.log_faithful"], "note": "No assumption on the state; the list log names for each new block its call. Includes that the number a put reports is at most that of its block."},
  {"property": "C64", "status": "partial", "theorems": ["Hyperbee.overlapping_seq_false", "Hyperbee.overlapping_seq_partial", "Hyperbee.overlapping_cas_seq_partial"], "note": "False of the code: two overlapping puts report the same number (witness). Proved: the put has a block with its key and value, and the number reported is not beyond it. (For calls in turn: C02, C47.)"},
  {"property": "C65", "status": "partial", "theorems": ["Hyperbee.overlapping_headers_false", "Hyperbee.overlapping_first_put_false", "Hyperbee.overlapping_headers_partial"], "note": "False of the code: two overlapping create_header calls both succeed, whatever their metadata, and after that every get, put, deletion and traversal of every later history fails and nothing can be appended. Proved: on a core that is not empty no overlapping calls append a header. (For calls in turn: C28.)"},
  {"property": "C66", "status": "proved", "theorems": ["Hyperbee.read_is_snapshot", "Hyperbee.readers_follow_writer"], "note": "Calls through any handles overlap step by step. The reading handle may be as any earlier calls that did not overlap have left it (so it may hold nodes that its own writes have replaced, an example shows one); while the calls overlap it must only be read through. The first theorem asks nothing of the others but that the core at the reader's first step is one a sequential history leads to, the second derives this when one handle is written through, one call after the other."},
  {"property": "C67", "status": "proved", "theorems": ["Hyperbee.standstill_exact", "Hyperbee.standstill_waits"], "note": "Locks are modelled as tokio's fair RwLock (requests are served in order). That both kinds of standstill happen: C53."},
  {"property": "C68", "status": "partial", "theorems": ["Hyperbee.write_among_readers_false", "Hyperbee.put_among_readers", "Hyperbee.write_among_readers_partial"], "note": "False of the code for deletions: a get overlapping a del can put a block into the cache late, and the deletion is undone although it replies that it is done (witness, minimal tree of nine keys). Proved for all histories of puts, conditional puts, header creations and reads of the writing client under every interleaving, and for all histories, deletions too, as long as no reader puts a block into the cache that is there already before the writing client is done."},
  {"property": "C69", "status": "proved", "theorems": ["Hyperbee.check_accepts", "Hyperbee.btree_checked", "Hyperbee.check_no_root"], "note": "check_tree returns Ok on every reachable state with a root; without a root it panics by design (check_no_root)."},
  {"property": "C70", "status": "partial", "theorems": ["Hyperbee.check_sound_false", "Hyperbee.check_exact", "Hyperbee.check_sound_partial"], "note": "False of the test suite: keys of the top out of order, keys of its children out of place, a key beyond the separator that is not the first of its node, and leaves of different depths all pass (witnesses). Proved: check_tree succeeds exactly on the trees described by Checked and panics on all others; such a tree is a B-tree if and only if, besides, its keys are in order as a whole and its leaves equally deep."},
  {"property": "C71", "status": "partial", "theorems": ["Hyperbee.read_error_harmless_false", "Hyperbee.read_error_harmless_partial", "Hyperbee.read_error_del_partial", "Hyperbee.read_errors_harmless_partial", "Hyperbee.spare_needed"], "note": "False: a deletion whose read fails after its first edit returns the error, leaves the cached tree edited, and the next put makes the loss of another key permanent (read_error_harmless_false). Proved: every other call is harmless, and so is a deletion that deletes nothing or whose key is in a leaf that can spare it, of five keys or more or the whole tree (one call, and whole histories); any deletion that returns a read error has not changed the core, so later handles are unaffected. The condition on the leaf is needed (spare_needed: four keys are not enough)."},
  {"property": "C72", "status": "partial", "theorems": ["Hyperbee.traverse_gaps_false", "Hyperbee.traverse_gaps_partial", "Hyperbee.traverse_no_silent_gap"], "note": "False as to panics: after failing to find its place in a node the stream yields the error and panics when polled again (traverse_gaps_false). Proved: everything else, and that panics come in no other way (traverse_gaps_partial); no silent gaps (traverse_no_silent_gap)."},
  {"property": "C73", "status": "proved", "theorems": ["Hyperbee.gate_linear", "Hyperbee.gate_state", "Hyperbee.gate_finishes", "Hyperbee.gate_puts", "Hyperbee.gate_dropped_false"], "note": "About clients that keep writers apart with a lock, or the code with tree.write() in place of tree.read() in the calls that write; without the lock see C31, C33, C52, C64, C65. gate_dropped_false shows that the condition on dropping writers is needed. A traversal has the lock until its stream has been drained."},
  {"property": "C74", "status": "proved", "theorems": ["Hyperbee.cleared_unseen", "Hyperbee.unused_for_ever", "Hyperbee.needed_missed", "Hyperbee.needed_few", "Hyperbee.replica_needed"], "note": "Hyperbee.Needed (SpecSpace.lean) is read off the decoded blocks. Removals are Model/Space.lean; the library itself never removes blocks."},
  {"property": "C75", "status": "proved", "theorems": ["Hyperbee.put_fetches", "Hyperbee.del_fetches", "Hyperbee.traverse_fetches", "Hyperbee.traverse_polls", "Hyperbee.page_fetches"], "note": "Fetched blocks are those in the cache afterwards and not before; FetchesOnly adds that they suffice (with the header block readable). Numbers are upper bounds, not tight: see the examples in Props/Lazy.lean."},
  {"property": "C76", "status": "proved", "theorems": ["Hyperbee.write_bytes", "Hyperbee.block_bytes", "Hyperbee.core_bytes"], "note": "Byte bounds for one write, for each block, and for all of the core behind the header."},
  {"property": "C77", "status": "proved", "theorems": ["Hyperbee.c_rules_suffice", "Hyperbee.c_rules_needed", "Hyperbee.c_close_early", "Hyperbee.c_close_order", "Hyperbee.c_no_leak"], "note": "Unbounded: all call sequences and all placings of turns. Memory is never reused in the model, so a dangling pointer is always noticed. Memory means what is handed to the C program; what lies behind a database's box is C87. Examples: tests/common/c/test.c keeps the rules and leaves none of it in use; closing the database at each possible moment of a lookup."},
  {"property": "C78", "status": "proved", "theorems": ["Hyperbee.c_callback_right", "Hyperbee.c_opened_once", "Hyperbee.c_callback_once", "Hyperbee.c_get_ends", "Hyperbee.c_get_database"], "note": "That the task panics when there is no value is C37. c_opened_once says that the directory in c_callback_right exists and is unique."},
  {"property": "C79", "status": "partial", "theorems": ["Hyperbee.fmt_false", "Hyperbee.fmt_partial", "Hyperbee.fmt_shows", "Hyperbee.fmt_stale"], "note": "False of the code: formatting panics while a put waits for a node that a get is searching (witness); superseded nodes are shown as edited in memory (fmt_stale). Proved: it panics only when a put or deletion is in flight and waits for a node of a cached block; nodes of the newest tree are shown as stored."},
  {"property": "C80", "status": "proved", "theorems": ["Hyperbee.peer_reply", "Hyperbee.peer_get", "Hyperbee.peer_traverse"], "note": "For reading calls through the replica's handle; the owner's calls are atomic, as the replica sees its core only."},
  {"property": "C81", "status": "partial", "theorems": ["Hyperbee.sub_overlap_false", "Hyperbee.sub_overlap_destroys", "Hyperbee.sub_steps", "Hyperbee.sub_alone", "Hyperbee.sub_overlap_partial", "Hyperbee.sub_readers_undisturbed", "Hyperbee.sub_readers_finish", "Hyperbee.sub_readers_never_wait", "Hyperbee.sub_no_trace"], "note": "False of the code: of overlapping puts into two sub-databases one can be lost, and what is in a third can be destroyed (witnesses). Proved: readers through any sub-databases never disturb each other, nor do calls that have not come to write; calls other than traversals are step by step those on the database with prefixed keys."},
  {"property": "C82", "status": "partial", "theorems": ["Hyperbee.damaged_write_false", "Hyperbee.damaged_put_fails", "Hyperbee.damaged_put_adopts", "Hyperbee.damaged_del_fails", "Hyperbee.damaged_putCas_partial", "Hyperbee.damaged_put_partial", "Hyperbee.damaged_put_first", "Hyperbee.damaged_del_partial", "Hyperbee.written_names_none"], "note": "False of the code: witnesses on forged cores. Proved: on a core without the four defects that also stop lookups (C43), and in which no node lists a child in the block about to be written, every insertion ends in a result or an error and appends exactly one block (or none on an error or a refusal), whatever else is wrong with the tree. On a core without a tree insertions always work. A deletion that finds nothing ends as the lookup does. Deletions that find their key can fail on trees that are not B-trees; C56 covers trees in order."},
  {"property": "C83", "status": "partial", "theorems": ["Hyperbee.handmade_false", "Hyperbee.handmade_exact", "Hyperbee.covers_iff", "Hyperbee.handmade_partial", "Hyperbee.handmade_quiet"], "note": "False as stated: going forwards with the bounds the wrong way round, the entry at an inclusive lower bound is yielded (handmade_false). handmade_exact says exactly what is yielded for every configuration; handmade_partial is the statement itself for all configurations that go backwards or have their bounds the right way round, and covers_iff shows that these are all for which it holds."},
  {"property": "C84", "status": "proved", "theorems": ["Hyperbee.fetched_once", "Hyperbee.fetched_once_each", "Hyperbee.fetched_twice"], "note": "Reopening drops the cache, so it is left out. fetched_twice is the witness that overlapping calls may fetch the same block."},
  {"property": "C85", "status": "proved", "theorems": ["Hyperbee.ends_soon", "Hyperbee.ends_soon_log", "Hyperbee.ends_soon_empty"], "note": "A step is what a future does between two places at which it may be suspended (Model/Async). Calls that are polled with nothing in between; overlapping calls may wait for each other (C53, C67)."},
  {"property": "C86", "status": "partial", "theorems": ["Hyperbee.closure_put_partial", "Hyperbee.closure_del_partial", "Hyperbee.closure_answers", "Hyperbee.closure_fine_false", "Hyperbee.closure_puts_false", "Hyperbee.closure_deletes_false", "Hyperbee.closure_panics_false", "Hyperbee.closure_loses_false"], "note": "False of the code when the function writes through the handle and approves: the call goes on with the path and the block number from before, and deletes or loses other keys (witnesses). Proved for functions that only look, and for all that refuse or panic."},
  {"property": "C87", "status": "partial", "theorems": ["Hyperbee.drop_frees_false", "Hyperbee.drop_frees_iff", "Hyperbee.drop_frees_partial"], "note": "False of the code: the cache, its nodes and the Blocks refer to each other, and no reference is weak, so once a node has been cached nothing behind the handle is freed (witness: one put, one get). drop_frees_iff says in any state what is freed; drop_frees_partial says exactly after which histories all of it is."},
  {"property": "C88", "status": "proved", "theorems": ["Hyperbee.bytes_iff_writes", "Hyperbee.replay", "Hyperbee.bytes_iff_writes_handles"], "note": "Unbounded, both directions. Each call is awaited before the next; for overlapping calls see C63, C68 and C73."},
  {"property": "C89", "status": "proved", "theorems": ["Hyperbee.machine_call", "Hyperbee.machine_history", "Hyperbee.machine_overlap", "Hyperbee.machine_readers", "Hyperbee.machine_sub_call", "Hyperbee.machine_sub_history", "Hyperbee.roomy_fits", "Hyperbee.machine_tight", "Hyperbee.machine_sub_tight", "Hyperbee.machine_forged", "Hyperbee.machine_debug", "Hyperbee.machine_debug_tight"], "note": "Every width from 4 bits, both kinds of builds. The condition on sizes is on what the steps of the execution report; it follows if every state on the way has small vectors (roomy_fits). The bound on the core is that of the model on descents. machine_sub_call and machine_sub_history are for calls through sub-databases, alone and mixed with calls on the database itself. machine_overlap excludes only panics on node numbers out of range. machine_debug is for height and print. The C interface is not covered."},
  {"property": "C90", "status": "proved", "theorems": ["Hyperbee.stored_append_fails", "Hyperbee.stored_appends_fail", "Hyperbee.careful_client"], "note": "Any append of any call may fail, with or without having stored its block (Model/Lossy). stored_append_fails: one call; stored_appends_fail: any history through one handle, all failing appends having stored their blocks, the state at the end is literally that of the calls listed in ds. careful_client: any failures, the client reopens after each; Fates says call by call what took effect and what was replied. refused_append_false: without reopening, a refused append is not harmless (that is C32)."},
  {"property": "C91", "status": "partial", "theorems": ["Hyperbee.rival_puts_false", "Hyperbee.rival_puts_brick", "Hyperbee.rival_log_partial", "Hyperbee.rival_apart_partial", "Hyperbee.rival_linear_partial"], "note": "False of the code: two overlapping puts through different handles lose an update, or leave a database in which lookups and puts panic for ever through every handle (witnesses; within one handle this is C31). Proved: the log is faithful whatever overlaps (rival_log_partial, cf. C63); calls that keep apart, no other call appending while one is under way nor using its handle, have exactly the replies, core and memory of the same calls made at once in some order (rival_apart_partial); and calls are linearizable, in an order that respects which returned before which began, when reading calls overlap as they like with each other and with writing calls through other handles, and writing calls overlap without one appending while the other is under way (rival_linear_partial). Missing: writing calls during which another call appends, and reading calls through the handle of a writing call (false in general)."},
  {"property": "C92", "status": "proved", "theorems": ["Hyperbee.version_shares", "Hyperbee.node_life", "Hyperbee.written_in_version", "Hyperbee.few_dropped", "Hyperbee.version_tree"], "note": "InVersion and Below (SpecShare) are read off the decoded blocks. few_dropped bounds the nodes a write drops by twice the nodes of its block and one; with C35 that is linear in the height. Histories of calls made one after another, through any number of reopened handles."},
  {"property": "C93", "status": "proved", "theorems": ["Hyperbee.cautious_client", "Hyperbee.acknowledged_stays", "Hyperbee.cautious_clients"], "note": "Holds whatever goes wrong and however often; C71 and C32 show that opening anew is needed."},
  {"property": "C94", "status": "partial", "theorems": ["Hyperbee.paging_false", "Hyperbee.paging_partial"], "note": "False as stated: when the far bound was given as an infinity (which the builder takes for the first page) the second page is refused and entries are never seen (paging_false). paging_partial proves all of it for builders without explicit infinities, for which the default is meant."},
  {"property": "C95", "status": "proved", "theorems": ["Hyperbee.cautious_sub_clients", "Hyperbee.trouble_elsewhere", "Hyperbee.passes_two"], "note": "Bounds that cross when put together are left out (Uncrossed says exactly which; for two keys given they never do). Which entries are passed over is C61's statement."},
  {"property": "C96", "status": "proved", "theorems": ["Hyperbee.turmoil_log"], "note": "No assumption on the state. The list log names for each new block its call. A call's block without a reply that says so requires an append of this call in the schedule that fails after storing. Without such failures this is C63 for several handles and sub-databases."},
  {"property": "C97", "status": "proved", "theorems": ["Hyperbee.turmoil_honest"], "note": "From an empty core; opening anew is a new handle number, so one schedule covers whole histories of clients. For a sub-database the range is that of C61, for bounds that do not cross."},
  {"property": "C98", "status": "proved", "theorems": ["Hyperbee.standstill_troubled", "Hyperbee.timeouts_suffice"], "note": "C67 with failing reads and appends, dropped futures and sub-databases; a dropped future releases its guards and leaves the queue (tokio)."},
  {"property": "C99", "status": "proved", "theorems": ["Hyperbee.traversal_pace", "Hyperbee.traversal_pace_sub", "Hyperbee.next_item_soon", "Hyperbee.traversal_steps"], "note": "Polls are counted that find their future ready; a pending one changes nothing. Steps are lock operations, reads and edits of nodes as in Model/Async."}
]}
