# Axioms of every theorem named in MANIFEST.json

Output of `#print axioms`.

| Property | Theorem | Axioms |
|---|---|---|
| C01 | `Hyperbee.get_latest` | propext, Classical.choice, Quot.sound |
| C02 | `Hyperbee.put_reports` | propext, Classical.choice, Quot.sound |
| C03 | `Hyperbee.del_removes` | propext, Classical.choice, Quot.sound |
| C04 | `Hyperbee.del_absent` | propext, Classical.choice, Quot.sound |
| C05 | `Hyperbee.putCas_decides` | propext, Classical.choice, Quot.sound |
| C06 | `Hyperbee.delCas_decides` | propext, Classical.choice, Quot.sound |
| C07 | `Hyperbee.version_counts` | propext, Classical.choice, Quot.sound |
| C07 | `Hyperbee.version_monotone` | propext, Quot.sound |
| C08 | `Hyperbee.stored_btree` | propext, Classical.choice, Quot.sound |
| C09 | `Hyperbee.full_traversal` | propext, Classical.choice, Quot.sound |
| C10 | `Hyperbee.range_traversal` | propext, Classical.choice, Quot.sound |
| C10 | `Hyperbee.build_fields` | propext |
| C10 | `Hyperbee.traversal` | propext, Classical.choice, Quot.sound |
| C100 | `Hyperbee.paging_ends` | propext, Classical.choice, Quot.sound |
| C100 | `Hyperbee.paging_whole` | propext, Classical.choice, Quot.sound |
| C101 | `Hyperbee.fails_at_once` | propext, Quot.sound |
| C101 | `Hyperbee.troubled_ends_soon` | propext, Classical.choice, Quot.sound |
| C102 | `Hyperbee.debug_undisturbed` | propext, Classical.choice, Quot.sound |
| C102 | `Hyperbee.debug_no_trace` | propext, Classical.choice, Quot.sound |
| C102 | `Hyperbee.debug_reads_fail` | propext, Classical.choice, Quot.sound |
| C103 | `Hyperbee.debug_is_snapshot` | propext, Classical.choice, Quot.sound |
| C104 | `Hyperbee.sub_paging_false` | propext, Classical.choice, Quot.sound |
| C104 | `Hyperbee.sub_paging_partial` | propext, Classical.choice, Quot.sound |
| C104 | `Hyperbee.sub_paging_ends_partial` | propext, Classical.choice, Quot.sound |
| C104 | `Hyperbee.sub_paging_whole_partial` | propext, Classical.choice, Quot.sound |
| C105 | `Hyperbee.sub_handmade_false` | propext |
| C105 | `Hyperbee.sub_handmade_exact` | propext, Classical.choice, Quot.sound |
| C105 | `Hyperbee.sub_handmade_partial` | propext, Classical.choice, Quot.sound |
| C105 | `Hyperbee.sub_handmade_quiet` | propext, Classical.choice, Quot.sound |
| C106 | `Hyperbee.sub_whole_false` | propext, Classical.choice, Quot.sound |
| C106 | `Hyperbee.sub_whole_iff` | propext, Classical.choice, Quot.sound |
| C106 | `Hyperbee.sub_whole_partial` | propext, Classical.choice, Quot.sound |
| C107 | `Hyperbee.sub_read_error_false` | propext, Quot.sound |
| C107 | `Hyperbee.sub_read_error_partial` | propext, Classical.choice, Quot.sound |
| C107 | `Hyperbee.sub_read_error_del_partial` | propext, Quot.sound |
| C107 | `Hyperbee.sub_read_errors_partial` | propext, Classical.choice, Quot.sound |
| C108 | `Hyperbee.sub_gaps_false` | propext |
| C108 | `Hyperbee.sub_gaps_partial` | propext, Classical.choice, Quot.sound |
| C108 | `Hyperbee.sub_gaps_sound_partial` | propext, Classical.choice, Quot.sound |
| C109 | `Hyperbee.page_faults_false` | propext |
| C109 | `Hyperbee.page_faults_partial` | propext, Classical.choice, Quot.sound |
| C109 | `Hyperbee.page_faults_kept` | propext |
| C11 | `Hyperbee.reversed_traversal` | propext, Classical.choice, Quot.sound |
| C12 | `Hyperbee.schedule_free` | propext, Classical.choice, Quot.sound |
| C12 | `Hyperbee.never_forgotten` | propext, Classical.choice, Quot.sound |
| C13 | `Hyperbee.unwritten_traversal` | propext, Classical.choice, Quot.sound |
| C13 | `Hyperbee.emptied_traversal` | propext, Classical.choice, Quot.sound |
| C14 | `Hyperbee.append_only` | propext, Classical.choice, Quot.sound |
| C14 | `Hyperbee.never_rewritten` | propext, Quot.sound |
| C15 | `Hyperbee.crash_contents` | propext, Classical.choice, Quot.sound |
| C15 | `Hyperbee.crash_continues` | propext, Classical.choice, Quot.sound |
| C16 | `Hyperbee.cache_invisible` | propext, Classical.choice, Quot.sound |
| C16 | `Hyperbee.cores_decide` | propext, Classical.choice, Quot.sound |
| C17 | `Hyperbee.old_version` | propext, Classical.choice, Quot.sound |
| C17 | `Hyperbee.old_version_contents` | propext, Classical.choice, Quot.sound |
| C18 | `Hyperbee.handles_agree` | propext, Classical.choice, Quot.sound |
| C18 | `Hyperbee.handles_read_latest` | propext, Classical.choice, Quot.sound |
| C19 | `Hyperbee.no_failure` | propext, Classical.choice, Quot.sound |
| C20 | `Hyperbee.varint_roundtrip` | propext, Quot.sound |
| C20 | `Hyperbee.block_roundtrip` | propext, Quot.sound |
| C20 | `Hyperbee.encodeBlock_injective` | propext, Quot.sound |
| C20 | `Hyperbee.header_roundtrip` | propext, Classical.choice, Quot.sound |
| C20 | `Hyperbee.limits_only_refuse` | propext |
| C20 | `Hyperbee.reachable_decode` | propext, Classical.choice, Quot.sound |
| C21 | `Hyperbee.block_references` | propext, Classical.choice, Quot.sound |
| C22 | `Hyperbee.sub_call` | propext |
| C22 | `Hyperbee.sub_history` | propext, Classical.choice, Quot.sound |
| C22 | `Hyperbee.sub_is_database` | propext, Classical.choice, Quot.sound |
| C22 | `Hyperbee.sub_readback` | propext, Classical.choice, Quot.sound |
| C23 | `Hyperbee.sub_not_isolated` | propext |
| C23 | `Hyperbee.apart_of_sep` | propext, Quot.sound |
| C23 | `Hyperbee.apart_of_length` | propext, Quot.sound |
| C23 | `Hyperbee.sub_isolated_partial` | propext, Classical.choice, Quot.sound |
| C23 | `Hyperbee.sub_isolated_runs_partial` | propext, Classical.choice, Quot.sound |
| C23 | `Hyperbee.sub_isolated_traversal_partial` | propext, Classical.choice, Quot.sound |
| C24 | `Hyperbee.sub_bounded_traversal` | propext, Classical.choice, Quot.sound |
| C25 | `Hyperbee.sub_unbounded_wrong` | propext |
| C25 | `Hyperbee.sub_misses_everything` | propext, Classical.choice, Quot.sound |
| C25 | `Hyperbee.sub_wrong_infinity` | propext |
| C25 | `Hyperbee.sub_open_traversal_partial` | propext, Classical.choice, Quot.sound |
| C25 | `Hyperbee.sub_full_traversal_partial` | propext, Classical.choice, Quot.sound |
| C25 | `Hyperbee.own_keys` | propext, Classical.choice, Quot.sound |
| C26 | `Hyperbee.builder_rejects_sensible` | propext |
| C26 | `Hyperbee.builder_accepts_empty` | propext, Classical.choice, Quot.sound |
| C26 | `Hyperbee.builder_partial` | propext, Classical.choice, Quot.sound |
| C26 | `Hyperbee.builder_one_sided` | propext |
| C27 | `Hyperbee.bounds_check` | propext, Quot.sound |
| C27 | `Hyperbee.bounds_check_unvalidated` | propext |
| C28 | `Hyperbee.create_header_writes` | propext, Classical.choice, Quot.sound |
| C28 | `Hyperbee.create_header_refused` | propext |
| C28 | `Hyperbee.first_put_header` | propext, Quot.sound |
| C28 | `Hyperbee.header_irrelevant` | propext, Quot.sound |
| C28 | `Hyperbee.header_reader_exact` | propext, Classical.choice, Quot.sound |
| C28 | `Hyperbee.format_header_reads` | propext, Classical.choice, Quot.sound |
| C29 | `Hyperbee.byteLt_iff` | propext, Classical.choice, Quot.sound |
| C29 | `Hyperbee.limit_order` | propext, Classical.choice, Quot.sound |
| C29 | `Hyperbee.limit_order_flip` | propext, Quot.sound |
| C29 | `Hyperbee.byte_order` | propext, Classical.choice, Quot.sound |
| C30 | `Hyperbee.get_fetches` | propext, Classical.choice, Quot.sound |
| C30 | `Hyperbee.get_fetches_log` | propext, Classical.choice, Quot.sound |
| C30 | `Hyperbee.get_fetches_none` | propext, Classical.choice, Quot.sound |
| C31 | `Hyperbee.overlapping_puts_false` | propext, Quot.sound |
| C31 | `Hyperbee.overlapping_puts_destroy` | propext, Quot.sound |
| C31 | `Hyperbee.overlapping_puts_brick` | propext, Quot.sound |
| C31 | `Hyperbee.overlapping_del_panics` | propext, Quot.sound |
| C31 | `Hyperbee.calls_in_turn_partial` | propext, Classical.choice, Quot.sound |
| C31 | `Hyperbee.overlapping_puts_partial` | propext, Classical.choice, Quot.sound |
| C32 | `Hyperbee.failed_write_false` | propext |
| C32 | `Hyperbee.failed_put_false` | propext |
| C32 | `Hyperbee.failed_write_partial` | propext, Classical.choice, Quot.sound |
| C32 | `Hyperbee.needless_append_partial` | propext, Classical.choice, Quot.sound |
| C33 | `Hyperbee.not_snapshot` | propext |
| C33 | `Hyperbee.stream_panics` | propext |
| C33 | `Hyperbee.stream_repeats` | propext |
| C33 | `Hyperbee.stream_misses` | propext |
| C33 | `Hyperbee.snapshot_partial` | propext, Classical.choice, Quot.sound |
| C33 | `Hyperbee.stream_honest_partial` | propext, Classical.choice, Quot.sound |
| C34 | `Hyperbee.height_log` | propext, Classical.choice, Quot.sound |
| C34 | `Hyperbee.height_log_needs_keys` | propext, Quot.sound |
| C35 | `Hyperbee.write_size` | propext, Classical.choice, Quot.sound |
| C35 | `Hyperbee.levels_step` | propext, Classical.choice, Quot.sound |
| C35 | `Hyperbee.has_levels` | propext, Classical.choice, Quot.sound |
| C36 | `Hyperbee.emptied_forgets` | propext, Classical.choice, Quot.sound |
| C36 | `Hyperbee.emptied_is_fresh` | propext, Classical.choice, Quot.sound |
| C36 | `Hyperbee.emptied_seq_visible` | propext |
| C36 | `Hyperbee.emptied_traversal` | propext, Classical.choice, Quot.sound |
| C37 | `Hyperbee.c_get_partial` | propext, Classical.choice, Quot.sound |
| C37 | `Hyperbee.c_get_decides` | propext, Classical.choice, Quot.sound |
| C37 | `Hyperbee.c_get_silent` | propext |
| C37 | `Hyperbee.c_get_any` | propext |
| C37 | `Hyperbee.c_get_harmless` | propext, Classical.choice, Quot.sound |
| C38 | `Hyperbee.value_of_last_write` | propext, Classical.choice, Quot.sound |
| C38 | `Hyperbee.contents_confluent` | propext, Classical.choice, Quot.sound |
| C39 | `Hyperbee.reads_quiet` | propext, Classical.choice, Quot.sound |
| C40 | `Hyperbee.values_kept` | propext, Classical.choice, Quot.sound |
| C41 | `Hyperbee.tombstone_block` | propext, Classical.choice, Quot.sound |
| C41 | `Hyperbee.tombstone_never_read` | propext, Classical.choice, Quot.sound |
| C42 | `Hyperbee.readers_undisturbed` | propext, Classical.choice, Quot.sound |
| C42 | `Hyperbee.readers_finish` | propext, Quot.sound |
| C42 | `Hyperbee.readers_leave_no_trace` | propext, Classical.choice, Quot.sound |
| C43 | `Hyperbee.corrupt_panics` | propext |
| C43 | `Hyperbee.corrupt_loops` | propext, Quot.sound |
| C43 | `Hyperbee.corrupt_read_false` | propext |
| C43 | `Hyperbee.corrupt_get_partial` | propext, Classical.choice, Quot.sound |
| C43 | `Hyperbee.corrupt_traverse_partial` | propext, Classical.choice, Quot.sound |
| C43 | `Hyperbee.corrupt_height_partial` | propext, Classical.choice, Quot.sound |
| C43 | `Hyperbee.sound_get_partial` | propext, Classical.choice, Quot.sound |
| C43 | `Hyperbee.written_sound` | propext, Classical.choice, Quot.sound |
| C44 | `Hyperbee.replica_get` | propext, Classical.choice, Quot.sound |
| C44 | `Hyperbee.replica_get_full` | propext, Classical.choice, Quot.sound |
| C44 | `Hyperbee.replica_fetch` | propext, Classical.choice, Quot.sound |
| C45 | `Hyperbee.numeric_limits_unordered` | propext, Classical.choice, Quot.sound |
| C45 | `Hyperbee.numeric_limits_partial` | propext, Classical.choice, Quot.sound |
| C46 | `Hyperbee.ffi_call` | propext, Quot.sound |
| C46 | `Hyperbee.ffi_history` | propext, Classical.choice, Quot.sound |
| C47 | `Hyperbee.seq_names_block` | propext, Classical.choice, Quot.sound |
| C47 | `Hyperbee.put_names_block` | propext, Classical.choice, Quot.sound |
| C47 | `Hyperbee.traverse_names_block` | propext, Classical.choice, Quot.sound |
| C48 | `Hyperbee.repoll_panics` | propext |
| C48 | `Hyperbee.repoll_partial` | propext, Classical.choice, Quot.sound |
| C48 | `Hyperbee.repoll_dichotomy` | propext, Quot.sound |
| C49 | `Hyperbee.dropped_write_false` | propext |
| C49 | `Hyperbee.dropped_put_false` | propext |
| C49 | `Hyperbee.dropped_first_put_false` | propext |
| C49 | `Hyperbee.dropped_write_partial` | propext, Classical.choice, Quot.sound |
| C49 | `Hyperbee.dropped_search_partial` | propext, Classical.choice, Quot.sound |
| C50 | `Hyperbee.height_levels` | propext, Classical.choice, Quot.sound |
| C51 | `Hyperbee.sub_yields` | propext, Classical.choice, Quot.sound |
| C51 | `Hyperbee.sub_key_kept` | propext, Classical.choice, Quot.sound |
| C52 | `Hyperbee.read_during_write_false` | propext, Quot.sound |
| C52 | `Hyperbee.read_during_split_misses` | propext, Quot.sound |
| C52 | `Hyperbee.read_during_split_panics` | propext, Quot.sound |
| C52 | `Hyperbee.read_during_del_mixes` | propext, Quot.sound |
| C52 | `Hyperbee.read_during_write_partial` | propext, Classical.choice, Quot.sound |
| C52 | `Hyperbee.read_during_write_honest_partial` | propext, Classical.choice, Quot.sound |
| C53 | `Hyperbee.no_deadlock_false` | propext, Classical.choice, Quot.sound |
| C53 | `Hyperbee.no_deadlock_dels_false` | propext, Classical.choice, Quot.sound |
| C53 | `Hyperbee.no_deadlock_partial` | propext, Classical.choice, Quot.sound |
| C53 | `Hyperbee.no_deadlock_del_partial` | propext, Classical.choice, Quot.sound |
| C53 | `Hyperbee.no_deadlock_dels_partial` | propext, Classical.choice, Quot.sound |
| C53 | `Hyperbee.readers_never_wait_partial` | propext, Quot.sound |
| C53 | `Hyperbee.alone_never_waits_partial` | propext, Classical.choice, Quot.sound |
| C54 | `Hyperbee.format_unique` | propext, Quot.sound |
| C54 | `Hyperbee.format_header_unique` | propext, Quot.sound |
| C54 | `Hyperbee.format_injective` | propext, Quot.sound |
| C54 | `Hyperbee.write_format` | propext, Classical.choice, Quot.sound |
| C54 | `Hyperbee.create_header_format` | propext, Classical.choice, Quot.sound |
| C54 | `Hyperbee.core_format` | propext, Classical.choice, Quot.sound |
| C55 | `Hyperbee.reader_exact` | propext, Quot.sound |
| C55 | `Hyperbee.reads_unique` | propext, Quot.sound |
| C55 | `Hyperbee.format_reads` | propext, Quot.sound |
| C55 | `Hyperbee.reads_blockOf` | propext, Quot.sound |
| C56 | `Hyperbee.foreign_core` | propext, Classical.choice, Quot.sound |
| C56 | `Hyperbee.shows_unique` | propext, Quot.sound |
| C56 | `Hyperbee.foreign_core_grows` | propext, Classical.choice, Quot.sound |
| C56 | `Hyperbee.foreign_header` | propext, Classical.choice, Quot.sound |
| C56 | `Hyperbee.header_no_nodes` | propext, Quot.sound |
| C57 | `Hyperbee.print_outline` | propext, Classical.choice, Quot.sound |
| C57 | `Hyperbee.print_no_root` | propext, Quot.sound |
| C57 | `Hyperbee.print_readable` | propext, Classical.choice, Quot.sound |
| C58 | `Hyperbee.sub_isolated_iff` | propext, Classical.choice, Quot.sound |
| C58 | `Hyperbee.apart_iff` | propext, Quot.sound |
| C59 | `Hyperbee.builder_accepts` | propext, Classical.choice, Quot.sound |
| C59 | `Hyperbee.builder_accepts_empty_iff` | propext, Classical.choice, Quot.sound |
| C59 | `Hyperbee.builder_rejects_sensible_iff` | propext, Classical.choice, Quot.sound |
| C60 | `Hyperbee.numeric_limits_order` | propext, Classical.choice, Quot.sound |
| C61 | `Hyperbee.sub_traversal_exact` | propext, Classical.choice, Quot.sound |
| C61 | `Hyperbee.sub_crossed` | propext, Classical.choice, Quot.sound |
| C62 | `Hyperbee.repoll_exact` | propext, Classical.choice, Quot.sound |
| C63 | `Hyperbee.log_faithful` | propext, Classical.choice, Quot.sound |
| C64 | `Hyperbee.overlapping_seq_false` | propext, Quot.sound |
| C64 | `Hyperbee.overlapping_seq_partial` | propext, Classical.choice, Quot.sound |
| C64 | `Hyperbee.overlapping_cas_seq_partial` | propext, Classical.choice, Quot.sound |
| C65 | `Hyperbee.overlapping_headers_false` | propext, Quot.sound |
| C65 | `Hyperbee.overlapping_first_put_false` | propext, Quot.sound |
| C65 | `Hyperbee.overlapping_headers_partial` | propext, Classical.choice, Quot.sound |
| C66 | `Hyperbee.read_is_snapshot` | propext, Classical.choice, Quot.sound |
| C66 | `Hyperbee.readers_follow_writer` | propext, Classical.choice, Quot.sound |
| C67 | `Hyperbee.standstill_exact` | propext, Classical.choice, Quot.sound |
| C67 | `Hyperbee.standstill_waits` | propext |
| C68 | `Hyperbee.write_among_readers_false` | propext, Quot.sound |
| C68 | `Hyperbee.put_among_readers` | propext, Classical.choice, Quot.sound |
| C68 | `Hyperbee.write_among_readers_partial` | propext, Classical.choice, Quot.sound |
| C69 | `Hyperbee.check_accepts` | propext, Classical.choice, Quot.sound |
| C69 | `Hyperbee.btree_checked` | propext, Quot.sound |
| C69 | `Hyperbee.check_no_root` | propext, Quot.sound |
| C70 | `Hyperbee.check_sound_false` | propext, Quot.sound |
| C70 | `Hyperbee.check_exact` | propext, Classical.choice, Quot.sound |
| C70 | `Hyperbee.check_sound_partial` | propext, Quot.sound |
| C71 | `Hyperbee.read_error_harmless_false` | propext |
| C71 | `Hyperbee.read_error_harmless_partial` | propext, Classical.choice, Quot.sound |
| C71 | `Hyperbee.read_error_del_partial` | propext, Quot.sound |
| C71 | `Hyperbee.read_errors_harmless_partial` | propext, Classical.choice, Quot.sound |
| C71 | `Hyperbee.spare_needed` | propext |
| C72 | `Hyperbee.traverse_gaps_false` | propext |
| C72 | `Hyperbee.traverse_gaps_partial` | propext, Classical.choice, Quot.sound |
| C72 | `Hyperbee.traverse_no_silent_gap` | propext, Classical.choice, Quot.sound |
| C73 | `Hyperbee.gate_linear` | propext, Classical.choice, Quot.sound |
| C73 | `Hyperbee.gate_state` | propext, Classical.choice, Quot.sound |
| C73 | `Hyperbee.gate_finishes` | propext, Classical.choice, Quot.sound |
| C73 | `Hyperbee.gate_puts` | propext, Classical.choice, Quot.sound |
| C73 | `Hyperbee.gate_dropped_false` | propext |
| C74 | `Hyperbee.cleared_unseen` | propext, Classical.choice, Quot.sound |
| C74 | `Hyperbee.unused_for_ever` | propext, Classical.choice, Quot.sound |
| C74 | `Hyperbee.needed_missed` | propext, Classical.choice, Quot.sound |
| C74 | `Hyperbee.needed_few` | propext, Classical.choice, Quot.sound |
| C74 | `Hyperbee.replica_needed` | propext, Classical.choice, Quot.sound |
| C75 | `Hyperbee.put_fetches` | propext, Classical.choice, Quot.sound |
| C75 | `Hyperbee.del_fetches` | propext, Classical.choice, Quot.sound |
| C75 | `Hyperbee.traverse_fetches` | propext, Classical.choice, Quot.sound |
| C75 | `Hyperbee.traverse_polls` | propext, Classical.choice, Quot.sound |
| C75 | `Hyperbee.page_fetches` | propext, Classical.choice, Quot.sound |
| C76 | `Hyperbee.write_bytes` | propext, Classical.choice, Quot.sound |
| C76 | `Hyperbee.block_bytes` | propext, Classical.choice, Quot.sound |
| C76 | `Hyperbee.core_bytes` | propext, Classical.choice, Quot.sound |
| C77 | `Hyperbee.c_rules_suffice` | propext, Classical.choice, Quot.sound |
| C77 | `Hyperbee.c_rules_needed` | propext, Classical.choice, Quot.sound |
| C77 | `Hyperbee.c_close_early` | propext, Classical.choice, Quot.sound |
| C77 | `Hyperbee.c_close_order` | propext, Classical.choice, Quot.sound |
| C77 | `Hyperbee.c_no_leak` | propext, Classical.choice, Quot.sound |
| C78 | `Hyperbee.c_callback_right` | propext, Classical.choice, Quot.sound |
| C78 | `Hyperbee.c_opened_once` | propext, Classical.choice, Quot.sound |
| C78 | `Hyperbee.c_callback_once` | propext, Classical.choice, Quot.sound |
| C78 | `Hyperbee.c_get_ends` | propext, Classical.choice, Quot.sound |
| C78 | `Hyperbee.c_get_database` | propext, Classical.choice, Quot.sound |
| C79 | `Hyperbee.fmt_false` | propext, Quot.sound |
| C79 | `Hyperbee.fmt_partial` | propext, Classical.choice, Quot.sound |
| C79 | `Hyperbee.fmt_shows` | propext, Classical.choice, Quot.sound |
| C79 | `Hyperbee.fmt_stale` | propext |
| C80 | `Hyperbee.peer_reply` | propext, Classical.choice, Quot.sound |
| C80 | `Hyperbee.peer_get` | propext, Classical.choice, Quot.sound |
| C80 | `Hyperbee.peer_traverse` | propext, Classical.choice, Quot.sound |
| C81 | `Hyperbee.sub_overlap_false` | propext, Quot.sound |
| C81 | `Hyperbee.sub_overlap_destroys` | propext, Quot.sound |
| C81 | `Hyperbee.sub_steps` | propext |
| C81 | `Hyperbee.sub_alone` | propext, Quot.sound |
| C81 | `Hyperbee.sub_overlap_partial` | propext, Classical.choice, Quot.sound |
| C81 | `Hyperbee.sub_readers_undisturbed` | propext, Classical.choice, Quot.sound |
| C81 | `Hyperbee.sub_readers_finish` | propext, Quot.sound |
| C81 | `Hyperbee.sub_readers_never_wait` | propext, Quot.sound |
| C81 | `Hyperbee.sub_no_trace` | propext, Classical.choice, Quot.sound |
| C82 | `Hyperbee.damaged_write_false` | propext |
| C82 | `Hyperbee.damaged_put_fails` | propext |
| C82 | `Hyperbee.damaged_put_adopts` | propext |
| C82 | `Hyperbee.damaged_del_fails` | propext |
| C82 | `Hyperbee.damaged_putCas_partial` | propext, Classical.choice, Quot.sound |
| C82 | `Hyperbee.damaged_put_partial` | propext, Classical.choice, Quot.sound |
| C82 | `Hyperbee.damaged_put_first` | propext, Classical.choice, Quot.sound |
| C82 | `Hyperbee.damaged_del_partial` | propext, Classical.choice, Quot.sound |
| C82 | `Hyperbee.written_names_none` | propext, Classical.choice, Quot.sound |
| C83 | `Hyperbee.handmade_false` | propext |
| C83 | `Hyperbee.handmade_exact` | propext, Classical.choice, Quot.sound |
| C83 | `Hyperbee.covers_iff` | propext, Classical.choice, Quot.sound |
| C83 | `Hyperbee.handmade_partial` | propext, Classical.choice, Quot.sound |
| C83 | `Hyperbee.handmade_quiet` | propext, Classical.choice, Quot.sound |
| C84 | `Hyperbee.fetched_once` | propext, Classical.choice, Quot.sound |
| C84 | `Hyperbee.fetched_once_each` | propext, Quot.sound |
| C84 | `Hyperbee.fetched_twice` | propext, Quot.sound |
| C85 | `Hyperbee.ends_soon` | propext, Classical.choice, Quot.sound |
| C85 | `Hyperbee.ends_soon_log` | propext, Classical.choice, Quot.sound |
| C85 | `Hyperbee.ends_soon_empty` | propext, Classical.choice, Quot.sound |
| C86 | `Hyperbee.closure_put_partial` | propext, Classical.choice, Quot.sound |
| C86 | `Hyperbee.closure_del_partial` | propext, Classical.choice, Quot.sound |
| C86 | `Hyperbee.closure_answers` | propext |
| C86 | `Hyperbee.closure_fine_false` | propext |
| C86 | `Hyperbee.closure_puts_false` | propext |
| C86 | `Hyperbee.closure_deletes_false` | propext |
| C86 | `Hyperbee.closure_panics_false` | propext |
| C86 | `Hyperbee.closure_loses_false` | propext |
| C87 | `Hyperbee.drop_frees_false` | propext, Classical.choice, Quot.sound |
| C87 | `Hyperbee.drop_frees_iff` | propext |
| C87 | `Hyperbee.drop_frees_partial` | propext, Classical.choice, Quot.sound |
| C88 | `Hyperbee.bytes_iff_writes` | propext, Classical.choice, Quot.sound |
| C88 | `Hyperbee.replay` | propext, Classical.choice, Quot.sound |
| C88 | `Hyperbee.bytes_iff_writes_handles` | propext, Classical.choice, Quot.sound |
| C89 | `Hyperbee.machine_call` | propext, Classical.choice, Quot.sound |
| C89 | `Hyperbee.machine_history` | propext, Classical.choice, Quot.sound |
| C89 | `Hyperbee.machine_overlap` | propext, Classical.choice, Quot.sound |
| C89 | `Hyperbee.machine_readers` | propext, Classical.choice, Quot.sound |
| C89 | `Hyperbee.machine_sub_call` | propext, Classical.choice, Quot.sound |
| C89 | `Hyperbee.machine_sub_history` | propext, Classical.choice, Quot.sound |
| C89 | `Hyperbee.roomy_fits` | propext |
| C89 | `Hyperbee.machine_tight` | propext |
| C89 | `Hyperbee.machine_sub_tight` | propext |
| C89 | `Hyperbee.machine_forged` | propext |
| C89 | `Hyperbee.machine_debug` | propext, Classical.choice, Quot.sound |
| C89 | `Hyperbee.machine_debug_tight` | propext |
| C90 | `Hyperbee.stored_append_fails` | propext, Classical.choice, Quot.sound |
| C90 | `Hyperbee.stored_appends_fail` | propext, Classical.choice, Quot.sound |
| C90 | `Hyperbee.careful_client` | propext, Classical.choice, Quot.sound |
| C91 | `Hyperbee.rival_puts_false` | propext |
| C91 | `Hyperbee.rival_puts_brick` | propext |
| C91 | `Hyperbee.rival_log_partial` | propext, Classical.choice, Quot.sound |
| C91 | `Hyperbee.rival_apart_partial` | propext, Classical.choice, Quot.sound |
| C91 | `Hyperbee.rival_linear_partial` | propext, Classical.choice, Quot.sound |
| C92 | `Hyperbee.version_shares` | propext, Classical.choice, Quot.sound |
| C92 | `Hyperbee.node_life` | propext, Classical.choice, Quot.sound |
| C92 | `Hyperbee.written_in_version` | propext, Classical.choice, Quot.sound |
| C92 | `Hyperbee.few_dropped` | propext, Classical.choice, Quot.sound |
| C92 | `Hyperbee.version_tree` | propext, Classical.choice, Quot.sound |
| C93 | `Hyperbee.cautious_client` | propext, Classical.choice, Quot.sound |
| C93 | `Hyperbee.acknowledged_stays` | propext, Classical.choice, Quot.sound |
| C93 | `Hyperbee.cautious_clients` | propext, Classical.choice, Quot.sound |
| C94 | `Hyperbee.paging_false` | propext |
| C94 | `Hyperbee.paging_partial` | propext, Classical.choice, Quot.sound |
| C95 | `Hyperbee.cautious_sub_clients` | propext, Classical.choice, Quot.sound |
| C95 | `Hyperbee.trouble_elsewhere` | propext, Classical.choice, Quot.sound |
| C95 | `Hyperbee.passes_two` | propext, Quot.sound |
| C96 | `Hyperbee.turmoil_log` | propext, Classical.choice, Quot.sound |
| C97 | `Hyperbee.turmoil_honest` | propext, Classical.choice, Quot.sound |
| C98 | `Hyperbee.standstill_troubled` | propext, Classical.choice, Quot.sound |
| C98 | `Hyperbee.timeouts_suffice` | propext, Classical.choice, Quot.sound |
| C99 | `Hyperbee.traversal_pace` | propext, Classical.choice, Quot.sound |
| C99 | `Hyperbee.traversal_pace_sub` | propext, Classical.choice, Quot.sound |
| C99 | `Hyperbee.next_item_soon` | propext, Classical.choice, Quot.sound |
| C99 | `Hyperbee.traversal_steps` | propext, Classical.choice, Quot.sound |
