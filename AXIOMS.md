# Axioms of each theorem in the manifest

Output of `#print axioms`, grouped. No other axiom occurs.

## none (3 theorems)

`Commit.C13_extract_prefix`, `Commit.C13_extract_message`, `Pkt.C41_done`

## propext (60 theorems)

`Shorten.C04_full`, `Shorten.C04_invalid_corrupts`, `Pack.C07_safe`, `Pack.C07_wraps`, `Commit.C13_body_gap`, `ConfigFile.C34_lost_cr`, `ConfigFile.C34_lost_tab`, `ConfigFile.C34_header_line`, `ConfigFile.C34_header_delete`, `ConfigFile.C34_continued`, `ConfigFile.C34_multivar_inject`, `ConfigFile.C34_multivar_null`, `ConfigFile.C34_comment_twice`, `ConfigVal.C35_missing`, `ConfigLevels.C36_get_none`, `ConfigLevels.C36_highest_readonly`, `ConfigLevels.C36_multivar_null`, `Crlf.C37_crlf_to_lf_not_idempotent`, `Crlf.C37_safecrlf_skipped`, `Crlf.C37_config_error`, `Pkt.C41_caps_single`, `Loose.C44_lenient`, `Loose.C44_loose_overflow`, `Loose.C44_loose_padding`, `Patch.C47_nul_overread`, `Patch.C47_twice_ub`, `Patch.C47_print_after`, `Utf8.C48_iterate_empty`, `Utf8.C48_valid_is_not_wellformed`, `Vec.C49_clear`, `Vec.C49_reverse_keeps_flag`, `Vec.C49_set_wraps`, `Quote.C50_unescape_plain`, `Attr.C53_lone_star`, `Attr.C53_empty_pattern`, `CommitGraph.C61_empty`, `Midx.C63_unchecked`, `Midx.C64_dots`, `Midx.C64_refused`, `Racy.C77_added_then_changed`, `Racy.C77_emptied`, `Racy.C77_window`, `Mwindow.C78_dangling`, `Mwindow.C78_two_files`, `Mailmap.C81_null`, `Grafts.C86_cases`, `Grafts.C87_is_shallow`, `Hashsig.compare_self_zero`, `Hashsig.read_past_end`, `Hashsig.empty_lines_differ`, `Hashsig.full_heap_loses`, `Hashsig.long_not_symmetric`, `Hashsig.split_differs`, `RefTx.C92_exclusive`, `RefTx.C93_removal_sticks`, `RefTx.C93_not_atomic`, `RefTx.C93_other_reflog`, `RefTx.C93_commit_twice`, `NetHost.C96_path`, `NetHost.C96_refused`

## propext, Quot.sound (139 theorems)

`Oid.C02_from_prefix`, `Oid.C02_fmt`, `Oid.C02_roundtrip`, `Oid.C02_from_string`, `Oid.C02_case_insensitive`, `Oid.C02_nfmt`, `Oid.C02_tostr`, `Oid.C02_pathfmt`, `Oid.C03_ncmp`, `Oid.C03_is_zero`, `Shorten.C04_distinct`, `Shorten.C04_twice`, `Shorten.C04_grows`, `Delta.C06_safe`, `Delta.C06_safe_headers`, `Pack.C07_truncated`, `Pack.C07_overlong`, `Sig.C12_new`, `Sig.C12_newline`, `Sig.C12_offset_lost`, `Commit.C13_field`, `Commit.C13_summary`, `Commit.C13_summary_line`, `Commit.C13_body`, `Commit.C13_create_modified`, `Commit.C13_extract_empty`, `Tag.C14_exists`, `Tag.C14_failed`, `Reflog.C21_line`, `Reflog.C21_append`, `Reflog.C21_tab_lost`, `Reflog.C21_torn`, `Index.C22_clear`, `IndexFile.C23_layout`, `IndexFile.C23_v4_loses_extended_flags`, `HashMap.C25_set_iterate_does_not_advance`, `PQueue.C27_stack`, `Revwalk.C29_hide_unordered`, `Revwalk.C29_skew`, `Ignore.C33_hang`, `Ignore.C33_swallow`, `Ignore.C33_negative_subdir`, `Ignore.C33_root_directory`, `Ignore.C33_add_star`, `ConfigVal.C35_map`, `Crlf.C37_crlf_to_lf`, `Crlf.C37_lf_to_crlf`, `Crlf.C37_there_and_back`, `Crlf.C37_lf_to_crlf_idempotent`, `Crlf.C37_action`, `Message.C39_prettify`, `Message.C39_shape`, `Message.C39_content`, `Message.C39_idempotent`, `Base64.C40_encode85`, `Pkt.C41_overread`, `Pkt.C41_caps_overread`, `Pkt.C41_shallow_garbage`, `Pkt.C41_first_plain`, `Pkt.C41_first_caps`, `Pkt.C41_pktline`, `Pkt.C41_have`, `Pkt.C41_wants`, `Pkt.C41_wants_none`, `Pkt.C41_format_first`, `PathValid.C42_hfs_same`, `PathValid.C42_index_empty`, `PathValid.C42_ntfs_blank_colon`, `PathValid.C42_hfs_low_byte`, `PathValid.C42_literal_prefix`, `Checkout.C43_failed`, `Checkout.C43_lost_link`, `Checkout.C43_lost_sibling`, `Checkout.C43_lost_sibling_without`, `Checkout.C43_lost_directory`, `Checkout.C43_lost_blocker`, `Checkout.C43_lost_unreadable`, `Loose.C44_type`, `PackIdx.C45_unpadded`, `PackIdx.C45_bad_fanout`, `Patch.C47_deleted`, `Patch.C47_binary`, `Patch.C47_context_zero`, `Patch.C47_binary_empty`, `Vec.C49_search`, `Vec.C49_resize_to`, `Vec.C49_set`, `Quote.C50_quote`, `Quote.C50_unquote`, `Quote.C50_roundtrip`, `Quote.C50_reader`, `Quote.C50_escape`, `Quote.C50_unescape`, `Quote.C50_regex`, `Quote.C50_percent`, `Quote.C50_percent_roundtrip`, `Index.C51_missed_clash`, `Pack.C52_header_corrupt`, `Attr.C53_history`, `Attr.C53_macro_order`, `TreeDiff.C55_one_answer`, `TreeDiff.C55_over_stays`, `IndexTree.C58_unmerged`, `CommitGraph.C62_merge`, `Notes.C65_has_a_map`, `Notes.C65_objects_stay`, `Odb.C67_write`, `Odb.C67_alternates`, `PackObjects.C70_once`, `MergeFile.C72_binary`, `Indexer.C74_pending`, `Indexer.C74_size`, `Indexer.C75_hang`, `Indexer.C76_bypass`, `Racy.C77_four_gib`, `Mwindow.C79_leak`, `Mwindow.C79_not_least_recent`, `Mailmap.C82_unambiguous`, `Mailmap.C82_lines`, `FetchHead.C83_head_merges`, `FetchHead.C83_url_injects`, `FetchHead.C83_merge_inherited`, `Grafts.C85_comment`, `Grafts.C86_invalid_then_accepted`, `Grafts.C87_not_placed`, `Grafts.C87_stored_again`, `Hashsig.pieces_unique`, `RefTx.C92_held`, `RefTx.C92_stable`, `RefTx.C92_abort`, `RefTx.C92_unlocked`, `RefTx.C93_nothing_else`, `NetHost.C94_exact`, `NetHost.C94_wildcard`, `NetHost.C94_last_star`, `NetHost.C94_empty_label`, `NetHost.C96_no_scheme`, `NetUrl.C97_authority`, `NetUrl.C99_request`

## propext, Classical.choice, Quot.sound (422 theorems)

`Varint.C01_roundtrip`, `Varint.C01_encode_total`, `Varint.C01_decode_exact`, `Varint.C01_decode_sound`, `Varint.C01_decode_in_bounds`, `Oid.C03_cmp`, `Oid.C03_total_order`, `Oid.C03_strcmp`, `Shorten.C04_shortest`, `Delta.C05_create_apply`, `Delta.C05_max_size`, `Delta.C05_safe`, `Delta.C05_total`, `Delta.C06_exact`, `Pack.C07_roundtrip`, `Pack.C07_read`, `Pack.C08_roundtrip`, `Pack.C08_encodable`, `Pack.C08_backwards`, `Pack.C08_terminates`, `Pack.C08_ref_loop`, `Tree.C09_parse_exact`, `Tree.C09_parse_total`, `Tree.C09_roundtrip`, `Tree.C10_builder`, `Tree.C10_canonical_unique`, `Tree.C11_byname`, `Tree.C11_safe`, `Sig.C12_roundtrip`, `Sig.C12_safe`, `Sig.C12_parsed`, `Sig.C12_rewrite`, `Sig.C12_time_lost`, `Commit.C13_exact`, `Commit.C13_roundtrip`, `Commit.C13_quick`, `Commit.C13_safe`, `Commit.C13_signed`, `Commit.C13_signed_same`, `Commit.C13_create`, `Commit.C13_create_silent`, `Tag.C14_exact`, `Tag.C14_roundtrip`, `Tag.C14_safe`, `Tag.C14_create`, `Tag.C14_inject`, `RefName.C15_normalize`, `RefName.C15_buffer`, `RefName.C15_name_is_valid`, `RefName.C15_fixed_point`, `RefName.C15_safe`, `RefName.C15_caret_and_del_accepted`, `Refspec.C16_transform`, `Refspec.C16_rtransform`, `Refspec.C16_pattern`, `Refspec.C16_defined`, `Refspec.C16_serialize`, `Refspec.C16_negative_undefined`, `Refspec.C16_push_source_unchecked`, `FileBuf.C17_atomic`, `FileBuf.C17_content`, `FileBuf.C17_locked_file`, `FileBuf.C17_lock_owner`, `FileBuf.C17_exclusive`, `FileBuf.C17_success`, `FileBuf.C17_failure`, `FileBuf.C17_write_loop_total`, `FileBuf.C17_parent_sync_failure_breaks_exclusion`, `FileBuf.C17_append_failure_leaks_lock`, `RefDb.C18_cas`, `RefDb.C18_success`, `RefDb.C18_failure`, `RefDb.C18_one_winner`, `RefDb.C18_delete`, `RefDb.C18_torn_read`, `RefDb.C19_pack`, `RefDb.C19_values`, `RefDb.C19_reader`, `RefDb.C19_two_packers_lose_an_update`, `RefDb.C19_read_error_loses_an_update`, `RefPacked.C20_lookup`, `RefPacked.C20_lookup_safe`, `RefPacked.C20_unsorted_lookup`, `RefPacked.C20_unsorted_exact`, `RefPacked.C20_write_lookup`, `Reflog.C21_safe`, `Reflog.C21_concat`, `Reflog.C21_lines`, `Reflog.C21_roundtrip`, `Reflog.C21_update`, `Reflog.C21_crash`, `Reflog.C21_drop`, `Reflog.C21_linked`, `Reflog.C21_rewrite`, `Reflog.C21_newline_lost`, `Index.C22_total`, `Index.C22_sorted`, `Index.C22_lookup`, `Index.C22_add`, `Index.C22_remove`, `Index.C22_remove_directory`, `IndexFile.C23_safe`, `IndexFile.C23_accepts`, `IndexFile.C23_roundtrip_v2_v3`, `IndexFile.C23_roundtrip_v4`, `IndexFile.C23_plain_format`, `Index.C24_get`, `Index.C24_add`, `Index.C24_add_get`, `Index.C24_remove`, `Index.C24_cleanup`, `Index.C24_has_conflicts`, `HashMap.C25_map`, `HashMap.C25_remove_reports`, `Sort.C26_sorts`, `Sort.C26_sorts_any`, `Sort.C26_stable_sort_unique`, `Sort.C26_bsearch`, `PQueue.C27_history`, `PQueue.C27_drain`, `PQueue.C27_fixed_size`, `Graph.C28_bases`, `Graph.C28_bases_many`, `Graph.C28_base`, `Graph.C28_octopus`, `Revwalk.C29_total`, `Revwalk.C29_sound`, `Revwalk.C29_complete`, `Revwalk.C29_exact`, `Revwalk.C29_topological`, `Revwalk.C29_topological_ancestors`, `Revwalk.C29_newest`, `Revwalk.C29_time`, `Revwalk.C29_many_children`, `Graph.C30_reachable`, `Graph.C30_descendant`, `Graph.C30_bounds`, `Graph.C30_ahead_behind`, `Graph.C30_same_second`, `Merge.C31_walk`, `Merge.C31_path`, `Merge.C31_one_side`, `Merge.C31_swap`, `Merge.C31_df_missed`, `Merge.C31_df_deleted`, `Merge.C31_legacy_mode`, `Wildmatch.C32_wildmatch`, `Wildmatch.C32_abort_all`, `Wildmatch.C32_literal`, `Wildmatch.C32_one_star`, `Wildmatch.C32_star_no_slash`, `Wildmatch.C32_dirs`, `Wildmatch.C32_escaped_capital`, `Ignore.C33_read`, `Ignore.C33_path_is_ignored`, `Ignore.C33_below`, `Ignore.C33_dot_git`, `Ignore.C33_push_pop`, `Ignore.C33_iterator`, `ConfigFile.C34_set`, `ConfigFile.C34_refused`, `ConfigFile.C34_delete`, `ConfigFile.C34_set_multivar`, `ConfigFile.C34_delete_multivar`, `ConfigFile.C34_history`, `ConfigVal.C35_int64`, `ConfigVal.C35_int64_overflow`, `ConfigVal.C35_int32`, `ConfigVal.C35_bool`, `ConfigLevels.C36_reachable`, `ConfigLevels.C36_get`, `ConfigLevels.C36_get_iff`, `ConfigLevels.C36_get_error`, `ConfigLevels.C36_iterate`, `ConfigLevels.C36_multivar`, `ConfigLevels.C36_add`, `ConfigLevels.C36_open_level`, `ConfigLevels.C36_open_highest`, `ConfigLevels.C36_open_global`, `ConfigLevels.C36_set`, `ConfigLevels.C36_delete`, `ConfigLevels.C36_writer`, `ConfigLevels.C36_writeorder`, `ConfigLevels.C36_writeorder_ignored`, `ConfigLevels.C36_snapshot`, `Crlf.C37_back_and_there`, `Crlf.C37_binary`, `Crlf.C37_auto`, `Crlf.C37_text`, `Crlf.C37_safecrlf`, `Cache.C38_defined`, `Cache.C38_refcount`, `Cache.C38_account`, `Cache.C38_get`, `Cache.C38_store`, `Cache.C38_stable`, `Cache.C38_clear`, `Base64.C40_encode64`, `Base64.C40_decode64`, `Base64.C40_roundtrip64`, `Base64.C40_roundtrip64_exact`, `Base64.C40_decode85`, `Base64.C40_roundtrip85`, `Pkt.C41_length`, `Pkt.C41_incomplete`, `Pkt.C41_consumes`, `Pkt.C41_prefix`, `Pkt.C41_packet`, `Pkt.C41_stream`, `Pkt.C41_chunking`, `PathValid.C42_valid_iff`, `PathValid.C42_checkout`, `PathValid.C42_index`, `PathValid.C42_tree`, `PathValid.C42_symlink`, `PathValid.C42_hfs_ascii`, `PathValid.C42_ordinary`, `Checkout.C43_kept`, `Checkout.C43_refused`, `Checkout.C43_updated`, `Checkout.C43_paths`, `Loose.C44_format`, `Loose.C44_parse`, `Loose.C44_roundtrip`, `Loose.C44_huge`, `Loose.C44_loose_roundtrip`, `Loose.C44_read_standard`, `Loose.C44_packlike_length`, `Loose.C44_identified`, `PackIdx.C45_safe`, `PackIdx.C45_find`, `PackIdx.C45_written`, `Strtol.C46_exact64`, `Strtol.C46_exact32`, `Strtol.C46_fails`, `Strtol.C46_deterministic`, `Patch.C47_select`, `Patch.C47_apply`, `Patch.C47_again`, `Patch.C47_diff`, `Patch.C47_text`, `Patch.C47_exact`, `Patch.C47_safe`, `Utf8.C48_iterate`, `Utf8.C48_char_length`, `Utf8.C48_valid_buf_length`, `Utf8.C48_well_formed`, `Vec.C49_init`, `Vec.C49_growth`, `Vec.C49_insert`, `Vec.C49_sort`, `Vec.C49_insert_sorted`, `Vec.C49_bsearch`, `Vec.C49_remove`, `Vec.C49_pop`, `Vec.C49_uniq`, `Vec.C49_remove_matching`, `Vec.C49_insert_null`, `Vec.C49_remove_range`, `Vec.C49_reverse`, `Vec.C49_flag`, `Quote.C50_unquote_refused`, `Index.C51_no_clash_partial`, `Pack.C52_unpack`, `Pack.C52_complete`, `Pack.C52_unique`, `Pack.C52_cache_independent`, `Pack.C52_header`, `Attr.C53_read`, `Attr.C53_get`, `Attr.C53_get_many`, `Attr.C53_foreach`, `Xdiff.C54_script`, `Xdiff.C54_same`, `Xdiff.C54_bound`, `Xdiff.C54_apply`, `Xdiff.C54_text`, `TreeDiff.C55_tree_iterator`, `TreeDiff.C56_tree_diff`, `TreeDiff.C56_empty_iff`, `TreeDiff.C56_reverse`, `TreeDiff.C57_all_or_nothing`, `TreeDiff.C57_pathspec`, `TreeDiff.C57_path_list`, `IndexTree.C58_write_tree`, `IndexTree.C58_succeeds`, `IndexTree.C58_cache`, `IndexTree.C58_same_id`, `IndexTree.C58_same_files`, `IndexTree.C59_read_tree`, `IndexTree.C59_succeeds`, `IndexTree.C59_fails`, `IndexTree.C59_write_back`, `IndexTree.C59_roundtrip`, `CommitGraph.C60_safe`, `CommitGraph.C60_checksum`, `CommitGraph.C60_find`, `CommitGraph.C61_written`, `CommitGraph.C61_walk`, `CommitGraph.C61_canonical`, `CommitGraph.C61_missing_parent`, `CommitGraph.C62_generation_partial`, `Midx.C63_safe`, `Midx.C63_names`, `Midx.C63_find`, `Midx.C63_refresh`, `Midx.C64_written`, `Midx.C64_every`, `Notes.C65_notes_are_a_map`, `Notes.C65_broken_reference_is_replaced`, `Notes.C66_foreach`, `Notes.C66_foreach_is_the_map`, `Odb.C67_read`, `Odb.C67_header`, `Odb.C67_exists`, `Odb.C67_write_read`, `Odb.C67_history`, `Odb.C67_same`, `Odb.C68_read_prefix`, `Odb.C68_exists_prefix`, `Odb.C68_enough`, `Odb.C69_backends`, `Odb.C69_refresh`, `Odb.C69_write`, `PackObjects.C70_pack`, `PackObjects.C70_read_back`, `PackObjects.C70_insert`, `PackObjects.C71_search`, `PackObjects.C71_write`, `MergeFile.C72_merge`, `MergeFile.C72_merge_file`, `MergeFile.C73_theirs`, `MergeFile.C73_ours`, `MergeFile.C73_same`, `MergeFile.C73_clean`, `MergeFile.C73_symmetric`, `Indexer.C74_agree`, `Indexer.C74_whole`, `Indexer.C75_accepted`, `Indexer.C75_unchanged`, `Indexer.C75_wrong_size`, `Indexer.C76_connected`, `Racy.C77_noticed`, `Racy.C77_no_false_alarm`, `Racy.C77_large_error`, `Mwindow.C78_no_crash`, `Mwindow.C78_reads`, `Mwindow.C78_enough`, `Mwindow.C79_sum`, `Mwindow.C79_limit`, `Mwindow.C80_limit`, `Mwindow.C80_coldest`, `Mailmap.C81_resolve`, `Mailmap.C81_add_code`, `Mailmap.C81_repository`, `Mailmap.C82_buffer`, `Mailmap.C82_refused`, `FetchHead.C83_round_trip`, `FetchHead.C83_callback`, `FetchHead.C83_nul_hides`, `FetchHead.C84_format`, `FetchHead.C84_unambiguous`, `Grafts.C85_format`, `Grafts.C85_unambiguous`, `Grafts.C86_in_force`, `Grafts.C86_gone`, `Grafts.C86_stale`, `Grafts.C87_open`, `Grafts.C87_store`, `Grafts.C87_roots`, `Grafts.C87_reachable`, `IndexExt.C88_reuc`, `IndexExt.C88_names`, `IndexExt.C88_tree`, `IndexExt.C88_side`, `IndexExt.C88_index`, `IndexExt.C89_reuc`, `IndexExt.C89_names`, `IndexExt.C89_tree`, `IndexExt.C89_deterministic`, `IndexExt.C89_context`, `IndexExt.C89_accepted`, `Hashsig.file_total`, `Hashsig.buffer_total`, `Hashsig.made_shape`, `Hashsig.compare_percent`, `Hashsig.compare_self`, `Hashsig.refused_iff`, `Hashsig.create_mem`, `Hashsig.compare_dice`, `Hashsig.compare_order`, `Hashsig.compare_symm`, `Hashsig.blanks_ignored`, `Hashsig.equal_similar`, `RefTx.C93_commit`, `NetHost.C94_sound`, `NetHost.C94_dots`, `NetHost.C94_domain`, `NetHost.C95_pattern`, `NetHost.C95_list`, `NetHost.C96_redirect`, `NetHost.C96_no_downgrade`, `NetHost.C96_defined`, `NetHost.C96_no_query`, `NetHost.C96_no_query_path`, `NetUrl.C97_parts`, `NetUrl.C97_address`, `NetUrl.C97_escapes`, `NetUrl.C97_host_escaped`, `NetUrl.C97_cut`, `NetUrl.C97_rest`, `NetUrl.C97_other_host`, `NetUrl.C97_path`, `NetUrl.C97_relative`, `NetUrl.C97_relative_redirect`, `NetUrl.C97_service_redirect`, `NetUrl.C98_text`, `NetUrl.C98_round_trip`, `NetUrl.C98_stable`, `NetUrl.C98_address`, `NetUrl.C98_escapes`, `NetUrl.C99_follow`
