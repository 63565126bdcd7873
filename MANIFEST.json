{
 "claims": [
  {
   "property": "C01",
   "status": "proved",
   "theorems": [
    "Verif.Varint.C01_roundtrip",
    "Verif.Varint.C01_encode_total",
    "Verif.Varint.C01_decode_exact",
    "Verif.Varint.C01_decode_sound",
    "Verif.Varint.C01_decode_in_bounds"
   ],
   "note": ""
  },
  {
   "property": "C02",
   "status": "proved",
   "theorems": [
    "Verif.Oid.C02_from_prefix",
    "Verif.Oid.C02_fmt",
    "Verif.Oid.C02_roundtrip",
    "Verif.Oid.C02_from_string",
    "Verif.Oid.C02_case_insensitive",
    "Verif.Oid.C02_nfmt",
    "Verif.Oid.C02_tostr",
    "Verif.Oid.C02_pathfmt"
   ],
   "note": ""
  },
  {
   "property": "C03",
   "status": "proved",
   "theorems": [
    "Verif.Oid.C03_cmp",
    "Verif.Oid.C03_total_order",
    "Verif.Oid.C03_ncmp",
    "Verif.Oid.C03_strcmp",
    "Verif.Oid.C03_is_zero"
   ],
   "note": ""
  },
  {
   "property": "C04",
   "status": "proved",
   "theorems": [
    "Verif.Shorten.C04_shortest",
    "Verif.Shorten.C04_distinct",
    "Verif.Shorten.C04_full",
    "Verif.Shorten.C04_twice",
    "Verif.Shorten.C04_grows",
    "Verif.Shorten.C04_invalid_corrupts"
   ],
   "note": "Complete: the trie with its tails, leaf splits, sign marks, growth and the SHRT_MAX limit. SHA-1 texts; allocation does not fail."
  },
  {
   "property": "C05",
   "status": "proved",
   "theorems": [
    "Verif.Delta.C05_create_apply",
    "Verif.Delta.C05_max_size",
    "Verif.Delta.C05_safe",
    "Verif.Delta.C05_total"
   ],
   "note": "Encoder safety and totality proved for targets up to 715827860 bytes; beyond, 32-bit bufsize*3 can wrap in the C code. The round trip itself has no bound."
  },
  {
   "property": "C06",
   "status": "proved",
   "theorems": [
    "Verif.Delta.C06_exact",
    "Verif.Delta.C06_safe",
    "Verif.Delta.C06_safe_headers"
   ],
   "note": "The only reachable undefined behaviour is an over-long size header (six or more bytes), recorded as a finding."
  },
  {
   "property": "C07",
   "status": "proved",
   "theorems": [
    "Verif.Pack.C07_roundtrip",
    "Verif.Pack.C07_read",
    "Verif.Pack.C07_truncated",
    "Verif.Pack.C07_overlong",
    "Verif.Pack.C07_safe",
    "Verif.Pack.C07_wraps"
   ],
   "note": "exact for every byte string; 64-bit long. C07_wraps: sizes beyond 2^64 are reduced silently."
  },
  {
   "property": "C08",
   "status": "proved",
   "theorems": [
    "Verif.Pack.C08_roundtrip",
    "Verif.Pack.C08_encodable",
    "Verif.Pack.C08_backwards",
    "Verif.Pack.C08_terminates",
    "Verif.Pack.C08_ref_loop"
   ],
   "note": "libgit2 itself writes no offset deltas, so the encoder is the specification's (and the index varint's). C08_ref_loop: a reference delta naming itself never terminates."
  },
  {
   "property": "C09",
   "status": "proved",
   "theorems": [
    "Verif.Tree.C09_parse_exact",
    "Verif.Tree.C09_parse_total",
    "Verif.Tree.C09_roundtrip"
   ],
   "note": ""
  },
  {
   "property": "C10",
   "status": "proved",
   "theorems": [
    "Verif.Tree.C10_builder",
    "Verif.Tree.C10_canonical_unique"
   ],
   "note": "Histories of the builder are fully covered: get, and the written bytes. Fewer than 2^30 entries and calls. Names up to 65535 bytes: longer ones are silently truncated by the code (finding)."
  },
  {
   "property": "C11",
   "status": "proved",
   "theorems": [
    "Verif.Tree.C11_byname",
    "Verif.Tree.C11_safe"
   ],
   "note": ""
  },
  {
   "property": "C12",
   "status": "proved",
   "theorems": [
    "Verif.Sig.C12_new",
    "Verif.Sig.C12_roundtrip",
    "Verif.Sig.C12_safe",
    "Verif.Sig.C12_parsed",
    "Verif.Sig.C12_rewrite",
    "Verif.Sig.C12_newline",
    "Verif.Sig.C12_time_lost",
    "Verif.Sig.C12_offset_lost"
   ],
   "note": "The bounds on time and offset and the one-line hypothesis are needed: C12_newline, C12_time_lost and C12_offset_lost prove what happens outside of them."
  },
  {
   "property": "C13",
   "status": "proved",
   "theorems": [
    "Verif.Commit.C13_exact",
    "Verif.Commit.C13_roundtrip",
    "Verif.Commit.C13_quick",
    "Verif.Commit.C13_safe",
    "Verif.Commit.C13_field",
    "Verif.Commit.C13_signed",
    "Verif.Commit.C13_signed_same",
    "Verif.Commit.C13_summary",
    "Verif.Commit.C13_summary_line",
    "Verif.Commit.C13_body",
    "Verif.Commit.C13_create",
    "Verif.Commit.C13_create_modified",
    "Verif.Commit.C13_create_silent",
    "Verif.Commit.C13_extract_prefix",
    "Verif.Commit.C13_extract_message",
    "Verif.Commit.C13_extract_empty",
    "Verif.Commit.C13_body_gap"
   ],
   "note": "C13_create needs that the object database takes the object: C13_create_silent proves that otherwise success is reported without a commit. C13_extract_* and C13_body_gap are further deviations. Grafts are not modelled."
  },
  {
   "property": "C14",
   "status": "proved",
   "theorems": [
    "Verif.Tag.C14_exact",
    "Verif.Tag.C14_roundtrip",
    "Verif.Tag.C14_safe",
    "Verif.Tag.C14_create",
    "Verif.Tag.C14_exists",
    "Verif.Tag.C14_failed",
    "Verif.Tag.C14_inject"
   ],
   "note": "C14_inject: git_tag_annotation_create does not check the name, which can then forge tagger and message. git_tag_create_from_buffer is not modelled."
  },
  {
   "property": "C15",
   "status": "proved",
   "theorems": [
    "Verif.RefName.C15_normalize",
    "Verif.RefName.C15_buffer",
    "Verif.RefName.C15_name_is_valid",
    "Verif.RefName.C15_fixed_point",
    "Verif.RefName.C15_safe",
    "Verif.RefName.C15_caret_and_del_accepted"
   ],
   "note": "exact characterisation of accepted names for every byte string and flag combination; the rules in Spec.Valid spell out what the code accepts beyond git: a leading caret and the DEL character (finding). Unicode precomposition not modelled."
  },
  {
   "property": "C16",
   "status": "proved",
   "theorems": [
    "Verif.Refspec.C16_transform",
    "Verif.Refspec.C16_rtransform",
    "Verif.Refspec.C16_pattern",
    "Verif.Refspec.C16_defined",
    "Verif.Refspec.C16_serialize",
    "Verif.Refspec.C16_negative_undefined",
    "Verif.Refspec.C16_push_source_unchecked"
   ],
   "note": "Parsing, matching and both transformations; the source of a push refspec without pattern is unchecked in the code, so the inverse needs it to be free of glob characters (counterexample proved); transforming with a negative pattern refspec is undefined (proved)."
  },
  {
   "property": "C17",
   "status": "proved",
   "theorems": [
    "Verif.FileBuf.C17_atomic",
    "Verif.FileBuf.C17_content",
    "Verif.FileBuf.C17_locked_file",
    "Verif.FileBuf.C17_lock_owner",
    "Verif.FileBuf.C17_exclusive",
    "Verif.FileBuf.C17_success",
    "Verif.FileBuf.C17_failure",
    "Verif.FileBuf.C17_write_loop_total",
    "Verif.FileBuf.C17_parent_sync_failure_breaks_exclusion",
    "Verif.FileBuf.C17_append_failure_leaks_lock"
   ],
   "note": "any number of processes, every interleaving, every call may fail, a process may stop anywhere; assumption: syncing a directory does not fail (if it can, the property is false of the code: C17_parent_sync_failure_breaks_exclusion). Flat name space, no symlinks, uncompressed."
  },
  {
   "property": "C18",
   "status": "proved",
   "theorems": [
    "Verif.RefDb.C18_cas",
    "Verif.RefDb.C18_success",
    "Verif.RefDb.C18_failure",
    "Verif.RefDb.C18_one_winner",
    "Verif.RefDb.C18_delete",
    "Verif.RefDb.C18_torn_read"
   ],
   "note": "write/delete/pack/read as programs of system calls; all interleavings, failures of any write call, crashes. At most one process rewrites packed-refs and directory sync does not fail; C18_torn_read is a finding: a reader can see a value the reference never had (size taken before the file is opened)."
  },
  {
   "property": "C19",
   "status": "proved",
   "theorems": [
    "Verif.RefDb.C19_pack",
    "Verif.RefDb.C19_values",
    "Verif.RefDb.C19_reader",
    "Verif.RefDb.C19_two_packers_lose_an_update",
    "Verif.RefDb.C19_read_error_loses_an_update"
   ],
   "note": "one packer with any number of writers and readers; the packed file is well formed at the start, reads do not fail. The two negative theorems show both assumptions are needed (findings)."
  },
  {
   "property": "C20",
   "status": "proved",
   "theorems": [
    "Verif.RefPacked.C20_lookup",
    "Verif.RefPacked.C20_lookup_safe",
    "Verif.RefPacked.C20_unsorted_lookup",
    "Verif.RefPacked.C20_unsorted_exact",
    "Verif.RefPacked.C20_write_lookup"
   ],
   "note": "Binary search over the raw bytes of a sorted packed-refs file is exact for any comment lines, records with or without peeled ids, and any name; on arbitrary bytes it never reads out of bounds and terminates. The whole-file parser used for unsorted files, and the text written by packed_write (recognised as sorted, looked up exactly), are proved too. File stamps/mmap are outside the model."
  },
  {
   "property": "C21",
   "status": "proved",
   "theorems": [
    "Verif.Reflog.C21_line",
    "Verif.Reflog.C21_safe",
    "Verif.Reflog.C21_concat",
    "Verif.Reflog.C21_lines",
    "Verif.Reflog.C21_roundtrip",
    "Verif.Reflog.C21_update",
    "Verif.Reflog.C21_crash",
    "Verif.Reflog.C21_append",
    "Verif.Reflog.C21_drop",
    "Verif.Reflog.C21_linked",
    "Verif.Reflog.C21_rewrite",
    "Verif.Reflog.C21_newline_lost",
    "Verif.Reflog.C21_tab_lost",
    "Verif.Reflog.C21_torn"
   ],
   "note": "reference logs: in-memory append and drop, the file's writer and reader, appending to the file. C21_newline_lost, C21_tab_lost and C21_torn are defects. Which updates write a log entry (and HEAD's log) is not modelled."
  },
  {
   "property": "C22",
   "status": "proved",
   "theorems": [
    "Verif.Index.C22_total",
    "Verif.Index.C22_sorted",
    "Verif.Index.C22_lookup",
    "Verif.Index.C22_add",
    "Verif.Index.C22_remove",
    "Verif.Index.C22_clear",
    "Verif.Index.C22_remove_directory"
   ],
   "note": "case-sensitive index; path and object validity are parameters; every history of calls from an empty index"
  },
  {
   "property": "C23",
   "status": "proved",
   "theorems": [
    "Verif.IndexFile.C23_safe",
    "Verif.IndexFile.C23_accepts",
    "Verif.IndexFile.C23_roundtrip_v2_v3",
    "Verif.IndexFile.C23_roundtrip_v4",
    "Verif.IndexFile.C23_plain_format",
    "Verif.IndexFile.C23_layout",
    "Verif.IndexFile.C23_v4_loses_extended_flags"
   ],
   "note": "SHA-1 index files; extension contents are opaque; version 4: paths below 4096 bytes (longer ones are written but cannot be read back) and the extended bit must be set by the caller (finding)"
  },
  {
   "property": "C24",
   "status": "proved",
   "theorems": [
    "Verif.Index.C24_get",
    "Verif.Index.C24_add",
    "Verif.Index.C24_add_get",
    "Verif.Index.C24_remove",
    "Verif.Index.C24_cleanup",
    "Verif.Index.C24_has_conflicts"
   ],
   "note": "conflict_add is not atomic on error and an absent side keeps the entry stored before; both are visible in C24_add"
  },
  {
   "property": "C25",
   "status": "proved",
   "theorems": [
    "Verif.HashMap.C25_map",
    "Verif.HashMap.C25_remove_reports",
    "Verif.HashMap.C25_set_iterate_does_not_advance"
   ],
   "note": "For histories that never hold 2^30 keys or more (the 32-bit bucket count wraps beyond). The set flavour's iterator never advances: proved as a finding; no caller iterates a set."
  },
  {
   "property": "C26",
   "status": "proved",
   "theorems": [
    "Verif.Sort.C26_sorts",
    "Verif.Sort.C26_sorts_any",
    "Verif.Sort.C26_stable_sort_unique",
    "Verif.Sort.C26_bsearch"
   ],
   "note": "Sorting succeeds for every array of up to 2^47 elements (a petabyte of pointers), including that the 128-entry run stack never overflows although its invariant is only checked at the top; for longer arrays the overflow is the one other outcome. Binary search is complete."
  },
  {
   "property": "C27",
   "status": "proved",
   "theorems": [
    "Verif.PQueue.C27_history",
    "Verif.PQueue.C27_drain",
    "Verif.PQueue.C27_fixed_size",
    "Verif.PQueue.C27_stack"
   ],
   "note": "any comparison that is a total preorder; growth of the underlying vector is C49"
  },
  {
   "property": "C28",
   "status": "proved",
   "theorems": [
    "Verif.Graph.C28_bases",
    "Verif.Graph.C28_bases_many",
    "Verif.Graph.C28_base",
    "Verif.Graph.C28_octopus"
   ],
   "note": "All acyclic histories and all dates. basesMany models paint_down_to_common, clear_commit_marks and remove_redundant on the heap model of C27; unreadable commits give an error, never a wrong answer."
  },
  {
   "property": "C29",
   "status": "proved",
   "theorems": [
    "Verif.Revwalk.C29_total",
    "Verif.Revwalk.C29_sound",
    "Verif.Revwalk.C29_complete",
    "Verif.Revwalk.C29_exact",
    "Verif.Revwalk.C29_topological",
    "Verif.Revwalk.C29_topological_ancestors",
    "Verif.Revwalk.C29_newest",
    "Verif.Revwalk.C29_time",
    "Verif.Revwalk.C29_many_children",
    "Verif.Revwalk.C29_hide_unordered",
    "Verif.Revwalk.C29_skew"
   ],
   "note": "All acyclic histories, options and calls. Exactness with hidden commits needs dates in order (C29_skew) and, as the commits given are not sorted by date as git does, one push or calls from old to new (C29_hide_unordered is a defect). C29_many_children is a defect: in_degree has 16 bits and a commit named as a parent 65535 times is never given by a topological walk."
  },
  {
   "property": "C30",
   "status": "proved",
   "theorems": [
    "Verif.Graph.C30_reachable",
    "Verif.Graph.C30_descendant",
    "Verif.Graph.C30_bounds",
    "Verif.Graph.C30_ahead_behind",
    "Verif.Graph.C30_same_second"
   ],
   "note": "Reachability for all histories and dates. Ahead/behind exact for histories ordered by date or generation, with bounds for all others; C30_same_second is a defect: commits made in the same second can be over-counted."
  },
  {
   "property": "C31",
   "status": "proved",
   "theorems": [
    "Verif.Merge.C31_walk",
    "Verif.Merge.C31_path",
    "Verif.Merge.C31_one_side",
    "Verif.Merge.C31_swap",
    "Verif.Merge.C31_df_missed",
    "Verif.Merge.C31_df_deleted",
    "Verif.Merge.C31_legacy_mode"
   ],
   "note": "Without rename detection; the merge driver is a parameter (any driver that returns an entry of the path with a mode, or an error); resolve-undo and name extensions and the tree iterators' own traversal are not modelled. The three defect theorems delimit the directory/file and mode cases."
  },
  {
   "property": "C32",
   "status": "proved",
   "theorems": [
    "Verif.Wildmatch.C32_wildmatch",
    "Verif.Wildmatch.C32_abort_all",
    "Verif.Wildmatch.C32_literal",
    "Verif.Wildmatch.C32_one_star",
    "Verif.Wildmatch.C32_star_no_slash",
    "Verif.Wildmatch.C32_dirs",
    "Verif.Wildmatch.C32_escaped_capital"
   ],
   "note": "dowild with its abort codes and literal skipping, for every pattern, text and flags, against a language semantics of the pattern; C locale ctype."
  },
  {
   "property": "C33",
   "status": "proved",
   "theorems": [
    "Verif.Ignore.C33_read",
    "Verif.Ignore.C33_path_is_ignored",
    "Verif.Ignore.C33_below",
    "Verif.Ignore.C33_dot_git",
    "Verif.Ignore.C33_push_pop",
    "Verif.Ignore.C33_iterator",
    "Verif.Ignore.C33_hang",
    "Verif.Ignore.C33_swallow",
    "Verif.Ignore.C33_negative_subdir",
    "Verif.Ignore.C33_root_directory",
    "Verif.Ignore.C33_add_star"
   ],
   "note": "For rule files without vertical tabs, form feeds and backslashes at the end of a line (C33_hang and C33_swallow show what happens with them) and relative paths without empty or '.' components. C33_iterator needs that no rule applies to the topmost directory itself (C33_root_directory shows why). Not modelled: the attribute cache (files are as last loaded), path length limits, absolute paths."
  },
  {
   "property": "C34",
   "status": "proved",
   "theorems": [
    "Verif.ConfigFile.C34_set",
    "Verif.ConfigFile.C34_refused",
    "Verif.ConfigFile.C34_delete",
    "Verif.ConfigFile.C34_set_multivar",
    "Verif.ConfigFile.C34_delete_multivar",
    "Verif.ConfigFile.C34_history",
    "Verif.ConfigFile.C34_lost_cr",
    "Verif.ConfigFile.C34_lost_tab",
    "Verif.ConfigFile.C34_header_line",
    "Verif.ConfigFile.C34_header_delete",
    "Verif.ConfigFile.C34_continued",
    "Verif.ConfigFile.C34_multivar_inject",
    "Verif.ConfigFile.C34_multivar_null",
    "Verif.ConfigFile.C34_comment_twice"
   ],
   "note": "parser and writer of config files modelled in full (includes and regular expressions abstract); the necessary assumptions each have a counterexample theorem"
  },
  {
   "property": "C35",
   "status": "proved",
   "theorems": [
    "Verif.ConfigVal.C35_int64",
    "Verif.ConfigVal.C35_int64_overflow",
    "Verif.ConfigVal.C35_int32",
    "Verif.ConfigVal.C35_missing",
    "Verif.ConfigVal.C35_bool",
    "Verif.ConfigVal.C35_map"
   ],
   "note": "Built on C46. FINDING: the multiplication by the suffix is not checked for overflow (C35_int64_overflow characterises when)."
  },
  {
   "property": "C36",
   "status": "proved",
   "theorems": [
    "Verif.ConfigLevels.C36_reachable",
    "Verif.ConfigLevels.C36_get",
    "Verif.ConfigLevels.C36_get_none",
    "Verif.ConfigLevels.C36_get_iff",
    "Verif.ConfigLevels.C36_get_error",
    "Verif.ConfigLevels.C36_iterate",
    "Verif.ConfigLevels.C36_multivar",
    "Verif.ConfigLevels.C36_add",
    "Verif.ConfigLevels.C36_open_level",
    "Verif.ConfigLevels.C36_open_highest",
    "Verif.ConfigLevels.C36_open_global",
    "Verif.ConfigLevels.C36_set",
    "Verif.ConfigLevels.C36_delete",
    "Verif.ConfigLevels.C36_writer",
    "Verif.ConfigLevels.C36_writeorder",
    "Verif.ConfigLevels.C36_writeorder_ignored",
    "Verif.ConfigLevels.C36_highest_readonly",
    "Verif.ConfigLevels.C36_snapshot",
    "Verif.ConfigLevels.C36_multivar_null"
   ],
   "note": "Configurations reached by any history of adding (forced or not), write orders and opened levels keep strictly decreasing levels; lookup, iteration, multivars, set, delete, snapshot for all of them. Defects proved: the order of a write order is ignored, GIT_CONFIG_HIGHEST_LEVEL opens read-only, NULL dereference for valueless multivars. Not modelled: include files, reference counts, locks."
  },
  {
   "property": "C37",
   "status": "proved",
   "theorems": [
    "Verif.Crlf.C37_crlf_to_lf",
    "Verif.Crlf.C37_lf_to_crlf",
    "Verif.Crlf.C37_there_and_back",
    "Verif.Crlf.C37_back_and_there",
    "Verif.Crlf.C37_lf_to_crlf_idempotent",
    "Verif.Crlf.C37_crlf_to_lf_not_idempotent",
    "Verif.Crlf.C37_binary",
    "Verif.Crlf.C37_action",
    "Verif.Crlf.C37_auto",
    "Verif.Crlf.C37_text",
    "Verif.Crlf.C37_safecrlf",
    "Verif.Crlf.C37_safecrlf_skipped",
    "Verif.Crlf.C37_config_error"
   ],
   "note": "git_str_crlf_to_lf is not idempotent on CR CR LF (proved), safecrlf is skipped when the index blob has CR (proved), and a configuration error makes checkout write CRLF (proved)."
  },
  {
   "property": "C38",
   "status": "proved",
   "theorems": [
    "Verif.Cache.C38_defined",
    "Verif.Cache.C38_refcount",
    "Verif.Cache.C38_account",
    "Verif.Cache.C38_get",
    "Verif.Cache.C38_store",
    "Verif.Cache.C38_stable",
    "Verif.Cache.C38_clear"
   ],
   "note": "One cache on the hash-map model of C25; calls are atomic (each holds the cache lock). Histories of fewer than 2^30 calls. The id must determine the size (otherwise replacing a raw entry by a parsed one would not keep the account)."
  },
  {
   "property": "C39",
   "status": "proved",
   "theorems": [
    "Verif.Message.C39_prettify",
    "Verif.Message.C39_shape",
    "Verif.Message.C39_content",
    "Verif.Message.C39_idempotent"
   ],
   "note": "For every message and every comment character other than the newline itself."
  },
  {
   "property": "C40",
   "status": "proved",
   "theorems": [
    "Verif.Base64.C40_encode64",
    "Verif.Base64.C40_decode64",
    "Verif.Base64.C40_roundtrip64",
    "Verif.Base64.C40_roundtrip64_exact",
    "Verif.Base64.C40_encode85",
    "Verif.Base64.C40_decode85",
    "Verif.Base64.C40_roundtrip85"
   ],
   "note": "encoders equal the number-system definitions; decoders characterised exactly. git_str_decode_base64 does not cut the padding: the exact theorem says so (finding)."
  },
  {
   "property": "C41",
   "status": "proved",
   "theorems": [
    "Verif.Pkt.C41_length",
    "Verif.Pkt.C41_incomplete",
    "Verif.Pkt.C41_consumes",
    "Verif.Pkt.C41_prefix",
    "Verif.Pkt.C41_packet",
    "Verif.Pkt.C41_stream",
    "Verif.Pkt.C41_chunking",
    "Verif.Pkt.C41_overread",
    "Verif.Pkt.C41_caps_overread",
    "Verif.Pkt.C41_shallow_garbage",
    "Verif.Pkt.C41_first_plain",
    "Verif.Pkt.C41_first_caps",
    "Verif.Pkt.C41_pktline",
    "Verif.Pkt.C41_have",
    "Verif.Pkt.C41_done",
    "Verif.Pkt.C41_wants",
    "Verif.Pkt.C41_wants_none",
    "Verif.Pkt.C41_format_first",
    "Verif.Pkt.C41_caps_single"
   ],
   "note": "Parser, receive loop and request writer. The stream theorems assume nine readable bytes behind the receive buffer (C41_overread shows why). Deviations proved: capabilities search runs past the packet, shallow ids not checked, git_pkt_buffer_wants reads past the array when every reference is local."
  },
  {
   "property": "C42",
   "status": "proved",
   "theorems": [
    "Verif.PathValid.C42_valid_iff",
    "Verif.PathValid.C42_checkout",
    "Verif.PathValid.C42_index",
    "Verif.PathValid.C42_tree",
    "Verif.PathValid.C42_symlink",
    "Verif.PathValid.C42_hfs_same",
    "Verif.PathValid.C42_hfs_ascii",
    "Verif.PathValid.C42_ordinary",
    "Verif.PathValid.C42_index_empty",
    "Verif.PathValid.C42_ntfs_blank_colon",
    "Verif.PathValid.C42_hfs_low_byte",
    "Verif.PathValid.C42_literal_prefix"
   ],
   "note": "Exact characterisation of git_path_str_is_valid over all paths, flags, settings. Recorded deviations: index defaults accept empty components; blanks/dots before a colon or backslash are not dropped; the HFS+ check compares low bytes only."
  },
  {
   "property": "C43",
   "status": "proved",
   "theorems": [
    "Verif.Checkout.C43_kept",
    "Verif.Checkout.C43_refused",
    "Verif.Checkout.C43_failed",
    "Verif.Checkout.C43_updated",
    "Verif.Checkout.C43_paths",
    "Verif.Checkout.C43_lost_link",
    "Verif.Checkout.C43_lost_sibling",
    "Verif.Checkout.C43_lost_sibling_without",
    "Verif.Checkout.C43_lost_directory",
    "Verif.Checkout.C43_lost_blocker",
    "Verif.Checkout.C43_lost_unreadable"
   ],
   "note": "The paths-above/below conditions of C43_kept are needed: C43_lost_* prove the data losses outside of them. Not modelled: core.ignorecase, symbolic links in the file system, conflicts in the index (merge checkouts), submodule updates."
  },
  {
   "property": "C44",
   "status": "proved",
   "theorems": [
    "Verif.Loose.C44_format",
    "Verif.Loose.C44_parse",
    "Verif.Loose.C44_type",
    "Verif.Loose.C44_roundtrip",
    "Verif.Loose.C44_lenient",
    "Verif.Loose.C44_huge",
    "Verif.Loose.C44_loose_roundtrip",
    "Verif.Loose.C44_read_standard",
    "Verif.Loose.C44_loose_overflow",
    "Verif.Loose.C44_loose_padding",
    "Verif.Loose.C44_packlike_length",
    "Verif.Loose.C44_identified"
   ],
   "note": "zlib and the hash are parameters. Negative theorems: lenient header parser, heap overrun in read_loose_standard, zero padding of short streams, wrong length for the old format."
  },
  {
   "property": "C45",
   "status": "proved",
   "theorems": [
    "Verif.PackIdx.C45_safe",
    "Verif.PackIdx.C45_find",
    "Verif.PackIdx.C45_written",
    "Verif.PackIdx.C45_unpadded",
    "Verif.PackIdx.C45_bad_fanout"
   ],
   "note": "accepted files: no read outside; lookup right for ordered ids with a right fan-out table; the indexer's output meets that. C45_unpadded and C45_bad_fanout show the two hypotheses matter. Fewer than 2^26 objects (32-bit products beyond)."
  },
  {
   "property": "C46",
   "status": "proved",
   "theorems": [
    "Verif.Strtol.C46_exact64",
    "Verif.Strtol.C46_exact32",
    "Verif.Strtol.C46_fails",
    "Verif.Strtol.C46_deterministic"
   ],
   "note": ""
  },
  {
   "property": "C47",
   "status": "proved",
   "theorems": [
    "Verif.Patch.C47_select",
    "Verif.Patch.C47_apply",
    "Verif.Patch.C47_again",
    "Verif.Patch.C47_diff",
    "Verif.Patch.C47_text",
    "Verif.Patch.C47_exact",
    "Verif.Patch.C47_safe",
    "Verif.Patch.C47_deleted",
    "Verif.Patch.C47_binary",
    "Verif.Patch.C47_context_zero",
    "Verif.Patch.C47_nul_overread",
    "Verif.Patch.C47_twice_ub",
    "Verif.Patch.C47_print_after",
    "Verif.Patch.C47_binary_empty"
   ],
   "note": "C47_diff/C47_text: any edit script (the search for a script by xdl_do_diff is not modelled) with context >= 1 or no pure deletion; with context 0 the claim is false of the code (C47_context_zero). C47_text needs files without NUL bytes (C47_nul_overread shows why). Bounds: fewer than 2^30 lines, or 10^8-1 for the text, from int line numbers and the 128-byte header buffer. File headers of patch text are not modelled."
  },
  {
   "property": "C48",
   "status": "proved",
   "theorems": [
    "Verif.Utf8.C48_iterate",
    "Verif.Utf8.C48_iterate_empty",
    "Verif.Utf8.C48_char_length",
    "Verif.Utf8.C48_valid_buf_length",
    "Verif.Utf8.C48_well_formed",
    "Verif.Utf8.C48_valid_is_not_wellformed"
   ],
   "note": "exact characterisation of the three functions for every byte string; the length functions accept over-long forms and surrogates (proved), iterating an empty text reads one byte (proved)."
  },
  {
   "property": "C49",
   "status": "proved",
   "theorems": [
    "Verif.Vec.C49_init",
    "Verif.Vec.C49_growth",
    "Verif.Vec.C49_insert",
    "Verif.Vec.C49_sort",
    "Verif.Vec.C49_insert_sorted",
    "Verif.Vec.C49_bsearch",
    "Verif.Vec.C49_search",
    "Verif.Vec.C49_remove",
    "Verif.Vec.C49_pop",
    "Verif.Vec.C49_clear",
    "Verif.Vec.C49_uniq",
    "Verif.Vec.C49_remove_matching",
    "Verif.Vec.C49_resize_to",
    "Verif.Vec.C49_insert_null",
    "Verif.Vec.C49_remove_range",
    "Verif.Vec.C49_set",
    "Verif.Vec.C49_reverse",
    "Verif.Vec.C49_flag",
    "Verif.Vec.C49_reverse_keeps_flag",
    "Verif.Vec.C49_set_wraps"
   ],
   "note": "every operation against lists, for any memory allocator; sorting relies on C26 (beyond 2^47 elements an overflow of the run stack is an explicit alternative). Two negative theorems: the order flag survives reverse, and the largest position wraps."
  },
  {
   "property": "C50",
   "status": "proved",
   "theorems": [
    "Verif.Quote.C50_quote",
    "Verif.Quote.C50_unquote",
    "Verif.Quote.C50_unquote_refused",
    "Verif.Quote.C50_roundtrip",
    "Verif.Quote.C50_reader",
    "Verif.Quote.C50_escape",
    "Verif.Quote.C50_unescape",
    "Verif.Quote.C50_unescape_plain",
    "Verif.Quote.C50_regex",
    "Verif.Quote.C50_percent",
    "Verif.Quote.C50_percent_roundtrip"
   ],
   "note": ""
  },
  {
   "property": "C51",
   "status": "partial",
   "theorems": [
    "Verif.Index.C51_no_clash_partial",
    "Verif.Index.C51_missed_clash"
   ],
   "note": "the code does not remove entries below a new path unless they are at the front of the index: C51_missed_clash proves a history reaching an index with both a and a/b"
  },
  {
   "property": "C52",
   "status": "proved",
   "theorems": [
    "Verif.Pack.C52_unpack",
    "Verif.Pack.C52_complete",
    "Verif.Pack.C52_unique",
    "Verif.Pack.C52_cache_independent",
    "Verif.Pack.C52_header",
    "Verif.Pack.C52_header_corrupt"
   ],
   "note": "git_packfile_unpack and git_packfile_resolve_header against an inductive meaning of entries; zlib and the index look-up are parameters (the latter is C45); the cache is any right cache at every look-up. C52_header_corrupt: undefined behaviour on a corrupt delta stream."
  },
  {
   "property": "C53",
   "status": "proved",
   "theorems": [
    "Verif.Attr.C53_read",
    "Verif.Attr.C53_get",
    "Verif.Attr.C53_get_many",
    "Verif.Attr.C53_foreach",
    "Verif.Attr.C53_lone_star",
    "Verif.Attr.C53_empty_pattern",
    "Verif.Attr.C53_history",
    "Verif.Attr.C53_macro_order"
   ],
   "note": "For files without a backslash at the end of a line, with a pattern on every line that is not empty, and whose last line is not a lone '*' or '.' (C53_lone_star, C53_empty_pattern show what happens otherwise), that do not change between queries; the queries of a history agree on whether HEAD and a commit are included (C53_history shows why). Relative paths without empty or '.' components. Not modelled: cache invalidation when files change, path length limits, byte order marks, bare repositories, symbolic links on the way, sessions."
  },
  {
   "property": "C54",
   "status": "proved",
   "theorems": [
    "Verif.Xdiff.C54_script",
    "Verif.Xdiff.C54_same",
    "Verif.Xdiff.C54_bound",
    "Verif.Xdiff.C54_apply",
    "Verif.Xdiff.C54_text"
   ],
   "note": "The default algorithm with any combination of GIT_DIFF_MINIMAL and GIT_DIFF_INDENT_HEURISTIC. Not modelled: flags that ignore white space or blank lines, GIT_DIFF_PATIENCE, failed allocations (git_xdiff ignores what xdl_diff returns, so a failed allocation would look like an empty diff). That the script is shortest is not claimed: lines with many matches are discarded even with GIT_DIFF_MINIMAL."
  },
  {
   "property": "C55",
   "status": "proved",
   "theorems": [
    "Verif.TreeDiff.C55_tree_iterator",
    "Verif.TreeDiff.C55_one_answer",
    "Verif.TreeDiff.C55_over_stays"
   ],
   "note": "Case-sensitive iterators. For path lists in which no path is continued by another with a byte below the slash: Props shows that {foo, foo.c} loses the directory foo. Trees are as git writes them (sorted, names without slashes, all subtrees there). Not modelled: advance_into, advance_over, ignore-case iteration (which puts directories together that differ only in case)."
  },
  {
   "property": "C56",
   "status": "proved",
   "theorems": [
    "Verif.TreeDiff.C56_tree_diff",
    "Verif.TreeDiff.C56_empty_iff",
    "Verif.TreeDiff.C56_reverse"
   ],
   "note": "Without GIT_DIFF_INCLUDE_TYPECHANGE_TREES (Props shows that it misses changes when a name sorts between, and that with GIT_DIFF_REVERSE it overwrites the mode of the wrong side) and without a pathspec (C57). A file whose id is zero is always modified. Not modelled: callbacks, rename detection, work directory and index sides."
  },
  {
   "property": "C57",
   "status": "proved",
   "theorems": [
    "Verif.TreeDiff.C57_all_or_nothing",
    "Verif.TreeDiff.C57_pathspec",
    "Verif.TreeDiff.C57_path_list"
   ],
   "note": "C57_all_or_nothing is for every pathspec. C57_pathspec is for plain ones: Props shows that '.', '/a', 'a ' and two pathspecs that differ after a backslash restrict the walk too much. C57_path_list is for regular files and links and lists without clashes."
  },
  {
   "property": "C58",
   "status": "proved",
   "theorems": [
    "Verif.IndexTree.C58_write_tree",
    "Verif.IndexTree.C58_unmerged",
    "Verif.IndexTree.C58_succeeds",
    "Verif.IndexTree.C58_cache",
    "Verif.IndexTree.C58_same_id",
    "Verif.IndexTree.C58_same_files"
   ],
   "note": "SHA-1 repositories, case sensitive indexes, one repository. Fit: proper paths of at most 65535 bytes, ids of 20 bytes, no file that is also a directory (Props shows that such a file is silently left out of the tree; C51 says how it gets into an index). 'Unless two objects have the same id': Collisionless is about the objects written. C58_same_id asks that trees read into the index were as this library writes them (others with the same files have other ids, and the cache keeps them). Objects that a failing call wrote are not tracked (others may add objects at any time). The TREE extension of the index file is not part of this."
  },
  {
   "property": "C59",
   "status": "proved",
   "theorems": [
    "Verif.IndexTree.C59_read_tree",
    "Verif.IndexTree.C59_succeeds",
    "Verif.IndexTree.C59_fails",
    "Verif.IndexTree.C59_write_back",
    "Verif.IndexTree.C59_roundtrip"
   ],
   "note": "Trees as git writes them (Good), any modes. The limit 2^47 of C59_succeeds is that of the run stack of git__tsort (C26). Not modelled: ignore-case indexes, readers of the index in other threads, allocation failures."
  },
  {
   "property": "C60",
   "status": "proved",
   "theorems": [
    "Verif.CommitGraph.C60_safe",
    "Verif.CommitGraph.C60_checksum",
    "Verif.CommitGraph.C60_find"
   ],
   "note": "Any id size of at least 4 bytes. C60_find needs a fan-out table that counts the ids, which the reader does not check. Not modelled: unaligned reads, failed allocations, fewer than 2^31 commits (the position is an int)."
  },
  {
   "property": "C61",
   "status": "proved",
   "theorems": [
    "Verif.CommitGraph.C61_written",
    "Verif.CommitGraph.C61_walk",
    "Verif.CommitGraph.C61_canonical",
    "Verif.CommitGraph.C61_missing_parent",
    "Verif.CommitGraph.C61_empty"
   ],
   "note": "At most 0x70000000 commits and 2^31 parents in total; ids are not null (the reader refuses such a file) and name one commit. The hash is any function of the right length. C61_empty: without commits the written file is refused. Walking packs and revwalks to collect the commits (git_commit_graph_writer_add_index_file, _add_revwalk) and the lock file are not modelled."
  },
  {
   "property": "C62",
   "status": "partial",
   "theorems": [
    "Verif.CommitGraph.C62_generation_partial",
    "Verif.CommitGraph.C62_merge"
   ],
   "note": "The property is false of the code (C62_merge): a merge whose id is greater than those of its parents pushes both, and the second is expanded while its own parent is only on the stack. Proved: between one and the depth in every history, and exactly the depth in histories without merges."
  },
  {
   "property": "C63",
   "status": "proved",
   "theorems": [
    "Verif.Midx.C63_safe",
    "Verif.Midx.C63_names",
    "Verif.Midx.C63_find",
    "Verif.Midx.C63_refresh",
    "Verif.Midx.C63_unchecked"
   ],
   "note": "Any id size. C63_find needs sorted ids and a fan-out table that counts them, which the reader does not check (C63_unchecked: nor the checksum). Not modelled: unaligned reads, failed allocations, files of 2^31 objects or more (the position is an int)."
  },
  {
   "property": "C64",
   "status": "proved",
   "theorems": [
    "Verif.Midx.C64_written",
    "Verif.Midx.C64_every",
    "Verif.Midx.C64_dots",
    "Verif.Midx.C64_refused"
   ],
   "note": "Packs in the directory itself whose names have no dot before .pack, distinct, fewer than 2^29 objects in total, at least one object; C64_dots and C64_refused show that without these conditions the file that is written can be refused by the reader. What git_pack_foreach_entry_offset gives is the input (C45); the lock file is not modelled."
  },
  {
   "property": "C65",
   "status": "proved",
   "theorems": [
    "Verif.Notes.C65_notes_are_a_map",
    "Verif.Notes.C65_has_a_map",
    "Verif.Notes.C65_objects_stay",
    "Verif.Notes.C65_broken_reference_is_replaced"
   ],
   "note": "Trees and their builder are those of C16/C58 (no directory reaches 2^30 entries, no two different objects get the same id). Commits are given by their tree; signatures, messages and I/O errors are not modelled. C65_broken_reference_is_replaced: a reference to something unreadable is overwritten with a history that has only the new note."
  },
  {
   "property": "C66",
   "status": "proved",
   "theorems": [
    "Verif.Notes.C66_foreach",
    "Verif.Notes.C66_foreach_is_the_map"
   ],
   "note": "For trees that have nothing but notes; an example shows that another file is given as a note with the id of the note before it. The iterator is that of C55."
  },
  {
   "property": "C67",
   "status": "proved",
   "theorems": [
    "Verif.Odb.C67_read",
    "Verif.Odb.C67_header",
    "Verif.Odb.C67_exists",
    "Verif.Odb.C67_write",
    "Verif.Odb.C67_write_read",
    "Verif.Odb.C67_alternates",
    "Verif.Odb.C67_history",
    "Verif.Odb.C67_same"
   ],
   "note": "For backends that are Honest (C69: those of a repository are): a backend with a broken copy that answers another error hides good copies elsewhere. Ids are unique (no hash collisions) by hypothesis."
  },
  {
   "property": "C68",
   "status": "proved",
   "theorems": [
    "Verif.Odb.C68_read_prefix",
    "Verif.Odb.C68_exists_prefix",
    "Verif.Odb.C68_enough"
   ],
   "note": "As for C67. When a match is visible, what a refresh would add is not looked at; so the code does, and the statement says so."
  },
  {
   "property": "C69",
   "status": "proved",
   "theorems": [
    "Verif.Odb.C69_backends",
    "Verif.Odb.C69_refresh",
    "Verif.Odb.C69_write"
   ],
   "note": "Directories in order: files are what their names say, no pack's name begins with another's (packfile_byname_search_cmp compares only a prefix). Concrete instance in Odb/Examples."
  },
  {
   "property": "C70",
   "status": "proved",
   "theorems": [
    "Verif.PackObjects.C70_pack",
    "Verif.PackObjects.C70_read_back",
    "Verif.PackObjects.C70_insert",
    "Verif.PackObjects.C70_once"
   ],
   "note": "One prepare and one write per builder; out of memory and the progress callback are not modelled. zlib is a function whose inverse exists, objects have 20-byte ids and one of four types. Instance with a chain of two deltas in PackObjects/Examples."
  },
  {
   "property": "C71",
   "status": "proved",
   "theorems": [
    "Verif.PackObjects.C71_search",
    "Verif.PackObjects.C71_write"
   ],
   "note": "With the database unchanged while the pack is built. Each round of find_deltas is one step (rounds of different threads write to different objects)."
  },
  {
   "property": "C72",
   "status": "proved",
   "theorems": [
    "Verif.MergeFile.C72_merge",
    "Verif.MergeFile.C72_merge_file",
    "Verif.MergeFile.C72_binary"
   ],
   "note": "For any search for differences that returns edit scripts, and for the modelled xdiff (C54). Flags that ignore white space, the patience algorithm and running out of memory are not modelled; how near to each other conflicts are joined (three lines) is modelled but not part of the claim."
  },
  {
   "property": "C73",
   "status": "proved",
   "theorems": [
    "Verif.MergeFile.C73_theirs",
    "Verif.MergeFile.C73_ours",
    "Verif.MergeFile.C73_same",
    "Verif.MergeFile.C73_clean",
    "Verif.MergeFile.C73_symmetric"
   ],
   "note": "Changes are those the library's own search finds."
  },
  {
   "property": "C74",
   "status": "proved",
   "theorems": [
    "Verif.Indexer.C74_agree",
    "Verif.Indexer.C74_whole",
    "Verif.Indexer.C74_pending",
    "Verif.Indexer.C74_size"
   ],
   "note": "zlib is any function that meets its contract (structure Zlib), the hash any function. The pack is smaller than a memory window; no errors of I/O or memory. C74_pending shows that acceptance in pieces does not give acceptance in one piece, C74_size that a piece of 2^31 bytes is not handled (findings)."
  },
  {
   "property": "C75",
   "status": "proved",
   "theorems": [
    "Verif.Indexer.C75_accepted",
    "Verif.Indexer.C75_unchanged",
    "Verif.Indexer.C75_wrong_size",
    "Verif.Indexer.C75_hang"
   ],
   "note": "For packs to which nothing is added (thin packs are an example only), whose header counts fewer than 2^26 objects. C75_wrong_size and C75_hang are findings: an object that is not as long as its header says is indexed but cannot be read; resolve_deltas can loop for ever. That commit ends is otherwise not part of the claim."
  },
  {
   "property": "C76",
   "status": "proved",
   "theorems": [
    "Verif.Indexer.C76_connected",
    "Verif.Indexer.C76_bypass"
   ],
   "note": "What an object names is a parameter (any function of its type and contents that may fail). C76_bypass (finding): an object with a wrong length gets past the verification."
  },
  {
   "property": "C77",
   "status": "proved",
   "theorems": [
    "Verif.Racy.C77_noticed",
    "Verif.Racy.C77_no_false_alarm",
    "Verif.Racy.C77_four_gib",
    "Verif.Racy.C77_large_error",
    "Verif.Racy.C77_added_then_changed",
    "Verif.Racy.C77_emptied",
    "Verif.Racy.C77_window"
   ],
   "note": "One path with a regular file; the clock of the file system does not go back, times are before 2038 and are not set by hand; settings and build (nanoseconds or seconds, ctime trusted or not) are arbitrary. Calm (in Calm.lean) says which changes are excluded; C77_added_then_changed, C77_emptied, C77_window and C77_four_gib show that each exclusion is needed (findings). C77_noticed holds with any filter, C77_no_false_alarm without filters."
  },
  {
   "property": "C78",
   "status": "proved",
   "theorems": [
    "Verif.Mwindow.C78_no_crash",
    "Verif.Mwindow.C78_reads",
    "Verif.Mwindow.C78_enough",
    "Verif.Mwindow.C78_dangling",
    "Verif.Mwindow.C78_two_files"
   ],
   "note": "Windows are numbered instead of addressed; the settings do not change; files only get longer. Careful (in Spec.lean) says how cursors are used; C78_dangling and C78_two_files show that both conditions are needed (findings, not reachable through the callers in the library)."
  },
  {
   "property": "C79",
   "status": "proved",
   "theorems": [
    "Verif.Mwindow.C79_sum",
    "Verif.Mwindow.C79_limit",
    "Verif.Mwindow.C79_leak",
    "Verif.Mwindow.C79_not_least_recent"
   ],
   "note": "For histories in which memory could be mapped; C79_leak shows what happens otherwise, C79_not_least_recent that it is not the least recently used window that goes (findings). The sum of the windows is below 2^64."
  },
  {
   "property": "C80",
   "status": "proved",
   "theorems": [
    "Verif.Mwindow.C80_limit",
    "Verif.Mwindow.C80_coldest"
   ],
   "note": "Times are the counter of the library (it wraps after 2^64 calls). The closing of descriptors after the lock has been released is not modelled."
  },
  {
   "property": "C81",
   "status": "proved",
   "theorems": [
    "Verif.Mailmap.C81_resolve",
    "Verif.Mailmap.C81_null",
    "Verif.Mailmap.C81_add_code",
    "Verif.Mailmap.C81_repository"
   ],
   "note": "shown and rule in Spec.lean say which rule holds. Reading files, blobs and the configuration is a parameter (Repo)."
  },
  {
   "property": "C82",
   "status": "proved",
   "theorems": [
    "Verif.Mailmap.C82_buffer",
    "Verif.Mailmap.C82_refused",
    "Verif.Mailmap.C82_unambiguous",
    "Verif.Mailmap.C82_lines"
   ],
   "note": "Says in Spec.lean is the format of a line. That one line with an empty email loses the whole file is a finding."
  },
  {
   "property": "C83",
   "status": "proved",
   "theorems": [
    "Verif.FetchHead.C83_round_trip",
    "Verif.FetchHead.C83_callback",
    "Verif.FetchHead.C83_head_merges",
    "Verif.FetchHead.C83_url_injects",
    "Verif.FetchHead.C83_merge_inherited",
    "Verif.FetchHead.C83_nul_hides"
   ],
   "note": "The removal of credentials from urls is not modelled. C83_head_merges, C83_url_injects, C83_merge_inherited and C83_nul_hides show that the exceptions are real (findings)."
  },
  {
   "property": "C84",
   "status": "proved",
   "theorems": [
    "Verif.FetchHead.C84_format",
    "Verif.FetchHead.C84_unambiguous",
    "Verif.FetchHead.C83_callback"
   ],
   "note": "Line and File in Spec.lean are the format. A file with NUL bytes is read up to the first (C83_nul_hides)."
  },
  {
   "property": "C85",
   "status": "proved",
   "theorems": [
    "Verif.Grafts.C85_format",
    "Verif.Grafts.C85_unambiguous",
    "Verif.Grafts.C85_comment"
   ],
   "note": "Line and File in Spec.lean are the format. Blank lines and comments are invalid (C85_comment)."
  },
  {
   "property": "C86",
   "status": "proved",
   "theorems": [
    "Verif.Grafts.C86_in_force",
    "Verif.Grafts.C86_gone",
    "Verif.Grafts.C86_stale",
    "Verif.Grafts.C86_cases",
    "Verif.Grafts.C86_invalid_then_accepted"
   ],
   "note": "The three cases are exhaustive (C86_cases); in the third the code is wrong (C86_stale). SHA-256 is assumed to tell the contents found apart (Tells)."
  },
  {
   "property": "C87",
   "status": "proved",
   "theorems": [
    "Verif.Grafts.C87_open",
    "Verif.Grafts.C87_store",
    "Verif.Grafts.C87_roots",
    "Verif.Grafts.C87_is_shallow",
    "Verif.Grafts.C87_reachable",
    "Verif.Grafts.C87_not_placed",
    "Verif.Grafts.C87_stored_again"
   ],
   "note": "For files up to date in the sense of C86; C87_stored_again and C87_not_placed are the findings outside."
  },
  {
   "property": "C88",
   "status": "proved",
   "theorems": [
    "Verif.IndexExt.C88_reuc",
    "Verif.IndexExt.C88_names",
    "Verif.IndexExt.C88_tree",
    "Verif.IndexExt.C88_side",
    "Verif.IndexExt.C88_index"
   ],
   "note": "C88_index composes with C23. SHA-1 ids; extensions below 4 GiB (C23). C88_reuc also proves the failure for a last entry without stages."
  },
  {
   "property": "C89",
   "status": "proved",
   "theorems": [
    "Verif.IndexExt.C89_reuc",
    "Verif.IndexExt.C89_names",
    "Verif.IndexExt.C89_tree",
    "Verif.IndexExt.C89_deterministic",
    "Verif.IndexExt.C89_context",
    "Verif.IndexExt.C89_accepted"
   ],
   "note": "ReucText, NamesText and TreeText in Spec.lean are the formats, on top of the numbers of C46."
  },
  {
   "property": "C90",
   "status": "proved",
   "theorems": [
    "Verif.Hashsig.file_total",
    "Verif.Hashsig.buffer_total",
    "Verif.Hashsig.made_shape",
    "Verif.Hashsig.compare_percent",
    "Verif.Hashsig.compare_self",
    "Verif.Hashsig.compare_self_zero",
    "Verif.Hashsig.read_past_end",
    "Verif.Hashsig.empty_lines_differ"
   ],
   "note": "All options. git__qsort_r is taken to sort, read failures are not modelled. A byte must follow the text in memory: without it the code reads past the end (read_past_end, a finding). A text of empty lines only has no piece and is 0 similar to itself (compare_self_zero, empty_lines_differ)."
  },
  {
   "property": "C91",
   "status": "proved",
   "theorems": [
    "Verif.Hashsig.pieces_unique",
    "Verif.Hashsig.refused_iff",
    "Verif.Hashsig.create_mem",
    "Verif.Hashsig.compare_dice",
    "Verif.Hashsig.compare_order",
    "Verif.Hashsig.compare_symm",
    "Verif.Hashsig.blanks_ignored",
    "Verif.Hashsig.equal_similar",
    "Verif.Hashsig.full_heap_loses",
    "Verif.Hashsig.long_not_symmetric",
    "Verif.Hashsig.split_differs"
   ],
   "note": "For the options without GIT_HASHSIG_SMART_WHITESPACE. Pieces, pieceHash and dice in Spec.lean are the specification. Pieces are told apart by their 32 bit hash. Beyond 127 pieces the score is neither symmetric nor independent of the order (full_heap_loses, long_not_symmetric: findings)."
  },
  {
   "property": "C92",
   "status": "proved",
   "theorems": [
    "Verif.RefTx.C92_held",
    "Verif.RefTx.C92_stable",
    "Verif.RefTx.C92_abort",
    "Verif.RefTx.C92_exclusive",
    "Verif.RefTx.C92_unlocked"
   ],
   "note": "Fair in Spec.lean: others respect lock files (C18 for the library itself). A reference has one value; how it is stored is C18 and C19. The removal of a lock file is taken to succeed."
  },
  {
   "property": "C93",
   "status": "proved",
   "theorems": [
    "Verif.RefTx.C93_commit",
    "Verif.RefTx.C93_nothing_else",
    "Verif.RefTx.C93_removal_sticks",
    "Verif.RefTx.C93_not_atomic",
    "Verif.RefTx.C93_other_reflog",
    "Verif.RefTx.C93_commit_twice"
   ],
   "note": "One commit. wanted in Spec.lean is what the calls ask for; a removal is never taken back (C93_removal_sticks, a finding). The values are those at the release of each lock (ghost field out). Lines appended to reflogs come from the environment. C93_other_reflog and C93_commit_twice are findings."
  },
  {
   "property": "C94",
   "status": "proved",
   "theorems": [
    "Verif.NetHost.C94_sound",
    "Verif.NetHost.C94_exact",
    "Verif.NetHost.C94_wildcard",
    "Verif.NetHost.C94_dots",
    "Verif.NetHost.C94_domain",
    "Verif.NetHost.C94_last_star",
    "Verif.NetHost.C94_empty_label"
   ],
   "note": "Stands in Spec.lean. The other direction is proved for patterns without a star and for star, dot, domain; it does not hold of others (no backtracking, upper case after a star, examples), where names that could be accepted are refused. C94_last_star and C94_empty_label are findings."
  },
  {
   "property": "C95",
   "status": "proved",
   "theorems": [
    "Verif.NetHost.C95_pattern",
    "Verif.NetHost.C95_list"
   ],
   "note": "Pattern and Piece in Spec.lean, both directions. The url has a host and a port. Blanks are kept and case counts, as in the code (examples)."
  },
  {
   "property": "C96",
   "status": "proved",
   "theorems": [
    "Verif.NetHost.C96_redirect",
    "Verif.NetHost.C96_no_downgrade",
    "Verif.NetHost.C96_path",
    "Verif.NetHost.C96_refused",
    "Verif.NetHost.C96_defined",
    "Verif.NetHost.C96_no_query",
    "Verif.NetHost.C96_no_query_path",
    "Verif.NetHost.C96_no_scheme"
   ],
   "note": "For every parser of urls; Strip in Spec.lean. C96_defined has the hypothesis Complete, which the code does not establish: C96_no_query, C96_no_query_path and C96_no_scheme are findings."
  },
  {
   "property": "C97",
   "status": "proved",
   "theorems": [
    "Verif.NetUrl.C97_parts",
    "Verif.NetUrl.C97_address",
    "Verif.NetUrl.C97_escapes",
    "Verif.NetUrl.C97_host_escaped",
    "Verif.NetUrl.C97_authority",
    "Verif.NetUrl.C97_cut",
    "Verif.NetUrl.C97_rest",
    "Verif.NetUrl.C97_other_host",
    "Verif.NetUrl.C97_path",
    "Verif.NetUrl.C97_relative",
    "Verif.NetUrl.C97_relative_redirect",
    "Verif.NetUrl.C97_service_redirect"
   ],
   "note": "Plain in Spec.lean says which parts; text and url what is written and what is read. Hosts that are addresses in brackets are in C97_address. Escapes are in C97_escapes. C97_cut, C97_authority and C97_rest are for every text that is accepted (Cut, CutRest, UserPart, HostPart, PortPart in Spec.lean). C97_other_host is a finding. C97_relative_redirect and C97_service_redirect are findings: C96 with the parser of the library."
  },
  {
   "property": "C98",
   "status": "proved",
   "theorems": [
    "Verif.NetUrl.C98_text",
    "Verif.NetUrl.C98_round_trip",
    "Verif.NetUrl.C98_stable",
    "Verif.NetUrl.C98_address",
    "Verif.NetUrl.C98_escapes"
   ],
   "note": "Parts.written says what is written. For parts that would need escapes or brackets it is false of the code: C98_address and C98_escapes are findings."
  },
  {
   "property": "C99",
   "status": "proved",
   "theorems": [
    "Verif.NetUrl.C99_request",
    "Verif.NetUrl.C99_follow"
   ],
   "note": "For locations whose path before that of the service does not end in a slash (one at its end is lost, as in C99_request). The fragment is lost, and whether a port was given is that of the url written to."
  }
 ]
}