# libgit2 in Lean 4: design of the model and the proofs

## Method

* One directory per area under `lean/Verif/<Area>/`:
  * `Model.lean` – executable, total Lean functions transcribing the C code function by
    function; every definition carries a comment with the `/repo` file and lines.
  * `Spec.lean` – the small independent specification (plain mathematics; does not mention the model).
  * `Lemmas.lean` – helper lemmas.
  * `Props.lean` – only the property theorems (named `Cxx_...`) and, beside each, a concrete
    non-trivial `example` that meets its hypotheses.
* C data representation: `char*`/buffers are `List UInt8`; fixed-width machine integers are
  `UInt8/16/32/64`, `BitVec n`, or `Nat`/`Int` with explicit `% 2^n` / overflow tests where the C code
  depends on width.  Where the C code relies on a precondition, reading outside a buffer or an
  undefined shift is a *distinct outcome* of the model (`Outcome.ub`/`none`, documented per file), not assumed away.
* Loops are structural recursion, well-founded recursion, or recursion on an explicit fuel which a
  theorem proves sufficient.
* File system, crash and thread behaviour: explicit small-step transition systems whose steps are the system calls
  issued by the code in program order.  Theorems quantify over all interleavings (and crash = stop at any prefix).

## Trusted base

* Lean 4.33.0 kernel. Axioms: only `propext`, `Classical.choice`, `Quot.sound` (checked by
  `#print axioms` on every theorem of the manifest, listed per theorem in `AXIOMS.md`). No `sorryAx`-style placeholders, no `native_decide`, no `bv_decide`,
  no added axioms.
* The reading of the C code by hand: the model is not extracted and the code is not run. Each definition cites
  its source lines so that a reader can compare; `MODEL_INDEX.md` lists all definitions with what they cite.
* Not modelled anywhere unless a section says otherwise: memory allocation failure (treated as not happening), `git_error_set`
  messages, allocator behaviour, zlib, SHA-1/SHA-256 arithmetic, locale, wall-clock, Windows-only code (`#ifdef GIT_WIN32`),
  `GIT_EXPERIMENTAL_SHA256` (the default build, SHA-1 only, is modelled).

## What is modelled, and how it is proved

`MODEL_INDEX.md` is the exact list of the code that is modelled, by definition; code that is cited nowhere is not modelled.

| ids | modelled | proof |
|---|---|---|
| C01 | varint.c, bytes and 64-bit values | induction on the value and on the byte list |
| C02, C03 | oid.c, oid.h, the hex tables | list induction; order = lexicographic order of the bytes |
| C04 | the shortener of oid.c: node array, tails, splits, signs, growth, SHRT_MAX limit | trie invariant over every history of additions |
| C05, C06 | delta.c in full: hash index with its culling, candidate search, encoder loop, buffer growth; decoder with an `ub` outcome | simulation: the operations written so far denote the target prefix consumed so far; decoder total |
| C07, C08 | header and offset codecs of pack.c/pack-objects.c | induction on bytes, mod 2^64 |
| C09–C11 | tree.c parser, writer, builder over the hash map, homing search | induction; order lemmas on `git_path_cmp`-style keys |
| C12–C14 | signature.c, commit.c, commit_list.c, tag.c: writers and parsers, creation with its reference update, extract_signature | splitting lemmas; parser after writer |
| C15, C16 | refs.c normaliser; refspec.c | independent grammar of names; exact equivalence |
| C17 | filebuf.c as a program of system calls over an abstract file system | invariant over all interleavings, failures, crashes |
| C18, C19 | refdb_fs.c write/delete/compress/lookup as programs of system calls on the same file system | invariant with a ghost history per reference; negative theorems for the dropped assumptions |
| C20 | packed-refs: raw binary search, whole-file parser, writer | search invariant on byte positions; sortedness |
| C21 | reflog.c, reflog text, append | codec induction |
| C22, C24, C51 | index.c on the vector + map; conflicts; D/F collisions | refinement to a finite map over all histories |
| C23 | index file format v2–v4 with extensions as opaque blocks | codec induction |
| C25, C38 | hashmap.h open addressing; cache.c on it | probe-sequence invariants, any hash function; refinement |
| C26, C27, C49 | tsort.c, bsearch, pqueue.c, vector.c | sorted + permutation + stable; heap invariant; refinement to lists |
| C28–C30 | merge.c bases, revwalk.c, graph.c on the queue model | worklist invariants over all acyclic histories |
| C31 | merge.c: iterator pairing, D/F detection, trivial resolution, index writing | refinement to a per-path specification |
| C32, C33 | wildmatch.c; attr_file.c/ignore.c rule parser and lookup | language semantics of patterns; last-matching-rule specification |
| C34–C36 | config parser/writer, config_list, levels, value parsers | codec induction; list semantics over all histories |
| C37 | str.c and crlf.c conversions, attribute decisions | list induction |
| C39, C40, C46, C48, C50 | message.c, base64/85, strntol, utf8.c, quoting | induction; finite tables lifted |
| C41 | smart_pkt.c parser, receive loop, request writer | case analysis on lengths; stream induction with arbitrary chunking |
| C42 | path.c/fs_path.c validation incl. HFS/NTFS | independent component specification; exact equivalence |
| C43 | checkout.c decision tables, iterator pairing, and the effects on files | refinement to a per-path safety specification |
| C44 | odb headers, loose reader/writer (zlib and hash are parameters) | codec lemmas |
| C45, C52 | idx parser/lookup/writer; pack.c unpack with the delta chain | search invariants; inductive meaning of a pack entry |
| C47 | apply.c, patch generation (xemit hunks), patch text printer and parser | list-splice lemmas; printer/parser round trip |
| C53 | attr.c, attr_file.c, attrcache.c: parser, sorted assignments, matching, order of files, the cache and its macros | parser lemmas shared with C33; representation relations; invariant of the cache over histories of queries |
| C54 | deps/xdiff: classes, trimming, discarding, Myers search with its heuristics, divide and conquer, sliding of groups, indent heuristic, script | invariants of the frontiers (reached places, parity, both corners never chosen); runs of marks as a zipper with a lexicographic measure; composed with C47. The model was compared with git 2.43 `diff -U0` on 640 random pairs of files before the proofs: same output |
| C55–C57 | iterator.c (tree iterator, range, path list), diff_generate.c (tree to tree), pathspec.c, str.c common prefix | the stack of frames as a flat sorted list; invariant of range flags and forgotten paths; merge of two sorted lists path by path; glob matching by C32, pattern parser by C33 |
| C58, C59 | tree.c write_tree, tree-cache.c, index.c git_index_read_tree and what invalidates the cache | the index as a sorted list of paths; loop invariant that the tree builder covers what was passed; the cache as a trie, right in every history; uniqueness of the tidy tree with given files by induction on trees |
| C60, C61, C62 | commit_graph.c: the reader (chunks, fan-out, search, entries, parents) and the writer (sort, indices, generations, chunks) | invariants of the chunk loop give bounds for all reads; the search is that of C45; the writer's file is split into its tables by induction over the commits; the traversal computing generations by an invariant and a weight that decreases with every turn |
| C63, C64 | midx.c: the reader (chunks, names, fan-out, search, entries, listing, refresh) and the writer | as for commit-graphs; the names by induction on the list: without dots the order of the packs is that of their indexes; large offsets by induction over the objects |
| C65, C66 | notes.c: lookup, creation and removal at every level of a fan-out, reading, the iterator | induction over the tree of notes for one call (the tree builder of C16, the store of C58), then over the calls; listing from C55 by induction over the tree: paths are in the order of the digits |
| C67, C68, C69 | odb.c: reading, headers, existence, abbreviations, writing, refreshing over a list of backends and the cache; odb_loose.c and odb_pack.c: lookups, refreshing, loose writing | what a backend should do is a structure (Honest); the loops over backends by induction on the list; histories by induction on the steps; the loose and the pack backend are shown to be Honest (packs and multi-pack-indexes as in C45, C63), refreshing by an invariant of the set of open packs |
| C70, C71 | pack-objects.c: insertion, try_delta, the window of find_deltas, partition and stealing among threads, compute_write_order, write_one, write_object, write_pack | an invariant of the threads (objects looked at, the order of that as a rank, depths, windows) by induction on the steps; the write order by induction over the forest of deltas (adding is idempotent, the walk without recursion visits all descendants); writing by an invariant over the log of written objects; a delta found under a size limit is found again without one by a simulation of the encoder of C05; reading back by C52 |
| C72, C73 | deps/xdiff/xmerge.c (all of it but XDL_MERGE_MINIMAL) and merge_file.c | the regions cover the three files in order and both sides agree between them (Laid): for the overlay of two scripts by induction on the turns over two kinds of states (no region open, or one that ends with a change that is not done yet), the other sides by swapping; kept by refining, joining and trimming; the text by induction over the regions |
| C74, C75, C76 | indexer.c: append (header, objects and deltas as streams, the hash over all but the last 20 bytes), check_object_connectivity, resolve_deltas, fix_thin_pack, commit; reading through pack.c as in C52 | what is read of a file is read the same of a longer one, so the state after any pieces is that of one run over the whole (a run of turns that is deterministic and monotone in the file); an accepted state is a chain of entries that covers the file (invariant of append, kept by every pass over the deltas); the index by C46; expected ids by an invariant of the passes |
| C77 | index.c: adding, truncate_racily_clean, writing, reading; diff_generate.c: maybe_modified with the hashing of odb.c; one file, a clock, any number of programs whose operations are cut where time can pass | an invariant of histories: an entry whose time and size are those of the file has its contents, or is not older than the index it is judged by; entries that will not be looked at again satisfy the first |
| C78, C79, C80 | mwindow.c: all of it but the cache of packs; calls are atomic (they hold one lock); whether memory can be mapped is a parameter of every call | an invariant of histories: the count of a window is the number of cursors at it, so that what is closed (unused) is nobody's; the bytes of a window are those of the file, that only gets longer; sums modulo 2^64; the loops end because each turn takes a window or a file away |
| C81, C82 | mailmap.c: all of it but git_mailmap_resolve_signature; the parts of parse.c it uses; files, blobs and configuration are parameters | the vector represents a history (sorted, and for every key the last rule added), kept by insertion with the bisection of C26; lookup by what bisection and scan find; the parser is equal to a function on lines without line feeds, which accepts exactly the lines of a grammar; texts by induction over their lines |
| C83, C84 | fetchhead.c: all of it but the removal of credentials from urls; git__strsep, git_str_join as used there | a line written is a line of the format; the reader is equal to the format (both directions, for every line); files by induction over lines, the file before by running the loop over it and going on (the loop does not depend on its fuel); the order by C26 |
| C85, C86, C87 | grafts.c: all of it; git_futils_readbuffer_updated; load_grafts, git_repository__shallow_roots, _shallow_roots_write, git_repository_is_shallow; the grafting of parents in git_commit__parse_ext; git_parse_advance_oid/_expected | the parser is equal to the format by induction over the lines; the state after a history of looks by induction from its end (the checksum is that of the contents read last); storing and reading back composes these; reachable states by an invariant over all events |
| C88, C89 | index.c: read_reuc, read_conflict_names, read_extension (contents), the create_/write_*_extension functions; tree-cache.c: git_tree_cache_read, read_tree_internal, git_tree_cache_write | pointers are what is left of the mapped file, reading beyond it is ub; every piece of a reader is equal to a piece of the format (both directions) over C46, the loops and the mutual recursion over trees by induction over fuel bounded by the length; writing by induction over the lists and the tree |
| C90, C91 | hashsig.c: all of it but the failures of open, read and memory; git__isspace_nonlf | heap operations by induction over fuel (index bounds; the values are a permutation while the heap is not full); the scan of a run is equal to a piece of the specification; the list of pieces of a text is unique; merging sorted lists counts the common part; scores follow |
| C92, C93 | transaction.c: transactions on references; of refdb_fs.c the lock, unlock, write_tail and delete_tail functions at the level of values | a world with ghost releases, in which others act before every step subject to respecting locks; an invariant over every sequence of calls (nodes held, values unchanged, what is wanted); commit and free by induction over the nodes in any order, each step being framed to one reference |
| C94, C95, C96 | net.c: git_net_hostname_matches_cert, matches_pattern, git_net_url_matches_pattern_list, git_net_url_apply_redirect, remove_service_suffix; the parser of urls is a parameter | names by induction over the pattern, against an inductive relation; patterns and lists are equal to the specification (both directions) by splitting at the first colon or comma; redirects by cases over the tests made, the suffix as the end of a list |
| C97 | net.c: git_net_url_parse, url_parse_authority, url_parse_path, url_parse_finalize; git_str_decode_percent | the authority is read from its end: induction over the part read, one lemma for every state of the machine; scheme, path, query and fragment as the longest pieces without what ends them |
| C98 | net.c: git_net_url_fmt, git_net_url_is_default_port | what is written is the text of plain parts, to which C97 applies; the lower case of a scheme is a scheme and is its own lower case |
| C99 | net.c: git_net_url_joinpath | slashes as repetitions; C96 gives what is left of the path, the case of the whole service at its end is excluded because a path has no question mark |

## Extent and limits per property

| id | property | status | limits |
|---|---|---|---|
| C01 | Index v4 varint round-trip and overflow safety | proved (5 theorems) | the functions named in the property, in full |
| C02 | Object id text round-trip | proved (8 theorems) | the functions named in the property, in full |
| C03 | Object id comparison is a total order consistent with text and prefixes | proved (5 theorems) | the functions named in the property, in full |
| C04 | The shortener returns the least unambiguous length | proved (6 theorems) | Complete: the trie with its tails, leaf splits, sign marks, growth and the SHRT_MAX limit. SHA-1 texts; allocation does not fail. |
| C05 | Delta create/apply round-trip | proved (4 theorems) | Encoder safety and totality proved for targets up to 715827860 bytes; beyond, 32-bit bufsize*3 can wrap in the C code. The round trip itself has no bound. |
| C06 | Applying an untrusted delta is memory safe and exact | proved (3 theorems) | The only reachable undefined behaviour is an over-long size header (six or more bytes), recorded as a finding. |
| C07 | Pack object header round-trip | proved (6 theorems) | exact for every byte string; 64-bit long. C07_wraps: sizes beyond 2^64 are reduced silently. |
| C08 | Offset-delta base offsets round-trip and point backwards | proved (5 theorems) | libgit2 itself writes no offset deltas, so the encoder is the specification's (and the index varint's). C08_ref_loop: a reference delta naming itself never terminates. |
| C09 | Tree objects round-trip | proved (3 theorems) | the functions named in the property, in full |
| C10 | Written trees are canonical and a treebuilder is a map | proved (2 theorems) | Histories of the builder are fully covered: get, and the written bytes. Fewer than 2^30 entries and calls. Names up to 65535 bytes: longer ones are silently truncated by the code (finding). |
| C11 | Tree lookup by name is complete | proved (2 theorems) | the functions named in the property, in full |
| C12 | Signatures round-trip | proved (8 theorems) | The bounds on time and offset and the one-line hypothesis are needed: C12_newline, C12_time_lost and C12_offset_lost prove what happens outside of them. |
| C13 | Commits round-trip | proved (17 theorems) | C13_create needs that the object database takes the object: C13_create_silent proves that otherwise success is reported without a commit. C13_extract_* and C13_body_gap are further deviations. Grafts are not modelled. |
| C14 | Tags round-trip | proved (7 theorems) | C14_inject: git_tag_annotation_create does not check the name, which can then forge tagger and message. git_tag_create_from_buffer is not modelled. |
| C15 | Reference names are validated exactly as documented | proved (6 theorems) | exact characterisation of accepted names for every byte string and flag combination; the rules in Spec.Valid spell out what the code accepts beyond git: a leading caret and the DEL character (finding). Unicode precomposition not modelled. |
| C16 | Refspec transforms invert each other | proved (7 theorems) | Parsing, matching and both transformations; the source of a push refspec without pattern is unchecked in the code, so the inverse needs it to be free of glob characters (counterexample proved); transforming with a negative pattern refspec is undefined (proved). |
| C17 | File replacement is atomic | proved (10 theorems) | any number of processes, every interleaving, every call may fail, a process may stop anywhere; assumption: syncing a directory does not fail (if it can, the property is false of the code: C17_parent_sync_failure_breaks_exclusion). Flat name space, no symlinks, uncompressed. |
| C18 | Reference update is a compare-and-swap | proved (6 theorems) | write/delete/pack/read as programs of system calls; all interleavings, failures of any write call, crashes. At most one process rewrites packed-refs and directory sync does not fail; C18_torn_read is a finding: a reader can see a value the reference never had (size taken before the file is opened). |
| C19 | Packing references never changes what a lookup returns | proved (5 theorems) | one packer with any number of writers and readers; the packed file is well formed at the start, reads do not fail. The two negative theorems show both assumptions are needed (findings). |
| C20 | Packed reference lookup is complete and exact | proved (5 theorems) | Binary search over the raw bytes of a sorted packed-refs file is exact for any comment lines, records with or without peeled ids, and any name; on arbitrary bytes it never reads out of bounds and terminates. The whole-file parser used for unsorted files, and the text written by packed_write (recognised as sorted, looked up exactly), are proved too. File stamps/mmap are outside the model. |
| C21 | Reference logs are faithful append logs | proved (14 theorems) | reference logs: in-memory append and drop, the file's writer and reader, appending to the file. C21_newline_lost, C21_tab_lost and C21_torn are defects. Which updates write a log entry (and HEAD's log) is not modelled. |
| C22 | The index behaves as a sorted map | proved (7 theorems) | case-sensitive index; path and object validity are parameters; every history of calls from an empty index |
| C23 | The index file round-trips | proved (7 theorems) | SHA-1 index files; extension contents are opaque; version 4: paths below 4096 bytes (longer ones are written but cannot be read back) and the extended bit must be set by the caller (finding) |
| C24 | Conflict entries are kept consistent | proved (6 theorems) | conflict_add is not atomic on error and an absent side keeps the entry stored before; both are visible in C24_add |
| C25 | The hash map is a map | proved (3 theorems) | For histories that never hold 2^30 keys or more (the 32-bit bucket count wraps beyond). The set flavour's iterator never advances: proved as a finding; no caller iterates a set. |
| C26 | Sorting and binary search | proved (4 theorems) | Sorting succeeds for every array of up to 2^47 elements (a petabyte of pointers), including that the 128-entry run stack never overflows although its invariant is only checked at the top; for longer arrays the overflow is the one other outcome. Binary search is complete. |
| C27 | The priority queue pops in order | proved (4 theorems) | any comparison that is a total preorder; growth of the underlying vector is C49 |
| C28 | Merge bases are best common ancestors | proved (4 theorems) | All acyclic histories and all dates. basesMany models paint_down_to_common, clear_commit_marks and remove_redundant on the heap model of C27; unreadable commits give an error, never a wrong answer. |
| C29 | Walks give what was asked for, in the order asked for | proved (11 theorems) | All acyclic histories, options and calls. Exactness with hidden commits needs dates in order (C29_skew) and, as the commits given are not sorted by date as git does, one push or calls from old to new (C29_hide_unordered is a defect). C29_many_children is a defect: in_degree has 16 bits and a commit named as a parent 65535 times is never given by a topological walk. |
| C30 | Ahead/behind counts and reachability | proved (5 theorems) | Reachability for all histories and dates. Ahead/behind exact for histories ordered by date or generation, with bounds for all others; C30_same_second is a defect: commits made in the same second can be over-counted. |
| C31 | Three-way merge of trees | proved (7 theorems) | Without rename detection; the merge driver is a parameter (any driver that returns an entry of the path with a mode, or an error); resolve-undo and name extensions and the tree iterators' own traversal are not modelled. The three defect theorems delimit the directory/file and mode cases. |
| C32 | Glob matching has the documented meaning | proved (7 theorems) | dowild with its abort codes and literal skipping, for every pattern, text and flags, against a language semantics of the pattern; C locale ctype. |
| C33 | Ignore rules decide as documented | proved (11 theorems) | For rule files without vertical tabs, form feeds and backslashes at the end of a line (C33_hang and C33_swallow show what happens with them) and relative paths without empty or '.' components. C33_iterator needs that no rule applies to the topmost directory itself (C33_root_directory shows why). Not modelled: the attribute cache (files are as last loaded), path length limits, absolute paths. |
| C34 | Config values round-trip through the file | proved (14 theorems) | parser and writer of config files modelled in full (includes and regular expressions abstract); the necessary assumptions each have a counterexample theorem |
| C35 | Config numbers are parsed exactly | proved (6 theorems) | Built on C46. FINDING: the multiplication by the suffix is not checked for overflow (C35_int64_overflow characterises when). |
| C36 | Config lookup honours level priority | proved (19 theorems) | Configurations reached by any history of adding (forced or not), write orders and opened levels keep strictly decreasing levels; lookup, iteration, multivars, set, delete, snapshot for all of them. Defects proved: the order of a write order is ignored, GIT_CONFIG_HIGHEST_LEVEL opens read-only, NULL dereference for valueless multivars. Not modelled: include files, reference counts, locks. |
| C37 | Line-ending conversion is lossless on text | proved (13 theorems) | git_str_crlf_to_lf is not idempotent on CR CR LF (proved), safecrlf is skipped when the index blob has CR (proved), and a configuration error makes checkout write CRLF (proved). |
| C38 | The object cache returns what was stored | proved (7 theorems) | One cache on the hash-map model of C25; calls are atomic (each holds the cache lock). Histories of fewer than 2^30 calls. The id must determine the size (otherwise replacing a raw entry by a parsed one would not keep the account). |
| C39 | Commit message clean-up is idempotent and safe | proved (4 theorems) | For every message and every comment character other than the newline itself. |
| C40 | Base64 and base85 round-trip | proved (7 theorems) | encoders equal the number-system definitions; decoders characterised exactly. git_str_decode_base64 does not cut the padding: the exact theorem says so (finding). |
| C41 | Packet lines are framed exactly | proved (19 theorems) | Parser, receive loop and request writer. The stream theorems assume nine readable bytes behind the receive buffer (C41_overread shows why). Deviations proved: capabilities search runs past the packet, shallow ids not checked, git_pkt_buffer_wants reads past the array when every reference is local. |
| C42 | Paths that could write into .git are refused | proved (12 theorems) | Exact characterisation of git_path_str_is_valid over all paths, flags, settings. Recorded deviations: index defaults accept empty components; blanks/dots before a colon or backslash are not dropped; the HFS+ check compares low bytes only. |
| C43 | Safe checkout never loses work | proved (11 theorems) | The paths-above/below conditions of C43_kept are needed: C43_lost_* prove the data losses outside of them. Not modelled: core.ignorecase, symbolic links in the file system, conflicts in the index (merge checkouts), submodule updates. |
| C44 | Object header parse/format | proved (12 theorems) | zlib and the hash are parameters. Negative theorems: lenient header parser, heap overrun in read_loose_standard, zero padding of short streams, wrong length for the old format. |
| C45 | Pack index lookup is complete | proved (5 theorems) | accepted files: no read outside; lookup right for ordered ids with a right fan-out table; the indexer's output meets that. C45_unpadded and C45_bad_fanout show the two hypotheses matter. Fewer than 2^26 objects (32-bit products beyond). |
| C46 | String-to-integer conversion is exact | proved (4 theorems) | the functions named in the property, in full |
| C47 | A patch takes the old file to the new one | proved (14 theorems) | C47_diff/C47_text: any edit script (the search for a script by xdl_do_diff is not modelled) with context >= 1 or no pure deletion; with context 0 the claim is false of the code (C47_context_zero). C47_text needs files without NUL bytes (C47_nul_overread shows why). Bounds: fewer than 2^30 lines, or 10^8-1 for the text, from int line numbers and the 128-byte header buffer. File headers of patch text are not modelled. |
| C48 | UTF-8 validation | proved (6 theorems) | exact characterisation of the three functions for every byte string; the length functions accept over-long forms and surrogates (proved), iterating an empty text reads one byte (proved). |
| C49 | Dynamic vector operations | proved (20 theorems) | every operation against lists, for any memory allocator; sorting relies on C26 (beyond 2^47 elements an overflow of the run stack is an explicit alternative). Two negative theorems: the order flag survives reverse, and the largest position wraps. |
| C50 | Percent/quote/unescape string codecs | proved (11 theorems) | the functions named in the property, in full |
| C51 | No path is both a file and a directory | partial (2 theorems) | the code does not remove entries below a new path unless they are at the front of the index: C51_missed_clash proves a history reaching an index with both a and a/b |
| C52 | Objects read from a pack do not depend on the delta cache | proved (6 theorems) | git_packfile_unpack and git_packfile_resolve_header against an inductive meaning of entries; zlib and the index look-up are parameters (the latter is C45); the cache is any right cache at every look-up. C52_header_corrupt: undefined behaviour on a corrupt delta stream. |
| C53 | Attributes are those the rules give | proved (8 theorems) | For files without a backslash at the end of a line, with a pattern on every line that is not empty, and whose last line is not a lone '*' or '.' (C53_lone_star, C53_empty_pattern show what happens otherwise), that do not change between queries; the queries of a history agree on whether HEAD and a commit are included (C53_history shows why). Relative paths without empty or '.' components. Not modelled: cache invalidation when files change, path length limits, byte order marks, bare repositories, symbolic links on the way, sessions. |
| C54 | The diff of two texts is a valid edit script and applying it gives the new text | proved (5 theorems) | The default algorithm with any combination of GIT_DIFF_MINIMAL and GIT_DIFF_INDENT_HEURISTIC. Not modelled: flags that ignore white space or blank lines, GIT_DIFF_PATIENCE, failed allocations (git_xdiff ignores what xdl_diff returns, so a failed allocation would look like an empty diff). That the script is shortest is not claimed: lines with many matches are discarded even with GIT_DIFF_MINIMAL. |
| C55 | A tree iterator gives exactly the entries in range, in order, once | proved (3 theorems) | Case-sensitive iterators. For path lists in which no path is continued by another with a byte below the slash: Props shows that {foo, foo.c} loses the directory foo. Trees are as git writes them (sorted, names without slashes, all subtrees there). Not modelled: advance_into, advance_over, ignore-case iteration (which puts directories together that differ only in case). |
| C56 | The diff of two trees says exactly what changed | proved (3 theorems) | Without GIT_DIFF_INCLUDE_TYPECHANGE_TREES (Props shows that it misses changes when a name sorts between, and that with GIT_DIFF_REVERSE it overwrites the mode of the wrong side) and without a pathspec (C57). A file whose id is zero is always modified. Not modelled: callbacks, rename detection, work directory and index sides. |
| C57 | A pathspec limits a diff to the selected paths and changes nothing else | proved (3 theorems) | C57_all_or_nothing is for every pathspec. C57_pathspec is for plain ones: Props shows that '.', '/a', 'a ' and two pathspecs that differ after a backslash restrict the walk too much. C57_path_list is for regular files and links and lists without clashes. |
| C58 | The tree written from an index has exactly its files, whatever the tree cache | proved (6 theorems) | SHA-1 repositories, case sensitive indexes, one repository. Fit: proper paths of at most 65535 bytes, ids of 20 bytes, no file that is also a directory (Props shows that such a file is silently left out of the tree; C51 says how it gets into an index). 'Unless two objects have the same id': Collisionless is about the objects written. C58_same_id asks that trees read into the index were as this library writes them (others with the same files have other ids, and the cache keeps them). Objects that a failing call wrote are not tracked (others may add objects at any time). The TREE extension of the index file is not part of this. |
| C59 | Reading a tree into the index gives exactly its files, and writing it back gives the tree | proved (5 theorems) | Trees as git writes them (Good), any modes. The limit 2^47 of C59_succeeds is that of the run stack of git__tsort (C26). Not modelled: ignore-case indexes, readers of the index in other threads, allocation failures. |
| C60 | Reading a commit-graph never goes outside the file, and finds commits by prefix | proved (3 theorems) | Any id size of at least 4 bytes. C60_find needs a fan-out table that counts the ids, which the reader does not check. Not modelled: unaligned reads, failed allocations, fewer than 2^31 commits (the position is an int). |
| C61 | A written commit-graph describes exactly the commits that were added | proved (5 theorems) | At most 0x70000000 commits and 2^31 parents in total; ids are not null (the reader refuses such a file) and name one commit. The hash is any function of the right length. C61_empty: without commits the written file is refused. Walking packs and revwalks to collect the commits (git_commit_graph_writer_add_index_file, _add_revwalk) and the lock file are not modelled. |
| C62 | The generation number of a commit in a written commit-graph is its depth | partial (2 theorems) | The property is false of the code (C62_merge): a merge whose id is greater than those of its parents pushes both, and the second is expanded while its own parent is only on the stack. Proved: between one and the depth in every history, and exactly the depth in histories without merges. |
| C63 | Reading a multi-pack-index never goes outside the file, and its packs are files of the directory | proved (5 theorems) | Any id size. C63_find needs sorted ids and a fan-out table that counts them, which the reader does not check (C63_unchecked: nor the checksum). Not modelled: unaligned reads, failed allocations, files of 2^31 objects or more (the position is an int). |
| C64 | A written multi-pack-index finds every object of its packs | proved (4 theorems) | Packs in the directory itself whose names have no dot before .pack, distinct, fewer than 2^29 objects in total, at least one object; C64_dots and C64_refused show that without these conditions the file that is written can be refused by the reader. What git_pack_foreach_entry_offset gives is the input (C45); the lock file is not modelled. |
| C65 | Notes are a map from objects to texts | proved (4 theorems) | Trees and their builder are those of C16/C58 (no directory reaches 2^30 entries, no two different objects get the same id). Commits are given by their tree; signatures, messages and I/O errors are not modelled. C65_broken_reference_is_replaced: a reference to something unreadable is overwritten with a history that has only the new note. |
| C66 | Going through the notes gives each once | proved (2 theorems) | For trees that have nothing but notes; an example shows that another file is given as a note with the id of the note before it. The iterator is that of C55. |
| C67 | The object database is a map from ids to objects that only grows | proved (8 theorems) | For backends that are Honest (C69: those of a repository are): a backend with a broken copy that answers another error hides good copies elsewhere. Ids are unique (no hash collisions) by hypothesis. |
| C68 | Abbreviated ids over several backends | proved (3 theorems) | As for C67. When a match is visible, what a refresh would add is not looked at; so the code does, and the statement says so. |
| C69 | The loose and the pack backend do what backends should | proved (3 theorems) | Directories in order: files are what their names say, no pack's name begins with another's (packfile_byname_search_cmp compares only a prefix). Concrete instance in Odb/Examples. |
| C70 | A pack that is built holds what was inserted | proved (4 theorems) | One prepare and one write per builder; out of memory and the progress callback are not modelled. zlib is a function whose inverse exists, objects have 20-byte ids and one of four types. Instance with a chain of two deltas in PackObjects/Examples. |
| C71 | Building a pack always ends | proved (2 theorems) | With the database unchanged while the pack is built. Each round of find_deltas is one step (rounds of different threads write to different objects). |
| C72 | Merging three texts | proved (3 theorems) | For any search for differences that returns edit scripts, and for the modelled xdiff (C54). Flags that ignore white space, the patience algorithm and running out of memory are not modelled; how near to each other conflicts are joined (three lines) is modelled but not part of the claim. |
| C73 | Merges that must be clean are clean | proved (5 theorems) | Changes are those the library's own search finds. |
| C74 | A pack received in pieces is the same pack | proved (4 theorems) | zlib is any function that meets its contract (structure Zlib), the hash any function. The pack is smaller than a memory window; no errors of I/O or memory. C74_pending shows that acceptance in pieces does not give acceptance in one piece, C74_size that a piece of 2^31 bytes is not handled (findings). |
| C75 | A received pack that is accepted is a well-formed pack, and its index lists exactly its objects | proved (4 theorems) | For packs to which nothing is added (thin packs are an example only), whose header counts fewer than 2^26 objects. C75_wrong_size and C75_hang are findings: an object that is not as long as its header says is indexed but cannot be read; resolve_deltas can loop for ever. That commit ends is otherwise not part of the claim. |
| C76 | With verification an accepted pack is connected | proved (2 theorems) | What an object names is a parameter (any function of its type and contents that may fail). C76_bypass (finding): an object with a wrong length gets past the verification. |
| C77 | A change of a file is noticed whenever it was made | proved (7 theorems) | One path with a regular file; the clock of the file system does not go back, times are before 2038 and are not set by hand; settings and build (nanoseconds or seconds, ctime trusted or not) are arbitrary. Calm (in Calm.lean) says which changes are excluded; C77_added_then_changed, C77_emptied, C77_window and C77_four_gib show that each exclusion is needed (findings). C77_noticed holds with any filter, C77_no_false_alarm without filters. |
| C78 | Bytes of a pack that are in use stay where they are and stay right | proved (5 theorems) | Windows are numbered instead of addressed; the settings do not change; files only get longer. Careful (in Spec.lean) says how cursors are used; C78_dangling and C78_two_files show that both conditions are needed (findings, not reachable through the callers in the library). |
| C79 | The limit of mapped memory is kept | proved (4 theorems) | For histories in which memory could be mapped; C79_leak shows what happens otherwise, C79_not_least_recent that it is not the least recently used window that goes (findings). The sum of the windows is below 2^64. |
| C80 | The limit of open packs is kept, and those used longest ago go first | proved (2 theorems) | Times are the counter of the library (it wraps after 2^64 calls). The closing of descriptors after the lock has been released is not modelled. |
| C81 | A mailmap shows every author as the last matching rule says | proved (4 theorems) | shown and rule in Spec.lean say which rule holds. Reading files, blobs and the configuration is a parameter (Repo). |
| C82 | A mailmap file is read by its lines | proved (4 theorems) | Says in Spec.lean is the format of a line. That one line with an empty email loses the whole file is a finding. |
| C83 | What is recorded in FETCH_HEAD is read back | proved (6 theorems) | The removal of credentials from urls is not modelled. C83_head_merges, C83_url_injects, C83_merge_inherited and C83_nul_hides show that the exceptions are real (findings). |
| C84 | A FETCH_HEAD means what its lines say | proved (3 theorems) | Line and File in Spec.lean are the format. A file with NUL bytes is read up to the first (C83_nul_hides). |
| C85 | A graft file means what its lines say | proved (3 theorems) | Line and File in Spec.lean are the format. Blank lines and comments are invalid (C85_comment). |
| C86 | Which version of a graft file is in force | proved (5 theorems) | The three cases are exhaustive (C86_cases); in the third the code is wrong (C86_stale). SHA-256 is assumed to tell the contents found apart (Tells). |
| C87 | Shallow roots are stored, told to the next fetch, and cut history off | proved (7 theorems) | For files up to date in the sense of C86; C87_stored_again and C87_not_placed are the findings outside. |
| C88 | The extensions of an index are read as they were written | proved (5 theorems) | C88_index composes with C23. SHA-1 ids; extensions below 4 GiB (C23). C88_reuc also proves the failure for a last entry without stages. |
| C89 | The extensions of an untrusted index are read safely and exactly | proved (6 theorems) | ReucText, NamesText and TreeText in Spec.lean are the formats, on top of the numbers of C46. |
| C90 | Similarity signatures are safe and their scores are percentages | proved (8 theorems) | All options. git__qsort_r is taken to sort, read failures are not modelled. A byte must follow the text in memory: without it the code reads past the end (read_past_end, a finding). A text of empty lines only has no piece and is 0 similar to itself (compare_self_zero, empty_lines_differ). |
| C91 | The similarity score of two texts is the share of lines they have in common | proved (11 theorems) | For the options without GIT_HASHSIG_SMART_WHITESPACE. Pieces, pieceHash and dice in Spec.lean are the specification. Pieces are told apart by their 32 bit hash. Beyond 127 pieces the score is neither symmetric nor independent of the order (full_heap_loses, long_not_symmetric: findings). |
| C92 | A transaction holds its references, and lets go of them unchanged when it is given up | proved (5 theorems) | Fair in Spec.lean: others respect lock files (C18 for the library itself). A reference has one value; how it is stored is C18 and C19. The removal of a lock file is taken to succeed. |
| C93 | Committing a transaction gives every locked reference the value asked for, once | proved (6 theorems) | One commit. wanted in Spec.lean is what the calls ask for; a removal is never taken back (C93_removal_sticks, a finding). The values are those at the release of each lock (ghost field out). Lines appended to reflogs come from the environment. C93_other_reflog and C93_commit_twice are findings. |
| C94 | A host name is accepted for a certificate only if a name in it stands for it | proved (7 theorems) | Stands in Spec.lean. The other direction is proved for patterns without a star and for star, dot, domain; it does not hold of others (no backtracking, upper case after a star, examples), where names that could be accepted are refused. C94_last_star and C94_empty_label are findings. |
| C95 | A url is exempt from the proxy if, and only if, an entry of no_proxy covers its host and port | proved (2 theorems) | Pattern and Piece in Spec.lean, both directions. The url has a host and a port. Blanks are kept and case counts, as in the code (examples). |
| C96 | A redirect is followed to the same host, never away from https, and the path of the service is taken off | proved (8 theorems) | For every parser of urls; Strip in Spec.lean. C96_defined has the hypothesis Complete, which the code does not establish: C96_no_query, C96_no_query_path and C96_no_scheme are findings. |
| C97 | A url is read as the parts it is written of, and a text without a colon as a path | proved (12 theorems) | Plain in Spec.lean says which parts; text and url what is written and what is read. Hosts that are addresses in brackets are in C97_address. Escapes are in C97_escapes. C97_cut, C97_authority and C97_rest are for every text that is accepted (Cut, CutRest, UserPart, HostPart, PortPart in Spec.lean). C97_other_host is a finding. C97_relative_redirect and C97_service_redirect are findings: C96 with the parser of the library. |
| C98 | A url that is written is read as the same url | proved (5 theorems) | Parts.written says what is written. For parts that would need escapes or brackets it is false of the code: C98_address and C98_escapes are findings. |
| C99 | After a redirect of a service is followed, the next request goes where the server said | proved (2 theorems) | For locations whose path before that of the service does not end in a slash (one at its end is lost, as in C99_request). The fragment is lost, and whether a port was given is that of the url written to. |

Performance, memory exhaustion, zlib streams and SHA arithmetic cannot be settled by this model; they are parameters.

## Findings

Behaviour of the code at this commit that differs from what a user would expect, found while modelling. "(proved)" means a theorem
of the manifest states it of the model; the others are readings of the code that are not part of a theorem.

* **delta**: a size header of six or more bytes shifts by more than the width (proved); sizes are taken mod 2^32; `bufsize * 3` wraps for targets above ~715 MB; culling of hash chains of 64..127 entries skips nothing.
* **oid**: `git_oid_strcmp` ignores text after 40 digits; `git_oid_fmt_substr` with an odd start writes two characters; the shortener is corrupted by a non-hex digit and answers 41 for a repeated id (proved).
* **strntol**: "0xg" with base 0 is refused.
* **tree**: names of 65536 bytes or more are truncated (the length check only sets a message); the comparison of names containing '/' is not transitive; a sign is accepted in the mode text.
* **hash map**: the `_iterate` function of the set flavour never advances (proved).
* **tsort**: the run stack has 128 places but only the top three runs are kept balanced.
* **index**: a directory/file clash of a new entry is missed unless it is at the front (proved); `git_index_conflict_add` is not atomic and keeps old stages for absent sides (proved). v4: extended flags lost unless the caller set the EXTENDED bit (proved); paths of 4096 bytes or more can be written but not read; the order of entries in a file is trusted.
* **futils**: `git_futils_readbuffer_fd_full` overwrites each block; `git_futils_readbuffer` takes the size before opening: torn reads of references (proved).
* **refdb**: two packers can lose updates as packed-refs is read before its lock is taken (proved); a read error makes `packed_remove_loose` use the previous reference's content (proved); after a corrupt packed-refs the second call sees an empty cache; a repeated record keeps a stale peeled id; unsorted files have CR trimmed from names, sorted ones not; deleting removes the log before the old value is checked; deleting a missing reference without expected value succeeds; writing the zero id to an absent reference is a successful no-op; names with newlines would corrupt packed-refs; `packed_remove_loose` tests for GIT_EEXISTS where GIT_ELOCKED is returned.
* **reflog**: newline and tab in messages and torn appends lose entries (proved); malformed lines are dropped on rewriting.
* **filebuf**: a lock is leaked when the copy for APPEND fails (proved); a failing directory sync after the rename removes another process's lock (proved); `git_filebuf_reserve` fails beyond the buffer size.
* **reference names**: leading caret and DEL are accepted (proved); documentation of leading slashes and of `*` differs from the code.
* **wildmatch**: with CASEFOLD, `\A` and `[A]` match nothing (proved).
* **refspec**: transforming with a negative pattern dereferences NULL (proved); an unchecked push source is used as a glob (proved).
* **vector**: set/reverse/insert_null keep the SORTED flag (proved); `git_vector_set(SIZE_MAX)` wraps (proved).
* **base64/85**: decoded padding is kept as zero bytes (proved); text after the requested length is ignored.
* **utf8**: over-long forms, surrogates and code points above U+10FFFF count as valid in `git_utf8_valid_buf_length` (proved); iterating an empty text reads a byte (proved).
* **pack**: ten-byte size headers wrap (proved); a REF_DELTA naming itself never ends (proved); `git_delta_read_header_fromstream` adds -1 to its length on a corrupt stream (proved).
* **loose**: heap overflow in `read_loose_standard` when the announced size is smaller than the bytes present (proved); short streams are padded with zeros (proved); lenient header (proved); wrong length for the pack-like format (proved).
* **pkt**: reads beyond the packet for capabilities and for "shallow"/"unshallow" (proved); shallow ids unchecked (proved); `git_pkt_buffer_wants` reads `refs[refs_len]` when all references are local (proved).
* **crlf**: `git_str_crlf_to_lf` is not idempotent on CR CR LF (proved); safecrlf skipped when the index blob has CR (proved); an error of `convert_attrs` is ignored and text is checked out as CRLF (proved).
* **path** (proved): the HFS check compares low bytes only; `.git :x` passes the NTFS check; the index accepts empty components; `git_index_add` skips the symlink check.
* **checkout** (proved, C43_lost_*): untracked files in a directory replaced by a link are removed; a sibling `a.c` makes the deletion of `a` remove the user's directory `a/`; a file replaced by a directory in the target removes the user's directory; deletion below a user's file unlinks it; an unreadable file counts as unmodified.
* **pack index** (proved): abbreviations must be zero-padded; a wrong fan-out table is accepted.
* **signature** (proved): newlines in names accepted; time written as 32 bits; offsets of 15 h or more read back as 0.
* **commit** (proved): `git_commit__create_internal` returns 0 when the object cannot be written; `git_commit_extract_signature` drops a field-name prefix, searches into the message, and loops on an empty field.
* **tag** (proved): `git_tag_annotation_create` does not check the name; (unproved) `git_tag_create_from_buffer` frees an uninitialised pointer.
* **config** (proved): values ending in CR/VT/FF and subsections with tabs do not survive; `[a] b = c` is duplicated on every rewrite; a file ending in a continued value swallows the appended line; `set_multivar` does not escape; valueless multivars dereference NULL; suffix multiplication overflows; the write order is ignored; GIT_CONFIG_HIGHEST_LEVEL opens read-only.
* **graph/revwalk** (proved): ahead/behind over-counts commits of the same second; hidden commits are emitted when given in the wrong order; `in_degree` wraps at 2^16.
* **patch** (proved, C47_*): context 0, NUL bytes, printing a patch twice, printing after parsing, empty binary patches.
* **merge** (proved): clashes missed when a sibling sorts between or the next record is a deletion; conflicts on mode 0100664 fail the merge.
* **ignore** (proved): VT/FF at the start of a line loops forever; a backslash at the end of a line swallows the next; negative rules below a parent's positive rule dropped; `*/` ignores all top-level files; `git_ignore_add_rule("*")` without newline drops the next rule.
* **attributes** (proved, C53_*): a last line `*` without newline sets an attribute named `*`; after an empty pattern (`!`, `/`, `[attr]` alone) the rest of the line is read as a line of its own; answers depend on whether earlier queries included HEAD; info/attributes cannot use macros of the topmost .gitattributes. (Observed, not modelled: attributes of a path through a symbolic link are read from the link's target.)
* **diff** (observed): `git_xdiff` ignores the result of `xdl_diff`: out of memory is reported as a diff without hunks. `GIT_DIFF_MINIMAL` still discards lines with many matches, so the result need not be minimal.
* **tree iterator and diff** (proved by example in TreeDiff/Props): a path list with `foo` and `foo.c` loses the directory `foo` once `foo.h` has gone by; GIT_DIFF_INCLUDE_TYPECHANGE_TREES misses a file that becomes a directory if a name such as `foo-a` sorts between, and with GIT_DIFF_REVERSE sets the mode of the side that is there to that of a tree; the pathspecs `.`, `/a`, `a ` (blank) restrict the walk to paths that begin with these very bytes although the parsed pattern would match more; `foo\*a` and `foo\?b` together restrict it to `foo\`; `foo\\*` to `foo\*`; with GIT_DIFF_REVERSE the two deltas of a type change come in the order added, deleted. (Observed: `diff_delta__last_for_item` compares ids only, so that with a pathspec the delta of another path can be marked as a type change.)
* **index and tree** (proved by example): with a file `a` and a file `a/b` in the index `git_index_write_tree` silently leaves `a` out of the tree. (Observed:) `git_index_write_tree_to` another repository returns the cached id without writing anything, although that repository need not have the tree; a tree with mode 0100664 can be read into the index but not written again once something in the directory changed; with an ignore-case index `git_index_add("foo/x")` over `Foo/x` invalidates the node `foo`, not `Foo`; when `index_conflict_to_reuc` fails in `git_index_add_bypath` the node is not invalidated although the entry is there; the test `*end + 1 == '\\0'` in `git_tree_cache_get` is never true (harmless).
* **commit-graph** (proved): `compute_generation_numbers` expands a commit a second time only if its state is EXPANDED; a parent that is on the stack but not expanded yet is not pushed again, so that when a merge has the greatest id and one of its parents is an ancestor of the other, the descendant gets generation 1 (C62_merge): git trusts these numbers to cut walks short. A writer without commits writes a file the reader refuses (C61_empty). (Observed:) the reader does not check the fan-out table against the ids; an edge list without a terminator makes `git_commit_graph_entry_parent` read the word after the chunk (inside the file); times outside of 34 bits are cut off; a commit with the null id makes the file unreadable.
* **multi-pack-index** (proved): the writer sorts packs by their `.pack` paths, the reader wants the `.idx` names in order, so that with `a.pack` and `a.m.pack` it refuses what was written (C64_dots); so it does when a pack was added twice, lies in a subdirectory, or no pack has objects (C64_refused). The reader verifies neither the checksum (C63_unchecked), nor the order of the ids, nor that the fan-out table counts them. (Observed:) the vector of names is sized by the file's 32-bit number of packs before any name is checked; the position of a large offset times eight is computed in 32 bits, and wraps from 2^29 large offsets on.
* **notes** (proved): when the notes reference exists but does not lead to a readable commit, `git_note_create` starts a new history with only the new note and overwrites the reference (C65_broken_reference_is_replaced). By example: a file that is not a note makes `git_note_next` succeed and leaves the id of the object as it was (that of the note before, or uninitialised memory); a missing fan-out directory makes a note count as absent, and the new one is written beside the directory, where `git_note_read` does not find it; notes with capital digits are listed but cannot be read. (Observed:) `git_note_create` and `git_note_remove` update the reference by force, without comparing it to what they read, so that concurrent changes are lost; directories that lose their last note stay as empty trees; the text of a note with a NUL is cut off.
* **object database** (proved by example in Odb/Examples): `git_odb_exists` says no for the hard-coded empty tree until it has been read, yes afterwards; an abbreviation that is unambiguous among what is seen is answered although a pack not yet loaded makes it ambiguous. (Observed, outside the hypotheses:) an error other than not-found in one backend (a corrupt copy, GIT_EMISMATCH) hides good copies in the others; a backend whose `write` answers GIT_PASSTHROUGH makes `git_odb_write` succeed without storing anything, and one whose `writestream` does leaves `git_odb_open_wstream` returning 0 without a stream; a backend that fails to refresh leaves those after it unrefreshed and the object is reported missing; `packfile_byname_search_cmp` compares with strncmp, so a pack whose name is the beginning of a loaded pack's is never loaded, and a multi-pack-index may be paired with the wrong pack; `pack_folder` stays NULL for ever if objects/pack did not exist when the repository was opened; `backend_sort_cmp` is not an order for two alternates of the same priority.
* **pack builder** (proved, C70_once): a builder writes once; a second `git_packbuilder_write` or `foreach` gives a header that counts all objects but contains none, as the flags `written` are never reset. (Observed:) so is the hash context, which is not initialised again; `git_packbuilder_insert` after preparation may move `object_list` and leaves every `delta` pointer dangling; `big_file_threshold` is read from the key `pack.deltaCacheSize`; when a delta thread fails for any reason but the progress callback the failure is swallowed (the pack is right, its objects are just not deltified); `write_object` uses `z_delta_size` even when the delta was dropped as recursive (which by C71 never happens).
* **merging texts** (proved, C72_merge): the size of the result is an `int`: three texts under the limit of 1023 MiB each can give a result of 2 GiB or more, which is undefined behaviour. Line ends: markers have CR LF only if the *ancestor's* first line has, so a new file added on both sides with CR LF gets LF markers. (Observed:) with the same new name on both sides of a rename `git_merge_file` gives no path; in the diff3 styles equal changes that the two scripts align differently stay conflicts; zdiff3 trimming can leave a conflict with both sides empty; `merge_file__binary` does not look at a failed allocation.
* **receiving a pack** (proved, C74_pending): whether a pack is accepted can depend on how it was cut into pieces: when the last bytes come in a piece of their own the objects before were looked at with what was there. (Proved, C74_size:) a piece of 2^31 bytes or more has its size converted to `int`. (Proved, C75_hang:) with an object database, a REF_DELTA whose base is in the pack and whose result is an object already in the pack makes `resolve_deltas` loop for ever: `resolve_delta` fails in `hash_and_save` (duplicate), `fix_thin_pack` returns 0 because the base is there, and nothing has changed; the unpacked object leaks each turn. A remote can send such a pack. (Proved, C75_wrong_size, C76_bypass:) the length in the header of a whole object is never compared with what zlib gives: the object is hashed and indexed, but cannot be read from the pack, and `check_object_connectivity` does not see what it names. (Observed:) object types 0 and 5 are accepted; ids of submodules in trees are expected to be in the pack as well; `git_packfile_stream_read` at a window boundary of a pack larger than a window can report a short buffer as an error; the rewritten header of a thin pack can change an object whose delta base is taken from inside the 12-byte header; the index is renamed into place before the pack.
* **changes that are not noticed** (proved, C77_added_then_changed): `index_insert` marks entries `GIT_INDEX_ENTRY_UPTODATE`, and `truncate_racily_clean` leaves those alone: a file that is added and then written again within one tick of the clock with the same size is reported unmodified once the index has been written in a later tick. (Proved, C77_emptied:) the mark for an entry that cannot be trusted is size 0; an emptied file has that size. git checks for this (a size of 0 is only trusted for the id of the empty blob), libgit2 does not: a change that was noticed before is not noticed after `git_index_write`. (Proved, C77_four_gib, C77_large_error:) sizes are cut to 32 bits, and `git_diff__oid_for_entry` hashes with that size: if the index has the empty file, a file of exactly 4 GiB is not modified; other files of 4 GiB and more make the comparison fail (`size` underflows in `git_odb__hashfd`) as soon as their times have changed, or are compared by a prefix. (Proved, C77_window:) the file can change between the check and the write. (Observed:) `git_index_write` ignores errors of `truncate_racily_clean`, so one file that cannot be read leaves all others untrustworthy entries unmarked; with `index->stamp` unset (no index read or written yet) nothing is considered racy; checkout takes the file data after it has written and closed a file, so a change in between is recorded as checked out.
* **memory windows** (proved, C79_not_least_recent): `git_mwindow_scan_recently_used` multiplies a `size_t` by -1 and compares the (huge) product, so that of the unused windows the last of the list is closed, which may be the one used most recently. (proved, C79_leak) When memory cannot be mapped its size stays in `mapped` for ever, so that later calls close more than they need to. (proved, C78_dangling) When mapping fails while the cursor is at another window, that window is counted down but the cursor is left there: it may be freed, and `git_mwindow_close` writes to it (all callers in the library close the cursor first). (observed) `git_packfile_unpack_header` calls `git_mwindow_open` without looking at the size of the file (`pack_window_open` does): an offset from a damaged index that is beyond the end of the pack but in its last half window gives a pointer out of bounds and a huge `left`. A window size (GIT_OPT_SET_MWINDOW_SIZE) of 0 or 1 divides by zero. `git_mwindow_get_pack` returns an unexpected error with the mutex locked.
* **mailmaps** (proved, C82_refused): a line `Name <>` makes `git_mailmap_from_buffer` fail for the whole file, although lines that are no valid entries are meant to be skipped: `git_str_attach_notowned` gives an empty text a pointer to an empty string, which the assertion in `mailmap_add_entry_unterminated` refuses (and the entry allocated before it leaks). From a repository the error is ignored, and the rest of the file with it. (proved, C81_add_code) `git_mailmap_add_entry` with a NULL email crashes in `strlen`, before the assertion that is meant to refuse it. (examples) Unlike git, a second rule for the same author replaces the first as a whole (git keeps a name the second does not give), a `#` anywhere in a line begins a comment, and names and emails are compared case-sensitively.
* **FETCH_HEAD** (proved, C83_head_merges): the line of a fetched `HEAD` has no merge flag (`"%s\t\t%s"`), so a `HEAD` that is not to be merged is read back as one to be merged. (proved, C83_url_injects) A remote url with a line feed adds lines of its choice. (proved, C83_merge_inherited) For a line that ends after its first tab `*is_merge` is not assigned: the callback gets the flag of the line before. (proved, C83_nul_hides) A NUL byte ends the file without an error, although `git_futils_readbuffer` has read more. (observed) `git_fetchhead_write` ignores the errors of `fetchhead_ref_write`; `git_fetchhead_ref_create` allows a NULL name and url, which `fetchhead_ref_write` dereferences.
* **grafts and shallow roots** (proved, C86_stale, C87_stored_again): when the file is missing `git_grafts_refresh` clears the grafts but keeps the checksum; if it comes back with the same contents it is taken for unchanged and no grafts are in force, so that history is walked past the shallow roots. (proved, C86_invalid_then_accepted) The checksum is stored before parsing: an invalid file is an error once, later looks succeed with the lines before the invalid one. (proved, C85_comment) Blank lines and comments (and CR LF), which git accepts in `info/grafts`, make the file invalid and the repository cannot be opened. (proved, C87_not_placed) `git_repository__shallow_roots_write` ignores the code of `git_filebuf_commit` (and of the writes): it succeeds although nothing was stored.
* **index extensions** (proved, C88_reuc): `read_reuc` wants something to follow the third mode of an entry (`size <= len`); if the last resolved conflict has no stage, which `git_index_reuc_add` allows (all modes 0), `git_index_write` succeeds and the index cannot be opened any more. (examples) An entry count below -1 in a TREE extension is read without an id but written with one, so that an index that was read is unreadable once written again; an empty conflict name is read as NULL; signs and blanks are accepted before modes. (observed) The lists are marked as sorted when read, without a check: lookups by path may miss entries. `read_tree_internal` recurses once for every five bytes of input: an index of some megabytes overflows the stack; and the number of children is allocated (up to 16 GiB) before any is read.
* **similarity signatures** (proved, read_past_end): with blanks ignored, `hashsig_add_hashes` reads `*scan` one byte past the end of a text that ends in blanks (harmless for buffers that end in NUL; in `git_hashsig_create_fromfile` one byte past `buf` when 4096 bytes were read). (proved, full_heap_loses, long_not_symmetric) `hashsig_heap_insert` into a full heap takes the top out but does not put the new value in, so that with more than 127 pieces every other value is lost, and `git_hashsig_compare` then uses one heap or both, depending on the first signature: the score of two files depends on which is first (93 and 92 in the example). (proved, compare_self_zero) A file of empty lines only is 0 similar to itself. (proved, split_differs) The state of a line is not carried from one 4096 byte read to the next, so a file and a buffer of the same contents have different signatures.
* **transactions on references** (proved, C93_removal_sticks): `git_transaction_remove` sets `remove`, which nothing resets: a value set later is accepted and the reference is deleted all the same. (proved, C93_other_reflog) `git_transaction_set_reflog(tx, name, reflog)` keeps the name inside the reflog, so the log that is replaced at the commit is that of `reflog->ref_name`, which need not be locked. (proved, C93_commit_twice) A second `git_transaction_commit`, for instance after one that failed, uses lock payloads that were freed. (proved, C93_not_atomic) A commit stops at the first failure and what was written before stays (documented). A removal in a transaction leaves the reflog of the reference behind, unlike `git_reference_delete` (not modelled). A signature and message given to `set_target` stay for a later call that gives none.
* **redirects** (proved, C96_no_query, C96_no_query_path): the first look of `remove_service_suffix` compares `url->query` with `git__strcmp`, which is `strcmp`, although the query is NULL when the url has none (`git_str_detach` of an empty string). The urls of remotes have no query, so that a server that answers `/old/info/refs?service=git-upload-pack` with `Location: /new/info/refs` or `https://host/new/info/refs` (the case the function was changed for) makes the client read NULL; the tests give the old url a query. (proved, C96_no_scheme) A location that is a relative path without a leading slash (`Location: foo`) is parsed to a url without a scheme, and `strcmp(original->scheme, tmp.scheme)` reads NULL; a location such as `https:foo` has no host and does the same in `git__strcasecmp`. The port of the new url is not compared.
* **names in certificates** (proved, C94_last_star): a star at the end of a pattern covers dots, so that `foo.*` is for every name under any domain that begins with `foo.`, and `*` for all. (proved, C94_empty_label) A star stands for nothing, too. (examples) After a star the next character is compared without lowering its case, so that `*A.c` is for no name; the loop does not go back, so that `*ob.c` is not for `foob.c`.
* **no_proxy** (examples): blanks after commas are part of the pattern, which then is for no host, and case counts.
* **redirects, with the parser** (proved, C97_relative_redirect): every `Location` without a colon that does not begin with a slash makes `git_net_url_apply_redirect` read NULL, whatever the rest. (proved, C97_service_redirect) So does every redirect from a url to one of the same scheme and host that ends in `/info/refs` without a query, when the suffix is that of the smart protocol. (example) A host with `%00` in it is cut there after decoding.
* **writing urls** (proved, C98_address): `git_net_url_fmt` writes an IPv6 address without its brackets, so that what it writes for `http://[::1]:8080/x` is no url any more; it is used for FETCH_HEAD, for the lookup of `http.<url>.proxy`, in requests to proxies and for the authentication callbacks. (proved, C98_escapes) It writes user and password as they were decoded: with an escaped `@` the text cannot be read, and with an escaped `/` its host is another one.
* **reading urls** (proved, C97_other_host): only a slash ends the authority in `git_net_url_parse`, not `?` or `#` as RFC 3986 has it: `http://a.org#@b.org/x` and `http://a.org?@b.org/x` are urls of `b.org` for libgit2 and of `a.org` for others, and in `http://a.org?q` the host is `a.org?q`. User and password are split at the last colon, not the first.
