# Formal model of Edrusb/DAR (libdar) in Lean 4

Source: `/repo` (pinned commit, read as text only). Model and proofs: `lean/Verif/`.

## Organisation

* `Verif/Model/*.lean` — executable model, function by function; each definition cites the `/repo` file and lines it models
  and says where it simplifies.
* `Verif/Spec/*.lean` — small independent specifications (plain lists, `Nat`, sets, maps) used by the statements.
* `Verif/Lemmas/*.lean` — helper lemmas and invariants.
* `Verif/Props/*.lean` — the property theorems (`Cxx_…`, listed in MANIFEST.json). Beside each group a concrete case
  (`…_example`, `example`) shows that the hypotheses are met by a non-trivial input. `…_counterexample` theorems are
  machine-checked witnesses that the English property is false of the code in the stated situation: they explain
  why a hypothesis is there. `_partial` marks a theorem that proves only a part of the property.
* `seeded/LOG.jsonl` — wrong programs tried against the theorems (one line per mutation of a model definition, with the
  theorems that failed).

Conventions: a byte is `UInt8`; a file is `List UInt8` (plus a position for seekable files); C++ exceptions are values
of `Err` (one constructor per exception class of `erreurs.hpp`); a C++ function that may throw returns `Except Err α` or is a
`Reader`; "SRC_BUG" (internal assertion) is the distinct error `Err.bug`; undefined behaviour (out-of-bounds access, bad shift,
uninitialised or end iterator) is the distinct error `Err.ub`; a loop of the code that does not end is `Err.diverge` (the models use
fuel, and the theorems show that the fuel given is enough). Machine integers are modelled with an explicit width (`% 2^w`) where
wrap-around matters (limitint, unstack, block sizes read as U_32, skip_relative amounts); elsewhere they are `Nat`.
Concurrency is modelled by small-step transition systems: one action is one operation visible to the other threads or processes,
a schedule is a list of actions, theorems quantify over all schedules.

## Trusted base

* Lean 4.33.0 kernel. Axioms: at most `propext`, `Classical.choice`, `Quot.sound` (no other axiom is declared or used; `vcheck` prints
  them). No compiled evaluation is used: concrete cases are closed by `decide`, `decide +kernel`, `rfl` or `simp`, checked by the kernel.
* The reading of the C++ sources into the model (the line numbers in the comments allow to check it).
* Behaviour assumed of what is outside the repository, always as an explicit parameter or definition: the operating system calls
  (`Model/Restore.lean` has a small file-system model; `Model/HashFile.lean` lets write(2) do anything a short-writing call
  may do), the compression and ciphering libraries (parameters with the law "the inverse inverts"), the hash function of libgcrypt
  (parameter `H`), fnmatch/regexec (arbitrary predicates), libthreadar (its mutex and its `ratelier_scatter`/`ratelier_gather`, from
  their documented behaviour, in `Model/Parallel.lean` and `Model/Cancel.lean`).
* Not modelled: memory allocation failure except in `Model/Storage.lean`, dialogue with the user (answers are inputs where
  they matter), message texts and translations, network repositories (libcurl, libssh), the man-machine tools of `src/dar_suite` except
  what is named below, the Python binding, repair mode ("lax") of the readers, and archive formats older than those named.

## Code modelled, by file

| model | code of /repo/src/libdar |
|---|---|
| Infinint, Limitint, Deci | real_infinint.cpp/.hpp, limitint.hpp, int_tools, deci.cpp |
| Crc | crc.cpp (both implementations, machine word steps) |
| Escape | escape.cpp (write, read, marks, skip_to_next_mark, clean_data) |
| Sparse | sparse_file.cpp: write, sync_write, read, hole detection, copy_to (not skip, skippable) |
| Sar, Terminateur | sar.cpp, slice_layout.cpp, terminateur.cpp |
| SeqRead | escape_catalogue.cpp (read, skip_read_to_parent_dir, constructor for reading; pre_add and pre_add_failed_mark in the specification); catalogue.cpp (read, skip_read_to_parent_dir, add, re_add_in, drop_all_non_detruits, copy_detruits_from); cat_directory.cpp (add_children, only_detruit reading, remove_all_mirages_and_reduce_dirs, remove_all_ea_and_fsa). Parameters: reading of the catalogue (C32), is_subset_of, signatures, content of the buffer of the escape layer. Not modelled: early memory release |
| FileIo | fichier_local.cpp (read, write, skip, skip_relative, skip_to_eof, truncate, get_eof_offset), fichier_global.cpp (inherited_read, inherited_write), tuyau.cpp (read, write, skip, has_next_to_read, read_and_drop, read_to_eof) | opening, fadvise, fsync; pipes: named pipes opened late, positions beyond 2^64 |
| DarCp | dar_suite/dar_cp.cpp (copy_max, normal_copy, xfer_before_error, skip_to_next_readable) | messages, opening of the files, lseek failures; answers of the system depend on the position and the size asked only |
| ConfigFile | dar_suite/no_comment.cpp, config_file.cpp, hide_file.cpp (skip, inherited_read, get_position), line_tools.hpp (line_tools_split_in_words), command_line.cpp (make_args_from_file, option -B in get_args_recursive) | the locale (bytes above 127 are not letters); skip_relative and skip_to_eof; the variables of the environment; the options after they have been cut in words (getopt) |
| Selection | dar_suite/command_line.cpp (make_ordered_mask, make_unordered_mask, make_include_exclude_name, make_include_path, make_exclude_path_ordered, make_exclude_path_unordered, 670-697), filtre.cpp (the condition on the masks) | fnmatch and regular expressions are arbitrary functions (what is used of fnmatch is stated, GlobLiteral, and a function having it is given); case insensitive masks; tools_build_regex_for_exclude_mask |
| ReadSource | filesystem_backup.cpp (reset_read, read, skip_read_to_parent_dir), filesystem_hard_link_read.cpp (make_read_entree), etage.cpp (constructor, cache_directory_tagging_check), filtre.cpp (the loop that reads) | the answers of lstat, opendir/readdir, the nodump flag and the first bytes of the files at each moment are arbitrary functions; an error of readdir is taken for the end of the directory; extended attributes and FSA are part of the object found; ignored symlinks and the put back dates of directories are left out |
| Hook | semaphore.cpp (raise, lower), filtre.cpp (where filtre_sauvegarde and save_inode call it) | what is done of each entry (left out, unchanged, saved, failing before or after the call) is arbitrary; the hook mask is an arbitrary function; a command that fails and is not ignored, and the copying of a semaphore, are left out |
| SaveFile | filtre.cpp (save_inode, for a plain file saved by filtre_sauvegarde: the two loops, resaving without compression, retries, wasted bytes, dirty) | the stack is a file with a position; the marks, the compression, the CRC and the delta signature are arbitrary functions; a failing truncate or skip does not move the position; restoring the access date is left out; an error while reading is not modelled |
| SliceCreate | tools.cpp (tools_avoid_slice_overwriting_regex, tools_unlink_file_mask_regex), entrepot.cpp (open), fichier_local.cpp (open), sar.cpp (open_writeonly), trivial_sar.cpp (constructor for writing) | a directory is a list of names; other programs do not touch it meanwhile; the regular expression is replaced by what it matches (extension taken literally); the internal name is not carried by an older file; reading it in a header is an arbitrary function; remote repositories are not modelled |
| Isolate | i_archive.cpp (constructor with and without external catalogue, op_isolate, check_against_isolation, get_catalogue_slice_layout), catalogue.cpp (transfer_delta_signatures, drop_delta_signatures), cat_delta_signature.cpp (dump_data, fetch_data) | the layers under the catalogue (encryption, compression, escape marks) are what C48 is about: here the catalogue, the last header and the data are bytes at known places; the signature computed for a file is an arbitrary function; the repeated drawing of a label is one label that differs; no sequential reading, no lax mode |
| TestOp | filtre.cpp (filtre_test), i_archive.cpp (op_test), dar.cpp (test), catalogue.cpp (read, skip_read_to_parent_dir, remove_last_read), cat_directory.cpp (read_children, remove, remove_last_read), escape_catalogue.cpp (remove_last_read), defile.cpp, cat_inode.cpp (get_ea, get_fsa), cat_delta_signature.cpp (fetch_data) | what the layers under the catalogue give for each object (bytes or exception, recorded checksum) is part of the entry; masks are functions to Booleans; no message, no thread cancellation, no early release of memory; in sequential reading the list of entries is given, with the place where its reading fails |
| Xform | i_libdar_xform.cpp (xform_to), sar.cpp (constructors, open_file, check_header, inherited_read, destructor), trivial_sar.cpp (init_read, init_write, inherited_read, inherited_terminate), generic_file.cpp (copy_to), on top of Sar and Headers | opening of slices whose layout is unknown, reading to the end, unsliced archives as files and through pipes, writing of the new set; not modelled: lax mode, user commands, hash files, renaming of slices, disk failures during the copy, questions answered by another slice (the user says no) |
| StreamComp | compressor.cpp (read, write, sync_write, flush_read, suspend_compression, truncate, get_position, skip), compressor_zstd.cpp (read, write, compr_flush_write, clean_read, suspend_compression) | the compression libraries are arbitrary functions required to meet Spec/StreamComp.lean (met by a toy library: toyEnc_lawful, toyDec_lawful, toyDec_eager); failures of the file below (flush_write), lack of memory, clean_write and the engines' settings are not modelled |
| Keys | crypto_sym.cpp (constructor, init_hashed_password, pkcs5_pass2key, make_ivec, encrypt/decrypt_data), tools_memxor, the key derivation parameters recorded by macro_tools.cpp | HMAC, ciphers of a block, argon2, weak key test and random bytes are arbitrary functions; CBC is written out; failures of libgcrypt and lack of memory are not modelled |
| Rsync | generic_rsync.cpp (signature, loading, delta, patch), filesystem_tools_make_delta_patch and filesystem_tools_copy_content_from_to | librsync is an arbitrary state machine required to meet Spec/Rsync.lean (met by toy jobs: toyRs_gives, toyLoad_loads, toyPatch_gives); CRCs are an arbitrary function; failures of the files, temporary file names and the sizes of U_I are not modelled |
| ParallelSeek | parallel_tronconneuse.cpp, read mode: inherited_read, skip, skip_relative, skip_to_eof, flush, send_read_order(stop), go_read, read_refill, purge_ratelier_from_next_order, purge_unack_stop_order, find_offset_in_lus_data, read_below::work, removal of trailing clear data in the caller's thread | the workers and rateliers are a queue (proved of them in ParallelRead); the schedule is an arbitrary oracle; die order, exceptions of the threads, read_ahead are left out; loops carry a counter shown to be enough |
| ListFile | mask_list.cpp 59-300 (reading of the listing file, prefix), eols.cpp | the read() calls give any partition of the file; tools_to_upper is a parameter |
| ExitStatus | dar_suite.cpp 107-322 (handlers of exceptions), dar.cpp little_main (what is thrown or returned after each operation), the handlers around the operations of i_archive.cpp | the messages, libdar's initialisation; the exceptions of the preparation are an input |
| RemoteRead | fichier_libcurl.cpp (open for reading) | the caller's thread and the thread of libcurl, one access to what they share at a time; the pipe, end_data_mode, sub_is_dying; every cut of the transfer and every failure; not modelled: writing, metadata requests, retries of apply, cancellation |
| MountPoints | filesystem_ids.cpp; archive_options.hpp (set_same_fs*); command_line.cpp (-M); dar.cpp (424-442); filtre.cpp (680-683) | stat is a function from paths to numbers; the device of each entry is a function of its path |
| SigBlock | delta_sig_block_size.cpp; tools.cpp (2388-2415); command_line.cpp (--delta sig:...); line_tools.cpp (1748-1761) | integers unbounded or limited to a parameter; string_to_rsync_sig_magic is a parameter |
| EaRestore | ea_filesystem.cpp:60-330, filesystem_hard_link_write.cpp:118-212, filesystem_restore.cpp:292-411, 455-596, 752-833, 886-1043 | which attributes the system refuses depends on their name only; the change of owner removes security.capability from what is not a directory; nothing is asked to the user |
| UserArgs | line_tools.cpp:181-249, 523-594, 754-848, 923-931, 980-1153, line_tools.hpp:135-155 | the texts have no zero byte; limits on the size of numbers are not modelled |
| DbHeader | database_header.hpp:45-90, database_header.cpp:68-450 | the compression and encryption layers are parameters (hypothesis: they give back what they were given; C18, C20, C72, C73, C75); the password is not part of the header; the end of the file in the unchecked reads gives `ub` |
| FsaRestore | filesystem_specific_attribute.cpp:347-361, 520-652, 699-1095, filesystem_restore.cpp:335-423, 518-613, 686-862, 1049-1165 | one plain file or directory that is not hard linked; family extX (Linux); what the system accepts is given by kind of flag; the system refuses dates and removal for immutable and append-only inodes |
| ExclRegex | tools.cpp:2417-2459, mask.cpp:101-130 | complete for the building of the text; POSIX extended regular expressions without brackets and braces, with a grammar that is proved unambiguous and a semantics of matches in context; bytes for characters |
| EolArg | line_tools.cpp:933-946, 1838-1998, 2097-2137, line_tools.hpp:135-155 | complete for these functions |
| ComprArg | line_tools.cpp:1763-1836, tools.cpp:480-495, 2362-2374, compression.cpp:134-164, i_archive.cpp:2192-2193 | complete for these functions (U_I of 64 bits, C locale) |
| SignedCheck | catalogue.cpp (is_subset_of, compare, reset_compare); operator == of cat_file, cat_door, cat_lien, cat_device, cat_chardev, cat_blockdev, cat_tube, cat_prise, cat_directory, cat_detruit, cat_nomme; cat_inode.cpp (same_as); cat_signature.cpp (compatible_signature) | the hard linked inodes are given by tables; cat_ignored_dir |
| SliceNames, UserComment | sar_tools.cpp; dar_suite/line_tools.cpp (line_tools_expand_user_comment) |
| Cache, Tronc, MemFile, Storage | cache.cpp, tronc.cpp, memory_file.cpp, storage.cpp |
| Tronconneuse, Elastic, BlockComp | tronconneuse.cpp, elastic.cpp, block_compressor.cpp, compress_block_header.cpp |
| Layers | macro_tools.cpp (macro_tools_create_layers, close_layers, open_archive and the location of the catalogue), tronco_with_elastic.cpp, the position counted by escape.cpp; streamed compression, scrambling and GnuPG excepted |
| Parallel, ParallelRead | parallel_block_compressor.cpp, parallel_tronconneuse.cpp (writing side), heap.hpp |
| ArchiveVersion, Datetime, Tlv, Headers | archive_version.cpp, datetime.cpp, tlv.cpp, tlv_list.cpp, header_flags.cpp, header_version.cpp, header.cpp |
| Path, Mask, Criterium | path.cpp, mask*.cpp/.hpp, criterium.cpp, crit_action.cpp |
| PolicyText | dar_suite/crit_action_cmd_line.cpp, dar_suite/line_tools.cpp (search out of parentheses, dates; localtime and mktime are parameters) |
| Database | candidates.cpp, data_tree.cpp (get_data, get_EA, finalize, check_delta_validity, check_map_order, remove, permutation), data_dir.cpp (find_or_addition, add, finalize_except_self, update), database*.cpp, i_database.cpp (add_archive, remove_archive, set_permutation, check_order, dump, open, both restore methods), restore_tree.cpp, mask_database.cpp |
| Catalogue | cat_*.cpp (dump and read of every entry type), catalogue.cpp |
| Backup, Destroyed | filtre.cpp (filtre_sauvegarde), cat_inode.cpp comparisons, catalogue.cpp (compare, update_destroyed_with, update_absent_with) |
| Restore | filtre.cpp (filtre_restore, make_overwriting_for_only_deleted; the filters see the current directory of the filesystem, not `juillet`), filesystem_restore.cpp, filesystem_hard_link_write.cpp (counters of hard links, EA and FSA excepted) |
| Difference | filtre.cpp (filtre_difference), cat_inode.cpp, cat_file.cpp, cat_lien.cpp, cat_device.cpp (compare and sub_compare), generic_file.cpp (diff, copy_to with a checksum), filesystem_diff.cpp; not the sequential reading mode nor errors while reading contents |
| Merge | filtre.cpp (filtre_merge_step0/step1, do_EFSA_transfert, make_clone, normalize_link_base, merge_applying_patch_possible) |
| Attributes | ea.cpp, filesystem_specific_attribute.cpp |
| StatConc, Props/Statistics | statistics.cpp/.hpp and the counting done by filtre.cpp |
| Cancel | thread_cancellation.cpp |
| Zapette | zapette.cpp, slave_zapette.cpp, zapette_protocol.cpp, tuyau.cpp (read) |
| HashFile | hash_fichier.cpp, fichier_global.cpp |
| ToolsText, Range, Text | tools.cpp (text functions), range.cpp |

## Per property: what is modelled, what is proved, what is missing

(generated from MANIFEST.json, which lists the theorem names)

| id | title | status | theorems | what is proved, what is missing |
|---|---|---|---|---|
| C01 | Integer serialisation round-trips | proved | 5 | both builds, cross-build byte identity, prefix-freeness |
| C02 | Unbounded integers compute exactly | proved | 17 | every infinint operator refined to Nat; loops of euclide and shifts shown to terminate |
| C03 | Bounded integers never wrap silently | partial | 6 | true of + - * / % power, >> by machine integer, << in the 64-bit build; false of shifts by a limitint and of << in the 32-bit build (undefined behaviour), see C03_shift_counterexamples |
| C04 | Conversion to machine integers conserves the value | partial | 4 | proved for infinint and for limitint with targets not wider than the base type; false for a 64-bit target in the 32-bit build, see C04_limitint_counterexample |
| C05 | Decimal text conversion round-trips | proved | 4 | as stated |
| C06 | Damaged integers are refused, not misread | partial | 4 | proved for the unbounded build and for malformed prefixes; the 32/64-bit builds accept truncated digits, see C06_limitint_counterexample |
| C07 | Checksums do not depend on how data is chunked | proved | 3 | as stated |
| C08 | Checksums detect localised corruption | proved | 3 | as stated |
| C09 | Checksums survive storage | proved | 2 | as stated |
| C10 | Marked data stream round-trips (sequential reading) | partial | 6 | proved for every sequence of writes/marks and every read session, when the last data does not end in an incomplete pattern and no flush happens inside data; both exceptions are real, see C10_tail_counterexample and C10_sync_counterexample |
| C11 | Skipping to a mark finds it and does not jump over protected ones | partial | 3 | skip_to_next_mark proved for all streams (same tail condition); next_to_read_is_which_mark can end in an internal error, see C11_next_mark_counterexample |
| C12 | Sparse file storage restores the exact content | partial | 10 | Round-trip, position, copy_to and its checksum for every content, minimum and chunking, when the stored form does not end with an incomplete escape pattern; three counterexamples show the code fails otherwise. sparse_file::skip is not modelled. |
| C13 | Slicing is transparent | partial | 5 | slices = data cut at capacity, independent of write chunking; reads, absolute/relative seeks inside the data and seek to the end equal a plain file. Seeks outside the data are excluded (a failing backward seek really leaves a stale position, C13_skip_back_counterexample); slices with no room for data loop forever (C13_no_room_counterexample) |
| C14 | Slice location computation is exact | proved | 3 | slice number and offset point at the byte of the slice files holding that position; injective; layout record round-trips |
| C15 | Caching is transparent | partial | 12 | Proved: any session of read/write/skip/skip_to_eof through a cache of any size over an ordinary file is transparent. Missing: skip_relative, flush_read and sync_write in the middle of cached data are NOT transparent in this code (C15_*_counterexample theorems); truncate and layers below raising exceptions not modelled. |
| C16 | A segment view never escapes its segment | partial | 8 | Session of read/write/absolute seeks/skip to end: full. Relative seeks: exact when the file below is in place; counterexamples for the exact end and for a window just opened. Truncation and modify() are modelled but not specified. |
| C17 | In-memory files behave like files | partial | 4 | Every session on files under 4 GiB when memory allocations succeed (one block). Dumping to a file proved for any division in blocks (C17_dump_to). C17_dump_counterexample: dump_to fails after truncation to nothing. Fragmented storage makes the code read out of bounds (C50_index_counterexample). load_from not modelled. |
| C18 | Block encryption is transparent with random access | partial | 11 | writes in any chunking give the block-wise encryption; sessions of reads and seeks inside the data equal the clear data, with unencrypted head and trailing data; seeks to/beyond the end proved without trailing data when the block size is a multiple of the cipher's (C18_read_any); the failing cases are proved as counterexamples (seek to end with equal-sized last block or trailing data, sync in the middle, flush_read at the end, far seek) |
| C19 | Padding buffers are skipped exactly | partial | 7 | buffers of any size; file variant up to 2^31 bytes, beyond which the code mis-skips (C19_large_counterexample) |
| C20 | Block compression is transparent | proved | 6 | single-threaded block compressor: any number of items, any chunking, any read sizes; empty items store nothing (C20_empty_counterexample); damaged block headers refused; C20_visits: blocks read after any sequence of skips to recorded positions |
| C21 | Archive format version round-trips and orders correctly | proved | 9 | round trip for all versions; the fix field is lost for versions < 8 (stated in the theorem) |
| C22 | Timestamps form a total order consistent with elapsed time | partial | 16 | order, equality (canonical form), addition, subtraction, conversion, storage in every format version and the rounding of the bounded builds; the 'loose' equality used to detect changes is characterised exactly and is not an equivalence (C22_loose_counterexample): a date falling on a whole second equals every date of that second |
| C23 | Typed header records round-trip | proved | 3 | Lists of typed records round-trip, truncated lists are refused, access by index (with the off-by-one of operator[] as a theorem). |
| C24 | Archive and slice headers round-trip | proved | 10 | Flags, slice header (start of slice, following slices, as reference in an isolated catalogue) and archive header with all optional fields, including nested header of the archive of reference and checksum; damage within two consecutive bytes is detected. Lax mode not modelled. Losses for old formats proved as separate theorems. Headers of the slices of archives made before the format 8 are read back as well (C24_old_slice_header). |
| C25 | Paths parse to their normal form | proved | 8 | normal form, acceptance, display/parse idempotence (except a lone URL head, where it is false: C25_url_counterexample), append/pop inverse |
| C26 | Sub-directory test is exact | partial | 2 | exact for plain paths (no URL component) except when the parent is a relative path of one character, where the answer is wrong (C26_one_char_counterexample); case-insensitive comparison modelled as a bytewise map |
| C27 | File selection masks obey boolean logic | partial | 8 | AND/OR/NOT formulas, -g directory masks and path lists (include and exclude); exclude_dir_mask covers everything (C27_exclude_dir_counterexample); glob and regular expressions are arbitrary predicates, the line splitting of list files is C76 |
| C28 | Overwriting policies decide as documented | partial | 8 | Every condition (all 21, with not, and, or, invert) answers what the manual documents for every pair of entries; chains give the documented, unique result; every well-formed policy decides. Missing because the code differs: condition e is false of hard-linked entries having EA (C28_ea_present_counterexample, excluded by hypothesis), R(date) is true of non-inodes (C28_date_counterexample). Policy text parsing is C51. |
| C29 | The backup database points to the archive that restores the requested state | partial | 5 | Data lookup proved for every history whose dates are ordered by archive number (what check_order asks; C29_check_order ties the check to that order) and in which no archive records as unchanged a file the previous ones record as removed; C29_revival_counterexample shows the lookup wrong otherwise. EA lookup proved. |
| C30 | Removing or reordering archives in the database keeps the others intact | partial | 8 | Removal (one, range), permutation, undo, totality and completion of absent records on single files proved for all trees. Not modelled: the re-finalisation that set_permutation runs over the directory tree after the permutation (its effect on one file is C30_finalize). |
| C31 | The backup database round-trips to disk | proved | 4 | Round trip of the whole content for databases of the current format; compression and encryption layers below are not part of it (C18, C20). Databases of any version 2 to 7 are read with the documented meaning (C31_versions, C31_current). C31_upgrade_counterexample: a database of an older format is written back unreadable. |
| C32 | The catalogue round-trips to disk | proved | 6 | Whole catalogue (any tree: files, doors, links, devices, pipes, sockets, directories, deletion records, hard links) round-trips; truncation always refused; damage within 4 bytes detected; in-line copies round-trip. Format 9+ reader, non-lax. Spec/Catalogue.lean states what is kept for data not saved. C32_links_consistent: in any catalogue that is accepted, whatever the bytes, each hard link has exactly one inode; C32_unknown_type: an unknown entry type is refused. |
| C33 | Differential backup saves exactly what changed | proved | 8 | Every kept name of the source has a record and its saved/unsaved/inode-only/delta/EA/FSA status is the documented function of source and reference (C33_recorded); nothing else is recorded (C33_nothing_else); the backup completes for every well-formed source (C33_completes), names of one inode share one record (C33_hard_links). C33_excluded: what is recorded for an excluded entry. Found: a failure while saving a hard-linked inode may abort the backup on its next name (C33_link_failure_counterexample). The system calls that read inodes are inputs of the model. |
| C34 | Deleted files are recorded, and nothing else | proved | 10 | Exact characterisation of the deletion records after update_destroyed_with alone (C34_recorded, C34_completes with their count) and for the whole differential backup (C34_backup, C34_nothing_forgotten); interrupted backups: exactly what was not reached is recorded as unchanged (C34_interrupted). Found: after an interruption the filesystem specific attributes are wrongly recorded as stored, and a hard link may be recorded as a name of another inode (two counterexamples). |
| C35 | Restoring a differential chain reproduces the source tree | partial | 7 | C35_restore: any archive that tells enough about what is in place is restored exactly. C35_chain_partial: any sequence of states without hard links whose changes are visible in the compared metadata. Excluded because false, each with a proved counterexample: a directory replaced by something else, an inode with EA replaced by another type without EA; also an unsaved directory over a file and the policy 'remove'. Missing: hard links in differential states (C36 counterexamples show where it is false) |
| C36 | Hard links are preserved | partial | 7 | full backup then restoration into an empty directory: exact for every tree with hard links (C36_round_trip). Differential restoration over existing hard links is wrong in several cases, proved as counterexamples (EA, FSA, new link) |
| C37 | Size expressions are understood exactly | proved | 4 | documented letters, refusal of anything else; the empty text gives 0 (C37_empty_counterexample); also the CRC width derived from a file size |
| C38 | Octal permissions text conversion round-trips | proved | 2 | as stated |
| C39 | User command substitution is exact | proved | 4 | as stated |
| C40 | Ranges denote the set of added numbers | partial | 5 | membership is the union for every sequence of additions; disjointness of stored segments fails when an addition touches more than two segments (C40_disjoint_counterexample) |
| C41 | End-of-archive locator is exact | proved | 4 | for positions whose integer encoding is under 2^31 bytes |
| C42 | Parallel processing preserves order and content | partial | 17 | Writing side of both classes and reading side of the compressor, every schedule; libthreadar's ratelier modelled from its documented behaviour. The reading side of parallel_tronconneuse is C75. Counterexamples: deadlock when the end marker cannot be written, deadlock on a non-Erange exception while ciphering, ciphering error on the last block reported to nobody. Deadlock when the reading of an archive with two damaged blocks is stopped. No-deadlock of the reading side is proved for at most one damaged block. |
| C43 | Thread cancellation is delivered exactly as requested | proved | 11 | Every sequence of calls, from any threads (each call is one critical section). The test of check_self_cancellation made outside the mutex is treated separately (C43_check_split, C43_race_counterexample). Value returned by clear_pending_request: only without associations (counterexample otherwise). Signal masks, dead_thread's unlocked part and copied objects are not modelled. |
| C44 | Remote slice reading protocol is transparent | proved | 6 | Any archive, any sequence of reads, seeks and information requests, any splitting of the pipe transfers, any stale answers left in the pipe (dropped); messages round-trip. Hypotheses: no signal interrupts a pipe read (otherwise wrong data: counterexample), status strings without NUL, slice header below 65536 bytes. Interruptions inside an integer field are not modelled. |
| C45 | Merging archives applies the policy to every conflict | partial | 15 | Catalogue built by filtre_merge_step1 for two archives (not the copy of the data by step2): each path, each policy and answer; hard links kept, replaced or removed whole; refused confirmations for attributes excluded (counterexample). Decremental mode: what is in the backup, and that restoring it over the new state gives the old one, without hard links, for changes it can see (counterexamples for the others). |
| C46 | Statistics counters add up | proved | 11 | Exact value of every counter of a backup in which nothing fails, bounds when some entries fail, the total of a restoration, and additions by any number of threads under every interleaving (exact at the end, never deadlocked). Counterexamples: a file modified while read and an entry whose EA fail are counted twice, unlocked (or move-constructed) objects lose updates, a failing subtraction keeps the mutex. |
| C47 | Extended and filesystem attributes round-trip | proved | 18 | Round-trip of any set of EA and of FSA; look up, assignment, addition, comparison (the comparison of FSA sets is right when it ends normally and the second set is not empty: counterexamples for the two other cases, and for a truncated EA value). C47_ea_space, C47_ea_old, C47_immutable: storage size, old format, immutable flag last. |
| C48 | Stacked layers compose | partial | 2 | Writing then opening in direct access mode through the real stack (header, padding, block compression, marks, encryption, terminators): the catalogue and each item read back exactly at the recorded position, for every operations list and settings. Missing: streamed compression, scrambling, GnuPG, slicing under it (C13). With marks, provisos: what follows the catalogue does not look like a mark; nothing between the last mark and the item does (counterexample proved). |
| C49 | Hash file describes the whole slice | proved | 6 | For every sequence of writes and every behaviour of write(2): the hash file has the hash of exactly the bytes of the slice when no write failed, none when the user gave up; the exact text of the hash file; the slice is a prefix of what was to be written; hash of a slice that is read. Counterexample: another failure leaves a hash file that does not describe the slice. H (libgcrypt) is a parameter. |
| C50 | Byte storage behaves like an array | partial | 10 | Read, write, insert, remove, truncate, place iterators: exact for every fragmentation. Indexing is wrong at block boundaries (C50_index_counterexample, true elsewhere: C50_index_partial), allocation under memory shortage never ends for odd sizes (C50_alloc_counterexample). Backward iterator moves, copy and comparison of sizes not modelled. |
| C51 | The text of an overwriting policy means what the manual says | partial | 7 | C51_meaning_partial: every text of the grammar the program implements (actions of two letters between brackets, stacked else parts, chains; conditions with the usual priorities, no conjunction ending with a parenthesised disjunction) with blanks anywhere is accepted and decides as the independent specification says. C51_accepted: conversely every accepted text is in that grammar. C51_refused: everything else ends in Erange. C51_total: an accepted policy never fails. Missing: the documented nesting in brackets and a disjunction as last operand of a conjunction, where the program is wrong (C51_manual_counterexample, C51_precedence_counterexample, C51_overflow_counterexample). |
| C52 | Dates given as text | proved | 6 | For any clock (localtime and mktime are parameters). |
| C53 | Adding archives to a database | proved | 7 | For every database made by additions from a new one (Database.Ok is kept by C53_add) and archives whose directories have no two entries of one name; any addition that succeeds. After a removal or a permutation the history theorem does not hold: C53_remove_counterexample, C53_permute_counterexample; C53_date_counterexample shows that the order check hypothesis of C53_lookup is needed. |
| C54 | Restoring from a database | proved | 11 | C54_complete: databases made by additions, absolute directory, date check passed, latest state, API. C54_api and C54_restored hold for every tidy database and every date, the latter with the hypothesis that no archive read holds the path with a later date (needed: C54_late_counterexample). By calls to dar: C54_cmd, C54_cmd_total, C54_cmd_data; the EA are not covered because the code does not restore them (C54_cmd_ea_counterexample). Other defects: C54_relative_counterexample, C54_cmd_removed_counterexample, C54_unknown_counterexample. |
| C55 | Overwriting policy and filters of a restoration | proved | 14 | C55_outside, C55_names: any policy. C55_preserve: archives without binary difference whose hard linked inodes are saved (needed: C55_patch_counterexample); directories keep their content, and their metadata when nothing is to be created in them (needed: C55_example_preserve). C55_policy_file: plain entries (no hard link on either side) whose parent directories are kept; C55_policy_missing, C55_policy_deleted, C55_only_deleted likewise. Not covered: the outcome of the policy on existing directories and on hard linked entries (beyond C55_outside, C55_preserve and C55_names). |
| C56 | Comparing an archive with a filesystem | proved | 13 | Model/Difference.lean. C56_data (contents by blocks of any size), C56_compare (inodes: silence exactly when Agrees, for every option), C56_told (the whole tree: exactly one word for each reachable entry, counters), C56_clean, C56_restored and C56_restore_then_compare (a restored full backup shows no difference). Readable excludes unreadable files and the quirk of FSA lists shown in C47; outside of it see the counterexamples in Props/DifferenceEx.lean. Not modelled: sequential reading. |
| C57 | Names of slices | proved | 10 | Model/SliceNames.lean: names, uniqueness, round trip, last slice and removal proved for all inputs; what the code takes for a slice is characterised exactly (C57_accepted), and is more than the slices: see C57_alien_counterexample (finding). Not modelled: errors of the directory itself. |
| C58 | The user comment tells no secret | partial | 7 | Expansion proved for all comments and command lines, non-interference proved for options given as separate arguments in the listed forms; false for the other accepted forms (C58_leak_counterexample, finding). |
| C59 | Sequential reading gives the same archive | proved | 9 | Simulation: each call of escape_catalogue::read answers what catalogue::read answers on the tree told by the in-line copies followed by the deletion records. Hypotheses: entries of an archive of format 9 or more, names distinct in each directory, hard linked entries never fail to be saved, data not starting with the escape pattern (counterexamples for these), no early memory release; is_subset_of and the reading of the catalogue are parameters. |
| C60 | What signing protects when reading sequentially | proved | 8 | is_subset_of characterised exactly (C60_what_is_checked, an equivalence), the error of the reading (C60_refused), acceptance of what a backup leaves (C60_untouched, C60_signed_archive_reads: the hypothesis of C59 on signed archives is met). What is not checked is proved too: attributes, sizes, checksums (C60_attributes_not_checked, C60_replaced_file_accepted), entries taken out (C60_missing_not_noticed), and a false alarm (C60_false_alarm). C59 now allows hard links whose other names are not in the backup. |
| C61 | Short transfers, interruptions and full disks lose nothing | partial | 19 | Proved for files: whatever the answers of the system a reading or writing that returns is the one of the plain file all the other layers are built on, a failed or stopped writing has written a prefix at the right place, and they return if enough transfers happen; positions and truncation. For pipes: writing exact, reading loses and invents nothing, skip drops exactly what is in between; that a short reading only happens at the end is proved without interruptions (_partial) and refuted with them; also refuted: position after going to the end, writing after the user has refused to go on. |
| C62 | Copying a damaged file | proved | 10 | For every source, damaged places, short reads and short writes (short writes: where a reading gives what precedes the damage, as Linux does; else writings are taken as complete): each byte copied is at its place, status good iff all can be read and then the copy is the source (followed by what a longer old destination held), the number told is exact, gaps begin and end with damaged bytes, it ends (source up to 2^31-1024 bytes, undefined behaviour is proved beyond). Counterexamples proved for -f, for the search of the next readable byte and for systems whose readings fail as a whole. |
| C63 | Configuration files are read as documented | partial | 27 | Proved for every file: comments (C63_comments and consequences), conditional syntax, words, pieces read byte after byte, whole pipeline (C63_file, C63_file_total), inclusions (refused exactly when there is no finite expansion). Partial because the code departs from the documentation (counterexamples proved): hide_file reads over several pieces lose bytes (never done by dar), tab in quotes lost, newline in quotes becomes a space, a word beginning with a backslash is glued to the next one or lost, a target on a last line without newline is taken as an option, comment lines are removed inside quotes. |
| C64 | File selection by -I -X -g -P -[ -] | partial | 10 | Both methods, names and paths, and the composition with the backup (the archive contains exactly the selected files and directories) are proved for -I -X -g -P with arguments that have no wildcard (names: any predicate). Not fully true of the code: -] with -am does not act as -P (C64_listing_counterexample), a root with special characters breaks -P (C64_root_counterexample). |
| C65 | The files to save are all read | partial | 7 | Reading of the files to save: for a tree that does not change, exactly the walk is given (C65_reads, C65_all_files) and hard links are recognised exactly (C65_hard_links); for any history of the filesystem, what is given was answered and errors are counted in the statistics or in the last call (C65_any_history). Missing: the code loses the errors of the last call and does not count what it cannot open (C65_last_error_lost, C65_unreadable_not_counted), and takes a reused inode number for a hard link (C65_inode_reused). |
| C66 | Commands around the saving of files come in pairs | partial | 6 | Commands run around the saving of files: as documented when no directory is left out or fails inside a covered directory (C66_hooks_partial, C66_around_partial); for every tree commands come in pairs but for the last start (C66_pairs). Missing because the code fails: a directory left out or failing inside a covered directory, and a covered directory unchanged since the reference (three counterexamples). |
| C67 | A file that changes while it is saved is saved again or told dirty | partial | 9 | A file that changes while it is saved: number of readings bounded (C67_bounded), saved means the data of the last reading with an unchanged date (C67_saved), and for every interleaving of changes the content of one single moment (C67_consistent). Dirty files: data in place if no limit of wasted bytes is set (C67_dirty_partial). Missing because the code fails: with such a limit the data of a dirty file may be lost (C67_dirty_lost). |
| C68 | Existing files are overwritten by a new archive only with permission | proved | 9 | No existing file is changed without permission, at any time and whatever fails (C68_no_overwrite, C68_agreed, C68_scope), an archive of the same name is recognised (C68_refused), slices hold nothing of older files (C68_content, C68_content_single). Side effects found: C68_other_hash, C68_empty_left, C68_dangling. |
| C69 | An isolated catalogue can replace the one of the archive it comes from | proved | 11 | Isolation of any sound archive or isolated catalogue, opening with it whatever remains of the archive, names, slices, signatures (copied, not computed), differential backup; findings proved as counterexamples (patches keep a dangling signature, internal errors). Not modelled: signatures computed during isolation beyond the internal error, sequential reading, lax mode. |
| C70 | Testing an archive tells whether what it holds is intact | proved | 12 | Direct access: success iff everything selected is intact (C70_dar_test), counters (C70_test), detection of damages (C70_damage_detected); sequential reading: every damage counted (C70_all_counted). Proved limits of the code: C70_*_counterexample, C70_isolated. |
| C71 | Re-slicing an archive (dar_xform) changes its slices and nothing else | partial | 19 | Proved: C71_reslice, C71_same_as_created, C71_chain, C71_created(_pipe), C71_success, C71_foreign, C71_last_missing, C71_pipe_end, C71_random_access_partial. The claim is partial because the code violates parts of it: C71_*_counterexample (07 data name, failure at closing, interrupted transformation left as complete, truncated slices); slices with no room for a byte excluded (Room). |
| C72 | Streamed compression is transparent | proved | 16 | Both classes, for every library meeting Spec/StreamComp.lean (its laws are met by a toy library): C72_visits and C72_zstd_visits, positions, suspension, cut streams, errors. What the code gets wrong is stated as counterexamples (empty items, counter of the library, truncation, zstd position, suspension while reading). |
| C73 | Keys and initial vectors of encrypted archives | proved | 12 | PBKDF2 against RFC 8018 (Spec/Keys.lean) for every input below the 32 bit limit of its counter, reader = writer, salts, initial vectors, CBC; two counterexamples state what fails (counts of 2^32-1 or more, three hash algorithms). |
| C74 | Binary deltas rebuild exactly the new content, and only over the right file | partial | 12 | C74_round_trip: signature, loading, delta, patch, application, for every library meeting Spec/Rsync.lean; C74_checked: safety for any library. Partial because the code fails in three cases, proved as counterexamples (empty read, second hard link, CRC of the result compared too late). |
| C75 | Multi-threaded decryption gives the same bytes as single-threaded, at any position | partial | 8 | Proved for every undamaged archive, schedule and sequence of calls staying within the data (C75_reads_and_seeks). Partial because the code violates the property: seek over a damaged block, seek past the end, trailing clear data in a full block and skip_to_eof after the end was met are proved to misbehave (counterexamples). |
| C76 | Listing files given to -[ and -] select exactly the paths listed | partial | 15 | Complete for the default ends of line and for one-byte ones (C76_default, C76_single_byte, C76_selection). For other sequences, nothing is lost when the file is read in one go or when no sequence is inside another one (C76_nothing_lost_partial). The code violates the property in the cases listed as counterexamples. |
| C77 | The exit status of dar tells what happened | partial | 17 | Every class of exception gives the code of the manual (C77_exceptions, handlers in their order with the class hierarchy); an execution ended by an exception gives its code (C77_ended), one that ends normally 11, 5 or 0 according to the counters (C77_completed, C77_success, C77_dirty); the command line (C77_command_line); with the models of the operations: dar -d gives 0 iff all selected entries agree, else 5 (C77_diff), dar -t gives 0 iff all selected is intact (C77_test), dar -x (C77_extract, C77_extract_full), dar -c (C77_create, C77_create_status). Partial because the code violates it (counterexamples): 11 masks 5; restoration from a database ignores failures; a test stopped by an Erange gives 0; -L and -W give 1. |
| C78 | Reading a remote file gives the bytes of the file whatever the schedule | partial | 11 | Proved for files of known size (fichier_libcurl asked for its size) and calls that ask for something: bytes and position for every schedule, cut and failure (C78_bytes); no deadlock; completeness only for executions without failure where the caller does not run between sub_is_dying and the empty block (C78_complete_partial): the code gives short reads otherwise (C78_short_counterexample, C78_failure_counterexample). Other defects proved as counterexamples: SRC_BUG at the end of the file, when the thread ends late, and on skip; wrong data with read_ahead(0) or, by ftp, when the size is not known. |
| C79 | The option -M saves the filesystems it names and no other | partial | 12 | The filter dar makes from any list of options -M covers exactly the filesystems the manual tells (C79_filesystems_partial), relative or missing paths are refused, and with it a file or directory is in the archive exactly when it and the directories above are on covered filesystems and kept otherwise (both ways), hard links and mount points included. Missing: the legacy form given after a form with an argument, which the code ignores contrary to the manual (counterexample); also proved: counterexamples for the interface, '..' with symbolic links, paths with ':'. |
| C80 | The block size of delta signatures follows the formula asked for | partial | 10 | Formula, bounds and monotony are proved for every size and every parameters, with unbounded and limited integers, against a specification of the roots and of the logarithm by inequalities; the option is proved to give the fields written. Missing: the manual tells that without max there is no maximum, the code keeps 131072 (counterexample); other counterexamples: log2 of an exact power of two, block size 0 accepted. |
| C81 | Restoring extended attributes follows the overwriting policy and the mask | partial | 12 | Policy, new files, other links: proved for a system that accepts to set and remove every attribute; where the code does otherwise than the manual (merging when only uncovered attributes are in place, capabilities of hard links and of preserved attributes, replaced hard links, refused attributes) counterexamples are proved. Sources and untouched inodes: proved for any refusal. |
| C82 | Arguments made of several fields are understood exactly | proved | 11 | URL, --min-digits, --retry-on-change and --slice-mode: equivalence with the grammar of the manual. -K: every form. The texts the grammar leaves out (a password with / : or @, IPv6 hosts) are shown in counterexamples. |
| C83 | The header of a backup database tells how to read it | proved | 12 | Round trip, truncation, later versions, strength of what may be asked, and the whole file: header, layers (as parameters that give back what they were given) and content (C31). Format versions 6 and 7 for the header; undefined reads and reopened databases in counterexamples. |
| C84 | End of line sequences given with a listing file are understood exactly | proved | 7 | Escape sequences: equivalence with their grammar. Lists: every list of sequences, with commas and backslashes escaped, is understood as written. What dar does not take as C does is in counterexamples. |
| C85 | The argument of -z is understood exactly | proved | 7 | All texts; iff with the grammar of the manual, numbers included (C85_number). What the compression libraries make of a level is outside. Counterexamples: zstd levels are not bounded, a lone level is only checked at creation, gzip: is refused. |
| C86 | Restoring the flags of files follows the overwriting policy | partial | 12 | Family extX of Linux, files that are not hard linked. The immutable flag over an existing file is restored only when another flag changes (C86_immutable_partial and its counterexample): the code does not satisfy the full statement. Also counterexamples for preserved flags when data is overwritten, append-only files, merge policy and the count. |
| C87 | Regular expressions given to -P exclude what they say | partial | 7 | Proved for an expression of the form ^x$ or x$ where x is a branch (no alternation out of parentheses) without anchors: the built text reads in exactly one way and is found exactly in the right paths. Missing: false of the code for expressions without $ at the end and for alternations (three counterexamples proved); brackets and braces are not in the grammar. |

## How the proofs go

* Formats (C01, C05, C09, C21–C24, C31, C32, C39, C41, C47): `ReadsAs w r v` ("the reader `r` run on the bytes `w` followed by anything returns
  `v` and leaves the rest") composed along the grammar; truncation through `StreamSafe`. Integers by induction on the width.
* Arithmetic (C02–C04, C22): refinement to `Nat` by a value map; loops with explicit measures.
* Layers (C10–C13, C15–C20, C44, C50): each layer's state is related to a plain file by an invariant; every operation preserves it; sessions by induction
  over the list of operations.
* Checksums (C07, C08): the CRC as a xor-homomorphism into (Z/256)^w, chunking by an associativity lemma.
* Trees (C31–C36, C45): structural induction on entries, with specifications given as functions of the paths.
* Schedules (C42, C43, C46): inductive invariants over every interleaving, progress by a counting invariant, termination by a measure.

## What the proofs found in the code

Defects and surprises met while modelling; those marked (proved) have a machine-checked witness, the theorem name being in MANIFEST.json.

Integers and text
* limitint::build_from_file does not check the number of bytes read: a truncated integer is accepted (proved, C06); shifts by a limitint and 32-bit `<<`
  are undefined behaviour at the limits (proved, C03); limitint_unstack_to wraps with a wider target (proved, C04).
* tools_get_extended_size("") is 0 (proved, C37); tools_octal2int wraps modulo 2^64, "" gives 0666.
* range::operator+= merges one following segment only: segments may overlap (proved, C40).
* crc_n(width, f) does not check the amount read; a CRC of width 0 is accepted then raises SRC_BUG.

Layers
* escape: a flush between the two halves of a pattern leaves it unescaped (proved, C10); a trailing part of the pattern is read as end of file (proved, C10);
  next_to_read_is_which_mark may raise SRC_BUG (proved, C11).
* sparse_file: a file whose stored form ends with an incomplete escape pattern may lose its last bytes when read by very small
  amounts (C12_tail_counterexample), and a file ending with a hole whose length, once stored, ends with such bytes after more than five
  bytes (for example 2^32 + 0xAEFDEA) cannot be read at all (C12_hole_length_counterexample); copy_to_no_skip does not advance
  `offset` over holes, so the checksum it returns is not the one of the content (C12_no_skip_checksum_counterexample);
  sparse_file::skip backward before the first hole ignores escaped bytes (not modelled); inherited_terminate does not write pending zeros.
* sar: a slice size equal to the header size + 1 creates slices for ever (proved, C13); a failing backward skip leaves a stale offset (proved, C13);
  skip past a full last slice leaves the position after the trailing flag; skip_relative beyond the end may ask for a slice that does not exist.
* cache: skip_relative outside the cache starts from the buffer offset, writes may be lost after a short backward seek, sync_write moves the position,
  flush_read then a large read reads at the wrong offset, skip_to_eof from beyond the end raises SRC_BUG (all proved, C15).
* tronc: relative seek to the exact end reported as failure; a window just opened fails a backward relative seek (proved, C16).
* memory_file: truncated to 0 then dump_to raises Erange (proved, C17); truncate at a position not below the size raises SRC_BUG; skip to the exact end returns false;
  load_from advances twice per chunk for sizes over 2^32. storage: operator[] is wrong at block boundaries (proved, C50); allocation under memory
  shortage wraps (proved, C50).
* tronconneuse: skip_to_eof wrong in two situations, sync_write in the middle of a block corrupts what follows, flush_read at the end loses data,
  a skip of more than 2^32 raises SRC_BUG (all proved, C18).
* elastic: paddings over 2^31 bytes are mis-skipped (proved, C19). block_compressor: an empty item has no end marker; get_position in a block raises SRC_BUG (proved, C20).
* parallel_block_compressor: failure to write the end marker blocks the program for ever; stopping a reading with two damaged blocks may block for ever;
  a truncated block gives SRC_BUG (all proved, C42); skip_relative calls itself. parallel_tronconneuse: an exception other than Erange in a worker
  blocks for ever; an error on the last block is reported to nobody (proved, C42).
* archive with marks: the position recorded for the data of a file counts the bytes given to the mark layer, not those written: a file name that contains the escape
  pattern makes the data unreadable in direct access mode (proved, C48). Not in a theorem: the random padding after the catalogue may contain the pattern followed by an unknown mark
  type, a read that goes past the catalogue then fails; escape::skip inside the read buffer ignores the escaped bytes removed from it.
* hash_fichier: a failed write leaves a hash file that describes bytes not in the slice (proved, C49).
* zapette: a signal during a pipe read gives wrong data (proved, C44).

Formats
* archive_version: `fix` lost for versions < 8; a file of zeros reads as version 53456 (proved, C21).
* header_version: old ref_header lost; truncated salt loops for ever (proved, C24). tlv_list::operator[] accepts index = size (proved, C23).
* ea: a truncated value loops for ever; fsa is_included_in may dereference end() (proved, C47).
* database: removing an archive of a dar_manager database removes its `absent` records too, so a file the removed archive told absent is found again
  (proved, C53_remove_counterexample); set_permutation runs finalize over all the archives again, and a record already `absent` makes the second run remove
  it: even exchanging an archive with itself loses the absences (proved, C53_permute_counterexample); the date of an absence is the date of the parent
  directory, so that a file excluded from one archive and saved unchanged by the next is reported removed for ever, check_order tells it (proved,
  C53_date_counterexample).
* restoring from a database: under a relative directory any covered path raises an internal error (proved, C54_relative_counterexample); by calls to dar, the
  archive found for the EA is set to zero even when the EA are found, and the test that follows is inverted: EA saved in an archive that does not hold the data are
  not restored (proved, C54_cmd_ea_counterexample); -g given for a directory brings back the files removed from it (proved, C54_cmd_removed_counterexample); a path
  of an archive that the database does not know stops the restoration with an internal error, this happens after a removal (proved, C54_unknown_counterexample); a
  directory restored at a date may get the attributes it had later (proved, C54_late_counterexample).
* database of an older format is written back unreadable (proved, C31); a removed-then-present file is reported removed by get_data (proved, C29).

Selection and policies
* path: a lone URL head does not reparse (proved, C25); is_subdir_of is wrong with a one-character relative parent (proved, C26).
* exclude_dir_mask::is_covered(const path&) shadows its member and is always true (proved, C27).
* criterium: EA_present is false for hard links; R(date) on a non-inode is true (proved, C28).
* policy text: all the examples of the manual page with conditions nested in brackets are refused; `I&(D|F)` is read as `I&D&F`; a number of ten digits in a date overflows a
  signed integer (proved, C51); dates outside of the documented form are accepted (proved, C52).
* datetime: loose equality is not transitive (proved, C22).

Backup and restoration
* overwriting policy: a binary difference is applied whatever the policy is, even "remove" (proved, C55_patch_counterexample); with "remove" the file is removed, then an error is counted
  because the date of the removed file cannot be set (proved, C55_remove_counterexample), and a file that is unchanged since the archive of reference is not removed (proved,
  C55_remove_unsaved_counterexample); with "preserve" a directory gets the owner, permissions and date of the archive when something is created in it, and a deletion that is not done is
  counted (proved, C55_example_preserve); when only deletions are asked for, the policy of the user is ignored and a file having the name of a directory of the archive is replaced by a directory
  (proved, C55_only_deleted_counterexample); a file preserved for an unsaved hard linked inode is recorded as link target, and restoring another name of it changes its dates, owner and EA.
* sequential reading: when a directory is being skipped and the archive ends inside it, ends of directory are answered for the skipped directories too (proved,
  C59_skip_then_interrupted_counterexample); a file with several names whose saving fails for the first name only makes the archive unreadable sequentially, its inode being written twice (proved,
  C59_failed_link_counterexample; in lax mode a later name leads to freed memory); two directories of the same name in an archive lead to the use of freed memory (proved,
  C59_same_directory_twice_counterexample); two calls to skip_read_to_parent_dir in a row leave one directory only (proved, C59_two_skips_counterexample); skipping from the root is silently
  ignored instead of an error; a missing or unknown type byte right after a mark stops the reading even in lax mode; data starting with the escape pattern may raise SRC_BUG (see C11); a read error in the
  middle of the data leaves an in-line copy without failure mark whereas the catalogue ignores the entry.
- Signed archives read sequentially (C60): the comparison of the in-line entries with the signed catalogue does not look at owner, permissions, dates, size, checksum, EA, FSA
  (proved, C60_attributes_not_checked, C60_replaced_file_accepted: cat_file::operator== is always true and cat_inode has none), contrary to the comment of escape_catalogue.cpp:722-728 and to the
  message; entries taken out are not noticed (proved, C60_missing_not_noticed); a file with a name excluded by a mask, a saved one and one outside the saved tree makes an untouched archive
  be reported as compromised (proved, C60_false_alarm).
- System calls (C61): a read(2) on a pipe interrupted by a signal ends the loop of tuyau::inherited_read (`while(lu < size && ret > 0)`): less than asked is given, which callers take for the
  end of the data (proved, C61_not_pipe_interrupted); has_next_to_read tells there is nothing more (proved, C61_not_pipe_has_next); read_to_eof counts twice the bytes it drops in
  the position (proved, C61_not_pipe_position); once the user has refused to go on with a full disk, fichier_global::inherited_write does nothing and reports no error (proved,
  C61_not_after_full); skip_relative of the least int overflows (in the model).
- dar_cp (C62): -f does not empty the destination, so that a good status is returned for a copy that is not the source (proved, C62_not_forced); the search of the next readable byte
  jumps over readable parts, up to leaving all of the rest (proved, C62_not_next_readable), contrary to its comment; where a reading fails as a whole a readable byte just before a damaged one
  makes the copy stop (proved, C62_not_whole_readings); xfer_before_error does not complete short writes, which displaces data (proved, C62_not_short_writes); `block*2 > block` is no
  protection against the overflow of an int: undefined behaviour with 2 GiB of damaged data in a row (proved, C62_not_large_hole).
- configuration files (C63): hide_file::inherited_read loses bytes when one call covers several pieces (proved, C63_read_pieces_counterexample; dar reads byte after byte); a tabulation between
  quotes is lost, an end of line becomes a space, a word beginning by a backslash is glued to the next one or lost, a target on a last line that has no end of line is taken for an option, a
  line of a quoted string beginning by '#' is removed (proved, C63_*_counterexample). hide_file::skip_relative backwards returns inside its loop (not in the model).
- file selection (C64): with -am the option -] does not act as -P does, contrary to the manual: the files below a listed directory are not excluded when a later option leads into it (proved,
  C64_listing_counterexample); the root of the operation (-R) is put in the pattern of -P without protection: below a root whose name has a backslash or brackets -P excludes nothing (proved,
  C64_root_counterexample). tools_build_regex_for_exclude_mask cuts the regular expression given to -P at its first '$' (not in the model).
- reading of the files to save (C65): an error met after the last entry of the tree is lost, the last call of read() returning false (filtre.cpp:642) (proved, C65_last_error_lost); a directory
  that cannot be opened is saved as an empty one, and a file on which lstat answers EACCES is left out, without an error counted, so that the next differential backup records these files as
  deleted (proved, C65_unreadable_not_counted); an inode number reused during the backup gives hard links between different files, the data of the second one being lost (proved,
  C65_inode_reused); an error of readdir is taken for the end of the directory (etage.cpp:138, not in the model).
- backup hooks (C66): a subdirectory left out by the masks (or failing) inside a covered directory is counted in but never out: the "end" command of the covered directory is not run, and no command is
  run for any covered file that follows (proved, C66_excluded_directory_counterexample, C66_failed_directory_counterexample); in a differential backup no command is run for a covered
  directory whose own attributes have not changed although files in it are saved (proved, C66_unchanged_directory_counterexample).
- save_inode truncates the archive to the start of the data before it looks at the limit of wasted bytes: once that limit is reached, the data of a file that changed is removed although the catalogue tells it (proved, C67_dirty_lost); the same branch writes no dirty mark for the sequential reading;
- when a file is read again, the inode put before its data for the sequential reading keeps the old date and size (proved, C67_head_stale);
- a repeated line in save_inode turns a skip that works the second time into an internal error (proved, C67_late_skip);
- with the access date restored (--alter=ctime mode), save_inode puts the modification date back after it has looked at it: a change that happens between the two is hidden from the next backup (filtre.cpp:3790-3794; not modelled, it makes the hypothesis Honest of C67_consistent false);
- old hash files of the kinds sha3, blake2b and argon2 are neither seen nor removed when an archive of the same name is created (proved, C68_other_hash);
- a refused creation leaves an empty slice behind when only its hash file existed, which makes the next try be refused (proved, C68_empty_left);
- a dangling symbolic link named as a slice stops dar with an internal error (proved, C68_dangling);
- dar_xform does not check that source and destination differ: with -w (or if the user agrees) the slices of the source are removed before they are read (dar_xform.cpp, i_libdar_xform.cpp:128; not modelled);
- isolated catalogues: dropping the signatures leaves those of patches, which then say that a signature is at the place it had in the archive (C69_dangling_counterexample); after an archive is opened with an isolated catalogue these lead to a deleted object (use after free when testing; C69_stale_counterexample);
- isolation with signatures to compute stops with an internal error on a plain file of status "inode only" (C69_inode_only_counterexample); an isolated catalogue of format 9 to 11 cannot be isolated again (internal error; C69_old_isolated_counterexample); the isolation changes the signatures of the archive object that is open (C69_archive_changed_counterexample); an isolated catalogue of a format 7 archive gives a slice header that is refused; enable_natural_destruction calls disable_natural_destruction on a trivial_sar; cat_delta_signature::copy_from does not copy sig_block_len (read, not modelled);
- testing in direct access: after an error on a file, remove_last_read sets the cursor of the directory at its end (cat_directory.cpp:458): the entries that follow in that directory are neither tested nor counted, and for an error at the root the test ends (C70_rest_of_directory_counterexample, C70_second_damage_not_reported_counterexample);
- testing: an error on the attributes of a directory leaves its content untested and gives wrong paths to all that follows, so that the filter on paths is applied on wrong paths (C70_directory_damage_counterexample); after a checksum error the attributes stay in memory and the second name of the inode is said to be correct (C70_second_name_counterexample);
- testing in sequential reading: op_test turns an Erange of the reading of the list of entries into a message (i_archive.cpp:1624): an interrupted or truncated archive passes the test with an exit code of success (C70_truncated_counterexample); an isolated catalogue always passes (C70_isolated);
- dar_xform: the data name of an archive of format 07 is not kept, it becomes the internal name of the new set (C71_old_name_counterexample).
- dar_xform: xform_to relies on the destructor of sar to complete the last slice, which ignores exceptions: a failure there (full disk) is reported as a success and the archive is not readable (C71_close_counterexample).
- dar_xform: when reading the source fails, the slices written so far are closed as a complete set (terminal flag): C71_interrupted, C71_interrupted_counterexample.
- slices: a truncated slice in the middle of a set of format 07 is silently filled with zeros; so is one of the recent format when the byte it now ends with is 'N' (C71_truncated_slice_counterexample).
- slices: a truncated unsliced archive read as a file is accepted, its last byte being dropped whatever it is (C71_truncated_single_counterexample).
- streamed compression (gzip, bzip2, xz): nothing is stored for an empty item, reading it gives the next one (C72_empty_counterexample); a stream cut short is read without any error (C72_truncated_counterexample); sync_write relies on total_in, which zlib keeps in an uLong: where it has 32 bits an item of a multiple of 4 GiB is not completed and is merged with the next one (C72_total_counterexample); inherited_truncate asks for the position before completing the item, which is a SRC_BUG when data is pending (C72_truncate_counterexample).
- compressor_zstd::get_position tells a position while data is pending (C72_zstd_position_counterexample); clean_write restores `compressed` only in its catch clause, leaving a pointer to a dead local object (not reached today).
- suspend_compression while reading drops the bytes already in the buffer (C72_suspend_read_counterexample).
- keys: the loop of PBKDF2 counts iterations in a U_32 while their number is a U_I: with 2^32 - 1 iterations or more (-T 4G) it never ends (proved, C73_iterations_counterexample); `-T n:whirlpool`, sha3-512 and blake2b-512 are accepted by the command line and end in SRC_BUG (proved, C73_hash_counterexample); 0 iterations are the same as one;
- crypto_sym::move_from ends by `ivec = nullptr` where `ref.ivec = nullptr` was meant: a moved object has no initial vector and the buffer is freed under it (not modelled: no caller moves such objects);
- binary deltas: with a delta and a new signature computed together, a call in which librsync takes no input leaves the delta object with a full buffer; it then asks for 0 byte, which the signature object below takes for the end of the file (proved, C74_empty_read_counterexample: the reading fails);
- filesystem_tools_make_delta_patch compares the CRC of the result after having overwritten the file in place: if it differs the original is lost (proved, C74_result_counterexample); through a second hard link to a file already patched, librsync usually fails in the middle of the delta and the CRC of the part read is compared with the one of the whole delta: "archive corruption" is reported (proved, C74_hard_link_counterexample);
- the constructor of generic_rsync of status delta throws Ememory when no checksum is asked for (data_crc is then null); no caller does it;
- parallel_tronconneuse, read mode: (a) a seek forward over an undecipherable block, when the blocks are gathered in several batches, drops that block without counting it: the data returned afterwards is from a later position, silently; (b) a seek after the end but within the room of the last block makes the next read throw SRC_BUG; (c) when trailing clear data is found by the caller's thread (it begins in a full block), lus_eof is set before the rest of the block is read: the last bytes are never returned; (d) skip_to_eof after the end was met (lus_eof set) leaves the position at the beginning of the last block; (e) flush_read or skippable while the acknowledgements of an abandoned stop order are pending reads the archive up to its end before stopping (go_read inside the purge cancels the order).
- mask_list: an empty line in a listing file (also a blank first line) is an internal error (C76_empty_line_counterexample); without regard to the case the last line, if no end of line follows, is not upper-cased and never matches (C76_last_line_counterexample); an even number of carriage returns before LF is kept whole in the path (C76_crlf_counterexample); with user-given ends of line contained in one another, the bytes read ahead may belong to a former buffer and a std::string is built with an end before its beginning (C76_chunking_counterexample), and a sequence pending at the end of the file is not cut (C76_end_of_file_counterexample); an absolute path is not normalised (C76_trailing_slash_counterexample).
- exit status: files that could not be saved are masked by one that changed meanwhile (11 instead of 5); a restoration from a database always exits with 0, whatever failed; a test stopped by an Erange exits with 0; -L and -W exit with 1 (proved, C77_*_counterexample);
- C78 (fichier_libcurl.cpp): reading again at the end of the file while the empty block of the thread is in the pipe is SRC_BUG (418-422); a read that finds the pipe empty while the thread brings its last bytes and ends is SRC_BUG (set_subthread tests the pipe then sub_is_dying, 899-936); skip with a full pipe in block mode is SRC_BUG (810-819); a read may be short (taken as the end of the file) without failure when the caller runs between `sub_is_dying = true` and the empty block; a failing transfer after a first block makes the read short, without exception (maybe_eof); by ftp with the size unknown a read at the end gives the beginning of the file again (738); read_ahead(0) (filtre.cpp:3356) after a first block makes the next read restart at offset 0.
- C79: `-M I:/v -M`: the manual tells the first option is erased, but it is the second one that is ignored; the interface tells that set_same_fs_include and set_same_fs_exclude make a previous set_same_fs(true) ignored, but it still counts (set_same_fs(true) then set_same_fs_exclude(p): nothing but the root filesystem is saved); the path is reduced as text ("..") before stat, so that with symbolic links another filesystem may be taken; a path with ':' cannot be given.
- C80: without max in --delta sig:..., the manual tells there is no maximum, but the maximum stays 131072 (and a min above is refused); log2 of an exact power of two is one more than the logarithm; a block size of 0 is accepted; a first --delta sig:root2:1 (equal to the default) may be followed by another without the warning.
- C81: merging the attributes (policies m and M of action_over_ea) erases those the mask does not cover when the file in place has no other: the attributes in place are read through the mask, found empty, and the merge becomes an overwriting, which clears all. The Linux capabilities of a hard linked file are never restored: the second raw_set_ea, made after the change of owner to set them again, does nothing as the first has recorded the attributes as restored. When the data is overwritten and the attributes preserved, the file loses its capabilities. When several existing files are replaced by the names of one archived inode, the attributes of the second one are given to the inode restored first. An attribute the system refuses stops the restoration of all the following ones, after those in place have been erased.
- C82: a password in the URL of a repository cannot have a `/`: what precedes is taken for the port of a host named as the login, and the rest of the password goes to the path (proved, C82_slash_counterexample). With a `:` or in front of an IPv6 address the text is no URL and the whole, password included, is used as a local path. A protocol without name is accepted. `gnupg:gnupg:x` loses the recipients. --slice-mode, --min-digits and -K are as documented.
- C83: database_header::read does not look at what read() returns: on a file that ends in the fixed part of the header the options or the characters of the algorithms are undefined (proved, C83_undefined_counterexample). Unknown options but the extension bit are ignored; a weak cipher is still accepted from a file; a header of version 5 or less is written back with a level that is not read (C83_upgrade_counterexample); after an unencrypted database has been read, set_database_crypto_algo alone leaves no key derivation, no iteration and a null block size.
- C84: `-[ file:\0` (the escape sequence \0 at the end of a sequence) never ends and takes more and more memory: the iterator is not moved (line_tools.cpp:1955-1958; proved, C84_zero_counterexample). The hexadecimal digit `a` is refused (`> 'a'` for `>= 'a'`, line_tools.cpp:2126). \0ddd reads three digits after the zero. The handling of escaped commas and backslashes is right (proved for every list).
- C85: the level of zstd is not checked against the 22 of the manual, and -z zstd:-5 asks for the level 2^64-5 (tools_str2int reads unsigned numbers with a sign; proved, C85_zstd_counterexample); a level given alone (-z42) is refused only when the archive is to be created; `gzip::` is accepted but `gzip:` is not.
- C86 (all proved): the immutable flag of an existing file is restored only when another flag changes (filesystem_restore.cpp:594), so never when only it differs; the flags of a file whose data is overwritten are lost
  with a policy that preserves attributes, because a boolean is given in place of the type of the inode (filesystem_restore.cpp:785-789); an append-only file cannot be restored completely (the flag is set before the
  dates, the system refuses them, owner, permissions and immutable flag are then not restored) nor overwritten; merging and preserving does not protect the immutable flag; FSA restored in new files are not counted.
  The error of the first utimensat is built and not thrown (tools.cpp:907).
- C87 (all proved): a regular expression given to -P that does not end by `$` is used as if it did (-P foo does not exclude foobar); what follows the first `$` is dropped, even in an alternation (`^a$|^b$` does not exclude b)
  or after a backslash; no parentheses are put around the expression, so with -R /b the option -P 'x|b' excludes everything (tools.cpp:2446-2456).
* names of slices: the two characters around the number are not looked at, so that "arch-2024.dar" is taken for the slice 2024 of "arch" and may be removed (proved, C57_alien_counterexample);
  superfluous zeros are accepted (proved, C57_zeros_counterexample).
* user comment: the macro %c lets the passphrase go in clear in the archive with -Kpass, --key=pass and --key-ref pass, against the manual (proved, C58_leak_counterexample); a comment ending with a
  lone '%' is undefined behaviour (proved, C58_lone_counterexample).
* comparison (dar -d): the shift of hours and the fields to compare are of no effect on the modification date of plain files (proved, C56_hourshift_counterexample); a filter that excludes all
  extended attributes gives a difference about them (proved, C56_ea_counterexample); a file recorded as deleted that exists is not told (proved, C56_deleted_counterexample); when lstat fails on a
  directory the next entries are compared in the wrong directory and the comparison ends with an internal error (proved, C56_unreadable_counterexample); the offset told is not the one of
  the first difference when the last blocks have different lengths (proved, C56_offset_counterexample); the permissions of symbolic links are compared although a restoration does not set them.
* a failure on a hard-linked inode raises SRC_BUG on its next name (proved, C33).
* interrupted backup: FSA recorded as stored, a hard link recorded as a name of another inode (proved, C34).
* restoration: unsaved directory over a non-directory, file replacing a directory, EA kept from the replaced inode, hard-linked inodes with changed EA or FSA,
  policy "remove" counted as an error (proved, C35 and C36).
* statistics: a file modified while read and an entry whose EA fail are counted twice; a failing subtraction keeps the mutex; a moved object loses its
  locking (proved, C46).
* thread_cancellation: associations are not transitive, value of clear_pending_request, requests lost with the last object, unlocked race (proved, C43).
* merging: refusing the confirmation about the attributes changes the action on the data; EA_clear with overwritten data tests the wrong inode, leaves the FSA and
  dereferences a null pointer when one of the entries is a deletion record; EA_overwrite_mark_already_saved leaves the FSA stored; a change of attributes through one name of a
  hard linked inode changes the other names; a decremental backup loses a change of the FSA of a file without EA, and does not remove the EA given later (proved, C45).
  Not in a theorem: an EA "removed" status becomes "none" by transfer; an exception after make_clone of a first hard link leaves a dangling pointer in the table of hard links; the
  handler of Egeneric leaves the read cursor in a directory it has entered; step0 resets decremental_mode in a by-value parameter.

Seen but not in the model: make_file hides some failures of link(); tools_make_date builds an exception without throwing it; utimensat(0, …) uses descriptor 0;
filesystem_tools_widen_perm's condition looks inverted; removal of a FSA family is never propagated; cat_directory::add_children on an existing directory
merges children into the argument; several one-byte reads (datetime unit, inode flag, file flags, compression letter, mirage flag, serial numbers)
do not check the amount read; mask_list raises SRC_BUG on a blank line; database::remove_archive with reversed numbering raises Erange.
