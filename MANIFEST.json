{
 "claims": [
  {
   "property": "C01",
   "status": "proved",
   "theorems": [
    "Dar.C01_infinint_roundtrip",
    "Dar.C01_limitint_roundtrip",
    "Dar.C01_same_bytes_in_all_builds",
    "Dar.C01_read_by_bounded_build",
    "Dar.C01_self_delimiting"
   ],
   "note": "both builds, cross-build byte identity, prefix-freeness"
  },
  {
   "property": "C02",
   "status": "proved",
   "theorems": [
    "Dar.C02_add",
    "Dar.C02_sub",
    "Dar.C02_mul",
    "Dar.C02_mul_byte",
    "Dar.C02_euclide",
    "Dar.C02_modulo",
    "Dar.C02_shift_left",
    "Dar.C02_shift_right",
    "Dar.C02_shift_left_infinint",
    "Dar.C02_shift_right_infinint",
    "Dar.C02_and",
    "Dar.C02_or",
    "Dar.C02_xor",
    "Dar.C02_compare",
    "Dar.C02_power",
    "Dar.C02_from_machine",
    "Dar.C02_byte"
   ],
   "note": "every infinint operator refined to Nat; loops of euclide and shifts shown to terminate"
  },
  {
   "property": "C03",
   "status": "partial",
   "theorems": [
    "Dar.C03_arithmetic_partial",
    "Dar.C03_mul_accepts",
    "Dar.C03_shift_left_64",
    "Dar.C03_shift_left_partial",
    "Dar.C03_shift_right_limitint_partial",
    "Dar.C03_shift_counterexamples"
   ],
   "note": "true of + - * / % power, >> by machine integer, << in the 64-bit build; false of shifts by a limitint and of << in the 32-bit build (undefined behaviour), see C03_shift_counterexamples"
  },
  {
   "property": "C04",
   "status": "partial",
   "theorems": [
    "Dar.C04_infinint_unstack",
    "Dar.C04_infinint_unstack_all",
    "Dar.C04_limitint_unstack_partial",
    "Dar.C04_limitint_counterexample"
   ],
   "note": "proved for infinint and for limitint with targets not wider than the base type; false for a 64-bit target in the 32-bit build, see C04_limitint_counterexample"
  },
  {
   "property": "C05",
   "status": "proved",
   "theorems": [
    "Dar.C05_print",
    "Dar.C05_parse",
    "Dar.C05_refuse",
    "Dar.C05_roundtrip"
   ],
   "note": ""
  },
  {
   "property": "C06",
   "status": "partial",
   "theorems": [
    "Dar.C06_infinint_truncated",
    "Dar.C06_malformed_prefix",
    "Dar.C06_limitint_truncated_partial",
    "Dar.C06_limitint_counterexample"
   ],
   "note": "proved for the unbounded build and for malformed prefixes; the 32/64-bit builds accept truncated digits, see C06_limitint_counterexample"
  },
  {
   "property": "C07",
   "status": "proved",
   "theorems": [
    "Dar.C07_chunking",
    "Dar.C07_chunking_agree",
    "Dar.C07_offset_order"
   ],
   "note": ""
  },
  {
   "property": "C08",
   "status": "proved",
   "theorems": [
    "Dar.C08_detects_window",
    "Dar.C08_comparison_detects",
    "Dar.C08_single_byte"
   ],
   "note": ""
  },
  {
   "property": "C09",
   "status": "proved",
   "theorems": [
    "Dar.C09_storage",
    "Dar.C09_zero_width_refused"
   ],
   "note": ""
  },
  {
   "property": "C10",
   "status": "partial",
   "theorems": [
    "Dar.C10_write_canonical",
    "Dar.C10_roundtrip_partial",
    "Dar.C10_roundtrip_exact",
    "Dar.C10_data_then_mark",
    "Dar.C10_tail_counterexample",
    "Dar.C10_sync_counterexample"
   ],
   "note": "proved for every sequence of writes/marks and every read session, when the last data does not end in an incomplete pattern and no flush happens inside data; both exceptions are real, see C10_tail_counterexample and C10_sync_counterexample"
  },
  {
   "property": "C11",
   "status": "partial",
   "theorems": [
    "Dar.C11_skip_partial",
    "Dar.C11_next_mark_partial",
    "Dar.C11_next_mark_counterexample"
   ],
   "note": "skip_to_next_mark proved for all streams (same tail condition); next_to_read_is_which_mark can end in an internal error, see C11_next_mark_counterexample"
  },
  {
   "property": "C12",
   "status": "partial",
   "theorems": [
    "Dar.C12_roundtrip_partial",
    "Dar.C12_holes",
    "Dar.C12_write_position",
    "Dar.C12_copy_to_partial",
    "Dar.C12_copy_checksum_partial",
    "Dar.C12_example_write",
    "Dar.C12_example_read",
    "Dar.C12_tail_counterexample",
    "Dar.C12_hole_length_counterexample",
    "Dar.C12_no_skip_checksum_counterexample"
   ],
   "note": "Round-trip, position, copy_to and its checksum for every content, minimum and chunking, when the stored form does not end with an incomplete escape pattern; three counterexamples show the code fails otherwise. sparse_file::skip is not modelled."
  },
  {
   "property": "C13",
   "status": "partial",
   "theorems": [
    "Dar.C13_slices",
    "Dar.C13_chunking",
    "Dar.C13_read_partial",
    "Dar.C13_no_room_counterexample",
    "Dar.C13_skip_back_counterexample"
   ],
   "note": "slices = data cut at capacity, independent of write chunking; reads, absolute/relative seeks inside the data and seek to the end equal a plain file. Seeks outside the data are excluded (a failing backward seek really leaves a stale position, C13_skip_back_counterexample); slices with no room for data loop forever (C13_no_room_counterexample)"
  },
  {
   "property": "C14",
   "status": "proved",
   "theorems": [
    "Dar.C14_location",
    "Dar.C14_injective",
    "Dar.C14_layout_roundtrip"
   ],
   "note": "slice number and offset point at the byte of the slice files holding that position; injective; layout record round-trips"
  },
  {
   "property": "C15",
   "status": "partial",
   "theorems": [
    "Dar.C15_read",
    "Dar.C15_write",
    "Dar.C15_skip",
    "Dar.C15_skip_to_eof",
    "Dar.C15_sync",
    "Dar.C15_session_from",
    "Dar.C15_session",
    "Dar.C15_skip_relative_counterexample",
    "Dar.C15_lost_write_counterexample",
    "Dar.C15_sync_moves_counterexample",
    "Dar.C15_flush_read_counterexample",
    "Dar.C15_eof_from_beyond_counterexample"
   ],
   "note": "Proved: any session of read/write/skip/skip_to_eof through a cache of any size over an ordinary file is transparent. Missing: skip_relative, flush_read and sync_write in the middle of cached data are NOT transparent in this code (C15_*_counterexample theorems); truncate and layers below raising exceptions not modelled."
  },
  {
   "property": "C16",
   "status": "partial",
   "theorems": [
    "Dar.C16_session",
    "Dar.C16_open",
    "Dar.C16_modify",
    "Dar.C16_unlimited",
    "Dar.C16_relative",
    "Dar.C16_relative_confined",
    "Dar.C16_relative_end_counterexample",
    "Dar.C16_relative_fresh_counterexample"
   ],
   "note": "Session of read/write/absolute seeks/skip to end: full. Relative seeks: exact when the file below is in place; counterexamples for the exact end and for a window just opened. Truncation and modify() are modelled but not specified."
  },
  {
   "property": "C17",
   "status": "partial",
   "theorems": [
    "Dar.C17_session",
    "Dar.C17_new",
    "Dar.C17_dump_counterexample",
    "Dar.C17_dump_to"
   ],
   "note": "Every session on files under 4 GiB when memory allocations succeed (one block). Dumping to a file proved for any division in blocks (C17_dump_to). C17_dump_counterexample: dump_to fails after truncation to nothing. Fragmented storage makes the code read out of bounds (C50_index_counterexample). load_from not modelled."
  },
  {
   "property": "C18",
   "status": "partial",
   "theorems": [
    "Dar.C18_write",
    "Dar.C18_read_inside",
    "Dar.C18_whole",
    "Dar.C18_read_any",
    "Dar.C18_roundtrip",
    "Dar.C18_cipher",
    "Dar.C18_eof_counterexample",
    "Dar.C18_sync_counterexample",
    "Dar.C18_flush_read_counterexample",
    "Dar.C18_far_counterexample",
    "Dar.C18_trailing_eof_counterexample"
   ],
   "note": "writes in any chunking give the block-wise encryption; sessions of reads and seeks inside the data equal the clear data, with unencrypted head and trailing data; seeks to/beyond the end proved without trailing data when the block size is a multiple of the cipher's (C18_read_any); the failing cases are proved as counterexamples (seek to end with equal-sized last block or trailing data, sync in the middle, flush_read at the end, far seek)"
  },
  {
   "property": "C19",
   "status": "partial",
   "theorems": [
    "Dar.C19_size",
    "Dar.C19_buffer",
    "Dar.C19_file_partial",
    "Dar.C19_large_counterexample",
    "Dar.C19_aligned",
    "Dar.C19_crypt_block",
    "Dar.C19_refuse_short"
   ],
   "note": "buffers of any size; file variant up to 2^31 bytes, beyond which the code mis-skips (C19_large_counterexample)"
  },
  {
   "property": "C20",
   "status": "proved",
   "theorems": [
    "Dar.C20_items",
    "Dar.C20_visits",
    "Dar.C20_position",
    "Dar.C20_empty_counterexample",
    "Dar.C20_damaged_header",
    "Dar.C20_suspended"
   ],
   "note": "single-threaded block compressor: any number of items, any chunking, any read sizes; empty items store nothing (C20_empty_counterexample); damaged block headers refused; C20_visits: blocks read after any sequence of skips to recorded positions"
  },
  {
   "property": "C21",
   "status": "proved",
   "theorems": [
    "Dar.C21_roundtrip",
    "Dar.C21_roundtrip_fresh",
    "Dar.C21_old_fix_lost",
    "Dar.C21_no_collision",
    "Dar.C21_canonical",
    "Dar.C21_order",
    "Dar.C21_truncated",
    "Dar.C21_empty_reserved",
    "Dar.C21_zero_file"
   ],
   "note": "round trip for all versions; the fix field is lost for versions < 8 (stated in the theorem)"
  },
  {
   "property": "C22",
   "status": "partial",
   "theorems": [
    "Dar.C22_lt",
    "Dar.C22_ge",
    "Dar.C22_gt",
    "Dar.C22_le",
    "Dar.C22_reduce",
    "Dar.C22_eq",
    "Dar.C22_eq_same",
    "Dar.C22_add",
    "Dar.C22_sub",
    "Dar.C22_build",
    "Dar.C22_build_bounded",
    "Dar.C22_get_value",
    "Dar.C22_storage",
    "Dar.C22_old_storage",
    "Dar.C22_hourshift",
    "Dar.C22_loose_counterexample"
   ],
   "note": "order, equality (canonical form), addition, subtraction, conversion, storage in every format version and the rounding of the bounded builds; the 'loose' equality used to detect changes is characterised exactly and is not an equivalence (C22_loose_counterexample): a date falling on a whole second equals every date of that second"
  },
  {
   "property": "C23",
   "status": "proved",
   "theorems": [
    "Dar.C23_roundtrip",
    "Dar.C23_truncated",
    "Dar.C23_access"
   ],
   "note": "Lists of typed records round-trip, truncated lists are refused, access by index (with the off-by-one of operator[] as a theorem)."
  },
  {
   "property": "C24",
   "status": "proved",
   "theorems": [
    "Dar.C24_flags",
    "Dar.C24_slice_header",
    "Dar.C24_same_header",
    "Dar.C24_ref_header",
    "Dar.C24_header",
    "Dar.C24_damaged_header",
    "Dar.C24_old_reference_refused",
    "Dar.C24_old_reference_lost",
    "Dar.C24_truncated_salt",
    "Dar.C24_old_slice_header"
   ],
   "note": "Flags, slice header (start of slice, following slices, as reference in an isolated catalogue) and archive header with all optional fields, including nested header of the archive of reference and checksum; damage within two consecutive bytes is detected. Lax mode not modelled. Losses for old formats proved as separate theorems. Headers of the slices of archives made before the format 8 are read back as well (C24_old_slice_header)."
  },
  {
   "property": "C25",
   "status": "proved",
   "theorems": [
    "Dar.C25_normal",
    "Dar.C25_accept",
    "Dar.C25_display_parse",
    "Dar.C25_idempotent",
    "Dar.C25_url_counterexample",
    "Dar.C25_add",
    "Dar.C25_append_pop",
    "Dar.C25_pop_append"
   ],
   "note": "normal form, acceptance, display/parse idempotence (except a lone URL head, where it is false: C25_url_counterexample), append/pop inverse"
  },
  {
   "property": "C26",
   "status": "partial",
   "theorems": [
    "Dar.C26_subdir_partial",
    "Dar.C26_one_char_counterexample"
   ],
   "note": "exact for plain paths (no URL component) except when the parent is a relative path of one character, where the answer is wrong (C26_one_char_counterexample); case-insensitive comparison modelled as a bytewise map"
  },
  {
   "property": "C27",
   "status": "partial",
   "theorems": [
    "Dar.C27_boolean_path",
    "Dar.C27_boolean_text",
    "Dar.C27_holds_classical",
    "Dar.C27_empty",
    "Dar.C27_simple_path",
    "Dar.C27_exclude_dir_counterexample",
    "Dar.C27_list_exclude",
    "Dar.C27_list_include"
   ],
   "note": "AND/OR/NOT formulas, -g directory masks and path lists (include and exclude); exclude_dir_mask covers everything (C27_exclude_dir_counterexample); glob and regular expressions are arbitrary predicates, the line splitting of list files is C76"
  },
  {
   "property": "C28",
   "status": "partial",
   "theorems": [
    "Dar.C28_condition",
    "Dar.C28_ea_present_counterexample",
    "Dar.C28_date_counterexample",
    "Dar.C28_chain",
    "Dar.C28_chain_unique",
    "Dar.C28_test",
    "Dar.C28_total",
    "Dar.C28_final_constant"
   ],
   "note": "Every condition (all 21, with not, and, or, invert) answers what the manual documents for every pair of entries; chains give the documented, unique result; every well-formed policy decides. Missing because the code differs: condition e is false of hard-linked entries having EA (C28_ea_present_counterexample, excluded by hypothesis), R(date) is true of non-inodes (C28_date_counterexample). Policy text parsing is C51."
  },
  {
   "property": "C29",
   "status": "partial",
   "theorems": [
    "Dar.C29_check_order",
    "Dar.C29_data_partial",
    "Dar.C29_revival_counterexample",
    "Dar.C29_data_total",
    "Dar.C29_ea"
   ],
   "note": "Data lookup proved for every history whose dates are ordered by archive number (what check_order asks; C29_check_order ties the check to that order) and in which no archive records as unchanged a file the previous ones record as removed; C29_revival_counterexample shows the lookup wrong otherwise. EA lookup proved."
  },
  {
   "property": "C30",
   "status": "partial",
   "theorems": [
    "Dar.C30_remove",
    "Dar.C30_coordinates",
    "Dar.C30_permute",
    "Dar.C30_permute_undo",
    "Dar.C30_remove_range",
    "Dar.C30_remove_total",
    "Dar.C30_remove_twice",
    "Dar.C30_finalize"
   ],
   "note": "Removal (one, range), permutation, undo, totality and completion of absent records on single files proved for all trees. Not modelled: the re-finalisation that set_permutation runs over the directory tree after the permutation (its effect on one file is C30_finalize)."
  },
  {
   "property": "C31",
   "status": "proved",
   "theorems": [
    "Dar.C31_round_trip",
    "Dar.C31_upgrade_counterexample",
    "Dar.C31_versions",
    "Dar.C31_current"
   ],
   "note": "Round trip of the whole content for databases of the current format; compression and encryption layers below are not part of it (C18, C20). Databases of any version 2 to 7 are read with the documented meaning (C31_versions, C31_current). C31_upgrade_counterexample: a database of an older format is written back unreadable."
  },
  {
   "property": "C32",
   "status": "proved",
   "theorems": [
    "Dar.C32_round_trip",
    "Dar.C32_truncated",
    "Dar.C32_damaged",
    "Dar.C32_inline",
    "Dar.C32_links_consistent",
    "Dar.C32_unknown_type"
   ],
   "note": "Whole catalogue (any tree: files, doors, links, devices, pipes, sockets, directories, deletion records, hard links) round-trips; truncation always refused; damage within 4 bytes detected; in-line copies round-trip. Format 9+ reader, non-lax. Spec/Catalogue.lean states what is kept for data not saved. C32_links_consistent: in any catalogue that is accepted, whatever the bytes, each hard link has exactly one inode; C32_unknown_type: an unknown entry type is refused."
  },
  {
   "property": "C33",
   "status": "proved",
   "theorems": [
    "Dar.C33_recorded",
    "Dar.C33_nothing_else",
    "Dar.C33_completes",
    "Dar.C33_hard_links",
    "Dar.C33_example",
    "Dar.C33_hard_link_example",
    "Dar.C33_link_failure_counterexample",
    "Dar.C33_excluded"
   ],
   "note": "Every kept name of the source has a record and its saved/unsaved/inode-only/delta/EA/FSA status is the documented function of source and reference (C33_recorded); nothing else is recorded (C33_nothing_else); the backup completes for every well-formed source (C33_completes), names of one inode share one record (C33_hard_links). C33_excluded: what is recorded for an excluded entry. Found: a failure while saving a hard-linked inode may abort the backup on its next name (C33_link_failure_counterexample). The system calls that read inodes are inputs of the model."
  },
  {
   "property": "C34",
   "status": "proved",
   "theorems": [
    "Dar.C34_interrupted",
    "Dar.C34_interrupted_completes",
    "Dar.C34_interrupted_example",
    "Dar.C34_interrupted_fsa_counterexample",
    "Dar.C34_interrupted_link_counterexample",
    "Dar.C34_completes",
    "Dar.C34_recorded",
    "Dar.C34_backup",
    "Dar.C34_nothing_forgotten",
    "Dar.C34_example"
   ],
   "note": "Exact characterisation of the deletion records after update_destroyed_with alone (C34_recorded, C34_completes with their count) and for the whole differential backup (C34_backup, C34_nothing_forgotten); interrupted backups: exactly what was not reached is recorded as unchanged (C34_interrupted). Found: after an interruption the filesystem specific attributes are wrongly recorded as stored, and a hard link may be recorded as a name of another inode (two counterexamples)."
  },
  {
   "property": "C35",
   "status": "partial",
   "theorems": [
    "Dar.C35_chain_partial",
    "Dar.C35_example",
    "Dar.C35_unsaved_dir_counterexample",
    "Dar.C35_over_dir_counterexample",
    "Dar.C35_kind_counterexample",
    "Dar.C35_remove_counterexample",
    "Dar.C35_restore"
   ],
   "note": "C35_restore: any archive that tells enough about what is in place is restored exactly. C35_chain_partial: any sequence of states without hard links whose changes are visible in the compared metadata. Excluded because false, each with a proved counterexample: a directory replaced by something else, an inode with EA replaced by another type without EA; also an unsaved directory over a file and the policy 'remove'. Missing: hard links in differential states (C36 counterexamples show where it is false)"
  },
  {
   "property": "C36",
   "status": "partial",
   "theorems": [
    "Dar.C36_round_trip",
    "Dar.C36_example",
    "Dar.C36_ea_counterexample",
    "Dar.C36_fsa_counterexample",
    "Dar.C36_metadata_example",
    "Dar.C36_new_link_counterexample",
    "Dar.C36_full"
   ],
   "note": "full backup then restoration into an empty directory: exact for every tree with hard links (C36_round_trip). Differential restoration over existing hard links is wrong in several cases, proved as counterexamples (EA, FSA, new link)"
  },
  {
   "property": "C37",
   "status": "proved",
   "theorems": [
    "Dar.C37_value",
    "Dar.C37_refuse",
    "Dar.C37_empty_counterexample",
    "Dar.C37_crc_width"
   ],
   "note": "documented letters, refusal of anything else; the empty text gives 0 (C37_empty_counterexample); also the CRC width derived from a file size"
  },
  {
   "property": "C38",
   "status": "proved",
   "theorems": [
    "Dar.C38_roundtrip",
    "Dar.C38_accept"
   ],
   "note": ""
  },
  {
   "property": "C39",
   "status": "proved",
   "theorems": [
    "Dar.C39_expand",
    "Dar.C39_refuse",
    "Dar.C39_complete",
    "Dar.C39_hook"
   ],
   "note": ""
  },
  {
   "property": "C40",
   "status": "partial",
   "theorems": [
    "Dar.C40_union",
    "Dar.C40_sorted_partial",
    "Dar.C40_numbers",
    "Dar.C40_disjoint_counterexample",
    "Dar.C40_text"
   ],
   "note": "membership is the union for every sequence of additions; disjointness of stored segments fails when an addition touches more than two segments (C40_disjoint_counterexample)"
  },
  {
   "property": "C41",
   "status": "proved",
   "theorems": [
    "Dar.C41_locate_from",
    "Dar.C41_locate",
    "Dar.C41_locate_elastic",
    "Dar.C41_refuse_blank"
   ],
   "note": "for positions whose integer encoding is under 2^31 bytes"
  },
  {
   "property": "C42",
   "status": "partial",
   "theorems": [
    "Dar.C42_write_order",
    "Dar.C42_heap",
    "Dar.C42_write_no_deadlock",
    "Dar.C42_write_bounded",
    "Dar.C42_write_result",
    "Dar.C42_write_parallel",
    "Dar.C42_write_example",
    "Dar.C42_eof_failure_deadlock_counterexample",
    "Dar.C42_worker_exception_deadlock_counterexample",
    "Dar.C42_encrypt_error_silent_counterexample",
    "Dar.C42_read_order",
    "Dar.C42_read_heap",
    "Dar.C42_read_no_deadlock",
    "Dar.C42_read_bounded",
    "Dar.C42_read_result",
    "Dar.C42_read_example",
    "Dar.C42_two_damaged_blocks_deadlock_counterexample"
   ],
   "note": "Writing side of both classes and reading side of the compressor, every schedule; libthreadar's ratelier modelled from its documented behaviour. The reading side of parallel_tronconneuse is C75. Counterexamples: deadlock when the end marker cannot be written, deadlock on a non-Erange exception while ciphering, ciphering error on the last block reported to nobody. Deadlock when the reading of an archive with two damaged blocks is stopped. No-deadlock of the reading side is proved for at most one damaged block."
  },
  {
   "property": "C43",
   "status": "proved",
   "theorems": [
    "Dar.C43_refines",
    "Dar.C43_delivered",
    "Dar.C43_unblocked",
    "Dar.C43_isolated",
    "Dar.C43_example",
    "Dar.C43_clear_result",
    "Dar.C43_clear_association_counterexample",
    "Dar.C43_transitive_counterexample",
    "Dar.C43_forgotten_counterexample",
    "Dar.C43_check_split",
    "Dar.C43_race_counterexample"
   ],
   "note": "Every sequence of calls, from any threads (each call is one critical section). The test of check_self_cancellation made outside the mutex is treated separately (C43_check_split, C43_race_counterexample). Value returned by clear_pending_request: only without associations (counterexample otherwise). Signal masks, dead_thread's unlocked part and copied objects are not modelled."
  },
  {
   "property": "C44",
   "status": "proved",
   "theorems": [
    "Dar.C44_request",
    "Dar.C44_answer_data",
    "Dar.C44_answer_int",
    "Dar.C44_transparent",
    "Dar.C44_example",
    "Dar.C44_interrupted_counterexample"
   ],
   "note": "Any archive, any sequence of reads, seeks and information requests, any splitting of the pipe transfers, any stale answers left in the pipe (dropped); messages round-trip. Hypotheses: no signal interrupts a pipe read (otherwise wrong data: counterexample), status strings without NUL, slice header below 65536 bytes. Interruptions inside an integer field are not modelled."
  },
  {
   "property": "C45",
   "status": "partial",
   "theorems": [
    "Dar.C45_decremental_restores_partial",
    "Dar.C45_decremental_partial",
    "Dar.C45_merge_partial",
    "Dar.C45_directories_partial",
    "Dar.C45_no_links_partial",
    "Dar.C45_completes_partial",
    "Dar.C45_merge_example",
    "Dar.C45_decremental_example",
    "Dar.C45_refused_counterexample",
    "Dar.C45_clear_counterexample",
    "Dar.C45_clear_detruit_counterexample",
    "Dar.C45_mark_counterexample",
    "Dar.C45_decremental_fsa_counterexample",
    "Dar.C45_decremental_added_counterexample",
    "Dar.C45_shared_counterexample"
   ],
   "note": "Catalogue built by filtre_merge_step1 for two archives (not the copy of the data by step2): each path, each policy and answer; hard links kept, replaced or removed whole; refused confirmations for attributes excluded (counterexample). Decremental mode: what is in the backup, and that restoring it over the new state gives the old one, without hard links, for changes it can see (counterexamples for the others)."
  },
  {
   "property": "C46",
   "status": "proved",
   "theorems": [
    "Dar.C46_concurrent_exact",
    "Dar.C46_concurrent_progress",
    "Dar.C46_concurrent_example",
    "Dar.C46_unlocked_counterexample",
    "Dar.C46_sub_deadlock_counterexample",
    "Dar.C46_backup",
    "Dar.C46_failures",
    "Dar.C46_restore",
    "Dar.C46_example",
    "Dar.C46_dirty_counterexample",
    "Dar.C46_ea_failure_counterexample"
   ],
   "note": "Exact value of every counter of a backup in which nothing fails, bounds when some entries fail, the total of a restoration, and additions by any number of threads under every interleaving (exact at the end, never deadlocked). Counterexamples: a file modified while read and an entry whose EA fail are counted twice, unlocked (or move-constructed) objects lose updates, a failing subtraction keeps the mutex."
  },
  {
   "property": "C47",
   "status": "proved",
   "theorems": [
    "Dar.C47_ea_find",
    "Dar.C47_ea_round_trip",
    "Dar.C47_ea_plus",
    "Dar.C47_ea_diff",
    "Dar.C47_ea_example",
    "Dar.C47_truncated_counterexample",
    "Dar.C47_fsa_add",
    "Dar.C47_fsa_plus",
    "Dar.C47_fsa_find",
    "Dar.C47_fsa_round_trip",
    "Dar.C47_scope",
    "Dar.C47_fsa_included_partial",
    "Dar.C47_fsa_scope_counterexample",
    "Dar.C47_fsa_end_counterexample",
    "Dar.C47_fsa_example",
    "Dar.C47_ea_space",
    "Dar.C47_ea_old",
    "Dar.C47_immutable"
   ],
   "note": "Round-trip of any set of EA and of FSA; look up, assignment, addition, comparison (the comparison of FSA sets is right when it ends normally and the second set is not empty: counterexamples for the two other cases, and for a truncated EA value). C47_ea_space, C47_ea_old, C47_immutable: storage size, old format, immutable flag last."
  },
  {
   "property": "C48",
   "status": "partial",
   "theorems": [
    "Dar.C48_archive_partial",
    "Dar.C48_position_counterexample"
   ],
   "note": "Writing then opening in direct access mode through the real stack (header, padding, block compression, marks, encryption, terminators): the catalogue and each item read back exactly at the recorded position, for every operations list and settings. Missing: streamed compression, scrambling, GnuPG, slicing under it (C13). With marks, provisos: what follows the catalogue does not look like a mark; nothing between the last mark and the item does (counterexample proved)."
  },
  {
   "property": "C49",
   "status": "proved",
   "theorems": [
    "Dar.C49_hex",
    "Dar.C49_hash",
    "Dar.C49_terminate_once",
    "Dar.C49_read",
    "Dar.C49_example",
    "Dar.C49_error_counterexample"
   ],
   "note": "For every sequence of writes and every behaviour of write(2): the hash file has the hash of exactly the bytes of the slice when no write failed, none when the user gave up; the exact text of the hash file; the slice is a prefix of what was to be written; hash of a slice that is read. Counterexample: another failure leaves a hash file that does not describe the slice. H (libgcrypt) is a parameter."
  },
  {
   "property": "C50",
   "status": "partial",
   "theorems": [
    "Dar.C50_read",
    "Dar.C50_write",
    "Dar.C50_reduce",
    "Dar.C50_insert",
    "Dar.C50_remove",
    "Dar.C50_skip_to",
    "Dar.C50_truncate",
    "Dar.C50_index_partial",
    "Dar.C50_index_counterexample",
    "Dar.C50_alloc_counterexample"
   ],
   "note": "Read, write, insert, remove, truncate, place iterators: exact for every fragmentation. Indexing is wrong at block boundaries (C50_index_counterexample, true elsewhere: C50_index_partial), allocation under memory shortage never ends for odd sizes (C50_alloc_counterexample). Backward iterator moves, copy and comparison of sizes not modelled."
  },
  {
   "property": "C51",
   "status": "partial",
   "theorems": [
    "Dar.C51_meaning_partial",
    "Dar.C51_accepted",
    "Dar.C51_total",
    "Dar.C51_refused",
    "Dar.C51_manual_counterexample",
    "Dar.C51_precedence_counterexample",
    "Dar.C51_overflow_counterexample"
   ],
   "note": "C51_meaning_partial: every text of the grammar the program implements (actions of two letters between brackets, stacked else parts, chains; conditions with the usual priorities, no conjunction ending with a parenthesised disjunction) with blanks anywhere is accepted and decides as the independent specification says. C51_accepted: conversely every accepted text is in that grammar. C51_refused: everything else ends in Erange. C51_total: an accepted policy never fails. Missing: the documented nesting in brackets and a disjunction as last operand of a conjunction, where the program is wrong (C51_manual_counterexample, C51_precedence_counterexample, C51_overflow_counterexample)."
  },
  {
   "property": "C52",
   "status": "proved",
   "theorems": [
    "Dar.C52_date",
    "Dar.C52_out_of_range",
    "Dar.C52_seconds",
    "Dar.C52_chars",
    "Dar.C52_past",
    "Dar.C52_lax_counterexample"
   ],
   "note": "For any clock (localtime and mktime are parameters)."
  },
  {
   "property": "C53",
   "status": "proved",
   "theorems": [
    "Dar.C53_new",
    "Dar.C53_add",
    "Dar.C53_history",
    "Dar.C53_remove_counterexample",
    "Dar.C53_permute_counterexample",
    "Dar.C53_date_counterexample",
    "Dar.C53_lookup"
   ],
   "note": "For every database made by additions from a new one (Database.Ok is kept by C53_add) and archives whose directories have no two entries of one name; any addition that succeeds. After a removal or a permutation the history theorem does not hold: C53_remove_counterexample, C53_permute_counterexample; C53_date_counterexample shows that the order check hypothesis of C53_lookup is needed."
  },
  {
   "property": "C54",
   "status": "proved",
   "theorems": [
    "Dar.C54_api",
    "Dar.C54_restored",
    "Dar.C54_complete",
    "Dar.C54_cmd",
    "Dar.C54_cmd_total",
    "Dar.C54_cmd_data",
    "Dar.C54_relative_counterexample",
    "Dar.C54_cmd_ea_counterexample",
    "Dar.C54_cmd_removed_counterexample",
    "Dar.C54_unknown_counterexample",
    "Dar.C54_late_counterexample"
   ],
   "note": "C54_complete: databases made by additions, absolute directory, date check passed, latest state, API. C54_api and C54_restored hold for every tidy database and every date, the latter with the hypothesis that no archive read holds the path with a later date (needed: C54_late_counterexample). By calls to dar: C54_cmd, C54_cmd_total, C54_cmd_data; the EA are not covered because the code does not restore them (C54_cmd_ea_counterexample). Other defects: C54_relative_counterexample, C54_cmd_removed_counterexample, C54_unknown_counterexample."
  },
  {
   "property": "C55",
   "status": "proved",
   "theorems": [
    "Dar.C55_outside",
    "Dar.C55_preserve",
    "Dar.C55_names",
    "Dar.C55_policy_file",
    "Dar.C55_policy_missing",
    "Dar.C55_policy_deleted",
    "Dar.C55_only_deleted",
    "Dar.C55_example_overwrite",
    "Dar.C55_example_preserve",
    "Dar.C55_patch_counterexample",
    "Dar.C55_remove_counterexample",
    "Dar.C55_remove_unsaved_counterexample",
    "Dar.C55_only_deleted_counterexample",
    "Dar.C55_example_only_deleted"
   ],
   "note": "C55_outside, C55_names: any policy. C55_preserve: archives without binary difference whose hard linked inodes are saved (needed: C55_patch_counterexample); directories keep their content, and their metadata when nothing is to be created in them (needed: C55_example_preserve). C55_policy_file: plain entries (no hard link on either side) whose parent directories are kept; C55_policy_missing, C55_policy_deleted, C55_only_deleted likewise. Not covered: the outcome of the policy on existing directories and on hard linked entries (beyond C55_outside, C55_preserve and C55_names)."
  },
  {
   "property": "C56",
   "status": "proved",
   "theorems": [
    "Dar.C56_data",
    "Dar.C56_offset_counterexample",
    "Dar.C56_compare",
    "Dar.C56_told",
    "Dar.C56_clean",
    "Dar.C56_restored",
    "Dar.C56_restore_then_compare",
    "Dar.C56_example",
    "Dar.C56_example_restored",
    "Dar.C56_hourshift_counterexample",
    "Dar.C56_ea_counterexample",
    "Dar.C56_deleted_counterexample",
    "Dar.C56_unreadable_counterexample"
   ],
   "note": "Model/Difference.lean. C56_data (contents by blocks of any size), C56_compare (inodes: silence exactly when Agrees, for every option), C56_told (the whole tree: exactly one word for each reachable entry, counters), C56_clean, C56_restored and C56_restore_then_compare (a restored full backup shows no difference). Readable excludes unreadable files and the quirk of FSA lists shown in C47; outside of it see the counterexamples in Props/DifferenceEx.lean. Not modelled: sequential reading."
  },
  {
   "property": "C57",
   "status": "proved",
   "theorems": [
    "Dar.C57_name",
    "Dar.C57_accepted",
    "Dar.C57_roundtrip",
    "Dar.C57_higher",
    "Dar.C57_last",
    "Dar.C57_remove",
    "Dar.C57_remove_slices",
    "Dar.C57_example",
    "Dar.C57_alien_counterexample",
    "Dar.C57_zeros_counterexample"
   ],
   "note": "Model/SliceNames.lean: names, uniqueness, round trip, last slice and removal proved for all inputs; what the code takes for a slice is characterised exactly (C57_accepted), and is more than the slices: see C57_alien_counterexample (finding). Not modelled: errors of the directory itself."
  },
  {
   "property": "C58",
   "status": "partial",
   "theorems": [
    "Dar.C58_expand",
    "Dar.C58_secret_partial",
    "Dar.C58_refused",
    "Dar.C58_lone_counterexample",
    "Dar.C58_every",
    "Dar.C58_example",
    "Dar.C58_leak_counterexample"
   ],
   "note": "Expansion proved for all comments and command lines, non-interference proved for options given as separate arguments in the listed forms; false for the other accepted forms (C58_leak_counterexample, finding)."
  },
  {
   "property": "C59",
   "status": "proved",
   "theorems": [
    "Dar.C59_skip_then_interrupted_counterexample",
    "Dar.C59_failed_link_counterexample",
    "Dar.C59_same_directory_twice_counterexample",
    "Dar.C59_two_skips_counterexample",
    "Dar.C59_can_be_written",
    "Dar.C59_same_as_direct",
    "Dar.C59_interrupted",
    "Dar.C59_deletions",
    "Dar.C59_catalogue_in_memory"
   ],
   "note": "Simulation: each call of escape_catalogue::read answers what catalogue::read answers on the tree told by the in-line copies followed by the deletion records. Hypotheses: entries of an archive of format 9 or more, names distinct in each directory, hard linked entries never fail to be saved, data not starting with the escape pattern (counterexamples for these), no early memory release; is_subset_of and the reading of the catalogue are parameters."
  },
  {
   "property": "C60",
   "status": "proved",
   "theorems": [
    "Dar.C60_what_is_checked",
    "Dar.C60_refused",
    "Dar.C60_untouched",
    "Dar.C60_signed_archive_reads",
    "Dar.C60_attributes_not_checked",
    "Dar.C60_missing_not_noticed",
    "Dar.C60_replaced_file_accepted",
    "Dar.C60_false_alarm"
   ],
   "note": "is_subset_of characterised exactly (C60_what_is_checked, an equivalence), the error of the reading (C60_refused), acceptance of what a backup leaves (C60_untouched, C60_signed_archive_reads: the hypothesis of C59 on signed archives is met). What is not checked is proved too: attributes, sizes, checksums (C60_attributes_not_checked, C60_replaced_file_accepted), entries taken out (C60_missing_not_noticed), and a false alarm (C60_false_alarm). C59 now allows hard links whose other names are not in the backup."
  },
  {
   "property": "C61",
   "status": "partial",
   "theorems": [
    "Dar.C61_read",
    "Dar.C61_read_returns",
    "Dar.C61_write",
    "Dar.C61_write_returns",
    "Dar.C61_not_after_full",
    "Dar.C61_skip",
    "Dar.C61_skip_to_eof",
    "Dar.C61_skip_relative",
    "Dar.C61_truncate",
    "Dar.C61_pipe_write",
    "Dar.C61_pipe_read",
    "Dar.C61_pipe_read_all_partial",
    "Dar.C61_pipe_has_next",
    "Dar.C61_pipe_skip",
    "Dar.C61_pipe_to_eof",
    "Dar.C61_not_pipe_position",
    "Dar.C61_not_pipe_interrupted",
    "Dar.C61_file_interrupted",
    "Dar.C61_not_pipe_has_next"
   ],
   "note": "Proved for files: whatever the answers of the system a reading or writing that returns is the one of the plain file all the other layers are built on, a failed or stopped writing has written a prefix at the right place, and they return if enough transfers happen; positions and truncation. For pipes: writing exact, reading loses and invents nothing, skip drops exactly what is in between; that a short reading only happens at the end is proved without interruptions (_partial) and refuted with them; also refuted: position after going to the end, writing after the user has refused to go on."
  },
  {
   "property": "C62",
   "status": "proved",
   "theorems": [
    "Dar.C62_copy",
    "Dar.C62_status",
    "Dar.C62_new_file",
    "Dar.C62_missing",
    "Dar.C62_ends",
    "Dar.C62_not_forced",
    "Dar.C62_not_next_readable",
    "Dar.C62_not_whole_readings",
    "Dar.C62_not_short_writes",
    "Dar.C62_not_large_hole"
   ],
   "note": "For every source, damaged places, short reads and short writes (short writes: where a reading gives what precedes the damage, as Linux does; else writings are taken as complete): each byte copied is at its place, status good iff all can be read and then the copy is the source (followed by what a longer old destination held), the number told is exact, gaps begin and end with damaged bytes, it ends (source up to 2^31-1024 bytes, undefined behaviour is proved beyond). Counterexamples proved for -f, for the search of the next readable byte and for systems whose readings fail as a whole."
  },
  {
   "property": "C63",
   "status": "partial",
   "theorems": [
    "Dar.C63_lines",
    "Dar.C63_comments",
    "Dar.C63_comments_hidden",
    "Dar.C63_commands_kept",
    "Dar.C63_conditions",
    "Dar.C63_target_line",
    "Dar.C63_read_byte",
    "Dar.C63_skip",
    "Dar.C63_read_start",
    "Dar.C63_read_pieces_counterexample",
    "Dar.C63_words",
    "Dar.C63_words_any",
    "Dar.C63_words_unique",
    "Dar.C63_open_quote",
    "Dar.C63_tab_in_quotes_counterexample",
    "Dar.C63_newline_in_quotes_counterexample",
    "Dar.C63_leading_backslash_counterexample",
    "Dar.C63_lost_word_counterexample",
    "Dar.C63_file",
    "Dar.C63_file_total",
    "Dar.C63_file_case",
    "Dar.C63_last_target_counterexample",
    "Dar.C63_quoted_comment_counterexample",
    "Dar.C63_inclusions",
    "Dar.C63_inclusions_iff",
    "Dar.C63_self_inclusion",
    "Dar.C63_inclusions_case"
   ],
   "note": "Proved for every file: comments (C63_comments and consequences), conditional syntax, words, pieces read byte after byte, whole pipeline (C63_file, C63_file_total), inclusions (refused exactly when there is no finite expansion). Partial because the code departs from the documentation (counterexamples proved): hide_file reads over several pieces lose bytes (never done by dar), tab in quotes lost, newline in quotes becomes a space, a word beginning with a backslash is glued to the next one or lost, a target on a last line without newline is taken as an option, comment lines are removed inside quotes."
  },
  {
   "property": "C64",
   "status": "partial",
   "theorems": [
    "Dar.C64_ordered",
    "Dar.C64_normal",
    "Dar.C64_names",
    "Dar.C64_names_case",
    "Dar.C64_tree",
    "Dar.C64_backup",
    "Dar.C64_tree_case",
    "Dar.C64_listing_counterexample",
    "Dar.C64_root_counterexample",
    "Dar.C64_backup_case"
   ],
   "note": "Both methods, names and paths, and the composition with the backup (the archive contains exactly the selected files and directories) are proved for -I -X -g -P with arguments that have no wildcard (names: any predicate). Not fully true of the code: -] with -am does not act as -P (C64_listing_counterexample), a root with special characters breaks -P (C64_root_counterexample)."
  },
  {
   "property": "C65",
   "status": "partial",
   "theorems": [
    "Dar.C65_reads",
    "Dar.C65_hard_links",
    "Dar.C65_any_history",
    "Dar.C65_all_files",
    "Dar.C65_last_error_lost",
    "Dar.C65_unreadable_not_counted",
    "Dar.C65_inode_reused"
   ],
   "note": "Reading of the files to save: for a tree that does not change, exactly the walk is given (C65_reads, C65_all_files) and hard links are recognised exactly (C65_hard_links); for any history of the filesystem, what is given was answered and errors are counted in the statistics or in the last call (C65_any_history). Missing: the code loses the errors of the last call and does not count what it cannot open (C65_last_error_lost, C65_unreadable_not_counted), and takes a reused inode number for a hard link (C65_inode_reused)."
  },
  {
   "property": "C66",
   "status": "partial",
   "theorems": [
    "Dar.C66_hooks_partial",
    "Dar.C66_around_partial",
    "Dar.C66_pairs",
    "Dar.C66_excluded_directory_counterexample",
    "Dar.C66_failed_directory_counterexample",
    "Dar.C66_unchanged_directory_counterexample"
   ],
   "note": "Commands run around the saving of files: as documented when no directory is left out or fails inside a covered directory (C66_hooks_partial, C66_around_partial); for every tree commands come in pairs but for the last start (C66_pairs). Missing because the code fails: a directory left out or failing inside a covered directory, and a covered directory unchanged since the reference (three counterexamples)."
  },
  {
   "property": "C67",
   "status": "partial",
   "theorems": [
    "Dar.C67_bounded",
    "Dar.C67_saved",
    "Dar.C67_consistent",
    "Dar.C67_dirty_partial",
    "Dar.C67_head",
    "Dar.C67_dirty_lost",
    "Dar.C67_head_stale",
    "Dar.C67_late_skip",
    "Dar.C67_disappeared"
   ],
   "note": "A file that changes while it is saved: number of readings bounded (C67_bounded), saved means the data of the last reading with an unchanged date (C67_saved), and for every interleaving of changes the content of one single moment (C67_consistent). Dirty files: data in place if no limit of wasted bytes is set (C67_dirty_partial). Missing because the code fails: with such a limit the data of a dirty file may be lost (C67_dirty_lost)."
  },
  {
   "property": "C68",
   "status": "proved",
   "theorems": [
    "Dar.C68_no_overwrite",
    "Dar.C68_agreed",
    "Dar.C68_scope",
    "Dar.C68_refused",
    "Dar.C68_content",
    "Dar.C68_content_single",
    "Dar.C68_other_hash",
    "Dar.C68_empty_left",
    "Dar.C68_dangling"
   ],
   "note": "No existing file is changed without permission, at any time and whatever fails (C68_no_overwrite, C68_agreed, C68_scope), an archive of the same name is recognised (C68_refused), slices hold nothing of older files (C68_content, C68_content_single). Side effects found: C68_other_hash, C68_empty_left, C68_dangling."
  },
  {
   "property": "C69",
   "status": "proved",
   "theorems": [
    "Dar.C69_isolate",
    "Dar.C69_not_an_archive",
    "Dar.C69_rescue",
    "Dar.C69_opened",
    "Dar.C69_wrong_archive",
    "Dar.C69_differential",
    "Dar.C69_dangling_counterexample",
    "Dar.C69_stale_counterexample",
    "Dar.C69_inode_only_counterexample",
    "Dar.C69_old_isolated_counterexample",
    "Dar.C69_archive_changed_counterexample"
   ],
   "note": "Isolation of any sound archive or isolated catalogue, opening with it whatever remains of the archive, names, slices, signatures (copied, not computed), differential backup; findings proved as counterexamples (patches keep a dangling signature, internal errors). Not modelled: signatures computed during isolation beyond the internal error, sequential reading, lax mode."
  },
  {
   "property": "C70",
   "status": "proved",
   "theorems": [
    "Dar.C70_test",
    "Dar.C70_dar_test",
    "Dar.C70_damage_detected",
    "Dar.C70_all_counted",
    "Dar.C70_abort",
    "Dar.C70_rest_of_directory_counterexample",
    "Dar.C70_truncated_counterexample",
    "Dar.C70_isolated",
    "Dar.C70_second_damage_not_reported_counterexample",
    "Dar.C70_directory_damage_counterexample",
    "Dar.C70_second_name_counterexample",
    "Dar.C70_directory_sequential_counterexample"
   ],
   "note": "Direct access: success iff everything selected is intact (C70_dar_test), counters (C70_test), detection of damages (C70_damage_detected); sequential reading: every damage counted (C70_all_counted). Proved limits of the code: C70_*_counterexample, C70_isolated."
  },
  {
   "property": "C71",
   "status": "partial",
   "theorems": [
    "Dar.C71_reslice",
    "Dar.C71_created",
    "Dar.C71_created_pipe",
    "Dar.C71_same_as_created",
    "Dar.C71_chain",
    "Dar.C71_success",
    "Dar.C71_header_error",
    "Dar.C71_copy_error",
    "Dar.C71_write_error",
    "Dar.C71_foreign",
    "Dar.C71_last_missing",
    "Dar.C71_pipe_end",
    "Dar.C71_random_access_partial",
    "Dar.C71_interrupted",
    "Dar.C71_old_name_counterexample",
    "Dar.C71_close_counterexample",
    "Dar.C71_interrupted_counterexample",
    "Dar.C71_truncated_slice_counterexample",
    "Dar.C71_truncated_single_counterexample"
   ],
   "note": "Proved: C71_reslice, C71_same_as_created, C71_chain, C71_created(_pipe), C71_success, C71_foreign, C71_last_missing, C71_pipe_end, C71_random_access_partial. The claim is partial because the code violates parts of it: C71_*_counterexample (07 data name, failure at closing, interrupted transformation left as complete, truncated slices); slices with no room for a byte excluded (Room)."
  },
  {
   "property": "C72",
   "status": "proved",
   "theorems": [
    "Dar.C72_visits",
    "Dar.C72_zstd_visits",
    "Dar.C72_truncated",
    "Dar.C72_zstd_truncated",
    "Dar.C72_position",
    "Dar.C72_suspended",
    "Dar.C72_zstd_suspended",
    "Dar.C72_damaged",
    "Dar.C72_zstd_damaged",
    "Dar.C72_suspended_read",
    "Dar.C72_total_counterexample",
    "Dar.C72_empty_counterexample",
    "Dar.C72_truncated_counterexample",
    "Dar.C72_truncate_counterexample",
    "Dar.C72_zstd_position_counterexample",
    "Dar.C72_suspend_read_counterexample"
   ],
   "note": "Both classes, for every library meeting Spec/StreamComp.lean (its laws are met by a toy library): C72_visits and C72_zstd_visits, positions, suspension, cut streams, errors. What the code gets wrong is stated as counterexamples (empty items, counter of the library, truncation, zstd position, suspension while reading)."
  },
  {
   "property": "C73",
   "status": "proved",
   "theorems": [
    "Dar.C73_iv",
    "Dar.C73_block",
    "Dar.C73_layer",
    "Dar.C73_distinct",
    "Dar.C73_pbkdf2",
    "Dar.C73_strong",
    "Dar.C73_reader",
    "Dar.C73_salts",
    "Dar.C73_refused",
    "Dar.C73_algorithms",
    "Dar.C73_iterations_counterexample",
    "Dar.C73_hash_counterexample"
   ],
   "note": "PBKDF2 against RFC 8018 (Spec/Keys.lean) for every input below the 32 bit limit of its counter, reader = writer, salts, initial vectors, CBC; two counterexamples state what fails (counts of 2^32-1 or more, three hash algorithms)."
  },
  {
   "property": "C74",
   "status": "partial",
   "theorems": [
    "Dar.C74_signature",
    "Dar.C74_delta",
    "Dar.C74_signature_and_delta_partial",
    "Dar.C74_load",
    "Dar.C74_patch",
    "Dar.C74_apply",
    "Dar.C74_checked",
    "Dar.C74_hard_link_partial",
    "Dar.C74_round_trip",
    "Dar.C74_empty_read_counterexample",
    "Dar.C74_hard_link_counterexample",
    "Dar.C74_result_counterexample"
   ],
   "note": "C74_round_trip: signature, loading, delta, patch, application, for every library meeting Spec/Rsync.lean; C74_checked: safety for any library. Partial because the code fails in three cases, proved as counterexamples (empty read, second hard link, CRC of the result compared too late)."
  },
  {
   "property": "C75",
   "status": "partial",
   "theorems": [
    "Dar.C75_reads_and_seeks",
    "Dar.C75_schedule_independent",
    "Dar.C75_skip_to_eof_partial",
    "Dar.C75_good_example",
    "Dar.C75_seek_over_damaged_block_counterexample",
    "Dar.C75_seek_past_end_counterexample",
    "Dar.C75_last_block_lost_counterexample",
    "Dar.C75_skip_to_eof_counterexample"
   ],
   "note": "Proved for every undamaged archive, schedule and sequence of calls staying within the data (C75_reads_and_seeks). Partial because the code violates the property: seek over a damaged block, seek past the end, trailing clear data in a full block and skip_to_eof after the end was met are proved to misbehave (counterexamples)."
  },
  {
   "property": "C76",
   "status": "partial",
   "theorems": [
    "Dar.C76_nothing_lost_partial",
    "Dar.C76_chunking_partial",
    "Dar.C76_chunking_counterexample",
    "Dar.C76_default",
    "Dar.C76_default_shape",
    "Dar.C76_crlf_partial",
    "Dar.C76_crlf_counterexample",
    "Dar.C76_empty_line_counterexample",
    "Dar.C76_last_line_counterexample",
    "Dar.C76_end_of_file_counterexample",
    "Dar.C76_overlap_counterexample",
    "Dar.C76_single_byte",
    "Dar.C76_empty_sequence",
    "Dar.C76_selection",
    "Dar.C76_trailing_slash_counterexample"
   ],
   "note": "Complete for the default ends of line and for one-byte ones (C76_default, C76_single_byte, C76_selection). For other sequences, nothing is lost when the file is read in one go or when no sequence is inside another one (C76_nothing_lost_partial). The code violates the property in the cases listed as counterexamples."
  },
  {
   "property": "C77",
   "status": "partial",
   "theorems": [
    "Dar.Ex.C77_exceptions",
    "Dar.Ex.C77_ended",
    "Dar.Ex.C77_completed",
    "Dar.Ex.C77_success",
    "Dar.Ex.C77_dirty",
    "Dar.Ex.C77_command_line",
    "Dar.Ex.C77_diff",
    "Dar.Ex.C77_extract_full",
    "Dar.Ex.C77_extract",
    "Dar.Ex.C77_create",
    "Dar.Ex.C77_create_status",
    "Dar.Ex.C77_test",
    "Dar.Ex.C77_example",
    "Dar.Ex.C77_licence_counterexample",
    "Dar.Ex.C77_masked_counterexample",
    "Dar.Ex.C77_database_counterexample",
    "Dar.Ex.C77_test_stopped_counterexample"
   ],
   "note": "Every class of exception gives the code of the manual (C77_exceptions, handlers in their order with the class hierarchy); an execution ended by an exception gives its code (C77_ended), one that ends normally 11, 5 or 0 according to the counters (C77_completed, C77_success, C77_dirty); the command line (C77_command_line); with the models of the operations: dar -d gives 0 iff all selected entries agree, else 5 (C77_diff), dar -t gives 0 iff all selected is intact (C77_test), dar -x (C77_extract, C77_extract_full), dar -c (C77_create, C77_create_status). Partial because the code violates it (counterexamples): 11 masks 5; restoration from a database ignores failures; a test stopped by an Erange gives 0; -L and -W give 1."
  },
  {
   "property": "C78",
   "status": "partial",
   "theorems": [
    "Dar.Lc.C78_bytes",
    "Dar.Lc.C78_complete_partial",
    "Dar.Lc.C78_no_deadlock",
    "Dar.Lc.C78_example",
    "Dar.Lc.C78_end_counterexample",
    "Dar.Lc.C78_slow_counterexample",
    "Dar.Lc.C78_skip_counterexample",
    "Dar.Lc.C78_short_counterexample",
    "Dar.Lc.C78_failure_counterexample",
    "Dar.Lc.C78_unknown_size_counterexample",
    "Dar.Lc.C78_ahead_zero_counterexample"
   ],
   "note": "Proved for files of known size (fichier_libcurl asked for its size) and calls that ask for something: bytes and position for every schedule, cut and failure (C78_bytes); no deadlock; completeness only for executions without failure where the caller does not run between sub_is_dying and the empty block (C78_complete_partial): the code gives short reads otherwise (C78_short_counterexample, C78_failure_counterexample). Other defects proved as counterexamples: SRC_BUG at the end of the file, when the thread ends late, and on skip; wrong data with read_ahead(0) or, by ftp, when the size is not known."
  },
  {
   "property": "C79",
   "status": "partial",
   "theorems": [
    "Dar.Mp.C79_filesystems_partial",
    "Dar.Mp.C79_refused",
    "Dar.Mp.C79_recorded",
    "Dar.Mp.C79_links",
    "Dar.Mp.C79_mount_point",
    "Dar.Mp.C79_example",
    "Dar.Mp.C79_legacy_example",
    "Dar.Mp.C79_legacy_counterexample",
    "Dar.Mp.C79_api_counterexample",
    "Dar.Mp.C79_dotdot_counterexample",
    "Dar.Mp.C79_colon_counterexample",
    "Dar.Mp.C79_backup_example"
   ],
   "note": "The filter dar makes from any list of options -M covers exactly the filesystems the manual tells (C79_filesystems_partial), relative or missing paths are refused, and with it a file or directory is in the archive exactly when it and the directories above are on covered filesystems and kept otherwise (both ways), hard links and mount points included. Missing: the legacy form given after a form with an argument, which the code ignores contrary to the manual (counterexample); also proved: counterexamples for the interface, '..' with symbolic links, paths with ':'."
  },
  {
   "property": "C80",
   "status": "partial",
   "theorems": [
    "Dar.Sb.C80_formula",
    "Dar.Sb.C80_bounds",
    "Dar.Sb.C80_monotone",
    "Dar.Sb.C80_option_partial",
    "Dar.Sb.C80_default",
    "Dar.Sb.C80_refused",
    "Dar.Sb.C80_example",
    "Dar.Sb.C80_option_example",
    "Dar.Sb.C80_max_counterexample",
    "Dar.Sb.C80_min_counterexample",
    "Dar.Sb.C80_log2_counterexample",
    "Dar.Sb.C80_zero_counterexample"
   ],
   "note": "Formula, bounds and monotony are proved for every size and every parameters, with unbounded and limited integers, against a specification of the roots and of the logarithm by inequalities; the option is proved to give the fields written. Missing: the manual tells that without max there is no maximum, the code keeps 131072 (counterexample); other counterexamples: log2 of an exact power of two, block size 0 accepted."
  },
  {
   "property": "C81",
   "status": "partial",
   "theorems": [
    "Dar.Eas.C81_policy_partial",
    "Dar.Eas.C81_new_partial",
    "Dar.Eas.C81_link_partial",
    "Dar.Eas.C81_sources",
    "Dar.Eas.C81_sources_new",
    "Dar.Eas.C81_policy_example",
    "Dar.Eas.C81_hypotheses_example",
    "Dar.Eas.C81_merge_counterexample",
    "Dar.Eas.C81_capability_counterexample",
    "Dar.Eas.C81_preserve_counterexample",
    "Dar.Eas.C81_shared_counterexample",
    "Dar.Eas.C81_refused_counterexample"
   ],
   "note": "Policy, new files, other links: proved for a system that accepts to set and remove every attribute; where the code does otherwise than the manual (merging when only uncovered attributes are in place, capabilities of hard links and of preserved attributes, replaced hard links, refused attributes) counterexamples are proved. Sources and untouched inodes: proved for any refusal."
  },
  {
   "property": "C82",
   "status": "proved",
   "theorems": [
    "Dar.Ua.C82_url",
    "Dar.Ua.C82_digits",
    "Dar.Ua.C82_retry",
    "Dar.Ua.C82_mode",
    "Dar.Ua.C82_cipher",
    "Dar.Ua.C82_key",
    "Dar.Ua.C82_recipients",
    "Dar.Ua.C82_slash_counterexample",
    "Dar.Ua.C82_colon_counterexample",
    "Dar.Ua.C82_proto_counterexample",
    "Dar.Ua.C82_twice_counterexample"
   ],
   "note": "URL, --min-digits, --retry-on-change and --slice-mode: equivalence with the grammar of the manual. -K: every form. The texts the grammar leaves out (a password with / : or @, IPv6 hosts) are shown in counterexamples."
  },
  {
   "property": "C83",
   "status": "proved",
   "theorems": [
    "Dar.Dh.C83_roundtrip",
    "Dar.Dh.C83_cut",
    "Dar.Dh.C83_later",
    "Dar.Dh.C83_strong",
    "Dar.Dh.C83_file",
    "Dar.Dh.C83_database",
    "Dar.Dh.C83_empty_counterexample",
    "Dar.Dh.C83_undefined_counterexample",
    "Dar.Dh.C83_option_counterexample",
    "Dar.Dh.C83_reopened_counterexample",
    "Dar.Dh.C83_upgrade_counterexample",
    "Dar.Dh.C83_weak_counterexample"
   ],
   "note": "Round trip, truncation, later versions, strength of what may be asked, and the whole file: header, layers (as parameters that give back what they were given) and content (C31). Format versions 6 and 7 for the header; undefined reads and reopened databases in counterexamples."
  },
  {
   "property": "C84",
   "status": "proved",
   "theorems": [
    "Dar.Eo.C84_escapes",
    "Dar.Eo.C84_list",
    "Dar.Eo.C84_any",
    "Dar.Eo.C84_zero_counterexample",
    "Dar.Eo.C84_hexa_counterexample",
    "Dar.Eo.C84_octal_counterexample",
    "Dar.Eo.C84_empty_counterexample"
   ],
   "note": "Escape sequences: equivalence with their grammar. Lists: every list of sequences, with commas and backslashes escaped, is understood as written. What dar does not take as C does is in counterexamples."
  },
  {
   "property": "C85",
   "status": "proved",
   "theorems": [
    "Dar.Zc.C85_number",
    "Dar.Zc.C85_compression",
    "Dar.Zc.C85_one_meaning",
    "Dar.Zc.C85_create",
    "Dar.Zc.C85_zstd_counterexample",
    "Dar.Zc.C85_alone_counterexample",
    "Dar.Zc.C85_colon_counterexample"
   ],
   "note": "All texts; iff with the grammar of the manual, numbers included (C85_number). What the compression libraries make of a level is outside. Counterexamples: zstd levels are not bounded, a lone level is only checked at creation, gzip: is refused."
  },
  {
   "property": "C86",
   "status": "partial",
   "theorems": [
    "Dar.Ff.C86_new",
    "Dar.Ff.C86_refused",
    "Dar.Ff.C86_protected",
    "Dar.Ff.C86_other_kind",
    "Dar.Ff.C86_policy",
    "Dar.Ff.C86_only",
    "Dar.Ff.C86_preserve",
    "Dar.Ff.C86_immutable_partial",
    "Dar.Ff.C86_replaced",
    "Dar.Ff.C86_example",
    "Dar.Ff.C86_refused_example",
    "Dar.Ff.C86_immutable_counterexample",
    "Dar.Ff.C86_merge_counterexample",
    "Dar.Ff.C86_preserve_counterexample",
    "Dar.Ff.C86_append_counterexample",
    "Dar.Ff.C86_count_counterexample"
   ],
   "note": "Family extX of Linux, files that are not hard linked. The immutable flag over an existing file is restored only when another flag changes (C86_immutable_partial and its counterexample): the code does not satisfy the full statement. Also counterexamples for preserved flags when data is overwritten, append-only files, merge policy and the count."
  },
  {
   "property": "C87",
   "status": "partial",
   "theorems": [
    "Dar.Er.C87_unique",
    "Dar.Er.C87_exclude_partial",
    "Dar.Er.C87_dollar",
    "Dar.Er.C87_example",
    "Dar.Er.C87_end_counterexample",
    "Dar.Er.C87_second_counterexample",
    "Dar.Er.C87_root_counterexample"
   ],
   "note": "Proved for an expression of the form ^x$ or x$ where x is a branch (no alternation out of parentheses) without anchors: the built text reads in exactly one way and is found exactly in the right paths. Missing: false of the code for expressions without $ at the end and for alternations (three counterexamples proved); brackets and braces are not in the grammar."
  }
 ]
}