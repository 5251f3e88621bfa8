{"id": "C01", "title": "Integer serialisation round-trips", "statement": "Writing any non-negative integer to an archive and reading it back yields the same integer and leaves exactly the bytes that followed it; the on-disk form is self-delimiting.", "quantifier": "every non-negative integer of any size, every byte sequence that follows it in the file", "why_tests_cant": "The set of integers is unbounded and the encoding switches shape at each multiple of 4 and of 32 bytes of width; tests sample a few sizes.", "anchors": ["src/libdar/real_infinint.cpp: infinint::dump, infinint::build_from_file", "src/libdar/limitint.hpp: limitint::dump, limitint::build_from_file"]}
{"id": "C02", "title": "Unbounded integers compute exactly", "statement": "Addition, subtraction, multiplication, division, remainder, shifts, bitwise operations and comparisons on unbounded integers return the mathematical result; subtracting a larger value or dividing by zero is reported as an error and never yields a value.", "quantifier": "every pair of non-negative integers, of any size, in canonical or non-canonical internal form", "why_tests_cant": "Carry, borrow and normalisation chains are as long as the operands; no test set covers all lengths and forms.", "anchors": ["src/libdar/real_infinint.cpp: operator+=, -=, *=, <<=, >>=, &=, |=, ^=, difference, euclide"]}
{"id": "C03", "title": "Bounded integers never wrap silently", "statement": "In the 32/64 bit builds every integer operation either returns the mathematically exact result or reports an overflow error; no operation returns a wrapped-around value.", "quantifier": "every pair of representable values, every operation, both build widths", "why_tests_cant": "2^128 operand pairs; the interesting ones are at the overflow boundary of each operation.", "anchors": ["src/libdar/limitint.hpp: operator+=, -=, *=, <<=, >>=, unstack", "src/libdar/int_tools.hpp: int_tools_higher_power_of_2"]}
{"id": "C04", "title": "Conversion to machine integers conserves the value", "statement": "Unstacking a big integer into a machine integer adds as much as fits: the machine integer grows by exactly the amount the big integer shrinks, it never exceeds its type, and repeating until the big integer is zero transfers it all.", "quantifier": "every big integer, every machine-integer width, every starting value of the target", "why_tests_cant": "The cut-over happens at the exact maximum of the target type for each pair of widths.", "anchors": ["src/libdar/real_infinint.hpp: infinint_unstack_to", "src/libdar/limitint.hpp: limitint_unstack_to"]}
{"id": "C05", "title": "Decimal text conversion round-trips", "statement": "Printing an integer gives its canonical decimal text (no leading zero), parsing any decimal text gives its value, and any text that is empty or has a non-digit is refused.", "quantifier": "every integer; every text", "why_tests_cant": "Unbounded length, odd/even nibble packing and leading zeros.", "anchors": ["src/libdar/deci.cpp: deci::deci, decicoupe, reduce, human, computer"]}
{"id": "C06", "title": "Damaged integers are refused, not misread", "statement": "If the file ends before an integer is complete, or the integer's size prefix has more than one bit set, reading it is an error; no integer value is returned.", "quantifier": "every truncation point of the serialisation of every integer; every malformed prefix byte", "why_tests_cant": "Every prefix of every encoding must be considered.", "anchors": ["src/libdar/real_infinint.cpp: build_from_file", "src/libdar/limitint.hpp: build_from_file", "src/libdar/storage.cpp: storage::storage(proto_generic_file &, const infinint &)"]}
{"id": "C07", "title": "Checksums do not depend on how data is chunked", "statement": "The CRC of a data stream is the same however the stream is cut into successive calls, for any buffer alignment, and for both the machine-word and the byte-wise implementations.", "quantifier": "every data, every way of cutting it in chunks, every CRC width, every alignment", "why_tests_cant": "The optimised routine takes 2-, 4- or 8-byte steps depending on width and alignment; the number of partitions is exponential.", "anchors": ["src/libdar/crc.cpp: T_compute, B_compute_block, n_compute, crc_n::compute, crc_i::compute"]}
{"id": "C08", "title": "Checksums detect localised corruption", "statement": "Two data streams of the same length whose differences are confined to a window not longer than the CRC width, and which differ, have different CRCs; in particular any single byte change is detected.", "quantifier": "every data, every corruption confined to a window of at most the CRC width", "why_tests_cant": "Infinite set of streams and corruptions.", "anchors": ["src/libdar/crc.cpp: T_compute, T_compare"]}
{"id": "C09", "title": "Checksums survive storage", "statement": "A CRC written to a file and read back compares equal to the original, whatever its width, and leaves the following bytes intact.", "quantifier": "every CRC width >= 1 and content, every following bytes", "why_tests_cant": "Two implementations are selected by width (threshold 10240); width is unbounded.", "anchors": ["src/libdar/crc.cpp: crc_n::dump, crc_i::dump, create_crc_from_file, create_crc_from_size"]}
{"id": "C10", "title": "Marked data stream round-trips (sequential reading)", "statement": "Data written through the escape layer, in any number of write calls of any size and interleaved with marks, is read back byte for byte and mark for mark; user data is never mistaken for a mark, even if it contains the escape pattern or ends with a part of it.", "quantifier": "every list of writes and marks, every chunking of the writes", "why_tests_cant": "The encoder buffers partial patterns across calls; the number of alignments of the pattern over calls is unbounded.", "anchors": ["src/libdar/escape.cpp: inherited_write, add_mark_at_current_position, flush_write, trouve_amorce, inherited_read, remove_data_marks_and_stop_at_first_real_mark"]}
{"id": "C11", "title": "Skipping to a mark finds it and does not jump over protected ones", "statement": "Asking for the next mark of a given type positions reading right after the first such mark that follows, or fails without passing over an unjumpable mark.", "quantifier": "every stream of data and marks, every mark type, every unjumpable set", "why_tests_cant": "Streams are unbounded and the search crosses buffer refills.", "anchors": ["src/libdar/escape.cpp: skip_to_next_mark, next_to_read_is_mark"]}
{"id": "C12", "title": "Sparse file storage restores the exact content", "statement": "A file stored with hole detection is restored with exactly the original bytes, for any minimum hole size and any read/write chunking.", "quantifier": "every file content, every minimum hole size, every chunking", "why_tests_cant": "Hole boundaries may fall anywhere relative to buffers.", "anchors": ["src/libdar/sparse_file.cpp: inherited_write, inherited_read, look_for_hole, reset, write_hole, copy_to_without_skip"]}
{"id": "C13", "title": "Slicing is transparent", "statement": "Data written to a sliced archive and then read sequentially or after any seek is the data written; concatenating the payload of the slices in order gives the stream; no slice is larger than the requested size.", "quantifier": "every stream, every first-slice/other-slice size and header sizes allowed by the program, every write chunking", "why_tests_cant": "Slice boundaries may fall at any byte; sizes are unbounded.", "anchors": ["src/libdar/sar.cpp: inherited_write, inherited_read, skip, get_position, open_file_init", "src/libdar/slice_layout.cpp"]}
{"id": "C14", "title": "Slice location computation is exact", "statement": "The slice number and offset reported for any archive offset denote the byte where the slicing layer stored that offset; distinct offsets get distinct locations.", "quantifier": "every offset, every slice layout (sizes, headers, old or new format)", "why_tests_cant": "Unbounded offsets; boundaries of each slice.", "anchors": ["src/libdar/slice_layout.cpp: which_slice", "src/libdar/sar.cpp: get_position, skip"]}
{"id": "C15", "title": "Caching is transparent", "statement": "Reading, writing and seeking through the cache is indistinguishable from doing it on the underlying file, and once flushed the underlying file has the same content.", "quantifier": "every sequence of reads, writes, seeks and flushes, every cache size", "why_tests_cant": "Behaviour depends on the history of operations and the position of the window.", "anchors": ["src/libdar/cache.cpp: inherited_read, inherited_write, skip, skip_relative, fulfill_read, flush_write"]}
{"id": "C16", "title": "A segment view never escapes its segment", "statement": "A window opened over a part of a file reads the same bytes as that part, never reads or writes outside it, and stops at its end.", "quantifier": "every file, every window, every sequence of operations", "why_tests_cant": "History dependent, boundaries at each end.", "anchors": ["src/libdar/tronc.cpp: inherited_read, inherited_write, skip, skip_relative, skip_to_eof"]}
{"id": "C17", "title": "In-memory files behave like files", "statement": "A sequence of writes, seeks, truncations and reads on an in-memory file gives the results of the same sequence on an ordinary byte array file.", "quantifier": "every sequence of operations", "why_tests_cant": "History dependent.", "anchors": ["src/libdar/memory_file.cpp: inherited_read, inherited_write, skip, skip_relative", "src/libdar/storage.cpp"]}
{"id": "C18", "title": "Block encryption is transparent with random access", "statement": "For any cipher whose decryption inverts its encryption block by block, what is written through the block-encryption layer is read back exactly, from any position, whatever the block size and the chunking of the writes.", "quantifier": "every cipher with that law, every stream, block size and position", "why_tests_cant": "Position arithmetic over clear/crypted block sizes; last partial block; unbounded streams.", "anchors": ["src/libdar/tronconneuse.cpp: fill_buf, flush, position_clear2crypt, init_buf", "src/libdar/tronconneuse.hpp"]}
{"id": "C19", "title": "Padding buffers are skipped exactly", "statement": "Padding (elastic) buffers written before and after encrypted data are recognised and skipped to the byte, reading forward or backward, for any padding size.", "quantifier": "every padding length, every surrounding bytes, both directions, every archive format version", "why_tests_cant": "Three size encodings and random filler bytes which must never be mistaken for the size marks.", "anchors": ["src/libdar/elastic.cpp: elastic::elastic, dump"]}
{"id": "C20", "title": "Block compression is transparent", "statement": "For any codec whose decompression inverts compression, the block-compression layer restores the written data exactly, for any block size and chunking.", "quantifier": "every codec with that law, every data, block size and chunking", "why_tests_cant": "Unbounded data; boundaries.", "anchors": ["src/libdar/block_compressor.cpp: inherited_read, inherited_write, compress_and_write_data", "src/libdar/compress_block_header.cpp"]}
{"id": "C21", "title": "Archive format version round-trips and orders correctly", "statement": "A format version number is written and read back exactly and versions are ordered by number then fix; the special encodings of versions do not collide.", "quantifier": "every version and fix number", "why_tests_cant": "All 65536 x 256 combinations.", "anchors": ["src/libdar/archive_version.cpp: dump, read, to_char, to_digit"]}
{"id": "C22", "title": "Timestamps form a total order consistent with elapsed time", "statement": "Comparison of timestamps in any units agrees with the instants they denote; addition and subtraction are exact; equality holds exactly when instants are equal; storing and re-reading a timestamp preserves it.", "quantifier": "every pair of timestamps in every unit", "why_tests_cant": "Unit conversions with remainders over unbounded values.", "anchors": ["src/libdar/datetime.cpp: operator<, operator==, operator+=, operator-=, reduce_to_largest_unit, build, dump, read"]}
{"id": "C23", "title": "Typed header records round-trip", "statement": "A list of type-length-value records (slice headers) written to a file is read back identically.", "quantifier": "every list of records with any content", "why_tests_cant": "Unbounded number and size.", "anchors": ["src/libdar/tlv.cpp", "src/libdar/tlv_list.cpp", "src/libdar/slice_header.cpp"]}
{"id": "C24", "title": "Archive and slice headers round-trip", "statement": "Every archive header and slice header written by the program is read back with the same information.", "quantifier": "every combination of optional fields and values", "why_tests_cant": "Optional-field combinations times unbounded values.", "anchors": ["src/libdar/header_version.cpp: write, read", "src/libdar/header_flags.cpp", "src/libdar/slice_header.cpp: write, read"]}
{"id": "C25", "title": "Paths parse to their normal form", "statement": "Parsing a path and displaying it gives a normal form (no empty or '.' components, '..' only at the front); parsing the display again gives the same path; appending and popping components are inverse.", "quantifier": "every text accepted as a path", "why_tests_cant": "Unbounded texts.", "anchors": ["src/libdar/path.cpp: path::path, path_split, reduce, display, pop, operator+="]}
{"id": "C26", "title": "Sub-directory test is exact", "statement": "A path is reported as a sub-directory of another exactly when its components start with the components of the other.", "quantifier": "every pair of paths", "why_tests_cant": "Unbounded; separator boundaries such as /tmp/a against /tmp/ab.", "anchors": ["src/libdar/path.cpp: is_subdir_of"]}
{"id": "C27", "title": "File selection masks obey boolean logic", "statement": "AND, OR and NOT of masks cover exactly the expected sets; an empty AND/OR is an error; the include/exclude directory masks select a directory's whole subtree and its ancestors as documented.", "quantifier": "every mask expression and every path", "why_tests_cant": "Unbounded nesting.", "anchors": ["src/libdar/mask.cpp", "src/libdar/mask.hpp: not_mask, et_mask, ou_mask, simple_path_mask, same_path_mask, exclude_dir_mask", "src/libdar/mask_list.cpp"]}
{"id": "C28", "title": "Overwriting policies decide as documented", "statement": "Evaluating an overwriting policy gives for the data and for the EA the action of the documented rule in the chain, tests choose the documented branch, and a policy that ends with a full constant always decides.", "quantifier": "every policy expression and every pair of entries in conflict", "why_tests_cant": "Unbounded nesting of policies.", "anchors": ["src/libdar/crit_action.cpp: crit_chain::get_action, testing::get_action", "src/libdar/criterium.cpp"]}
{"id": "C29", "title": "The backup database points to the archive that restores the requested state", "statement": "Looking up a file in the database at a date returns the archives holding its most recent recorded state not later than the date: a saved copy if last seen saved, reported as removed if last recorded removed, not found if never seen.", "quantifier": "every history of recorded states in increasing date order, every date, both removal modes", "why_tests_cant": "Histories are unbounded.", "anchors": ["src/libdar/data_tree.cpp: get_data, get_EA", "src/libdar/candidates.cpp: add, get_status, set_the_set"]}
{"id": "C30", "title": "Removing or reordering archives in the database keeps the others intact", "statement": "Removing an archive from the database renumbers the others and changes none of the information recorded for them; moving an archive is a permutation of the recorded information and can be undone.", "quantifier": "every database, every archive number, every pair (source, destination)", "why_tests_cant": "Unbounded databases.", "anchors": ["src/libdar/data_tree.cpp: remove_all_from, skip_out, apply_permutation, data_tree_permutation", "src/libdar/database.cpp, i_database.cpp: remove_archive, set_permutation"]}
{"id": "C31", "title": "The backup database round-trips to disk", "statement": "A database dumped to disk and read back is the same database.", "quantifier": "every database", "why_tests_cant": "Unbounded trees.", "anchors": ["src/libdar/data_tree.cpp: dump, data_tree(generic_file&)", "src/libdar/data_dir.cpp", "src/libdar/i_database.cpp: build, dump"]}
{"id": "C32", "title": "The catalogue round-trips to disk", "statement": "The tree of entries (directories, files, links, devices, deleted-entry records) written at the end of an archive is read back with identical structure and content.", "quantifier": "every tree of entries", "why_tests_cant": "Unbounded depth and breadth.", "anchors": ["src/libdar/cat_directory.cpp: inherited_dump, constructor", "src/libdar/cat_entree.cpp: read", "src/libdar/cat_inode.cpp", "src/libdar/cat_detruit.cpp", "src/libdar/cat_lien.cpp"]}
{"id": "C33", "title": "Differential backup saves exactly what changed", "statement": "Against an archive of reference, a file's data is saved when it is new or its relevant metadata changed according to the chosen comparison fields, and is recorded as unchanged otherwise.", "quantifier": "every pair of reference and current inodes, every comparison-field option and hour shift", "why_tests_cant": "Product of all attributes, options and dates.", "anchors": ["src/libdar/cat_inode.cpp: same_as, is_more_recent_than, has_changed_since", "src/libdar/filtre.cpp: filtre_sauvegarde", "src/libdar/tools.cpp: tools_is_equal_with_hourshift"]}
{"id": "C34", "title": "Deleted files are recorded, and nothing else", "statement": "After a differential backup, a deletion record exists exactly for each entry of the reference missing from the new archive (not for those below a deleted directory, nor in filtered-out areas).", "quantifier": "every pair of trees", "why_tests_cant": "Unbounded trees.", "anchors": ["src/libdar/catalogue.cpp: update_destroyed_with"]}
{"id": "C35", "title": "Restoring a differential chain reproduces the source tree", "statement": "Restoring a full backup then each differential backup in order yields the file tree as of the last backup.", "quantifier": "every sequence of file-tree states, under the assumption that changes alter the compared metadata", "why_tests_cant": "Unbounded trees and chain lengths.", "anchors": ["src/libdar/filtre.cpp: filtre_sauvegarde, filtre_restore", "src/libdar/catalogue.cpp: update_destroyed_with", "src/libdar/filesystem_restore.cpp: write"]}
{"id": "C36", "title": "Hard links are preserved", "statement": "All names of a hard-linked inode are backed up with its data stored once, and restored as links to one inode; names that were not linked are not linked after restoration.", "quantifier": "every set of names and inodes", "why_tests_cant": "Unbounded.", "anchors": ["src/libdar/filesystem_hard_link_read.cpp", "src/libdar/filesystem_hard_link_write.cpp", "src/libdar/cat_mirage.cpp", "src/libdar/cat_etoile.cpp"]}
{"id": "C37", "title": "Size expressions are understood exactly", "statement": "A size with a unit suffix parses to the documented value, unknown suffixes and malformed numbers are refused.", "quantifier": "every text", "why_tests_cant": "Unbounded texts.", "anchors": ["src/libdar/tools.cpp: tools_get_extended_size"]}
{"id": "C38", "title": "Octal permissions text conversion round-trips", "statement": "Converting a permission value to octal text and back gives the same value; text with non-octal digits is refused.", "quantifier": "every permission value, every text", "why_tests_cant": "All values and texts.", "anchors": ["src/libdar/tools.cpp: tools_octal2int, tools_int2octal"]}
{"id": "C39", "title": "User command substitution is exact", "statement": "In a user command string each %x macro is replaced by its value, %% by %, other text is unchanged, and an unknown macro is an error; substituted values are not re-expanded.", "quantifier": "every command string and every values", "why_tests_cant": "Unbounded strings.", "anchors": ["src/libdar/tools.cpp: tools_substitute", "src/libdar/tools.cpp: tools_hook_substitute"]}
{"id": "C40", "title": "Ranges denote the set of added numbers", "statement": "A range object contains exactly the union of the intervals added to it, its intervals stay disjoint and sorted, and its text form denotes the same set.", "quantifier": "every sequence of additions", "why_tests_cant": "Unbounded histories.", "anchors": ["src/libdar/range.cpp: operator+=, segment::overlaps_with, display"]}
{"id": "C41", "title": "End-of-archive locator is exact", "statement": "Reading an archive backward from its end recovers exactly the recorded catalogue position, whatever bytes precede it.", "quantifier": "every position, every preceding archive content", "why_tests_cant": "Positions are unbounded; the terminator's bit count changes with the width.", "anchors": ["src/libdar/terminateur.cpp: dump, read_catalogue"]}
{"id": "C42", "title": "Parallel processing preserves order and content", "statement": "With several worker threads, blocks are delivered in their original order with the content a single thread would produce, whatever the scheduling.", "quantifier": "every schedule of workers, every number of workers and blocks", "why_tests_cant": "Exponentially many interleavings.", "anchors": ["src/libdar/parallel_tronconneuse.cpp", "src/libdar/parallel_block_compressor.cpp"]}
{"id": "C43", "title": "Thread cancellation is delivered exactly as requested", "statement": "A cancellation request raises at the next check point of the targeted thread when not blocked, is held while cancellation is blocked and delivered when unblocked, and never affects other threads.", "quantifier": "every sequence of requests, blocks, unblocks and checks", "why_tests_cant": "Histories and interleavings.", "anchors": ["src/libdar/thread_cancellation.cpp: cancel, block_delayed_cancellation, check_self_cancellation, clear_pending_request"]}
{"id": "C44", "title": "Remote slice reading protocol is transparent", "statement": "Reading an archive through the request/answer protocol over pipes gives the bytes that a direct read would give; requests and answers are encoded and decoded exactly.", "quantifier": "every sequence of reads and seeks", "why_tests_cant": "Unbounded sequences, size fields of fixed width.", "anchors": ["src/libdar/zapette.cpp", "src/libdar/slave_zapette.cpp", "src/libdar/zapette_protocol.cpp"]}
{"id": "C45", "title": "Merging archives applies the policy to every conflict", "statement": "Merging two archives keeps every entry present in only one, and for entries in both applies exactly the action decided by the overwriting policy. The decremental backup made of an old and a new archive, restored over the new state, gives back the old one.", "quantifier": "every pair of trees and every policy", "why_tests_cant": "Unbounded trees.", "anchors": ["src/libdar/filtre.cpp: filtre_merge_step0, filtre_merge_step1, do_EFSA_transfert, make_clone, normalize_link_base"]}
{"id": "C46", "title": "Statistics counters add up", "statement": "Each entry of the tree walked by a backup is counted once, in the category telling what was done with it, so that the total equals the number of entries seen; concurrent updates of the counters lose nothing.", "quantifier": "every sequence of increments and decrements", "why_tests_cant": "Unbounded histories.", "anchors": ["src/libdar/statistics.hpp: total, incr_*, decr_*"]}
{"id": "C47", "title": "Extended and filesystem attributes round-trip", "statement": "The list of extended attributes and of filesystem-specific attributes of an inode is stored and read back identically.", "quantifier": "every list of attributes", "why_tests_cant": "Unbounded.", "anchors": ["src/libdar/ea.cpp: ea_attributs::dump, read", "src/libdar/filesystem_specific_attribute.cpp"]}
{"id": "C48", "title": "Stacked layers compose", "statement": "When each layer of the archive stack restores what was written through it, an archive written through any stack (compression, escape marks, encryption, slicing) is read back exactly.", "quantifier": "every stack of layers and every data", "why_tests_cant": "Combinations of layers times data.", "anchors": ["src/libdar/pile.cpp", "src/libdar/macro_tools.cpp: macro_tools_create_layers"]}
{"id": "C49", "title": "Hash file describes the whole slice", "statement": "The hash computed while writing a slice is the hash of exactly the bytes written, in order.", "quantifier": "every sequence of writes", "why_tests_cant": "Chunking.", "anchors": ["src/libdar/hash_fichier.cpp: inherited_write, inherited_terminate"]}
{"id": "C50", "title": "Byte storage behaves like an array", "statement": "Inserting, removing, indexing and iterating over the chunked byte storage behaves like the same operations on a plain array, whatever the internal fragmentation.", "quantifier": "every sequence of operations and every fragmentation", "why_tests_cant": "Fragmentation depends on allocation failures which tests cannot schedule.", "anchors": ["src/libdar/storage.cpp"]}
{"id": "C51", "title": "The text of an overwriting policy means what the manual says", "statement": "A policy given as text to the overwriting policy option either is refused with a syntax error or decides, for every pair of entries in conflict, what the manual page says for that text: priorities of the operators, parentheses, inversion, conditions, chains; blank characters do not count; an accepted policy never fails when applied.", "quantifier": "every text, every pair of entries", "why_tests_cant": "The texts form a recursive grammar of unbounded size, and each must be right for every pair of entries.", "anchors": ["src/dar_suite/crit_action_cmd_line.cpp: crit_action_create_from_string, criterium_create_from_string, crit_action_canonize_string", "src/dar_suite/line_tools.cpp: line_tools_find_first_char_out_of_parenth"]}
{"id": "C52", "title": "Dates given as text", "statement": "A date given on the command line as [[[year/]month/]day-]hour:minute[:second] is the time of these local fields, the missing ones being those of today; fields out of range and dates in the future are refused; a plain number is a number of seconds.", "quantifier": "every text, every clock", "why_tests_cant": "Unbounded texts.", "anchors": ["src/dar_suite/line_tools.cpp: line_tools_convert_date"]}
{"id": "C53", "title": "Adding archives to a database", "statement": "Adding an archive to a dar_manager database appends it to the archive list and records, for every path and under the number of the new archive, exactly what the archive tells of that path (saved, unchanged, patch and whether it applies, deleted, or absent when it was there before); nothing recorded before changes. After any sequence of additions the records replayed in order give the state and the data checksum that restoring these archives in that order gives, and lookups answer that state when no date disorder is reported.", "quantifier": "every sequence of archives, every directory tree, every path", "why_tests_cant": "The records of a path depend on the whole sequence of archives and on the tree around it.", "anchors": ["src/libdar/i_database.cpp: i_database::add_archive, set_permutation", "src/libdar/data_dir.cpp: data_tree_update_with, data_dir::add, finalize_except_self", "src/libdar/data_tree.cpp: finalize, check_delta_validity, check_order"]}
{"id": "C54", "title": "Restoring from a database", "statement": "Restoring the latest state from a dar_manager database whose dates are in order reads the archives by increasing number, each from the place recorded for it, and gives every selected path the data, the attributes and (with the API) the extended attributes that restoring all the archives in order gives; a path that is no more there, or that is not selected, is not restored by the API. Restoring by calls to dar asks each archive exactly for the files whose data are to be taken from it, and always ends.", "quantifier": "every sequence of archives, every directory tree, every mask, every list of paths", "why_tests_cant": "The archives needed by a path depend on all its records and on what is below it.", "anchors": ["src/libdar/restore_tree.cpp", "src/libdar/mask_database.cpp", "src/libdar/i_database.cpp: i_database::restore (two methods)", "src/libdar/data_dir.cpp: data_tree_find"]}
{"id": "C55", "title": "Overwriting policy and filters of a restoration", "statement": "A restoration leaves what the archive does not tell, or what the filters or the options on deletions exclude, exactly as it was, and creates or removes only names these filters, the options and the overwriting policy allow. With the policy 'preserve' every existing file keeps its data, its metadata and its attributes. For each action of the policy, a file that exists becomes what the action says: data, owner, permissions, date, extended attributes and attributes of the filesystem; a missing file is created if its data is in the archive; a recorded deletion removes what exists with all it contains unless the policy is to preserve it.", "quantifier": "every archive tree, every filesystem, every filter, every policy", "why_tests_cant": "The result of a path depends on the policy chosen for each pair of entries and on all that is done to the other names; the combinations are unbounded.", "anchors": ["src/libdar/filesystem_restore.cpp: filesystem_restore::write, action_over_remove, action_over_data, action_over_ea, action_over_fsa", "src/libdar/filtre.cpp: filtre_restore, make_overwriting_for_only_deleted", "src/libdar/filesystem_hard_link_write.cpp"]}
{"id": "C56", "title": "Comparing an archive with a filesystem", "statement": "Comparing an archive with a filesystem (dar -d) tells of each selected entry of the archive, whose directories exist on the filesystem, that it is the same exactly when what is found there agrees with what the archive has: type, and, depending on the fields asked for, owner, permissions and dates, the data of files byte by byte (or their signature or checksum when the data is not in the archive), targets of links, device numbers, extended attributes and attributes of the filesystem; it says one thing of each, nothing of other paths, and the error count is zero exactly when no difference exists. The tree restored from a full backup is found without difference.", "quantifier": "every archive tree, every filesystem, every filter and option, files of any length", "why_tests_cant": "Silence must mean equality for every content and every tree; tests compare a few trees.", "anchors": ["src/libdar/filtre.cpp: filtre_difference", "src/libdar/cat_inode.cpp: cat_inode::compare", "src/libdar/cat_file.cpp: cat_file::sub_compare_internal", "src/libdar/generic_file.cpp: generic_file::diff", "src/libdar/filesystem_diff.cpp"]}
{"id": "C57", "title": "Names of slices", "statement": "The name of a slice is base.number.extension, the number having at least the digits asked for; two slices have different names and the number is found back in the name; in a directory that holds the slices of an archive and files that do not look like slices, the last slice is found, and removing the slices that follow a given one removes exactly these.", "quantifier": "every base, extension, number, number of digits, every directory", "why_tests_cant": "Unbounded numbers and texts; a wrong match removes files of the user.", "anchors": ["src/libdar/sar_tools.cpp", "src/libdar/sar.cpp: sar::inherited_truncate, open_last_file"]}
{"id": "C58", "title": "The user comment tells no secret", "statement": "The comment stored in clear in an archive is the text given, with its macros replaced as the manual says; the argument that follows an option about encryption on the command line does not appear in it; unknown macros are refused.", "quantifier": "every comment, every command line", "why_tests_cant": "Absence of a secret in the output is a property of all the command lines (non-interference), not of examples.", "anchors": ["src/dar_suite/line_tools.cpp: line_tools_expand_user_comment"]}
{"id": "C59", "title": "Sequential reading gives the same archive", "statement": "Reading an archive from its first byte to its last one, without using its catalogue first, gives the same entries in the same order as reading its catalogue, minus the entries whose saving failed, then the deletion records at their places; whatever the caller reads, passes over or goes back to, and whatever directories it skips. At the end the catalogue in memory holds the whole tree. An archive interrupted after any object gives the part of the tree saved so far, with the end of each open directory, then an error (or the end, in lax mode).", "quantifier": "every tree, every series of calls, every point of interruption", "why_tests_cant": "The reading depends on the whole series of calls and on all the marks found before; tests go through a few trees once.", "anchors": ["src/libdar/escape_catalogue.cpp: escape_catalogue::read, skip_read_to_parent_dir", "src/libdar/catalogue.cpp: catalogue::read, add, drop_all_non_detruits, copy_detruits_from", "src/libdar/cat_directory.cpp: add_children, remove_all_mirages_and_reduce_dirs"]}
{"id": "C60", "title": "What signing protects when reading sequentially", "statement": "When a signed archive is read sequentially, what was read in line is compared with the signed catalogue at the end: the reading ends in error unless each entry met has at the same path of the catalogue an entry of the same type (and link target, device numbers); an untouched archive is accepted.", "quantifier": "every pair of trees, every archive", "why_tests_cant": "It is about all the archives an attacker could make; tests show some that are refused, not which ones are accepted.", "anchors": ["src/libdar/catalogue.cpp: catalogue::is_subset_of, compare", "src/libdar/escape_catalogue.cpp: escape_catalogue::read", "src/libdar/cat_file.hpp, cat_lien.cpp, cat_device.cpp, cat_directory.cpp, cat_nomme.cpp: operator =="]}
{"id": "C61", "title": "Short transfers, interruptions and full disks lose nothing", "statement": "Reading, writing, moving and shortening a local file gives the same result whatever the system does at each call: when it transfers less than asked, is interrupted by a signal, or lacks space and the user makes room. A failed or stopped writing has written a beginning of the data at the right place and nothing else. The same goes for pipes, where going forward drops exactly what is in between.", "quantifier": "every file, every request, every series of answers of the system", "why_tests_cant": "The answers of the system are a schedule that no test controls: every series of short transfers and signals has to be considered.", "anchors": ["src/libdar/fichier_local.cpp: fichier_global_inherited_read, fichier_global_inherited_write, skip, skip_relative, inherited_truncate", "src/libdar/fichier_global.cpp: inherited_read, inherited_write", "src/libdar/tuyau.cpp: inherited_read, inherited_write, skip, read_and_drop, read_to_eof, has_next_to_read"]}
{"id": "C62", "title": "Copying a damaged file", "statement": "dar_cp copies what can be read of a file: each byte of the copy is the byte of the source at the same offset or a hole; the exit status is good exactly when all of the source could be read, and then the copy is the source; the number of missing bytes told is the number of bytes not copied; only parts that begin and end with a byte that cannot be read are left out; it ends.", "quantifier": "every source, every set of damaged places, every series of short reads and writes", "why_tests_cant": "The damaged places, the short reads and the short writes combine without limit; hardware errors are hard to produce in tests.", "anchors": ["src/dar_suite/dar_cp.cpp: copy_max, normal_copy, xfer_before_error, skip_to_next_readable"]}
{"id": "C63", "title": "Configuration files are read as documented", "statement": "From a configuration file (or a batch of options): the lines whose first visible character is # are ignored and no other one is; with the conditional syntax exactly what precedes the first target and what follows a target of the current command (up to the next target) is used; the words are cut at blanks outside quotes, and any list of words whatsoever can be written so that it is read back; files that include one another give the options in order, each inclusion replaced by what the included file gives, and inclusion loops are refused, always after a finite work.", "quantifier": "every file content, every set of targets, every list of words, every family of files including one another", "why_tests_cant": "Contents of files, nesting of quotes and graphs of inclusions are unbounded.", "anchors": ["src/dar_suite/no_comment.cpp: fill_morceau", "src/dar_suite/config_file.cpp: fill_morceau, find_next_target", "src/dar_suite/hide_file.cpp: skip, inherited_read, get_position", "src/dar_suite/line_tools.hpp: line_tools_split_in_words", "src/dar_suite/command_line.cpp: make_args_from_file, get_args_recursive"]}
{"id": "C64", "title": "File selection by -I -X -g -P -[ -]", "statement": "With the normal method a file is selected if some including option matches it (or there is none) and no excluding option does; with the ordered method (-am) the last option that matches decides, and if none does, the file is selected unless the first option is an including one. -g concerns a path, all below it and the directories leading to it; -P concerns a path and all below it. A backup contains exactly those files whose path the options about paths select and whose name the options about names select, and the directories whose path is selected.", "quantifier": "every list of options, every tree, every path and every root of the operation", "why_tests_cant": "Lists of options interact without limit (order, nesting of paths); the effect of a pruned directory on all that is below is a property of every tree.", "anchors": ["src/dar_suite/command_line.cpp: make_ordered_mask, make_unordered_mask, make_include_exclude_name, make_include_path, make_exclude_path_ordered, make_exclude_path_unordered", "src/libdar/filtre.cpp: filtre_sauvegarde", "src/libdar/mask.cpp, mask.hpp"]}
{"id": "C65", "title": "The files to save are all read", "statement": "A backup of a tree that does not change reads each of its files and directories once, with its attributes, in depth-first order, except what the options ask to leave out (nodump flag, cache directories, directories not covered by the masks); two names are recorded as hard links of the same inode exactly if they are so, and the data of the inode is read once. If the tree changes meanwhile, what is read is what the system answered at some moment, and names are recorded as hard links only if they had the same inode number. What could not be read is counted as an error.", "quantifier": "every tree, every set of hard links, every set of options, every history of the filesystem during the reading", "why_tests_cant": "Trees, hard links among them and concurrent changes are unbounded, and errors of the system are hard to produce in tests.", "anchors": ["src/libdar/filesystem_backup.cpp: reset_read, read, skip_read_to_parent_dir", "src/libdar/filesystem_hard_link_read.cpp: make_read_entree", "src/libdar/etage.cpp: etage::etage, cache_directory_tagging_check", "src/libdar/filtre.cpp: filtre_sauvegarde"]}
{"id": "C66", "title": "Commands around the saving of files come in pairs", "statement": "With --backup-hook-execute, the command is run before and after the saving of each file the hook masks cover; for a covered directory it is run before anything in it is saved and after all of it has been, and not for what is inside. Each covered file is saved between a start and an end of its own or of a directory above it; commands of two files are never mixed; an end is always the one of the last start.", "quantifier": "every tree, every hook mask, every set of files that are left out, unchanged, saved or failing", "why_tests_cant": "The command to run depends on counters carried through the whole tree; nestings of directories that are covered, left out or failing are unbounded.", "anchors": ["src/libdar/semaphore.cpp: raise, lower", "src/libdar/filtre.cpp: filtre_sauvegarde, save_inode"]}
{"id": "C67", "title": "A file that changes while it is saved is saved again or told dirty", "statement": "A file is read at most once more than the number of retries asked (and once more if it is finally kept without compression). If it is told to be saved well and the content of a file does not change without its modification date, then the data, size, CRC and date in the archive are the ones of a single moment. Else the file is told dirty and the data of the last reading is there. What was in the archive before is not touched.", "quantifier": "every history of changes of the file during the readings, every number of retries and limit of wasted bytes, every ability of the archive to go back (truncate, skip, none, failing)", "why_tests_cant": "Changes are interleaved with the reading of each byte and with the readings of the date; the tests do not control that.", "anchors": ["src/libdar/filtre.cpp: save_inode"]}
{"id": "C68", "title": "Existing files are overwritten by a new archive only with permission", "statement": "When an archive is created (backup, merging, isolation, re-slicing, repair): with overwriting not allowed (-n) no file that exists is changed or removed, and nothing is created if there is a slice of an archive of that name; by default a file is changed or removed only after the user has agreed to it; in any case only files named as slices of that archive, or as hash files of them, are touched; and each slice of an archive created without error holds its header and data and nothing left of an older file.", "quantifier": "every content of the directory, every answer of the user, every refusal of the system at any point, every number and order of slices, with or without hash files, a single slice or several", "why_tests_cant": "The files present, the answers and the errors combine freely; the dangerous cases (races of errors, half made slices, several questions) are rarely met.", "anchors": ["src/libdar/tools.cpp: tools_avoid_slice_overwriting_regex, tools_unlink_file_mask_regex", "src/libdar/entrepot.cpp: open", "src/libdar/fichier_local.cpp: open", "src/libdar/sar.cpp: open_writeonly", "src/libdar/trivial_sar.cpp: trivial_sar"]}
{"id": "C69", "title": "An isolated catalogue can replace the one of the archive it comes from", "statement": "The catalogue of any archive can be isolated; the isolated catalogue shows the same entries, with the same attributes, dates, sizes, checksums, hard links, removed entries (and delta signatures when asked for) as the archive, and records the slices and header of the archive, including when it is made from an isolated catalogue. It is never taken for an archive that can be restored or tested. Given with an archive, it replaces its catalogue and headers, whatever their state; with an archive of another data name it is refused. A differential backup based on it is the one based on the archive.", "quantifier": "every archive (tree, hard links, signatures, header, slicing), every chain of isolations, every state of the damaged archive, every tree saved afterwards with it as a reference", "why_tests_cant": "Catalogues are unbounded trees; damaged archives and chains of isolations are rarely tested, and equality with the original must hold for every entry.", "anchors": ["src/libdar/i_archive.cpp: i_archive, op_isolate, check_against_isolation, get_catalogue_slice_layout, only_contains_an_isolated_catalogue", "src/libdar/catalogue.cpp: transfer_delta_signatures, drop_delta_signatures", "src/libdar/cat_delta_signature.cpp: dump_data, fetch_data", "src/libdar/header_version.cpp: get_slice_header, inner_write", "src/libdar/macro_tools.cpp: macro_tools_open_archive, macro_tools_create_layers"]}
{"id": "C70", "title": "Testing an archive tells whether what it holds is intact", "statement": "Testing an archive (dar -t) in direct access succeeds if and only if, for each entry the filters select (below directories the filter on paths selects), the data (every copy of it), the delta signature, the extended attributes and the filesystem-specific attributes can be read and have the recorded checksums; the counters are then the number of selected and of excluded entries. So a modification of a file within a window not wider than its checksum is detected wherever the file is. In sequential reading, each damaged file counts for one error and all the others are tested. (In direct access the number of errors is not the number of damaged entries: the first one hides what follows in its directory.)", "quantifier": "every tree of entries, every set of hard links, every failure of the reading of any object, every pair of filters, direct access and sequential reading", "why_tests_cant": "Which of the objects of an archive is damaged, how, and where it is in the tree cannot be enumerated; the tests damage one place at a time.", "anchors": ["src/libdar/filtre.cpp: filtre_test", "src/libdar/i_archive.cpp: op_test", "src/libdar/catalogue.cpp: read, skip_read_to_parent_dir, remove_last_read", "src/libdar/cat_directory.cpp: read_children, remove_last_read, remove", "src/libdar/escape_catalogue.cpp: remove_last_read", "src/libdar/defile.cpp: enfile", "src/libdar/cat_inode.cpp: get_ea, get_fsa", "src/libdar/cat_delta_signature.cpp: fetch_data"]}
{"id": "C71", "title": "Re-slicing an archive (dar_xform) changes its slices and nothing else", "statement": "Whatever an archive comes from (slices of any sizes, a single file, a pipe), if it can be read to its end its transformation succeeds, and the new archive, whose slices have the sizes asked for, holds exactly the same bytes, the same format and the same data name; it is the archive one would have created with that slicing in the first place, and this holds for any chain of transformations. Reads and skips on it see the data as a plain file, the layout being found in the first slice. Success is never reported when the original cannot be read to its end; slices of different archives are never mixed; an archive whose last slice misses, or a stream cut off in a pipe, is not taken for a complete one. (The data name of archives of format 07 is lost; a failure while the last slice is completed goes unnoticed; a transformation that fails leaves a set of slices closed as complete; truncated slices of format 07 are silently filled with zeros; a truncated single file is accepted: counterexamples.)", "quantifier": "every archive, every slicing of the source and of the destination with room for a byte, every data, every sequence of writes, every set of files given as slices, every chain of transformations", "why_tests_cant": "Where slice boundaries fall with respect to the data, to headers and to the blocks in which the copy is made depends on all sizes at once; the tests try a few.", "anchors": ["src/libdar/i_libdar_xform.cpp: i_libdar_xform, xform_to", "src/libdar/sar.cpp: sar, open_file, open_file_init, check_header, inherited_read, close_file, ~sar", "src/libdar/trivial_sar.cpp: init_read, init_write, inherited_read, inherited_terminate", "src/libdar/slice_header.cpp: read, write", "src/libdar/generic_file.cpp: copy_to"]}
{"id": "C72", "title": "Streamed compression is transparent", "statement": "With gzip, bzip2, xz or zstd compression without blocks, any number of items written one after the other, each in pieces of any sizes, are restored exactly: going to the position noted before an item, in any order, any number of times and leaving it at any point, any sequence of reads gives what the plain data would give, and nothing after its end, whatever the sizes of the buffers on both sides. A position is told only when no data of an item is pending; suspending the compression completes the current item and lets bytes go through unchanged. A stream cut short gives only a beginning of the data (and zstd reports it); an error of the library is an error of the read. Exceptions: empty items, and items whose size is a multiple of what the counter of the library can hold.", "quantifier": "every compression library meeting the specification of its interface, every list of items and way to cut them in pieces, every sequence of visits and reads, every buffer size, every cut of a stream", "why_tests_cant": "How much the library takes and gives at each call is its own choice, and combines with the sizes of the buffers, pieces and reads; the loops end differently depending on all of them.", "anchors": ["src/libdar/compressor.cpp: inherited_read, inherited_write, inherited_sync_write, inherited_flush_read, suspend_compression, inherited_truncate", "src/libdar/compressor.hpp: get_position, skip", "src/libdar/compressor_zstd.cpp: inherited_read, inherited_write, compr_flush_write, clean_read, suspend_compression", "src/libdar/wrapperlib.cpp: get_total_in, bz_decompress"]}
{"id": "C73", "title": "Keys and initial vectors of encrypted archives", "statement": "The key of an encrypted archive is the one RFC 8018 (PBKDF2) defines from the passphrase, the salt, the number of iterations and the size of the key, whatever they are; a reader given the passphrase obtains, from what the header of the archive records, the key that encrypted the archive; a key the cipher calls weak is never used: other salts are tried, at most six, in order, then the creation is refused. Each block is encrypted with an initial vector of its own: two blocks have the same one only when their numbers are equal modulo 256 to the size of a block of the cipher, so that the same data stored twice is never encrypted the same way, and decryption gives every block back. Exceptions: 2^32 - 1 iterations or more never end, and some hash algorithms accepted by the option end in an internal error.", "quantifier": "every passphrase, salt, number of iterations, size of key, pseudo random function and cipher of blocks, every sequence of random salts, every block number and content", "why_tests_cant": "The tests derive a few keys; that the loops agree with the standard for every length and count, and that no two blocks share an initial vector, ranges over all of them.", "anchors": ["src/libdar/crypto_sym.cpp: crypto_sym, init_hashed_password, pkcs5_pass2key, make_ivec, encrypt_data, decrypt_data, is_a_strong_password", "src/libdar/tools.cpp: tools_memxor", "src/libdar/macro_tools.cpp: macro_tools_create_layers, macro_tools_open_layers", "src/libdar/secu_string.cpp: append"]}
{"id": "C74", "title": "Binary deltas rebuild exactly the new content, and only over the right file", "statement": "A file saved as a binary delta of its previous content is rebuilt exactly when the delta is applied to that previous content: data read while a signature is computed is the data of the file, the signature stored, the signature loaded again, the delta and the patched content are the ones the rsync library defines, whatever the sizes of reads and buffers, and the CRC recorded for the result is the one of the whole file. Applied to a file in place, a delta is accepted only if the CRC of the file afterwards is the recorded one; a file that is not the expected one is left untouched and reported, unless it is another hard link to a file already patched. Exceptions: when the result does not match its CRC the file has already been overwritten; a second hard link may be reported as an archive corruption; when a delta and a new signature are computed together, a call in which the library takes no input ends the signature too early.", "quantifier": "every content of both files, every rsync library meeting the specification of its interface (for safety: any library), every sequence of read sizes and buffer size, every recorded CRC", "why_tests_cant": "How much the library takes and gives at each call is its own choice and combines with the sizes of buffers and reads.", "anchors": ["src/libdar/generic_rsync.cpp: generic_rsync, inherited_read, inherited_terminate, step_forward, send_eof, patch_callback", "src/libdar/filesystem_tools.cpp: filesystem_tools_make_delta_patch, filesystem_tools_copy_content_from_to", "src/libdar/cat_file.cpp: get_data"]}
{"id": "C75", "title": "Multi-threaded decryption gives the same bytes as single-threaded, at any position", "statement": "When an encrypted archive is read with several threads, any sequence of reads, absolute and relative seeks and flushes within the data returns exactly the bytes of the clear data at the positions asked for, reports the right position, and never blocks or ends in an internal error, whatever the number of threads and however they are scheduled.", "quantifier": "every content, block size, number of worker threads, thread schedule, way the deciphered blocks are grouped when handed over, and sequence of read/skip/skip_relative/flush calls", "why_tests_cant": "the orders (stop, end of file) race with the blocks still in the pipe; which blocks are there when the caller seeks depends on the scheduler, so tests only meet a few of the possible interleavings", "anchors": ["src/libdar/parallel_tronconneuse.cpp: parallel_tronconneuse::inherited_read, skip, skip_relative, skip_to_eof, send_read_order, go_read, read_refill, purge_ratelier_from_next_order, purge_unack_stop_order, find_offset_in_lus_data, read_below::work, get_ready_for_new_offset"]}
{"id": "C76", "title": "Listing files given to -[ and -] select exactly the paths listed", "statement": "A listing file whose lines end with LF or CR LF (the last one possibly with nothing) selects, given to -[, exactly the paths it lists and the directories leading to them, and, given to -], excludes exactly the paths it lists, relative ones being taken from the prefix; no part of the file is lost or invented, whatever the end of line sequences and however the file is read. Exceptions: an empty line is an internal error; two carriage returns before a line feed; without regard to the case, the last line if nothing ends it; user-given sequences contained in one another or overlapping themselves; absolute paths not in normal form.", "quantifier": "every content of the file, every list of end of line sequences, every partition of the file into reads, every path looked for", "why_tests_cant": "lines are cut by an automaton that runs across the 20480 bytes reads, with look-ahead and bytes read again; the outcome depends on where a sequence falls with regard to these borders", "anchors": ["src/libdar/mask_list.cpp: mask_list::mask_list, is_covered", "src/libdar/eols.cpp: eols::eol_reached, in_progress::match, set_bypass, bypass_or_larger, find_larger_match"]}
{"id": "C77", "title": "The exit status of dar tells what happened", "statement": "dar ends with the status the manual gives: 0 exactly when the operation came to its end and nothing that was asked failed; 11 when an archive was made but files changed while they were saved; 5 when the data of some file could not be saved, restored, was found corrupted or different; and for each kind of error the code documented for it (1 syntax, 2 hardware, memory or other fatal error, 3 bug, 4 refusal or interruption by the user, 6 user command, 7 misuse of the library, 8 integer overflow, 10 feature not compiled). In particular a test exits with 0 if and only if what is selected is intact, a comparison if and only if all agrees.", "quantifier": "every operation, every exception leaving the library at any point, every final value of the counters, every archive and filesystem", "why_tests_cant": "scripts rely on it; the status depends on which exception class escapes from which layer and on the counters of the whole walk, a product no test enumerates", "anchors": ["src/dar_suite/dar_suite.cpp: dar_suite_global", "src/dar_suite/dar.cpp: little_main", "src/libdar/i_archive.cpp: op_extract, op_diff, op_test, op_create_in_sub", "src/libdar/i_database.cpp: restore"]}
{"id": "C78", "title": "Reading a remote file gives the bytes of the file whatever the schedule", "statement": "A file of known size is read through libcurl by read, skip and read_ahead calls while a second thread transfers the data. Every read that returns gave exactly the bytes of the remote file at the current position (never more than asked) and moves the position by that much, whatever the order in which the two threads run, however the transfer is cut in pieces, and even if transfers fail; no call waits for ever; and without failure a read is short only at the end of the file.", "quantifier": "all files, all sizes of the pipe and of its blocks, both protocols, all sequences of calls, all interleavings of the two threads, all ways to cut the transfer and all points of failure", "why_tests_cant": "the result depends on the interleaving of two threads that share a pipe and two flags: a test sees one schedule", "anchors": ["src/libdar/fichier_libcurl.cpp: fichier_libcurl::fichier_global_inherited_read, inherited_run, finalize_subthread, set_subthread, relaunch_thread, run_thread, stop_thread, switch_to_metadata, write_data_callback, skip, inherited_read_ahead"]}
{"id": "C79", "title": "The option -M saves the filesystems it names and no other", "statement": "Whatever the list of options -M given to dar, a file or directory is recorded in the backup only if it and every directory above it are on filesystems the options ask for, and each one that is so (and that the other filters keep) is recorded: with no option all filesystems; with the legacy form only the one of the path given to -R; with I: forms only those named; with X: forms all but those named; with both, those named with I: and not with X:; the filesystem of -R is never left out. No name of a hard linked file of another filesystem is recorded, a mount point left out is not recorded or is saved empty if this is asked, and a path that is relative or does not exist is refused.", "quantifier": "all lists of options, all assignments of filesystems to paths, all trees, all other filters and archives of reference", "why_tests_cant": "the options combine in four ways with the filesystem of the root, in any number and order, over any tree of mount points", "anchors": ["src/libdar/filesystem_ids.cpp: filesystem_ids, include_fs_at, exclude_fs_at, is_covered", "src/libdar/filtre.cpp: filtre_sauvegarde", "src/libdar/archive_options.hpp: set_same_fs, set_same_fs_include, set_same_fs_exclude", "src/dar_suite/command_line.cpp: get_args_recursive", "src/dar_suite/dar.cpp: little_main"]}
{"id": "C80", "title": "The block size of delta signatures follows the formula asked for", "statement": "For every file size and every valid parameters, the block size of a delta signature is multiplier*function(size)/divisor brought between the minimum and the maximum (if any), the functions being 1, the size, the number of binary digits, and powers of two close to the square and cube roots; it grows with the size of the file; it can always be calculated (with limited integers, a product too large is told as an integer overflow); and the option --delta sig:function:multiplier:divisor:min:max:hash gives the parameters written, invalid ones being refused.", "quantifier": "all file sizes, all parameters, all texts of the fields", "why_tests_cant": "the sizes are unbounded integers and the functions are rounded in three ways", "anchors": ["src/libdar/delta_sig_block_size.cpp: reset, check, calculate", "src/libdar/tools.cpp: tools_upper_rounded_log2, tools_lower_rounded_exp2, tools_rounded_square_root, tools_rounded_cube_root", "src/dar_suite/command_line.cpp: get_args_recursive", "src/dar_suite/line_tools.cpp: line_tools_string_to_sig_block_size_function"]}
{"id": "C81", "title": "Restoring extended attributes follows the overwriting policy and the mask", "statement": "When an archived entry is restored over an existing file, each extended attribute of the file has afterwards the value the action of the overwriting policy says (preserve: the one it had; overwrite: the one of the archive if the mask given with -u and -U covers it, else none; clear: none; merge: both sets, the file or the archive winning for the attributes they share), Linux capabilities included. Where there was no file it has the attributes of the archive that the mask covers. Whatever the system refuses, no attribute gets a value that comes from elsewhere, one that the mask does not cover never takes the value in the archive, and no other inode is touched. Other names of an inode already restored leave its attributes as they are.", "quantifier": "every set of attributes of the file and of the archive, mask, action, hard link or not, way the data was restored, and set of attributes the system refuses", "why_tests_cant": "The sets of attributes, the masks and the refusals are unbounded; tests try a few attributes as root.", "anchors": ["src/libdar/ea_filesystem.cpp: write_ea, remove_ea, read_ea, ea_filesystem_clear_ea", "src/libdar/filesystem_hard_link_write.cpp: raw_set_ea, raw_clear_ea_set, make_file", "src/libdar/filesystem_restore.cpp: write, action_over_ea, action_over_data"]}
{"id": "C82", "title": "Arguments made of several fields are understood exactly", "statement": "A text is taken for the URL of a remote repository exactly when it reads proto://[login[:password]@]hostname[:port]/path, and then the protocol, login, password, host, port and path used are those it says (a backslash in a login gives the character that follows, a missing path is /). --min-digits accepts exactly one to three numbers separated by commas, any of which may be left out; --retry-on-change exactly a count, or a count and a number of bytes; --slice-mode gives the permission, user and group named. -K takes what follows the first colon, colons included, for the password, what precedes for the cipher (aes256 when nothing precedes, refused when unknown), and after gnupg: the comma-separated list for the recipients, with no password.", "quantifier": "every text given as argument, and every list of recipients", "why_tests_cant": "The texts are unbounded and the separators may be anywhere; tests try a few well-formed arguments.", "anchors": ["src/dar_suite/line_tools.cpp: line_tools_split_entrepot_path, line_tools_get_min_digits, line_tools_slice_ownership, line_tools_repeat_param, line_tools_crypto_split_algo_pass, line_tools_crypto_string_to_crypto_algo"]}
{"id": "C83", "title": "The header of a backup database tells how to read it", "statement": "The header of a database written by dar_manager is read back with the same version, compression and level, and, when the database is encrypted, the same cipher, key derivation, iteration count, block size and salt; so that a database saved in a file and opened again with the same password is the same database. A header cut anywhere, or made by a later version, is never taken for a valid one. Whatever is asked through the API, in whatever order, a new database never has a weak cipher, key derivation, iteration count or block size.", "quantifier": "every set of parameters, content of the database, salt, place of the cut and sequence of requests", "why_tests_cant": "The parameters are unbounded numbers and texts and the requests come in any order; tests save and reload a few databases.", "anchors": ["src/libdar/database_header.cpp: database_header::read, write, clear, set_crypto, set_kdf_hash, set_kdf_iteration, set_crypto_block_size, database_header_create, database_header_open", "src/libdar/i_database.cpp: i_database::dump, build"]}
{"id": "C84", "title": "End of line sequences given with a listing file are understood exactly", "statement": "The argument of -[ and -] is the name of a file, or the name of a file, a colon and a comma-separated list of end of line sequences; the name is all that precedes the last colon, and the sequences are those written, where a comma and a backslash are preceded by a backslash and where the usual escape sequences stand for the usual characters; a text where a backslash does not begin an escape sequence is refused.", "quantifier": "every file name, list of sequences and text", "why_tests_cant": "The texts and the number of sequences are unbounded, and backslashes and commas may follow each other in any way; tests try the default list.", "anchors": ["src/dar_suite/line_tools.cpp: line_tools_split_mask_list_from_eols, line_tools_replace_escape_sequences, extract_octal_from_string, extract_hexa_from_string", "man/dar.1: -[, -]"]}
{"id": "C85", "title": "The argument of -z is understood exactly", "statement": "-z is accepted exactly when its argument is an algorithm, a level, algo:level or algo:level:block-size, where the algorithm and the level may be left out (gzip, 9); the algorithm, level and block size used are those written, with the unit of the block size; an archive is created with it exactly when the level is from 1 to 9, or at least 1 for zstd. No text has two meanings.", "quantifier": "every text given as argument, and both bases of the size suffixes", "why_tests_cant": "The texts and numbers are unbounded; tests try a few valid arguments.", "anchors": ["src/dar_suite/line_tools.cpp: line_tools_split_compression_algo", "src/libdar/tools.cpp: tools_str2int, tools_my_atoi", "src/libdar/compression.cpp: string2compression", "src/libdar/i_archive.cpp: i_archive::create_in (sanity checks)", "man/dar.1: -z"]}
{"id": "C86", "title": "Restoring the flags of files follows the overwriting policy", "statement": "A restored file that did not exist has the flags (append-only, no-dump, immutable, ...) the archive has for it, the immutable one being set last; over an existing file each flag has the value the policy says (preserved, overwritten, merged; clearing changes no flag). Whatever the system refuses, a flag keeps the value it had or takes the one of the archive, and keeps it when the archive does not have it, when the program was built without it or when the family is not in the FSA scope; with a policy that preserves the attributes no flag changes.", "quantifier": "every set of flags of the file and of the archive, policy, type of file, and set of requests the system refuses", "why_tests_cant": "The sets of attributes and the refusals combine freely with the policies; tests need root privileges and try few flags.", "anchors": ["src/libdar/filesystem_specific_attribute.cpp: set_fsa_to_filesystem_for, set_extX_FSA_to, fill_extX_FSA_with", "src/libdar/filesystem_restore.cpp: write, action_over_fsa, action_over_data", "src/libdar/filesystem_tools.cpp: filesystem_tools_has_immutable, filesystem_tools_set_immutable, filesystem_tools_make_date"]}
{"id": "C87", "title": "Regular expressions given to -P exclude what they say", "statement": "With --alter=regex, -P RE excludes an entry exactly when RE is found in its path relative to -R, or in the relative path of a directory that contains it: `^` stands for the beginning of the relative path, `$` for its end, and characters of the -R path are never taken for operators.", "quantifier": "every -R path, regular expression and path of an entry", "why_tests_cant": "Regular expressions, roots and paths are unbounded texts and the meaning is that of a language; tests try a few expressions.", "anchors": ["src/libdar/tools.cpp: tools_build_regex_for_exclude_mask", "src/libdar/mask.cpp: regular_mask", "src/dar_suite/command_line.cpp: make_exclude_path_ordered, make_exclude_path_unordered", "man/dar.1: -ar, -P"]}
