{
 "claims": [
  {
   "property": "C01",
   "status": "partial",
   "theorems": [
    "Lha.C01_false",
    "Lha.C01_round_trip_partial",
    "Lha.C01_exact"
   ],
   "note": "False of the code for bodies whose first byte has bit 5 set (panic, C02), bodies that do not get smaller (C21) and lh7 bodies of 64 KiB or more (C22); proved for all others. C01_exact: with lh5, lh6 and lh7 the body comes back if and only if none of these three holds."
  },
  {
   "property": "C02",
   "status": "partial",
   "theorems": [
    "Lha.C02_false",
    "Lha.C02_panic_iff",
    "Lha.C02_no_crash_partial",
    "Lha.C02_empty"
   ],
   "note": "False of the code: compression panics exactly when bit 0x20 of the first byte is set (C02_panic_iff); C02_false is the negation."
  },
  {
   "property": "C03",
   "status": "proved",
   "theorems": [
    "Lha.C03_lossless",
    "Lha.C03_panic"
   ],
   "note": "For every input on which compression does not panic (C03_panic: it panics otherwise)."
  },
  {
   "property": "C04",
   "status": "proved",
   "theorems": [
    "Lha.C04_lossless"
   ],
   "note": ""
  },
  {
   "property": "C05",
   "status": "proved",
   "theorems": [
    "Lha.C05_fields_round_trip"
   ],
   "note": ""
  },
  {
   "property": "C06",
   "status": "proved",
   "theorems": [
    "Lha.C06_complete_code",
    "Lha.C06_single"
   ],
   "note": ""
  },
  {
   "property": "C07",
   "status": "proved",
   "theorems": [
    "Lha.C07_windows",
    "Lha.C07_decode_letter",
    "Lha.C07_decode_distance"
   ],
   "note": ""
  },
  {
   "property": "C08",
   "status": "proved",
   "theorems": [
    "Lha.C08_crc_correct",
    "Lha.C08_update"
   ],
   "note": ""
  },
  {
   "property": "C09",
   "status": "proved",
   "theorems": [
    "Lha.C09_chunking"
   ],
   "note": ""
  },
  {
   "property": "C10",
   "status": "proved",
   "theorems": [
    "Lha.C10_burst",
    "Lha.C10_odd"
   ],
   "note": ""
  },
  {
   "property": "C11",
   "status": "partial",
   "theorems": [
    "Lha.C11_false",
    "Lha.C11_verified_partial"
   ],
   "note": "False for stored entries (negation proved). Proved for all other methods (all decoders modelled) and every archive content."
  },
  {
   "property": "C12",
   "status": "partial",
   "theorems": [
    "Lha.C12_false",
    "Lha.C12_extract_partial"
   ],
   "note": "False of the code: Decompress never compares checksums. Partial: the right content is written for archives made by CompressBytes."
  },
  {
   "property": "C13",
   "status": "proved",
   "theorems": [
    "Lha.C13_header_round_trip",
    "Lha.C13_generic_round_trip",
    "Lha.C13_long_name_truncated"
   ],
   "note": ""
  },
  {
   "property": "C14",
   "status": "proved",
   "theorems": [
    "Lha.C14_corruption_detected"
   ],
   "note": ""
  },
  {
   "property": "C15",
   "status": "partial",
   "theorems": [
    "Lha.C15_false",
    "Lha.C15_partial",
    "Lha.C15_never_read",
    "Lha.C15_witness"
   ],
   "note": "False of the code: no level-2 (or level-3) header is ever read; every level-2 header the library writes makes its own reader panic. Headers that are too short are refused without a crash, and only those."
  },
  {
   "property": "C16",
   "status": "partial",
   "theorems": [
    "Lha.C16_false",
    "Lha.C16_partial",
    "Lha.C16_never_written",
    "Lha.C16_extended_never_read"
   ],
   "note": "False of the code: writing a level-1 header always panics. Only what is refused (a link without target) does not crash; levels 0 and 3 do not crash."
  },
  {
   "property": "C17",
   "status": "proved",
   "theorems": [
    "Lha.C17_decompress",
    "Lha.C17_commandExtract",
    "Lha.C17_refused",
    "Lha.C17_models"
   ],
   "note": "For every archive content and all options."
  },
  {
   "property": "C18",
   "status": "partial",
   "theorems": [
    "Lha.C18_false",
    "Lha.C18_sound",
    "Lha.C18_complete_partial",
    "Lha.C18_never_fires"
   ],
   "note": "False of the code: empty components hide '..'. Sound for all paths, complete for paths without empty components."
  },
  {
   "property": "C19",
   "status": "partial",
   "theorems": [
    "Lha.C19_false",
    "Lha.C19_new_partial"
   ],
   "note": "False of the code for every existing archive. Partial: a new archive does list the file."
  },
  {
   "property": "C20",
   "status": "partial",
   "theorems": [
    "Lha.C20_false",
    "Lha.C20_silent_loss",
    "Lha.C20_empty_partial"
   ],
   "note": "False of the code: no non-empty stored body comes back (negation proved for every such body). Partial: the empty body survives."
  },
  {
   "property": "C21",
   "status": "partial",
   "theorems": [
    "Lha.C21_false",
    "Lha.C21_silent_loss",
    "Lha.C21_marked_partial"
   ],
   "note": "False of the code: for every body that does not get smaller the entry recorded is shorter than the body, and the call reports success."
  },
  {
   "property": "C22",
   "status": "partial",
   "theorems": [
    "Lha.C22_false",
    "Lha.C22_truncated",
    "Lha.C22_short_partial"
   ],
   "note": "False of the code for lh7 entries of 64 KiB or more; C22_truncated says exactly which suffix is written."
  },
  {
   "property": "C23",
   "status": "proved",
   "theorems": [
    "Lha.C23_exact_consumption"
   ],
   "note": "Codec level."
  },
  {
   "property": "C24",
   "status": "partial",
   "theorems": [
    "Lha.C24_bound_partial",
    "Lha.C24_hangs",
    "Lha.C24_hangs_lh5",
    "Lha.C24_hangs_lh6",
    "Lha.C27_hang_is_real"
   ],
   "note": "Size bound proved whenever decoding returns; termination is false for lh5, lh6 and lh7 (C24_hangs*)."
  },
  {
   "property": "C25",
   "status": "proved",
   "theorems": [
    "Lha.C25_bounded"
   ],
   "note": "Codec level."
  },
  {
   "property": "C26",
   "status": "proved",
   "theorems": [
    "Lha.C26_window"
   ],
   "note": ""
  },
  {
   "property": "C27",
   "status": "partial",
   "theorems": [
    "Lha.C27_false",
    "Lha.C27_hang",
    "Lha.C27_hang_is_real",
    "Lha.C27_partial"
   ],
   "note": "False of the code: concrete streams that panic or hang."
  },
  {
   "property": "C28",
   "status": "proved",
   "theorems": [
    "Lha.C28",
    "Lha.C28_perm",
    "Lha.C28_decoder"
   ],
   "note": "The pair of linked rings is a move-to-front list for every update sequence and every position; the decoder enters exactly the bytes written since the last token."
  },
  {
   "property": "C29",
   "status": "partial",
   "theorems": [
    "Lha.C29_false",
    "Lha.C29_stream_false",
    "Lha.C29_ones_partial"
   ],
   "note": "False of the code: on a zero bit treeGet takes the left child of the right child; a well-formed two-leaf tree and a well-formed one-byte pm2 stream panic. Partial: code words of ones only are read correctly."
  },
  {
   "property": "C30",
   "status": "partial",
   "theorems": [
    "Lha.C30_false",
    "Lha.C30_partial"
   ],
   "note": "False of the code: headers are parsed into a reused struct whose previous name length limits the next name."
  },
  {
   "property": "C31",
   "status": "partial",
   "theorems": [
    "Lha.C31_false",
    "Lha.C31_witness",
    "Lha.C31_partial"
   ],
   "note": "False of the code: after lh5, lh6 and lh7 compression panics. C31_partial: with one compression method per process (lh5, lh6 or lh7), whatever was compressed with it and decompressed with any method before, every outcome is that of a fresh process."
  },
  {
   "property": "C32",
   "status": "proved",
   "theorems": [
    "Lha.C32",
    "Lha.C32_complete",
    "Lha.C32_model",
    "Lha.C32_options"
   ],
   "note": "CommandAdd as a sequence of disk operations; every crash state, including panics and torn writes. Assumes that rename is atomic and that finished operations are on disk."
  },
  {
   "property": "C33",
   "status": "partial",
   "theorems": [
    "Lha.C33_false",
    "Lha.C33_false_excluded",
    "Lha.C33_named_partial",
    "Lha.C33_move_one_partial"
   ],
   "note": "False of the code: unreadable and excluded files are deleted."
  },
  {
   "property": "C34",
   "status": "partial",
   "theorems": [
    "Lha.C34_false",
    "Lha.C34_false_twice",
    "Lha.C34_single_partial"
   ],
   "note": "False of the code for lists of two patterns and more; right for one pattern."
  },
  {
   "property": "C35",
   "status": "proved",
   "theorems": [
    "Lha.C35_wintime",
    "Lha.C35_exact"
   ],
   "note": ""
  },
  {
   "property": "C36",
   "status": "partial",
   "theorems": [
    "Lha.C36_false",
    "Lha.C36_false_dir",
    "Lha.C36_partial",
    "Lha.C36_witness"
   ],
   "note": "False of the code: decimal constants are added to the permission bits where octal ones are meant."
  },
  {
   "property": "C37",
   "status": "partial",
   "theorems": [
    "Lha.C37_false",
    "Lha.C37_after_lh5_partial"
   ],
   "note": "False of the code: an lh4 entry decodes differently in a fresh process and after an lh5 entry (concrete witness). Partial: after any history that leaves 14 distance codes and 4 bits, an lh4 entry decodes to its content."
  },
  {
   "property": "C38",
   "status": "partial",
   "theorems": [
    "Lha.C38_false",
    "Lha.C38_false_name",
    "Lha.C38_needFile_partial"
   ],
   "note": "False of the code: parsed names contain NUL, so no requested entry is ever extracted."
  },
  {
   "property": "C39",
   "status": "proved",
   "theorems": [
    "Lha.C39_lzs",
    "Lha.C39_lz5"
   ],
   "note": "LArc lzs and lz5 streams, written bit by bit in Spec/Larc from a ring-buffer reading of the format, decode to the text the ring buffer produces, for every token list, including copies that reach into the preset dictionary."
  },
  {
   "property": "C40",
   "status": "partial",
   "theorems": [
    "Lha.C40_decoder",
    "Lha.C40_total",
    "Lha.C40_partial",
    "Lha.C40_false"
   ],
   "note": "The decoder half is proved for every symbol sequence against an independent description of the adaptive code; the coder half for sequences short enough that no code word exceeds 16 bits. False beyond that: C40_false exhibits a sequence of 19780 lh1 symbols that comes back with another last symbol."
  },
  {
   "property": "C41",
   "status": "partial",
   "theorems": [
    "Lha.C41_partial",
    "Lha.C41_total",
    "Lha.C41_false"
   ],
   "note": "Proved for every token list without the longest copy (60 bytes); false for lists with it: the decoder reads 8 extra bits after symbol 313 (concrete witness)."
  },
  {
   "property": "C42",
   "status": "partial",
   "theorems": [
    "Lha.C42_partial",
    "Lha.C42_false"
   ],
   "note": "False as stated: an lz5 entry hides the entries after it (C42_false). Proved for archives of any number of entries packed, by any conforming encoder (C48), with lh1 / lzs / lh5-lh7 (or empty) whose names do not get longer from entry to entry."
  },
  {
   "property": "C43",
   "status": "partial",
   "theorems": [
    "Lha.C43_partial",
    "Lha.C43_false_stored",
    "Lha.C43_false_lz5"
   ],
   "note": "False for stored (lh0) and lz5 entries: concrete witnesses. Proved for every other method the dispatch knows."
  },
  {
   "property": "C44",
   "status": "partial",
   "theorems": [
    "Lha.C44_partial",
    "Lha.C44_false"
   ],
   "note": "False when an lz5 entry precedes; proved for the archives of C42_partial."
  },
  {
   "property": "C45",
   "status": "partial",
   "theorems": [
    "Lha.C45_partial",
    "Lha.C45_false"
   ],
   "note": "False when a preceding entry has a shorter name (later names are cut); proved for name lengths that do not grow."
  },
  {
   "property": "C46",
   "status": "proved",
   "theorems": [
    "Lha.C46"
   ],
   "note": "For every byte sequence, all announced sizes and every state of the globals with tables of the right sizes; the state left behind is again of that kind."
  },
  {
   "property": "C47",
   "status": "partial",
   "theorems": [
    "Lha.C47_false",
    "Lha.C47_partial"
   ],
   "note": "False of the code for every old archive: the backup name is never set. Partial: a call that does not succeed leaves the old archive in place."
  },
  {
   "property": "C48",
   "status": "partial",
   "theorems": [
    "Lha.C48_partial",
    "Lha.C48_lh4_partial",
    "Lha.C48_lh7_truncated",
    "Lha.C48_false_lh7",
    "Lha.C48_false_lh4"
   ],
   "note": "The grammar of a conforming stream is Spec/Static.lean, independent of the encoder. Proved for lh5, lh6 and lh7 (lh7: contents below 64 KiB, longer ones are cut: C48_lh7_truncated, C48_false_lh7), and for lh4 when the globals happen to hold 14/4 (C48_false_lh4 otherwise)."
  },
  {
   "property": "C49",
   "status": "partial",
   "theorems": [
    "Lha.C49_stream",
    "Lha.C49_partial",
    "Lha.C49_false",
    "Lha.C49_name"
   ],
   "note": "Every packed stream conforms to the same grammar as in C48, without limit on the length; whole archives for bodies that the compressor shrinks and that do not trigger the panic of C02. False for incompressible bodies: the size field does not fit the content."
  },
  {
   "property": "C50",
   "status": "partial",
   "theorems": [
    "Lha.C50_write_partial",
    "Lha.C50_false_write",
    "Lha.C50_read_raw",
    "Lha.C50_false_read"
   ],
   "note": "False both ways: every date is written with a wrong year (80 is subtracted from the calendar year, as if it counted from 1900), and a date read is used as a number of Unix seconds. Month, day, hour, minute and second are written correctly."
  },
  {
   "property": "C51",
   "status": "partial",
   "theorems": [
    "Lha.C51_false",
    "Lha.C51_partial"
   ],
   "note": "False: with two non-empty files the call succeeds but the header of the second file overwrites the start of the archive. Partial: all files but the first are empty."
  },
  {
   "property": "C52",
   "status": "partial",
   "theorems": [
    "Lha.C52_false_name",
    "Lha.C52_false_empty",
    "Lha.C52_false_ext",
    "Lha.C52_partial",
    "Lha.C52_extra_partial"
   ],
   "note": "False: the last character of every name is lost, an empty basic name panics, a header with extended headers is never read. Partial: without extended headers everything but the name is right."
  },
  {
   "property": "C53",
   "status": "partial",
   "theorems": [
    "Lha.C53_false",
    "Lha.C53_partial"
   ],
   "note": "False: with ExtractDirectory set every entry makes makeNameWithPathcheck panic. Partial: a call that returns had an archive without entries."
  },
  {
   "property": "C54",
   "status": "partial",
   "theorems": [
    "Lha.C54_false",
    "Lha.C54_false_clash",
    "Lha.C54_partial"
   ],
   "note": "False for names without a directory part: the first character is lost. Partial: names with a directory part."
  },
  {
   "property": "C55",
   "status": "proved",
   "theorems": [
    "Lha.C55",
    "Lha.C55_decompress",
    "Lha.C55_silent"
   ],
   "note": "For arbitrary archive bytes, directory states and typed lines; about calls that return."
  },
  {
   "property": "C56",
   "status": "partial",
   "theorems": [
    "Lha.C56_false",
    "Lha.C56_false_link",
    "Lha.C56_partial"
   ],
   "note": "False for attributes: a -lhd- entry with the mode of a file changes time stamp and permissions of an existing file, or of a link's target, unasked. Partial: contents."
  },
  {
   "property": "C57",
   "status": "partial",
   "theorems": [
    "Lha.C57_false",
    "Lha.C57_partial"
   ],
   "note": "False: without a line beginning with 'Y' the program crashes at the end of input. Partial: 'Y' overwrites."
  },
  {
   "property": "C58",
   "status": "partial",
   "theorems": [
    "Lha.C58_false",
    "Lha.C58_false_panic",
    "Lha.C58_partial"
   ],
   "note": "False: no archive makes a directory or link; an existing directory panics. Partial: missing directories do not disturb the files."
  },
  {
   "property": "C59",
   "status": "partial",
   "theorems": [
    "Lha.C59_false",
    "Lha.C59_partial"
   ],
   "note": "False of time stamps and permissions. Partial: contents on disk, and nothing else changes."
  },
  {
   "property": "C60",
   "status": "partial",
   "theorems": [
    "Lha.C60_partial",
    "Lha.C60_false",
    "Lha.C60_false_name"
   ],
   "note": "Holds for archives that end with a zero byte and in which names do not get longer. False otherwise: without end mark the complete listing is followed by an error; a longer later name is cut."
  },
  {
   "property": "C61",
   "status": "partial",
   "theorems": [
    "Lha.C61_partial",
    "Lha.C61_sound_partial",
    "Lha.C61_false",
    "Lha.C61_false_lz5"
   ],
   "note": "No false alarm for archives of sound compressed entries; the first damaged compressed file is always reported. False of stored entries (reported as damaged though intact) and of whatever follows an lz5 entry (not looked at)."
  },
  {
   "property": "C62",
   "status": "partial",
   "theorems": [
    "Lha.C62_false",
    "Lha.C62_witness",
    "Lha.C62_partial"
   ],
   "note": "False with default options: every archive the program makes begins with a level-2 header, at which it crashes when reading. Holds with -o 5, 6, 7 for a new archive and one file under the conditions of C01."
  },
  {
   "property": "C63",
   "status": "partial",
   "theorems": [
    "Lha.C63_false",
    "Lha.C63_false_move",
    "Lha.C63_false_delete",
    "Lha.C63_false_update",
    "Lha.C63_false_exclude",
    "Lha.C63_partial",
    "Lha.C63_exclude_partial"
   ],
   "note": "-n, -f, -v have no effect, -m removes nothing, -u is -a, -d does nothing and reports success. Holds: -l, -lv, -e, -t, -p leave the archive alone, only -e creates files, -x with one pattern keeps the file out."
  },
  {
   "property": "C64",
   "status": "partial",
   "theorems": [
    "Lha.C64_false",
    "Lha.C64_partial"
   ],
   "note": "False: the result is the same as if there had been no archive (unless the packed data of the first entry looks like a header). Holds for an archive without entries."
  },
  {
   "property": "C65",
   "status": "partial",
   "theorems": [
    "Lha.C65_partial",
    "Lha.C65_few_partial",
    "Lha.C65_false"
   ],
   "note": "Optimal among all decodable codes, of any word lengths, if no length exceeds 15, and always for fewer than 4181 symbols. False when lengths are cut to 16: for 20 Fibonacci counts another code with words of at most 16 bits is shorter."
  },
  {
   "property": "C66",
   "status": "partial",
   "theorems": [
    "Lha.C66_extract_partial",
    "Lha.C66_test_partial",
    "Lha.C66_list_partial",
    "Lha.C66_cli_partial",
    "Lha.C66_missing",
    "Lha.C66_false"
   ],
   "note": "Proved for any changed byte of the header except the first and a level byte that becomes 2 or 3; false of the first byte becoming 0 (C66_false: later entries silently dropped)."
  },
  {
   "property": "C67",
   "status": "proved",
   "theorems": [
    "Lha.C67",
    "Lha.C67_extracts"
   ],
   "note": "Any archive bytes, any directory; ExtractDirectory and IgnoreDirectory unset. C67_extracts: the file asked for is extracted, for valid archives."
  },
  {
   "property": "C68",
   "status": "partial",
   "theorems": [
    "Lha.C68_false",
    "Lha.C68_partial"
   ],
   "note": "False: a file that may not be created is left out without an error. The other files are extracted."
  },
  {
   "property": "C69",
   "status": "proved",
   "theorems": [
    "Lha.C69",
    "Lha.C69_lz",
    "Lha.C69_runs"
   ],
   "note": "LZ stage for lh1, lh5, lh6, lh7 with any sink; packed streams of lh5, lh6, lh7. C69_runs: a file of n equal bytes takes at most 3 + (n-1)/256 tokens."
  },
  {
   "property": "C70",
   "status": "partial",
   "theorems": [
    "Lha.C70_ignored",
    "Lha.C70_lost",
    "Lha.C70_lh1_false",
    "Lha.C70_honoured_partial"
   ],
   "note": "False of the code: every method number but 1, 5, 6, 7 does exactly what 0 does (proved for all arguments), and 1 writes entries that cannot be read (concrete run). Partial: 5, 6, 7 are honoured for the bodies of C01."
  },
  {
   "property": "C71",
   "status": "partial",
   "theorems": [
    "Lha.C71_partial",
    "Lha.C71_false_far",
    "Lha.C71_false_long",
    "Lha.C71_false_after_lh1",
    "Lha.C71_false_cut",
    "Lha.C71_after_lh2"
   ],
   "note": "Proved for codes with short words and near distances in a process that has not decoded lh1 or lh2; false otherwise: fixed distance code, words of more than 12 bits, after an lh1 entry, after an entry that ends inside a block (concrete witnesses); after an lh2 entry every lh3 entry panics (proved for all bodies)."
  },
  {
   "property": "C72",
   "status": "proved",
   "theorems": [
    "Lha.C72",
    "Lha.C72_other",
    "Lha.C72_first",
    "Lha.C72_second"
   ],
   "note": "treeRebuild for every table with lengths up to 31 and at most 32 symbols (the callers use 29 and 8); both kinds of header."
  },
  {
   "property": "C73",
   "status": "partial",
   "theorems": [
    "Lha.C73_partial",
    "Lha.C73_false"
   ],
   "note": "Proved for streams whose code words consist of ones only, from any earlier decoder state; false for words with a zero (concrete stream of one letter panics), because treeGet takes the wrong child."
  },
  {
   "property": "C74",
   "status": "proved",
   "theorems": [
    "Lha.C74_add",
    "Lha.C74_compressBytes",
    "Lha.C74_compress",
    "Lha.C74_round_trip_partial"
   ],
   "note": "One compression method per process, as in C31 (after lh5, lh6 and lh7 panic). The round trip has the hypotheses of C01 on the body (asked of a fresh process)."
  },
  {
   "property": "C75",
   "status": "partial",
   "theorems": [
    "Lha.C75_false",
    "Lha.C75_partial"
   ],
   "note": "writeHeaderLevel2 omits the type byte of the filename extension and stores the length of the name as its size, so the header is unreadable for every ordinary name. What holds: length, basic fields, header checksum."
  },
  {
   "property": "C76",
   "status": "partial",
   "theorems": [
    "Lha.C76_false",
    "Lha.C76_panics",
    "Lha.C76_add_partial",
    "Lha.C76_extract_false",
    "Lha.C76_extract_partial"
   ],
   "note": "False of the code: with DeleteAfterAppend an excluded file is deleted; any other existing argument makes the call panic; extraction with Force sets mode and time of files that are there. Proved: without DeleteAfterAppend adding changes nothing, extraction never changes contents."
  },
  {
   "property": "C77",
   "status": "partial",
   "theorems": [
    "Lha.C77_false",
    "Lha.C77_partial",
    "Lha.C77_leftover"
   ],
   "note": "False of the code: CommandAdd panics for every directory or link argument. Proved: such a call changes nothing but its temporary file."
  },
  {
   "property": "C78",
   "status": "partial",
   "theorems": [
    "Lha.C78_not_added",
    "Lha.C78_not_replaced",
    "Lha.C78_nothing_updated",
    "Lha.C78_partial"
   ],
   "note": "False of the code: the first entry decides whatever its name, nothing is ever replaced, without arguments nothing is updated. Proved: without an archive the option makes no difference."
  },
  {
   "property": "C79",
   "status": "partial",
   "theorems": [
    "Lha.C79_false",
    "Lha.C79_false_files",
    "Lha.C79_partial"
   ],
   "note": "False of the code: DecompresBytes and Decompress return no data and no error for a name that is not in the archive. Partial: a missing archive is reported, and data is only returned for a header of the name asked for."
  },
  {
   "property": "C80",
   "status": "partial",
   "theorems": [
    "Lha.C80_false",
    "Lha.C80_partial",
    "Lha.C80_crash"
   ],
   "note": "False of the code: the first 64 KiB are always consumed, so nothing is found in a small .exe or .com file, and no error is returned. Partial: a program of exactly 64 KiB is skipped unless the call panics."
  },
  {
   "property": "C81",
   "status": "partial",
   "theorems": [
    "Lha.C81_false",
    "Lha.C81_checksums_partial",
    "Lha.makeActs_run",
    "Lha.decompresBytesV_false"
   ],
   "note": "False of the code: while Headers runs in one goroutine DecompresBytes in another returns no data and no error. Partial: the shared checksum table is harmless under every interleaving (memory assumed sequentially consistent, accesses to a cell indivisible)."
  },
  {
   "property": "C82",
   "status": "partial",
   "theorems": [
    "Lha.C82_partial",
    "Lha.C82_checked_partial",
    "Lha.C82_test",
    "Lha.C82_false_stored",
    "Lha.C82_false_selected",
    "Lha.C82_false_stored_zero"
   ],
   "note": "False of the code: printing a stored entry prints everything behind its header and then fails; a message is printed for every entry that is not asked for; headings leave out directories. Partial: the exact output for archives as in C42; for arbitrary bytes, what is printed without an error has the checksum in its header, and errors are those of testing."
  },
  {
   "property": "C83",
   "status": "partial",
   "theorems": [
    "Lha.C83_stream_partial",
    "Lha.C83_own_partial",
    "Lha.C83_false",
    "Lha.C83_false_own",
    "Lha.C83_stored_partial"
   ],
   "note": "False in general: copies may reach before the text, where the window then holds zeros instead of spaces; even the library's own coder makes such copies (C83_false_own). Proved where copies stay inside the text, and for own archives of bodies without spaces. C83_stored_partial: for all bytes without the name of a packing method the option changes neither contents nor error."
  },
  {
   "property": "C84",
   "status": "partial",
   "theorems": [
    "Lha.C84_lost",
    "Lha.C84_false",
    "Lha.C84_partial"
   ],
   "note": "False: every text shorter than the first read of the method is lost while success is reported (C84_lost, for all such texts); two texts of the same length give the same archive (C84_false). Methods that store and empty texts are not affected (C84_partial). For longer texts see C106."
  },
  {
   "property": "C85",
   "status": "partial",
   "theorems": [
    "Lha.C85_false",
    "Lha.C85_false_lh5",
    "Lha.C85_list_partial",
    "Lha.C85_dry_partial",
    "Lha.C85_partial",
    "Lha.getHeader_ends"
   ],
   "note": "False: a 62 byte archive with one lh7 entry, and a 60 byte archive with one lh5 entry, make Headers, DecompresBytes and testing loop for ever. Listing and dry runs end on every file; the calls that decode end on every file in which none of the identifiers -lh2- to -lh7- and -pm2- occurs."
  },
  {
   "property": "C86",
   "status": "proved",
   "theorems": [
    "Lha.C86",
    "Lha.C86_tokens",
    "Lha.C86_packs",
    "Lha.C86_round_trip"
   ],
   "note": "For lh5, lh6, lh7 and all buffers left over from earlier calls. C86_tokens bounds the packed size for all contents by the number of tokens of the lazy parse."
  },
  {
   "property": "C87",
   "status": "partial",
   "theorems": [
    "Lha.C87_false",
    "Lha.C87_short_partial"
   ],
   "note": "False of the code: for every content of 4097 to 8191 bytes that gets smaller, with a wrong checksum in the header, DecompresBytes returns an error and the whole unverified content. Partial: for every archive, if less than 4096 bytes are returned (with or without an error) they are none or, unless stored, verified."
  },
  {
   "property": "C88",
   "status": "partial",
   "theorems": [
    "Lha.C88_false",
    "Lha.C88_false_add",
    "Lha.C88_false_level",
    "Lha.C88_reading_partial",
    "Lha.C88_false_closed",
    "Lha.C88_default_partial",
    "Lha.C88_false_replaced"
   ],
   "note": "False of the code in four ways (negations proved for all contents of C01/C49, all names, any archive; C88_false_closed and C88_false_replaced: CommandAdd with a value that has made an archive throws the old archive away). Partial: any number of reading calls changes only the header level, so all later calls except CommandAdd do what they would have done before; C88_default_partial: a new value adds with lh5 and header level 0."
  },
  {
   "property": "C89",
   "status": "partial",
   "theorems": [
    "Lha.C89_partial",
    "Lha.C89_total",
    "Lha.C89_false"
   ],
   "note": "False as stated: n1 is set to 512 instead of 285, so the eight bits after symbol 285 are taken for the distance (C89_false). Proved for copies up to 31 bytes, texts up to 1856 bytes, in a process that has decoded no lh2 stream before."
  },
  {
   "property": "C90",
   "status": "partial",
   "theorems": [
    "Lha.C90_list",
    "Lha.C90_extract_partial",
    "Lha.C90_test_partial",
    "Lha.C90_stored_partial",
    "Lha.C90_false_entries",
    "Lha.C90_false"
   ],
   "note": "False of the code for extraction and testing: a cut between two entries is not reported (C90_false_entries, all archives); a cut inside lh5 data makes a file of zeros without an error, or a crash (C90_false, an archive made by CompressBytes). Proved: listing reports every cut of every archive (C90_list); extraction and testing report a cut inside a header whose missing bytes do not add up to 0 mod 256; extraction reports a cut stored entry."
  },
  {
   "property": "C91",
   "status": "partial",
   "theorems": [
    "Lha.C91_false",
    "Lha.C91_false_read",
    "Lha.C91_partial",
    "Lha.C91_read_partial"
   ],
   "note": "False of the code: 37 bytes of archive make a file of any size below 2^32 (C91_false), also for test and DecompresBytes (C91_false_read). Partial: the universal bound that does hold."
  },
  {
   "property": "C92",
   "status": "partial",
   "theorems": [
    "Lha.C92_partial",
    "Lha.C92_false",
    "Lha.C92_false_default"
   ],
   "note": "False: entries are extracted under the last component of their name; with Force the earlier of two such entries is lost without an error, with default options extraction panics unless a line beginning with Y is typed. Proved with Force: every name holds the content of the last entry ending in it and nothing else changes."
  },
  {
   "property": "C93",
   "status": "partial",
   "theorems": [
    "Lha.C93_partial",
    "Lha.C93_false",
    "Lha.C93_false_forged",
    "Lha.C93_model"
   ],
   "note": "False: line feeds in names are printed as they are, so lines can be forged. Proved for archives of valid level-0 entries (names not getting longer, end mark) without line feeds in names, contents below 10^7 bytes together, none packed into more than nine times as many bytes."
  },
  {
   "property": "C94",
   "status": "proved",
   "theorems": [
    "Lha.C94"
   ],
   "note": "For every archive of bytes whose listing does not panic, all options and looks; lines of entries without restriction (sizes are below 2^32), totals for sums below 2^42 (packed) and 2^53 (original)."
  },
  {
   "property": "C95",
   "status": "partial",
   "theorems": [
    "Lha.C95_partial",
    "Lha.C95_false",
    "Lha.C95_false_setuid"
   ],
   "note": "False: no listing shows a time, and set-uid hides the execute bit. Proved for the other attributes, entries as in C93 with permissions of nine bits, owners modulo 2^16."
  },
  {
   "property": "C96",
   "status": "partial",
   "theorems": [
    "Lha.C96_partial",
    "Lha.C96_mixed_partial",
    "Lha.C96_false"
   ],
   "note": "False for OS-9/68K headers: the first column is missing. Proved in all eight styles, for level-0 Unix entries as in C60, any sizes, fewer than 1024 entries. C96_mixed_partial: archives of up to 1023 entries of Unix and other systems with headers of level 0 and level 1 (without extensions), in any order."
  },
  {
   "property": "C97",
   "status": "partial",
   "theorems": [
    "Lha.C97_partial",
    "Lha.C97_last",
    "Lha.C97_false"
   ],
   "note": "Archives as in C42 with distinct names; false if two entries have the same name."
  },
  {
   "property": "C98",
   "status": "partial",
   "theorems": [
    "Lha.C98_partial",
    "Lha.C98_false"
   ],
   "note": "Damaged contents are noticed; damaged headers silently shorten the list."
  },
  {
   "property": "C99",
   "status": "partial",
   "theorems": [
    "Lha.C99_partial",
    "Lha.C99_stops",
    "Lha.C99_false_stored",
    "Lha.C99_false_damaged",
    "Lha.C99_false_method"
   ],
   "note": "Files as in C42 and directories; false for stored files, wrong checksums, unknown methods."
  },
  {
   "property": "C100",
   "status": "partial",
   "theorems": [
    "Lha.C100_partial",
    "Lha.C100_false_os9",
    "Lha.C100_false_ff",
    "Lha.C100_unix_partial",
    "Lha.C100_longer_read_partial",
    "Lha.C100_longer_test_partial",
    "Lha.C100_longer_extract_partial",
    "Lha.C100_short_partial"
   ],
   "note": "Level-0 headers of other systems mixed with Unix ones; false for OS-9 names with directories (crash) and for separator 0xff."
  },
  {
   "property": "C101",
   "status": "partial",
   "theorems": [
    "Lha.C101_partial",
    "Lha.C101_false",
    "Lha.C101_same"
   ],
   "note": "For files as in C01: exactly which names are kept, and what the others are listed as. False of names with a backslash, and of capital letters with the generic format and ConvertCase."
  },
  {
   "property": "C102",
   "status": "partial",
   "theorems": [
    "Lha.C102_partial",
    "Lha.C102_false"
   ],
   "note": "Level-0 entries of all systems, methods of C42, names not getting longer, entries without a record of the system not behind others. False of such entries behind others: listed as a, not found as a."
  },
  {
   "property": "C103",
   "status": "partial",
   "theorems": [
    "Lha.C103_partial",
    "Lha.C103_false_os9",
    "Lha.C103_false_case"
   ],
   "note": "Level-0 entries of all systems, methods of C42, different and new last components of the names, names not getting longer. False of OS-9 entries with directories (crash) and of entries without a record of the system behind others (wrong name)."
  },
  {
   "property": "C104",
   "status": "partial",
   "theorems": [
    "Lha.C104_partial",
    "Lha.C104_limit",
    "Lha.C104_false",
    "Lha.commandListM_erase"
   ],
   "note": "Archives of valid entries whose packed data are all there, names not getting longer; false of a header that announces more than there is. Only the buffers for skipping are counted."
  },
  {
   "property": "C105",
   "status": "partial",
   "theorems": [
    "Lha.C105_partial",
    "Lha.C105_list_partial",
    "Lha.C105_extra_partial",
    "Lha.C105_extra_read_partial",
    "Lha.C105_extra_test_partial",
    "Lha.C105_extra_extract_partial",
    "Lha.C105_extract_partial",
    "Lha.C105_false_ext",
    "Lha.C105_false_witness",
    "Lha.C105_false_twins"
   ],
   "note": "Without extended headers, methods of C42, names without byte 0xff and not getting longer; the last byte of each name is lost. False with extended headers (silently not listed) and of names that differ in the last byte only."
  },
  {
   "property": "C106",
   "status": "partial",
   "theorems": [
    "Lha.C106_partial",
    "Lha.C106_read_partial",
    "Lha.C106_false",
    "Lha.C106_crash",
    "Lha.C106_packs"
   ],
   "note": "lh5 and lh6, texts that get smaller and do not begin with a byte the compressor crashes on. False: the bytes behind the last complete read are not in the checksum, so that Headers and DecompresBytes report an error for half of all texts whose length is not just that of complete reads."
  },
  {
   "property": "C107",
   "status": "partial",
   "theorems": [
    "Lha.C107_partial",
    "Lha.C107_false",
    "Lha.C107_error",
    "Lha.C107_exhaust"
   ],
   "note": "The archive is closed only if the loop meets the end of the file: archives of valid entries without an end mark. False for archives with an end mark, which is how this library ends them, and after every error; calls then fail when the limit of open files is reached (unless the garbage collector has closed some)."
  },
  {
   "property": "C108",
   "status": "proved",
   "theorems": [
    "Lha.C108"
   ],
   "note": "The entropy coder is not counted."
  },
  {
   "property": "C109",
   "status": "partial",
   "theorems": [
    "Lha.C109_partial",
    "Lha.C109_decompress_partial",
    "Lha.C109_inside",
    "Lha.C109_false"
   ],
   "note": "False with Force: an existing symbolic link is followed and its target overwritten (C109_false). Everything else is proved for every archive and all options."
  },
  {
   "property": "C110",
   "status": "proved",
   "theorems": [
    "Lha.C110_same",
    "Lha.C110_lh",
    "Lha.C110_lzs",
    "Lha.C110_any",
    "Lha.C110_any_lzs",
    "Lha.C110_any_lh7",
    "Lha.C110_false_lz5"
   ],
   "note": "C110_same: every method, any data. C110_lh, C110_lzs: streams that follow the format. C110_any: any data the decoder comes to an end with. The lh7 dump is complete also for texts of 64 KiB and more, which are not extracted completely (C22). lz5 is not among the methods claimed: C110_false_lz5 shows that its dump does not determine the contents."
  },
  {
   "property": "C111",
   "status": "partial",
   "theorems": [
    "Lha.C111_partial",
    "Lha.C111_before",
    "Lha.C111_extract_partial",
    "Lha.C111_returns_partial",
    "Lha.C111_false",
    "Lha.C111_false_test"
   ],
   "note": "False of the code: when the decoder takes fewer bytes than the packed size, CommandExtract skips the whole packed size again and silently loses what follows (C111_false). Proved: DecompresBytes of the other entries; the entries before the damage; the entries behind it if the decoder takes all packed bytes. Testing such an archive reports no error whatever follows (C111_false_test)."
  },
  {
   "property": "C112",
   "status": "proved",
   "theorems": [
    "Lha.C112"
   ],
   "note": "Every method, any data."
  },
  {
   "property": "C113",
   "status": "partial",
   "theorems": [
    "Lha.C113_partial",
    "Lha.C113_count_partial",
    "Lha.C113_false"
   ],
   "note": "False of the code: names are printed as they are, with any escape sequences, and every line for a Unix entry has a NUL in it (C113_false). Proved: every other byte that is not printable stands in the name, the link target, the method, the owner or the group of a header read; any archive. C113_count_partial: and no control character is printed more often than it stands there, but for one NUL per Unix entry and one per entry in the full style."
  },
  {
   "property": "C114",
   "status": "partial",
   "theorems": [
    "Lha.C114_partial",
    "Lha.C114_list_partial",
    "Lha.C114_test_partial",
    "Lha.C114_extract_partial",
    "Lha.C114_false"
   ],
   "note": "Files with level-0 headers (Unix, other systems) and with level-1 headers without extensions, mixed in any order. False in general: the name of a level-1 entry loses its last byte, so that a and ab are confused (C114_false); names that get longer (C30) and extended headers (C105) are not read."
  },
  {
   "property": "C115",
   "status": "partial",
   "theorems": [
    "Lha.C115_partial",
    "Lha.C115_off",
    "Lha.C115_other",
    "Lha.C115_false"
   ],
   "note": "Proved for files known by the name Icon\\r after the header was read, with any contents and any known method; any bytes if no entry of Mac OS is listed. False of level-1 headers: the name loses its last byte, and the icon is printed as Icon (C115_false)."
  },
  {
   "property": "C116",
   "status": "partial",
   "theorems": [
    "Lha.C116_partial",
    "Lha.C116_elsewhere_partial",
    "Lha.C116_false",
    "Lha.C116_false_end"
   ],
   "note": "C116_partial: the last file of an archive with level-0 headers, packed by a method with a checksum and a packed size (not lz5), any byte: without an error the contents have the recorded checksum. C116_elsewhere_partial: a file anywhere, a byte that is not in its packed data: without an error exactly its contents. Both leave out, for the first byte of an entry, the end mark (C116_false_end: false for every archive) and lengths for which the header sum is right by chance (C116_false). Missing: damaged packed data of a file that is not last, other header levels."
  },
  {
   "property": "C117",
   "status": "partial",
   "theorems": [
    "Lha.C117_partial",
    "Lha.C117_false"
   ],
   "note": "Proved if the end mark of the first archive is removed before joining (level-0 headers, valid entries, names not getting longer for extraction and reading). False with the end mark, for every pair of archives."
  },
  {
   "property": "C118",
   "status": "partial",
   "theorems": [
    "Lha.C118_false",
    "Lha.C118_partial"
   ],
   "note": "False: no call succeeds. True: it is reported, and nothing but the temporary file is changed. Names of 1024 bytes and more and Noexec are left out."
  },
  {
   "property": "C119",
   "status": "partial",
   "theorems": [
    "Lha.C119_partial",
    "Lha.C119_others_partial",
    "Lha.C119_same_partial",
    "Lha.C119_false"
   ],
   "note": "Negation proved with a concrete archive (the data is not decoded in a dry run). Partial: damaged headers and unknown methods behind any number of entries are reported, and nothing else for level-0 archives with names that do not get longer."
  },
  {
   "property": "C120",
   "status": "partial",
   "theorems": [
    "Lha.C120_list_partial",
    "Lha.C120_partial",
    "Lha.C120_test_partial",
    "Lha.C120_extract_partial",
    "Lha.C120_false"
   ],
   "note": "Entries without a checksum among Unix entries: listed, tested, read and extracted. Negation proved for names that get longer (C30)."
  }
 ]
}
