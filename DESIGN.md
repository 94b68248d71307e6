# Design

Object of study: `jeromelesaux/lha` (Go), source in `/repo`, read as text only.

## Approach

* The Go code is transcribed by hand into total Lean functions over a small fault monad `G a = Except Fault a` with
  `Fault = panic | diverge`.  An index out of range, a slice bound error, a nil dereference or a division by zero is `panic`.  Loops are
  structural recursions on a counter or on explicit fuel; running out of fuel is `diverge`, so "no `diverge`" has to be proved, it is not
  assumed.
* Go arrays/slices that are indexed with computed indices are a persistent binary trie `Arr` with bounds-checked `rd`/`wr`, so that the
  kernel can evaluate concrete runs (used for counterexamples and for the examples beside the theorems).
* Integers are `Nat`; wherever the Go type can wrap (uint8/uint16) the model has an explicit `% 256` / `% 65536`.  Signed 16-bit numbers of
  the adaptive coder are kept as 16-bit two's complement.  Go `int`/`uint` (64 bit) values are shown or documented not to reach 2^63.
* Package-level globals of the Go program are explicit state records (`Hf` with the parts `Dyn` and `PmGlob`) passed in and out, so that
  "the same operation after another one" can be stated.
* The LZ coder is generic over a token sink, the decoder generic over a token source; each method is an instance.
* Specifications (`Verif/Spec/*`) are written without reference to the model: LZ77 expansion, bit-by-bit CRC, canonical codes, token
  streams, level-0 header layout, archive layout, move-to-front list, ring-buffer reading of the LArc formats, sibling-property trees and
  the lh1 stream, path components.
* Each property has its own file in `Verif/Props/`.  If the code violates the property, the file proves the negation on a concrete witness
  (or for a whole class of inputs) and keeps the strongest true statement proved as `..._partial`.

## What the model covers

| Lean | Go |
|------|----|
| `Model/BitIO` | bitio.go (all), `peekbits` of huf.go |
| `Model/Crc` | crcio.go: `MakeCrcTable`, `updateCrc`, `calcCrc` |
| `Model/MakeTree`, `Model/MakeTable` | maketree.go, maketbl.go (all) |
| `Model/Huf` | huf.go (static Huffman coder and decoder: `outputSt1`, `sendBlock`, `writePtLen`, `writeCLen`, `readPtLen`, `readCLen`, `decodeCSt1`, `decodePSt1`, starts and ends) |
| `Model/Slide` | slide.go: hash chains, `searchDict`, `encode`, `decode` |
| `Model/Header` | header.go: level-0/1/2 writers, level-0/1/2/3 readers, `initHeader`, extended headers, time conversion; lhext.go name helpers |
| `Model/Archive` | append.go, util.go `copyfile`, extract.go, lhext.go: `CompressBytes`, `Compress`, `CommandAdd`, `DecompresBytes`, `Decompress`, `CommandExtract`, `Headers` and what they call, over a file-system record (names to contents) |
| `Model/Larc` | larc.go (lzs, lz5) |
| `Model/Pm` | pm.go, pmtree.go, pm2hist.go (pm2) |
| `Model/Dhuf` | dhuf.go (adaptive Huffman) |
| `Model/Shuf` | shuf.go (lh1, lh3), lh2 start |
| `Model/Trace` | `CommandAdd` and its callees once more, issuing disk operations (temporary file, rename, backup, removal) |
| `Model/Extract` | lhext.go: `Decompress`, `CommandExtract`, `extractOne`, `inquire`, `inquireExtract`, `adjustInfo`, `makeParentPath`, `symlinkWithMakePath` once more, with the current directory, link targets, attributes and typed lines as state |
| `Model/List` | lhext.go: `CommandList`, `listOne` (as rows of values; the text is in `Model/ListText`), `CommandExtract` with `VerifyMode` |
| `Model/Cli` | cmd/lharc.go: `main`, `parseOption`, `parseSubOption`, `initVariable`, `sortFiles`; lhext.go: `appendIt` and `CommandAdd` with `SortContents` (an old archive whose next header cannot be parsed is left out) |
| `Model/Methods` | dispatch to the decoders above |
| `Model/Append` | `CommandAdd` with all its options (Noexec, UpdateIfNewer, DeleteAfterAppend, BackupOldArchive, SortContents) and all kinds of arguments, as disk operations |
| `Model/Dry` | extraction with Noexec |
| `Model/Threads` | calls from several goroutines: the actions on `crctable` one by one, `VerifyMode` in `Headers` and `DecompresBytes` |
| `Model/Print` | `CommandExtract` with `OutputToStdout`: what is printed |
| `Model/Mac` | lhext.go 1493–1497: `DecodeMacbinaryContents` |
| `Model/Broken` | `slide.go` 104-193 with `ExtractBrokenArchive` |
| `Model/Text` | `crcio.go` 46-99 and `slide.go` 272-309, 391-467 with `TextMode` |
| `Model/Value` | `lha.go` 76-179: which fields of an `Lha` value the calls use and change |
| `Model/ListText` | lhext.go: the bytes printed by `CommandList`, `listOne`, `listHeader`, `listTailer`, `printBar`, `printSize` (with the roundings of `float64`), `printStamp` |
| `Model/Memory` | the buffers `Headers` allocates, counted |
| `Model/Handles` | which calls of `os.Open` and `Close` the reading functions of lhext.go make, on every path |
| `Model/Steps` | slide.go: the encoder's search once more, counting rounds of its loops |
| `Model/Dump` | slide.go `decode` and extract.go with `DumpLzss`: the text printed |

Not modelled: the operating system beyond what the file-system records of `Model/Archive` and `Model/Extract` hold (names, contents, whether a name can be created; mode, modification
time and owner of a file; no process besides this one, no full disk), temporary-file names (a parameter), character-set conversion of names (`lhMbconv`: identity on the default settings), the
texts of messages and the `verbose` printing, and code nothing calls (`findFiles`, `Copy`, the lower-case `writeHeader`).

Audit: every definition under `Model/` has been compared line by line with the Go code it cites a second time, after the proofs were done.  The one deviation found (the
walk down the lh3 tree stopped after 48 steps) has been removed.  Values the model leaves out because no call can produce them: a `Method` of fewer than five bytes, an empty
`User` or `Group` slice, a negative `CompressMethod` (it would store), `putbits` of more than 16 bits.

Validation of the transcription: the model's lh5 decoder, run in the Lean interpreter on the entry of the archive `/repo/Deep_Space.ym`
(199673 bytes packed into 4530, not made by this library), produces a text with the checksum 0xd1bd recorded in the archive and consumes
exactly 4530 bytes.  This is a test, nothing rests on it.

## Per property: what is modelled, how it is proved

"False" means: the negation is proved in Lean for the model, with a concrete witness.  Theorem names are in `MANIFEST.json`.

| id | result | how |
|----|--------|-----|
| C01 round trip | false; partial | `C01_round_trip_partial`: CompressBytes then DecompresBytes gives the body back for every body that shrinks, whose first byte lacks bit 0x20 and (lh7) that is shorter than 64 KiB.  `C01_exact`: and for no others (the three conditions together are necessary and sufficient).  Composition of C03, C04, C13, C26 and the control flow of lhext.go |
| C02 compression never crashes | false; exact | `initHash` indexes with a negative number; panics iff bit 0x20 of the first byte is set |
| C03 LZ stage | proved | loop invariants for hash chains, window sliding and `searchDict`; spec `expand` |
| C04 entropy stage | proved | token-buffer invariant, block round trip, for all blocks and sizes |
| C05 bit streams | proved | representation predicates over `List Bool` |
| C06 code lengths | proved | heap and forest invariants, Kraft sum with the length-limiting step |
| C07 decoding table | proved | ghost-location invariant for the tree nodes; walk = code word |
| C08–C10 checksum | proved | whole table by evaluation, GF(2) linearity, injectivity of the step |
| C11 verified content | false for stored; partial | `C11_verified_partial`: all other methods, every archive |
| C12 Decompress reports corruption | false; partial | the checksum is never compared; right content for own archives |
| C13 level-0 round trip | proved | parse/print inverse, including the truncation of long names |
| C14 header corruption | proved | sum difference mod 256 |
| C15 level 2 readable | false | every read of a level-2/3 header panics |
| C16 level 1 writable | false | every write panics |
| C17 stays in the directory | proved | every archive, all options: names written contain no separator / start no absolute path |
| C18 `..` check | false; partial | sound for all, complete without empty components |
| C19 adding | false; partial | new archive lists the file |
| C20 stored | false; partial | no non-empty body comes back; the empty body survives |
| C21 incompressible | false; partial | every body that does not shrink |
| C22 lh7 ≥ 64 KiB | false; partial | exact description of what is lost |
| C23, C25 | proved | reader/writer accounting, codec level |
| C24 decoded size | partial | bound proved; termination false for lh5, lh6, lh7 |
| C26 window | proved | ring-buffer invariant |
| C27 malformed lh5 | false; partial | panicking and hanging streams |
| C28 pm2 history | proved | linked rings = move-to-front list |
| C29 pm2 trees | false; partial | `treeGet` takes a wrong child |
| C30 entry independence | false; partial | name limited by the previous name |
| C31 compression history | false; partial | after lh5, lh6 and lh7 panic (all bodies); with one method per process two runs from any leftover tables and buffers are compared step by step (`Proof/RelTree`, `RelBlock`, `RelLz`, `SizeDec`) and agree in everything reported |
| C32 crash safety | proved | `Model/Trace`: CommandAdd as a list of disk operations, `Spec/Disk`: what a dying process leaves; erasing the operations gives `commandAdd` (`C32_model`); `C32_options`: with every option and kind of argument (`Model/Append`) |
| C33 move | false; partial | unreadable / excluded files are deleted |
| C34 exclusion | false; partial | one pattern right |
| C35 Windows times | proved | arithmetic |
| C36 permissions | false; partial | decimal for octal |
| C37 lh4 history | false; partial | fresh process and after lh5 differ |
| C38 selection | false; partial | names carry a NUL |
| C39 LArc | proved | ring-buffer spec, every token list |
| C40 adaptive coder | false for long sequences; partial | decoder: every sequence; coder: while no code word is longer than 16 bits; negation: weights that force a path of 16 nodes (`Proof/Deep`, `Proof/DeepRun`), not by evaluation |
| C41 lh1 | false for 60-byte copies; partial | all other token lists, spec Lh1 |
| C42 multi-entry extraction | false after lz5; partial | induction over the entry list; entries packed by any conforming encoder (C48), not only this one |
| C43 stays inside packed data | false for stored, lz5; partial | monotone reader for all other decoders |
| C44 listing | false after lz5; partial | as C42 |
| C45 lookup | false; partial | as C42 |
| C46 malformed lh1, lzs, lz5 | proved | invariant of the reader on arbitrary input, tree walk goes to larger node numbers |
| C47 backup | false; partial | the backup name is never set |
| C48 archives of other programs | false for lh4 and long lh7; partial | `Spec/Static`: grammar of the block format with all its freedom; reader proved against the grammar |
| C49 written archives follow the format | false for incompressible bodies; partial | the writer's bytes are proved to be in the grammar of C48 and in the archive layout of `Spec/Archive` |
| C50 MS-DOS dates | false (writing: the year is off; reading: the packed date is taken for seconds); partial | calendar dates in `Spec/Date`; time zone and calendar are the parameter `Env.civil`; bit arithmetic by `omega` |
| C51 several files | false (two non-empty files: the second header lands at offset 0); partial | `addItems` by induction; the partial theorem has one file as in C49 followed by any number of empty ones |
| C52 level-1 headers of others | false (last character of the name lost; empty basic name panics; extended headers make the header unreadable); partial | the level-1 layout is described in `Spec/Level1` with any chain of extended headers; `C52_extra_partial`: whatever bytes stand in the extended area of the basic header, the fields are read as without them |
| C53 ExtractDirectory | false (every entry panics); partial | `makeNameWithPathcheck` slices before the start of the name |
| C54 IgnoreDirectory | false (names without directory lose their first character and may clash); partial | as C42 with the names of this option |
| C55 consent | proved | `Model/Extract`: the directory, the typed lines, links and attributes as state; invariant `Careful` over the loop for arbitrary bytes.  Says nothing about calls that panic half-way |
| C56 consent with IgnoreDirectory | false for attributes (also through links); partial | the same invariant, attributes left out |
| C57 answers | false (only a line beginning with 'Y' is understood, otherwise the program asks until the input ends and crashes); partial | |
| C58 directories and links | false (no archive creates one; an existing directory panics); partial | corollary of C55's invariant |
| C59 extracted files | false of time stamps and permissions; partial | contents on disk, induction over the entries with the directory as state |
| C60 listing | false of archives without end mark and of names getting longer; partial | all 8192 modes by table, induction over the entries |
| C61 testing | false of stored entries and behind lz5 entries; partial in both directions | the first entry that is not sound decides; whatever follows it |
| C62 lharc reads what it writes | false with default options (every archive it makes crashes it); partial with -o 5, 6, 7 | invariant: the archive under construction begins with a level-2 header; C15 |
| C63 lharc options | false of -n, -f, -m, -u, -d, and of -x with two names (the file is added twice); partial: -l, -e, -t, -p, -x | `parseOption` is total on flags |
| C64 lharc -a on an existing archive | false: the old entries are lost; partial for archives without entries | the run is shown equal to that without old archive |
| C65 optimal codes | false when the tree is deeper than 16 (a better code with words of 16 bits exists); proved optimal among all decodable codes if no length exceeds 15, and always for fewer than 4181 symbols; partial | heap order, Huffman's exchange argument on multisets, rearrangement, Kraft-McMillan (Mathlib), Fibonacci bound for the depth |
| C66 damaged header reported | false if the first byte becomes 0 (the rest is dropped silently, `C66_false`); partial: any other wrong byte of a header (but a level of 2 or 3, C16) after any number of valid entries gives an error, the entries before it are processed as usual, exit status 1 | C14 at the end of the loops of C58, C60, C61 |
| C67 Decompress(header) touches one file | proved for arbitrary bytes as archive; and the file asked for is extracted (valid archives) | the file name is determined by the header name: `entryName_only` |
| C68 unwritable file reported | false: it is left out and success is returned; partial: the others are extracted, nothing else is touched | as C58 |
| C69 longest match | proved | invariant: every hash chain holds all positions of the window with that hash in decreasing order (`Proof/Longest`); the search with an offset cannot miss a candidate because a period shorter than the offset would repeat a flagged hash; `Spec/Longest` describes lazy parsing without hash tables |
| C70 method asked for | false for 1 and for every number but 5, 6, 7; partial | equality of the whole call with method 0 for all other numbers; concrete run for 1; from C01 for 5, 6, 7 |
| C71 lh3 | false for the fixed distance code, long words, after lh1 or lh2 entries; partial | block format in `Spec/Lh3`; codes with words of ≤ 12 (letters) and ≤ 8 bits (distances, classes < 17); concrete witnesses; after lh2 no entry can be decoded at all |
| C72 pm2 code trees | proved | `Spec/PmTree`: trees and their leaves; `treeRebuild` in `Proof/PmBuild` (the leaves placed so far are a prefix of the symbols in order; completeness as a sum of powers of two); uniqueness by induction on trees; headers read bit by bit (`Proof/Pm2`) |
| C73 pm2 | false for code words with a zero (C29); partial | grammar in `Spec/Pm2` (schedule, headers, recent bytes, classes); words of ones only; two-class witness panics |
| C74 sessions | proved for adding (`C74_add`, `C74_compressBytes`, `C74_compress`: same outcome as in a fresh process); also, with C01's hypotheses on the body, the round trip between any points of any sessions (`C74_round_trip_partial`) | `Proof/Session`: two runs of `CommandAdd` from states that `EncodeLzhuf` cannot tell apart, entry by entry; reading calls are sequences of decompressions, which keep the state among those of C31 |
| C75 level-2 headers written | false for every ordinary name (the filename extension has no type byte and a wrong size); partial | format in `Spec/Level2`; `C75_false`: no chain of extended headers can be found in what is written, whatever name and entry are tried; `C75_partial`: length, basic fields, checksum of the header and its extension are right |
| C76 Noexec changes nothing | false (adding deletes an excluded file with DeleteAfterAppend; panics for every other argument; extracting with Force changes mode and time of files there); partial | `Model/Append`, `Model/Dry`; `C76_false`, `C76_panics`, `C76_extract_false`; `C76_add_partial`: without DeleteAfterAppend no file is changed, and never the archive or a file that is not an argument; `C76_extract_partial`: contents are never changed, without Force and IgnoreDirectory nothing is |
| C77 directories and links archived | false (`C77_false`: always panics); partial; the temporary file with a -lhd- header stays behind (`C77_leftover`) | the reader is a nil interface, `fp.(*os.File)` panics; `C77_partial`: a call that panics changes nothing but its temporary file |
| C78 UpdateIfNewer | false (the first entry of the archive decides, whatever its name; entries are never replaced; without arguments nothing is done); partial | `C78_not_added`, `C78_not_replaced`, `C78_nothing_updated` for every archive; `C78_partial`: without an archive every file is added as without the option |
| C79 missing entries are reported | false (`DecompresBytes` and `Decompress` return no data and no error); partial | `C79_false`, `C79_false_files` for every archive whose names do not get longer and every other name; `C79_partial`: a missing archive is reported, and data is only returned if a header has the name asked for |
| C80 self-extracting archives | false (in files of at most 32 KiB nothing is found and nothing reported); partial | `C80_false` for every such file; `C80_crash`: longer files without `-` in the first 64 KiB crash the calls; `C80_partial`: a program of exactly 64 KiB is skipped unless the call panics |
| C81 concurrent calls | false (`VerifyMode` is shared: `DecompresBytes` loses the data while `Headers` runs elsewhere); partial | `Model/Threads`, `Spec/Schedule` (all interleavings); `C81_false` for all archives of one compressed file; `C81_checksums_partial`: the shared table of checksums does no harm, for any number of threads and any interleaving |
| C82 printing | false of stored entries (everything behind the header is printed), of selections (a message is mixed in), of directories in headings; partial | `Model/Print`; `C82_test`: same errors as testing, for all bytes; `C82_partial`: exact output for archives as in C42; `C82_checked_partial`: for arbitrary bytes, everything printed without an error has the checksum in its header |
| C83 the option for broken archives | false (copies from before the text); partial | `C83_stream_partial`: for conforming streams whose copies stay inside the text the option changes nothing; `C83_stored_partial`: for all bytes without the name of a packing method it changes neither contents nor error; `C83_own_partial`: the bodies of C01 without spaces are read back with it.  `C83_false`: a 7-byte stream; `C83_false_own`: an archive made by `CompressBytes` is read without the option and refused with it (kernel evaluation, about a minute) |
| C84 TextMode | false (every text shorter than the first read, 8 KiB for lh5, is lost although success is reported); partial | `Model/Text`; `freadTxt_eq`: what is read is the converted text; `C84_lost`: the exact archive for all short texts; `C84_false`: two texts of one length give the same archive; `C84_partial`: methods that store, and empty texts, are not affected.  For texts longer than the first read see C106 |
| C85 reading ends | **false**: an archive of 62 bytes (one lh7 entry) and one of 60 bytes (one lh5 entry) make `Headers`, `DecompresBytes` and testing loop for ever (`C85_false`, `C85_false_lh5`); listing and dry runs end on every byte sequence (`C85_list_partial`, `C85_dry_partial`); the calls that decode end on every byte sequence in which none of -lh2- … -lh7-, -pm2- occurs (`C85_partial`) | induction over the loops: every header read consumes bytes, `GetHeader` itself ends (`getHeader_ends`), the other decoders are total (C46); kernel evaluation for the witness, `C27_hang_is_real` for the fuel |
| C86 repetitive contents take little space | proved: `C86` (size), `C86_packs` (contents of at least `1200 + 7 q` bytes get smaller), `C86_round_trip` (C01 for them, with no assumption on what the compressor does); in general `C86_tokens`: the packed data has at most 47 bits per token of the lazy parse, 8700 per 20000 tokens and 8707 more | every block is a bit string of the spec's format, whose length is bounded field by field (`Proof/BlockSize`); the bound is carried through the block coder; a lazy parse of periodic contents has at most `q + 2 + n / 256` tokens |
| C87 no unverified data with an error | false for contents of more than 4096 bytes (`C87_false`); `C87_short_partial`: whatever the archive, less than 4096 returned bytes are none or verified | the writer's buffer is modelled (`bufStep`, `unflushed`); invariant: nothing or at least 4096 bytes have left it |
| C88 one value, several calls | false after adding (`C88_false`: every archive made under C49 cannot be listed or extracted with the same value; `C88_false_add`: names pile up; `C88_false_level`: reading sets the header level of `CommandAdd`; `C88_false_closed`, `C88_false_replaced`: after making an archive, `CommandAdd` on the same value closes an existing archive before reading it, and replaces it by one without any of its entries); `C88_default_partial`: a new value adds with lh5 and level 0; `C88_reading_partial`: after any number of reading calls all calls but `CommandAdd` do what they did before | `Model/Value`: the fields of `Lha` that calls change; induction on the sequence of calls |
| C89 lh2 | false for copies of 32 bytes or more; partial | copies up to 31 bytes, texts up to 1856 bytes, first lh2 entry of a process; spec Lh2 (growing distance tree); joint invariant of both trees (Proof/PJoint) |
| C90 truncated archives | listing: proved for every archive and every cut (`C90_list`); extraction, testing: partial (cut inside a header: `C90_extract_partial`, `C90_test_partial`; stored entries: `C90_stored_partial`); false in general: a cut between entries is never reported (`C90_false_entries`), a cut inside packed data gives a file of zeros without an error or a crash, already for an archive made by `CompressBytes` (`C90_false`) | every prefix of the archive is split into whole entries and the beginning of one; a header that is cut is refused (sum, or too short) or has nothing behind it; the counterexample is computed in the kernel, encoder included |
| C91 small archives, small files | false: every 37 bytes of an archive (a header that announces no packed data and N bytes, method lh5 or lh6) make `CommandExtract` write N zeros, for every N below 2^32; the checksum of zeros is 0, so extraction, test and `DecompresBytes` report nothing.  Partial: for every archive, options and state, at most one file per byte of archive, each below 2^32 + 65536 bytes or (stored) below the size of the archive + 2048; the same for the bytes returned by `DecompresBytes` | `Proof/Zeros`: a decoder without input reads code tables that have one code and decodes literal 0 for ever (`decodeSt1_dry`); `Proof/Limit`: no decoder of any method yields 64 KiB more than announced (`decodeLzhuf_le`); induction over the loop of entries |
| C92 | partial, negation proved | With Force every name holds the content of the last entry that ends in it (`C92_partial`); of two entries with the same last path component the first is lost without an error (`C92_false`), and with default options the second makes `CommandExtract` panic unless a line beginning with Y is typed (`C92_false_default`). |
| C93 | partial, negation proved | The whole text for archives as in C60, by induction over the entries (`listing_text`); columns for sizes below 10^7 (`C93_partial`). Names are printed as they are: each line feed adds a line (`C93_false`), which can be made to look like an entry (`C93_false_forged`). `C93_model`: the model with the text and the one of C60 agree for all archives. |
| C94 | proved | The roundings of `float64` as exact arithmetic on fractions (`Proof/Ratio`): 100·p is exact, and the error of the quotient is too small to carry it over a boundary of rounding. Then for every line of every listing of any bytes. |
| C95 | partial, negation proved | Lines are split at line feeds and columns by their widths (`C95_partial`, without times, permissions of nine bits). No listing shows a time (`C95_false`); set-uid hides whether a file is executable (`C95_false_setuid`). |
| C96 | partial, negation proved | As C93 for every style and without limits on sizes (`Spec/ListStyle`, `C96_partial`); for archives with entries of different systems and header levels 0 and 1 `C96_mixed_partial` (`Spec/Systems`). False for OS-9/68K headers, whose lines lack the first column (`C96_false`). |
| C97 | partial, negation proved | `C97_partial`: for archives as in C42 with distinct names and right checksums, `headers` and then `decompresBytes` of each header of the list (Proof/Multi). `C97_last`: in general the last entry of that name is read. False if two entries have the same name (`C97_false`: the first one's contents cannot be had, no error). |
| C98 | partial, negation proved | False for headers: for *every* archive and every damaged byte of a header that the checksum of the header detects, `headers` returns the entries before it and no error (`C98_false`; `GetHeader`'s error ends the loop like the end mark). `C98_partial`: changed contents are not passed over: if there is no error the checksum of what was decoded is the recorded one. |
| C99 | partial, negation proved | `C99_partial`: files as in C42 with right checksums, and directories (with or without data), any number and order. False: a stored file (`C99_false_stored`, because checksums of stored files are not computed: C20), a wrong checksum (`C99_false_damaged`), an unknown method (`C99_false_method`) each end the list with an error, for all archives. |
| C100 | partial, negation proved | `Spec/Foreign0` gives the format and the name to be shown; `C100_partial` for any mixture of entries. False for OS-9: an entry with a directory in its name makes `Headers` crash, in every archive (`C100_false_os9`: the loop removing a device name runs past the end of the name); false for the separator 0xff (`C100_false_ff`). `C100_unix_partial`: Unix headers with any bytes behind the group are listed as without them (and read, tested and extracted: `C100_longer_read_partial`, `C100_longer_test_partial`, `C100_longer_extract_partial`). `C100_short_partial`: a Unix header that ends before the group is read like one without a record of the system. |
| C101 | partial, negation proved | `C101_partial` says exactly which names are kept by writing and listing (from C01); `C101_false` gives a name that is not, `C101_same` two names listed alike. |
| C102 | partial, negation proved | `C102_partial` for level-0 entries of any system in any mixture (OS-9 with directories included), if names do not get longer and entries without a record of the system are not behind others; false of those: with `ConvertCase` such an entry behind a Unix entry is listed as `a` but cannot be read by that name (`C102_false`: `DecompresBytes` reuses the header, `Headers` does not). |
| C103 | partial, negation proved | `C103_partial` for level-0 entries of any mixture, new files, directories that are not there; false: an OS-9 entry of a directory crashes the program (`C103_false_os9`, any archive), an entry without a record of the system behind a Unix one gets another name than the one listed (`C103_false_case`). |
| C104 | partial, negation proved | `Model/Memory` is the loop of `CommandList` with the sizes of its buffers (`commandListM_erase`: otherwise it is the same). `C104_partial` for archives of valid entries; `C104_limit` for all files (together exactly the total of packed sizes shown, each below 2^32); false in general: 37 bytes make it allocate 4 GiB (`C104_false`). |
| C105 | partial, negation proved | `C105_list_partial`, `C105_partial`, `C105_extract_partial` for archives of level-1 entries without extended headers, of all systems: everything is listed, read and extracted, but each name lacks its last byte; likewise with any bytes in the extended areas of the headers (`C105_extra_partial`, `C105_extra_read_partial`, `C105_extra_test_partial`, `C105_extra_extract_partial`). False otherwise: an entry with an extended header and all behind it are silently not listed (`C105_false_ext`, `C105_false_witness`); names that differ in the last byte only are confused (`C105_false_twins`). |
| C106 | partial, negation proved | `Proof/TextRun` relates the compressor that reads a text through `freadTxt`, with a limit growing with every line feed, to the one that reads the converted text (`encodeLoop_sim`); `Proof/TextEnc` gets its output from `encodeLz_ok` with a sink whose limits come from a list. `C106_partial`: `Decompress` extracts the converted text (lh5, lh6). `C106_read_partial`: so do the others if its length is the first read and a number of windows. `C106_false`: if the rest behind that has an odd number of ones, `Headers` and `DecompresBytes` report an error; `C106_crash`: first byte with bit 5. `C106_packs`: repetitive texts meet the hypothesis about getting smaller. |
| C107 | partial, negation proved | `Model/Handles`: the reading calls with a flag for `f.Close()`; `*_fst`: the other results are unchanged. `C107_partial`: closed if the archive of valid entries has no end mark. `C107_false`: left open, and success reported, if it has one (as all archives this library writes). `C107_error`: left open whenever an error is reported, for any bytes. `C107_exhaust`: with room for `n` more open files, exactly the first `n` calls succeed. |
| C108 | proved | `Model/Steps`: the LZ stage with a counter; `encodeN_fst`: same results. A chain is at most as long as the window (`scanLoopN_steps`, by the invariant that links lead backwards), each position is searched for once at most (`encodeLoopN_steps`). `C108` gives the numbers: e.g. for lh5 57857 steps for the file and 4268546 for each byte. |
| C109 Force and links | false: with Force an entry is written through a link of the same name (`C109_false`, any archive of one file); partial | `Spec/Confined`; every archive, all options: what leads elsewhere led there before the call, so an archive cannot bring a link and write through it; with Force nothing is read from the terminal; `C109_inside` for directories without links |
| C110 DumpLzss | holds | `Model/Dump`: the token source prints, the loop is that of C26 (`dumping`); `C110_same`: nothing else changes; `Spec/Dump` parses the text (decimal numbers, hexadecimal bytes, lines) and copies from absolute positions; for lh7 texts of 64 KiB and more the dump is complete although what is extracted is not (C22); `C110_any`: any data, by taking the tokens off the run and running the same loop on the list of them (`listSource`); `C110_false_lz5`: not of lz5, whose window begins with a text of its own |
| C111 damaged contents | partial | `DecompresBytes`: holds for any damage (`C111_partial`); `CommandExtract`: the entries before the damage are kept whatever follows (`C111_before`), those behind it if the decoder takes all packed bytes (`C111_extract_partial`, returning for lh1 and lzs); **false** otherwise: after a decoder that takes fewer bytes the whole packed size is skipped again, and what follows is lost with success reported (`C111_false`, any lzs entry with four bytes too many) |
| C112 quiet dump | holds | `Spec/Quiet`: an inductive definition of harmless text; by the list of tokens of every run (`decodeLoop_trace`, C110); found by a mutation of `isPrint` that survived C110 |
| C113 quiet listing | false; provenance proved | `C113_false`: every name is printed byte for byte, in every style, and a NUL with each Unix entry; `C113_partial`: all other bytes come from the name, link target, method, owner or group of a header that was read, for any archive; `C113_count_partial`: and none more often than there, but for the NULs |
| C114 | partial, negation proved | `Props/C114`: `Member` is a file of one of the three kinds, `Member.parse` says what its header tells whatever header was read before. `C114_list_partial`, `C114_test_partial`, `C114_partial` (reading) and `C114_extract_partial` for archives of members in any order. Conditions as alone: names do not get longer (C30), no extended headers (C105), the last file of its name is read. `C114_false`: `a` of level 0 and `ab` of level 1 are both listed as `a`, and by the header of the first the content of the second is read. |
| C115 | partial, negation proved | `Model/Mac`: the verifying and printing paths with the option. `C115_off`: without it they are those of the other properties. `C115_other`: with no entry of Mac OS in the list, `Headers` returns the same with and without, for any bytes. `C115_partial`: archives as in C114 with icons of any contents among the files are listed, tested and printed, without the icons. `C115_false`: not if the icon has a level-1 header; its name is read without the last byte (C52), so that it is printed as `Icon`. |
| C116 | partial, negation proved | `C116_partial`: for the last file of an archive with level-0 headers, any byte, any new value: without an error the contents have the recorded checksum. A header with one changed byte is refused or the reader stops (the level byte changed to 2 or 3 included); a change of packed data leaves the headers where they were; the checksum decides the rest. `C116_elsewhere_partial`: for a file anywhere in the archive and a byte that is not in its packed data, exactly its contents, or an error. Both leave out, for the first byte of an entry (the length of its header), 0 and lengths for which the sum of the header is right by chance. `C116_false_end`: with 0 there, in every archive, nothing is returned for this file and those behind it, without an error. `C116_false`: with the length 14 smaller the header has no checksum, its sum may still be right, and the packed data start with what were date and owner: twenty letters `R` are returned for `ABAB…`, without an error. |
| C117 | partial, negation proved | `C117_partial`: all files of both are listed, extracted and read if the end mark of the first archive is removed. `C117_false`: with the end mark only the first archive is there, for every pair, and no call reports an error. |
| C118 | partial, negation proved | `C118_false`: no call succeeds, for any archive, arguments and options; the new name is a buffer of 1024 bytes with NULs in it, which `os.Rename` refuses. `C118_partial`: the error is reported, no file but the temporary one is changed, whether the call returns or panics. |
| C119 | partial, negation proved | `C119_partial`: behind any number of entries with known methods a dry run reports damaged headers and unknown methods, and nothing if the archive ends there; `C119_others_partial`: entries not asked for do not matter. `C119_same_partial`: under the hypotheses of C58 and C66 both calls return an error, or neither. `C119_false`: the data is not looked at; on the archive of C85 the dry run succeeds and extracting never returns. |
| C120 | partial, negation proved | `Spec/Old` gives the format. `C120_list_partial` and `C120_partial`: archives of such entries and Unix ones in any order are listed and read; methods of C42, names without byte 0xff that do not get longer (for reading). `C120_test_partial`, `C120_extract_partial`: the same archives are tested without an error and extracted. `C120_false`: of `a` and `ab` both are listed, but reading `ab` returns nothing and no error (C30). |

## Trusted base

* The Lean 4.33.0 kernel.  Every theorem in `MANIFEST.json` depends on at most `propext`, `Classical.choice`, `Quot.sound`
  (`seeded/axioms.txt` lists them per theorem).  No axioms of our own, no `sorry`, no `native_decide`, no `bv_decide`.
* The transcription from Go to Lean, by hand; each definition cites file and lines and states its simplifications.
* The reading of the Go semantics in the fault monad (wrap-around, slices, nil).
* For C81: memory is sequentially consistent and reading or writing one cell is indivisible.  (Go guarantees neither for racing accesses; the
  negation does not need it, as its schedule exists under any memory model.)
* The specification files, which are short and meant to be read.

## Testing the theorems

`seeded/mutate.py` applies one edit to the model in a scratch copy, rebuilds, and logs which theorems fail (`seeded/LOG.jsonl`).
Edits are of the kind a programmer would make by mistake: a bound off by one, a swapped argument, a missing reset, a wrong constant, an
error that is not passed on.  When an edit survived although the English claim was false, theorems were added:

* round 1 and 2 (m001-m099): edits in the decoders of lh2 (m063), lh3 (m068) and in the initial history of pm2 (m054) survived; no property
  spoke about whole streams of these methods.  C71 now does for lh3.  m051 does not change the behaviour.
* round 3 (m100-m158, listing, testing, extraction to disk, command line): m120, m132, m135, m145 (damaged headers not reported) led to C66;
  m121 (extraction of one header) to C67; m122 (file that cannot be created) to C68; m138 (`-x` with two names) to `C63_false_exclude`; m156
  (base name of `d/f/`) to `C49_name`.
* round 4 (m160-m173, hash chains and match search): all caught (lemmas in `Proof/Lz` and `Proof/Longest`, C69).
* round 5 (m180-m198, decoders of lh3 and the window of `slide.go`) and round 6 (m200-m223, the pm2 decoder): all caught, by the theorems about
  whole streams (C71, C73) that earlier survivors had led to; m054 and m068 of round 2 were repeated and are caught now.
* round 7 (m224-m258, adding to archives, temporary files, text mode, several calls): m231 (a directory archived like a file) survived and led
  to `C77_leftover`; m234 only decides about a message, which the model leaves out.
* round 8 (m259-m302, the lh2 trees, one `Lha` value used for several calls, reading of headers): made after C89, which closes m063.  m281 (default
  method of a new value) survived and led to `C88_default_partial`; m284 (the value forgets that it has made an archive) to `C88_false_closed`, for which
  `Val.add` was extended to archives closed before they are read.
* `seeded/automutate.py` makes edits by itself (a comparison turned round, a constant changed by one, a branch exchanged) at random places of
  all model files; its log is `seeded/AUTO.jsonl`.
* rounds 9 to 13 (m303-m419: listing styles, archives of other systems, level-1 headers, long texts, memory, open files, counted steps, extraction with
  Force, the dump): see the log for the outcome of each edit.  m077 (`extractOne` of the coarser model of extraction no longer agrees with the finer one)
  survived and led to `C17_models`, m385 (the extended area of level-1 headers not passed over) to `C52_extra_partial`, m247 (printing a stored entry of size zero) to `C82_false_stored_zero`, m240 to `C80_crash`, m316, m326 and m338 to a stronger
  `C96_partial`; m306 changes the rounding of ties in the ratio, for which C94 holds either way, and m340 and m387 are without effect.  m077, m240 and m247 were repeated
  and are caught now.
* rounds 14 to 17 (m420-m458: the dump, the text of a listing, the option for Mac OS): m430 led to C112; m437 and m441 to
  `C113_count_partial`.
* round 18 (m459-m486: self-extracting archives, the backup, updating, dry runs, threads, broken archives): m460 (a usable name for a self-extracting archive)
  survived and led to C118; m473, m474 and m477 (dry runs that do not report errors, or look at other entries) to C119.  m486 (damaged headers not reported with the option for broken archives) to `C83_stored_partial`.  m461 (C76_false fails; the renaming
  cannot succeed in either form), m470 and m476 break no claim.
* round 19 (m487-m495: Unix headers longer or shorter than usual, headers without a checksum): made after `C100_unix_partial` and C120; all caught.  m302 of round 8 (which
  modes are taken for symbolic links) changes only modes that no system uses (0o130000, 0o160000, 0o170000).
* Records with a `note` that only some property modules were built come from repeating an edit after a theorem was added; the others are full builds.
  Two verdicts (m132, m145) were set by hand, which their notes say.
* Planned and not run: see the ids of `seeded/round*.json` without a line in `seeded/LOG.jsonl`.
