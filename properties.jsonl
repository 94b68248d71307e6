{"id": "C01", "title": "Compress/decompress round trip (lh5, lh6, lh7)", "statement": "Compressing a body with CompressBytes(name, body, method, 0) into an archive that does not exist yet, then calling DecompresBytes with the header Headers() lists for it, returns exactly the same bytes and no error.", "quantifier": "every byte string body, every file name, every method in {5,6,7}", "why_tests_cant": "The input space is all byte strings; match search, lazy matching, dictionary sliding, block splitting and code construction interact, so a sample of files (the repo has one) never covers it.", "anchors": ["lha.go:CompressBytes", "lha.go:DecompresBytes", "slide.go:encode", "slide.go:decode", "huf.go:sendBlock", "huf.go:decodeCSt1", "maketree.go:makeTree", "maketbl.go:makeTable", "header.go:writeHeaderLevel0", "header.go:getHeaderLevel0"]}
{"id": "C02", "title": "Compression never crashes", "statement": "CompressBytes with method 5, 6 or 7 returns (possibly with an error) instead of panicking, whatever the body.", "quantifier": "every non-empty byte string, every method in {5,6,7}, first use in the process", "why_tests_cant": "Index-out-of-range panics depend on single bits of the data; a test that happens to start with an upper-case letter never sees one.", "anchors": ["slide.go:initHash", "slide.go:insertHash", "slide.go:encode"]}
{"id": "C03", "title": "The LZ stage is lossless", "statement": "The sequence of letters and (length, distance) pairs the compressor hands to the entropy coder, expanded by the textbook LZ77 rule over a history of spaces, is exactly the input.", "quantifier": "every input on which compression does not panic (see the property on crashes), every dictionary size used (lh1 geometry, lh5, lh6, lh7), any stale content of the global buffers", "why_tests_cant": "Needs every input length relative to the window size and every hash-chain history.", "anchors": ["slide.go:encode", "slide.go:searchDict", "slide.go:searchDict1", "slide.go:nextToken", "slide.go:updateDict"]}
{"id": "C04", "title": "The entropy stage is lossless (lh5, lh6, lh7)", "statement": "Whatever letters and (length, distance) pairs are given to the block Huffman coder, in any number and order, the lh5/6/7 decoder reading the produced bytes yields the same sequence.", "quantifier": "every token sequence of every length, every np geometry", "why_tests_cant": "Block boundaries, degenerate one-symbol trees, zero-run coding and 16-bit code limits are reached only by particular frequency tables.", "anchors": ["huf.go:outputSt1", "huf.go:sendBlock", "huf.go:writePtLen", "huf.go:writeCLen", "huf.go:decodeCSt1", "huf.go:decodePSt1", "huf.go:readPtLen", "huf.go:readCLen"]}
{"id": "C05", "title": "Bit stream writer and reader are inverse", "statement": "Any sequence of bit fields written, flushed and read back with the same widths gives the same values; the bytes produced are the fields' bits, most significant first.", "quantifier": "every sequence of (width 0..16, value) fields", "why_tests_cant": "All alignments and all sequences of widths.", "anchors": ["bitio.go:putcode", "bitio.go:putbits", "bitio.go:fillbuf", "bitio.go:getbits"]}
{"id": "C06", "title": "Huffman code lengths are always a complete code within 16 bits", "statement": "For every frequency table, every used symbol gets a code length in 1..16, every unused one gets 0, the lengths satisfy Kraft's equality, and the codes are the canonical prefix-free codes of these lengths.", "quantifier": "every frequency table with at least two used symbols over any alphabet of at most 510 symbols", "why_tests_cant": "Length limiting only happens for Fibonacci-like tables; tests do not reach it.", "anchors": ["maketree.go:makeTree", "maketree.go:countLeaf", "maketree.go:makeLen", "maketree.go:makeCode", "maketree.go:downheap"]}
{"id": "C07", "title": "Decoding table agrees with the canonical code", "statement": "For every complete vector of code lengths the decoder's lookup (direct table, then tree) maps every 16-bit window that starts with a symbol's canonical code to that symbol, without out-of-range access.", "quantifier": "every complete length vector of at most 510 symbols, every 16-bit window, any previous content of the shared tables", "why_tests_cant": "The number of length vectors is astronomically large and the tables are shared mutable globals.", "anchors": ["maketbl.go:makeTable", "huf.go:decodeCSt1", "huf.go:decodePSt1", "huf.go:readCLen"]}
{"id": "C08", "title": "The checksum is CRC-16 with polynomial 0xA001", "statement": "After MakeCrcTable the running checksum of any byte sequence equals the bit-by-bit CRC-16 (reflected polynomial 0xA001, initial value 0), and always fits in 16 bits.", "quantifier": "every byte sequence, every 16-bit starting value", "why_tests_cant": "The existing test checks one value.", "anchors": ["crcio.go:MakeCrcTable", "crcio.go:calcCrc", "macro.go:updateCrc"]}
{"id": "C09", "title": "The checksum does not depend on how data is chunked", "statement": "Feeding data in any partition into blocks gives the same checksum as feeding it at once; in particular the compressor's and decompressor's checksums of the same bytes agree although they use different buffers.", "quantifier": "every data, every partition", "why_tests_cant": "All partitions of all data.", "anchors": ["crcio.go:calcCrc", "crcio.go:freadCrc", "crcio.go:fwriteCrc"]}
{"id": "C10", "title": "Every short corruption of the content changes the checksum", "statement": "Two contents of equal length that differ only within some 16 consecutive bits, or in an odd number of bits, have different checksums.", "quantifier": "every content, every burst position and pattern, every odd error pattern", "why_tests_cant": "All contents and all error patterns.", "anchors": ["crcio.go:calcCrc", "macro.go:updateCrc"]}
{"id": "C11", "title": "DecompresBytes never returns unverified content", "statement": "If DecompresBytes returns no error after extracting an entry whose header carries a CRC, the checksum of the decoded content equals that CRC.", "quantifier": "every archive file content (well-formed or not), every header", "why_tests_cant": "All malformed archives.", "anchors": ["lhext.go:extractOneStream", "lhext.go:extractBytesWithHeader"]}
{"id": "C12", "title": "Decompress reports corrupted content", "statement": "If the decoded content's checksum differs from the header CRC, Decompress (extraction to a file) returns an error.", "quantifier": "every archive", "why_tests_cant": "All corruptions; the file path returns before the comparison.", "anchors": ["lhext.go:extractOne", "lha.go:Decompress"]}
{"id": "C13", "title": "Level-0 header round trip", "statement": "A level-0 header written by the library and read back gives the same method, sizes, CRC, name, mode, uid, gid and Unix time stamp, and the reader is left exactly at the first data byte.", "quantifier": "every header whose fields fit the format (name of at most 221 bytes without NUL and backslash, 32-bit sizes, 16-bit ids)", "why_tests_cant": "All field values and name lengths up to the limit.", "anchors": ["header.go:WriteHeader", "header.go:writeHeaderLevel0", "header.go:GetHeader", "header.go:getHeaderLevel0"]}
{"id": "C14", "title": "Level-0/1 header corruption is detected", "statement": "Changing the value of any single byte of the checksummed part of a readable level-0 or level-1 header makes GetHeader fail: it never returns a header from it.", "quantifier": "every readable header, every position in the checksummed part other than the level byte, every new value", "why_tests_cant": "All headers and corruptions.", "anchors": ["header.go:calcSum", "header.go:getHeaderLevel0", "header.go:getHeaderLevel1"]}
{"id": "C15", "title": "Level-2 headers can be read", "statement": "Reading a well-formed level-2 header (in particular the one Compress(..., 2) has just written, the level recommended by the readme) does not crash.", "quantifier": "every archive with a level-2 header", "why_tests_cant": "Whether any level-2 archive at all is readable is a universal statement.", "anchors": ["header.go:getHeaderLevel2", "header.go:getHeaderLevel3", "crcio.go:calcCrc"]}
{"id": "C16", "title": "Level-1 headers can be written", "statement": "WriteHeader with header level 1 writes a header instead of crashing.", "quantifier": "every header with level 1", "why_tests_cant": "Universal over names and fields.", "anchors": ["header.go:writeHeaderLevel1"]}
{"id": "C17", "title": "Extraction stays in the current directory", "statement": "With no extraction directory configured, the file name Decompress opens never contains a path separator '/', whatever the archive says; an entry can therefore not be written outside the current directory through its name.", "quantifier": "every header name byte string, every header level and OS type", "why_tests_cant": "An attacker chooses the name.", "anchors": ["lhext.go:extractOne", "lhext.go:makeNameWithPathcheck", "lhext.go:isDirectoryTraversal"]}
{"id": "C18", "title": "The traversal check recognises '..' components", "statement": "isDirectoryTraversal(path) is true exactly when some '/'-separated component of the path is '..'.", "quantifier": "every path", "why_tests_cant": "All paths.", "anchors": ["lhext.go:isDirectoryTraversal"]}
{"id": "C19", "title": "Adding to an existing archive is not silently ignored", "statement": "Compress/CompressBytes on an archive that already exists either adds the file or returns an error.", "quantifier": "every existing archive, file and method", "why_tests_cant": "Depends on file-system state; holds or fails for all contents at once.", "anchors": ["lha.go:Compress", "lha.go:CompressBytes"]}
{"id": "C20", "title": "Stored entries round trip (method 0)", "statement": "CompressBytes with method 0 followed by DecompresBytes returns the body.", "quantifier": "every body", "why_tests_cant": "All bodies.", "anchors": ["util.go:copyfile", "append.go:EncodeLzhuf", "lhext.go:addOne", "extract.go:DecodeLzhuf"]}
{"id": "C21", "title": "Incompressible data is preserved", "statement": "When the compressed form would not be smaller than the body, the entry is stored so that decompression still returns the body.", "quantifier": "every body for which compression does not gain", "why_tests_cant": "All incompressible bodies.", "anchors": ["lhext.go:addOne", "util.go:encodeStoredCrc", "util.go:copyfile"]}
{"id": "C22", "title": "lh7 content of 64 KiB and more is decompressed completely", "statement": "Decoding an lh7 stream writes the complete content for every content length.", "quantifier": "every content length", "why_tests_cant": "Needs lengths beyond the 16-bit cursor.", "anchors": ["slide.go:decode", "slide.go:decodeMethodStart"]}
{"id": "C23", "title": "Decoding consumes exactly the packed bytes", "statement": "After decoding an entry written by the library, the input is positioned exactly behind the entry's packed data and the reported read size equals the packed size, so that the next header is found.", "quantifier": "every body and method 5, 6, 7", "why_tests_cant": "Off-by-one in look-ahead shows only for some final bit alignments.", "anchors": ["bitio.go:fillbuf", "slide.go:decode", "lhext.go:skipToNextpos"]}
{"id": "C24", "title": "Decoded size is bounded by the header", "statement": "Decoding terminates and the number of bytes produced is at least the size announced in the header and exceeds it by less than one maximal match, whatever the compressed bytes are.", "quantifier": "every compressed byte sequence, every announced size", "why_tests_cant": "Malformed streams.", "anchors": ["slide.go:decode"]}
{"id": "C25", "title": "Compressed data is never larger than the original", "statement": "The number of bytes the compressor writes for an entry never exceeds the original size; if it would, the compressor reports the entry as not packable.", "quantifier": "every body, method 5, 6, 7", "why_tests_cant": "All bodies.", "anchors": ["bitio.go:putcode", "slide.go:encode"]}
{"id": "C26", "title": "The circular dictionary implements LZ77 copying", "statement": "For any sequence of letters and (length, distance) pairs with distances up to the dictionary size, the decoder's output through its circular window and chunked writes equals the textbook LZ77 expansion, including overlapping copies and copies from before the start (spaces).", "quantifier": "every token sequence, every dictionary size 2^k below 64 KiB", "why_tests_cant": "All overlaps and wrap-arounds.", "anchors": ["slide.go:decode"]}
{"id": "C27", "title": "Malformed lh5 data never crashes the decoder", "statement": "DecompresBytes on an entry with arbitrary packed bytes returns (possibly an error) and does not panic.", "quantifier": "every packed byte string", "why_tests_cant": "All malformed streams.", "anchors": ["maketbl.go:makeTable", "huf.go:readCLen", "huf.go:readPtLen"]}
{"id": "C28", "title": "pm2 history is a move-to-front list", "statement": "The 256-entry history used by -pm2- behaves as a move-to-front list: looking up n gives the n-th most recently used byte in the initial-order-then-recency order, and using a byte moves it to the front, preserving the others' order.", "quantifier": "every sequence of updates, every n in 0..255", "why_tests_cant": "All update histories.", "anchors": ["pm2hist.go:histInit", "pm2hist.go:histLookup", "pm2hist.go:histUpdate"]}
{"id": "C29", "title": "pm2 trees decode the stored code", "statement": "Reading a value through a -pm2- tree follows the left child on bit 0 and the right child on bit 1.", "quantifier": "every tree and bit sequence", "why_tests_cant": "All trees.", "anchors": ["pmtree.go:treeGet", "pmtree.go:treeRebuild"]}
{"id": "C30", "title": "Later entries are parsed independently of earlier ones", "statement": "Listing or extracting parses each entry's header exactly as if it were the first entry of the archive.", "quantifier": "every sequence of valid entries", "why_tests_cant": "Depends on relation between consecutive names.", "anchors": ["header.go:getBytes", "header.go:getHeaderLevel0", "lhext.go:CommandList", "lhext.go:extractWithHeader"]}
{"id": "C31", "title": "Compression does not depend on earlier operations of the process", "statement": "The bytes CompressBytes produces for a body do not depend on what the process compressed or decompressed before.", "quantifier": "every history of previous operations", "why_tests_cant": "All histories over shared global buffers.", "anchors": ["append.go:encodeAlloc", "slide.go:encode", "slide.go:initSlide", "huf.go:encodeStartSt1"]}
{"id": "C32", "title": "Crash safety of archive update", "statement": "If the process dies at any point while CommandAdd rebuilds an archive, the archive path holds either the complete old archive or the complete new one.", "quantifier": "every crash point, every old content, every new content", "why_tests_cant": "All crash points.", "anchors": ["lhext.go:CommandAdd", "lhext.go:buildTemporaryFile"]}
{"id": "C33", "title": "Move deletes only archived files", "statement": "With DeleteAfterAppend a source file is removed only if it has been added to the archive.", "quantifier": "every list of files and every combination of unreadable files", "why_tests_cant": "All failure combinations.", "anchors": ["lhext.go:CommandAdd", "lhext.go:removeFiles", "lhext.go:appendIt"]}
{"id": "C34", "title": "Exclusion list", "statement": "A file whose base name equals (ignoring case) an entry of ExcludeFiles is not added, and any other file is added exactly once.", "quantifier": "every exclusion list and file name", "why_tests_cant": "All list lengths.", "anchors": ["lhext.go:CommandAdd", "lhext.go:compressBytes"]}
{"id": "C35", "title": "Windows time stamps are converted exactly", "statement": "The 8-byte FILETIME of an extended header is converted to floor((t - 1601-to-1970 offset) / 10^7) modulo 2^64.", "quantifier": "every 8-byte value", "why_tests_cant": "2^64 values.", "anchors": ["header.go:wintimeToUnixStamp"]}
{"id": "C36", "title": "Unix permissions survive archiving", "statement": "The permission bits and file type recorded for a file are those of the file.", "quantifier": "every permission value, files and directories", "why_tests_cant": "All modes.", "anchors": ["header.go:initHeader"]}
{"id": "C37", "title": "lh4 decoding does not depend on earlier operations", "statement": "Decoding an -lh4- entry gives the same result in a fresh process and after other entries have been processed.", "quantifier": "every history", "why_tests_cant": "Histories.", "anchors": ["huf.go:decodeStartSt1", "huf.go:decodePSt1"]}
{"id": "C38", "title": "File selection", "statement": "An entry is processed exactly when no file was requested or its name is among the requested ones.", "quantifier": "every request list and every entry name as parsed from a header", "why_tests_cant": "All names.", "anchors": ["lhext.go:needFile"]}
{"id": "C39", "title": "LZS and LZ5 tokens decode as specified", "statement": "An -lzs- stream is a sequence of 1-bit flags with 8-bit letters or 11-bit position / 4-bit length pairs; the decoder returns exactly these tokens and the copy distance designates the ring position written in the stream.", "quantifier": "every token sequence and ring position", "why_tests_cant": "All streams.", "anchors": ["larc.go:decodeCLzs", "larc.go:decodePLzs", "larc.go:decodeCLz5", "larc.go:decodePLz5"]}
{"id": "C40", "title": "Adaptive Huffman coder and decoder stay synchronised", "statement": "After any common sequence of symbols the adaptive coder's code for a symbol, read by the adaptive decoder in the same state, yields that symbol and both end in the same state.", "quantifier": "every symbol sequence", "why_tests_cant": "All histories.", "anchors": ["dhuf.go:encodeCDyn", "dhuf.go:decodeCDyn", "dhuf.go:swapInc", "dhuf.go:reconst"]}
{"id": "C41", "title": "lh1 streams decode as the format says", "statement": "An -lh1- body is a sequence of adaptive-Huffman symbols (letters, and copies of 3 to 60 bytes followed by a 12-bit distance in a fixed code); decoding it yields the LZ77 expansion of these tokens and its checksum, whatever was decoded before.", "quantifier": "every token list, every body holding its bits, every following archive content, every decoder history", "why_tests_cant": "All adaptive-tree states and token sequences.", "anchors": ["shuf.go:decodeStartFix", "shuf.go:decodePSt0", "dhuf.go:decodeCDyn", "dhuf.go:startCDyn", "slide.go:decode"]}
{"id": "C42", "title": "A multi-entry archive is extracted completely", "statement": "CommandExtract on an archive of any number of valid level-0 entries writes the content of every entry, in order, under the entry's name, and returns no error.", "quantifier": "every list of entries, methods and contents", "why_tests_cant": "Unbounded lists of entries; the position after one entry decides whether the next is found.", "anchors": ["lhext.go:CommandExtract", "lhext.go:extractOne", "lhext.go:skipToNextpos", "larc.go:decodeCLz5"]}
{"id": "C43", "title": "Decoding an entry stays inside its packed data", "statement": "Decoding an entry never consumes archive bytes beyond the entry's PackedSize, whatever these bytes are, and the reported read size is the number of bytes consumed.", "quantifier": "every method, every packed data, every following archive content", "why_tests_cant": "All byte sequences.", "anchors": ["extract.go:DecodeLzhuf", "bitio.go:fillbuf", "larc.go:decodeCLz5", "util.go:copyfile"]}
{"id": "C44", "title": "Headers lists every entry", "statement": "Headers() on an archive of any number of valid level-0 entries lists exactly these entries, in order.", "quantifier": "every list of entries", "why_tests_cant": "Unbounded lists of entries.", "anchors": ["lha.go:Headers", "lhext.go:extractOne", "header.go:GetHeader"]}
{"id": "C45", "title": "DecompresBytes finds its entry among several", "statement": "DecompresBytes called with a header listed by Headers() returns the content of that entry wherever it stands in the archive.", "quantifier": "every list of entries and every position", "why_tests_cant": "Unbounded lists of entries.", "anchors": ["lhext.go:extractBytesWithHeader", "lhext.go:skipToNextpos", "header.go:GetHeader"]}
{"id": "C46", "title": "Malformed lh1, lzs and lz5 data never crashes the decoder", "statement": "Decoding an -lh1-, -lzs- or -lz5- entry returns, whatever the packed bytes and sizes are.", "quantifier": "every packed data, every announced size", "why_tests_cant": "All byte sequences and all states of the adaptive tree.", "anchors": ["dhuf.go:decodeCDyn", "shuf.go:decodePSt0", "larc.go:decodeCLzs", "larc.go:decodeCLz5", "slide.go:decode"]}
{"id": "C47", "title": "BackupOldArchive keeps the old archive", "statement": "After a CommandAdd on an existing archive with BackupOldArchive set that reports success, some file still holds the previous contents of the archive.", "quantifier": "every old archive, every set of files added", "why_tests_cant": "A statement about all files on disk after the call, for all contents.", "anchors": ["lhext.go:CommandAdd", "lhext.go:buildBackupFile", "lha.go:NewLha"]}
{"id": "C48", "title": "Archives of other programs decode", "statement": "An -lh4- to -lh7- body that follows the format (blocks of tokens coded with any complete prefix codes, sent in any of the allowed spellings, by whatever encoder) decodes to the LZ77 expansion of its tokens, with the right checksum.", "quantifier": "every token list, every block division, every choice of codes and of their transmitted form, every following archive content", "why_tests_cant": "All encoders: the freedom the format leaves is unbounded.", "anchors": ["huf.go:decodeStartSt1", "huf.go:decodeCSt1", "huf.go:decodePSt1", "huf.go:readPtLen", "huf.go:readCLen", "maketbl.go:makeTable", "slide.go:decode"]}
{"id": "C49", "title": "The archives written follow the format", "statement": "The file written by CompressBytes with -lh5-, -lh6- or -lh7- is a one-entry archive of the format: a level-0 header with the base name, the sizes and the checksum of the body, a packed body of well-formed blocks that stand for the body, and the end mark; so any other program can read it.", "quantifier": "every body, name, permission, time and history of the process", "why_tests_cant": "All bodies, and a statement about every reader rather than this one.", "anchors": ["lhext.go:compressBytes", "header.go:writeHeaderLevel0", "huf.go:sendBlock", "huf.go:writePtLen", "huf.go:writeCLen", "slide.go:encode"]}
{"id": "C50", "title": "MS-DOS time stamps", "statement": "The MS-DOS date a level-0 header records is the local calendar date of the file's time stamp (to two seconds), and reading a header without Unix time yields the time its MS-DOS date stands for.", "quantifier": "every calendar date MS-DOS can express (1980 to 2107), every header", "why_tests_cant": "All 2^32 stamps and all dates; a round trip through this program alone would not notice a consistent error.", "anchors": ["header.go:unixToGenericStamp", "header.go:genericToUnixStamp", "header.go:writeHeaderLevel0", "header.go:getHeaderLevel0"]}
{"id": "C51", "title": "Several files in one archive", "statement": "CommandAdd of a list of files to a new archive makes an archive of exactly these files, in this order, each with its base name and contents.", "quantifier": "every list of files, every contents", "why_tests_cant": "Unbounded lists of files and contents; each file's entry depends on what the earlier ones left in the archive file.", "anchors": ["lhext.go:CommandAdd", "lhext.go:appendIt", "lhext.go:addOne", "header.go:writeHeader"]}
{"id": "C52", "title": "Level-1 headers of other programs", "statement": "A level-1 header, with any chain of extended headers, is read with the method, sizes, name, checksum and attribute it records, and the reader is left at the packed data.", "quantifier": "every level-1 header of the format, every archive content after it", "why_tests_cant": "All headers: names, sizes and any number of extended headers.", "anchors": ["header.go:getHeaderLevel1", "header.go:getExtendedHeader", "header.go:GetHeader"]}
{"id": "C53", "title": "ExtractDirectory", "statement": "With ExtractDirectory set, CommandExtract writes every entry under its last name component in that directory.", "quantifier": "every directory name, every archive", "why_tests_cant": "All names and archives.", "anchors": ["lhext.go:makeNameWithPathcheck", "lhext.go:extractOne", "lhext.go:CommandExtract"]}
{"id": "C54", "title": "IgnoreDirectory", "statement": "With IgnoreDirectory set, CommandExtract writes every entry under the last component of its name, so entries with different last components become different files.", "quantifier": "every list of entries and names", "why_tests_cant": "All names.", "anchors": ["lhext.go:extractOne", "lhext.go:makeNameWithPathcheck"]}
{"id": "C55", "title": "Extraction touches nothing without consent", "statement": "Whatever the archive holds, after CommandExtract or Decompress without Force and IgnoreDirectory: the only names that changed are plain names of the current directory, they are regular files now, each was absent before or was a regular file and 'Y' was typed; links are not followed and nothing outside the directory is written or changed.", "quantifier": "every byte sequence as archive, every directory state, every sequence of typed lines", "why_tests_cant": "All archives, including hostile ones, in all directory states.", "anchors": ["lhext.go:extractOne", "lhext.go:inquireExtract", "lhext.go:inquire", "lhext.go:makeNameWithPathcheck", "lhext.go:adjustInfo", "lhext.go:symlinkWithMakePath", "lhext.go:CommandExtract", "lhext.go:extractWithHeader"]}
{"id": "C56", "title": "Consent with IgnoreDirectory", "statement": "The same as C55 with IgnoreDirectory set: no existing file, directory or link target is changed without a question.", "quantifier": "every byte sequence as archive, every directory state", "why_tests_cant": "All archives, including hostile ones.", "anchors": ["lhext.go:extractOne", "lhext.go:adjustInfo"]}
{"id": "C57", "title": "The answer to the overwrite question is obeyed", "statement": "When an entry's file exists, the answer decides: Y or y overwrites it, N, n or Return keeps it, A or a overwrites all, S or s keeps all; extraction goes on with the next entry.", "quantifier": "every sequence of typed lines, every archive and directory", "why_tests_cant": "Interactive input of any length.", "anchors": ["lhext.go:inquire", "lhext.go:inquireExtract", "lhext.go:extractOne"]}
{"id": "C58", "title": "Directories and symbolic links are recreated", "statement": "CommandExtract recreates the directories and symbolic links of the archive and extracts the files along with them.", "quantifier": "every archive, every directory state", "why_tests_cant": "All archives.", "anchors": ["lhext.go:extractOne", "lhext.go:makeParentPath", "lhext.go:addDirinfo", "lhext.go:symlinkWithMakePath"]}
{"id": "C59", "title": "Extracted files are those of the archive", "statement": "After CommandExtract into a directory in which the names are new, every entry is a regular file with the entry's content, time stamp and permissions, and everything else in the directory is unchanged.", "quantifier": "every list of entries with different last name components, every directory state", "why_tests_cant": "Unbounded lists of entries, and a statement about all other names of the directory.", "anchors": ["lhext.go:CommandExtract", "lhext.go:extractOne", "lhext.go:adjustInfo", "extract.go:DecodeLzhuf"]}
{"id": "C60", "title": "The listing of an archive", "statement": "CommandList shows every entry, in order, with its permissions, owner, group, sizes, method, checksum and name, the totals are the sums, and no error is returned.", "quantifier": "every list of entries (files and directories) with any metadata", "why_tests_cant": "All archives and all 4096 permission values with both kinds.", "anchors": ["lhext.go:CommandList", "lhext.go:listOne", "header.go:GetHeader"]}
{"id": "C61", "title": "Testing an archive", "statement": "CommandExtract in VerifyMode (lharc -t) reports an error if and only if the data of some entry does not decode to something with the recorded checksum; nothing else is reported.", "quantifier": "every list of entries, damaged or not, every content behind them", "why_tests_cant": "All archives and all damage.", "anchors": ["lhext.go:CommandExtract", "lhext.go:extractOne", "extract.go:DecodeLzhuf", "cmd/lharc.go:main"]}
{"id": "C62", "title": "The command line program reads what it writes", "statement": "An archive made by lharc -c or -a can be listed, tested and extracted by lharc, and the content is the same.", "quantifier": "every file content and name, every combination of options", "why_tests_cant": "All contents and option combinations.", "anchors": ["cmd/lharc.go:main", "cmd/lharc.go:parseOption", "cmd/lharc.go:parseSubOption", "lhext.go:CommandAdd", "lhext.go:CommandExtract"]}
{"id": "C63", "title": "Command line options do what their help says", "statement": "lharc -n changes nothing, -f does not ask, -m removes the files added, -u adds newer files only, -d deletes entries, -x excludes files; -l, -t, -p, -e leave the archive as it is.", "quantifier": "every combination of flags, every archive and directory", "why_tests_cant": "All combinations of flags.", "anchors": ["cmd/lharc.go:main", "cmd/lharc.go:parseOption", "cmd/lharc.go:parseSubOption", "cmd/lharc.go:initVariable", "lhext.go:CommadDelete"]}
{"id": "C64", "title": "Adding to an existing archive with the command line program", "statement": "After lharc -a on an existing archive all entries that were in it are still there, with the new one.", "quantifier": "every existing archive, every file", "why_tests_cant": "All archives.", "anchors": ["lhext.go:CommandAdd", "lhext.go:appendIt", "lhext.go:copyOldOne", "cmd/lharc.go:initVariable"]}
{"id": "C65", "title": "The codes are the best possible", "statement": "No decodable code (with words of at most 16 bits) encodes symbols with given counts in fewer bits than the code the compressor builds for them.", "quantifier": "every table of counts, every decodable code", "why_tests_cant": "All tables of counts and all codes.", "anchors": ["maketree.go:makeTree", "maketree.go:makeLen", "maketree.go:countLeaf", "maketree.go:downheap"]}
{"id": "C66", "title": "A damaged header is reported, and the entries before it are still processed", "statement": "If one byte of the header of an entry is changed, CommandExtract, the test mode and CommandList return an error; the entries before it are extracted (tested, listed) as if nothing were wrong, and the exit status of the program is 1. A missing archive is reported, too.", "quantifier": "for every list of valid entries, every entry after them, every position in its header and every wrong byte, whatever follows", "why_tests_cant": "The positions and values of the damage, and the archives around it, cannot be enumerated; a loop that swallows the error would pass any test that looks only at the files.", "anchors": ["lhext.go:CommandExtract", "lhext.go:CommandList", "header.go:GetHeader", "cmd/lharc.go:main"]}
{"id": "C67", "title": "Decompress(header) touches only the file asked for", "statement": "When Decompress(header) returns, with or without an error, every name of the current directory other than the last component of the name in that header stands for what it stood for before.", "quantifier": "for every archive (arbitrary bytes), every header, every directory, with or without Force", "why_tests_cant": "It is about all archives, including hostile ones, and about all files that are not touched.", "anchors": ["lha.go:Decompress", "lhext.go:extractWithHeader", "lhext.go:extractOne"]}
{"id": "C68", "title": "A file that cannot be written is reported", "statement": "If CommandExtract cannot create the file of an entry, it returns an error; the other files are extracted.", "quantifier": "for every archive of valid entries and every set of names that may not be created", "why_tests_cant": "Needs every pattern of permissions; tests run where everything can be written.", "anchors": ["lhext.go:extractOne", "lhext.go:openWithMakePath"]}
{"id": "C69", "title": "The compressor never misses a longer match", "statement": "When a non-empty body is compressed with lh5, lh6 or lh7 (and in the LZ stage of lh1), every copy in the result is at least as long as every repetition of earlier text inside the window that begins at the same byte or at the next one (up to the length limit), and a byte is written as a literal only where no repetition of three or more bytes begins or where a longer one begins at the next byte; the shortcuts for long hash chains never cost a match.", "quantifier": "for all bodies accepted by the compressor, methods 5, 6, 7 (LZ stage also for 1), all leftover contents of the global buffers, all window positions", "why_tests_cant": "A missed match only makes the output a little larger; it depends on hash collisions, on how often the window has slid, on chains with more than 256 elements and on periods shorter than the search offset, so round-trip tests pass whatever the search does.", "anchors": ["slide.go:searchDict", "slide.go:searchDict1", "slide.go:encode"]}
{"id": "C70", "title": "The compression method asked for is used, or refused", "statement": "CompressBytes, Compress and CommandAdd take a method number. Either the call returns an error, or the entry it writes is marked with the corresponding method, is compressed with it, and can be read back.", "quantifier": "for all method numbers, bodies, archive names, levels and process states", "why_tests_cant": "There are unboundedly many numbers and bodies; a number that is silently replaced by another one leaves an archive that looks right for the samples one tries.", "anchors": ["append.go:EncodeLzhuf", "append.go:encodeAlloc", "lha.go:CompressBytes", "lhext.go:CommandAdd"]}
{"id": "C71", "title": "lh3 streams decode as the format says", "statement": "An -lh3- body is a sequence of blocks, each with a code for letters and lengths, a code (written out, of one symbol, or fixed) for distances, and tokens; decoding it yields the LZ77 expansion of the tokens and its checksum, and consumes the body, whatever was decoded before.", "quantifier": "every token list, every division into blocks, all codes, every following archive content, every decoder history", "why_tests_cant": "All complete codes, including those with long words, and all sequences of entries of different methods in one archive.", "anchors": ["shuf.go:decodeStartSt0", "shuf.go:readTreeC", "shuf.go:readTreeP", "shuf.go:readyMade", "shuf.go:decodeCSt0", "shuf.go:decodePSt0", "slide.go:decode"]}
{"id": "C72", "title": "The code trees of pm2 are those that the headers describe", "statement": "A pm2 header stores the lengths of the code words of up to 29 classes (first tree) or 8 distance classes (second tree), or a single class. If the lengths form a complete code, the tree built is the only one whose leaves, left to right, are the classes by increasing length and number; a table that is not a complete code leaves the old tree; the header is consumed to its last bit, and the second header is skipped exactly when the first makes it unnecessary.", "quantifier": "every table of lengths, every bound, every leftover tree, every continuation of the bit stream", "why_tests_cant": "There are billions of complete length tables; a wrong order of two leaves shows only in the tables that contain them.", "anchors": ["pmtree.go:maketree1", "pmtree.go:maketree2", "pmtree.go:treeRebuild", "pmtree.go:treeSetsingle"]}
{"id": "C73", "title": "pm2 streams decode as the format says", "statement": "A -pm2- body is a leading bit, then tokens, with headers at the scheduled text positions. Decoding it yields the expansion of the tokens (letters by their place in the list of recent bytes, copies by length and distance class) and its checksum, and consumes the body, whatever was decoded before.", "quantifier": "every token list, all codes, every following archive content, every decoder history", "why_tests_cant": "All codes at every scheduled position of arbitrarily long texts, and all sequences of entries in one process.", "anchors": ["pm.go:decodeCPm2", "pm.go:decodePPm2", "pm.go:decodeStartPm2", "pmtree.go:maketree1", "pmtree.go:maketree2", "pm2hist.go:histUpdate", "slide.go:decode"]}
{"id": "C74", "title": "Using the package for a while does not change what it does", "statement": "In a process that has made any sequence of calls (adding with one of the methods lh5, lh6, lh7 or with a storing method, listing, extracting, testing, decompressing archives of any contents), adding files to an archive gives the same archive, error or panic as in a fresh process.", "quantifier": "all finite sequences of calls, all their arguments and archives; all files added and archives added to", "why_tests_cant": "The package keeps its tables, buffers and trees in variables that survive a call; a test exercises one sequence of calls, here every sequence is meant.", "anchors": ["lha.go:CompressBytes", "lhext.go:CommandAdd", "slide.go:encode", "extract.go:DecodeLzhuf", "append.go:EncodeLzhuf"]}
{"id": "C75", "title": "A level-2 header written is a level-2 header of that file", "statement": "With header level 2, the header written for a file is a level-2 header as the format describes it: its length, the basic fields, a chain of extended headers with the checksum of the header and the name of the file.", "quantifier": "every entry (name, sizes, time, checksum, owner, mode), every setting of the writer", "why_tests_cant": "The place and length of every extended header depend on name, directory and owner; a wrong type byte is invisible to a reader with the same mistake.", "anchors": ["header.go:writeHeaderLevel2", "header.go:WriteHeader"]}
{"id": "C76", "title": "Noexec changes nothing on disk", "statement": "With Noexec set, adding to an archive or extracting from one leaves every file, directory and link as it was (contents, modes, times) and the call comes to its end.", "quantifier": "every combination of the other options, every list of arguments and exclusions, every archive, every moment at which the process may die", "why_tests_cant": "A dry run is used exactly where the outcome is not known beforehand; every path through adding and extracting, under every option, would have to be tried.", "anchors": ["lhext.go:CommandAdd", "lhext.go:appendIt", "lhext.go:extractOne", "lhext.go:inquireExtract"]}
{"id": "C77", "title": "Directories and symbolic links can be archived", "statement": "A directory or symbolic link among the arguments of CommandAdd is archived like a file: the call returns and the archive gets an entry for it.", "quantifier": "every list of arguments with a directory or link in it, every option, every old archive", "why_tests_cant": "The reader of such an argument is absent, so the outcome depends on which of many branches look at it; only a proof covers all options and orders of arguments.", "anchors": ["lhext.go:appendIt", "lhext.go:CommandAdd"]}
{"id": "C78", "title": "UpdateIfNewer adds what is missing and replaces what is older", "statement": "With UpdateIfNewer, CommandAdd adds a file which is not in the archive, replaces the entry of the same name if it is older and leaves it otherwise; without file arguments it does so for the files named in the archive.", "quantifier": "every archive, every file and time, every option", "why_tests_cant": "The decision compares times of files with times in the archive; which entry is compared shows only in archives with several entries in a particular order.", "anchors": ["lhext.go:appendIt", "lhext.go:findUpdateFiles", "lhext.go:CommandAdd"]}
{"id": "C79", "title": "Asking for an entry that is not in the archive is reported", "statement": "DecompresBytes and Decompress return an error when no entry of the archive has the name of the header they are given, so that a caller can tell a missing entry from an empty one.", "quantifier": "every archive, every name", "why_tests_cant": "Whether a missing entry is reported must hold for archives of every length, with every combination of names and methods; examples only show particular archives.", "anchors": ["lha.go:DecompresBytes", "lha.go:Decompress", "lhext.go:extractBytesWithHeader", "lhext.go:extractWithHeader"]}
{"id": "C80", "title": "Self-extracting archives are read like others", "statement": "From a file whose name ends in .exe or .com and which consists of a program (possibly empty) with an archive behind it, DecompresBytes, Decompress and CommandExtract get what they get from the archive alone.", "quantifier": "every program of every length, every archive", "why_tests_cant": "The length and content of the program decide where the search for the header ends; the search runs over 65536 positions of a buffer.", "anchors": ["header.go:SeekLhaHeader", "util.go:archiveIsMsdosSfx1", "lhext.go:extractBytesWithHeader"]}
{"id": "C81", "title": "Archives can be processed at the same time", "statement": "Calls made at the same time from several goroutines, each with its own Lha value and its own archive, return what they return when made one after the other.", "quantifier": "every number of goroutines, every interleaving of their steps, every archive", "why_tests_cant": "The number of interleavings is astronomical and a scheduler shows only a few of them; a race that loses data may not occur in any test run.", "anchors": ["lha.go:Headers", "crcio.go:fwriteCrc", "crcio.go:MakeCrcTable", "crcio.go:fwriteCrc", "lha.go:DecompresBytes"]}
{"id": "C82", "title": "Printing shows the contents", "statement": "CommandExtract with OutputToStdout (lharc -p) prints the contents of the entries asked for, in order, each (unless Quiet is set) below a heading with its name, and nothing else; it returns an error if the content of an entry does not have the checksum in the archive.", "quantifier": "every archive, every selection of entries, every setting of Quiet", "why_tests_cant": "What is printed depends on all entries of the archive, asked for or not, on their methods and sizes; a test sees the output for the archives it was written for.", "anchors": ["lhext.go:extractOne", "lhext.go:CommandExtract", "util.go:copyfile", "cmd/lharc.go:parseOption"]}
{"id": "C83", "title": "The option for broken archives does not change how intact archives are read", "statement": "With ExtractBrokenArchive set, DecompresBytes gives for every intact lh4 to lh7 entry, and in particular for every entry this library wrote, the same bytes as without it.", "quantifier": "all method 5, 6, 7 streams, all bodies, all states of the compressing and of the reading process", "why_tests_cant": "Whether a copy reaches before the beginning of the text depends on the hash chains of the coder; it happens only for texts with spaces in which a chain has been given up, which no sample in the repository contains.", "anchors": ["slide.go:decode", "slide.go:searchDict", "lha.go:NewLha", "extract.go:DecodeLzhuf"]}
{"id": "C84", "title": "Texts archived with TextMode are in the archive", "statement": "With the package variable TextMode set, CompressBytes and Compress archive the text, with a carriage return before every line feed; in particular different texts give different archives.", "quantifier": "every text, every method, every state of the process", "why_tests_cant": "Whether a text survives depends on its length compared with the size of the first read of the method; a test with one long text would not show that all short ones are lost, and the call reports success.", "anchors": ["crcio.go:freadTxt", "crcio.go:freadCrc", "slide.go:encode", "append.go:EncodeLzhuf"]}
{"id": "C85", "title": "No archive makes a reading call hang", "statement": "Listing, testing, printing, extracting, Headers and DecompresBytes come to an end (with a result, an error or a crash) on every file, well-formed or not.", "quantifier": "all byte sequences as archive, all options, all names asked for, all file systems, all states left by earlier calls", "why_tests_cant": "non-termination can only be observed by waiting; whether some malformed file among all byte sequences leads into an endless loop is a question about the loops, not about samples", "anchors": ["header.go:GetHeader", "header.go:getExtendedHeader", "lhext.go:CommandList", "lhext.go:CommandExtract", "lhext.go:extractBytesWithHeader", "lha.go:Headers", "huf.go:decodePSt1"]}
{"id": "C86", "title": "Repetitive contents take little space", "statement": "If the contents of a file are a pattern of q bytes repeated (q smaller than the window of lh5, lh6 or lh7; the last repetition may be cut), then whenever compressing them ends, the packed data takes at most 1101 + 6q bytes plus a fortieth of the size. In particular such contents of at least 1200 + 7q bytes always become smaller, are never stored by mistake, and are given back by reading the archive (apart from the crash on the first byte, C02, and lh7 from 64 KiB on).", "quantifier": "all contents of any length with any period below the window, all three methods, all buffers left over from earlier calls", "why_tests_cant": "It is a bound on what a lazy matcher, a hash table with bounded chains, block splitting and Huffman tables produce together, for every length, period and pattern; tests measure single files.", "anchors": ["slide.go:encode", "huf.go:sendBlock", "huf.go:outputSt1", "lha.go:CompressBytes"]}
{"id": "C87", "title": "With an error DecompresBytes returns no unverified data", "statement": "If DecompresBytes returns an error, the data it returns with it is empty, or content whose checksum has been verified. False: on a checksum error the bytes that have already left the 4096-byte buffer of the writer are returned with the error.", "quantifier": "for every archive file and every name", "why_tests_cant": "how much is returned depends on the sizes in which the decoder writes and on the state of an internal buffer; a test with a small damaged entry sees no data at all", "anchors": ["lhext.go:extractOneStream", "lha.go:DecompresBytes", "crcio.go:fwriteCrc"]}
{"id": "C88", "title": "An Lha value can be used for several calls", "statement": "What a call on an Lha value (Headers, Compress, CompressBytes, Decompress, DecompresBytes, CommandAdd, CommandExtract) does depends on its arguments, the options the caller has set and the files, not on calls made before on the same value. False: after CompressBytes, Headers on the same value returns an error and CommandExtract extracts nothing; a second CompressBytes also adds the name of the first; DecompresBytes changes the header level CommandAdd uses.", "quantifier": "for all sequences of calls on one value, all archives, names and contents", "why_tests_cant": "it is about all interleavings of calls; the tests make a new value for every call", "anchors": ["lha.go:CompressBytes", "lha.go:Compress", "lha.go:Headers", "lha.go:DecompresBytes", "lha.go:Decompress", "lhext.go:needFile", "lhext.go:compressBytes"]}
{"id": "C89", "title": "lh2 streams decode as the format says", "statement": "An -lh2- body is a sequence of adaptive-Huffman symbols (letters, and copies of 3 to 256 bytes, symbol 285 being followed by eight bits added to it), each copy followed by a distance whose upper part is coded with a second adaptive tree that grows with the text; decoding it yields the LZ77 expansion of these tokens and its checksum, whatever was decoded before. False: the eight bits after symbol 285 are not read, so copies of 32 bytes or more break the rest of the entry.", "quantifier": "every token list, every body holding its bits, every following archive content, every decoder history", "why_tests_cant": "All pairs of adaptive-tree states that share one pool of block numbers, and all token sequences.", "anchors": ["dhuf.go:decodeStartDyn", "dhuf.go:startPDyn", "dhuf.go:decodePDyn", "dhuf.go:makeNewNode", "dhuf.go:updateP", "dhuf.go:decodeCDyn", "slide.go:decode"]}
{"id": "C90", "title": "A truncated archive is reported", "statement": "If an archive ends too early (a download was interrupted, a disk was full), listing, testing and extracting it return an error; the entries that are complete are processed as usual; no file with made-up contents is left behind without an error, and nothing crashes.", "quantifier": "for every archive of valid entries and every number of bytes that is missing at its end", "why_tests_cant": "A test can cut a few archives at a few places. What a cut does depends on whether it falls into a header, the packed data or between two entries, on the sums of the missing bytes and on how the decoder goes on when there is no more input.", "anchors": ["header.go:GetHeader", "header.go:getHeaderLevel0", "lhext.go:CommandList", "lhext.go:CommandExtract", "lhext.go:extractOne", "bitio.go:fillbuf"]}
{"id": "C91", "title": "A small archive does not fill the disk", "statement": "The number and the sizes of the files that CommandExtract creates, and the number of bytes that DecompresBytes returns, are limited by the size of the archive: an archive of a few dozen bytes cannot make the library write gigabytes without an error.", "quantifier": "all archives, options, sizes announced in headers, states of the package-level variables", "why_tests_cant": "The bound is about every archive an attacker can write; a test extracts the archives it has, and an archive that produces gigabytes does not belong in a unit test.", "anchors": ["lhext.go:CommandExtract", "lhext.go:extractOne", "lha.go:DecompresBytes", "slide.go:decode", "bitio.go:fillbuf", "header.go:GetHeader"]}
{"id": "C92", "title": "Extracting loses no entry", "statement": "After CommandExtract has returned without an error, every entry of the archive can be found on the disk with its content; entries with the same last path component in different directories do not replace each other.", "quantifier": "for every archive of valid entries, with default options and with Force", "why_tests_cant": "Whether entries collide depends on how the names of all entries of an archive relate to each other; a test has a few names.", "anchors": ["lhext.go:CommandExtract", "lhext.go:extractOne", "lhext.go:inquireExtract", "lhext.go:makeNameWithPathcheck"]}
{"id": "C93", "title": "A listing has one line per entry, in fixed columns", "statement": "CommandList prints a heading of two lines, one line per entry with permissions, owner, size, ratio and name in fixed columns, a bar and a line with the totals. Nobody who makes an archive can add lines to its listing.", "quantifier": "for every archive: all names, sizes, owners and permissions", "why_tests_cant": "Names are bytes chosen by whoever made the archive, and columns hold for some sizes only. A test shows the layout for the names and sizes it uses.", "anchors": ["lhext.go:CommandList", "lhext.go:listOne", "lhext.go:listHeader", "lhext.go:listTailer", "lhext.go:printSize", "lhext.go:printStamp", "lhext.go:printBar"]}
{"id": "C94", "title": "The ratio in a listing is correctly rounded", "statement": "The ratio printed for each entry, and for the totals, is packed size / original size in percent, rounded to the nearest tenth (stars if the original size is 0), though it is computed with two floating-point operations and a conversion to decimal.", "quantifier": "for all archives, options and looks of the listing; all sizes a header can announce; totals below 2^42 bytes packed", "why_tests_cant": "There are 2^64 pairs of sizes, and double rounding goes wrong at isolated pairs only, if it does.", "anchors": ["lhext.go:printSize", "lhext.go:CommandList", "lhext.go:listTailer"]}
{"id": "C95", "title": "From a listing one can tell what is in the archive", "statement": "If the listings of two archives are the same, so are the names, kinds, permissions, owners, sizes and modification times of their entries.", "quantifier": "for all pairs of archives of valid entries", "why_tests_cant": "It is a statement about pairs of archives: that no two different ones look the same. A test compares a few.", "anchors": ["lhext.go:CommandList", "lhext.go:listOne", "lhext.go:printStamp", "lhext.go:printSize"]}
{"id": "C96", "title": "Every style of listing shows what its heading promises", "statement": "For every archive and every combination of Verbose, VerboseListing and Quiet, CommandList prints the heading and bar of that style, then one line per entry with all columns of the heading in their places (permissions or system, owner, packed size, size, ratio, method, checksum in four hex digits, name, header level), then a bar and the totals; with Quiet it prints the lines of the entries and nothing else.", "quantifier": "for all archives, all numbers and kinds of entries, all sizes and checksums, and all eight combinations of the options", "why_tests_cant": "Tests look at the output for one archive in one style; the columns depend on unbounded numbers (sizes, owners, checksums, counts) and on the system recorded in each header.", "anchors": ["lhext.go:CommandList", "lhext.go:listOne", "lhext.go:printSize", "lhext.go:printStamp", "lhext.go:listHeader", "lhext.go:printBar", "lhext.go:listTailer"]}
{"id": "C97", "title": "What Headers lists can be read", "statement": "If Headers lists the entries of an archive, DecompresBytes of each header listed returns the contents of that entry, as many bytes as the header says, with the checksum it says.", "quantifier": "for all archives of valid entries and all their entries", "why_tests_cant": "It relates two calls of the API for every entry of every archive; in particular several entries may have the same name. Tests read one entry of a fixed archive.", "anchors": ["lha.go:Headers", "lha.go:DecompresBytes", "lhext.go:extractBytesWithHeader", "lhext.go:extractOneStream"]}
{"id": "C98", "title": "Headers reports damage", "statement": "If a byte of a header of the archive or of the contents of an entry has been changed, Headers returns an error; it does not silently return a part of the list.", "quantifier": "for all archives, all entries and all damaged bytes", "why_tests_cant": "Every place of damage in every archive is meant. A test damages one or two places.", "anchors": ["lha.go:Headers", "header.go:GetHeader", "header.go:getHeaderLevel0", "lhext.go:extractOne"]}
{"id": "C99", "title": "Headers lists the entries whatever they contain", "statement": "For an archive whose headers are intact Headers returns a header for every entry, whatever the contents of the entries are and however they are packed.", "quantifier": "for all archives with intact headers: all kinds and methods of entries, all contents", "why_tests_cant": "Whether the contents matter for the list of headers cannot be seen from a sample whose contents are right.", "anchors": ["lha.go:Headers", "lhext.go:extractOne", "extract.go:DecodeLzhuf", "lhext.go:skipToNextpos"]}
{"id": "C100", "title": "Archives made under other systems are listed", "statement": "Headers lists the level-0 entries made under MS-DOS, OS/2, OS-9, Macintosh, Amiga, Human68k, ... (or without a record of the system), mixed with those made under Unix or not: the right sizes, checksum, attribute and name, with / between directories, and in small letters if ConvertCase is set and the name has none.", "quantifier": "for all such archives, all systems, all names", "why_tests_cant": "The conversion of names depends on the system, on the option and on every byte of the name; a file made under each system is not at hand in a test.", "anchors": ["header.go:GetHeader", "header.go:getHeaderLevel0", "header.go:convertFilename", "lhext.go:extractOne", "lha.go:Headers"]}
{"id": "C101", "title": "A file is listed under its name", "statement": "A file archived with CompressBytes is afterwards listed by Headers under its base name.", "quantifier": "for all names, all contents, both settings of ConvertCase", "why_tests_cant": "The name passes through a chain of conversions on writing and on reading (separators, drive letters, case, terminating zero); which names survive depends on every byte.", "anchors": ["lha.go:CompressBytes", "lha.go:Headers", "header.go:initHeader", "header.go:writeHeaderLevel0", "header.go:getHeaderLevel0", "header.go:convertFilename"]}
{"id": "C102", "title": "The entries of archives made under other systems can be read", "statement": "Each entry of an archive with entries made under other systems can be read with DecompresBytes by the name under which Headers lists it.", "quantifier": "for all such archives, all systems, all names, all contents, both settings of ConvertCase", "why_tests_cant": "One header structure is reused for all the entries, so that what is read depends on the entries before it.", "anchors": ["lha.go:DecompresBytes", "header.go:GetHeader", "header.go:getHeaderLevel0", "header.go:convertFilename"]}
{"id": "C103", "title": "Archives made under other systems are extracted", "statement": "CommandExtract extracts the files of an archive with entries made under MS-DOS, OS/2, OS-9, Macintosh, Amiga, Human68k, ... mixed with Unix ones or not: each with its contents, under the (last component of the) name Headers lists, and nothing else changes.", "quantifier": "for all such archives, all systems, names and contents, all states of the directory, both settings of ConvertCase", "why_tests_cant": "Names are converted in ways that depend on the system, on the option and on the entries read before.", "anchors": ["lhext.go:CommandExtract", "lhext.go:extractOne", "header.go:GetHeader", "header.go:convertFilename"]}
{"id": "C104", "title": "Listing an archive takes no more memory than the archive has bytes", "statement": "The buffers CommandList allocates to skip the packed data of an archive have together no more bytes than the archive.", "quantifier": "for all files taken for an archive", "why_tests_cant": "The size of a buffer is taken from the header; a test sees only archives whose headers are true.", "anchors": ["lhext.go:CommandList", "header.go:GetHeader"]}
{"id": "C105", "title": "Archives with level-1 headers are listed, read and extracted", "statement": "Headers lists every entry of an archive with level-1 headers with the name, method, sizes, checksum and time recorded; DecompresBytes with the header listed returns the content, and CommandExtract writes it to a file of that name.", "quantifier": "for all archives of entries with valid level-1 headers, made under any system", "why_tests_cant": "Level 1 is what most old programs write; whether extended headers are read, and what becomes of the entries behind them, depends on lengths inside the archive, of which a test has a few.", "anchors": ["header.go:getHeaderLevel1", "header.go:getExtendedHeader", "lha.go:Headers", "lha.go:DecompresBytes", "lhext.go:CommandExtract"]}
{"id": "C106", "title": "Long texts archived with TextMode can be read back", "statement": "With the package variable TextMode set, a text that is long enough to fill the first read of the compressor (so that it is not lost, C84) comes back with a carriage return before every line feed: Headers lists it without an error, DecompresBytes returns it, and Decompress extracts it.", "quantifier": "for all long enough texts, methods and states of the process", "why_tests_cant": "Whether the checksum in the header covers the whole text depends on its length modulo the window of the method; a test with one long text sees one remainder.", "anchors": ["crcio.go:freadCrc", "crcio.go:freadTxt", "slide.go:encode", "slide.go:updateDict", "lha.go:CompressBytes", "lha.go:Headers", "lha.go:DecompresBytes"]}
{"id": "C107", "title": "Reading calls close the archive", "statement": "When DecompresBytes, Decompress or CommandExtract return, the archive they opened is closed again, so that a program can call them any number of times.", "quantifier": "for all archives, names and numbers of calls", "why_tests_cant": "A test never opens enough files to notice, and the way the loop is left depends on how the archive ends: with or without an end mark, or with an error.", "anchors": ["lhext.go:extractBytesWithHeader", "lhext.go:extractWithHeader", "lhext.go:CommandExtract", "lha.go:DecompresBytes", "lha.go:Decompress"]}
{"id": "C108", "title": "Compressing takes time in proportion to the size", "statement": "Apart from the entropy coder, compressing contents with lh5, lh6 or lh7 takes at most a fixed number of steps for each byte, whatever the contents (rounds of all loops of the search for matches and of the window, bytes moved and read).", "quantifier": "for all contents, methods and states of the process", "why_tests_cant": "The chains of the hash table are limited only by the window and by their always leading backwards; contents for which a chain ran in a circle or the search became quadratic would have to be found among all contents.", "anchors": ["slide.go:encode", "slide.go:searchDict", "slide.go:searchDict1", "slide.go:updateDict", "slide.go:nextToken"]}
{"id": "C109", "title": "With Force extraction stays in the current directory", "statement": "Whatever the archive holds and whichever options are set (Force and IgnoreDirectory included), after CommandExtract or Decompress only plain names of the current directory have changed, each is a regular file now and was absent or a file before (or is a directory with other attributes), and nothing outside the current directory is written: symbolic links are not followed, neither those that were there nor any the archive brings.", "quantifier": "every byte sequence as archive, all options, every directory state", "why_tests_cant": "All archives, including hostile ones that combine links and files, in all directory states.", "anchors": ["lhext.go:extractOne", "lhext.go:inquireExtract", "lhext.go:openWithMakePath", "lhext.go:adjustInfo", "lhext.go:symlinkWithMakePath", "lhext.go:CommandExtract"]}
{"id": "C110", "title": "The dump of an entry describes its contents", "statement": "With the option DumpLzss the call returns what it returns without it, and the lines printed for an entry can be read: taking each line `n hh(c)` as the byte hh and each line `n <l p>` as a copy of the l bytes from position p of the text on (spaces before position 0) gives exactly the contents, and n is always the position reached.", "quantifier": "every lh5, lh6, lh7 and lzs stream that follows the format, whoever wrote it, and any data at all with lh1 to lh6, lzs and pm2 unless a copy goes back further than the window, in every state of the process; that nothing else changes, for every method and any data", "why_tests_cant": "All streams, including copies that overlap themselves or begin before the text; a reader of the dump needs the exact text back, not a plausible one.", "anchors": ["slide.go:decode", "extract.go:DecodeLzhuf"]}
{"id": "C111", "title": "A damaged file does not cost the others", "statement": "If the headers of an archive are intact and the contents of some entries are damaged (any bytes, or too many or too few of them), the other entries can still be read with DecompresBytes, and CommandExtract still extracts them.", "quantifier": "every archive of valid level-0 headers with sound and damaged entries in any order, every damage to the contents, every state of the process and every directory without those files", "why_tests_cant": "The damage is arbitrary, and so is its place; where the next header is looked for depends on how many bytes the decoder took from the damaged data.", "anchors": ["lhext.go:CommandExtract", "lhext.go:skipToNextpos", "lhext.go:extractOne", "lha.go:DecompresBytes"]}
{"id": "C112", "title": "A dump sends no control characters to the terminal", "statement": "Whatever the contents of an entry and whatever its packed data, the text printed for it with DumpLzss consists of line feeds and printable characters (in UTF-8): no escape sequences, no other controls of U+0000 to U+001F or U+007F to U+009F, no incomplete characters.", "quantifier": "every method, any data, any sizes in the header, every state of the process", "why_tests_cant": "All contents and all damaged data; a test looks at a few texts, and the one byte that is let through is the one an attacker uses.", "anchors": ["slide.go:decode", "extract.go:DecodeLzhuf"]}
{"id": "C113", "title": "A listing sends no control characters to the terminal", "statement": "The text CommandList prints consists of line feeds and printable characters, whatever the archive contains; names with escape sequences in them do not reach the terminal as such.", "quantifier": "every archive, damaged or not, every style of listing, every selection of entries", "why_tests_cant": "All archives; the ones that matter are made to be unlike those of a test, and every field of a header may be the one that is printed unfiltered.", "anchors": ["lhext.go:CommandList", "lhext.go:listOne"]}
{"id": "C114", "title": "Entries of different programs and systems may stand in one archive", "statement": "In an archive whose entries were made by different programs under different systems, with headers of different levels, every file is listed, tested, read by the header listed and extracted as it would be alone: what a header of one kind leaves behind does not change how the next one is read.", "quantifier": "for all archives of files with level-0 headers (Unix and other systems) and level-1 headers, in any order and number, of all methods", "why_tests_cant": "One header structure is filled again for every entry, and each kind of header sets other fields of it; the orders of kinds are unlimited and a test has one or two.", "anchors": ["header.go:GetHeader", "header.go:getHeaderLevel0", "header.go:getHeaderLevel1", "lha.go:Headers", "lha.go:DecompresBytes", "lhext.go:CommandExtract"]}
{"id": "C115", "title": "DecodeMacbinaryContents passes over the icons of Mac OS and changes nothing else", "statement": "With DecodeMacbinaryContents set, the files Icon\\r of Mac OS are passed over when an archive is listed, tested or printed, whatever they contain; all other files are listed, checked and printed as without the option.", "quantifier": "for all archives of files made under any system, all contents of the icons; archives of any bytes without entries of Mac OS", "why_tests_cant": "Whether the entries behind a passed-over file are still found depends on its packed size and on what was read of it; that nothing else changes is a statement about all archives.", "anchors": ["lhext.go:extractOne", "lha.go:Headers", "lhext.go:CommandExtract", "lhext.go:skipToNextpos"]}
{"id": "C116", "title": "One damaged byte does not lead to wrong contents without an error", "statement": "If one byte of an archive, wherever it is, has been changed to another value, DecompresBytes for a file returns an error, or contents that have the checksum recorded for that file when the archive was made; if the byte is not in the packed data of that file, exactly its contents.", "quantifier": "for all archives of any number of files, all positions of the byte (headers, packed data of this or of another file, end mark), all new values", "why_tests_cant": "Each of the changes of each byte of each archive is another input; the header of a file may be damaged so that the checksum is no longer looked for, which a sample of positions does not show.", "anchors": ["lha.go:DecompresBytes", "header.go:GetHeader", "header.go:getHeaderLevel0", "lhext.go:extractOneStream"]}
{"id": "C117", "title": "Archives can be joined", "statement": "If the bytes of one archive are written behind those of another, all files of both are listed, extracted and read.", "quantifier": "for all pairs of archives of valid entries, any number of files each", "why_tests_cant": "A sample of two archives says nothing about all pairs; with the end mark of the first one in place nothing fails, the second archive is silently missing.", "anchors": ["header.go:GetHeader", "lha.go:Headers", "lhext.go:CommandExtract", "lha.go:DecompresBytes"]}
{"id": "C118", "title": "Files can be added to a self-extracting archive", "statement": "CommandAdd for an existing archive named .com or .exe adds the files; if it cannot, it says so and every file (the archive, the files to be moved) is as before.", "quantifier": "for all contents of the archive, all file arguments, all options but Noexec, all states of the disk", "why_tests_cant": "The outcome depends on the archive, the arguments and the options; that no combination succeeds, and that none loses anything, is a statement about all of them.", "anchors": ["lhext.go:CommandAdd", "lhext.go:buildStandardArchiveName", "util.go:archiveIsMsdosSfx1"]}
{"id": "C119", "title": "A dry run of an extraction tells whether extracting will fail", "statement": "CommandExtract and Decompress with Noexec set return an error exactly when the same call without Noexec would.", "quantifier": "for all archives of any number of entries with any data, all names asked for, all states of the disk", "why_tests_cant": "A test compares two runs on a sample; that every damaged header and every unknown method is reported, behind any number of entries, and that nothing else is, is about all archives.", "anchors": ["lhext.go:CommandExtract", "lhext.go:extractWithHeader", "lhext.go:extractOne", "lha.go:Decompress"]}
{"id": "C120", "title": "Archives without checksums are listed, read, tested and extracted", "statement": "Entries whose level-0 header ends with the name (as in the first versions of the format, without a checksum of the contents) are listed by Headers with name, method, sizes and attribute and as having no checksum, DecompresBytes returns their contents, and CommandExtract tests and extracts them, whether or not entries with checksums stand before or behind them.", "quantifier": "for all archives of such entries and ordinary ones in any order, all names, all contents", "why_tests_cant": "The header is one structure used for all entries, so that a checksum left over from an entry before could be compared; whether that happens depends on the archive, and no program at hand writes such entries.", "anchors": ["header.go:getHeaderLevel0", "header.go:GetHeader", "lhext.go:extractOne", "lhext.go:extractOneStream", "lha.go:Headers", "lha.go:DecompresBytes", "lhext.go:CommandExtract"]}
