{
 "C01": [
  "proved",
  "for every uint64"
 ],
 "C02": [
  "proved",
  "for every uint64 and every following bytes"
 ],
 "C07": [
  "proved",
  "Go and TypeScript comparison"
 ],
 "C08": [
  "proved",
  "Go and TypeScript search, every sorted key list"
 ],
 "C03": [
  "proved",
  "every node with 1..2^32-1 keys; node_round_trip needs none of the size bound"
 ],
 "C04": [
  "proved",
  "every well-formed node, width, data file and page remainder"
 ],
 "C05": [
  "proved",
  "both formats; rejection of short buffers and unknown formats"
 ],
 "C06": [
  "partial",
  "round trip proved; 'never panics' is violated (C06_unmarshal_can_panic_violated) and the exact set of panicking buffers is characterised"
 ],
 "C20": [
  "proved",
  "all histories of open/reopen/NewPage/FreePage incl. failed calls, both backends"
 ],
 "C21": [
  "proved",
  "all histories"
 ],
 "C22": [
  "proved",
  "all histories, all continuations"
 ],
 "C23": [
  "proved",
  "all histories"
 ],
 "C24": [
  "partial",
  "NewPage never panics; FreePage never panics while <512 frees since open; violated afterwards (C24_free_page_violated)"
 ],
 "C25": [
  "partial",
  "holds for histories of the allocator API; opening an index on an empty file breaks it (C25_index_page_count_violated)"
 ],
 "C56": [
  "partial",
  "contents, seek and in-range writes proved; growing writes report a wrong count (C56_mmap_growth_violated)"
 ],
 "C57": [
  "proved",
  "all buffers, positions and data"
 ],
 "C09": [
  "proved",
  "every history of several trees in one page file: inserts, rejected inserts, look-ups, page allocations, data growth, reopening; any number of splits at any level"
 ],
 "C10": [
  "proved",
  "all histories"
 ],
 "C11": [
  "partial",
  "proved for keys below 65536 bytes in any state; violated beyond (16 bit truncation): C11_width_violated"
 ],
 "C12": [
  "proved",
  "all histories"
 ],
 "C13": [
  "partial",
  "soundness, and completeness for stored targets and targets below all keys; the full statement is violated: C13_find_violated; exact on one-page indexes (C13_find_one_page_partial); in every index of more than one page there is an entry that Find misses for every key between its predecessors and it (C13_every_big_violated)"
 ],
 "C14": [
  "partial",
  "soundness for non-empty values and completeness for exact keys; violated in general: C14_contains_violated, C14_contains_empty_violated; exact for nonempty values on one-page indexes (C14_contains_one_page_partial); in every index of more than one page with distinct values there is a stored value that Contains denies (C14_every_big_violated)"
 ],
 "C15": [
  "proved",
  "all histories"
 ],
 "C16": [
  "proved",
  "all histories, any starting key"
 ],
 "C17": [
  "partial",
  "any mixture of Next and Prev that stays on entries; running off the end and back is violated: C17_direction_violated"
 ],
 "C18": [
  "proved",
  "widths up to 2017 (the product uses 0, 1, 2, 9), all histories"
 ],
 "C19": [
  "proved",
  "byte level, and for every other tree at the level of scans"
 ],
 "C38": [
  "partial",
  "Proved for every Insert that does not allocate (C38_crash_partial) and for every first Insert into a tree (C38_first_partial), at every crash point: the file opens again and all keys of all trees are found. Violated by every other Insert, that is, every one that splits a leaf: there is always a crash point that loses a stored entry (C38_split_violated; a concrete one in C38_crash_violated)."
 ],
 "C26": [
  "partial",
  "roots and rejection proved for every slot; metadata round trip proved up to 254 bytes; 255 bytes are accepted and then make Metadata panic (C26_metadata_violated)"
 ],
 "C27": [
  "partial",
  "proved for metadata of at most 252 bytes; 253..255 bytes are accepted but overlap the next slot (C27_isolation_violated)"
 ],
 "C28": [
  "partial",
  "proved for every history in which metadata has at most 252 bytes, any number of slots; C28_new_slot_violated shows that longer metadata makes the next slot non-empty"
 ],
 "C29": [
  "proved",
  "every history of an index file (names of at most 236 bytes); fresh open, reopen, version/format mismatch"
 ],
 "C30": [
  "partial",
  "proved for field names of at most 236 bytes; longer names break the index file, see C31"
 ],
 "C31": [
  "partial",
  "violated: C31_long_name_violated, C31_name_248_violated; by C30_find_or_create_partial creation with names of at most 236 bytes fails only at the file size limit C31_every_long_name_violated: in every reachable index file (version 1, below the size limit) every name of 249 bytes or more fails and blocks every new field from then on, also after reopening."
 ],
 "C32": [
  "partial",
  "violated in every state: IsEmpty returns the opposite"
 ],
 "C62": [
  "proved",
  "every history of an index file"
 ],
 "C33": [
  "proved",
  "equality of the bytes of the index files, for every pair of histories (any cut points, any reopenings) of the same data; the lines are objects whose fields the index supports (Spec.FieldOK), as in C34 and C36; C33_program says it for runs of the program"
 ],
 "C34": [
  "proved",
  "byte equality, for every history (C34_noop) and after a successful call in any state (C34_again)"
 ],
 "C35": [
  "proved",
  "any state, any data file"
 ],
 "C36": [
  "proved",
  "every history; lines are objects whose fields the index supports (Spec.FieldOK: names of at most 236 bytes, searched fields are strings, no space between key and colon); success (C36_succeeds) except for duplicate n-gram positions, and for data whose index can reach 2^62 bytes, counted from the entries (jobsPages)"
 ],
 "C37": [
  "partial",
  "violated: a retry fails with 'key already exists' (C37_retry_violated); proved when the failing line is the first new one and writes nothing C37_stuck_violated: in general, a bad line after a good one (first field scalar) in one call blocks the index for ever: every later call fails, whatever comes after the good lines, also after reopening. The index file can then still be opened. C37_program_violated says the same for runs of the program."
 ],
 "C39": [
  "partial",
  "proved for non-negative finite numbers; violated for negative ones (C39_negative_violated)"
 ],
 "C40": [
  "proved",
  "JSONL handler keys: every value and every n-gram; CSV trees have width 0"
 ],
 "C41": [
  "partial",
  "proved (same contents for every history, and success for files below 2^48 bytes) for tables without quotes whose headers are distinct, whose first row is full, and if no call saw exactly the header line; violated otherwise: three concrete violations proved; C41_bytes_partial: under these conditions the bytes of the two index files are equal. For the program cmd/main.go: C41_program_partial (the bytes of the index file) and C41_program_succeeds_partial."
 ],
 "C42": [
  "partial",
  "proved for rows without quotes (CR allowed), every history; violated for quoted fields (C42_quoted_violated)"
 ],
 "C43": [
  "partial",
  "same length for all values, same value below 2^31; violated for every value from 2^31 on (C43_varint_violated)"
 ],
 "C44": [
  "partial",
  "every well-formed node and page remainder, all numbers below 2^31, referenced values of at least two bytes; violated by every node with a number from 2^31 on (C44_large_violated)"
 ],
 "C45": [
  "partial",
  "every history with at least one index, counts below 2^31; violated by an index file without index (C45_no_index_violated)"
 ],
 "C46": [
  "partial",
  "characterised for every history: all matches or nothing, exact on one-page indexes; violated by every multi-page index with distinct values (C46_eq_violated, concrete instance C46_eq_concrete_violated)"
 ],
 "C47": [
  "partial",
  "DESC < and <= exact; ASC > and >= all or nothing, exact on one page; ASC < and <= exact on several pages; the remaining cases are violated (C47_*_violated)"
 ],
 "C48": [
  "partial",
  "violated: limit is ignored (C48_limit_violated), several conditions give the concatenation of the answers (C48_conjunction_violated, C48_concrete_violated); conditions on two fields are refused"
 ],
 "C58": [
  "partial",
  "Every builder stands for the query it was made for along every history, provided the program does not modify an array it gave to select; select keeps the caller's array by reference (C58_select_violated)."
 ],
 "C59": [
  "partial",
  "validateQuery accepts exactly the queries that meet the rules it checks (C59_validate_partial); select/orderBy without where, the second orderBy and NaN gram sizes are not checked (the _violated theorems)."
 ],
 "C61": [
  "partial",
  "A miss fetches the requested bytes and remembers them; the hit path returns one byte less, ignores further ranges and remembers failures (the _violated theorems)."
 ],
 "C49": [
  "proved",
  "For every ASCII text both tokenizers give the n-grams of the specification, in order, and the stored offsets are right; NFKD and toLowerCase are parameters with their ASCII behaviour assumed. C49_astral_violated: outside ASCII they differ. Outside of ASCII: for every phrase without surrogates the client's n-grams are those of an ASCII text in which every ECMAScript blank is a space (C49_unicode); line and paragraph separators separate words for the client only (C49_separator_violated)."
 ],
 "C50": [
  "proved",
  "Every random sequence gives a permutation, and every permutation is reached."
 ],
 "C51": [
  "proved",
  "Any history of insert and clear; scores of any totally ordered type."
 ],
 "C52": [
  "proved",
  "Every history of insertions and removals; distances as integers in the order of float32 without NaN."
 ],
 "C53": [
  "partial",
  "Reinsertion always replaces the distance; the heap stays right when the distance is unchanged, or at most three items are held, or the id is the minimum, or it is the maximum and the new distance is not below the minimum. Otherwise violated: C53_again_violated."
 ],
 "C54": [
  "partial",
  "Violated by the code: UnmarshalBinary converts the bit pattern of a component as an integer (float32(uint32)); proved: ids, pointers, children and dimension survive, components survive exactly if they are 0 or 0x4e9d3a75; 1.0 stored in a tree is found as 1065353216.0. C54_conversion_partial: the value read back is the float32 nearest to the bit pattern read as an integer, ties to even, for every component."
 ],
 "C55": [
  "partial",
  "Independence of the chunking is proved in full, and so is the content for bodies with Content-Range headers spelled so; violated for other spellings of the header, for a line break before the first part, for header values with a colon, and for a boundary in quotes (C55_quoted_violated). With repeated header lines the last one counts (C55_repeated_partial)."
 ],
 "C63": [
  "partial",
  "Proved in full for useMultipartByteRanges: false inside of the file; with multipart the bytes are right for ranges of two bytes and more; violated: one byte ranges refused, length reported as 0, error page of a 416 taken for data. A multipart answer without any part is refused (C63_noparts_partial)."
 ],
 "C64": [
  "partial",
  "Violated: wherever the body ends before the closing delimiter, the parser loops for ever; proved that with the delimiter it ends. C64_arrived_partial: the parts whose delimiters arrived are all delivered first; C64_request_violated: a range request over such a reply never ends."
 ],
 "C65": [
  "proved",
  "float32 arithmetic is a parameter with (a-b)^2 = (b-a)^2; NaN left out; the random level is an argument (>= 0)."
 ],
 "C66": [
  "partial",
  "The code violates it with more than one level (C66_degree_violated: 3 neighbours with M = 2); proved when all levels are 0."
 ],
 "C67": [
  "partial",
  "The code violates it (C67_nearest_violated: a stored vector that no search finds); proved exact as long as there are at most min(M, efConstruction) vectors, for all levels."
 ],
 "C68": [
  "partial",
  "The code violates it with two levels (C68_self_violated); proved when all levels are 0."
 ],
 "C69": [
  "partial",
  "The code violates it: C69_dimension_violated (too many components panic in every graph), C69_short_violated (too few give an answer with wrong distances)."
 ],
 "C70": [
  "partial",
  "Order, length and freedom of failure proved (C70_flush_partial); reading back is violated: empty slots equal (level 0, id 0) (C70_readback_violated)."
 ],
 "C71": [
  "partial",
  "The code violates it (C71_level_violated: overwritten by lower levels); proved when all levels are 0."
 ],
 "C72": [
  "partial",
  "For dimensions up to 500 and every history: ids, data pointers and misses are exact (C72_find_partial, C72_distinct); vectors come back converted, and unchanged iff all components are 0 or 0x4e9d3a75 (C72_unchanged_iff_partial, C72_violated)."
 ],
 "C73": [
  "partial",
  "Proved for dimensions up to 500 (C73_insert_partial). Violated: for dimensions 511 to 1000 the third insertion panics in every history (C73_third_panics, C73_violated with dimension 768). Dimensions 501 to 510 depend on the sizes of the ids and are not covered."
 ],
 "C60": [
  "partial",
  "For dimensions up to 500 and room in both files: AddNode always puts the vector into the graph and the vector tree, and succeeds iff no earlier call stored the same 40 byte buffer (C60_add_partial). Violated for every arithmetic with the order of distances given (C60_violated, e.g. vectors 100, 110, 80, 104)."
 ],
 "C74": [
  "partial",
  "Every vector but the first is found under its id, with converted components (C74_lookup_partial); the first vector is never in the vector tree, in every history (C74_first_missing, C74_violated)."
 ],
 "C75": [
  "partial",
  "Offsets and lengths count characters of the NFKD normal form (C75_runes_partial, all texts), so they designate bytes only when that form is ASCII; the text `\u65e5a` is a counterexample to the byte reading (C75_violated). C75_words: the n-grams themselves are those of the ASCII characters of the normal form. Every text that reaches the splitter is valid UTF-8, whatever the bytes of the line (C75_decoded_partial)."
 ],
 "C76": [
  "partial",
  "Exact when the n-gram indexes used have entries and fit a page each (C76_found_partial; larger trees inherit the client's bug of C46); sound for any size (C76_sound_partial). Violated: a used n-gram length without entries makes the whole search throw 'empty node' (C76_empty_violated, concrete file C76_violated). ASCII phrases; toLowerCase only constrained on ASCII. The bytes that are looked up for an n-gram are its UTF-8, with U+FFFD for lone surrogates (C76_encode_partial). Also for files of JSON texts (C76_json_partial, C76_json_sound_partial): that the decoded texts are valid UTF-8 is then proved (C75_decoded_partial), not assumed."
 ],
 "C77": [
  "partial",
  "Violated: one row per n-gram of the phrase and occurrence (C77_multiplicity_partial gives the exact multiset, C77_violated), because tfMap is keyed by object identity. From the JSON text of the file: C77_json_partial, C77_json_violated."
 ],
 "C78": [
  "partial",
  "Sorted for comparable scores (C78_sorted_partial). Violated: the term-frequency map is never reset, so the n-gram looked up first counts more; two shuffles of the same search give different scores (C78_order_violated, concrete file C78_violated). From the JSON text of the file: C78_json_partial."
 ],
 "C79": [
  "partial",
  "Numbers if, for each length, the hits do not exceed the number of lines (C79_number_partial); otherwise all rows of that length have NaN (C79_violated). Exact arithmetic with NaN and an arbitrary logarithm, no rounding. From the JSON text of the file: C79_json_partial, C79_json_violated."
 ],
 "C80": [
  "partial",
  "Succeeds, without exception, on files below 2^44 bytes if each searched text has at most as many characters in decomposed form as bytes in the file (C80_accepts_partial: the index file stays below 2^62 bytes by C104, so it can grow). Violated otherwise: an n-gram's key is the start of the value plus the character position in the decomposed text, which can run into the next line; two n-grams of equal text and position collide and the file can never be indexed (C80_twice_violated, concrete file C80_violated). For the program cmd/main.go: C80_program_partial."
 ],
 "C81": [
  "partial",
  "Holds if there is no white space between a key and its colon (C81_same_partial). Violated otherwise: the data pointer starts right after the key, so `{\"a\" :\"x\"}` is stored as the empty value and looking up x finds nothing (C81_violated)."
 ],
 "C82": [
  "partial",
  "from the JSON text of the file to the rows of the client, for < and <= (DESC, and ASC on several pages), == and ASC > >= on one page; the other cases are violated (C46, C47)"
 ],
 "C83": [
  "proved",
  ""
 ],
 "C84": [
  "partial",
  "violated: TypeError for every file that has the field with other kinds of values only (C84_violated, C84_concrete_violated); proved: no rows are returned"
 ],
 "C85": [
  "partial",
  "exact for names that are not properties of Object.prototype; violated for toString etc., for __proto__ and for dotted names of nested fields (C85_*_violated)"
 ],
 "C86": [
  "proved",
  "encoding/csv reading one line without line breaks inside, as the handler uses it"
 ],
 "C87": [
  "partial",
  "Violated in every state: Synchronize panics (slice bounds); the index file is unchanged (proved)."
 ],
 "C88": [
  "proved",
  "For every session of calls made one after the other; a query fails in the same way up to the text of the error."
 ],
 "C89": [
  "partial",
  "Violated: a client whose first request failed never answers again (C89_first_violated); a failed fields() is kept for ever (C89_fields_violated). After the first successful fields() failures leave no trace (C89_after_success_partial)."
 ],
 "C90": [
  "partial",
  "Violated: the file metadata and the set of fields are frozen at first use, and so is the root pointer of an index on the first meta page: once an insert has moved that root, the client never sees the last entries of the index again, not even those it could see before (C90_split_violated). Holds for queries when the first meta page has not changed and the field was known."
 ],
 "C91": [
  "partial",
  "Violated for every index file with at least two indexes: two calls in lock step repeat types (C91_duplicate_violated), and a call that starts after one slot has been found returns only that one (C91_missing_violated). In every schedule the names and types are right up to repetition for calls that look for the slots themselves or start after all have been found (C91_concurrent_partial)."
 ],
 "C92": [
  "partial",
  "Proved: for text columns the client reads exactly the rows that meet the condition, in the cases of Exact (C92_text_partial), and so for the empty cells of any column (C92_null_partial; no row shorter than two bytes). Violated: every row is parsed as JSON, so that a query with a match throws (C92_rows_violated, all files with rows of two fields or more); numbers and booleans are not found at all, because the trees hold no values and the metadata say they do (C92_number_violated, all one-row files)."
 ],
 "C93": [
  "partial",
  "Violated for every history: whenever new lines of which the first begins with a scalar value are synchronized, there is a crash point after each of them from which no later Synchronize recovers (C93_crash_violated). Proved: a crash before the first or after the last write is harmless (C93_crash_partial)."
 ],
 "C94": [
  "partial",
  "Violated. Creating a file takes five writes; a crash after exactly three leaves a file that no call can open again (C94_file_violated, for every format and search headers), and after any other number the file opens and has the bytes of an uncrashed creation (C94_file_partial). Whenever FindOrCreateIndex creates an index there is a crash point between the new slot and its metadata after which no new field can ever be indexed and the field names cannot be listed (C94_field_violated); it is the only one: it comes after exactly one write, or three when a new meta page is needed; after fewer writes the file opens, shows what it showed, and the same call made again succeeds, after more the call had returned (C94_field_partial, for names of at most 236 bytes). Through Synchronize, when the first new line begins with a field that no line had before: after a crash at that point every later Synchronize fails (C94_sync_violated). Missing: the other crash points of a whole Synchronize."
 ],
 "C95": [
  "partial",
  "Violated for every history: a line indexed by a run without the header h has no entry in any n-gram index of h (C95_old_lines_violated), and a further run with whatever headers and no new line changes no byte (C95_again_violated). Proved: the index holds for every line exactly what its fields add with the headers of the run that indexed it (C95_headers_partial)."
 ],
 "C96": [
  "partial",
  "The offset is proved for every successful call in every state. The number of entries is violated for every successful call with new lines: it never changes (C96_entries_violated)."
 ],
 "C97": [
  "partial",
  "Violated in every state: Synchronize fails whenever one of the new complete lines is blank (C97_blank_violated). Nothing else is to be proved: without blank lines C41 applies."
 ],
 "C98": [
  "partial",
  "Violated for every declared field type (C98_types_violated). Proved for all but strings: the right type is among the alternatives named (C98_covers_partial). The answer for every declared type: C98_answers_violated."
 ],
 "C99": [
  "partial",
  "Violated: C99_stuck_violated (after a call that indexed at least one row and failed at a line that is no CSV record (blank, or with misplaced quotes), no later call on any data file with the same good rows succeeds, however often and even after reopening; after a failed first call the header line is also indexed as a row). C41 covers the runs without failures."
 ],
 "C100": [
  "partial",
  "C100_geometric_partial, C100_level_partial: for M of at least 2 and every draw strictly between 0 and 1, in exact arithmetic (no rounding of the logarithms). Violated for a draw of 0 (C100_zero_violated) and, whatever is drawn, for M = 1 (C100_one_violated): every InsertVector panics."
 ],
 "C101": [
  "proved",
  "C101_balanced (all ways down have one length, at most 1 + log2 n) and C101_search (the way a search takes). Hypotheses met by a tree with two leaves. C101_fanout and C101_index_depth: a tree of depth d has at least 2 m (m+1)^(d-2) entries, m half of the keys that fit on a page (53 for floats)."
 ],
 "C102": [
  "proved",
  "C102_insert_writes: with a budget of 4 (log2 n + 2) writes Insert returns and leaves the same bytes as without a limit."
 ],
 "C103": [
  "proved",
  "C103_size. Hypotheses met by an index of 171 floats on several pages (Props/SizeWitness)."
 ],
 "C104": [
  "partial",
  "C104_jsonl_size for every history; in terms of the data file, at most 20480 bytes of index per byte (C104_per_byte, texts as in C80); C104_csv_size_partial and C104_csv_per_byte_partial (8192 bytes per byte) for tables without quotes of which no call saw the header line alone."
 ],
 "C105": [
  "proved",
  "For every state: C105_lookups, C105_position, C105_invisible (histories of 24 kinds of calls), C105_repeatable."
 ],
 "C106": [
  "partial",
  "Violated: whatever the index says and whatever is asked, every returned row is the answer to a request of at least two bytes that starts before 2^31 (C106_reach_violated, C106_far_violated, C106_search_violated for text searches), and the answers do not depend on anything from 2^32 on (C106_blind_violated). Proved: in data files below 2 GB, records of at least two bytes are found (C106_near_partial; conditions < and <=, descending; the others see C46, C47)."
 ],
 "C107": [
  "partial",
  "Violated: every file of exactly 4096 bytes is accepted and extended (C107_page_violated), memory-mapped files of fewer than 4096 bytes are refused only after they have been extended by a page (C107_short_violated), and longer files whose second page begins with FF x8, 00 are taken for fresh index files (C107_mark_violated). Proved for all other files: no byte changes (C107_size_partial, C107_untouched_partial), and with a first slot in use the file is opened exactly if its metadata says version 1 and the format (C107_header)."
 ],
 "C108": [
  "partial",
  "Violated: a length byte 255 in the first slot makes NewIndexFile panic (C108_length_violated), and a root page that begins with four zeros makes Find and Insert panic (C108_node_violated). Proved: NewPageFile never panics on any file (C108_page_file); NewIndexFile does not if the first slot is in use with another length (C108_header_partial)."
 ],
 "C109": [
  "partial",
  "Violated: root() treats any error of reading the root slot as 'no root', so if the page of the slot is cut off every tree behind it looks empty, without an error (C109_root_violated, for every cut file). Proved for every history, key and cut that leaves the root slot: Find and Contains answer as in the whole file or fail (C109_find_partial); Next and Prev show all the entries, or a prefix of them and then an error (C109_iterate_partial). The list of indexes: with the first meta page left, IndexFieldNames lists the same names or fails (C109_names_partial), and FindOrCreateIndex finds an existing index or fails, and makes no second one (C109_index_partial)."
 ],
 "C110": [
  "partial",
  "C110_split_violated: whenever an insert into an index with entries allocates a page (its leaf splits), there is a moment after which a client's `<`/`<=` descending queries answer from a proper part of the entries that lacks an entry stored before. C110_oldnew_partial: an insert that allocates no page is seen as not begun or as finished, at every moment (the other operators: through `Sees` and C44-C47 on the two files). Only whole writes are interleaved; the copy of one page into the map is taken as atomic."
 ],
 "C111": [
  "partial",
  "Violated: the rows of the search are returned whatever the conditions are, and after them those of the conditions (C111_both_violated; on JSON lines files C111_lines_violated; concrete C111_violated). A query with one of the parts means that part (C111_where_partial, C111_search_partial: equal to the queries of C46, C47, C82, C92 and the searches of C76-C79, with metadata that reads without a Go-style panic of the model)."
 ],
 "C112": [
  "partial",
  "Violated by every configuration with a minGram between 1 and 3 that is not whole (C112_fraction_violated, concrete 1.5 and 2 in C112_violated). For whole minGram and any maxGram the tokens are those of the whole part of maxGram (C112_whole_partial); NaN gives no tokens (C112_nan_partial). Together these are all accepted configurations."
 ],
 "C113": [
  "partial",
  "Violated: query does not call validateQuery. Unknown operation: no rows and no exception (C113_operation_violated, every JSON lines file C113_lines_violated, concrete C113_violated); orderBy on another field is obeyed (C113_order_violated); unknown direction is DESC for > and >=, ASC for < and <= (C113_direction_violated). Refused are unknown fields, values of other types (C113_refused_partial) and ill-typed searches without NaN (C113_search_partial); value types without index throw by C84."
 ],
 "C114": [
  "proved",
  "A request is identified by the ranges it asks for: in one query the same request always fails or always succeeds. Damaged files are included."
 ],
 "C115": [
  "partial",
  "Violated when the server answers a range with the bytes it has, as HTTP servers do: the client decodes a page of 4 bytes as a full leaf of empty keys (C115_short_violated; concrete C115_concrete_violated). Proved when the server refuses ranges that go beyond its bytes (C115_refused_partial)."
 ],
 "C116": [
  "partial",
  "Proved for useMultipartByteRanges: false (C116_individual_partial) and for servers that answer several ranges with status 200 (C116_fallback_partial). Violated for useMultipartByteRanges: true: the expected lengths do not change the result (C116_ignored_violated, every server and list of ranges without status 200; C116_multipart_violated, C116_choice_violated; for multipart replies C63_total_violated). The cache drops the expected length as well, and the database client never passes one (no call in src/ sets expectedLength)."
 ]
}