{
 "claims": [
  {
   "property": "C01",
   "status": "proved",
   "theorems": [
    "Appendable.C01_sizeVarint_exact",
    "Appendable.C01_putUvarint_denotes"
   ],
   "note": "for every uint64"
  },
  {
   "property": "C02",
   "status": "proved",
   "theorems": [
    "Appendable.C02_uvarint_round_trip",
    "Appendable.C02_uvarint_prefix_free",
    "Appendable.C02_uvarint_exact"
   ],
   "note": "for every uint64 and every following bytes"
  },
  {
   "property": "C03",
   "status": "proved",
   "theorems": [
    "Appendable.C03_marshal_size",
    "Appendable.C03_size_formula"
   ],
   "note": "every node with 1..2^32-1 keys; node_round_trip needs none of the size bound"
  },
  {
   "property": "C04",
   "status": "proved",
   "theorems": [
    "Appendable.C04_node_round_trip",
    "Appendable.C04_leaf_flag"
   ],
   "note": "every well-formed node, width, data file and page remainder"
  },
  {
   "property": "C05",
   "status": "proved",
   "theorems": [
    "Appendable.C05_file_meta_round_trip",
    "Appendable.C05_file_meta_rejects"
   ],
   "note": "both formats; rejection of short buffers and unknown formats"
  },
  {
   "property": "C06",
   "status": "partial",
   "theorems": [
    "Appendable.C06_index_meta_round_trip",
    "Appendable.C06_unmarshal_panics_iff",
    "Appendable.C06_unmarshal_can_panic_violated",
    "Appendable.C06_no_panic_partial"
   ],
   "note": "round trip proved; 'never panics' is violated (C06_unmarshal_can_panic_violated) and the exact set of panicking buffers is characterised"
  },
  {
   "property": "C07",
   "status": "proved",
   "theorems": [
    "Appendable.C07_compare_is_lexicographic",
    "Appendable.C07_strict_total_order",
    "Appendable.C07_compare_transitive"
   ],
   "note": "Go and TypeScript comparison"
  },
  {
   "property": "C08",
   "status": "proved",
   "theorems": [
    "Appendable.C08_binary_search_lower_bound",
    "Appendable.C08_binary_search_partition"
   ],
   "note": "Go and TypeScript search, every sorted key list"
  },
  {
   "property": "C09",
   "status": "proved",
   "theorems": [
    "Appendable.C09_sorted_map",
    "Appendable.C09_scan_unique"
   ],
   "note": "every history of several trees in one page file: inserts, rejected inserts, look-ups, page allocations, data growth, reopening; any number of splits at any level"
  },
  {
   "property": "C10",
   "status": "proved",
   "theorems": [
    "Appendable.C10_duplicate",
    "Appendable.C10_keys_distinct"
   ],
   "note": "all histories"
  },
  {
   "property": "C100",
   "status": "partial",
   "theorems": [
    "Appendable.C100_geometric_partial",
    "Appendable.C100_one_violated",
    "Appendable.C100_zero_violated",
    "Appendable.C100_level_partial"
   ],
   "note": "C100_geometric_partial, C100_level_partial: for M of at least 2 and every draw strictly between 0 and 1, in exact arithmetic (no rounding of the logarithms). Violated for a draw of 0 (C100_zero_violated) and, whatever is drawn, for M = 1 (C100_one_violated): every InsertVector panics."
  },
  {
   "property": "C101",
   "status": "proved",
   "theorems": [
    "Appendable.C101_balanced",
    "Appendable.C101_fanout",
    "Appendable.C101_search",
    "Appendable.C101_index_depth"
   ],
   "note": "C101_balanced (all ways down have one length, at most 1 + log2 n) and C101_search (the way a search takes). Hypotheses met by a tree with two leaves. C101_fanout and C101_index_depth: a tree of depth d has at least 2 m (m+1)^(d-2) entries, m half of the keys that fit on a page (53 for floats)."
  },
  {
   "property": "C102",
   "status": "proved",
   "theorems": [
    "Appendable.C102_insert_writes"
   ],
   "note": "C102_insert_writes: with a budget of 4 (log2 n + 2) writes Insert returns and leaves the same bytes as without a limit."
  },
  {
   "property": "C103",
   "status": "proved",
   "theorems": [
    "Appendable.C103_size"
   ],
   "note": "C103_size. Hypotheses met by an index of 171 floats on several pages (Props/SizeWitness)."
  },
  {
   "property": "C104",
   "status": "partial",
   "theorems": [
    "Appendable.C104_per_byte",
    "Appendable.C104_json",
    "Appendable.C104_jsonl_size",
    "Appendable.C104_csv_size_partial",
    "Appendable.C104_csv_per_byte_partial"
   ],
   "note": "C104_jsonl_size for every history; in terms of the data file, at most 20480 bytes of index per byte (C104_per_byte, texts as in C80); C104_csv_size_partial and C104_csv_per_byte_partial (8192 bytes per byte) for tables without quotes of which no call saw the header line alone."
  },
  {
   "property": "C105",
   "status": "proved",
   "theorems": [
    "Appendable.C105_lookups",
    "Appendable.C105_position",
    "Appendable.C105_invisible",
    "Appendable.C105_repeatable"
   ],
   "note": "For every state: C105_lookups, C105_position, C105_invisible (histories of 24 kinds of calls), C105_repeatable."
  },
  {
   "property": "C106",
   "status": "partial",
   "theorems": [
    "Appendable.C106_reach_violated",
    "Appendable.C106_far_violated",
    "Appendable.C106_search_violated",
    "Appendable.C106_blind_violated",
    "Appendable.C106_near_partial"
   ],
   "note": "Violated: whatever the index says and whatever is asked, every returned row is the answer to a request of at least two bytes that starts before 2^31 (C106_reach_violated, C106_far_violated, C106_search_violated for text searches), and the answers do not depend on anything from 2^32 on (C106_blind_violated). Proved: in data files below 2 GB, records of at least two bytes are found (C106_near_partial; conditions < and <=, descending; the others see C46, C47)."
  },
  {
   "property": "C107",
   "status": "partial",
   "theorems": [
    "Appendable.C107_size_partial",
    "Appendable.C107_short_violated",
    "Appendable.C107_untouched_partial",
    "Appendable.C107_page_violated",
    "Appendable.C107_mark_violated",
    "Appendable.C107_header"
   ],
   "note": "Violated: every file of exactly 4096 bytes is accepted and extended (C107_page_violated), memory-mapped files of fewer than 4096 bytes are refused only after they have been extended by a page (C107_short_violated), and longer files whose second page begins with FF x8, 00 are taken for fresh index files (C107_mark_violated). Proved for all other files: no byte changes (C107_size_partial, C107_untouched_partial), and with a first slot in use the file is opened exactly if its metadata says version 1 and the format (C107_header)."
  },
  {
   "property": "C108",
   "status": "partial",
   "theorems": [
    "Appendable.C108_page_file",
    "Appendable.C108_header_partial",
    "Appendable.C108_length_violated",
    "Appendable.C108_node_violated"
   ],
   "note": "Violated: a length byte 255 in the first slot makes NewIndexFile panic (C108_length_violated), and a root page that begins with four zeros makes Find and Insert panic (C108_node_violated). Proved: NewPageFile never panics on any file (C108_page_file); NewIndexFile does not if the first slot is in use with another length (C108_header_partial)."
  },
  {
   "property": "C109",
   "status": "partial",
   "theorems": [
    "Appendable.C109_find_partial",
    "Appendable.C109_iterate_partial",
    "Appendable.C109_root_violated",
    "Appendable.C109_names_partial",
    "Appendable.C109_index_partial"
   ],
   "note": "Violated: root() treats any error of reading the root slot as 'no root', so if the page of the slot is cut off every tree behind it looks empty, without an error (C109_root_violated, for every cut file). Proved for every history, key and cut that leaves the root slot: Find and Contains answer as in the whole file or fail (C109_find_partial); Next and Prev show all the entries, or a prefix of them and then an error (C109_iterate_partial). The list of indexes: with the first meta page left, IndexFieldNames lists the same names or fails (C109_names_partial), and FindOrCreateIndex finds an existing index or fails, and makes no second one (C109_index_partial)."
  },
  {
   "property": "C11",
   "status": "partial",
   "theorems": [
    "Appendable.C11_width_partial",
    "Appendable.C11_width_violated"
   ],
   "note": "proved for keys below 65536 bytes in any state; violated beyond (16 bit truncation): C11_width_violated"
  },
  {
   "property": "C110",
   "status": "partial",
   "theorems": [
    "Appendable.C110_split_violated",
    "Appendable.C110_oldnew_partial"
   ],
   "note": "C110_split_violated: whenever an insert into an index with entries allocates a page (its leaf splits), there is a moment after which a client's `<`/`<=` descending queries answer from a proper part of the entries that lacks an entry stored before. C110_oldnew_partial: an insert that allocates no page is seen as not begun or as finished, at every moment (the other operators: through `Sees` and C44-C47 on the two files). Only whole writes are interleaved; the copy of one page into the map is taken as atomic."
  },
  {
   "property": "C111",
   "status": "partial",
   "theorems": [
    "Appendable.C111_where_partial",
    "Appendable.C111_search_partial",
    "Appendable.C111_both_violated",
    "Appendable.C111_lines_violated",
    "Appendable.C111_violated"
   ],
   "note": "Violated: the rows of the search are returned whatever the conditions are, and after them those of the conditions (C111_both_violated; on JSON lines files C111_lines_violated; concrete C111_violated). A query with one of the parts means that part (C111_where_partial, C111_search_partial: equal to the queries of C46, C47, C82, C92 and the searches of C76-C79, with metadata that reads without a Go-style panic of the model)."
  },
  {
   "property": "C112",
   "status": "partial",
   "theorems": [
    "Appendable.C112_whole_partial",
    "Appendable.C112_fraction_violated",
    "Appendable.C112_nan_partial",
    "Appendable.C112_violated"
   ],
   "note": "Violated by every configuration with a minGram between 1 and 3 that is not whole (C112_fraction_violated, concrete 1.5 and 2 in C112_violated). For whole minGram and any maxGram the tokens are those of the whole part of maxGram (C112_whole_partial); NaN gives no tokens (C112_nan_partial). Together these are all accepted configurations."
  },
  {
   "property": "C113",
   "status": "partial",
   "theorems": [
    "Appendable.C113_operation_violated",
    "Appendable.C113_order_violated",
    "Appendable.C113_direction_violated",
    "Appendable.C113_refused_partial",
    "Appendable.C113_search_partial",
    "Appendable.C113_lines_violated",
    "Appendable.C113_violated"
   ],
   "note": "Violated: query does not call validateQuery. Unknown operation: no rows and no exception (C113_operation_violated, every JSON lines file C113_lines_violated, concrete C113_violated); orderBy on another field is obeyed (C113_order_violated); unknown direction is DESC for > and >=, ASC for < and <= (C113_direction_violated). Refused are unknown fields, values of other types (C113_refused_partial) and ill-typed searches without NaN (C113_search_partial); value types without index throw by C84."
  },
  {
   "property": "C114",
   "status": "proved",
   "theorems": [
    "Appendable.C114_fields",
    "Appendable.C114_query",
    "Appendable.C114_ask"
   ],
   "note": "A request is identified by the ranges it asks for: in one query the same request always fails or always succeeds. Damaged files are included."
  },
  {
   "property": "C115",
   "status": "partial",
   "theorems": [
    "Appendable.C115_refused_partial",
    "Appendable.C115_short_violated",
    "Appendable.C115_concrete_violated"
   ],
   "note": "Violated when the server answers a range with the bytes it has, as HTTP servers do: the client decodes a page of 4 bytes as a full leaf of empty keys (C115_short_violated; concrete C115_concrete_violated). Proved when the server refuses ranges that go beyond its bytes (C115_refused_partial)."
  },
  {
   "property": "C116",
   "status": "partial",
   "theorems": [
    "Appendable.C116_individual_partial",
    "Appendable.C116_multipart_violated",
    "Appendable.C116_choice_violated",
    "Appendable.C116_ignored_violated",
    "Appendable.C116_fallback_partial"
   ],
   "note": "Proved for useMultipartByteRanges: false (C116_individual_partial) and for servers that answer several ranges with status 200 (C116_fallback_partial). Violated for useMultipartByteRanges: true: the expected lengths do not change the result (C116_ignored_violated, every server and list of ranges without status 200; C116_multipart_violated, C116_choice_violated; for multipart replies C63_total_violated). The cache drops the expected length as well, and the database client never passes one (no call in src/ sets expectedLength)."
  },
  {
   "property": "C12",
   "status": "proved",
   "theorems": [
    "Appendable.C12_find_stored"
   ],
   "note": "all histories"
  },
  {
   "property": "C13",
   "status": "partial",
   "theorems": [
    "Appendable.C13_every_big_violated",
    "Appendable.C13_find_partial",
    "Appendable.C13_find_one_page_partial",
    "Appendable.C13_find_violated"
   ],
   "note": "soundness, and completeness for stored targets and targets below all keys; the full statement is violated: C13_find_violated; exact on one-page indexes (C13_find_one_page_partial); in every index of more than one page there is an entry that Find misses for every key between its predecessors and it (C13_every_big_violated)"
  },
  {
   "property": "C14",
   "status": "partial",
   "theorems": [
    "Appendable.C14_every_big_violated",
    "Appendable.C14_contains_partial",
    "Appendable.C14_contains_one_page_partial",
    "Appendable.C14_contains_violated",
    "Appendable.C14_contains_empty_violated"
   ],
   "note": "soundness for non-empty values and completeness for exact keys; violated in general: C14_contains_violated, C14_contains_empty_violated; exact for nonempty values on one-page indexes (C14_contains_one_page_partial); in every index of more than one page with distinct values there is a stored value that Contains denies (C14_every_big_violated)"
  },
  {
   "property": "C15",
   "status": "proved",
   "theorems": [
    "Appendable.C15_forward_one_page",
    "Appendable.C15_forward"
   ],
   "note": "all histories"
  },
  {
   "property": "C16",
   "status": "proved",
   "theorems": [
    "Appendable.C16_backward"
   ],
   "note": "all histories, any starting key"
  },
  {
   "property": "C17",
   "status": "partial",
   "theorems": [
    "Appendable.C17_direction_partial",
    "Appendable.C17_direction_violated"
   ],
   "note": "any mixture of Next and Prev that stays on entries; running off the end and back is violated: C17_direction_violated"
  },
  {
   "property": "C18",
   "status": "proved",
   "theorems": [
    "Appendable.C18_insert_total",
    "Appendable.C18_no_panic"
   ],
   "note": "widths up to 2017 (the product uses 0, 1, 2, 9), all histories"
  },
  {
   "property": "C19",
   "status": "proved",
   "theorems": [
    "Appendable.C19_insert_frame",
    "Appendable.C19_other_trees"
   ],
   "note": "byte level, and for every other tree at the level of scans"
  },
  {
   "property": "C20",
   "status": "proved",
   "theorems": [
    "Appendable.C20_new_page",
    "Appendable.C20_new_page_succeeds"
   ],
   "note": "all histories of open/reopen/NewPage/FreePage incl. failed calls, both backends"
  },
  {
   "property": "C21",
   "status": "proved",
   "theorems": [
    "Appendable.C21_never_twice",
    "Appendable.C21_owned_distinct"
   ],
   "note": "all histories"
  },
  {
   "property": "C22",
   "status": "proved",
   "theorems": [
    "Appendable.C22_reopen",
    "Appendable.C22_reopen_allocations"
   ],
   "note": "all histories, all continuations"
  },
  {
   "property": "C23",
   "status": "proved",
   "theorems": [
    "Appendable.C23_bad_frees",
    "Appendable.C23_good_frees"
   ],
   "note": "all histories"
  },
  {
   "property": "C24",
   "status": "partial",
   "theorems": [
    "Appendable.C24_new_page_no_panic",
    "Appendable.C24_free_page_no_panic_partial",
    "Appendable.C24_free_page_violated"
   ],
   "note": "NewPage never panics; FreePage never panics while <512 frees since open; violated afterwards (C24_free_page_violated)"
  },
  {
   "property": "C25",
   "status": "partial",
   "theorems": [
    "Appendable.C25_page_count_partial",
    "Appendable.C25_index_page_count_violated"
   ],
   "note": "holds for histories of the allocator API; opening an index on an empty file breaks it (C25_index_page_count_violated)"
  },
  {
   "property": "C26",
   "status": "partial",
   "theorems": [
    "Appendable.C26_root_round_trip",
    "Appendable.C26_metadata_round_trip_partial",
    "Appendable.C26_metadata_violated",
    "Appendable.C26_metadata_reject"
   ],
   "note": "roots and rejection proved for every slot; metadata round trip proved up to 254 bytes; 255 bytes are accepted and then make Metadata panic (C26_metadata_violated)"
  },
  {
   "property": "C27",
   "status": "partial",
   "theorems": [
    "Appendable.C27_set_root_isolated_partial",
    "Appendable.C27_set_metadata_isolated_partial",
    "Appendable.C27_isolation_violated"
   ],
   "note": "proved for metadata of at most 252 bytes; 253..255 bytes are accepted but overlap the next slot (C27_isolation_violated)"
  },
  {
   "property": "C28",
   "status": "partial",
   "theorems": [
    "Appendable.C28_collect_partial",
    "Appendable.C28_add_next_partial",
    "Appendable.C28_add_inside_partial",
    "Appendable.C28_new_slot_violated"
   ],
   "note": "proved for every history in which metadata has at most 252 bytes, any number of slots; C28_new_slot_violated shows that longer metadata makes the next slot non-empty"
  },
  {
   "property": "C29",
   "status": "proved",
   "theorems": [
    "Appendable.C29_open_fresh",
    "Appendable.C29_reopen",
    "Appendable.C29_mismatch"
   ],
   "note": "every history of an index file (names of at most 236 bytes); fresh open, reopen, version/format mismatch"
  },
  {
   "property": "C30",
   "status": "partial",
   "theorems": [
    "Appendable.C30_state",
    "Appendable.C30_find_or_create_partial",
    "Appendable.C30_width"
   ],
   "note": "proved for field names of at most 236 bytes; longer names break the index file, see C31"
  },
  {
   "property": "C31",
   "status": "partial",
   "theorems": [
    "Appendable.C31_long_name_violated",
    "Appendable.C31_name_248_violated",
    "Appendable.C31_every_long_name_violated"
   ],
   "note": "violated: C31_long_name_violated, C31_name_248_violated; by C30_find_or_create_partial creation with names of at most 236 bytes fails only at the file size limit C31_every_long_name_violated: in every reachable index file (version 1, below the size limit) every name of 249 bytes or more fails and blocks every new field from then on, also after reopening."
  },
  {
   "property": "C32",
   "status": "partial",
   "theorems": [
    "Appendable.C32_is_empty_violated"
   ],
   "note": "violated in every state: IsEmpty returns the opposite"
  },
  {
   "property": "C33",
   "status": "proved",
   "theorems": [
    "Appendable.C33_program",
    "Appendable.C33_same_answers",
    "Appendable.C33_incremental"
   ],
   "note": "equality of the bytes of the index files, for every pair of histories (any cut points, any reopenings) of the same data; the lines are objects whose fields the index supports (Spec.FieldOK), as in C34 and C36; C33_program says it for runs of the program"
  },
  {
   "property": "C34",
   "status": "proved",
   "theorems": [
    "Appendable.C34_again",
    "Appendable.C34_noop"
   ],
   "note": "byte equality, for every history (C34_noop) and after a successful call in any state (C34_again)"
  },
  {
   "property": "C35",
   "status": "proved",
   "theorems": [
    "Appendable.C35_complete_lines"
   ],
   "note": "any state, any data file"
  },
  {
   "property": "C36",
   "status": "proved",
   "theorems": [
    "Appendable.C36_fields_indexed",
    "Appendable.C36_succeeds",
    "Appendable.C36_json"
   ],
   "note": "every history; lines are objects whose fields the index supports (Spec.FieldOK: names of at most 236 bytes, searched fields are strings, no space between key and colon); success (C36_succeeds) except for duplicate n-gram positions, and for data whose index can reach 2^62 bytes, counted from the entries (jobsPages)"
  },
  {
   "property": "C37",
   "status": "partial",
   "theorems": [
    "Appendable.C37_program_violated",
    "Appendable.C37_retry_violated",
    "Appendable.C37_first_line_partial",
    "Appendable.C37_stuck_violated"
   ],
   "note": "violated: a retry fails with 'key already exists' (C37_retry_violated); proved when the failing line is the first new one and writes nothing C37_stuck_violated: in general, a bad line after a good one (first field scalar) in one call blocks the index for ever: every later call fails, whatever comes after the good lines, also after reopening. The index file can then still be opened. C37_program_violated says the same for runs of the program."
  },
  {
   "property": "C38",
   "status": "partial",
   "theorems": [
    "Appendable.C38_crash_partial",
    "Appendable.C38_first_partial",
    "Appendable.C38_split_violated",
    "Appendable.C38_crash_violated"
   ],
   "note": "Proved for every Insert that does not allocate (C38_crash_partial) and for every first Insert into a tree (C38_first_partial), at every crash point: the file opens again and all keys of all trees are found. Violated by every other Insert, that is, every one that splits a leaf: there is always a crash point that loses a stored entry (C38_split_violated; a concrete one in C38_crash_violated)."
  },
  {
   "property": "C39",
   "status": "partial",
   "theorems": [
    "Appendable.C39_nonnegative_partial",
    "Appendable.C39_negative_violated"
   ],
   "note": "proved for non-negative finite numbers; violated for negative ones (C39_negative_violated)"
  },
  {
   "property": "C40",
   "status": "proved",
   "theorems": [
    "Appendable.C40_jsonl_widths",
    "Appendable.C40_insert_accepts"
   ],
   "note": "JSONL handler keys: every value and every n-gram; CSV trees have width 0"
  },
  {
   "property": "C41",
   "status": "partial",
   "theorems": [
    "Appendable.C41_program_partial",
    "Appendable.C41_program_succeeds_partial",
    "Appendable.C41_rows_indexed_partial",
    "Appendable.C41_incremental_partial",
    "Appendable.C41_succeeds_partial",
    "Appendable.C41_header_alone_violated",
    "Appendable.C41_short_row_violated",
    "Appendable.C41_repeated_header_violated",
    "Appendable.C41_bytes_partial"
   ],
   "note": "proved (same contents for every history, and success for files below 2^48 bytes) for tables without quotes whose headers are distinct, whose first row is full, and if no call saw exactly the header line; violated otherwise: three concrete violations proved; C41_bytes_partial: under these conditions the bytes of the two index files are equal. For the program cmd/main.go: C41_program_partial (the bytes of the index file) and C41_program_succeeds_partial."
  },
  {
   "property": "C42",
   "status": "partial",
   "theorems": [
    "Appendable.C42_pointers_partial",
    "Appendable.C42_quoted_violated"
   ],
   "note": "proved for rows without quotes (CR allowed), every history; violated for quoted fields (C42_quoted_violated)"
  },
  {
   "property": "C43",
   "status": "partial",
   "theorems": [
    "Appendable.C43_varint_partial",
    "Appendable.C43_varint_violated"
   ],
   "note": "same length for all values, same value below 2^31; violated for every value from 2^31 on (C43_varint_violated)"
  },
  {
   "property": "C44",
   "status": "partial",
   "theorems": [
    "Appendable.C44_large_violated",
    "Appendable.C44_node_partial"
   ],
   "note": "every well-formed node and page remainder, all numbers below 2^31, referenced values of at least two bytes; violated by every node with a number from 2^31 on (C44_large_violated)"
  },
  {
   "property": "C45",
   "status": "partial",
   "theorems": [
    "Appendable.C45_metadata_partial",
    "Appendable.C45_no_index_violated"
   ],
   "note": "every history with at least one index, counts below 2^31; violated by an index file without index (C45_no_index_violated)"
  },
  {
   "property": "C46",
   "status": "partial",
   "theorems": [
    "Appendable.C46_eq_partial",
    "Appendable.C46_eq_one_page_partial",
    "Appendable.C46_eq_violated",
    "Appendable.C46_eq_concrete_violated"
   ],
   "note": "characterised for every history: all matches or nothing, exact on one-page indexes; violated by every multi-page index with distinct values (C46_eq_violated, concrete instance C46_eq_concrete_violated)"
  },
  {
   "property": "C47",
   "status": "partial",
   "theorems": [
    "Appendable.C47_below_desc_partial",
    "Appendable.C47_ge_asc_partial",
    "Appendable.C47_gt_asc_partial",
    "Appendable.C47_above_asc_one_page_partial",
    "Appendable.C47_below_asc_partial",
    "Appendable.C47_order_partial",
    "Appendable.C47_ge_violated",
    "Appendable.C47_above_desc_violated",
    "Appendable.C47_below_asc_violated",
    "Appendable.C47_below_asc_concrete_violated"
   ],
   "note": "DESC < and <= exact; ASC > and >= all or nothing, exact on one page; ASC < and <= exact on several pages; the remaining cases are violated (C47_*_violated)"
  },
  {
   "property": "C48",
   "status": "partial",
   "theorems": [
    "Appendable.C48_limit_violated",
    "Appendable.C48_two_fields_refused",
    "Appendable.C48_conjunction_violated",
    "Appendable.C48_rows_violated",
    "Appendable.C48_concrete_violated"
   ],
   "note": "violated: limit is ignored (C48_limit_violated), several conditions give the concatenation of the answers (C48_conjunction_violated, C48_concrete_violated); conditions on two fields are refused"
  },
  {
   "property": "C49",
   "status": "proved",
   "theorems": [
    "Appendable.C49_tokens",
    "Appendable.C49_refused",
    "Appendable.C49_offsets",
    "Appendable.C49_astral_violated",
    "Appendable.C49_unicode",
    "Appendable.C49_separator_violated"
   ],
   "note": "For every ASCII text both tokenizers give the n-grams of the specification, in order, and the stored offsets are right; NFKD and toLowerCase are parameters with their ASCII behaviour assumed. C49_astral_violated: outside ASCII they differ. Outside of ASCII: for every phrase without surrogates the client's n-grams are those of an ASCII text in which every ECMAScript blank is a space (C49_unicode); line and paragraph separators separate words for the client only (C49_separator_violated)."
  },
  {
   "property": "C50",
   "status": "proved",
   "theorems": [
    "Appendable.C50_shuffle",
    "Appendable.C50_every_order"
   ],
   "note": "Every random sequence gives a permutation, and every permutation is reached."
  },
  {
   "property": "C51",
   "status": "proved",
   "theorems": [
    "Appendable.C51_top"
   ],
   "note": "Any history of insert and clear; scores of any totally ordered type."
  },
  {
   "property": "C52",
   "status": "proved",
   "theorems": [
    "Appendable.C52_extremes"
   ],
   "note": "Every history of insertions and removals; distances as integers in the order of float32 without NaN."
  },
  {
   "property": "C53",
   "status": "partial",
   "theorems": [
    "Appendable.C53_again_partial",
    "Appendable.C53_again_violated"
   ],
   "note": "Reinsertion always replaces the distance; the heap stays right when the distance is unchanged, or at most three items are held, or the id is the minimum, or it is the maximum and the new distance is not below the minimum. Otherwise violated: C53_again_violated."
  },
  {
   "property": "C54",
   "status": "partial",
   "theorems": [
    "Appendable.C54_conversion_partial",
    "Appendable.C54_node_partial",
    "Appendable.C54_kept_iff_partial",
    "Appendable.C54_first_partial",
    "Appendable.C54_violated"
   ],
   "note": "Violated by the code: UnmarshalBinary converts the bit pattern of a component as an integer (float32(uint32)); proved: ids, pointers, children and dimension survive, components survive exactly if they are 0 or 0x4e9d3a75; 1.0 stored in a tree is found as 1065353216.0. C54_conversion_partial: the value read back is the float32 nearest to the bit pattern read as an integer, ties to even, for every component."
  },
  {
   "property": "C55",
   "status": "partial",
   "theorems": [
    "Appendable.C55_repeated_partial",
    "Appendable.C55_chunking",
    "Appendable.C55_parts_partial",
    "Appendable.C55_data_partial",
    "Appendable.C55_case_violated",
    "Appendable.C55_preamble_violated",
    "Appendable.C55_quoted_violated",
    "Appendable.C55_colon_violated"
   ],
   "note": "Independence of the chunking is proved in full, and so is the content for bodies with Content-Range headers spelled so; violated for other spellings of the header, for a line break before the first part, for header values with a colon, and for a boundary in quotes (C55_quoted_violated). With repeated header lines the last one counts (C55_repeated_partial)."
  },
  {
   "property": "C56",
   "status": "partial",
   "theorems": [
    "Appendable.C56_mmap_contents",
    "Appendable.C56_mmap_count_partial",
    "Appendable.C56_mmap_growth_violated",
    "Appendable.C56_mmap_seek"
   ],
   "note": "contents, seek and in-range writes proved; growing writes report a wrong count (C56_mmap_growth_violated)"
  },
  {
   "property": "C57",
   "status": "proved",
   "theorems": [
    "Appendable.C57_buffer_write_read"
   ],
   "note": "all buffers, positions and data"
  },
  {
   "property": "C58",
   "status": "partial",
   "theorems": [
    "Appendable.C58_builder_partial",
    "Appendable.C58_where_new",
    "Appendable.C58_select_violated"
   ],
   "note": "Every builder stands for the query it was made for along every history, provided the program does not modify an array it gave to select; select keeps the caller's array by reference (C58_select_violated)."
  },
  {
   "property": "C59",
   "status": "partial",
   "theorems": [
    "Appendable.C59_validate_partial",
    "Appendable.C59_accepts",
    "Appendable.C59_select_violated",
    "Appendable.C59_order_violated",
    "Appendable.C59_nan_violated"
   ],
   "note": "validateQuery accepts exactly the queries that meet the rules it checks (C59_validate_partial); select/orderBy without where, the second orderBy and NaN gram sizes are not checked (the _violated theorems)."
  },
  {
   "property": "C60",
   "status": "partial",
   "theorems": [
    "Appendable.C60_add_partial",
    "Appendable.C60_violated"
   ],
   "note": "For dimensions up to 500 and room in both files: AddNode always puts the vector into the graph and the vector tree, and succeeds iff no earlier call stored the same 40 byte buffer (C60_add_partial). Violated for every arithmetic with the order of distances given (C60_violated, e.g. vectors 100, 110, 80, 104)."
  },
  {
   "property": "C61",
   "status": "partial",
   "theorems": [
    "Appendable.C61_miss_partial",
    "Appendable.C61_hit_violated",
    "Appendable.C61_second_range_violated",
    "Appendable.C61_failure_violated"
   ],
   "note": "A miss fetches the requested bytes and remembers them; the hit path returns one byte less, ignores further ranges and remembers failures (the _violated theorems)."
  },
  {
   "property": "C62",
   "status": "proved",
   "theorems": [
    "Appendable.C62_field_names"
   ],
   "note": "every history of an index file"
  },
  {
   "property": "C63",
   "status": "partial",
   "theorems": [
    "Appendable.C63_noparts_partial",
    "Appendable.C63_individual",
    "Appendable.C63_multipart_partial",
    "Appendable.C63_onebyte_violated",
    "Appendable.C63_total_violated",
    "Appendable.C63_refused_violated"
   ],
   "note": "Proved in full for useMultipartByteRanges: false inside of the file; with multipart the bytes are right for ranges of two bytes and more; violated: one byte ranges refused, length reported as 0, error page of a 416 taken for data. A multipart answer without any part is refused (C63_noparts_partial)."
  },
  {
   "property": "C64",
   "status": "partial",
   "theorems": [
    "Appendable.C64_cut_violated",
    "Appendable.C64_arrived_partial",
    "Appendable.C64_closed_partial",
    "Appendable.C64_request_violated"
   ],
   "note": "Violated: wherever the body ends before the closing delimiter, the parser loops for ever; proved that with the delimiter it ends. C64_arrived_partial: the parts whose delimiters arrived are all delivered first; C64_request_violated: a range request over such a reply never ends."
  },
  {
   "property": "C65",
   "status": "proved",
   "theorems": [
    "Appendable.C65_insert",
    "Appendable.C65_neighborhood",
    "Appendable.C65_search",
    "Appendable.C65_negative"
   ],
   "note": "float32 arithmetic is a parameter with (a-b)^2 = (b-a)^2; NaN left out; the random level is an argument (>= 0)."
  },
  {
   "property": "C66",
   "status": "partial",
   "theorems": [
    "Appendable.C66_degree_partial",
    "Appendable.C66_degree_violated"
   ],
   "note": "The code violates it with more than one level (C66_degree_violated: 3 neighbours with M = 2); proved when all levels are 0."
  },
  {
   "property": "C67",
   "status": "partial",
   "theorems": [
    "Appendable.C67_nearest_partial",
    "Appendable.C67_nearest_violated"
   ],
   "note": "The code violates it (C67_nearest_violated: a stored vector that no search finds); proved exact as long as there are at most min(M, efConstruction) vectors, for all levels."
  },
  {
   "property": "C68",
   "status": "partial",
   "theorems": [
    "Appendable.C68_self_partial",
    "Appendable.C68_self_violated"
   ],
   "note": "The code violates it with two levels (C68_self_violated); proved when all levels are 0."
  },
  {
   "property": "C69",
   "status": "partial",
   "theorems": [
    "Appendable.C69_dimension_violated",
    "Appendable.C69_short_violated"
   ],
   "note": "The code violates it: C69_dimension_violated (too many components panic in every graph), C69_short_violated (too few give an answer with wrong distances)."
  },
  {
   "property": "C70",
   "status": "partial",
   "theorems": [
    "Appendable.C70_flush_partial",
    "Appendable.C70_readback_violated"
   ],
   "note": "Order, length and freedom of failure proved (C70_flush_partial); reading back is violated: empty slots equal (level 0, id 0) (C70_readback_violated)."
  },
  {
   "property": "C71",
   "status": "partial",
   "theorems": [
    "Appendable.C71_level_violated",
    "Appendable.C71_level_partial"
   ],
   "note": "The code violates it (C71_level_violated: overwritten by lower levels); proved when all levels are 0."
  },
  {
   "property": "C72",
   "status": "partial",
   "theorems": [
    "Appendable.C72_find_partial",
    "Appendable.C72_distinct",
    "Appendable.C72_unchanged_iff_partial",
    "Appendable.C72_violated"
   ],
   "note": "For dimensions up to 500 and every history: ids, data pointers and misses are exact (C72_find_partial, C72_distinct); vectors come back converted, and unchanged iff all components are 0 or 0x4e9d3a75 (C72_unchanged_iff_partial, C72_violated)."
  },
  {
   "property": "C73",
   "status": "partial",
   "theorems": [
    "Appendable.C73_insert_partial",
    "Appendable.C73_third_panics",
    "Appendable.C73_violated"
   ],
   "note": "Proved for dimensions up to 500 (C73_insert_partial). Violated: for dimensions 511 to 1000 the third insertion panics in every history (C73_third_panics, C73_violated with dimension 768). Dimensions 501 to 510 depend on the sizes of the ids and are not covered."
  },
  {
   "property": "C74",
   "status": "partial",
   "theorems": [
    "Appendable.C74_lookup_partial",
    "Appendable.C74_first_missing",
    "Appendable.C74_violated"
   ],
   "note": "Every vector but the first is found under its id, with converted components (C74_lookup_partial); the first vector is never in the vector tree, in every history (C74_first_missing, C74_violated)."
  },
  {
   "property": "C75",
   "status": "partial",
   "theorems": [
    "Appendable.C75_decoded_partial",
    "Appendable.C75_words",
    "Appendable.C75_runes_partial",
    "Appendable.C75_violated"
   ],
   "note": "Offsets and lengths count characters of the NFKD normal form (C75_runes_partial, all texts), so they designate bytes only when that form is ASCII; the text `\u65e5a` is a counterexample to the byte reading (C75_violated). C75_words: the n-grams themselves are those of the ASCII characters of the normal form. Every text that reaches the splitter is valid UTF-8, whatever the bytes of the line (C75_decoded_partial)."
  },
  {
   "property": "C76",
   "status": "partial",
   "theorems": [
    "Appendable.C76_json_partial",
    "Appendable.C76_json_sound_partial",
    "Appendable.C76_found_partial",
    "Appendable.C76_sound_partial",
    "Appendable.C76_empty_violated",
    "Appendable.C76_violated",
    "Appendable.C76_encode_partial"
   ],
   "note": "Exact when the n-gram indexes used have entries and fit a page each (C76_found_partial; larger trees inherit the client's bug of C46); sound for any size (C76_sound_partial). Violated: a used n-gram length without entries makes the whole search throw 'empty node' (C76_empty_violated, concrete file C76_violated). ASCII phrases; toLowerCase only constrained on ASCII. The bytes that are looked up for an n-gram are its UTF-8, with U+FFFD for lone surrogates (C76_encode_partial). Also for files of JSON texts (C76_json_partial, C76_json_sound_partial): that the decoded texts are valid UTF-8 is then proved (C75_decoded_partial), not assumed."
  },
  {
   "property": "C77",
   "status": "partial",
   "theorems": [
    "Appendable.C77_json_partial",
    "Appendable.C77_json_violated",
    "Appendable.C77_multiplicity_partial",
    "Appendable.C77_violated"
   ],
   "note": "Violated: one row per n-gram of the phrase and occurrence (C77_multiplicity_partial gives the exact multiset, C77_violated), because tfMap is keyed by object identity. From the JSON text of the file: C77_json_partial, C77_json_violated."
  },
  {
   "property": "C78",
   "status": "partial",
   "theorems": [
    "Appendable.C78_json_partial",
    "Appendable.C78_sorted_partial",
    "Appendable.C78_order_violated",
    "Appendable.C78_violated"
   ],
   "note": "Sorted for comparable scores (C78_sorted_partial). Violated: the term-frequency map is never reset, so the n-gram looked up first counts more; two shuffles of the same search give different scores (C78_order_violated, concrete file C78_violated). From the JSON text of the file: C78_json_partial."
  },
  {
   "property": "C79",
   "status": "partial",
   "theorems": [
    "Appendable.C79_json_partial",
    "Appendable.C79_json_violated",
    "Appendable.C79_number_partial",
    "Appendable.C79_violated"
   ],
   "note": "Numbers if, for each length, the hits do not exceed the number of lines (C79_number_partial); otherwise all rows of that length have NaN (C79_violated). Exact arithmetic with NaN and an arbitrary logarithm, no rounding. From the JSON text of the file: C79_json_partial, C79_json_violated."
  },
  {
   "property": "C80",
   "status": "partial",
   "theorems": [
    "Appendable.C80_accepts_partial",
    "Appendable.C80_twice_violated",
    "Appendable.C80_violated",
    "Appendable.C80_program_partial",
    "Appendable.C80_json"
   ],
   "note": "Succeeds, without exception, on files below 2^44 bytes if each searched text has at most as many characters in decomposed form as bytes in the file (C80_accepts_partial: the index file stays below 2^62 bytes by C104, so it can grow). Violated otherwise: an n-gram's key is the start of the value plus the character position in the decomposed text, which can run into the next line; two n-grams of equal text and position collide and the file can never be indexed (C80_twice_violated, concrete file C80_violated). For the program cmd/main.go: C80_program_partial."
  },
  {
   "property": "C81",
   "status": "partial",
   "theorems": [
    "Appendable.C81_same_partial",
    "Appendable.C81_violated"
   ],
   "note": "Holds if there is no white space between a key and its colon (C81_same_partial). Violated otherwise: the data pointer starts right after the key, so `{\"a\" :\"x\"}` is stored as the empty value and looking up x finds nothing (C81_violated)."
  },
  {
   "property": "C82",
   "status": "partial",
   "theorems": [
    "Appendable.C82_query_partial"
   ],
   "note": "from the JSON text of the file to the rows of the client, for < and <= (DESC, and ASC on several pages), == and ASC > >= on one page; the other cases are violated (C46, C47)"
  },
  {
   "property": "C83",
   "status": "proved",
   "theorems": [
    "Appendable.C83_equality_sound"
   ],
   "note": ""
  },
  {
   "property": "C84",
   "status": "partial",
   "theorems": [
    "Appendable.C84_absent_partial",
    "Appendable.C84_violated",
    "Appendable.C84_concrete_violated"
   ],
   "note": "violated: TypeError for every file that has the field with other kinds of values only (C84_violated, C84_concrete_violated); proved: no rows are returned"
  },
  {
   "property": "C85",
   "status": "partial",
   "theorems": [
    "Appendable.C85_select_partial",
    "Appendable.C85_all",
    "Appendable.C85_inherited_violated",
    "Appendable.C85_proto_violated",
    "Appendable.C85_nested_violated",
    "Appendable.C85_query_partial",
    "Appendable.C85_concrete_violated"
   ],
   "note": "exact for names that are not properties of Object.prototype; violated for toString etc., for __proto__ and for dotted names of nested fields (C85_*_violated)"
  },
  {
   "property": "C86",
   "status": "proved",
   "theorems": [
    "Appendable.C86_record",
    "Appendable.C86_unique"
   ],
   "note": "encoding/csv reading one line without line breaks inside, as the handler uses it"
  },
  {
   "property": "C87",
   "status": "partial",
   "theorems": [
    "Appendable.C87_truncated_violated",
    "Appendable.C87_csv_violated",
    "Appendable.C87_history_violated"
   ],
   "note": "Violated in every state: Synchronize panics (slice bounds); the index file is unchanged (proved)."
  },
  {
   "property": "C88",
   "status": "proved",
   "theorems": [
    "Appendable.C88_transparent"
   ],
   "note": "For every session of calls made one after the other; a query fails in the same way up to the text of the error."
  },
  {
   "property": "C89",
   "status": "partial",
   "theorems": [
    "Appendable.C89_first_violated",
    "Appendable.C89_fields_violated",
    "Appendable.C89_after_success_partial"
   ],
   "note": "Violated: a client whose first request failed never answers again (C89_first_violated); a failed fields() is kept for ever (C89_fields_violated). After the first successful fields() failures leave no trace (C89_after_success_partial)."
  },
  {
   "property": "C90",
   "status": "partial",
   "theorems": [
    "Appendable.C90_metadata_violated",
    "Appendable.C90_new_field_violated",
    "Appendable.C90_unchanged_partial",
    "Appendable.C90_split_violated"
   ],
   "note": "Violated: the file metadata and the set of fields are frozen at first use, and so is the root pointer of an index on the first meta page: once an insert has moved that root, the client never sees the last entries of the index again, not even those it could see before (C90_split_violated). Holds for queries when the first meta page has not changed and the field was known."
  },
  {
   "property": "C91",
   "status": "partial",
   "theorems": [
    "Appendable.C91_concurrent_partial",
    "Appendable.C91_duplicate_violated",
    "Appendable.C91_missing_violated"
   ],
   "note": "Violated for every index file with at least two indexes: two calls in lock step repeat types (C91_duplicate_violated), and a call that starts after one slot has been found returns only that one (C91_missing_violated). In every schedule the names and types are right up to repetition for calls that look for the slots themselves or start after all have been found (C91_concurrent_partial)."
  },
  {
   "property": "C92",
   "status": "partial",
   "theorems": [
    "Appendable.C92_text_partial",
    "Appendable.C92_rows_violated",
    "Appendable.C92_number_violated",
    "Appendable.C92_null_partial"
   ],
   "note": "Proved: for text columns the client reads exactly the rows that meet the condition, in the cases of Exact (C92_text_partial), and so for the empty cells of any column (C92_null_partial; no row shorter than two bytes). Violated: every row is parsed as JSON, so that a query with a match throws (C92_rows_violated, all files with rows of two fields or more); numbers and booleans are not found at all, because the trees hold no values and the metadata say they do (C92_number_violated, all one-row files)."
  },
  {
   "property": "C93",
   "status": "partial",
   "theorems": [
    "Appendable.C93_crash_violated",
    "Appendable.C93_crash_partial"
   ],
   "note": "Violated for every history: whenever new lines of which the first begins with a scalar value are synchronized, there is a crash point after each of them from which no later Synchronize recovers (C93_crash_violated). Proved: a crash before the first or after the last write is harmless (C93_crash_partial)."
  },
  {
   "property": "C94",
   "status": "partial",
   "theorems": [
    "Appendable.C94_sync_violated",
    "Appendable.C94_field_violated",
    "Appendable.C94_file_violated",
    "Appendable.C94_file_partial",
    "Appendable.C94_field_partial"
   ],
   "note": "Violated. Creating a file takes five writes; a crash after exactly three leaves a file that no call can open again (C94_file_violated, for every format and search headers), and after any other number the file opens and has the bytes of an uncrashed creation (C94_file_partial). Whenever FindOrCreateIndex creates an index there is a crash point between the new slot and its metadata after which no new field can ever be indexed and the field names cannot be listed (C94_field_violated); it is the only one: it comes after exactly one write, or three when a new meta page is needed; after fewer writes the file opens, shows what it showed, and the same call made again succeeds, after more the call had returned (C94_field_partial, for names of at most 236 bytes). Through Synchronize, when the first new line begins with a field that no line had before: after a crash at that point every later Synchronize fails (C94_sync_violated). Missing: the other crash points of a whole Synchronize."
  },
  {
   "property": "C95",
   "status": "partial",
   "theorems": [
    "Appendable.C95_headers_partial",
    "Appendable.C95_old_lines_violated",
    "Appendable.C95_again_violated"
   ],
   "note": "Violated for every history: a line indexed by a run without the header h has no entry in any n-gram index of h (C95_old_lines_violated), and a further run with whatever headers and no new line changes no byte (C95_again_violated). Proved: the index holds for every line exactly what its fields add with the headers of the run that indexed it (C95_headers_partial)."
  },
  {
   "property": "C96",
   "status": "partial",
   "theorems": [
    "Appendable.C96_offset_partial",
    "Appendable.C96_entries_violated"
   ],
   "note": "The offset is proved for every successful call in every state. The number of entries is violated for every successful call with new lines: it never changes (C96_entries_violated)."
  },
  {
   "property": "C97",
   "status": "partial",
   "theorems": [
    "Appendable.C97_blank_violated"
   ],
   "note": "Violated in every state: Synchronize fails whenever one of the new complete lines is blank (C97_blank_violated). Nothing else is to be proved: without blank lines C41 applies."
  },
  {
   "property": "C98",
   "status": "partial",
   "theorems": [
    "Appendable.C98_types_violated",
    "Appendable.C98_string_violated",
    "Appendable.C98_covers_partial",
    "Appendable.C98_answers_violated"
   ],
   "note": "Violated for every declared field type (C98_types_violated). Proved for all but strings: the right type is among the alternatives named (C98_covers_partial). The answer for every declared type: C98_answers_violated."
  },
  {
   "property": "C99",
   "status": "partial",
   "theorems": [
    "Appendable.C99_stuck_violated"
   ],
   "note": "Violated: C99_stuck_violated (after a call that indexed at least one row and failed at a line that is no CSV record (blank, or with misplaced quotes), no later call on any data file with the same good rows succeeds, however often and even after reopening; after a failed first call the header line is also indexed as a row). C41 covers the runs without failures."
  }
 ]
}