# Formal model of kevmo314/appendable in Lean 4

## Layout

* `lean/Verif/Model/*.lean` – the model, one file per package of /repo. Every definition cites
  the file and lines it models, and says where it simplifies.
* `lean/Verif/Spec/*.lean` – small independent specifications (lexicographic order, histories of API calls, sorted
  contents, n-grams of a text, ...). The histories call the API functions of the model; nothing else of the model.
* `lean/Verif/Lemmas/*.lean` – helper lemmas and invariants.
* `lean/Verif/Props/*.lean` – the property theorems `Cnn_*`, each with a concrete case that meets its hypotheses.
* `seeded/` – deliberate bugs put into a scratch copy of the model (`mutate.py`), and which theorems noticed (`LOG.jsonl`).

## Modelling conventions

* bytes are `UInt8`, Go `uint64/uint32/uint16` are `UInt64/UInt32/UInt16` (wrap-around is real),
  Go `int` values that are lengths and positions are `Nat`, signed offsets `Int`.
* slices are `List`s. Aliasing was examined by hand in every place where the code appends to a
  sub-slice of the same backing array (`append(x[:j+1], x[j:]...)`); it is value-equivalent to list insertion. Where sharing
  is visible (query builder arrays in TypeScript) there is a heap in the model.
* a Go or TypeScript function that can fail or panic returns a `Res` (`ok | err | panic`) together with the new state,
  so that the state after an error is visible. Error texts are kept only where a caller looks at them.
* loops are structural recursions, or have a `fuel` argument which the theorems show to be sufficient (running out of fuel is
  a panic, so a theorem that says "returns" also says "terminates").
* the disk is a list of bytes plus a position plus a write budget: when the budget is used up every further write fails
  without effect. Quantifying over the budget is quantifying over crash points / write failures
  (single writes are atomic; that is an assumption). Files of 2^63 bytes or more cannot be written.
* the build without the `release` tag is modelled: reads and writes that cross a page boundary panic
  (pkg/pagefile/pagefile_debug.go).
* external libraries (JSON decoder, strconv, Unicode normalisation, float arithmetic, random numbers, fetch, mmap system
  calls) are parameters; what is assumed about them is an explicit hypothesis of each theorem. `Model/Json.lean` also has a
  concrete lexer (`goLex`) as an instance of the JSON parameter, used for the concrete witnesses; `Lemmas/JsonDoc` proves it
  right on every JSON text of `Spec/JsonText` (RFC 8259 with all white space, escapes and number forms), so that C36, C80 and
  C82-C85 hold for files given as JSON texts, without an assumption about the decoder. The part of `encoding/csv`
  that the CSV handler uses is modelled concretely.
* histories are inductive predicates (`ForestRun`, `AllocRun`, `SlotRun`, `IndexRun`, `JobRun`, `HeapRun`, `HnswRun`, ...):
  opening, reopening, successful calls and failed calls, in any order and number. Theorems quantify over all of them.

## What is modelled

| /repo | model | left out |
|-------|-------|----------|
| pkg/encoding, `encoding/binary` varints | Encoding | |
| pkg/buftest, pkg/mmap | File | `mremap`, `munmap`, `Sync`; mapping failures |
| pkg/pagefile (debug build) | PageFile | concurrent use |
| pkg/pointer | Pointer | |
| pkg/bptree node.go, bptree.go, traversal | Node, BPTree | `data` slices are values; `BPTreeNode.String`; `Delete` does not exist |
| pkg/linkedpage, pkg/metapage | LinkedPage | `LinkedMetaPage.Collect` of a cyclic list |
| pkg/appendable appendable.go, index_file.go | Meta, TypeNames, IndexFile | typescript.go (type generation), logging, benchmarks |
| pkg/handlers/jsonl.go | Jsonl, Json | the decoder is the parameter `lex`; float parsing is a parameter |
| pkg/handlers/csv.go | Csv | float parsing is a parameter |
| pkg/ngram | Ngram, TsNgram | NFKD and case mapping are parameters with their ASCII behaviour |
| pkg/btree | VecTree | float32 as bit patterns; `size` does not overflow; `Width` is not used by the code |
| pkg/hnsw | Heap, Hnsw, Spawn | float arithmetic is a parameter (`FloatOps`), NaN excluded; distances are integers in the order of float32; the level is an argument of `insertVector`; `SpawnLevel` (Spawn) computes it from the number drawn, in exact real arithmetic with infinities and NaN, on amd64; the map of friends is a list, because its keys are 0, 1, ...; the entries of a heap are values, not shared pointers |
| pkg/vectorpage | VectorPage | the two trees are in page files of their own |
| src/util, src/bptree, src/file | TsClient, TsOrder, TsSession, TsRace | promises are results: calls are made one after the other (TsSession keeps their replies), except for concurrent `indexHeaders` calls (TsRace); names are bytes; the range resolver is a function from ranges to bytes; `parseValue` of referenced values is a parameter |
| src/db/database.ts, query-lang.ts | TsQuery, TsSearch, TsSelect, TsFull (the whole `query`, unvalidated) | `like` is ASCII in the theorems; `JSON.parse` is a parameter; the order of integer-named properties of a row |
| src/db/query-builder.ts | TsBuilder | |
| src/db/query-validation.ts | TsValidation | prototype chains |
| src/resolver/cache.ts | TsCache | |
| src/resolver/multipart.ts | TsMultipart | the body is the list of chunks it arrives in; headers are ASCII; `Number`/`parseInt` are parameters |
| src/resolver/range-request.ts | TsRange | `fetch` is a function of the Range header; `Promise.all` runs in order |
| src/ngram | TsNgram, TsTable | scores of any totally ordered type |
| cmd/main.go | Cmd | flags, logging, timings, profiles; errors of opening and closing files |
| examples, pkg/mocks, UI | – | not part of the library |

## Plan and outcome per property

| id | modelled | proof |
|----|----------|-------|
| C01,C02 | PutUvarint, Uvarint, SizeVarint on UInt64/Nat | induction on the value, bit length lemma |
| C03,C04 | BPTreeNode Size/Marshal/Unmarshal, both widths | induction over key and pointer lists |
| C05,C06 | FileMeta, IndexMeta codecs | algebraic; no-panic half of C06 is false (witness) |
| C07 | CompareReferencedValues | equals a lexicographic spec; order laws |
| C08 | slices.BinarySearchFunc, TS binary search | loop invariant |
| C09-C12,C18,C19 | BPTree over PageFile over bytes | representation predicate by height, induction over height, then over histories of several trees in one file |
| C13,C14 | Find, Contains | characterisation + counterexample (code violates them at leaf boundaries) |
| C15-C17 | TraversalIterator | zipper invariant; C17 is violated (witness) |
| C20-C25 | PageFile state machine with ring buffer | abstract FIFO queue refinement; C24 violated after wrap-around, C25 after opening a fresh index |
| C26-C28 | LinkedPage over bytes | byte-range disjointness; 255 byte metadata make `Metadata` panic, 253..255 bytes overlap the next slot (witnesses), everything below proved |
| C29-C32,C62 | IndexFile over linked pages over bytes | invariant `IndexIs` over all histories, names of at most 236 bytes; C31, C32 violated |
| C33-C37 | JSONL handler over a token stream parameter | the handler is a list of jobs (index, key, value); fold fusion over lines and calls; C33 (equal bytes) by a relation between two runs that differ only in the metadata slot, preserved by every operation of the handler (Lemmas/Alike*); C37 violated (in general: `C37_stuck_violated`) |
| C87 | Synchronize of both handlers | direct from the bounds check of the slice expression; for all histories by C36's invariant; violated |
| C88 | `TsClient` (Model/TsSession): the replies and headers a database object keeps, and every public call on it | invariant over sessions: what is kept is what the server would answer; then each call is related to the call without memory |
| C89 | as C88, with a server that may be another one at each call | a kept failure is never replaced (invariant over all later sessions); after a success the client no longer changes |
| C90 | as C88 | the kept headers and first page never change; for the positive part, relation with a new client on equal first pages; for a moved root, the tree invariant at the old root page after the insert (Lemmas/Stale) and the client's backward scan over it |
| C91 | `TsCalls` (Model/TsRace): several `indexHeaders` calls as step machines on the shared `linkedMetaPages`, any schedule | invariant over schedules (every shared slot is a slot of the chain, prefix-closed); an explicit lock-step schedule for the violation |
| C92 | CSV handler and client together (`Spec.CsvFile`: any `CsvRun` on a table without quotes, seen by a faithful client) | cells to index entries (table_cells), then the client theorems of C46/C47 with width 0 (C92_text_partial); an index whose values are all empty has the same bytes with a value length of 0 as without values (Lemmas/NullTree, C92_null_partial); a comma outside of strings and brackets is not JSON (C92_rows_violated); the page of a one-entry tree read with the announced width (C92_number_violated) |
| C93 | `jsonlSync` with a write budget (`crashAfter n`), histories `SyncRun` | each operation takes a fixed number of writes on a given state, and with the budget used up no byte changes (`Writes`, closed under bind); the crash point is after the writes for some lines and before the metadata; then the first new line is inserted again and its first key is already there (C93_crash_violated); budget 0 or enough (C93_crash_partial) |
| C94 | `IndexFile.openIndex` on an empty file, `findOrCreate`, `jsonlSync` with a write budget | creation takes exactly five writes, the state after each is computed symbolically (`Making`); a file with an empty last slot (`Torn`) refuses every new field and does not change; `torn_point` finds the crash point with `Writes.run`/`Writes.stop`; `AddNext` takes exactly one or three writes (`Takes`), and before the last one every page in use is as it was (`Kept`), so the invariant without the claim that all pages are used (`IndexSt False`) holds; Synchronize fails at the first field of the next line, so the state persists through any retries (C94_file_violated, C94_file_partial, C94_field_violated, C94_field_partial, C94_sync_violated) |
| C95 | `cmdRun` (cmd/main.go), histories `Runs` with the headers of each run | the invariant `JIs` of C36 with a job list that has its own headers per line (`givenJobs`); entries of n-gram indexes come from lines whose headers contain the name; without a new line `Synchronize` writes back the same metadata (C95_headers_partial, C95_old_lines_violated, C95_again_violated) |
| C96,C97 | `csvSync`, `csvLoop` | induction over the new complete lines; calls in any state of the file, so no invariant of the index is needed (C96_offset_partial, C96_entries_violated, C97_blank_violated) |
| C98 | `typescriptType` (Model/TypeNames) | the declared types are twelve: case distinction (C98_types_violated, C98_covers_partial) |
| C99 | `csvSync` on good rows followed by a line that is no CSV record (`Spec.NotARecord`: blank, or with misplaced quotes); then any retries and reopenings | the failed call leaves the rows in the index but not the offset (csvLoop_bad); an invariant of all retries (CsvStuckAt): the first new line is in the index already, or the header line is about to be indexed as a row (C99_stuck_violated). The index does not depend on the data file beyond what its entries point to (Lemmas/Shrink) |
| C100 | `spawnLevel`, `insertDrawn` over the reals of Mathlib | the floor of a quotient of logarithms against powers of M (C100_geometric_partial); draw 0 and M = 1 give +Inf, which becomes the least int64, and a negative level panics (C100_zero_violated, C100_one_violated) |
| C101 | `Spec.Down` (a way down), `root`, `traverse` | all leaves have one depth (`Rep`), every internal page has two children at least: induction on the height; fan-out from the half-full invariant of C103 |
| C102 | `insert` with a write budget (`crashAfter`) | writes counted per step of the insertion loop (Lemmas/AtMost), length of the path by C101 |
| C103 | index file histories (Spec/Index), `halfPage`, `treePages` (Spec/Size) | invariant: all pages of a tree except the root hold at least half of the keys that fit (Lemmas/Fill: `Dense`, kept by every split), every page of the file belongs to the slot list or to a tree (`AllUsed`), the free list stays empty; counting (Lemmas/Size) |
| C104 | JSONL and CSV histories | C103 on the invariant of C36/C41, entries of the indexes summed over the jobs (Lemmas/JobSize: also along a run that fails, for C36, C41, C80); jobs and entries counted per byte of the data (Props/Accepts, Props/Size) |
| C105 | all calls of page file, slots, trees, index file, vector trees and both handlers on one open file | every call starts by seeking: a call that succeeds in seeking forgets the position (Lemmas/Position), look-ups are built from seeks and reads; histories by induction (Props/Reads) |
| C106 | the client on every index file and data file | every number the client decodes is below 2^31, by induction over the loops from the varint to the query; two resolvers that agree below give equal runs (Props/Reach) |
| C107 | `NewIndexFile` on an arbitrary file (`Props/Foreign.lean`): the size check, the list head on the second page, the first slot | symbolic execution of the open path for all contents; violated by one-page files, by short memory-mapped files and by files with the mark of an empty list |
| C108 | the same open path, `Find` and `Insert` on damaged pages | `NewPageFile` never panics; the panic of `Metadata` (length 255) and of `UnmarshalBinary` (empty node) characterised for all contents |
| C109 | `readNode`, the traversal and the iterator on a page file that holds only the first pages | every step on the cut file equals the step on the whole file or fails: simulation along `ReadOnly` runs; the swallowed error of `root` as a violation; the walk over the slots: a slot whose page is cut off fails at its metadata (Lemmas/CutIndex) |
| C110 | the client's query on the file that `Insert` leaves after `n` of its writes (`crashAfter n`) | the client's way to a tree depends on the meta pages only (`MetaSt`), which an insert leaves alone; the tree after the first half of a split from `split_point`; without allocation the file is the old or the new one |
| C111 | `query` as a whole on unvalidated objects: search part, then where part (Model/TsFull) | equal to the earlier models of the two parts on the queries TypeScript accepts; with both parts: the rows one after the other |
| C112 | `tokens` with any JavaScript numbers as lengths | case on whole / fraction / NaN: simulation by the model with natural numbers, or an exception in the first round |
| C113 | `query` with any texts as operation and direction, against the model of `validateQuery` | the two functions computed on the same object |
| C114 | the client of `TsFull` on two resolvers, one of which fails on some requests (`Spec.Fails`) | simulation: every step of the client gives related results or an exception, from page reads to the whole query (Props/Fails) |
| C115 | the client on a file cut short: a resolver that refuses, and one that answers short | refused: C114; short: the first four bytes of a leaf decode as a leaf of empty keys, so a search for any other value ends beyond it (Props/Short) |
| C116 | `requestRanges` against every server that holds the file (`HttpServes`), requests with an expected length | induction over the list of requests; the multipart branch computed for every expected length (Props/Integrity) |
| C38 | write budget | no-split case atomic (one write); first insert: every crash point has the bytes of a history that did not crash (Lemmas/Cuts: `Cuts`, `newPage_cuts`); split case violated for every tree: the state after the left half is written is a valid tree without the right half (`PathTo.replace`, `split_point`) |
| C39 | IEEE-754 bit patterns | non-negative part proved, negative part refuted |
| C40 | DetermineType vs. key encoders | case analysis, n-gram length lemma |
| C41,C42 | CSV handler with its record reader; C41 also for the program cmd/main.go | unquoted part proved for every history, violations exhibited |
| C86 | encoding/csv on one line | the reader inverts a separate grammar (Spec/CsvLine), both directions by induction over the line |
| C43-C45 | TS decoder with 32-bit integer semantics | simulation of the Go reader below 2^31, violation above |
| C46-C48 | TS query loops over the tree model | exact characterisation of what is returned, violations exhibited |
| C49,C50 | both tokenizers, Fisher-Yates; the classes of characters they split at | list induction |
| C51 | PriorityTable | fold invariant |
| C52,C53 | min-max heap over lists and linear order | heap invariant over histories; C53 violated |
| C54 | BTreeNode codec | node structure proved; violated (components are converted as integers) |
| C72,C73 | vector tree (pkg/btree): traverse, Insert, Find | as C09, by a representation predicate over the pages, induction over histories; C72 violated through C54; C73 violated for dimensions ≥ 511: an internal node of two ids overflows its page and its right half is empty |
| C55,C64 | multipart parser as a byte-stream machine over chunks | chunking independence by simulation with the one-chunk run; C64 violated |
| C56,C57 | mmap and SeekableBuffer | state machines; C56 violated on growth |
| C58,C59,C61 | query builder over a heap, validation, cache | history invariant; exact acceptance condition; C61 violated |
| C75 | Go tokenizer over any normal form given as code points (UTF-8 decoding proved), JSON string decoding before it | list induction over the characters with their index; violated for byte offsets; decoded texts are valid UTF-8 for all lines |
| C60,C74 | vector page manager (pkg/vectorpage): AddNode over the graph, the vector tree and the B+ tree, each tree in its own page file | outcome of one call from the invariants of C65, C72, C09; induction over calls. C60 violated: equal neighbourhoods collide as keys (symbolic execution for every arithmetic); C74 violated: the first vector is never stored |
| C76-C79 | the search part of src/db/database.ts (tokens, shuffle, meta pages, trees cached by type, termFrequency, scoring, table) over the JSONL index, abstract score arithmetic | state invariant of the loop over shuffled tokens (which entries tfMap holds); rows = explicit formula searchRows; composed with SyncRun (C36) to speak about lines; violated cases by the same formula and a concrete file |
| C80 | Synchronize of the JSONL handler as in C36, with the lexer left abstract apart from growing token positions | all entries of a file have distinct (value, data pointer) keys when texts fit, from increasing positions of fields, lines and n-grams; then C36_succeeds; the index file is too small to hit the limit of a file (C104); the violated case from the content theorem and a concrete file |
| C81 | the same run over two files | the jobs of a file (name, type, values) are a function of the fields without positions; violated case by kernel evaluation of one file |
| C82,C83,C84 | the JSONL handler with the concrete lexer, the index file, the client's `query` | JSON texts as syntax trees; the lexer's tokens by induction over them; the entries of the index are the values of the fields; the client theorems on that index |
| C85 | `handleSelect` | fold over the selected names; the violated cases are general theorems |
| C63 | range requests | case analysis over the replies a correct server can give |
| C65-C71 | HNSW | graph invariant (every list is a sound heap of ids with that level and true distances; entry has the most levels), induction over the rounds of search and insertion; C66-C71 violated with more than one level or more than M vectors, proved otherwise |

Where the code violates a property, the negation is proved with a witness (`..._violated`: a reachable state and calls) and the
part that does hold is proved under the name `..._partial`. `status.json` says for each property what is missing.

## Trusted base

Lean's kernel; the axioms `propext`, `Classical.choice`, `Quot.sound` (each theorem depends on a subset of these three;
`decide +kernel` is evaluation by the kernel and adds no axiom); the reading of /repo documented in
the comments of the model files. The only Mathlib module imported is the real logarithm (Model/Spawn, for C100). Nothing was executed against the Go or TypeScript code.
