{"id": "C01", "title": "Varint size is exact", "statement": "The size predictor used to lay out nodes and metadata (SizeVarint) returns, for every 64-bit value, exactly the number of bytes that the varint writer emits for it, and that number is between 1 and 10.", "quantifier": "every uint64 value", "why_tests_cant": "2^64 values; the formula (9*bitlen+64)/64 is only right if it agrees at every bit length", "anchors": ["pkg/encoding/sizeVarint.go:SizeVarint", "pkg/bptree/node.go:Size"]}
{"id": "C02", "title": "Varint round trip in any context", "statement": "Decoding the varint encoding of any 64-bit value, followed by arbitrary other bytes, returns that value and the exact number of bytes that were written.", "quantifier": "every uint64 value and every byte string following it", "why_tests_cant": "unbounded suffixes and 2^64 values", "anchors": ["encoding/binary (stdlib) as used by pkg/bptree/node.go", "pkg/appendable/appendable.go"]}
{"id": "C03", "title": "Node size equals serialized length", "statement": "For every B+ tree node with at least one key, MarshalBinary succeeds without panicking and produces exactly Size() bytes.", "quantifier": "every node (any number of keys, any pointers, any key values, both inline and referenced keys)", "why_tests_cant": "the node space is infinite; the 'size mismatch' panic depends on every varint width combination", "anchors": ["pkg/bptree/node.go:Size", "pkg/bptree/node.go:MarshalBinary"]}
{"id": "C04", "title": "Node round trip through a page", "statement": "A node that is written at the start of a page and read back, with whatever bytes are left over in the rest of the page, is the same node: same leaf flag, same keys (pointer and value), same child or record pointers in the same order.", "quantifier": "every well-formed node, every width, every remainder of page, every data file the referenced keys point into", "why_tests_cant": "stale page remainders and pointer widths are unbounded", "anchors": ["pkg/bptree/node.go:MarshalBinary", "pkg/bptree/node.go:UnmarshalBinary"]}
{"id": "C05", "title": "File metadata round trip", "statement": "FileMeta written to the first slot is read back identically (version, format, read offset, entry count) for the two known formats; unknown formats and buffers shorter than 10 bytes are rejected with an error.", "quantifier": "every version, read offset, entry count and every trailing bytes", "why_tests_cant": "all 64-bit offsets and counts", "anchors": ["pkg/appendable/appendable.go:FileMeta.MarshalBinary", "pkg/appendable/appendable.go:FileMeta.UnmarshalBinary"]}
{"id": "C06", "title": "Index metadata round trip", "statement": "IndexMeta (field name, field type, width, total length) written to a slot is read back identically, and decoding never panics on any buffer.", "quantifier": "every field name, type, width and length; every buffer for the no-panic half", "why_tests_cant": "names and buffers are unbounded", "anchors": ["pkg/appendable/appendable.go:IndexMeta.MarshalBinary", "pkg/appendable/appendable.go:IndexMeta.UnmarshalBinary"]}
{"id": "C07", "title": "Key order is a total order", "statement": "CompareReferencedValues is a strict total order: the lexicographic order on (value bytes, pointer offset, pointer length); two keys compare equal only when they are identical.", "quantifier": "every pair and triple of keys", "why_tests_cant": "transitivity and antisymmetry range over all triples of byte strings", "anchors": ["pkg/pointer/referenced_value.go:CompareReferencedValues"]}
{"id": "C08", "title": "Binary search lands on the lower bound", "statement": "The binary search used in every node returns the number of keys strictly below the target and says found exactly when the target is present, in Go and in TypeScript.", "quantifier": "every sorted key list and every target", "why_tests_cant": "all list lengths and positions", "anchors": ["pkg/bptree/bptree.go:traverse", "slices.BinarySearchFunc", "src/bptree/bptree.ts:binarySearchReferencedValues"]}
{"id": "C09", "title": "Inserting is inserting into a sorted map", "statement": "Starting from an empty tree, after any sequence of successful Insert calls the tree holds exactly the inserted (key, pointer) pairs, in key order: nothing lost, nothing duplicated, nothing invented, across any number of leaf, internal and root splits.", "quantifier": "every insertion history of any length, in any order, any key width up to the documented bound", "why_tests_cant": "splits at every depth and every varint boundary cannot be enumerated", "anchors": ["pkg/bptree/bptree.go:Insert", "pkg/bptree/bptree.go:traverse"]}
{"id": "C10", "title": "Duplicate keys are rejected without effect", "statement": "Inserting a key (same value and same data pointer) that is already stored returns an error and leaves every byte of the index file unchanged.", "quantifier": "every reachable tree and every stored key", "why_tests_cant": "depends on every tree shape", "anchors": ["pkg/bptree/bptree.go:Insert"]}
{"id": "C11", "title": "Wrong-width keys are rejected without effect", "statement": "On a fixed-width index, inserting a key whose value length differs from the width returns an error and changes nothing.", "quantifier": "every tree, width and key", "why_tests_cant": "the check truncates lengths to 16 bits, so it must be examined at every length", "anchors": ["pkg/bptree/bptree.go:Insert"]}
{"id": "C12", "title": "A stored key is always found", "statement": "Find of any previously inserted key returns that key with the record pointer it was inserted with, at any later time.", "quantifier": "every insertion history and every key in it", "why_tests_cant": "all tree shapes, all keys on separator boundaries", "anchors": ["pkg/bptree/bptree.go:Find", "pkg/bptree/bptree.go:Iter"]}
{"id": "C13", "title": "Find returns the least key not below the target", "statement": "Find(k) returns the least stored key that is greater than or equal to k, or reports nothing only if there is none.", "quantifier": "every reachable tree and every probe key, stored or not", "why_tests_cant": "probe keys that fall between two leaves are rare in random tests", "anchors": ["pkg/bptree/bptree.go:Find", "pkg/bptree/bptree.go:Next"]}
{"id": "C14", "title": "Contains means present", "statement": "Contains(k) is true exactly when some stored entry has the value bytes of k (for a probe with zero data pointer).", "quantifier": "every reachable tree and probe value", "why_tests_cant": "leaf-boundary and empty-value cases", "anchors": ["pkg/bptree/bptree.go:Contains"]}
{"id": "C15", "title": "Forward iteration is complete and ordered", "statement": "Starting Next() from a stored key visits that key and then every greater key exactly once in ascending order, with the right record pointers, and then stops.", "quantifier": "every reachable tree and start key", "why_tests_cant": "rollover through every combination of levels", "anchors": ["pkg/bptree/bptree.go:TraversalIterator.Next", "pkg/bptree/bptree.go:incr"]}
{"id": "C16", "title": "Backward iteration is complete and ordered", "statement": "Starting Prev() from any key visits every strictly smaller key exactly once in descending order and then stops.", "quantifier": "every reachable tree and every start key", "why_tests_cant": "rollover through every combination of levels", "anchors": ["pkg/bptree/bptree.go:TraversalIterator.Prev", "pkg/bptree/bptree.go:incr"]}
{"id": "C17", "title": "Changing direction is consistent", "statement": "An iterator that ran off the end with Next() and is then driven with Prev() visits each entry once in descending order.", "quantifier": "every reachable tree", "why_tests_cant": "depends on parent positions after running off the end", "anchors": ["pkg/bptree/bptree.go:incr"]}
{"id": "C18", "title": "Insert never overflows a page or panics", "statement": "For every key width the product uses, Insert never panics, never writes a node larger than a page and never writes an empty node, whatever the history.", "quantifier": "every insertion history", "why_tests_cant": "depends on sums of varint sizes over all node contents", "anchors": ["pkg/bptree/bptree.go:Insert", "pkg/bptree/node.go:MarshalBinary", "pkg/pagefile/pagefile_debug.go:Write"]}
{"id": "C19", "title": "Insert touches only its own tree", "statement": "Insert changes only pages of its own tree, pages it newly allocates and its own root pointer: every other page of the file, in particular every other tree, keeps its contents.", "quantifier": "every file with any number of trees and other pages, every insert", "why_tests_cant": "aliasing bugs appear only for particular layouts", "anchors": ["pkg/bptree/bptree.go:Insert", "pkg/pagefile/pagefile.go:NewPage"]}
{"id": "C20", "title": "NewPage returns a fresh, zero-padded, aligned page", "statement": "NewPage(buf) returns a page-aligned offset that is not page 0 and is either the longest-free freed page or the end of the file; that page then holds buf followed by zeros and every other page except the free list is unchanged.", "quantifier": "every page file state and buffer", "why_tests_cant": "all allocation histories", "anchors": ["pkg/pagefile/pagefile.go:NewPage", "pkg/pagefile/pagefile.go:FreePageIndex"]}
{"id": "C21", "title": "Allocated pages are never handed out twice", "statement": "In any history of NewPage and FreePage, NewPage never returns a page that is currently allocated (returned earlier and not freed since).", "quantifier": "every history of allocations and frees", "why_tests_cant": "interleavings of frees and allocations are unbounded", "anchors": ["pkg/pagefile/pagefile.go:NewPage", "pkg/pagefile/pagefile.go:FreePage"]}
{"id": "C22", "title": "Free list survives reopening", "statement": "Closing and reopening the page file yields the same free list in the same order, so later allocations are the same as without reopening.", "quantifier": "every reachable page file", "why_tests_cant": "all free list contents", "anchors": ["pkg/pagefile/pagefile.go:NewPageFile", "pkg/pagefile/pagefile.go:writeFreePageIndices"]}
{"id": "C23", "title": "Bad frees are rejected without effect", "statement": "FreePage of an unaligned offset, of a page already free, of page 0, or when 512 pages are free returns an error and changes nothing.", "quantifier": "every page file state and offset", "why_tests_cant": "all states", "anchors": ["pkg/pagefile/pagefile.go:FreePage"]}
{"id": "C24", "title": "Page allocation never panics", "statement": "No sequence of NewPage and FreePage calls makes the page file panic.", "quantifier": "every history", "why_tests_cant": "the ring buffer must wrap around at particular fill levels", "anchors": ["pkg/pagefile/pagefile.go:writeFreePageIndices"]}
{"id": "C25", "title": "Page count is the number of pages", "statement": "PageCount() equals the file size divided by the page size after every operation.", "quantifier": "every history including opening an index on a fresh file", "why_tests_cant": "state-dependent", "anchors": ["pkg/pagefile/pagefile.go:PageCount", "pkg/linkedpage/linkedpage.go:reset"]}
{"id": "C26", "title": "Slot root and metadata round trip", "statement": "After SetRoot(p), Root() returns p; after a successful SetMetadata(d), Metadata() returns d; metadata above the limit is rejected without effect.", "quantifier": "every slot, pointer and metadata string", "why_tests_cant": "all slots and lengths", "anchors": ["pkg/linkedpage/linkedpage.go:SetRoot", "pkg/linkedpage/linkedpage.go:SetMetadata", "pkg/linkedpage/linkedpage.go:Metadata"]}
{"id": "C27", "title": "Slots are isolated from each other", "statement": "Setting the root or the (accepted) metadata of one slot never changes the root or the metadata of any other slot of the same page or of another page.", "quantifier": "every pair of distinct slots and every accepted metadata", "why_tests_cant": "the overlap only shows for particular lengths", "anchors": ["pkg/linkedpage/linkedpage.go:rootMemoryPointerPageOffset", "pkg/linkedpage/linkedpage.go:SetMetadata"]}
{"id": "C28", "title": "The slot list grows like a list", "statement": "Appending with AddNext at the end makes Collect return the previous slots, in the same order with the same roots and metadata, followed by one new empty slot, for any number of slots across pages; AddNext anywhere but at the end is an error with no effect.", "quantifier": "every number of slots and position", "why_tests_cant": "page chaining every 15 slots for unbounded lists", "anchors": ["pkg/linkedpage/linkedpage.go:AddNext", "pkg/linkedpage/linkedpage.go:Next", "pkg/linkedpage/linkedpage.go:Collect"]}
{"id": "C29", "title": "Opening an index file is idempotent and guarded", "statement": "Opening a fresh file creates an index whose metadata has the current version, the handler format and zero progress; reopening any index returns the stored metadata and changes nothing; a version or format mismatch is an error.", "quantifier": "every index file produced by this code", "why_tests_cant": "all reachable files", "anchors": ["pkg/appendable/index_file.go:NewIndexFile", "pkg/appendable/index_file.go:Metadata"]}
{"id": "C30", "title": "One index per (field, type)", "statement": "FindOrCreateIndex returns the existing index for (name, type) if there is one and otherwise appends exactly one new empty index with the right width; all other indexes keep their name, type, root and metadata; no two indexes share a (name, type).", "quantifier": "every sequence of requests", "why_tests_cant": "unbounded index lists", "anchors": ["pkg/appendable/index_file.go:FindOrCreateIndex", "pkg/appendable/appendable.go:DetermineType"]}
{"id": "C31", "title": "A failed index creation leaves the file usable", "statement": "If FindOrCreateIndex fails (for example because the field name is too long for a slot), the index file can still be used for every other field.", "quantifier": "every field name", "why_tests_cant": "needs names near the slot limit followed by further use", "anchors": ["pkg/appendable/index_file.go:FindOrCreateIndex", "pkg/linkedpage/linkedpage.go:SetMetadata"]}
{"id": "C32", "title": "IsEmpty tells whether there are no indexes", "statement": "IsEmpty() is true exactly when the index file has no field index.", "quantifier": "every index file", "why_tests_cant": "state-dependent", "anchors": ["pkg/appendable/index_file.go:IsEmpty"]}
{"id": "C33", "title": "Incremental equals batch (JSONL)", "statement": "Synchronizing a growing JSONL file in any number of steps, at any byte boundaries, ends with exactly the same index file bytes as synchronizing the final file once.", "quantifier": "every JSONL data file and every way of splitting it into growing prefixes", "why_tests_cant": "unbounded splits, including in the middle of lines", "anchors": ["pkg/handlers/jsonl.go:Synchronize", "pkg/appendable/index_file.go:Synchronize"]}
{"id": "C34", "title": "Synchronizing again is a no-op", "statement": "Synchronizing an index with a data file that has no new complete line leaves every byte of the index unchanged.", "quantifier": "every index and data file", "why_tests_cant": "all states", "anchors": ["pkg/handlers/jsonl.go:Synchronize"]}
{"id": "C35", "title": "Only complete lines are consumed", "statement": "After a successful Synchronize the recorded read offset is just after the last newline of the data file and the entry count is the number of newlines (JSONL); a trailing partial line is not indexed.", "quantifier": "every data file", "why_tests_cant": "all byte strings", "anchors": ["pkg/handlers/jsonl.go:Synchronize"]}
{"id": "C36", "title": "Every field occurrence is indexed", "statement": "After a successful Synchronize of a JSONL file, for every scalar field occurrence of every complete line the index for that field path and type holds exactly one entry with the value bytes, the position of the value and the position of the line, and holds no other entries.", "quantifier": "every JSONL file made of objects", "why_tests_cant": "unbounded documents and nesting", "anchors": ["pkg/handlers/jsonl.go:handleJSONLObject"]}
{"id": "C37", "title": "A failed Synchronize can be retried", "statement": "If Synchronize fails on some line, calling it again once the cause is gone indexes the remaining lines.", "quantifier": "every file with a failing line", "why_tests_cant": "depends on what was written before the failure", "anchors": ["pkg/handlers/jsonl.go:Synchronize", "pkg/bptree/bptree.go:Insert"]}
{"id": "C38", "title": "Crash safety of Insert", "statement": "If the process dies between any two page writes of an Insert, every key stored before the Insert is still found afterwards.", "quantifier": "every tree, insert and crash point", "why_tests_cant": "crash points inside multi-level splits", "anchors": ["pkg/bptree/bptree.go:Insert"]}
{"id": "C39", "title": "Numeric keys sort numerically", "statement": "The byte order of stored number keys (big-endian IEEE-754 bits) is the numeric order of the numbers.", "quantifier": "every pair of finite float64 values", "why_tests_cant": "2^128 pairs", "anchors": ["pkg/handlers/jsonl.go:handleJSONLObject", "src/db/query-lang.ts:processWhere"]}
{"id": "C40", "title": "Handler keys always satisfy the index width", "statement": "Every key value produced by the handlers for a field type has exactly the length that the index width for this type demands, so the width check never rejects a handler key.", "quantifier": "every field type and value", "why_tests_cant": "all values, in particular all n-grams of all strings", "anchors": ["pkg/appendable/appendable.go:DetermineType", "pkg/handlers/jsonl.go:handleJSONLObject", "pkg/ngram/tokenizer.go:BuildNgram"]}
{"id": "C41", "title": "Incremental equals batch (CSV)", "statement": "Synchronizing a growing CSV file in any number of steps ends with the same index as synchronizing the final file once.", "quantifier": "every CSV file and every split", "why_tests_cant": "splits right after the header line, files with unused or repeated columns", "anchors": ["pkg/handlers/csv.go:Synchronize", "pkg/appendable/index_file.go:IndexFieldNames"]}
{"id": "C42", "title": "CSV field pointers point at the field", "statement": "For every field of a CSV row the stored data pointer designates exactly the bytes of that field in the data file.", "quantifier": "every CSV row", "why_tests_cant": "quoted fields anywhere in the row shift all later fields", "anchors": ["pkg/handlers/csv.go:handleCSVLine"]}
{"id": "C43", "title": "JavaScript client decodes varints like the writer", "statement": "The TypeScript varint decoder returns the value the Go writer encoded, for every offset and length that can occur in an index.", "quantifier": "every uint64 value", "why_tests_cant": "32-bit truncation shows only above 2^31", "anchors": ["src/util/uvarint.ts:decodeUvarint"]}
{"id": "C44", "title": "JavaScript client reads the nodes the writer wrote", "statement": "For every node the Go writer produces, the TypeScript reader decodes the same keys and pointers.", "quantifier": "every node and page remainder", "why_tests_cant": "two implementations over an infinite node space", "anchors": ["src/bptree/node.ts:unmarshalBinary", "pkg/bptree/node.go:MarshalBinary"]}
{"id": "C45", "title": "JavaScript client reads the metadata the writer wrote", "statement": "The TypeScript reader sees the same slots, roots, file metadata and index metadata as the Go writer stored.", "quantifier": "every index file", "why_tests_cant": "two implementations of the layout", "anchors": ["src/file/multi.ts:LinkedMetaPage", "src/file/meta.ts:readFileMeta", "src/file/meta.ts:readIndexMeta"]}
{"id": "C46", "title": "Equality queries return all matches", "statement": "where(field == v) returns exactly the records whose field has value v.", "quantifier": "every index and value", "why_tests_cant": "values whose first entry starts a leaf", "anchors": ["src/db/database.ts:query", "src/bptree/traversal.ts"]}
{"id": "C47", "title": "Range queries return all matches in order", "statement": "where(field > / >= / < / <= v), ascending or descending, returns exactly the records in that range in the requested order.", "quantifier": "every index, bound, operation and direction", "why_tests_cant": "small (single-leaf) trees, boundary values, leaf boundaries", "anchors": ["src/db/database.ts:query", "src/bptree/bptree.ts:first", "src/bptree/bptree.ts:last"]}
{"id": "C48", "title": "Several conditions mean their conjunction", "statement": "A query with several where clauses returns the records satisfying all of them, and at most limit records.", "quantifier": "every query", "why_tests_cant": "all clause combinations", "anchors": ["src/db/database.ts:query", "src/db/query-builder.ts"]}
{"id": "C49", "title": "Indexer and client tokenize alike", "statement": "For every ASCII text and gram length, the n-grams the Go indexer stores are exactly the n-grams the TypeScript client searches for, in the same order; each is a lower-cased window of letters and digits of one whitespace-separated word.", "quantifier": "every ASCII string and gram length", "why_tests_cant": "all strings", "anchors": ["pkg/ngram/tokenizer.go:BuildNgram", "src/ngram/tokenizer.ts:tokens"]}
{"id": "C50", "title": "Shuffling loses nothing", "statement": "Shuffle returns a permutation of its input whatever the random numbers are.", "quantifier": "every token list and every random sequence", "why_tests_cant": "all random sequences", "anchors": ["pkg/ngram/tokenizer.go:Shuffle", "src/ngram/tokenizer.ts:shuffle"]}
{"id": "C51", "title": "Search ranking table sums and sorts", "statement": "After any sequence of insertions the ranking table lists every key once with the sum of its scores, in non-increasing score order.", "quantifier": "every insertion sequence", "why_tests_cant": "unbounded sequences", "anchors": ["src/ngram/table.ts:PriorityTable"]}
{"id": "C52", "title": "The distance heap returns extremes", "statement": "After any sequence of insertions of new ids and of PopMin/PopMax, PeekMin/PopMin return an item of least distance and PeekMax/PopMax an item of greatest distance among the items currently held, and popping removes exactly that item.", "quantifier": "every operation history and all distances (not NaN)", "why_tests_cant": "min-max heap repair paths depend on the whole history", "anchors": ["pkg/hnsw/heap.go:DistHeap"]}
{"id": "C53", "title": "Re-inserting an id re-positions it", "statement": "Inserting an id that is already in the heap with a new distance leaves a heap that still returns the extremes.", "quantifier": "every heap, id and distance", "why_tests_cant": "needs an increase past an ancestor on a max level", "anchors": ["pkg/hnsw/heap.go:Insert", "pkg/hnsw/heap.go:Fix"]}
{"id": "C54", "title": "Stored vectors come back unchanged", "statement": "A vector stored in the vector B-tree is read back with the same components.", "quantifier": "every vector", "why_tests_cant": "only all-zero vectors are tested", "anchors": ["pkg/btree/node.go:MarshalBinary", "pkg/btree/node.go:UnmarshalBinary"]}
{"id": "C55", "title": "Multipart parsing is independent of chunking", "statement": "For every multipart/byteranges body and every way the network splits it into chunks, the parser yields the same parts, namely the parts the server serialized.", "quantifier": "every body, every chunking", "why_tests_cant": "chunk boundaries can fall anywhere", "anchors": ["src/resolver/multipart.ts:parseMultipartBody"]}
{"id": "C56", "title": "The memory-mapped file behaves like a file", "statement": "Write returns the number of bytes given and advances the position by that number; reading back returns what was written; Seek rejects positions outside the file.", "quantifier": "every history of seeks, reads and writes", "why_tests_cant": "growth through remapping at every position", "anchors": ["pkg/mmap/mmap.go"]}
{"id": "C57", "title": "The in-memory buffer behaves like a file", "statement": "A write at any in-range position followed by a read at the same position returns the bytes written, and all other bytes are unchanged.", "quantifier": "every buffer state", "why_tests_cant": "all positions and lengths", "anchors": ["pkg/buftest/buffer.go"]}
{"id": "C58", "title": "Query builder is persistent", "statement": "Each builder call returns a new query that extends the old one in exactly one respect and leaves the old builder unchanged; a chain of calls yields the clauses in call order.", "quantifier": "every chain of builder calls", "why_tests_cant": "unbounded chains", "anchors": ["src/db/query-builder.ts"]}
{"id": "C59", "title": "Query validation accepts exactly well-typed queries", "statement": "validateQuery rejects exactly the queries with an unknown field, a value type not present in the index headers, an invalid operation, an orderBy on another key, an unknown select field, or an invalid gram configuration.", "quantifier": "every query and header list", "why_tests_cant": "all combinations", "anchors": ["src/db/query-validation.ts"]}
{"id": "C60", "title": "Adjacent nodes with equal neighbourhoods can be stored", "statement": "Adding any vector to the vector page manager succeeds and stores its neighbourhood.", "quantifier": "every sequence of vectors", "why_tests_cant": "needs two vectors with the same neighbour list", "anchors": ["pkg/vectorpage/manager.go:AddNode"]}
{"id": "C61", "title": "A cached range equals a fetched range", "statement": "A byte range served from the resolver cache is the same as the one the underlying resolver would return.", "quantifier": "every sequence of requests", "why_tests_cant": "needs nested ranges", "anchors": ["src/resolver/cache.ts"]}
{"id": "C62", "title": "Field names are listed once each", "statement": "IndexFieldNames lists every field name that has an index exactly once, in the order in which the names were first used.", "quantifier": "every history of an index file", "why_tests_cant": "unbounded index lists", "anchors": ["pkg/appendable/index_file.go:IndexFieldNames"]}
{"id": "C63", "title": "Range requests return the requested bytes", "statement": "Asking the range resolver for any list of non-empty ranges inside of a file on a web server returns, for every range in order, exactly those bytes together with the length of the file; a range outside of the file and an unexpected file length are reported as errors.", "quantifier": "every file, every list of ranges, every server that follows HTTP, every chunking of its replies, both settings of useMultipartByteRanges", "why_tests_cant": "the replies are chosen by the server and the network; no test covers range-request.ts", "anchors": ["src/resolver/range-request.ts:requestRanges", "src/resolver/range-request.ts:resolveIndividualPromises", "src/resolver/multipart.ts:parseMultipartBody"]}
{"id": "C64", "title": "Interrupted multipart replies are reported", "statement": "If a multipart reply ends before its closing delimiter, the request ends with an error.", "quantifier": "every body, every place where it can end, every chunking", "why_tests_cant": "a reply can break off after any byte", "anchors": ["src/resolver/multipart.ts:getReader", "src/resolver/multipart.ts:parseMultipartBody"]}
{"id": "C65", "title": "The proximity graph accepts every vector of its dimension and answers every search", "statement": "After any sequence of insertions with any random levels, InsertVector of a vector of the graph's dimension returns the next id (0, 1, 2, ... in order of insertion) and never fails or panics; a vector of another dimension is refused with an error and nothing changes. KnnSearch(q, k) for k >= 0 never fails and returns at most k stored ids, none twice, each with its true distance from q, and at least one if k > 0; for k < 0 it returns an error. Neighborhood returns the neighbours of every stored vector and an error for any other id.", "quantifier": "every history of insertions (accepted or refused) with every choice of levels, every query and every k", "why_tests_cant": "the graph after n insertions depends on n random levels and all distances; tests run a few seeds", "anchors": ["pkg/hnsw/hnsw.go: InsertVector, KnnSearch, searchLevel, selectNeighbors", "pkg/hnsw/friends.go: InsertFriendsAtLevel"]}
{"id": "C66", "title": "No vector has more than M neighbours on a level", "statement": "After any history no stored vector has more than M neighbours on any level (the Go code prunes neighbour lists to M).", "quantifier": "every history of insertions with every choice of levels, every id and level", "why_tests_cant": "needs all interleavings of levels; tests only check single lists", "anchors": ["pkg/hnsw/hnsw.go: InsertVector lines 220-241", "pkg/hnsw/friends.go: InsertFriendsAtLevel"]}
{"id": "C67", "title": "A search finds the nearest stored vectors", "statement": "KnnSearch returns the k nearest stored vectors; in particular a stored vector is found when searching for it.", "quantifier": "every history, query and k", "why_tests_cant": "exactness over all histories cannot be sampled; tests use clustered data", "anchors": ["pkg/hnsw/hnsw.go: KnnSearch, InsertVector"]}
{"id": "C68", "title": "No vector is its own neighbour", "statement": "After any history no stored vector is listed among its own neighbours on any level.", "quantifier": "every history with every choice of levels, every id and level", "why_tests_cant": "depends on the levels drawn at random", "anchors": ["pkg/hnsw/hnsw.go: InsertVector lines 207-249, searchLevel"]}
{"id": "C69", "title": "A search with the wrong dimension is refused", "statement": "KnnSearch for a vector whose dimension is not that of the graph returns an error, as InsertVector does.", "quantifier": "every graph and every query of another dimension", "why_tests_cant": "must hold for every graph and every dimension", "anchors": ["pkg/hnsw/hnsw.go: KnnSearch", "pkg/hnsw/friends.go: EuclidDistance"]}
{"id": "C70", "title": "Flushed neighbourhoods list the nearest neighbours and can be read back", "statement": "Flush(n) of a stored vector's neighbourhood never fails; it writes 5n bytes with the n nearest neighbours, nearest first, and the bytes determine which neighbours there are.", "quantifier": "every history, id and n", "why_tests_cant": "injectivity over all neighbourhoods and failure freedom over all histories", "anchors": ["pkg/hnsw/friends.go: Flush", "pkg/hnsw/heap.go: Clone, PopMinItem"]}
{"id": "C71", "title": "Flushed neighbourhoods carry the highest common level", "statement": "The level byte Flush writes for a neighbour is the highest level on which the two are neighbours.", "quantifier": "every history with every choice of levels, id and n", "why_tests_cant": "depends on the levels drawn at random", "anchors": ["pkg/hnsw/friends.go: Flush, InsertFriendsAtLevel (maxLevels)"]}
{"id": "C72", "title": "A vector tree finds what was inserted", "statement": "After any history of a vector tree, Find(id) returns the id, data pointer and vector that were inserted under it, reports every id that was not inserted as missing, and changes nothing.", "quantifier": "every dimension, every sequence of inserts, rejected inserts, look-ups and reopenings", "why_tests_cant": "ranges over all histories, including any number of node splits, and all bit patterns of vector components", "anchors": ["pkg/btree/btree.go: Insert, Find, traverse", "pkg/btree/node.go: MarshalBinary, UnmarshalBinary"]}
{"id": "C73", "title": "Every vector can be stored in a vector tree", "statement": "Inserting a vector of the tree's dimension under a new id succeeds while the file has room; inserting an id again is refused without changing the file.", "quantifier": "every dimension, every history, every id and vector", "why_tests_cant": "depends on how node sizes, splits and the dimension interact over all histories", "anchors": ["pkg/btree/btree.go: Insert", "pkg/btree/node.go: Size, MarshalBinary"]}
{"id": "C74", "title": "Every vector of the graph is in the vector tree", "statement": "After any history of a vector page manager, every vector of its proximity graph can be looked up in the vector tree under the id the graph gave it.", "quantifier": "every sequence of AddNode calls, including failed ones, every id", "why_tests_cant": "ranges over all histories; the only test of the package never calls AddNode", "anchors": ["pkg/vectorpage/manager.go: AddNode, NewVectorPageManager", "pkg/hnsw/hnsw.go: NewHnsw"]}
{"id": "C75", "title": "N-gram positions designate the characters they come from", "statement": "For every text, the offset and length stored with an n-gram designate the bytes of that text from which the n-gram was taken.", "quantifier": "every text of valid UTF-8 and every gram length", "why_tests_cant": "ranges over all texts; the unit tests use short ASCII strings, for which bytes and characters coincide", "anchors": ["pkg/ngram/tokenizer.go: BuildNgram, NormalizeToAscii"]}
{"id": "C76", "title": "A search returns exactly the matching records", "statement": "A client search for a phrase in a searchable field of an indexed JSONL file returns exactly the records whose text in that field shares an n-gram (of the configured lengths) with the phrase.", "quantifier": "every file and history of synchronizations, every phrase, n-gram configuration and every outcome of the shuffle", "why_tests_cant": "ranges over all files, phrases and shuffles; the unit tests search one mocked tree", "anchors": ["src/db/database.ts: query (search)", "src/bptree/bptree.ts: termFrequency", "src/ngram/tokenizer.ts: NgramTokenizer", "pkg/handlers/jsonl.go: Synchronize"]}
{"id": "C77", "title": "A search returns each record once", "statement": "No record is returned more often than once by a search.", "quantifier": "every file, phrase and shuffle", "why_tests_cant": "depends on the identity of pointer objects created during the scan, for every multiset of occurrences", "anchors": ["src/bptree/bptree.ts: termFrequency", "src/ngram/table.ts: PriorityTable", "src/db/database.ts: query (search)"]}
{"id": "C78", "title": "Search results are ranked, and the ranking depends only on file and query", "statement": "The records are returned with the highest score first, and the scores are determined by the file and the query.", "quantifier": "every file, phrase and every two outcomes of the shuffle", "why_tests_cant": "the look-up order is random: no single run shows that another order gives the same scores", "anchors": ["src/db/database.ts: query (search)", "src/ngram/tokenizer.ts: shuffle", "src/bptree/bptree.ts: tfMap", "src/ngram/table.ts: top"]}
{"id": "C79", "title": "Search scores are numbers", "statement": "The score of every returned record is a number (not NaN).", "quantifier": "every file and phrase", "why_tests_cant": "depends on the ratio of occurrences to records over all files", "anchors": ["src/db/database.ts: query (search), idf"]}
{"id": "C80", "title": "Synchronize accepts every well-formed JSONL file", "statement": "Synchronizing the index with a file below 2^44 bytes whose lines are JSON objects with fields of the supported kinds succeeds.", "quantifier": "every history of synchronizations, every file of well-formed lines, every choice of search headers and every text", "why_tests_cant": "whether two entries collide depends on the normal form of every possible Unicode text and on all positions in all files", "anchors": ["pkg/handlers/jsonl.go: Synchronize, handleJSONLObject", "pkg/ngram/tokenizer.go: BuildNgram", "pkg/bptree/bptree.go: Insert"]}
{"id": "C81", "title": "White space between JSON tokens does not change what is indexed", "statement": "Two JSONL files whose corresponding lines have the same fields with the same values, and differ only in white space between tokens, give indexes for the same names and types in the same order with the same key values.", "quantifier": "every two files and any histories that index them", "why_tests_cant": "ranges over all placements of white space in all files", "anchors": ["pkg/handlers/jsonl.go: handleJSONLObject, Parse"]}
{"id": "C82", "title": "A where query on a JSONL file returns exactly the matching lines", "statement": "For a file of JSON objects that has been indexed, a query field op value returns the lines whose field has a value of the kind of value that satisfies the condition, each once per such field, sorted by the value in the requested direction.", "quantifier": "every file of JSON texts (any white space, escapes, nesting, number syntax), every history of synchronizations, every field, operator, value and direction", "why_tests_cant": "connects the text of the file with the rows of the client for all files and queries", "anchors": ["pkg/handlers/jsonl.go: Synchronize, handleJSONLObject", "src/db/database.ts: query", "src/db/query-lang.ts: processWhere"]}
{"id": "C83", "title": "An equality query never returns a wrong line", "statement": "A query field == value on an indexed JSONL file returns the lines whose field has that value, all of them or none, in file order, and never any other line.", "quantifier": "every file of JSON texts, every history of synchronizations, every field and value", "why_tests_cant": "a wrong line could appear for any combination of index shape and value", "anchors": ["src/db/database.ts: query", "pkg/handlers/jsonl.go"]}
{"id": "C84", "title": "A query for a kind of value the field never has returns no rows", "statement": "If no line of an indexed JSONL file has, in the queried field, a value of the kind of the query's value, the query returns no rows and no error.", "quantifier": "every file, field, operator and value", "why_tests_cant": "depends on which indexes exist for all files", "anchors": ["src/db/database.ts: query (seek, mps[0])", "src/file/index-file.ts: seek"]}
{"id": "C85", "title": "select returns exactly the selected fields of the record", "statement": "With a select list, each returned row is an object with exactly those selected fields that the record has, with their values; without one it is the whole record.", "quantifier": "every record, every list of names, every query", "why_tests_cant": "ranges over all names, including those with a meaning in JavaScript", "anchors": ["src/db/query-lang.ts: handleSelect", "src/db/database.ts: query"]}
{"id": "C86", "title": "A CSV line is split into exactly the fields it encodes", "statement": "A line of a CSV file is accepted if and only if it is a comma-separated list of fields, each plain (no quote character, no comma) or quoted (quotes inside doubled), and then the values used for the index are exactly the encoded ones; no line encodes two different lists of values.", "quantifier": "every line, of any length and content", "why_tests_cant": "ranges over all byte strings; ambiguous or misparsed lines can be of any shape", "anchors": ["pkg/handlers/csv.go: Synchronize (csv.NewReader(bytes.NewReader(line)).Read)"]}
{"id": "C87", "title": "A data file that became shorter is reported as an error", "statement": "Synchronizing an index with a data file that is shorter than what it has already indexed returns an error, does not crash, and leaves the index unchanged.", "quantifier": "every index, every history, every shorter file, JSONL and CSV", "why_tests_cant": "all states and all lengths", "anchors": ["pkg/handlers/jsonl.go: Synchronize (df[metadata.ReadOffset:])", "pkg/handlers/csv.go: Synchronize"]}
{"id": "C88", "title": "The client's caches are transparent while the index file does not change", "statement": "As long as the index file does not change and its server answers equal requests equally, a database object on which any calls have been made in any order answers metadata, indexHeaders, fields, seek and every query exactly as a newly created one does, failures included.", "quantifier": "every index file and server, every sequence of earlier calls, every query", "why_tests_cant": "all histories of calls on one object", "anchors": ["src/file/multi.ts: LinkedMetaPage (metaPageDataPromise)", "src/file/index-file.ts: IndexFileV1 (_tree, linkedMetaPages)", "src/db/database.ts: Database (indexHeadersPromise)"]}
{"id": "C89", "title": "A failed request does not poison the client", "statement": "After a call that failed because the server could not be reached, later calls on the same database object succeed when the server is back.", "quantifier": "every history of calls, every failing and recovering server", "why_tests_cant": "all histories and all failure points", "anchors": ["src/file/multi.ts: LinkedMetaPage.getMetaPage", "src/db/database.ts: Database.fields", "src/file/index-file.ts: IndexFileV1.tree"]}
{"id": "C90", "title": "An open client sees what has been appended later", "statement": "A database object that has already answered queries answers later ones from the files as they then are: new rows, new fields and the new file metadata are seen.", "quantifier": "every history of calls and every change of the files between them", "why_tests_cant": "all histories of client and writer", "anchors": ["src/file/multi.ts: LinkedMetaPage.getMetaPage", "src/db/database.ts: Database.query, Database.fields", "src/file/index-file.ts: IndexFileV1.metadata"]}
{"id": "C91", "title": "Concurrent calls on one client return what single calls return", "statement": "When several calls of indexHeaders are under way on one object, each returns what a single call would return, in every order of their asynchronous steps.", "quantifier": "every index file, every number of calls, every interleaving of their steps", "why_tests_cant": "all interleavings", "anchors": ["src/file/index-file.ts: IndexFileV1.indexHeaders, IndexFileV1.fetchMetaPages"]}
{"id": "C92", "title": "Queries work on CSV files", "statement": "A query with one condition on a column of an indexed CSV file returns the rows whose cell in that column is of the kind of the given value and meets the condition, each once, sorted by the cell.", "quantifier": "every CSV file without quotes, every history of Synchronize calls that indexed it, every column, operator, value, and order of the result", "why_tests_cant": "It relates two programs in two languages through a file format; the CSV handler writes trees of another layout than the metadata announce, and which queries that breaks depends on the kinds of the cells and on byte values at the positions misread.", "anchors": ["pkg/handlers/csv.go: handleCSVLine", "pkg/appendable/index_file.go: FindOrCreateIndex", "src/db/database.ts: query", "src/db/query-lang.ts: handleSelect", "src/bptree/node.ts: unmarshalBinary, parseValue"]}
{"id": "C93", "title": "A crash during Synchronize can be repaired by running it again", "statement": "If the process dies at any moment during Synchronize, the index file can be opened again and a later Synchronize completes the index: it then holds what it would hold had there been no crash.", "quantifier": "every history of Synchronize calls and reopenings, every data file appended to it, and every number of writes after which the process dies", "why_tests_cant": "all crash points of all histories", "anchors": ["pkg/handlers/jsonl.go: JSONLHandler.Synchronize", "pkg/appendable/index_file.go: NewIndexFile", "pkg/bptree/bptree.go: Insert"]}
{"id": "C94", "title": "A crash while an index file or the index of a new field is created can be repaired", "statement": "If the process dies at any moment while a new index file is created, while FindOrCreateIndex adds the index of a new field, or while Synchronize meets a new field, the file can be opened again and used: the same call made again succeeds.", "quantifier": "every index file and history, every new field name and type, every number of writes after which the process dies", "why_tests_cant": "all crash points of all histories", "anchors": ["pkg/appendable/index_file.go: NewIndexFile, FindOrCreateIndex", "pkg/linkedpage/linkedpage.go: New, AddNext, SetMetadata", "pkg/handlers/jsonl.go: JSONLHandler.Synchronize"]}
{"id": "C95", "title": "Every line is searchable by the search headers of the last run", "statement": "After a run of the program with search header h on a data file, the n-gram indexes of h cover every complete line that has a text in the field h, whichever search headers the earlier runs that indexed the line were given.", "quantifier": "every history of runs of the program, each with its own search headers, on a data file that grows", "why_tests_cant": "all histories of runs, all files", "anchors": ["cmd/main.go: main", "pkg/appendable/index_file.go: NewIndexFile", "pkg/handlers/jsonl.go: JSONLHandler.Synchronize, handleJSONLObject"]}
{"id": "C96", "title": "CSV Synchronize records how far the file is indexed", "statement": "After a successful Synchronize of a CSV file the recorded read offset is the offset just after the last complete line, and the recorded number of entries has grown by the number of rows that were indexed.", "quantifier": "every state of the index file, every data file and every set of new lines", "why_tests_cant": "all files and all states", "anchors": ["pkg/handlers/csv.go: CSVHandler.Synchronize", "pkg/appendable/index_file.go: Metadata, SetMetadata"]}
{"id": "C97", "title": "Blank lines in a CSV file do not stop indexing", "statement": "A blank line (empty, or a carriage return only) among the lines of a CSV file is skipped by Synchronize, as encoding/csv skips it: the lines after it are indexed.", "quantifier": "every state of the index file, every data file, every position of the blank line", "why_tests_cant": "all files and all positions", "anchors": ["pkg/handlers/csv.go: CSVHandler.Synchronize, handleCSVLine"]}
{"id": "C98", "title": "TypescriptType names the type of the values of a field", "statement": "For every field type, TypescriptType returns the TypeScript type of the values stored in fields of that type.", "quantifier": "every declared field type", "why_tests_cant": "the repository has no test of it; it must hold for every declared constant", "anchors": ["pkg/appendable/appendable.go: FieldType, TypescriptType"]}
{"id": "C99", "title": "A failed CSV Synchronize can be repeated", "statement": "If Synchronize of a CSV file fails at some line, then after the lines from there on have been repaired in the data file a further Synchronize succeeds, and the index is the one a single Synchronize would have built.", "quantifier": "every history, every table, every position of the offending line, every repaired file, any number of retries and reopenings", "why_tests_cant": "all histories and all later data files", "anchors": ["pkg/handlers/csv.go: CSVHandler.Synchronize, handleCSVLine", "pkg/bptree/bptree.go: BPTree.Insert"]}
{"id": "C100", "title": "The random level of a new HNSW node is a level, and geometrically distributed", "statement": "Whatever number the random generator returns, InsertVector gives the new node a level of zero or more (it does not panic because of the draw), and a node reaches level l or above exactly for the draws of at most M^-l.", "quantifier": "every M of at least 1, every number in [0,1) the generator may return, every graph and vector", "why_tests_cant": "the generator returns the offending number once in 2^53 calls, and the distribution ranges over all draws", "anchors": ["pkg/hnsw/hnsw.go: SpawnLevel, NewHnsw, InsertVector"]}
{"id": "C101", "title": "Trees are balanced and a look-up reads logarithmically many pages", "statement": "At any time, every way from the root page of a tree down to a leaf passes the same number of pages, and if n entries have been inserted that number, and the number of pages a search for any key reads, is at most 1 + log2 n.", "quantifier": "every history of inserts (in any key order), look-ups, reopenings and data file growth on any number of trees in one file, every key", "why_tests_cant": "unbalanced or degenerate trees show up only for particular insertion orders and sizes", "anchors": ["pkg/bptree/bptree.go: Insert, traverse, Find"]}
{"id": "C102", "title": "Insert writes logarithmically many times", "statement": "Insert into a tree with n entries issues at most 4 (log2 n + 2) writes to the index file, wherever the key belongs and however many pages are split.", "quantifier": "every history of inserts, look-ups, reopenings and data file growth on any number of trees in one file, every valid key and pointer", "why_tests_cant": "the worst case is a cascade of splits up to the root, which a test reaches for few shapes only", "anchors": ["pkg/bptree/bptree.go: Insert", "pkg/pagefile/pagefile.go: NewPage"]}
{"id": "C103", "title": "Index files waste no space", "statement": "At any time an index file is at most as large as its header page, one page per fifteen index slots, one page per tree, and one page for every m*m/(m+1) entries of a tree, where m is half the number of keys that fit on a page: every page but one of each tree is at least half full, and no allocated page is lost.", "quantifier": "every history of opening, creating indexes, setting metadata, inserting, failed inserts of existing keys, reopening and data file growth, with index widths up to 2012 bytes", "why_tests_cant": "leaked or nearly empty pages appear only for particular orders of inserts and splits, and show no functional error", "anchors": ["pkg/bptree/bptree.go: Insert", "pkg/pagefile/pagefile.go: NewPage", "pkg/linkedpage/linkedpage.go", "pkg/appendable/index_file.go: FindOrCreateIndex"]}
{"id": "C104", "title": "The index file grows linearly with the data", "statement": "After any history of successful Synchronize calls the index file has at most 4096 bytes per index, 4096 per fifteen indexes, 8192 more, and 79 bytes per entry for JSONL, or 62 per cell for CSV; so it is bounded by a constant times the size of the data file (20480 for JSONL, 8192 for CSV) plus 8192.", "quantifier": "every data file of supported lines, every way to cut it into Synchronize calls, every reopening", "why_tests_cant": "the bound must hold for every order of values and every split of the calls", "anchors": ["pkg/handlers/jsonl.go: Synchronize", "pkg/handlers/csv.go: Synchronize", "pkg/bptree/bptree.go: Insert"]}
{"id": "C105", "title": "Look-ups change nothing and nothing depends on them", "statement": "Find, Contains, iterator steps, Root, Metadata, Next, Collect, Indexes, IsEmpty and IndexFieldNames leave the file and the free list exactly as they are, whatever they return and whatever state the file is in; repeating a look-up gives the same answer; and in every history of calls leaving out the look-ups changes neither the outcome of any other call (Insert, NewPage, FreePage, FindOrCreateIndex, Synchronize, ...) nor the file at the end.", "quantifier": "every call of the API, every state of the file (also damaged or full), every history of calls", "why_tests_cant": "all calls share one file position; independence must hold for every interleaving and every state", "anchors": ["pkg/bptree/bptree.go: Find, Contains, Next, Prev, Insert", "pkg/linkedpage/linkedpage.go: Root, Metadata, Next, Collect", "pkg/appendable/index_file.go: Metadata, IsEmpty, IndexFieldNames", "pkg/btree/btree.go: Find", "pkg/handlers/jsonl.go: Synchronize", "pkg/handlers/csv.go: Synchronize"]}
{"id": "C106", "title": "Rows anywhere in the data file can be found", "statement": "A record of the data file that is in the index and meets the condition of a query is returned by the client, wherever in the file the record starts and however long it is.", "quantifier": "every index file, every data file of any size, every position and length of the record, every query", "why_tests_cant": "tests use files of a few kilobytes; the claim is about all positions, also beyond 2 GB", "anchors": ["src/util/uvarint.ts: decodeUvarint", "src/bptree/node.ts: unmarshalBinary", "src/file/data-file.ts: get", "src/db/database.ts: query"]}
{"id": "C107", "title": "A file that is not an index file is refused and left alone", "statement": "Opening a file that is not an index file of the current version and the format of the data reports an error and changes no byte of the file.", "quantifier": "every file (any content, any size, either backend), format and list of search headers", "why_tests_cant": "ranges over all file contents; the tests only open empty files and files they have written themselves", "anchors": ["pkg/pagefile/pagefile.go:NewPageFile", "pkg/linkedpage/linkedpage.go:NewMultiBPTree", "pkg/appendable/index_file.go:NewIndexFile", "pkg/mmap/mmap.go:Read"]}
{"id": "C108", "title": "A damaged index file is reported by an error, not by a panic", "statement": "Whatever the bytes of the file are, opening it and looking up or inserting a key end normally or with an error; they do not panic.", "quantifier": "every file content, every key", "why_tests_cant": "ranges over all file contents", "anchors": ["pkg/pagefile/pagefile.go:NewPageFile", "pkg/linkedpage/linkedpage.go:Metadata", "pkg/appendable/index_file.go:NewIndexFile", "pkg/bptree/node.go:UnmarshalBinary"]}
{"id": "C109", "title": "Look-ups in a file cut short never lose entries silently", "statement": "In an index file of which only the first pages are left (an incomplete copy or download), a look-up or an iteration of a B+ tree answers as in the whole file, or reports an error; it never passes off what was cut away as absent; and neither do the list of field names and the search for the index of a field.", "quantifier": "every history of insertions, every number of pages left, every key, both directions of iteration", "why_tests_cant": "ranges over all trees, all cut points and all keys; no test cuts a file", "anchors": ["pkg/bptree/bptree.go:root", "pkg/bptree/bptree.go:readNode", "pkg/bptree/bptree.go:Find", "pkg/bptree/bptree.go:Next", "pkg/bptree/bptree.go:Prev", "pkg/bptree/bptree.go:init", "pkg/linkedpage/linkedpage.go:Next", "pkg/linkedpage/linkedpage.go:Metadata", "pkg/appendable/index_file.go:IndexFieldNames", "pkg/appendable/index_file.go:FindOrCreateIndex"]}
{"id": "C110", "title": "Readers during an insert see every stored row", "statement": "A client that queries the served index file at any moment while the writer inserts one more entry gets every matching row that was stored before (with or without the new one).", "quantifier": "every history of the index file, every inserted entry, every moment between two writes of the insert, every query", "why_tests_cant": "ranges over all interleavings of the writes of an insert with a reader; no test reads while writing", "anchors": ["pkg/bptree/bptree.go:Insert", "pkg/pagefile/pagefile.go:NewPage", "src/btree/bptree.ts:BTree", "src/db/database.ts:query"]}
{"id": "C111", "title": "A query with a search part and a where part means both", "statement": "A query that has both `search` and `where` returns only records that satisfy both parts; a query that has one of them returns what that part asks for.", "quantifier": "every database, every query object, every random choice of the search", "why_tests_cant": "all combinations of searches and conditions over all files; no test combines them", "anchors": ["src/db/database.ts:query"]}
{"id": "C112", "title": "An accepted search configuration can be searched with", "statement": "If validateSearch accepts a configuration of minGram and maxGram, the search with it does not throw because of the configuration.", "quantifier": "every pair of JavaScript numbers (fractions, NaN and infinities too), every phrase and database", "why_tests_cant": "ranges over all numbers; tests use whole ones", "anchors": ["src/db/query-validation.ts:validateSearch", "src/ngram/tokenizer.ts:tokens", "src/db/database.ts:query"]}
{"id": "C113", "title": "query refuses what validateQuery refuses", "statement": "A query object with an unknown operation, an orderBy on another field, an unknown direction, an unknown field or a value of a type that cannot be queried is refused with an exception by query, as by validateQuery.", "quantifier": "every database, every query object", "why_tests_cant": "all malformed objects over all files; the tests call validateQuery, which query does not", "anchors": ["src/db/database.ts:query", "src/db/query-validation.ts:validateQuery", "src/db/query-lang.ts:processWhere"]}
{"id": "C114", "title": "Failing requests never make an answer incomplete without an exception", "statement": "If some of the requests of a client fail (network errors, refused ranges), a query gives the rows that it gives when none fails, or the first of these rows and then an exception; fieldNames-style listing of the indexes gives the same list or an exception. An answer that ends without an exception is complete.", "quantifier": "every database (also damaged ones), every query object with search and conditions, every subset of requests that fail", "why_tests_cant": "ranges over all subsets of failing requests, all files and all queries; no test lets a request fail in the middle of a query", "anchors": ["src/db/database.ts:query", "src/bptree/bptree.ts:BPTree", "src/bptree/traversal.ts:TraversalIterator", "src/file/multi.ts:LinkedMetaPage", "src/resolver/resolver.ts:RangeResolver"]}
{"id": "C115", "title": "A client of an index file cut short never silently returns an incomplete answer", "statement": "A query on an index file of which only the first bytes are left (an upload in progress, an incomplete copy) gives the rows of the query on the whole file, or an exception.", "quantifier": "every history of the index file, every number of bytes that are left, every query", "why_tests_cant": "ranges over all files, all cut points and all queries; no test cuts a file that is served", "anchors": ["src/bptree/node.ts:BPTreeNode", "src/bptree/bptree.ts:readNode", "src/db/database.ts:query", "src/resolver/resolver.ts:RangeResolver"]}
{"id": "C116", "title": "A file whose length has changed is noticed", "statement": "A resolver that is told the expected length of the file throws LengthIntegrityError if the file at the server has another length by now; it never answers with bytes of the changed file.", "quantifier": "every file, every expected length, every list of ranges inside of the file, both configurations of useMultipartByteRanges, every server that serves the file", "why_tests_cant": "ranges over all files, lengths and lists of ranges; no test calls requestRanges", "anchors": ["src/resolver/resolver.ts:LengthIntegrityError", "src/resolver/range-request.ts:requestRanges", "src/resolver/range-request.ts:resolveIndividualPromises"]}
