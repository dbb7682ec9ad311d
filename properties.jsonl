{"id": "C01", "title": "Gorilla compaction is lossless", "statement": "Feeding any list of (timestamp, value) points to a Gorilla compactor and decompacting the bytes it returns yields exactly the same list of points, bit for bit.", "quantifier": "every finite list of points with arbitrary u64 timestamps and arbitrary f64 bit patterns (release build arithmetic)", "why_tests_cant": "2^128 possible points per position and unbounded lists; the failing deltas and XOR shapes are single values in huge ranges", "anchors": ["src/compaction/gorilla.rs: GorillaCompactor::compact, compact_value, GorillaDecompactor::next", "src/compaction/mod.rs: Compactor::compact, get_bytes_vec, Decompactor::decompact"]}
{"id": "C02", "title": "Exact domain on which Gorilla compaction is lossless", "statement": "Decompaction returns the original points if and only if (a) no second difference of consecutive timestamps (mod 2^64, signed) equals 2^7, 2^15 or 2^31, and (b) no value change that opens a new XOR window has 32 or more leading zero bits or all 64 bits significant. In particular it is lossless whenever every second difference avoids those three numbers and every XOR of neighbouring values is zero or has fewer than 32 leading zeros and at least one leading or trailing zero.", "quantifier": "every finite list of points, both directions of the equivalence", "why_tests_cant": "an exact iff over an infinite domain; sampling never meets the excluded second differences or a 64-bit-wide XOR by chance", "anchors": ["src/compaction/gorilla.rs: in_bit_range, compact_value, decompact_values, decompact_timestamp"]}
{"id": "C03", "title": "Snapshots of a compactor decode to the prefix compacted so far", "statement": "Reading the bytes of a compactor does not change it; after any number of points within the lossless domain the bytes read decode to exactly the points fed so far, and splitting one compact_vec call into several on the same compactor gives the same final bytes.", "quantifier": "every list of points, every split position", "why_tests_cant": "every prefix of every stream, not one end state", "anchors": ["src/compaction/mod.rs: Compactor::compact_vec, get_bytes_vec"]}
{"id": "C04", "title": "Debug builds never produce different Gorilla bytes; exact panic conditions", "statement": "A build with overflow checks either panics while compacting or produces exactly the bytes of the release build; it panics exactly when a timestamp is smaller than its predecessor, a second difference overflows i64, or a second difference lies outside [-32767, 32768].", "quantifier": "every compactor state and every next point", "why_tests_cant": "panic boundary at one integer in 2^64", "anchors": ["src/compaction/gorilla.rs: GorillaCompactor::compact, in_bit_range"]}
{"id": "C05", "title": "Uncompressed compactor is lossless", "statement": "With CompactType::None, compacting any points and decompacting the resulting bytes yields the same points, whether the points are given one by one or through compact_vec.", "quantifier": "every finite list of points", "why_tests_cant": "unit tests use no None round trip; length dependence is unbounded", "anchors": ["src/compaction/mod.rs: Compactor::compact, compact_vec, Decompactor::decompact (None arms)"]}
{"id": "C06", "title": "Decompactor checks the type tag", "statement": "Constructing a decompactor of an implemented type T from bytes succeeds if and only if the last byte is T's tag; otherwise it returns CompactionTypeDontMatch naming the expected and the actual last byte (0 for empty input); the unimplemented Simple type is always refused. Bytes produced by one compaction type are never accepted for another.", "quantifier": "every byte vector and every compaction type, every compactor state", "why_tests_cant": "all byte vectors", "anchors": ["src/compaction/mod.rs: Decompactor::from, Compactor::get_bytes_vec, compact_vec"]}
{"id": "C07", "title": "Appending bit streams is bit concatenation", "statement": "Appending one well-formed bit stream to another yields the stream whose bits are the bits of the first followed by the bits of the second; writing n low bits of a 64-bit word appends exactly those bits; reading back n bits at any offset returns exactly the bits written there.", "quantifier": "every pair of streams, every bit width 1..64, every cursor and length", "why_tests_cant": "alignment cases multiply: 8 x 8 offsets times arbitrary lengths and contents", "anchors": ["src/compaction/mod.rs: Bstream::append, append_bytes, write, write_bits, BstreamSeeker::read_next_n_bit"]}
{"id": "C08", "title": "Decompaction of arbitrary bytes terminates", "statement": "Decompacting any byte vector carrying the Gorilla tag terminates after at most as many points as the stream has bits: every step that yields a point consumes at least one bit and never moves past the end of the stream.", "quantifier": "every byte vector, including corrupt ones", "why_tests_cant": "termination over all inputs; fuzzing can only time out", "anchors": ["src/compaction/gorilla.rs: Iterator for GorillaDecompactor", "src/compaction/mod.rs: read_next_n_bit, reset_cursor"]}
{"id": "C09", "title": "Corrupt compacted data does not crash the reader", "statement": "Decompacting an arbitrary byte vector carrying the Gorilla tag never panics.", "quantifier": "every byte vector", "why_tests_cant": "the inputs that panic are rare shapes (bad bit count, oversized windows)", "anchors": ["src/compaction/mod.rs: Bstream::from_bytes, bitlen, read_next_n_bit", "src/compaction/gorilla.rs: decompact_values"]}
{"id": "C10", "title": "Chunk directory names identify the time window", "statement": "Decoding the directory name of a chunk returns the chunk's start and end time; different windows have different names; the name contains only lowercase hex digits.", "quantifier": "every pair of u64 timestamps", "why_tests_cant": "2^128 windows; zero-padding edge cases when start is 0", "anchors": ["src/common/utils.rs: encode_chunk_dir, decode_chunk_dir"]}
{"id": "C11", "title": "Reopening recovers each chunk's window from the directory tree", "statement": "When the database is opened on a base directory, each chunk directory written earlier is recognised with the start time it was created with and an end time equal to the minimum of its original end time and the current time; other entries are ignored.", "quantifier": "every base path string, every window, every current time", "why_tests_cant": "depends on every character of the base path (bytes versus characters)", "anchors": ["src/db.rs: read_existing_chunk", "src/common/utils.rs: decode_chunk_dir"]}
{"id": "C12", "title": "Multi-way id intersection is exact", "statement": "Intersecting ascending id lists returns, in ascending order and without repetition, exactly the ids present in every list (and the empty list for no lists).", "quantifier": "every number of lists of every length", "why_tests_cant": "tests use prefixes of 1..100 for five list counts", "anchors": ["src/common/utils.rs: intersect_time_series_id_vec", "src/common/mod.rs: OrderIntersect"]}
{"id": "C13", "title": "Intersection does not depend on thread scheduling", "statement": "The result of the multi-threaded intersection is the same for every order in which worker threads finish, for all inputs, and it is never an error.", "quantifier": "every interleaving of completion order at every level of the recursion, every input (sorted or not)", "why_tests_cant": "schedules cannot be enumerated by running", "anchors": ["src/common/utils.rs: intersect_time_series_id_vec (gather loop)"]}
{"id": "C14", "title": "Label order is irrelevant to series identity", "statement": "For label sets with distinct names, any two orderings of the same labels denote the same series: same index key and same stored metadata.", "quantifier": "every permutation of every label set with distinct names", "why_tests_cant": "n! permutations", "anchors": ["src/indexer/sled_indexer.rs: KvIndexerProcessor::encode_labels", "src/common/label.rs: Ord for Label, Labels::sort"]}
{"id": "C15", "title": "Distinct label sets are distinct series", "statement": "Two label sets with different labels never share an index key, and the labels stored for a series decode back to the labels it was created with (sorted by name); keys of label sets and of ids decode to what they encode.", "quantifier": "every pair of label sets with arbitrary label values", "why_tests_cant": "collisions need specific characters inside values", "anchors": ["src/indexer/sled_indexer.rs: encode_labels, decode_labels"]}
{"id": "C16", "title": "Exact-match lookup finds the created series", "statement": "After any sequence of index creations, looking up a label set returns the id it was created with, and nothing for a label set never created; same for the sled and the TiKV indexer.", "quantifier": "every history of index creations, every label set looked up (well-formed label sets: C15 and C21 say what happens otherwise)", "why_tests_cant": "history dependence", "anchors": ["src/indexer/sled_indexer.rs: create_index, get_series_id_by_labels", "src/indexer/tikv_indexer.rs: create_index, get_series_id_by_labels"]}
{"id": "C17", "title": "Containment lookup returns exactly the series having all requested labels", "statement": "Looking up series by a set of labels returns exactly the ids of the created series that contain all of the labels, in creation order.", "quantifier": "every history of index creations, every query label set", "why_tests_cant": "needs a query label no series has, combined with one that some series has", "anchors": ["src/indexer/sled_indexer.rs: get_series_id_contains_labels", "src/indexer/tikv_indexer.rs: get_series_id_contains_labels", "src/indexer/common.rs: Indexer docs"]}
{"id": "C18", "title": "What containment lookup actually returns", "statement": "For every history, containment lookup returns exactly the series containing every requested label that occurs in at least one series; requested labels that no series has are ignored; if none occurs the result is empty.", "quantifier": "every history of index creations, every query label set (well-formed label sets: C15 and C21 say what happens otherwise)", "why_tests_cant": "quantifies over histories and queries", "anchors": ["src/indexer/sled_indexer.rs: get_series_id_contains_labels, get_id", "src/indexer/tikv_indexer.rs: get_series_id_contains_labels"]}
{"id": "C19", "title": "Creating an index twice is rejected without effect (sled)", "statement": "Creating an index for a label set that already has one returns an error and leaves every later lookup unchanged.", "quantifier": "every indexer state, every label set and id", "why_tests_cant": "all states", "anchors": ["src/indexer/sled_indexer.rs: create_index"]}
{"id": "C20", "title": "Sled and TiKV indexers are interchangeable", "statement": "Over the same history of index creations with fresh label sets and increasing ids, the sled and the TiKV indexer answer every exact, containment and metadata lookup identically.", "quantifier": "every such history, every query (well-formed label sets: C15 and C21 say what happens otherwise)", "why_tests_cant": "relational property over two implementations", "anchors": ["src/indexer/sled_indexer.rs", "src/indexer/tikv_indexer.rs"]}
{"id": "C21", "title": "Index key spaces do not interfere", "statement": "The entry mapping a full label set to its id, the entry listing the ids of one label, and the entry mapping an id to its labels never share a storage key.", "quantifier": "every label, label set and id", "why_tests_cant": "needs a label name starting with a particular letter in a single-label series", "anchors": ["src/indexer/sled_indexer.rs: LABEL_PREFIX, LABEL_REVERSE_PREFIX, encode_label, encode_labels, encode_time_series_id"]}
{"id": "C22", "title": "Range reads return exactly the points in the inclusive range", "statement": "If the points of a series were written with strictly increasing timestamps, reading it for [start, end] with start <= end returns exactly the written points with start <= timestamp <= end in order, or an out-of-range error (naming the first and last timestamp) when the whole series lies before start or after end. Both backends.", "quantifier": "every strictly increasing write history, every range", "why_tests_cant": "boundary positions in unbounded series", "anchors": ["src/storage/common.rs: trim_time_series", "src/storage/sled_storage.rs", "src/storage/tikv_storage.rs"]}
{"id": "C23", "title": "Series are isolated in storage", "statement": "A write to one series never changes what a read of another series returns; a series never written reads as NotFound; a successful write makes it readable. Both backends.", "quantifier": "every history of writes, every pair of ids", "why_tests_cant": "all histories", "anchors": ["src/storage/sled_storage.rs: write_time_point, read_time_series", "src/storage/tikv_storage.rs: write_time_point, read_time_series"]}
{"id": "C24", "title": "TiKV storage keeps every series strictly increasing", "statement": "For every history of writes, the stored timestamps of each series are strictly increasing; a write is rejected exactly when its timestamp is not greater than the last stored one, and a rejected write changes nothing.", "quantifier": "every history of writes", "why_tests_cant": "invariant over histories", "anchors": ["src/storage/tikv_storage.rs: write_time_point"]}
{"id": "C25", "title": "An accepted out-of-order write is readable (sled)", "statement": "Every write that the sled storage accepts is returned by a subsequent read whose range covers it.", "quantifier": "every history of writes, including repeated and decreasing timestamps", "why_tests_cant": "depends on binary search over unsorted data", "anchors": ["src/storage/sled_storage.rs: write_time_point", "src/storage/common.rs: trim_time_series"]}
{"id": "C26", "title": "Reads never panic", "statement": "Reading a series with strictly increasing timestamps never panics, for every pair of range bounds.", "quantifier": "every strictly increasing series and every start, end (also start > end)", "why_tests_cant": "the panic needs an inverted range with at least one point strictly between", "anchors": ["src/storage/common.rs: trim_time_series"]}
{"id": "C27", "title": "A chunk accepts exactly the points strictly inside its window", "statement": "Insert fails with OutOfRangeErr(window) and changes nothing unless window start < timestamp < window end.", "quantifier": "every chunk state, label set and point", "why_tests_cant": "all states and timestamps", "anchors": ["src/chunk/chunk.rs: insert, is_in_range"]}
{"id": "C28", "title": "A chunk behaves as an append-only map from label sets to point lists", "statement": "For every history of inserts on a fresh sled-backed chunk with well-formed label sets, every insert inside the window succeeds, series get ids 1, 2, ... in order of first insertion, and each label set's stored series is the list of its accepted points in insertion order.", "quantifier": "every history of inserts", "why_tests_cant": "refinement over unbounded histories", "anchors": ["src/chunk/chunk.rs: insert", "src/common/mod.rs: IdGenerator", "src/indexer/sled_indexer.rs", "src/storage/sled_storage.rs"]}
{"id": "C29", "title": "Chunk queries return every matching series restricted to the range", "statement": "On a chunk built by inserts with increasing timestamps per series, a query overlapping the window returns exactly the series that contain all requested labels and have points in the range, each with exactly its points in the range.", "quantifier": "every insert history, query label set and range", "why_tests_cant": "the failure needs one matching series entirely outside the queried range", "anchors": ["src/chunk/chunk.rs: query"]}
{"id": "C30", "title": "What a chunk query actually returns", "statement": "On such a chunk, if every matched series has its first point <= end and last point >= start the query returns exactly the matched series that have points in range (with exactly those points); if some matched series lies entirely outside the range the whole query fails with that series' OutOfRange error.", "quantifier": "every insert history, query label set and range", "why_tests_cant": "exact characterisation over histories", "anchors": ["src/chunk/chunk.rs: query", "src/storage/common.rs: trim_time_series"]}
{"id": "C31", "title": "An acknowledged insert is stored", "statement": "If insert returns Ok the point is stored in its series.", "quantifier": "every history, both storage backends", "why_tests_cant": "needs a second point with non-increasing timestamp on the TiKV backend", "anchors": ["src/chunk/chunk.rs: insert (else branch drops the result)", "src/storage/tikv_storage.rs: write_time_point"]}
{"id": "C32", "title": "Concurrent inserts are atomic with respect to each other", "statement": "Every interleaving of the elementary store operations of concurrent inserts on one chunk gives the same chunk state as some sequential order of those inserts, consistent with each thread's program order.", "quantifier": "every number of threads, programs and schedules", "why_tests_cant": "schedules cannot be enumerated by running", "anchors": ["src/chunk/chunk.rs: insert (write lock)"]}
{"id": "C33", "title": "A query concurrent with inserts sees whole inserts", "statement": "A query running concurrently with an insert returns either the result before the insert or the result after it.", "quantifier": "every interleaving of a query with inserts", "why_tests_cant": "race window between index creation and first point", "anchors": ["src/chunk/chunk.rs: query (read guard dropped immediately)"]}
{"id": "C34", "title": "A closed chunk rejects inserts", "statement": "After close, insert fails.", "quantifier": "every chunk", "why_tests_cant": "absence of a check: no input can make it appear", "anchors": ["src/chunk/chunk.rs: close, insert"]}
{"id": "C35", "title": "Crash during inserts never corrupts already stored series", "statement": "If the process stops after any prefix of the elementary store operations of a history of inserts (prefix-durable stores), then on the surviving state every series whose insert completed is found by exact lookup with all its points, and no point or label is reported that was not inserted.", "quantifier": "every insert history, every crash point", "why_tests_cant": "every crash point", "anchors": ["src/chunk/chunk.rs: insert", "src/indexer/sled_indexer.rs: create_index", "src/storage/sled_storage.rs: write_time_point"]}
{"id": "C36", "title": "A crash loses at most the interrupted insert for queries", "statement": "After a crash at any point of an insert, a query on the reopened chunk returns the same as before that insert or as after it.", "quantifier": "every crash point", "why_tests_cant": "every crash point", "anchors": ["src/chunk/chunk.rs: query, insert", "doc/wal.md"]}
{"id": "C37", "title": "Batch write semantics of the database", "statement": "write_time_points drops points outside [start, end] or with timestamp 0 silently, inserts every remaining point it can in order even if some fail, and returns an error exactly when a remaining point's insert failed; on a sled chunk that is exactly when some kept point lies on the window boundary (well-formed labels).", "quantifier": "every batch of points and chunk state", "why_tests_cant": "all batches and states", "anchors": ["src/db.rs: write_time_points"]}
{"id": "C38", "title": "No timestamp falls between chunks", "statement": "Every timestamp from the first chunk's start on can be stored in the chunk that is current at that time or an adjacent one.", "quantifier": "every timestamp and every sequence of chunk swaps", "why_tests_cant": "boundary timestamps only", "anchors": ["src/db.rs: new (swap thread), swap", "src/chunk/chunk.rs: is_in_range"]}
{"id": "C39", "title": "Chunk windows are ordered and disjoint", "statement": "For every run of the swap timer (each tick at least chunk_size after the previous one), the chunk windows are ordered by creation and no timestamp can be accepted by two of them.", "quantifier": "every sequence of tick times", "why_tests_cant": "all clock sequences", "anchors": ["src/db.rs: new, swap", "src/chunk/chunk.rs: is_in_range"]}
{"id": "C40", "title": "Database queries merge chunks in time order", "statement": "A database query returns each matching label set once, with the concatenation, in chunk order, of the points its chunks return; when chunk windows are ordered the points of each series are sorted by time.", "quantifier": "every set of chunks and every query", "why_tests_cant": "all chunk layouts; hash-map iteration order", "anchors": ["src/db.rs: query"]}
{"id": "C41", "title": "Result merging does not confuse label sets", "statement": "Merging per-chunk results never mixes the points of two different label sets and never panics, whatever the hash function.", "quantifier": "every collection of label sets and every hash function", "why_tests_cant": "depends on random hash seeds", "anchors": ["src/common/label.rs: PartialEq for Labels", "src/db.rs: query (HashMap)"]}
{"id": "C42", "title": "Chunk swap never hides data from queries", "statement": "For every interleaving of a database query with a chunk swap, every point of the pre-swap chunks that a query outside the swap would return is returned.", "quantifier": "every interleaving of the swap's critical sections with the query's", "why_tests_cant": "interleavings", "anchors": ["src/db.rs: swap, query"]}
{"id": "C43", "title": "Chunk swap never duplicates data in queries", "statement": "For every interleaving of a database query with a chunk swap, no point is returned twice.", "quantifier": "every interleaving of the swap's critical sections with the query's", "why_tests_cant": "interleavings", "anchors": ["src/db.rs: swap, query"]}
{"id": "C44", "title": "A database directory can only be reopened with the same component types", "statement": "Opening succeeds on a fresh directory and records the types; reopening succeeds exactly when both the storage and indexer type equal those of the first successful open, and failed opens leave the record unchanged. The record names the storage type under storage_type and the indexer type under indexer_type.", "quantifier": "every sequence of open attempts", "why_tests_cant": "all sequences", "anchors": ["src/db.rs: new, read_or_create_metadata"]}
{"id": "C45", "title": "TiKV components can be found again after restart", "statement": "The storage and indexer prefixes used while a TiKV chunk is written are the prefixes used when the chunk is reopened.", "quantifier": "every UUID assignment and prior backend content", "why_tests_cant": "no test reopens a TiKV chunk", "anchors": ["src/backend/tikv.rs: init_component", "src/indexer/tikv_indexer.rs: read_from_chunk", "src/storage/tikv_storage.rs: read_from_chunk"]}
{"id": "C46", "title": "Chunks sharing a TiKV backend do not share series", "statement": "Two different chunks on one TiKV backend never read or write the same storage key.", "quantifier": "every UUID assignment, every series id", "why_tests_cant": "needs two chunks on one backend", "anchors": ["src/backend/tikv.rs: init_component", "src/storage/tikv_storage.rs: write_time_point"]}
{"id": "C47", "title": "Remote read answers each query in order without distorting samples", "statement": "The read endpoint returns one result per query in request order; converting stored points to wire samples and back preserves timestamp and value for all 64-bit values.", "quantifier": "every read request, every point", "why_tests_cant": "all i64/u64 values", "anchors": ["src/server.rs: query", "src/common/time_point.rs: From impls", "src/common/time_series.rs: From impls"]}
{"id": "C48", "title": "Remote write processes series in order and stops at the first failure", "statement": "A write request writes its series in order through the batch write; if one fails the request fails, all earlier series are written and no later one is.", "quantifier": "every request and database state", "why_tests_cant": "all requests", "anchors": ["src/server.rs: write"]}
{"id": "C49", "title": "Label matchers are honoured", "statement": "A remote read with a not-equal or regex matcher does not return the series an equality matcher would.", "quantifier": "every matcher type", "why_tests_cant": "absence of a distinction", "anchors": ["src/common/label.rs: from_label_matcher", "src/server.rs: query"]}
{"id": "C50", "title": "A malformed request affects only itself", "statement": "A request whose body is not valid snappy or protobuf gets an error status and later requests are still served.", "quantifier": "every sequence of requests", "why_tests_cant": "sequence-level property; panic propagation", "anchors": ["src/server.rs: serve, _process"]}
{"id": "C51", "title": "Write-ahead-log entries are uniquely decodable, also after a torn write", "statement": "The byte encoding of a sequence of entries with contents shorter than 65536 bytes determines the sequence; cutting the log at any byte yields a prefix of the entries; the entry checksum covers exactly the content, and detects every damage of the content confined to 32 consecutive bits, so that a reader of the damaged log gets exactly the entries before it.", "quantifier": "every sequence of entries, every cut position, every burst of at most 32 bits at any position", "why_tests_cant": "every cut position of every log", "anchors": ["src/wal/mod.rs: Entry::get_bytes, push"]}
{"id": "C52", "title": "A cloned log entry is equivalent to the original", "statement": "Cloning an entry at any time and pushing the same further content to both gives the same bytes.", "quantifier": "every entry and every further content", "why_tests_cant": "all contents", "anchors": ["src/wal/mod.rs: Clone for Entry"]}
{"id": "C53", "title": "Immediate flush policy writes every entry before returning", "statement": "With the immediate policy the file is at all times the magic number followed by the encodings of all entries written so far, and after close that followed by the CRC-64 of the entry bytes.", "quantifier": "every sequence of entries, every behaviour of the underlying writer (refused and partial writes)", "why_tests_cant": "all sequences", "anchors": ["src/wal/segment.rs: Segment::new, write_entry, close"]}
{"id": "C54", "title": "Batched flush policies lose nothing on close", "statement": "With the number-based or size-based policy, after close the file contains the encodings of all entries written, and writing never panics.", "quantifier": "every limit and sequence of entries", "why_tests_cant": "needs the batched policies, which have no tests", "anchors": ["src/wal/segment.rs: write_entry, flush, close, new"]}
{"id": "C55", "title": "Server options accept exactly ports 1024..65535", "statement": "Parsing the port option succeeds exactly for decimal i32 values between 1024 and 65535.", "quantifier": "every option string", "why_tests_cant": "all strings", "anchors": ["src/common/option.rs: ServerOpts::get_config"]}
{"id": "C56", "title": "Time point equality distinguishes values", "statement": "Two time points with the same timestamp and clearly different values are not equal.", "quantifier": "every pair of values, every monotone rounding of subtraction", "why_tests_cant": "the tests themselves use this equality", "anchors": ["src/common/time_point.rs: PartialEq for TimePoint"]}
{"id": "C57", "title": "Window overlap test is exact", "statement": "For windows with start <= end, the overlap test is true exactly when some timestamp lies in both inclusive windows.", "quantifier": "every pair of windows", "why_tests_cant": "all boundary combinations", "anchors": ["src/common/utils.rs: is_duration_overlap"]}
{"id": "C58", "title": "Generated ids are unique and increasing", "statement": "Ids handed out by one generator are pairwise distinct and increasing for fewer than 2^64 - init calls, whatever the thread interleaving.", "quantifier": "every number of calls and every interleaving of atomic increments", "why_tests_cant": "schedules and counts", "anchors": ["src/common/mod.rs: IdGenerator"]}
{"id": "C59", "title": "Remote requests are decoded exactly", "statement": "Any valid protobuf encoding of a write request or of a read request with at least one query -- fields in any order, repeated scalar fields, unknown fields, non-minimal varints -- is decoded as exactly the message it encodes; no byte string encodes two messages; the project's own encoder produces such encodings and writes correct nested sizes, so encode then decode is the identity (up to the sign of zero).", "quantifier": "every message, every valid encoding of it, every Snappy codec and protobuf runtime within the stated contract", "why_tests_cant": "infinitely many encodings per message and unbounded message sizes", "anchors": ["src/proto/remote.rs: WriteRequest, ReadRequest, Query (merge_from, compute_size, write_to_with_cached_sizes)", "src/proto/types.rs: TimeSeries, Sample, Label, LabelMatcher"]}
{"id": "C60", "title": "Read response carries the results bit for bit", "statement": "The body of the answer to a read request decompresses to a valid protobuf encoding of exactly the list of results: same series, same labels, same timestamps, same value bits.", "quantifier": "every list of results with valid strings and encoded size below 2^32", "why_tests_cant": "all values, including the special floating point values, and all sizes", "anchors": ["src/server.rs: MonolithServer::_process"]}
{"id": "C61", "title": "Malformed write bodies are refused", "statement": "A write request whose decompressed body is not a valid protobuf write request (damaged or cut short) is answered with an error status, never with success.", "quantifier": "every body that no message encodes", "why_tests_cant": "all damages and truncation points", "anchors": ["src/server.rs: MonolithServer::_process (write branch)"]}
{"id": "C62", "title": "Write then read over the wire", "statement": "After a write request answered with success, a read request that names labels of a written series and a range covering its samples is answered with success and a body that encodes exactly the written samples under the sorted labels.", "quantifier": "every series, sample list, chunk window, query and every valid encoding of both requests; database on the sled backend without older chunks", "why_tests_cant": "composition of decoding, label encoding, indexing, storage, hashing, merging and encoding over unbounded inputs", "anchors": ["src/server.rs: MonolithServer::_process", "src/db.rs: write_time_points, query"]}
{"id": "C63", "title": "Start-up after a crash", "statement": "A database directory that opens can still be opened after a crash at any point of a start-up or of the creation of a new chunk.", "quantifier": "every intact database directory, every crash point (number of completed file-system operations) of start-up and of chunk creation, every later clock reading", "why_tests_cant": "every crash point of every start-up and swap over every existing directory", "anchors": ["src/db.rs: MonolithDb::new, swap, read_existing_chunk", "src/chunk/chunk.rs: ChunkOpts::write_config_to_dir, read_config_from_dir"]}
{"id": "C64", "title": "A restart changes no answer", "statement": "Closing and reopening a database changes no query answer: the same query gives the same series with the same points before and after the restart.", "quantifier": "every history of writes, chunk swaps and restarts, every directory listing order, every clock reading, every query and range; database on the sled backend", "why_tests_cant": "unbounded histories of writes, swaps and restarts and all clock readings", "anchors": ["src/db.rs: MonolithDb::new, read_existing_chunk, swap, query", "src/chunk/chunk.rs: Chunk::new, close, query"]}
{"id": "C65", "title": "Time order across chunks and restarts", "statement": "If every chunk received the points of each series in order of time, then every query lists every series once, with points in strictly increasing time inside the asked range, across all chunks and restarts.", "quantifier": "every history of writes, chunk swaps and restarts, every directory listing order, every query and range; database on the sled backend", "why_tests_cant": "unbounded histories and all clock readings and listing orders", "anchors": ["src/db.rs: MonolithDb::query, swap, read_existing_chunk"]}
{"id": "C66", "title": "Acknowledged writes are visible to later queries", "statement": "Once a write batch has returned, every query that starts later, on any thread, for labels of that series and a range covering the chunk's window reports the series with every point of the batch inside the window, whatever other threads write or query and whenever the background thread swaps chunks; a query reports only points that some thread wrote for that label set inside the asked range, and never fails or panics.", "quantifier": "every number of threads, every program of write batches, queries and swaps, every schedule, every query start", "why_tests_cant": "unbounded threads, programs and interleavings", "anchors": ["src/db.rs: MonolithDb::write_time_points, query, swap", "src/chunk/chunk.rs: Chunk::insert, query"]}
{"id": "C67", "title": "No deadlock; every call returns", "statement": "However write, query and chunk-swap calls interleave, and whether or not the platform's locks let readers overtake a waiting writer, there is no deadlock: as long as a call has not returned some thread can go on, every call eventually returns, and each thread gets one result per call in order.", "quantifier": "every number of threads, every program, every schedule, every lock policy; fair infinite schedules for termination; any storage backend", "why_tests_cant": "deadlocks depend on rare interleavings and on the platform's lock policy", "anchors": ["src/db.rs: MonolithDb::write_time_points, query, swap"]}
{"id": "C70", "title": "A panicking call does not take the database down", "statement": "A call that panics (inside the caller's thread) does not affect other calls: later writes, queries and chunk swaps still work.", "quantifier": "every database state, every panicking call, every later sequence of calls", "why_tests_cant": "every panicking call in every state, and every sequence of calls afterwards", "anchors": ["src/chunk/chunk.rs: Chunk::insert, query, close", "src/db.rs: write_time_points, query, swap"]}
{"id": "C71", "title": "Malformed read bodies are refused", "statement": "A read request whose decompressed body is not a valid protobuf read request (damaged or cut short) is answered with status 500 and no data; an answer with status 200 answers exactly the queries that the body encodes.", "quantifier": "every byte string as body, every cut of every encoded request, every database state", "why_tests_cant": "all byte strings and all cut points", "anchors": ["src/server.rs: MonolithServer::_process (read branch)", "src/proto/remote.rs: ReadRequest::merge_from, Query::merge_from", "src/proto/types.rs: LabelMatcher::merge_from"]}
{"id": "C68", "title": "The choice of backend cannot be observed", "statement": "monolith-server starts for exactly the four combinations of storage (sled, tikv) and indexer (sled, tikv). For the same sequence of inserts, the four combinations, on a cluster or as a dry run, accept the same inserts and give the same answer to every query.", "quantifier": "every combination of storage and indexer, every connection mode, every content of the cluster, every fresh identifiers, every sequence of inserts, every query", "why_tests_cant": "needs every history of inserts compared pairwise over all combinations and cluster contents", "anchors": ["src/bin/monolith-server.rs: main", "src/db.rs: MonolithDb::new", "src/backend/tikv.rs: TiKvRawBackendSingleton::get_instance", "src/storage/tikv_storage.rs", "src/indexer/tikv_indexer.rs"]}
{"id": "C72", "title": "A database finds its data again after a restart, whatever the backends", "statement": "After a restart every chunk that was written before is found again and answers queries as before, for every combination of storage and indexer backends, on a cluster or as a dry run.", "quantifier": "every combination of backends, every connection mode, every sequence of inserts before the restart, every query after it", "why_tests_cant": "all histories and all combinations; the failure depends on the identifiers drawn at the two starts", "anchors": ["src/db.rs: MonolithDb::read_existing_chunk", "src/storage/tikv_storage.rs: TiKvStorage builder read_from_chunk", "src/indexer/tikv_indexer.rs: TiKvIndexer builder read_from_chunk", "src/backend/tikv.rs: DummyTiKvBackend, init_component"]}
{"id": "C73", "title": "Chunks that share a TiKV cluster do not influence each other", "statement": "Several chunks with sled storage and a TiKV indexer on one cluster: every chunk answers every query from its own inserts only, whatever is created or inserted in the others, in any interleaving.", "quantifier": "every sequence of chunk creations and inserts into any of the chunks, every initial cluster content, every fresh UUIDs, every query to every chunk", "why_tests_cant": "all interleavings of operations of arbitrarily many chunks over all key values", "anchors": ["src/indexer/tikv_indexer.rs: TiKvIndexer", "src/indexer/common.rs: IdIndexer key building", "src/backend/tikv.rs: init_component"]}
{"id": "C69", "title": "A chunk lasts as long as the chunk-size option says", "statement": "monolith-server accepts --chunk_size exactly for decimal numbers of seconds that fit in 64 bits; with --chunk_size n, the first chunk and every later chunk accept exactly the timestamps of the n seconds after their start.", "quantifier": "every option text, every clock reading, every swap, debug and release builds", "why_tests_cant": "all numerals and all clock readings, including those near the overflow of the arithmetic", "anchors": ["src/common/option.rs: DbOpts::get_config", "src/db.rs: MonolithDb::new, swap", "src/chunk/chunk.rs: Chunk::new", "src/lib.rs: DEFAULT_CHUNK_SIZE"]}
{"id": "C74", "title": "A failing TiKV operation is reported and changes nothing else", "statement": "When operations of the TiKV cluster fail (without effect, or with the answer lost), the call that needed them reports an error; an insert that reports success is found by later queries; a query that reports success returns exactly the matching series; data of other series stays available.", "quantifier": "every history of inserts into a chunk on a TiKV cluster, every choice of which single operations fail and how, every query with every choice of failures", "why_tests_cant": "all combinations of failing operations over all histories", "anchors": ["src/indexer/tikv_indexer.rs: create_index, get_series_id_contains_labels, get_series_metadata_contains_labels", "src/storage/tikv_storage.rs: write_time_point, read_time_series", "src/chunk/chunk.rs: insert, query", "src/backend/tikv.rs: TiKvRawBackend"]}
{"id": "C75", "title": "The server over its whole life", "statement": "From a server started in an empty directory, through any interleaving of requests, broken requests that end the process, restarts and ticks of the swap timer, every response is the one determined by the writes accepted so far: writes are answered by 200 unless a sample lies exactly on a bound of the current window (then 500), reads by exactly the matching series with their samples in the range, damaged reads by 500, other paths by 404. A sample of a write answered by 200 that lies inside the current window is in every later answer that covers it; every sample in an answer was sent in an earlier write with these labels.", "quantifier": "every sequence of requests (any bytes that validly encode a message, damaged reads, non-Snappy bodies), ticks and restarts; every clock, hash function and binary search", "why_tests_cant": "unboundedly many histories and encodings", "anchors": ["src/server.rs: serve, _process, query, write", "src/db.rs: new, read_existing_chunk, write_time_points, query, swap", "src/chunk/chunk.rs: insert, query, close", "src/proto/remote.rs", "src/proto/types.rs"]}
{"id": "C76", "title": "A failed swap loses nothing", "statement": "If the creation of the next chunk fails because of an I/O error (directory, metadata file, its contents, opening of a tree), the running database goes on as if the timer had not ticked and later ticks work; points written meanwhile are stored; and after the process has ended it can be started again with everything that was stored.", "quantifier": "every history of writes, ticks, stops and starts, every combination of failing operations at every tick and start, every clock, every directory order", "why_tests_cant": "failures can hit any operation of any swap, and their effect may only show at a restart much later", "anchors": ["src/db.rs: swap, new, read_existing_chunk", "src/chunk/chunk.rs: ChunkOpts::write_config_to_dir, read_config_from_dir", "src/storage/sled_storage.rs: build", "src/indexer/sled_indexer.rs: build"]}
{"id": "C77", "title": "Failing sled operations are reported, and do not change what the caller sees otherwise", "statement": "If operations on the sled trees of a chunk fail, every insert and query either reports the failure or does exactly what it would have done; what was inserted without failures is found, and nothing else is.", "quantifier": "every history of inserts, every outcome (done, failed without effect, failed after taking effect) of every operation on the trees, every query", "why_tests_cant": "failures can hit any of the operations of any call, and their effects may only show in later calls", "anchors": ["src/storage/sled_storage.rs: write_time_point, read_time_series", "src/indexer/sled_indexer.rs: create_index, get_series_id_contains_labels, get_series_metadata_contains_labels, get_series_id_by_labels", "src/chunk/chunk.rs: insert, query"]}
{"id": "C78", "title": "Equality, order and hash of the public types keep the contracts of Eq, Ord and Hash", "statement": "Comparing two label sets never panics and is an equivalence relation; equal label sets have equal hashes; for labels, chunks and time points the order is a total order, and two values are equal in the order exactly when they are equal.", "quantifier": "every pair and triple of label sets, labels, chunks, time points", "why_tests_cant": "contracts over all values; the standard collections silently misbehave when they are broken", "anchors": ["src/common/label.rs: Label, Labels", "src/common/time_point.rs: TimePoint", "src/chunk/chunk.rs: PartialEq, Ord for Chunk"]}
{"id": "C79", "title": "What was acknowledged survives a loss of power", "statement": "After the computer loses power at any moment and the database is started again, every point whose insert had reported success is returned by queries for its labels; in any case queries return only points that were inserted, under their labels and in order of insertion, and they do not panic.", "quantifier": "every history of inserts into a chunk, every failing tree operation in it, every moment of the power loss (also within an insert), every state the two trees can come back in (since their last flush, key by key), every query", "why_tests_cant": "tests do not cut the power, and the states the two trees can come back in are many", "anchors": ["src/storage/sled_storage.rs: write_time_point", "src/indexer/sled_indexer.rs: create_index (flush)", "src/chunk/chunk.rs: insert, query", "src/db.rs: read_existing_chunk"]}
{"id": "C80", "title": "The answers of a database are right after any life", "statement": "However often the database is started, stopped, interrupted within a write or loses power, and whatever fails on its trees and directories: a query on the running database is answered without panic, lists each label set once, only label sets that were written and match the query, with exactly the acknowledged points in the range that were written for them, in order of time; a write never panics.", "quantifier": "every history of starts, writes, ticks, stops, interrupted writes and losses of power of the whole database, every failing operation on directories and trees in it, every state the trees come back in, every clock (also one that goes back), every query and every failing operation within the query", "why_tests_cant": "the histories, the places of failures and the states after a loss of power are unbounded", "anchors": ["src/db.rs: new, read_existing_chunk, write_time_points, query, swap", "src/chunk/chunk.rs: insert, query, write_config_to_dir", "src/indexer/sled_indexer.rs", "src/storage/sled_storage.rs"]}
{"id": "C81", "title": "A chunk shared by inserting and querying threads", "statement": "Any number of threads insert into and query one chunk, on any combination of sled and (dry-run) TiKV components, at once. Every query returns without panic; each series it returns is, at one moment of the query, exactly the points of the complete inserts in the range; a series that was there when the query began and matches is not missing, none is returned twice. A query fails only because the range misses the window or a matching series, or because an insert that makes a matching new series was under way. What one query has seen, a later one sees too, as a prefix. Queries do not disturb inserts, and nobody is blocked for ever.", "quantifier": "every number of inserting and querying threads, their programs and schedules of elementary operations (well-formed label sets, timestamps increasing per label set in the order of the inserts)", "why_tests_cant": "the schedules of elementary operations of any number of threads are unbounded", "anchors": ["src/chunk/chunk.rs: insert, query (guard dropped at once)", "src/indexer/sled_indexer.rs: create_index, get_series_id_contains_labels", "src/storage/sled_storage.rs: write_time_point, read_time_series"]}
{"id": "C82", "title": "The whole database shared by threads, interrupted anywhere", "statement": "Any number of threads write batches and query, one swaps chunks, and any of them may be interrupted between any two operations on the chunks' stores. A query is always answered, without panic; it lists no label set twice, and each point it reports is in the asked range and comes from a complete insert of a write call for that label set. A batch that returned before the query was called, and whose chunk's window is covered by the asked range, is reported completely, unless after the call an insert into that chunk began that makes a new series with one of the labels asked for. A batch reports InternalError exactly when it has points on the edges of the window (other than at time 0), and its points inside the window are stored either way.", "quantifier": "every number of threads, their programs of batches, queries and swaps (one swapping thread, each series written by one thread in order of time), and every schedule of elementary store operations, every combination of sled and dry-run TiKV components", "why_tests_cant": "the schedules of elementary operations of any number of threads are unbounded", "anchors": ["src/db.rs: write_time_points, query, swap", "src/chunk/chunk.rs: insert, query (guard dropped at once), close", "src/indexer/sled_indexer.rs: create_index", "src/storage/sled_storage.rs: write_time_point, read_time_series"]}
{"id": "C83", "title": "Concurrent calls interrupted anywhere all return", "statement": "Any number of threads write batches and query, one swaps chunks, and any of them may be interrupted between any two operations on the chunks' stores, while holding the lock of a chunk, of the current chunk or of the list of older chunks. In no reachable state are all unfinished threads stuck, and under every fair schedule every call returns and the results of a thread come in the order of its calls, whatever the locks do about a reader that comes while a writer waits.", "quantifier": "every number of threads, their programs (one swapping thread), every schedule of elementary store operations and every lock policy that only holds back readers a writer waits for, every combination of sled and dry-run TiKV components", "why_tests_cant": "schedules are unbounded, and a deadlock needs one unlucky interleaving", "anchors": ["src/db.rs: write_time_points, query, swap", "src/chunk/chunk.rs: insert, query, close"]}
{"id": "C84", "title": "The running server: requests take effect in one order, whatever the timer interrupts", "statement": "The server handles requests one at a time while its timer swaps chunks, and either may be interrupted between any two operations on the chunks' stores. All calls of the requests and all swaps take effect in one order that agrees with real time: every batch is stored as a whole in the chunk that is current at its place, and its result says whether points were on the edges of that chunk's window; every query is answered with the merge of exactly what the batches before it have stored, in all chunks. Only a query during which a swap is under way may get the points of the chunk being replaced twice (C43); one during which the timer does nothing gets each once.", "quantifier": "every sequence of requests, every sequence of swaps with any windows, every interleaving of the two at the grain of elementary store operations, every combination of sled and dry-run TiKV components", "why_tests_cant": "the interleavings of a request with a swap are unbounded in number, and which order explains the results depends on the schedule", "anchors": ["src/server.rs: serve", "src/db.rs: new, write_time_points, query, swap", "src/chunk/chunk.rs: insert, query, close"]}
{"id": "C85", "title": "HTTP requests, as bytes, to the running server while the timer swaps chunks", "statement": "A server started in an empty directory gets any sequence of HTTP requests, well-formed or not, while its timer swaps chunks at any moments, also in the middle of a request. The requests' calls and the swaps take effect in one order that agrees with real time, and every response is determined by the place of the request's calls in it: a write gets 200 if none of its series has a sample on the edge of the window current at its place, else 500 with the series after the refused one not written; a read gets 200 and, decoded, for every query the merge of what was written before (a chunk's samples at most twice, and only if a swap is under way); undecodable reads get 500, other URLs 404. A sample acknowledged with 200 inside the window is in every later covering answer; nothing is in an answer that was not sent before. Every request is answered eventually, unless one ends the process.", "quantifier": "every sequence of requests in any valid encoding or none, every sequence of swaps with any windows, every interleaving of the two at the grain of elementary store operations, every fair schedule and lock policy for the last part, every combination of sled and dry-run TiKV components", "why_tests_cant": "swaps can fall between any two store operations of a request of several series or queries; tests see a few of these moments", "anchors": ["src/server.rs: serve, _process, query, write", "src/db.rs: new, write_time_points, query, swap", "src/chunk/chunk.rs: insert, query, close", "src/proto/remote.rs", "src/proto/types.rs"]}
{"id": "C86", "title": "Starting the program with any options, in any directory", "statement": "The program begins to serve exactly when its options can be met, and then it is the server they ask for: storage and indexer as named (\"sled\" if not given), the paths, port, workers and chunk length given or their documented defaults, TiKV data in a cluster exactly if a configuration file says `dry_run: false` or leaves it out, otherwise in memory. Otherwise it ends, with exit code 1 if the only fault is the name of a storage or indexer and 101 (a panic) in all other cases; wrong numbers, names or configuration files leave the data directory untouched. The record of the components in a directory is never changed once written, and after a launch got as far as making a chunk, only launches with the same components serve from there. The paths for reading and writing lead to reading and writing.", "quantifier": "every command line after clap has split it, every state of the directory, configuration files, cluster, ports and clock", "why_tests_cant": "there are too many combinations of options and conditions", "anchors": ["src/bin/monolith-server.rs: main", "src/common/option.rs", "src/lib.rs: DEFAULT_*", "src/backend/tikv.rs: TiKvRawBackendSingleton", "src/db.rs: new, DbMetadata", "src/server.rs: new, serve"]}
{"id": "C87", "title": "The running server, killed at any moment and started again, any number of times", "statement": "Requests come as bytes while the timer thread swaps chunks; at any single operation the process is killed and later started again on the same directory; this any number of times. (1) Every sample in a 200 answer was sent, in a series with these labels, in an earlier write request of the same life or in a write request that an earlier life took up, and lies in the range asked for; no label set comes twice in an answer. (2) A sample of a write that was answered by 200, strictly inside the windows current meanwhile, is in every later answer, of the same life and of all later lives, to a query from time 0 to a time not before anything sent, by some of the labels of its series - across a kill only unless the kill interrupted a write request with a series that has one of the labels asked for. (3) If no life was killed in the middle of making the directory of a chunk, the server comes up again; (4) after a kill in the middle of making one it never does. (5) In every life that comes up and is not killed before, every request is answered in the end, or a request ends the process. (6) If the clock goes forward and no kill interrupted a write request, nothing is lost and nothing added: the requests of every life are answered as by a sequential database that was opened on exactly what the earlier lives stored.", "quantifier": "every number of lives, every list of requests, schedule of the two threads and kill point per life, clock readings, directory orders and swap windows (no two equal)", "why_tests_cant": "kill points times schedules times histories", "anchors": ["src/db.rs: new, read_existing_chunk, swap, query, write_time_points", "src/server.rs", "src/chunk/chunk.rs", "src/storage/sled_storage.rs", "src/indexer/sled_indexer.rs"]}
{"id": "C88", "title": "Servers that share a TiKV cluster do not disturb each other", "statement": "Several server processes, each with its own directory, timer and stream of requests, keep indexers or storages on one TiKV cluster, and other clients use the cluster too; their single operations follow each other in any order. (1) A server answers its requests exactly as if it had the cluster for itself. (2) So every sample in its answers was sent to it, with these labels, in an earlier request, (3) and what it acknowledged stays in its answers, whatever the others do. (4) A step of a server does at most one put on the cluster, of a key that belongs to one of its own components. For servers with TiKV storage (1) to (3) fail: a server reports samples that were only sent to another.", "quantifier": "every number of servers with any combination of storages and indexers, every list of requests and swaps for each, every interleaving of their single operations with those of other clients, every content of the cluster outside the identifiers of the indexers", "why_tests_cant": "interleavings of several processes and of foreign clients with unbounded histories", "anchors": ["src/backend/tikv.rs: init_component", "src/indexer/tikv_indexer.rs", "src/storage/tikv_storage.rs", "src/server.rs", "src/db.rs"]}
{"id": "C89", "title": "The running server through losses of power", "statement": "The server (sled backend) is started again and again on its directory; each of its lives ends at any moment by a loss of power, after which every entry of every tree, and every configuration file and directory, may be missing or older. (1) It comes up again. (2) Every sample in every answer of every life was sent with these labels and taken up before; no label set comes twice; (3) requests are answered as without the loss: no read or write ends the process, and if the threads get their turns every request is answered; (4) what a life acknowledges stays in its own answers; (5) what was acknowledged is in the answers of all later lives, at least if it had been written to the disk.", "quantifier": "every number of lives, all requests, all interleavings of the timer with request handling, every moment of every loss, every state of the entries, files and directories the losses may leave, every read of every life", "why_tests_cant": "crash points, unbounded histories and all states of the disk in between", "anchors": ["src/bin/monolith-server.rs", "src/db.rs: new, read_existing_chunk, swap", "src/chunk/chunk.rs: write_config_to_dir, insert, query", "src/storage/sled_storage.rs: add", "src/indexer/sled_indexer.rs: create_index", "src/server.rs"]}
{"id": "C90", "title": "The running server with a TiKV component, started again", "statement": "The server keeps its indexer, or its storage and indexer, in TiKV (dry-run mode, or the indexer on a cluster); it is killed at any single operation and started again on the same directory (and cluster), any number of times. (1) A sample of a write that was answered by 200 is in the answers of all later lives. (2) Every sample in every answer was sent with these labels; no label set comes twice. (3) What a life acknowledges stays in its own answers. (4) If no life was killed in the middle of making the directory of a chunk, the server comes up again. (5) Every request of a life that is not killed is answered in the end, or a request ends the process.", "quantifier": "every number of lives, every combination of sled and TiKV components (without TiKV storage on a cluster), all requests, all interleavings of the timer with request handling, every moment of every kill", "why_tests_cant": "crash points and unbounded histories of several lives", "anchors": ["src/bin/monolith-server.rs", "src/backend/tikv.rs: init_component, get_instance", "src/indexer/tikv_indexer.rs: read_from_chunk", "src/storage/tikv_storage.rs: read_from_chunk", "src/db.rs: new, read_existing_chunk", "src/server.rs"]}
{"id": "C91", "title": "What was reported once is reported again", "statement": "If a query, or an answer to a remote read, reports a point of a series, every later query for some of that series' labels, over a range that covers the point, reports it too: a reader never sees the database go backwards, also not after a chunk swap or a restart and also not for points whose write was never acknowledged.", "quantifier": "all programs of all threads (or all requests), all interleavings of queries, writes and swaps, all kills and restarts, all later queries", "why_tests_cant": "a relation between two answers over all interleavings of arbitrarily many operations between them", "anchors": ["src/db.rs: query, swap, write_time_points", "src/chunk.rs: insert, query", "src/server.rs: query, write"]}
{"id": "C92", "title": "Samples that come late or twice", "statement": "The samples of a series may reach the server in any order and more than once (a client repeats a request whose answer it did not get). Every read with start not after end is answered by 200, and its answer has, for every matching series, every acknowledged sample strictly inside the window current at its arrival and in the range asked for, once, in order of time, and nothing else.", "quantifier": "all histories of requests (as bytes), timer ticks and restarts, with the samples of a series in any order and any number of times; all reads", "why_tests_cant": "all orders and repetitions of samples over all histories, and all query ranges: the answers depend on how a binary search walks through an unsorted list", "anchors": ["src/storage/common.rs: trim_time_series", "src/storage/sled_storage.rs: write_time_point, read_time_series", "src/storage/tikv_storage.rs: write_time_point", "src/chunk/chunk.rs: insert, query", "src/db.rs: query", "src/server.rs: query, write"]}
{"id": "C93", "title": "Label values of any content", "statement": "Label values may be any strings (Prometheus restricts names only). A write answered by 200 is reported under exactly the labels it was sent with, and does not change what is reported for other series; every read with start not after end is answered.", "quantifier": "all histories of requests (as bytes), timer ticks and restarts, with label values of any content (and names, samples, clocks of any kind); all reads", "why_tests_cant": "all strings as label values, all combinations of series, all histories: separators inside values collide with the key encoding only for particular pairs of series", "anchors": ["src/indexer/sled_indexer.rs: encode_labels, decode_labels, create_index, get_series_metadata_contains_labels", "src/chunk/chunk.rs: insert, query", "src/db.rs: query", "src/server.rs: query, write"]}
{"id": "C94", "title": "Whatever the clock does", "statement": "The system clock may be set back or forward at any time. Through any history of requests, timer ticks and restarts, acknowledged samples are reported, once each and in order of time, and a restart does not change an answer.", "quantifier": "all histories of requests (as bytes), timer ticks and restarts, with any clock readings", "why_tests_cant": "all sequences of clock readings, all interleavings with writes, swaps and restarts", "anchors": ["src/db.rs: new, read_existing_chunk, swap, query", "src/chunk/chunk.rs: insert, query, Ord for Chunk", "src/server.rs: query, write"]}
{"id": "C95", "title": "Reads of any range", "statement": "A client may read from any start to any end, both signed 64-bit numbers of milliseconds. The answer has exactly the samples with start ≤ time ≤ end, so none if start > end; the server goes on answering, and what is stored is not affected.", "quantifier": "all histories of requests (as bytes), timer ticks and restarts, with any clock readings and any ranges in reads, also inverted and negative ones", "why_tests_cant": "all ranges relative to all stored samples, in all histories", "anchors": ["src/server.rs: serve, _process, query", "src/db.rs: query", "src/chunk/chunk.rs: query", "src/storage/sled_storage.rs: read_time_series", "src/common/utils.rs: is_duration_overlap"]}
{"id": "C96", "title": "No request stops the server", "statement": "Whatever bytes a client sends, to whatever path, and whatever was sent before, the server answers the request and goes on answering later ones; if it is stopped, it can be started again at any time.", "quantifier": "all histories of requests of any bytes (also no messages at all, and messages with labels, samples and ranges of any content), timer ticks and restarts at any clock readings (also the same one twice)", "why_tests_cant": "all byte strings, in all states of the stores they can lead to", "anchors": ["src/server.rs: serve, _process, query, write", "src/db.rs: new, swap, write_time_points, query", "src/chunk/chunk.rs: insert, query", "src/indexer/sled_indexer.rs", "src/storage/sled_storage.rs: new, write_time_point, read_time_series"]}
{"id": "C97", "title": "Nothing is made up, whatever is sent", "statement": "Whatever bytes clients send, every sample the server ever reports was sent: its time and value are found in the bytes of one earlier write request (or the value is the protobuf default 0, where a message that is cut short has none), and if those bytes are a valid write request it is one of its samples.", "quantifier": "all histories of requests of any bytes to any path, timer ticks and restarts at any clock readings; all reads, all positions in the history", "why_tests_cant": "all byte strings, in all states of the stores they can lead to", "anchors": ["src/server.rs: _process, query, write", "src/proto/types.rs, src/proto/remote.rs: merge_from", "src/db.rs: write_time_points, query, swap, new", "src/chunk/chunk.rs: insert, query", "src/storage/sled_storage.rs", "src/common/label.rs, src/common/time_point.rs: From impls"]}
{"id": "C98", "title": "Reported as often as sent", "statement": "In every answer each series has its samples in the order in which they were sent, and each at most as often as it was sent with these labels - also if they come late or twice, and through timer ticks and restarts.", "quantifier": "all histories of requests (as bytes), timer ticks and restarts, with the samples of a series in any order and any number of times; all reads with start not after end", "why_tests_cant": "all histories; the number of chunks is unbounded, and the copies appear only when a chunk is no longer the current one", "anchors": ["src/indexer/sled_indexer.rs: create_index, get_series_metadata_contains_labels", "src/chunk/chunk.rs: query", "src/db.rs: query, swap", "src/server.rs: query"]}
{"id": "C99", "title": "Several labels mean all of them", "statement": "A query for several labels reports only series that have all of them, so asking for one more label never adds a series; and every series reported is reported with all its samples in the range, whatever other series are written.", "quantifier": "all histories of requests (as bytes), timer ticks and restarts, samples in any order and any number of times; all queries for any number of labels", "why_tests_cant": "all histories and all sets of labels; the parts of the answer come from unboundedly many chunks with different indexes", "anchors": ["src/indexer/sled_indexer.rs: get_series_metadata_contains_labels, get_series_id_contains_labels", "src/chunk/chunk.rs: query", "src/db.rs: query", "src/server.rs: query", "src/common/utils.rs: intersect_time_series_id_vec"]}
{"id": "C100", "title": "Only data makes the database grow", "statement": "What is stored grows only with the data written: queries and unknown requests change nothing, a write only adds to the current chunk, and a server that is sent nothing stores nothing more however long it runs.", "quantifier": "all states of the server, all requests (as bytes), all numbers of timer ticks, all chunk lengths", "why_tests_cant": "all states and all lengths of time: a test runs for a few ticks and looks at the answers, not at the number of directories left behind", "anchors": ["src/server.rs: _process, query, write", "src/db.rs: new, swap", "src/chunk/chunk.rs: new"]}
{"id": "C101", "title": "Nothing accepted is lost or multiplied, whatever the order of samples and the clock", "statement": "Samples of a series may come in any order and repeatedly, and the system clock may be set back or forward at any time. A query from time 0 to a time after everything accepted is always answered, and reports for every series with the labels asked for exactly the samples accepted for it, each as often as it was accepted; an acknowledged sample inside the current window is in every later such answer; and restarts and ticks of the timer change none of these answers; and the answer to a query by one label reports nothing else.", "quantifier": "all histories of requests (as bytes), timer ticks and restarts; all orders and repetitions of samples; all clock readings at every tick and restart; all orders of listing directories; all label queries", "why_tests_cant": "all interleavings of late samples, clock jumps and restarts: their effects meet (a late sample in a chunk whose window was cut at a restart with the clock set back, chunks listed in another order than written), and no finite set of histories settles all", "anchors": ["src/server.rs: _process, query, write", "src/db.rs: new, query, write_time_points, swap, read_existing_chunk", "src/chunk/chunk.rs: insert, query, close", "src/storage/sled_storage.rs: read_series, write_series"]}
{"id": "C102", "title": "No read takes anything accepted away from later ones", "statement": "Reads may ask for anything: any ranges (inverted ones, times before 1970), any labels, any number of queries, or be no valid messages at all; some end the process. Whatever was read before, a restart makes the server run again; while it runs it answers writes as specified and reads with well-formed labels and no inverted range; an acknowledged sample inside the current window is in every later answer to a query from time 0 to a time after everything accepted by its labels; and such an answer has for every series with the labels asked for exactly the samples accepted for it, each as often as it was accepted, and for one label nothing else; without writes in between such answers stay the same.", "quantifier": "all histories of requests (as bytes), timer ticks and restarts, with any reads at any place; all orders and repetitions of samples; all clock readings; all orders of listing directories; all label queries", "why_tests_cant": "a read that does damage may be any of infinitely many, and the damage may show only after later writes, ticks and restarts", "anchors": ["src/server.rs: _process, query", "src/db.rs: query", "src/chunk/chunk.rs: query", "src/indexer/sled_indexer.rs: get_series_metadata_contains_labels", "src/storage/sled_storage.rs: read_series"]}
