{
 "C01": "Violated for second differences 2^7, 2^15, 2^31, XORs with 32 or more leading zeros and 64-bit wide XORs.",
 "C05": "Decoder chunk size is 72 instead of 16 bytes; compact_vec ignores its data.",
 "C07": "append is wrong for unaligned multi-byte streams; all writes the compactors perform are proved.",
 "C09": "Panics exactly when the count byte exceeds the number of data bits (release).",
 "C11": "False for base paths that are not ASCII (byte slicing of a char-counted prefix); exact for ASCII paths.",
 "C15": "False for label values containing a comma; injective on labels whose names contain no '=' or ',' and values no ','.",
 "C17": "Requested labels that no series has are ignored instead of giving an empty result; exact result proved.",
 "C21": "A single label whose name starts with R collides with the reverse-key prefix; exact collision condition proved.",
 "C25": "The sled storage accepts out-of-order points and later reads then lose or misplace them; partial for increasing writes.",
 "C26": "An inverted range can panic; exact condition proved.",
 "C29": "One matching series outside the range makes the whole chunk query fail; unknown labels are ignored. Partial: all matching series overlap the range.",
 "C31": "TiKV drops points that are not later than the last one although insert reports success; sled stores all.",
 "C33": "Queries drop their lock before reading: next to an insert creating a series they can fail with NotFound, and next to two inserts they can miss the first and see the second (cut). Atomic for one insert into an existing series and for disjoint labels; never reports anything not inserted. C81 says what holds in general.",
 "C34": "insert does not look at the closed flag: it is accepted exactly as before.",
 "C36": "A crash between index entries and first point makes every query matching the new series fail. Partial: existing series and disjoint queries.",
 "C38": "Both ends of every window and everything between two windows are accepted by no chunk, in every run; exact gap description proved.",
 "C40": "Assumes the hash map never compares two label sets of which one is a proper prefix of the other (see C41); sled chunks.",
 "C41": "Labels::eq treats a prefix as equal and panics on a longer left side: with colliding hashes the query panics or mixes series. Partial: no compared label sets are proper prefixes.",
 "C43": "A query reading the current chunk before and the older chunks after the push sees the chunk twice. Partial: queries that do not overlap a swap; at most one chunk is ever doubled. For the running server (one request at a time, and the timer) see C84.",
 "C44": "The record swaps the two names; the open/reopen rule is proved.",
 "C45": "Writing uses an empty storage identifier and a 32-byte indexer identifier, reopening 16 zero bytes and the first 16 bytes: after a restart every query returns nothing.",
 "C46": "The storage identifier is always empty, so series 1 of every chunk is one key. Index keys are disjoint.",
 "C56": "The comparison lacks abs(): any first value below the second compares equal.",
 "C49": "The matcher type is dropped, so NEQ/RE/NRE behave as EQ in every database. Partial: equality matchers whose labels every chunk knows.",
 "C50": "A body that is not Snappy data (or an inverted range, see C26) panics and ends the request loop: no later request is served; a broken protobuf write gets 200. Partial: decompressible bodies and a database that does not panic.",
 "C53": "write_entry ignores the byte count of Write::write: a writer that accepts part of the bytes (allowed by its contract) loses the rest of the entry while success is reported. A refused write is reported but stays in the running checksum, so the closed segment does not match it. Partial: writers that accept every call in full; on every writer the file is the concatenation of prefixes of the encodings (C53_any_writer_partial).",
 "C54": "Number-based: the first write panics for every limit. Size-based: close does not flush, flush writes contents without framing, and a write error during it drops all cached entries while success is reported. Time-based: never written. Partial: what size-based does keep.",
 "C60": "Violated for negative zero: a stored -0.0 is not written (value != 0. is false) and reads back as +0.0, for every result containing one. Partial: exact otherwise.",
 "C61": "Violated: the result of merge_from is ignored, so a damaged tail is dropped silently and the status is that of the intact prefix; a request cut 12 bytes short gets 200 although its sample is lost.",
 "C63": "Violated: a crash after the chunk directory is created and before its metadata.json is complete makes every later start fail (unwrap on the missing or empty file), for ever; the same for the database's own metadata.json. Partial: the exact set of crash points that are survived.",
 "C64": "Violated: the end of every reopened chunk's window is cut to the time of reopening, so a stored point ahead of the clock is no longer found. C64_history gives the exact answer for every history; partial: no stored point ahead of the clock, or a queried range that starts before every cut.",
 "C65": "Violated when points ahead of the clock were stored before a restart. Partial: clocks not running backwards and no stored point ahead of the clock.",
 "C66": "Violated at the granularity of single store operations: a chunk query running while another thread inserts the first point of a related series fails inside the chunk and the database silently answers with nothing (C33). Partial: chunk calls atomic, every series written by one thread in time order. C82 is the statement that holds at the granularity of single store operations; C66_violated_fine is the violation in that model, for the whole database. For the running server (one request at a time, and the timer) see C84.",
 "C67": "Chunk calls are one step (they take one further lock, the chunk's own, and release it before they return); C83 proves the same with chunk calls interrupted between any two sled operations and the chunk's lock modelled.",
 "C70": "Violated: a TiKV insert whose label key collides with another record (C21) panics while it holds the chunk's lock; the lock is poisoned, every later call on the chunk panics, and so does the next swap, which poisons the database's lock: from then on every call panics for ever. Partial: the sled backend never panics in a write; label sets outside the collision.",
 "C71": "Proved for protobuf runtimes that refuse groups and nested lengths beyond the end of the data (the runtime is not in /repo); C71_overrun shows what a runtime that reads on accepts.",
 "C68": "Violated for out-of-order points of a series: sled storage accepts them, TiKV storage drops them (C68_violated). Proved: start-up dispatch, exact answer of every combination (C68_exact), result of inserts, indexer and connection unobservable for all histories, and full agreement for increasing timestamps (C68_agree).",
 "C72": "Violated for every combination with a TiKV component in dry-run mode (chunk skipped) and for both mixed combinations on a cluster (component identifiers are not found again). Partial: sled/sled. TiKV/TiKV restart on a cluster is the subject of C45.",
 "C73": "Proved for the TiKV indexer with sled storage; TiKV storage of several chunks shares the empty prefix and is covered (violated) by C46.",
 "C69": "Violated for numbers whose milliseconds do not fit in 64 bits (n = 18446744073709552 gives chunks of 384 ms) and when start + size overflows (debug: panic at start-up; release: the current chunk accepts nothing); Chunk::new's default is 12000 ms where the option's default is 12000 s. Partial: whenever start + 1000 n fits in 64 bits. n = 0 runs and accepts nothing (C69_zero).",
 "C74": "Violated: create_index and the write into an existing series drop all results, so inserts report success for points that are never found (C74_violated_lost, _dropped) or make duplicate series (_twice); a failed read of a label's entry makes a query ignore that label (_wrong); a failed first write makes queries of other series fail (_blocks). Proved: equality with the model without failures (C74_no_faults*), the storage alone is safe (C74_storage_*), and for all histories and failures: no panic and nothing invented (C74_partial_sound), what an insert reports (C74_partial_reported), a series whose inserts had no failures is returned exactly unless the query errs (C74_partial_complete).",
 "C75": "Refinement of the whole server process (sled backend) by a small specification (Spec/ServerLife). Assumptions (Proper): well-formed label sets, points of a series in time order within a chunk, ranges not inverted, a forward-going clock. Responses longer than 4 GiB are not decodable. Requests and ticks do not overlap in time here (C66, C67 treat that); a stop loses nothing written (C35, C36, C63 treat that). For the timer in the middle of a request see C84 and C85.",
 "C76": "Violated twice. C76_violated: a tick at which metadata.json is not created or its contents are not written (the write error is dropped, the swap reports success) makes every later start fail for ever. C76_violated_window: after a failed tick, writes of points after the old window are acknowledged and dropped. What holds: C76_failed_swap (a failing swap changes nothing in memory), C76_history_partial (exact refinement over all histories with failures), C76_harmless_partial (failures that leave no half-made directory do no harm; directories they leave are not noticed). Assumed: sled creates missing trees when opened; failures while reading directories at start-up are not modelled.",
 "C77": "Holds for queries, for any contents (C77_query: the I/O error or exactly the answer without failures; TiKV violates this, C74_violated_wrong). Violated for inserts: C77_violated_dropped (point not stored, success reported: the storage drops the result), C77_violated_dropped_read (the chunk drops the storage's error), C77_violated_lost (reverse entry not written, success reported, never found), C77_violated_twice (two series with the same labels), C77_violated_half (a reported failure, and the retry that reports success leaves the series unfindable by one label), C77_violated_blocks (a reported failure makes queries for other series fail). What holds whatever fails: C77_partial_sound, C77_partial_reported, C77_partial_complete (the latter: a label set none of whose inserts failed is returned exactly by every query that succeeds). Failures of `flush` alone are dropped by the program and only matter for crashes.",
 "C78": "Equality of label sets is 'is a prefix of': it panics when the right one is shorter, is not symmetric, and equal sets hash differently. Labels with one name and different values, chunks with one start and different ends, and points with non-finite values are equal in the order but not equal. Partial: label sets of one size, chunks of one length, finite values; the orders by themselves are lawful; hashing is injective up to the hash function.",
 "C79": "The points are never flushed: after any history the power loss can leave the complete index and no point at all; and a series whose index entries survived without its points makes every query of the chunk for one of its labels fail, hiding points that are on the disk. Partial: nothing is invented and nothing panics, whatever failed and whenever the power was lost; the index survives if nothing failed; each label set without failures comes back as one prefix of its points, the same for all answered queries; all is answered as before if sled had written the points.",
 "C80": "Violated as soon as one index entry cannot be written, which is not noticed: both writes report success, the query hides one point, and after the next swap it returns both in the wrong order. Partial: the query is answered, lists no label set twice, only written ones with at least one of the labels asked for (a label whose entry is lost is ignored), only points written for them and in the range; writes do not panic. Missing: completeness (C76 without tree failures, C79 for one chunk), order, all labels. Not modelled: two chunks in one millisecond.",
 "C81": "Proved for every schedule. The answer as a whole is not the state of one moment (C33_violated_cut): each series has its own moment. A thread that inserts and queries is two threads of the model whose turns the schedule orders. Elementary operations are atomic and sequentially consistent. Every combination of storage and indexer, with stores of its own per component: sled trees, or the maps of TiKV clients in dry-run mode (Model/Kit; on a cluster storages share keys, C45/C72).",
 "C82": "Proved for every schedule; the exception really occurs (C66_violated_fine: the batch is acknowledged, the later query is answered with nothing). C66 is the same with chunk calls taken as atomic, where there is no exception. Not said: that a point is reported once (a swap during the query doubles it, C43). Elementary operations are atomic and sequentially consistent. Every combination of storage and indexer, with stores of its own per component: sled trees, or the maps of TiKV clients in dry-run mode (Model/Kit; on a cluster storages share keys, C45/C72).",
 "C83": "Proved for every schedule and policy. The locks are: the RwLock of the current chunk, the RwLock of the list of older chunks, and each chunk's own RwLock. One swapping thread (as in the program: the timer's). An insert that panics poisons the chunk's lock, and later calls of the chunk panic: they return too. Every combination of storage and indexer, with stores of its own per component: sled trees, or the maps of TiKV clients in dry-run mode (Model/Kit; on a cluster storages share keys, C45/C72).",
 "C84": "Proved for every schedule: C84_one_order gives the order (it grows with the schedule, contains every call that has returned and only calls that have begun, so it agrees with real time) and says of every result what it is at its place; C84_exact says that a query during which the timer does nothing is exact. That there is one client thread is a reading of src/server.rs:56-60 (`install` waits for its closure; rayon's contract); any number of clients is C82/C66. Well-formed label sets; each series written in order of time (SIncr) the condition under which storage is exact; chunk windows of swaps are arbitrary. Every combination of storage and indexer, with stores of its own per component: sled trees, or the maps of TiKV clients in dry-run mode (Model/Kit; on a cluster storages share keys, C45/C72). The case of a database with older chunks (C84_reopened) is used in C87, where those chunks come from earlier lives.",
 "C85": "Proved for every schedule: C85_requests (the order, the number of calls each answered request made, and what each response is: `Handled`), C85_durable, C85_honest, C85_answered (progress, for every fair schedule and policy about readers and waiting writers). C85_ends: after a panic nothing happens any more. C85_alone: the calls of a request, made without interruption, are `_process` of C47-C50/C75. Of what a read with malformed matchers or an inverted range gets nothing is said here (C38, C47). Empty directory at start; well-formed label sets, each series written in order of time; Snappy and what the Protobuf runtime does beyond the generated code are parameters (C59). At most 2^64 - 2 steps (the u64 counters). That requests are handled one at a time is a reading of src/server.rs:56-60. Every combination of storage and indexer, with stores of its own per component: sled trees, or the maps of TiKV clients in dry-run mode (Model/Kit; on a cluster storages share keys, C45/C72). The case of a database with older chunks (C85_reopened) is used in C87, where those chunks come from earlier lives.",
 "C86": "C86_serving_iff (both directions), C86_codes, C86_untouched, C86_record, C86_bound, C86_defaults. Violated for the paths: equal paths are accepted, and then no request writes (C86_violated_paths); C86_paths_partial is the case of different paths. Parameters of the model: clap's splitting of the command line, the YAML parser, whether existing chunks can be read (C63, C64), the operating system.",
 "C32": "C32_any_*: the same for every combination of storage and indexer (Model/Kit).",
 "C87": "(1) C87_honest. (2) C87_durable across kills, C87_durable_same within a life that began on older chunks; the exception for an interrupted insert is real (C35, C36). (3) C87_opens, (4) C87_stuck. Progress in every life: C87_answered. Kill of the process, not of the machine (C79, C80). Not modelled: metadata.json of the database (C37, C63), two chunks with one window. (6) C87_exact: the contribution of the chunks found equals that of the sequential databases of the earlier lives (storedBefore).",
 "C88": "(1) C88_alone, (2) C88_honest, (3) C88_durable, all for servers with sled storage, whatever the others have; (4) C88_put, for all. C88_violated: two servers with TiKV storage, whose identifier is empty (src/backend/tikv.rs:15-35, C46). The names C88_alone, C88_honest, C88_durable are the partial results for (1) to (3). Assumed (`Apart`): 32-byte identifiers of indexers, all different, not used by other clients (C46: from UUIDs). Not modelled: operations of the cluster that fail (C74).",
 "C89": "(2) C89_honest; (3) C89_served, C89_answered; (4) C89_durable_same; (1) C89_opens: it comes up exactly if every configuration file it finds is complete, C89_violated_stuck: it does not otherwise. (5) fails: C89_violated_lost (acknowledged, not flushed), C89_violated_blocked (acknowledged and everything flushed, but a later, half lost write of another series hides it from reads by the shared label); C89_partial_durable: found, if what was not answered by the flush has no series with other labels that shares a label asked for. C89_kill: C87's kills are among the cases. Not modelled: metadata.json of the database (C37, C63); two chunks with one window; faults of the running file system (C76, C77).",
 "C90": "(1) fails for every deployment with a TiKV component and every history: C90_violated_forgets shows that every sample in every answer of a life was sent in the same life (which also gives (2)), and C90_violated gives, for four deployments, an acknowledged and reported sample that the next life does not report. (3) C90_partial_durable, (4) C90_partial_opens, (5) C90_partial_answered. C90_partial_sled: without a TiKV component the model is that of C87, where (1) holds up to what C87 says. TiKV storage on a cluster is not modelled here (its chunks share their keys: C46, C88).",
 "C91": "Holds for the running server (C91_partial_served; the later query from time 0 to the end of all sent samples). For threads that share a MonolithDb it is violated: C91_violated - while another thread makes a new series with a label asked for, the same query is answered by nothing. C91_partial_threads: the later query, if it covers the window of the point's chunk, reports the point unless an insert began meanwhile that makes a new series with one of the labels asked for. C91_partial_own_labels: so it does if only this series has these labels. Across kills and restarts: C91_violated_lives - a kill during a write of another series with the label asked for hides from the next life what the last one had reported, even for a client that sends one request at a time; C91_partial_lives and C91_partial_same_life: every later life (and every later answer of the same life) reports it, unless a kill interrupted a write with one of the labels asked for.",
 "C92": "Violated: C92_violated_twice (a repeated request: the sample is reported twice), C92_violated_late (a late sample is accepted and not reported when asked for), C92_violated_hides (a late sample makes an earlier one disappear from an answer it was in before), C92_violated_range (an answer with a sample outside the range, not in order), C92_violated_tikv (TiKV storage: the late sample is acknowledged and thrown away). What holds in any order: every read is answered, no panic, label sets once, every sample was sent (C92_partial_answered); a query from 0 to after everything stored reports exactly the accepted samples in the order of arrival, with repetitions (C92_partial_covering), so nothing acknowledged is lost (C92_partial_durable). `Careful` states what is used of slice::binary_search beyond its documentation (it sees elements only through comparisons; its answers for a <= b do not cross); proved for the algorithm of std (stdBinSearch_careful).",
 "C93": "Violated: C93_violated_hides (a write with a comma in a value is answered by 200 and makes all series that share a label with it invisible to queries by this label), C93_violated_confuses (two different label sets become one series), C93_violated_lost (a series without any comma, written after one that is spelled alike, is not found by its labels), C93_violated_stranger (with a name that begins with R: a sample is reported under labels that are not even spelled like its own). What holds for labels of any content, if no name begins with R: no panic, every read is answered by 200, every list of labels once, every sample reported was sent under labels spelled alike (C93_partial_answered), and the status of writes does not depend on labels (C93_partial_accepted). For values without commas (names without commas and equals signs) the full statement holds: C75. Assumptions on the runtime: `CutsAtAscii` (proved for UTF-8 by RFC 3629: utf8Valid_cuts), no hash collisions of a label list with its prefix.",
 "C94": "Violated: C94_violated_order (the clock is set back before a tick: samples sent, stored and first reported in order of time are reported in the other order after a restart), C94_violated_hides (a restart after the clock was set back hides a reported sample until the next restart), C94_violated_dropped (a sample in the window of the chunk just closed is acknowledged and never reported). What holds for any clock: the exact answers (C94_partial_history: those of C75 with the older chunks listed by start after a restart), durability for covering queries (C94_partial_durable), honesty (C94_partial_honest), and, if no stored sample is ahead of the clock at a restart, the same samples before and after (C94_partial_restart). Not modelled: a new chunk that starts at the same millisecond as an older one (the same directory); excluded by `Timely`.",
 "C95": "Violated: C95_violated_crash (one read with an inverted range ends the process), C95_violated_epoch (start and end are cast to unsigned: a read from before 1970, such as the smallest 64-bit number that clients send for all of time, reports nothing), C95_violated_end (the empty range from 0 to -1 reports samples). What holds, for any clock and any ranges: the exact behaviour, with the exact condition under which a read ends the process (C95_partial_history), ranges not inverted as unsigned numbers are always answered (C95_partial_serves), an answered inverted range is empty (C95_partial_empty), and acknowledged samples survive every crash caused by a read (C95_partial_durable). As for C94, a new chunk starting at the same millisecond as an older one is excluded, and samples of a series are sent in order of time.",
 "C96": "Violated: C96_violated_garbage (a body that is not Snappy data is not answered and ends the process, in every state), C96_violated_inverted (so does a well-formed read with an inverted range), C96_violated_start (a start at the very millisecond at which an earlier chunk begins fails). What holds, without any assumption on bytes, labels, samples, their number, or the clock: these are the only such requests, and they change nothing (C96_partial_only); ticks never end the process (C96_partial_tick); a start at a new time succeeds (C96_partial_restart); so a server that gets decent requests answers all of them (C96_partial_available). C96_partial_same: if no two chunks start at the same millisecond this model and that of C75-C95 agree. Assumed: no two label sets collide in the hash map (see C41), sled refuses to open locked files, the Snappy and Protobuf libraries do not panic.",
 "C97": "C97_honest, without any assumption on bytes, labels, order of samples, the clock, binary search on unsorted series, or the hash map. C97_default shows that the default 0 is needed: the server ignores parse errors of writes and stores what was read of the message. Assumed: a group is skipped forwards, and UTF-8 strings can be cut at commas and equals signs (needed for the response to be a message at all).",
 "C98": "Violated: C98_violated - a label set in which a label is repeated is accepted, its id is entered once per repetition under that label, and once its chunk is closed every sample is reported that many times (while the chunk is current the hash map hides it). C98_partial_often: for label sets without repetitions (and C75's other conditions, without the order of samples), every reported series is a sublist of what was sent for it, in order of sending.",
 "C99": "Violated: C99_violated_widens (a label nobody has is ignored: alone it finds nothing, together with another one it finds that one's series), C99_violated_part (which labels are ignored differs from chunk to chunk, so a series without the label is reported in part, and a write of an unrelated series changes that). What holds: every reported sample's series has at least one of the labels and all of those its chunk knows (C99_partial_labels); if the chunks that know one of the labels know all - always with one label - then all series reported have all labels (C99_partial_known), and over all times are exactly the whole series with these labels (C99_partial_whole).",
 "C100": "Violated: C100_violated (a server nobody ever uses has n+1 chunk directories after n ticks of its timer, all with different names and all without data, and keeps n older chunks open in memory; every query goes through all of them). What holds: a request not sent to the write path changes nothing in the database, whatever its bytes and the state (C100_partial_reads); no request adds, removes or renames a directory or changes those of older chunks (C100_partial_writes); a tick adds exactly one empty directory, for the next window, or none if one of that name exists (C100_partial_tick); a restart keeps all directories as they are and adds one, or none if it fails (C100_partial_restart); so after any history there are at most as many more as ticks and restarts (C100_partial_count).",
 "C101": "Joins C92 (any order, but a clock that goes forward) and C94 (any clock, but samples in order). What such reads do not keep is their order of samples in time (C92, C94 say how it fails) - the answers are compared as multisets. Conditions: the range is from 0; no new chunk starts at the very millisecond of an older one (`Timely`; C91 has that case); label sets without separators or repetitions; sled components. Narrower ranges fail: C92_violated_late, C94_violated_hides.",
 "C102": "Joins C95 (any ranges, but samples in order and reads with well-formed labels) and C101 (any order and any clock, but no inverted ranges). The specification does not predict what such a read does: a read without response has ended the process (`Site.sees`). No assumption at all on the reads before the one in question. The conditions on the clock are those of C94."
}