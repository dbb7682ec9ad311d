# Formal model of TommyCpp/monolith in Lean 4

## Trusted base

* Lean 4.33.0 kernel. No axioms are added; every theorem listed in MANIFEST.json depends only on (a subset of) `propext`,
  `Classical.choice`, `Quot.sound`. No compiled evaluation is used in proofs (`decide +kernel` is kernel reduction).
* The reading of the Rust source: every definition in `Model/` cites the file and lines it models. Nothing is executed.
* Semantics assumed for Rust / std / crates (not verified here):
  * integers: `BitVec 64` for `u64`/`i64` bit patterns and f64 bit patterns, `BitVec 8` for bytes, `Nat` for `usize`/`u8`
    counters where overflow is impossible or is checked explicitly. A `Mode` parameter (`debug`/`release`) selects
    overflow-checks-panic versus wrap-around where the code can overflow.
  * a panic is an explicit value (`none` in `Option`, `.panic` in `Res`), never a totalised default.
  * `f64` is its 64-bit pattern (`to_be_bytes`/`from_be_bytes`/`to_bits` are bit-preserving); only `TimePoint::eq` does
    arithmetic on floats, and it is modelled over an abstract rounding.
  * `String` is its UTF-8 byte list; `str::split(",")`, `find("=")` are byte operations (the separators are ASCII).
  * `sled::Tree` / the TiKV raw client are maps from byte strings to byte strings whose `get` returns the last `set`.
    I/O errors are modelled for TiKV in C74, for the sled trees in C77, for creating chunk directories in C76; elsewhere operations
    succeed. Crashes of the process are prefix-durable: what survives is the effect of a prefix of the elementary operations. For
    a loss of power (C79) each tree comes back, key by key, with a value it had since it was last flushed.
  * `slice::binary_search`: only its documented contract is assumed for the positive theorems (`BinSearch`); negative theorems
    hold for every such instance or use the actual algorithm of std (written out in the model). C92 assumes more (`Careful`),
    which is proved for that algorithm.
  * `RwLock`, `AtomicU64::fetch_add`, `mpsc` channels: critical sections are atomic steps; schedules are arbitrary lists.
  * `HashMap`: an arbitrary hash decides which stored keys a lookup key is compared with; equal keys always compare; iteration
    order is an arbitrary permutation (`Hash`).
  * crc crate 1.8.1: `Digest{value}`, `write` = table-driven update of `!value`, `sum` = value.
  * protobuf crate 2.8.0: its wire-format reader and writer are modelled (varints, tags, length-delimited fields, skipping of
    unknown fields); UTF-8 validity and groups are left to an arbitrary oracle (`PbRt`); message sizes below 2^32.
  * Snappy: an arbitrary pair of functions with `decompress (compress x) = some x`.
  * `fs::read_dir` lists entries in any order (`order` argument, any permutation); the base path is ASCII where a theorem says
    so (C11 shows what happens otherwise).
* Not modelled: tiny_http, clap, serde JSON/YAML syntax (a file is given with its parse result), logging, the file system below
  "directory of named entries", sled internals, gRPC, thread start-up, real time (clock readings are inputs). A restart in
  the same millisecond as an earlier chunk start (same directory name) is excluded in C64/C65. src/wal/writer.rs consists of
  `unimplemented!()` stubs; src/common/test_utils.rs is test support except `DummyTiKvBackend`, which is a map.

## Layout (lean/Verif)

`Model` carries the code; `Spec` contains the small independent specifications; `Lemmas` the proofs; `Props` only the
property theorems (`C01_...`), what they immediately need, and their non-vacuity examples.

| area | model | specification | properties |
|---|---|---|---|
| bit streams, Gorilla, compaction API | Model/Bstream, Gorilla, Compaction | Spec/Bstream, Gorilla | C01-C09 (Props/Compaction) |
| chunk directory names | Model/ChunkDir, Num | in Props | C10, C11 (Props/ChunkDir) |
| id intersection | Model/Intersect | in Props | C12, C13 (Props/Intersect) |
| labels, index codec, sled / TiKV indexer | Model/Label, Indexer | Spec/Indexer | C14-C21 (Props/Indexer) |
| sled / TiKV storage | Model/Storage | Spec/Storage | C22-C26 (Props/Storage) |
| chunk | Model/Chunk | Spec/Chunk | C27-C31, C34 (Props/Chunk) |
| chunk under concurrency and crashes | Model/Conc, ChunkConc | Spec/Chunk | C32, C33, C35, C36 (Props/ChunkConc) |
| database | Model/Db | Spec/Db | C37-C44 (Props/Db) |
| TiKV backend | Model/TikvBackend | in Props | C45, C46 (Props/TikvBackend) |
| server | Model/Server | in Props | C47-C50 (Props/Server) |
| WAL | Model/Wal | Spec/Wal | C51-C54 (Props/Wal) |
| small pieces | Model/Misc, Options | in Props | C55-C58 (Props/Misc), C69 (Props/Options) |
| wire protocol | Model/Proto | Spec/Proto | C59-C62 (Props/Proto), C71 (Props/ReadBody) |
| life of a database: start-ups, swaps, restarts | Model/Life | Spec/Life | C63-C65 (Props/Life) |
| database under concurrency | Model/DbConc | Spec/DbConc | C66 (Props/DbConc), C67 (Props/DbProgress) |
| lock poisoning | Model/DbLock | in Props | C70 (Props/Poison) |
| failing TiKV operations | Model/TikvFault | Spec/Chunk | C74 (Props/TikvFault) |
| the server process over time | Model/ServerLife | Spec/ServerLife | C75 (Props/ServerLife) |
| backend combinations | Model/Backends | in Props | C68, C72, C73 (Props/Backends) |
| failing swaps | Model/SwapFault | Spec/SwapFault | C76 (Props/SwapFault) |
| chunks on failing sled trees | Model/SledFault | Spec/Chunk | C77 (Props/SledFault) |
| comparison contracts | Model/Contracts | Spec/Contracts | C78 (Props/Contracts) |
| loss of power | Model/PowerLoss (on Model/SledFault) | Spec/Chunk | C79 (Props/PowerLoss) |
| whole database with failures and power loss | Model/PowerDb (on Model/PowerLoss, SwapFault, Db) | Spec/Chunk | C80 (Props/PowerDb) |
| threads inserting and querying, any combination of components | Model/Traffic, Model/Kit (on Model/ChunkConc, Conc) | Spec/Traffic | C81, C33_violated_cut (Props/Traffic) |
| database at the grain of store operations | Model/DbFine (on Model/Traffic, Kit, DbConc) | Spec/DbFine | C82, C66_violated_fine (Props/DbFine) |
| liveness at the grain of store operations | Model/DbFine (`FPolicy`, `FConf.stepUnder`) | Props/DbFineProgress | C83 |
| the running server: one client and the timer | Spec/Deployed (`SeqDb`, `Fits`, `deployed`), Model/DbFine | Props/Deployed | C84 |
| the running server: requests as bytes, and the timer | Model/ServerConc, Spec/ServerConc (`Handled`, `SeqDb.Answers`) | Props/ServerConc | C85 |
| starting the program | Model/Launch, Spec/Launch (`Asked`, `DirFits`) | Props/Launch | C86 |
| the running server through kills and restarts | Model/Sessions, Spec/Sessions (`FineLives`, `SentIn`, `storedBefore`, `FineClocks`) | Props/Sessions, SessionsExact (Lemmas/ServerConcOn, ServerEnd, Kept, Sessions, SessionsExact) | C87 |
| servers sharing a TiKV cluster | Model/Cluster, Spec/Cluster (`Apart`) | Props/Cluster (Lemmas/ClusterStep, Cluster) | C88 |
| server through losses of power | Model/PowerLives (`Session.Wears`, `Survivors`, `Lasting`) | Props/PowerLives (Lemmas/Worn, PowerLives) | C89 |
| server with TiKV started again | Model/TikvLives (`Deployment`, `recall`, `readAgain`) | Props/TikvLives (Lemmas/TikvLives) | C90 |
| answers do not go backwards | Model/DbFine, Model/ServerConc | Props/Again (Lemmas/Again), Props/AgainLives (Lemmas/AgainLives) | C91 |
| samples in any order, repeated | Model/ServerLife, Model/Storage | Props/Unordered (Lemmas/Unordered) | C92 |
| labels of any content | Model/ServerLife, Model/Label, Model/Indexer | Props/Values (Lemmas/Values) | C93 |
| the server under any clock | Model/ServerLife, Model/Life | Props/Clock (Spec/Clock, Lemmas/Clock) | C94 |
| reads of any range | Model/ServerLife, Model/Life, Model/Storage | Props/Ranges (Spec/Ranges, Lemmas/Ranges) | C95 |
| the server under any bytes, chunks of the same millisecond | Model/Named | Props/Bytes (Spec/Bytes, Lemmas/Bytes) | C96 |
| where reported samples come from, requests of any bytes | Model/Proto, Model/Named | Props/Honest (Spec/Honest, Lemmas/Honest) | C97 |
| how often and in what order samples are reported | Model/Server, Model/Life | Props/Often (Spec/Often, Lemmas/Often) | C98 |
| queries for several labels, across chunks | Model/Server, Model/Life | Props/Conjunction (Spec/Conjunction, Lemmas/Conjunction) | C99 |
| what changes the stored directories | Model/Server, Model/Life | Props/Growth | C100 |
| the server with unordered samples and any clock | Model/Server, Model/ServerLife, Model/Life | Props/AnyTime (Spec/AnyTime, Lemmas/AnyTime) | C101 |
| the server with any reads whatsoever | Model/Server, Model/ServerLife, Model/Life | Props/AnyRead (Spec/AnyRead, Lemmas/AnyRead) | C102 |

## Testing the theorems

`seeded/run.py` applies one edit to the model in a scratch copy, rebuilds, records every declaration that no longer checks
(replacing it by a placeholder in the scratch copy so that later files are checked too) and, using the dependency graph of the
unedited development, every property theorem that depends on such a declaration. `seeded/mutants*.json` are the edits,
`seeded/LOG.jsonl` the results.

## Plan per property

`V` marks a property that the unchanged code violates: the deliverable is a machine-checked counterexample
(`..._violated`), the strongest true part (`..._partial`) and, where possible, an exact iff characterisation.

* C01 V: witnesses dod=128, XOR with 63 leading zeros, XOR with 64 significant bits. Partial = C02.
* C02: simulation between compactor and decompactor on bit lists; iff via "first bad point decodes differently".
* C03: corollary of C02 on prefixes plus state equality of folded `compact`.
* C04: case analysis of `compact` in `Mode.debug`.
* C05 V: exact iff (at most one point; compact_vec ignores its argument).
* C06: case analysis over all byte vectors.
* C07 V for multi-byte partial appendees (never produced through the public API); proved for the two shapes that occur
  (one byte with any remaining; whole bytes), for `write`, `write_bits` and `read_next_n_bit` in full.
* C08: measure on the cursor. C09 V: concrete corrupt inputs.
* C10: hexadecimal formatting/parsing round trip by induction on digits. C11 V for non-ASCII base paths; iff/partial for ASCII.
* C12: characterisation of `order_intersect` on ascending lists, strong induction on the number of lists.
* C13: the schedule is an arbitrary function choosing completion order at each node; symmetric `order_intersect`.
* C14: stable sort by distinct keys is permutation invariant. C15 V (comma in value); partial: injectivity for
  comma-free labels with '='-free names.
* C16-C20: invariant relating the key-value map to the abstract list of created series. C17 V; C18 exact.
* C21 V: label name starting with R; partial: exact collision condition.
* C22-C24: chunk/encode lemmas + binary search contract. C25 V, C26 V (inverted range; exact condition).
* C27-C31: refinement of chunk to abstract list of series; C29 V, C31 V(TiKV) with exact statements.
* C32: lock-step semantics with arbitrary schedules, simulation to a sequential order. C33 V, C34 V witnesses + partial.
* C35: crash states are prefixes of the elementary op list. C36 V witness + partial.
* C37-C44: db model parametrised by chunk windows and clock readings. C38 V, C41 V, C43 V, C44 partly V (names swapped).
* C45 V, C46 V for every UUID choice (universally quantified negations).
* C47, C48 proved; C49 V, C50 V.
* C51, C52: prefix decoding of the log, checksum as polynomial division; the division is shown equal to a bit-serial register, linear and
  injective in every window no longer than the register, which gives burst detection (Lemmas/Crc). C53 V for writers that accept a part
  of the bytes (the count is ignored) and after refused writes (checksum), proved for full writers, prefix form for all; C54 V.
* C55, C57, C58 proved; C56 V.
* C59: relation "these bytes encode this message" (`Spec/Proto`) independent of the parser; the parser is shown to return exactly the
  encoded message, by induction on the encoding. C60 V (negative zero is dropped), exact otherwise. C61 V (the parse result is ignored).
* C62: composition of C59, C37, C30, C40, C60.
* C63 V: crash states are prefixes of the file-system operations of start-up and swap; exact set of survivable points.
* C64 V, C65 V: invariant `LifeRep` between the running database and the abstract list of generations (`Spec/Life`), preserved by
  writes, ticks and restarts.
* C66 V: invariant over all schedules of threads in explicit program positions (`DInv`), plus a tracking invariant of one query
  (`QState`); history variable for accepted inserts. Violated when the operations inside a chunk interleave.
* C67: lock invariant (who holds which lock), a work measure that every real step decreases, and for every state a thread that
  no lock and no policy holds back.
* C69 V: option text to window, exact (mod 2^64, checked or wrapping addition), witnesses for the overflows.
* C70 V: poison flags of the chunk lock and of the database lock; exact propagation.
* C71: converse of C59 (`Sound`): every successful parse is an encoding, by induction over the loop; cuts by case analysis on where
  the cut falls. Partial in the runtime (groups, overlong nested lengths).
* C68 V: all four storage/indexer combinations as one component over a record of stores; instance of the generic chunk invariant
  (`backRefines`), exact answers, pairwise comparison.
* C72 V: identifiers found at reopening versus identifiers in use; universally quantified negations for each failing combination.
* C73: invariant over all interleavings: each chunk represents its own inserts in the one shared key space (UUID prefixes disjoint).
* C74 V: the TiKV code as programs over single client operations (`KvProg`), each of which may succeed, fail, or lose its answer;
  witnesses for every way of losing data, and invariants over all histories and all failures (`FaultRep`: nothing invented; `Whole`: a
  series without failures is complete).
* C75: capstone. `Host` = server up or down with its database directory; events are requests as bytes, ticks, restarts. The specification
  (`Site`, `Says`, `Answered`) looks at the messages the bytes encode (C59's grammar) and at the list of chunks with accepted points
  (C64). Proof: one-step simulation `HostRep.step` from C47, C48, C59, C60, C71, `LifeRep`, then induction; durability and honesty follow
  from facts about the specification alone.
* C76: V. `DirFaults` says which operations of a chunk creation fail; `Node` is a process that is up or down; events are writes, ticks, stops and
  starts with failures. Specification `Ledger`: a failed tick or start did not happen, some failures damage the directory for ever.
  Simulation `NodeRep.step` (chunks in memory and on disk are those of the specification with additional empty ones, `Padded`), induction.
* C77: H for queries, V for inserts. Components as programs over `get`/`set` on the two trees (`TreeProg`); a list of outcomes drives the
  execution. Programs that only read and use `?` everywhere are closed under composition for `Reports` (result is the error or the value).
  Inserts: case analysis `slInsertP_cases`, invariant `SlFaultRep`, and `SlWhole` for label sets without failures, induction on histories.
* C78: V. The laws of the traits are stated in Spec/Contracts relative to a set of values; case analysis and lexicographic order.
* C79: V. The programs of C77 run with a second semantics that records, for each tree, its states since the last flush; the power loss picks one of them key by key. Every state a tree passes through is the final state under other failures, so the invariant of C77 covers all of them.
* C80: V. Inductive relation `Lived` (points offered so far, state) with one rule per event; invariant `PlOk`: the current chunk satisfies C79's invariant for a sublist of the offered points, everything a power loss can leave of any directory is sound for such a sublist. The merge of chunk answers with repeated label sets keeps any property of single points (`dbQuery_sane`).
* C81: Each query is a process of reads; `Seen` says that from a moment on all its reads in states of later moments lead to a result right for the moment of its end. System invariant: the series tree is that of the complete inserts, each index entry that of the complete inserts or with the one under way (an insert changes the series tree in its last step only).
* C82: Each chunk is a `Sys` of C81; invariant `FInv` ties its lock holder, its begun inserts and the threads' program positions together; one query is followed from its call to its result (`FQState`), each chunk's part by C81's `Seen` (its reads in states of later moments lead to a fair answer).
* C83: Lock invariant `LK` (who holds which lock, at which point of its program), a measure in a lexicographic order (calls left, places left in the call, operations left in the insert or the reads) that every real step of a thread decreases and no other thread's step changes, and in each state a thread that can go on under every policy.
* C84: The order is built along the schedule: a batch takes its place when it returns, a query when its first section ends, a swap when it replaces the chunk. The invariant `Dep` relates the contents of every chunk to the run of the order on `SeqDb`, and what a query has collected to the answers at its place (older chunks do not change any more, newer ones are empty).
* C85: A request is a tree of database calls (`Calls`), each chosen from the results before. The server's run is simulated by a run of C84's `deployed` with the calls made so far (`Simulates`: a step does not look at the calls to come), so that C84's order applies; the responses follow from C84's `Fits` at the places of the calls. Progress by a well-founded lexicographic measure (requests left, tree of the request, C83's measures of the two threads).
* C86: `launch` is `main` as a function of the command line and a `World` (configuration files, metadata file, clock, free ports). The iff by following the steps in both directions with C55, C68, C69; the rest from a case distinction of all launches.
* C87: `Session` is one life: what it finds (`readExistingChunks`), its schedule up to the kill (`SrvConf.run` of C85 on the chunks found), the directories it leaves (`Session.leaves`); `lives` is the fold. The core of C85 is redone for a server on older chunks, each with a contribution that a query alone on it gives (C84_reopened). Invariant of the directories: each complete one holds a moment (`At` of C81) of inserts that were taken up (`SlotsOk`); by induction over lives. For exactness the directories, sorted by start, are related to the sequential databases of the lives (`Holding`): with no insert torn the stores equal those of a new chunk with the same inserts.
* C88: `Fleet` has the one key-value map of the cluster and a `SrvConf` (C85) per server. In a turn a server's chunks see the cluster below their identifiers (`seen`), the server makes one step, and what changed is written back (`writeBack`). `fstep_moved`: a step of a server changes at most one key of one store of one chunk. For a sled-storage server, by induction over the steps, what it sees equals the private state of `SrvConf.run` on its own turns: the others write under other identifiers or to 8-byte keys.
* C89: `Survivors` lets each life find any set of the directories made before, each entry of each tree as at any turn not before the flush. `Worn`: such trees are those of a chunk after some inserts, entry by entry; queries on them are sound (as C79). Invariant over the lives (`disks_ok`): every directory found is `Worn` by inserts that earlier lives took up; then C85's server on older chunks applies (`power_core`). Durable part: after the flush all entries of the series are there, later inserts add only series that do not match.
* C90: Sessions of C87 with any components. `recall` says which of the directories' chunks the new process gets, `readAgain` what an indexer finds under the cut identifier; every key asked for then begins with L or I, no stored one does (`readAgain_none`), so each chunk found is `Frozen` with the empty history and C85's server on older chunks applies (`tikv_core`).
* C91: `shown_held`: what an answer reports was stored by an insert of the one order before it; `held_shown`: what was stored before is shown later. For threads, `fquery_state` twice: the reported point is settled in a chunk when the first query has returned, and the second query's state result from there on. Over several lives: every point an answer reports is a write of this life, settled in a directory the life leaves unless it was interrupted (`own_left`), or settled in a directory an earlier life left (`past_left`); `left_shown`: what a directory has settled is shown by all later lives.
* C92: `stdLoop_mono`: the search loop's final position is monotone in the key on every list, and it stays at an element not above the key, so the slice bounds never cross (`trim_safe`); `read_covering`: if all elements compare alike, the search behaves as on a constant list, for which the contract speaks. The chunk, database and server layers are those of C75 with the read of a series as a parameter (`queryBy`, `Gen.answerBy`); `HostRep.step` is reused for everything that is not a read. Violations: concrete histories evaluated by the kernel.
* C93: invariant `SaneHost` instead of C75's `HostRep`: the id of a series points to the spelling of its labels, the key of a spelling that does not begin with R points to its id, every stored point was sent under the spelling of its series; `decode_spelled`: decoding gives labels spelled like the input. The merge map keeps one entry per list of labels (`FairMap`). Violations: concrete histories evaluated by the kernel.
* C94: `LooseRep`, `HostLoose`: the invariants of C64/C75 without the order of start times, only their distinctness; the list after a restart is the unique list sorted by start. `FullyShown` for the restart theorem. Violations: concrete histories evaluated by the kernel.
* C95: `readSeries_any` gives the result of reading a series for any range (panic, error or slice) by `Series.trips` and `outside`; lifted to a chunk (`queryBy_any`), the database (`ranged_query`), a read (`read_ranged`) and a history (`HostLoose.faced`). Violations: concrete histories evaluated by the kernel.
* C96: `CalmDb`: locks not poisoned, every stored value a nonempty sequence of points, directory names from the start times so far; nothing about the index, whose reading cannot panic for any contents (`metadata_calm`). Preserved by every event; violations by evaluation, or for all states.
* C97: `HonestDb U`: every stored point satisfies `U` and every stored label string is UTF-8; `U` is instantiated with 'sent by an earlier request'. The parser is followed from arbitrary bytes: each step keeps `FoundIn bytes` and goes forward (`keeps_loop`).
* C98: a chunk reports a contiguous part of what it accepted for a label set (`answerBy_often`); what all chunks accepted is, in chunk order, a sublist of what was sent (`after_often`); the violation by evaluation.
* C99: `matched` unfolded to the chunk's accepted inserts (`matched_labels`: at least one label, all known ones); lifted through the merge of C92; violations by evaluation.
* C100: case analysis of `process`; the window of a chunk is kept by inserts (induction on points and series); the violation by induction on the ticks, names apart by C10.
* C101: the loose representation of C94 kept through histories with the reads of C92; the samples stored are, up to order, the fold of the samples accepted (`goes_holds`). C101_whole: for one label the answer is exactly that (with `answerBy_asked` of C99).
* C102: a read leaves the database as it is, whether it is answered or not (`process_read_db`), so the loose representation of C94 is kept with the machine as seen by its clients.
