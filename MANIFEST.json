{
 "claims": [
  {
   "property": "C01",
   "status": "partial",
   "theorems": [
    "Verif.C01_violated",
    "Verif.C01_violated_leading_zeros",
    "Verif.C01_violated_wide",
    "Verif.C01_violated_silently",
    "Verif.C01_partial"
   ],
   "note": "False of the code as it stands: the negation is proved with a witness, with the strongest true part and where possible the exact condition. Violated for second differences 2^7, 2^15, 2^31, XORs with 32 or more leading zeros and 64-bit wide XORs."
  },
  {
   "property": "C02",
   "status": "proved",
   "theorems": [
    "Verif.C02_lossless_iff",
    "Verif.C02_lossless_sufficient"
   ],
   "note": ""
  },
  {
   "property": "C03",
   "status": "proved",
   "theorems": [
    "Verif.C03_split",
    "Verif.C03_compact_eq_compactVec",
    "Verif.C03_snapshot"
   ],
   "note": ""
  },
  {
   "property": "C04",
   "status": "proved",
   "theorems": [
    "Verif.C04_debug_panics_iff",
    "Verif.C04_debug_bytes_eq_release",
    "Verif.C04_step",
    "Verif.C04_decoder_debug_le_release",
    "Verif.C04_debug_lossless"
   ],
   "note": ""
  },
  {
   "property": "C05",
   "status": "partial",
   "theorems": [
    "Verif.C05_none_exact",
    "Verif.C05_violated",
    "Verif.C05_violated_compactVec",
    "Verif.C05_partial"
   ],
   "note": "False of the code as it stands: the negation is proved with a witness, with the strongest true part and where possible the exact condition. Decoder chunk size is 72 instead of 16 bytes; compact_vec ignores its data."
  },
  {
   "property": "C06",
   "status": "proved",
   "theorems": [
    "Verif.C06_accepts_iff",
    "Verif.C06_error",
    "Verif.C06_simple_refused",
    "Verif.C06_no_confusion"
   ],
   "note": ""
  },
  {
   "property": "C07",
   "status": "partial",
   "theorems": [
    "Verif.C07_append_violated",
    "Verif.C07_append_partial",
    "Verif.C07_writes",
    "Verif.C07_read"
   ],
   "note": "False of the code as it stands: the negation is proved with a witness, with the strongest true part and where possible the exact condition. append is wrong for unaligned multi-byte streams; all writes the compactors perform are proved."
  },
  {
   "property": "C08",
   "status": "proved",
   "theorems": [
    "Verif.C08_terminates",
    "Verif.C08_step_progress"
   ],
   "note": ""
  },
  {
   "property": "C09",
   "status": "partial",
   "theorems": [
    "Verif.C09_violated",
    "Verif.C09_release_panics_iff",
    "Verif.C09_release_panics_iff_any",
    "Verif.C09_partial",
    "Verif.C09_debug_violated"
   ],
   "note": "False of the code as it stands: the negation is proved with a witness, with the strongest true part and where possible the exact condition. Panics exactly when the count byte exceeds the number of data bits (release)."
  },
  {
   "property": "C10",
   "status": "proved",
   "theorems": [
    "Verif.C10_round_trip",
    "Verif.C10_injective",
    "Verif.C10_charset"
   ],
   "note": ""
  },
  {
   "property": "C11",
   "status": "partial",
   "theorems": [
    "Verif.C11_exact",
    "Verif.C11_violated",
    "Verif.C11_violated_other",
    "Verif.C11_partial",
    "Verif.C11_ignored",
    "Verif.C11_directory_partial"
   ],
   "note": "False of the code as it stands: the negation is proved with a witness, with the strongest true part and where possible the exact condition. False for base paths that are not ASCII (byte slicing of a char-counted prefix); exact for ASCII paths."
  },
  {
   "property": "C12",
   "status": "proved",
   "theorems": [
    "Verif.C12_intersection_exact",
    "Verif.C12_no_repetition",
    "Verif.C12_small",
    "Verif.C12_needs_order"
   ],
   "note": ""
  },
  {
   "property": "C13",
   "status": "proved",
   "theorems": [
    "Verif.C13_schedule_independent",
    "Verif.C13_fair_terminates"
   ],
   "note": ""
  },
  {
   "property": "C14",
   "status": "proved",
   "theorems": [
    "Verif.C14_same_key_and_metadata",
    "Verif.C14_sled",
    "Verif.C14_tikv",
    "Verif.C14_needs_distinct_names"
   ],
   "note": ""
  },
  {
   "property": "C15",
   "status": "partial",
   "theorems": [
    "Verif.C15_violated",
    "Verif.C15_injective_partial",
    "Verif.C15_decode_partial",
    "Verif.C15_key_decode_partial",
    "Verif.C15_id_decode",
    "Verif.C15_empty_violated"
   ],
   "note": "False of the code as it stands: the negation is proved with a witness, with the strongest true part and where possible the exact condition. False for label values containing a comma; injective on labels whose names contain no '=' or ',' and values no ','."
  },
  {
   "property": "C16",
   "status": "proved",
   "theorems": [
    "Verif.C16_sled",
    "Verif.C16_tikv"
   ],
   "note": ""
  },
  {
   "property": "C17",
   "status": "partial",
   "theorems": [
    "Verif.C17_violated",
    "Verif.C17_partial"
   ],
   "note": "False of the code as it stands: the negation is proved with a witness, with the strongest true part and where possible the exact condition. Requested labels that no series has are ignored instead of giving an empty result; exact result proved."
  },
  {
   "property": "C18",
   "status": "proved",
   "theorems": [
    "Verif.C18_sled_contains",
    "Verif.C18_sled_metadata",
    "Verif.C18_tikv_contains",
    "Verif.C18_tikv_metadata",
    "Verif.C18_spec_meaning"
   ],
   "note": ""
  },
  {
   "property": "C19",
   "status": "proved",
   "theorems": [
    "Verif.C19_duplicate_rejected",
    "Verif.C19_fresh_accepted",
    "Verif.C19_tikv_overwrites"
   ],
   "note": ""
  },
  {
   "property": "C20",
   "status": "proved",
   "theorems": [
    "Verif.C20_interchangeable"
   ],
   "note": ""
  },
  {
   "property": "C21",
   "status": "partial",
   "theorems": [
    "Verif.C21_exact",
    "Verif.C21_violated",
    "Verif.C21_partial",
    "Verif.C21_injective"
   ],
   "note": "False of the code as it stands: the negation is proved with a witness, with the strongest true part and where possible the exact condition. A single label whose name starts with R collides with the reverse-key prefix; exact collision condition proved."
  },
  {
   "property": "C22",
   "status": "proved",
   "theorems": [
    "Verif.C22_sled_range_read",
    "Verif.C22_tikv_range_read",
    "Verif.C22_tikv_increasing"
   ],
   "note": ""
  },
  {
   "property": "C23",
   "status": "proved",
   "theorems": [
    "Verif.C23_sled_isolated",
    "Verif.C23_tikv_isolated",
    "Verif.C23_sled_notFound",
    "Verif.C23_sled_readable",
    "Verif.C23_tikv_notFound",
    "Verif.C23_tikv_readable"
   ],
   "note": ""
  },
  {
   "property": "C24",
   "status": "proved",
   "theorems": [
    "Verif.C24_tikv_accepts_iff",
    "Verif.C24_tikv_strictly_increasing",
    "Verif.C24_tikv_reads_increasing"
   ],
   "note": ""
  },
  {
   "property": "C25",
   "status": "partial",
   "theorems": [
    "Verif.C25_violated_out_of_order",
    "Verif.C25_violated_duplicates",
    "Verif.C25_violated",
    "Verif.C25_increasing_partial"
   ],
   "note": "False of the code as it stands: the negation is proved with a witness, with the strongest true part and where possible the exact condition. The sled storage accepts out-of-order points and later reads then lose or misplace them; partial for increasing writes."
  },
  {
   "property": "C26",
   "status": "partial",
   "theorems": [
    "Verif.C26_sled_panic_iff",
    "Verif.C26_tikv_panic_iff",
    "Verif.C26_no_panic_partial",
    "Verif.C26_violated"
   ],
   "note": "False of the code as it stands: the negation is proved with a witness, with the strongest true part and where possible the exact condition. An inverted range can panic; exact condition proved."
  },
  {
   "property": "C27",
   "status": "proved",
   "theorems": [
    "Verif.C27_outside_rejected",
    "Verif.C27_sled_accepts_iff",
    "Verif.C27_tikv_accepts_iff"
   ],
   "note": ""
  },
  {
   "property": "C28",
   "status": "proved",
   "theorems": [
    "Verif.C28_sled_lookup",
    "Verif.C28_sled_stored",
    "Verif.C28_decodes",
    "Verif.C28_tikv_stored",
    "Verif.C28_numbering"
   ],
   "note": ""
  },
  {
   "property": "C29",
   "status": "partial",
   "theorems": [
    "Verif.C29_violated",
    "Verif.C29_violated_unknown_label",
    "Verif.C29_partial"
   ],
   "note": "False of the code as it stands: the negation is proved with a witness, with the strongest true part and where possible the exact condition. One matching series outside the range makes the whole chunk query fail; unknown labels are ignored. Partial: all matching series overlap the range."
  },
  {
   "property": "C30",
   "status": "proved",
   "theorems": [
    "Verif.C30_sled_query",
    "Verif.C30_tikv_query",
    "Verif.C30_cases"
   ],
   "note": ""
  },
  {
   "property": "C31",
   "status": "partial",
   "theorems": [
    "Verif.C31_sled_stored",
    "Verif.C31_tikv_violated",
    "Verif.C31_tikv_partial"
   ],
   "note": "False of the code as it stands: the negation is proved with a witness, with the strongest true part and where possible the exact condition. TiKV drops points that are not later than the last one although insert reports success; sled stores all."
  },
  {
   "property": "C32",
   "status": "proved",
   "theorems": [
    "Verif.C32_serial",
    "Verif.C32_inside",
    "Verif.C32_completes",
    "Verif.C32_any_serial",
    "Verif.C32_any_inside",
    "Verif.C32_any_completes"
   ],
   "note": "C32_any_*: the same for every combination of storage and indexer (Model/Kit)."
  },
  {
   "property": "C33",
   "status": "partial",
   "theorems": [
    "Verif.C33_violated",
    "Verif.C33_existing_partial",
    "Verif.C33_disjoint_partial",
    "Verif.C33_reports_partial",
    "Verif.C33_violated_cut"
   ],
   "note": "False of the code as it stands: the negation is proved with a witness, with the strongest true part and where possible the exact condition. Queries drop their lock before reading: next to an insert creating a series they can fail with NotFound, and next to two inserts they can miss the first and see the second (cut). Atomic for one insert into an existing series and for disjoint labels; never reports anything not inserted. C81 says what holds in general."
  },
  {
   "property": "C34",
   "status": "partial",
   "theorems": [
    "Verif.C34_violated",
    "Verif.C34_violated_witness"
   ],
   "note": "False of the code as it stands: the negation is proved with a witness, with the strongest true part and where possible the exact condition. insert does not look at the closed flag: it is accepted exactly as before."
  },
  {
   "property": "C35",
   "status": "proved",
   "theorems": [
    "Verif.C35_crash_points",
    "Verif.C35_completed_found",
    "Verif.C35_nothing_invented"
   ],
   "note": ""
  },
  {
   "property": "C36",
   "status": "partial",
   "theorems": [
    "Verif.C36_violated",
    "Verif.C36_violated_witness",
    "Verif.C36_existing_partial",
    "Verif.C36_disjoint_partial"
   ],
   "note": "False of the code as it stands: the negation is proved with a witness, with the strongest true part and where possible the exact condition. A crash between index entries and first point makes every query matching the new series fail. Partial: existing series and disjoint queries."
  },
  {
   "property": "C37",
   "status": "proved",
   "theorems": [
    "Verif.C37_batch",
    "Verif.C37_dropped_silently",
    "Verif.C37_sled",
    "Verif.C37_tikv"
   ],
   "note": ""
  },
  {
   "property": "C38",
   "status": "partial",
   "theorems": [
    "Verif.C38_violated",
    "Verif.C38_violated_gaps",
    "Verif.C38_violated_statement",
    "Verif.C38_partial"
   ],
   "note": "False of the code as it stands: the negation is proved with a witness, with the strongest true part and where possible the exact condition. Both ends of every window and everything between two windows are accepted by no chunk, in every run; exact gap description proved."
  },
  {
   "property": "C39",
   "status": "proved",
   "theorems": [
    "Verif.C39_ordered",
    "Verif.C39_disjoint"
   ],
   "note": ""
  },
  {
   "property": "C40",
   "status": "proved",
   "theorems": [
    "Verif.C40_sled",
    "Verif.C40_general"
   ],
   "note": "Assumes the hash map never compares two label sets of which one is a proper prefix of the other (see C41); sled chunks."
  },
  {
   "property": "C41",
   "status": "partial",
   "theorems": [
    "Verif.C41_violated_panic",
    "Verif.C41_violated_mixes",
    "Verif.C41_violated",
    "Verif.C41_partial"
   ],
   "note": "False of the code as it stands: the negation is proved with a witness, with the strongest true part and where possible the exact condition. Labels::eq treats a prefix as equal and panics on a longer left side: with colliding hashes the query panics or mixes series. Partial: no compared label sets are proper prefixes."
  },
  {
   "property": "C42",
   "status": "proved",
   "theorems": [
    "Verif.C42_result",
    "Verif.C42_nothing_hidden"
   ],
   "note": ""
  },
  {
   "property": "C43",
   "status": "partial",
   "theorems": [
    "Verif.C43_violated",
    "Verif.C43_violated_witness",
    "Verif.C43_partial",
    "Verif.C43_twice_partial"
   ],
   "note": "False of the code as it stands: the negation is proved with a witness, with the strongest true part and where possible the exact condition. A query reading the current chunk before and the older chunks after the push sees the chunk twice. Partial: queries that do not overlap a swap; at most one chunk is ever doubled. For the running server (one request at a time, and the timer) see C84."
  },
  {
   "property": "C44",
   "status": "partial",
   "theorems": [
    "Verif.C44_open_partial",
    "Verif.C44_violated",
    "Verif.C44_violated_correct_record",
    "Verif.C44_corrupt_record"
   ],
   "note": "False of the code as it stands: the negation is proved with a witness, with the strongest true part and where possible the exact condition. The record swaps the two names; the open/reopen rule is proved."
  },
  {
   "property": "C45",
   "status": "partial",
   "theorems": [
    "Verif.C45_violated",
    "Verif.C45_violated_data_lost",
    "Verif.C45_partial"
   ],
   "note": "False of the code as it stands: the negation is proved with a witness, with the strongest true part and where possible the exact condition. Writing uses an empty storage identifier and a 32-byte indexer identifier, reopening 16 zero bytes and the first 16 bytes: after a restart every query returns nothing."
  },
  {
   "property": "C46",
   "status": "partial",
   "theorems": [
    "Verif.C46_violated",
    "Verif.C46_violated_mixes",
    "Verif.C46_partial"
   ],
   "note": "False of the code as it stands: the negation is proved with a witness, with the strongest true part and where possible the exact condition. The storage identifier is always empty, so series 1 of every chunk is one key. Index keys are disjoint."
  },
  {
   "property": "C47",
   "status": "proved",
   "theorems": [
    "Verif.C47_point_roundtrip",
    "Verif.C47_sample_roundtrip",
    "Verif.C47_sample_value",
    "Verif.C47_series_roundtrip",
    "Verif.C47_results",
    "Verif.C47_response"
   ],
   "note": ""
  },
  {
   "property": "C48",
   "status": "proved",
   "theorems": [
    "Verif.C48_order",
    "Verif.C48_status",
    "Verif.C48_sled"
   ],
   "note": ""
  },
  {
   "property": "C49",
   "status": "partial",
   "theorems": [
    "Verif.C49_violated_types",
    "Verif.C49_violated",
    "Verif.C49_violated_statement",
    "Verif.C49_equality_partial"
   ],
   "note": "False of the code as it stands: the negation is proved with a witness, with the strongest true part and where possible the exact condition. The matcher type is dropped, so NEQ/RE/NRE behave as EQ in every database. Partial: equality matchers whose labels every chunk knows."
  },
  {
   "property": "C50",
   "status": "partial",
   "theorems": [
    "Verif.C50_violated",
    "Verif.C50_violated_inverted",
    "Verif.C50_violated_write_accepts",
    "Verif.C50_partial"
   ],
   "note": "False of the code as it stands: the negation is proved with a witness, with the strongest true part and where possible the exact condition. A body that is not Snappy data (or an inverted range, see C26) panics and ends the request loop: no later request is served; a broken protobuf write gets 200. Partial: decompressible bodies and a database that does not panic."
  },
  {
   "property": "C51",
   "status": "proved",
   "theorems": [
    "Verif.C51_decodes",
    "Verif.C51_injective",
    "Verif.C51_torn",
    "Verif.C51_checksum",
    "Verif.C51_detects_burst",
    "Verif.C51_detects_burst64",
    "Verif.C51_detects_bytes",
    "Verif.C51_damaged",
    "Verif.C51_header_unprotected",
    "Verif.C51_bound"
   ],
   "note": ""
  },
  {
   "property": "C52",
   "status": "proved",
   "theorems": [
    "Verif.C52_clone"
   ],
   "note": ""
  },
  {
   "property": "C53",
   "status": "partial",
   "theorems": [
    "Verif.C53_immediate_partial",
    "Verif.C53_crash_partial",
    "Verif.C53_violated",
    "Verif.C53_violated_error",
    "Verif.C53_any_writer_partial"
   ],
   "note": "False of the code as it stands: the negation is proved with a witness, with the strongest true part and where possible the exact condition. write_entry ignores the byte count of Write::write: a writer that accepts part of the bytes (allowed by its contract) loses the rest of the entry while success is reported. A refused write is reported but stays in the running checksum, so the closed segment does not match it. Partial: writers that accept every call in full; on every writer the file is the concatenation of prefixes of the encodings (C53_any_writer_partial)."
  },
  {
   "property": "C54",
   "status": "partial",
   "theorems": [
    "Verif.C54_violated_num",
    "Verif.C54_violated_close",
    "Verif.C54_violated_framing",
    "Verif.C54_violated_time",
    "Verif.C54_size_partial",
    "Verif.C54_violated_error"
   ],
   "note": "False of the code as it stands: the negation is proved with a witness, with the strongest true part and where possible the exact condition. Number-based: the first write panics for every limit. Size-based: close does not flush, flush writes contents without framing, and a write error during it drops all cached entries while success is reported. Time-based: never written. Partial: what size-based does keep."
  },
  {
   "property": "C55",
   "status": "proved",
   "theorems": [
    "Verif.C55_accepts_iff",
    "Verif.C55_every_port"
   ],
   "note": ""
  },
  {
   "property": "C56",
   "status": "partial",
   "theorems": [
    "Verif.C56_exact",
    "Verif.C56_violated",
    "Verif.C56_partial",
    "Verif.C56_not_reflexive_violated"
   ],
   "note": "False of the code as it stands: the negation is proved with a witness, with the strongest true part and where possible the exact condition. The comparison lacks abs(): any first value below the second compares equal."
  },
  {
   "property": "C57",
   "status": "proved",
   "theorems": [
    "Verif.C57_overlap_exact",
    "Verif.C57_symmetric"
   ],
   "note": ""
  },
  {
   "property": "C58",
   "status": "proved",
   "theorems": [
    "Verif.C58_ids",
    "Verif.C58_distinct",
    "Verif.C58_increasing",
    "Verif.C58_increasing_per_thread"
   ],
   "note": ""
  },
  {
   "property": "C59",
   "status": "proved",
   "theorems": [
    "Verif.C59_write",
    "Verif.C59_read",
    "Verif.C59_write_unique",
    "Verif.C59_read_unique",
    "Verif.C59_roundtrip",
    "Verif.C59_read_roundtrip",
    "Verif.C59_sizes"
   ],
   "note": ""
  },
  {
   "property": "C60",
   "status": "partial",
   "theorems": [
    "Verif.C60_response_partial",
    "Verif.C60_exact_partial",
    "Verif.C60_violated"
   ],
   "note": "False of the code as it stands: the negation is proved with a witness, with the strongest true part and where possible the exact condition. Violated for negative zero: a stored -0.0 is not written (value != 0. is false) and reads back as +0.0, for every result containing one. Partial: exact otherwise."
  },
  {
   "property": "C61",
   "status": "partial",
   "theorems": [
    "Verif.C61_violated",
    "Verif.C61_violated_truncated",
    "Verif.C61_verdict_partial"
   ],
   "note": "False of the code as it stands: the negation is proved with a witness, with the strongest true part and where possible the exact condition. Violated: the result of merge_from is ignored, so a damaged tail is dropped silently and the status is that of the intact prefix; a request cut 12 bytes short gets 200 although its sample is lost."
  },
  {
   "property": "C62",
   "status": "proved",
   "theorems": [
    "Verif.C62_general",
    "Verif.C62_write_then_read"
   ],
   "note": ""
  },
  {
   "property": "C63",
   "status": "partial",
   "theorems": [
    "Verif.C63_violated",
    "Verif.C63_swap_partial",
    "Verif.C63_start_partial",
    "Verif.C63_violated_first",
    "Verif.C63_first_partial"
   ],
   "note": "False of the code as it stands: the negation is proved with a witness, with the strongest true part and where possible the exact condition. Violated: a crash after the chunk directory is created and before its metadata.json is complete makes every later start fail (unwrap on the missing or empty file), for ever; the same for the database's own metadata.json. Partial: the exact set of crash points that are survived."
  },
  {
   "property": "C64",
   "status": "partial",
   "theorems": [
    "Verif.C64_foreign",
    "Verif.C64_history",
    "Verif.C64_partial",
    "Verif.C64_range_partial",
    "Verif.C64_violated"
   ],
   "note": "False of the code as it stands: the negation is proved with a witness, with the strongest true part and where possible the exact condition. Violated: the end of every reopened chunk's window is cut to the time of reopening, so a stored point ahead of the clock is no longer found. C64_history gives the exact answer for every history; partial: no stored point ahead of the clock, or a queried range that starts before every cut."
  },
  {
   "property": "C65",
   "status": "partial",
   "theorems": [
    "Verif.C65_partial",
    "Verif.C65_violated"
   ],
   "note": "False of the code as it stands: the negation is proved with a witness, with the strongest true part and where possible the exact condition. Violated when points ahead of the clock were stored before a restart. Partial: clocks not running backwards and no stored point ahead of the clock."
  },
  {
   "property": "C66",
   "status": "partial",
   "theorems": [
    "Verif.C66_visible_partial",
    "Verif.C66_nothing_invented_partial",
    "Verif.C66_violated",
    "Verif.C66_violated_fine"
   ],
   "note": "False of the code as it stands: the negation is proved with a witness, with the strongest true part and where possible the exact condition. Violated at the granularity of single store operations: a chunk query running while another thread inserts the first point of a related series fails inside the chunk and the database silently answers with nothing (C33). Partial: chunk calls atomic, every series written by one thread in time order. C82 is the statement that holds at the granularity of single store operations; C66_violated_fine is the violation in that model, for the whole database. For the running server (one request at a time, and the timer) see C84."
  },
  {
   "property": "C67",
   "status": "proved",
   "theorems": [
    "Verif.C67_no_deadlock",
    "Verif.C67_results_in_order",
    "Verif.C67_all_return"
   ],
   "note": "Chunk calls are one step (they take one further lock, the chunk's own, and release it before they return); C83 proves the same with chunk calls interrupted between any two sled operations and the chunk's lock modelled."
  },
  {
   "property": "C70",
   "status": "partial",
   "theorems": [
    "Verif.C70_chunk_dead",
    "Verif.C70_sled_writes_survive",
    "Verif.C70_db_dead",
    "Verif.C70_violated_spread",
    "Verif.C70_violated",
    "Verif.C70_tikv_partial"
   ],
   "note": "False of the code as it stands: the negation is proved with a witness, with the strongest true part and where possible the exact condition. Violated: a TiKV insert whose label key collides with another record (C21) panics while it holds the chunk's lock; the lock is poisoned, every later call on the chunk panics, and so does the next swap, which poisons the database's lock: from then on every call panics for ever. Partial: the sled backend never panics in a write; label sets outside the collision."
  },
  {
   "property": "C71",
   "status": "partial",
   "theorems": [
    "Verif.C71_parse_partial",
    "Verif.C71_refused_partial",
    "Verif.C71_answers_partial",
    "Verif.C71_cut_partial",
    "Verif.C71_overrun"
   ],
   "note": "Proved for protobuf runtimes that refuse groups and nested lengths beyond the end of the data (the runtime is not in /repo); C71_overrun shows what a runtime that reads on accepts."
  },
  {
   "property": "C68",
   "status": "partial",
   "theorems": [
    "Verif.C68_dispatch",
    "Verif.C68_client",
    "Verif.C68_exact",
    "Verif.C68_insert",
    "Verif.C68_indexer_irrelevant",
    "Verif.C68_agree",
    "Verif.C68_violated"
   ],
   "note": "False of the code as it stands: the negation is proved with a witness, with the strongest true part and where possible the exact condition. Violated for out-of-order points of a series: sled storage accepts them, TiKV storage drops them (C68_violated). Proved: start-up dispatch, exact answer of every combination (C68_exact), result of inserts, indexer and connection unobservable for all histories, and full agreement for increasing timestamps (C68_agree)."
  },
  {
   "property": "C72",
   "status": "partial",
   "theorems": [
    "Verif.C72_violated_dry_run",
    "Verif.C72_violated_index",
    "Verif.C72_violated_storage",
    "Verif.C72_violated",
    "Verif.C72_partial"
   ],
   "note": "False of the code as it stands: the negation is proved with a witness, with the strongest true part and where possible the exact condition. Violated for every combination with a TiKV component in dry-run mode (chunk skipped) and for both mixed combinations on a cluster (component identifiers are not found again). Partial: sled/sled. TiKV/TiKV restart on a cluster is the subject of C45."
  },
  {
   "property": "C73",
   "status": "proved",
   "theorems": [
    "Verif.C73_isolated"
   ],
   "note": "Proved for the TiKV indexer with sled storage; TiKV storage of several chunks shares the empty prefix and is covered (violated) by C46."
  },
  {
   "property": "C69",
   "status": "partial",
   "theorems": [
    "Verif.C69_refused",
    "Verif.C69_exact",
    "Verif.C69_partial",
    "Verif.C69_partial_accepts",
    "Verif.C69_violated",
    "Verif.C69_violated_overflow",
    "Verif.C69_zero",
    "Verif.C69_violated_default"
   ],
   "note": "False of the code as it stands: the negation is proved with a witness, with the strongest true part and where possible the exact condition. Violated for numbers whose milliseconds do not fit in 64 bits (n = 18446744073709552 gives chunks of 384 ms) and when start + size overflows (debug: panic at start-up; release: the current chunk accepts nothing); Chunk::new's default is 12000 ms where the option's default is 12000 s. Partial: whenever start + 1000 n fits in 64 bits. n = 0 runs and accepts nothing (C69_zero)."
  },
  {
   "property": "C74",
   "status": "partial",
   "theorems": [
    "Verif.C74_no_faults",
    "Verif.C74_no_faults_run",
    "Verif.C74_storage_write",
    "Verif.C74_storage_read",
    "Verif.C74_violated_lost",
    "Verif.C74_violated_dropped",
    "Verif.C74_violated_twice",
    "Verif.C74_violated_wrong",
    "Verif.C74_violated_blocks",
    "Verif.C74_partial_sound",
    "Verif.C74_partial_reported",
    "Verif.C74_partial_complete"
   ],
   "note": "False of the code as it stands: the negation is proved with a witness, with the strongest true part and where possible the exact condition. Violated: create_index and the write into an existing series drop all results, so inserts report success for points that are never found (C74_violated_lost, _dropped) or make duplicate series (_twice); a failed read of a label's entry makes a query ignore that label (_wrong); a failed first write makes queries of other series fail (_blocks). Proved: equality with the model without failures (C74_no_faults*), the storage alone is safe (C74_storage_*), and for all histories and failures: no panic and nothing invented (C74_partial_sound), what an insert reports (C74_partial_reported), a series whose inserts had no failures is returned exactly unless the query errs (C74_partial_complete)."
  },
  {
   "property": "C75",
   "status": "proved",
   "theorems": [
    "Verif.C75_history",
    "Verif.C75_durable",
    "Verif.C75_honest"
   ],
   "note": "Refinement of the whole server process (sled backend) by a small specification (Spec/ServerLife). Assumptions (Proper): well-formed label sets, points of a series in time order within a chunk, ranges not inverted, a forward-going clock. Responses longer than 4 GiB are not decodable. Requests and ticks do not overlap in time here (C66, C67 treat that); a stop loses nothing written (C35, C36, C63 treat that). For the timer in the middle of a request see C84 and C85."
  },
  {
   "property": "C76",
   "status": "partial",
   "theorems": [
    "Verif.C76_failed_swap",
    "Verif.C76_history_partial",
    "Verif.C76_violated",
    "Verif.C76_harmless_partial",
    "Verif.C76_violated_window"
   ],
   "note": "False of the code as it stands: the negation is proved with a witness, with the strongest true part and where possible the exact condition. Violated twice. C76_violated: a tick at which metadata.json is not created or its contents are not written (the write error is dropped, the swap reports success) makes every later start fail for ever. C76_violated_window: after a failed tick, writes of points after the old window are acknowledged and dropped. What holds: C76_failed_swap (a failing swap changes nothing in memory), C76_history_partial (exact refinement over all histories with failures), C76_harmless_partial (failures that leave no half-made directory do no harm; directories they leave are not noticed). Assumed: sled creates missing trees when opened; failures while reading directories at start-up are not modelled."
  },
  {
   "property": "C77",
   "status": "partial",
   "theorems": [
    "Verif.C77_no_faults",
    "Verif.C77_no_faults_run",
    "Verif.C77_query",
    "Verif.C77_violated_dropped",
    "Verif.C77_violated_dropped_read",
    "Verif.C77_violated_lost",
    "Verif.C77_violated_twice",
    "Verif.C77_violated_half",
    "Verif.C77_violated_blocks",
    "Verif.C77_partial_sound",
    "Verif.C77_partial_reported",
    "Verif.C77_partial_complete"
   ],
   "note": "False of the code as it stands: the negation is proved with a witness, with the strongest true part and where possible the exact condition. Holds for queries, for any contents (C77_query: the I/O error or exactly the answer without failures; TiKV violates this, C74_violated_wrong). Violated for inserts: C77_violated_dropped (point not stored, success reported: the storage drops the result), C77_violated_dropped_read (the chunk drops the storage's error), C77_violated_lost (reverse entry not written, success reported, never found), C77_violated_twice (two series with the same labels), C77_violated_half (a reported failure, and the retry that reports success leaves the series unfindable by one label), C77_violated_blocks (a reported failure makes queries for other series fail). What holds whatever fails: C77_partial_sound, C77_partial_reported, C77_partial_complete (the latter: a label set none of whose inserts failed is returned exactly by every query that succeeds). Failures of `flush` alone are dropped by the program and only matter for crashes."
  },
  {
   "property": "C78",
   "status": "partial",
   "theorems": [
    "Verif.C78_labels_exact",
    "Verif.C78_violated_panics",
    "Verif.C78_violated_symm",
    "Verif.C78_violated",
    "Verif.C78_violated_hash",
    "Verif.C78_partial_labels",
    "Verif.C78_hash_injective",
    "Verif.C78_label_order",
    "Verif.C78_violated_label_ord",
    "Verif.C78_chunk_order",
    "Verif.C78_violated_chunk",
    "Verif.C78_partial_chunk",
    "Verif.C78_point_order",
    "Verif.C78_violated_point"
   ],
   "note": "False of the code as it stands: the negation is proved with a witness, with the strongest true part and where possible the exact condition. Equality of label sets is 'is a prefix of': it panics when the right one is shorter, is not symmetric, and equal sets hash differently. Labels with one name and different values, chunks with one start and different ends, and points with non-finite values are equal in the order but not equal. Partial: label sets of one size, chunks of one length, finite values; the orders by themselves are lawful; hashing is injective up to the hash function."
  },
  {
   "property": "C79",
   "status": "partial",
   "theorems": [
    "Verif.C79_violated",
    "Verif.C79_violated_lost",
    "Verif.C79_violated_blocks",
    "Verif.C79_partial_sound",
    "Verif.C79_partial_index",
    "Verif.C79_partial_flushed",
    "Verif.C79_partial_prefix"
   ],
   "note": "False of the code as it stands: the negation is proved with a witness, with the strongest true part and where possible the exact condition. The points are never flushed: after any history the power loss can leave the complete index and no point at all; and a series whose index entries survived without its points makes every query of the chunk for one of its labels fail, hiding points that are on the disk. Partial: nothing is invented and nothing panics, whatever failed and whenever the power was lost; the index survives if nothing failed; each label set without failures comes back as one prefix of its points, the same for all answered queries; all is answered as before if sled had written the points."
  },
  {
   "property": "C80",
   "status": "partial",
   "theorems": [
    "Verif.C80_partial_sound",
    "Verif.C80_partial_write",
    "Verif.C80_no_faults",
    "Verif.C80_violated_hidden",
    "Verif.C80_violated_order"
   ],
   "note": "False of the code as it stands: the negation is proved with a witness, with the strongest true part and where possible the exact condition. Violated as soon as one index entry cannot be written, which is not noticed: both writes report success, the query hides one point, and after the next swap it returns both in the wrong order. Partial: the query is answered, lists no label set twice, only written ones with at least one of the labels asked for (a label whose entry is lost is ignored), only points written for them and in the range; writes do not panic. Missing: completeness (C76 without tree failures, C79 for one chunk), order, all labels. Not modelled: two chunks in one millisecond."
  },
  {
   "property": "C81",
   "status": "proved",
   "theorems": [
    "Verif.C81_snapshot",
    "Verif.C81_errors",
    "Verif.C81_monotone",
    "Verif.C81_inserts",
    "Verif.C81_completes"
   ],
   "note": "Proved for every schedule. The answer as a whole is not the state of one moment (C33_violated_cut): each series has its own moment. A thread that inserts and queries is two threads of the model whose turns the schedule orders. Elementary operations are atomic and sequentially consistent. Every combination of storage and indexer, with stores of its own per component: sled trees, or the maps of TiKV clients in dry-run mode (Model/Kit; on a cluster storages share keys, C45/C72)."
  },
  {
   "property": "C82",
   "status": "proved",
   "theorems": [
    "Verif.C82_visible",
    "Verif.C82_nothing_invented",
    "Verif.C82_writes"
   ],
   "note": "Proved for every schedule; the exception really occurs (C66_violated_fine: the batch is acknowledged, the later query is answered with nothing). C66 is the same with chunk calls taken as atomic, where there is no exception. Not said: that a point is reported once (a swap during the query doubles it, C43). Elementary operations are atomic and sequentially consistent. Every combination of storage and indexer, with stores of its own per component: sled trees, or the maps of TiKV clients in dry-run mode (Model/Kit; on a cluster storages share keys, C45/C72)."
  },
  {
   "property": "C83",
   "status": "proved",
   "theorems": [
    "Verif.C83_no_deadlock",
    "Verif.C83_results_in_order",
    "Verif.C83_all_return"
   ],
   "note": "Proved for every schedule and policy. The locks are: the RwLock of the current chunk, the RwLock of the list of older chunks, and each chunk's own RwLock. One swapping thread (as in the program: the timer's). An insert that panics poisons the chunk's lock, and later calls of the chunk panic: they return too. Every combination of storage and indexer, with stores of its own per component: sled trees, or the maps of TiKV clients in dry-run mode (Model/Kit; on a cluster storages share keys, C45/C72)."
  },
  {
   "property": "C84",
   "status": "proved",
   "theorems": [
    "Verif.C84_reopened",
    "Verif.C84_one_order",
    "Verif.C84_exact"
   ],
   "note": "Proved for every schedule: C84_one_order gives the order (it grows with the schedule, contains every call that has returned and only calls that have begun, so it agrees with real time) and says of every result what it is at its place; C84_exact says that a query during which the timer does nothing is exact. That there is one client thread is a reading of src/server.rs:56-60 (`install` waits for its closure; rayon's contract); any number of clients is C82/C66. Well-formed label sets; each series written in order of time (SIncr) the condition under which storage is exact; chunk windows of swaps are arbitrary. Every combination of storage and indexer, with stores of its own per component: sled trees, or the maps of TiKV clients in dry-run mode (Model/Kit; on a cluster storages share keys, C45/C72). The case of a database with older chunks (C84_reopened) is used in C87, where those chunks come from earlier lives."
  },
  {
   "property": "C85",
   "status": "proved",
   "theorems": [
    "Verif.C85_reopened",
    "Verif.C85_requests",
    "Verif.C85_durable",
    "Verif.C85_honest",
    "Verif.C85_alone",
    "Verif.C85_answered_on",
    "Verif.C85_answered",
    "Verif.C85_ends"
   ],
   "note": "Proved for every schedule: C85_requests (the order, the number of calls each answered request made, and what each response is: `Handled`), C85_durable, C85_honest, C85_answered (progress, for every fair schedule and policy about readers and waiting writers). C85_ends: after a panic nothing happens any more. C85_alone: the calls of a request, made without interruption, are `_process` of C47-C50/C75. Of what a read with malformed matchers or an inverted range gets nothing is said here (C38, C47). Empty directory at start; well-formed label sets, each series written in order of time; Snappy and what the Protobuf runtime does beyond the generated code are parameters (C59). At most 2^64 - 2 steps (the u64 counters). That requests are handled one at a time is a reading of src/server.rs:56-60. Every combination of storage and indexer, with stores of its own per component: sled trees, or the maps of TiKV clients in dry-run mode (Model/Kit; on a cluster storages share keys, C45/C72). The case of a database with older chunks (C85_reopened) is used in C87, where those chunks come from earlier lives."
  },
  {
   "property": "C86",
   "status": "partial",
   "theorems": [
    "Verif.C86_serving_iff",
    "Verif.C86_codes",
    "Verif.C86_untouched",
    "Verif.C86_record",
    "Verif.C86_bound",
    "Verif.C86_defaults",
    "Verif.C86_violated_paths",
    "Verif.C86_paths_partial"
   ],
   "note": "False of the code as it stands: the negation is proved with a witness, with the strongest true part and where possible the exact condition. C86_serving_iff (both directions), C86_codes, C86_untouched, C86_record, C86_bound, C86_defaults. Violated for the paths: equal paths are accepted, and then no request writes (C86_violated_paths); C86_paths_partial is the case of different paths. Parameters of the model: clap's splitting of the command line, the YAML parser, whether existing chunks can be read (C63, C64), the operating system."
  },
  {
   "property": "C87",
   "status": "proved",
   "theorems": [
    "Verif.C87_honest",
    "Verif.C87_durable",
    "Verif.C87_durable_same",
    "Verif.C87_opens",
    "Verif.C87_stuck",
    "Verif.C87_answered",
    "Verif.C87_exact"
   ],
   "note": "(1) C87_honest. (2) C87_durable across kills, C87_durable_same within a life that began on older chunks; the exception for an interrupted insert is real (C35, C36). (3) C87_opens, (4) C87_stuck. Progress in every life: C87_answered. Kill of the process, not of the machine (C79, C80). Not modelled: metadata.json of the database (C37, C63), two chunks with one window. (6) C87_exact: the contribution of the chunks found equals that of the sequential databases of the earlier lives (storedBefore)."
  },
  {
   "property": "C88",
   "status": "partial",
   "theorems": [
    "Verif.C88_alone",
    "Verif.C88_honest",
    "Verif.C88_durable",
    "Verif.C88_put",
    "Verif.C88_violated"
   ],
   "note": "False of the code as it stands: the negation is proved with a witness, with the strongest true part and where possible the exact condition. (1) C88_alone, (2) C88_honest, (3) C88_durable, all for servers with sled storage, whatever the others have; (4) C88_put, for all. C88_violated: two servers with TiKV storage, whose identifier is empty (src/backend/tikv.rs:15-35, C46). The names C88_alone, C88_honest, C88_durable are the partial results for (1) to (3). Assumed (`Apart`): 32-byte identifiers of indexers, all different, not used by other clients (C46: from UUIDs). Not modelled: operations of the cluster that fail (C74)."
  },
  {
   "property": "C89",
   "status": "partial",
   "theorems": [
    "Verif.C89_honest",
    "Verif.C89_partial_durable",
    "Verif.C89_durable_same",
    "Verif.C89_served",
    "Verif.C89_answered",
    "Verif.C89_opens",
    "Verif.C89_kill",
    "Verif.C89_violated_lost",
    "Verif.C89_violated_blocked",
    "Verif.C89_violated_stuck"
   ],
   "note": "False of the code as it stands: the negation is proved with a witness, with the strongest true part and where possible the exact condition. (2) C89_honest; (3) C89_served, C89_answered; (4) C89_durable_same; (1) C89_opens: it comes up exactly if every configuration file it finds is complete, C89_violated_stuck: it does not otherwise. (5) fails: C89_violated_lost (acknowledged, not flushed), C89_violated_blocked (acknowledged and everything flushed, but a later, half lost write of another series hides it from reads by the shared label); C89_partial_durable: found, if what was not answered by the flush has no series with other labels that shares a label asked for. C89_kill: C87's kills are among the cases. Not modelled: metadata.json of the database (C37, C63); two chunks with one window; faults of the running file system (C76, C77)."
  },
  {
   "property": "C90",
   "status": "partial",
   "theorems": [
    "Verif.C90_violated_forgets",
    "Verif.C90_partial_durable",
    "Verif.C90_partial_opens",
    "Verif.C90_partial_answered",
    "Verif.C90_partial_sled",
    "Verif.C90_violated"
   ],
   "note": "False of the code as it stands: the negation is proved with a witness, with the strongest true part and where possible the exact condition. (1) fails for every deployment with a TiKV component and every history: C90_violated_forgets shows that every sample in every answer of a life was sent in the same life (which also gives (2)), and C90_violated gives, for four deployments, an acknowledged and reported sample that the next life does not report. (3) C90_partial_durable, (4) C90_partial_opens, (5) C90_partial_answered. C90_partial_sled: without a TiKV component the model is that of C87, where (1) holds up to what C87 says. TiKV storage on a cluster is not modelled here (its chunks share their keys: C46, C88)."
  },
  {
   "property": "C91",
   "status": "partial",
   "theorems": [
    "Verif.C91_partial_served",
    "Verif.C91_partial_threads",
    "Verif.C91_partial_own_labels",
    "Verif.C91_violated",
    "Verif.C91_partial_lives",
    "Verif.C91_partial_same_life",
    "Verif.C91_violated_lives"
   ],
   "note": "False of the code as it stands: the negation is proved with a witness, with the strongest true part and where possible the exact condition. Holds for the running server (C91_partial_served; the later query from time 0 to the end of all sent samples). For threads that share a MonolithDb it is violated: C91_violated - while another thread makes a new series with a label asked for, the same query is answered by nothing. C91_partial_threads: the later query, if it covers the window of the point's chunk, reports the point unless an insert began meanwhile that makes a new series with one of the labels asked for. C91_partial_own_labels: so it does if only this series has these labels. Across kills and restarts: C91_violated_lives - a kill during a write of another series with the label asked for hides from the next life what the last one had reported, even for a client that sends one request at a time; C91_partial_lives and C91_partial_same_life: every later life (and every later answer of the same life) reports it, unless a kill interrupted a write with one of the labels asked for."
  },
  {
   "property": "C92",
   "status": "partial",
   "theorems": [
    "Verif.C92_partial_answered",
    "Verif.C92_partial_covering",
    "Verif.C92_partial_durable",
    "Verif.C92_violated_twice",
    "Verif.C92_violated_late",
    "Verif.C92_violated_hides",
    "Verif.C92_violated_range",
    "Verif.C92_violated_tikv"
   ],
   "note": "False of the code as it stands: the negation is proved with a witness, with the strongest true part and where possible the exact condition. Violated: C92_violated_twice (a repeated request: the sample is reported twice), C92_violated_late (a late sample is accepted and not reported when asked for), C92_violated_hides (a late sample makes an earlier one disappear from an answer it was in before), C92_violated_range (an answer with a sample outside the range, not in order), C92_violated_tikv (TiKV storage: the late sample is acknowledged and thrown away). What holds in any order: every read is answered, no panic, label sets once, every sample was sent (C92_partial_answered); a query from 0 to after everything stored reports exactly the accepted samples in the order of arrival, with repetitions (C92_partial_covering), so nothing acknowledged is lost (C92_partial_durable). `Careful` states what is used of slice::binary_search beyond its documentation (it sees elements only through comparisons; its answers for a <= b do not cross); proved for the algorithm of std (stdBinSearch_careful)."
  },
  {
   "property": "C93",
   "status": "partial",
   "theorems": [
    "Verif.C93_partial_answered",
    "Verif.C93_partial_accepted",
    "Verif.C93_violated_hides",
    "Verif.C93_violated_confuses",
    "Verif.C93_violated_lost",
    "Verif.C93_violated_stranger"
   ],
   "note": "False of the code as it stands: the negation is proved with a witness, with the strongest true part and where possible the exact condition. Violated: C93_violated_hides (a write with a comma in a value is answered by 200 and makes all series that share a label with it invisible to queries by this label), C93_violated_confuses (two different label sets become one series), C93_violated_lost (a series without any comma, written after one that is spelled alike, is not found by its labels), C93_violated_stranger (with a name that begins with R: a sample is reported under labels that are not even spelled like its own). What holds for labels of any content, if no name begins with R: no panic, every read is answered by 200, every list of labels once, every sample reported was sent under labels spelled alike (C93_partial_answered), and the status of writes does not depend on labels (C93_partial_accepted). For values without commas (names without commas and equals signs) the full statement holds: C75. Assumptions on the runtime: `CutsAtAscii` (proved for UTF-8 by RFC 3629: utf8Valid_cuts), no hash collisions of a label list with its prefix."
  },
  {
   "property": "C94",
   "status": "partial",
   "theorems": [
    "Verif.C94_partial_history",
    "Verif.C94_partial_durable",
    "Verif.C94_partial_honest",
    "Verif.C94_partial_restart",
    "Verif.C94_violated_order",
    "Verif.C94_violated_hides",
    "Verif.C94_violated_dropped"
   ],
   "note": "False of the code as it stands: the negation is proved with a witness, with the strongest true part and where possible the exact condition. Violated: C94_violated_order (the clock is set back before a tick: samples sent, stored and first reported in order of time are reported in the other order after a restart), C94_violated_hides (a restart after the clock was set back hides a reported sample until the next restart), C94_violated_dropped (a sample in the window of the chunk just closed is acknowledged and never reported). What holds for any clock: the exact answers (C94_partial_history: those of C75 with the older chunks listed by start after a restart), durability for covering queries (C94_partial_durable), honesty (C94_partial_honest), and, if no stored sample is ahead of the clock at a restart, the same samples before and after (C94_partial_restart). Not modelled: a new chunk that starts at the same millisecond as an older one (the same directory); excluded by `Timely`."
  },
  {
   "property": "C95",
   "status": "partial",
   "theorems": [
    "Verif.C95_partial_history",
    "Verif.C95_partial_serves",
    "Verif.C95_partial_empty",
    "Verif.C95_partial_durable",
    "Verif.C95_violated_crash",
    "Verif.C95_violated_epoch",
    "Verif.C95_violated_end"
   ],
   "note": "False of the code as it stands: the negation is proved with a witness, with the strongest true part and where possible the exact condition. Violated: C95_violated_crash (one read with an inverted range ends the process), C95_violated_epoch (start and end are cast to unsigned: a read from before 1970, such as the smallest 64-bit number that clients send for all of time, reports nothing), C95_violated_end (the empty range from 0 to -1 reports samples). What holds, for any clock and any ranges: the exact behaviour, with the exact condition under which a read ends the process (C95_partial_history), ranges not inverted as unsigned numbers are always answered (C95_partial_serves), an answered inverted range is empty (C95_partial_empty), and acknowledged samples survive every crash caused by a read (C95_partial_durable). As for C94, a new chunk starting at the same millisecond as an older one is excluded, and samples of a series are sent in order of time."
  },
  {
   "property": "C96",
   "status": "partial",
   "theorems": [
    "Verif.C96_partial_only",
    "Verif.C96_partial_tick",
    "Verif.C96_partial_restart",
    "Verif.C96_partial_available",
    "Verif.C96_partial_same",
    "Verif.C96_violated_garbage",
    "Verif.C96_violated_inverted",
    "Verif.C96_violated_start"
   ],
   "note": "False of the code as it stands: the negation is proved with a witness, with the strongest true part and where possible the exact condition. Violated: C96_violated_garbage (a body that is not Snappy data is not answered and ends the process, in every state), C96_violated_inverted (so does a well-formed read with an inverted range), C96_violated_start (a start at the very millisecond at which an earlier chunk begins fails). What holds, without any assumption on bytes, labels, samples, their number, or the clock: these are the only such requests, and they change nothing (C96_partial_only); ticks never end the process (C96_partial_tick); a start at a new time succeeds (C96_partial_restart); so a server that gets decent requests answers all of them (C96_partial_available). C96_partial_same: if no two chunks start at the same millisecond this model and that of C75-C95 agree. Assumed: no two label sets collide in the hash map (see C41), sled refuses to open locked files, the Snappy and Protobuf libraries do not panic."
  },
  {
   "property": "C97",
   "status": "proved",
   "theorems": [
    "Verif.C97_honest",
    "Verif.C97_default"
   ],
   "note": "C97_honest, without any assumption on bytes, labels, order of samples, the clock, binary search on unsorted series, or the hash map. C97_default shows that the default 0 is needed: the server ignores parse errors of writes and stores what was read of the message. Assumed: a group is skipped forwards, and UTF-8 strings can be cut at commas and equals signs (needed for the response to be a message at all)."
  },
  {
   "property": "C98",
   "status": "partial",
   "theorems": [
    "Verif.C98_partial_often",
    "Verif.C98_violated"
   ],
   "note": "False of the code as it stands: the negation is proved with a witness, with the strongest true part and where possible the exact condition. Violated: C98_violated - a label set in which a label is repeated is accepted, its id is entered once per repetition under that label, and once its chunk is closed every sample is reported that many times (while the chunk is current the hash map hides it). C98_partial_often: for label sets without repetitions (and C75's other conditions, without the order of samples), every reported series is a sublist of what was sent for it, in order of sending."
  },
  {
   "property": "C99",
   "status": "partial",
   "theorems": [
    "Verif.C99_partial_labels",
    "Verif.C99_partial_known",
    "Verif.C99_partial_whole",
    "Verif.C99_violated_widens",
    "Verif.C99_violated_part"
   ],
   "note": "False of the code as it stands: the negation is proved with a witness, with the strongest true part and where possible the exact condition. Violated: C99_violated_widens (a label nobody has is ignored: alone it finds nothing, together with another one it finds that one's series), C99_violated_part (which labels are ignored differs from chunk to chunk, so a series without the label is reported in part, and a write of an unrelated series changes that). What holds: every reported sample's series has at least one of the labels and all of those its chunk knows (C99_partial_labels); if the chunks that know one of the labels know all - always with one label - then all series reported have all labels (C99_partial_known), and over all times are exactly the whole series with these labels (C99_partial_whole)."
  },
  {
   "property": "C100",
   "status": "partial",
   "theorems": [
    "Verif.C100_partial_reads",
    "Verif.C100_partial_writes",
    "Verif.C100_partial_tick",
    "Verif.C100_partial_restart",
    "Verif.C100_partial_count",
    "Verif.C100_violated"
   ],
   "note": "False of the code as it stands: the negation is proved with a witness, with the strongest true part and where possible the exact condition. Violated: C100_violated (a server nobody ever uses has n+1 chunk directories after n ticks of its timer, all with different names and all without data, and keeps n older chunks open in memory; every query goes through all of them). What holds: a request not sent to the write path changes nothing in the database, whatever its bytes and the state (C100_partial_reads); no request adds, removes or renames a directory or changes those of older chunks (C100_partial_writes); a tick adds exactly one empty directory, for the next window, or none if one of that name exists (C100_partial_tick); a restart keeps all directories as they are and adds one, or none if it fails (C100_partial_restart); so after any history there are at most as many more as ticks and restarts (C100_partial_count)."
  },
  {
   "property": "C101",
   "status": "proved",
   "theorems": [
    "Verif.C101_honest",
    "Verif.C101_exact",
    "Verif.C101_whole",
    "Verif.C101_durable",
    "Verif.C101_same"
   ],
   "note": "Joins C92 (any order, but a clock that goes forward) and C94 (any clock, but samples in order). What such reads do not keep is their order of samples in time (C92, C94 say how it fails) - the answers are compared as multisets. Conditions: the range is from 0; no new chunk starts at the very millisecond of an older one (`Timely`; C91 has that case); label sets without separators or repetitions; sled components. Narrower ranges fail: C92_violated_late, C94_violated_hides."
  },
  {
   "property": "C102",
   "status": "proved",
   "theorems": [
    "Verif.C102_serves",
    "Verif.C102_exact",
    "Verif.C102_whole",
    "Verif.C102_durable",
    "Verif.C102_same",
    "Verif.C102_recovers"
   ],
   "note": "Joins C95 (any ranges, but samples in order and reads with well-formed labels) and C101 (any order and any clock, but no inverted ranges). The specification does not predict what such a read does: a read without response has ended the process (`Site.sees`). No assumption at all on the reads before the one in question. The conditions on the clock are those of C94."
  }
 ]
}