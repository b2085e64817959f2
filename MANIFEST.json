{
 "claims": [
  {
   "property": "C01",
   "status": "proved",
   "theorems": [
    "Verif.Sophos.C01_search_exact",
    "Verif.Sophos.C01_unknown_keyword",
    "Verif.Sophos.C01_search_readonly"
   ],
   "note": "Refinement of all insertion/search histories to an abstract multimap; bound of 2^32 insertions per keyword and PRF collision-freeness on used points are hypotheses."
  },
  {
   "property": "C02",
   "status": "proved",
   "theorems": [
    "Verif.Sophos.C02_callback",
    "Verif.Sophos.C02_search_parallel",
    "Verif.Sophos.C02_search_parallel_light",
    "Verif.Sophos.C02_search_parallel_callback",
    "Verif.Sophos.C02_runs_exist",
    "Verif.Sophos.C02_callback_runs_complete"
   ],
   "note": "All thread counts 1..255 and all interleavings of job threads and pools; callback variant equal as sequences, parallel variants as multisets; termination included."
  },
  {
   "property": "C03",
   "status": "partial",
   "theorems": [
    "Verif.Sophos.C03_positions_once_partial",
    "Verif.Sophos.C03_diverges_violated",
    "Verif.Sophos.C03_duplicates_violated"
   ],
   "note": "Violated from 256 hardware threads (8-bit narrowing): non-termination at 256, duplicates at 257. Holds up to 255."
  },
  {
   "property": "C04",
   "status": "proved",
   "theorems": [
    "Verif.Sophos.C04_search_delivered",
    "Verif.Sophos.C04_order_and_duplication_irrelevant",
    "Verif.Sophos.C04_other_keywords_unaffected"
   ],
   "note": "Arbitrary delivery lists (loss, reordering, duplication)."
  },
  {
   "property": "C05",
   "status": "partial",
   "theorems": [
    "Verif.Sophos.C05_tokens_distinct_partial",
    "Verif.Sophos.C05_token_closed_form",
    "Verif.Sophos.C05_token_repeats_violated",
    "Verif.Sophos.C05_search_empty_after_wrap_violated"
   ],
   "note": "Violated at the 2^32-th insertion of a keyword (32-bit counter wrap), proved as negations; distinctness proved below 2^32."
  },
  {
   "property": "C06",
   "status": "partial",
   "theorems": [
    "Verif.Sophos.C06_concurrent_disjoint_partial",
    "Verif.Sophos.C06_lost_insertion_violated"
   ],
   "note": "Violated: get_and_increment is not atomic, two threads sharing a keyword lose an insertion (proved for every cryptography). Holds in every schedule when threads have disjoint keywords."
  },
  {
   "property": "C07",
   "status": "proved",
   "theorems": [
    "Verif.Diana.C07_histories",
    "Verif.Diana.C07_search_exact",
    "Verif.Diana.C07_unknown_keyword",
    "Verif.Diana.C07_readonly"
   ],
   "note": "Refinement of all insertion/search histories to an abstract multimap, in insertion order; collision-freeness on used points and < 2^32 insertions per keyword are hypotheses."
  },
  {
   "property": "C08",
   "status": "proved",
   "theorems": [
    "Verif.Diana.C08_partition",
    "Verif.Diana.C08_list",
    "Verif.Diana.C08_callback",
    "Verif.Diana.C08_vector",
    "Verif.Diana.C08_terminates"
   ],
   "note": "All thread counts from 1 up, all interleavings of the scanning threads; partition exact; termination included."
  },
  {
   "property": "C09",
   "status": "partial",
   "theorems": [
    "Verif.Diana.C09_vector_partial",
    "Verif.Diana.C09_vector_invents_violated"
   ],
   "note": "Violated: with a lost update the vector variant reports document 0 (proved for a witness); holds when every update was delivered."
  },
  {
   "property": "C10",
   "status": "proved",
   "theorems": [
    "Verif.Diana.C10_bulk_eq_one_by_one"
   ],
   "note": "Requests, order and client state; repeated keywords included."
  },
  {
   "property": "C11",
   "status": "proved",
   "theorems": [
    "Verif.Diana.C11_parallel",
    "Verif.Diana.C11_histories",
    "Verif.Diana.C11_server"
   ],
   "note": "Histories with deleting searches with and without client forgetting."
  },
  {
   "property": "C12",
   "status": "partial",
   "theorems": [
    "Verif.Janus.C12_points_partial",
    "Verif.Janus.C12_points_no_fault",
    "Verif.Janus.C12_search_exact_partial",
    "Verif.Janus.C12_no_fault",
    "Verif.Janus.C12_reinsertion_violated",
    "Verif.Janus.C12_two_removals_violated"
   ],
   "note": "Violated with two removals and an insertion between searches (duplicate puncture number) and for re-insertion after a removal in the same epoch; proved for all other histories (at most one removal per epoch, or only removals), plus absence of faults for all histories. Collisions matter only on the points that the history uses (C12_points_partial)."
  },
  {
   "property": "C13",
   "status": "partial",
   "theorems": [
    "Verif.Janus.C13_numbers_used",
    "Verif.Janus.C13_first_removal_partial",
    "Verif.Janus.C13_search_carries_count",
    "Verif.Janus.C13_second_removal_violated"
   ],
   "note": "Violated: numbers are 1,1,2,3,…; exact sequence proved for all histories, as well as the count carried by search requests."
  },
  {
   "property": "C14",
   "status": "proved",
   "theorems": [
    "Verif.Janus.C14_meta_injective",
    "Verif.Janus.C14_tag_injective",
    "Verif.Janus.C14_doc_tag"
   ],
   "note": "Injectivity for arbitrary byte strings, all epochs and all documents. The tags themselves differ unless the pseudo-random function collides on inputs that are used (C14_doc_tag)."
  },
  {
   "property": "C15",
   "status": "proved",
   "theorems": [
    "Verif.Janus.C15_parallel_eq_sequential",
    "Verif.Janus.C15_terminates"
   ],
   "note": "All states with readable cache, all thread counts from 1 up, all schedules; reported sequence equal, multiset of list and cache equal, same deletion database. Insertion entries are not erased by the parallel variant (stated)."
  },
  {
   "property": "C16",
   "status": "partial",
   "theorems": [
    "Verif.ListStore.C16_characterisation",
    "Verif.ListStore.C16_truncated_violated",
    "Verif.ListStore.C16_within_bounds_partial"
   ],
   "note": "Violated: a value ending with 16 to 23 bytes that do not form an element is read out of bounds (the bounds check forgets the document); exact characterisation by length for all values. For all other values the elements read, put end to end as bytes, are the value without its incomplete end (C16_within_bounds_partial)."
  },
  {
   "property": "C17",
   "status": "proved",
   "theorems": [
    "Verif.ThreadPool.C17_exactly_once",
    "Verif.ThreadPool.C17_never_twice",
    "Verif.ThreadPool.C17_rejection_only_after_join",
    "Verif.ThreadPool.C17_join_returns",
    "Verif.ThreadPool.C17_no_lost_wakeup",
    "Verif.ThreadPool.C17_pipeline",
    "Verif.ThreadPool.C17_pipeline_terminates"
   ],
   "note": "Safety, conservation, no lost wake-up, termination of join; pipeline of two pools."
  },
  {
   "property": "C18",
   "status": "partial",
   "theorems": [
    "Verif.Runner.C18_success_partial",
    "Verif.Runner.C18_processed",
    "Verif.Runner.C18_parse_error",
    "Verif.Runner.C18_exception_violated",
    "Verif.Runner.C18_all_sent_partial",
    "Verif.Runner.C18_missing_are_lost",
    "Verif.Runner.C18_search_after_load_partial",
    "Verif.Runner.C18_no_worker",
    "Verif.Runner.C18_returns",
    "Verif.Runner.C18_broken_stream",
    "Verif.Runner.C18_sophos_search_partial",
    "Verif.Runner.C18_diana_search_partial"
   ],
   "note": "Proved for every schedule of the pool: with at least one worker and no failed Write, success implies that exactly the pairs of the file have been sent (C18_all_sent_partial), in general exactly the pairs whose Write failed are missing (C18_missing_are_lost), and Sophos searches then return the lists of the file (C18_search_after_load_partial). For both schemes, whatever was lost, a search returns exactly the documents whose messages were sent (C18_sophos_search_partial, C18_diana_search_partial). With parse errors and exceptions of the counter store in tasks: success implies that the file parsed (C18_success_partial), exactly the pairs before the parse error and before the exception of each task are processed (C18_processed, C18_parse_error). Violated for hardware_concurrency() = 0 (C18_no_worker), for a broken stream (C18_broken_stream) and for an exception in a task, which is dropped with its future (C18_exception_violated): success is returned though pairs have not been sent."
  },
  {
   "property": "C19",
   "status": "proved",
   "theorems": [
    "Verif.Tethys.C19_valid_flow",
    "Verif.Tethys.C19_vertex_flows"
   ],
   "note": "All graphs made by add_edge, add_edge_from_source and add_edge_to_sink, all 64-bit capacities; the accessors agree modulo 2^64."
  },
  {
   "property": "C20",
   "status": "proved",
   "theorems": [
    "Verif.Tethys.C20_maximal",
    "Verif.Tethys.C20_get_flow",
    "Verif.Tethys.C20_get_edge_flow",
    "Verif.Tethys.C20_get_flow_exact"
   ],
   "note": "Maximality against all flows of the same network; termination is the return of the fuelled loops within their bounds; get_flow is exact when the capacities leaving the source add up to less than 2^64."
  },
  {
   "property": "C21",
   "status": "partial",
   "theorems": [
    "Verif.Tethys.C21_fine_no_fault",
    "Verif.Tethys.C21_fine_terminates",
    "Verif.Tethys.C21_fine_same_value",
    "Verif.Tethys.C21_fine_disjoint_writes",
    "Verif.Tethys.C21_fine_race",
    "Verif.Tethys.C21_edges_split",
    "Verif.Tethys.C21_no_fault",
    "Verif.Tethys.C21_terminates",
    "Verif.Tethys.C21_same_value_partial",
    "Verif.Tethys.C21_race"
   ],
   "note": "The split into components, absence of faults, termination and the flow value hold for all interleavings of the jobs, also with the searches interleaved edge by edge and with arbitrary values read in the flows that other jobs write (C21_fine_*); two jobs never write the same edge. The claim of disjoint accesses fails to the letter: a search reads the flow of the source edges of the other components, a data race (C21_race, C21_fine_race)."
  },
  {
   "property": "C22",
   "status": "proved",
   "theorems": [
    "Verif.Tethys.C22_allocation",
    "Verif.Tethys.C22_insert_rejects"
   ],
   "note": "All table sizes, page sizes and lists accepted by insert whose total length plus the page fits in 64 bits."
  },
  {
   "property": "C23",
   "status": "proved",
   "theorems": [
    "Verif.Tethys.C23_minimal_stash"
   ],
   "note": "Against all assignments of the entries to their two buckets, by the cut left by the maximum flow; same 64-bit hypothesis as C22."
  },
  {
   "property": "C24",
   "status": "proved",
   "theorems": [
    "Verif.Tethys.C24_build_in_bounds",
    "Verif.Tethys.C24_insert_rejects"
   ],
   "note": "Byte-level model of the encoder (uint64 values, 16-byte keys): building never faults for any page size, number of buckets, hash function and lists, under the hypothesis that the total length fits in 64 bits. Lists that do not fit are rejected."
  },
  {
   "property": "C25",
   "status": "partial",
   "theorems": [
    "Verif.Tethys.C25_any_page",
    "Verif.Tethys.C25_cut_page",
    "Verif.Tethys.C25_get_list_partial",
    "Verif.Tethys.C25_get_list_sound",
    "Verif.Tethys.C25_empty_list_loses_data",
    "Verif.Tethys.C25_unaligned_page_out_of_bounds",
    "Verif.Tethys.C25_stale_stash",
    "Verif.Tethys.C25_duplicate_key"
   ],
   "note": "Proved for non-empty lists, page sizes that are multiples of eight bytes, distinct keys and no previous stash file; lookups are sound with empty lists too. The full property is false: an empty list hides later lists of its bucket, an unaligned page size gives a read out of bounds, and a stale stash file is read; each has a concrete witness. What the decoder reads in any page, damaged or not, is characterised exactly (C25_any_page, C25_cut_page)."
  },
  {
   "property": "C26",
   "status": "partial",
   "theorems": [
    "Verif.Tethys.C26_search_partial",
    "Verif.Tethys.C26_search_sound",
    "Verif.Tethys.C26_multiple_of_block_size_loses_data"
   ],
   "note": "Proved for indexes without a list whose length is a multiple of the block size, when the search tokens of the keywords are distinct and the hash has no collision on the block keys that occur; soundness and absence of faults hold for all lengths. The full property is false: an index with a list of exactly one block loses the documents of another keyword."
  },
  {
   "property": "C27",
   "status": "proved",
   "theorems": [
    "Verif.Tethys.C27_decrypt_encrypt",
    "Verif.Tethys.C27_encrypted_files"
   ],
   "note": "For all ciphers (arbitrary key stream), keys, indexes and contents, and for the files of the two builders."
  },
  {
   "property": "C28",
   "status": "partial",
   "theorems": [
    "Verif.Tethys.Async.C28_once_partial",
    "Verif.Tethys.Async.C28_serialised",
    "Verif.Tethys.Async.C28_race",
    "Verif.Tethys.Async.C28_failed_read"
   ],
   "note": "In all interleavings the callback is called at most once, with the right data, and exactly once if both read callbacks end; non-overlapping callbacks are fully correct. The full property is false: the counter is incremented before the bucket is stored, so the second callback may dereference a null pointer; a failed read also does."
  },
  {
   "property": "C29",
   "status": "proved",
   "theorems": [
    "Verif.Tethys.C29_stash_round_trip",
    "Verif.Tethys.C29_builder_stash"
   ],
   "note": "For all lists of pairs with distinct keys, and for the stash of the store builder."
  },
  {
   "property": "C30",
   "status": "partial",
   "theorems": [
    "Verif.Pluto.C30_rocksdb",
    "Verif.Pluto.C30_default_partial",
    "Verif.Pluto.C30_default_spurious",
    "Verif.Pluto.C30_empty_index_wraps",
    "Verif.Pluto.C30_spilled_block_truncates"
   ],
   "note": "C30_rocksdb proves the property in full for the RocksDB parameters, for indexes whose tokens, hashes and random values do not collide. For the default (cuckoo) parameters it is false: C30_default_spurious proves that every full block adds four zeros to the results, C30_spilled_block_truncates that a lost block truncates them, and C30_default_partial covers the lists shorter than a block. RocksDB Put and Get are assumed to succeed."
  },
  {
   "property": "C31",
   "status": "proved",
   "theorems": [
    "Verif.Oceanus.C31_insert",
    "Verif.Oceanus.C31_insertions",
    "Verif.Oceanus.C31_halves"
   ],
   "note": "All sequences of insertions, all table sizes > 0, depths and hash values, including repeated keys."
  },
  {
   "property": "C32",
   "status": "partial",
   "theorems": [
    "Verif.Oceanus.C32_get_partial",
    "Verif.Oceanus.C32_spilled_value_lost",
    "Verif.Oceanus.C32_all_ones_found",
    "Verif.Oceanus.C32_all_ones_spilled",
    "Verif.Oceanus.C32_size_zero"
   ],
   "note": "Proved for every inserted key that was not spilled (including the key of bytes 255) and for every other key except the one of bytes 255. The claim is false otherwise: spilled values are lost silently (C32_spilled_value_lost), the key of bytes 255 matches empty cells (C32_all_ones_found, C32_all_ones_spilled), a table of size 0 divides by zero (C32_size_zero)."
  },
  {
   "property": "C33",
   "status": "partial",
   "theorems": [
    "Verif.Oceanus.Async.C33_once_partial",
    "Verif.Oceanus.Async.C33_table_partial",
    "Verif.Oceanus.Async.C33_both_cells_match",
    "Verif.Oceanus.Async.C33_failed_read"
   ],
   "note": "Proved for all interleavings when at most one cell matches, which holds in every table built from distinct keys for keys other than the one of bytes 255. For that key the two callbacks race (C33_both_cells_match). A failed read is reported as 'not found' (C33_failed_read)."
  },
  {
   "property": "C34",
   "status": "partial",
   "theorems": [
    "Verif.Vec.C34_get_partial",
    "Verif.Vec.C34_reopen",
    "Verif.Vec.C34_table",
    "Verif.Vec.C34_rejections",
    "Verif.Vec.C34_defined",
    "Verif.Vec.C34_direct_access_without_scheduler",
    "Verif.Vec.C34_reserved_read",
    "Verif.Vec.C34_async_push_after_commit",
    "Verif.Vec.C34_mixed_pushes",
    "Verif.Vec.C34_failed_write",
    "Verif.Vec.C34_direct_access"
   ],
   "note": "Proved for all sequences of operations that use one kind of push, without failed writes, without asynchronous push after commit and without change of access mode between synchronous pushes. The other sequences violate the claim: index equal to the size (C34_reserved_read), C34_async_push_after_commit, C34_mixed_pushes, C34_failed_write, C34_direct_access."
  },
  {
   "property": "C35",
   "status": "partial",
   "theorems": [
    "Verif.Oceanus.C35_cuckoo_crash",
    "Verif.Vec.C35_crash_partial",
    "Verif.Vec.C35_crash_undetected",
    "Verif.Vec.C35_tethys_stash"
   ],
   "note": "The claim is false: C35_crash_undetected shows that every construction interrupted after its first reservation or push is presented as committed, C35_tethys_stash that a missing stash is not detected, and C35_cuckoo_crash that a cuckoo table interrupted anywhere in commit opens as a full table. Proved only while the file is still empty."
  },
  {
   "property": "C36",
   "status": "partial",
   "theorems": [
    "Verif.Vec.C36_move_partial",
    "Verif.Vec.C36_move_loses_content",
    "Verif.Vec.C36_move_uncommits",
    "Verif.Vec.C36_moved_from_closes_stdin"
   ],
   "note": "The claim is false for every non-empty vector (C36_move_loses_content, C36_move_uncommits) and the moved-from destructor closes descriptor 0 (C36_moved_from_closes_stdin). C36_move_partial states what is preserved."
  },
  {
   "property": "C37",
   "status": "partial",
   "theorems": [
    "Verif.Aio.Pool.C37_callbacks",
    "Verif.Aio.Pool.C37_no_lost_wakeup",
    "Verif.Aio.Pool.C37_returns",
    "Verif.Aio.Pool.C37_use_after_free",
    "Verif.Aio.Pool.C37_destroy_partial",
    "Verif.Aio.Pool.C37_no_early_fault"
   ],
   "note": "The callbacks part is proved for all interleavings, with the absence of lost wake-ups. Destroying right after wait_completions is safe only if the waiter saw the end while holding the lock; otherwise C37_use_after_free is a use after free."
  },
  {
   "property": "C38",
   "status": "partial",
   "theorems": [
    "Verif.Aio.Linux.C38_completes_partial",
    "Verif.Aio.Linux.C38_wait_partial",
    "Verif.Aio.Linux.C38_once",
    "Verif.Aio.Linux.C38_lost_wakeup",
    "Verif.Aio.Linux.C38_getevents_error",
    "Verif.Aio.Linux.C38_wakeup_partial",
    "Verif.Aio.Linux.C38_wakes_all"
   ],
   "note": "Completion accounting proved for all interleavings without io_getevents error. From every state reached with prompt schedules wait_completions can return, with all requests notified that were not lost before (C38_completes_partial). The wake-up claim is false (C38_lost_wakeup: blocked forever, for all continuations); proved when no completion is reaped between the failed io_submit and the wait. C38_getevents_error: wait_completions returns too early after an error."
  },
  {
   "property": "C39",
   "status": "proved",
   "theorems": [
    "Verif.Utils.C39_mask_involutive",
    "Verif.Utils.C39_mask_injective",
    "Verif.Utils.C39_mask_positions",
    "Verif.Utils.C39_mask_only_first_eight",
    "Verif.Utils.C39_bytes_involutive",
    "Verif.Utils.C39_bytes_injective",
    "Verif.Utils.C39_bytes_positions"
   ],
   "note": "Bit-level positions, involution, injectivity; scalar and array overloads."
  },
  {
   "property": "C40",
   "status": "partial",
   "theorems": [
    "Verif.Concat.C40_visits_all_partial",
    "Verif.Concat.C40_empty_first_violated"
   ],
   "note": "Violated when the first container is empty (dereference of its end); holds when the first is non-empty, for every second container."
  },
  {
   "property": "C41",
   "status": "partial",
   "theorems": [
    "Verif.ListStore.C41_roundtrip",
    "Verif.ListStore.C41_missing",
    "Verif.ListStore.C41_janus_cache",
    "Verif.ListStore.C41_truncated_violated"
   ],
   "note": "Round trip proved for every lawful serialiser and the Janus one; a truncated value whose trailing part is between 16 and 23 bytes is read out of bounds instead of being refused."
  },
  {
   "property": "C42",
   "status": "partial",
   "theorems": [
    "Verif.Runner.C42_update_partial",
    "Verif.Runner.C42_update_iff",
    "Verif.Runner.C42_insert_handler",
    "Verif.Runner.C42_overlong_token_violated",
    "Verif.Runner.C42_bulk_handler",
    "Verif.Runner.C42_search_iff",
    "Verif.Runner.C42_search_assertion",
    "Verif.Runner.C42_roundtrip_partial",
    "Verif.Runner.C42_diana_search_iff"
   ],
   "note": "The conversions between gRPC messages and requests are modelled with byte strings of any length, fixed-size buffers and out-of-bounds reads and writes as faults. C42_update_iff, C42_search_iff and C42_diana_search_iff say exactly which messages are converted; C42_roundtrip_partial gives the round trip for messages written by the clients, C42_bulk_handler the effect of a whole stream of updates. The full claim (any message is rejected or converted safely) is false: C42_overlong_token_violated."
  },
  {
   "property": "C43",
   "status": "partial",
   "theorems": [
    "Verif.Runner.C43_recoverable_iff",
    "Verif.Runner.C43_killed_in_setup_violated",
    "Verif.Runner.C43_sophos_invalid_key_violated",
    "Verif.Runner.C43_diana_invalid_key_violated",
    "Verif.Runner.C43_key_file_violated",
    "Verif.Runner.C43_diana_search_during_setup",
    "Verif.Runner.C43_setup_partial",
    "Verif.Runner.C43_sophos_never_null",
    "Verif.Runner.C43_diana_never_null_partial",
    "Verif.Runner.C43_client_cut",
    "Verif.Runner.C43_client_up",
    "Verif.Runner.C43_client_never_retries_violated",
    "Verif.Runner.C43_lost_message_violated",
    "Verif.Runner.C43_pair_partial"
   ],
   "note": "The set-up of the Sophos and Diana services is modelled as the list of its intermediate disk states, with a crash possible after any of them. C43_recoverable_iff characterises exactly the disks from which a restart leads to a usable service. The full claim is false: a server killed during set-up, an invalid key or a failed key file leave a directory that can never be used (C43_killed_in_setup_violated, C43_sophos_invalid_key_violated, C43_diana_invalid_key_violated, C43_key_file_violated), and the client never sends the set-up again (C43_client_never_retries_violated, C43_lost_message_violated). The parts that hold are C43_setup_partial, C43_sophos_never_null, C43_diana_never_null_partial and C43_pair_partial."
  },
  {
   "property": "C44",
   "status": "partial",
   "theorems": [
    "Verif.Runner.C44_sophos_partial",
    "Verif.Runner.C44_sophos_available",
    "Verif.Runner.C44_diana_partial",
    "Verif.Runner.C44_diana_available"
   ],
   "note": "End-to-end model of client, messages, service, key files and databases for Sophos and Diana, with stops and starts at arbitrary points: between operations, and in the middle of an insertion (message lost, reply lost, client or server or both stopped). Proved: every search gives exactly the delivered updates (Diana synchronous: with document 0 for lost ones), and every event sequence has a run. Hypotheses: fewer than 2^32 insertions per keyword, no token collision in the history, a thread count accepted by C46. Missing: loss of power (RocksDB writes are not synchronised), which is in C57, and thread counts for which C46 fails."
  },
  {
   "property": "C45",
   "status": "partial",
   "theorems": [
    "Verif.Generator.C45_documents_partial",
    "Verif.Generator.C45_terminates_partial",
    "Verif.Generator.C45_overflow_violated",
    "Verif.Generator.C45_no_threads"
   ],
   "note": "Proved for every number of threads >= 1, all random draws and schedules, if N + threads <= 2^64: exactly N documents, each with its 15 fixed keywords once and at most 5 random-group keywords, the entry count is the number of callbacks, termination, no division by zero and no out-of-bounds access. Violated for N = 2^64 - 1 with two threads (the loop counter overflows, no end). Floating-point thresholds are parameters."
  },
  {
   "property": "C46",
   "status": "partial",
   "theorems": [
    "Verif.Runner.C46_sophos_partial",
    "Verif.Runner.C46_sophos_violated",
    "Verif.Runner.C46_sophos_sync_violated",
    "Verif.Runner.C46_diana_partial",
    "Verif.Runner.C46_diana_sync",
    "Verif.Runner.C46_diana_violated"
   ],
   "note": "Proved for the thread counts for which the code works (Sophos asynchronous: hw not a multiple of 256; Sophos synchronous: hw at most 255; Diana asynchronous: hw not a multiple of 256; Diana synchronous: all). Violated otherwise: with hw = 256 Sophos asynchronous returns nothing with status OK, Sophos synchronous never ends, Diana asynchronous divides by zero."
  },
  {
   "property": "C47",
   "status": "partial",
   "theorems": [
    "Verif.Generator.C47_group_size_partial",
    "Verif.Generator.C47_random_bound_partial",
    "Verif.Generator.C47_no_duplicates_partial",
    "Verif.Generator.C47_random_groups_violated"
   ],
   "note": "Proved: a completed group of each of the nine families of fixed size is reported for exactly its size (group numbers below 2^32 - 2), and a random group for at most its announced size, plus 100 for the groups of at most 1000; no keyword is reported twice for one document unless its draw passes the thresholds of both the groups of 100 and of 1000, and then only keywords that these share (C47_no_duplicates_partial). Violated for random groups: those of nominal size 100 use the keywords of those of size 1000, so a keyword can be reported twice for one document."
  },
  {
   "property": "C48",
   "status": "partial",
   "theorems": [
    "Verif.Oceanus.C48_success_exact_partial",
    "Verif.Oceanus.C48_succeeds_iff",
    "Verif.Oceanus.C48_existing_table_kept",
    "Verif.Oceanus.C48_interrupted_violated",
    "Verif.Oceanus.C48_failed_rebuild_violated",
    "Verif.Oceanus.C48_after_commit",
    "Verif.Oceanus.C48_no_table"
   ],
   "note": "C48_succeeds_iff and C48_success_exact_partial: a build without error found no files and leaves exactly what was inserted (values lost by the cuckoo table and the key of bytes 255 excepted, see C32); C48_existing_table_kept; C48_after_commit: a committed builder changes nothing any more; C48_no_table. Violated: an interrupted build leaves a temporary file which makes every later build fail (C48_interrupted_violated), and the destructor of the builder that failed then makes a valid empty table without an error (C48_failed_rebuild_violated)."
  },
  {
   "property": "C49",
   "status": "partial",
   "theorems": [
    "Verif.Diana.C49_value",
    "Verif.Diana.C49_violated",
    "Verif.Diana.C49_one_looks_like_none"
   ],
   "note": "False: C49_value proves that the result is one less than the number of insertions, for every history, so it is right only for keywords without documents (C49_violated) and does not tell a keyword with one document from one with none (C49_one_looks_like_none). There is no part of the claim left beyond keywords without documents."
  },
  {
   "property": "C50",
   "status": "partial",
   "theorems": [
    "Verif.Faults.C50_parallel_refines",
    "Verif.Faults.C50_parallel_occurs",
    "Verif.Faults.C50_parallel_violated",
    "Verif.Faults.C50_parallel_sound_partial",
    "Verif.Faults.C50_sophos_refines",
    "Verif.Faults.C50_diana_refines",
    "Verif.Faults.C50_sophos_partial",
    "Verif.Faults.C50_diana_partial",
    "Verif.Faults.C50_sophos_reset_violated",
    "Verif.Faults.C50_diana_reset_violated",
    "Verif.Faults.C50_sophos_unstored_violated",
    "Verif.Faults.C50_diana_unstored_violated",
    "Verif.Faults.C50_sophos_read_violated",
    "Verif.Faults.C50_diana_read_violated"
   ],
   "note": "C50_sophos_refines and C50_diana_refines give the exact observations for every pattern of failures of Get and Put. The claim holds when only the Put of the client fails (C50_sophos_partial, C50_diana_partial) and is violated by a failed Get of the client in an insertion, which loses all earlier documents, by a failed Put of the server and by failed reads in a search. C50_parallel_refines and C50_parallel_occurs give what the parallel searches of Sophos report when reads fail, for all schedules (C50_parallel_violated: documents are lost without error; C50_parallel_sound_partial: nothing is invented). Failures of Delete and of the parallel searches of Diana are in C77."
  },
  {
   "property": "C51",
   "status": "partial",
   "theorems": [
    "Verif.Tethys.C51_build_partial",
    "Verif.Tethys.C51_existing_table_kept",
    "Verif.Tethys.C51_failed_build_violated",
    "Verif.Tethys.C51_interrupted_violated",
    "Verif.Tethys.C51_built_refuses",
    "Verif.Tethys.C51_no_table",
    "Verif.Tethys.C51_interrupted_loses_stash",
    "Verif.Tethys.C51_stale_stash_violated"
   ],
   "note": "C51_build_partial: without a table and a stash file (whatever the counters) a build succeeds and searches are exact, for the list lengths of C26. C51_existing_table_kept: table and stash are never altered, builds report the error. C51_built_refuses: a builder that has built refuses everything and changes nothing; C51_no_table. Violated: a refused build has already overwritten the counters (C51_failed_build_violated), an interrupted build passes for a finished one (C51_interrupted_violated, C51_interrupted_loses_stash), and a stash file left beside a removed table is used with the new table (C51_stale_stash_violated)."
  },
  {
   "property": "C52",
   "status": "partial",
   "theorems": [
    "Verif.Live.C52_sophos_moment",
    "Verif.Live.C52_sophos_sequential_partial",
    "Verif.Live.C52_sophos_parallel_partial",
    "Verif.Live.C52_sophos_callback_partial",
    "Verif.Live.C52_sophos_light_partial",
    "Verif.Live.C52_runs_exist",
    "Verif.Live.C52_diana_sequential_partial",
    "Verif.Live.C52_diana_parallel_partial",
    "Verif.Live.C52_diana_sequential_violated",
    "Verif.Live.C52_sophos_overtaking_violated",
    "Verif.Live.C52_sophos_light_violated"
   ],
   "note": "Proved in full for the sequential Sophos searches when the updates of the keyword arrive in the order of their insertion (C52_sophos_moment). For all other searches, all thread counts and schedules: the result consists of all documents stored before the search and some of those stored meanwhile, and of nothing else (in the vector variant of Diana, zero for each position not found, see C09). One single moment is false for them, with witnesses. Other searches running at the same time are left out because the searches of the services delete nothing. The post pool of search_parallel_callback is a list of results held back."
  },
  {
   "property": "C53",
   "status": "partial",
   "theorems": [
    "Verif.Rocks.C53_run_iff",
    "Verif.Rocks.C53_cases",
    "Verif.Rocks.C53_get_partial",
    "Verif.Rocks.C53_get_absent",
    "Verif.Rocks.C53_pointer_keys",
    "Verif.Rocks.C53_other_type_iff",
    "Verif.Rocks.C53_short_value_violated",
    "Verif.Rocks.C53_counter_refines",
    "Verif.Rocks.C53_counter_value",
    "Verif.Rocks.C53_counter_cases",
    "Verif.Rocks.C53_list_keys_partial",
    "Verif.Rocks.C53_list_long_key_violated",
    "Verif.Rocks.C53_pluto_store_partial",
    "Verif.Rocks.C53_pluto_refines",
    "Verif.Rocks.C53_pluto_page_size_violated"
   ],
   "note": "Proved for all histories, with several value types in one database, when a key is read at the type it was written with, for keys of at most 255 bytes where the length is narrowed; the counters and the Pluto table at the level of bytes refine the maps used in the other modules. C53_other_type_iff says exactly when a read leaves the value. Violated: a value written with a smaller type is read out of bounds (C53_short_value_violated), as every block of a Pluto database opened with a larger page size (C53_pluto_page_size_violated); lists stored under keys of 256 bytes are not found (C53_list_long_key_violated; the keys of Janus have 16 bytes)."
  },
  {
   "property": "C54",
   "status": "partial",
   "theorems": [
    "Verif.Janus.Crash.C54_rollback",
    "Verif.Janus.Crash.C54_partial",
    "Verif.Janus.Crash.C54_no_fault",
    "Verif.Janus.Crash.C54_documents_lost_violated",
    "Verif.Janus.Crash.C54_removed_document_returns_violated",
    "Verif.Janus.Crash.C54_lost_removal_violated",
    "Verif.Janus.Crash.C54_parallel_repeated_violated"
   ],
   "note": "C54_rollback describes exactly what happens for all admissible histories (admissible as in C12: see the defects of C12 and C13); the full statement is false for every lawful cryptography (C54_documents_lost_violated, C54_removed_document_returns_violated, C54_parallel_repeated_violated), and holds as long as no search is interrupted after the first write of the client (C54_partial); histories outside C12's admissible ones are covered by C54_no_fault only."
  },
  {
   "property": "C55",
   "status": "partial",
   "theorems": [
    "Verif.Vec.Buf.C55_safe_partial",
    "Verif.Vec.Buf.C55_released_partial",
    "Verif.Vec.Buf.C55_callbacks_partial",
    "Verif.Vec.Buf.C55_requests_partial",
    "Verif.Vec.Buf.C55_condition",
    "Verif.Vec.Buf.C55_after_wait",
    "Verif.Vec.Buf.C55_written_after_free_violated",
    "Verif.Vec.Buf.C55_released_twice_violated",
    "Verif.Vec.Buf.C55_alignment_violated",
    "Verif.Vec.Buf.C55_short_read_forgotten_violated",
    "Verif.Vec.Buf.C55_wrong_index_forgotten_violated",
    "Verif.Vec.Buf.C55_push_forgotten_violated",
    "Verif.Vec.Buf.C55_request_forgotten_violated",
    "Verif.Vec.Buf.C55_wrong_deallocation_violated"
   ],
   "note": "Proved for all schedules in which a failing async_gets submitted none of its requests (C55_condition: the thread pool, or suitable alignment without errors of io_submit): memory is only used between allocation and release, exactly the forgotten buffers are not released, callbacks are called exactly once. The full statement is false: see the witnesses C55_..._violated (write after free, double release, forgotten buffers and request objects, delete on memory of posix_memalign)."
  },
  {
   "property": "C56",
   "status": "partial",
   "theorems": [
    "Verif.Runner.Sess.C56_sophos_search",
    "Verif.Runner.Sess.C56_diana_search",
    "Verif.Runner.Sess.C56_stored_once",
    "Verif.Runner.Sess.C56_no_fault_partial",
    "Verif.Runner.Sess.C56_throws_partial",
    "Verif.Runner.Sess.C56_session_partial",
    "Verif.Runner.Sess.C56_completes_partial",
    "Verif.Runner.Sess.C56_sophos_exact_partial",
    "Verif.Runner.Sess.C56_diana_exact_partial",
    "Verif.Runner.Sess.C56_broken_stream_violated",
    "Verif.Runner.Sess.C56_insert_failed_violated",
    "Verif.Runner.Sess.C56_open_session_violated",
    "Verif.Runner.Sess.C56_start_start_violated",
    "Verif.Runner.Sess.C56_insert_end_violated",
    "Verif.Runner.Sess.C56_end_end_violated",
    "Verif.Runner.Sess.C56_insert_throws_violated",
    "Verif.Runner.Sess.C56_refused"
   ],
   "note": "Proved for all schedules with failures: searches return exactly what is stored, nothing is stored twice or from a call that threw. If sessions start and end while only searches are in progress: no undefined behaviour, only insert_in_session throws and only without a session, no call waits for ever; and without failures everything is stored when no session is open. The full statement is false: failures are only logged, insert in an open session is not waited for, and starting or ending a session during other calls loses insertions or is undefined (witnesses C56_..._violated)."
  },
  {
   "property": "C57",
   "status": "partial",
   "theorems": [
    "Verif.Power.C57_sophos_refines",
    "Verif.Power.C57_diana_refines",
    "Verif.Power.C57_sophos_partial",
    "Verif.Power.C57_diana_partial",
    "Verif.Power.C57_sophos_remembered",
    "Verif.Power.C57_diana_remembered",
    "Verif.Power.C57_sophos_sound",
    "Verif.Power.C57_diana_sound",
    "Verif.Power.C57_sophos_forward_partial",
    "Verif.Power.C57_diana_forward_partial",
    "Verif.Power.C57_sophos_violated",
    "Verif.Power.C57_diana_violated",
    "Verif.Power.C57_sophos_returns",
    "Verif.Power.C57_diana_returns",
    "Verif.Power.C57_sophos_forward_violated",
    "Verif.Power.C57_diana_forward_violated"
   ],
   "note": "RocksDB writes are not synchronised; assumed: a loss of power keeps a prefix of the writes of each database. Proved for Sophos and Diana, all sequences of insertions and losses: the exact results (C57_..._refines); with server losses only, exactly the stored documents (C57_..._partial) and no earlier search request reveals a later update (C57_..._forward_partial); only documents inserted for the keyword (C57_..._sound); if everything after the first client loss is delivered and kept by the server, exactly the stored documents that the client remembers (C57_..._remembered). False for client losses, for every keyword and primitive: documents not found and overwritten (C57_..._violated), documents coming back (C57_..._returns), a search request sent before the loss reveals the update of an insertion made after it, i.e. no forward privacy (C57_..._forward_violated)."
  },
  {
   "property": "C58",
   "status": "partial",
   "theorems": [
    "Verif.Vec.Conc.C58_async_partial",
    "Verif.Vec.Conc.C58_push_partial",
    "Verif.Vec.Conc.C58_push_kept_partial",
    "Verif.Vec.Conc.C58_committed_partial",
    "Verif.Vec.Conc.C58_push_violated",
    "Verif.Vec.Conc.C58_late_push_violated",
    "Verif.Vec.Conc.C58_reserve_violated",
    "Verif.Vec.Conc.C58_throws_partial"
   ],
   "note": "async_push_back by any number of threads, in all interleavings and all orders of the writes (C58_async_partial); push_back and reserve if calls do not overlap (C58_push_partial); push_back by several threads keeps all values, in some order (C58_push_kept_partial); before commit, only async_push_back without scheduler fails (C58_throws_partial); a committed vector is not changed by later push_back and reserve (C58_committed_partial). The full claim is false: C58_push_violated (two push_back exchange their positions, because write is used instead of pwrite), C58_late_push_violated (push_back overlapping with commit), C58_reserve_violated (reserve overlapping with push_back). Mixed push_back and async_push_back: see C34_mixed_pushes; async_push_back after commit: C34_async_push_after_commit. commit and write are one step each in this model; see C88 for the steps of commit."
  },
  {
   "property": "C59",
   "status": "partial",
   "theorems": [
    "Verif.Pluto.C59_cuckoo_sound_partial",
    "Verif.Pluto.C59_cuckoo_others_partial",
    "Verif.Pluto.C59_cuckoo_violated",
    "Verif.Pluto.C59_cuckoo_three_lists",
    "Verif.Pluto.C59_cuckoo_others_violated",
    "Verif.Pluto.C59_pluto_sound_partial",
    "Verif.Pluto.C59_pluto_others_partial",
    "Verif.Pluto.C59_pluto_violated",
    "Verif.Pluto.C59_pluto_short_violated",
    "Verif.Tethys.C59_sound_partial",
    "Verif.Tethys.C59_others_partial",
    "Verif.Tethys.C59_shorter_list_violated",
    "Verif.Tethys.C59_two_lists_violated"
   ],
   "note": "Searches never fault and return only documents of the keyword, each at most as often as in its lists (with the default parameters of Pluto: and the zeros of C30_default_spurious); keywords with one list are answered exactly (with the default parameters of Pluto: if the table spills nothing). The full statement is false: Tethys sets the counter to the blocks of the last list and uses the same keys for each list (C59_shorter_list_violated, C59_two_lists_violated); Pluto replaces full blocks and loses last blocks (C59_pluto_violated, C59_pluto_short_violated); with the cuckoo table, one of two blocks with the same key is found (C59_cuckoo_violated), and three lists with a full block make the table spill a block, possibly of another keyword (C59_cuckoo_three_lists, C59_cuckoo_others_violated)."
  },
  {
   "property": "C60",
   "status": "partial",
   "theorems": [
    "Verif.Cli.C60_sophos_random",
    "Verif.Cli.C60_diana_partial",
    "Verif.Cli.C60_diana_multiple_partial",
    "Verif.Cli.C60_diana_lost_violated",
    "Verif.Cli.C60_diana_small_violated",
    "Verif.Cli.C60_print",
    "Verif.Cli.C60_print_progress",
    "Verif.Cli.C60_quiet",
    "Verif.Cli.C60_diana_port_violated"
   ],
   "note": "The Sophos client inserts what the generator gives (C60_sophos_random), and both clients write the results right under every interleaving (C60_print, C60_print_progress, C60_quiet). The Diana client sends lists of 50 per thread and never the rest: exact account of what is inserted in C60_diana_partial, all of it when each thread has a multiple of 50 (C60_diana_multiple_partial); negations in C60_diana_lost_violated, C60_diana_small_violated. The port of the Diana client is not that of its server (C60_diana_port_violated)."
  },
  {
   "property": "C61",
   "status": "partial",
   "theorems": [
    "Verif.Pluto.C61_pluto_tethys_hiding",
    "Verif.Pluto.C61_pluto_blocks_partial",
    "Verif.Pluto.C61_pluto_clear_violated",
    "Verif.Pluto.C61_pluto_count_violated",
    "Verif.Pluto.C61_cuckoo_size",
    "Verif.Tethys.C61_tethys_size",
    "Verif.Tethys.C61_tethys_hiding",
    "Verif.Tethys.C61_tethys_same_key_violated",
    "Verif.Tethys.C61_tethys_pages"
   ],
   "note": "Tethys: the table is the same for two indexes up to a permutation of the keystreams (C61_tethys_hiding), its size and the pages read do not depend on the index (C61_tethys_size, C61_tethys_pages); the Tethys part of Pluto likewise (C61_pluto_tethys_hiding); sizes of the hash table (C61_pluto_blocks_partial, C61_cuckoo_size). Violated: full blocks of Pluto are in clear (C61_pluto_clear_violated), dummies are zeros (C61_pluto_count_violated), and a key used for two tables reveals the difference of their contents (C61_tethys_same_key_violated). The bijection of keystreams stands for equality of distributions; probabilities are in C79."
  },
  {
   "property": "C62",
   "status": "partial",
   "theorems": [
    "Verif.Diana.C62_diana_hiding",
    "Verif.Diana.C62_diana_forward",
    "Verif.Janus.C62_janus_forward",
    "Verif.Sophos.C62_sophos_hiding",
    "Verif.Sophos.C62_sophos_forward",
    "Verif.Sophos.C62_sophos_uninitialised_violated"
   ],
   "note": "Proved for all histories of Sophos and Diana (hiding and forward privacy) and Janus (forward privacy). A permutation of the secret functions stands for equality of distributions, and collisions on the points used are excluded by hypothesis; probabilities, with bounds for collisions, are in C79 to C83. Partial: the one-wayness of the trapdoor permutation and of the constrained keys is outside the model (the theorem says instead that the permutation of keys fixes the points revealed), and Sophos sends uninitialised memory when an unknown keyword is searched (C62_sophos_uninitialised_violated)."
  },
  {
   "property": "C63",
   "status": "partial",
   "theorems": [
    "Verif.Util.C63_hex",
    "Verif.Util.C63_array_violated",
    "Verif.Util.C63_print",
    "Verif.Util.C63_print_violated",
    "Verif.Util.C63_aligned_partial",
    "Verif.Util.C63_aligned_violated",
    "Verif.Util.C63_page_violated",
    "Verif.Util.C63_remove_partial",
    "Verif.Util.C63_dangling_violated"
   ],
   "note": "Proved: C63_hex, C63_print (the text), C63_aligned_partial (powers of two), C63_remove_partial (paths found by stat; exact condition for success, nothing outside is removed, parents of what is left are left). Violated: arrays of wider elements lose bytes (C63_array_violated), print_hex leaves the stream in base 16 (C63_print_violated), other sizes than powers of two (C63_aligned_violated), fstatvfs is not checked (C63_page_violated), dangling links are reported as removed (C63_dangling_violated)."
  },
  {
   "property": "C64",
   "status": "partial",
   "theorems": [
    "Verif.Janus.Faults.Mixed.C64_mixed",
    "Verif.Janus.Faults.Mixed.C64_mixed_refines",
    "Verif.Janus.Faults.Mixed.C64_mixed_no_fault",
    "Verif.Janus.Faults.Mixed.C64_mixed_partial",
    "Verif.Janus.Faults.Mixed.C64_mixed_violated",
    "Verif.Janus.Faults.C64_refines",
    "Verif.Janus.Faults.C64_no_fault",
    "Verif.Janus.Faults.C64_partial",
    "Verif.Janus.Faults.C64_cachePut_violated",
    "Verif.Janus.Faults.C64_cacheGet_violated",
    "Verif.Janus.Faults.C64_insertScGet_violated",
    "Verif.Janus.Faults.C64_removeScGet_violated",
    "Verif.Janus.Faults.C64_insertGet_violated",
    "Verif.Janus.Faults.C64_insertSrvPut_violated",
    "Verif.Janus.Faults.C64_insGet_violated",
    "Verif.Janus.Faults.C64_delGet_violated",
    "Verif.Janus.Faults.C64_searchScGet_violated",
    "Verif.Janus.Faults.C64_badIns_violated",
    "Verif.Janus.Faults.C64_badDel_violated",
    "Verif.Janus.Faults.C64_duplicates_violated",
    "Verif.Janus.Faults.C64_halfRemoval_violated",
    "Verif.Janus.Faults.C64_forward_violated"
   ],
   "note": "Proved: C64_refines (exact observations under every pattern of failures for which the punctured keys are complete), C64_no_fault, C64_partial (tolerable failures: any failure of the client Put of an insertion, a removal Put that was not applied, failed Deletes, a failed Put of the search counter when the Deletes are applied); the same with every search made sequentially or in parallel, under every schedule, results up to their order: C64_mixed, C64_mixed_refines, C64_mixed_no_fault, C64_mixed_partial (a parallel search tolerates no failed Put of the search counter). The full statement does not hold: 15 _violated theorems, one per other kind of failure."
  },
  {
   "property": "C65",
   "status": "partial",
   "theorems": [
    "Verif.Logger.C65_calls_partial",
    "Verif.Logger.C65_level",
    "Verif.Logger.C65_second_null_violated",
    "Verif.Logger.C65_second_file_violated",
    "Verif.Logger.C65_threads_partial",
    "Verif.Logger.C65_threads_violated",
    "Verif.Logger.C65_report",
    "Verif.Logger.C65_time_partial",
    "Verif.Logger.C65_time_violated"
   ],
   "note": "The full statement does not hold: the second set_logger(nullptr) and the second set_benchmark_file throw, threads racing on the first call of logger() throw, and stop() never sets stopped_ so that the time until the destruction is reported (C65_*_violated). Proved for all sequences with at most one of each of the two calls (C65_calls_partial), for all schedules of threads started after the logger exists (C65_threads_partial), for measurements without stop (C65_time_partial); the reported count and time are characterised exactly for all measurements (C65_report). spdlog is modelled by its registry of names only."
  },
  {
   "property": "C66",
   "status": "partial",
   "theorems": [
    "Verif.Cli.C66_server_partial",
    "Verif.Cli.C66_defaults",
    "Verif.Cli.C66_server_refuses",
    "Verif.Cli.C66_server_words_violated",
    "Verif.Cli.C66_client_partial",
    "Verif.Cli.C66_load_violated",
    "Verif.Cli.C66_sophos_options_violated",
    "Verif.Cli.C66_server_joined_partial",
    "Verif.Cli.C66_client_joined_partial"
   ],
   "note": "The full statement does not hold: a server ignores arguments that are not options (C66_server_words_violated), a client ends with status 0 when a file cannot be loaded (C66_load_violated), the Sophos client announces -o and -i but exits when they are given (C66_sophos_options_violated). Proved for all lists of the options that are handled, glued or not, mixed with keywords, with or without -- (C66_server_partial, C66_client_partial), with several options in one argument such as -sb (C66_server_joined_partial, C66_client_joined_partial), and that a server refuses unknown options and a missing path (C66_server_refuses). getopt is a model of glibc's; the conversion of the number by std::stod is a parameter here, and the subject of C85."
  },
  {
   "property": "C67",
   "status": "partial",
   "theorems": [
    "Verif.Cli.Server.C67_end_partial",
    "Verif.Cli.Server.C67_stop_partial",
    "Verif.Cli.Server.C67_mode_partial",
    "Verif.Cli.Server.C67_mode_violated",
    "Verif.Cli.Server.C67_early_violated",
    "Verif.Cli.Server.C67_session_violated",
    "Verif.Cli.Server.C67_port_violated",
    "Verif.Cli.Server.C67_database_violated",
    "Verif.Cli.Server.C67_log_violated"
   ],
   "note": "The full statement does not hold: a signal between the installation of the handlers and the assignment of the global pointer is lost (C67_early_violated), an open call keeps the process alive (C67_session_violated), a busy port leads to a null pointer (C67_port_violated), an unusable database to an uncaught exception (C67_database_violated), a handler that interrupts a log message blocks (C67_log_violated), and a search before set_async_search ignores -s (C67_mode_violated). Proved for servers that can start and signals that do not interrupt a log message: how the process can end, progress after a signal that finds the pointer set, and the mode of searches. The behaviour of gRPC's Wait and Shutdown is assumed; the handler is one step."
  },
  {
   "property": "C68",
   "status": "proved",
   "theorems": [
    "Verif.Janus.Mixed.C68_mixed",
    "Verif.Janus.Mixed.C68_exact",
    "Verif.Janus.Mixed.C68_progress",
    "Verif.Janus.Mixed.C68_order"
   ],
   "note": "up to the order of the results, which may differ (C68_order); C68_exact under the hypotheses of C12"
  },
  {
   "property": "C69",
   "status": "partial",
   "theorems": [
    "Verif.Oceanus.Moved.C69_partial",
    "Verif.Oceanus.Moved.C69_drop_violated",
    "Verif.Oceanus.Moved.C69_drop_partial",
    "Verif.Oceanus.Moved.C69_ended",
    "Verif.Oceanus.Moved.C69_commit_violated",
    "Verif.Oceanus.Moved.C69_insert_violated"
   ],
   "note": "violated by the defaulted move constructor (C69_drop_violated, C69_commit_violated, C69_insert_violated); proved for the new object when it is moved before the first insertion or after commit"
  },
  {
   "property": "C70",
   "status": "partial",
   "theorems": [
    "Verif.Janus.Conc.C70_partial",
    "Verif.Janus.Conc.C70_calls",
    "Verif.Janus.Conc.C70_exact_partial",
    "Verif.Janus.Conc.C70_ends",
    "Verif.Janus.Conc.C70_searches_violated",
    "Verif.Janus.Conc.C70_insert_violated",
    "Verif.Janus.Conc.C70_remove_violated"
   ],
   "note": "violated for overlapping calls on one keyword (C70_searches_violated, C70_insert_violated, C70_remove_violated); proved for callers who wait for the calls on a keyword before they search it, and for its searches before they update it; C70_exact_partial under the hypotheses of C12"
  },
  {
   "property": "C71",
   "status": "partial",
   "theorems": [
    "Verif.Fp.C71_rounding",
    "Verif.Fp.C71_graph_room_partial",
    "Verif.Fp.C71_cuckoo_room_partial",
    "Verif.Fp.C71_room_violated",
    "Verif.Fp.C71_accuracy",
    "Verif.Fp.C71_mono",
    "Verif.Fp.C71_defined_partial",
    "Verif.Fp.C71_overflow_violated",
    "Verif.Fp.C71_graph_nonzero_partial",
    "Verif.Fp.C71_cuckoo_nonzero_partial",
    "Verif.Fp.C71_zero_violated",
    "Verif.Fp.C71_constants",
    "Verif.Fp.C71_groups",
    "Verif.Fp.C71_generation",
    "Verif.Fp.C71_threshold",
    "Verif.Fp.C71_groups_violated"
   ],
   "note": "Rounding is characterised independently (nearest number of p bits). Room, definedness and absence of division by zero hold up to 2^53 elements (buckets), sizes up to 2^63 and at least one element; outside, and for groups of the generator from number 65536 on, the code violates the statement (the _violated theorems)."
  },
  {
   "property": "C72",
   "status": "partial",
   "theorems": [
    "Verif.Pluto.C72_pluto_partial",
    "Verif.Pluto.C72_pluto_sound",
    "Verif.Pluto.C72_pluto_read_violated",
    "Verif.Pluto.C72_pluto_size",
    "Verif.Pluto.C72_pluto_size_violated",
    "Verif.Pluto.C72_pluto_stale_violated",
    "Verif.Pluto.C72_pluto_refused_violated",
    "Verif.Pluto.C72_pluto_stopped_partial",
    "Verif.Tethys.C72_tethys_partial",
    "Verif.Tethys.C72_tethys_write_violated",
    "Verif.Tethys.C72_tethys_read_violated"
   ],
   "note": "Pluto with repeated calls and failing writes gives exact searches when the reads succeed and no old block is beyond a list (C72_pluto_partial), no search returns a wrong document whichever reads fail (C72_pluto_sound), and the number of pairs is hidden when no call fails (C72_pluto_size); Tethys is exact for the keywords whose counter is stored (C72_tethys_partial). The full statement is false: failed reads cut results short (C72_pluto_read_violated, C72_tethys_read_violated), an unstored counter is not reported (C72_tethys_write_violated), repeated calls change the number of pairs (C72_pluto_size_violated), old blocks are returned (C72_pluto_stale_violated), a refused construction damages the database (C72_pluto_refused_violated). Stops of the process and builders that insert nothing do not change the searches (C72_pluto_stopped_partial)."
  },
  {
   "property": "C73",
   "status": "partial",
   "theorems": [
    "Verif.Optional.C73_content",
    "Verif.Optional.C73_breach",
    "Verif.Optional.C73_lives",
    "Verif.Optional.C73_alias",
    "Verif.Optional.C73_compare",
    "Verif.Optional.C73_order",
    "Verif.Optional.C73_ref",
    "Verif.Optional.C73_types_partial",
    "Verif.Optional.C73_types_violated"
   ],
   "note": "Contents, lives, comparisons and references are proved for all types and programs; partial because the header compiles only for trivially destructible types: the destructor of the union storage_t is defaulted, hence deleted for the others (C73_types_violated). C73_breach: programs that break the contract never see a wrong value, only failed assertions or undefined behaviour. C73_alias shows why emplace with a reference into the optional is outside the contract."
  },
  {
   "property": "C74",
   "status": "partial",
   "theorems": [
    "Verif.Tethys.Generic.C74_bucket_partial",
    "Verif.Tethys.Generic.C74_words",
    "Verif.Tethys.Generic.C74_list_partial",
    "Verif.Tethys.Generic.C74_filled_violated",
    "Verif.Tethys.Generic.C74_overwrite_violated",
    "Verif.Tethys.Generic.C74_overread_violated"
   ],
   "note": "Proved for types whose size divides 8 and the size of the key, provided that the unused rest of the page is empty or at least 8 bytes long (C74_bucket_partial, C74_list_partial); this condition always holds for values of 8 bytes (C74_words). For other types the code violates the property: C74_filled_violated, C74_overwrite_violated, C74_overread_violated."
  },
  {
   "property": "C75",
   "status": "partial",
   "theorems": [
    "Verif.Janus.Power.C75_refines",
    "Verif.Janus.Power.C75_no_fault",
    "Verif.Janus.Power.C75_sound",
    "Verif.Janus.Power.C75_kept_partial",
    "Verif.Janus.Power.C75_undelivered",
    "Verif.Janus.Power.C75_partial",
    "Verif.Janus.Power.C75_cache_violated",
    "Verif.Janus.Power.C75_flush_violated",
    "Verif.Janus.Power.C75_count_violated",
    "Verif.Janus.Power.C75_epoch_violated",
    "Verif.Janus.Power.C75_twice_violated",
    "Verif.Janus.Power.C75_removal_violated",
    "Verif.Janus.Power.C75_share_violated",
    "Verif.Janus.Power.C75_forward_violated"
   ],
   "note": "What the searches return is proved for all losses as long as the shares of the removal key are complete (C75_refines), as is that no search fails (C75_no_fault) and that only inserted documents are returned (C75_sound). Exactness is proved for losses by the server of updates made since the last search or flush, which are as if not delivered (C75_undelivered, C75_partial); that returned documents stay is proved for losses of anything but the cache (C75_kept_partial). The other losses violate the statement, for every instance of the cryptography: C75_cache_violated, C75_flush_violated, C75_count_violated, C75_epoch_violated, C75_twice_violated, C75_removal_violated, C75_forward_violated; C75_share_violated is a concrete instance."
  },
  {
   "property": "C76",
   "status": "partial",
   "theorems": [
    "Verif.Tethys.Stream.C76_load",
    "Verif.Tethys.Stream.C76_ends",
    "Verif.Tethys.Stream.C76_large",
    "Verif.Tethys.Stream.C76_streams",
    "Verif.Tethys.Stream.C76_records",
    "Verif.Tethys.Stream.C76_kept",
    "Verif.Tethys.Stream.C76_build_partial",
    "Verif.Tethys.Stream.C76_closed",
    "Verif.Tethys.Stream.C76_complete",
    "Verif.Tethys.Stream.C76_any_documents",
    "Verif.Tethys.Stream.C76_erased",
    "Verif.Tethys.Stream.C76_lost_violated",
    "Verif.Tethys.Stream.C76_memory_violated"
   ],
   "note": "What is read from every prefix of a stash file is proved (C76_load, C76_records), as is that reading any file ends (C76_ends) and that for complete files the memory does not matter (C76_streams, C76_complete). Searches whose keys are not touched by the missing part return the right documents (C76_kept, C76_build_partial). The rest of the statement is false: no error is reported (C76_lost_violated, C76_memory_violated), and the documents that are missing are lost, replaced by any others (C76_any_documents) or erase those of other keys (C76_erased)."
  },
  {
   "property": "C77",
   "status": "partial",
   "theorems": [
    "Verif.Diana.Kinds.C77_refines",
    "Verif.Diana.Kinds.C77_ends",
    "Verif.Diana.Kinds.C77_sound",
    "Verif.Diana.Kinds.C77_exact_partial",
    "Verif.Diana.Kinds.C77_deleted",
    "Verif.Diana.Kinds.C77_others",
    "Verif.Diana.Kinds.C77_delete_violated",
    "Verif.Diana.Kinds.C77_stale_violated",
    "Verif.Diana.Kinds.C77_vector_violated",
    "Verif.Diana.Kinds.C77_read_violated"
   ],
   "note": "C77_refines gives the results of all histories, failures included, by positions; C77_ends, C77_sound, C77_deleted and C77_others hold without restriction on failures. C77_exact_partial: exact results when nothing fails, all insertions are delivered and keywords are forgotten only when nothing is stored. The rest of the statement is false: failed deletions and reads are not reported and documents come back (C77_delete_violated, C77_read_violated, C77_stale_violated), and a vector gets document 0 for every deleted document (C77_vector_violated)."
  },
  {
   "property": "C78",
   "status": "partial",
   "theorems": [
    "Verif.Ideal.Diana.C78_diana_collision",
    "Verif.Ideal.Diana.C78_diana_search",
    "Verif.Ideal.Diana.C78_diana_kinds",
    "Verif.Ideal.Diana.C78_diana_number",
    "Verif.Ideal.Janus.C78_janus_points_collision",
    "Verif.Ideal.Janus.C78_janus_points_partial",
    "Verif.Ideal.Janus.C78_janus_points_no_fault",
    "Verif.Ideal.Janus.C78_janus_points_number",
    "Verif.Ideal.Janus.C78_janus_collision",
    "Verif.Ideal.Janus.C78_janus_search_partial",
    "Verif.Ideal.Janus.C78_janus_no_fault",
    "Verif.Ideal.Janus.C78_janus_number",
    "Verif.Ideal.Sophos.C78_sophos_collision",
    "Verif.Ideal.Sophos.C78_sophos_search",
    "Verif.Ideal.Sophos.C78_sophos_delivered",
    "Verif.Ideal.Sophos.C78_sophos_number",
    "Verif.Ideal.Sophos.C78_sophos_random",
    "Verif.Ideal.Sophos.C78_sophos_random_delivered",
    "Verif.Ideal.Tethys.C78_tethys_collision",
    "Verif.Ideal.Tethys.C78_tethys_search_partial",
    "Verif.Ideal.Tethys.C78_pluto_collision",
    "Verif.Ideal.Tethys.C78_pluto_search",
    "Verif.Ideal.Tethys.C78_pluto_absent",
    "Verif.Ideal.Tethys.C78_tethys_number"
   ],
   "note": "Sophos (any permutation without short cycles, and a uniformly chosen one), Diana (all kinds of searches) and Pluto with the parameters for RocksDB are complete. Partial for Tethys (indexes without lists of a multiple of the block size, see C26) and Janus (histories of C12), where the property fails with certainty otherwise. For Janus the bound is that of the positions and tags that the history uses (C78_janus_points_*)."
  },
  {
   "property": "C79",
   "status": "proved",
   "theorems": [
    "Verif.Ideal.Diana.C79_diana",
    "Verif.Ideal.Diana.C79_diana_forward",
    "Verif.Ideal.Diana.C79_diana_answer",
    "Verif.Ideal.Diana.C79_diana_number",
    "Verif.Ideal.Janus.C79_janus",
    "Verif.Ideal.Janus.C79_janus_forward",
    "Verif.Ideal.Janus.C79_janus_number",
    "Verif.Ideal.Sophos.C79_sophos",
    "Verif.Ideal.Sophos.C79_sophos_forward",
    "Verif.Ideal.Sophos.C79_sophos_answer",
    "Verif.Ideal.Sophos.C79_sophos_number",
    "Verif.Ideal.Sophos.C79_sophos_random",
    "Verif.Ideal.Tethys.C79_tethys",
    "Verif.Ideal.Tethys.C79_tethys_answer",
    "Verif.Ideal.Tethys.C79_tethys_number"
   ],
   "note": "All histories of Sophos (also with a uniformly chosen permutation that the observer knows), Diana and Janus, and all indexes of Tethys (with encrypted pages), with the same leakage. The leakage of Janus includes the documents removed from a keyword searched (that punctured ciphertexts hide them is a property of the puncturable encryption, which is external). The server evaluates the functions only where it must to answer; the blocks that Pluto keeps in RocksDB are in clear (C61)."
  },
  {
   "property": "C80",
   "status": "partial",
   "theorems": [
    "Verif.Ideal.Diana.C80_diana_keys",
    "Verif.Ideal.Diana.C80_diana_search",
    "Verif.Ideal.Diana.C80_diana_hiding",
    "Verif.Ideal.Janus.C80_janus",
    "Verif.Ideal.Janus.C80_janus_keys",
    "Verif.Ideal.Janus.C80_janus_forward",
    "Verif.Ideal.Janus.C80_janus_search_partial",
    "Verif.Ideal.Janus.C80_janus_number",
    "Verif.Ideal.Janus.C80_janus_points_partial",
    "Verif.Ideal.Sophos.C80_sophos_keys",
    "Verif.Ideal.Sophos.C80_sophos_search",
    "Verif.Ideal.Sophos.C80_sophos_hiding",
    "Verif.Ideal.Sophos.C80_sophos_random_keys",
    "Verif.Ideal.Sophos.C80_sophos_random"
   ],
   "note": "Partial because of Janus: searches only for the histories of C12 (the code violates the rest, see C12). For observers of the server (C80_janus) and for Sophos and Diana it is complete. The keyed function is a random function of the pair of key and input; how far HMAC or Blake2 are from it is outside of the model."
  },
  {
   "property": "C81",
   "status": "partial",
   "theorems": [
    "Verif.Ideal.Sophos.C81_sophos_random_keyed",
    "Verif.Ideal.Sophos.C81_sophos_random_search",
    "Verif.Ideal.Sophos.C81_sophos_random_faults",
    "Verif.Ideal.Sophos.C81_sophos_random_power",
    "Verif.Ideal.Sophos.C81_sophos_random_session",
    "Verif.Ideal.Sophos.C81_sophos_random_number",
    "Verif.Ideal.Sophos.C81_sophos_keyed",
    "Verif.Ideal.Diana.C81_diana_keyed",
    "Verif.Ideal.Janus.C81_janus_keyed_partial",
    "Verif.Ideal.C81_choose",
    "Verif.Ideal.Sophos.C81_sophos_collision",
    "Verif.Ideal.Sophos.C81_sophos_search",
    "Verif.Ideal.Sophos.C81_sophos_delivered",
    "Verif.Ideal.Sophos.C81_sophos_faults",
    "Verif.Ideal.Sophos.C81_sophos_power",
    "Verif.Ideal.Sophos.C81_sophos_session",
    "Verif.Ideal.Sophos.C81_sophos_number",
    "Verif.Ideal.Diana.C81_diana_collision",
    "Verif.Ideal.Diana.C81_diana_search",
    "Verif.Ideal.Diana.C81_diana_kinds",
    "Verif.Ideal.Diana.C81_diana_faults",
    "Verif.Ideal.Diana.C81_diana_power",
    "Verif.Ideal.Diana.C81_diana_durable",
    "Verif.Ideal.Diana.C81_diana_session",
    "Verif.Ideal.Diana.C81_diana_number",
    "Verif.Ideal.Janus.C81_janus_collision",
    "Verif.Ideal.Janus.C81_janus_search_partial",
    "Verif.Ideal.Janus.C81_janus_no_fault",
    "Verif.Ideal.Janus.C81_janus_mixed",
    "Verif.Ideal.Janus.C81_janus_faults",
    "Verif.Ideal.Janus.C81_janus_faults_mixed",
    "Verif.Ideal.Janus.C81_janus_power",
    "Verif.Ideal.Janus.C81_janus_concurrent_partial"
   ],
   "note": "Sophos and Diana are complete. Partial because of Janus: C81_janus_search_partial is for the histories of C12, C81_janus_concurrent_partial for the careful callers of C70, and C81_janus_faults, C81_janus_faults_mixed (sequential and parallel searches) and C81_janus_power for searches with punctured keys, as the code violates the rest (see C12, C64, C70, C75). The bounds count all insertions that the dictionary allows, not only those made."
  },
  {
   "property": "C82",
   "status": "proved",
   "theorems": [
    "Verif.Ideal.Diana.C82_diana",
    "Verif.Ideal.Janus.C82_janus_forward",
    "Verif.Ideal.Janus.C82_janus",
    "Verif.Ideal.Janus.C82_janus_keyed",
    "Verif.Ideal.Sophos.C82_sophos",
    "Verif.Ideal.Sophos.C82_sophos_random_keyed",
    "Verif.Ideal.Sophos.C82_sophos_random",
    "Verif.Ideal.Sophos.C82_sophos_random_number",
    "Verif.Ideal.Sophos.C82_sophos_keyed",
    "Verif.Ideal.Diana.C82_diana_keyed"
   ],
   "note": "Sophos (also with a uniformly chosen permutation, C82_sophos_random_keyed with derived keys too), Diana and Janus, for independent functions and for derived keys (..._keyed), with the restriction of C79 that the server evaluates the functions only where it must. C82_janus_forward allows arbitrary tags, keyword tokens and puncturable encryption; C82_janus has random ones and hides the keywords of searches too. The index of Tethys is built at once (C79)."
  },
  {
   "property": "C83",
   "status": "proved",
   "theorems": [
    "Verif.Ideal.Diana.C83_diana",
    "Verif.Ideal.Diana.C83_diana_keyed",
    "Verif.Ideal.Diana.C83_diana_number",
    "Verif.Ideal.Janus.C83_janus",
    "Verif.Ideal.Janus.C83_janus_keyed",
    "Verif.Ideal.Janus.C83_janus_number",
    "Verif.Ideal.Sophos.C83_sophos",
    "Verif.Ideal.Sophos.C83_sophos_keyed",
    "Verif.Ideal.Sophos.C83_sophos_number",
    "Verif.Ideal.Sophos.C83_sophos_inverse"
   ],
   "note": "Sophos, Diana and Janus, for independent functions and for derived keys (..._keyed). The constrained pseudo-random function is ideal: the observer evaluates it in the range of the key only. The trapdoor permutation of Sophos is a uniformly chosen permutation that the observer evaluates forward; C83_sophos_inverse shows that an observer who inverts it recognises insertions."
  },
  {
   "property": "C84",
   "status": "partial",
   "theorems": [
    "Verif.Runner.C84_one",
    "Verif.Runner.C84_key",
    "Verif.Runner.C84_as_one",
    "Verif.Runner.C84_exactly_one",
    "Verif.Runner.C84_served",
    "Verif.Runner.C84_sophos_no_crash",
    "Verif.Runner.C84_diana_search_violated",
    "Verif.Runner.C84_diana_partial",
    "Verif.Runner.C84_late",
    "Verif.Runner.C84_ends",
    "Verif.Runner.C84_race_violated"
   ],
   "note": "Model: each access to a member of the service or to the file system is one step, the steps of any number of calls are interleaved. Proved: at most one set-up succeeds (C84_one), with its key (C84_key), the state is that of the message alone (C84_as_one, against the sequential model of C43), exactly one if nothing fails (C84_exactly_one), insertions and searches are refused or find a server (C84_served), every call ends (C84_ends), a set-up message that arrives after a successful one is refused and changes nothing (C84_late), no null pointer for Sophos (C84_sophos_no_crash). False for the code: a search of Diana during the set-up dereferences null (C84_diana_search_violated; C84_diana_partial is what holds), and server_ is accessed by two calls at the same time without a lock (C84_race_violated)."
  },
  {
   "property": "C85",
   "status": "partial",
   "theorems": [
    "Verif.Cli.C85_exact",
    "Verif.Cli.C85_integer",
    "Verif.Cli.C85_fraction",
    "Verif.Cli.C85_negative_violated",
    "Verif.Cli.C85_large_violated",
    "Verif.Cli.C85_garbage_violated",
    "Verif.Cli.C85_word",
    "Verif.Cli.C85_hexadecimal",
    "Verif.Cli.C85_infinite_violated",
    "Verif.Cli.C85_client"
   ],
   "note": "Model: the grammar of strtod (decimal, hexadecimal, inf, nan), the value rounded to 53 bits, the conversion to uint32_t with undefined behaviour as an outcome. Proved: integers are read exactly however they are written (C85_exact, C85_integer, C85_client, C85_hexadecimal), others are rounded down if they are not within 2^-20 of the next integer (C85_fraction), words are refused (C85_word). False for the code: negative numbers, numbers from 2^32 on, inf and nan are undefined behaviour (C85_negative_violated, C85_large_violated, C85_infinite_violated), trailing characters are ignored (C85_garbage_violated)."
  },
  {
   "property": "C86",
   "status": "partial",
   "theorems": [
    "Verif.Power.C86_diana_partial",
    "Verif.Power.C86_diana_durable_partial",
    "Verif.Power.C86_diana_session_partial",
    "Verif.Power.C86_sound",
    "Verif.Power.C86_sophos_violated",
    "Verif.Power.C86_diana_flush_violated",
    "Verif.Power.C86_diana_alone_violated"
   ],
   "note": "Assumed of RocksDB: a loss of power keeps a prefix of the writes, at least those before a flush that succeeded. Proved for Diana if no flush fails and the client loses nothing: searches return exactly the safe and the remaining recent documents (C86_diana_partial), what is found at the end of a session or before a stop is found ever after (C86_diana_durable_partial, C86_diana_session_partial); for both schemes with any losses, only documents inserted for the keyword (C86_sound). False for the code: Sophos never flushes (C86_sophos_violated), a flush of Diana that fails is only logged (C86_diana_flush_violated), an update sent alone is not flushed (C86_diana_alone_violated). Losses of the client are C57."
  },
  {
   "property": "C87",
   "status": "partial",
   "theorems": [
    "Verif.Janus.C87_janus",
    "Verif.Janus.C87_janus_results",
    "Verif.Janus.C87_janus_left",
    "Verif.Janus.C87_janus_lost_violated",
    "Verif.Runner.Foreign.C87_diana_partial",
    "Verif.Runner.Foreign.C87_diana_sound",
    "Verif.Runner.Foreign.C87_diana_client",
    "Verif.Runner.Foreign.C87_diana_uncovered_violated",
    "Verif.Runner.Foreign.C87_diana_one",
    "Verif.Runner.Foreign.C87_diana_memory",
    "Verif.Runner.Foreign.C87_diana_ends",
    "Verif.Runner.Foreign.C87_diana_replay_violated",
    "Verif.Runner.Foreign.C87_diana_unwrap",
    "Verif.Runner.Foreign.C87_sophos_partial",
    "Verif.Runner.Foreign.C87_sophos_closed_partial",
    "Verif.Runner.Foreign.C87_sophos_sound",
    "Verif.Runner.Foreign.C87_sophos_refused_violated",
    "Verif.Runner.Foreign.C87_sophos_exact",
    "Verif.Runner.Foreign.C87_sophos_few",
    "Verif.Runner.Foreign.C87_sophos_unknown_violated"
   ],
   "note": "Proved: every reply of any search is a document stored at a counted position, or one of the zeros of the synchronous search of Diana (C87_diana_sound, C87_sophos_sound); all of them are replied when the key can be evaluated there (Diana) or the library accepts the tokens that the search evaluates (Sophos), whoever made the message (C87_diana_partial, C87_sophos_partial, C87_sophos_closed_partial; C87_diana_client: keys of clients can); no search of Diana goes on for ever (C87_diana_ends); error status for keys that cannot be unwrapped, too little memory, and asynchronous searches for one result (C87_diana_unwrap, C87_diana_memory, C87_diana_one, C87_sophos_few). False for the code: a message of a Diana client sent again with a larger count terminates the process of the server (C87_diana_replay_violated, C87_diana_uncovered_violated); so does, and only does, a refused token of Sophos among those that the search evaluates (C87_sophos_refused_violated, C87_sophos_exact), also the uninitialised one of a search for an unknown keyword (C87_sophos_unknown_violated). Messages with fields of wrong lengths are C42. Janus: exceptions, reads outside of a cache entry and results are classified for any request (C87_janus), and so is what a search leaves in the databases (C87_janus_left; C87_janus_results: with the answer of the search); false for the code: if only the key for the removals is wrong, the ciphertexts are removed before the exception and their documents are lost (C87_janus_lost_violated)."
  },
  {
   "property": "C88",
   "status": "partial",
   "theorems": [
    "Verif.Props.C88_no_fault_partial",
    "Verif.Props.C88_commit_partial",
    "Verif.Props.C88_all_partial",
    "Verif.Props.C88_ends",
    "Verif.Props.C88_overlap_violated",
    "Verif.Props.C88_two_commits_violated",
    "Verif.Props.C88_hole_violated",
    "Verif.Props.C88_late_violated",
    "Verif.Props.C88_second_commit_violated"
   ],
   "note": "No destroyed scheduler is used if no call overlaps with commit (C88_no_fault_partial: push_back and async_push_back in all interleavings, any number of commits, both kinds of schedulers). After async_push_back in any interleaving, commit ends with all writes done and all values at their positions (C88_commit_partial), with a scheduler that takes the values the vector consists of exactly them (C88_all_partial), and it is never stuck (C88_ends). The full claim is false: C88_overlap_violated and C88_two_commits_violated (a destroyed scheduler is used), C88_hole_violated (an append overlapping with commit throws after it took a position, which stays zero), C88_late_violated (an append overlapping with commit is pending after it), C88_second_commit_violated (a second commit does not wait for values appended after the first)."
  },
  {
   "property": "C89",
   "status": "partial",
   "theorems": [
    "Verif.Oceanus.Async.C89_oceanus_partial",
    "Verif.Tethys.C89_tethys_partial",
    "Verif.Vec.Modes.C89_partial",
    "Verif.Vec.Modes.C89_once",
    "Verif.Vec.Modes.C89_ends",
    "Verif.Vec.Modes.C89_mode",
    "Verif.Vec.Modes.C89_same_mode",
    "Verif.Vec.Modes.C89_first_lookups_violated",
    "Verif.Vec.Modes.C89_async_violated",
    "Verif.Vec.Modes.C89_refused_violated",
    "Verif.Vec.Modes.C89_throws_violated",
    "Verif.Vec.Modes.C89_other_file_violated",
    "Verif.Vec.Modes.C89_async_other_file_violated",
    "Verif.Vec.Modes.C89_foreign_close_violated"
   ],
   "note": "If no call overlaps with one that changes the access mode, all results of get and async_get are right in every interleaving of the calls, the schedulers and other parts of the process that open and close files (C89_partial); all calls can end, and then each submitted read has one answer (C89_ends) and the mode is the one asked for last (C89_mode). The callback is called at most once, without any condition (C89_once). Calls for the mode that the vector already has need no care (C89_same_mode); so lookups of Oceanus by any number of threads after a first one give what the synchronous lookup gives, in all interleavings of calls, reads and callbacks (C89_oceanus_partial), and those of the Tethys store return the list of the key if the two callbacks of a lookup do not overlap (C89_tethys_partial, see C28). The full claim is false: C89_first_lookups_violated and C89_async_violated (a destroyed scheduler is used), C89_refused_violated and C89_throws_violated (reads of existing elements throw), C89_other_file_violated and C89_async_other_file_violated (content of another file), C89_foreign_close_violated (a file of another part of the process is closed)."
  },
  {
   "property": "C90",
   "status": "partial",
   "theorems": [
    "Verif.Oceanus.Async.C90_oceanus_partial",
    "Verif.Oceanus.Async.C90_oceanus_absent_violated",
    "Verif.Tethys.C90_tethys_partial",
    "Verif.Tethys.C90_tethys_async_partial",
    "Verif.Tethys.C90_tethys_violated",
    "Verif.Vec.Direct.C90_same_partial",
    "Verif.Vec.Direct.C90_refused",
    "Verif.Vec.Direct.C90_readable",
    "Verif.Vec.Direct.C90_small_pages_violated",
    "Verif.Vec.Direct.C90_lost_violated",
    "Verif.Vec.Direct.C90_shift_violated"
   ],
   "note": "If the block size of the device divides the size and the alignment of the elements (and, with the Linux scheduler, its page size divides the alignment and 512 the size), every sequence of calls and changes of the mode gives what the vector with buffered access gives (C90_same_partial). The condition on size and alignment is exact for reads (C90_readable). With it, the asynchronous lookups of Oceanus give what the synchronous ones give (C90_oceanus_partial), and lookups of the Tethys store, synchronous or not, return the lists inserted, under the conditions of C25 and C28 (C90_tethys_partial, C90_tethys_async_partial). Values that are not aligned are refused and change nothing (C90_refused). The full claim is false: C90_small_pages_violated and C90_oceanus_absent_violated (all elements become unreadable, all keys absent), C90_tethys_violated (get_list throws, asynchronous lookups dereference a null pointer), C90_lost_violated (values lost without an error), C90_shift_violated (wrong positions)."
  }
 ]
}