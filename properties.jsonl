{"id": "C01", "title": "Sophos search returns exactly what was inserted", "statement": "After any sequence of client insertion requests delivered to the server (interleaved with any searches, over any set of keywords), searching a keyword returns exactly the list of document indexes inserted under that keyword, each as many times as it was inserted, newest first; a keyword never inserted returns the empty list; and searching changes neither the client nor the server.", "quantifier": "all finite histories of insertions/searches over all keywords and 64-bit indexes (fewer than 2^32 insertions per keyword), all trapdoor permutations satisfying the inverse law, all PRFs without collision on the derived points", "why_tests_cant": "Tests replay a few keywords and lengths; the claim is about every history, every interleaving of keywords and every counter value up to 2^32-1.", "anchors": ["lib/sophos/sophos_client.cpp: SophosClient::search_request, insertion_request", "lib/sophos/sophos_server.cpp: SophosServer::search, insert", "lib/sophos/sophos_common.cpp: gen_update_token_masks", "lib/utils/rocksdb_wrapper.cpp: RocksDBCounter::get_and_increment"]}
{"id": "C02", "title": "Every Sophos search variant reports the same results", "statement": "search_callback reports the same sequence as search; search_parallel, search_parallel_light, search_parallel_callback and search_parallel_light_callback report the same multiset of document indexes as search (each result exactly once), whatever the thread counts and however the worker threads are scheduled.", "quantifier": "all requests, all encrypted database contents, all thread counts from 1 to 255, all interleavings of worker threads", "why_tests_cant": "A test runs one thread count on one machine and sees one schedule; a lost or duplicated slot would only show for particular (count, threads) pairs or schedules.", "anchors": ["lib/sophos/sophos_server.cpp: SophosServer::search_parallel, search_parallel_light, search_parallel_callback, search_parallel_light_callback, search_callback"]}
{"id": "C03", "title": "Sophos parallel search terminates and is duplicate-free on any machine", "statement": "search_parallel visits each of the add_count positions exactly once on every machine, whatever number of hardware threads the machine reports.", "quantifier": "all values of hardware_concurrency() and all add_count", "why_tests_cant": "Continuous integration machines have few cores; the number of hardware threads is narrowed to 8 bits, which only misbehaves from 256 threads up.", "anchors": ["lib/sophos/sophos_server.cpp: SophosServer::search_parallel (rsa_job, n_rsa_threads)"]}
{"id": "C04", "title": "Lost or reordered Sophos updates only affect themselves", "statement": "If some update requests produced by the client never reach the server (network failure, crash between the client's counter update and the server's insertion), a later search returns exactly the documents whose updates were delivered, newest first; delivering updates late, in another order, or more than once does not change the result.", "quantifier": "all histories, all subsets of lost updates, all delivery orders and duplications", "why_tests_cant": "Needs every crash point and every delivery order.", "anchors": ["lib/sophos/sophos_client.cpp: SophosClient::insertion_request", "lib/sophos/sophos_server.cpp: SophosServer::search, insert", "lib/sophos/sophos_client_runner.cpp: SophosClientRunner::insert"]}
{"id": "C05", "title": "Sophos update tokens never repeat", "statement": "Two insertions never produce the same update token, so no insertion overwrites a previously stored entry, for any number of insertions under a keyword.", "quantifier": "all pairs of insertions in a history, including the 2^32-th insertion of a keyword", "why_tests_cant": "The 32-bit counter wraps only after 2^32 insertions, which no test performs.", "anchors": ["lib/utils/rocksdb_wrapper.cpp: RocksDBCounter::get_and_increment", "lib/sophos/sophos_client.cpp: SophosClient::insertion_request, search_request"]}
{"id": "C06", "title": "Concurrent client insertions are not lost", "statement": "When several threads request insertions on one client at the same time, each insertion obtains its own counter value, so that after all updates are delivered a search returns every inserted document.", "quantifier": "all numbers of threads, all keywords, all interleavings of the read and write of the counter store", "why_tests_cant": "A data race needs a particular interleaving of a read and a write that tests do not control.", "anchors": ["lib/utils/rocksdb_wrapper.cpp: RocksDBCounter::get_and_increment", "lib/sophos/sophos_client.cpp: insertion_request", "lib/include/sse/schemes/diana/diana_client.hpp: DianaClient::insertion_request", "lib/sophos/sophos_client_runner.cpp: load_inverted_index"]}
{"id": "C07", "title": "Diana search returns exactly what was inserted", "statement": "After any sequence of insertions delivered to the server, searching a keyword returns exactly the indexes inserted under that keyword, in insertion order; a keyword never inserted returns the empty list; a search that does not delete changes nothing.", "quantifier": "all finite histories of insertions and searches over all keywords (at most 2^32 - 1 insertions per keyword), all constrained PRFs agreeing with the master PRF on their range", "why_tests_cant": "Histories and counters are unbounded; tests sample a few.", "anchors": ["lib/include/sse/schemes/diana/diana_client.hpp: DianaClient::search_request, insertion_request", "lib/include/sse/schemes/diana/diana_server.hpp: DianaServer::search, insert", "lib/diana/diana_common.cpp: gen_update_token_mask"]}
{"id": "C08", "title": "Diana parallel searches agree with the sequential search", "statement": "The parallel search that returns a list returns exactly the sequence of the sequential search; the one that fills a vector puts the i-th inserted document at position i; the callback variants report the same multiset - for every thread count from 1 up and every schedule. The positions handed to the threads are disjoint, contiguous and cover exactly the positions below add_count.", "quantifier": "all add_count, all thread counts >= 1, all schedules", "why_tests_cant": "Off-by-one errors in the range split show only for some remainders of add_count by the thread count.", "anchors": ["lib/include/sse/schemes/diana/diana_server.hpp: DianaServer::search_parallel (all overloads), search_parallel_tl_callback"]}
{"id": "C09", "title": "Diana vector search never invents documents", "statement": "The vector-filling parallel search (used by the synchronous gRPC search) only reports documents that were inserted under the searched keyword, even when some updates were lost before reaching the server.", "quantifier": "all histories with any subset of lost updates", "why_tests_cant": "Requires a lost update at an arbitrary position; the result then differs only in the unfilled slot.", "anchors": ["lib/include/sse/schemes/diana/diana_server.hpp: DianaServer::search_parallel(req, threads, vector)", "lib/diana/server_runner.cpp: DianaImpl::sync_search"]}
{"id": "C10", "title": "Diana bulk insertion equals one-by-one insertion", "statement": "bulk_insertion_request over a list of (keyword, index) pairs yields exactly the update requests, in the same order, and the same client state as calling insertion_request on each pair in turn, including lists with repeated keywords.", "quantifier": "all update lists and all prior client states", "why_tests_cant": "Repeated keywords in one batch at arbitrary positions and arbitrary prior counters.", "anchors": ["lib/include/sse/schemes/diana/diana_client.hpp: DianaClient::bulk_insertion_request, get_counters_and_increment, insertion_request"]}
{"id": "C11", "title": "Deleting search removes exactly the keyword's entries", "statement": "A Diana search with deletion returns the same results as without, and afterwards the server answers nothing for that keyword's old request while every other keyword's results are unchanged; once the client also forgets the keyword, the keyword can be used again from scratch.", "quantifier": "all histories, all keywords, all positions of the deleting search", "why_tests_cant": "Interference between keywords is a statement about all pairs of keywords and histories.", "anchors": ["lib/include/sse/schemes/diana/diana_server.hpp: DianaServer::search(delete_results), retrieve_entry", "lib/include/sse/schemes/diana/diana_client.hpp: DianaClient::remove_keyword"]}
{"id": "C12", "title": "Janus search returns inserted and not removed documents", "statement": "For any history of insertions, removals and searches, a Janus search returns each document inserted under the keyword and not removed since, and no other document.", "quantifier": "all histories of insert/remove/search over all keywords, any number of removals between two searches", "why_tests_cant": "The existing tests never remove two documents of a keyword between two searches; the number of removals per epoch is unbounded.", "anchors": ["lib/janus/janus_client.cpp: JanusClient::search_request, insertion_request, removal_request", "lib/janus/janus_server.cpp: JanusServer::search"]}
{"id": "C13", "title": "Janus punctures are numbered consecutively", "statement": "The n-th removal of a keyword since its last search uses puncture number n (1, 2, 3, ...), and the search request carries the number of removals, as the puncturable encryption requires.", "quantifier": "all numbers of removals per keyword and epoch", "why_tests_cant": "Only visible from the second removal in an epoch on, with a value that tests do not inspect.", "anchors": ["lib/janus/janus_client.cpp: JanusClient::removal_request, search_request", "lib/include/sse/schemes/diana/diana_client.hpp: DianaClient::get_match_count"]}
{"id": "C14", "title": "Janus epochs and tags do not collide", "statement": "Two different (keyword, epoch) pairs never map to the same internal keyword, and two different (keyword, document) pairs never share a deletion tag input, whatever bytes keywords contain.", "quantifier": "all pairs of keywords (arbitrary byte strings), all 32-bit epochs, all 64-bit indexes", "why_tests_cant": "Collision freedom of a string encoding quantifies over all pairs of strings.", "anchors": ["lib/janus/janus_client.cpp: keyword_doc_string, JanusClient::meta_keyword", "lib/utils/utils.cpp: hex_string"]}
{"id": "C15", "title": "Janus parallel search equals the sequential one", "statement": "search_parallel returns the same multiset of documents as search for the same request and server state, and the documents cached for the next search are the same.", "quantifier": "all server states, requests and thread counts >= 1", "why_tests_cant": "State left behind for later searches must be compared for every state and schedule.", "anchors": ["lib/janus/janus_server.cpp: JanusServer::search, search_parallel"]}
{"id": "C16", "title": "Deserialising cached Janus results never reads out of bounds", "statement": "Reading the cached results of a keyword (a list of (document, tag) pairs) from a stored value of any length either yields the whole elements it contains using only its bytes, or reports an error; it never reads out of the bounds of the value.", "quantifier": "all stored values of all lengths", "why_tests_cant": "Memory-safety on every malformed length; sanitizer runs only see well-formed inputs.", "anchors": ["lib/janus/janus_server.cpp: serialization<...>::deserialize (L16-68)"]}
{"id": "C17", "title": "Every task given to the thread pool runs exactly once", "statement": "With at least one worker, every task accepted by enqueue is executed exactly once, and join (or destruction) returns only after all accepted tasks have finished; enqueue after join/stop is rejected rather than silently dropped.", "quantifier": "all worker counts >= 1, all task sets, all interleavings of enqueuers, workers and the joiner, including tasks that enqueue into another pool", "why_tests_cant": "Statement over all schedules.", "anchors": ["lib/include/sse/schemes/utils/thread_pool.hpp: ThreadPool"]}
{"id": "C18", "title": "Bulk loading an inverted index inserts everything or fails", "statement": "load_inverted_index of the gRPC clients returns success only if every (keyword, document) pair of the file has been sent to the server.", "quantifier": "all inverted indexes and all values of hardware_concurrency(), including 0 which the standard allows", "why_tests_cant": "hardware_concurrency() cannot be varied in a test.", "anchors": ["lib/sophos/sophos_client_runner.cpp: SophosClientRunner::load_inverted_index", "lib/diana/client_runner.cpp: DianaClientRunner::load_inverted_index", "lib/include/sse/schemes/utils/thread_pool.hpp"]}
{"id": "C19", "title": "The Tethys graph flow is always a valid flow", "statement": "After compute_residual_maxflow and transform_residual_to_flow, every edge carries a flow between 0 and its capacity and every inner vertex has equal in- and out-flow (with respect to the residual bookkeeping), so that the value leaving the source equals the value entering the sink.", "quantifier": "all graphs (any vertices, parallel edges, self loops), all capacities", "why_tests_cant": "An invariant over an unbounded number of augmentations on arbitrary graphs.", "anchors": ["lib/tethys/tethys_graph.cpp: TethysGraph::find_source_sink_path, compute_residual_maxflow, transform_residual_to_flow", "lib/include/sse/schemes/tethys/details/tethys_graph.hpp: EdgeVec::update_flow"]}
{"id": "C20", "title": "The Tethys maximum-flow computation terminates with a maximum flow", "statement": "The computation terminates on every graph and the flow it returns has maximal value among all flows from source to sink.", "quantifier": "all graphs and capacities; all competing flows", "why_tests_cant": "Optimality compares with every other flow; termination cannot be observed by a finite test.", "anchors": ["lib/tethys/tethys_graph.cpp: find_source_sink_path, compute_residual_maxflow, get_flow"]}
{"id": "C21", "title": "Parallel maximum flow by connected component is safe", "statement": "Splitting the graph into connected components gives each edge to exactly one component, so the per-component computations touch disjoint data and together give the same flow value as the sequential computation, in any interleaving.", "quantifier": "all graphs, all numbers of threads, all interleavings", "why_tests_cant": "Schedules and graph shapes are unbounded.", "anchors": ["lib/tethys/tethys_graph.cpp: compute_connected_components, parallel_compute_residual_maxflow"]}
{"id": "C22", "title": "Tethys allocation never overfills a bucket and loses nothing", "statement": "After allocation every bucket is assigned at most one page worth of entries, every list is split between its two buckets and the stash with the three parts adding up to the length of the list, and a list is reported as stashed exactly when its stashed part is not empty.", "quantifier": "all multisets of lists (length up to a page) and bucket choices, all page sizes", "why_tests_cant": "Relies on flow conservation and rounding for every configuration.", "anchors": ["lib/tethys/tethys_allocator.cpp: TethysAllocator::insert, allocate"]}
{"id": "C23", "title": "Tethys stash is as small as possible", "statement": "No assignment of list entries to their two candidate buckets respecting the page size stores more entries than the allocation does; i.e. the total stashed length is minimal.", "quantifier": "all instances and all alternative assignments", "why_tests_cant": "Optimality against exponentially many alternatives.", "anchors": ["lib/tethys/tethys_allocator.cpp: TethysAllocator::allocate", "lib/tethys/tethys_graph.cpp: compute_residual_maxflow"]}
{"id": "C24", "title": "Encoding a Tethys bucket never writes outside the page", "statement": "While building a store no encoder call writes beyond the page buffer and the 'Out of bound write' error is never raised after a successful allocation.", "quantifier": "all stores built from lists of at most the maximal size", "why_tests_cant": "Worst-case packing of all allocations; an overflow is memory corruption, not a test failure.", "anchors": ["lib/include/sse/schemes/tethys/tethys_store_builder.hpp: TethysStoreBuilder::build", "lib/include/sse/schemes/tethys/encoders/encode_separate.hpp: EncodeSeparateEncoder::encode"]}
{"id": "C25", "title": "Tethys store lookups return the stored list", "statement": "After building a store from lists under distinct keys, get_list of an inserted key returns exactly the elements of its list (as a multiset) and get_list of a key never inserted returns nothing.", "quantifier": "all sets of distinct keys with their lists (including empty lists), all hash functions, all page sizes", "why_tests_cant": "Depends on how lists are cut between two buckets and the stash for every possible allocation; losing entries requires particular neighbours in a bucket.", "anchors": ["lib/include/sse/schemes/tethys/tethys_store_builder.hpp", "lib/include/sse/schemes/tethys/tethys_store.hpp: TethysStore::get_list", "lib/include/sse/schemes/tethys/encoders/encode_separate.hpp"]}
{"id": "C26", "title": "Tethys end-to-end search is correct", "statement": "For an inverted index with distinct keywords, building Tethys and then running search_request / search / decode_search_results for a keyword returns exactly its documents (as a multiset), and nothing for an unknown keyword.", "quantifier": "all inverted indexes (any list lengths, including zero and multiples of the block size)", "why_tests_cant": "List lengths at exact multiples of the block size and bucket neighbourhoods are corner cases.", "anchors": ["lib/include/sse/schemes/tethys/tethys_builder.hpp: GenericTethysBuilder::insert_list", "lib/include/sse/schemes/tethys/tethys_client.hpp", "lib/include/sse/schemes/tethys/tethys_server.hpp"]}
{"id": "C27", "title": "Encrypted buckets decrypt to the plaintext bucket", "statement": "For every key and bucket index, decoding the encrypted bucket at its own index gives exactly what decoding the unencrypted bucket would give.", "quantifier": "all keys, bucket indexes, bucket contents", "why_tests_cant": "All contents and indexes.", "anchors": ["lib/include/sse/schemes/tethys/encoders/encode_encrypt.hpp: EncryptEncoder, DecryptDecoder"]}
{"id": "C28", "title": "Asynchronous Tethys lookups complete exactly once with the right data", "statement": "async_get_list / async_get_buckets call the user callback exactly once, with both buckets available, whatever the order and thread on which the two page reads complete.", "quantifier": "all completion orders and interleavings of the two read callbacks", "why_tests_cant": "A race between two callbacks shows only in a narrow interleaving.", "anchors": ["lib/include/sse/schemes/tethys/tethys_store.hpp: async_get_buckets, async_get_list_helper", "lib/abstractio/thread_pool_aio_scheduler.cpp"]}
{"id": "C29", "title": "The stash file round-trips", "statement": "Reading back a stash file written by the store builder yields exactly the stashed keys with their values.", "quantifier": "all stashes: all key sets and value lists", "why_tests_cant": "All contents, including empty values and arbitrary bytes.", "anchors": ["lib/include/sse/schemes/abstractio/kv_serializer.hpp: KVSerializer::serialize, deserialize_map", "lib/include/sse/schemes/tethys/encoders/encode_separate.hpp: serialize_key_value, deserialize_key_value"]}
{"id": "C30", "title": "Pluto end-to-end search is correct", "statement": "For an inverted index with distinct keywords, a Pluto search returns exactly the documents of the keyword (as a multiset) - no more, no fewer.", "quantifier": "all inverted indexes and both parameter sets (cuckoo table and RocksDB)", "why_tests_cant": "The existing test compares sets containing document 0, hiding spurious or repeated results.", "anchors": ["lib/include/sse/schemes/pluto/pluto_builder.hpp: PlutoBuilder::insert_list, build", "lib/include/sse/schemes/pluto/pluto_server.hpp: PlutoServer::search", "lib/include/sse/schemes/pluto/types.hpp: DefaultPlutoParams", "lib/include/sse/schemes/pluto/rocksdb_store.hpp"]}
{"id": "C31", "title": "Cuckoo insertion neither loses nor duplicates entries", "statement": "Every insertion in the cuckoo allocator keeps all previously stored entries and the new one, each exactly once, each at one of its two hash positions, except for the single entry reported as spilled.", "quantifier": "all sequences of insertions, table sizes > 0, search depths and hash values", "why_tests_cant": "Eviction chains are unbounded and may revisit cells.", "anchors": ["lib/oceanus/cuckoo.cpp: CuckooAllocator::insert"]}
{"id": "C32", "title": "Cuckoo lookups find what was inserted", "statement": "After committing, get returns the inserted value for every inserted key and reports 'not found' for every key that was not inserted.", "quantifier": "all sets of distinct keys, all hash values, all search depths, including the all-ones key", "why_tests_cant": "Spilling and sentinel collisions need adversarial keys.", "anchors": ["lib/include/sse/schemes/oceanus/cuckoo.hpp: CuckooBuilder::insert, commit, CuckooHashTable::get", "lib/include/sse/schemes/oceanus/oceanus.hpp"]}
{"id": "C33", "title": "Asynchronous cuckoo lookups complete exactly once with the right value", "statement": "async_get invokes the user callback exactly once, with the value of the key if either of its cells holds it and with nothing otherwise, whatever the order and threads on which the two reads complete.", "quantifier": "all interleavings of the two read callbacks", "why_tests_cant": "Statement over all schedules.", "anchors": ["lib/include/sse/schemes/oceanus/cuckoo.hpp: CuckooHashTable::async_get"]}
{"id": "C34", "title": "The on-disk vector is write-once and returns what was pushed", "statement": "Element i of a committed vector is the i-th pushed value; pushing after commit and reading before commit or out of range are rejected with an error.", "quantifier": "all sequences of reserve/push_back/async_push_back/commit/get operations and all indexes", "why_tests_cant": "Arbitrary operation sequences (mixing reserve, synchronous and asynchronous pushes) and boundary indexes.", "anchors": ["lib/include/sse/schemes/abstractio/awonvm_vector.hpp: push_back, async_push_back, commit, get, reserve"]}
{"id": "C35", "title": "An interrupted table construction is detected", "statement": "If the process stops before a table is committed, reopening the file does not present it as a committed table.", "quantifier": "all crash points during construction", "why_tests_cant": "Crash points between system calls are not exercised.", "anchors": ["lib/include/sse/schemes/abstractio/awonvm_vector.hpp: constructors, reserve, commit", "lib/include/sse/schemes/tethys/tethys_store_builder.hpp: build", "lib/include/sse/schemes/oceanus/cuckoo.hpp: CuckooBuilder::commit"]}
{"id": "C36", "title": "Moving an on-disk vector preserves it", "statement": "After move construction the new vector answers size and get like the old one did, and destroying the moved-from vector closes no file descriptor.", "quantifier": "all vector states", "why_tests_cant": "The moved-from destructor acts on an unrelated descriptor, invisible to functional tests.", "anchors": ["lib/include/sse/schemes/abstractio/awonvm_vector.hpp: move constructor, destructor"]}
{"id": "C37", "title": "Waiting for asynchronous I/O waits for all callbacks", "statement": "wait_completions returns only when the callback of every previously submitted request has finished, and the scheduler can be destroyed right after it.", "quantifier": "all numbers of requests, all interleavings of submitters, pool threads and the waiter", "why_tests_cant": "Statement over all schedules; a use-after-free window is a few instructions wide.", "anchors": ["lib/abstractio/thread_pool_aio_scheduler.cpp: wait_completions, submit_pread, submit_pwrite, destructor"]}
{"id": "C38", "title": "Linux AIO submissions eventually complete", "statement": "A submission that finds the kernel queue full is retried after completions and never blocks forever, and wait_completions returns once all submitted requests have completed.", "quantifier": "all queue capacities and all interleavings of submitters and the completion thread", "why_tests_cant": "A lost wake-up requires the queue to drain in a narrow window.", "anchors": ["lib/abstractio/linux_aio_scheduler.cpp: submit_iocbs, notify_loop, wait_completions"]}
{"id": "C39", "title": "Masking a document index is reversible", "statement": "For every index and mask of at least 8 bytes, masking twice with the same mask gives back the index, different indexes give different masked values, and the mask bytes are applied to the documented positions.", "quantifier": "all 64-bit indexes and all masks", "why_tests_cant": "2^128 inputs.", "anchors": ["lib/include/sse/schemes/utils/utils.hpp: xor_mask", "lib/include/sse/schemes/diana/types.hpp: xor_mask"]}
{"id": "C40", "title": "Concatenated iteration visits both containers", "statement": "Iterating from begin to end over the concatenation of two containers visits all elements of the first in order and then all elements of the second, for all (possibly empty) containers.", "quantifier": "all pairs of containers", "why_tests_cant": "Empty containers are a corner case that is undefined behaviour rather than a visible failure.", "anchors": ["lib/include/sse/schemes/utils/concat_iterator.hpp: ConcatIterator"]}
{"id": "C41", "title": "List store round-trip", "statement": "A list stored under a key is read back identical, and a stored value whose size is not a whole number of elements is not misread.", "quantifier": "all lists and keys", "why_tests_cant": "All lengths and contents.", "anchors": ["lib/include/sse/schemes/utils/rocksdb_wrapper.hpp: RockDBListStore::get, put"]}
{"id": "C42", "title": "gRPC handlers never write outside their buffers", "statement": "Whatever update or search message a client sends, converting it to a request writes only inside the request.", "quantifier": "all received messages (tokens and keys of all lengths)", "why_tests_cant": "Attacker-controlled lengths; tests only send well-formed messages.", "anchors": ["lib/sophos/sophos_server_runner.cpp: message_to_request", "lib/diana/server_runner.cpp: message_to_request"]}
{"id": "C43", "title": "A failed or interrupted setup can be retried", "statement": "If the set-up of client and server fails or is interrupted at any point, the service is either not set up and can be set up again, or fully set up; it never crashes on later requests.", "quantifier": "all crash points and failure results during setup", "why_tests_cant": "Needs every crash point between file-system operations.", "anchors": ["lib/sophos/sophos_server_runner.cpp: SophosImpl::SophosImpl, setup", "lib/diana/server_runner.cpp: DianaImpl::setup, search", "lib/sophos/sophos_client_runner.cpp: SophosClientRunner"]}
{"id": "C44", "title": "Server restart preserves search results", "statement": "Stopping the client and server and reopening them from their directories does not change the result of any search.", "quantifier": "all histories with restarts at arbitrary points", "why_tests_cant": "Restarts at every point in every history.", "anchors": ["lib/sophos/sophos_server_runner.cpp: SophosImpl::SophosImpl", "lib/sophos/sophos_client_runner.cpp: construct_client_from_directory", "lib/diana/server_runner.cpp: DianaImpl::DianaImpl"]}
{"id": "C45", "title": "The database generator produces the requested number of documents", "statement": "gen_db(N) generates exactly N documents, each reported under each fixed keyword family once, whatever the number of threads.", "quantifier": "all N and all thread counts >= 1", "why_tests_cant": "Thread count cannot be varied and N is unbounded.", "anchors": ["lib/utils/db_generator.cpp: gen_db, generation_job"]}
{"id": "C46", "title": "The search service answers with the search result on every machine", "statement": "A search sent to the Sophos or Diana service gets an answer, and the streamed results are those of the sequential search, each once, in both search modes and whatever the number of hardware threads.", "quantifier": "all databases, requests, thread schedules, search modes and values of hardware_concurrency", "why_tests_cant": "The number of hardware threads of a machine cannot be varied, nor the schedules enumerated.", "anchors": ["lib/sophos/sophos_server_runner.cpp: SophosImpl::search, sync_search, async_search", "lib/diana/server_runner.cpp: DianaImpl::search, sync_search, async_search"]}
{"id": "C47", "title": "Generated keyword groups have their nominal size", "statement": "In a generated database every completed group keyword is reported for exactly the number of documents its name announces, and no keyword is reported twice for one document.", "quantifier": "all database sizes, thread counts, random draws and schedules", "why_tests_cant": "Depends on the random draws, the number of hardware threads and the schedule.", "anchors": ["lib/utils/db_generator.cpp: gen_db, generation_job"]}
{"id": "C48", "title": "Building an Oceanus database never leaves a wrong or unusable table", "statement": "Whatever files earlier processes left, a build of an Oceanus database either reports an error or leaves a table with exactly the inserted blocks; an interrupted or failed build can be repeated, and an existing table is not altered.", "quantifier": "all contents of the two files, all sequences of builders, insertions, commits, destructions and stops of the process", "why_tests_cant": "Needs stops of the process at every point and every content of leftover files.", "anchors": ["lib/include/sse/schemes/oceanus/oceanus.hpp: OceanusBuilder, Oceanus", "lib/include/sse/schemes/oceanus/cuckoo.hpp: CuckooBuilder, CuckooHashTable"]}
{"id": "C49", "title": "get_match_count is the number of matches", "statement": "DianaClient::get_match_count returns, for every keyword, the number of documents inserted for it.", "quantifier": "all histories and keywords", "why_tests_cant": "Tests do not call it on keywords with and without documents after arbitrary histories.", "anchors": ["lib/include/sse/schemes/diana/diana_client.hpp: get_match_count", "lib/janus/janus_client.cpp: removal_request"]}
{"id": "C50", "title": "Failures of the databases are reported, not turned into wrong results", "statement": "When calls of RocksDB fail, an operation of Sophos or Diana either reports an error or has its full effect: an acknowledged insertion is found by later searches, and a search that returns normally returns all the acknowledged documents.", "quantifier": "all histories and all patterns of failing Get and Put calls of the client and of the server", "why_tests_cant": "Tests run on a database that does not fail.", "anchors": ["lib/utils/rocksdb_wrapper.cpp: RocksDBCounter", "lib/include/sse/schemes/utils/rocksdb_wrapper.hpp: RockDBWrapper", "lib/sophos/sophos_client.cpp", "lib/sophos/sophos_server.cpp", "lib/include/sse/schemes/diana/diana_client.hpp", "lib/include/sse/schemes/diana/diana_server.hpp"]}
{"id": "C51", "title": "Rebuilding a Tethys database", "statement": "Whatever files earlier processes left, a build of a Tethys database either reports an error and leaves the earlier database as it was, or leaves a database in which searches return exactly the documents of the new index; an interrupted build is not taken for a finished one.", "quantifier": "all indexes, all leftover files, all sequences of builders, insertions, builds and stops of the process", "why_tests_cant": "Needs stops of the process at every point and every content of leftover files.", "anchors": ["lib/include/sse/schemes/tethys/tethys_store_builder.hpp: build", "lib/include/sse/schemes/tethys/tethys_builder.hpp: TethysBuilder", "lib/include/sse/schemes/tethys/tethys_store.hpp: TethysStore"]}
{"id": "C52", "title": "Searches that run while updates are stored", "statement": "A Sophos or Diana search that runs while the server stores updates returns what a search at one single moment between its beginning and its end would return; in particular all documents stored before it began and none that was never inserted.", "quantifier": "all histories, all sets of updates stored before and during the search, all thread counts, all interleavings of lookups and updates", "why_tests_cant": "The results depend on which updates are stored between which lookups; tests search when no update is under way.", "anchors": ["lib/sophos/sophos_server.cpp: search, search_parallel, search_parallel_light, search_parallel_callback", "lib/include/sse/schemes/diana/diana_server.hpp: search, search_parallel", "lib/sophos/sophos_server_runner.cpp: search, insert, bulk_insert", "lib/diana/server_runner.cpp: search, insert, bulk_insert"]}
{"id": "C53", "title": "The databases give back what was stored", "statement": "After any sequence of operations of the RocksDB wrappers, reading a key gives the value stored last under it, or nothing if there is none, for every type of values and every length of keys; counters hold the value they were started with plus the number of later increments; and reading never leaves the memory of the value found.", "quantifier": "all sequences of put, remove, set and increment operations, all trivially copyable value types, all keys", "why_tests_cant": "Values are copied with memcpy without looking at their length and key lengths are narrowed to 8 bits: only other value types and long keys show it, and a read out of bounds may go unnoticed.", "anchors": ["lib/include/sse/schemes/utils/rocksdb_wrapper.hpp: RockDBWrapper::get, put, remove, RockDBListStore::get", "lib/utils/rocksdb_wrapper.cpp: RocksDBCounter::get, get_and_increment, increment, set, remove_key", "lib/include/sse/schemes/pluto/rocksdb_store.hpp: GenericRocksDBStore::insert, get"]}
{"id": "C54", "title": "Interrupted Janus searches lose nothing", "statement": "If the request of a Janus search is lost, if client or server stop during a search, if updates are not delivered, or if a request is processed twice, later searches still return exactly the documents whose insertion was delivered and that were not removed.", "quantifier": "all histories of insertions, removals and searches, all updates not delivered, all points at which client or server stop during a search, all requests processed twice", "why_tests_cant": "Tests answer every request and never stop a process between two writes to its databases.", "anchors": ["lib/janus/janus_client.cpp: JanusClient::search_request", "lib/janus/janus_server.cpp: JanusServer::search, search_parallel", "lib/include/sse/schemes/diana/diana_server.hpp: DianaServer::search"]}
{"id": "C55", "title": "Buffers of asynchronous accesses are released exactly once", "statement": "Every buffer that async_get, async_gets or async_push_back of the on-disk vector allocates is released exactly once, not before the kernel or a worker has finished with it and not while its owner still holds it; the callback of every accepted request is called exactly once and no callback is called for a call that threw, whatever fails.", "quantifier": "all interleavings of callers, kernel or workers, completion threads and owners of results; all failures of allocations, submissions, reads and writes; both schedulers; all sizes and alignments", "why_tests_cant": "Partial submissions, short reads and failures of io_submit cannot be provoked by tests, and leaks or writes to freed memory usually go unnoticed.", "anchors": ["lib/include/sse/schemes/abstractio/awonvm_vector.hpp: async_push_back, async_get, async_gets", "lib/abstractio/linux_aio_scheduler.cpp: submit_iocbs, submit_pread, submit_preads, submit_pwrite, notify_loop, check_args", "lib/include/sse/schemes/abstractio/scheduler.hpp: Scheduler::submit_preads"]}
{"id": "C56", "title": "Update sessions lose no insertion", "statement": "Whatever threads insert with insert and insert_in_session, start and end update sessions and search: the server stores every insertion of a call that returned, once, by the time no session is open, and none of a call that threw; searches return exactly what is stored; insert_in_session throws only outside a session and insert never; no stream is used after it was ended or destroyed; and no call waits for ever.", "quantifier": "all interleavings of any number of calls from any number of threads, of the server reading the stream, and of failures of the network", "why_tests_cant": "The tests insert from one thread, end each session when nothing else runs, and the connection to the server in the same process never fails.", "anchors": ["lib/sophos/sophos_client_runner.cpp: insert, insert_in_session, start_update_session, end_update_session", "lib/diana/client_runner.cpp: insert, insert_in_session, start_update_session, end_update_session", "lib/sophos/sophos_server_runner.cpp: insert, bulk_insert", "lib/diana/server_runner.cpp: insert, bulk_insert"]}
{"id": "C57", "title": "After a loss of power", "statement": "After any sequence of insertions and losses of power of the client's or the server's machine, a search for a keyword returns exactly the documents inserted for it whose update the server still has; and no search request sent before an insertion reveals the update of that insertion.", "quantifier": "all sequences of insertions, delivered or not, and of losses of power, each losing any number of the last writes of one database; all keywords, documents and primitives without collisions", "why_tests_cant": "The tests close the databases before they open them again, and a killed process loses no write; only a loss of power loses writes that RocksDB has acknowledged.", "anchors": ["lib/utils/rocksdb_wrapper.cpp: get_and_increment, increment, set, remove_key (WriteOptions)", "lib/include/sse/schemes/utils/rocksdb_wrapper.hpp: put, remove (WriteOptions)", "lib/sophos/sophos_client.cpp: insertion_request, search_request", "lib/include/sse/schemes/diana/diana_client.hpp: insertion_request, search_request"]}
{"id": "C58", "title": "Concurrent appends to the on-disk vector", "statement": "When calls to push_back, async_push_back and reserve by several threads have returned and the vector is committed, the positions returned are 0 to n-1, each once, and at each is the value pushed by the call that returned it; calls do not change a committed vector.", "quantifier": "all interleavings of the calls, all orders in which the scheduler does the writes, all values and value sizes, with and without scheduler and direct access", "why_tests_cant": "The tests append from one thread; a wrong position needs another thread between fetch_add and write.", "anchors": ["lib/include/sse/schemes/abstractio/awonvm_vector.hpp: push_back, async_push_back, reserve, commit, m_size"]}
{"id": "C59", "title": "Keywords given several times to the Tethys and Pluto builders", "statement": "When insert_list is called several times with a keyword, or a file has several lists for a keyword, a search of the keyword returns the documents of all its lists, each as often as in the lists; the other keywords are answered as if there was no repetition.", "quantifier": "all indexes with any number of lists for each keyword, all page sizes, table sizes, hashers, pseudo-random functions, hash functions and encoders", "why_tests_cant": "The tests insert each keyword once; what is lost depends on the lengths of the lists and on the buckets of the keys.", "anchors": ["lib/include/sse/schemes/tethys/tethys_builder.hpp: insert_list, load_inverted_index", "lib/include/sse/schemes/pluto/pluto_builder.hpp: insert_list, load_inverted_index"]}
{"id": "C60", "title": "Command-line clients: random insertions and output", "statement": "The option -r N of a client inserts exactly the entries which the database generator gives for N documents, each once, whatever the number of generator threads and their interleaving. A search writes each result given to the callback exactly once, separated by commas, whatever the threads that call the callback, and the calls cannot block each other for ever; with -q nothing is written. A client connects to the port on which the server of its scheme listens.", "quantifier": "for all numbers of documents and threads, all draws, all interleavings of the generator threads; all sequences of results and all interleavings of the calls of the callback", "why_tests_cant": "The number of entries lost depends on the number of processors and on the distribution of the documents among threads; the output depends on the interleaving of the callbacks; tests do not cover the command-line programs.", "anchors": ["src/diana_client.cpp:94-153", "src/sophos_client.cpp:84-133", "src/diana_server.cpp:85-86", "src/sophos_server.cpp:85-86"]}
{"id": "C61", "title": "What Tethys, Pluto and the cuckoo tables store reveals only sizes", "statement": "The table that the Tethys server stores does not depend on the index, up to the keystream: for any two indexes and any parameters for which the construction succeeds there is a permutation of the keystreams, which changes only the bytes used, under which the two tables are equal; hence with an ideal stream cipher the table is independent of the index. Its size and the pages read in a search depend only on the parameters and the request. The same holds for the Tethys part of Pluto; the hash table of Pluto reveals no more than the announced number of elements.", "quantifier": "for all indexes, keywords, keys, ciphers, hash functions, page sizes and numbers of buckets", "why_tests_cant": "The absence of information in stored data is a statement about all pairs of indexes and all keystreams; no run of the program can show it.", "anchors": ["lib/include/sse/schemes/tethys/encoders/encode_encrypt.hpp:57-83", "lib/include/sse/schemes/tethys/tethys_store_builder.hpp:165-300", "lib/include/sse/schemes/pluto/pluto_builder.hpp:84-118", "lib/include/sse/schemes/oceanus/cuckoo.hpp:185-250"]}
{"id": "C62", "title": "The messages of Sophos, Diana and Janus reveal only the leakage; updates are forward private", "statement": "For two histories of insertions and searches of Sophos or Diana with the same leakage (the positions of the updates, and for each search the positions and documents of the earlier insertions for the same keyword) there is a permutation of the secret functions under which all messages of the client are equal; it changes nothing at the points that the searches let the server compute. In particular, updates made after the last search reveal only their number (in Janus: only their kinds), even for keywords searched before.", "quantifier": "for all histories, keywords, documents and secret functions without collisions on the points used", "why_tests_cant": "That messages carry no information is a statement about all pairs of histories and all keys; no run of the program can show it.", "anchors": ["lib/sophos/sophos_client.cpp:83-169", "lib/include/sse/schemes/diana/diana_client.hpp:132-207", "lib/sophos/sophos_client_runner.cpp:430-440", "lib/janus/janus_client.cpp:82-175"]}
{"id": "C63", "title": "The helper functions do what their names say", "statement": "Hexadecimal text can be read back; print_hex writes the same text and leaves the stream as it was; is_aligned is divisibility, and a buffer aligned for async_io_page_size is aligned for the pages of system and device; remove_directory returns true exactly if everything under the path was removed, and never removes anything else.", "quantifier": "for all strings, numbers, sizes, file trees and refusals of the system", "why_tests_cant": "The functions take arbitrary strings, sizes and directory trees; tests use a few of them, on one file system.", "anchors": ["lib/utils/utils.cpp:64-152", "lib/utils/utils.cpp:205-263", "lib/include/sse/schemes/utils/utils.hpp:62-116", "lib/abstractio/scheduler.cpp:9-12"]}
{"id": "C64", "title": "Janus stays right when RocksDB calls fail", "statement": "Whatever calls of RocksDB fail at the client and the server of Janus, an update that returns normally counts in the later searches, an update that throws does not, and a search that returns normally returns exactly the documents inserted and not removed since; no operation makes the process fail.", "quantifier": "for all histories of insertions, removals and searches, sequential or parallel with any number of threads and any schedule, and all patterns of failures of Get, Put and Delete", "why_tests_cant": "The tests run on a database that works; failures come in patterns depending on the call and the history, and the damage shows only in later searches.", "anchors": ["lib/janus/janus_client.cpp:82-175", "lib/janus/janus_server.cpp:95-292", "lib/utils/rocksdb_wrapper.cpp:60-200", "lib/include/sse/schemes/diana/diana_client.hpp:132-207", "lib/include/sse/schemes/diana/diana_server.hpp:83-313"]}
{"id": "C65", "title": "Logging and measuring always work", "statement": "Every call of logger(), set_logger, set_logging_level and set_benchmark_file succeeds, by any thread at any time; logger() returns the logger set last (the null logger after set_logger(nullptr), the console if none was set); a Benchmark reports the time from its construction to its first stop, and the count given last.", "quantifier": "for all sequences of calls, all numbers of threads and schedules, and all measurements", "why_tests_cant": "The tests set the level and the file once at the start and never stop a measurement by hand; the race of the first calls of logger() needs a particular schedule.", "anchors": ["lib/utils/logger.cpp:35-111", "lib/include/sse/schemes/utils/logger.hpp:37-76"]}
{"id": "C66", "title": "The programs do what their arguments say", "statement": "Whatever the arguments of a client or server program, in whatever order and style, it uses the database named last (its default if none is), the mode asked for, the files, the number and the keywords given, in the order given; arguments that it does not understand and files that cannot be loaded are reported by the exit status.", "quantifier": "for all lists of options and other arguments of the four programs", "why_tests_cant": "The programs have no tests, and the ways of mixing, repeating and gluing options are unbounded.", "anchors": ["src/sophos_client.cpp:28-145", "src/diana_client.cpp:32-160", "src/sophos_server.cpp:41-86", "src/diana_server.cpp:42-86"]}
{"id": "C67", "title": "A server starts, serves in the mode asked for, and stops when told", "statement": "A server whose arguments, database and port can be used serves all searches in the mode asked for on the command line; one that cannot start says so by its exit status; after SIGTERM, SIGINT or SIGQUIT at any time the process ends with status 0 once the calls being worked on are done; nothing else ends it.", "quantifier": "for all interleavings of the main thread, calls of clients and signals", "why_tests_cant": "Signals and calls come at any point of the start of the process; the tests do not run the programs.", "anchors": ["src/sophos_server.cpp:20-99", "src/diana_server.cpp:21-96", "lib/sophos/sophos_server_runner.cpp:345-376", "lib/diana/server_runner.cpp:408-439"]}
{"id": "C68", "title": "Janus: sequential and parallel searches can be mixed", "statement": "In every history in which each search is done sequentially, in parallel with a list, or in parallel with a callback, with any number of threads, every search returns the same documents, each as often, as if all searches were sequential (for the histories of C12: the documents inserted and not removed since); no search blocks or fails.", "quantifier": "for all histories, manners of searching, numbers of threads and schedules", "why_tests_cant": "The kinds of search leave different server states (entries erased or kept, cache in another order), and tests use one kind per server and few schedules.", "anchors": ["lib/janus/janus_server.cpp:95-160", "lib/janus/janus_server.cpp:163-293", "lib/include/sse/schemes/janus/janus_server.hpp:20-57"]}
{"id": "C69", "title": "A builder that is moved goes on as before", "statement": "A builder of a cuckoo table, and so a Pluto builder, that is moved behaves as if it had not been moved: each later operation has the same outcome and the files are the same in the end; the destruction of the object it was moved from has no effect.", "quantifier": "for all sequences of insertions, commits and moves, on any files", "why_tests_cant": "The compilers used by the tests elide the moves, and which moves are elided depends on the compiler and its options.", "anchors": ["lib/include/sse/schemes/oceanus/cuckoo.hpp:51", "lib/include/sse/schemes/pluto/pluto_builder.hpp:45", "lib/include/sse/schemes/abstractio/awonvm_vector.hpp:172-192"]}
{"id": "C70", "title": "A Janus server works on several calls at the same time", "statement": "When several threads call search, insert and remove of one Janus server at the same time, every call returns, none fails, and each returns what it would return if the calls were made one after the other in the order in which the client made their requests.", "quantifier": "for all histories of requests, and all interleavings of the accesses of the calls to the three databases", "why_tests_cant": "The tests call the server from one thread; the number of interleavings grows exponentially, and a lost document is only seen by a later search.", "anchors": ["lib/janus/janus_server.cpp:95-161", "lib/janus/janus_server.cpp:295-303", "lib/include/sse/schemes/diana/diana_server.hpp:83-183"]}
{"id": "C71", "title": "Table sizes computed with floating point are large enough", "statement": "The table of a Tethys, Pluto or Oceanus database built for n elements with slack epsilon has room for n elements (half the buckets of Tethys, each table of Oceanus), follows the formula 2(1+epsilon)n/b or (1+epsilon/2)n up to rounding, grows with n and epsilon, and is not of size zero, so that insertions and lookups do not divide by zero. The database generator computes a defined number of keyword groups for which it has enough documents, and uses all of them.", "quantifier": "all numbers of elements, bucket sizes, slacks, database sizes and thread counts, with IEEE 754 rounding of every operation", "why_tests_cant": "The tests use a few small sizes and slacks of 0.1 and 0.3; rounding errors depend on the exact values, and the limits are at 2^53 elements or 65536 groups.", "anchors": ["lib/tethys/tethys_allocator.cpp:11-16", "lib/include/sse/schemes/oceanus/details/cuckoo.hpp:15-18", "lib/include/sse/schemes/tethys/tethys_store_builder.hpp:99-140", "lib/utils/db_generator.cpp:45-53", "lib/utils/db_generator.cpp:113-161"]}
{"id": "C72", "title": "RocksDB failures and old content under Pluto and Tethys", "statement": "When writes of the RocksDB database under Pluto or Tethys fail, the call reports it; calls that failed may be repeated, and once each list is inserted by a call that succeeded and build succeeded, the search of a keyword returns exactly its documents and that of another keyword nothing. A search whose reads fail reports it, and never returns a document the keyword does not have. The number of pairs depends only on the number of documents. A database that exists is either replaced or left as it was.", "quantifier": "all indexes, parameters, sequences of calls, failures of writes (with or without effect) and reads, and previous content of the database", "why_tests_cant": "Tests run on a RocksDB database that does not fail and in empty directories; the failures are at arbitrary writes and reads of arbitrary sequences of calls.", "anchors": ["lib/include/sse/schemes/pluto/pluto_builder.hpp:84-178", "lib/include/sse/schemes/pluto/pluto_server.hpp:51-77", "lib/include/sse/schemes/pluto/rocksdb_store.hpp:43-112", "lib/include/sse/schemes/tethys/tethys_builder.hpp:79-125", "lib/include/sse/schemes/tethys/tethys_client.hpp:118-139"]}
{"id": "C73", "title": "Optional values", "statement": "A program that keeps the contract of std::experimental::optional (no use of a variable out of scope, no * on an empty optional, no emplace with a reference into the optional itself) sees exactly what it would see if each variable held a value or nothing, also when operations of the content throw: construction, copies, moves, assignments, emplace, swap, and the observers. Objects are constructed only in storage without living object, destroyed exactly once, and live exactly in the optionals that have a value. Comparisons between optionals, with nullopt and with values are those of one linear order in which nothing is below every value, and equal values have equal hashes. Optional references are bound, never assigned through. This holds for every type that can be destroyed.", "quantifier": "all types of content, all programs over any number of variables, all operations of the content that throw and all values they leave", "why_tests_cant": "The tests of the repository use the header only through one callback; programs, exceptions at each operation and what they leave are unbounded.", "anchors": ["lib/include/sse/schemes/utils/optional.hpp:329-984", "lib/include/sse/schemes/utils/optional.hpp:996-1336", "lib/include/sse/schemes/utils/optional.hpp:1356-1378", "lib/include/sse/schemes/oceanus/cuckoo.hpp:282", "lib/include/sse/schemes/oceanus/oceanus.hpp:173"]}
{"id": "C74", "title": "The Tethys encoder works for every type of keys and values", "statement": "For every size of keys and values, when the entries assigned to the lists of a bucket fit in its page, encoding writes only inside the page, and decoding the page finds for the key of each list exactly the share of the list that was assigned to the bucket, and nothing for other keys, without reading outside the page. The shares of the two buckets of a list and its record in the stash file together are the list, in order.", "quantifier": "all sizes of keys, values and pages, all lists and assignments", "why_tests_cant": "The tests instantiate the template with one key size and 8-byte values only; sizes and assignments are unbounded.", "anchors": ["lib/include/sse/schemes/tethys/encoders/encode_separate.hpp:20-253", "lib/include/sse/schemes/tethys/encoders/encode_separate.hpp:255-353", "lib/include/sse/schemes/tethys/tethys_store_builder.hpp:193-262"]}
{"id": "C75", "title": "Janus and loss of power", "statement": "After any sequence of insertions, removals, searches and losses of power of the client's or the server's machine, in which each database loses its last writes, no search fails; a search returns exactly the documents inserted for the keyword and not removed whose update the server still has; a document returned by a search and not removed is returned by every later search of the keyword; and no search request sent before an insertion reveals its update.", "quantifier": "all histories, all numbers of lost writes of each database, all keywords and documents, every lawful instance of the cryptography", "why_tests_cant": "The tests cannot lose the unsynchronised writes of six databases independently; histories and losses are unbounded.", "anchors": ["lib/janus/janus_client.cpp:92-175", "lib/janus/janus_server.cpp:122-303", "lib/janus/janus_server.cpp:305-309", "lib/include/sse/schemes/utils/rocksdb_wrapper.hpp:140-182", "lib/include/sse/schemes/diana/diana_server.hpp:146-183"]}
{"id": "C76", "title": "A stash file that was not written completely", "statement": "The construction of a Tethys database reports an error when the stash file cannot be opened or written completely, and a client that opens a stash file of which only a part was written (the disk was full, or the process stopped) either refuses it or returns exactly the documents of the index. Reading any file ends.", "quantifier": "all indexes, all numbers of bytes written, all contents of uninitialised memory, all files", "why_tests_cant": "The tests never fill a disk or cut a file; the result depends on uninitialised memory and on the position of the cut.", "anchors": ["lib/include/sse/schemes/abstractio/kv_serializer.hpp:14-113", "lib/include/sse/schemes/tethys/tethys_store_builder.hpp:280-310", "lib/include/sse/schemes/tethys/tethys_client.hpp:99-116", "lib/include/sse/schemes/tethys/tethys_store.hpp:146-160", "lib/include/sse/schemes/tethys/encoders/encode_separate.hpp:331-352", "lib/include/sse/schemes/tethys/encoders/encode_encrypt.hpp:197-218"]}
{"id": "C77", "title": "Diana: all kinds of searches in one history, deletions included", "statement": "In every history that mixes insertions, sequential and parallel searches of all kinds (list, callback, vector), with or without deletion of the results, and keywords that the client forgets, each search returns exactly the documents inserted under its keyword after the last deleting search. Calls of the database that fail are reported, or do not make a deleted document come back. Searches always end and do not change the answers for other keywords.", "quantifier": "all histories, all thread counts from 1 to 255, all schedules, all sets of failing Get and Delete calls", "why_tests_cant": "The tests use one kind of search at a time and a database that never fails; the results depend on which deletion failed and on the schedule.", "anchors": ["lib/include/sse/schemes/diana/diana_server.hpp:83-313", "lib/include/sse/schemes/diana/diana_client.hpp:280-284", "lib/include/sse/schemes/utils/rocksdb_wrapper.hpp:148-211"]}
{"id": "C78", "title": "Correctness with ideal cryptography: explicit probabilities", "statement": "If the hash functions, the pseudorandom functions, the range-constrained pseudorandom function and the random keys of Pluto are uniformly chosen functions, then for every fixed history of Sophos, Diana and Janus and every fixed index of Tethys and Pluto, the probability that any search of the history gives a wrong result (or that the construction fails) is at most an explicit birthday bound in the numbers of keywords, insertions and blocks, computed from the real sizes of tokens and keys.", "quantifier": "all histories and indexes, all finite sets of keywords on which the functions are chosen, all thread schedules (Diana), all trapdoor permutations (Sophos), all puncturable encryptions that keep their contract (Janus)", "why_tests_cant": "The events have probabilities below 2^-60: no test observes a collision, nor shows that no other event makes a search wrong.", "anchors": ["lib/sophos/sophos_client.cpp:77-159", "lib/sophos/sophos_common.cpp:18-31", "lib/include/sse/schemes/diana/diana_client.hpp:110-206", "lib/diana/diana_common.cpp:29-37", "lib/janus/janus_client.cpp:19-171", "lib/include/sse/schemes/tethys/details/tethys_utils.hpp:12-29", "lib/include/sse/schemes/pluto/pluto_builder.hpp:187-195"]}
{"id": "C79", "title": "What the server sees, with ideal cryptography: explicit advantages", "statement": "If the hash functions, the pseudorandom functions, the range-constrained pseudorandom function and the key stream of the page encryption are uniformly chosen functions, then an observer of the server, who sees all messages (or the table of Tethys), the search requests and everything the server computes to answer them, distinguishes two histories (or indexes) with the same leakage with an advantage of at most an explicit birthday bound in the numbers of keywords, insertions and blocks. In particular, after any history, insertions (in Janus also removals) are indistinguishable whatever their keywords and documents are, until they are searched for.", "quantifier": "all pairs of histories or indexes with the same leakage, all observers (all predicates of what the server sees), all trapdoor permutations (Sophos), all masks by exclusive or (Diana, Janus), all table sizes (Tethys)", "why_tests_cant": "A test compares messages of particular histories; it neither covers all observers nor shows that distributions are close.", "anchors": ["lib/sophos/sophos_client.cpp:83-169", "lib/sophos/sophos_server.cpp:46-89", "lib/include/sse/schemes/diana/diana_client.hpp:132-207", "lib/include/sse/schemes/diana/diana_server.hpp:146-183", "lib/janus/janus_client.cpp:82-175", "lib/janus/janus_server.cpp:36-99", "lib/include/sse/schemes/tethys/tethys_client.hpp:116-182", "lib/include/sse/schemes/tethys/tethys_server.hpp:48-73", "lib/include/sse/schemes/tethys/encoders/encode_encrypt.hpp:61-91"]}
{"id": "C80", "title": "Keys: the functions of a scheme are as good as independent functions", "statement": "If the pseudorandom function is one uniformly chosen function of key and input, then the functions that a client makes from it, with two random keys (Sophos, Diana) or with seven keys derived from one random master key with different labels (Janus), can be told apart from independent functions with an advantage of at most the probability that two of the keys are equal: 2^-256 for Sophos and Diana and 28/2^256 for Janus. Therefore searches are exact with derived keys, and observers of the server learn no more than the leakage, up to the explicit bounds for independent functions and this advantage.", "quantifier": "all events of the functions, all histories (for searches of Janus: those of C12), all finite sets of inputs that contain the labels and the keyword indices, all trapdoor permutations (Sophos), all masks by exclusive or and all puncturable encryptions (Janus)", "why_tests_cant": "A test uses a few keys; it cannot show that a function with derived keys behaves like independent functions in all events.", "anchors": ["lib/janus/janus_client.cpp:19-73", "lib/sophos/sophos_client.cpp:42-50", "lib/include/sse/schemes/diana/diana_client.hpp:97-105"]}
{"id": "C81", "title": "Correctness against adaptive users: one random choice serves all histories", "statement": "With uniformly chosen functions, up to an explicit bound for a dictionary of keywords and a number of insertions for each, one choice of the functions serves all histories over the dictionary at the same time: every history of Sophos, Diana and Janus (also with lost updates, failures of RocksDB, loss of power, all kinds of searches and schedules, and several clients over the network) is answered as its specification says. Therefore the history, the failures and the schedule may depend on everything seen before.", "quantifier": "all dictionaries, all histories over the dictionary (inside of the probability, so also those that depend on the random choice), all failures, losses and schedules, all trapdoor permutations (Sophos), all puncturable encryptions that keep their contract (Janus)", "why_tests_cant": "Tests run fixed histories with a few keys; they cannot quantify over histories chosen after the keys, nor over choices of functions.", "anchors": ["lib/sophos/sophos_client.cpp:77-159", "lib/sophos/sophos_server.cpp:43-120", "lib/include/sse/schemes/diana/diana_client.hpp:110-206", "lib/include/sse/schemes/diana/diana_server.hpp:100-331", "lib/janus/janus_client.cpp:75-171", "lib/janus/janus_server.cpp:40-190"]}
{"id": "C82", "title": "Adaptive observers of the server learn no more than the leakage", "statement": "An observer who sees everything that a server of Sophos, Diana or Janus receives and computes, and who chooses, depending on what was seen, the next pair of commands such that both histories have the same leakage (times of insertions for keywords searched, repetitions of searches, results; for Janus the earlier operations on the keyword of a search, removals included), finds out which of the two histories is executed with an advantage of at most an explicit birthday bound for the dictionary, if the functions are uniformly chosen.", "quantifier": "all strategies of the observer, all numbers of steps, all events of the view, all dictionaries and numbers of insertions, all trapdoor permutations (Sophos), all masks by exclusive or (Diana, Janus), all puncturable encryptions with random keys (Janus)", "why_tests_cant": "The strategy is arbitrary and sees values; no test enumerates strategies or compares distributions.", "anchors": ["lib/sophos/sophos_client.cpp:77-159", "lib/sophos/sophos_server.cpp:43-120", "lib/include/sse/schemes/diana/diana_client.hpp:110-206", "lib/include/sse/schemes/diana/diana_server.hpp:100-200", "lib/janus/janus_client.cpp:82-175", "lib/janus/janus_server.cpp:36-99"]}
{"id": "C83", "title": "An observer who evaluates the public functions learns no more than the leakage", "statement": "An observer who knows the hash function of Sophos, Diana or Janus, sees everything that its server receives and computes, chooses depending on that the next pair of operations (both histories with the same leakage) or a point for which it computes the public functions itself (a leaf, for which it computes the update token and the mask, for Janus of both instances of Diana; for Sophos a search token, for which it computes the public direction of the trapdoor permutation and the update token and the mask with each derivation key), finds out which of the two histories is executed with an advantage of at most the birthday bound for the dictionary (for Janus, of both dictionaries), plus the number of steps times the number of leaves of the dictionaries divided by (2^256 minus both) (for Sophos, with the search tokens of the dictionary and of the chains that the steps can reach, and the number of search tokens), if the functions and the permutation are uniformly chosen.", "quantifier": "all strategies of the observer, also with knowledge of the hash function, all numbers of steps, all events of the view and the hash function, all dictionaries and numbers of insertions, all masks by exclusive or", "why_tests_cant": "The strategy is arbitrary and sees values; no test enumerates strategies or compares distributions, and a guess of a leaf is never observed in a test.", "anchors": ["lib/diana/diana_common.cpp:27-36", "lib/include/sse/schemes/diana/diana_client.hpp:110-206", "lib/include/sse/schemes/diana/diana_server.hpp:100-200", "lib/janus/janus_client.cpp:19-185", "lib/sophos/sophos_client.cpp:83-171", "lib/sophos/sophos_common.cpp:18-31", "lib/sophos/sophos_server.cpp:46-89"]}
{"id": "C84", "title": "Set-up messages, insertions and searches may arrive at the same time", "statement": "If several set-up messages, insertions and searches arrive at the same time at a Sophos or Diana service that was not set up before, at most one set-up message is answered with success, exactly one if no operation fails; the directory, the members of the service and the answers are then as if that message had been alone and the others had been refused. An insertion or a search is refused or finds a service that is set up; no null pointer is dereferenced, no member is accessed at the same time by two calls, and every call is answered.", "quantifier": "all numbers of calls, keys, failures of operations, and interleavings of their steps", "why_tests_cant": "The interleavings of any number of calls of gRPC's thread pool are not enumerable, and the tests of the repository set a service up once, by one client.", "anchors": ["lib/sophos/sophos_server_runner.cpp:76-294", "lib/diana/server_runner.cpp:101-344"]}
{"id": "C85", "title": "The number given with -r is the number of generated entries", "statement": "For every number from 0 to 2^32 - 1 given with -r, written as a decimal literal (with blanks, sign, fraction and exponent as allowed) or as a hexadecimal integer, the client generates as many entries, a number that is not an integer rounded down; every other text, such as a negative number, a number that is too large, or a number that is followed by something else, is refused.", "quantifier": "all texts; all decimal literals of any length", "why_tests_cant": "The literals have any length, and the result depends on the rounding of the value to a binary floating-point number; the repository has no test of the options.", "anchors": ["src/sophos_client.cpp:49-51", "src/diana_client.cpp:58-60"]}
{"id": "C86", "title": "Acknowledged bulk sessions survive a loss of power of the server", "statement": "All updates of a bulk session that was answered with success, all updates that were answered alone, and all updates received before the service was stopped, are found by searches after any losses of power of the server's machine (while the client keeps its state).", "quantifier": "all sequences of insertions, delivered or not, ends of sessions, stops, and losses of power, each losing any number of the writes since the last flush; all keywords and documents", "why_tests_cant": "A loss of power cannot be produced by a unit test, and what it loses depends on the operating system; a killed process loses nothing.", "anchors": ["lib/diana/server_runner.cpp:96-99", "lib/diana/server_runner.cpp:298-367", "lib/include/sse/schemes/diana/diana_server.hpp:325-329", "lib/include/sse/schemes/utils/rocksdb_wrapper.hpp:222-237", "lib/sophos/sophos_server_runner.cpp:245-294"]}
{"id": "C87", "title": "Search messages that no client made", "statement": "A search service survives any search message, also a message of a client that was altered or sent once more: each reply is a document stored at one of the positions that the message counts from its key or token, the replies are all of them if the search succeeds, and otherwise the answer is an error status and the service goes on. The Janus server gives an exception for a key that cannot be evaluated and loses no document by it.", "quantifier": "all messages (keys, tokens, counts), databases, numbers of hardware threads, sizes of memory, schedules of the search threads; synchronous and asynchronous searches; Sophos and Diana; for Janus all requests and contents of the databases", "why_tests_cant": "The tests only send messages made by the clients, whose counts belong to their keys, and what happens to the process after an exception in a thread depends on the schedule.", "anchors": ["lib/diana/server_runner.cpp:202-290", "lib/diana/server_runner.cpp:367-383", "lib/include/sse/schemes/diana/diana_server.hpp:160-313", "lib/sophos/sophos_server_runner.cpp:150-246", "lib/sophos/sophos_server.cpp:91-482", "lib/janus/janus_server.cpp:95-161"]}
{"id": "C88", "title": "Commit of the on-disk vector with appends in progress", "statement": "When commit returns, every value whose append has returned is in the file at the position that the append returned, no write is pending, and the vector is readable; this also holds for appends and other commits that run at the same time. No call uses a scheduler that has been destroyed, and commit always ends.", "quantifier": "all numbers of calls of push_back, async_push_back and commit, all interleavings of their steps, all orders in which writes are done, both kinds of schedulers, with and without scheduler, all sizes and values of elements", "why_tests_cant": "The tests append from one thread and commit once; a call that overlaps with the replacement of the scheduler needs an interleaving of a few instructions, and what happens then depends on freed memory.", "anchors": ["lib/include/sse/schemes/abstractio/awonvm_vector.hpp:210-308", "lib/abstractio/linux_aio_scheduler.cpp:41-45,94-118,243-290", "lib/abstractio/thread_pool_aio_scheduler.cpp:28-98"]}
{"id": "C89", "title": "Reads of the on-disk vector while its access mode changes", "statement": "Reads of a committed vector by get and async_get give the element at the index, whatever calls of set_use_direct_access run at the same time (the lookups of Oceanus::async_get make them): no call uses a destroyed scheduler, a read throws or reports an error only if there is no such element, or if the scheduler cannot read elements of this size, each callback is called exactly once, files of other parts of the process are left alone, and when all calls have ended the mode is the one that was asked for last.", "quantifier": "all contents and element sizes, all numbers of calls of get, async_get and set_use_direct_access, all interleavings of their steps with the schedulers and with other parts of the process that open and close files, both kinds of schedulers", "why_tests_cant": "The tests set the access mode before they read and do the first lookup from one thread; the wrong results need an interleaving of a few instructions, and depend on freed memory and on the numbers of descriptors.", "anchors": ["lib/include/sse/schemes/abstractio/awonvm_vector.hpp:310-416", "lib/include/sse/schemes/oceanus/oceanus.hpp:227-235", "lib/abstractio/linux_aio_scheduler.cpp:41-45,94-118,252-262", "lib/abstractio/thread_pool_aio_scheduler.cpp:28-73"]}
{"id": "C90", "title": "On-disk vector with direct access", "statement": "With direct access, every call of the vector gives the same result as with buffered access, whatever the block size of the device: values that were appended are read back at the positions that the appends returned, a call that cannot be done throws, and a call that throws changes nothing; values that are not aligned are refused.", "quantifier": "all block sizes of the device, element sizes, alignments and contents, all addresses of the memory used, both kinds of schedulers, all sequences of calls and of changes of the access mode", "why_tests_cant": "The tests use one page size on one file system, whose block size divides it; the failures depend on the device and on where the compiler and the allocator put the buffers.", "anchors": ["lib/include/sse/schemes/abstractio/awonvm_vector.hpp:103-171,210-416", "lib/utils/utils.cpp:160-190", "lib/include/sse/schemes/oceanus/oceanus.hpp:227-235", "lib/abstractio/linux_aio_scheduler.cpp:94-109"]}
