# Design of the Lean model of OpenSSE/opensse-schemes

Source under study: `/repo` (C++), read as text only. Nothing is built or run.
Lean project: `/verif/lean` (Lean 4.33.0, Mathlib modules imported one by one).

## 1. Trusted base

* Lean's kernel and the axioms `propext`, `Classical.choice`, `Quot.sound`. There are no own axioms, no `sorry`, no
  `native_decide` and no `bv_decide`. The axioms of every theorem of `MANIFEST.json` are in section 8.
* The reading of the C++ code. Every Lean definition cites the file and the lines it models; where it simplifies,
  its comment says so, and section 4 repeats the simplifications that matter.
* The statements: the definitions of the `Spec.lean` files and the theorems of the `*Props.lean` files.
* External components. They are *parameters* with explicitly stated laws (fields of a structure or hypotheses of a
  theorem), never axioms, and beside each theorem an `example` gives a concrete instance satisfying them:
  * `crypto::Tdp` (RSA): `eval (inv x) = x`; `invert_mult x n` is the n-fold inverse, `eval(x, n)` the n-fold
    evaluation;
  * PRF, hash function, PRG: no collision *on the points that occur in the history* (global injectivity would be
    unsatisfiable for outputs of fixed size); for uniformly chosen functions C78 bounds the probability of such a collision;
  * `crypto::RCPrf`: a constrained key evaluates like the master key on its range; `eval_range a b` calls back
    `a, …, b` in this order;
  * puncturable encryption: decryption with the shares of a set of punctures numbered `1, …, n` and the initial share
    for `n` gives the document if the tag is not punctured and fails if it is; nothing is assumed otherwise;
  * stream cipher: a keystream that depends on key, nonce and position only;
  * `crypto::Wrapper`: `unwrap k (wrap k nonce x) = x`;
  * RocksDB: a map with atomic `Get`, `Put` and `Delete` that keeps what was written when the process is killed (C44), what was written before a `Flush` that succeeds (C86), and a prefix of
    it, for each database, after a loss of power (C57, C75). The
    calls do not fail, except in C50, where any `Get` and `Put` may fail, and C64, where any `Delete` may fail too;
  * POSIX: `pread`, `pwrite`, `write`, `ftruncate`, `close` on byte arrays and descriptor numbers; Linux AIO: a context
    with a capacity, from which each accepted request is returned once.
* The C++ memory model is not modelled. Threads are interleaved at the granularity of their synchronising operations
  and of their accesses to shared data (sequential consistency). A data race is shown as a reachable state in which
  two threads are about to make conflicting accesses (C21, C33), or as a bad outcome of an interleaving (C06, C28).
* Floating point (`tethys_graph_size`, `cuckoo_table_size`, numbers and thresholds of the database generator) is modelled
  in `Fp` (C71) as rounding of rational numbers to nearest, ties to even, with 53 bits. In the other areas the resulting
  numbers are parameters of the theorems, so these hold for any value of them.

## 2. Layout

`lean/Verif/<Area>/Model.lean` (or one file for each class) is the model, `Spec.lean` a small independent
specification, `Lemmas.lean` and others are helper lemmas, `Props.lean` and `*Props.lean` have the property theorems
`Cxx_…` with their examples. Areas: `Common` (maps, bytes, masks), `Counter`, `Sophos`, `Diana`, `Janus`, `ThreadPool`,
`Tethys`, `Oceanus` (cuckoo table), `Pluto`, `Vec` (on-disk vector), `Aio` (the two I/O schedulers), `Utils` (iterators,
list store), `Runner` (gRPC clients and services), `Generator`, `Faults` (Sophos and Diana over a database that fails; `Janus/Faults` for Janus).

Undefined behaviour (out of bounds, null pointer, use after free, division by zero, uninitialised read) is a distinct
outcome of the model, never a default value. Loops that may not end have fuel (with a distinct outcome when it is
exhausted) or are inductive relations.

When the code violates a property, the negation is proved for a witness (theorem name with `_violated` or the name of
the defect), and a theorem whose name ends with `_partial` gives the part that holds, with its restriction as a hypothesis.

## 3. Properties

| id | model | shape of the proof |
|----|-------|-------|
| C01 | `Sophos` | refinement of histories to an abstract multimap |
| C02 | `Sophos`, `ThreadPool` | slices of positions are a permutation; invariants of interleavings |
| C03 | `Sophos` | 8-bit narrowing of thread counts: witnesses; `_partial` up to 255 |
| C04 | `Sophos` | refinement with an arbitrary list of delivered updates |
| C05 | `Counter`, `Sophos` | injectivity below 2^32, repetition at 2^32 |
| C06 | `Counter` | invariant for disjoint keywords, lost update otherwise |
| C07, C10, C11 | `Diana` | refinement; induction |
| C08, C09 | `Diana` | partition of ranges, invariants of interleavings |
| C12–C15 | `Janus` over two `Diana` instances | invariant of histories; counting; injectivity; permutation |
| C16, C41 | `Utils/ListStore` | characterisation by length; round trip |
| C17 | `ThreadPool` | invariants and variant over all schedules |
| C18 | `Runner/Load` over `ThreadPool` and `Counter`; `Runner/LoadSearch` | invariants over all schedules; the messages sent are a history with undelivered updates (C04) |
| C19–C21 | `Tethys/Graph`, `Tethys/Components`, `Tethys/Fine` | flow invariants, max-flow/min-cut, components, searches interleaved edge by edge |
| C22, C23 | `Tethys/Allocator` | conservation; optimality by the cut of the maximal flow |
| C24, C25, C27, C29 | `Tethys/Encoder`, `Tethys/Store` | byte-level round trips; any page of bytes against an inductive specification (`Tethys/PageProps`) |
| C26 | `Tethys/Scheme` | composition |
| C28, C33 | `Tethys/Async`, `Oceanus/Async` | invariants over all interleavings of two callbacks |
| C30 | `Pluto` over `Tethys` and `Oceanus` | composition |
| C31, C32 | `Oceanus/Cuckoo` | permutation invariant, placement invariant |
| C34–C36 | `Vec` | invariants of sequences of operations; crash states |
| C37, C38 | `Aio` | invariants over all interleavings; from each reachable state a schedule that ends (`Aio/LinuxLive`) |
| C39 | `Common/XorMask` | bit-level equalities |
| C40 | `Utils/Concat` | induction |
| C42 | `Runner/Message` | decision logic and round trip |
| C43 | `Runner/Setup` | state machine with crash points |
| C44 | `Runner/Restart` | refinement of sequences of events to a multimap |
| C45, C47 | `Generator` | arithmetic of strides; counting |
| C46 | `Runner/SearchRpc` | composition with C02 and C08 |
| C48 | `Oceanus/Files` over `Oceanus/Cuckoo` and `Vec` | invariants of sequences of events with stops of the process |
| C49 | `Diana` | counters as a function of the history |
| C50 | `Faults` over `Sophos` and `Diana`, `Faults/ParallelReads` | refinement of histories with failures to slots; `_partial` for failures of the client's `Put`; for parallel searches the tasks are given with the fate of their reads, and permutations are lifted to such tasks |
| C51 | `Tethys/Files` over `Tethys/Scheme` and `Vec` | invariants of sequences of events; composition with C26 |
| C52 | `Live` over `Sophos`, `Diana` and `ThreadPool` | invariants over all interleavings; lookups of distinct keys are lookups in one mixed database |
| C53 | `Utils/Rocks` over `Counter` and `Pluto` | histories of operations; refinement of the byte-level stores to the maps used elsewhere |
| C54 | `Janus/Crash` over `Janus` | invariant of the current and later epochs of each keyword; refinement to lists with rollback |
| C55 | `Vec/Buffers*` | invariant over all interleavings: each buffer is in exactly one of five places; specification on the trace of memory events |
| C56 | `Runner/Session*` over `Sophos` and `Diana` | invariants over all interleavings of calls, server and failures; specification on the trace of calls; progress by a decreasing measure |
| C57 | `Power` over `Sophos` and `Diana` | refinement to numbered slots with the histories of both databases; specification over insertions that are stored and remembered |
| C58 | `Vec/Concurrent*` | invariants over all interleavings of calls and writes, with the list of values given to positions or written as ghost state |
| C59 | `Tethys/Repeat*`, `Pluto/Repeat*` over the models of C26 and C30 | lookups in the store and in the cuckoo table without distinct keys (`Oceanus/BuildAny`); induction over the blocks of the index |
| C60 | `Cli/*` over the generator of C45 | induction over the calls of the callback, per thread; counting over the threads; invariant of the mutex and the text |
| C61 | `Tethys/Encoder, Store`, `Pluto/Model`, `Oceanus/Model` | the encrypted construction is the plain one with the pages masked; a bijection of keystreams; counting the entries of the hash table |
| C62 | `Sophos/Model`, `Diana/Model`, `Janus/Model`; `Leak/Spec` | messages as a function of slots; a permutation of the secret functions that exchanges the points of the two histories (`Leak/Core`); Janus as two Diana clients over meta keywords |
| C63 | `Utils/Helpers` | reading the text back; bit arithmetic; mutual induction on file trees (loop over the events of `fts`) |
| C64 | `Janus/Faults` over `Janus`; `Janus/FaultsMixed` with parallel searches | refinement of histories with failures to slots per keyword and epoch; `_partial` for tolerable failures; simulation of parallel searches by sequential ones that keep the insertions |
| C65 | `Utils/Logger` | invariant of the registered names over all sequences of calls; invariant over all schedules of threads |
| C66 | `Cli/Args`, `Cli/Clusters` (several options in one argument) | the arguments that write a list of wishes are read back; induction over the wishes |
| C67 | `Cli/Server` | invariant by position of the main thread, over all interleavings; decreasing measure after a signal |
| C68 | `Janus/Mixed` over `Janus` | simulation of histories with searches of all kinds by sequential ones, up to the order of the cached results and to insertions of past epochs |
| C69 | `Oceanus/Moved` over `Oceanus/Files` | relation of the moved builder and the one that was not moved |
| C70 | `Janus/Concurrent` over `Janus` | each call touches only the keys of its keyword: a call under way will end as in the sequential execution; invariant over all interleavings; decreasing measure for each call |
| C71 | `Fp` over exact rationals, `Generator/Computed` | rounding to the nearest number of `p` bits keeps the order and the numbers of `p` bits, relative error 2^-p; the sizes are monotone compositions |
| C72 | `Pluto/Faults` over the files of Tethys, `Tethys/Faults` | invariant of the calls, failed or not: the blocks of the accepted lists are stored, the others are as before; a table with given content stands for the database in C30 |
| C73 | `Utils/Optional` | an operation on variables with known content is evaluated; the flag and the storage are functions of the content (simulation), lives by an automaton over the events |
| C74 | `Tethys/Generic` (bytes, sizes as parameters) | the page is the encoded parts followed by zeros; the loop of the decoder by induction over the parts |
| C75 | `Janus/Power` | refinement to slots with the histories of the six databases; losses of updates by the server are undelivered updates (simulation); the cache only grows except for removals |
| C76 | `Tethys/Stream` (streams with their states, uninitialised variables as parameters) | what is read from a prefix of a file of records, by induction over the records and the values; the searches by agreement of the stash on the keys used |
| C77 | `Diana/Kinds` (relation of histories; fates of the calls as parameters) | invariant of the threads of a search (each key is settled once, as its fate says); refinement to documents by positions, and from there to a multimap |
| C78 | `Ideal/*` (finite uniform probability; functions chosen on finite sets) | union bound over the functions that are applied one after the other, each at points that depend on the previous ones; birthday bound by induction; then the theorems that assume no collision |
| C79 | `Ideal/*Hiding` (what the server sees as a function of the random choice) | the secret functions are permuted as in C59–C62, for each choice of the others, so that one view becomes the other except on collisions; a permutation of the choices keeps probabilities; bounds on the collisions as in C78 |
| C80 | `Ideal/*Keys` (keys and derived keys; one random function of key and input; functions of the scheme as a function of the choice) | the values of the keyed function at the keys in use are exchanged with those of independent functions, a bijection of the choices unless two keys, or a key and the master key, are equal; then C78 and C79 for the independent functions |
| C81 | `Ideal/Uniform` (histories, failures and schedules inside of the probability) | no collision for all positions that the dictionary allows (C78 for one full history) implies none for any history; then C01, C04, C07, C12, C50, C56, C57, C64, C68, C70, C75, C77 and C86 |
| C82 | `Ideal/{Adaptive,SophosAdaptive,DianaAdaptive,JanusAdaptive,JanusFull,JanusFullKeys,Together}` (strategy that chooses pairs of commands from what was seen) | for each pair of histories that the strategy can reach, the permutation of the choices of C79; it keeps the event of no collision in the dictionary, since it permutes seeds of keywords searched; the choices are divided by the pair of histories reached, and the sum over pairs of an injective map; for Janus, a permutation of the keywords that makes the operations on searched keywords the same, applied to the functions of Janus itself, then the permutations for the commands of its two instances of Diana |
| C83 | `Ideal/Oracle` (steps that are commands or points asked for; secret points), `Ideal/DianaOracle`, `Ideal/JanusOracle`, `Ideal/{Chain,SophosOracle}` (Sophos: uniformly chosen permutation, evaluated forward) | as C82, with bad choices that depend on the steps: a leaf of the dictionary is asked for that the server does not compute; for a first guess at a given step of a given position, the leaf of that position can be exchanged with any leaf not asked for and not in the dictionary without a change of what was seen before, and the exchanged choice determines the guess: probability at most one divided by the number of such leaves. For Sophos an answer tells the next token of the chain too, so the position with the greatest number of steps from a told token is guessed first: an exchange (the permutation is conjugated) changes no answer before |
| C84 | `Runner/SetupConc` (one step for each access to a member of the service or to the file system) | invariant over all interleavings: `create_directory` succeeds for at most one message, which owns the members and the directory from then on, and its state is a state of that message alone; progress by a rank of the program counter |
| C85 | `Cli/Number` (grammar of `strtod`; rounding of `Fp`) | the reader consumes exactly the literal, by induction over its digits; bounds on the error of the rounding |
| C86 | `Power/Flush` over `Power/Model` | reduction to losses without flushes (C57): a loss reaches back to the last flush; the stored insertions are a list of safe and recent documents |
| C87 | `Runner/Foreign` (search handlers for any message; exceptions of the cryptographic library in the search threads), `Janus/Foreign` (the Janus server for any request, with its state after an exception) | invariant of the threads: documents reported and still to be reported are those of the positions counted, exceptions are determined by the key; for Sophos a job throws if and only if one of the tokens that it evaluates is refused, and the jobs are those of C46 otherwise |
| C88 | `Vec/Commit*` | invariant over all interleavings in which nothing overlaps with `commit`: what each call knows of the scheduler at its point; the values of returned appends are pending or in the file; the run that ends the `commit` is constructed |
| C89 | `Vec/Modes*`, `Oceanus/ModesProps`, `Tethys/ModesProps` | invariant over all interleavings in which nothing overlaps with a change of the access mode: what the descriptor and the scheduler of each call are at its point; reads submitted are counted (no hypothesis); the run that ends all calls is constructed; the mode is the one asked for last |
| C90 | `Vec/Direct*`, `Oceanus/DirectProps`, `Tethys/DirectProps` | each call gives what the buffered vector of C34 gives, because offsets stay multiples of the element size; exact condition for reads |

## 4. What is modelled, and simplifications

Paths are relative to `/repo/lib`; `inc` is `include/sse/schemes`. "Part" means that only the functions named are modelled;
the comments of the Lean definitions give the lines.

| source | modelled |
|--------|----------|
| `sophos/sophos_client.cpp`, `sophos_common.cpp`, `sophos_server.cpp` | searches (all variants), insertions; not construction, key storage (see runners), flush |
| `inc/diana/diana_client.hpp`, `diana_server.hpp`, `diana/diana_common.cpp` | tokens of 16 bytes, leaf tokens of 32 bytes; searches, insertions (single and bulk); not construction, flush |
| `janus/janus_client.cpp`, `janus_server.cpp` | searches, insertions, removals, cache serialisation, interrupted searches (C54), losses of power (C75); not construction |
| `tethys/tethys_graph.cpp`, `tethys_allocator.cpp`, headers in `inc/tethys/details` | flow, components, allocation; the size of the graph in floating point (C71) |
| `inc/tethys/encoders`, `tethys_store.hpp`, `tethys_store_builder.hpp`, `abstractio/kv_serializer.hpp` | for 16-byte keys and 8-byte values; `encode_separate.hpp` for keys and values of any size (C74) |
| `inc/tethys/tethys_builder.hpp`, `tethys_client.hpp`, `tethys_server.hpp` | build and search, files of the database |
| `oceanus/cuckoo.cpp`, `inc/oceanus/cuckoo.hpp`, `details/cuckoo.hpp` | builder, table, asynchronous lookups; the size of the tables in floating point (C71) |
| `inc/oceanus/oceanus.hpp` | builder and lookups with their files; the change of access mode in `async_get` (C89) |
| `inc/pluto/*.hpp` | build and search for both parameter sets; `rocksdb_store.hpp` at the level of bytes (C53), with failures and old content (C72); not the options of RocksDB (`pluto/rocksdb_store.cpp`) |
| `inc/abstractio/awonvm_vector.hpp` | all operations; memory and alignment of the asynchronous accesses (C55); concurrent appends (C58); the steps of `commit` with the schedulers (C88) and of `set_use_direct_access` with reads (C89); direct access with the blocks of the device (C90) |
| `abstractio/linux_aio_scheduler.cpp`, `thread_pool_aio_scheduler.cpp` | submission, completion, waiting, destruction |
| `abstractio/scheduler.cpp` | `async_io_page_size` (C63); the factory functions only construct |
| `inc/utils/thread_pool.hpp`, `concat_iterator.hpp` | all |
| `utils/rocksdb_wrapper.cpp`, `inc/utils/rocksdb_wrapper.hpp` | all operations at the level of bytes (C53); RocksDB itself is an external map, its options and `approximate_size` are left out; `flush`: C86 |
| `utils/utils.cpp`, `inc/utils/utils.hpp` | `xor_mask`, hexadecimal text, alignment, page sizes, `remove_directory` (C63); not `append_keyword_map` (unused); the one-line wrappers of system calls are part of the models that use them |
| `utils/db_generator.cpp` | generation; numbers of groups and thresholds in floating point (C71); not the log messages |
| `sophos/sophos_*_runner.cpp`, `diana/*_runner.cpp`, `protos` | part: messages, set-up, restart, insert and search handlers, update sessions (C56), `load_inverted_index`; starting and stopping the server (C67); not flush, printing, statistics |
| `/repo/src/{diana,sophos}_client.cpp` | `Cli/Model`: option `-r` (callback of the generator), output of the results, ports; `Cli/Args`: `getopt`, options, order of the work (C66); `Cli/Number`: `std::stod` of the number of `-r` and its conversion to 32 bits (C85) |
| `/repo/src/{diana,sophos}_server.cpp` | `Cli/Model`: ports; `Cli/Args`: options (C66); `Cli/Server`: `main`, signals, waiting (C67) |
| `utils/logger.cpp`, `inc/utils/logger.hpp` | all (C65); spdlog is its registry of names, patterns and the text of messages are left out |
| `inc/utils/optional.hpp` (third party) | all operations of `optional<T>` and `optional<T&>`, comparisons, hash (C73); overloads that differ only in how the value is made are one operation; not `noexcept` and `constexpr` |

Also outside: JSON parsing, gRPC itself, the options given to RocksDB, and security against adversaries with bounded resources (C61 and C62 treat leakage with ideal keystreams and generators).

Simplifications, by area:

* `Sophos`, `Diana`: the counter store does not fail. `search_request` of an unknown keyword leaves token and
  derivation key of Sophos uninitialised: arbitrary values (`garbage`) in the model.
* `ThreadPool`: a task has one observable effect; exceptions of tasks are swallowed by their futures and are not modelled.
* `Tethys`: capacities and flows are `UInt64` (wrapping), indexes are natural numbers; pages are byte lists for
  8-byte values and 16-byte keys, so the branches that pad with dummy bytes (`sizeof(T) > 8`) are not
  taken (`Tethys/Generic` has them, C74). The searches of the parallel flow computation
  are one step each in `Tethys/Components`; in `Tethys/Fine` each edge is a step, and in the flows of an edge that another job has written or
  is writing a job may see anything. Parent edges are read and written as in an interleaving; C21_fine_disjoint_writes shows that a job writes those of
  its own component only. The walk back from the sink is made once instead of twice.
  `compute_connected_components` called by a user before `compute_residual_maxflow` is not considered. With no worker
  thread `parallel_compute_residual_maxflow` waits forever (as C18_no_worker).
* `Tethys/Async`, `Oceanus/Async`: each access to the shared state is a step; `async_get_buckets` calls the user callback once per
  bucket (it has no shared state). The memory of the buffers is not part of these models, see C55.
* `Vec`: concurrent calls only in `Vec/Concurrent` (C58), where `commit` and `write` are one step each, and in `Vec/Commit` (C88), where `commit` has its steps, but an
  access of the pointer to the scheduler or of the flag is one step, and reads and `reserve` are not modelled; reads of a committed vector with changes of the access mode
  are in `Vec/Modes` (C89), where each access of the descriptor, the pointer or the mode is one step, opening the file again does not fail, and `async_gets` is as many `async_get`; memory and alignment of
  asynchronous accesses only in `Vec/Buffers` (C55), and what the kernel demands of accesses in direct mode in `Vec/Direct` (C90: multiples of a block size, which is a parameter), for calls one after the other; elsewhere direct
  accesses do not fail. A failed submission never calls the callback; this is visible in `Aio/Linux` (`lost`).
* `Aio/Linux`: the check of the stop flag and the increment of the count are one step: `scheduler.hpp`
  L33 asks that no request be posted once `wait_completions` was called.
* `Janus/Concurrent`: each access to one of the three databases is one step (RocksDB is linearizable); the client makes one request
  after the other, and the call of a request starts at once; calls of `search_parallel` are not part of it (C15, C68).
* `Oceanus`: moves of the builder are in `Oceanus/Moved` (C69): a `std::string` that was moved from is empty, as in the usual libraries.
* `Runner`: parse errors and exceptions of the counter store during `load_inverted_index` are in `Runner/LoadFail`, where the
  request whose counter update throws is not sent and its position is not used (C50 has the other case); a bad status at the end of the session is only logged by the code. In `Setup`, completed file operations survive a crash.
  `Write` to the stream of a search does not fail. A Diana search message whose count exceeds the constrained range
  raises an exception in a `std::thread` (termination of the service); the model only has the exception.
* `Runner/SetupConc`: accesses to the members are interleaved and atomic (that they are not atomic in C++ is C84_race_violated); insertions and
  searches only as far as the members that they read; the operations of the server after that are those of C52 and C56.
* `Cli/Number`: numbers below the normal ones (2^-1022) are not rounded to multiples of 2^-1074, which does not matter after the conversion to
  an integer; whether the library reports an error for them is a parameter; the locale is "C" (the programs do not call `setlocale`).
* `Runner/Session`: a request is made in one step (races of the counters: C06), a search is one step (C52 has searches during
  insertions). A stream that breaks loses the messages not yet read, and from then on all that are written.
* `Runner/Foreign` (C87): an exception of the cryptographic library that leaves the function of a thread terminates the process; one in the thread of
  the handler becomes an error status (gRPC). `eval_range` throws at any moment if one of its leaves is out of range. Whether the library
  refuses tokens of Sophos is a parameter. The memory for the vector of results is bounded by a parameter; other allocations succeed.
  Jobs that never end (256 hardware threads, C46) have no outcome. `Janus/Foreign`: an exception comes after any number of the leaves that
  can be evaluated.
* `Power`: losses are losses of the last writes of one database; keys are not lost; searches do not delete; flushes only restrict what can be
  lost (they are in `Power/Flush`, C86). Only Sophos and Diana. `Janus/Power` is the same for Janus, where searches delete (one write for each entry found) and a flush is
  an event. Searches are not interrupted there (C54 has interrupted searches) and a lost write of a search to the three databases of a
  machine is lost independently for each database.
* `Tethys/Stream`: a failed write leaves a prefix of the bytes in the stash file; an indeterminate variable holds arbitrary, but fixed, bytes;
  memory is not exhausted.
* `Ideal`: functions of keywords are chosen on a finite set of any size that contains the keywords of the history; in C78 and C79 the
  keys are not modelled (each keyed function is one uniformly chosen function, all are independent); in C80 the pseudorandom function is one
  uniformly chosen function of key and input, and short results are parts of long ones (the derived keys of `Prf::derive_key` are its values
  at the labels). The history and the index are fixed before the choice in C78 to C80; in C81 they may depend on the choice, and in C82 on what the server saw. The key of Diana that is constrained to a range is the root key with the range. For Janus there are two bounds: a coarse one, and one with the points that a history uses (`Ideal/JanusPoints`).
  In C79 the server evaluates the functions only where it must to answer the searches. In C78 to C82 the trapdoor permutation of Sophos is any permutation without
  short cycles, or (`..._random`) a uniformly chosen one, which the observer may know and invert. In C83 the observer of Sophos evaluates a
  uniformly chosen permutation forward at points of its choice; that it does not invert it is necessary (`C83_sophos_inverse`) and stands for
  the secrecy of the RSA key. In C83 the observer evaluates the hash function and
  the generators of Diana and of the two instances of Janus anywhere; the constrained function is still evaluated only in the range of the key.
* `Fp`: floating-point numbers are rational numbers without bounds on the exponent (all values are between 2^-64 and 2^65, or 0), and
  rounding is to the nearest (even); `long double` has at least 53 bits. `ε` is not negative, or greater than -1 where said so.
  `std::ceil` and `floorl` are exact.
* `Pluto/Faults`: a failed `Put` writes the pair or not; what is written stays; a failed `Get` is for a key (each key is read once in a search); the files of the Tethys store do not fail; a failed `Flush` has no effect, the machine does not stop.
* `Generator`: random draws are arbitrary, thresholds are parameters (their computed values are in `Generator/Computed`, C71); the size of the memory is not bounded.
* `Utils/Helpers`: the order of the entries given by `fts_read` is that of its manual; the tree does not change meanwhile; failures of
  `stat` inside the tree (`FTS_NS`) are left out (they throw like unreadable directories).
* RocksDB `Get` errors are treated by the code as "not found". `Pluto/Faults` and `Tethys/Faults` model this for Pluto and Tethys (C72), `Faults` for Sophos and Diana (C50; the parallel searches of Sophos too), without failures of
  `Delete` (`Diana/Kinds` has them, C77), and `Janus/Faults`, `Janus/FaultsMixed` for Janus with all searches (C64), including `Delete`; elsewhere (Tethys counters, Pluto,
  runners) RocksDB does not fail.
* `Oceanus/Files`, `Tethys/Files`: writes do not fail; what was written before a stop of the process is kept. In Tethys a stop
  during the writing of the stash file is in `Tethys/Stream` (C76); `Tethys/Files` only has stops before it is opened.

## 5. Defects found

Each is proved by the theorem named.

* Sophos: 256 hardware threads or more give non-termination or duplicates (C03_diverges_violated,
  C03_duplicates_violated); the 2^32-th insertion repeats a token and empties the results
  (C05_token_repeats_violated, C05_search_empty_after_wrap_violated).
* Counters: `get_and_increment` is not atomic (C06_lost_insertion_violated).
* Diana: document 0 invented for a lost update (C09_vector_invents_violated).
* Janus: puncture numbers 1, 1, 2, … (C13_second_removal_violated), so that two removals break a search
  (C12_two_removals_violated); re-insertion after removal is lost (C12_reinsertion_violated); truncated cache values read out
  of bounds (C16_truncated_violated, C41_truncated_violated).
* Concatenated iterator with an empty first container (C40_empty_first_violated).
* Tethys: empty list (C25_empty_list_loses_data), unaligned page (C25_unaligned_page_out_of_bounds), stale stash file
  (C25_stale_stash), list length a multiple of the block size (C26_multiple_of_block_size_loses_data), racy asynchronous
  lookups (C28_race, C28_failed_read), racy parallel flow (C21_race).
* Cuckoo and Pluto: spilled values are lost (C32_spilled_value_lost, C30_spilled_block_truncates), key of bytes 255
  (C32_all_ones_found, C33_both_cells_match), four zeros for each full block (C30_default_spurious), empty Pluto index
  (C30_empty_index_wraps).
* On-disk vector: read at index `size` (C34_reserved_read), asynchronous push after commit, mixed pushes, failed writes, change of
  access mode (C34_…), undetected interruption (C35_crash_undetected), move constructor (C36_…).
* Schedulers: use after free after `wait_completions` (C37_use_after_free), lost wake-up (C38_lost_wakeup), error of
  `io_getevents` (C38_getevents_error).
* Runners: success of `load_inverted_index` though nothing was sent (C18_no_worker, C18_broken_stream), buffer overflow by a long
  token (C42_overlong_token_violated), set-up that bricks the service (C43_…_violated), null pointer in Diana searches
  (C43_diana_search_during_setup), thread counts that are multiples of 256 (C46_…_violated).
* Oceanus: an interrupted build leaves a temporary file that makes all later builds fail (C48_interrupted_violated), and the
  destructor of such a builder makes a valid empty table (C48_failed_rebuild_violated).
* Diana: `get_match_count` is one too small (C49_violated); this is the cause of the puncture numbers of Janus.
* Database failures: a failed `Get` during an insertion loses all earlier documents of the keyword (C50_…_reset_violated), the server
  ignores a failed `Put` (C50_…_unstored_violated), failed reads shorten results silently (C50_…_read_violated, C50_parallel_violated).
* Tethys files: a refused build has already overwritten the counters (C51_failed_build_violated), an interrupted build passes for
  a finished one (C51_interrupted_violated, C51_interrupted_loses_stash), an old stash file is used with a new table
  (C51_stale_stash_violated).
* Searches while updates arrive: a Diana search, or a parallel Sophos search, can return a later document without an earlier one that
  was stored first (C52_diana_sequential_violated, C52_sophos_light_violated); so can a sequential Sophos search if updates overtake
  each other (C52_sophos_overtaking_violated).
* RocksDB wrappers: values are copied without looking at their length, so that a value written with a smaller type is read out of
  bounds (C53_short_value_violated), as every block of a Pluto database opened with a larger page size
  (C53_pluto_page_size_violated); the list store narrows the lengths of keys to 8 bits (C53_list_long_key_violated).
* Interrupted Janus searches: the client starts a new epoch before its request is answered, so that a lost request, or a stop of the
  client or server, loses all documents inserted since the last search (C54_documents_lost_violated) and brings back removed ones
  (C54_removed_document_returns_violated); a lost removal makes the next search lose documents (C54_lost_removal_violated);
  a request processed twice by `search_parallel` duplicates documents (C54_parallel_repeated_violated).
* Memory of the on-disk vector: when only some requests of an `async_gets` are accepted, all its buffers are freed, so that the kernel
  writes to freed memory (C55_written_after_free_violated) or results are released twice (C55_released_twice_violated); with a type less
  aligned than a page this needs no error (C55_alignment_violated). Buffers of short batched reads, of rejected pushes and of calls with
  a wrong index are never released (C55_…_forgotten_violated), nor are the request objects that `io_submit` refuses
  (C55_request_forgotten_violated); results are memory of `posix_memalign` released by `delete` (C55_wrong_deallocation_violated).
* Update sessions: a broken stream or a failed `insert` loses insertions although all calls return normally
  (C56_broken_stream_violated, C56_insert_failed_violated); `insert` while a session is open (as `load_inverted_index` leaves one after an
  exception) returns before the server has stored anything (C56_open_session_violated); `end_update_session` during an insertion or
  another `end_update_session` is undefined behaviour (C56_insert_end_violated, C56_end_end_violated) or makes `insert` throw
  (C56_insert_throws_violated); two `start_update_session` at a time lose insertions (C56_start_start_violated).
* `load_inverted_index` of the clients: an exception of the counter store in a task of the pool is dropped with its future, and the call
  returns success though pairs were not inserted (C18_exception_violated).
* Loss of power: the writes of counters are not synchronised. A client that loses the last ones uses positions again: stored documents
  are not found, are overwritten (C57_…_violated) or come back (C57_…_returns), and search requests sent before the loss reveal
  updates made after it (C57_…_forward_violated).
* Janus and loss of power: a search deletes the entries it has found, in two databases, and writes the result to the cache, a third one,
  without synchronisation, and `flush_edb` does not flush the cache: a server that loses the last write of the cache loses all the documents
  found by the search for ever (C75_cache_violated, C75_flush_violated). A client that loses a counter does not find stored
  documents, overwrites them, gets documents twice or does not see removals (C75_count_violated, C75_epoch_violated,
  C75_twice_violated, C75_removal_violated), and reuses update tokens (C75_forward_violated). A lost removal makes the other documents
  undecryptable (C75_share_violated).
* Diana: the result of the deletion of an entry is not looked at. A document whose deletion failed is returned again by later searches
  (C77_delete_violated), also when its keyword was forgotten and used again (C77_stale_violated); a failed read hides a document from a
  deleting search only (C77_read_violated). After a deleting search the vector of a later search has document 0 for each deleted
  document, though nothing failed (C77_vector_violated).
* Tethys stash file: the states of the streams are not looked at. A construction whose stash file cannot be opened or written completely
  reports no error, and documents are lost (C76_lost_violated). A client reads a part of a stash file without complaint: the missing values are
  what the uninitialised memory holds, so that a search may return any documents (C76_any_documents, C76_memory_violated), and a key
  that was cut may erase the list of another one (C76_erased).
* On-disk vector: two threads calling `push_back` may get each other's positions, since `write` is used and not `pwrite`
  (C58_push_violated); a `push_back` that overlaps with `commit` writes to a committed vector (C58_late_push_violated); a `reserve`
  that overlaps with `push_back` removes values (C58_reserve_violated). The schemes append from one thread.
* `awonvm_vector::commit` (awonvm_vector.hpp L291-308) replaces the scheduler without a lock: an `async_push_back` or a second `commit` that overlaps with it can use the destroyed
  scheduler (C88_overlap_violated, C88_two_commits_violated); an `async_push_back` that overlaps with it can leave a position of zeros (C88_hole_violated) or be pending when `commit` has
  ended (C88_late_violated). As `async_push_back` does not test the flag, values can be appended later, for which a second `commit` does not wait (C88_second_commit_violated).
* `awonvm_vector::set_use_direct_access` (awonvm_vector.hpp L310-330) closes and opens the file and replaces the scheduler without a lock, and `Oceanus::async_get` (oceanus.hpp L227-235)
  calls it: two first lookups at once use a destroyed scheduler (C89_first_lookups_violated), as does an `async_get` that overlaps with the change (C89_async_violated), which on Linux may
  also throw (C89_refused_violated). A `get` that overlaps with it throws (C89_throws_violated) or returns the content of another file that got the descriptor (C89_other_file_violated, C89_async_other_file_violated);
  two changes at once can close a file of another part of the process (C89_foreign_close_violated). Once the mode is set, later calls for the same mode are harmless (C89_same_mode).
* Direct access of the on-disk vector: the vector never compares the block size of the device with the size or the alignment of its elements (it only logs a warning). With blocks greater than the pages, the
  switch in `Oceanus::async_get` makes every element unreadable, though `get` could read it before (C90_small_pages_violated), and with a thread pool every key is reported as absent (C90_oceanus_absent_violated); after `use_direct_IO` the lookups of the Tethys store throw or dereference a null pointer (C90_tethys_violated); `async_push_back` with a thread pool loses values without any error
  (C90_lost_violated); a `push_back` whose write fails has counted its position, so that later values are one position too low (C90_shift_violated).
* Keywords given several times to the builders: the lists of a keyword use the same keys. Tethys loses documents
  (C59_two_lists_violated), in particular the blocks of longer lists given earlier (C59_shorter_list_violated); Pluto replaces full
  blocks (C59_pluto_violated) and loses last blocks (C59_pluto_short_violated). With the default parameters of Pluto, two blocks with
  the same key are both in the cuckoo table and one of them is found (C59_cuckoo_violated); three lists with a full block always make
  the table spill a block (C59_cuckoo_three_lists), which may be one of another keyword (C59_cuckoo_others_violated).
* Command-line clients: `diana_client -r` sends the entries of each generator thread by lists of 50 and never sends the last,
  incomplete, list (C60_diana_lost_violated); a small number of documents is not inserted at all (C60_diana_small_violated). The
  Diana client connects to port 4240, the Diana server listens on 4241 (C60_diana_port_violated).
* Pluto stores the full blocks in clear in the hash table (C61_pluto_clear_violated), and the dummy blocks, which should hide the
  number of full blocks (comment in pluto_builder.hpp), contain zeros and can be told from them (C61_pluto_count_violated).
  Tethys uses the position of a page as the nonce of its encryption: two tables made with the same key reveal the difference of their
  contents (C61_tethys_same_key_violated).
* Sophos: the search for a keyword that was never inserted sends uninitialised memory of the client to the server
  (C62_sophos_uninitialised_violated; sophos_client.cpp L87, sophos_client_runner.cpp L436-438). Diana's runner returns early.
* Helpers: `hex_string` of an array of wider elements prints only their low bytes (C63_array_violated), `print_hex` leaves the stream in
  base 16 (C63_print_violated), `is_aligned` is wrong for sizes that are not powers of two (C63_aligned_violated), the result of `fstatvfs`
  is not examined (C63_page_violated), `remove_directory` reports success for a dangling link and leaves it (C63_dangling_violated).
* Janus over a database that fails: the results of a search whose cache cannot be written or read are lost for ever
  (C64_cachePut_violated, C64_cacheGet_violated); a failed `Get` of the search counter puts updates into a past epoch where they are
  never seen (C64_insertScGet_violated, C64_removeScGet_violated); failed reads during a search lose documents for ever or bring back
  removed ones (C64_insGet_violated, C64_delGet_violated, C64_badIns_violated, C64_badDel_violated); a removal that throws may make
  the documents of the epoch undecryptable (C64_halfRemoval_violated); a failed `Put` of the search counter is not noticed and the
  next update repeats a token the server has seen (C64_forward_violated); after a parallel search, which deletes no insertions, that
  failure and an insertion that throws bring back documents a second time (C64_mixed_violated).
* Logger: the second `set_logger(nullptr)` throws and does not silence the logger (C65_second_null_violated), the second
  `set_benchmark_file` throws (C65_second_file_violated), threads that make the first calls of `logger()` together throw
  (C65_threads_violated), `stop()` does not stop a measurement (C65_time_violated).
* Programs: servers ignore arguments that are not options (C66_server_words_violated); clients ignore that a file cannot be loaded
  (C66_load_violated); the Sophos client exits when given `-o` or `-i`, which it announces (C66_sophos_options_violated).
* Server processes: a signal during the start is lost (C67_early_violated), an open call prevents the end (C67_session_violated), a
  busy port is a null pointer (C67_port_violated), an unusable database is an uncaught exception (C67_database_violated), the signal
  handler logs and may block (C67_log_violated), `-s` is applied after the server has started (C67_mode_violated).
* Janus: a search in parallel keeps its insertion entries for ever (C15) and changes the order of the results of all later searches
  (C68_order); the documents are the same (C68_mixed).
* Moved builders of cuckoo tables (and of Pluto): the destructor of the old object ends the process (C69_drop_violated), the new one
  cannot be committed if it has values (C69_commit_violated), and exchanges values inserted later (C69_insert_violated).
* Janus: calls on one keyword that overlap are not handled: two searches lose documents (C70_searches_violated), an insertion or a removal
  stored after a search that was requested later has no effect (C70_insert_violated, C70_remove_violated). The code does not say whether
  the server may be called by several threads.
* Computed sizes: above 2^53 elements the tables are too small (C71_room_violated), large sizes are undefined behaviour
  (C71_overflow_violated), and a builder for no element divides by zero at the first insertion (C71_zero_violated). The generator
  cuts the number of a group to 16 bits: groups from number 65536 on are never used (C71_groups_violated).
* RocksDB failures under Pluto and Tethys: a failed read is a missing key, and the search of Pluto is cut short without error
  (C72_pluto_read_violated); Tethys does not read the result of `counter_db.set` and treats a failed `get` as an absent keyword, and a
  search returns nothing (C72_tethys_write_violated, C72_tethys_read_violated). An insertion of Pluto that fails counts its block: after it is
  repeated there are fewer dummy blocks, and the size of the database depends on the failures (C72_pluto_size_violated). A RocksDB database
  is not emptied by a builder: old blocks are returned (C72_pluto_stale_violated), and a construction that is refused has already replaced
  blocks (C72_pluto_refused_violated).
* `optional.hpp`: `~storage_t() = default` is deleted when `T` is not trivially destructible, so that `optional<T>` compiles for trivially
  destructible types only (C73_types_violated; those of the callbacks are). `o.emplace(*o)` reads a destroyed object (C73_alias), as with
  `std::optional`.
* Tethys encoder as a template: values whose size does not divide 8 and the size of the key are stored and not found again
  (C74_filled_violated) or written outside the page (C74_overwrite_violated); values of less than 8 bytes may make the decoder read outside
  the page (C74_overread_violated). The scheme only uses values of 8 bytes (C74_words).
* Set-up of a service while other calls arrive: a search of Diana dereferences the null pointer `token_wrapper_` (C84_diana_search_violated);
  `server_` is written and read without a lock (C84_race_violated).
* Search messages with a count that does not belong to the key: the count is not authenticated, so that a message of a client of Diana, sent once
  more with a larger count, terminates the server process (C87_diana_replay_violated). In Sophos the same holds for a token that the library
  refuses, if there are any (C87_sophos_refused_violated); a client searching for an unknown keyword sends uninitialised memory as the
  token, which the synchronous service evaluates although it is to look at no token (C87_sophos_unknown_violated). A request to the Janus server
  whose key for the removals cannot be evaluated throws an exception after the ciphertexts have been removed: the documents are lost
  (C87_janus_lost_violated).
* Flushes: the service of Sophos never flushes, so that all updates of a session that was answered may be lost with the power of the server
  (C86_sophos_violated); Diana only logs a flush that fails (C86_diana_flush_violated) and does not flush an update that is sent alone
  (C86_diana_alone_violated).
* Option `-r` of the clients: negative numbers and numbers from 2^32 on are undefined behaviour (C85_negative_violated, C85_large_violated),
  what follows the number is ignored, so that `10k` is 10 (C85_garbage_violated), and `inf` and `nan` are undefined behaviour too
  (C85_infinite_violated).
* Generator: no end for N = 2^64 - 1 (C45_overflow_violated), keywords of random groups (C47_random_groups_violated),
  nothing generated with 0 hardware threads (C45_no_threads).

## 6. Partial results

The note of each partial claim in `MANIFEST.json` says what is missing. In all cases but C44 the full statement is false
for the code, and the restriction excludes the proved witnesses. C44 lacks the
loss of power, which is the subject of C57.

## 7. Mutation tests

`seeded/LOG.jsonl` has one line for each edited definition (made in a copy outside `/verif`): the definition, the edit, the
claim it breaks, the theorems that fail and the theorems that were tightened. Edits that are equivalent to the original for the claim are
recorded as such.

How to read it:

* `theorems_failed` lists the theorems that have errors in the first modules that do not build. Modules that import those are not
  looked at, so more theorems may fail than are listed.
* `property_theorems_failed` is computed: the theorems of the manifest whose proofs use one of `theorems_failed`. That a proof
  no longer works does not show that its statement became false.
* In some lines no theorem of the claimed property was among them, because its modules were not looked at. Such lines are tested again
  with a driver that goes on after errors, through all modules between the edited one and the theorems of the claimed property; `retest`
  gives the result.

## 8. Axioms of the property theorems

Output of `#print axioms`, grouped.

* none: C22_insert_rejects, C41_missing, C60_diana_port_violated, C74_filled_violated, C74_overwrite_violated.
* `propext`: C10_bulk_eq_one_by_one, C34_direct_access_without_scheduler, C34_async_push_after_commit, C36_move_partial, C36_move_uncommits, C37_use_after_free, C38_lost_wakeup, C38_getevents_error, C38_wakes_all, C43_diana_invalid_key_violated, C43_setup_partial, C43_client_up, C53_get_absent, C53_list_long_key_violated, C55_written_after_free_violated, C55_released_twice_violated, C55_alignment_violated, C55_short_read_forgotten_violated, C55_wrong_index_forgotten_violated, C55_push_forgotten_violated, C55_request_forgotten_violated, C55_wrong_deallocation_violated, C56_refused, C58_late_push_violated, C63_print, C63_print_violated, C65_second_null_violated, C73_order, C73_ref, C73_types_partial, C73_types_violated, C74_overread_violated, C87_diana_unwrap, C88_overlap_violated, C88_two_commits_violated, C89_refused_violated.
* `propext`, `Quot.sound`: C01_search_exact, C01_search_readonly, C02_callback, C03_diverges_violated, C03_duplicates_violated, C04_search_delivered, C04_order_and_duplication_irrelevant, C04_other_keywords_unaffected, C05_tokens_distinct_partial, C05_token_closed_form, C05_token_repeats_violated, C05_search_empty_after_wrap_violated, C06_concurrent_disjoint_partial, C06_lost_insertion_violated, C07_unknown_keyword, C07_readonly, C21_fine_race, C21_race, C25_empty_list_loses_data, C25_unaligned_page_out_of_bounds, C25_stale_stash, C25_duplicate_key, C26_multiple_of_block_size_loses_data, C28_once_partial, C28_serialised, C28_race, C28_failed_read, C30_empty_index_wraps, C30_spilled_block_truncates, C31_halves, C32_spilled_value_lost, C32_all_ones_found, C32_all_ones_spilled, C32_size_zero, C33_both_cells_match, C33_failed_read, C34_rejections, C34_defined, C34_reserved_read, C34_mixed_pushes, C34_failed_write, C34_direct_access, C35_crash_partial, C35_tethys_stash, C36_move_loses_content, C36_moved_from_closes_stdin, C39_mask_involutive, C39_mask_injective, C39_mask_positions, C39_mask_only_first_eight, C39_bytes_involutive, C39_bytes_injective, C39_bytes_positions, C40_empty_first_violated, C41_roundtrip, C43_killed_in_setup_violated, C43_sophos_invalid_key_violated, C43_key_file_violated, C43_diana_search_during_setup, C43_sophos_never_null, C43_diana_never_null_partial, C43_client_cut, C43_client_never_retries_violated, C43_lost_message_violated, C43_pair_partial, C45_overflow_violated, C45_no_threads, C46_sophos_sync_violated, C46_diana_violated, C48_existing_table_kept, C48_after_commit, C48_no_table, C49_value, C49_one_looks_like_none, C50_sophos_refines, C50_diana_refines, C50_sophos_partial, C50_diana_partial, C50_sophos_reset_violated, C50_diana_reset_violated, C50_sophos_read_violated, C50_diana_read_violated, C51_built_refuses, C51_no_table, C51_interrupted_loses_stash, C51_stale_stash_violated, C52_diana_sequential_violated, C52_sophos_overtaking_violated, C53_run_iff, C53_cases, C53_get_partial, C53_pointer_keys, C53_list_keys_partial, C55_after_wait, C56_broken_stream_violated, C56_insert_failed_violated, C56_open_session_violated, C56_start_start_violated, C56_insert_end_violated, C56_end_end_violated, C56_insert_throws_violated, C57_sophos_refines, C57_diana_refines, C57_sophos_sound, C57_diana_sound, C57_sophos_forward_partial, C57_diana_forward_partial, C57_sophos_forward_violated, C57_diana_forward_violated, C58_push_kept_partial, C58_committed_partial, C58_push_violated, C58_reserve_violated, C59_cuckoo_others_violated, C59_pluto_short_violated, C59_two_lists_violated, C60_print, C60_quiet, C61_cuckoo_size, C61_tethys_size, C61_tethys_pages, C62_sophos_uninitialised_violated, C63_hex, C63_array_violated, C63_page_violated, C63_dangling_violated, C65_level, C65_threads_partial, C65_threads_violated, C65_report, C65_time_partial, C65_time_violated, C69_partial, C69_drop_violated, C69_drop_partial, C69_ended, C69_commit_violated, C69_insert_violated, C70_calls, C70_ends, C70_searches_violated, C70_insert_violated, C70_remove_violated, C72_pluto_size_violated, C72_pluto_stale_violated, C72_pluto_refused_violated, C76_closed, C79_sophos_answer, C79_tethys_answer, C84_diana_search_violated, C84_ends, C84_race_violated, C86_sound, C87_janus_results, C88_no_fault_partial, C88_ends, C88_hole_violated, C88_late_violated, C88_second_commit_violated, C89_first_lookups_violated, C89_async_violated, C89_throws_violated, C89_other_file_violated, C89_foreign_close_violated, C90_refused, C90_small_pages_violated, C90_lost_violated.
* `propext`, `Classical.choice`, `Quot.sound`: C01_unknown_keyword, C02_search_parallel, C02_search_parallel_light, C02_search_parallel_callback, C02_runs_exist, C02_callback_runs_complete, C03_positions_once_partial, C07_histories, C07_search_exact, C08_partition, C08_list, C08_callback, C08_vector, C08_terminates, C09_vector_partial, C09_vector_invents_violated, C11_parallel, C11_histories, C11_server, C12_points_partial, C12_points_no_fault, C12_search_exact_partial, C12_no_fault, C12_reinsertion_violated, C12_two_removals_violated, C13_numbers_used, C13_first_removal_partial, C13_search_carries_count, C13_second_removal_violated, C14_meta_injective, C14_tag_injective, C14_doc_tag, C15_parallel_eq_sequential, C15_terminates, C16_characterisation, C16_truncated_violated, C16_within_bounds_partial, C17_exactly_once, C17_never_twice, C17_rejection_only_after_join, C17_join_returns, C17_no_lost_wakeup, C17_pipeline, C17_pipeline_terminates, C18_success_partial, C18_processed, C18_parse_error, C18_exception_violated, C18_all_sent_partial, C18_missing_are_lost, C18_search_after_load_partial, C18_no_worker, C18_returns, C18_broken_stream, C18_sophos_search_partial, C18_diana_search_partial, C19_valid_flow, C19_vertex_flows, C20_maximal, C20_get_flow, C20_get_edge_flow, C20_get_flow_exact, C21_fine_no_fault, C21_fine_terminates, C21_fine_same_value, C21_fine_disjoint_writes, C21_edges_split, C21_no_fault, C21_terminates, C21_same_value_partial, C22_allocation, C23_minimal_stash, C24_build_in_bounds, C24_insert_rejects, C25_any_page, C25_cut_page, C25_get_list_partial, C25_get_list_sound, C26_search_partial, C26_search_sound, C27_decrypt_encrypt, C27_encrypted_files, C29_stash_round_trip, C29_builder_stash, C30_rocksdb, C30_default_partial, C30_default_spurious, C31_insert, C31_insertions, C32_get_partial, C33_once_partial, C33_table_partial, C34_get_partial, C34_reopen, C34_table, C35_cuckoo_crash, C35_crash_undetected, C37_callbacks, C37_no_lost_wakeup, C37_returns, C37_destroy_partial, C37_no_early_fault, C38_completes_partial, C38_wait_partial, C38_once, C38_wakeup_partial, C40_visits_all_partial, C41_janus_cache, C41_truncated_violated, C42_update_partial, C42_update_iff, C42_insert_handler, C42_overlong_token_violated, C42_bulk_handler, C42_search_iff, C42_search_assertion, C42_roundtrip_partial, C42_diana_search_iff, C43_recoverable_iff, C44_sophos_partial, C44_sophos_available, C44_diana_partial, C44_diana_available, C45_documents_partial, C45_terminates_partial, C46_sophos_partial, C46_sophos_violated, C46_diana_partial, C46_diana_sync, C47_group_size_partial, C47_random_bound_partial, C47_no_duplicates_partial, C47_random_groups_violated, C48_success_exact_partial, C48_succeeds_iff, C48_interrupted_violated, C48_failed_rebuild_violated, C49_violated, C50_parallel_refines, C50_parallel_occurs, C50_parallel_violated, C50_parallel_sound_partial, C50_sophos_unstored_violated, C50_diana_unstored_violated, C51_build_partial, C51_existing_table_kept, C51_failed_build_violated, C51_interrupted_violated, C52_sophos_moment, C52_sophos_sequential_partial, C52_sophos_parallel_partial, C52_sophos_callback_partial, C52_sophos_light_partial, C52_runs_exist, C52_diana_sequential_partial, C52_diana_parallel_partial, C52_sophos_light_violated, C53_other_type_iff, C53_short_value_violated, C53_counter_refines, C53_counter_value, C53_counter_cases, C53_pluto_store_partial, C53_pluto_refines, C53_pluto_page_size_violated, C54_rollback, C54_partial, C54_no_fault, C54_documents_lost_violated, C54_removed_document_returns_violated, C54_lost_removal_violated, C54_parallel_repeated_violated, C55_safe_partial, C55_released_partial, C55_callbacks_partial, C55_requests_partial, C55_condition, C56_sophos_search, C56_diana_search, C56_stored_once, C56_no_fault_partial, C56_throws_partial, C56_session_partial, C56_completes_partial, C56_sophos_exact_partial, C56_diana_exact_partial, C57_sophos_partial, C57_diana_partial, C57_sophos_remembered, C57_diana_remembered, C57_sophos_violated, C57_diana_violated, C57_sophos_returns, C57_diana_returns, C58_async_partial, C58_push_partial, C58_throws_partial, C59_cuckoo_sound_partial, C59_cuckoo_others_partial, C59_cuckoo_violated, C59_cuckoo_three_lists, C59_pluto_sound_partial, C59_pluto_others_partial, C59_pluto_violated, C59_sound_partial, C59_others_partial, C59_shorter_list_violated, C60_sophos_random, C60_diana_partial, C60_diana_multiple_partial, C60_diana_lost_violated, C60_diana_small_violated, C60_print_progress, C61_pluto_tethys_hiding, C61_pluto_blocks_partial, C61_pluto_clear_violated, C61_pluto_count_violated, C61_tethys_hiding, C61_tethys_same_key_violated, C62_diana_hiding, C62_diana_forward, C62_janus_forward, C62_sophos_hiding, C62_sophos_forward, C63_aligned_partial, C63_aligned_violated, C63_remove_partial, C64_mixed, C64_mixed_refines, C64_mixed_no_fault, C64_mixed_partial, C64_mixed_violated, C64_refines, C64_no_fault, C64_partial, C64_cachePut_violated, C64_cacheGet_violated, C64_insertScGet_violated, C64_removeScGet_violated, C64_insertGet_violated, C64_insertSrvPut_violated, C64_insGet_violated, C64_delGet_violated, C64_searchScGet_violated, C64_badIns_violated, C64_badDel_violated, C64_duplicates_violated, C64_halfRemoval_violated, C64_forward_violated, C65_calls_partial, C65_second_file_violated, C66_server_partial, C66_defaults, C66_server_refuses, C66_server_words_violated, C66_client_partial, C66_load_violated, C66_sophos_options_violated, C66_server_joined_partial, C66_client_joined_partial, C67_end_partial, C67_stop_partial, C67_mode_partial, C67_mode_violated, C67_early_violated, C67_session_violated, C67_port_violated, C67_database_violated, C67_log_violated, C68_mixed, C68_exact, C68_progress, C68_order, C70_partial, C70_exact_partial, C71_rounding, C71_graph_room_partial, C71_cuckoo_room_partial, C71_room_violated, C71_accuracy, C71_mono, C71_defined_partial, C71_overflow_violated, C71_graph_nonzero_partial, C71_cuckoo_nonzero_partial, C71_zero_violated, C71_constants, C71_groups, C71_generation, C71_threshold, C71_groups_violated, C72_pluto_partial, C72_pluto_sound, C72_pluto_read_violated, C72_pluto_size, C72_pluto_stopped_partial, C72_tethys_partial, C72_tethys_write_violated, C72_tethys_read_violated, C73_content, C73_breach, C73_lives, C73_alias, C73_compare, C74_bucket_partial, C74_words, C74_list_partial, C75_refines, C75_no_fault, C75_sound, C75_kept_partial, C75_undelivered, C75_partial, C75_cache_violated, C75_flush_violated, C75_count_violated, C75_epoch_violated, C75_twice_violated, C75_removal_violated, C75_share_violated, C75_forward_violated, C76_load, C76_ends, C76_large, C76_streams, C76_records, C76_kept, C76_build_partial, C76_complete, C76_any_documents, C76_erased, C76_lost_violated, C76_memory_violated, C77_refines, C77_ends, C77_sound, C77_exact_partial, C77_deleted, C77_others, C77_delete_violated, C77_stale_violated, C77_vector_violated, C77_read_violated, C78_diana_collision, C78_diana_search, C78_diana_kinds, C78_diana_number, C78_janus_points_collision, C78_janus_points_partial, C78_janus_points_no_fault, C78_janus_points_number, C78_janus_collision, C78_janus_search_partial, C78_janus_no_fault, C78_janus_number, C78_sophos_collision, C78_sophos_search, C78_sophos_delivered, C78_sophos_number, C78_sophos_random, C78_sophos_random_delivered, C78_tethys_collision, C78_tethys_search_partial, C78_pluto_collision, C78_pluto_search, C78_pluto_absent, C78_tethys_number, C79_diana, C79_diana_forward, C79_diana_answer, C79_diana_number, C79_janus, C79_janus_forward, C79_janus_number, C79_sophos, C79_sophos_forward, C79_sophos_number, C79_sophos_random, C79_tethys, C79_tethys_number, C80_diana_keys, C80_diana_search, C80_diana_hiding, C80_janus, C80_janus_keys, C80_janus_forward, C80_janus_search_partial, C80_janus_number, C80_janus_points_partial, C80_sophos_keys, C80_sophos_search, C80_sophos_hiding, C80_sophos_random_keys, C80_sophos_random, C81_sophos_random_keyed, C81_sophos_random_search, C81_sophos_random_faults, C81_sophos_random_power, C81_sophos_random_session, C81_sophos_random_number, C81_sophos_keyed, C81_diana_keyed, C81_janus_keyed_partial, C81_choose, C81_sophos_collision, C81_sophos_search, C81_sophos_delivered, C81_sophos_faults, C81_sophos_power, C81_sophos_session, C81_sophos_number, C81_diana_collision, C81_diana_search, C81_diana_kinds, C81_diana_faults, C81_diana_power, C81_diana_durable, C81_diana_session, C81_diana_number, C81_janus_collision, C81_janus_search_partial, C81_janus_no_fault, C81_janus_mixed, C81_janus_faults, C81_janus_faults_mixed, C81_janus_power, C81_janus_concurrent_partial, C82_diana, C82_janus_forward, C82_janus, C82_janus_keyed, C82_sophos, C82_sophos_random_keyed, C82_sophos_random, C82_sophos_random_number, C82_sophos_keyed, C82_diana_keyed, C83_diana, C83_diana_keyed, C83_diana_number, C83_janus, C83_janus_keyed, C83_janus_number, C83_sophos, C83_sophos_keyed, C83_sophos_number, C83_sophos_inverse, C84_one, C84_key, C84_as_one, C84_exactly_one, C84_served, C84_sophos_no_crash, C84_diana_partial, C84_late, C85_exact, C85_integer, C85_fraction, C85_negative_violated, C85_large_violated, C85_garbage_violated, C85_word, C85_hexadecimal, C85_infinite_violated, C85_client, C86_diana_partial, C86_diana_durable_partial, C86_diana_session_partial, C86_sophos_violated, C86_diana_flush_violated, C86_diana_alone_violated, C87_janus, C87_janus_left, C87_janus_lost_violated, C87_diana_partial, C87_diana_sound, C87_diana_client, C87_diana_uncovered_violated, C87_diana_one, C87_diana_memory, C87_diana_ends, C87_diana_replay_violated, C87_sophos_partial, C87_sophos_closed_partial, C87_sophos_sound, C87_sophos_refused_violated, C87_sophos_exact, C87_sophos_few, C87_sophos_unknown_violated, C88_commit_partial, C88_all_partial, C89_oceanus_partial, C89_tethys_partial, C89_partial, C89_once, C89_ends, C89_mode, C89_same_mode, C89_async_other_file_violated, C90_oceanus_partial, C90_oceanus_absent_violated, C90_tethys_partial, C90_tethys_async_partial, C90_tethys_violated, C90_same_partial, C90_readable, C90_shift_violated.
