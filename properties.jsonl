{"id": "C01", "title": "Block iteration visits every coefficient tuple exactly once", "statement": "Looping `for (BlockIterator it(bounds); !it.is_end(); it.step())` over a non-empty list of non-empty ranges [lo_i,hi_i) terminates, has no undefined behaviour, and the sequence of it.as_position() contains every tuple of the box exactly once and nothing else.", "quantifier": "all lists of bounds (any length, any bounds below 2^31)", "why_tests_cant": "The box is unbounded in dimension and size; a test checks one box.", "anchors": ["src/block_iterator.cc: BlockIterator(bounds), step, step_, as_position, is_end"]}
{"id": "C02", "title": "Iteration over blocks, sets and dependent sets is complete and duplicate free", "statement": "For any description of coordinates as ranges (package size 1), explicit value sets, and value sets that depend on the index chosen in another coordinate's set, the visited positions are exactly the described tuples, each exactly once.", "quantifier": "all lengths, ranges, sets, dependent sets whose keys partition the coordinates and which are non-empty", "why_tests_cant": "The carry logic between three kinds of coordinates has to work for every mixture of sizes.", "anchors": ["src/block_iterator.cc: BlockIterator(length,blocks,package_size,sets,dependent_sets), step_, as_position"]}
{"id": "C03", "title": "Packages partition the search space", "statement": "For any package size >= 1 the boxes returned by as_block() along the iteration are pairwise disjoint and their union is exactly the described set of tuples, so splitting work into packages neither drops nor duplicates a tuple.", "quantifier": "all iterator descriptions and all package sizes >= 1", "why_tests_cant": "Truncation of the last package in each coordinate depends on divisibility of every range length.", "anchors": ["src/block_iterator.cc: initialize_blocks, as_block, step_"]}
{"id": "C04", "title": "A package enumerates the same tuples through either interface", "statement": "Iterating BlockIterator(it.as_block()) and iterating it.as_block_enumerator() visit the same set of tuples, each once: precisely the tuples of the package.", "quantifier": "all reachable states of every iterator", "why_tests_cant": "Depends on every truncated package.", "anchors": ["src/block_iterator.cc: as_block, as_block_enumerator, BlockIterator(bounds)"]}
{"id": "C05", "title": "Package size is an upper bound", "statement": "No package contains more tuples than the requested package size.", "quantifier": "all block maps and package sizes >= 1", "why_tests_cant": "Greedy division of the budget over sorted ranges, any number of ranges.", "anchors": ["src/block_iterator.cc: initialize_blocks"]}
{"id": "C06", "title": "Stepping is total: the end is reached after exactly as many steps as packages, and stays", "statement": "From construction, step() reaches is_end() after a number of steps equal to the number of packages; no step before that reports the end; step() on an ended iterator changes nothing; no step has undefined behaviour.", "quantifier": "all iterator descriptions", "why_tests_cant": "Termination over unbounded sizes.", "anchors": ["src/block_iterator.cc: step, step_, is_end, set_initial_position"]}
{"id": "C07", "title": "Invalid ranges are rejected and the zero package size is never divided by in a verified configuration", "statement": "Constructing an iterator with an empty range aborts instead of producing an iterator; package size 0 is undefined behaviour as soon as there is a range, and a configuration that verify() accepts has package size >= 1.", "quantifier": "all block maps", "why_tests_cant": "Needs all positions of the empty range.", "anchors": ["src/block_iterator.cc: initialize_blocks", "src/config/config_node.hh: verify"]}
{"id": "C08", "title": "Enumerated curves are well formed", "statement": "Every position visited while iterating the packages of CurveIterator(table, genus, marked, package) has degree+1 entries with degree 2*genus+1 or (unless marked) 2*genus+2, each entry is a valid field element index, and the leading entry is not the index of zero.", "quantifier": "all odd primes, prime exponents, genera >= 1, marked flags, package sizes >= 1", "why_tests_cant": "Infinite family of fields and genera.", "anchors": ["src/curve_iterator.cc: CurveIterator, step", "src/fq_element_table.hh: block_non_zero, block_complete"]}
{"id": "C09", "title": "Weighted enumeration is exact (mass formula)", "statement": "For every function phi on polynomials invariant under f(x) -> c^2 f(bx+a), summing multiplicity(f)*(phi(f)+phi(twist f)) over the enumerated polynomials gives the sum of phi over all polynomials of the requested degrees, whatever the relation between the prime and the degree.", "quantifier": "all finite fields of odd characteristic, all genera, all invariant functions", "why_tests_cant": "A statement on orbit sizes for every field and degree; tests check one total for q=13.", "anchors": ["src/curve_iterator.cc: CurveIterator, multiplicity", "src/fq_element_table.cc: power_coset_representatives"]}
{"id": "C10", "title": "Multiplicities are exact positive integers", "statement": "multiplicity() never performs an inexact division on an enumerated curve and returns a positive count: q(q-1)/2, q(q-1)^2/(2 gcd(q-1,n-m)), (q-1)^2/4, (q-1)/2, ... are integers.", "quantifier": "all odd prime powers and enumerated coefficient supports", "why_tests_cant": "fmpz_divexact has undefined result if the division is inexact; must hold for all q and supports.", "anchors": ["src/curve_iterator.cc: multiplicity"]}
{"id": "C11", "title": "No curve is enumerated twice", "statement": "All positions visited over all packages of a CurveIterator are pairwise different, and so are all packages returned by as_block().", "quantifier": "all odd prime powers, genera, package sizes", "why_tests_cant": "Many enumerators are concatenated; overlaps only show for particular exponent patterns.", "anchors": ["src/curve_iterator.cc: CurveIterator, step, is_end"]}
{"id": "C12", "title": "Field element table lists every field element once", "statement": "When the table constructor accepts a non-zero candidate generator g, index i holds g^i, every field element occurs at exactly one index and index q-1 is zero; a non-zero candidate is accepted iff it is a primitive element. If q does not fit into unsigned int, the conversion of pow's result is undefined behaviour.", "quantifier": "all finite fields with q < 2^32 and candidate sequences; q >= 2^32 for the last sentence", "why_tests_cant": "Depends on multiplicative orders in every field.", "anchors": ["src/fq_element_table.cc: FqElementTable", "src/fq_element_table.hh: at, zero_index"]}
{"id": "C13", "title": "Exponent reduction table is reduction modulo q-1", "statement": "The exponent reduction table has 2(q-1) entries and entry i is i mod (q-1).", "quantifier": "all q >= 2, all indices", "why_tests_cant": "All sizes.", "anchors": ["src/reduction_table.cc: compute_exponent_reduction_table"]}
{"id": "C14", "title": "Incrementation table is the Zech logarithm", "statement": "For the generator g found by the constructor and every index i (q-1 standing for zero), entry i is the index of 1 + g^i; the generator search accepts exactly primitive elements. No table is made for more than 2^31 elements: the behaviour is undefined from 2^32 elements on, and below that the constructor throws, because an int32_t index has become negative.", "quantifier": "all finite fields with q > 2 presented by coefficient vectors over their prime field", "why_tests_cant": "Digit carries and the special index for zero over all q.", "anchors": ["src/reduction_table.cc: compute_incrementation_table"]}
{"id": "C15", "title": "Power coset representatives", "statement": "power_coset_representatives(n) gives exponents such that every non-zero field element is g^e times an n-th power for exactly one listed e.", "quantifier": "all finite fields, all n", "why_tests_cant": "All n and q.", "anchors": ["src/fq_element_table.cc: power_coset_representatives"]}
{"id": "C16", "title": "Table based counting is memory safe", "statement": "count() never reads outside the two tables or the coefficient vector and does no wrapping arithmetic, for every curve with valid coefficient indices.", "quantifier": "all fields for which a reduction table can be made (q <= 2^31; q <= 2^30 with OpenCL) and all coefficient vectors", "why_tests_cant": "Bounds depend on sums of two reduced exponents at every step.", "anchors": ["src/curve.cc: count, count_cpu"]}
{"id": "C17", "title": "Table based counting returns the number of points", "statement": "After count(table) for the degree k extension, the stored pair is (number of points with y != 0, number of points with y = 0) of the smooth projective model of y^2 = f(x) over that extension, points at infinity included.", "quantifier": "all odd q, all polynomials of degree >= 1, all extension degrees with compatible generators", "why_tests_cant": "All fields and polynomials.", "anchors": ["src/curve.cc: count, count_cpu, convert_poly_coeff_exponents"]}
{"id": "C18", "title": "All counting implementations agree", "statement": "count() on CPU, count() on OpenCL (evaluation kernel followed by summation), count_naive_nmod and count_naive_zech store the same pair for the same curve and field.", "quantifier": "all curves and fields", "why_tests_cant": "Equivalence for all inputs of four implementations.", "anchors": ["src/curve.cc: count, count_naive_nmod, count_naive_zech", "src/opencl/evaluation.cl", "src/opencl/kernel_reduction.cc: _reduce"]}
{"id": "C19", "title": "Conversion to extension fields keeps the polynomial", "statement": "convert_poly_coeff_exponents maps each coefficient index to the index, in the extension, of the same field element, and the zero index to the zero index; other primes and non-divisible exponents abort.", "quantifier": "all field extensions with compatible generators, all coefficient vectors", "why_tests_cant": "All extension degrees.", "anchors": ["src/curve.cc: convert_poly_coeff_exponents"]}
{"id": "C20", "title": "Counting is idempotent and independent of order", "statement": "Counting an exponent again changes nothing, and counting a set of exponents in any order leaves the same point counts.", "quantifier": "all sequences of count calls", "why_tests_cant": "All call histories.", "anchors": ["src/curve.cc: count, has_counted, number_of_points"]}
{"id": "C21", "title": "Hasse-Weil offsets", "statement": "hasse_weil_offsets(K) lists, for k=1..K in units of the base exponent, q^k + 1 minus the number of points over the degree k extension.", "quantifier": "all curves and counted exponents", "why_tests_cant": "All fields.", "anchors": ["src/curve.cc: hasse_weil_offsets, number_of_points, max_prime_exponent"]}
{"id": "C22", "title": "Twist of stored data is the data of the twisted curve", "statement": "For a non-square c, the key (ramification type, offsets) of c*f equals the stored twist of the key of f: same ramification, offsets negated at odd extension degrees; twisting twice is the identity.", "quantifier": "all odd q, all squarefree polynomials, all numbers of counted extensions", "why_tests_cant": "All fields and curves.", "anchors": ["src/store/curve_data.cc: twist"]}
{"id": "C23", "title": "Ramification type does not depend on how much was counted", "statement": "For squarefree right hand sides, ramification_type() is the ascending list of degrees of the irreducible factors (plus 1 for the point at infinity if the degree is odd), whether it is derived from any number of point counts or by factoring.", "quantifier": "all squarefree polynomials over all finite fields of odd order, all prefixes of counted exponents", "why_tests_cant": "Inclusion-exclusion over divisors and the early exit bound for all degrees.", "anchors": ["src/curve.cc: ramification_type"]}
{"id": "C24", "title": "Degree and genus", "statement": "A constructed curve has no zero leading coefficients, its degree is that of the polynomial given, and genus() is floor((degree-1)/2) for degree >= 1; the all-zero vector and degree 0 are outside the domain (undefined behaviour, resp. wrap-around).", "quantifier": "all coefficient vectors", "why_tests_cant": "All vectors of trailing zeros.", "anchors": ["src/curve.cc: Curve, genus", "src/curve.hh: degree"]}
{"id": "C25", "title": "Stored key is an isomorphism invariant", "statement": "Replacing f(x) by c^2 f(bx+a) with b,c non-zero changes neither the ramification type nor any point count.", "quantifier": "all fields, polynomials and substitutions", "why_tests_cant": "All substitutions.", "anchors": ["src/curve.cc: ramification_type, hasse_weil_offsets", "src/curve_iterator.cc: multiplicity (comments)"]}
{"id": "C26", "title": "Key ordering is a strict total order", "statement": "The comparison used for store keys is irreflexive, transitive and total, and two keys are equivalent iff they are equal, so the ordered map never confuses or splits keys.", "quantifier": "all pairs and triples of keys", "why_tests_cant": "Order axioms over infinite domain.", "anchors": ["src/store/curve_data.cc: less::operator()"]}
{"id": "C27", "title": "Registering curves tallies multiplicities by key and twisted key", "statement": "After registering any sequence of curves into an empty store, the count at a key is the sum over curves of multiplicity times (1 if its key is that key, plus 1 if its twisted key is); no registered count is ever overwritten.", "quantifier": "all sequences of curves", "why_tests_cant": "The overwrite branch is only safe by an invariant over all histories.", "anchors": ["src/store/store.cc: register_curve"]}
{"id": "C28", "title": "Flushing adds pointwise and is independent of order", "statement": "flush_to_static_store adds the local counts to the global ones key by key, records the block and empties the local store; the global state after all flushes does not depend on the order in which threads flushed.", "quantifier": "all interleavings of flushes", "why_tests_cant": "All schedules.", "anchors": ["src/store/store.cc: flush_to_static_store"]}
{"id": "C29", "title": "Saved record and saved store always match", "statement": "At every point of every run, each pair (record, store) produced by flush_static_store satisfies: the store is the pointwise sum of the results of exactly the blocks in the record, provided no block was flushed twice.", "quantifier": "all histories of flushes and saves", "why_tests_cant": "All schedules and save points.", "anchors": ["src/store/store.cc: flush_static_store, flush_to_static_store"]}
{"id": "C30", "title": "Store files round trip", "statement": "Writing a store and reading it back gives the same map, for every store whose keys have non-empty ramification type and offsets and fit in int, and whose counts are below 2^62 in absolute value (see C36 for larger ones).", "quantifier": "all stores", "why_tests_cant": "All keys and counts, including negative offsets and big counts.", "anchors": ["src/store/store.cc: insert, extract", "src/store/curve_data.cc: operator<<, ValueType(string)"]}
{"id": "C31", "title": "Record files round trip up to the empty block", "statement": "Reading back a written record yields all recorded blocks and no other non-empty block; a non-empty record gains the empty block, which no run ever assigns.", "quantifier": "all records with bounds below 2^31", "why_tests_cant": "All blocks; the stray empty block comes from the eof handling.", "anchors": ["src/store/file_store.cc: insert, extract"]}
{"id": "C32", "title": "Merging is pointwise addition", "statement": "The merged store has at every key the sum of the counts in the input store files and the merged record is the union of the input records (plus possibly the empty block); the result does not depend on the order of the files, and merging merged files gives the same result as merging all.", "quantifier": "all directories, all file orders", "why_tests_cant": "All file sets and permutations.", "anchors": ["src/executables/merger.cc: merge", "src/store/store.cc: extract"]}
{"id": "C33", "title": "Merger reads exactly the recorded stores", "statement": "Store files without record are ignored, a record without store makes the merger fail with exit code 1 and no output, other files are ignored.", "quantifier": "all directory contents", "why_tests_cant": "All directory contents.", "anchors": ["src/executables/merger.cc: merge"]}
{"id": "C34", "title": "A crash between the two file writes loses and duplicates nothing", "statement": "Whenever the process dies before or between writing the store file and the record file, or after a partial store write, the directory still only counts blocks that are recorded, so re-running recomputes the unrecorded ones.", "quantifier": "all crash points except inside the record write", "why_tests_cant": "All crash points of all runs.", "anchors": ["src/store/file_store.cc: save, new_filenames, FileStore"]}
{"id": "C35", "title": "Resumed runs skip recorded blocks and the union is exact", "statement": "After any number of crashed or completed runs over the same block list, once a run completes every block is contained in exactly one record, so the merge is the exact sum over all blocks.", "quantifier": "all crash/restart histories", "why_tests_cant": "Unbounded histories of crashes.", "anchors": ["src/worker_pool/standalone.cc: assign, update_config, save_global_stores_to_file", "src/store/file_store.hh: contains"]}
{"id": "C36", "title": "Counters are exact integers of any size", "statement": "Counts in stores behave as exact integers. (The code copies FLINT integers bitwise, so this holds exactly as long as every stored value is below 2^62; above it a store operation leaves a dangling handle.)", "quantifier": "all values", "why_tests_cant": "The defect needs counts beyond 2^62.", "anchors": ["src/store/store_data.hh: Count::ValueType", "src/store/store.cc: register_curve, flush_to_static_store, extract"]}
{"id": "C37", "title": "Pool bookkeeping never runs dry", "statement": "In every reachable state the worker pool's idle counters equal the numbers of idle CPU and OpenCL threads, so assign() never takes a thread from an empty queue and never meets the wrong kind of thread; every thread is idle, ready or busy, exactly one of them.", "quantifier": "all interleavings of assignments, completions and flushes, any number of threads", "why_tests_cant": "All schedules.", "anchors": ["src/threaded/thread_pool.cc: assign, finished_block, flush_ready_threads", "src/worker_pool/standalone.cc: assign, fill_idle_queues"]}
{"id": "C38", "title": "Each assigned block is computed and reported exactly once", "statement": "If distinct blocks are assigned, every block is taken by exactly one thread, its results are flushed exactly once, and it is reported finished exactly once; the 'block not found' aborts are unreachable.", "quantifier": "all schedules, all sequences of distinct blocks", "why_tests_cant": "All schedules.", "anchors": ["src/threaded/thread.cc: main_thread, assign", "src/threaded/thread_pool.cc: finished_block", "src/worker_pool/standalone.cc: finished_block"]}
{"id": "C39", "title": "Waiting for assigned blocks means their results are in the global store", "statement": "When wait_for_assigned_blocks returns, the results of all blocks assigned so far have been flushed to the global store, so the following save contains them.", "quantifier": "all schedules", "why_tests_cant": "All schedules.", "anchors": ["src/worker_pool/standalone.cc: wait_for_assigned_blocks, update_config, ~StandaloneWorkerPool", "src/threaded/thread.cc: main_thread"]}
{"id": "C40", "title": "Assigned work is eventually processed", "statement": "A thread that has a queued block does not sleep forever. (False of the code: assign() and shutdown() notify without holding the mutex the sleeper checks under, so a wake-up can be lost.)", "quantifier": "all schedules", "why_tests_cant": "A lost wake-up needs one particular interleaving.", "anchors": ["src/threaded/thread.cc: main_thread, assign, shutdown"]}
{"id": "C41", "title": "A block is computed with the configuration in force when it was assigned", "statement": "The field table and reduction tables used for a block are those of the last update_config before its assignment, and results of one configuration are never saved into the directory of another.", "quantifier": "all sequences of configurations and schedules", "why_tests_cant": "All schedules across configuration changes.", "anchors": ["src/threaded/thread.cc: update_config, assign, main_thread", "src/worker_pool/standalone.cc: update_config"]}
{"id": "C42", "title": "MPI master and workers keep consistent idle accounting", "statement": "In every reachable state each process id occurs in the master's idle queues as often as that process has idle threads not yet promised, so workers never pop an empty idle queue and finished blocks are always known to the master.", "quantifier": "all numbers of processes and threads, all message schedules", "why_tests_cant": "All schedules of messages.", "anchors": ["src/worker_pool/mpi.cc: assign, fill_idle_queues, flush_finished_blocks, finished_block", "src/worker_pool/mpi_worker.cc"]}
{"id": "C43", "title": "MPI runs save the same totals as standalone runs", "statement": "The union of records and the sum of stores saved by an MPI run over any number of processes equals those of a standalone run over the same blocks.", "quantifier": "all numbers of processes, all schedules", "why_tests_cant": "All schedules.", "anchors": ["src/worker_pool/mpi.cc: save_global_stores_to_file, update_config"]}
{"id": "C44", "title": "Configuration nodes round trip through YAML", "statement": "Decoding an encoded configuration returns it if all its numbers are below 2^31, and throws if one of them is not (decode reads int); decode fails exactly if Prime, PrimeExponent, Genus, ResultPath or PackageSize is missing; a missing CountExponent means the genus; a missing WithMarkedPoint raises an exception.", "quantifier": "all configurations and YAML maps", "why_tests_cant": "All field values.", "anchors": ["src/config/config_node.cc: encode, decode"]}
{"id": "C45", "title": "Serialization of tuples and configurations round trips", "statement": "Saving and loading tuples and configuration nodes through an archive restores the value and consumes exactly what was written.", "quantifier": "all tuples and configurations, any trailing archive content", "why_tests_cant": "All values and positions in the archive.", "anchors": ["src/utils/serialization_tuple.hh: Serializer", "src/config/config_node.hh: serialize"]}
{"id": "C46", "title": "Command line coefficients are converted to the right exponents", "statement": "single_curve_fp interprets each coefficient c < p as the residue c, for all primes p with (p-1)*g < 2^32; coefficients c >= p are silently read as 1.", "quantifier": "all primes and coefficient lists", "why_tests_cant": "All primes; wrap-around only for large ones.", "anchors": ["src/single_curve_fp.cc: single_curve_fp"]}
{"id": "C47", "title": "End to end: the merged result counts polynomials", "statement": "For every odd prime power q, genus g >= 1 and package size >= 1, after a complete threaded run and merge, the count stored at (R,O) is the number of squarefree polynomials over F_q of degree 2g+1 (or 2g+2, unless with marked point) whose factor degrees are R and whose Hasse-Weil offsets are O.", "quantifier": "all fields of odd order, genera, count exponents, package sizes, thread counts and schedules", "why_tests_cant": "The reference tests cover q=5,7 only.", "anchors": ["src/executables/threaded.cc", "src/executables/merger.cc", "src/threaded/thread.cc: main_thread"]}
{"id": "C48", "title": "Both tables choose the same generator", "statement": "Given the same candidate sequence the field element table and the reduction table select the same generator, provided no candidate before the first primitive one is zero; with a zero candidate the element table accepts zero and lists wrong elements.", "quantifier": "all candidate sequences and fields", "why_tests_cant": "The failure needs a field without a stored Conway polynomial and an unlucky draw.", "anchors": ["src/fq_element_table.cc: FqElementTable", "src/reduction_table.cc: compute_incrementation_table"]}
{"id": "C49", "title": "Squarefreeness test is correct", "statement": "has_squarefree_rhs() returns true exactly if the polynomial given by the coefficient indices is squarefree over the base field, for prime and non-prime fields.", "quantifier": "all fields and coefficient lists that are not all zero", "why_tests_cant": "All polynomials over all fields.", "anchors": ["src/curve.cc: has_squarefree_rhs, rhs_nmod_polynomial, rhs_polynomial"]}
{"id": "C50", "title": "The key of a counted curve is its ramification type and its Hasse-Weil offsets", "statement": "After counting a curve with squarefree right hand side over the extensions of degree 1..m in any order, the key under which it is stored consists of the ascending degrees of its branch points and of the numbers q^k + 1 - N_k for k = 1..m, N_k being the number of points of the smooth projective model.", "quantifier": "all odd q, all squarefree polynomials, all m within the range of int, all orders of the tables", "why_tests_cant": "Combines exact point counts over all fields with the ramification loop.", "anchors": ["src/store/curve_data.hh: ExplicitRamificationHasseWeil", "src/curve.cc: ramification_type, hasse_weil_offsets, max_prime_exponent"]}
{"id": "C51", "title": "Runs end", "statement": "A run with at least one thread in which all threads are scheduled again and again, file names can be found, directories can be created and no wake-up is lost reaches its end, with all sections worked off, and then the merged files hold the sums of all results. For every input such executions exist. For every input there are also executions, with all threads scheduled again and again, that hang in the destructor of the pool because a wake-up is lost. Without any thread (hardware_concurrency() may return 0) a run with a block to compute spins forever in fill_idle_queues.", "quantifier": "all inputs, numbers of threads, earlier runs and fair schedules", "why_tests_cant": "Termination under all schedules.", "anchors": ["src/worker_pool/standalone.cc: assign, fill_idle_queues, wait_for_assigned_blocks", "src/threaded/thread_pool.cc: spark_threads, shutdown_threads", "src/threaded/thread.cc: main_thread, shutdown"]}
{"id": "C52", "title": "Runs with several processes end", "statement": "A run of hycu-mpi in which at least one process has a thread, all threads of all processes are scheduled again and again, file names can be found, directories can be created and no wake-up is lost reaches its end: the master has finished, every worker has left its message loop with all its threads joined, all sections are worked off, nothing is written afterwards, and the merged files hold the sums of all results. In particular the loops of the master that poll the processes for finished blocks and ready threads always end. For every input such executions exist. If a wake-up may be lost, then for every input and every process that has a thread there is an execution, scheduled as fairly, in which the main thread of this process waits for ever for the end of a thread that sleeps, while all other processes end. If no process has a thread, a run with a block to compute remains in fill_idle_queues for ever.", "quantifier": "all inputs, numbers of processes and of threads per process, earlier runs and fair schedules", "why_tests_cant": "Termination under all interleavings of messages and threads.", "anchors": ["src/worker_pool/mpi.cc: assign, fill_idle_queues, wait_for_assigned_blocks, flush_finished_blocks, save_global_stores_to_file, destructor", "src/worker_pool/mpi_worker.cc: main_mpi_worker", "src/threaded/thread_pool.cc: shutdown_threads", "src/threaded/thread.cc: main_thread, shutdown"]}
{"id": "C53", "title": "The main functions: what is read, what is returned, what has been done", "statement": "hycu-threaded and hycu-mpi read a file with a list of configurations (or a single one) as exactly these configurations in this order, with the output path prepended; they create nothing but the output directory before that, and a number above the range of int terminates them before anything is computed. They accept nothing but maps whose store type is EC or missing, and whose Moduli entry is missing, a list of maps that can be decoded, or without items. They return before making a pool with 0 if and only if help was asked for, and with 1 otherwise. When a run has ended, the sections before some point are complete (the merger gives the sums of all their results), later ones are untouched, and 0 is returned iff there are none left; if directories can be created the point is the first configuration with a zero, so 0 is returned iff no configuration has a zero. All workers of hycu-mpi get the values of the master in order and start their threads, if and only if the master makes a pool; otherwise they wait forever. With a suitable file hycu-threaded returns 0 with the right numbers in its merged files.", "quantifier": "all options, files, inputs, numbers of threads and processes, earlier runs and schedules", "why_tests_cant": "Early returns in the middle of concurrent runs depend on the schedule; the hanging workers are never tested because no test starts several processes.", "anchors": ["src/executables/threaded.cc: main", "src/executables/mpi.cc: main", "src/worker_pool/mpi.cc: broadcast_initialization", "src/worker_pool/mpi_worker.cc: main_mpi_worker", "src/config/config_node.hh: verify, prepend_output_path"]}
{"id": "C54", "title": "Threads in small steps: no data races, no deadlock of mutexes, atomic critical sections", "statement": "In every state of hycu-threaded that can be reached in small steps (acquiring a mutex, reading one variable, computing, writing one variable, releasing a mutex, notifying, joining; with arbitrary intermediate values in variables that are being modified), at most one thread may access a shared variable, and it holds the mutex of this variable. Every small step has no effect on, or is a step of, the machine in which critical sections are atomic, with the same files and the same values of everything that is not protected by a mutex that is held; conversely all states of this machine outside of ThreadPool::assign are reached. No undefined behaviour or exception occurs, all critical sections that have been begun can be completed and are completed after finitely many steps of the threads inside of them, and a run that ended leaves the files claimed in C35.", "quantifier": "all inputs, numbers of threads, earlier runs and interleavings of single memory accesses", "why_tests_cant": "Data races and deadlocks depend on the interleaving of single memory accesses.", "anchors": ["src/threaded/thread.cc: main_thread, assign, shutdown", "src/threaded/thread_pool.cc: assign, finished_block, flush_ready_threads, flush_finished_blocks", "src/store/store.cc: flush_to_static_store, flush_static_store"]}
{"id": "C55", "title": "hycu-single prints the numbers of points of the curve it was given", "statement": "For an odd prime p and coefficients below p of a polynomial f of degree at least 1, hycu-single returns 0 and writes exactly: the polynomial f with its residues, without leading zeros; the exponents of its coefficients; the numbers of points of y^2 = f with y != 0 and with y = 0 over the extensions of degree 1 to the genus; the offsets p^k + 1 - N_k; and, for squarefree f, the ascending list of degrees of the branch points. The text is the same for all four implementations. It returns 1 and writes nothing to the standard output iff help is not asked for and the field size is missing or not prime, fewer than two coefficients are given or several implementations are chosen. It accepts the field size 2, for which it prints wrong numbers, and coefficients that are all zero, for which it reads the last entry of an empty vector.", "quantifier": "all primes, coefficients, options and implementations", "why_tests_cant": "The tests do not run the executable; implementations are compared on a few curves only; the result for every curve needs a proof about counting.", "anchors": ["src/executables/single.cc: main", "src/single_curve_fp.cc: single_curve_fp", "src/curve.cc: operator<<"]}
{"id": "C56", "title": "hycu-merger: exit codes, files written, interrupted and repeated runs", "statement": "A run of hycu-merger that ends returns 0 iff it is for the help text, or both options are given, the input is a directory and no record file in it lacks its store file; otherwise it returns 1 and changes no file. A run changes at most its two output files. If the input holds matching pairs and the output files can be opened, they contain afterwards the sums of all counts and all blocks. If the directory of the output files does not exist, the run returns 0 although nothing is written. If it dies while writing new output files, but not inside the write of the record file, then both are complete, or later merges of their directory and the blocks that count as done there are as before. If the output files are in the input directory, n runs of the same command give n times the counts with the record of one run.", "quantifier": "all file systems, options, directory contents, crash points and numbers of runs", "why_tests_cant": "There are no tests of the merger; crash points and repeated runs over arbitrary directories cannot be enumerated.", "anchors": ["src/executables/merger.cc: main", "src/executables/merger.cc: merge"]}
{"id": "C57", "title": "Generators of fields presented by Conway polynomials match", "statement": "If FLINT presents the fields of a configuration by Conway polynomials (irreducible with primitive roots, compatible with each other), then the generators found for the field and its extensions are primitive and match for some embedding, all assumptions of C47 are met, and after complete runs with one or several processes the merger gives the true numbers of squarefree polynomials, over any field of the right size with any extensions of the right sizes; these numbers depend on the prime and the exponents only. If the generators do not match, count may store wrong numbers of points: over the field of 25 elements there are for every generator of the reduction table a primitive element of the field of 5 elements and a squarefree cubic for which it does.", "quantifier": "all configurations in range, all families of compatible Conway polynomials, all schedules; for the converse all generators of a field of 25 elements", "why_tests_cant": "The compatibility of generators is a statement about all pairs of fields, and a mismatch shows only in wrong but plausible counts.", "anchors": ["src/fq_element_table.cc: FqElementTable::FqElementTable", "src/reduction_table.cc: ReductionTable::compute_incrementation_table", "src/curve.cc: Curve::convert_poly_coeff_exponents"]}
{"id": "C58", "title": "Counts with OpenCL do not depend on the order of steps of host and device", "statement": "For all sessions in which tables with an OpenCL interface are made, used for counts and destroyed after a count has been made with some table since their construction: no execution of host and device has undefined behaviour, there is always a next step until everything is done, there are no infinite executions, and at the end the host has for each count the result of the sequential count (for a table of a field: the numbers of points with x not 0), for any order of work items and any initial content of buffers. This is false of the code, as every session with a count has an execution in which the device reads the coefficients after enqueue has freed its copy of them; it holds for the executions in which they are read before. A table that is destroyed without a count may be read after that, too, and the constructor that takes an rvalue makes a table whose first count is undefined.", "quantifier": "all tables, all sessions, all interleavings of host, device and work items, all contents of new buffers", "why_tests_cant": "Drivers usually copy small vectors at once, so the use after free does not show in tests; the orders of work items cannot be enumerated.", "anchors": ["src/opencl/kernel_evaluation.cc: OpenCLKernelEvaluation::enqueue", "src/opencl/buffer_evaluation.cc: OpenCLBufferEvaluation::OpenCLBufferEvaluation", "src/opencl/kernel_reduction.cc: OpenCLKernelReduction::reduce", "src/opencl/evaluation.cl: evaluate", "src/reduction_table.cc: ReductionTable::ReductionTable"]}
{"id": "C59", "title": "hycu-mpi: no data races and no deadlocks of mutexes; sections and handling of messages are atomic", "statement": "In every execution of the processes of hycu-mpi in single accesses to shared variables: two threads never access a shared variable at the same time, as the accessing thread holds its mutex; threads access variables of another process only through messages between the master and a worker. Every small step has no effect or is a step of the machine of C42, C43 and C52, in which critical sections, and the receipt, handling and answer of a message, are single steps; so nothing undefined happens, and a run that has ended leaves every block in exactly one record. Conversely all states of that machine outside of ThreadPool::assign can be reached, and every run can end. From every state all critical sections can be completed without beginning new ones, and no execution of such steps is infinite.", "quantifier": "all numbers of processes and threads, all configurations, earlier runs and schedules of single accesses", "why_tests_cant": "Races and deadlocks depend on the schedule of all threads of all processes; tests see very few schedules.", "anchors": ["src/worker_pool/mpi_worker.cc: main_mpi_worker", "src/worker_pool/mpi.cc: MPIWorkerPool::flush_finished_blocks", "src/threaded/thread_pool.cc: ThreadPool::assign", "src/threaded/thread.cc: Thread::main_thread", "src/store/store.cc: flush_static_store"]}
{"id": "C60", "title": "Fair schedules of single instructions end with complete results", "statement": "In every infinite execution of hycu-threaded (with at least one thread) and of hycu-mpi (with at least one thread in some process) in single accesses to shared variables: if every thread that can make a step again and again (in particular get a mutex that is free again and again) makes steps again and again, and no notification falls between a thread's test of its flags and its wait, then after finitely many steps the main threads of all processes have returned and the files do not change any more; and if no configuration was refused, then every block of every section is in exactly one record, and merging gives the sum of the results of all blocks. Such executions exist from every directory left by earlier runs if the configurations are valid. If a notification may be lost, then every run of hycu-threaded has a fair execution that hangs in the destructor of the pool, and every run of hycu-mpi has one for every process that has a thread, in which this process hangs and all others end.", "quantifier": "all numbers of processes and threads, all configurations, all earlier runs, all fair infinite schedules of single accesses", "why_tests_cant": "Termination under fairness is a statement about infinite executions; tests see finitely many prefixes under one scheduler.", "anchors": ["src/threaded/thread_pool.cc: ThreadPool::assign, ThreadPool::shutdown_threads", "src/threaded/thread.cc: Thread::main_thread", "src/worker_pool/mpi.cc: MPIWorkerPool::flush_finished_blocks", "src/worker_pool/mpi_worker.cc: main_mpi_worker", "src/threaded/thread_pool.cc: ThreadPool::flush_finished_blocks"]}
{"id": "C61", "title": "Runs end also if send waits until the message is received", "statement": "MPI leaves open whether send returns at once or waits until the message is received. In hycu-mpi no two processes ever wait in send for each other: a worker with messages to receive has no unreceived reply, and a worker has an unreceived reply only while the master is about to receive exactly this reply. Hence every run in which main threads may wait in send (for each message as MPI pleases), all other threads are scheduled again and again and no notification is lost, ends: all processes return and nothing is written afterwards, and if directories can be created and no number of the configurations is zero, merging gives the sum of the results of all blocks. There are such runs in which every send waits.", "quantifier": "all numbers of processes and threads, all sections, all earlier runs, all infinite schedules, all choices of which messages block", "why_tests_cant": "MPI implementations return from send of short messages at once; deadlocks of blocking sends appear only for long messages or other implementations, and termination is about infinite executions.", "anchors": ["src/worker_pool/mpi.cc: MPIWorkerPool::assign, MPIWorkerPool::fill_idle_queues, MPIWorkerPool::flush_finished_blocks, MPIWorkerPool::save_global_stores_to_file", "src/worker_pool/mpi_worker.cc: main_mpi_worker"]}
{"id": "C62", "title": "The total of all counts is q^(2g+3) - q^(2g+2) - q^(2g+1) + q^(2g)", "statement": "Over a field of q elements there are (q-1)^2 q^(2g) (q+1) squarefree polynomials of degree 2g+1 or 2g+2, and (q-1)^2 q^(2g) of degree 2g+1. The multiplicities of the squarefree polynomials that are enumerated, counted twice because of the twists, add up to this number (the unit test of the curve iterator, for every field, genus and package size). If this number is less than 2^62, no arithmetic of a run overflows, and the counts in the merged result of a complete run, in one process, in several processes or under fair schedules of single instructions, add up to it.", "quantifier": "all finite fields of odd characteristic below the size limit, all genera, all package sizes, all sections, all earlier runs, all schedules", "why_tests_cant": "test/curve_iterator.cc checks one field, one genus and one package size.", "anchors": ["src/curve_iterator.cc: CurveIterator::CurveIterator, CurveIterator::step, CurveIterator::multiplicity", "src/store/store.cc: the counts", "src/executables/merger.cc", "test/curve_iterator.cc: blocks_f13_g2"]}
{"id": "C63", "title": "FLINT objects are initialised, used and cleared in order, and given back", "statement": "The constructor of FqElementTable, with all unsuccessful attempts to find a generator, uses, clears and deletes only objects that are initialised, and computes the same table as the model without memory; afterwards exactly the elements and the context are in memory in addition, and the destructor gives them back. The generator search of ReductionTable, the squarefree test and the factorisation of the right hand side leave the memory as it was. (The naive counting functions, which only hycu-single and the tests call, lose one field element for each coefficient of the polynomial at every call; and destroying a table twice, as after copying it, is undefined.)", "quantifier": "all fields, all sequences of generator candidates, all contents of memory, all ways to choose addresses of new objects", "why_tests_cant": "Uses of cleared objects and lost memory have no visible effect in most runs, and unsuccessful attempts depend on random candidates.", "anchors": ["src/fq_element_table.cc: FqElementTable::FqElementTable, FqElementTable::~FqElementTable", "src/reduction_table.cc: compute_incrementation_table", "src/curve.cc: has_squarefree_rhs, ramification_type, rhs_nmod_polynomial, rhs_polynomial, count_naive_nmod, count_naive_zech"]}
{"id": "C64", "title": "Results can be merged while runs go on", "statement": "A merger that works on a result directory while runs of hycu-threaded or hycu-mpi over the same input go on, die and are started again, reading names and files one after the other at any time, never fails: every record that it finds has its complete store. Its output is the sum of the results of some set of blocks, each of them once, with a record of exactly these blocks, and includes all blocks that were recorded when it was started. This requires that the merger does not look at a record file between its creation and the end of its write; otherwise results of blocks are counted that are missing in the record.", "quantifier": "all inputs with different result directories, all interleavings of the steps of the merger, of the threads and processes of runs, of deaths and restarts, all orders in which the directory is listed, all partial contents of store files in the course of a write", "why_tests_cant": "Interleavings of several programs with a directory cannot be enumerated, and the window in which a file is incomplete is short.", "anchors": ["src/executables/merger.cc: main, merge", "src/store/file_store.cc: FileStore::save, FileStore::new_filenames", "src/worker_pool/standalone.cc: save_global_stores_to_file", "src/worker_pool/mpi.cc: save_global_stores_to_file"]}
{"id": "C65", "title": "Runs with different directories do not disturb each other", "statement": "A run of hycu-threaded or hycu-mpi during which other programs change files, but not in its result directories, behaves as if it were alone: it changes nothing outside of its directories, does not fail, ends under the conditions of C51 or C52, and the merger then gives the sum of the results of all blocks, each of them once. In particular two runs with different directories, each of which may die and be started again, are both correct. Two runs at the same time with the same directory are not: both compute the same blocks, which are counted twice; and if both draw the same id at the same moment, the store of one is combined with the record of the other.", "quantifier": "all inputs, all changes of other files at any time, all interleavings of two runs with deaths and restarts, all fair schedules", "why_tests_cant": "Changes by other programs and interleavings with them cannot be enumerated.", "anchors": ["src/store/file_store.cc: FileStore::FileStore, FileStore::save, FileStore::new_filenames", "src/config/config_node.hh: ConfigNode::verify", "src/worker_pool/standalone.cc", "src/worker_pool/mpi.cc"]}
{"id": "C66", "title": "The number of curves and of packages", "statement": "The number of curves that are enumerated for a genus is given by an explicit formula in q, p and the genus. It is at most 7 (q^(2g-1) + q^(2g)), or 7 q^(2g-1) with a marked point, and at most seven times the size of any set of polynomials that represents all curves up to isomorphism. The number of packages is at most the number of curves, at least that number divided by the package size, and at most four times that quotient plus a number of choices that is at most 7 for each degree not less than p, and at most the third power of the degree otherwise.", "quantifier": "all finite fields of odd order, all genera, all package sizes; for the iterator: all descriptions", "why_tests_cant": "The number of curves grows like a power of q, and package sizes are not bounded.", "anchors": ["src/curve_iterator.cc: CurveIterator::CurveIterator", "src/block_iterator.cc: BlockIterator::initialize_blocks"]}
{"id": "C67", "title": "The results are consistent", "statement": "The table that the merger writes after a complete run passes all checks that can be made without knowing the curves: in each key the degrees of the branch points are positive, ascend and add up to 2g+2, and contain 1 if a point is marked; over each extension the number of points given by the offset exceeds the number of ramified points given by the ramification type by an even number 2u, and u plus the number of ramified points is at most q^n+1; the number of points over an extension of prime degree l exceeds that over the smaller field by a multiple of l. The count of each key is a positive multiple of (q-1)/2 and equals that of the key of the twist. The offsets over extensions of odd degree, weighted by the counts, add up to zero. The table is not empty.", "quantifier": "all configurations with odd prime, all schedules of runs with one or several processes; all squarefree polynomials for single keys", "why_tests_cant": "The checks relate counts over different extensions for all curves of a genus; tests can make them for a few small fields only.", "anchors": ["src/curve.cc: Curve::count", "src/curve.cc: Curve::ramification_type", "src/store/curve_data.cc: CurveData::twist", "src/store/file_store.cc: FileStore"]}
{"id": "C68", "title": "No thread outlives its pool, and none is stopped before its work is saved", "statement": "In a run of hycu-threaded or of hycu-mpi, in every process: threads are told to stop one after the other, each of them only after those before it have returned, and a thread returns only after it has been told so. When any thread has been told to stop, no block is assigned or waiting in any thread of any process, no thread computes or reports, and the stores in memory are empty, that is, all results have been written. When a process has returned, all its threads have returned, and when the run (all processes) has ended nothing can happen any more.", "quantifier": "all numbers and kinds of threads and processes, all configurations and blocks, all schedules including spurious wake-ups, all states that can be reached; the end also for schedules in which critical sections are not atomic", "why_tests_cant": "Whether a thread is still at work while the pool is destroyed depends on the schedule; an access to the expired pool shows up rarely or not at all.", "anchors": ["src/threaded/thread.cc: Thread::shutdown, Thread::main_thread", "src/threaded/thread_pool.cc: ThreadPool::shutdown_threads", "src/worker_pool/standalone.cc: ~StandaloneWorkerPool", "src/worker_pool/mpi.cc: ~MPIWorkerPool", "src/worker_pool/mpi_worker.cc: main_mpi_worker"]}
{"id": "C69", "title": "Devices, threads and programs of OpenCL", "statement": "The devices used are the GPUs followed by the accelerators of the first platform of each vendor, in the order of the platforms, each as often as it is listed; errors of OpenCL when devices are listed add nothing. If all platforms tell different vendors then all devices are used; if a vendor has two platforms then the devices of the second one are missed (e.g. one platform for processors and one for GPUs). Each device gets the same number of threads, and the threads with devices are exactly the OpenCL threads of the pool. Whatever programs have been requested before, the program returned for a degree was built with POLY_SIZE equal to the degree plus one, the value supposed by the kernels; no program is built twice by an interface.", "quantifier": "all lists of platforms, vendors and devices including failing queries, all numbers of threads, all sequences of requested degrees", "why_tests_cant": "The lists of platforms and devices depend on the machine; a test machine has one of them or none.", "anchors": ["src/opencl/interface.cc: OpenCLInterface::devices", "src/opencl/interface.hh: OpenCLInterface::program_evaluation", "src/opencl/program_evaluation.hh: build_options", "src/opencl/program.cc: init_program_cl", "src/threaded/thread_pool.cc: ThreadPool::spark_threads"]}
{"id": "C70", "title": "The results for different configurations fit together", "statement": "If two complete runs are made for the same field and genus then the merged results are related: with and without more extensions for the counts, leaving out the last offsets of the keys and adding the numbers of keys that have become equal gives the other table; with all of field, genus, marking and number of extensions equal the store files are the same text; and with a marked point in one configuration and none in the other, for every key the number of ones in the ramification type times the number without marked point is q + 1 times the number with marked point. The key of a curve does not change under x -> 1/x.", "quantifier": "all feasible configurations over odd primes, all package sizes, paths, presentations of the fields, numbers of processes and threads, schedules, and histories of interrupted runs that do not crash inside the write of a record file", "why_tests_cant": "the relation is between two outputs of long computations for arbitrary configurations; a bug that shifts one polynomial from one key to another, or one that depends on package boundaries, only shows for some of them", "anchors": ["src/executables/threaded.cc", "src/executables/merger.cc", "src/threaded/thread.cc: main_thread", "src/curve_iterator.cc: CurveIterator::CurveIterator, CurveIterator::step, CurveIterator::multiplicity", "src/store/store.cc: the counts", "test/curve_iterator.cc: blocks_f13_g2"]}
{"id": "C71", "title": "The kernel that adds numbers on the device", "statement": "If the size of the partial results S is positive and written as one token or in parentheses, and there is room for local memory and results, then for every order of the steps of the work items of all groups the kernel has no conflicting accesses between barriers, no access outside of its buffers, no read of undefined values, no overflow and no barriers that only a part of a group comes to; it ends, and the sum of the numbers read by the host is the sum of the buffer for all buffers exactly if the local size is S times a power of two. With the sizes in the code this holds for S = 1, 2, 4, .., 256, so that the host gets the same sum as by the code that is compiled now. With the macro as it is (1 >> 2, that is zero) no work item ever returns, which is why the kernel must stay unused; and with a macro 1 << n without parentheses, work items of different groups write to the same place, so that no execution comes to an end without undefined behaviour.", "quantifier": "all buffers of non-negative numbers whose sum is an int, all numbers and sizes of groups, all interleavings of work items", "why_tests_cant": "The branch is not compiled; races between work items and lost numbers for other sizes depend on schedule and device.", "anchors": ["src/opencl/reduction.cl: reduce", "src/opencl/kernel_reduction.cc: OpenCLKernelReduction::OpenCLKernelReduction, OpenCLKernelReduction::_reduce", "src/opencl/kernel_reduction.hh", "src/opencl/program_reduction.hh: SIZE_PARTIAL_REDUCTION", "src/opencl/program.hh: AS_STRING"]}
{"id": "C72", "title": "Result files that were cut off, could not be created or cannot be read", "statement": "Every text is read as a record without undefined behaviour; a start of the program hangs exactly if a record file cannot be opened. A record that was cut off anywhere is read as its first blocks and at most one more block, namely what is left of the next one. A store that was cut off anywhere is read as a store in which no key has more than it had, and with positive counts all counts are right exactly if at most the last line break is missing; a line with nothing before the colon is undefined behaviour. After a save of which each file may be missing or cut off, the merger fails if there is a record without store, and otherwise reports success with counts between those without and those with this save: the former if there is no record, the latter if there is one and the store is complete. So the record file is not the witness to successful writing that it is meant to be: if a store with positive counts lacks more than the last line break and the record is complete, the merger reports success with a count that is too small, and the blocks are never computed again.", "quantifier": "all texts, all records and stores with keys and bounds that fit in int and non-negative counts below 2^62, all places where a file is cut off, all directories of matching files", "why_tests_cant": "Full disks and files that cannot be opened are hard to provoke, and there is a place to cut at every byte of every file.", "anchors": ["src/store/file_store.cc: FileStore::save, FileStore::extract, FileStore::FileStore", "src/store/store.cc: Store::extract", "src/store/curve_data.cc: ExplicitRamificationHasseWeil::ValueType(const string &)", "src/executables/merger.cc: merge"]}
{"id": "C73", "title": "Damaged result directories and deaths at any time: nothing is lost, and what is counted twice is known", "statement": "A run (with threads or MPI) that is started over directories with any content whose records can be read never fails. If it ends, it has left all files as they were, every block that was in no record has been computed and saved exactly once, and the merger gives what it gave before plus the results of these blocks, or fails exactly as before. After any number of runs that ended or died at any time, also inside the write of a record, a complete run leaves a directory from which the merger succeeds; it records all blocks and counts every block at least once, hence every ramification type with Hasse-Weil offsets that occurs and no other, and never less polynomials than there are. This needs that no block which is cut off looks like another one: it is true with a marked point or if 2 genus + 2 is not divisible by the prime, and false in general (field of 3 elements, genus 2, packages of size 1), where a block can be lost for good without any message.", "quantifier": "all inputs with computable blocks, all files in the directories, all histories of runs that die at any time, all interleavings, all numbers of threads and processes", "why_tests_cant": "The history of a result directory is unbounded, and a process can die at every byte it writes; the loss of a block needs a particular cut at a particular time.", "anchors": ["src/store/file_store.cc: FileStore::FileStore, FileStore::save, FileStore::extract", "src/worker_pool/standalone.cc: StandaloneWorkerPool::assign, save_global_stores_to_file", "src/worker_pool/mpi.cc: MPIWorkerPool::save_global_stores_to_file", "src/curve_iterator.cc: CurveIterator::CurveIterator", "src/executables/merger.cc: merge"]}
{"id": "C74", "title": "Several runs at the same time in the same directories: nothing is lost, and nothing is counted more often than there are runs", "statement": "Any number of runs (with threads or MPI, or both) share a file system; they make their steps in any order, may start at any time, and may stop at any time between two steps. Runs that use the same directory use it for the same configuration and blocks. If no two runs choose the same random number for their files, then no step of any run fails, all files that were in the directories are left as they were, and the merger gives what it gave before plus the results of blocks that were not recorded at the beginning, where no block is added more often than there are runs that use the directory; or it fails exactly as before. If one of these runs is complete, no block is missing. Hence a run that is alone in its directories does exactly what it does without the others. The bound is reached: two runs that start together both compute everything, and the merger counts it twice. If two runs choose the same number, the results of a complete run can be lost, and a run can end with an error because another one made the directory just before it.", "quantifier": "all numbers of runs, all inputs with computable blocks, all files in the directories whose records can be read, all interleavings of the steps of all runs, all numbers of threads and processes", "why_tests_cant": "Whether two runs collide depends on the order of their accesses to the file system, and there are unboundedly many runs and orders.", "anchors": ["src/store/file_store.cc: FileStore::FileStore, FileStore::save", "src/config/config_node.hh: ConfigNode::verify", "src/worker_pool/standalone.cc: StandaloneWorkerPool::update_config, save_global_stores_to_file", "src/worker_pool/mpi.cc: MPIWorkerPool::update_config, save_global_stores_to_file", "src/executables/merger.cc: merge"]}
{"id": "C75", "title": "A result directory does not know its configuration: what runs with different configurations in the same directory give", "statement": "Any number of runs one after the other, with threads or MPI, complete or interrupted, each with a configuration file of its own, where the same result directory may be used for different configurations. No run fails because of what the others left behind. Every run computes exactly the blocks of its configuration that are not yet recorded, whatever the configuration was for which they were recorded; no block is computed twice; and the merger gives the sum of all results, each for the configuration for which it was computed. Hence: if only the number of extensions over which points are counted is changed, a second complete run computes nothing and the results stay those of the first configuration; if only the marking is changed, the result of two complete runs is in both orders the right one for curves without marked point; if only package sizes are changed, every number is at least the right one and at most its product with the number of runs. The numbers can be wrong: for genus 1 over the field of 3 elements, changing the package size from 1 to 9 makes all numbers twice the right ones.", "quantifier": "all sequences of runs, all inputs, all numbers of threads and processes, all interleavings, all times of death except inside the write of a record; for the numbers of curves all prime powers, genera, markings, count exponents and package sizes within the ranges of the machine", "why_tests_cant": "There are unboundedly many sequences of configurations and interruptions, and which blocks two configurations share depends on all their parameters.", "anchors": ["src/store/file_store.cc: FileStore::FileStore, FileStore::contains, FileStore::save", "src/curve_iterator.cc: CurveIterator::CurveIterator", "src/block_iterator.cc: BlockIterator::as_block", "src/worker_pool/standalone.cc: StandaloneWorkerPool::assign", "src/worker_pool/mpi.cc: MPIWorkerPool::assign", "src/executables/merger.cc: merge"]}
{"id": "C76", "title": "Sections of one configuration file with the same result directory", "statement": "A configuration file may name the same result directory in several sections. No run of hycu-threaded or hycu-mpi over such a file fails in the code of the model because of that, and it can be completed. Every block is computed for the first section of the directory that has it, and is skipped for all later ones, whatever their parameters are; this stays so if runs are interrupted any number of times (but not inside the write of a record) and continued. No block is computed twice. After a complete run the merger gives, with exit code 0, the sum over the sections in their order of the results of those blocks that no earlier section has. Hence, if a second section changes only the number of extensions over which points are counted, nothing is computed for it; if it changes only the marking, the result is in both orders the one for curves without marked point; and if package sizes differ, numbers can be wrong: for genus 1 over the field of 3 elements, sections with package sizes 1 and 9 make all numbers twice the right ones.", "quantifier": "all lists of sections with any result directories, all sequences of interrupted and complete runs, all numbers of threads and processes, all interleavings, all times of death except inside the write of a record; for the numbers of curves all parameters within the ranges of the machine", "why_tests_cant": "Which blocks sections share depends on all their parameters, and the claim is about all interleavings and all points of interruption between and inside sections.", "anchors": ["src/store/file_store.cc: FileStore::FileStore, FileStore::contains, FileStore::save", "src/curve_iterator.cc: CurveIterator::CurveIterator", "src/block_iterator.cc: BlockIterator::as_block", "src/worker_pool/standalone.cc: StandaloneWorkerPool::assign", "src/worker_pool/mpi.cc: MPIWorkerPool::assign", "src/executables/merger.cc: merge"]}
{"id": "C77", "title": "Work items of the evaluation kernel in single accesses", "statement": "In sessions with OpenCL as in C58, let the work items of the evaluation kernel make their accesses to memory one at a time, mixed in any order with each other and with the steps of the host. Then no two work items ever access the same place where one of the accesses is a write, no place that is written is also accessed by another restrict parameter, and no access is outside of its buffer; there is always a next step until everything is done, there are no infinite executions, and at the end the host has the results of the sequential counts. For a table of a field and a polynomial f the buffers have at the end of a kernel, at place i, the numbers of y other than 0 and of y equal to 0 with y^2 = f(g^i). This holds for the executions in which the coefficients are read before enqueue frees them; without that it is false, as in C58. Every execution in which work items run as one step is also one of these.", "quantifier": "all tables, all sessions, all polynomials, all interleavings of host, device and single accesses of all work items, all contents of new buffers", "why_tests_cant": "The number of interleavings of single accesses of all work items is far beyond what can be enumerated, and devices show only few of them; data races need not change results in a test.", "anchors": ["src/opencl/evaluation.cl: evaluate", "src/opencl/kernel_evaluation.cc: OpenCLKernelEvaluation::enqueue", "src/opencl/interface.cc: OpenCLInterface::OpenCLInterface", "src/opencl/kernel_reduction.cc: OpenCLKernelReduction::reduce"]}
{"id": "C78", "title": "The reference stores of the tests are right, for all primes and genera", "statement": "The script that makes the reference stores of the tests goes through all polynomials of degree 2g+1 and 2g+2 one by one. For every odd prime p and every genus g the store that it writes has, in the order of the map and each key once, the keys (R, O) that occur, with the number of squarefree polynomials over F_p with ramification type R and Hasse-Weil offsets O over the extensions of degree 1 to g. In the tests, in which a pool of threads flushes to a TestStore, no step fails, and when the destructor of the pool has returned the static store is equal to the reference store, so that the comparison succeeds. With at least one thread a test can come to this end; it can also hang in the destructor, as every run (C51). After a complete run of hycu-threaded or hycu-mpi the merger gives, with exit code 0, exactly the text of the reference store. What is said about tests and runs is for parameters within the ranges of the machine, prime fields, curves without marked point, points counted over extensions of degree 1 to g, and counts below 2^62.", "quantifier": "all odd primes and genera; for tests and complete runs all package sizes, numbers of threads (and of processes) and interleavings, within the ranges of the machine", "why_tests_cant": "The source has reference stores for three pairs of prime and genus; enumeration of all polynomials is only possible for small ones.", "anchors": ["test/create_reference_store.sage: write_reference_store, count_curves, count_rhs", "test/test_store.hh: TestStore::flush_to_static_store", "test/threaded.cc: threaded_q5_g1, threaded_q7_g1, threaded_q7_g2", "src/worker_pool/standalone.cc: StandaloneWorkerPool", "src/store/store.cc: Store::register_curve", "src/executables/merger.cc: merge"]}
{"id": "C79", "title": "Failures of OpenCL calls never give wrong results", "statement": "In sessions with OpenCL as in C58, let any call of OpenCL fail at any time: a constructor that fails leaves a null handle, and the code does not look at its status; the status of the other calls is compared with CL_SUCCESS. Then a failing call of the second kind ends the program at once. Whatever fails, what the host has read at any time is the beginning of the vectors of the sequential counts, and a session that comes to its end has the results of all of them. If a constructor of a context, a queue, a program, a kernel, or a buffer for tables or coefficients fails, no kernel is run and nothing is read after that; a null buffer is never read. Without failures nothing ends the program. No step is undefined, with one exception, which every session with a count has for every table size: if the constructor of one of the two buffers for results fails, setArg accepts the null buffer, and the kernel writes to a null pointer. This holds for the executions in which the coefficients are read before enqueue frees them, as in C58.", "quantifier": "all tables, all sessions, all sets of failing calls, all interleavings of host, device and work items, all contents of new buffers", "why_tests_cant": "Failures of OpenCL (no memory on the device, devices that are lost) cannot be produced at will, and never at every call in every order.", "anchors": ["src/opencl/interface.cc: OpenCLInterface::OpenCLInterface", "src/opencl/program.cc: OpenCLProgram::init_program_cl", "src/opencl/buffer_evaluation.cc: OpenCLBufferEvaluation::OpenCLBufferEvaluation", "src/opencl/kernel_evaluation.cc: OpenCLKernelEvaluation::OpenCLKernelEvaluation, OpenCLKernelEvaluation::enqueue", "src/opencl/kernel_reduction.cc: OpenCLKernelReduction::_reduce"]}
{"id": "C80", "title": "What becomes of configurations out of range", "statement": "A configuration is accepted by verify if its numbers are not zero, whatever their size. Let FLINT present its fields, and let the search for generators come to a primitive element. (1) The table of elements is made if p^r < 2^32, otherwise the behaviour is undefined. (2) For odd p the reduction tables for all extensions, of degree m down to 1, are made if p^(mr) <= 2^31. (3) If p^(mr) is larger, none is made: the behaviour is undefined from 2^32 on, and below the program aborts; the same then holds for the computation of every block, so a thread that has taken a block never adds anything to the results, and a run that comes to its end has not assigned any block of the configuration. (4) For p = 2 the main function aborts before it assigns a block. Here m r is the product of the exponents, which has to fit into unsigned int; if it is a multiple of 2^32, no reduction table is made, without any failure.", "quantifier": "all primes, exponents, genera, package sizes; all candidate sequences; for runs all numbers of threads, inputs, file systems and interleavings", "why_tests_cant": "Fields with more than 2^31 elements need tables of many gigabytes, and the outcome of undefined conversions depends on compiler and machine.", "anchors": ["src/config/config_node.hh: ConfigNode::verify", "src/fq_element_table.cc: FqElementTable::FqElementTable", "src/reduction_table.cc: ReductionTable::ReductionTable, compute_incrementation_table", "src/threaded/thread.cc: Thread::update_config", "src/curve_iterator.cc: CurveIterator::CurveIterator"]}
{"id": "C81", "title": "hycu-single makes the tables it needs, or prints nothing", "statement": "Let hycu-single be called without help, with at most one implementation chosen, a prime p and at most 2^31 coefficients below p of a polynomial of degree at least 1, and let m be the genus. Let FLINT present the field of p elements and its extensions, let the search for generators come to a primitive element, and let (p-1) times the generator fit into unsigned int. (1) If p is odd and below 2^31, all fields of p^k elements, k <= m, are below 2^31 - 1 elements (with OpenCL at most 2^30) and generators match (also those of the naive implementations), then all tables are made, largest first, and the program prints exactly what C55 says. (2) If m >= 1 and p^m is larger than 2^31, and no naive implementation is chosen, then nothing is printed: the behaviour is undefined from 2^32 on, and below the program aborts. (3) With any implementation, everything has been printed only if p <= 2^31. (4) For any other call the program returns 1, or 0 with help, without making a table or writing to the standard output, in exactly the cases of C55.", "quantifier": "all primes, coefficient lists, implementations, sequences of candidates for generators", "why_tests_cant": "Tables for fields with more than 2^31 elements do not fit into the memory of test machines; the text must be right for every prime and polynomial.", "anchors": ["src/single_curve_fp.cc: single_curve_fp", "src/executables/single.cc: main", "src/reduction_table.cc: ReductionTable::ReductionTable", "src/fq_element_table.cc: FqElementTable::FqElementTable"]}
{"id": "C82", "title": "The largest field: numbers of points modulo 2^32", "statement": "Tables can be made for fields of odd order of up to 2^31 - 1 elements, and 2^31 - 1 is a prime. (1) For every table that can be made on the CPU (with OpenCL for up to 2^30 elements) and matching generators, count stores the numbers of points exactly, unless there are at least 2^32 points with y != 0; this is only possible with 2^31 - 1 elements and exactly 2^32 points with y != 0, and then 0 and 0 are stored. (2) There are at most 2q + 2 points with y != 0, and there are 2q + 2 if and only if all values of the polynomial, the one at infinity included, are squares and not 0. (3) The naive counts give the same result as the tables. (4) With 2^31 - 1 elements hasse_weil_offsets returns q + 1 - N for the number N of points, unless N is 0 or 2^32, where the conversion to int is undefined. (5) Both exceptions occur: for q = 2^31 - 1 the squarefree polynomials 16 X^(q-1) + 9 and its negative.", "quantifier": "all fields for which tables can be made, all coefficient vectors", "why_tests_cant": "A field of 2^31 - 1 elements needs tables of 24 GB, and the exceptional curves have 2^31 coefficients.", "anchors": ["src/curve.hh: nmb_points", "src/curve.cc: Curve::count", "src/curve.cc: Curve::count_naive_nmod", "src/curve.cc: Curve::count_naive_zech", "src/curve.cc: Curve::hasse_weil_offsets"]}
{"id": "C83", "title": "Blocks that cannot be computed never get into the results", "statement": "Let any of the blocks of an input be impossible to compute: the computation aborts, is undefined, or does not end. After any number of runs of hycu-threaded and hycu-mpi over the input, each of which ended or died at any time except inside the write of a record file: (1) every block in a record has been computed successfully, is a block of the section and occurs once, and each store is the sum of the results of the blocks of its record. (2) The only step of a further run that can fail is that of a thread that computes a block whose computation, which includes the tables of its configuration, fails; everything else, like reading files, taking from queues, exchanging messages, goes on as if nothing had happened. (3) If a run comes to its end, every block of the input can be computed, and the merger gives the sum of their results; so a run with a block that cannot be computed, for example of a configuration with a field of more than 2^31 elements, never comes to its end as if it were complete.", "quantifier": "all inputs, all sets of failing blocks and ways of failing, all histories of runs with one or several processes and deaths, all interleavings; (2) and (3) also for the machines in small steps of C54 and C59", "why_tests_cant": "Failures of a computation depend on undefined behaviour and on tables of gigabytes; that nothing of a failed block is ever counted is a statement about all interleavings and histories.", "anchors": ["src/threaded/thread.cc: Thread::main_thread, Thread::update_config", "src/threaded/thread_pool.cc: ThreadPool::finished_block, flush_finished_blocks", "src/worker_pool/standalone.cc: StandaloneWorkerPool::flush_finished_blocks, save_global_stores_to_file", "src/worker_pool/mpi.cc: MPIWorkerPool::flush_finished_blocks", "src/store/file_store.hh: FileStore::contains, FileStore::save"]}
{"id": "C84", "title": "Tables that cannot be made stop a run before any block of their configuration is assigned, and nothing before is lost", "statement": "The tables of a configuration are made by the main thread of each process, for each of its threads, when the configuration is announced; only their making can fail, or the computation of a block with tables that have been made. (1) If all tables of the input can be made, the runs are exactly those in which their making is left out. (2) In any case a thread only gets blocks of configurations whose tables have been made in its process. (3) If they cannot be made, the main thread of the only process, of the master, or of a worker fails in the same way when it comes to them. (4) When the main thread of the only process, of the master, or of a worker is about to make the tables of a configuration, all blocks of the sections before it have been computed and are saved, and the merger gives the sum of their results. (5) If all calls have been made and the only or first process has a thread, all tables have been made; so a run over an input with a configuration whose largest field has more than 2^31 elements never makes all calls, even if there is no block for this configuration or all its blocks are recorded.", "quantifier": "all inputs, all sets of configurations whose tables cannot be made and ways of failing, all numbers of processes and threads, all interleavings; (4) after all histories of runs and deaths except inside the write of a record file", "why_tests_cant": "Tables that cannot be made need gigabytes or undefined behaviour; where a run stops, and what has been saved by then, depends on the interleaving of all threads and processes.", "anchors": ["src/threaded/thread.cc: Thread::update_config, Thread::assign", "src/threaded/thread_pool.cc: ThreadPool::update_config", "src/worker_pool/standalone.cc: StandaloneWorkerPool::update_config", "src/worker_pool/mpi.cc: MPIWorkerPool::update_config", "src/worker_pool/mpi_worker.cc: main_mpi_worker"]}
{"id": "C85", "title": "Products of exponents that wrap around silently count over fewer fields, or make the loop over the tables pass by 0", "statement": "The loop that makes the reduction tables starts at the product of the two exponents of a configuration as an unsigned int, and subtracts the exponent of the field in size_t. (1) If the product modulo 2^32 is a multiple of the exponent of the field, making each table before computing the next exponent gives what computing all exponents first does. (2) If it is m times the exponent of the field, the tables and the result of every block are those for the count exponent m, so with m tables points are counted over m fields only, without any message. (3) If it is not a multiple, the tables are never made: the exponent passes by 0 in size_t, and if the tables before could be made the behaviour is undefined.", "quantifier": "all configurations with a positive exponent of the field, all realisations of FLINT; (3) with an exponent of the field below 2^31, for FLINT presenting finite fields of all degrees", "why_tests_cant": "The wrap-around only shows with count exponents above 2^32 divided by the exponent of the field, which no test contains, and then without any failure.", "anchors": ["src/threaded/thread.cc: Thread::update_config", "src/reduction_table.hh: ReductionTable::ReductionTable", "src/config/config_node.hh: ConfigNode"]}
{"id": "C86", "title": "Blocks are handed out no faster than threads take them", "statement": "At every moment of a run (1) no thread has more than one block, be it in its queue, computed or about to be reported; (2) with MPI, the assign messages on the way to a process and the threads of the process that have a block are together not more than its threads, so that no block is sent to a process without a thread that is free to compute it; (3) the set of blocks assigned to the process, together with the block that has been passed on and is about to be inserted, has at most twice as many elements as the process has threads, however many blocks the configuration has. The factor two is needed: a thread that reports its block after the finished blocks and before the ready threads have been flushed gets its next block while the last one is still in the set.", "quantifier": "all numbers of processes and threads below 2^32, all inputs whose sections have different blocks, all initial file systems, all schedules and all results of computations, for hycu-threaded and hycu-mpi", "why_tests_cant": "The bounds are about all interleavings of reports with the two flushes in fill_idle_queues; a test sees few of them, and does not look into the queues.", "anchors": ["src/worker_pool/standalone.cc: StandaloneWorkerPool::assign, fill_idle_queues, flush_finished_blocks", "src/worker_pool/mpi.cc: MPIWorkerPool::assign, fill_idle_queues, flush_finished_blocks", "src/worker_pool/mpi_worker.cc: assign_opencl_block, assign_cpu_block, flush_ready_threads, flush_finished_blocks", "src/threaded/thread_pool.cc: ThreadPool::assign, finished_block, flush_ready_threads, flush_finished_blocks"]}
{"id": "C87", "title": "No thread is left without a block while the main thread waits, and devices come first", "statement": "(1) The main thread of hycu-threaded sleeps in fill_idle_queues only if at that moment every thread has a block. (2) It passes a block to a thread without OpenCL device only if every thread with a device has a block, or has reported one since the ready threads were flushed. (3) The master of hycu-mpi sleeps in fill_idle_queues only if every thread of every process has a block, apart from threads that have reported one since their process was asked, and from threads for which a block is on the way. (4) It uses a thread without device only if this is true of all threads with devices, of all processes.", "quantifier": "all numbers of processes and threads below 2^32, all inputs whose sections have different blocks, all initial file systems, all schedules and all results of computations", "why_tests_cant": "A thread that is forgotten in one of the two lists of the pool only makes the program slower, which no test notices.", "anchors": ["src/worker_pool/standalone.cc: StandaloneWorkerPool::assign, fill_idle_queues", "src/worker_pool/mpi.cc: MPIWorkerPool::assign, fill_idle_queues", "src/threaded/thread_pool.cc: ThreadPool::assign, finished_block, flush_ready_threads"]}
{"id": "C88", "title": "Few messages wait to be received", "statement": "At every moment of a run of hycu-mpi, the messages that the master has sent to a process and that the process has not received, together with the replies of the process that the master has not received, are at most two more than the threads of the process, however many blocks and configurations there are. The bound is reached for a worker with one device: a configuration, a block and a question can be on the way to it together. So the memory that MPI needs for messages in transit does not grow with the input.", "quantifier": "all numbers of processes and threads below 2^32, all inputs whose sections have different blocks, all initial file systems, all schedules and all results of computations, all processes", "why_tests_cant": "MPI delivers messages at once on the machines where tests run; how many messages pile up for a slow worker is a matter of all interleavings of the master with the workers.", "anchors": ["src/worker_pool/mpi.cc: MPIWorkerPool::assign, fill_idle_queues, flush_finished_blocks, save_global_stores_to_file, update_config, ~MPIWorkerPool", "src/worker_pool/mpi_worker.cc: main_mpi_worker"]}
{"id": "C89", "title": "A run makes at most two files per process for each block and each section", "statement": "Take any directories. At every moment of a run of hycu-threaded they have together at most two entries more than at the beginning for each section with results in one of them and each block of such a section, however long the run takes and however often its time to save comes; so other directories get no files. With hycu-mpi it is two for each process, section and block. Both bounds are reached. The run need not end, and computations may fail.", "quantifier": "all inputs, all numbers of processes (at least one) and threads, all initial file systems, all finite sets of directories, all schedules, all results of computations, all answers of the clock; also for the machines in small steps", "why_tests_cant": "When the stores are saved depends on the clock; tests are too short for a second save.", "anchors": ["src/worker_pool/standalone.cc: StandaloneWorkerPool::update_config, assign, save_global_stores_to_file, ~StandaloneWorkerPool", "src/worker_pool/standalone.hh: delayed_save_global_stores_to_file", "src/worker_pool/mpi.cc: MPIWorkerPool::update_config, assign, save_global_stores_to_file, ~MPIWorkerPool", "src/store/file_store.cc: FileStore::save"]}
