{
 "claims": [
  {
   "property": "C01",
   "status": "proved",
   "theorems": [
    "Hycu.C01_box_exact"
   ],
   "note": "upper bounds at most 2^31"
  },
  {
   "property": "C02",
   "status": "proved",
   "theorems": [
    "Hycu.C02_positions_exact"
   ],
   "note": "all descriptions meeting Descr.Valid with package size 1"
  },
  {
   "property": "C03",
   "status": "proved",
   "theorems": [
    "Hycu.C03_packages_partition"
   ],
   "note": "all descriptions meeting Descr.Valid, all package sizes"
  },
  {
   "property": "C04",
   "status": "proved",
   "theorems": [
    "Hycu.C04_both_interfaces"
   ],
   "note": "all visited states"
  },
  {
   "property": "C05",
   "status": "proved",
   "theorems": [
    "Hycu.C05_package_size"
   ],
   "note": ""
  },
  {
   "property": "C06",
   "status": "proved",
   "theorems": [
    "Hycu.C06_step_total"
   ],
   "note": ""
  },
  {
   "property": "C07",
   "status": "proved",
   "theorems": [
    "Hycu.C07_empty_range_aborts",
    "Hycu.C07_package_zero_ub",
    "Hycu.C07_verified",
    "Hycu.C07_accepts"
   ],
   "note": "verify is modelled with the file system as a parameter"
  },
  {
   "property": "C08",
   "status": "proved",
   "theorems": [
    "Hycu.C08_well_formed",
    "Hycu.C08_exits"
   ],
   "note": ""
  },
  {
   "property": "C09",
   "status": "proved",
   "theorems": [
    "Hycu.C09_mass_formula",
    "Hycu.C09_every_curve"
   ],
   "note": ""
  },
  {
   "property": "C10",
   "status": "proved",
   "theorems": [
    "Hycu.C10_multiplicity"
   ],
   "note": ""
  },
  {
   "property": "C11",
   "status": "proved",
   "theorems": [
    "Hycu.C11_no_repetition"
   ],
   "note": ""
  },
  {
   "property": "C12",
   "status": "proved",
   "theorems": [
    "Hycu.C12_element_table",
    "Hycu.C12_accepts_iff_primitive",
    "Hycu.C12_no_primitive_no_end",
    "Hycu.C12_too_large"
   ],
   "note": "all finite fields with q < 2^32, all candidate sequences; undefined behaviour from 2^32 on"
  },
  {
   "property": "C13",
   "status": "proved",
   "theorems": [
    "Hycu.C13_exponent_reduction"
   ],
   "note": "all successful constructions"
  },
  {
   "property": "C14",
   "status": "proved",
   "theorems": [
    "Hycu.C14_zech",
    "Hycu.C14_no_primitive_no_end",
    "Hycu.C14_too_large"
   ],
   "note": "tables for 2 < q <= 2^31, FLINT coefficient presentation FqRep (exists for every field); failures for larger q"
  },
  {
   "property": "C15",
   "status": "proved",
   "theorems": [
    "Hycu.C15_coset_representatives"
   ],
   "note": "all fields, all n"
  },
  {
   "property": "C16",
   "status": "proved",
   "theorems": [
    "Hycu.C16_count_memory_safe"
   ],
   "note": "p odd; q <= 2^31 follows from the reduction table having been made; q <= 2^30 with OpenCL; generators need not match"
  },
  {
   "property": "C17",
   "status": "proved",
   "theorems": [
    "Hycu.C17_count_points"
   ],
   "note": "p odd, q < 2^31 - 1 on the CPU, q <= 2^30 with OpenCL, matching generators"
  },
  {
   "property": "C18",
   "status": "proved",
   "theorems": [
    "Hycu.C18_implementations_agree"
   ],
   "note": "p odd, q <= 2^30, matching generators; the generator of the naive count may be another one"
  },
  {
   "property": "C19",
   "status": "proved",
   "theorems": [
    "Hycu.C19_convert",
    "Hycu.C19_convert_aborts"
   ],
   "note": "for all reduction tables that can be made (q <= 2^31), matching generators"
  },
  {
   "property": "C20",
   "status": "proved",
   "theorems": [
    "Hycu.C20_count_again",
    "Hycu.C20_count_order",
    "Hycu.C20_count_keeps"
   ],
   "note": "all call sequences"
  },
  {
   "property": "C21",
   "status": "proved",
   "theorems": [
    "Hycu.C21_offsets"
   ],
   "note": "counted extensions 1..m in any order, q^m < 2^31 - 1"
  },
  {
   "property": "C22",
   "status": "proved",
   "theorems": [
    "Hycu.C22_twist_key",
    "Hycu.C22_twisted_curve"
   ],
   "note": "twist negates at odd extension degrees; key of nu*f is the twist of the key of f, for counts over degrees 1..m in any order"
  },
  {
   "property": "C23",
   "status": "proved",
   "theorems": [
    "Hycu.C23_ramification_type"
   ],
   "note": "for any set of counted extension degrees in any order; degree below 2^31 and degree*r below 2^32; FLINT squarefree test and factorisation assumed correct (FlintOk)"
  },
  {
   "property": "C24",
   "status": "proved",
   "theorems": [
    "Hycu.C24_degree_genus"
   ],
   "note": "all coefficient vectors with valid indices"
  },
  {
   "property": "C25",
   "status": "proved",
   "theorems": [
    "Hycu.C25_points",
    "Hycu.C25_key_invariant"
   ],
   "note": "points and branch degrees over every field; counts and keys computed by the code"
  },
  {
   "property": "C26",
   "status": "proved",
   "theorems": [
    "Hycu.C26_key_order"
   ],
   "note": "strict total order whose equivalence is equality"
  },
  {
   "property": "C27",
   "status": "proved",
   "theorems": [
    "Hycu.C27_register"
   ],
   "note": "for every sequence of curves with key, twisted key and multiplicity below 2^62; C50 gives the key of counted curves"
  },
  {
   "property": "C28",
   "status": "proved",
   "theorems": [
    "Hycu.C28_flush",
    "Hycu.C28_order"
   ],
   "note": "static_mutex makes a flush atomic"
  },
  {
   "property": "C29",
   "status": "proved",
   "theorems": [
    "Hycu.C29_record_matches_store"
   ],
   "note": "all histories; blocks flushed are distinct"
  },
  {
   "property": "C30",
   "status": "proved",
   "theorems": [
    "Hycu.C30_store_round_trip"
   ],
   "note": "character level model of printing and of stream extraction"
  },
  {
   "property": "C31",
   "status": "proved",
   "theorems": [
    "Hycu.C31_record_round_trip"
   ],
   "note": ""
  },
  {
   "property": "C32",
   "status": "proved",
   "theorems": [
    "Hycu.C32_merge",
    "Hycu.C32_order",
    "Hycu.C32_nested"
   ],
   "note": "For directories of matching record and store files as the program writes them, with counts below 2^62 in every file."
  },
  {
   "property": "C33",
   "status": "proved",
   "theorems": [
    "Hycu.C33_ignores",
    "Hycu.C33_missing_store",
    "Hycu.C33_fails"
   ],
   "note": "C33_ignores and C33_missing_store hold for arbitrary file contents; C33_fails shows that exit code 1 is reached if the files that exist can be read."
  },
  {
   "property": "C34",
   "status": "proved",
   "theorems": [
    "Hycu.C34_crash",
    "Hycu.C34_consistent",
    "Hycu.C34_save",
    "Hycu.C34_inside_record_write"
   ],
   "note": "All crash points of the modelled sequence of writes except inside the record write; the last theorem is the witness that this exception is necessary."
  },
  {
   "property": "C35",
   "status": "partial",
   "theorems": [
    "Hycu.Run.C35_exact_partial",
    "Hycu.Run.C35_sound_partial",
    "Hycu.Run.C35_false"
   ],
   "note": "Proved for all histories of runs that end or die at any point except inside the write of a record file (see C34). C35_false is a history with a death inside that write, after which a block is counted twice; C73 shows what such deaths can do in general. The computation of a block is a parameter, assumed to be a function of section and block."
  },
  {
   "property": "C36",
   "status": "proved",
   "theorems": [
    "Hycu.C36_add_entry",
    "Hycu.C36_register",
    "Hycu.C36_large_counts"
   ],
   "note": "exact below 2^62; reading or flushing a new entry of 2^62 or more is undefined behaviour"
  },
  {
   "property": "C37",
   "status": "proved",
   "theorems": [
    "Hycu.Run.C37_counters",
    "Hycu.Run.C37_assign"
   ],
   "note": "All reachable states of the step machine of a threaded run (any number and kinds of threads below 2^32, any sections with distinct blocks, any interleaving). Data races inside one critical section are not modelled."
  },
  {
   "property": "C38",
   "status": "proved",
   "theorems": [
    "Hycu.Run.C38_once",
    "Hycu.Run.C38_end",
    "Hycu.Run.C38_no_abort",
    "Hycu.Run.C38_safe"
   ],
   "note": "Jobs are blocks together with the tables of their configuration, so equal blocks of different sections are different jobs. C38_no_abort concerns the bookkeeping alone, for arbitrary inputs; C38_safe excludes every failure for inputs with results that can be added, also after earlier runs."
  },
  {
   "property": "C39",
   "status": "proved",
   "theorems": [
    "Hycu.Run.C39_waited",
    "Hycu.Run.C39_saved",
    "Hycu.Run.C39_end"
   ],
   "note": "The static store is the exact sum of the results flushed since the last save, and is what the next save writes."
  },
  {
   "property": "C40",
   "status": "partial",
   "theorems": [
    "Hycu.Run.C40_false",
    "Hycu.Run.C40_sleeps",
    "Hycu.Run.C40_processed_partial"
   ],
   "note": "False of the code: C40_false is a fair execution in which an assigned block is never taken (lost wake-up). Proved under the assumption that no notification hits a thread between the test of its flags and the wait."
  },
  {
   "property": "C41",
   "status": "proved",
   "theorems": [
    "Hycu.Run.C41_tables",
    "Hycu.Run.C41_saved",
    "Hycu.Run.C41_writes"
   ],
   "note": "Tables are identified by the configuration and the call of update_config that made them."
  },
  {
   "property": "C42",
   "status": "proved",
   "theorems": [
    "Hycu.Mpi.C42_idle",
    "Hycu.Mpi.C42_queues",
    "Hycu.Mpi.C42_receives",
    "Hycu.Mpi.C42_known",
    "Hycu.Mpi.C42_finished",
    "Hycu.Mpi.C42_safe",
    "Hycu.Mpi.C42_answers"
   ],
   "note": "All numbers of processes and threads, all schedules of threads and messages. C42_safe excludes every failure of a run over blocks that can be computed; C42_answers: no request stays without answer."
  },
  {
   "property": "C43",
   "status": "proved",
   "theorems": [
    "Hycu.Mpi.C43_exact",
    "Hycu.Mpi.C43_same"
   ],
   "note": "For runs that end, after any number of runs with one or several processes that ended or died (outside of the write of a record file). Sections have different result directories."
  },
  {
   "property": "C44",
   "status": "proved",
   "theorems": [
    "Hycu.C44_round_trip",
    "Hycu.C44_out_of_range",
    "Hycu.C44_missing",
    "Hycu.C44_count_exponent",
    "Hycu.C44_marked_point"
   ],
   "note": "numbers from 2^31 on make decode throw (C44_out_of_range); yaml-cpp's scalar conversions are modelled"
  },
  {
   "property": "C45",
   "status": "proved",
   "theorems": [
    "Hycu.C45_tuple",
    "Hycu.C45_config",
    "Hycu.C45_primitive",
    "Hycu.C45_vector"
   ],
   "note": "archive as a sequence of typed atoms"
  },
  {
   "property": "C46",
   "status": "proved",
   "theorems": [
    "Hycu.C46_exponents",
    "Hycu.C46_points"
   ],
   "note": "coefficients from p on are read as 1 (part of C46_exponents); C46_points adds the counts of the returned curve"
  },
  {
   "property": "C47",
   "status": "proved",
   "theorems": [
    "Hycu.C47_blocks",
    "Hycu.C47_safe",
    "Hycu.C47_threaded",
    "Hycu.C47_several"
   ],
   "note": "For every configuration in range, under the assumptions about FLINT in Flint.Setting: a run (any number of threads, schedules, earlier runs with crashes outside of record writes) never fails, and when it has ended the merger writes exactly the numbers of polynomials with given ramification type and offsets. The counts must be below 2^62, and the sections must have different result directories."
  },
  {
   "property": "C48",
   "status": "proved",
   "theorems": [
    "Hycu.C48_same_generator",
    "Hycu.C48_zero_candidate_accepted"
   ],
   "note": "defect with a zero candidate proved"
  },
  {
   "property": "C49",
   "status": "proved",
   "theorems": [
    "Hycu.C49_squarefree"
   ],
   "note": "FLINT squarefree tests assumed correct (FlintOk)"
  },
  {
   "property": "C50",
   "status": "proved",
   "theorems": [
    "Hycu.C50_key"
   ],
   "note": "combines C21 and C23"
  },
  {
   "property": "C51",
   "status": "proved",
   "theorems": [
    "Hycu.Run.C51_ends",
    "Hycu.Run.C51_complete",
    "Hycu.Run.C51_exists",
    "Hycu.Run.C51_reachable",
    "Hycu.Run.C51_hangs",
    "Hycu.Run.C51_no_threads",
    "Hycu.Run.C51_spins",
    "Hycu.C51_total"
   ],
   "note": "Termination of runs with one process under fairness (every thread is scheduled again and again), without lost notifications (Alert), with new file names found eventually and directories that can be created. C51_exists: such executions exist for every input. C51_hangs: for every input there is also a fair execution that hangs in the destructor of the pool, so that the assumption on notifications is needed. C51_spins: a run without threads never leaves fill_idle_queues once there is a block to compute; C51_no_threads: an execution of this kind that never ends. C51_total combines this with C47."
  },
  {
   "property": "C52",
   "status": "proved",
   "theorems": [
    "Hycu.Mpi.C52_ends",
    "Hycu.Mpi.C52_complete",
    "Hycu.Mpi.C52_exists",
    "Hycu.Mpi.C52_reachable",
    "Hycu.C52_total",
    "Hycu.Mpi.C52_hangs",
    "Hycu.Mpi.C52_spins"
   ],
   "note": "Steps that are not possible may be scheduled and have no effect. That no wake-up is lost is the hypothesis Alert (see C40: the code does not ensure it); C52_hangs shows that it is needed for every process with a thread. C52_spins: without threads the master never leaves the loop of fill_idle_queues. C52_total combines it with C47."
  },
  {
   "property": "C53",
   "status": "proved",
   "theorems": [
    "Hycu.Main.C53_stops",
    "Hycu.Main.C53_path",
    "Hycu.Main.C53_stops_mpi",
    "Hycu.Main.C53_ends",
    "Hycu.Main.C53_ends_mpi",
    "Hycu.Main.C53_reads",
    "Hycu.Main.C53_reads_one",
    "Hycu.Main.C53_too_large",
    "Hycu.Main.C53_exit",
    "Hycu.Main.C53_workers_hang",
    "Hycu.Main.C53_workers_start",
    "Hycu.Main.C53_threads",
    "Hycu.Main.C53_total",
    "Hycu.Main.C53_no_directory",
    "Hycu.Main.C53_malformed",
    "Hycu.Main.C53_only"
   ],
   "note": "Inputs as in C35, C43, C51 and C52; parsing of command lines and of YAML text is not modelled."
  },
  {
   "property": "C54",
   "status": "proved",
   "theorems": [
    "Hycu.Locks.C54_stores",
    "Hycu.Locks.C54_loads",
    "Hycu.Locks.C54_exclusive",
    "Hycu.Locks.C54_atomic",
    "Hycu.Locks.C54_simulation",
    "Hycu.Locks.C54_reaches",
    "Hycu.Locks.C54_safe",
    "Hycu.Locks.C54_drains",
    "Hycu.Locks.C54_finite",
    "Hycu.Locks.C54_exact"
   ],
   "note": "C54_stores and C54_loads say what an access is; the small steps are those of Model/Locks.lean, for hycu-threaded"
  },
  {
   "property": "C55",
   "status": "proved",
   "theorems": [
    "Hycu.Single.C55_prints",
    "Hycu.Single.C55_implementations",
    "Hycu.Single.C55_rejects",
    "Hycu.Single.C55_help",
    "Hycu.Single.C55_zero",
    "Hycu.Single.C55_two"
   ],
   "note": "main of hycu-single: exact text with the true numbers for odd primes, independent of the implementation; exit codes; what goes wrong for field size 2 and for zero coefficients"
  },
  {
   "property": "C56",
   "status": "proved",
   "theorems": [
    "Hycu.Merger.C56_help",
    "Hycu.Merger.C56_exit",
    "Hycu.Merger.C56_frame",
    "Hycu.Merger.C56_merges",
    "Hycu.Merger.C56_fails",
    "Hycu.Merger.C56_unwritable",
    "Hycu.Merger.C56_crash",
    "Hycu.Merger.C56_again"
   ],
   "note": "Canonical paths are parameters of the model; that a second run counts its own output again is proved as a property of the code (finding in DESIGN.md)."
  },
  {
   "property": "C57",
   "status": "proved",
   "theorems": [
    "Hycu.C57_generators",
    "Hycu.C57_setting",
    "Hycu.C57_independent",
    "Hycu.C57_threaded",
    "Hycu.C57_several",
    "Hycu.C57_mismatch"
   ],
   "note": "Conway polynomials exist for every configuration in range (exists_conwayFlint). The mismatch is a witness for 5 and 25 elements."
  },
  {
   "property": "C58",
   "status": "partial",
   "theorems": [
    "Hycu.OpenCL.C58_safe_partial",
    "Hycu.OpenCL.C58_finite_partial",
    "Hycu.OpenCL.C58_counts_partial",
    "Hycu.OpenCL.C58_points",
    "Hycu.OpenCL.C58_false",
    "Hycu.OpenCL.C58_drop_early",
    "Hycu.OpenCL.C58_moved"
   ],
   "note": "False of the code for all executions (C58_false: every session with a count has an execution with a use after free); proved for the executions in which the device has read the coefficients when enqueue returns."
  },
  {
   "property": "C59",
   "status": "proved",
   "theorems": [
    "Hycu.MpiLocks.C59_stores",
    "Hycu.MpiLocks.C59_loads",
    "Hycu.MpiLocks.C59_exclusive",
    "Hycu.MpiLocks.C59_separate",
    "Hycu.MpiLocks.C59_atomic",
    "Hycu.MpiLocks.C59_simulation",
    "Hycu.MpiLocks.C59_reaches",
    "Hycu.MpiLocks.C59_safe",
    "Hycu.MpiLocks.C59_exact",
    "Hycu.MpiLocks.C59_drains",
    "Hycu.MpiLocks.C59_finite",
    "Hycu.MpiLocks.C59_ends"
   ],
   "note": "All threads of all processes in single accesses to shared variables; the laws of mutexes are checked for every section, and the machine in which workers receive, handle and answer in separate steps is shown to do what the machine of C42 does."
  },
  {
   "property": "C60",
   "status": "proved",
   "theorems": [
    "Hycu.Locks.C60_ends",
    "Hycu.Locks.C60_complete",
    "Hycu.Locks.C60_exists",
    "Hycu.Locks.C60_hangs",
    "Hycu.MpiLocks.C60_ends_mpi",
    "Hycu.MpiLocks.C60_complete_mpi",
    "Hycu.MpiLocks.C60_exists_mpi",
    "Hycu.MpiLocks.C60_hangs_mpi",
    "Hycu.C60_total",
    "Hycu.C60_total_mpi"
   ],
   "note": "For all fair executions without lost notifications. C60_hangs: for every input there is a fair execution of hycu-threaded that loses a notification and hangs; C60_hangs_mpi: the same for every input of hycu-mpi and each of its processes that has a thread. C60_total, C60_total_mpi combine this with C47."
  },
  {
   "property": "C61",
   "status": "proved",
   "theorems": [
    "Hycu.Mpi.C61_acyclic",
    "Hycu.Mpi.C61_ends",
    "Hycu.Mpi.C61_complete",
    "Hycu.Mpi.C61_exists",
    "Hycu.Mpi.C61_synchronous",
    "Hycu.C61_total"
   ],
   "note": "a main thread that waits in send need not be scheduled before its last message is received; the master counts as waiting while any worker has messages to receive"
  },
  {
   "property": "C62",
   "status": "proved",
   "theorems": [
    "Hycu.C62_polynomials",
    "Hycu.C62_multiplicities",
    "Hycu.C62_threaded",
    "Hycu.C62_several",
    "Hycu.C62_fair",
    "Hycu.C62_conway"
   ],
   "note": "The total of all counts is the number of squarefree polynomials of the degrees in question, by an explicit formula; the formula below 2^62 excludes all overflows."
  },
  {
   "property": "C63",
   "status": "proved",
   "theorems": [
    "Hycu.Memory.C63_table",
    "Hycu.Memory.C63_incrementation",
    "Hycu.Memory.C63_curve",
    "Hycu.Memory.C63_naive_leaks",
    "Hycu.Memory.C63_twice"
   ],
   "note": "For any allocator; the naive counting functions lose memory, which is proved as such."
  },
  {
   "property": "C64",
   "status": "proved",
   "theorems": [
    "Hycu.Live.C64_safe",
    "Hycu.Live.C64_exact",
    "Hycu.Live.C64_alone",
    "Hycu.Live.C64_alone_only",
    "Hycu.Live.C64_false"
   ],
   "note": "C64_false shows that the exception for record files in the course of their write is necessary"
  },
  {
   "property": "C65",
   "status": "proved",
   "theorems": [
    "Hycu.Live.C65_alone",
    "Hycu.Live.C65_frame",
    "Hycu.Live.C65_safe",
    "Hycu.Live.C65_exact",
    "Hycu.Live.C65_together",
    "Hycu.Run.C65_ends",
    "Hycu.Run.C65_exists",
    "Hycu.Mpi.C65_ends_mpi",
    "Hycu.Mpi.C65_exists_mpi",
    "Hycu.Live.C65_false",
    "Hycu.Live.C65_mixed"
   ],
   "note": "C65_false and C65_mixed show that different directories are needed"
  },
  {
   "property": "C66",
   "status": "proved",
   "theorems": [
    "Hycu.C66_curves",
    "Hycu.C66_bound",
    "Hycu.C66_optimal",
    "Hycu.BlockIterator.C66_packages",
    "Hycu.C66_curvePackages",
    "Hycu.C66_choices"
   ],
   "note": "Numbers of enumerated curves and packages: formula, bounds, optimality up to the factor 7, package sizes up to the factor 4."
  },
  {
   "property": "C67",
   "status": "proved",
   "theorems": [
    "Hycu.C67_plausible",
    "Hycu.C67_table",
    "Hycu.C67_threaded",
    "Hycu.C67_several"
   ],
   "note": "Every table that the merger writes after a complete run is consistent in the sense of Spec/Results (which mentions no curves), with one process and with several; also for the numbers of polynomials over any field family of odd order."
  },
  {
   "property": "C68",
   "status": "proved",
   "theorems": [
    "Hycu.Run.C68_order",
    "Hycu.Run.C68_told",
    "Hycu.Run.C68_end",
    "Hycu.Mpi.C68_order",
    "Hycu.Mpi.C68_told",
    "Hycu.Mpi.C68_returned",
    "Hycu.Mpi.C68_end",
    "Hycu.Locks.C68_end",
    "Hycu.MpiLocks.C68_end"
   ],
   "note": "order of stop and join, nothing left to do or to save when threads are stopped, all threads returned and no step possible at the end; both pools, also in small steps"
  },
  {
   "property": "C69",
   "status": "proved",
   "theorems": [
    "Hycu.OpenCL.C69_devices",
    "Hycu.OpenCL.C69_all",
    "Hycu.OpenCL.C69_missed",
    "Hycu.OpenCL.C69_threads",
    "Hycu.OpenCL.C69_programs"
   ],
   "note": "exact list of devices, when all are used and that some can be missed (witness), threads per device, programs built once with the right size"
  },
  {
   "property": "C70",
   "status": "proved",
   "theorems": [
    "Hycu.C70_key",
    "Hycu.C70_cut_table",
    "Hycu.C70_marked_table",
    "Hycu.C70_cut",
    "Hycu.C70_same",
    "Hycu.C70_marked"
   ],
   "note": "Two complete runs (one or several processes, any history of interrupted runs) over any presentations of the fields give related tables; same assumptions about FLINT and sizes as C62."
  },
  {
   "property": "C71",
   "status": "proved",
   "theorems": [
    "Hycu.Reduction.C71_safe",
    "Hycu.Reduction.C71_ends",
    "Hycu.Reduction.C71_sum",
    "Hycu.Reduction.C71_iff",
    "Hycu.Reduction.C71_reduce",
    "Hycu.Reduction.C71_zero",
    "Hycu.Reduction.C71_current",
    "Hycu.Reduction.C71_shift"
   ],
   "note": "The code is not compiled at present; C71_zero and C71_shift say why the macro cannot simply be changed."
  },
  {
   "property": "C72",
   "status": "proved",
   "theorems": [
    "Hycu.C72_record_any",
    "Hycu.C72_record_cut",
    "Hycu.C72_hang",
    "Hycu.C72_store_cut",
    "Hycu.C72_blank",
    "Hycu.C72_save",
    "Hycu.C72_restart",
    "Hycu.C72_lost"
   ],
   "note": "Reading of arbitrary texts and of cut records and stores; saves whose writes fail. The last part shows that the comment in save (record as a witness to successful writing) is false of the code."
  },
  {
   "property": "C73",
   "status": "proved",
   "theorems": [
    "Hycu.Run.C73_safe",
    "Hycu.Run.C73_run",
    "Hycu.Run.C73_never_less",
    "Hycu.Run.C73_less",
    "Hycu.Mpi.C73_safe",
    "Hycu.Mpi.C73_run",
    "Hycu.Mpi.C73_never_less",
    "Hycu.C73_distinguishable",
    "Hycu.C73_threaded",
    "Hycu.C73_several",
    "Hycu.C73_collision"
   ],
   "note": "C73_less and C73_collision show that the assumption about cut off blocks is necessary and not always met by the iterator."
  },
  {
   "property": "C74",
   "status": "proved",
   "theorems": [
    "Hycu.Parallel.C74_safe",
    "Hycu.Parallel.C74_runs",
    "Hycu.Parallel.C74_alone",
    "Hycu.Parallel.C74_fresh",
    "Hycu.Parallel.C74_twice",
    "Hycu.Parallel.C74_clash",
    "Hycu.Parallel.C74_refused"
   ],
   "note": "Any number of runs over one file system, from any state in which the records can be read. A write of a file and a reading of a directory are single steps; runs stop between steps. C74_twice, C74_clash and C74_refused are executions that show that the bound and the assumption are needed."
  },
  {
   "property": "C75",
   "status": "proved",
   "theorems": [
    "Hycu.Series.C75_series",
    "Hycu.Series.C75_frame",
    "Hycu.Series.C75_shares",
    "Hycu.Series.C75_two",
    "Hycu.Series.C75_kept",
    "Hycu.Series.C75_continues",
    "Hycu.Series.C75_continues_mpi",
    "Hycu.C75_exponent",
    "Hycu.C75_marked",
    "Hycu.C75_package",
    "Hycu.C75_doubled"
   ],
   "note": "Deaths inside the write of a record are excluded (see C73). The existence of complete runs is shown for runs with threads."
  },
  {
   "property": "C76",
   "status": "proved",
   "theorems": [
    "Hycu.Series.C76_complete",
    "Hycu.Series.C76_repeated",
    "Hycu.Series.C76_two",
    "Hycu.Series.C75_continues",
    "Hycu.Series.C75_continues_mpi",
    "Hycu.C76_exponent",
    "Hycu.C76_marked",
    "Hycu.C76_doubled"
   ],
   "note": "Deaths inside the write of a record are excluded (see C73). That no run fails and that runs can be completed is C75_continues, which does not assume that sections have different directories."
  },
  {
   "property": "C77",
   "status": "proved",
   "theorems": [
    "Hycu.Items.C77_safe",
    "Hycu.Items.C77_finite",
    "Hycu.Items.C77_counts",
    "Hycu.Items.C77_places",
    "Hycu.Items.C77_includes",
    "Hycu.Items.C77_late",
    "Hycu.Items.C77_same"
   ],
   "note": "The statement includes the assumption that coefficients are read before they are freed; C77_late shows that it is needed. C77_same shows that a kernel with one buffer for both results is undefined, that is, that the model sees such conflicts."
  },
  {
   "property": "C78",
   "status": "proved",
   "theorems": [
    "Hycu.Reference.C78_reference",
    "Hycu.Reference.C78_test",
    "Hycu.Reference.C78_pool",
    "Hycu.Reference.C78_pool_ends",
    "Hycu.Reference.C78_pool_hangs",
    "Hycu.Reference.C78_merged",
    "Hycu.Reference.C78_merged_mpi"
   ],
   "note": "Under the assumptions about Sage (Sage.Ok) and FLINT (Flint.Setting); counts below 2^62 for everything except C78_reference. C78_test is about a sequential fold over any order of blocks, C78_pool about the pool of the tests, whose result path is not a directory. By reading, the tests do not compile at this commit (a missing argument); they are modelled with the argument false."
  },
  {
   "property": "C79",
   "status": "proved",
   "theorems": [
    "Hycu.Calls.C79_results",
    "Hycu.Calls.C79_checked",
    "Hycu.Calls.C79_safe",
    "Hycu.Calls.C79_no_fault",
    "Hycu.Calls.C79_noticed",
    "Hycu.Calls.C79_null"
   ],
   "note": "For executions in which the coefficients are read in time (Prompt, see C58). Careful sessions of one interface; commands do not fail after they have been put into the queue. C79_null is the exception; its hypothesis is that tables have at least one place (q > 1)."
  },
  {
   "property": "C80",
   "status": "proved",
   "theorems": [
    "Hycu.C80_element_table",
    "Hycu.C80_reduction_tables",
    "Hycu.C80_too_large",
    "Hycu.C80_compute",
    "Hycu.C80_two",
    "Hycu.C80_blocks",
    "Hycu.C80_wraps",
    "Hycu.Run.C80_thread",
    "Hycu.Run.C80_run",
    "Hycu.Mpi.C80_thread"
   ],
   "note": "For primes; FLINT is not modelled for other values of prime. The last part of (3) for runs of hycu-threaded. In the model the tables are made as part of the computation of a block; in the code they are made in Thread::update_config, so with at least one thread the failure in (3) comes even before the first block is assigned."
  },
  {
   "property": "C81",
   "status": "proved",
   "theorems": [
    "Hycu.Single.C81_fits",
    "Hycu.Single.C81_too_large",
    "Hycu.Single.C81_returns",
    "Hycu.Single.C81_rejects"
   ],
   "note": "(1) is an equality with the model of C55, in which tables are given, together with everything that C55 assumes about them. What has been written before a failure is not modelled; in (2) the failure comes before anything is written."
  },
  {
   "property": "C82",
   "status": "proved",
   "theorems": [
    "Hycu.C82_all_squares",
    "Hycu.C82_count",
    "Hycu.C82_naive",
    "Hycu.C82_offsets",
    "Hycu.C82_exists"
   ],
   "note": "p odd, matching generators; C17 and C18 are the cases below 2^31 - 1 and up to 2^30; for curves of small genus the exceptions are excluded by the bound of Hasse and Weil, which is not proved here"
  },
  {
   "property": "C83",
   "status": "proved",
   "theorems": [
    "Hycu.C83_recorded",
    "Hycu.Run.C83_fails",
    "Hycu.Mpi.C83_fails",
    "Hycu.Run.C83_complete",
    "Hycu.Mpi.C83_complete",
    "Hycu.C83_too_large",
    "Hycu.Locks.C83_fails",
    "Hycu.Locks.C83_complete",
    "Hycu.MpiLocks.C83_fails",
    "Hycu.MpiLocks.C83_complete"
   ],
   "note": "Nothing is assumed about which computations succeed (Attempts); results of those that do are assumed to fit, as in C35 and C43. In the model the tables of a configuration are made as a part of each computation of a block, in the code in update_config before any block is assigned."
  },
  {
   "property": "C84",
   "status": "proved",
   "theorems": [
    "Hycu.C84_no_tables",
    "Hycu.Run.C84_same",
    "Hycu.Run.C84_runs",
    "Hycu.Run.C84_made",
    "Hycu.Run.C84_complete",
    "Hycu.Run.C84_fails",
    "Hycu.Run.C84_stops",
    "Hycu.Run.C84_before",
    "Hycu.Mpi.C84_same",
    "Hycu.Mpi.C84_runs",
    "Hycu.Mpi.C84_made",
    "Hycu.Mpi.C84_complete",
    "Hycu.Mpi.C84_fails",
    "Hycu.Mpi.C84_stops",
    "Hycu.Mpi.C84_worker_stops",
    "Hycu.Mpi.C84_before",
    "Hycu.Mpi.C84_worker_before",
    "Hycu.C84_too_large",
    "Hycu.Locks.C84_same",
    "Hycu.Locks.C84_made",
    "Hycu.Locks.C84_complete",
    "Hycu.Locks.C84_fails",
    "Hycu.Locks.C84_stops",
    "Hycu.Locks.C84_before",
    "Hycu.MpiLocks.C84_same",
    "Hycu.MpiLocks.C84_made",
    "Hycu.MpiLocks.C84_complete",
    "Hycu.MpiLocks.C84_fails",
    "Hycu.MpiLocks.C84_stops",
    "Hycu.MpiLocks.C84_worker_stops",
    "Hycu.MpiLocks.C84_before",
    "Hycu.MpiLocks.C84_worker_before"
   ],
   "note": "Tables of a configuration are any function that succeeds or fails; C84_fails, C84_no_tables and C84_too_large take those of the model of FLINT. Threads of a process make the same tables, as one step of the main thread. C84_before is for the main thread of the only process and of the master, C84_worker_before for workers, which may make the tables later. Failing to make tables ends the run in the model, as it does by an exception or a crash in the program; nothing is said about what MPI does with the other processes. The theorems in Locks and MpiLocks are for the machines in small steps with mutexes; a queue of a thread is considered there when its mutex is free."
  },
  {
   "property": "C85",
   "status": "proved",
   "theorems": [
    "Hycu.C85_loop",
    "Hycu.C85_fewer",
    "Hycu.C85_counted",
    "Hycu.C85_passes"
   ],
   "note": "In C85_loop the loop has a bound on its number of passes and gives the result for all large enough bounds. The hypothesis of C85_passes on FLINT (fields of every degree are presented) makes the field after the wrap-around too large for the tables; the real FLINT may abort there for lack of a polynomial or of memory, which is no result either. C85_counted is with an odd prime and fields of at most 2^31 elements."
  },
  {
   "property": "C86",
   "status": "proved",
   "theorems": [
    "Hycu.Run.C86_thread",
    "Hycu.Run.C86_assigned",
    "Hycu.Mpi.C86_thread",
    "Hycu.Mpi.C86_messages",
    "Hycu.Mpi.C86_assigned",
    "Hycu.Locks.C86_thread",
    "Hycu.Locks.C86_assigned",
    "Hycu.MpiLocks.C86_thread",
    "Hycu.MpiLocks.C86_messages",
    "Hycu.MpiLocks.C86_assigned"
   ],
   "note": "For the machines of hycu-threaded and hycu-mpi whose steps are the critical sections, and for the machines in small steps, where the queues of threads and messages are looked at when their mutexes are free. Examples beside the theorems reach the bounds of (1), (2) and the first bound of (3)."
  },
  {
   "property": "C87",
   "status": "proved",
   "theorems": [
    "Hycu.Run.C87_waits",
    "Hycu.Run.C87_opencl",
    "Hycu.Mpi.C87_waits",
    "Hycu.Mpi.C87_opencl",
    "Hycu.Locks.C87_waits"
   ],
   "note": "A thread that has reported since it was asked for is one in the list ready of its pool, which every flush empties. (3) and (4) count: the threads without block that are not in this list are not more than the assign messages (for OpenCL in (4)) that the process has not received. (1) is also proved for the machine of hycu-threaded in small steps, where the queue of a thread is looked at when its mutex is free; (2)-(4) are proved for the machines whose steps are the critical sections."
  },
  {
   "property": "C88",
   "status": "proved",
   "theorems": [
    "Hycu.Mpi.C88_messages",
    "Hycu.MpiLocks.C88_messages"
   ],
   "note": "counts messages, not their sizes; in small steps also the message that a worker has received and not handled, or the reply that it is about to send"
  },
  {
   "property": "C89",
   "status": "proved",
   "theorems": [
    "Hycu.Run.C89_files",
    "Hycu.Mpi.C89_files",
    "Hycu.Locks.C89_files",
    "Hycu.MpiLocks.C89_files"
   ],
   "note": "counts entries of directories; directories themselves may be made in addition, one for each section"
  }
 ]
}
