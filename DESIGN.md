# Formal model of hycu in Lean 4

The source in /repo is read as text; nothing of it is built or run.  `properties.jsonl` has the properties in English,
`MANIFEST.json` the theorems that prove them, `seeded/LOG.jsonl` the attempts to break the theorems with wrong programs
(made with `tools/mutate.py`, appended with `tools/addlog.py`).

## Trusted base

* Lean's kernel (4.33.0); Mathlib is used as a library of checked proofs.
* Axioms: all theorems of the manifest depend on `propext`, `Classical.choice`, `Quot.sound` only.  More precisely, the
  four theorems of C45 and `C53_workers_hang` depend on `propext`; `C07_*`, `C13_exponent_reduction`, `C26_key_order`,
  `C58_drop_early`, `C58_moved`, `C69_threads` on `propext` and `Quot.sound`; all others on the three.  There are no own axioms, no `sorry`, no `native_decide`, no `bv_decide`.
* The reading of /repo into the definitions under `lean/Verif/Model`.  Every definition cites file and lines, and its
  simplifications are stated beside it.
* The assumptions about libraries in the section "External behaviour".

## Layout

* `Verif/Cpp/*`: outcomes of a computation (`ok`, `ub` for undefined behaviour, `abort` for an exception or `throw;`,
  `diverge` when a loop does not end within the fuel), unsigned 32 bit arithmetic, `std::map` and `std::set` as sorted
  lists over the comparator of the code, `std::sort`, streams.
* `Verif/Model/*`: the code, function by function.
* `Verif/Spec/*`: small specifications that are stated without functions of the model.
* `Verif/Lemmas/*`: lemmas.
* `Verif/Props/*`: the property theorems, each with an example that meets its hypotheses.
* `Verif/Tests/*`: the unit tests of the source (with its reference stores), carried out by the model with simple programs in
  place of FLINT.  These are checks of the reading of the source, not proofs.

## Which parts of the code are modelled

| source | model | not modelled |
|---|---|---|
| src/block_iterator.* | `Model/BlockIterator` | – |
| src/curve_iterator.* | `Model/CurveIterator` | – |
| src/fq_element_table.*, src/reduction_table.* | `Model/Tables`, `Model/Curve` (OpenCL members), `Model/Memory` (memory of FLINT objects) | – |
| src/curve.* | `Model/Curve`, `Model/Ramification`, `Model/SingleMain` (printing, prime fields), `Model/Memory` | printing over fields that are not prime (unused) |
| src/opencl/interface.*, program.*, program_evaluation.* | `Model/Devices`, `Model/OpenCLCalls` (contexts, queues, failures) | the compiler |
| src/opencl/evaluation.cl, kernel_evaluation, buffer_evaluation, kernel_reduction | `Model/Curve` (one after the other), `Model/OpenCL` (host and device), `Model/OpenCLItems` (work items in single accesses), `Model/OpenCLCalls` (calls that fail) | errors of commands after they have been put into the queue |
| src/opencl/reduction.cl, program_reduction.*, the branches of kernel_reduction.cc that are compiled out (`SIZE_PARTIAL_REDUCTION` is `1 >> 2`, that is 0) | `Model/Reduction` | error codes of OpenCL calls |
| src/single_curve_fp.*, src/executables/single.cc | `Model/Single`, `Model/SingleMain`, `Model/SingleTables` | parsing of the command line, messages to `cerr` |
| src/store/curve_data.*, store_data.*, store.* | `Model/CurveData`, `Model/Store` | store_factory.hh (one store type) |
| src/store/file_store.*, src/executables/merger.cc | `Model/Files`, `Model/MergerMain`, `Model/MergerLive`, `Model/Parallel` | parsing of the command line of the merger, its messages |
| src/config/config_node.*, src/utils/serialization_tuple.hh | `Model/Config` | yaml-cpp and boost themselves |
| src/threaded/*, src/worker_pool/standalone.*, main loop of src/executables/threaded.cc | `Model/Pool`, `Model/Compute`, `Model/Locks`, `Model/Making`, `Model/MakingLocks`, `Model/TablesLoop` | messages |
| src/worker_pool/mpi*.*, main loop of src/executables/mpi.cc | `Model/Mpi`, `Model/MpiLocks`, `Model/Making`, `Model/MakingLocks` | as above |
| src/executables/threaded.cc and mpi.cc before their main loops, returned values, broadcasts of the start | `Model/Main` | parsing of command lines, yaml-cpp (a document is a tree of nodes), initialisation of MPI |
| test/create_reference_store.sage, test/test_store.hh, test/threaded.cc | `Model/ReferenceStore`, `Model/TestPool` | formatting of the generated header |
| test/* | `Tests/Reference`, `Tests/Script` (as tests of the model) | implementations NaiveNMod, NaiveZech and OpenCL of small_curves.cc |

## External behaviour (assumed)

* Sage (C78 only): elements of a field are listed once, squares and squarefree polynomials are recognised, factorisations
  are right (`Sage.Ok`; such functions exist, which is proved).
* FLINT fields: a finite field of `p^r` elements whose elements have coefficient vectors over the prime field, one being
  `(1, 0, .., 0)` (`FqRep`; exists for every finite field, which is proved); the operations are the field operations.
  `fmpz` numbers are small immediates below 2^62 and pointers above (C36).
* FLINT polynomials: squarefree tests, factorisation and gcd are right (`FlintOk`; such functions exist, which is proved).
* The random generator candidates are an arbitrary sequence.
* The generators of the tables for `F_q` and `F_{q^k}` match, in the sense that the chosen embedding maps one to a
  power of the other as the code supposes (the code has a "fixme" here).  This is a hypothesis (`Compatible`,
  `BuiltExtension`) that is proved for fields presented by Conway polynomials and cannot be dropped in general (C57).
* `std::map`, `std::set`, `std::sort`, formatted input and output of decimal integers, `getline`; directories are lists
  of names and contents; a crash inside a write leaves a prefix of the content.  A directory that is listed while files are
  added gives every entry at most once, and at least those that were there at the beginning (POSIX `readdir`).
* Several runs over one file system (C74): every write of a file and every reading of all records of a directory is one
  step, so that no run reads a file that another run is writing; runs stop between two steps.
* Directories are identified by their path as given in a configuration; two names of one directory (a link, `./a` for `a`)
  are different directories of the model.
* `pow` on doubles is exact below 2^53.  Its conversion to `unsigned int` is undefined behaviour from 2^32 on
  (`primePowerOf`).  Indices are stored as `int32_t`: from 2^31 on they become negative and `at` throws (`setAtInt`).
* OpenCL: queues work in order; a write that does not block reads the memory of the host at any time before the next
  command that the host waits for.  Work items of a kernel run in any order, in `Model/OpenCL` each as one step; that this
  makes no difference is proved in C77, where every access to memory is a step of its own.  Accesses of different work
  items to one place, one of them a write, are undefined, and so are such accesses by different `restrict` parameters.
  Calls with null handles fail, except that `clSetKernelArg` accepts null buffers (specification of OpenCL 1.2, 5.7.2).
* Threads: memory is sequentially consistent for programs without data races.  Mutex protected sections are single steps
  in `Model/Pool` and `Model/Mpi`; that this makes no difference is proved for one process (C54) and for
  several (C59).  A condition variable may wake up spuriously; an unlock and a wait are two steps where
  the code does not hold the mutex at the test.
* MPI: messages between two processes arrive unchanged and in order; a message is put into or taken out of its queue as a
  whole.  Whether `send` waits until the message is received makes no difference (C61, for the machine with large steps).

## Properties

| id | what is modelled | how it is proved |
|---|---|---|
| C01, C02, C06 | block iterator as a record, `step_` as recursion over the remaining update order, wrapping additions, undefined behaviour for reads out of range | odometer lemma by induction on the wheels; the visited positions are compared with all tuples |
| C03, C04, C05 | `as_block`, `as_block_enumerator`, `initialize_blocks` | every wheel partitions its range; product |
| C07 | outcome of the constructor, `verify` | case analysis by induction on the list of ranges |
| C08–C11 | constructor of the curve iterator, multiplicity | orbit counting: translations, scalings, representatives of cosets; sums over all coefficient vectors |
| C12–C15, C48 | constructors of the tables over an abstract finite field, with an arbitrary sequence of candidates | orders in the cyclic unit group, arithmetic of digits |
| C16–C21 | curve given by exponents, tables with checked reads, all implementations of `count` | loop invariants: the index is that of the partial evaluation; comparison with the points of the curve |
| C22, C25 | points, keys, twists, substitutions | bijections on points, quadratic character |
| C23, C49, C50 | loop of `ramification_type`, squarefree test, key of a curve | roots in the extension of degree n are the sum over m dividing n of m N_m; degrees of irreducible factors |
| C24 | constructor, degree, genus | induction on the coefficients |
| C26–C29 | store over sorted lists, static store, records | `Tally`: a map has the sums of a list of entries; invariants over histories |
| C30, C31 | printers and parsers on characters | induction on printed text, stream states |
| C32, C33 | merge over a directory | fold over the entries, every record with its store |
| C34, C35 | directory with crash steps; histories of runs | invariant: records and stores match, no block occurs twice.  C35 is partial: false for a crash inside the write of a record (`C35_false`), proved for all other histories |
| C36 | FLINT integers as handles, with assignment of structures by bytes | refinement below 2^62, undefined behaviour above |
| C37–C39, C41 | machine of the main thread and the worker threads | inductive invariants over all schedules (`Inv`, `Good`), log of events |
| C40 | condition variable in small steps | false of the code: `C40_false` is a fair execution with a lost wake-up; partial theorem without lost wake-ups |
| C42, C43 | processes with queues of messages, each with its threads | inductive invariant, data invariant over histories of runs with one or several processes |
| C44, C45 | YAML maps with scalars as text; archives as sequences of atoms | round trips |
| C46 | `single_curve_fp` | loop invariant, bound on the wrapping product |
| C47 | composition of everything for `hycu-threaded` and `hycu-mpi` followed by `hycu-merger`, FLINT being the only parameter | C09, C17, C22, C23, C25, C27, C35, C43 combined |
| C51 | infinite executions | a measure that decreases with every step of the main thread except when it polls; threads make progress by C40; a schedule is constructed |
| C52 | infinite executions of several processes | two measures: what is left to be done, and the work that is on its way; a step that changes neither is idling, and a fair execution does not idle for ever unless all processes have returned; a schedule is constructed; for a process that hangs (`C52_hangs`), all others are led to their end, and the notification of its first thread is sent between the test and the wait (`Lemmas/MpiHang`) |
| C53 | main functions before and after the main loops; the broadcasts at the start of several processes | case analysis; the invariants of C35 and C43 extended by what is known about sections that have not been started (`Ahead`) |
| C54 | critical sections of the main thread and the worker threads as lists of single instructions (`Model/Locks`) | general theorem for programs that read and write shared variables under their mutexes and acquire mutexes in a fixed order (`Laws`): invariant, abstraction, simulation; the laws are checked for every section; the other direction by delaying steps inside of `ThreadPool::assign` |
| C55 | `main` of `hycu-single` and the text it writes, with all four implementations | every implementation adds the same counts (C16–C18, fields of the same size are isomorphic); C21, C23, C46; induction on the printed terms |
| C56 | `main` of `hycu-merger`, with paths, the two writes one after the other and their effect on the directories | case analysis; C32, C33; the argument of C34 for arbitrary names; induction on the number of runs |
| C57 | – (the assumptions of C17 and C47 about generators) | roots of Conway polynomials are primitive, and the power of one is a root of the polynomial of the subfield, so it is the image of the generator under some embedding; such polynomials exist: minimal polynomials of powers of one generator of a large field; for the converse a cubic over the field of 5 elements |
| C58 | `OpenCL.host`, `device`, `Event.ops` | partial, since the full claim is false (`C58_false`): simulation by a machine that carries out commands at once; the remaining commands, carried out from the current buffers, give its buffers; work items commute since they write to different places |
| C59 | all threads of all processes in single instructions (`Model/MpiLocks`); the queues of messages are variables with mutexes of their own | the general theorem of C54 with its laws checked for every section of the master, the workers and their threads; a message that has been received and not yet handled is put back into the queue, an answer that has not been sent is added to it; for the converse, pending notifications are made at once and further spurious wake-ups added |
| C60 | infinite executions of the machines of C54 and C59 (`Fair` in `Spec/Locks`: who can make a step again and again makes steps again and again); lost notifications are excluded by `Alert`, as C40 is false without | general theorem (`Lemmas/LocksFair`): mutexes are acquired in a fixed order, so every agent that is in a section leaves it, and every agent that does not rest completes its next section; hence the execution is one of the machine with large steps in which all threads are scheduled again and again, and C51, C52 apply; existence by a schedule that runs sections one after the other (`Lemmas/LocksExist`); hanging executions end in a state in which all threads sleep and the main thread joins (`Lemmas/PoolHang`, `MpiHang`, `LocksHang`) |
| C61 | executions in which main threads may wait in `send` until the message is received, for each message as it pleases (`Blocking` in `Spec/MpiSends`) | a worker with messages to receive has sent no reply, and a worker has sent a reply only if the master is about to receive it (invariant of C42), so messages are received and every main thread is scheduled again and again: C52 applies; existence by the schedule of C52 with waiting threads left out |
| C62 | the total of all counts, compared with an explicit formula (`polynomials` in `Spec/Totals`); the bound `2^62` of C47 on single numbers becomes one on the formula | every monic polynomial is uniquely a squarefree one times a square, so the monic squarefree polynomials of degree n+2 number q^(n+2) - q^(n+1) (`Lemmas/SquarefreeCount`); every polynomial has exactly one ramification type and offsets, so the numbers of C47 add up to it; for the multiplicities the mass formula of C09 |
| C63 | the functions that make FLINT objects, with every object in a cell of memory, for any allocator (`Model/Memory`); use of what is not initialised, clearing or deleting twice, and giving back what is not cleared are undefined | memory is described as the earlier memory with a list of additional cells (`Ext`); each operation changes the list, loops by induction; results agree with the models without memory |
| C64 | the merger as a machine that accesses the directory once per step (`Model/MergerLive`), together with the machines of C35 and C43, which may die and be started again; store files are also seen in the course of a write (`Spec/Live`) | pairs of files that are there stay as they are (`Keeps`), every view of a directory is sound (C35, C43), contents of files determine the pairs; for a directory that does not change the machine agrees with the merger of C33 (`C64_alone`, `C64_alone_only`) |
| C65 | runs of C35 and C43 together with other programs that change files outside of the result directories between any two steps, and two runs with the same files (`Spec/Together`) | no step reads or writes anything but the directories of the sections: replacing the files elsewhere by fixed ones (`FileSystem.mask`) gives a run without other programs, so C35, C43, C51, C52 apply; counterexamples for one directory by carrying out two runs (`pair`) |
| C66 | the constructor of `CurveIterator` with all its argument lists and `initialize_blocks` with the choice of steps (as for C03, C05, C08); `Spec/Work`: formulas for the numbers of curves and of choices, sets that represent all curves | product formula for each argument list (`listsOf`); the bound from below for representing sets from the number of squarefree polynomials (C09) and the size of the group; packages: the steps chosen by `assignSteps` leave one piece, or pieces of average size at least a quarter of the package (`assignSteps_few`), raw positions and tuples are counted by injections |
| C67 | nothing beyond C47/C62 (complete runs and the merger); `Spec/Results`: checks of a table of results that mention no curve | corollary of C62: pairs `±y` over points of the line, Frobenius orbits of prime length on points over an extension (`card_fixed`), twist bijection, free action of the squares on polynomials with a given key; a computed table for `q = 3`, `g = 1` as example |
| C68 | nothing beyond C37/C42 (machines of the pools) and C54/C59 (small steps); the statement speaks of the stop flags, phases and queues of threads only | inductive invariants `StopInv` (threaded) and `Halts` (mpi): stop flags are set and threads are joined in order, counted by where the main thread is; with the invariants for C37/C39/C42/C43 nothing is left when the first flag is set; the end follows as no rule of the machine applies; small steps by C54_atomic and C59_atomic. In small steps a thread has decided to return, but may still have to release its own mutex |
| C69 | `Model/Devices`: `OpenCLInterface::devices`, the cache of programs, build options as text, threads with devices; `Spec/Devices`: vendors known so far, the reading of a `-D` option with a decimal literal | induction over platforms with the vendors of the part before (`pickPlatforms_spec`), over requests with the content of the cache (`Built`); `C69_missed` is the negation of "all devices are used" with a witness |
| C70 | `Spec/Related`: tables with fewer offsets, tables with a marked point, complete runs of either kind; the rest as for C62 | `Lemmas/Inversion`: `x ↦ 1/x` keeps points (bijection) and branch degrees (determined by the numbers of ramified points over all extensions), polynomials with root `a` correspond to those of odd degree, double counting of pairs of a curve and a rational branch point; fibres of keys under cutting; runs over different presentations by C57 |
| C71 | work items of all groups in any order, one access to local memory per step, barriers, a log of accesses since the last barrier (a conflict is undefined behaviour), the macro as text that may have no parentheses (`Model/Reduction`) | invariant of a group by rounds of the second loop (`First`, `Mid`), a rank that every step makes smaller, sums over halves; for the converse a buffer of ones; for the shift two work items that have both written to one place |
| C72 | the readers and the merger as for C31-C34; writes of which each may be lost or cut off (`Spec/Faults`) | every read either fails or consumes a character; prefixes of a printed number are printed quotients by powers of ten; induction on the lines; the merger on files that are read as given lists |
| C73 | the machines of C35 and C43 started over directories of which nothing is known but that their records can be read (`Open`), and histories in which a run may also die inside the write of a record (`Spec/Damage`) | the invariants of C35 and C43 for any description of a directory that is kept by saves (`Layout`): once for directories of matching pairs, once for a directory that has grown (`since`); what is read from cut off records (C72); lower corners of blocks of the iterator determine the block and its degree, unless the coefficient next to the leading one need not vanish |
| C74 | any number of the machines of C35 and C43 over one file system (`Model/Parallel`); the test for a directory and its creation, the choice of a number and the write of each file are steps between which other runs make steps | every run sees a file system of its own (`Ghost.view`), which grows into the real one by files of other runs; until it has read a directory its view can be replaced by the real one, because nothing in its state depends on it; so every run satisfies the invariants of C73 in its view, and the files of different runs in one directory are put together |
| C75 | sequences of runs of the machines of C35 and C43, each with its own sections, of which several may use one directory (`Spec/Series`) | the invariants of C35 and C43 for any account of the directories that is kept by the sections (`Course`, `following`): `Shares` says which blocks each use of the directory has added; runs change nothing outside of their directories; for the numbers of curves the results of blocks do not depend on package size, marking and path, the blocks with a marked point are the first of those without, and for the field of 3 elements the two lists of blocks are evaluated by the kernel |
| C76 | as for C75, `First` and `firsts` say which section a block belongs to | all sections before the current one are complete in the current run, so a block that is new belongs to the current section first (`repeating`); this account also holds at the beginning of the next run; two lists without repetitions of blocks with their first sections are permutations of each other |
| C77 | `Items.itemStep`, `next`, `Access.conflict`: all work items of the evaluation kernel with their own program counters, one access to memory after the other, and a list of all accesses | simulation by the machine of C58, in which a work item runs at its last write (`view`): what a work item still computes depends only on buffers that no work item writes to (`rest`, `busy`); its first write goes to a place of its own; accesses are made by parameters with different buffers, and writes of `x` only to place `x` (`Own`); a measure decreases with each step |
| C78 | `Model/ReferenceStore`: the script that computes the reference stores, the map of the generated header, `TestStore`; Sage is a parameter, `Sage.Ok` says what is assumed about it | the dictionary counts the keys of a list (`Counts`); all polynomials of the two degrees occur once in the lists of `xmrange`; the key of the script is the one of the specification (`isKey_keyOf`); `sorted` and the order of the map agree (`itemLe_iff`); C47 and independence of the choice of fields give the stores of the program.  `testRun` is a sequential fold over any order of the blocks; `Model/TestPool` has the pool of the tests, with the step granularity of `Model/Pool`, which is related in both directions to a run in an empty directory (`Sim`: the test neither verifies its configuration nor writes files), so that C38, C41 and C51 apply.  `Tests/Script` checks by evaluation that the model of the script gives the stores of q5_g1 and q7_g1; q7_g2 is not evaluated with the script, only with the program (`Tests/Reference`) |
| C79 | `Model/OpenCLCalls`: single calls of OpenCL that may fail, handles of objects, arguments of kernels | simulation by the machine of C58, whose buffers are the same except for those that are null (`Inv`); the calls of a careful session are in order (`Fine`): objects are made before they are used, arguments are set before kernels are run, and after each constructor there is a checked call with the object before the next kernel (`Guard`), except for the buffers for results; `C79_null` is the exception |
| C80 | – (tables, computation of blocks, main function as before, for FLINT presenting fields of any size) | C12, C14 for fields of any size; the largest field comes first; invariant of the log of a run |
| C81 | `hycu-single` with the constructors of its tables | C12, C14, C46; equality with the model of C55 if all tables are made; the largest field comes first |
| C82 | – (counts and offsets as before, for fields of up to 2^31 - 1 elements) | the counts of C17 and C18 modulo 2^32; bound of the number of points; Lucas-Lehmer test for 2^31 - 1; Fermat for the two polynomials |
| C83 | – (runs of hycu-threaded and hycu-mpi as before, for inputs with blocks whose computation fails) | a run in which some computations fail is also a run in which they have any other result; two such results for a recorded block would give the same file, whose content determines the result |
| C84 | `Model/Making`: the machines of `Pool` and `Mpi`, where the step that sets the tables of all threads of a process first makes them, and fails if this fails (only if there is a thread); `Model/MakingLocks`: the same for the machines in small steps | an invariant on the tables of threads and jobs, from what each step does to them; calls for configurations are only dropped from the list after their tables have been made; the state after the update gives that earlier sections are complete; for workers, which may handle the message later, from the configuration that a process has or will have, and that no configuration is on its way before the first is sent; in small steps by the same commutation of sections as for C54 and C59, which does not depend on what is done before the effect of a section if this depends only on variables of its thread |
| C85 | `Model/TablesLoop`: the loop of `Thread::update_config` with the table made inside it, on `size_t`, with the cast to the parameter of the constructor | induction on the quotient of the wrapped product by the exponent of the field; the field after the wrap-around has more than 2^32 elements (C80) |
| C86 | the models of C37–C39 and C42 (`Model/Pool`, `Model/Mpi`) | invariant `Pace`: finished blocks that are not acknowledged are at most the ready threads plus one for each thread, and at most the ready threads between the two flushes of `fill_idle_queues`; with several processes the window between the flushes depends on the position of the master and on the replies on the way (`Pc.window`); the sizes follow from the books of C37 and C42; `Props/PaceLocks`: the same for the machines in small steps by refinement |
| C87 | the models of C37–C39 and C42 (`Model/Pool`, `Model/Mpi`) | the books of C37 and C42: a thread without a block is idle or ready; if the counters or queues of the main thread are empty, the idle threads are those for which a block is on the way; (1) also for hycu-threaded in small steps (`Model/Locks`), through the refinement of C54 |
| C88 | the model of C42 (`Model/Mpi`) | the messages by kind: blocks by the books of C42, configurations only at the head of the queue, at most one question or reply by the protocol of C42; a worker that has been told to stop gets no other message (invariant `Last`); `Props/MessagesLocks`: for the machine in small steps by refinement |
| C89 | the models of C37–C39 and C42 (`Model/Pool`, `Model/Mpi`) and their machines in small steps | invariant: the entries of the directories, and the files that the rest of the input and the position of the main thread still allow (`owed`), do not become more; in small steps by refinement |

## Findings

* C78: the tests in test/threaded.cc (l.54, 87, 120) and test/curve_iterator.cc (l.43) call the constructor of
  `CurveIterator` with three arguments, while the only declared one (src/curve_iterator.hh
  l.43-48) has four without defaults.  By reading, they do not compile at this commit.  The tests also leave
  `with_marked_point` of `ConfigNode` unset.  They are modelled with the value `false`.
* C76: two sections of a configuration file may name the same result directory without a message.  Blocks of a section
  that an earlier one has are then skipped, also if the earlier one counts over fewer extensions (`C76_exponent`), and if
  the package sizes differ all numbers can be doubled (`C76_doubled`).
* C75: records do not say for which configuration they were made.  If `package_size` is changed and the result
  directory is kept, the blocks are other ones and the same curves are counted again: all numbers can be doubled
  (`C75_doubled`).  If `count_exponent` is changed, nothing is computed and the old results remain, with offsets over the
  wrong number of extensions (`C75_exponent`).  Neither gives a message.
* C74: nothing locks a result directory.  Two runs of the same configuration at the same time both compute all blocks,
  and the merger counts everything twice without a message (`C74_twice`).  `create_directories` returns false if
  another run made the directory after `is_directory` was called, so one of two runs that start together may end with
  an error (`C74_refused`).  The test of a file name and the write of the file are not one step; if two runs choose
  the same number in between, which is improbable, files of a complete run are overwritten (`C74_clash`).
* C72: `save` never checks its streams.  If the store file is cut off because the disk is full, but the record file is
  complete, the merger reports success with counts that are too small, and the blocks are never computed again.  A
  record file that cannot be opened makes the program hang at its start (`extract` waits for `eofbit`), and an empty
  line in a store file is a key made from an `int` that was never assigned.
* C34, C35: a crash inside the write of a record file leaves a truncated record.  Its last block may be read as another
  block or not at all, so that blocks are counted twice.
* C73: if there is no marked point and `2 genus + 2` is divisible by the prime, what is left of a line can even be another
  block of the same configuration (`C73_collision`: field of 3 elements, genus 2, packages of size 1).  The next run
  takes it for done, and its curves are never counted (`C73_less`).  In all other cases nothing is ever missing.
* C64: a merger that is started while a run goes on may find a record file that has been created and not written yet; it
  then counts results of blocks that are not in its record.
* C65: two runs at the same time must not use the same result directory: blocks are computed and counted twice, and since
  `new_filenames` tests whether a file exists before the file is made, the store of one run can be paired with the
  record of the other.
* C53: `Moduli` with a single value instead of a list is read as an empty list: the run does nothing and returns 0.
* C40: `Thread::assign` and `Thread::shutdown` change the flags and notify without holding the mutex under which the
  sleeper tests them; a wake-up between the test and the wait is lost and the run hangs.  Every run with threads
  can hang in this way when it ends (`C51_hangs`, `C60_hangs`), and in hycu-mpi every process with a thread
  (`C52_hangs`, `C60_hangs_mpi`), whatever the input is and however fair the scheduler.
* C51, C52: a run without threads (`hardware_concurrency()` may return 0, `-n 0`) spins forever.
* C53: if the master of `hycu-mpi` returns early (help, a missing option or file, an unknown store type), the workers wait
  forever in the first broadcast.
* C36: `Count::ValueType` is copied by the implicit assignment, which copies the handle of a FLINT integer: from 2^62 on
  this is undefined behaviour (use after free).
* C46: coefficients from p on are read as 1 by `hycu-single`.
* C55: `hycu-single` accepts the field size 2 and prints wrong numbers of points for it; if all coefficients are zero it
  reads the last entry of an empty vector; for constant polynomials the genus wraps to 2^31 - 1 (C24).
* C56: `hycu-merger` returns 0 if it cannot open its output files; if they are in the input directory, the next run counts
  them again.
* C48: if a random candidate for the generator is zero, the element table accepts it.
* C44: `WithMarkedPoint` is not optional: without it, as in the example configuration in README.md, the program throws.
* Not modelled, read off the source: README.md l.49 calls the merger with three arguments (store type, path, file), while
  src/executables/merger.cc l.69-71 declares two; the store type is commented out there.
* C44: numbers from 2^31 on in the configuration make the program throw (`as<int>`).
* Sections with the same result directory are outside of C35, C43 and C47; they are the subject of C76.
* The generators of the tables for different extension degrees need not match for fields without stored Conway
  polynomials ("fixme" in the code); the numbers of points may then be wrong (C57).
* C58: `OpenCLKernelEvaluation::enqueue` takes the coefficients by value and writes them with `CL_FALSE`; they may be freed
  before the device reads them.  The same holds for tables that are destroyed before any count.  `ReductionTable` tests its
  parameter `opencl` after it has been moved from.
* C79: the status of constructors is not looked at.  For the two buffers for results this is not made good by a later check:
  `setArg` accepts a null buffer, so that the kernel writes to a null pointer before the buffer is read.
* C80: `verify` does not check sizes: too large fields are undefined behaviour or end the program, the prime 2 ends it, and
  if the product of the exponents wraps around to 0, no points are counted.
* C85: the product of the exponents is an `unsigned int` (src/threaded/thread.cc l.115): for the field of 81 elements the
  count exponent 2^30 + 1 is accepted, and points are counted over the field of 81 elements only.
* C82: the number of points of a curve over the field of `2^31 - 1` elements may wrap around to 0, and the Hasse-Weil offset
  of a curve without points does not fit into `int`.
* C63: `count_naive_nmod` and `count_naive_zech` neither clear nor delete `poly_coefficients`: every call loses one field
  element for each coefficient.  `FqElementTable` has a destructor that deletes, and an implicit copy constructor.
* With `WITH_OPENCL` some of the source does not type check; the kernels are modelled as written.
