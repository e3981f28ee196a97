# QIP: formal model and proofs

Target: Renmusxd/QIP as found in `/repo` (Python + Cython).  The repository is only read; nothing of it is run.
The model is Lean 4 (4.33.0) with single Mathlib modules; sources are in `lean/Verif`.

## Trusted base

* The Lean 4 kernel, and the axioms `propext`, `Classical.choice`, `Quot.sound` (no others; no `sorry`, no
  `native_decide`, no `bv_decide`, no own axioms).
* The correspondence between `/repo` and the definitions under `lean/Verif/Model`, which was made by reading the
  source.  Every definition cites file and lines; simplifications are listed in its comment.
* Global simplifications, valid for all of the model:
  - amplitudes are exact: an arbitrary commutative ring for the linear part, `ℂ`/`ℝ` where magnitudes, square
    roots or phases are needed.  Floating-point rounding
    is modelled for gates (`Model/Float`, C90: the kernel of `Model/Kron`, which is generic in the numbers, run in an
    arithmetic with a relative and an absolute error (underflow) per sum and product, about which nothing is known beyond the largest
    number (overflow, NaN); the sum of a row may be re-associated and fused as `-ffast-math` allows) and for measurements
    (`Model/FMeasure`, C95: sums in any order; with relative errors only, and with underflow and overflow in `Props/FRanged`; C97: whole
    circuits, again with relative errors only, and with underflow and overflow in `Props/FCircuitRanged`;
    C113, C114 and C115: gates, measurements and jobs of both on several workers).
  - C `int`s are unbounded except in `Model/CInt`, where the bit primitives are modelled on 32-bit words and shown
    to agree with the unbounded versions below 31 bits, and in `Model/CKernel`, which models `cdot_loop` with 32-bit ints,
    structs and pointers; C91 shows that it agrees with the kernel of `Model/Kron` up to 30 qubits and how it fails above.
    `Model/CMeasure` and C93 do the same for the measurement kernels, `Model/CFunc` and C94 for func_apply.
  - reads of uninitialised memory and accesses outside a buffer (bounds checks are disabled in the Cython code) are
    explicit: garbage is a parameter, an out-of-bounds access is the error value `PyErr.ub`.
  - Python exceptions are values (`PyErr`).  `random.random()` is a parameter in [0,1).  Set/dict iteration order and
    thread schedules are parameters (arbitrary pick functions / permutations).
  - qubit indices are natural numbers (negative Python indices are not modelled, except as arguments of `split` and
    `extract_index`).
  - the manager's shared fields change under locks, so its histories are sequences of events; a worker's advertised
    number of qubits is not negative.
  - Python/numpy version breakage (`collections.Iterable`, `numpy.int`) is ignored; the code is read for the versions
    it was written for.
* Not modelled: protobuf wire encoding itself (only the conversion functions around it), TCP beyond an ordered byte
  stream, ssl, manager/worker logging, setup.py, `messages_pb2.py` (generated), the random number generator.

## Layout

* `Verif/Model/*`  the code, function by function.
* `Verif/Spec/*`   small specifications (tensor product, Born rule, DFT, ...), not using model helpers.
* `Verif/Lemmas/*` helper lemmas.
* `Verif/Props/*`  the property theorems, each with an `example` that its hypotheses can be met.

## Conventions

Qubit `q` of an n-qubit basis index `r` is bit `n-1-q` of `r` (qubit 0 most significant), written `qbit n r q`.
`subIndex n g r` is the number spelled by the qubits listed in `g`, first listed most significant.

## Plan per property

(“neg” = the property as stated is false of the code; the negation is proved with a witness, and what does hold is
proved as a `_partial` theorem.)

| id | what is modelled | how it is proved |
|----|------------------|------------------|
| C01 | `uint_to_bitarray`, `bitarray_to_uint` on integers/bit lists | induction on width, `Int` division |
| C02 | `qubit_index_notation`, `gen_qubit_prints` | induction on register list; mixed-radix reconstruction |
| C03 | `set_bit`, `get_bit`, `entwine_bit` on `BitVec 32` and on `Nat` | bit extensionality; loop invariant; refinement |
| C04 | `kronselect_dot`, `dot_loop`, `gen_valid_col_and_matcol` | loop closed form, bijection column patterns ↔ columns agreeing off the indices |
| C05 | `cdot_loop` (any prange schedule), `calc_mat_entry`, `CMat`, `SwapMat` | closed form of the C loop = closed form of the Python loop; induction on nesting |
| C06 | offsets of both kernels | sums over tilings |
| C07 | all error branches of `kronselect_dot` | case analysis, iff |
| C08 | mats as association lists | permutation invariance |
| C09 | `expand_kron_matrix` | neg: it returns the transpose; partial: transpose characterisation, symmetric case |
| C10 | kron result | linearity of finite sums |
| C11 | gate matrices, kron | composition on one group = matrix product |
| C12 | kron | commutation of disjoint groups |
| C13 | gate matrices, CMat, SwapMat | unitarity of the matrices by induction on nesting; isometry of kron |
| C14 | `MatrixOp.feed_indices` dagger branch, `CMat.conj/.T`, `SwapMat` without them | adjoint semantics; neg for Swap (AttributeError) |
| C15 | `COp.makemats`, nested, multi-target | product of overlapping CMats = controlled product |
| C16 | `SwapOp.makemats`, `SwapMat` | entry characterisation, permutation of basis states |
| C17 | `func_apply` with the inner-loop bound as written | neg (bystander qubits); partial: correct when #other = 0 or = #reg2; exact characterisation |
| C18 | prange over x as arbitrary permutation | disjoint write sets |
| C19 | `func_apply` twice | xor involution; neg/partial as C17 |
| C20 | `measure_probabilities` | loop invariant; sums over fibres |
| C21 | `measure_top_probabilities` with buffer accesses | neg (out-of-bounds, wrong heap); partial: top_k >= 2**k |
| C22 | both labelings | neg: reversed labels; partial: labels are bit reversals for sorted indices |
| C23 | `soft_measure` | inverse-CDF characterisation, for all draws |
| C24 | `soft_measure` | neg at draw 0; partial for draw > 0 |
| C25 | `measure`, backend swap of state/arena | projection; second measurement |
| C26 | validation branches | case analysis |
| C27 | `prob_magnitude` with garbage accumulator | neg; partial: garbage 0 |
| C28 | `reduce_measure` with bounds | neg for slices and repetition; partial for full input |
| C29 | sliced `soft_measure`/`measure` | sums over tilings |
| C30 | `gen_edit_indices`, `make_state`, feed part of `run` | bijection patterns ↔ indices |
| C31 | `make_state` windows | neg for empty feed with window not starting at 0; partial otherwise |
| C32 | `run_graph`, graph heap with API constructors | loop invariants; well-formedness of API-built heaps |
| C33 | `get_deps` with arbitrary pop order | closure characterisation, decreasing measure |
| C34 | `qbitindex` bookkeeping | invariant of run_graph |
| C35 | `run` on measurement-free circuits | refinement to a sequential interpreter |
| C36 | sequential interpreter | adjacent commutation, topological orders |
| C37 | as C35 | C13 along the run |
| C38-C45 | constructors, split, extract_index, set_sink, run re-use, strict, defaults | case analysis / invariants; neg for C38 (boundaries outside the register), C39 (int argument), C40 (ops bypass check), C41 (cached matrices), C43 (out-of-range int) |
| C46 | `make_circuit_mat` | neg: raises for every circuit; no positive part |
| C47 | `NodeFeeder` | invariant of run |
| C48, C49 | `QFFT`, `recQFFT` gate list | stage invariant of the product formula, bit reversal |
| C50-C54 | `qubit_util.py` wrappers and contexts | symbolic evaluation of the wrapper calculus; neg for C52, C53, C54 |
| C55, C56 | `SvgFeeder` geometry | induction over fed nodes; neg for C56 |
| C57 | `FormatSocket` | neg (split header, empty message); partial for the chunkings that work |
| C58 | `conversion.py` | structural induction |
| C59, C60 | `WorkerPool` allocation | list induction; tiling arithmetic |
| C61-C64 | worker protocol, transfer, schedules | C06 + transfer invariants; neg for C63 |
| C65, C66, C68 | manager measurement code | sums over grids; neg for C66, C68 |
| C67 | manager session life cycle | state machine invariant; neg on failing allocation |
| C69 | `indices_to_pbindices` | neg: int keys raise TypeError; partial: tuple keys |
| C70 | `shors.py` continued fractions | Euclid invariant |
| C71 | packing of index groups in `kronselect_dot` | neg: groups of different sizes; partial: one size |
| C72 | `makemats` of every gate, `MatrixOp.feed_indices` | closed form of the kernels, induction on control depth |
| C73 | operation constructors, `C` nesting | case analysis of the constructor, reachable sizes |
| C75 | loop of `classical` in `shors.py`, quantum part arbitrary | gcd arithmetic; neg for even N |
| C76 | `PrintFeeder`, `print_circuit` | fold over fed nodes, column by column |
| C77 | sockets after a sequence of kron products | exact count of unread acknowledgements; neg |
| C79 | program of the README | objects made by the program for a symbolic size, C35, product formula of H and C(Swap) |
| C80 | program of examples/grovers_iterative.py | objects for a symbolic size, C81, oracle and reflection as two-dimensional recurrence; neg: array loop, reversed report |
| C81, C83 | `state=` and `feed=` of `run` (Python truth values, `StateKw`), `get_deps` | C35 iterated; neg: arrays (C81), inner nodes (C83) |
| C85 | `run` with measurement nodes, one draw per `Measure` | the draws giving the outcomes `o` form a box, up to its faces, whose side for each measurement is the conditional probability; the sides multiply to the norm of the projected state |
| C82 | `make_circuit` of examples/shors.py and `run(m)` | the objects for symbolic sizes (the stochastic measurement and the split are not needed by `m` and do nothing), amplitudes by C48 and the oracle lemma, C85 |
| C86 | `quantum` of examples/shors.py for a sequence of measured peaks | recursion over the peaks, the pick loop on the reversed list; neg: peak 170 for x = 2, N = 21 |
| C87 | `make_circuit`, `run`, `gen_continued_fractions` together | C82; lower bound of the peak by a cosine sum (Cauchy-Schwarz over the residue classes); the pairs are the convergents, Legendre's theorem of Mathlib; disjoint draws of distinct reports (C47) |
| C84, C88, C78 | `DistributedBackend.make_state`, `kronselect_dot`, `measure`, `Manager.make_state`, `WorkerInstance.__init__`: a whole job | C59/C60 give the grid, C30/C31 the ranges, then C61/C65 for every operation; the next operation starts while workers are still busy: confluence of the network; neg: no vector fed (C84), requested outcomes (C78) |
| C89 | `measure_probabilities` of the distributed backend, `send_measure_top` | C21 and C68 on one worker; neg: more than one range, more than 11 qubits |
| C90 | `cdot_loop` in rounded arithmetic | distance to the exact state for any sequence of gates, probabilities; binary64 with underflow and overflow |
| C91 | `cdot_loop` with C ints, structs, pointers | refinement of the kernel of `Model/Kron`; representation invariant of the struct array; neg: 31 qubits, matrices on 16 qubits |
| C93 | measurement kernels with C ints | refinement of `Model/Measure`; loop invariant of `entwine_bit` carried over to words; neg: 31 unmeasured qubits |
| C94 | `func_apply` with C ints | refinement of `Model/FuncApply` iff register 2 is no longer than the list of other qubits; neg: reads behind `other_indices`, 32 qubits |
| C95 | measurement kernels in rounded arithmetic | relative errors as factors (`Rel`), borders of the outcomes moved by at most `drawErr`; with underflow and overflow factors and absolute errors (`Within`), borders moved by at most `drawErr` and `drawTiny`; Lebesgue measure of the draws; neg: rounded remainder passes every possible outcome |
| C96 | distributed measurement of states of any norm | all schedules as in C65; neg: squared norm below the draw (AttributeError) or above 1 (workers die), with a coin made of doubles |
| C97 | calls of the local backend in rounded arithmetic: gates, inverse gates, oracles, measurements | draws of all measurements form a product of sets; invariant: scaled computed state close to the exact branch, squared norm close to the volume so far; with underflow: outcomes of probability below a threshold (2^-200) are given up and their draws counted as error |
| C92 | `run` with `DistributedBackend` | induction over the fed nodes, each request against the steps of C88, draws chosen from the reported outcomes; neg: functions, one-qubit gates, distributions |
| C98 | `run` with `DistributedBackend`, all random numbers independent and uniform (infinite product measure) | the draws giving the outcomes are, up to a null set, a disjoint union of boxes: per measurement the manager's draw picks a worker and that worker's draw at a known operation count picks the outcome; induction with earlier draws fixed to a box |
| C99 | `run` with `DistributedBackend` | a node asks at most once; induction over the order of C32 with the replies used so far; compared with the run on the changed replies |
| C100 | the dictionaries of `WorkerPoolServer` after every history of calls | lookups expressed by the list of connections made for the job since its last closing; the transfers of a synchronisation are those of `syncTasks` |
| C101 | `serve_client` with every sequence of requests, every way an operation ends, every message that cannot be sent | induction over the requests; the changes of the manager are a history of C67; neg: workers that do not suffice, exceptions other than IOError |
| C102 | jobs on the network followed by `WorkerPool.close` | all schedules as in C88; neg by invariants of all executions: a dead worker that the manager needs; unread confirmations at the head of the queues |
| C103 | threads taking `sendlock` and `recvlock` in any order, writing in any pieces | invariants of all executions: bytes written = frames of the messages in lock order; results = those of one thread; neg by executions with a timeout or a replaced socket |
| C104 | the accept loops of the manager and of the workers' servers on any sequence of connections | induction over the connections; neg: one connection that says nothing, says garbage or breaks off; `stop` |
| C105 | program of examples/qfft_example.py | objects for a symbolic size, C48, the two reports among the steps of C35; a tone as geometric sum; neg: reversed indices |
| C106 | `classical` of the Shor example over all draws | units modulo a product: at most half have equal powers of two in the orders of both components (cyclic factor); counting sequences; neg: prime powers, primes, period 2 |
| C107 | all jobs alive at the same time | the workers of live jobs are different (C67), so the system is a product of networks: projection and interleaving of executions; C88 for each job |
| C108 | `Manager.close` after any history | counting workers over all keys of `job_pools` (free or in one pool); neg: an unreachable worker, failed setups, gates confirmed after stopping |
| C109 | `repr` of the nodes, `trim_op_name`, drawing with a bounded stack (counted: nested calls of `__repr__`, with one more for every `C`), `__hash__` of nodes in `get_deps` and `run_graph` | the fold of C55/C76 with a guard on every node and its sinks; lengths and depths of texts by induction over the nodes; every operation inside a `COp` is an object made between inputs and `COp` (`built_deep`); neg: `k` successive `F` (text of `2**k` characters), `k` successive `R` (RecursionError) |
| C110 | the cluster over time: connecting, placing, setting up, running, closing and reusing workers | simulation: every job of the cluster is in a state it reaches alone; every worker has a queue of jobs it has not left, of which all but the first are not begun; the messages to it are those of the queue in order; confluence of each job alone (C88, C102) |
| C111 | circuits of many clients on one cluster | C110 for jobs that come from `run` (C92): the requests of a run do not depend on the replies, so the job is fixed in advance; closing of an idle grid (C102) |
| C112 | long jobs finish although sockets hold a bounded number of messages | network with capacities; steps still commute (a process's room only grows by steps of others), so one execution decides; an execution with one chunk on the way at a time and as many acknowledgements as remain at the end; converse from C77: a finished job has left them all; whole jobs: measurements leave them on the way back only |
| C113 | rounding errors on several workers | C90 for the slices of a row that the workers hold (the terms of a row are divided by the range of their column), then the additions of the parts in any order; the processes compute this under every schedule (as C61, with nothing assumed about the addition); neg: two orders of connections, two amplitudes |
| C114 | measurements on several workers, rounded | the borders of the workers in the interval of the manager's draws and those of the outcomes in the interval of the worker's draws are off by at most `selectErr` and `drawErr`; the law is that of C65 for rectangles, enlarged or shrunk by these; with underflow and overflow both are off by `distTiny` more, an absolute error (below 2^-800 in binary64), and the law stays that of the rectangles; neg: the only outcome gets probability 1 + 2^-52 |
| C115 | jobs with measurements on several workers, rounded | the invariant of C97 with two more numbers: how far the squared norm is from 1 (the manager compares its draw with unnormalised probabilities) and how much the bound exceeds 1; the state after a measurement depends on the selected worker, so the bounds of C114 are used as boxes, one for every worker, with the largest (upper bound) or smallest (lower bound) probability of the rest; the processes compute this under every schedule (the result of a measurement does not depend on the old contents of the buffers that a collapse reuses); where the workers reject a probability although the outcome is not nearly certain, the computed state is far from the exact one, so the branch is improbable (`C115_undecided`); neg: the job of C114. With underflow and overflow (`Props/FDistCircuitRanged`): outcomes with a probability of at most `low` are treated as in C97, by a term with the square root of `low` in the factor of a measurement; for the processes in `Props/FDistJobRanged` |
| C116 | the loop of a worker over the commands of its manager, and the end of its process | induction over what is heard; neg: the field `close` does not exist, the server thread never ends |
| C117 | the calls of a client composed with the session of C101 | induction over the calls: the manager's messages are what the client reads; a connection with nothing left to read that is closed at either end gives only exceptions; neg: refused setups, sessions whose end cannot be told, second `close` |
| C118 | the cached matrices followed through exceptions | a run changes a cached entry only from nothing to what `feed_indices` leaves; without inverses of swaps that is what a fresh run computes; neg: the list of inverse swaps without matrices loses its first element with every failing run; a (controlled) swap is its own adjoint, so the later runs are right |
| C119 | `run` with a bounded stack: `__hash__` is the hash of the whole `repr`, computed for every key of `feed`, every node `get_deps` meets and every sink `run_graph` looks up | `get_deps` with hashes is `get_deps` guarded by the reachable nodes (`getDepsIn_spec`), the fold over the nodes is checked after every step; neg: `k` rotations, one more rotation made from the output of a circuit, `k` successive `F` |
| C120 | `run` raises exactly if a fed value is no vector, a vector is too short, or a fed node is no input of the circuit; longer vectors give the run of the cut vectors | `gen_edit_indices` for arbitrary groups, repeated indices included (`genEditIndices_any`); the last value of its counter reads the last entry of every vector (`groupFlips_ones`), and no value reads beyond (`groupFlips_lt`); of the counters that write to a basis state the last has ones at all repeated places (`bitsVal_le_lastBits`); neg: too long vectors, a qubit fed twice |
| C121 | two runs of `run` whose feeds differ by phases and whose environments differ in all but the draws | the measurement kernels read only the squared absolute values of the entries (`chooseOutcome_phase`, `measureProbabilities_phase`, `measureTop_phase`); operations are linear (`local_node`); simulation over the nodes (`feedAll_rotated`) |
| C122 | draws of `run` (`reportsOf`, `drawsOf`) | projections and operations on disjoint qubits commute (`branch_comm`), so what a downward closed set of nodes does not contain can be moved to the end (`branch_last`), one node after the other, latest first; there operations keep the norm and the outcomes of a measurement add up (`marginal`); false if a qubit is used twice, witness `a = H(q); m = Measure(q)` (`C122_used_twice_fails`) |
| C123 | results of successful runs | what a run reports has positive joint probability (`reported_pos`, from the proof of C85); the second measurement commutes with everything between the two (`branch_move`), and projections on different outcomes cancel (`project_twice`) |
| C74 | `CythonBackend` range access, with numpy broadcasting of single values | list extensionality |

## Modules

| model | code | properties |
|-------|------|------------|
| `Model/Bits`, `CInt` | `qip/util.py`, bit helpers of `qip/ext/kronprod.pyx` | C01-C03 |
| `Model/Mat`, `Kron`, `Gates` | `kronprod.pyx` kernels, `qip/util.py:kronselect_dot`, `qip/ext/matrix types`, gate matrices of `operators.py` | C04-C16, C71, C72 |
| `Model/FuncApply` | `func_apply.pyx` | C17-C19 |
| `Model/Measure` | measurement kernels | C20-C29 |
| `Model/Backend` | `qip/backend.py` (`CythonBackend`), feed/`make_state` of `qip/util.py` | C30, C31, C74 |
| `Model/Graph` | `qip/qip.py`: qubit objects as a heap (`Heap`), constructors, `split`, `extract_index`, `get_deps` | C33, C38-C45 |
| `Model/Run` | `qip/pipeline.py`: `run`, `run_graph`, node feeders, cached matrices (`MsTable`) | C32-C37, C41-C43, C46, C47, C81, C83, C85 |
| `Model/Wrap` | `qip/qubit_util.py`, `qip/qfft.py`: wrapped constructors, contexts, circuit functions | C48-C54 |
| `Model/Examples` | the programs of README.md, examples/cswap_measure.py, examples/grovers_iterative.py, examples/qfft_example.py and `make_circuit` of examples/shors.py | C79, C80, C82, C105 |
| `Model/Shor` | `examples/shors.py`: `classical`, `quantum` (given the measured numbers; `numpy.log2` exact), continued fractions with `int(c/q)` as correctly rounded binary64 division | C70, C75, C86, C87, C106 |
| `Model/Svg`, `Print` | `qip/svgwriter.py` (a text is the list of its elements), `PrintFeeder` | C55, C56, C76 |
| `Model/Repr` | `__repr__` of all node classes, `trim_op_name`, `__hash__`, `get_deps`, `make_svg` and `print_circuit` with a bounded number of nested calls (one number for all call sites, which differ by a few calls) | C109 |
| `Model/Frame` | `qip/distributed/formatsock.py`: framing over an arbitrary chunking of the byte stream | C57 |
| `Model/Wire` | `qip/distributed/proto/conversion.py`: conversions to and from message objects | C58, C69 |
| `Model/Pool`, `Manager` | `qip/distributed/manager.py`: drawing and placing workers; sessions as events | C59, C60, C67 |
| `Model/Top` | `WorkerPool.send_measure_top`: aggregation of reports | C68 |
| `Model/Net`, `Worker` | processes with message queues; `WorkerInstance.run`, `WorkerPoolServer`, `WorkerPool.send_kronprod`, `send_measure`, `send_measure_top` as processes | C61-C65, C77, C89 |
| `Model/Bounded` | the same processes when a message can be sent only if the socket has room; capacities count messages | C112 |
| `Model/Job` | `DistributedBackend` up to the messages, placing and setting up the workers, decoding of operations; ids, sockets and error replies are left out | C78, C84, C88, C89 |
| `Model/Jobs` | the loop of `serve_client` over all operations of a job, and the product of the networks of several jobs (a worker knows only its job and its partners); failed operations end the job (C101) | C88, C107 |
| `Model/Cluster` | manager threads, `free_workers`, worker processes that serve one job after the other, one queue of messages per socket kept for all jobs; peer connections per job; the operations of a client are given in advance (its requests arrive in time) | C110, C111 |
| `Model/Stop` | `Manager.close`, `WorkerPool.close`, the keys of `job_pools` | C108 |
| `Model/Float` | complex numbers with rounded sums and products (classes `Ideal`: unbounded exponents, `Ranged`: underflow and overflow); `cdot_loop` with the sum of a row as a parameter (`kronselectDotF`; equal to the kernel of `Model/Kron` if the sum is in the order of the source, `C90_in_order`) | C90 |
| `Model/FDist` | a gate on a state cut into ranges, on rounded amplitudes: what worker `(i, j)` computes, and the sum of the parts in the order of the connections; gates only | C113 |
| `Model/FDistMeasure` | what manager and diagonal workers compute for one measurement, on rounded amplitudes and probabilities: selection of a worker, outcome, sum of the probabilities, collapse; as one function (the messages are those of `Model/Worker`) | C114 |
| `Model/FDistCircuit` | requests one after the other: `distKronF` of `Model/FDist` and `distMeasureF`; the outcome a failing measurement has chosen is part of the result | C115 |
| `Model/FNet` | the processes of `Model/Worker` for kron products, synchronisations and measurements, on rounded amplitudes and probabilities (messages carry doubles unchanged); the random numbers of a worker are a function of the number of messages it has received, those of the manager a list; `Lemmas/FNet*` repeat the lemmas on transfers, synchronisations and measurements for them | C113, C115 |
| `Model/CKernel` | `cdot_loop` and `calc_mat_entry` of kronprod.pyx on 32-bit ints, with `malloc`ed structs; undefined behaviour is an error value. The bounds of the arrays, not their addresses, are modelled; `malloc` succeeds | C91 |
| `Model/CMeasure` | `entwine_bit` and the measurement kernels of kronprod.pyx on 32-bit ints with checks; `long` variables are unbounded below 2^63, `2**k` of C numbers is a `long`; variables that are never used are left out | C93 |
| `Model/CFunc` | func_apply.pyx on 32-bit ints with checked shifts and memory; `reg1_indices`/`reg2_indices` disjoint and free of duplicates in the theorems | C94 |
| `Model/FMeasure` | `measure_probabilities`, `prob_magnitude`, `soft_measure`, `measure` with the operations on doubles as parameters (`FOps`); exact operations give `Model/Measure` (`C95_exact`); `abs` is the root of the sum of the squares; overflow and underflow only in the theorems named ranged and binary64 (`Spec.Ranged`) | C95 |
| `Model/FCircuit` | `CythonBackend.kronselect_dot`, `func_apply`, `measure` on rounded amplitudes (offsets 0), one after the other | C97 |
| `Model/DistRun` | `run` of pipeline.py with the methods of `DistributedBackend`, as seen by the client: requests sent and replies read; a reply of the wrong kind and the comparison of job ids are left out | C92, C98, C99 |
| `Model/Conn` | `WorkerPoolServer`: the three dictionaries, `run`, `make_connection`, `close_connections` and the lookups of the transfer methods; the `sync` branch of `WorkerInstance.run`; sockets and job ids are numbers, every method runs under `workerlock` | C100 |
| `Model/Session` | `Manager.serve_client`, `make_state`; how `pool.send_op` and `allocate_workers` end and which messages can be sent is given from outside; the two locks are not modelled (a session is run by itself) | C101 |
| `Model/Client` | the methods of `DistributedBackend` on a connection; the operations' results come from `Model/Session`; the connection to the manager itself works; a connection the manager has left open without closing it is closed by Python's reference counting when `ManagerServer.run` accepts the next one (`later`) | C117 |
| `Model/Retry` | `run` as in `Model/Run`, with the matrices the operations hold after an exception | C118 |
| `Model/RunIn` | `run` as in `Model/Run`, with the hashes it computes and a bounded number of nested calls | C119 |
| `Model/Close` | `WorkerPool.close` on the network; a connection lost in `recv` (the manager goes on to close the pool) | C102 |
| `Model/Locks` | `FormatSocket.send`, `recv`, `close`, `closeswapsock` as steps of threads between taking locks and system calls; timeouts and failing connections; `rawsend` and `rawrecv` (unused) are not modelled | C103 |
| `Model/Accept` | the loops of `ManagerServer.run` and `WorkerPoolServer.run`, `stop`; the parser of protobuf is a parameter; `accept` itself and starting threads do not fail | C104 |
| `Model/Runner` | `WorkerRunner.run` with the commands that arrive between jobs; a job is a parameter (the exception it raises, if any); `HasField` raises ValueError for names that are no fields; the process ends when its non-daemon threads have | C116 |
| `Model/Reduce` | `WorkerPool.get_workers_up_to_output`, `send_reduce_measure` (manager.py 238-246, 356-441); undefined behaviour in a worker stops that worker | C66 |

`Check/UtilTest` runs the cases of `tests/utiltest.py` on the model (`#guard`, evaluated when the module is built).  These are tests
that the model agrees with what the authors of the code expect of `kronselect_dot` (both kernels) and `func_apply`; no
claim rests on them.

Object identity is a natural number, `Heap.Built h env` says the heap was made by calls of the public constructors with
the user holding the objects `env`; nothing else mutates `inputs`, so the graph is acyclic by construction.  Circuit
functions and contexts run in a state monad `W` whose state is the heap, the context stack, the count of context
qubits and the table of control wrappers per circuit function; `IsProg` are the Python programs that can be written with
the library (used for stack discipline), `Circ` straight-line circuit functions (used for semantics).

A distributed job is a set of deterministic processes (manager, one per worker) joined by queues (`Model/Net`): `exec`
runs the processes in the order given by an arbitrary schedule, and `AlwaysEnds c f` says that all schedules lead from `c`
to the same final configuration `f` in the same number of steps.  Messages are delivered whole and in order (framing is
C57), socket buffers are unbounded (except for C112), all messages belong to one job, and the connections between workers have been
registered by the server threads of the diagonal workers before the first synchronisation (`WParam.regs`).

## Properties that are false of the code

Every one has a theorem with a concrete or general witness: C09, C14 (swap), C17, C19, C21, C22, C24, C27, C28, C31, C39,
C40, C41, C43, C46, C50 (parameters), C51 (two qubits), C52, C53, C54, C56, C57 (split headers, empty messages),
C62 (empty vector), C63 (later transfers), C64 (unregistered connection), C65 (draw 0), C66 (every new job), C77 (unread
acknowledgements), C67 (failing messages), C68 (different largest outcomes), C69 (one-qubit gates), C70 (large numbers), C71, C75 (even N), C80 (array loop, reversed index), C81 (arrays), C83 (inner nodes), C86 (wrong period),
C78 (every request), C84 (no vector fed; basis states given as ints), C89 (more than one range, twelve qubits), C92 (functions, one-qubit gates, distributions), C94 (few other qubits, 32 qubits), C95 (rounded remainder), C96 (norm not exactly 1),
C101 (too few workers, exceptions in operations), C102 (dead workers, lost connections), C103 (timeouts, replaced
sockets), C104 (silent connections, garbage, stop), C105 (order of the entries), C74 (single values), C106 (prime powers, period 2), C108 (unreachable workers, failed setups, confirmed gates), C109 (long and deep texts), C112 (full sockets), C116 (shutdown), C117 (waiting clients, second `close`), C118 (inverses of swaps), C119 (deep circuits, operations nobody runs, long texts), C120 (long vectors, qubits fed twice), C122 (qubits used twice).  The manifest marks them `partial`; the
positive theorems next to them carry the hypotheses under which the claim holds.
