{"id": "C01", "title": "Bit-array encoding round-trips", "statement": "uint_to_bitarray(num, n) is the n-bit big-endian binary expansion of num mod 2**n: bitarray_to_uint(uint_to_bitarray(num, n)) == num % 2**n, and uint_to_bitarray(bitarray_to_uint(bits), len(bits)) == bits for every list of 0/1 bits.", "quantifier": "every integer num (negative ones included), every width n, every bit list", "why_tests_cant": "Infinitely many widths and numbers; the basis-state labelling of every state vector rests on it.", "anchors": ["qip/util.py:uint_to_bitarray", "qip/util.py:bitarray_to_uint"]}
{"id": "C02", "title": "Register notation of a basis index", "statement": "qubit_index_notation(i, n1, ..., nk) returns the values (x1,...,xk), xj < 2**nj, whose big-endian concatenation is i, so different basis indices below 2**(n1+...+nk) get different notation; gen_qubit_prints emits one line per nonzero amplitude, in increasing basis index, labelled by that notation.", "quantifier": "every index, every list of register sizes, every state vector", "why_tests_cant": "Unbounded register lists and indices.", "anchors": ["qip/util.py:qubit_index_notation", "qip/util.py:gen_qubit_prints"]}
{"id": "C03", "title": "Bit primitives on 32-bit C ints", "statement": "set_bit(num, i, v) changes exactly bit i of a 32-bit C int to (v != 0); get_bit reads bit i; entwine_bit(k, n-k, a, b, mask) is the n-bit number whose masked positions spell a and whose unmasked positions spell b (most significant first), and is a bijection between pairs (a, b) and n-bit numbers; for all widths up to 31 the 32-bit computation agrees with unbounded arithmetic.", "quantifier": "every int value, bit position, mask and width", "why_tests_cant": "2**32 values per argument, and masks over all widths.", "anchors": ["qip/ext/util.pyx:set_bit", "qip/ext/util.pyx:get_bit", "qip/ext/util.pyx:entwine_bit"]}
{"id": "C04", "title": "kronselect_dot is the tensor product operator", "statement": "kronselect_dot(mats, vec, n, out) writes out[r] = sum over columns c of K[r,c]*vec[c], K being the tensor product of the given matrices on their listed qubits (first listed index most significant) and identity on all other qubits.", "quantifier": "every n, every set of index groups and matrices, every vector", "why_tests_cant": "Exponentially many index placements for every n; tests only try n=3.", "anchors": ["qip/util.py:kronselect_dot", "qip/util.py:dot_loop", "qip/util.py:gen_valid_col_and_matcol"]}
{"id": "C05", "title": "The compiled and the Python kron kernels agree", "statement": "For the same mats, vector, n and offsets cdot_loop writes exactly the values dot_loop writes, for dense matrices, SwapMat and arbitrarily nested CMat.", "quantifier": "every n, index groups, matrix objects (any CMat nesting depth), vectors and offsets", "why_tests_cant": "Two independent implementations; nesting depth and sizes are unbounded.", "anchors": ["qip/ext/kronprod.pyx:cdot_loop", "qip/ext/kronprod.pyx:calc_mat_entry", "qip/util.py:dot_loop", "qip/operators.py:CMat", "qip/operators.py:SwapMat"]}
{"id": "C06", "title": "Sliced kron products reassemble", "statement": "Running the kron product on input slices and output slices (input_offset/output_offset) and adding the partial outputs of all slices that tile the input gives, on every output slice, exactly the corresponding slice of the full product.", "quantifier": "every tiling of the input range, every output window, every n and mats", "why_tests_cant": "All tilings of all ranges; this is what the distributed workers rely on.", "anchors": ["qip/util.py:dot_loop", "qip/ext/kronprod.pyx:cdot_loop", "qip/util.py:kronselect_dot"]}
{"id": "C07", "title": "kronselect_dot rejects malformed calls", "statement": "kronselect_dot raises, and computes nothing, when the input or output vector plus offset exceeds 2**n or when some matrix is not 2**k x 2**k for its k indices, or when an index is not below n; otherwise it does not raise.", "quantifier": "every call", "why_tests_cant": "All combinations of lengths, offsets and shapes.", "anchors": ["qip/util.py:kronselect_dot"]}
{"id": "C08", "title": "Order of the matrix dictionary is irrelevant", "statement": "The result of kronselect_dot does not depend on the iteration order of the mats mapping.", "quantifier": "every permutation of every mats mapping", "why_tests_cant": "Factorially many orders.", "anchors": ["qip/util.py:kronselect_dot", "qip/util.py:dot_loop"]}
{"id": "C09", "title": "expand_kron_matrix returns the operator's matrix", "statement": "expand_kron_matrix(mats, n) returns the 2**n x 2**n matrix M with M.dot(v) equal to the kronselect_dot result for every vector v.", "quantifier": "every mats, n and vector", "why_tests_cant": "Universal over matrices and vectors; symmetric examples hide a transposition.", "anchors": ["qip/util.py:expand_kron_matrix"]}
{"id": "C10", "title": "Matrix operations act linearly", "statement": "Applying a matrix operation to a*v + b*w gives a times the result on v plus b times the result on w.", "quantifier": "every n, mats, scalars and vectors", "why_tests_cant": "Uncountably many vectors.", "anchors": ["qip/util.py:kronselect_dot"]}
{"id": "C11", "title": "Sequential application multiplies matrices; X, Y, Z, H, Swap are self-inverse", "statement": "Applying A and then B to the same qubits equals applying the product BA once; hence Not, X, Y, Z, H (on any qubits) and Swap applied twice return the original state, and Rm(m) followed by its inverse phase does.", "quantifier": "every n, qubit choice, matrices and state", "why_tests_cant": "All n and states.", "anchors": ["qip/operators.py:NotOp", "qip/operators.py:YOp", "qip/operators.py:ZOp", "qip/operators.py:HOp", "qip/operators.py:ROp", "qip/operators.py:SwapOp", "qip/util.py:kronselect_dot"]}
{"id": "C12", "title": "Operations on disjoint qubits commute", "statement": "Two matrix operations whose qubit sets are disjoint give the same final state in either order.", "quantifier": "every n, disjoint qubit sets, matrices and states", "why_tests_cant": "All pairs of placements.", "anchors": ["qip/util.py:kronselect_dot", "qip/pipeline.py:run_graph"]}
{"id": "C13", "title": "Every gate preserves total probability", "statement": "Applying Not, X, Y, Z, H, R(phi), Rm(m), Swap, or C(...) nested to any depth over these, to any qubits of any n-qubit state leaves the sum of squared magnitudes unchanged.", "quantifier": "every n, placement, angle, control depth and state", "why_tests_cant": "Continuous angles and states, unbounded depth.", "anchors": ["qip/operators.py", "qip/util.py:kronselect_dot"]}
{"id": "C14", "title": "dagger=True applies the adjoint", "statement": "A matrix operation constructed with dagger=True applies the conjugate transpose of the operation without it, so op followed by its dagger restores the state for every unitary gate, including controlled gates.", "quantifier": "every matrix op supporting dagger, every state", "why_tests_cant": "Continuous state space, unbounded control nesting.", "anchors": ["qip/operators.py:MatrixOp.feed_indices", "qip/operators.py:CMat.conj", "qip/operators.py:CMat.T"]}
{"id": "C15", "title": "C(op) is the controlled operation", "statement": "C(op)(c, qs...) leaves every amplitude with control bit 0 unchanged and acts as op on the amplitudes with control bit 1, also for multi-qubit targets and for arbitrarily nested C(C(...)).", "quantifier": "every op, target list, nesting depth, n and state", "why_tests_cant": "Unbounded nesting and sizes.", "anchors": ["qip/operators.py:COp.makemats", "qip/operators.py:CMat", "qip/operators.py:C"]}
{"id": "C16", "title": "Swap exchanges two registers", "statement": "Swap(a, b) maps |x>_a|y>_b to |y>_a|x>_b, leaves all other qubits alone, for any two registers of equal size placed anywhere.", "quantifier": "every register size, placement and state", "why_tests_cant": "All sizes and placements.", "anchors": ["qip/operators.py:SwapOp", "qip/operators.py:SwapMat", "qip/ext/kronprod.pyx:calc_mat_entry"]}
{"id": "C17", "title": "F applies a classical function reversibly", "statement": "F(f, reg1, reg2) maps every |x>|q>|r> to |x>|f(x) xor q>|r>, r being the state of all other qubits.", "quantifier": "every function f, register placement, n and state", "why_tests_cant": "All functions and all numbers of bystander qubits.", "anchors": ["qip/ext/func_apply.pyx:func_apply", "qip/operators.py:FOp"]}
{"id": "C18", "title": "Parallel function application is schedule independent", "statement": "The state written by func_apply does not depend on the order in which the parallel loop over x is executed, nor on pregen.", "quantifier": "every iteration order, function, placement and state", "why_tests_cant": "All interleavings.", "anchors": ["qip/ext/func_apply.pyx:func_apply"]}
{"id": "C19", "title": "F is its own inverse", "statement": "Applying the same F twice restores the state.", "quantifier": "every f, placement and state", "why_tests_cant": "All functions and states.", "anchors": ["qip/ext/func_apply.pyx:func_apply"]}
{"id": "C20", "title": "Marginal probabilities", "statement": "measure_probabilities(indices) returns 2**k nonnegative numbers; entry b is the total squared magnitude of the basis states whose qubit indices[j] equals bit j of b; the entries add up to the total squared norm; the state is unchanged.", "quantifier": "every state, n and list of distinct qubits", "why_tests_cant": "All states and placements.", "anchors": ["qip/ext/kronprod.pyx:measure_probabilities", "qip/qip.py:StochasticMeasure"]}
{"id": "C21", "title": "top_k returns the k most probable outcomes", "statement": "With top_k = k the result lists min(k, 2**len(indices)) distinct outcomes with their probabilities, in decreasing order, and no omitted outcome is more probable than a listed one; only memory inside the result buffers is touched.", "quantifier": "every state, qubit list and k", "why_tests_cant": "All probability orders; heap bugs depend on the order.", "anchors": ["qip/ext/kronprod.pyx:measure_top_probabilities"]}
{"id": "C22", "title": "Outcome labels agree between measurement modes", "statement": "The outcome label under which StochasticMeasure (without top_k) reports a probability is the same label top_k mode and Measure use for that outcome.", "quantifier": "every state and qubit list", "why_tests_cant": "Small symmetric examples hide label permutations.", "anchors": ["qip/ext/kronprod.pyx:measure_probabilities", "qip/ext/kronprod.pyx:measure_top_probabilities", "qip/ext/kronprod.pyx:soft_measure"]}
{"id": "C23", "title": "Measurement outcomes follow the Born rule", "statement": "When the random draw u is uniform on [0,1), Measure returns outcome m exactly for the u in an interval of length prob(m)/total, prob(m) being the squared norm of the component of the state whose measured qubits (in increasing qubit order, most significant first) spell m; the returned probability is prob(m).", "quantifier": "every state, qubit set and draw", "why_tests_cant": "A continuum of draws and states.", "anchors": ["qip/ext/kronprod.pyx:soft_measure", "qip/ext/kronprod.pyx:measure", "qip/qip.py:Measure"]}
{"id": "C24", "title": "Impossible outcomes are never returned", "statement": "Measuring never returns an outcome of probability zero, so the post-measurement state is always finite.", "quantifier": "every state of nonzero norm, qubit set and draw", "why_tests_cant": "The failing draw has probability 2**-53.", "anchors": ["qip/ext/kronprod.pyx:soft_measure"]}
{"id": "C25", "title": "Measurement collapses and normalises", "statement": "After measure returned (m, p), amplitudes inconsistent with m are 0, the others are divided by sqrt(p), the state has norm 1, and measuring the same qubits again returns m with probability 1 and leaves the state unchanged.", "quantifier": "every state, qubit set, outcome and subsequent draw", "why_tests_cant": "All states; second-measurement histories.", "anchors": ["qip/ext/kronprod.pyx:measure", "qip/backend.py:CythonBackend.measure"]}
{"id": "C26", "title": "Forced outcomes are honoured and bad ones rejected", "statement": "measure(..., measured=m) collapses onto m and reports prob(m); m outside [0, 2**k) or measured_prob outside (0,1] raises ValueError and leaves the state as it was.", "quantifier": "every m, measured_prob, state and qubit set", "why_tests_cant": "All values and states.", "anchors": ["qip/ext/kronprod.pyx:measure", "qip/ext/kronprod.pyx:reduce_measure", "qip/ext/kronprod.pyx:soft_measure"]}
{"id": "C27", "title": "total_prob is the squared norm", "statement": "total_prob() returns the sum of squared magnitudes of the state.", "quantifier": "every state", "why_tests_cant": "Depends on an uninitialised accumulator: any test run may happen to see 0.", "anchors": ["qip/ext/kronprod.pyx:prob_magnitude", "qip/backend.py:CythonBackend.total_prob"]}
{"id": "C28", "title": "reduce_measure yields the reduced state", "statement": "reduce_measure collapses the measured qubits and outputs the 2**(n-k) amplitudes of the remaining qubits in order, rescaled by 1/sqrt(p), reading only memory inside the state vector.", "quantifier": "every state, qubit set, outcome, input and output slice", "why_tests_cant": "All slices and outcomes; out-of-bounds reads are invisible to tests.", "anchors": ["qip/ext/kronprod.pyx:reduce_measure", "qip/backend.py:CythonBackend.reduce_measure"]}
{"id": "C29", "title": "Sliced measurement", "statement": "The per-slice soft_measure probabilities of an outcome add up over slices that tile the state to the outcome's probability, and measuring each slice with the same outcome and probability yields the slices of the collapsed state.", "quantifier": "every tiling, outcome and state", "why_tests_cant": "All tilings.", "anchors": ["qip/ext/kronprod.pyx:soft_measure", "qip/ext/kronprod.pyx:measure"]}
{"id": "C30", "title": "Initial state is the product of the fed states", "statement": "The initial amplitude of a basis state is the product over fed groups of the fed amplitude at the group's bits (first listed qubit most significant) if all unfed qubits are 0, and 0 otherwise.", "quantifier": "every n, disjoint feed groups (any order, tuple feeds included) and fed vectors", "why_tests_cant": "All group placements.", "anchors": ["qip/backend.py:CythonBackend.make_state", "qip/util.py:gen_edit_indices", "qip/pipeline.py:run"]}
{"id": "C31", "title": "Workers' initial slices tile the initial state", "statement": "make_state with an input window returns exactly that window of the full initial state.", "quantifier": "every window, n and feed", "why_tests_cant": "All windows and feeds.", "anchors": ["qip/backend.py:CythonBackend.make_state", "qip/distributed/worker/worker.py:WorkerInstance"]}
{"id": "C32", "title": "run executes every needed node exactly once, after its inputs, in creation order", "statement": "run(outputs) applies each node the outputs depend on exactly once, applies no other node, never applies a node before one of its inputs, and applies operations in the order they were constructed.", "quantifier": "every circuit built through the API and every choice of outputs", "why_tests_cant": "All DAG shapes.", "anchors": ["qip/pipeline.py:run_graph", "qip/pipeline.py:get_deps", "qip/pipeline.py:NodeFeeder"]}
{"id": "C33", "title": "Dependency collection is deterministic and terminates", "statement": "get_deps terminates and returns the input qubits and all nodes the outputs depend on, whatever order the sets are iterated in.", "quantifier": "every circuit, outputs and set iteration order", "why_tests_cant": "Hash-order schedules.", "anchors": ["qip/pipeline.py:get_deps"]}
{"id": "C34", "title": "Qubit index bookkeeping", "statement": "During a run every node is given as many distinct qubit indices below n as its size; input qubits get consecutive blocks in creation order; an operation's outputs keep the indices of its inputs; nodes alive at the same time never share an index if no node is consumed twice.", "quantifier": "every circuit built through the API", "why_tests_cant": "All DAG shapes.", "anchors": ["qip/pipeline.py:run_graph", "qip/qip.py:SplitQubit.select_index"]}
{"id": "C35", "title": "run computes the circuit", "statement": "The state returned by run is the initial product state transformed by the operations in construction order, each acting on the qubits it was given.", "quantifier": "every measurement-free circuit built through the API, every feed", "why_tests_cant": "All circuits.", "anchors": ["qip/pipeline.py:run", "qip/pipeline.py:feed_forward", "qip/qip.py:Qubit", "qip/operators.py:MatrixOp.feed_indices"]}
{"id": "C36", "title": "Independent operations may be constructed in any order", "statement": "If no qubit is consumed twice, every execution order that respects dependencies gives the same final state.", "quantifier": "every such circuit and every dependency-respecting order", "why_tests_cant": "Factorially many orders.", "anchors": ["qip/pipeline.py:run_graph"]}
{"id": "C37", "title": "A measurement-free run preserves the norm", "statement": "The squared norm of the state returned by run equals that of the initial state for every circuit of unitary operations.", "quantifier": "every circuit of built-in gates", "why_tests_cant": "All circuits and states.", "anchors": ["qip/pipeline.py:run", "qip/operators.py"]}
{"id": "C38", "title": "split partitions and re-merging restores", "statement": "q.split() and q.split(boundaries) return qubits that together hold each index of q exactly once, in order, with the sizes given by the boundaries (by the inputs' sizes by default); Qubit(*q.split(...)) denotes the same qubits as q. Empty parts are rejected.", "quantifier": "every qubit, every boundary list", "why_tests_cant": "All boundary lists.", "anchors": ["qip/qip.py:Qubit.split", "qip/qip.py:SplitQubit"]}
{"id": "C39", "title": "extract_index selects and complements", "statement": "q.extract_index(ixs) returns (selected, rest) holding every index of q exactly once, the first in the order given.", "quantifier": "every qubit and index list or single index", "why_tests_cant": "All lists.", "anchors": ["qip/qip.py:Qubit.extract_index"]}
{"id": "C40", "title": "No cloning", "statement": "A qubit object that has already been consumed by an operation cannot be consumed by another one: construction raises.", "quantifier": "every construction history", "why_tests_cant": "All histories.", "anchors": ["qip/qip.py:Qubit.set_sink"]}
{"id": "C41", "title": "Circuits can be re-run", "statement": "Running outputs again, or running other outputs of the same graph in between, gives the same results as running them on a freshly built identical graph.", "quantifier": "every circuit and every sequence of runs", "why_tests_cant": "All histories of runs.", "anchors": ["qip/operators.py:MatrixOp.feed_indices", "qip/pipeline.py:run"]}
{"id": "C42", "title": "Strict mode", "statement": "run(strict=True) raises ValueError exactly when some required input qubit is missing from feed.", "quantifier": "every circuit and feed", "why_tests_cant": "All feeds.", "anchors": ["qip/pipeline.py:run"]}
{"id": "C43", "title": "Defaults", "statement": "An unfed input qubit starts in its default: the given vector, or basis state d for an integer default 0 <= d < 2**n, |0> without default; a fed qubit ignores its default.", "quantifier": "every circuit, feed and default", "why_tests_cant": "All combinations.", "anchors": ["qip/pipeline.py:run", "qip/qip.py:Qubit"]}
{"id": "C44", "title": "Qubit ids", "statement": "Every constructed qubit gets an id larger than the ids of its inputs; ids of separately constructed operations differ; only pieces of one split share an id.", "quantifier": "every construction history", "why_tests_cant": "All histories.", "anchors": ["qip/qip.py:Qubit.__init__", "qip/operators.py:COp"]}
{"id": "C45", "title": "Invalid constructions are rejected", "statement": "Qubit(n<=0), a list default of wrong length, Swap of other than two inputs or of different sizes, C without a target, with a control of size != 1 or with repeated qubits, raise; a rejected operation is never executed.", "quantifier": "every constructor call", "why_tests_cant": "All argument combinations.", "anchors": ["qip/qip.py:Qubit.__init__", "qip/operators.py:SwapOp", "qip/operators.py:COp"]}
{"id": "C46", "title": "make_circuit_mat returns the circuit's matrix", "statement": "make_circuit_mat(outputs) returns the matrix whose column i is the output state of the circuit on basis state i.", "quantifier": "every measurement-free circuit", "why_tests_cant": "All circuits.", "anchors": ["qip/pipeline.py:make_circuit_mat", "qip/pipeline.py:run"]}
{"id": "C47", "title": "Classical results", "statement": "The dictionary returned by run has one entry per executed node: (bits, prob) for Measure nodes, the distribution for StochasticMeasure nodes, 0 for others; StochasticMeasure does not change the state.", "quantifier": "every circuit", "why_tests_cant": "All circuits.", "anchors": ["qip/pipeline.py:NodeFeeder", "qip/qip.py:Measure", "qip/qip.py:StochasticMeasure"]}
{"id": "C48", "title": "QFFT is the unitary discrete Fourier transform", "statement": "Running QFFT on registers holding N = 2**n amplitudes v outputs out[k] = N**-1/2 * sum_j exp(2*pi*i*j*k/N) * v[j].", "quantifier": "every n, every division into registers, every v", "why_tests_cant": "All sizes.", "anchors": ["qip/qfft.py:QFFT", "qip/qfft.py:recQFFT", "qip/qfft.py:makeR"]}
{"id": "C49", "title": "QFFT without reversal", "statement": "QFFT(rev=False) outputs the same amplitudes with the output index bit-reversed.", "quantifier": "every n and v", "why_tests_cant": "All sizes.", "anchors": ["qip/qfft.py:QFFT"]}
{"id": "C50", "title": "C(f) of a circuit function controls the whole circuit", "statement": "For a circuit function f built from wrapped operations, C(f)(c, qs...) leaves the state unchanged where the control is 0 and applies f's circuit where it is 1, and returns (c, outputs of f...).", "quantifier": "every circuit function", "why_tests_cant": "All circuits.", "anchors": ["qip/qubit_util.py:QubitFuncWrapper", "qip/qubit_util.py:QubitWrapperContext"]}
{"id": "C51", "title": "Context stack discipline", "statement": "After leaving a QubitWrapperContext, normally or by an exception, at any nesting, the context stack and the context qubit count are what they were on entry; inside, every applied operation updates every context qubit exactly once.", "quantifier": "every nesting and exit path", "why_tests_cant": "All nestings and exception points.", "anchors": ["qip/qubit_util.py:QubitWrapperContext"]}
{"id": "C52", "title": "Controlling a function does not change it", "statement": "Building C(f) leaves later calls of f itself unchanged, and building C(f) twice gives twice the same operation.", "quantifier": "every history of C(...) calls", "why_tests_cant": "Histories.", "anchors": ["qip/qubit_util.py:QubitFuncWrapper.wrap_op_hook"]}
{"id": "C53", "title": "Output order of nested controls", "statement": "C(C(f))(a, b, qs...) returns the updated qubits in the order (a, b, outputs...).", "quantifier": "every nesting depth", "why_tests_cant": "Unbounded depth.", "anchors": ["qip/qubit_util.py:QubitFuncWrapper.__call__"]}
{"id": "C54", "title": "Keyword arguments reach the operation", "statement": "Keyword arguments given to a wrapped constructor (for example negate=True for Rm, dagger=True) take effect.", "quantifier": "every wrapped operation and keyword", "why_tests_cant": "All keyword combinations.", "anchors": ["qip/qubit_util.py:QubitOpWrapper.__call__", "qip/qfft.py:makeR"]}
{"id": "C55", "title": "Drawn operations do not overlap", "statement": "In make_svg output the boxes of successive operations occupy disjoint x-ranges, in execution order, inside the drawing area, on the lines of their qubits.", "quantifier": "every circuit, with the default layout parameters, if the interpreter allows enough nested calls (C109)", "why_tests_cant": "All circuits.", "anchors": ["qip/svgwriter.py:SvgFeeder"]}
{"id": "C56", "title": "Rendering is repeatable", "statement": "get_svg_text called again returns the same text.", "quantifier": "every circuit and number of calls", "why_tests_cant": "Histories.", "anchors": ["qip/svgwriter.py:SvgFeeder.build", "qip/svgwriter.py:SvgFeeder.get_svg_text"]}
{"id": "C57", "title": "Message framing", "statement": "Whatever byte chunks the socket delivers, successive recv() calls return exactly the messages the peer passed to send(), in order.", "quantifier": "every message sequence and every chunking", "why_tests_cant": "All chunkings; header fragmentation is rare in tests.", "anchors": ["qip/distributed/formatsock.py:FormatSocket.send", "qip/distributed/formatsock.py:FormatSocket.recv"]}
{"id": "C58", "title": "Operations survive the wire", "statement": "pbmatop_to_matop(matop_to_pbmatop(indices, mat)) gives back the indices and an equal matrix for dense, swap and nested controlled matrices; vectors and index lists round-trip.", "quantifier": "every matrix operation", "why_tests_cant": "Unbounded nesting.", "anchors": ["qip/distributed/proto/conversion.py"]}
{"id": "C59", "title": "Worker drawing", "statement": "draw_workers succeeds exactly when some subset of the free workers is large enough for n qubits; it then takes exactly the number of workers needed, each with sufficient capacity, and the taken and remaining workers together are the given ones; on failure nothing is taken.", "quantifier": "every n and free-worker list", "why_tests_cant": "All capacity multisets.", "anchors": ["qip/distributed/manager.py:WorkerPool.draw_workers", "qip/distributed/manager.py:Manager.make_state"]}
{"id": "C60", "title": "Worker ranges tile the operator", "statement": "allocate_workers gives every (row, column) pair of the 2**n x 2**n operator to exactly one worker, square blocks, with exactly one diagonal worker per block row, and leaves no drawn worker unused.", "quantifier": "every n and worker size", "why_tests_cant": "All sizes.", "anchors": ["qip/distributed/manager.py:WorkerPool.allocate_workers"]}
{"id": "C61", "title": "Distributed kron product equals the local one", "statement": "After a kronprod operation with its synchronisation, every worker holds its input range of the state the local backend would compute.", "quantifier": "every n, worker grid, mats and state", "why_tests_cant": "All grids.", "anchors": ["qip/distributed/manager.py:WorkerPool.send_kronprod", "qip/distributed/worker/worker.py:WorkerInstance.run", "qip/distributed/worker/worker.py:WorkerPoolServer"]}
{"id": "C62", "title": "State transfer is lossless", "statement": "send_state/receive_state transfer the sender's vector completely (overwrite) or add it exactly once (increment), for every vector length, chunk size and in-flight limit, and terminate.", "quantifier": "every length, chunk_size >= 1, max_inflight >= 1 and interleaving", "why_tests_cant": "All interleavings and sizes.", "anchors": ["qip/distributed/worker/worker.py:WorkerPoolServer.send_state", "qip/distributed/worker/worker.py:WorkerPoolServer.receive_state"]}
{"id": "C63", "title": "Flow control", "statement": "At no time are more than max_inflight chunks unacknowledged, also on later transfers over the same connection.", "quantifier": "every transfer history", "why_tests_cant": "Histories of transfers.", "anchors": ["qip/distributed/worker/worker.py:WorkerPoolServer.send_state"]}
{"id": "C64", "title": "Synchronisation is deadlock-free", "statement": "After every kronprod or measurement operation, the synchronisation phase completes under every schedule of the workers.", "quantifier": "every grid and schedule", "why_tests_cant": "All schedules.", "anchors": ["qip/distributed/worker/worker.py:WorkerInstance.run", "qip/distributed/manager.py:WorkerPool.send_kronprod"]}
{"id": "C65", "title": "Distributed measurement equals local measurement", "statement": "send_measure reports bits m with probability prob(m) of the whole state and leaves every worker with its range of the collapsed, normalised state.", "quantifier": "every grid, state, qubit set and random draws", "why_tests_cant": "All grids and draws.", "anchors": ["qip/distributed/manager.py:WorkerPool.send_measure"]}
{"id": "C66", "title": "Distributed reduce_measure", "statement": "send_reduce_measure completes, leaves the reduced state on the remaining workers and returns the others to the free pool.", "quantifier": "every grid, state and qubit set", "why_tests_cant": "All grids.", "anchors": ["qip/distributed/manager.py:WorkerPool.send_reduce_measure", "qip/distributed/manager.py:WorkerPool.get_workers_up_to_output"]}
{"id": "C67", "title": "Workers are neither lost nor double-booked", "statement": "At every moment each connected worker is either free or held by exactly one live job, and a finished job's workers become free again; a reducing measurement leaves with the job exactly the workers whose ranges lie within the reduced register and frees the others.", "quantifier": "every history of client sessions, including failing operations", "why_tests_cant": "Histories and failure points.", "anchors": ["qip/distributed/manager.py:Manager"]}
{"id": "C68", "title": "Distributed top-k aggregation", "statement": "send_measure_top returns every outcome reported by some worker with the sum of the reported probabilities, in decreasing order, cut at top_k.", "quantifier": "every set of worker reports", "why_tests_cant": "All report patterns.", "anchors": ["qip/distributed/manager.py:WorkerPool.send_measure_top"]}
{"id": "C69", "title": "Every built-in gate works on the distributed backend", "statement": "kronselect_dot of the distributed backend accepts the matrices every built-in gate produces.", "quantifier": "every gate and placement", "why_tests_cant": "All gates.", "anchors": ["qip/distributed/backend.py:DistributedBackend.kronselect_dot", "qip/distributed/proto/conversion.py:indices_to_pbindices"]}
{"id": "C70", "title": "Continued fractions in Shor's example", "statement": "gen_continued_fractions(c, q) terminates and its last pair (d, r) satisfies d*q == c*r with gcd(d, r) = 1.", "quantifier": "every c, q > 0", "why_tests_cant": "All pairs.", "anchors": ["examples/shors.py:gen_continued_fractions", "examples/shors.py:gen_continued_fraction_coefs"]}
{"id": "C71", "title": "The compiled kernel accepts what the Python kernel accepts", "statement": "kronselect_dot with the compiled dot_impl succeeds on every mapping on which the Python implementation succeeds.", "quantifier": "every well-formed mapping, vector and offset", "why_tests_cant": "All combinations of group sizes.", "anchors": ["qip/util.py:kronselect_dot", "qip/ext/kronprod.pyx:cdot_loop"]}
{"id": "C72", "title": "Every gate applies its textbook operation", "statement": "Not/X, Y, Z, H, R(phi), Rm(m), Swap and C(...) of any of these, nested to any depth, transform every state exactly as their textbook definitions say: a one-qubit gate applies its 2x2 matrix to each listed qubit, Swap exchanges register contents, C(op) applies op where the control bit is 1.", "quantifier": "every gate, nesting depth, placement, n, state, kernel and thread schedule", "why_tests_cant": "Unbounded nesting, placements and continuous states.", "anchors": ["qip/operators.py", "qip/util.py:kronselect_dot", "qip/ext/kronprod.pyx:cdot_loop"]}
{"id": "C73", "title": "Constructors build the operation asked for", "statement": "A valid call of an operation constructor makes a node of exactly that operation (with its controls, parameters, dagger, function), on exactly the given inputs in the given order.", "quantifier": "every operation, nesting of C, inputs", "why_tests_cant": "All combinations.", "anchors": ["qip/operators.py", "qip/qip.py:Qubit.__init__"]}
{"id": "C74", "title": "Range access of backend states", "statement": "get_relative_range returns the amplitudes of the range; overwrite_relative_range replaces them and addto_relative_range adds to them, both leaving all other amplitudes unchanged and rejecting data of another length.", "quantifier": "every state, range and data", "why_tests_cant": "All ranges.", "anchors": ["qip/backend.py:CythonBackend"]}
{"id": "C75", "title": "Shor's example returns factors", "statement": "Whenever classical(N) in the Shor example returns a pair, both numbers divide N and neither is 1 or N.", "quantifier": "every N, every sequence of random numbers and of results of the quantum part", "why_tests_cant": "All random sequences and quantum results.", "anchors": ["examples/shors.py:classical"]}
{"id": "C76", "title": "Printed circuits show every operation on its qubits", "statement": "print_circuit prints the operations in execution order; in each line every qubit has one cell, the cells are equally wide, an operation's name, qubit numbers and border appear exactly in the columns of its qubits, and all other columns show plain wires.", "quantifier": "every circuit, opwidth >= 1, set iteration order, if the interpreter allows enough nested calls (C109)", "why_tests_cant": "All circuits.", "anchors": ["qip/pipeline.py:PrintFeeder", "qip/pipeline.py:print_circuit"]}
{"id": "C77", "title": "Unread messages stay bounded", "statement": "However many operations a distributed job has done, the number of messages waiting unread in the sockets between its workers when it is idle stays below a bound that does not depend on the number of operations.", "quantifier": "every number of operations, grid and schedule", "why_tests_cant": "Unbounded runs.", "anchors": ["qip/distributed/worker/worker.py:WorkerInstance", "qip/distributed/worker/worker.py:WorkerPoolServer.send_state", "qip/distributed/worker/worker.py:WorkerPoolServer.receive_state"]}
{"id": "C79", "title": "The swap test of the README", "statement": "The program of the README (H, C(Swap), H) run on one control qubit and two registers of k qubits returns a vector whose entry |q1,q2,q3> is (s2[q2]*s3[q3] + (-1)^q1 * s2[q3]*s3[q2])/2; the control qubit is 0 with probability 1/2 + |<s2|s3>|^2/2 for unit vectors s2, s3.", "quantifier": "every register size k >= 1, all states s2, s3", "why_tests_cant": "All sizes and continuous states.", "anchors": ["README.md", "examples/cswap_measure.py", "qip/operators.py", "qip/pipeline.py:run"]}
{"id": "C81", "title": "Runs continue from the state of an earlier run", "statement": "run(..., state=state), where state is the vector returned by an earlier run of the same outputs, continues from it: k runs in a row give the k-fold application of the circuit, as though it were one long circuit (Grover example).", "quantifier": "every circuit without measurement, number of runs, state", "why_tests_cant": "Unbounded numbers of runs, continuous states.", "anchors": ["qip/pipeline.py:run", "examples/grovers_iterative.py"]}
{"id": "C83", "title": "Feeding inside the circuit", "statement": "A feed may give the state of any qubit object the outputs depend on: run then starts from the fed object and what lies behind it is not needed (get_deps(feed=...)).", "quantifier": "every circuit, object, fed state", "why_tests_cant": "All circuits.", "anchors": ["qip/pipeline.py:run", "qip/pipeline.py:get_deps", "qip/qip.py:Qubit.run"]}
{"id": "C80", "title": "The Grover search example finds the marked element", "statement": "After k passes of examples/grovers_iterative.py (each run continuing from the state of the previous one) for n search qubits and marked element x, the search register is x with probability sin^2((2k+1) arcsin(2^(-n/2))), all other elements are equally likely, and the index printed as the most probable one is x.", "quantifier": "every number n of search qubits, marked element x < 2^n, number of passes", "why_tests_cant": "Unbounded numbers of passes and qubits, real amplitudes.", "anchors": ["examples/grovers_iterative.py", "qip/pipeline.py:run", "qip/operators.py:StochasticMeasure"]}
{"id": "C85", "title": "Results of a run have the joint Born distribution", "statement": "For a circuit with any number of Measure objects anywhere in it, the probability that run reports given results for all of them together is the squared norm of the state projected on these results one after the other (Born's rule, including correlations and later gates); such a run returns that projection, normalised.", "quantifier": "every circuit, any number of measurements, results, fed states", "why_tests_cant": "Joint probability over continuous random draws, all circuits.", "anchors": ["qip/pipeline.py:run", "qip/qip.py:Measure", "qip/ext/kronprod.pyx:measure"]}
{"id": "C82", "title": "The circuit of the Shor example has the period-finding distribution", "statement": "For make_circuit(m, n, x, N) of examples/shors.py with N <= 2^n, run(m) succeeds and reports the number k with probability exactly 1/q^2 sum_y |sum over i < q with x^i mod N = y of exp(2 pi i i k / q)|^2, where q = 2^m: the distribution of Shor's period-finding step (oracle on two registers, in-place QFT with the right bit order, measurement with the right bit order).", "quantifier": "all register sizes m, n, all bases x, moduli N, results k, all orders of sets and threads", "why_tests_cant": "Continuous draws, exponentially large states, every base and modulus.", "anchors": ["examples/shors.py:make_circuit", "qip/qfft.py:QFFT", "qip/qip.py:Measure", "qip/pipeline.py:run"]}
{"id": "C86", "title": "quantum returns the period", "statement": "quantum(x, N) of the Shor example returns 1 (after at most ten circuits) or the period of x modulo N.", "quantifier": "every N, x, every sequence of measured numbers", "why_tests_cant": "All sequences of measurement results.", "anchors": ["examples/shors.py:quantum", "examples/shors.py:gen_continued_fractions"]}
{"id": "C87", "title": "One circuit of the Shor example finds the period with probability about 4/pi^2 phi(s)/s", "statement": "With the register sizes chosen by quantum(x, N), q = 2^q_qubits, and s > 1 the period of x modulo N, the number k reported by run(m) has s among the denominators yielded by gen_continued_fractions(k, q) with probability at least 4/pi^2 * phi(s)/s * (1 - 6s/q)^2.", "quantifier": "all N, x with period s, all orders of sets and threads", "why_tests_cant": "Probability over continuous draws for all N and x; Legendre's theorem.", "anchors": ["examples/shors.py:quantum", "examples/shors.py:make_circuit", "examples/shors.py:gen_continued_fractions", "qip/pipeline.py:run"]}
{"id": "C78", "title": "Forced outcomes on the distributed backend", "statement": "measure(indices, measured=m) of the distributed backend reports m with its probability for every possible outcome m, as the local backend does (C26).", "quantifier": "every job, grid, state, qubit set, requested outcome and schedule", "why_tests_cant": "All outcomes, states and schedules.", "anchors": ["qip/distributed/backend.py:DistributedBackend.measure", "qip/distributed/manager.py:WorkerPool.send_measure"]}
{"id": "C84", "title": "Setup of a distributed job", "statement": "make_state on the distributed backend, with enough free workers, gives every drawn worker its input range of the initial state of the local backend, and connects the workers so that operations can start.", "quantifier": "every number of qubits (with indices in range), set of free workers, index groups, initial vectors and content of fresh memory", "why_tests_cant": "All worker pools and feeds.", "anchors": ["qip/distributed/backend.py:DistributedBackend.make_state", "qip/distributed/manager.py:Manager.make_state", "qip/distributed/manager.py:WorkerPool.allocate_workers", "qip/distributed/worker/worker.py:WorkerInstance.__init__"]}
{"id": "C88", "title": "A distributed job computes what the local backend computes", "statement": "A job from make_state through any sequence of gates and measurements ends under every schedule of manager and workers; the local backend with the same initial states, operations and outcomes reports the same probabilities; afterwards every worker has its range of the local state.", "quantifier": "every pool of workers, initial vectors, sequence of operations, draws and schedules", "why_tests_cant": "Unbounded sequences of operations, all schedules.", "anchors": ["qip/distributed/backend.py:DistributedBackend", "qip/distributed/manager.py:WorkerPool.send_op", "qip/distributed/worker/worker.py:WorkerInstance.run"]}
{"id": "C89", "title": "Measurement distributions on the distributed backend", "statement": "measure_probabilities of the distributed backend returns the outcomes of the measurement with their probabilities in the state of the job, in decreasing order, and leaves the state unchanged.", "quantifier": "every job, grid, state, qubit set and schedule", "why_tests_cant": "All grids, states and schedules.", "anchors": ["qip/distributed/backend.py:DistributedBackend.measure_probabilities", "qip/distributed/manager.py:WorkerPool.send_measure_top", "qip/distributed/worker/worker.py:WorkerInstance.run"]}
{"id": "C90", "title": "Rounding errors stay small", "statement": "With double-precision arithmetic the compiled kernel computes, for any sequence of gates, a state whose distance from the exact one is bounded by a product of one factor per gate, plus a term for underflow: below 2^-22 in total for a million gates on at most three qubits each, on registers of up to 1000 qubits; nothing overflows and the probabilities of every measurement are then right up to 2^-20.", "quantifier": "every sequence of gates, initial state, thread schedule, every rounding of the arithmetic and of the matrix entries, with gradual underflow or flushing to zero, every order in which the compiler arranges the sum of a row", "why_tests_cant": "Errors accumulate over sequences of gates and states that cannot be enumerated; a test sees one rounding of one circuit.", "anchors": ["qip/ext/kronprod.pyx:cdot_loop", "qip/util.py", "setup.py"]}
{"id": "C91", "title": "The compiled kernel stays within its 32-bit ints and its memory", "statement": "On registers of at most 30 qubits the compiled kernel, with its 32-bit ints, struct array and pointers, computes the slice of the Kronecker product it is asked for: no signed overflow, no shift out of range, no access outside an array, no use of uninitialised memory. With 31 or more qubits, or numpy matrices on 16 or more qubits, this is lost.", "quantifier": "every mapping of index tuples to matrix objects (nested controls, swaps, numpy arrays on at most 15 qubits), every slice of input and output, every state, every schedule of the parallel loop, every register size", "why_tests_cant": "Overflow appears only at sizes that no test allocates, and undefined behaviour need not show in a test.", "anchors": ["qip/ext/kronprod.pyx:cdot_loop", "qip/ext/kronprod.pyx:calc_mat_entry", "qip/ext/util.pyx:set_bit", "qip/util.py:kronselect_dot"]}
{"id": "C92", "title": "run gives the same results on the distributed backend", "statement": "run(*args, feed=..., backend_constructor=DistributedBackend.make_state) on a manager with enough free workers succeeds for every circuit that runs locally, under every schedule; the dictionary it returns is one that a local run with some random draws returns, and the workers then hold the state that this local run returns.", "quantifier": "every circuit, feed, pool of workers, draws of the manager and schedules of manager and workers", "why_tests_cant": "All circuits, worker pools and schedules; the two backends share no code for the dictionary entries.", "anchors": ["qip/pipeline.py:run", "qip/distributed/backend.py:DistributedBackend", "qip/operators.py:MatrixOp.feed_indices", "qip/qip.py:StochasticMeasure.feed_indices"]}
{"id": "C93", "title": "The measurement kernels stay within their 32-bit ints and their memory", "statement": "On registers of 1 to 30 qubits measure_probabilities, measure_top_probabilities, soft_measure, measure and reduce_measure, with their 32-bit ints, return and write what they do on unbounded numbers (marginal distribution, collapsed state, exceptions): no shift out of range, no access outside a buffer, and no signed overflow other than in the unused variable iter_num of soft_measure, whose value 2**vec.shape[0] does not fit a long from six qubits on. As soon as 31 qubits are left unmeasured, as in a register spread over the workers of the distributed backend, this is lost: soft_measure finds probability 0 for every outcome and measure raises ZeroDivisionError.", "quantifier": "every list of distinct qubits, every part of the state and of the output, every state, draw and requested outcome, every register size", "why_tests_cant": "Overflow appears only at sizes that no test allocates, and undefined behaviour need not show in a test.", "anchors": ["qip/ext/kronprod.pyx:measure_probabilities", "qip/ext/kronprod.pyx:measure_top_probabilities", "qip/ext/kronprod.pyx:soft_measure", "qip/ext/kronprod.pyx:measure", "qip/ext/kronprod.pyx:reduce_measure", "qip/ext/util.pyx:entwine_bit"]}
{"id": "C94", "title": "func_apply stays within its 32-bit ints and its memory", "statement": "On registers of at most 30 qubits func_apply, with its 32-bit ints, does for every function what it does on unbounded numbers: no signed overflow, no shift out of range, no access outside a buffer.", "quantifier": "every pair of disjoint registers, function (also raising, negative or overflowing ones), state, size of the buffers, schedule of the parallel loop, with and without pregen, every register size", "why_tests_cant": "An out-of-bounds read returns whatever lies behind the buffer, so a test may pass; overflow appears only at sizes that no test allocates.", "anchors": ["qip/ext/func_apply.pyx:func_apply", "qip/ext/util.pyx:set_bit", "qip/ext/util.pyx:get_bit"]}
{"id": "C95", "title": "Measurements are right up to rounding", "statement": "With double-precision arithmetic, sums in any order, measure_probabilities and measure compute every probability with a relative error of the order of the number of amplitudes times 2^-50; every outcome is returned with its exact probability up to 2^-14 on at most 30 qubits; the state left by a measurement is as close to the exact normalised one; outcomes of probability zero never come up and no measurement fails.", "quantifier": "every state, qubit set, draw or requested outcome, every rounding of the operations and order of the sums", "why_tests_cant": "The comparison of a draw with rounded sums goes wrong only for draws next to the borders of the outcomes; errors depend on every amplitude.", "anchors": ["qip/ext/kronprod.pyx:measure_probabilities", "qip/ext/kronprod.pyx:soft_measure", "qip/ext/kronprod.pyx:measure", "qip/ext/kronprod.pyx:prob_magnitude"]}
{"id": "C96", "title": "Measuring on the distributed backend needs no exact normalisation", "statement": "A measurement of a distributed state that the local backend can measure, in particular one whose squared norm differs from 1 by the rounding of its amplitudes only, ends under every schedule and reports a possible outcome; measure accepts the probability that soft_measure reports for the same state.", "quantifier": "every grid, state of any norm, qubit set, draws and schedules", "why_tests_cant": "Whether sums of squares of doubles are above or below 1 depends on every amplitude; a hanging manager shows only for some of them.", "anchors": ["qip/distributed/manager.py:WorkerPool.send_measure", "qip/distributed/worker/worker.py:WorkerInstance.run", "qip/ext/kronprod.pyx:measure", "qip/ext/kronprod.pyx:soft_measure"]}
{"id": "C97", "title": "Circuits with measurements are right up to rounding", "statement": "In double precision, for a circuit of at most 20 qubits and 4096 gates on at most three qubits, inverse gates, oracles and measurements in any order, every combination of outcomes of the measurements comes up with the probability of Born's rule up to 2^-9, with underflow and overflow up to 2^-8; the state at the end is that of the exact circuit for these outcomes, normalised, up to a relative error; no measurement fails unless its draw is 0 or close to 1 (with underflow: or the outcomes before it have a tiny probability). In general the error is bounded by a product of one factor per step.", "quantifier": "every sequence of steps, initial state, combination of outcomes, thread schedule, rounding of the operations and of the matrix entries, order of the sums", "why_tests_cant": "Joint probabilities over many measurements cannot be sampled, errors accumulate over the steps, and each measurement renormalises a state that depends on the draws before.", "anchors": ["qip/backend.py:CythonBackend", "qip/ext/kronprod.pyx:cdot_loop", "qip/ext/kronprod.pyx:measure", "qip/ext/func_apply.pyx:func_apply"]}
{"id": "C98", "title": "Joint probabilities on the distributed backend", "statement": "Running a circuit with measurements on the distributed backend, the probability (over the random numbers of the manager and of all workers, independent and uniform) that the returned dictionary holds a given combination of outcomes is the one of Born's rule for the whole circuit, the same as for the local backend; it does not depend on the number of workers, the schedule of the processes, or the size of messages.", "quantifier": "every circuit the distributed backend can run, feed, set of free workers, combination of outcomes, schedule and message size", "why_tests_cant": "A test samples a few runs on one configuration; the outcome is put together from random numbers drawn in different processes, chosen by earlier outcomes.", "anchors": ["qip/distributed/backend.py:DistributedBackend.measure", "qip/distributed/manager.py:WorkerPool.send_op", "qip/distributed/worker/worker.py:WorkerInstance.run", "qip/pipeline.py:run"]}
{"id": "C99", "title": "Errors of the manager reach the caller", "statement": "If a run on the distributed backend would succeed, and the manager instead reports an error for the setup or for any one of its requests, run raises an exception and returns no result; if it never answers one of them, run waits for ever; a successful run has read one reply per request and nothing else.", "quantifier": "every circuit, feed, option, sequence of replies and position of the error", "why_tests_cant": "A test injects an error at one position of one circuit; a forgotten check in one method lets the run return a wrong result silently.", "anchors": ["qip/distributed/backend.py:DistributedBackend.make_state", "qip/distributed/backend.py:DistributedBackend.kronselect_dot", "qip/distributed/backend.py:DistributedBackend.measure", "qip/distributed/backend.py:DistributedBackend.measure_probabilities", "qip/pipeline.py:run"]}
{"id": "C100", "title": "Connections of different jobs are kept apart", "statement": "A worker's transfers for a job go over exactly the connections made for this job since it was last closed, in the order in which they were made, whatever connections of other jobs, with the same ranges or others, are made and closed in between; closing a job closes the sockets of its connections and no others.", "quantifier": "every history of connections and closings of any jobs, every range and threshold", "why_tests_cant": "Tests run one job on fresh workers; mixing up jobs shows only with several jobs on the same ranges at a time or one after the other.", "anchors": ["qip/distributed/worker/worker.py:WorkerPoolServer.run", "qip/distributed/worker/worker.py:WorkerPoolServer.make_connection", "qip/distributed/worker/worker.py:WorkerPoolServer.close_connections", "qip/distributed/worker/worker.py:WorkerPoolServer.send_state_to_all", "qip/distributed/worker/worker.py:WorkerPoolServer.receive_state_increments_from_all", "qip/distributed/worker/worker.py:WorkerPoolServer.send_state_up_to", "qip/distributed/worker/worker.py:WorkerInstance.run"]}
{"id": "C101", "title": "Every request of a client is answered and its workers are given back", "statement": "The manager answers the setup of a client with a handle or an error message, and every later request with its result or an error message, in order; when the session ends, for whatever reason, its workers are free again and its connection is closed.", "quantifier": "every manager state, number of qubits, sequence of requests and result of each operation, every message that cannot be sent", "why_tests_cant": "Whether an exception in an operation leaves a client waiting or loses workers depends on where it is raised and on the workers free at that time; tests run a few requests that succeed.", "anchors": ["qip/distributed/manager.py:Manager.serve_client", "qip/distributed/manager.py:Manager.make_state", "qip/distributed/manager.py:WorkerPool.send_op", "qip/distributed/manager.py:WorkerPool.close"]}
{"id": "C102", "title": "Workers can serve one job after the other", "statement": "When a job has ended, in whatever way, its workers are ready for the next job: they wait for a setup, no message of the ended job is left in their connections to the manager, and a later job on these workers gives the results it would give on fresh ones.", "quantifier": "every job and way it ends, every schedule of the processes, every later job on the same workers", "why_tests_cant": "What is left behind by one job depends on the schedule and on when a connection fails, and shows only in a later job on the same workers.", "anchors": ["qip/distributed/manager.py:Manager.serve_client", "qip/distributed/manager.py:WorkerPool.close", "qip/distributed/manager.py:WorkerPool.receive_from_each_of", "qip/distributed/worker/worker.py:WorkerInstance.run", "qip/distributed/worker/worker.py:WorkerRunner.run"]}
{"id": "C103", "title": "Several threads can share a connection", "statement": "Messages that several threads send over one FormatSocket arrive whole, each thread's in its order; several threads receiving from one FormatSocket get each message exactly once, whole and in the order of arrival; no thread waits for a lock for ever; a timeout or the replacement of the socket loses no message boundary.", "quantifier": "every interleaving of the threads and of partial writes, every division of the stream into chunks that does not cut a header off (C57), every number of threads and messages", "why_tests_cant": "Interleavings of threads and of partial writes cannot be provoked by tests.", "anchors": ["qip/distributed/formatsock.py:FormatSocket.send", "qip/distributed/formatsock.py:FormatSocket.recv", "qip/distributed/formatsock.py:FormatSocket.closeswapsock", "qip/distributed/formatsock.py:FormatSocket.close"]}
{"id": "C104", "title": "Servers go on accepting connections", "statement": "The manager hands on every connection whose peer introduces itself, once and in order, with all that the peer sends right after its introduction, whatever other connections do (fail, break off, stay silent, send garbage); workers likewise register every partner; after stop no connection is accepted.", "quantifier": "every sequence of connections, each with any chunks, failures and content", "why_tests_cant": "The order, failures and silences of connections are unbounded.", "anchors": ["qip/distributed/manager.py:ManagerServer.run", "qip/distributed/manager.py:ManagerServer.stop", "qip/distributed/worker/worker.py:WorkerPoolServer.run"]}
{"id": "C105", "title": "The Fourier transform example shows the spectrum of the signal", "statement": "The program of examples/qfft_example.py, for every number of qubits and every vector fed: the run succeeds, c[mq][k] is the squared modulus of entry k of the vector, c[mqft][k] that of entry k of its discrete Fourier transform, so that a pure tone of frequency k gives a single peak at k.", "quantifier": "every number of qubits, every vector, every execution environment", "why_tests_cant": "The example plots one signal without checking it; a wrong order of the entries gives another plausible plot.", "anchors": ["examples/qfft_example.py", "qip/qfft.py:QFFT", "qip/operators.py:StochasticMeasure", "qip/ext/kronprod.pyx:measure_probabilities"]}
{"id": "C106", "title": "Each round of Shor's example finds factors with probability at least one half", "statement": "For every odd composite N, if quantum(a, N) returns the period of a, at least half of the numbers a that classical(N) can draw make it return two non-trivial factors in this round; hence the probability that k rounds give no result is at most 2**-k.", "quantifier": "every odd composite N, every number of rounds", "why_tests_cant": "A statement about all draws for all N; the example runs with N = 21 only.", "anchors": ["examples/shors.py:classical", "examples/shors.py:quantum"]}
{"id": "C107", "title": "Jobs of several clients do not disturb each other", "statement": "However the processes of all jobs running at the same time are scheduled, each job goes through states it could have reached alone; all of them end, and every client gets the results of its own local backend, each worker having its range of its client's state.", "quantifier": "every history of workers connecting, clients setting up, reducing and ending their jobs, every number of jobs, every schedule of all processes", "why_tests_cant": "All interleavings of any number of jobs; a test runs one job on one schedule.", "anchors": ["qip/distributed/manager.py:Manager.serve_client", "qip/distributed/manager.py:Manager.make_state", "qip/distributed/worker/worker.py:WorkerRunner.run"]}
{"id": "C108", "title": "Stopping the manager", "statement": "Manager.close tells every worker held by a job to leave it and closes the connection of every worker that has connected, each once; afterwards no operation of a client is confirmed.", "quantifier": "every history of workers and clients, every set of workers that can be reached", "why_tests_cant": "Which pools exist and which workers are free, held or lost depends on the whole history.", "anchors": ["qip/distributed/manager.py:Manager.close", "qip/distributed/manager.py:WorkerPool.close", "qip/distributed/manager.py:Manager.serve_client"]}
{"id": "C109", "title": "Every circuit can be drawn", "statement": "make_svg and print_circuit draw a circuit however many operations it has, and the text they compute to find the name of an operation is no longer than the texts of the operations together.", "quantifier": "every circuit, every number of nested calls the interpreter allows", "why_tests_cant": "Circuits of all sizes and depths.", "anchors": ["qip/svgwriter.py:SvgFeeder.trim_op_name", "qip/svgwriter.py:make_svg", "qip/pipeline.py:PrintFeeder.feed", "qip/qip.py:SplitQubit.__repr__", "qip/operators.py:ROp.__repr__", "qip/operators.py:FOp.__repr__"]}
{"id": "C110", "title": "A cluster serves any sequence of jobs", "statement": "Workers connect and clients ask for jobs at any time; a worker given back by one job may be placed in the next before it has read that the old job is closed. Whatever the schedule of all threads and workers: every job gets the results it would get from its own local backend, the same in every history; no worker dies; everything comes to rest; and then all workers wait for a job, are free exactly once, and no message between manager and workers is left over.", "quantifier": "every sequence of connections, requests and steps of processes, every number of jobs and workers", "why_tests_cant": "Interleavings of arbitrarily many jobs that reuse the same workers and the same sockets.", "anchors": ["qip/distributed/manager.py:Manager.serve_client", "qip/distributed/manager.py:Manager.make_state", "qip/distributed/manager.py:WorkerPool.close", "qip/distributed/worker/worker.py:WorkerRunner.run", "qip/distributed/worker/worker.py:WorkerInstance.run"]}
{"id": "C111", "title": "Circuits run by many clients on one cluster", "statement": "Any number of clients share one cluster; some call run with the distributed backend on circuits of their own, others use the backend directly. They may ask at any time, and workers are reused. What a run sends does not depend on the replies it gets. Whatever the history and the schedule, every run gets replies with which it returns its handle and a dictionary that the local run of the same circuit with the same feed also returns, for some draws; the replies are the same in every history, no worker dies, and in the end all workers are free again.", "quantifier": "every family of circuits, feeds and direct requests, every sequence of connections, requests and steps of processes", "why_tests_cant": "Needs all circuits, all interleavings of any number of clients and all reuse patterns of the workers.", "anchors": ["qip/pipeline.py:run", "qip/distributed/backend.py:DistributedBackend", "qip/distributed/manager.py:Manager.serve_client", "qip/distributed/manager.py:Manager.make_state", "qip/distributed/worker/worker.py:WorkerRunner.run"]}
{"id": "C112", "title": "Long jobs finish although sockets hold a bounded number of messages", "statement": "A distributed job finishes, whatever the number of its operations and the schedule, and gives the state of the local backend, although every connection holds only a bounded number of messages that have not been read: sending waits until there is room, and nothing waits for ever.", "quantifier": "every capacity of every connection, every grid of workers, every sequence of kron products and measurements, every schedule", "why_tests_cant": "A deadlock by full sockets shows after thousands of operations on large states only, depending on the operating system.", "anchors": ["qip/distributed/formatsock.py:FormatSocket.send", "qip/distributed/worker/worker.py:WorkerPoolServer.send_state", "qip/distributed/worker/worker.py:WorkerPoolServer.receive_state", "qip/distributed/manager.py:WorkerPool.send_kronprod"]}
{"id": "C113", "title": "Rounding errors stay small on the distributed backend", "statement": "With double-precision arithmetic, a state spread over the workers of the distributed backend stays close to the exact one: every worker rounds its part of every gate, and the parts are added in the order in which the workers have connected. For a million gates on at most three qubits each, on registers of up to 1000 qubits cut into at most 64 ranges, the distance is below 2^-20, nothing overflows, and the probabilities of every measurement are then right up to 2^-18. On one worker the amplitudes are bit for bit those of the local backend; on several workers the last bits depend on the order of the connections.", "quantifier": "every sequence of gates, initial state, cut of the state into ranges, order of connections, thread schedule, every rounding of the arithmetic and of the matrix entries, with gradual underflow or flushing to zero", "why_tests_cant": "Errors accumulate over sequences of gates, and which roundings occur depends on the cut of the state and on the timing of the network.", "anchors": ["qip/distributed/worker/worker.py", "qip/distributed/manager.py", "qip/ext/kronprod.pyx:cdot_loop", "qip/util.py:kronselect_dot"]}
{"id": "C114", "title": "Measurements on several workers are right up to rounding", "statement": "With double-precision arithmetic, a measurement on a state spread over several workers reports each outcome with the probability of Born's rule, up to a small error (2^-16 and the distance of the squared norm from 1, for up to 20 qubits and 256 ranges); it reports a possible outcome and its probability, and leaves the normalised projection of the state, up to a number of roundings that does not depend on the draws. It does not fail for other reasons than draws close to 1.", "quantifier": "every state, set of measured qubits, cut of the state into ranges, draws of manager and workers, every rounding of the arithmetic", "why_tests_cant": "Needs all states and all draws; failures through a probability that rounds to more than 1 depend on the last bit of the state.", "anchors": ["qip/distributed/manager.py:WorkerPool.send_measure", "qip/distributed/worker/worker.py:WorkerInstance.run", "qip/ext/kronprod.pyx:soft_measure", "qip/ext/kronprod.pyx:measure"]}
{"id": "C115", "title": "Circuits with measurements on several workers are right up to rounding", "statement": "With double-precision arithmetic, a job of gates, inverse gates and measurements on a state spread over several workers gives every combination of outcomes of its measurements with the probability of Born's rule, up to a small error (2^-8 for up to 20 qubits, 16 ranges and 256 operations on at most three qubits each), and leaves the state that belongs to the outcomes: the error of the normalised state is small compared with the square root of the probability of the outcomes. No job fails unless a draw is close to 1.", "quantifier": "every sequence of gates and measurements, initial state, cut of the state into ranges, order of connections, thread schedule, draws of manager and workers, every rounding of the arithmetic and of the matrix entries", "why_tests_cant": "Errors accumulate over gates and measurements, every measurement depends on the rounded state left by those before, and the selected worker decides how the probability is rounded.", "anchors": ["qip/distributed/manager.py:WorkerPool.send_op", "qip/distributed/manager.py:WorkerPool.send_measure", "qip/distributed/worker/worker.py:WorkerInstance.run", "qip/ext/kronprod.pyx:measure", "qip/ext/kronprod.pyx:cdot_loop"]}
{"id": "C116", "title": "Worker processes can be shut down", "statement": "A worker process serves the jobs given to it, each once and in order, until it is told to shut down (WorkerCommand.shutdown) or its manager is gone; then its loop ends without an exception and the process ends.", "quantifier": "every sequence of commands, failures of jobs and connections of other workers", "why_tests_cant": "Needs all histories of a process; that a thread never ends cannot be observed by a test.", "anchors": ["qip/distributed/worker/worker.py:WorkerRunner.run", "qip/distributed/worker/worker.py:WorkerPoolServer.run", "qip/distributed/proto/messages.proto:WorkerCommand"]}
{"id": "C117", "title": "The calls of a client end", "statement": "As long as every operation ends at the manager, each call of a DistributedBackend (make_state, kronselect_dot, measure, reduce_measure, measure_probabilities, close) ends: with the result of its own request, or, if that failed or the connection is gone, with an exception; after a failure or close no operation seems to succeed; close can be called at any time; methods that are not supported raise and change nothing.", "quantifier": "every manager state, sequence of calls, result of each operation at the manager, every point at which messages can no longer be sent", "why_tests_cant": "Whether a call waits for ever depends on which exception is raised where in the manager, on the workers that can be reached then and on other clients; waiting for ever cannot be observed.", "anchors": ["qip/distributed/backend.py:DistributedBackend", "qip/distributed/manager.py:Manager.serve_client", "qip/distributed/manager.py:ManagerServer.run", "qip/distributed/formatsock.py:FormatSocket.recv"]}
{"id": "C118", "title": "A run that raised can be repeated", "statement": "A call of run that raised an exception leaves nothing behind that matters: running the same circuit afterwards, as often as wanted and with any feeds, gives the same state and classical values, or the same exception, as the first run of a freshly built circuit would.", "quantifier": "every circuit, every sequence of earlier runs of any outputs with any feeds, failed at any node or not, every schedule", "why_tests_cant": "Needs all circuits and all points at which a run may fail; the operation objects keep matrices between runs.", "anchors": ["qip/operators.py:MatrixOp.feed_indices", "qip/pipeline.py:run", "qip/pipeline.py:NodeFeeder.feed"]}
{"id": "C119", "title": "Circuits of any size can be run", "statement": "run works however many operations a circuit has: it never runs out of stack because of the size of the circuit, what has been built besides the outputs asked for does not matter, and looking up operations takes no text longer than the circuit.", "quantifier": "every circuit, every number of nested calls the interpreter allows, every feed, every order in which sets are walked", "why_tests_cant": "Circuits of all sizes and depths.", "anchors": ["qip/pipeline.py:PipelineObject.__hash__", "qip/pipeline.py:run", "qip/pipeline.py:get_deps", "qip/pipeline.py:run_graph", "qip/operators.py:ROp.__repr__", "qip/operators.py:FOp.__repr__"]}
{"id": "C120", "title": "Feeds that do not fit are rejected", "statement": "run raises an exception if the feed does not fit the circuit: if a vector has not exactly one entry for every value of the qubits it is fed to, if something that is no vector is fed, if a node that is no input of the circuit is fed, or if a qubit is fed twice. It accepts every other feed.", "quantifier": "every circuit, every feed with any number of entries, vectors of any length", "why_tests_cant": "All circuits, groups of qubits and lengths of vectors.", "anchors": ["qip/pipeline.py:run", "qip/backend.py:CythonBackend.make_state", "qip/util.py:gen_edit_indices"]}
{"id": "C121", "title": "Global phases of fed states cannot be observed", "statement": "Multiplying vectors fed to run by complex numbers of absolute value 1 changes nothing but the phase of the returned state: with the same random numbers run raises the same exception or none, every Measure and StochasticMeasure reports the same, and the state is multiplied by the product of the numbers. In particular nothing but the circuit, the feed and the random numbers determines a run.", "quantifier": "every circuit with measurements anywhere, feed, phases, draws, set orders, thread schedules and content of uninitialised buffers", "why_tests_cant": "All circuits, states, phases and draws.", "anchors": ["qip/pipeline.py:run", "qip/ext/kronprod.pyx:measure", "qip/ext/kronprod.pyx:measure_probabilities", "qip/ext/kronprod.pyx:measure_top_probabilities"]}
{"id": "C122", "title": "Measurements do not notice what they do not depend on", "statement": "Let part be nodes of a circuit. If they together depend on all its qubits, then when the whole circuit is run, the measurements part depends on report given outcomes, whatever the other measurements report, with the same probability as when part alone is run; if part does not depend on all the qubits, with the same probability as in any other circuit with the same qubits that contains part: gates, functions and measurements applied later, or applied to other qubits (entangled with the measured ones or not), do not change what a measurement reports.", "quantifier": "every circuit in which no qubit is used twice, with measurements anywhere, every choice of part, feed, outcomes, set orders, thread schedules and content of the arena; probabilities are volumes of the sets of random numbers", "why_tests_cant": "All circuits, states and outcomes; a probability is no single run.", "anchors": ["qip/pipeline.py:run", "qip/operators.py:Measure", "qip/ext/kronprod.pyx:measure"]}
{"id": "C123", "title": "Measuring again reports the same outcome", "statement": "If a Measure is applied to the qubits another Measure returned, every run that succeeds reports the same outcome for both, whatever the random numbers and whatever operations and measurements happen to the other qubits in between.", "quantifier": "every circuit in which no qubit is used twice, with measurements anywhere, feed, draws in [0, 1), set orders, thread schedules and content of the arena", "why_tests_cant": "All circuits, states and draws.", "anchors": ["qip/pipeline.py:run", "qip/operators.py:Measure", "qip/ext/kronprod.pyx:measure"]}
