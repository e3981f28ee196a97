"""Writes MANIFEST.json: python3 tools/manifest.py (run in /verif)."""
import json
C = []
def c(prop, status, theorems, note):
    C.append({"property": prop, "status": status,
              "theorems": ["QIP.Props." + t for t in theorems.split()], "note": note})

c("C01", "proved", "C01_decode_encode C01_encode_decode C01_big_endian", "all integers and all bit lists, any width")
c("C02", "proved", "C02_notation C02_injective C02_prints_mem C02_prints_sorted", "all register lists and indices; string formatting of the amplitude not modelled")
c("C03", "proved", "C03_set_bit C03_get_bit C03_refines C03_entwine_refines C03_entwine_spec C03_entwine_bijective", "32-bit words, widths up to 31 bits")
c("C04", "proved", "C04_kronselect_dot C04_spec_single C04_spec_kronecker", "exact arithmetic over any commutative semiring; the last two check the specification itself")
c("C05", "proved", "C05_kernels_agree C05_entry", "every schedule of the parallel loop, all offsets, nested CMats")
c("C06", "proved", "C06_slices", "any cut of the input, any output window, both kernels")
c("C07", "partial", "C07_rejects_iff C07_compiled_partial C07_compiled_range_false C07_compiled_out_of_range_unchecked", "exact for the Python kernel; the compiled kernel never rejects an index >= n (undefined behaviour: shift by a negative amount)")
c("C08", "proved", "C08_order_irrelevant", "both kernels")
c("C09", "partial", "C09_returns_transpose C09_expand_partial C09_expand_not_operator C09_rejects_objects", "false as stated: the transpose is returned (witness); holds for symmetric operators")
c("C10", "proved", "C10_linear", "both kernels")
c("C71", "partial", "C71_compiled_partial C71_compiled_iff C71_compiled_rejects_mixed_sizes", "false as stated: the empty mapping and all mappings with groups of different sizes are rejected; holds exactly for non-empty mappings with one group size (C71_compiled_iff)")
c("C11", "proved", "C11_composition C11_self_inverse C11_phase_inverse", "any groups and matrices; self-inverse also under any number of controls")
c("C12", "proved", "C12_disjoint_commute", "any matrix objects on disjoint qubits, both kernels")
c("C13", "proved", "C13_norm_preserved", "all gates, any control depth, with and without dagger where dagger does not raise")
c("C14", "partial", "C14_dagger_adjoint_partial C14_dagger_inverse_partial C14_dagger_swap_fails", "false for Swap and controlled Swap (AttributeError, proved for all of them); holds for every other gate at any control depth")
c("C15", "proved", "C15_controlled", "any inner gate, nested controls, multi-qubit targets, dagger")
c("C16", "proved", "C16_swap", "any two disjoint registers of equal size")
c("C72", "proved", "C72_gate_semantics", "all built-in matrix gates")
c("C17", "partial", "C17_func_apply_partial C17_func_apply_exact C17_bystanders_lost C17_out_of_bounds C17_rejects_sizes", "false as stated: the inner loop runs over the wrong register, so bystander qubits beyond the first len(reg2) are projected to 0 (negation proved for every such circuit); correct with no bystander or exactly len(reg2) of them (with no bystander the compiled kernel reads behind an empty buffer without using what it reads, see C94)")
c("C18", "proved", "C18_schedule_pregen C18_failing_function", "every order of the individual assignments, either pregen value, failing functions")
c("C19", "partial", "C19_involution_partial C19_not_involution", "same condition as C17")
c("C20", "proved", "C20_marginals", "any qubits below n, repeated ones included")
c("C21", "partial", "C21_top_k_partial C21_out_of_bounds", "false as stated: for top_k below the number of outcomes the buffers are accessed out of bounds (proved for every state); correct for top_k at least the number of outcomes")
c("C22", "partial", "C22_labels_partial C22_labels_differ", "false as stated: labels differ for every qubit list that is not decreasing (negation proved); agree for decreasing lists")
c("C27", "partial", "C27_total_prob_partial C27_total_prob_wrong", "the accumulator is never initialised: the result is its initial content plus the squared norm")
c("C23", "partial", "C23_born_rule_partial C23_interval_partial C23_garbage", "holds (Lebesgue measure of the draws) when the uninitialised accumulator is 0; with another content the negation is proved")
c("C24", "partial", "C24_possible_partial C24_draw_zero", "false at the draw 0 (negation proved); holds for every other draw")
c("C25", "partial", "C25_collapse_partial C25_repeat_fails", "collapse, normalisation for all draws; repeatability for draws other than 0 (negation at 0 proved)")
c("C26", "proved", "C26_forced C26_forced_impossible C26_forced_with_prob C26_rejects", "impossible forced outcomes raise ZeroDivisionError")
c("C28", "partial", "C28_reduce_partial C28_covers C28_slice_out_of_bounds C28_backend_repeats", "correct on whole states; slices are read out of bounds and the backend keeps 2^k copies (negations proved)")
c("C29", "proved", "C29_sliced", "any cut into consecutive slices")
c("C30", "proved", "C30_initial_state C30_spec_basis", "any number of disjoint groups, none included; the second checks the specification on basis states")
c("C31", "partial", "C31_windows_partial C31_empty_feed_wrong", "false without fed states for windows not starting at 0 (negation proved for every such window); holds otherwise")
c("C32", "proved", "C32_run_graph", "every set iteration order; each needed node is fed exactly once, after its inputs, in creation order")
c("C33", "proved", "C33_get_deps", "every order in which the worklist is emptied and the dependencies are listed")
c("C34", "proved", "C34_indices C34_no_sharing", "")
c("C35", "partial", "C35_run_sound C35_run_computes_partial", "soundness for every successful run; success is proved for circuits whose nodes do not run into C14 (dagger of Swap) and C17 (F with bystanders), and without measurements that can fail")
c("C36", "partial", "C36_any_order_partial C36_measured_partial", "same conditions on nodes as C35; any order respecting dependencies; with measurements: the same probability of all reports together and the same state for given reports (as C85, from states of norm 1)")
c("C37", "partial", "C37_norm_partial", "same conditions on nodes as C35")
c("C38", "partial", "C38_split_partial C38_rejoin_partial C38_split_default C38_accepted_iff C38_negative_false C38_beyond_false", "proved for boundaries inside the register; false outside: a negative boundary given together with 0, or one behind the end given together with the end, is accepted and makes overlapping or unusable parts; C38_accepted_iff says exactly which lists are accepted")
c("C39", "partial", "C39_extract_partial C39_int_fails C39_empty_part C39_duplicates C39_outside", "false for a single int (TypeError), for no or all positions (rejected) and for repeated ones (witness); holds otherwise (C39_outside: positions outside the register are ignored)")
c("C40", "partial", "C40_join_partial C40_not_enforced", "false as stated: only joining into a plain Qubit checks, every operation can reuse a consumed qubit (proved for every heap)")
c("C41", "partial", "C41_rerun_partial C41_not_rerunnable", "matrices are cached with absolute qubit indices, so running a node as part of other outputs can give another result (witness); holds for repeating the same outputs")
c("C42", "proved", "C42_strict C42_strict_ok", "")
c("C43", "proved", "C43_defaults C43_inputs_only C43_out_of_range", "C43_defaults for the circuits of C35, C43_inputs_only for every set of input qubits; C43_out_of_range: an integer default outside the range is silently replaced by 0")
c("C44", "proved", "C44_larger C44_fresh C44_shared", "objects held by the user (the inner operation of C shares the id of C)")
c("C45", "proved", "C45_size C45_default C45_swap C45_control C45_never_executed C45_later_calls", "C45_later_calls is about runs that do not exhaust the stack (see C119)")
c("C46", "partial", "C46_always_fails", "false as stated: make_circuit_mat raises for every circuit (negation proved)")
c("C47", "proved", "C47_classical C47_stochastic C35_run_sound", "")
c("C50", "partial", "C50_nested_partial C50_controlled_function_partial C50_parameters_false", "false for operations with parameters (R, Rm, F raise inside a control: negation proved); holds for straight-line circuit functions of wrapped operations, splits, joins and calls of other (also controlled) functions that return all their qubits")
c("C51", "partial", "C51_balanced C51_top_level C51_update_partial C51_two_qubits_false", "stack discipline for every program and exit path; the update of context qubits is false for contexts of two qubits with default indices (negation proved) and holds for one qubit per context")
c("C52", "partial", "C52_call_changed_false C52_twice_false C52_others_partial", "false: C(f) changes f itself (negation proved for all circuits); other functions are unchanged")
c("C53", "partial", "C53_order_false C50_nested_partial", "false at every depth >= 2: controls come back in reverse order (proved)")
c("C54", "partial", "C54_negate_false C54_class_keywords", "false: wrapped constructors drop the keywords of the call (negation proved for Rm, every m >= 2); the classes take them")
c("C73", "proved", "C73_matrix_operation C73_function", "")
c("C74", "partial", "C74_get C74_overwrite_partial C74_addto_partial C74_broadcast_false", "false for data of length 1: numpy spreads the single value over the whole range instead of rejecting it (C74_broadcast_false); negative indices are not represented")
c("C48", "proved", "C48_dft C48_controlled", "C48_controlled: in any circuit, on any of its qubits, also with controls")
c("C49", "proved", "C49_bit_reversed C48_controlled", "")
c("C55", "proved", "C55_drawing", "default layout; elements have a horizontal distance of at least 6 units, stroke widths (at most 2) are not part of the extent; the width of rendered text is not modelled")
c("C56", "partial", "C56_repeat_false C56_same_picture_partial", "false: every call of get_svg_text adds the qubit lines once more (proved for every circuit with qubits); the picture is the same")
c("C70", "partial", "C70_last_pair_partial C70_large_false", "int(c/q) is a float division: false for large numbers (witness 2**60-1 over 1), holds below 2**53")
c("C75", "partial", "C75_factors_partial C75_even_false", "false for even N (witness: 6 gives (2, 6)); holds for odd N")
c("C76", "proved", "C76_print C76_cells", "operations act on distinct qubits (holds if no qubit is used twice, C34)")
c("C57", "partial", "C57_framing_partial C57_header_chunk_wrong C57_framing_false C57_empty_waits", "false: a chunk that ends inside a header is misread and an empty message is only delivered with the next one (both proved); holds when no chunk ends inside a header")
c("C58", "proved", "C58_roundtrip C58_mapping C58_vector C58_indices", "group sizes below 31 qubits, indices below 2^31; the protobuf encoding itself is trusted")
c("C59", "proved", "C59_draw_iff C59_drawn", "")
c("C60", "proved", "C60_tiles", "")
c("C67", "partial", "C67_conservation_partial C67_never_double C67_finished C67_reduced C67_setup_failure_loses C67_close_failure_loses C67_lost_forever", "false when a message of the manager fails at setup or at the end of a session: the workers are lost for ever (proved); holds otherwise, also when operations fail; C67_never_double: no worker is ever booked twice, whatever fails")
c("C69", "partial", "C69_tuple_gates_partial C69_backwards_partial C69_one_qubit_false", "false: every one-qubit matrix gate raises TypeError (int key); gates with tuple keys, forwards and backwards, are sent correctly")
c("C68", "partial", "C68_aggregate_partial C68_different_max_false C68_empty_report", "false when two workers report different largest outcomes (IndexError, proved); holds when all reports have the same largest outcome; what a worker reports is subject to C21")
c("C62", "partial", "C62_transfer_partial C62_empty_false", "every execution of a transfer of at least one amplitude; false for an empty vector (the receiver waits for ever, proved), which no worker has")
c("C63", "partial", "C63_first_partial C63_later_false", "holds for the first transfer over a connection; false later: unread acknowledgements of earlier transfers are counted (proved for any number of earlier transfers)")
c("C61", "partial", "C61_kron_partial C61_single_partial", "every grid, sequence of kron products, schedule of the processes and of the kernel threads; missing: the connections between workers are assumed registered before the first synchronisation (without that it is false, C64)")
c("C64", "partial", "C64_sync_partial C64_unregistered_deadlock", "false if a synchronisation starts before the server thread of a diagonal worker has registered a connection (deadlock proved for every schedule); completes under every schedule once all connections are registered")
c("C65", "partial", "C65_measure_partial C65_born_partial C65_draw_zero_deadlock", "every grid and schedule; the draws giving an outcome have exactly its probability as measure; false for draw 0 with an impossible outcome (workers die, manager waits for ever, proved); accumulators assumed 0 (C27), connections registered (C64)")
c("C77", "partial", "C77_unread_grow", "false: unread acknowledgements accumulate in the sockets with every operation (exact number proved, under every schedule)")

c("C66", "partial", "C66_false C66_beyond_never C66_reads_beyond C66_equal_never C66_none_left C66_one_worker_partial", "false for every new job: the operation never finishes with a worker left to hold the reduced state (out of bounds read, deadlock, or all workers closed); with one worker it ends with the right result and a closed worker")
c("C81", "partial", "C81_array_false C81_array_again_false C81_list_partial C81_loop_partial C81_zero C81_int_false", "false: an int other than 0 raises TypeError, 0 is ignored; run returns a numpy array and state=array raises ValueError (truth value of an array), for every circuit; holds when the state is converted to a list first")
c("C83", "partial", "C83_inner_false", "false: feeding any object that is not a Qubit without inputs raises KeyError (the test in get_deps compares with tuples)")
c("C79", "proved", "C79_swap_test C79_overlap", "states fed as in the README; every order of sets and threads")
c("C80", "partial", "C80_search_partial C80_loop_false C80_report C80_argmax_false", "amplitudes after k passes proved for every n (n+1 <= 30 qubits), x, k when the state is passed back as a list; false as written: the loop passes arrays and raises ValueError, and the reported index is the bit reversal of x")
c("C85", "partial", "C85_joint_partial C85_succeeds_partial C85_state_partial", "volume of the set of draws in the unit cube = joint Born probability, for every circuit of C35 with any number of measurements; missing: the uninitialised accumulator of measure (C27) is taken as 0, draws equal to 0 (C24; a null set) and wrong node operations (NodeOK as in C35)")
c("C82", "partial", "C82_shor_partial", "every m, n, x, N with N <= 2^n and m + n <= 30 (C17); missing: the uninitialised accumulator of measure (C27) is taken as 0")
c("C86", "partial", "C86_result_partial C86_finds_partial C86_zero_peaks C86_wrong", "false: for x = 2, N = 21 the peak 170 has positive probability and makes quantum return 256, the period being 6; zero peaks are not counted; proved: the result is 1 after ten non-zero peaks or the even denominator of the last convergent passing the test, and it is the period if no later convergent passes")
c("C87", "partial", "C87_period_partial", "every N >= 5 with q_qubits + n_qubits <= 30 (C17; N <= 1024); numpy.log2 is taken as exact; missing: the uninitialised accumulator of measure (C27) is taken as 0")
c("C78", "partial", "C78_forced_false", "false: the requested outcome is not sent to the manager; for any two possible outcomes one can be requested so that another is reported")
c("C84", "partial", "C84_setup_partial C84_unfed_false C84_int_false", "false for basis states given as ints (TypeError in the workers); every pool of workers, groups and vectors with n <= 30; false without fed vectors on more than one range (every range starts with amplitude 1, proved); connections assumed registered (C64)")
c("C88", "partial", "C88_job_partial C88_whole_partial", "every pool of workers, fed vectors, sequence of measurements and norm-preserving matrices on tuples of qubits (all swaps and controlled gates, forwards and backwards), draws and schedules; missing: one-qubit gates (false, C69), reduce_measure (false, C66), draws equal to 0 (C24), uninitialised accumulators (C27), unregistered connections (C64)")
c("C89", "partial", "C89_one_worker_partial C89_ranges_false C89_limit_false", "right for one worker; false with more than one range (workers read past the end of their range, manager waits for ever) and for twelve or more qubits (refused)")
c("C90", "proved", "C90_rounding C90_runs C90_probs C90_binary64 C90_rounded_matrices C90_in_order C90_unbounded", "every sequence of gates with the compiled kernel, the sum of every row in any order and with or without fused operations, with gradual or abrupt underflow and overflow (which never happens); C90_unbounded: without the last two, for states of any norm; gates run backwards and measurements in between: C97")
c("C91", "proved", "C91_refines C91_kernel C91_gates C91_gate_semantics C91_large_false C91_entry_overflow C91_row_overflow C91_dense_false", "at most 30 qubits, numpy matrices on at most 15 qubits; the last four: with 31 or more qubits the call silently leaves the output buffer unchanged, a numpy matrix on 16 qubits is undefined behaviour")
c("C92", "partial", "C92_run_partial C92_function_false C92_gate_false C92_distribution_false", "false: a circuit with a function or with a one-qubit gate never runs on the distributed backend, and the entry of a StochasticMeasure is a pair of lists instead of the probabilities; proved for circuits of swaps, controlled gates and measurements with something fed (C84), at most 30 qubits; missing: unregistered connections (C64), draws equal to 0 (C24), uninitialised accumulators (C27)")
c("C93", "proved", "C93_probabilities C93_marginals C93_top C93_soft C93_measure C93_reduce C93_collapse C93_iter_num C93_large_false C93_large_measure_false", "1 to 30 qubits, distinct qubits of the register; C93_iter_num: 2**vec.shape[0], assigned to a variable that is never used, overflows from six qubits on; the last two: with 31 or more unmeasured qubits every probability found is 0 and measure raises ZeroDivisionError")
c("C94", "partial", "C94_func_apply_partial C94_oracle C94_defined_iff C94_reads_outside C94_large_false", "proved if at least as many qubits are in neither register as in register 2; false otherwise, also if the registers are all qubits: the kernel reads behind the end of other_indices; false for 32 or more qubits")
c("C95", "partial", "C95_exact C95_probabilities C95_born_partial C95_possible_partial C95_collapse C95_rounding C95_double C95_impossible C95_ranged_probabilities C95_ranged_born_partial C95_ranged_possible_partial C95_ranged_never C95_ranged_collapse C95_rounding_ranged C95_binary64_tiny C95_binary64_born_partial", "false for the last part: on a state of 4 qubits normalised up to 2^-50 the largest value of random.random() selects an impossible outcome and measure raises ZeroDivisionError; holds for draws other than 0 and at least 2^-15 away from 1; missing: the uninitialised accumulator of prob_magnitude (C27) is taken as 0; the theorems named ranged and binary64 include overflow and underflow (results below 2^-1022 flushed to zero, nothing assumed about results above 2^1023), with an additional error below 2^-900")
c("C96", "partial", "C96_any_norm_partial C96_small_fails C96_coin_deadlock C96_double_rejected", "false: if the squared norm is below the draw of the manager, AttributeError; if the squared norm of the selected outcome is above 1, all diagonal workers die and the manager waits for ever, for example when [math.sqrt(0.5)] * 2 is fed to one qubit and another is measured; in double precision measure rejects the probability 1 + 2^-52 reported by soft_measure; otherwise it ends as for a normalised state (proved); missing: draws equal to 0 (C24), uninitialised accumulators (C27), unregistered connections (C64)")
c("C97", "partial", "C97_joint_partial C97_state_partial C97_succeeds_partial C97_double_partial C97_ranged_joint_partial C97_ranged_state_partial C97_ranged_succeeds_partial C97_binary64_partial", "every sequence of calls of the local backend; any order of the sums; with relative errors only (error 2^-9), and with underflow and overflow (C97_ranged, C97_binary64: error 2^-8; a run then succeeds unless the outcomes so far are very unlikely); missing: the uninitialised accumulator of prob_magnitude (C27, taken as 0), oracles with other numbers of bystanders (C17), inverses of swaps (C14)")
c("C98", "partial", "C98_joint_partial", "missing: nothing fed (C84), one-qubit gates, functions and distributions (C69, C92), connections that arrive late (C64), the uninitialised accumulators (C24, taken as 0), initial states that are not normalised (C96)")
c("C99", "proved", "C99_errors", "the client's side; what the manager answers is C61, C64, C92 and C96")
c("C100", "proved", "C100_connections C100_isolation C100_closed C100_sync", "the last theorem: the dictionaries give the transfers of syncTasks, on which C61 to C66 are proved; C100_closed for connections with different pairs of ranges (a second connection with the same ranges hides the first, whose socket is not closed)")
c("C101", "partial", "C101_answers_partial C101_history C101_workers_back C101_refused_silently C101_exception_unanswered C101_left_open C101_failed_setup", "false of the code: no reply and an open connection if the free workers do not suffice (C101_refused_silently), no reply to an operation that raises something else than IOError (C101_exception_unanswered); workers are given back if the session started and all of them can be sent the close message, otherwise they are lost and the connection stays open (C101_left_open), also if the setup fails half-way (C101_failed_setup); an open connection is closed by Python when the next one is accepted (C117)")
c("C102", "partial", "C102_clean_partial C102_dead_worker C102_unread C102_old_reports", "proved for jobs whose operations succeed (what later jobs on the workers give: C110); false of the code: a worker that died stays in use and no operation of a later job succeeds (C102_dead_worker); if the connection to any worker is lost, reports of the workers after it stay unread (C102_unread) and are taken for the answers of the next job, whose measurements fail (C102_old_reports)")
c("C103", "partial", "C103_sent C103_received C103_send_progress C103_recv_progress C103_connection_partial C103_timeout C103_swap", "proved under the conditions of C57; false of the code after a timeout (C103_timeout: the bytes read so far are lost) and after closeswapsock (C103_swap: bytes of the old connection are kept)")
c("C104", "partial", "C104_accept_partial C104_further C104_silent C104_garbage C104_partners_partial C104_partner_breaks C104_stop", "proved for connections that introduce themselves or fail; false of the code: a silent connection blocks the manager (C104_silent), undecodable data ends it (C104_garbage), a partner that breaks off ends the server of a worker (C104_partner_breaks), and one more connection is accepted after stop (C104_stop)")
c("C105", "partial", "C105_spectrum_partial C105_tone C105_order_false", "false: the entries come with the bits of the index reversed, a tone of frequency k has its peak at the reversal of k (for two or more qubits the tone of frequency 1 is shown elsewhere); proved with the reversed indices, for vectors of any norm")
c("C106", "partial", "C106_half_partial C106_rounds_partial C106_prime_power C106_prime C106_period_two", "proved for every odd N with two different prime factors below 2**53; false for prime powers (a draw coprime to N never gives a result, C106_prime_power) and primes (the loop never ends, C106_prime); the code's quantum never returns the period of a number of period 2 (C106_period_two), see also C86")
c("C107", "partial", "C107_jobs_partial C107_isolated", "C107_isolated: every history and schedule; C107_jobs_partial: jobs as in C88 that have not been reduced (missing: as for C88; a worker process that serves a second job after the end of its first one: see C110)")
c("C108", "partial", "C108_stop_partial C108_broken_false C108_lost_false C108_confirmed_false", "the first part holds if every worker can be reached and no setup has failed half-way; false otherwise (one unreachable worker stops everything: no connection is closed; workers of failed setups are never closed); the last part is false: gates are confirmed although no worker does them; closing a socket is taken to succeed")
c("C109", "partial", "C109_drawing C109_printing C109_more C109_controls C109_enough_partial C109_short_partial C109_long_false C109_deep_false", "false: k successive F operations make a text of at least 2**k characters, and k R gates on one qubit need more than k nested calls (RecursionError); drawing succeeds exactly if the repr of every node the outputs depend on, and of every node made directly from one of those, can be computed, which holds if more nested calls are allowed than nodes exist; the texts are short if no repr contains those of two inputs; an operation with k controls needs k nested calls more")
c("C110", "partial", "C110_cluster_partial", "missing: jobs that are not as in C88 (feeds, gates of the wire format, reduced jobs, failing operations: see C88, C101, C102); failing sockets; the connections between workers are taken to be there when the job is set up (C64)")

c("C111", "partial", "C111_runs_partial distRun_same", "missing: circuits the distributed backend cannot run (C92), jobs that are not as in C88, failing sockets; the session of a client is taken to end with a close request (run itself leaves the job open until the client's socket is closed, which leads to the same pool.close)")

c("C112", "partial", "C112_enough_partial C112_exact_partial C112_job_partial C112_deadlock_false C112_capacity_false", "false: a transfer of k chunks with at most m in flight leaves min(k, m) - 1 acknowledgements unread (C77), so with at least four workers and ranges of more than one chunk (2048 amplitudes; m is 4) every long enough job ends in a deadlock, whatever the capacity and the schedule; proved for capacities that hold these acknowledgements, which is exactly what is needed besides room for one message everywhere; capacities are numbers of messages; C112_job_partial: the same for whole jobs with measurements from setup on (conditions of C88)")

c("C113", "proved", "C113_network C113_network_binary64 C113_distributed C113_runs C113_unbounded C113_single C113_binary64 C113_rounded_matrices C113_order_false", "C113_network: what the processes compute under every schedule is the result the other theorems speak about, bit for bit the same under all schedules (connections registered, C64); gates of the library on any groups of qubits (that one-qubit gates never reach the workers is C69); C113_order_false: the last bits do depend on the order of the connections; measurements on several workers: C114")

c("C114", "partial", "C114_collapse C114_possible_partial C114_chosen_partial C114_born_partial C114_double C114_double_partial C114_rejected C114_ranged_chosen_partial C114_ranged_born_partial C114_ranged_possible_partial C114_ranged_collapse C114_binary64_partial", "false in full: C114_rejected (an outcome that is certain gets the probability 1 + 2^-52, which every worker rejects, whatever the draws); missing in the positive part: outcomes whose probability is within the rounding error of 1, draws within the error of 1, uninitialised accumulators (C27) taken as 0; underflow and overflow are covered by the theorems with 'ranged' in their names (probabilities above distTiny for the result); the processes that exchange these numbers: C115 (and C65, C96 in exact arithmetic)")

c("C115", "partial", "C115_upper_partial C115_lower_partial C115_state_partial C115_double_partial C115_rejected C115_network C115_network_draws C115_network_state_partial C115_network_law_partial C115_network_double_partial C115_undecided C115_undecided_double C115_network_undecided C115_ranged_upper_partial C115_ranged_lower_partial C115_ranged_state_partial C115_binary64_partial C115_ranged_network_law_partial C115_ranged_network_state_partial C115_network_binary64_partial", "false in full: C115_rejected (C114: a job whose only outcome is certain fails with probability 1). Proved: a job gives no combination of outcomes with more than the probability of Born's rule plus an error; it goes through the outcomes, or through the first of them until the workers reject a probability, with at least that of Born's rule minus the error; the state; the processes of a grid of workers compute exactly this under every schedule (C115_network: one final configuration, bit for bit; where a worker rejects a probability the job hangs), so that all of this holds for what the client gets (C115_network_law_partial, C115_network_state_partial). C115_undecided: if no outcome on the way is nearly certain given those before, both bounds hold without rejected probabilities (on processes: C115_network_undecided). C115_ranged_* and C115_*binary64_partial: the bounds and the state with underflow and overflow, also for the processes. Missing: uninitialised accumulators (C27) taken as 0, oracles (the distributed backend has none), inverses of swaps (C14), one-qubit gates (which never reach the workers, C69)")
c("C116", "partial", "C116_serves_partial C116_shutdown_false C116_failure C116_never_returns C116_keeps_running C116_process_false C116_process_ends", "false: run asks for a field 'close' that WorkerCommand does not have, so the command to shut down raises ValueError; the loop never ends without an exception (C116_never_returns); the thread of WorkerPoolServer is no daemon and never ends, so the process does not end either, also when the manager is gone, unless another worker's connection has broken (C116_process_ends). Proved: jobs are served in order until one fails")
c("C117", "partial", "C117_calls_partial C117_refused_false C117_untold_false C117_close_false C117_unsupported C117_failed_setup", "proved if the free workers suffice, and the workers can be told of the end of the session or somebody else connects to the manager later (then Python closes the connection that the code has left open); false otherwise: make_state waits if the free workers do not suffice, and so does an operation that raises at the manager, or the one after a failed measurement, if a worker cannot be told; close raises after a failed kronselect_dot and after close")
c("C118", "partial", "C118_again_partial C118_report C118_retry C118_not_repeatable", "false of the code: the matrices of an operation are stored before their adjoints are taken, so each inverse of a swap raises AttributeError in one run only; a circuit with k of them raises in the first k runs and gives the right result from then on (C118_retry, C118_not_repeatable). Proved for circuits without inverses of swaps, after any runs of outputs in which the common gates sit at the same indices (otherwise C41 fails without any exception); C118_report: the model that follows exceptions agrees with the run of the other theorems")
c("C119", "partial", "C119_success C119_exceptions C119_enough_partial C119_more C119_deep_false C119_bystander_false C119_long_false", "false of the code: nodes are hashed by their whole repr, so k R gates on one qubit need more than k nested calls (RecursionError in run, C119_deep_false), making one more operation from an output can make the run of this output fail although it is not needed (C119_bystander_false; without a limit nothing changes, C45_later_calls), and k successive F operations make run compute a text of at least 2**k characters (C119_long_false). run with a limit succeeds exactly if it succeeds without and these texts can be computed; at least as many nested calls as nodes are enough. One number stands for the limit at all call sites")
c("C120", "partial", "C120_short C120_long C120_accepts_partial C120_repeated_partial C120_long_false C120_twice_false C83_inner_false", "false of the code: vectors that are too long are accepted and their further entries never read (C120_long, C120_long_false), and a qubit can be fed twice, which can give the zero vector (C120_twice_false): a vector is read as if the qubits fed again later were 1 (C120_repeated_partial). Vectors that are too short, values that are no vectors and nodes that are no inputs do raise; C120_accepts_partial says exactly which feeds are accepted, for circuits as in C35")
c("C121", "partial", "C121_phase_partial C121_determined_partial", "every circuit, with measurements and distributions anywhere, whatever the uninitialised accumulators contain, as long as it is the same in both runs; missing: nodes that do not do what they should (NodeOK as in C35: inverses of swaps, C14, and F with bystanders, C17), feeds that do not fit (C120)")
c("C122", "partial", "C122_marginal_partial C122_causal_partial C122_no_signal_partial C122_used_twice_fails", "Born's rule for any of the measurements of a circuit together with what they depend on, and its consequences that the rest of the circuit changes nothing (against a run without it, and against any other circuit with the same qubits sharing the part); missing: as C85 (NodeOK, accumulators that happen to be 0, no StochasticMeasure that returns some of the probabilities only), circuits using a qubit twice (the library accepts them, C40, and then the claim is false: C122_used_twice_fails), and a run of a part alone that does not depend on all the qubits, whose states are smaller")
c("C123", "partial", "C123_again_partial", "every successful run; missing: as C85 (NodeOK, accumulators that happen to be 0, no StochasticMeasure that returns some of the probabilities only), circuits using a qubit twice (C40); a draw of exactly 0 can make the second measurement raise (C24)")
json.dump({"claims": C}, open("MANIFEST.json", "w"), indent=1)
