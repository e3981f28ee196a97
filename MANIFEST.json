{
 "claims": [
  {
   "property": "C01",
   "status": "proved",
   "theorems": [
    "QIP.Props.C01_decode_encode",
    "QIP.Props.C01_encode_decode",
    "QIP.Props.C01_big_endian"
   ],
   "note": "all integers and all bit lists, any width"
  },
  {
   "property": "C02",
   "status": "proved",
   "theorems": [
    "QIP.Props.C02_notation",
    "QIP.Props.C02_injective",
    "QIP.Props.C02_prints_mem",
    "QIP.Props.C02_prints_sorted"
   ],
   "note": "all register lists and indices; string formatting of the amplitude not modelled"
  },
  {
   "property": "C03",
   "status": "proved",
   "theorems": [
    "QIP.Props.C03_set_bit",
    "QIP.Props.C03_get_bit",
    "QIP.Props.C03_refines",
    "QIP.Props.C03_entwine_refines",
    "QIP.Props.C03_entwine_spec",
    "QIP.Props.C03_entwine_bijective"
   ],
   "note": "32-bit words, widths up to 31 bits"
  },
  {
   "property": "C04",
   "status": "proved",
   "theorems": [
    "QIP.Props.C04_kronselect_dot",
    "QIP.Props.C04_spec_single",
    "QIP.Props.C04_spec_kronecker"
   ],
   "note": "exact arithmetic over any commutative semiring; the last two check the specification itself"
  },
  {
   "property": "C05",
   "status": "proved",
   "theorems": [
    "QIP.Props.C05_kernels_agree",
    "QIP.Props.C05_entry"
   ],
   "note": "every schedule of the parallel loop, all offsets, nested CMats"
  },
  {
   "property": "C06",
   "status": "proved",
   "theorems": [
    "QIP.Props.C06_slices"
   ],
   "note": "any cut of the input, any output window, both kernels"
  },
  {
   "property": "C07",
   "status": "partial",
   "theorems": [
    "QIP.Props.C07_rejects_iff",
    "QIP.Props.C07_compiled_partial",
    "QIP.Props.C07_compiled_range_false",
    "QIP.Props.C07_compiled_out_of_range_unchecked"
   ],
   "note": "exact for the Python kernel; the compiled kernel never rejects an index >= n (undefined behaviour: shift by a negative amount)"
  },
  {
   "property": "C08",
   "status": "proved",
   "theorems": [
    "QIP.Props.C08_order_irrelevant"
   ],
   "note": "both kernels"
  },
  {
   "property": "C09",
   "status": "partial",
   "theorems": [
    "QIP.Props.C09_returns_transpose",
    "QIP.Props.C09_expand_partial",
    "QIP.Props.C09_expand_not_operator",
    "QIP.Props.C09_rejects_objects"
   ],
   "note": "false as stated: the transpose is returned (witness); holds for symmetric operators"
  },
  {
   "property": "C10",
   "status": "proved",
   "theorems": [
    "QIP.Props.C10_linear"
   ],
   "note": "both kernels"
  },
  {
   "property": "C71",
   "status": "partial",
   "theorems": [
    "QIP.Props.C71_compiled_partial",
    "QIP.Props.C71_compiled_iff",
    "QIP.Props.C71_compiled_rejects_mixed_sizes"
   ],
   "note": "false as stated: the empty mapping and all mappings with groups of different sizes are rejected; holds exactly for non-empty mappings with one group size (C71_compiled_iff)"
  },
  {
   "property": "C11",
   "status": "proved",
   "theorems": [
    "QIP.Props.C11_composition",
    "QIP.Props.C11_self_inverse",
    "QIP.Props.C11_phase_inverse"
   ],
   "note": "any groups and matrices; self-inverse also under any number of controls"
  },
  {
   "property": "C12",
   "status": "proved",
   "theorems": [
    "QIP.Props.C12_disjoint_commute"
   ],
   "note": "any matrix objects on disjoint qubits, both kernels"
  },
  {
   "property": "C13",
   "status": "proved",
   "theorems": [
    "QIP.Props.C13_norm_preserved"
   ],
   "note": "all gates, any control depth, with and without dagger where dagger does not raise"
  },
  {
   "property": "C14",
   "status": "partial",
   "theorems": [
    "QIP.Props.C14_dagger_adjoint_partial",
    "QIP.Props.C14_dagger_inverse_partial",
    "QIP.Props.C14_dagger_swap_fails"
   ],
   "note": "false for Swap and controlled Swap (AttributeError, proved for all of them); holds for every other gate at any control depth"
  },
  {
   "property": "C15",
   "status": "proved",
   "theorems": [
    "QIP.Props.C15_controlled"
   ],
   "note": "any inner gate, nested controls, multi-qubit targets, dagger"
  },
  {
   "property": "C16",
   "status": "proved",
   "theorems": [
    "QIP.Props.C16_swap"
   ],
   "note": "any two disjoint registers of equal size"
  },
  {
   "property": "C72",
   "status": "proved",
   "theorems": [
    "QIP.Props.C72_gate_semantics"
   ],
   "note": "all built-in matrix gates"
  },
  {
   "property": "C17",
   "status": "partial",
   "theorems": [
    "QIP.Props.C17_func_apply_partial",
    "QIP.Props.C17_func_apply_exact",
    "QIP.Props.C17_bystanders_lost",
    "QIP.Props.C17_out_of_bounds",
    "QIP.Props.C17_rejects_sizes"
   ],
   "note": "false as stated: the inner loop runs over the wrong register, so bystander qubits beyond the first len(reg2) are projected to 0 (negation proved for every such circuit); correct with no bystander or exactly len(reg2) of them (with no bystander the compiled kernel reads behind an empty buffer without using what it reads, see C94)"
  },
  {
   "property": "C18",
   "status": "proved",
   "theorems": [
    "QIP.Props.C18_schedule_pregen",
    "QIP.Props.C18_failing_function"
   ],
   "note": "every order of the individual assignments, either pregen value, failing functions"
  },
  {
   "property": "C19",
   "status": "partial",
   "theorems": [
    "QIP.Props.C19_involution_partial",
    "QIP.Props.C19_not_involution"
   ],
   "note": "same condition as C17"
  },
  {
   "property": "C20",
   "status": "proved",
   "theorems": [
    "QIP.Props.C20_marginals"
   ],
   "note": "any qubits below n, repeated ones included"
  },
  {
   "property": "C21",
   "status": "partial",
   "theorems": [
    "QIP.Props.C21_top_k_partial",
    "QIP.Props.C21_out_of_bounds"
   ],
   "note": "false as stated: for top_k below the number of outcomes the buffers are accessed out of bounds (proved for every state); correct for top_k at least the number of outcomes"
  },
  {
   "property": "C22",
   "status": "partial",
   "theorems": [
    "QIP.Props.C22_labels_partial",
    "QIP.Props.C22_labels_differ"
   ],
   "note": "false as stated: labels differ for every qubit list that is not decreasing (negation proved); agree for decreasing lists"
  },
  {
   "property": "C27",
   "status": "partial",
   "theorems": [
    "QIP.Props.C27_total_prob_partial",
    "QIP.Props.C27_total_prob_wrong"
   ],
   "note": "the accumulator is never initialised: the result is its initial content plus the squared norm"
  },
  {
   "property": "C23",
   "status": "partial",
   "theorems": [
    "QIP.Props.C23_born_rule_partial",
    "QIP.Props.C23_interval_partial",
    "QIP.Props.C23_garbage"
   ],
   "note": "holds (Lebesgue measure of the draws) when the uninitialised accumulator is 0; with another content the negation is proved"
  },
  {
   "property": "C24",
   "status": "partial",
   "theorems": [
    "QIP.Props.C24_possible_partial",
    "QIP.Props.C24_draw_zero"
   ],
   "note": "false at the draw 0 (negation proved); holds for every other draw"
  },
  {
   "property": "C25",
   "status": "partial",
   "theorems": [
    "QIP.Props.C25_collapse_partial",
    "QIP.Props.C25_repeat_fails"
   ],
   "note": "collapse, normalisation for all draws; repeatability for draws other than 0 (negation at 0 proved)"
  },
  {
   "property": "C26",
   "status": "proved",
   "theorems": [
    "QIP.Props.C26_forced",
    "QIP.Props.C26_forced_impossible",
    "QIP.Props.C26_forced_with_prob",
    "QIP.Props.C26_rejects"
   ],
   "note": "impossible forced outcomes raise ZeroDivisionError"
  },
  {
   "property": "C28",
   "status": "partial",
   "theorems": [
    "QIP.Props.C28_reduce_partial",
    "QIP.Props.C28_covers",
    "QIP.Props.C28_slice_out_of_bounds",
    "QIP.Props.C28_backend_repeats"
   ],
   "note": "correct on whole states; slices are read out of bounds and the backend keeps 2^k copies (negations proved)"
  },
  {
   "property": "C29",
   "status": "proved",
   "theorems": [
    "QIP.Props.C29_sliced"
   ],
   "note": "any cut into consecutive slices"
  },
  {
   "property": "C30",
   "status": "proved",
   "theorems": [
    "QIP.Props.C30_initial_state",
    "QIP.Props.C30_spec_basis"
   ],
   "note": "any number of disjoint groups, none included; the second checks the specification on basis states"
  },
  {
   "property": "C31",
   "status": "partial",
   "theorems": [
    "QIP.Props.C31_windows_partial",
    "QIP.Props.C31_empty_feed_wrong"
   ],
   "note": "false without fed states for windows not starting at 0 (negation proved for every such window); holds otherwise"
  },
  {
   "property": "C32",
   "status": "proved",
   "theorems": [
    "QIP.Props.C32_run_graph"
   ],
   "note": "every set iteration order; each needed node is fed exactly once, after its inputs, in creation order"
  },
  {
   "property": "C33",
   "status": "proved",
   "theorems": [
    "QIP.Props.C33_get_deps"
   ],
   "note": "every order in which the worklist is emptied and the dependencies are listed"
  },
  {
   "property": "C34",
   "status": "proved",
   "theorems": [
    "QIP.Props.C34_indices",
    "QIP.Props.C34_no_sharing"
   ],
   "note": ""
  },
  {
   "property": "C35",
   "status": "partial",
   "theorems": [
    "QIP.Props.C35_run_sound",
    "QIP.Props.C35_run_computes_partial"
   ],
   "note": "soundness for every successful run; success is proved for circuits whose nodes do not run into C14 (dagger of Swap) and C17 (F with bystanders), and without measurements that can fail"
  },
  {
   "property": "C36",
   "status": "partial",
   "theorems": [
    "QIP.Props.C36_any_order_partial",
    "QIP.Props.C36_measured_partial"
   ],
   "note": "same conditions on nodes as C35; any order respecting dependencies; with measurements: the same probability of all reports together and the same state for given reports (as C85, from states of norm 1)"
  },
  {
   "property": "C37",
   "status": "partial",
   "theorems": [
    "QIP.Props.C37_norm_partial"
   ],
   "note": "same conditions on nodes as C35"
  },
  {
   "property": "C38",
   "status": "partial",
   "theorems": [
    "QIP.Props.C38_split_partial",
    "QIP.Props.C38_rejoin_partial",
    "QIP.Props.C38_split_default",
    "QIP.Props.C38_accepted_iff",
    "QIP.Props.C38_negative_false",
    "QIP.Props.C38_beyond_false"
   ],
   "note": "proved for boundaries inside the register; false outside: a negative boundary given together with 0, or one behind the end given together with the end, is accepted and makes overlapping or unusable parts; C38_accepted_iff says exactly which lists are accepted"
  },
  {
   "property": "C39",
   "status": "partial",
   "theorems": [
    "QIP.Props.C39_extract_partial",
    "QIP.Props.C39_int_fails",
    "QIP.Props.C39_empty_part",
    "QIP.Props.C39_duplicates",
    "QIP.Props.C39_outside"
   ],
   "note": "false for a single int (TypeError), for no or all positions (rejected) and for repeated ones (witness); holds otherwise (C39_outside: positions outside the register are ignored)"
  },
  {
   "property": "C40",
   "status": "partial",
   "theorems": [
    "QIP.Props.C40_join_partial",
    "QIP.Props.C40_not_enforced"
   ],
   "note": "false as stated: only joining into a plain Qubit checks, every operation can reuse a consumed qubit (proved for every heap)"
  },
  {
   "property": "C41",
   "status": "partial",
   "theorems": [
    "QIP.Props.C41_rerun_partial",
    "QIP.Props.C41_not_rerunnable"
   ],
   "note": "matrices are cached with absolute qubit indices, so running a node as part of other outputs can give another result (witness); holds for repeating the same outputs"
  },
  {
   "property": "C42",
   "status": "proved",
   "theorems": [
    "QIP.Props.C42_strict",
    "QIP.Props.C42_strict_ok"
   ],
   "note": ""
  },
  {
   "property": "C43",
   "status": "proved",
   "theorems": [
    "QIP.Props.C43_defaults",
    "QIP.Props.C43_inputs_only",
    "QIP.Props.C43_out_of_range"
   ],
   "note": "C43_defaults for the circuits of C35, C43_inputs_only for every set of input qubits; C43_out_of_range: an integer default outside the range is silently replaced by 0"
  },
  {
   "property": "C44",
   "status": "proved",
   "theorems": [
    "QIP.Props.C44_larger",
    "QIP.Props.C44_fresh",
    "QIP.Props.C44_shared"
   ],
   "note": "objects held by the user (the inner operation of C shares the id of C)"
  },
  {
   "property": "C45",
   "status": "proved",
   "theorems": [
    "QIP.Props.C45_size",
    "QIP.Props.C45_default",
    "QIP.Props.C45_swap",
    "QIP.Props.C45_control",
    "QIP.Props.C45_never_executed",
    "QIP.Props.C45_later_calls"
   ],
   "note": "C45_later_calls is about runs that do not exhaust the stack (see C119)"
  },
  {
   "property": "C46",
   "status": "partial",
   "theorems": [
    "QIP.Props.C46_always_fails"
   ],
   "note": "false as stated: make_circuit_mat raises for every circuit (negation proved)"
  },
  {
   "property": "C47",
   "status": "proved",
   "theorems": [
    "QIP.Props.C47_classical",
    "QIP.Props.C47_stochastic",
    "QIP.Props.C35_run_sound"
   ],
   "note": ""
  },
  {
   "property": "C50",
   "status": "partial",
   "theorems": [
    "QIP.Props.C50_nested_partial",
    "QIP.Props.C50_controlled_function_partial",
    "QIP.Props.C50_parameters_false"
   ],
   "note": "false for operations with parameters (R, Rm, F raise inside a control: negation proved); holds for straight-line circuit functions of wrapped operations, splits, joins and calls of other (also controlled) functions that return all their qubits"
  },
  {
   "property": "C51",
   "status": "partial",
   "theorems": [
    "QIP.Props.C51_balanced",
    "QIP.Props.C51_top_level",
    "QIP.Props.C51_update_partial",
    "QIP.Props.C51_two_qubits_false"
   ],
   "note": "stack discipline for every program and exit path; the update of context qubits is false for contexts of two qubits with default indices (negation proved) and holds for one qubit per context"
  },
  {
   "property": "C52",
   "status": "partial",
   "theorems": [
    "QIP.Props.C52_call_changed_false",
    "QIP.Props.C52_twice_false",
    "QIP.Props.C52_others_partial"
   ],
   "note": "false: C(f) changes f itself (negation proved for all circuits); other functions are unchanged"
  },
  {
   "property": "C53",
   "status": "partial",
   "theorems": [
    "QIP.Props.C53_order_false",
    "QIP.Props.C50_nested_partial"
   ],
   "note": "false at every depth >= 2: controls come back in reverse order (proved)"
  },
  {
   "property": "C54",
   "status": "partial",
   "theorems": [
    "QIP.Props.C54_negate_false",
    "QIP.Props.C54_class_keywords"
   ],
   "note": "false: wrapped constructors drop the keywords of the call (negation proved for Rm, every m >= 2); the classes take them"
  },
  {
   "property": "C73",
   "status": "proved",
   "theorems": [
    "QIP.Props.C73_matrix_operation",
    "QIP.Props.C73_function"
   ],
   "note": ""
  },
  {
   "property": "C74",
   "status": "partial",
   "theorems": [
    "QIP.Props.C74_get",
    "QIP.Props.C74_overwrite_partial",
    "QIP.Props.C74_addto_partial",
    "QIP.Props.C74_broadcast_false"
   ],
   "note": "false for data of length 1: numpy spreads the single value over the whole range instead of rejecting it (C74_broadcast_false); negative indices are not represented"
  },
  {
   "property": "C48",
   "status": "proved",
   "theorems": [
    "QIP.Props.C48_dft",
    "QIP.Props.C48_controlled"
   ],
   "note": "C48_controlled: in any circuit, on any of its qubits, also with controls"
  },
  {
   "property": "C49",
   "status": "proved",
   "theorems": [
    "QIP.Props.C49_bit_reversed",
    "QIP.Props.C48_controlled"
   ],
   "note": ""
  },
  {
   "property": "C55",
   "status": "proved",
   "theorems": [
    "QIP.Props.C55_drawing"
   ],
   "note": "default layout; elements have a horizontal distance of at least 6 units, stroke widths (at most 2) are not part of the extent; the width of rendered text is not modelled"
  },
  {
   "property": "C56",
   "status": "partial",
   "theorems": [
    "QIP.Props.C56_repeat_false",
    "QIP.Props.C56_same_picture_partial"
   ],
   "note": "false: every call of get_svg_text adds the qubit lines once more (proved for every circuit with qubits); the picture is the same"
  },
  {
   "property": "C70",
   "status": "partial",
   "theorems": [
    "QIP.Props.C70_last_pair_partial",
    "QIP.Props.C70_large_false"
   ],
   "note": "int(c/q) is a float division: false for large numbers (witness 2**60-1 over 1), holds below 2**53"
  },
  {
   "property": "C75",
   "status": "partial",
   "theorems": [
    "QIP.Props.C75_factors_partial",
    "QIP.Props.C75_even_false"
   ],
   "note": "false for even N (witness: 6 gives (2, 6)); holds for odd N"
  },
  {
   "property": "C76",
   "status": "proved",
   "theorems": [
    "QIP.Props.C76_print",
    "QIP.Props.C76_cells"
   ],
   "note": "operations act on distinct qubits (holds if no qubit is used twice, C34)"
  },
  {
   "property": "C57",
   "status": "partial",
   "theorems": [
    "QIP.Props.C57_framing_partial",
    "QIP.Props.C57_header_chunk_wrong",
    "QIP.Props.C57_framing_false",
    "QIP.Props.C57_empty_waits"
   ],
   "note": "false: a chunk that ends inside a header is misread and an empty message is only delivered with the next one (both proved); holds when no chunk ends inside a header"
  },
  {
   "property": "C58",
   "status": "proved",
   "theorems": [
    "QIP.Props.C58_roundtrip",
    "QIP.Props.C58_mapping",
    "QIP.Props.C58_vector",
    "QIP.Props.C58_indices"
   ],
   "note": "group sizes below 31 qubits, indices below 2^31; the protobuf encoding itself is trusted"
  },
  {
   "property": "C59",
   "status": "proved",
   "theorems": [
    "QIP.Props.C59_draw_iff",
    "QIP.Props.C59_drawn"
   ],
   "note": ""
  },
  {
   "property": "C60",
   "status": "proved",
   "theorems": [
    "QIP.Props.C60_tiles"
   ],
   "note": ""
  },
  {
   "property": "C67",
   "status": "partial",
   "theorems": [
    "QIP.Props.C67_conservation_partial",
    "QIP.Props.C67_never_double",
    "QIP.Props.C67_finished",
    "QIP.Props.C67_reduced",
    "QIP.Props.C67_setup_failure_loses",
    "QIP.Props.C67_close_failure_loses",
    "QIP.Props.C67_lost_forever"
   ],
   "note": "false when a message of the manager fails at setup or at the end of a session: the workers are lost for ever (proved); holds otherwise, also when operations fail; C67_never_double: no worker is ever booked twice, whatever fails"
  },
  {
   "property": "C69",
   "status": "partial",
   "theorems": [
    "QIP.Props.C69_tuple_gates_partial",
    "QIP.Props.C69_backwards_partial",
    "QIP.Props.C69_one_qubit_false"
   ],
   "note": "false: every one-qubit matrix gate raises TypeError (int key); gates with tuple keys, forwards and backwards, are sent correctly"
  },
  {
   "property": "C68",
   "status": "partial",
   "theorems": [
    "QIP.Props.C68_aggregate_partial",
    "QIP.Props.C68_different_max_false",
    "QIP.Props.C68_empty_report"
   ],
   "note": "false when two workers report different largest outcomes (IndexError, proved); holds when all reports have the same largest outcome; what a worker reports is subject to C21"
  },
  {
   "property": "C62",
   "status": "partial",
   "theorems": [
    "QIP.Props.C62_transfer_partial",
    "QIP.Props.C62_empty_false"
   ],
   "note": "every execution of a transfer of at least one amplitude; false for an empty vector (the receiver waits for ever, proved), which no worker has"
  },
  {
   "property": "C63",
   "status": "partial",
   "theorems": [
    "QIP.Props.C63_first_partial",
    "QIP.Props.C63_later_false"
   ],
   "note": "holds for the first transfer over a connection; false later: unread acknowledgements of earlier transfers are counted (proved for any number of earlier transfers)"
  },
  {
   "property": "C61",
   "status": "partial",
   "theorems": [
    "QIP.Props.C61_kron_partial",
    "QIP.Props.C61_single_partial"
   ],
   "note": "every grid, sequence of kron products, schedule of the processes and of the kernel threads; missing: the connections between workers are assumed registered before the first synchronisation (without that it is false, C64)"
  },
  {
   "property": "C64",
   "status": "partial",
   "theorems": [
    "QIP.Props.C64_sync_partial",
    "QIP.Props.C64_unregistered_deadlock"
   ],
   "note": "false if a synchronisation starts before the server thread of a diagonal worker has registered a connection (deadlock proved for every schedule); completes under every schedule once all connections are registered"
  },
  {
   "property": "C65",
   "status": "partial",
   "theorems": [
    "QIP.Props.C65_measure_partial",
    "QIP.Props.C65_born_partial",
    "QIP.Props.C65_draw_zero_deadlock"
   ],
   "note": "every grid and schedule; the draws giving an outcome have exactly its probability as measure; false for draw 0 with an impossible outcome (workers die, manager waits for ever, proved); accumulators assumed 0 (C27), connections registered (C64)"
  },
  {
   "property": "C77",
   "status": "partial",
   "theorems": [
    "QIP.Props.C77_unread_grow"
   ],
   "note": "false: unread acknowledgements accumulate in the sockets with every operation (exact number proved, under every schedule)"
  },
  {
   "property": "C66",
   "status": "partial",
   "theorems": [
    "QIP.Props.C66_false",
    "QIP.Props.C66_beyond_never",
    "QIP.Props.C66_reads_beyond",
    "QIP.Props.C66_equal_never",
    "QIP.Props.C66_none_left",
    "QIP.Props.C66_one_worker_partial"
   ],
   "note": "false for every new job: the operation never finishes with a worker left to hold the reduced state (out of bounds read, deadlock, or all workers closed); with one worker it ends with the right result and a closed worker"
  },
  {
   "property": "C81",
   "status": "partial",
   "theorems": [
    "QIP.Props.C81_array_false",
    "QIP.Props.C81_array_again_false",
    "QIP.Props.C81_list_partial",
    "QIP.Props.C81_loop_partial",
    "QIP.Props.C81_zero",
    "QIP.Props.C81_int_false"
   ],
   "note": "false: an int other than 0 raises TypeError, 0 is ignored; run returns a numpy array and state=array raises ValueError (truth value of an array), for every circuit; holds when the state is converted to a list first"
  },
  {
   "property": "C83",
   "status": "partial",
   "theorems": [
    "QIP.Props.C83_inner_false"
   ],
   "note": "false: feeding any object that is not a Qubit without inputs raises KeyError (the test in get_deps compares with tuples)"
  },
  {
   "property": "C79",
   "status": "proved",
   "theorems": [
    "QIP.Props.C79_swap_test",
    "QIP.Props.C79_overlap"
   ],
   "note": "states fed as in the README; every order of sets and threads"
  },
  {
   "property": "C80",
   "status": "partial",
   "theorems": [
    "QIP.Props.C80_search_partial",
    "QIP.Props.C80_loop_false",
    "QIP.Props.C80_report",
    "QIP.Props.C80_argmax_false"
   ],
   "note": "amplitudes after k passes proved for every n (n+1 <= 30 qubits), x, k when the state is passed back as a list; false as written: the loop passes arrays and raises ValueError, and the reported index is the bit reversal of x"
  },
  {
   "property": "C85",
   "status": "partial",
   "theorems": [
    "QIP.Props.C85_joint_partial",
    "QIP.Props.C85_succeeds_partial",
    "QIP.Props.C85_state_partial"
   ],
   "note": "volume of the set of draws in the unit cube = joint Born probability, for every circuit of C35 with any number of measurements; missing: the uninitialised accumulator of measure (C27) is taken as 0, draws equal to 0 (C24; a null set) and wrong node operations (NodeOK as in C35)"
  },
  {
   "property": "C82",
   "status": "partial",
   "theorems": [
    "QIP.Props.C82_shor_partial"
   ],
   "note": "every m, n, x, N with N <= 2^n and m + n <= 30 (C17); missing: the uninitialised accumulator of measure (C27) is taken as 0"
  },
  {
   "property": "C86",
   "status": "partial",
   "theorems": [
    "QIP.Props.C86_result_partial",
    "QIP.Props.C86_finds_partial",
    "QIP.Props.C86_zero_peaks",
    "QIP.Props.C86_wrong"
   ],
   "note": "false: for x = 2, N = 21 the peak 170 has positive probability and makes quantum return 256, the period being 6; zero peaks are not counted; proved: the result is 1 after ten non-zero peaks or the even denominator of the last convergent passing the test, and it is the period if no later convergent passes"
  },
  {
   "property": "C87",
   "status": "partial",
   "theorems": [
    "QIP.Props.C87_period_partial"
   ],
   "note": "every N >= 5 with q_qubits + n_qubits <= 30 (C17; N <= 1024); numpy.log2 is taken as exact; missing: the uninitialised accumulator of measure (C27) is taken as 0"
  },
  {
   "property": "C78",
   "status": "partial",
   "theorems": [
    "QIP.Props.C78_forced_false"
   ],
   "note": "false: the requested outcome is not sent to the manager; for any two possible outcomes one can be requested so that another is reported"
  },
  {
   "property": "C84",
   "status": "partial",
   "theorems": [
    "QIP.Props.C84_setup_partial",
    "QIP.Props.C84_unfed_false",
    "QIP.Props.C84_int_false"
   ],
   "note": "false for basis states given as ints (TypeError in the workers); every pool of workers, groups and vectors with n <= 30; false without fed vectors on more than one range (every range starts with amplitude 1, proved); connections assumed registered (C64)"
  },
  {
   "property": "C88",
   "status": "partial",
   "theorems": [
    "QIP.Props.C88_job_partial",
    "QIP.Props.C88_whole_partial"
   ],
   "note": "every pool of workers, fed vectors, sequence of measurements and norm-preserving matrices on tuples of qubits (all swaps and controlled gates, forwards and backwards), draws and schedules; missing: one-qubit gates (false, C69), reduce_measure (false, C66), draws equal to 0 (C24), uninitialised accumulators (C27), unregistered connections (C64)"
  },
  {
   "property": "C89",
   "status": "partial",
   "theorems": [
    "QIP.Props.C89_one_worker_partial",
    "QIP.Props.C89_ranges_false",
    "QIP.Props.C89_limit_false"
   ],
   "note": "right for one worker; false with more than one range (workers read past the end of their range, manager waits for ever) and for twelve or more qubits (refused)"
  },
  {
   "property": "C90",
   "status": "proved",
   "theorems": [
    "QIP.Props.C90_rounding",
    "QIP.Props.C90_runs",
    "QIP.Props.C90_probs",
    "QIP.Props.C90_binary64",
    "QIP.Props.C90_rounded_matrices",
    "QIP.Props.C90_in_order",
    "QIP.Props.C90_unbounded"
   ],
   "note": "every sequence of gates with the compiled kernel, the sum of every row in any order and with or without fused operations, with gradual or abrupt underflow and overflow (which never happens); C90_unbounded: without the last two, for states of any norm; gates run backwards and measurements in between: C97"
  },
  {
   "property": "C91",
   "status": "proved",
   "theorems": [
    "QIP.Props.C91_refines",
    "QIP.Props.C91_kernel",
    "QIP.Props.C91_gates",
    "QIP.Props.C91_gate_semantics",
    "QIP.Props.C91_large_false",
    "QIP.Props.C91_entry_overflow",
    "QIP.Props.C91_row_overflow",
    "QIP.Props.C91_dense_false"
   ],
   "note": "at most 30 qubits, numpy matrices on at most 15 qubits; the last four: with 31 or more qubits the call silently leaves the output buffer unchanged, a numpy matrix on 16 qubits is undefined behaviour"
  },
  {
   "property": "C92",
   "status": "partial",
   "theorems": [
    "QIP.Props.C92_run_partial",
    "QIP.Props.C92_function_false",
    "QIP.Props.C92_gate_false",
    "QIP.Props.C92_distribution_false"
   ],
   "note": "false: a circuit with a function or with a one-qubit gate never runs on the distributed backend, and the entry of a StochasticMeasure is a pair of lists instead of the probabilities; proved for circuits of swaps, controlled gates and measurements with something fed (C84), at most 30 qubits; missing: unregistered connections (C64), draws equal to 0 (C24), uninitialised accumulators (C27)"
  },
  {
   "property": "C93",
   "status": "proved",
   "theorems": [
    "QIP.Props.C93_probabilities",
    "QIP.Props.C93_marginals",
    "QIP.Props.C93_top",
    "QIP.Props.C93_soft",
    "QIP.Props.C93_measure",
    "QIP.Props.C93_reduce",
    "QIP.Props.C93_collapse",
    "QIP.Props.C93_iter_num",
    "QIP.Props.C93_large_false",
    "QIP.Props.C93_large_measure_false"
   ],
   "note": "1 to 30 qubits, distinct qubits of the register; C93_iter_num: 2**vec.shape[0], assigned to a variable that is never used, overflows from six qubits on; the last two: with 31 or more unmeasured qubits every probability found is 0 and measure raises ZeroDivisionError"
  },
  {
   "property": "C94",
   "status": "partial",
   "theorems": [
    "QIP.Props.C94_func_apply_partial",
    "QIP.Props.C94_oracle",
    "QIP.Props.C94_defined_iff",
    "QIP.Props.C94_reads_outside",
    "QIP.Props.C94_large_false"
   ],
   "note": "proved if at least as many qubits are in neither register as in register 2; false otherwise, also if the registers are all qubits: the kernel reads behind the end of other_indices; false for 32 or more qubits"
  },
  {
   "property": "C95",
   "status": "partial",
   "theorems": [
    "QIP.Props.C95_exact",
    "QIP.Props.C95_probabilities",
    "QIP.Props.C95_born_partial",
    "QIP.Props.C95_possible_partial",
    "QIP.Props.C95_collapse",
    "QIP.Props.C95_rounding",
    "QIP.Props.C95_double",
    "QIP.Props.C95_impossible",
    "QIP.Props.C95_ranged_probabilities",
    "QIP.Props.C95_ranged_born_partial",
    "QIP.Props.C95_ranged_possible_partial",
    "QIP.Props.C95_ranged_never",
    "QIP.Props.C95_ranged_collapse",
    "QIP.Props.C95_rounding_ranged",
    "QIP.Props.C95_binary64_tiny",
    "QIP.Props.C95_binary64_born_partial"
   ],
   "note": "false for the last part: on a state of 4 qubits normalised up to 2^-50 the largest value of random.random() selects an impossible outcome and measure raises ZeroDivisionError; holds for draws other than 0 and at least 2^-15 away from 1; missing: the uninitialised accumulator of prob_magnitude (C27) is taken as 0; the theorems named ranged and binary64 include overflow and underflow (results below 2^-1022 flushed to zero, nothing assumed about results above 2^1023), with an additional error below 2^-900"
  },
  {
   "property": "C96",
   "status": "partial",
   "theorems": [
    "QIP.Props.C96_any_norm_partial",
    "QIP.Props.C96_small_fails",
    "QIP.Props.C96_coin_deadlock",
    "QIP.Props.C96_double_rejected"
   ],
   "note": "false: if the squared norm is below the draw of the manager, AttributeError; if the squared norm of the selected outcome is above 1, all diagonal workers die and the manager waits for ever, for example when [math.sqrt(0.5)] * 2 is fed to one qubit and another is measured; in double precision measure rejects the probability 1 + 2^-52 reported by soft_measure; otherwise it ends as for a normalised state (proved); missing: draws equal to 0 (C24), uninitialised accumulators (C27), unregistered connections (C64)"
  },
  {
   "property": "C97",
   "status": "partial",
   "theorems": [
    "QIP.Props.C97_joint_partial",
    "QIP.Props.C97_state_partial",
    "QIP.Props.C97_succeeds_partial",
    "QIP.Props.C97_double_partial",
    "QIP.Props.C97_ranged_joint_partial",
    "QIP.Props.C97_ranged_state_partial",
    "QIP.Props.C97_ranged_succeeds_partial",
    "QIP.Props.C97_binary64_partial"
   ],
   "note": "every sequence of calls of the local backend; any order of the sums; with relative errors only (error 2^-9), and with underflow and overflow (C97_ranged, C97_binary64: error 2^-8; a run then succeeds unless the outcomes so far are very unlikely); missing: the uninitialised accumulator of prob_magnitude (C27, taken as 0), oracles with other numbers of bystanders (C17), inverses of swaps (C14)"
  },
  {
   "property": "C98",
   "status": "partial",
   "theorems": [
    "QIP.Props.C98_joint_partial"
   ],
   "note": "missing: nothing fed (C84), one-qubit gates, functions and distributions (C69, C92), connections that arrive late (C64), the uninitialised accumulators (C24, taken as 0), initial states that are not normalised (C96)"
  },
  {
   "property": "C99",
   "status": "proved",
   "theorems": [
    "QIP.Props.C99_errors"
   ],
   "note": "the client's side; what the manager answers is C61, C64, C92 and C96"
  },
  {
   "property": "C100",
   "status": "proved",
   "theorems": [
    "QIP.Props.C100_connections",
    "QIP.Props.C100_isolation",
    "QIP.Props.C100_closed",
    "QIP.Props.C100_sync"
   ],
   "note": "the last theorem: the dictionaries give the transfers of syncTasks, on which C61 to C66 are proved; C100_closed for connections with different pairs of ranges (a second connection with the same ranges hides the first, whose socket is not closed)"
  },
  {
   "property": "C101",
   "status": "partial",
   "theorems": [
    "QIP.Props.C101_answers_partial",
    "QIP.Props.C101_history",
    "QIP.Props.C101_workers_back",
    "QIP.Props.C101_refused_silently",
    "QIP.Props.C101_exception_unanswered",
    "QIP.Props.C101_left_open",
    "QIP.Props.C101_failed_setup"
   ],
   "note": "false of the code: no reply and an open connection if the free workers do not suffice (C101_refused_silently), no reply to an operation that raises something else than IOError (C101_exception_unanswered); workers are given back if the session started and all of them can be sent the close message, otherwise they are lost and the connection stays open (C101_left_open), also if the setup fails half-way (C101_failed_setup); an open connection is closed by Python when the next one is accepted (C117)"
  },
  {
   "property": "C102",
   "status": "partial",
   "theorems": [
    "QIP.Props.C102_clean_partial",
    "QIP.Props.C102_dead_worker",
    "QIP.Props.C102_unread",
    "QIP.Props.C102_old_reports"
   ],
   "note": "proved for jobs whose operations succeed (what later jobs on the workers give: C110); false of the code: a worker that died stays in use and no operation of a later job succeeds (C102_dead_worker); if the connection to any worker is lost, reports of the workers after it stay unread (C102_unread) and are taken for the answers of the next job, whose measurements fail (C102_old_reports)"
  },
  {
   "property": "C103",
   "status": "partial",
   "theorems": [
    "QIP.Props.C103_sent",
    "QIP.Props.C103_received",
    "QIP.Props.C103_send_progress",
    "QIP.Props.C103_recv_progress",
    "QIP.Props.C103_connection_partial",
    "QIP.Props.C103_timeout",
    "QIP.Props.C103_swap"
   ],
   "note": "proved under the conditions of C57; false of the code after a timeout (C103_timeout: the bytes read so far are lost) and after closeswapsock (C103_swap: bytes of the old connection are kept)"
  },
  {
   "property": "C104",
   "status": "partial",
   "theorems": [
    "QIP.Props.C104_accept_partial",
    "QIP.Props.C104_further",
    "QIP.Props.C104_silent",
    "QIP.Props.C104_garbage",
    "QIP.Props.C104_partners_partial",
    "QIP.Props.C104_partner_breaks",
    "QIP.Props.C104_stop"
   ],
   "note": "proved for connections that introduce themselves or fail; false of the code: a silent connection blocks the manager (C104_silent), undecodable data ends it (C104_garbage), a partner that breaks off ends the server of a worker (C104_partner_breaks), and one more connection is accepted after stop (C104_stop)"
  },
  {
   "property": "C105",
   "status": "partial",
   "theorems": [
    "QIP.Props.C105_spectrum_partial",
    "QIP.Props.C105_tone",
    "QIP.Props.C105_order_false"
   ],
   "note": "false: the entries come with the bits of the index reversed, a tone of frequency k has its peak at the reversal of k (for two or more qubits the tone of frequency 1 is shown elsewhere); proved with the reversed indices, for vectors of any norm"
  },
  {
   "property": "C106",
   "status": "partial",
   "theorems": [
    "QIP.Props.C106_half_partial",
    "QIP.Props.C106_rounds_partial",
    "QIP.Props.C106_prime_power",
    "QIP.Props.C106_prime",
    "QIP.Props.C106_period_two"
   ],
   "note": "proved for every odd N with two different prime factors below 2**53; false for prime powers (a draw coprime to N never gives a result, C106_prime_power) and primes (the loop never ends, C106_prime); the code's quantum never returns the period of a number of period 2 (C106_period_two), see also C86"
  },
  {
   "property": "C107",
   "status": "partial",
   "theorems": [
    "QIP.Props.C107_jobs_partial",
    "QIP.Props.C107_isolated"
   ],
   "note": "C107_isolated: every history and schedule; C107_jobs_partial: jobs as in C88 that have not been reduced (missing: as for C88; a worker process that serves a second job after the end of its first one: see C110)"
  },
  {
   "property": "C108",
   "status": "partial",
   "theorems": [
    "QIP.Props.C108_stop_partial",
    "QIP.Props.C108_broken_false",
    "QIP.Props.C108_lost_false",
    "QIP.Props.C108_confirmed_false"
   ],
   "note": "the first part holds if every worker can be reached and no setup has failed half-way; false otherwise (one unreachable worker stops everything: no connection is closed; workers of failed setups are never closed); the last part is false: gates are confirmed although no worker does them; closing a socket is taken to succeed"
  },
  {
   "property": "C109",
   "status": "partial",
   "theorems": [
    "QIP.Props.C109_drawing",
    "QIP.Props.C109_printing",
    "QIP.Props.C109_more",
    "QIP.Props.C109_controls",
    "QIP.Props.C109_enough_partial",
    "QIP.Props.C109_short_partial",
    "QIP.Props.C109_long_false",
    "QIP.Props.C109_deep_false"
   ],
   "note": "false: k successive F operations make a text of at least 2**k characters, and k R gates on one qubit need more than k nested calls (RecursionError); drawing succeeds exactly if the repr of every node the outputs depend on, and of every node made directly from one of those, can be computed, which holds if more nested calls are allowed than nodes exist; the texts are short if no repr contains those of two inputs; an operation with k controls needs k nested calls more"
  },
  {
   "property": "C110",
   "status": "partial",
   "theorems": [
    "QIP.Props.C110_cluster_partial"
   ],
   "note": "missing: jobs that are not as in C88 (feeds, gates of the wire format, reduced jobs, failing operations: see C88, C101, C102); failing sockets; the connections between workers are taken to be there when the job is set up (C64)"
  },
  {
   "property": "C111",
   "status": "partial",
   "theorems": [
    "QIP.Props.C111_runs_partial",
    "QIP.Props.distRun_same"
   ],
   "note": "missing: circuits the distributed backend cannot run (C92), jobs that are not as in C88, failing sockets; the session of a client is taken to end with a close request (run itself leaves the job open until the client's socket is closed, which leads to the same pool.close)"
  },
  {
   "property": "C112",
   "status": "partial",
   "theorems": [
    "QIP.Props.C112_enough_partial",
    "QIP.Props.C112_exact_partial",
    "QIP.Props.C112_job_partial",
    "QIP.Props.C112_deadlock_false",
    "QIP.Props.C112_capacity_false"
   ],
   "note": "false: a transfer of k chunks with at most m in flight leaves min(k, m) - 1 acknowledgements unread (C77), so with at least four workers and ranges of more than one chunk (2048 amplitudes; m is 4) every long enough job ends in a deadlock, whatever the capacity and the schedule; proved for capacities that hold these acknowledgements, which is exactly what is needed besides room for one message everywhere; capacities are numbers of messages; C112_job_partial: the same for whole jobs with measurements from setup on (conditions of C88)"
  },
  {
   "property": "C113",
   "status": "proved",
   "theorems": [
    "QIP.Props.C113_network",
    "QIP.Props.C113_network_binary64",
    "QIP.Props.C113_distributed",
    "QIP.Props.C113_runs",
    "QIP.Props.C113_unbounded",
    "QIP.Props.C113_single",
    "QIP.Props.C113_binary64",
    "QIP.Props.C113_rounded_matrices",
    "QIP.Props.C113_order_false"
   ],
   "note": "C113_network: what the processes compute under every schedule is the result the other theorems speak about, bit for bit the same under all schedules (connections registered, C64); gates of the library on any groups of qubits (that one-qubit gates never reach the workers is C69); C113_order_false: the last bits do depend on the order of the connections; measurements on several workers: C114"
  },
  {
   "property": "C114",
   "status": "partial",
   "theorems": [
    "QIP.Props.C114_collapse",
    "QIP.Props.C114_possible_partial",
    "QIP.Props.C114_chosen_partial",
    "QIP.Props.C114_born_partial",
    "QIP.Props.C114_double",
    "QIP.Props.C114_double_partial",
    "QIP.Props.C114_rejected",
    "QIP.Props.C114_ranged_chosen_partial",
    "QIP.Props.C114_ranged_born_partial",
    "QIP.Props.C114_ranged_possible_partial",
    "QIP.Props.C114_ranged_collapse",
    "QIP.Props.C114_binary64_partial"
   ],
   "note": "false in full: C114_rejected (an outcome that is certain gets the probability 1 + 2^-52, which every worker rejects, whatever the draws); missing in the positive part: outcomes whose probability is within the rounding error of 1, draws within the error of 1, uninitialised accumulators (C27) taken as 0; underflow and overflow are covered by the theorems with 'ranged' in their names (probabilities above distTiny for the result); the processes that exchange these numbers: C115 (and C65, C96 in exact arithmetic)"
  },
  {
   "property": "C115",
   "status": "partial",
   "theorems": [
    "QIP.Props.C115_upper_partial",
    "QIP.Props.C115_lower_partial",
    "QIP.Props.C115_state_partial",
    "QIP.Props.C115_double_partial",
    "QIP.Props.C115_rejected",
    "QIP.Props.C115_network",
    "QIP.Props.C115_network_draws",
    "QIP.Props.C115_network_state_partial",
    "QIP.Props.C115_network_law_partial",
    "QIP.Props.C115_network_double_partial",
    "QIP.Props.C115_undecided",
    "QIP.Props.C115_undecided_double",
    "QIP.Props.C115_network_undecided",
    "QIP.Props.C115_ranged_upper_partial",
    "QIP.Props.C115_ranged_lower_partial",
    "QIP.Props.C115_ranged_state_partial",
    "QIP.Props.C115_binary64_partial",
    "QIP.Props.C115_ranged_network_law_partial",
    "QIP.Props.C115_ranged_network_state_partial",
    "QIP.Props.C115_network_binary64_partial"
   ],
   "note": "false in full: C115_rejected (C114: a job whose only outcome is certain fails with probability 1). Proved: a job gives no combination of outcomes with more than the probability of Born's rule plus an error; it goes through the outcomes, or through the first of them until the workers reject a probability, with at least that of Born's rule minus the error; the state; the processes of a grid of workers compute exactly this under every schedule (C115_network: one final configuration, bit for bit; where a worker rejects a probability the job hangs), so that all of this holds for what the client gets (C115_network_law_partial, C115_network_state_partial). C115_undecided: if no outcome on the way is nearly certain given those before, both bounds hold without rejected probabilities (on processes: C115_network_undecided). C115_ranged_* and C115_*binary64_partial: the bounds and the state with underflow and overflow, also for the processes. Missing: uninitialised accumulators (C27) taken as 0, oracles (the distributed backend has none), inverses of swaps (C14), one-qubit gates (which never reach the workers, C69)"
  },
  {
   "property": "C116",
   "status": "partial",
   "theorems": [
    "QIP.Props.C116_serves_partial",
    "QIP.Props.C116_shutdown_false",
    "QIP.Props.C116_failure",
    "QIP.Props.C116_never_returns",
    "QIP.Props.C116_keeps_running",
    "QIP.Props.C116_process_false",
    "QIP.Props.C116_process_ends"
   ],
   "note": "false: run asks for a field 'close' that WorkerCommand does not have, so the command to shut down raises ValueError; the loop never ends without an exception (C116_never_returns); the thread of WorkerPoolServer is no daemon and never ends, so the process does not end either, also when the manager is gone, unless another worker's connection has broken (C116_process_ends). Proved: jobs are served in order until one fails"
  },
  {
   "property": "C117",
   "status": "partial",
   "theorems": [
    "QIP.Props.C117_calls_partial",
    "QIP.Props.C117_refused_false",
    "QIP.Props.C117_untold_false",
    "QIP.Props.C117_close_false",
    "QIP.Props.C117_unsupported",
    "QIP.Props.C117_failed_setup"
   ],
   "note": "proved if the free workers suffice, and the workers can be told of the end of the session or somebody else connects to the manager later (then Python closes the connection that the code has left open); false otherwise: make_state waits if the free workers do not suffice, and so does an operation that raises at the manager, or the one after a failed measurement, if a worker cannot be told; close raises after a failed kronselect_dot and after close"
  },
  {
   "property": "C118",
   "status": "partial",
   "theorems": [
    "QIP.Props.C118_again_partial",
    "QIP.Props.C118_report",
    "QIP.Props.C118_retry",
    "QIP.Props.C118_not_repeatable"
   ],
   "note": "false of the code: the matrices of an operation are stored before their adjoints are taken, so each inverse of a swap raises AttributeError in one run only; a circuit with k of them raises in the first k runs and gives the right result from then on (C118_retry, C118_not_repeatable). Proved for circuits without inverses of swaps, after any runs of outputs in which the common gates sit at the same indices (otherwise C41 fails without any exception); C118_report: the model that follows exceptions agrees with the run of the other theorems"
  },
  {
   "property": "C119",
   "status": "partial",
   "theorems": [
    "QIP.Props.C119_success",
    "QIP.Props.C119_exceptions",
    "QIP.Props.C119_enough_partial",
    "QIP.Props.C119_more",
    "QIP.Props.C119_deep_false",
    "QIP.Props.C119_bystander_false",
    "QIP.Props.C119_long_false"
   ],
   "note": "false of the code: nodes are hashed by their whole repr, so k R gates on one qubit need more than k nested calls (RecursionError in run, C119_deep_false), making one more operation from an output can make the run of this output fail although it is not needed (C119_bystander_false; without a limit nothing changes, C45_later_calls), and k successive F operations make run compute a text of at least 2**k characters (C119_long_false). run with a limit succeeds exactly if it succeeds without and these texts can be computed; at least as many nested calls as nodes are enough. One number stands for the limit at all call sites"
  },
  {
   "property": "C120",
   "status": "partial",
   "theorems": [
    "QIP.Props.C120_short",
    "QIP.Props.C120_long",
    "QIP.Props.C120_accepts_partial",
    "QIP.Props.C120_repeated_partial",
    "QIP.Props.C120_long_false",
    "QIP.Props.C120_twice_false",
    "QIP.Props.C83_inner_false"
   ],
   "note": "false of the code: vectors that are too long are accepted and their further entries never read (C120_long, C120_long_false), and a qubit can be fed twice, which can give the zero vector (C120_twice_false): a vector is read as if the qubits fed again later were 1 (C120_repeated_partial). Vectors that are too short, values that are no vectors and nodes that are no inputs do raise; C120_accepts_partial says exactly which feeds are accepted, for circuits as in C35"
  },
  {
   "property": "C121",
   "status": "partial",
   "theorems": [
    "QIP.Props.C121_phase_partial",
    "QIP.Props.C121_determined_partial"
   ],
   "note": "every circuit, with measurements and distributions anywhere, whatever the uninitialised accumulators contain, as long as it is the same in both runs; missing: nodes that do not do what they should (NodeOK as in C35: inverses of swaps, C14, and F with bystanders, C17), feeds that do not fit (C120)"
  },
  {
   "property": "C122",
   "status": "partial",
   "theorems": [
    "QIP.Props.C122_marginal_partial",
    "QIP.Props.C122_causal_partial",
    "QIP.Props.C122_no_signal_partial",
    "QIP.Props.C122_used_twice_fails"
   ],
   "note": "Born's rule for any of the measurements of a circuit together with what they depend on, and its consequences that the rest of the circuit changes nothing (against a run without it, and against any other circuit with the same qubits sharing the part); missing: as C85 (NodeOK, accumulators that happen to be 0, no StochasticMeasure that returns some of the probabilities only), circuits using a qubit twice (the library accepts them, C40, and then the claim is false: C122_used_twice_fails), and a run of a part alone that does not depend on all the qubits, whose states are smaller"
  },
  {
   "property": "C123",
   "status": "partial",
   "theorems": [
    "QIP.Props.C123_again_partial"
   ],
   "note": "every successful run; missing: as C85 (NodeOK, accumulators that happen to be 0, no StochasticMeasure that returns some of the probabilities only), circuits using a qubit twice (C40); a draw of exactly 0 can make the second measurement raise (C24)"
  }
 ]
}