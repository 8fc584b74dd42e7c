{
 "claims": [
  {
   "property": "C01",
   "status": "proved",
   "theorems": [
    "Tket.PQueue.C01_no_dangling_entries",
    "Tket.PQueue.C01_truncate_then_extract_panics"
   ],
   "note": "Holds for all histories of push/pop/pop_max. Finding: the (unused) truncate method breaks it; proved as C01_truncate_then_extract_panics."
  },
  {
   "property": "C02",
   "status": "proved",
   "theorems": [
    "Tket.PQueue.C02_pop_empty",
    "Tket.PQueue.C02_pop_returns_extremal"
   ],
   "note": "For every tie-breaking behaviour of the priority queue."
  },
  {
   "property": "C03",
   "status": "proved",
   "theorems": [
    "Tket.PQueue.C03_hash_accepted_once"
   ],
   "note": ""
  },
  {
   "property": "C04",
   "status": "proved",
   "theorems": [
    "Tket.PQueue.C04_best_n_correct"
   ],
   "note": "Assumes DoublePriorityQueue::with_capacity(n).capacity() = n."
  },
  {
   "property": "C05",
   "status": "proved",
   "theorems": [
    "Tket.PQueue.C05_push_behaviour",
    "Tket.PQueue.C05_push_uncomputable"
   ],
   "note": "Exact accept/refuse criterion and eviction."
  },
  {
   "property": "C06",
   "status": "proved",
   "theorems": [
    "Tket.Backtracking.C06_result_reachable_not_worse",
    "Tket.Backtracking.C06_search_never_panics"
   ],
   "note": "For every clock behaviour and successor function."
  },
  {
   "property": "C07",
   "status": "proved",
   "theorems": [
    "Tket.Backtracking.C07_terminates",
    "Tket.Backtracking.C07_visit_budget"
   ],
   "note": "Visit budget and termination."
  },
  {
   "property": "C08",
   "status": "partial",
   "theorems": [
    "Tket.Backtracking.C08_badger_does_not_panic_partial",
    "Tket.Backtracking.C08_badger_panics_on_zero_queue"
   ],
   "note": "False for queue_size = 0 (proved: always panics). Proved for positive queue sizes."
  },
  {
   "property": "C09",
   "status": "proved",
   "theorems": [
    "Tket.Cost.C09_tracked_cost_is_real"
   ],
   "note": "Costs below 2^63 per component."
  },
  {
   "property": "C10",
   "status": "proved",
   "theorems": [
    "Tket.Parallel.C10_announcements",
    "Tket.Parallel.C10_queue_thread_does_not_panic",
    "Tket.Parallel.C10_result_is_minimum"
   ],
   "note": "For all interleavings of main, queue thread and any number of workers; 'submitted' means received by the queue thread."
  },
  {
   "property": "C11",
   "status": "partial",
   "theorems": [
    "Tket.Parallel.C11_deadlock_reachable",
    "Tket.Parallel.C11_deadlock_when_exhausted",
    "Tket.Parallel.C11_never_returns_without_timeout",
    "Tket.Parallel.C11_terminates_after_stop_partial"
   ],
   "note": "False: without timeout/limit the optimiser never returns (C11_never_returns_without_timeout), deadlock proved reachable. Proved: it terminates after main decided to stop."
  },
  {
   "property": "C12",
   "status": "partial",
   "theorems": [
    "Tket.Parallel.C12_max_cost_never_shared",
    "Tket.Parallel.C12_skipped_would_be_refused_partial"
   ],
   "note": "False: the shared maximum is never published in any execution (C12_max_cost_never_shared). Proved: skipped circuits would be refused."
  },
  {
   "property": "C13",
   "status": "proved",
   "theorems": [
    "Tket.Cost.C13_add_delta_clamps",
    "Tket.Cost.C13_add_delta_sub_cost",
    "Tket.Cost.C13_add_monotone",
    "Tket.Cost.C13_compare_lexicographic",
    "Tket.Cost.C13_compare_total",
    "Tket.Cost.C13_round_trip_fails_above_half",
    "Tket.Cost.C13_sub_cost_order",
    "Tket.Cost.C13_sum_componentwise"
   ],
   "note": "Round trip of add_delta/sub_cost for components below 2^63; above, counterexample C13_round_trip_fails_above_half."
  },
  {
   "property": "C14",
   "status": "proved",
   "theorems": [
    "Tket.Cost.C14_div_cost_covers",
    "Tket.Cost.C14_zero_divides_to_one"
   ],
   "note": "Also proved: a zero cost divides to one (C14_zero_divides_to_one)."
  },
  {
   "property": "C15",
   "status": "proved",
   "theorems": [
    "Tket.Strategy.C15_greedy_strategy"
   ],
   "note": ""
  },
  {
   "property": "C16",
   "status": "proved",
   "theorems": [
    "Tket.Strategy.C16_exhaustive_greedy",
    "Tket.Strategy.C16_exhaustive_threshold"
   ],
   "note": "Including maximality of the chosen set."
  },
  {
   "property": "C17",
   "status": "proved",
   "theorems": [
    "Tket.Ecc.C17_rewrites_stay_in_class"
   ],
   "note": "The pattern matcher (external crate portmatching) is a parameter returning any set of matches."
  },
  {
   "property": "C18",
   "status": "proved",
   "theorems": [
    "Tket.Ecc.C18_class_from_circuits",
    "Tket.Ecc.C18_representative_is_first_smallest"
   ],
   "note": ""
  },
  {
   "property": "C19",
   "status": "proved",
   "theorems": [
    "Tket.Chunks.C19_split_is_partition",
    "Tket.Chunks.C19_split_size_bound"
   ],
   "note": "Any cost function for the partition; the size bound for circuits below 2^63 commands."
  },
  {
   "property": "C20",
   "status": "partial",
   "theorems": [
    "Tket.Chunks.C20_chunk_cost_lex_partial",
    "Tket.Chunks.C20_chunk_cost_partial",
    "Tket.Chunks.C20_chunk_exceeds_cost"
   ],
   "note": "False: the command that opens a chunk is not counted (C20_chunk_exceeds_cost). Proved: all commands of a chunk but the first cost at most max_cost."
  },
  {
   "property": "C21",
   "status": "proved",
   "theorems": [
    "Tket.Chunks.C21_reassemble_composes",
    "Tket.Chunks.C21_replacing_equivalent_chunks",
    "Tket.Chunks.C21_round_trip",
    "Tket.Chunks.C21_split_reassemble"
   ],
   "note": "Chunks may be replaced by any circuit with the same interface; proved for every hash-map iteration order. State-order edges not modelled; SiblingSubgraph extraction/insertion of hugr is modelled."
  },
  {
   "property": "C22",
   "status": "partial",
   "theorems": [
    "Tket.Commands.C22_unit_of_a_live_qubit_reused",
    "Tket.Commands.C22_units_distinct_partial",
    "Tket.Commands.C22_units_follow_wires"
   ],
   "note": "False as stated: after a qubit is released, an allocation may get the unit of a live qubit (C22_unit_of_a_live_qubit_reused). Proved: units follow wires always, and are distinct when allocations precede releases."
  },
  {
   "property": "C23",
   "status": "partial",
   "theorems": [
    "Tket.EmptyWire.C23_loops_and_blocks_panic",
    "Tket.EmptyWire.C23_meaning_preserved",
    "Tket.EmptyWire.C23_out_of_range",
    "Tket.EmptyWire.C23_reverse_removal_never_fails",
    "Tket.EmptyWire.C23_success_iff_empty",
    "Tket.EmptyWire.C23_types_preserved"
   ],
   "note": "Meaning and types proved for every well-formed region; reverse-order removal never fails. Findings proved: panics at the order port offset, on loop bodies, and on used wires of basic blocks."
  },
  {
   "property": "C24",
   "status": "proved",
   "theorems": [
    "Tket.Hash.C24_hash_no_panic",
    "Tket.Hash.C24_hash_order_independent"
   ],
   "note": "For any hasher. Also: no panic on a well-formed region."
  },
  {
   "property": "C25",
   "status": "partial",
   "theorems": [
    "Tket.Commutation.C25_classical_dependency_broken",
    "Tket.Commutation.C25_meaning_preserved_partial",
    "Tket.Commutation.C25_opaque_operation_crossed",
    "Tket.Commutation.C25_panics_on_allocation",
    "Tket.Commutation.C25_panics_on_other_linear_values",
    "Tket.Commutation.C25_unitary_preserved_partial"
   ],
   "note": "Proved for circuits of TketOps with at least one qubit each and no classical data flow: no panic, the result is executable, and every execution order has the original meaning (abstractly, and for operators on states). False outside, with proofs: unknown operations are crossed, classical dependencies may become cyclic, panics on QAlloc and on other linear types."
  },
  {
   "property": "C26",
   "status": "proved",
   "theorems": [
    "Tket.Quantum.C26_labels_commute",
    "Tket.Quantum.C26_pauli_commutes_iff",
    "Tket.Quantum.C26_qubit_commutation_sound"
   ],
   "note": "Operators on any finite or infinite set of qubits over the complex numbers; all angles. Rotations and gates defined from the documentation of the gate set."
  },
  {
   "property": "C27",
   "status": "proved",
   "theorems": [
    "Tket.BorrowSquash.C27_at_most_one_pair_left",
    "Tket.BorrowSquash.C27_pass_preserves_behaviour",
    "Tket.BorrowSquash.C27_recursive_traversal",
    "Tket.BorrowSquash.C27_traversal_preserves_behaviour",
    "Tket.BorrowSquash.C27_worklist_wires_survive"
   ],
   "note": "For any meaning of the other operations, any contents and any hash-map order, including nested arrays. The top-level worklist is abstracted to any sequence of existing start wires; state-order edges not modelled."
  },
  {
   "property": "C28",
   "status": "partial",
   "theorems": [
    "Verif.Encoder.C28_lazy_component",
    "Verif.Encoder.C28_live_wires_partial",
    "Verif.Encoder.C28_qubits_partial",
    "Verif.Encoder.C28_straddling_wire"
   ],
   "note": "False in general: a lazily emitted unsupported component that creates a qubit, and an output wire mixing reused and new qubits, lead to repeated qubits (C28_lazy_component, C28_straddling_wire). Proved for all regions without these shapes: every command acts on distinct qubits that hold exactly the values flowing in, for every order of leftover components; and the register disjointness invariant after every prefix."
  },
  {
   "property": "C29",
   "status": "partial",
   "theorems": [
    "Verif.Encoder.C29_clean_partial",
    "Verif.Encoder.C29_dirty_allocation"
   ],
   "note": "False in general (C29_dirty_allocation): the register of a measured and discarded qubit is handed out again without a reset. Proved for all regions where no allocation follows an operation giving up a qubit."
  },
  {
   "property": "C30",
   "status": "partial",
   "theorems": [
    "Verif.Registers.C30_bit_swap_lost",
    "Verif.Registers.C30_permutation_identity",
    "Verif.Registers.C30_round_trip_bits_partial",
    "Verif.Registers.C30_round_trip_qubits_partial",
    "Verif.Registers.C30_swap_lost"
   ],
   "note": "False: the implicit permutation written by the encoder is always the identity (C30_permutation_identity), so swapped outputs are lost (C30_swap_lost, C30_bit_swap_lost). Proved when the outputs are the first registers in order."
  },
  {
   "property": "C31",
   "status": "partial",
   "theorems": [
    "Verif.Registers.C31_complete_permutation",
    "Verif.Registers.C31_incomplete_permutation_wrong",
    "Verif.Registers.C31_prefix_permutation_partial",
    "Verif.Registers.C31_unknown_register_panics"
   ],
   "note": "Proved for permutations listing all registers, or a prefix of them; false for other incomplete permutations (C31_incomplete_permutation_wrong)."
  },
  {
   "property": "C32",
   "status": "partial",
   "theorems": [
    "Verif.Registers.C32_empty_index_panics",
    "Verif.Registers.C32_fresh_checked",
    "Verif.Registers.C32_fresh_partial",
    "Verif.Registers.C32_negative_index",
    "Verif.Registers.C32_parameters",
    "Verif.Registers.C32_wraps_around"
   ],
   "note": "Proved with overflow checks, and in release builds below 65536 names; false beyond (C32_wraps_around) and for negative indices. Registers are compared directly instead of by hash."
  },
  {
   "property": "C33",
   "status": "partial",
   "theorems": [
    "Verif.Encoder.C33_bits_partial",
    "Verif.Encoder.C33_constants_partial",
    "Verif.Encoder.C33_copied_bit_overwritten",
    "Verif.Encoder.C33_unused_input_shares_bit"
   ],
   "note": "False in general (C33_copied_bit_overwritten, C33_unused_input_shares_bit). Proved for all regions where copied bits are only read by operations without bit results and no unused bit precedes another one; also that constants are found cleared."
  },
  {
   "property": "C34",
   "status": "partial",
   "theorems": [
    "Verif.Params.C34_printed_value",
    "Verif.Params.C34_round_trip_partial",
    "Verif.Params.C34_snaps_constants",
    "Verif.Params.C34_variable_named_pi"
   ],
   "note": "Character-level model of the grammar, the parser, loading and printing; floats are any type with exact printing. False for constants within 1e-10 of a multiple of pi and for inputs named pi (proved); proved for all other expressions."
  },
  {
   "property": "C35",
   "status": "partial",
   "theorems": [
    "Verif.Params.C35_negated_power",
    "Verif.Params.C35_power_associativity",
    "Verif.Params.C35_sympy_reading_partial",
    "Verif.Params.C35_wrong_arity_panics"
   ],
   "note": "False: powers associate to the left and bind weaker than a minus sign (C35_power_associativity, C35_negated_power). Proved for all expressions of Python's grammar in which neither a negated expression nor an exponent is a power, with any blanks around operators."
  },
  {
   "property": "C36",
   "status": "partial",
   "theorems": [
    "Verif.Params.C36_radians_exact_partial",
    "Verif.Params.C36_radians_partial",
    "Verif.Params.C36_sum_example",
    "Verif.Params.C36_sum_wrong"
   ],
   "note": "False for sums and differences: only the second operand is divided by pi (C36_sum_wrong for all sums, C36_sum_example). Proved for all other expressions."
  },
  {
   "property": "C37",
   "status": "partial",
   "theorems": [
    "Verif.Params.C37_angle_partial",
    "Verif.Params.C37_float_partial",
    "Verif.Params.C37_large_panics",
    "Verif.Params.C37_not_restored",
    "Verif.Params.C37_rotation_exact",
    "Verif.Params.C37_round_trip_partial",
    "Verif.Params.C37_type"
   ],
   "note": "False in double precision: converting back changes the last bit, and large rotations become infinite radians and then panic (C37_not_restored, C37_large_panics). Proved with IEEE rounding (C37_float_partial): below 2^1020 half-turns no sequence of up to 2^52 conversions panics, and each changes the angle by at most two units of the 53rd bit. Also proved in exact arithmetic; conversions between rotations and half-turns are exact in any arithmetic."
  },
  {
   "property": "C38",
   "status": "partial",
   "theorems": [
    "Verif.Decoder.C38_barrier_on_bits_fails",
    "Verif.Decoder.C38_bit_cannot_be_read_twice",
    "Verif.Decoder.C38_converted_bit_is_ill_typed",
    "Verif.Decoder.C38_last_writer_partial",
    "Verif.Decoder.C38_missing_output_panics",
    "Verif.Decoder.C38_param_first_is_miswired",
    "Verif.Decoder.C38_qubits_used_once_partial",
    "Verif.Decoder.C38_register_in_tuple_is_lost",
    "Verif.Decoder.C38_repeated_argument_uses_wire_twice",
    "Verif.Decoder.C38_succeeds_partial",
    "Verif.Decoder.C38_well_typed_partial"
   ],
   "note": "Last-writer theorem (refinement of a sequential register program), linear use of qubit wires, success on fitting circuits and well-typedness are proved for all circuits whose registers are carried by single qubits/booleans and whose operations take parameters last. Counterexamples are proved where the code deviates: a bit read without being written becomes outdated, converted bits are recorded with the old type, registers in tuples are replaced by fresh qubits, repeated qubit arguments, parameters before values, barriers on bits, missing outputs. Parameters and opaque subgraphs are outside this model."
  },
  {
   "property": "C39",
   "status": "partial",
   "theorems": [
    "Tket.ControlSynth.C39_borrowed_qubits_restored",
    "Tket.ControlSynth.C39_controlled_gate_partial",
    "Tket.ControlSynth.C39_controlled_phase",
    "Tket.ControlSynth.C39_controlled_z_wrong",
    "Tket.ControlSynth.C39_not_a_gate",
    "Tket.ControlSynth.C39_phases_deleted",
    "Tket.ControlSynth.C39_toffoli_outputs_swapped"
   ],
   "note": "All 18 gates, every number of controls, every angle, with and without dagger, exact (no phase dropped) and restoring controls and dirty qubits, except: CZ with >=1 control and Z with >=2 controls (proved wrong for every phase), and the output order of Toffoli with >=1 control (proved swapped). Exact reals instead of floats."
  },
  {
   "property": "C40",
   "status": "partial",
   "theorems": [
    "Tket.ControlSynth.C40_circuit_partial",
    "Tket.ControlSynth.C40_double_dagger",
    "Tket.ControlSynth.C40_unmodified"
   ],
   "note": "Circuit dagger (with controls) is the exact inverse for straight-line circuits of the gates for which C39 holds; double dagger restores the circuit gate by gate for all gates."
  },
  {
   "property": "C41",
   "status": "partial",
   "theorems": [
    "Tket.Modifier.C41_accumulates",
    "Tket.Modifier.C41_circuit_partial",
    "Tket.Modifier.C41_combination_sound",
    "Tket.Modifier.C41_power_ignored",
    "Tket.Modifier.C41_signature",
    "Tket.Modifier.C41_two_controls_wrong",
    "Tket.Modifier.C41_unpacking"
   ],
   "note": "Sum, parity and the meaning of chains proved (the latter for circuits as in C40). The generated signature is the promised one iff the control sizes form a palindrome: proved both ways, with a counterexample. Power modifiers are ignored (proved)."
  },
  {
   "property": "C42",
   "status": "partial",
   "theorems": [
    "Tket.Modifier.C42_controlled_dagger_classical_wrong",
    "Tket.Modifier.C42_dfg_partial",
    "Tket.Modifier.C42_fills",
    "Tket.Modifier.C42_mixed_types_wrong",
    "Tket.Modifier.C42_rewiring",
    "Tket.Modifier.C42_types_partial"
   ],
   "note": "Injectivity, coverage and directions for all signatures. Types for all signatures without dagger and, with dagger, when quantum values are returned in the places they are taken; counterexamples for a classical value between qubits, and for every controlled daggered nested region with a classical input."
  },
  {
   "property": "C43",
   "status": "partial",
   "theorems": [
    "Tket.Modifier.C43_conditional",
    "Tket.Modifier.C43_dfg",
    "Tket.Modifier.C43_tail_loop",
    "Tket.Modifier.C43_tail_loop_wrong"
   ],
   "note": "Proved for nested dataflow graphs and conditionals. Tail loops: proved exactly when all carried values are qubits, false otherwise (C43_tail_loop_wrong)."
  },
  {
   "property": "C44",
   "status": "proved",
   "theorems": [
    "Tket.Modifier.C44_bits",
    "Tket.Modifier.C44_modified_function",
    "Tket.Modifier.C44_read",
    "Tket.Modifier.C44_satisfies",
    "Tket.Modifier.C44_stored"
   ],
   "note": "All flags, all stored numbers."
  },
  {
   "property": "C45",
   "status": "proved",
   "theorems": [
    "Tket.QSystem.C45_circuit_lowered",
    "Tket.QSystem.C45_every_operation_lowered",
    "Tket.QSystem.C45_gate_lowered"
   ],
   "note": "All 18 unitary gates of the gate set, all angles, all states, whole circuits with measurements and resets; exact reals instead of floats. The phase is a constant of the gate. No operation of the gate set is left unlowered."
  },
  {
   "property": "C46",
   "status": "proved",
   "theorems": [
    "Tket.QSystem.C46_measurement_lowered"
   ],
   "note": "Both outcomes; the flip is applied exactly on outcome 1."
  },
  {
   "property": "C47",
   "status": "proved",
   "theorems": [
    "Verif.LazyBool.C47_all_consumed",
    "Verif.LazyBool.C47_futures_used_once",
    "Verif.LazyBool.C47_linear",
    "Verif.LazyBool.C47_same_results",
    "Verif.LazyBool.C47_same_values"
   ],
   "note": "For every machine (measurement outcomes and other operations are parameters), every program in the modelled language (dataflow, conditionals, nested graphs, calls, loops, control flow graphs, sums, arrays), every entry point and every fuel: outcomes agree, results represent each other, every future is consumed exactly once or left in the results. The type replacement engine and the linearizer are part of hugr and modelled from their documentation. Programs that use futures before the pass, and the separate static array pass (C61), are outside."
  },
  {
   "property": "C48",
   "status": "partial",
   "theorems": [
    "Verif.Random.C48_always_some",
    "Verif.Random.C48_contexts_interfere",
    "Verif.Random.C48_documented_iff",
    "Verif.Random.C48_one_at_a_time_partial",
    "Verif.Random.C48_second_call_not_refused"
   ],
   "note": "False: creating a context always succeeds and reseeds the one global generator (C48_always_some, C48_documented_iff, C48_contexts_interfere). Proved: contexts that do not overlap behave like separate generators."
  },
  {
   "property": "C49",
   "status": "partial",
   "theorems": [
    "Verif.Resource.C49_extend_after",
    "Verif.Resource.C49_extend_before",
    "Verif.Resource.C49_extend_covered",
    "Verif.Resource.C49_extend_no_panic",
    "Verif.Resource.C49_extend_refuses_partial",
    "Verif.Resource.C49_extend_unrelated",
    "Verif.Resource.C49_nodes_in_interval",
    "Verif.Resource.C49_try_new",
    "Verif.Resource.C49_try_new_complete",
    "Verif.Resource.C49_unrelated_node_accepted"
   ],
   "note": "False in general: a node of another resource path whose position lies in the interval is accepted as if it were covered (C49_unrelated_node_accepted, C49_extend_unrelated). Proved for all nodes of the resource path, for all well-formed regions and intervals; debug assertions are not modelled."
  },
  {
   "property": "C50",
   "status": "proved",
   "theorems": [
    "Verif.Resource.C50_copyable_wire",
    "Verif.Resource.C50_get_port",
    "Verif.Resource.C50_positions_increase",
    "Verif.Resource.C50_reachability_misses_order_edges",
    "Verif.Resource.C50_reachability_partial",
    "Verif.Resource.C50_reachability_terminates",
    "Verif.Resource.C50_resource_is_path",
    "Verif.Resource.C50_same_resource",
    "Verif.Resource.C50_same_resource_flows"
   ],
   "note": "For all regions that satisfy the HUGR validity conditions (WF) and any topological order, with the default flow; C50_same_resource_flows covers other flows. any_reachable_from is exact without state order edges and wrong with them (C50_reachability_misses_order_edges). Positions are naturals instead of Rational64."
  },
  {
   "property": "C51",
   "status": "partial",
   "theorems": [
    "Tket.PQueue.C51_memory_leak_without_best_n",
    "Tket.PQueue.C51_memory_released_partial"
   ],
   "note": "True with best-N tracking; without it (the default) popped circuits are never released: proved leak."
  },
  {
   "property": "C52",
   "status": "proved",
   "theorems": [
    "Tket.Backtracking.C52_exhaustive_search_optimal"
   ],
   "note": ""
  },
  {
   "property": "C53",
   "status": "partial",
   "theorems": [
    "Tket.Backtracking.C53_discovered_better_state_not_returned",
    "Tket.Backtracking.C53_head_of_best_n_partial"
   ],
   "note": "False: negation proved with a concrete search (C53_discovered_better_state_not_returned). Proved instead: with best-N tracking the first circuit of that list is at least as cheap as every discovered circuit, for every capacity, budget and clock (C53_head_of_best_n_partial); the returned best circuit is the cheapest expanded one (C06)."
  },
  {
   "property": "C54",
   "status": "partial",
   "theorems": [
    "Tket.Strategy.C54_default_gamma",
    "Tket.Strategy.C54_documented",
    "Tket.Strategy.C54_gamma_threshold_fails",
    "Tket.Strategy.C54_gamma_threshold_partial",
    "Tket.Strategy.C54_monotone"
   ],
   "note": "False for pattern cost 0 and above 10000 (C54_gamma_threshold_fails); proved in between, in double precision arithmetic with rounding. C54_documented relates any gamma to the documented exact comparison, C54_monotone orders the allowed rewrites."
  },
  {
   "property": "C55",
   "status": "proved",
   "theorems": [
    "Tket.Commands.C55_commands_in_dataflow_order"
   ],
   "note": "For every topological order of the region. Constants without consumers in the region are never yielded (part of the statement)."
  },
  {
   "property": "C56",
   "status": "partial",
   "theorems": [
    "Tket.Hash.C56_different_circuits_equal",
    "Tket.Hash.C56_isomorphic_circuits_equal_partial",
    "Tket.Hash.C56_not_reflexive",
    "Tket.Hash.C56_unused_operation_invisible"
   ],
   "note": "False both ways, for any hasher: circuits sharing versus repeating a measured computation compare equal, operations not leading to the output are invisible, and circuits with nested control flow are not equal to themselves. Proved: isomorphic regions compare equal."
  },
  {
   "property": "C57",
   "status": "partial",
   "theorems": [
    "Tket.Modifier.C57_flagged_partial",
    "Tket.Modifier.C57_kept_calls",
    "Tket.Modifier.C57_unflagged_call_kept"
   ],
   "note": "False: an unflagged callee with equal input and output types is called unmodified without an error (C57_unflagged_call_kept). Proved: exactly those calls are kept, flagged callees are always modified."
  },
  {
   "property": "C58",
   "status": "partial",
   "theorems": [
    "Verif.Encoder.C58_component_without_registers",
    "Verif.Encoder.C58_encode_total_partial"
   ],
   "note": "Proved for all well-formed regions in which every unsupported component touches a qubit or a bit; without that, encoding can fail (C58_component_without_registers)."
  },
  {
   "property": "C59",
   "status": "partial",
   "theorems": [
    "Verif.CopyExpr.C59_convex_partial",
    "Verif.CopyExpr.C59_input_order_partial",
    "Verif.CopyExpr.C59_input_order_wrong",
    "Verif.CopyExpr.C59_not_convex_iff_partial",
    "Verif.CopyExpr.C59_other_inputs_order",
    "Verif.CopyExpr.C59_output_iff",
    "Verif.CopyExpr.C59_subgraph",
    "Verif.CopyExpr.C59_total",
    "Verif.CopyExpr.C59_trivial",
    "Verif.CopyExpr.C59_unused_output_panics",
    "Verif.CopyExpr.C59_value",
    "Verif.CopyExpr.C59_wrong_output"
   ],
   "note": "False in general: output() returns the first used port of the node instead of the requested one and panics if the value is unused (C59_wrong_output, C59_unused_output_panics; exactly when: C59_output_iff); inputs fed by excluded nodes come after the others, contrary to the documentation (C59_input_order_wrong). Proved for all regions and boundaries: totality, the exact nodes, inputs, outputs and calls, dataflow order, and that running the subgraph yields the requested value; convexity without state order edges."
  },
  {
   "property": "C60",
   "status": "partial",
   "theorems": [
    "Verif.Containers.C60_accepts_iff",
    "Verif.Containers.C60_bare_option",
    "Verif.Containers.C60_barrier_partial",
    "Verif.Containers.C60_empty_arrays_panic",
    "Verif.Containers.C60_none_panics",
    "Verif.Containers.C60_option_in_tuple",
    "Verif.Containers.C60_other_element",
    "Verif.Containers.C60_roundtrip_partial"
   ],
   "note": "False in general: a tuple with a qubit and a bare option of a qubit is refused with a type clash, and an array of empty arrays of qubits panics the compiler (C60_option_in_tuple, C60_empty_arrays_panic); C60_accepts_iff says exactly which types are accepted. Proved for all accepted types and all well-typed values: one barrier on all visible qubits in order, containers unchanged, only empty slots of option arrays stop the program. For element types other than qubit the builder is inconsistent (C60_other_element). HUGR's builder and array operations are modelled from their documentation; the memo table of generated functions is C90."
  },
  {
   "property": "C61",
   "status": "partial",
   "theorems": [
    "Verif.StaticArray.C61_array_of_bool",
    "Verif.StaticArray.C61_build_iff",
    "Verif.StaticArray.C61_const_iff",
    "Verif.StaticArray.C61_const_typed",
    "Verif.StaticArray.C61_empty_constant",
    "Verif.StaticArray.C61_function_panics",
    "Verif.StaticArray.C61_get_partial",
    "Verif.StaticArray.C61_get_typed_partial",
    "Verif.StaticArray.C61_len",
    "Verif.StaticArray.C61_no_bool_left"
   ],
   "note": "False in general: an array of tket.bool inside a static array is returned with native booleans (C61_array_of_bool), an empty static array constant keeps its old type while its uses change (C61_empty_constant), and elements that contain a function next to a tket.bool panic (C61_function_panics). Exactly when the build succeeds: C61_build_iff; exactly when the constant agrees with its type: C61_const_iff. Proved for all element types without tket.bool below another container: get returns the original element, with the right type. hugr's ReplaceTypes engine is not modelled."
  },
  {
   "property": "C62",
   "status": "partial",
   "theorems": [
    "Verif.ClExpr.C62_constant_wrong",
    "Verif.ClExpr.C62_declares_too_many",
    "Verif.ClExpr.C62_decode_iff",
    "Verif.ClExpr.C62_decode_partial",
    "Verif.ClExpr.C62_encode",
    "Verif.ClExpr.C62_in_place_refused",
    "Verif.ClExpr.C62_nested_wrong",
    "Verif.ClExpr.C62_one_bit_panics",
    "Verif.ClExpr.C62_own_output_refused",
    "Verif.ClExpr.C62_places_wrong"
   ],
   "note": "False in general: nested operands, constants and the placement of bits are ignored when decoding, so other functions are computed (C62_nested_wrong, C62_constant_wrong, C62_places_wrong); updates in place are an error, b := b xor 1 panics (C62_in_place_refused, C62_one_bit_panics); the decoder refuses every expression the encoder emits, which also declares a bit it does not have (C62_own_output_refused, C62_declares_too_many). Proved: what is accepted (C62_decode_iff), correctness for plain operands placed in order with the result behind them, and that emitted expressions compute the operation."
  },
  {
   "property": "C63",
   "status": "proved",
   "theorems": [
    "Verif.GateTable.C63_decode_encode",
    "Verif.GateTable.C63_native_decode",
    "Verif.GateTable.C63_native_gate",
    "Verif.GateTable.C63_registered",
    "Verif.GateTable.C63_roundtrip",
    "Verif.GateTable.C63_same_gate"
   ],
   "note": "Tables of both emitters, all angles, against the matrices of pytket's documentation. V and Vdg differ by a fixed phase. A measurement that frees its qubit is emitted as an ordinary measurement by design. The texts of parameters are the subject of C34-C37."
  },
  {
   "property": "C64",
   "status": "partial",
   "theorems": [
    "Verif.TypeTranslate.C64_history",
    "Verif.TypeTranslate.C64_index",
    "Verif.TypeTranslate.C64_isomorphic",
    "Verif.TypeTranslate.C64_never",
    "Verif.TypeTranslate.C64_registers",
    "Verif.TypeTranslate.C64_transform",
    "Verif.TypeTranslate.C64_transform_iff",
    "Verif.TypeTranslate.C64_values_partial"
   ],
   "note": "Independence of the history, the first responsible translator, register counts and conversions are proved in full. The correspondence between values and registers holds unless the type without values is a component (C64_values_partial): such a tuple is given bits although it has no values (C64_never)."
  },
  {
   "property": "C65",
   "status": "proved",
   "theorems": [
    "Verif.QRuntime.C65_balanced",
    "Verif.QRuntime.C65_clean",
    "Verif.QRuntime.C65_meaning",
    "Verif.QRuntime.C65_safe",
    "Verif.QRuntime.C65_unsupported"
   ],
   "note": "The runtime is an abstract machine with arbitrary decisions; calls outside its contract are faults. Branching programs without loops: a finite execution of a loop is one of its unrolling. LLVM text, arrays and function calls are not modelled."
  },
  {
   "property": "C66",
   "status": "partial",
   "theorems": [
    "Verif.Results.C66_array_width_wrong",
    "Verif.Results.C66_bad_tag_panics",
    "Verif.Results.C66_exit_partial",
    "Verif.Results.C66_exit_unchecked",
    "Verif.Results.C66_report_partial",
    "Verif.Results.C66_state",
    "Verif.Results.C66_state_error_iff",
    "Verif.Results.C66_state_load",
    "Verif.Results.C66_state_tags",
    "Verif.Results.C66_state_unvalidated",
    "Verif.Results.C66_string_content",
    "Verif.Results.C66_string_iff",
    "Verif.Results.C66_string_reused",
    "Verif.Results.C66_tag_injective",
    "Verif.Results.C66_width_refused"
   ],
   "note": "False for integers of other widths than 64 bits: arrays report wrong values and memory behind them (C66_array_width_wrong), single integers are refused (C66_width_refused); empty or too long tags panic the compiler (C66_bad_tag_panics); signals are not checked (C66_exit_unchecked). Proved for all other results (C66_report_partial, C66_exit_partial); the theorems on constant strings are complete. State results (llvm/debug.rs): C66_state, C66_state_error_iff, C66_state_tags, C66_state_load; nothing checks the size of the array if the program was not validated (C66_state_unvalidated)."
  },
  {
   "property": "C67",
   "status": "partial",
   "theorems": [
    "Verif.ExtOps.C67_array_op",
    "Verif.ExtOps.C67_compute_signature",
    "Verif.ExtOps.C67_compute_stored",
    "Verif.ExtOps.C67_future_signature",
    "Verif.ExtOps.C67_future_stored",
    "Verif.ExtOps.C67_misfit_loaded",
    "Verif.ExtOps.C67_result_loaded",
    "Verif.ExtOps.C67_result_signature",
    "Verif.ExtOps.C67_result_stored",
    "Verif.ExtOps.C67_state_stored",
    "Verif.ExtOps.C67_type_stored"
   ],
   "note": "False only in that result operations are also loaded from arguments that do not fit their parameters (C67_misfit_loaded). Widths must be below 256 as the field is a byte. Types in rows are tokens."
  },
  {
   "property": "C68",
   "status": "partial",
   "theorems": [
    "Verif.Matching.C68_boundary",
    "Verif.Matching.C68_found",
    "Verif.Matching.C68_found_iff",
    "Verif.Matching.C68_nested_ignored",
    "Verif.Matching.C68_outer_constant_ignored",
    "Verif.Matching.C68_pattern_iff",
    "Verif.Matching.C68_shared_angle_not_found",
    "Verif.Matching.C68_value_partial"
   ],
   "note": "False for nested regions and constants outside the region, which are not compared (C68_nested_ignored, C68_outer_constant_ignored), and a pattern with two inputs is not found where both are the same wire (C68_shared_angle_not_found); calls panic (C68_pattern_iff). C68_value_partial assumes that nested regions agree, C68_found_iff that patterns are closed. The order in which edges are followed is any that meets the stated contract of the external crate; the automaton for many patterns and the convexity check are external."
  },
  {
   "property": "C69",
   "status": "proved",
   "theorems": [
    "Verif.Gpu.C69_accepting",
    "Verif.Gpu.C69_answers",
    "Verif.Gpu.C69_blob",
    "Verif.Gpu.C69_emit_iff",
    "Verif.Gpu.C69_failure",
    "Verif.Gpu.C69_never_broken",
    "Verif.Gpu.C69_protocol",
    "Verif.Gpu.C69_refused_context",
    "Verif.Gpu.C69_requests",
    "Verif.Gpu.C69_reserved_nonzero"
   ],
   "note": "Assumes that no other symbol of the module has one of the reserved names, that names contain no zero character, that operands have the types of their operations and that contexts come from GetContext. Disagreements with the documentation are recorded by C69_reserved_nonzero (the reserved argument of gpu_init, documented as zero, is the index chosen by the program) and C69_refused_context (the optional result is never empty). LLVM is modelled as a small instruction set."
  },
  {
   "property": "C70",
   "status": "partial",
   "theorems": [
    "Verif.Opaque.C70_boundary",
    "Verif.Opaque.C70_compatible",
    "Verif.Opaque.C70_identifiers",
    "Verif.Opaque.C70_links",
    "Verif.Opaque.C70_outputs",
    "Verif.Opaque.C70_parameter_linked_twice",
    "Verif.Opaque.C70_reassembled_partial",
    "Verif.Opaque.C70_shared_output_lost",
    "Verif.Opaque.C70_tracked"
   ],
   "note": "The statement is false of the code in two cases (C70_shared_output_lost: an output with registers that is also used inside its subgraph loses the inner use; C70_parameter_linked_twice: a parameter computed by one subgraph for another ends with two sources). C70_links gives the exact links without these restrictions, C70_reassembled_partial the stated one-source form without these two cases. C70_outputs, C70_tracked, C70_identifiers, C70_boundary and C70_compatible are full. The steps of the decoder for other commands are a parameter (their links go to new nodes)."
  },
  {
   "property": "C71",
   "status": "partial",
   "theorems": [
    "Verif.Inline.C71_error",
    "Verif.Inline.C71_failure_erases",
    "Verif.Inline.C71_input_edge_lost",
    "Verif.Inline.C71_links",
    "Verif.Inline.C71_no_reference",
    "Verif.Inline.C71_order",
    "Verif.Inline.C71_payload_erased",
    "Verif.Inline.C71_ports_partial",
    "Verif.Inline.C71_standalone_partial",
    "Verif.Inline.C71_targets_not_mapped",
    "Verif.Inline.C71_twice_erases"
   ],
   "note": "The statement is false of the code: barriers with other data lose it (C71_payload_erased), so a second call erases all subgraphs (C71_twice_erases, for every circuit), a failed call loses the reference that failed (C71_failure_erases), values without registers are linked to a node of the program that has the number of the target in the envelope (C71_targets_not_mapped), and values that come from the input of the region are never linked (C71_input_edge_lost). C71_standalone_partial and C71_ports_partial give the stated form without other barrier data and without inputs that have no registers; C71_error, C71_no_reference, C71_links and C71_order are full."
  },
  {
   "property": "C72",
   "status": "partial",
   "theorems": [
    "Verif.Unsup.C72_connected_partial",
    "Verif.Unsup.C72_constant_twice",
    "Verif.Unsup.C72_convex_partial",
    "Verif.Unsup.C72_inputs_ready_partial",
    "Verif.Unsup.C72_not_convex",
    "Verif.Unsup.C72_once_partial",
    "Verif.Unsup.C72_order_partial"
   ],
   "note": "The statement is false of the code in two cases: a constant of the module that cannot be encoded is put into the subgraph of each operation that loads it (C72_constant_twice), and a constant that is loaded after an unsupported operation by an order link makes a subgraph that is not convex (C72_not_convex). Without such constants C72_once_partial, C72_order_partial, C72_connected_partial, C72_inputs_ready_partial and C72_convex_partial give the whole statement."
  },
  {
   "property": "C73",
   "status": "partial",
   "theorems": [
    "Verif.Quartz.C73_class_lost",
    "Verif.Quartz.C73_classes_partial",
    "Verif.Quartz.C73_meaning_partial",
    "Verif.Quartz.C73_never_permutes",
    "Verif.Quartz.C73_renamed_outputs"
   ],
   "note": "False if gates give other names to their qubits than they had: the names of outputs are ignored for qubits (C73_renamed_outputs; C73_never_permutes shows that no loaded circuit moves a qubit). False for two classes with the same first identifier (C73_class_lost). With the names kept, C73_meaning_partial gives the first sentence in full; with distinct identifiers, C73_classes_partial the second."
  },
  {
   "property": "C74",
   "status": "partial",
   "theorems": [
    "Verif.Tket1.C74_freed_once",
    "Verif.Tket1.C74_no_leak",
    "Verif.Tket1.C74_no_string_leak_partial",
    "Verif.Tket1.C74_regions_iff",
    "Verif.Tket1.C74_regions_memory",
    "Verif.Tket1.C74_safe",
    "Verif.Tket1.C74_string_leaked"
   ],
   "note": "False for strings: a string that is not a circuit is never freed (C74_string_leaked), nor is one returned together with an error. Proved without exceptions: C74_safe, C74_freed_once, C74_no_leak for circuits and passes, C74_regions_iff, C74_regions_memory. C74_no_string_leak_partial covers strings if the library returns circuits on success and nothing otherwise."
  },
  {
   "property": "C75",
   "status": "proved",
   "theorems": [
    "Tket.BadgerSplit.C75_cost",
    "Tket.BadgerSplit.C75_meaning",
    "Tket.BadgerSplit.C75_panic",
    "Tket.BadgerSplit.C75_terminates",
    "Tket.BadgerSplit.C75_threads",
    "Tket.BadgerSplit.C75_threads_lex",
    "Tket.BadgerSplit.C75_zero_queue"
   ],
   "note": "C75_meaning, C75_cost, C75_panic, C75_terminates, C75_threads (usize) and C75_threads_lex (lexicographic costs; both below the point where casts to isize wrap). C75_zero_queue shows that the queue size zero does panic on every circuit with a command."
  },
  {
   "property": "C76",
   "status": "partial",
   "theorems": [
    "Tket.Untuple.C76_all",
    "Tket.Untuple.C76_complete_partial",
    "Tket.Untuple.C76_debug_assert",
    "Tket.Untuple.C76_meaning",
    "Tket.Untuple.C76_panic_iff",
    "Tket.Untuple.C76_two_other_uses_panic",
    "Tket.Untuple.C76_unused_value_panics",
    "Tket.Untuple.C76_valid"
   ],
   "note": "C76_meaning, C76_valid, C76_all and C76_complete_partial (no rewrite panics) prove everything but the absence of failures, which is false: C76_panic_iff gives the exact condition, C76_unused_value_panics and C76_two_other_uses_panic are witnesses. C76_debug_assert: the assertion of debug builds demands nothing more."
  },
  {
   "property": "C77",
   "status": "partial",
   "theorems": [
    "Tket.Rotation.C77_code",
    "Tket.Rotation.C77_constants",
    "Tket.Rotation.C77_finite_partial",
    "Tket.Rotation.C77_literal",
    "Tket.Rotation.C77_panics",
    "Tket.Rotation.C77_radd_infinite",
    "Tket.Rotation.C77_radians"
   ],
   "note": "C77_code and C77_panics: the generated code, all operations. C77_constants: which constants are rejected. C77_finite_partial: all operations but `radd` keep rotations finite; C77_radd_infinite: `radd` does not. C77_literal: loading a literal panics exactly from 2^1024 - 2^970 on. C77_radians: radians and back is not the identity and can fail."
  },
  {
   "property": "C78",
   "status": "partial",
   "theorems": [
    "Tket.Entry.C78_compiled",
    "Tket.Entry.C78_empty_names",
    "Tket.Entry.C78_entry_lost",
    "Tket.Entry.C78_errors",
    "Tket.Entry.C78_generic_hides",
    "Tket.Entry.C78_loaded_partial",
    "Tket.Entry.C78_main_with_inputs",
    "Tket.Entry.C78_opt_level",
    "Tket.Entry.C78_pass",
    "Tket.Entry.C78_read"
   ],
   "note": "C78_loaded_partial: names that are not empty. C78_errors: exactly which errors. C78_pass: order of passes and entrypoint. C78_read, C78_compiled: the compiler. False of the code: C78_empty_names, C78_generic_hides (loading), C78_entry_lost (entrypoint after a failed pass), C78_main_with_inputs, C78_opt_level."
  },
  {
   "property": "C79",
   "status": "partial",
   "theorems": [
    "Tket.ForceOrder.C79_allocs_not_late",
    "Tket.ForceOrder.C79_delayed",
    "Tket.ForceOrder.C79_frees_early",
    "Tket.ForceOrder.C79_order",
    "Tket.ForceOrder.C79_quantum_first",
    "Tket.ForceOrder.C79_quantum_not_early",
    "Tket.ForceOrder.C79_reads_late",
    "Tket.ForceOrder.C79_unique"
   ],
   "note": "C79_order, C79_unique: one order, which respects dependencies. C79_delayed: the general statement on ranks. C79_reads_late, C79_frees_early, C79_quantum_first: its instances. False of the code: C79_allocs_not_late (allocations are executed before all classical operations they do not need), C79_quantum_not_early (an unneeded classical operation can be executed before a quantum operation)."
  },
  {
   "property": "C80",
   "status": "partial",
   "theorems": [
    "Tket.CallLinks.C80_calls",
    "Tket.CallLinks.C80_finishes_iff_partial",
    "Tket.CallLinks.C80_indirect_panics",
    "Tket.CallLinks.C80_linked_iff_partial",
    "Tket.CallLinks.C80_nested_after_wrong",
    "Tket.CallLinks.C80_nested_misdirected",
    "Tket.CallLinks.C80_recursive",
    "Tket.CallLinks.C80_twice_wrong",
    "Tket.CallLinks.C80_wrapper_panics"
   ],
   "note": "False of the code. C80_linked_iff_partial: links are right if and only if no unmodified function is called twice and no nested region comes after a call. C80_calls: which functions the copy calls. C80_finishes_iff_partial: exactly the functions for which a copy is made. Witnesses: C80_twice_wrong, C80_nested_after_wrong, C80_nested_misdirected, C80_indirect_panics; C80_wrapper_panics and C80_recursive for all arguments."
  },
  {
   "property": "C81",
   "status": "partial",
   "theorems": [
    "Tket.ResolveAll.C81_linear",
    "Tket.ResolveAll.C81_result_partial",
    "Tket.ResolveAll.C81_two_calls_panic",
    "Tket.ResolveAll.C81_two_calls_wrong",
    "Tket.ResolveAll.C81_unknown_function_wrong",
    "Tket.ResolveAll.C81_unreplaced"
   ],
   "note": "False of the code if a modifier has two uses or its function is not known. C81_result_partial: nodes and edges of the result for all programs. C81_linear: the claim if each modifier has one use at most and can be applied (no panic, all modifiers removed, nothing else). C81_unreplaced: in all other cases users of the modified function and all that depends on them are removed. Witnesses: C81_two_calls_wrong, C81_two_calls_panic, C81_unknown_function_wrong."
  },
  {
   "property": "C82",
   "status": "partial",
   "theorems": [
    "Tket.RegionWiring.C82_acyclic_partial",
    "Tket.RegionWiring.C82_array_swap_wrong",
    "Tket.RegionWiring.C82_arrays",
    "Tket.RegionWiring.C82_classical_array_wrong",
    "Tket.RegionWiring.C82_copy_fails",
    "Tket.RegionWiring.C82_copy_iff",
    "Tket.RegionWiring.C82_cycle_wrong",
    "Tket.RegionWiring.C82_finishes_iff",
    "Tket.RegionWiring.C82_gate",
    "Tket.RegionWiring.C82_linear_partial",
    "Tket.RegionWiring.C82_loaded_function",
    "Tket.RegionWiring.C82_mirror_partial",
    "Tket.RegionWiring.C82_nested_use_fails",
    "Tket.RegionWiring.C82_outer_value_wrong",
    "Tket.RegionWiring.C82_reverse_iff",
    "Tket.RegionWiring.C82_two_regions_wrong",
    "Tket.RegionWiring.C82_typed_partial",
    "Tket.RegionWiring.C82_wires"
   ],
   "note": "False of the code in several cases. C82_finishes_iff: when the edges can be connected, for all regions. C82_mirror_partial, C82_linear_partial, C82_typed_partial, C82_acyclic_partial: the claim if ports correspond faithfully, edges stay in the region and classical values do not come from operations with qubits. Which operations are faithful: C82_copy_iff, C82_reverse_iff, C82_gate, C82_wires, C82_arrays. Failures: C82_cycle_wrong, C82_two_regions_wrong, C82_outer_value_wrong, C82_nested_use_fails, C82_copy_fails, C82_classical_array_wrong, C82_array_swap_wrong, C82_loaded_function."
  },
  {
   "property": "C83",
   "status": "partial",
   "theorems": [
    "Tket.Units.C83_circuit_ports",
    "Tket.Units.C83_circuit_units",
    "Tket.Units.C83_command_partial",
    "Tket.Units.C83_command_wires_partial",
    "Tket.Units.C83_conditional_wrong",
    "Tket.Units.C83_default_inputs",
    "Tket.Units.C83_filters",
    "Tket.Units.C83_fused",
    "Tket.Units.C83_inputs_panic",
    "Tket.Units.C83_linear_numbered",
    "Tket.Units.C83_outputs_panic",
    "Tket.Units.C83_qubit_count",
    "Tket.Units.C83_size_hints",
    "Tket.Units.C83_yields"
   ],
   "note": "The part about circuits is proved: C83_yields, C83_circuit_units, C83_circuit_ports, C83_linear_numbered, C83_filters, C83_qubit_count, C83_default_inputs, C83_size_hints, C83_fused. The part about commands holds if linear ports come first (C83_command_partial, C83_command_wires_partial) and is false otherwise: C83_inputs_panic, C83_outputs_panic, C83_conditional_wrong."
  },
  {
   "property": "C84",
   "status": "partial",
   "theorems": [
    "Tket.NumOps.C84_counts_program",
    "Tket.NumOps.C84_function_iff",
    "Tket.NumOps.C84_operations",
    "Tket.NumOps.C84_two_functions_wrong"
   ],
   "note": "C84_counts_program: the number is that of all operations of the whole program, each once. C84_function_iff: it is that of the circuit exactly if no other function has operations; C84_two_functions_wrong is a witness. C84_operations: the list has the operations at the top level."
  },
  {
   "property": "C85",
   "status": "partial",
   "theorems": [
    "Tket.Trace.C85_add",
    "Tket.Trace.C85_enable_again",
    "Tket.Trace.C85_exhaustive_partial",
    "Tket.Trace.C85_exhaustive_wrong",
    "Tket.Trace.C85_failed_wrong",
    "Tket.Trace.C85_foreign",
    "Tket.Trace.C85_greedy",
    "Tket.Trace.C85_history",
    "Tket.Trace.C85_ignored_wrong",
    "Tket.Trace.C85_matches_partial",
    "Tket.Trace.C85_no_feature",
    "Tket.Trace.C85_threshold"
   ],
   "note": "C85_history, C85_add, C85_no_feature, C85_enable_again, C85_foreign, C85_greedy, C85_threshold: proved for all histories. False in these cases: rewrites that fail are counted (C85_failed_wrong; otherwise C85_matches_partial), 65536 rewrites in one step are counted as none or panic (C85_exhaustive_wrong; otherwise C85_exhaustive_partial), circuits without tracing get a null entry (C85_ignored_wrong)."
  },
  {
   "property": "C86",
   "status": "partial",
   "theorems": [
    "Tket.EncConfig.C86_boolean_partial",
    "Tket.EncConfig.C86_called_twice",
    "Tket.EncConfig.C86_constants_partial",
    "Tket.EncConfig.C86_decoder",
    "Tket.EncConfig.C86_emitters_for_constant",
    "Tket.EncConfig.C86_emitters_for_operation",
    "Tket.EncConfig.C86_nested_wrong",
    "Tket.EncConfig.C86_operation",
    "Tket.EncConfig.C86_order_differs",
    "Tket.EncConfig.C86_refused_iff",
    "Tket.EncConfig.C86_reuse_wrong",
    "Tket.EncConfig.C86_sum_wrong",
    "Tket.EncConfig.C86_tuple_wrong",
    "Tket.EncConfig.C86_unsupported_wrong"
   ],
   "note": "Dispatch is proved: C86_emitters_for_operation, C86_emitters_for_constant, C86_operation, C86_decoder; the order for operations and constants differs (C86_order_differs) and emitters may be called twice (C86_called_twice). Constants: proved for values and flat tuples without booleans of the core type, in contexts whose unused bits hold zero (C86_constants_partial, C86_boolean_partial, C86_refused_iff). False otherwise: C86_tuple_wrong, C86_nested_wrong, C86_reuse_wrong, C86_sum_wrong, C86_unsupported_wrong."
  },
  {
   "property": "C87",
   "status": "partial",
   "theorems": [
    "Tket.PyBadger.C87_argument_changed",
    "Tket.PyBadger.C87_argument_partial",
    "Tket.PyBadger.C87_circuit_count_partial",
    "Tket.PyBadger.C87_circuit_count_wrong",
    "Tket.PyBadger.C87_cycle_without_effect",
    "Tket.PyBadger.C87_cycles",
    "Tket.PyBadger.C87_default_refuses",
    "Tket.PyBadger.C87_default_timeout_wrong",
    "Tket.PyBadger.C87_result",
    "Tket.PyBadger.C87_search_without_effect",
    "Tket.PyBadger.C87_short_timeout_wrong",
    "Tket.PyBadger.C87_threads",
    "Tket.PyBadger.C87_time"
   ],
   "note": "Proved: C87_time, C87_threads, C87_result, C87_argument_partial, C87_circuit_count_partial, C87_search_without_effect, C87_cycle_without_effect. False of the code: the default timeout (C87_default_timeout_wrong), short timeouts (C87_short_timeout_wrong), the limit on circuits (C87_circuit_count_wrong), the argument is changed (C87_argument_changed) and Tk2Circuits are refused by default (C87_default_refuses, under the assumption that the pass of pytket refuses them)."
  },
  {
   "property": "C88",
   "status": "partial",
   "theorems": [
    "Tket.PyCost.C88_as_usize",
    "Tket.PyCost.C88_compare",
    "Tket.PyCost.C88_delta",
    "Tket.PyCost.C88_division_wrong",
    "Tket.PyCost.C88_empty_wrong",
    "Tket.PyCost.C88_first_error",
    "Tket.PyCost.C88_floats",
    "Tket.PyCost.C88_integers",
    "Tket.PyCost.C88_mixed_compare_wrong",
    "Tket.PyCost.C88_mixed_wrong",
    "Tket.PyCost.C88_other_operations_wrong",
    "Tket.PyCost.C88_sum_partial"
   ],
   "note": "Proved for objects that add and compare as values of an ordered group (C88_sum_partial, C88_first_error, C88_compare, C88_delta), which integers with booleans, and floats alone, are (C88_integers, C88_floats); conversion in C88_as_usize. False: C88_empty_wrong, C88_other_operations_wrong, C88_mixed_wrong, C88_mixed_compare_wrong, C88_division_wrong."
  },
  {
   "property": "C89",
   "status": "partial",
   "theorems": [
    "Verif.EdgeIds.C89_appended_panics",
    "Verif.EdgeIds.C89_default_unused",
    "Verif.EdgeIds.C89_links",
    "Verif.EdgeIds.C89_two_programs_wrong",
    "Verif.EdgeIds.C89_unique",
    "Verif.EdgeIds.C89_write_panics"
   ],
   "note": "The hash has no collisions (C89_unique) and does not take the default value (C89_default_unused); so subgraphs are linked by the wires of the program (C89_links), where the targets are numbered as in C71; writing panics exactly for inputs that are not linked (C89_write_panics). False for circuits put together: C89_appended_panics (for every pair with a common number), C89_two_programs_wrong. Assumes fxhash 0.2.1 and the words fed for a wire."
  },
  {
   "property": "C90",
   "status": "partial",
   "theorems": [
    "Verif.OpMap.C90_failure_stays",
    "Verif.OpMap.C90_functions",
    "Verif.OpMap.C90_kept",
    "Verif.OpMap.C90_keys",
    "Verif.OpMap.C90_names_partial",
    "Verif.OpMap.C90_names_wrong",
    "Verif.OpMap.C90_no_panic",
    "Verif.OpMap.C90_succeeds_iff"
   ],
   "note": "Proved: C90_functions, C90_no_panic, C90_succeeds_iff, C90_kept, C90_keys. False of the code: C90_failure_stays (a failed insert_with leaves the placeholder for ever), C90_names_wrong; C90_names_partial is the part that holds."
  },
  {
   "property": "C91",
   "status": "partial",
   "theorems": [
    "Verif.RoundTrip.C91_bit_returned_twice",
    "Verif.RoundTrip.C91_crossed_outputs",
    "Verif.RoundTrip.C91_lines_partial",
    "Verif.RoundTrip.C91_round_trip_partial",
    "Verif.RoundTrip.C91_values_exist"
   ],
   "note": "C91_round_trip_partial and C91_lines_partial hold for plain regions: no groups, no operations that consume qubits or read bits, no copies, allocations first, all registers used, registers with one index, the decoder knows the signatures of the operations. C91_values_exist shows that values following the data flow exist. False without the condition on outputs: C91_crossed_outputs, C91_bit_returned_twice."
  },
  {
   "property": "C92",
   "status": "partial",
   "theorems": [
    "Verif.PyBuild.C92_finish_once",
    "Verif.PyBuild.C92_free_fails",
    "Verif.PyBuild.C92_identity",
    "Verif.PyBuild.C92_linear_partial",
    "Verif.PyBuild.C92_meaning",
    "Verif.PyBuild.C92_negative_index",
    "Verif.PyBuild.C92_no_index_fails",
    "Verif.PyBuild.C92_same_qubit_accepted",
    "Verif.PyBuild.C92_succeeds_iff"
   ],
   "note": "Proved for all commands given by numbers: C92_succeeds_iff, C92_meaning, C92_identity. C92_linear_partial needs commands that name each qubit once. False of the code otherwise: C92_same_qubit_accepted; limits: C92_no_index_fails, C92_free_fails, C92_negative_index, C92_finish_once. TrackedDfg of the Python package hugr is an assumption."
  },
  {
   "property": "C93",
   "status": "partial",
   "theorems": [
    "Verif.SubRegions.C93_encoded",
    "Verif.SubRegions.C93_every_order",
    "Verif.SubRegions.C93_no_subcircuits",
    "Verif.SubRegions.C93_order_matters",
    "Verif.SubRegions.C93_result",
    "Verif.SubRegions.C93_round_trip_partial"
   ],
   "note": "Proved without bounds: C93_encoded, C93_no_subcircuits, C93_every_order, C93_result. C93_round_trip_partial needs that all opaque subgraphs are still in the circuits; C93_order_matters shows that this is needed. Assumed: opaque subgraphs of a region are disjoint sets of its children; numbers of removed nodes are not reused."
  },
  {
   "property": "C94",
   "status": "partial",
   "theorems": [
    "Verif.Matching.C94_alive",
    "Verif.Matching.C94_alive_sound",
    "Verif.Matching.C94_complete",
    "Verif.Matching.C94_consumer_removed",
    "Verif.Matching.C94_find_match",
    "Verif.Matching.C94_found",
    "Verif.Matching.C94_from_rules",
    "Verif.Matching.C94_many_partial",
    "Verif.Matching.C94_one_bad_rule",
    "Verif.Matching.C94_rewriters",
    "Verif.Matching.C94_sound_partial",
    "Verif.Matching.C94_total"
   ],
   "note": "Proved without bounds: C94_from_rules, C94_found, C94_find_match, C94_complete, C94_total, C94_rewriters. C94_sound_partial and C94_many_partial need: circuits and sides of rules without nested regions (matching does not look at them, C68), every command of a left-hand side connected with its boundary, and values kept inside a left-hand side used by nothing else in the circuit; C94_consumer_removed shows that the last one is needed. The automaton of the portmatching crate, the check of subgraphs and the replacement of HUGR are parameters or written from their documentation. In circuits where every operation leads to the outputs the condition on values that are used elsewhere holds by itself (C94_alive, C94_alive_sound)."
  },
  {
   "property": "C95",
   "status": "partial",
   "theorems": [
    "Verif.Matching.C95_badger_partial",
    "Verif.Matching.C95_chosen_apart",
    "Verif.Matching.C95_cycle",
    "Verif.Matching.C95_defined",
    "Verif.Matching.C95_hash",
    "Verif.Matching.C95_no_new_partial",
    "Verif.Matching.C95_strategy_partial",
    "Verif.Matching.C95_threads_partial",
    "Verif.Matching.C95_threshold_partial",
    "Verif.Matching.C95_together_partial"
   ],
   "note": "Proved without bounds: C95_chosen_apart, C95_hash, C95_defined. C95_together_partial, C95_no_new_partial, C95_strategy_partial, C95_threshold_partial and C95_badger_partial have the conditions of C94 (no nested regions, commands of left-hand sides connected with the boundary, inner values used by nothing else); several rewrites together need that a wire which goes straight through a right-hand side is a dependency of the left-hand side. C95_cycle is the counterexample for acyclicity without the condition on dependencies. With several threads and one queue C95_threads_partial says the same of every execution that returns. Splitting is in C75."
  },
  {
   "property": "C96",
   "status": "partial",
   "theorems": [
    "Verif.Matching.C96_alive_rewrite",
    "Verif.Matching.C96_badger_partial",
    "Verif.Matching.C96_functions",
    "Verif.Matching.C96_gates_badger",
    "Verif.Matching.C96_gates_many",
    "Verif.Matching.C96_gates_rewrite",
    "Verif.Matching.C96_gates_strategy",
    "Verif.Matching.C96_gates_threads",
    "Verif.Matching.C96_gates_through",
    "Verif.Matching.C96_many_partial",
    "Verif.Matching.C96_rewrite_partial",
    "Verif.Matching.C96_run",
    "Verif.Matching.C96_strategy_partial",
    "Verif.Matching.C96_threads_partial",
    "Verif.Matching.C96_together_partial"
   ],
   "note": "Proved without conditions beyond well-formedness: C96_run, C96_functions. For rules whose sides are circuits of gates (all wires linear and used, Model/GateRulesSpec) the conditions on inner values, connected commands and wires through right-hand sides are theorems: C96_gates_through (isometries), C96_gates_rewrite, C96_gates_many, C96_gates_strategy, C96_gates_badger. For other rules C96_rewrite_partial, C96_many_partial, C96_together_partial, C96_strategy_partial and C96_badger_partial have the conditions of C94 and C95 (commands of left-hand sides connected with the boundary, inner values used by nothing else; for several rewrites together, a wire that goes straight through a right-hand side is a dependency of the left-hand side). Missing in all of them: nested regions. In circuits where every operation leads to the outputs the condition on values that are used elsewhere is not needed (C96_alive_rewrite). Several threads: C96_threads_partial, C96_gates_threads (all executions that return; also that the cost tracked for the result is not above the first one)."
  },
  {
   "property": "C97",
   "status": "proved",
   "theorems": [
    "Verif.Matching.C97_agree",
    "Verif.Matching.C97_all",
    "Verif.Matching.C97_badger",
    "Verif.Matching.C97_found",
    "Verif.Matching.C97_many",
    "Verif.Matching.C97_rewrite",
    "Verif.Matching.C97_strategy",
    "Verif.Matching.C97_through",
    "Verif.Matching.C97_total",
    "Verif.Matching.C97_wire"
   ],
   "note": "C97_wire, C97_agree, C97_found, C97_all, C97_total, C97_rewrite, C97_many; C97_through, C97_strategy, C97_badger for gates that are isometries. Circuits that are rewritten have no nested regions."
  },
  {
   "property": "C98",
   "status": "partial",
   "theorems": [
    "Verif.Matching.C98_agree",
    "Verif.Matching.C98_badger_partial",
    "Verif.Matching.C98_found",
    "Verif.Matching.C98_many_partial",
    "Verif.Matching.C98_rewrite_partial",
    "Verif.Matching.C98_strategy_partial",
    "Verif.Matching.C98_threads_partial",
    "Verif.Matching.C98_through",
    "Verif.Matching.C98_total"
   ],
   "note": "C98_agree, C98_found, C98_total, C98_through; C98_rewrite_partial, C98_many_partial for circuits that throw nothing away (linear results are used, and every operation has a result that is used), which rewrites keep; C98_strategy_partial and C98_badger_partial if every operation leads to the outputs where rewrites are looked for. Without such a condition a rewrite can remove an operation whose result is needed (C94_consumer_removed). Circuits that are rewritten have no nested regions. Several threads: C98_threads_partial."
  },
  {
   "property": "C99",
   "status": "proved",
   "theorems": [
    "Tket.NormalizeGuppy.C99_defaults_differ",
    "Tket.NormalizeGuppy.C99_fails_iff",
    "Tket.NormalizeGuppy.C99_failure_leaves_changes",
    "Tket.NormalizeGuppy.C99_inline_never_fails",
    "Tket.NormalizeGuppy.C99_meaning",
    "Tket.NormalizeGuppy.C99_off",
    "Tket.NormalizeGuppy.C99_python",
    "Tket.NormalizeGuppy.C99_python_cannot_turn_off",
    "Tket.NormalizeGuppy.C99_python_error",
    "Tket.NormalizeGuppy.C99_python_kept",
    "Tket.NormalizeGuppy.C99_python_pytket",
    "Tket.NormalizeGuppy.C99_setters",
    "Tket.NormalizeGuppy.C99_succeeds_iff"
   ],
   "note": "C99_succeeds_iff, C99_fails_iff, C99_meaning, C99_off, C99_setters, C99_inline_never_fails; C99_python, C99_python_pytket, C99_python_kept, C99_python_error. Findings: C99_python_cannot_turn_off, C99_defaults_differ, C99_failure_leaves_changes. The passes of hugr are parameters."
  },
  {
   "property": "C100",
   "status": "partial",
   "theorems": [
    "Tket.PyOps.C100_convert",
    "Tket.PyOps.C100_convert_pauli",
    "Tket.PyOps.C100_custom",
    "Tket.PyOps.C100_defined",
    "Tket.PyOps.C100_equal",
    "Tket.PyOps.C100_name_ignored",
    "Tket.PyOps.C100_new",
    "Tket.PyOps.C100_new_pauli",
    "Tket.PyOps.C100_no_hash",
    "Tket.PyOps.C100_not_transitive",
    "Tket.PyOps.C100_order_differs",
    "Tket.PyOps.C100_pauli_custom",
    "Tket.PyOps.C100_pauli_order",
    "Tket.PyOps.C100_symmetric_iff",
    "Tket.PyOps.C100_transitive_partial",
    "Tket.PyOps.C100_values"
   ],
   "note": "C100_new, C100_new_pauli, C100_convert, C100_convert_pauli, C100_values, C100_equal, C100_defined, C100_custom: as stated for operations. False: comparison depends on the order exactly for a Pauli matrix of Rust and the same one of Python (C100_symmetric_iff, C100_pauli_order), is not transitive with strings (C100_not_transitive, C100_name_ignored; otherwise C100_transitive_partial), neither class has a hash (C100_no_hash), Pauli.to_custom always raises an exception (C100_pauli_custom). Rules of Python for comparison and hashes, and names by strum, are part of the model."
  },
  {
   "property": "C101",
   "status": "partial",
   "theorems": [
    "Verif.PyExts.C101_attribute",
    "Verif.PyExts.C101_compute",
    "Verif.PyExts.C101_compute_types",
    "Verif.PyExts.C101_data",
    "Verif.PyExts.C101_futures",
    "Verif.PyExts.C101_global_phase",
    "Verif.PyExts.C101_method",
    "Verif.PyExts.C101_ops",
    "Verif.PyExts.C101_others",
    "Verif.PyExts.C101_plain",
    "Verif.PyExts.C101_result",
    "Verif.PyExts.C101_state",
    "Verif.PyExts.C101_width_is_logarithm"
   ],
   "note": "C101_data, C101_attribute, C101_ops, C101_plain, C101_method, C101_result, C101_futures, C101_state, C101_compute, C101_compute_types, C101_others: as stated, except for the extension of global phases, where everything raises an exception (C101_global_phase), and for widths, which are documented as numbers of bits: the integers never have this many bits, and from 7 on the arguments do not fit (C101_width_is_logarithm; the exact condition is in C101_method). Assumed of hugr-py: get_op raises for missing names, instantiate stores the arguments unchecked. Signatures and descriptions in the files are not modelled, nor negative numbers."
  },
  {
   "property": "C102",
   "status": "partial",
   "theorems": [
    "Verif.SaveFile.C102_circuit",
    "Verif.SaveFile.C102_complete",
    "Verif.SaveFile.C102_content",
    "Verif.SaveFile.C102_matcher",
    "Verif.SaveFile.C102_matcher_path",
    "Verif.SaveFile.C102_no_extension",
    "Verif.SaveFile.C102_old_circuit_lost",
    "Verif.SaveFile.C102_old_rewriter_lost",
    "Verif.SaveFile.C102_reported_iff",
    "Verif.SaveFile.C102_rewriter_path",
    "Verif.SaveFile.C102_same_file_iff",
    "Verif.SaveFile.C102_tool_iff",
    "Verif.SaveFile.C102_tools",
    "Verif.SaveFile.C102_truncated_reported_saved",
    "Verif.SaveFile.C102_version_lost"
   ],
   "note": "C102_content, C102_complete, C102_matcher, C102_matcher_path, C102_rewriter_path, C102_circuit, C102_tool_iff, C102_tools: as stated if there is room, and always for matchers. False in general: the last bytes of rewriters and circuits, at most as many as the buffer holds, are written when the file is closed, where errors are ignored (C102_reported_iff is the exact condition, C102_truncated_reported_saved); names with version numbers are the same file (C102_version_lost, exactly C102_same_file_iff); circuits that can not be encoded empty the old file (C102_old_circuit_lost), and rewriters without room (C102_old_rewriter_lost). Assumed: BufWriter and paths of the standard library as in its source, decoding what was encoded (C102_tools), a device that takes a number of bytes."
  },
  {
   "property": "C103",
   "status": "partial",
   "theorems": [
    "Tket.BadgerLog.C103_failure",
    "Tket.BadgerLog.C103_no_effect",
    "Tket.BadgerLog.C103_rows",
    "Tket.BadgerLog.C103_rows_decrease",
    "Tket.BadgerLog.C103_split_failure",
    "Tket.BadgerLog.C103_split_rows",
    "Tket.BadgerLog.C103_threads_failure",
    "Tket.BadgerLog.C103_threads_no_effect",
    "Tket.BadgerLog.C103_threads_rows"
   ],
   "note": "C103_no_effect, C103_rows, C103_rows_decrease (one thread), C103_split_rows, C103_threads_no_effect: as stated for files that can be written. With threads and one queue the cost of the input is not in the file, which is empty if there is no improvement (C103_threads_rows). If a row can not be written, the optimiser panics and the result is lost (C103_failure is exact; C103_threads_failure, C103_split_failure). Times and messages to tracing are not modelled."
  },
  {
   "property": "C104",
   "status": "partial",
   "theorems": [
    "Tket.PyOptimiser.C104_bad_classes",
    "Tket.PyOptimiser.C104_bad_numbers",
    "Tket.PyOptimiser.C104_bad_types",
    "Tket.PyOptimiser.C104_cost",
    "Tket.PyOptimiser.C104_keywords",
    "Tket.PyOptimiser.C104_load",
    "Tket.PyOptimiser.C104_missing_file",
    "Tket.PyOptimiser.C104_panics",
    "Tket.PyOptimiser.C104_pass",
    "Tket.PyOptimiser.C104_pass_default",
    "Tket.PyOptimiser.C104_positional_wrong",
    "Tket.PyOptimiser.C104_queue_default",
    "Tket.PyOptimiser.C104_stub_partial"
   ],
   "note": "C104_keywords, C104_bad_numbers, C104_bad_types, C104_cost, C104_pass: as stated for keywords. C104_panics: the only panic due to arguments is a log file that can not be created. False: by position from the fourth argument on (C104_stub_partial holds for three; C104_positional_wrong: the number of threads of the stub is taken as the number of circuits after which the search stops); the default size of the queue is 100 and not 20 (C104_queue_default); rewriters that can not be loaded panic (C104_load, C104_missing_file, C104_bad_classes). C104_pass_default: the pass does not rebase by default, `badger_optimise` does. The conversions of pyo3 are modelled from its documentation; the search itself is in other properties."
  },
  {
   "property": "C105",
   "status": "partial",
   "theorems": [
    "Tket.PyCircuit.C105_bytes_partial",
    "Tket.PyCircuit.C105_bytes_tket1",
    "Tket.PyCircuit.C105_config_errors",
    "Tket.PyCircuit.C105_convert",
    "Tket.PyCircuit.C105_copy",
    "Tket.PyCircuit.C105_copy_not_equal",
    "Tket.PyCircuit.C105_eq",
    "Tket.PyCircuit.C105_handles",
    "Tket.PyCircuit.C105_handles_not_equal",
    "Tket.PyCircuit.C105_hash",
    "Tket.PyCircuit.C105_hash_raises",
    "Tket.PyCircuit.C105_level_partial",
    "Tket.PyCircuit.C105_level_wrong",
    "Tket.PyCircuit.C105_lowering",
    "Tket.PyCircuit.C105_named",
    "Tket.PyCircuit.C105_rewrite",
    "Tket.PyCircuit.C105_set",
    "Tket.PyCircuit.C105_set_copy",
    "Tket.PyCircuit.C105_set_lost",
    "Tket.PyCircuit.C105_set_partial",
    "Tket.PyCircuit.C105_to_bytes",
    "Tket.PyCircuit.C105_untouched"
   ],
   "note": "C105_untouched, C105_copy, C105_convert, C105_rewrite, C105_handles: independence as stated, for all programs. C105_hash, C105_hash_raises: equal circuits have equal hashes. False: circuits and handles are compared by place, so a copy is never equal to its original (C105_eq, C105_copy_not_equal, C105_handles_not_equal) and not found in a set (C105_set_copy); a circuit in a set is found exactly if its hash did not change (C105_set; C105_set_partial without rewrites, C105_set_lost with one). Envelopes: C105_to_bytes, C105_level_partial, C105_config_errors, C105_bytes_partial; compression levels from 255 on silently become the default (C105_level_wrong); circuits with operations of TKET1 are not read back (C105_bytes_tket1), and naming the function fails for all programs with extensions of Q-System, global phases or modifiers (C105_named). C105_lowering: lowering fails only if removing tuples does. That envelopes store no extensions, and are refused if an extension is unknown, is an assumption on hugr."
  },
  {
   "property": "C106",
   "status": "partial",
   "theorems": [
    "Tket.PyStubs.C106_bounds",
    "Tket.PyStubs.C106_calls_partial",
    "Tket.PyStubs.C106_complete_partial",
    "Tket.PyStubs.C106_deepcopy",
    "Tket.PyStubs.C106_keyword_wrong",
    "Tket.PyStubs.C106_missing",
    "Tket.PyStubs.C106_positional_partial",
    "Tket.PyStubs.C106_undeclared"
   ],
   "note": "C106_calls_partial: holds for 56 of 77 declarations and all calls. False: six declared methods and constructors do not exist (C106_missing); thirteen have a parameter with another name, so that calls with the declared keyword are refused (C106_keyword_wrong) while positional calls are as declared (C106_positional_partial); `__deepcopy__` has another number of parameters (C106_deepcopy), and `optimise` another list (C104_positional_wrong). Two methods are not declared (C106_complete_partial, C106_undeclared), and the members of `TypeBound` differ (C106_bounds). Types of arguments, properties and class attributes are not part of the tables, which are copied from the sources by hand."
  },
  {
   "property": "C107",
   "status": "proved",
   "theorems": [
    "Verif.Drops.C107_after_bools",
    "Verif.Drops.C107_again",
    "Verif.Drops.C107_bools_drops",
    "Verif.Drops.C107_freed",
    "Verif.Drops.C107_generic",
    "Verif.Drops.C107_lazy",
    "Verif.Drops.C107_leaked",
    "Verif.Drops.C107_order",
    "Verif.Drops.C107_removed",
    "Verif.Drops.C107_result",
    "Verif.Drops.C107_same",
    "Verif.Drops.C107_succeeds",
    "Verif.Drops.C107_translated",
    "Verif.Drops.C107_unchanged"
   ],
   "note": "Proved for programs of any size and depth. The linearizer of hugr is modelled from its documentation: sums by cases, arrays element by element, registered operations for other types, an error for the rest; elements of borrow arrays are all present. Values of lazy booleans are the subject of C47; here only their types and drops are translated."
  },
  {
   "property": "C108",
   "status": "partial",
   "theorems": [
    "Verif.InputParams.C108_added",
    "Verif.InputParams.C108_assign",
    "Verif.InputParams.C108_bound",
    "Verif.InputParams.C108_capture",
    "Verif.InputParams.C108_distinct",
    "Verif.InputParams.C108_duplicate",
    "Verif.InputParams.C108_encoded",
    "Verif.InputParams.C108_first_used",
    "Verif.InputParams.C108_given",
    "Verif.InputParams.C108_identifiers",
    "Verif.InputParams.C108_not_identifier",
    "Verif.InputParams.C108_output_refused",
    "Verif.InputParams.C108_outputs",
    "Verif.InputParams.C108_pi",
    "Verif.InputParams.C108_reassemble_partial",
    "Verif.InputParams.C108_returns_partial",
    "Verif.InputParams.C108_slot",
    "Verif.InputParams.C108_succeeds",
    "Verif.InputParams.C108_symbol_input",
    "Verif.InputParams.C108_symbols_partial",
    "Verif.InputParams.C108_types",
    "Verif.InputParams.C108_value"
   ],
   "note": "Decoding is proved for all inputs of the modelled functions, and the values of all expressions for every meaning of the operations. Encoding and decoding keeps the inputs and values (C108_reassemble_partial, C108_returns_partial, C108_symbols_partial) if stored names are distinct identifiers other than pi and no symbol has the name of a parameter; without these conditions, and for the number of inputs when there are symbols, it is false (C108_capture, C108_symbol_input, C108_not_identifier, C108_pi, C108_duplicate). The condition on signatures holds for all types of tket (C108_types). Names of the encoder are read as variables if stored names are identifiers (C108_identifiers). Outputs are connected again (C108_outputs) if subgraphs have the links they had (C70); which registers outputs take is in C30 and C38. Expressions are already parsed (C34, C35), conversions between rotations and floats are left out, and so are errors of commands and of registers with equal names."
  }
 ]
}