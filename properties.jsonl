{"id": "C01", "title": "Search queue never loses or dangles a stored circuit", "statement": "After any history of pushes and pops on the optimiser's state queue, the queue holds at most its configured maximum number of entries, every entry it holds (and every entry in the best-N list, when enabled) still has its circuit stored, and therefore pop and the final best-N extraction never panic.", "quantifier": "every queue capacity, every best-N setting, every finite sequence of push / push_unchecked / pop / pop_max calls with arbitrary hashes, costs and states", "why_tests_cant": "the queue state depends on the whole history of accepted, rejected, evicted and popped entries; tests only run a handful of short histories", "anchors": ["tket/src/optimiser/pqueue.rs: StatePQueue::{push_unchecked,pop,pop_max,push_all_time_best,pop_max_all_time_best,into_all_time_best}"]}
{"id": "C02", "title": "Search queue pops a cheapest entry with its own circuit", "statement": "Whenever the queue is non-empty, pop returns an entry whose cost is minimal among the entries currently held, together with the circuit that was pushed under that hash, and removes exactly that entry; pop_max returns a maximal one.", "quantifier": "every queue state reachable by any history of operations", "why_tests_cant": "needs the priority order and the lookup table to agree in every reachable state", "anchors": ["tket/src/optimiser/pqueue.rs: StatePQueue::{pop,pop_max,peek}"]}
{"id": "C03", "title": "A circuit hash is accepted at most once", "statement": "Over the life of a queue, a given circuit hash enters the queue at most once, even after it has been popped or evicted; a hash that was refused only because of its cost may still enter later.", "quantifier": "every finite history of operations", "why_tests_cant": "the claim is about all pairs of pushes in unbounded histories", "anchors": ["tket/src/optimiser/pqueue.rs: StatePQueue::push_unchecked, seen_hashes"]}
{"id": "C04", "title": "Best-N list is exactly the N cheapest accepted states", "statement": "With best-N tracking enabled, the list returned at the end is sorted by cost, has length min(N, number of accepted states), contains only accepted states with their pushed cost, and no accepted state left out is strictly cheaper than one returned, even if entries were popped or evicted in between.", "quantifier": "every N, every capacity and every history", "why_tests_cant": "depends on the entire push history and eviction order", "anchors": ["tket/src/optimiser/pqueue.rs: StatePQueue::{push_all_time_best,into_all_time_best}", "tket/src/optimiser.rs: BacktrackingOptions::track_n_best"]}
{"id": "C05", "title": "Eviction only ever drops a worst entry", "statement": "When a push is accepted into a full queue, the entry that is dropped has maximal cost, is strictly more expensive than the new one, and everything else is kept; a push is refused exactly when the hash was already accepted, the capacity is zero, or the queue is full and the new cost is not strictly below the current maximum.", "quantifier": "every reachable queue state and every pushed element", "why_tests_cant": "boundary behaviour at every fill level and cost tie", "anchors": ["tket/src/optimiser/pqueue.rs: StatePQueue::{check_accepted,push_unchecked}"]}
{"id": "C06", "title": "Backtracking search never returns something worse or unrelated", "statement": "The state returned by the backtracking optimiser was reached from the start state by a chain of successor steps, and its cost is never greater than the start state's cost; it is the cheapest among the states that were expanded.", "quantifier": "every start state, successor function, cost function, queue size and every pattern of timeout firings", "why_tests_cant": "ranges over all successor graphs and all schedules of the clock", "anchors": ["tket/src/optimiser/backtracking.rs: BacktrackingOptimiser::optimise*"]}
{"id": "C07", "title": "Backtracking search respects its visit budget and terminates", "statement": "With a visit budget n the search expands at most max(n,1) states; and without any budget or timeout the search terminates whenever only finitely many hashes are reachable.", "quantifier": "every successor function and every budget", "why_tests_cant": "termination and counting over unbounded runs", "anchors": ["tket/src/optimiser/backtracking.rs: BacktrackingOptimiser", "tket/src/optimiser.rs: BacktrackingOptions"]}
{"id": "C08", "title": "Badger always returns a circuit", "statement": "Running the badger optimiser on a circuit with a computable hash and cost returns a circuit and does not panic, for every configured queue size.", "quantifier": "every queue size, circuit, rewriter and strategy", "why_tests_cant": "queue size zero and eviction corner cases are configuration dependent", "anchors": ["tket/src/optimiser/badger.rs: BadgerOptimiser::badger, BadgerOptimiserConfig (expect \"optimisation failed\")", "tket/src/optimiser/pqueue.rs: check_accepted"]}
{"id": "C09", "title": "Incrementally tracked costs equal real costs", "statement": "The cost stored for every search state equals the cost of its circuit computed from scratch, provided each rewrite reports its true cost difference; in particular saturation never kicks in along a reachable chain.", "quantifier": "every chain of rewrites of any length", "why_tests_cant": "saturating arithmetic over unbounded chains", "anchors": ["tket/src/optimiser/badger.rs: BadgerState, next_states", "tket/src/circuit/cost.rs: add_delta, sub_cost"]}
{"id": "C10", "title": "Parallel search reports the true minimum", "statement": "For every interleaving of worker results, the queue worker announces a new best state exactly when a strictly cheaper circuit arrives, announcements are strictly decreasing in cost, and the last announcement is the minimum over all circuits ever submitted.", "quantifier": "every number of workers, every interleaving of submissions", "why_tests_cant": "schedules are unbounded", "anchors": ["tket/src/optimiser/pqueue_worker.rs: StatePQWorker", "tket/src/optimiser/badger.rs: badger_multithreaded"]}
{"id": "C11", "title": "Parallel search stops when the search space is exhausted", "statement": "If every worker has no further circuits to propose, the parallel optimiser terminates even without a timeout.", "quantifier": "every finite rewrite space and schedule", "why_tests_cant": "deadlocks appear only in particular schedules", "anchors": ["tket/src/optimiser/pqueue_worker.rs: StatePQWorker::run", "tket/src/optimiser/badger/worker.rs: BadgerWorker::run", "tket/src/optimiser/badger.rs"]}
{"id": "C12", "title": "Queue pressure is shared with workers", "statement": "Once the shared queue is full, workers see the current maximal queue cost and skip circuits that would be refused anyway.", "quantifier": "every history of submissions", "why_tests_cant": "depends on the shared state after arbitrary histories", "anchors": ["tket/src/optimiser/pqueue_worker.rs: update_max_cost, StatePriorityChannel"]}
{"id": "C13", "title": "Circuit cost arithmetic is a lexicographic group action", "statement": "Comparing costs is lexicographic with the most significant component first; adding back a cost difference restores the original cost; adding costs is monotone and the saturating update never underflows when the difference was computed from a contained circuit.", "quantifier": "all cost tuples of every length and magnitude", "why_tests_cant": "unbounded integers / all lengths", "anchors": ["tket/src/circuit/cost.rs: LexicographicCost, CircuitCost, CostDelta"]}
{"id": "C14", "title": "Dividing a cost over threads never loses budget", "statement": "Splitting a circuit's cost into n parts gives parts whose n-fold sum is at least the original cost and (for non-zero cost) exceeds it by less than n.", "quantifier": "all costs and all n >= 1", "why_tests_cant": "all magnitudes", "anchors": ["tket/src/circuit/cost.rs: div_cost"]}
{"id": "C15", "title": "Greedy strategy strictly reduces size with disjoint rewrites", "statement": "The greedy strategy applies only rewrites that strictly reduce the node count, never two that touch a common node, applies every such rewrite that does not overlap an earlier chosen one, and the reported delta is the sum of the applied deltas.", "quantifier": "every list of candidate rewrites with arbitrary footprints and deltas", "why_tests_cant": "all overlap patterns", "anchors": ["tket/src/rewrite/strategy.rs: GreedyRewriteStrategy::apply_rewrites"]}
{"id": "C16", "title": "Exhaustive strategies only emit allowed, independent rewrites", "statement": "Every circuit produced by the exhaustive greedy strategy comes from a set of pairwise independent rewrites that each satisfy the threshold, contains the rewrite it started from, and its reported delta is the sum of deltas; hence with the default threshold the major cost never increases. The threshold strategy emits exactly one circuit per allowed rewrite.", "quantifier": "every list of candidate rewrites", "why_tests_cant": "all overlap patterns", "anchors": ["tket/src/rewrite/strategy.rs: ExhaustiveGreedyStrategy, ExhaustiveThresholdStrategy, LexicographicCostFunction::under_threshold"]}
{"id": "C17", "title": "Rewriter stays inside one equivalence class", "statement": "Every rewrite proposed by the ECC rewriter replaces a matched pattern by a circuit from the same equivalence class, different from the matched one, and each class member other than the representative is replaced by the representative.", "quantifier": "every list of equivalence classes and every matched pattern", "why_tests_cant": "all class sizes and filters of failed patterns / empty wires", "anchors": ["tket/src/rewrite/ecc_rewriter.rs: ECCRewriter, get_targets, from_ecc"]}
{"id": "C18", "title": "Equivalence class representative is a smallest member", "statement": "Building an equivalence class from circuits keeps all circuits, picks a representative of minimal size, and reports the right count; an empty list is refused.", "quantifier": "every list of circuits", "why_tests_cant": "all lengths and ties", "anchors": ["tket/src/optimiser/badger/eq_circ_class.rs: EqCircClass::from_circuits"]}
{"id": "C19", "title": "Chunking is an order-preserving partition with bounded chunks", "statement": "Splitting a circuit assigns every command to exactly one chunk, chunks are contiguous runs in command order, and with unit costs no chunk has more than max(size,1) commands.", "quantifier": "every command list and every size", "why_tests_cant": "all lengths", "anchors": ["tket/src/passes/chunks.rs: CircuitChunks::{split,split_with_cost}"]}
{"id": "C20", "title": "Chunks respect the requested cost", "statement": "When splitting by an arbitrary cost function, no chunk's total cost exceeds the requested maximum unless it consists of a single command.", "quantifier": "every command list, cost function and maximum", "why_tests_cant": "all cost sequences", "anchors": ["tket/src/passes/chunks.rs: CircuitChunks::split_with_cost"]}
{"id": "C21", "title": "Reassembling chunks restores every connection", "statement": "Splitting a circuit into chunks and reassembling them without modification yields the same connections between commands, circuit inputs and outputs.", "quantifier": "every circuit and every chunking", "why_tests_cant": "all graphs", "anchors": ["tket/src/passes/chunks.rs: CircuitChunks::{split,reassemble}"]}
{"id": "C22", "title": "Command iteration gives distinct linear units to live qubits", "statement": "While iterating over the commands of a circuit, two qubits alive at the same time are never reported with the same linear unit identifier.", "quantifier": "every circuit, including ones that allocate and free qubits", "why_tests_cant": "depends on the history of allocations and frees", "anchors": ["tket/src/circuit/command.rs: CommandIterator::process_node, wire_unit"]}
{"id": "C23", "title": "Removing an empty wire leaves all other wires intact", "statement": "Removing an unused qubit wire deletes exactly that input (and the matching output) and every other input and output keeps its connection, shifted by one where needed; wires in use are refused.", "quantifier": "every circuit signature, connection pattern and port", "why_tests_cant": "all port layouts", "anchors": ["tket/src/circuit.rs: remove_empty_wire, shift_ports"]}
{"id": "C24", "title": "Circuit hash does not depend on traversal order", "statement": "The hash of a circuit depends only on its dataflow structure: relabelling nodes or processing them in any other topological order gives the same value.", "quantifier": "every acyclic circuit and every pair of topological orders", "why_tests_cant": "all orders of all graphs", "anchors": ["tket/src/circuit/hash.rs: hash_node, HashState, circuit_hash"]}
{"id": "C25", "title": "Commutation pass preserves the circuit's meaning", "statement": "Running the greedy commutation pass yields a circuit with the same unitary action, for circuits consisting of gates known to the pass, and never panics.", "quantifier": "every circuit", "why_tests_cant": "all circuits and commutation patterns", "anchors": ["tket/src/passes/commutation.rs: apply_greedy_commutation, commutes_at_slice"]}
{"id": "C26", "title": "Declared commutation data is sound", "statement": "Whenever two gates are declared to act on a shared qubit by the same Pauli (or identity), they really commute as linear operators.", "quantifier": "every pair of gates, all rotation angles, all placements", "why_tests_cant": "continuous angles", "anchors": ["tket/src/ops.rs: TketOp::qubit_commutation, Pauli::commutes_with"]}
{"id": "C27", "title": "Borrow squashing preserves array programs", "statement": "Eliding return/borrow pairs on a borrow array does not change which values flow to which users, the final array contents, or whether the program panics.", "quantifier": "every sequence of constant-index borrows/returns and every array content", "why_tests_cant": "all sequences and aliasing patterns", "anchors": ["tket/src/passes/borrow_squash.rs: borrow_squash_array, borrow_squash_traversal"]}
{"id": "C28", "title": "Encoder never assigns one qubit to two live wires", "statement": "While encoding to pytket, two distinct live quantum wires never map to the same pytket qubit, and the registers handed out as fresh are not in use by any live wire.", "quantifier": "every circuit / history of wire registrations", "why_tests_cant": "histories of register reuse", "anchors": ["tket/src/serialize/pytket/encoder/value_tracker.rs: ValueTracker::{new_qubit,register_wire,wire_values,unregister_wire}"]}
{"id": "C29", "title": "Allocated qubits are encoded as clean qubits", "statement": "A qubit allocated in the program is encoded as a pytket register that no earlier command acted on (or that is reset first).", "quantifier": "every sequence of allocations, measurements and frees", "why_tests_cant": "depends on register reuse history", "anchors": ["tket/src/serialize/pytket/extension/tket.rs: encode_tket_op (QAlloc, MeasureFree, QFree)", "tket/src/serialize/pytket/encoder/value_tracker.rs: new_qubit"]}
{"id": "C30", "title": "Output qubit order survives the pytket round trip", "statement": "Encoding a circuit to pytket and decoding it yields the same assignment of qubits to output positions.", "quantifier": "every permutation of the output qubits", "why_tests_cant": "all permutations", "anchors": ["tket/src/serialize/pytket/encoder/value_tracker.rs: compute_final_permutation", "tket/src/serialize/pytket/decoder/wires.rs: compute_output_permutation, known_pytket_qubits"]}
{"id": "C31", "title": "Decoded implicit permutations route outputs correctly", "statement": "Decoding a pytket circuit with an implicit permutation puts the qubit with final register r at the output position of the register it is mapped to.", "quantifier": "every (total or partial) implicit permutation", "why_tests_cant": "all permutations and partial maps", "anchors": ["tket/src/serialize/pytket/decoder/wires.rs: compute_output_permutation, known_pytket_qubits"]}
{"id": "C32", "title": "Generated register names are fresh", "statement": "Register names invented by the encoder are pairwise distinct and differ from all existing registers.", "quantifier": "every set of existing registers and number of generated names", "why_tests_cant": "index overflow only at extreme values", "anchors": ["tket/src/serialize/pytket/encoder/unit_generator.rs: RegisterUnitGenerator"]}
{"id": "C33", "title": "A bit still in use is never handed out again", "statement": "While encoding, a classical bit register whose value is still needed by some wire is never given to another value nor overwritten.", "quantifier": "every sharing pattern of copied classical wires", "why_tests_cant": "depends on copying and consumption order", "anchors": ["tket/src/serialize/pytket/encoder/value_tracker.rs: unregister_wire, new_bit", "tket/src/serialize/pytket/encoder.rs: emit_transparent_node, register_node_outputs"]}
{"id": "C34", "title": "Printed parameter expressions parse back to the same value", "statement": "Every parameter expression written by the encoder is parsed by the decoder into an expression with the same value.", "quantifier": "every expression tree over the supported operations", "why_tests_cant": "all expression trees", "anchors": ["tket/src/serialize/pytket/extension/float.rs: encode_rotation_op", "tket/src/serialize/pytket/decoder/param/parser.rs", "tket/src/serialize/pytket/decoder/param/param.pest"]}
{"id": "C35", "title": "Parameter expressions are read with sympy's meaning", "statement": "An expression string has the value sympy gives it: powers bind tighter than unary minus and associate to the right.", "quantifier": "every expression string", "why_tests_cant": "all strings", "anchors": ["tket/src/serialize/pytket/decoder/param/parser.rs: PRATT, param.pest"]}
{"id": "C36", "title": "Radian parameters are converted faithfully", "statement": "Encoding a Q-System gate with a radian parameter writes a half-turn expression whose value times pi is the original parameter.", "quantifier": "every parameter expression", "why_tests_cant": "all expression strings", "anchors": ["tket-qsystem/src/pytket/qsystem.rs: encode_qsystem_op"]}
{"id": "C37", "title": "Angle unit conversions are mutually inverse", "statement": "Loading a half-turn parameter and converting it between rotation, float half-turns and float radians in any order preserves the angle.", "quantifier": "every value and every sequence of conversions", "why_tests_cant": "all conversion chains", "anchors": ["tket/src/serialize/pytket/decoder/param.rs: LoadedParameter::with_type"]}
{"id": "C38", "title": "Decoder always wires the most recent value of a register", "statement": "During decoding, the wire used for a register is the one produced by the last command that wrote it, and consumed qubit wires are never used twice.", "quantifier": "every command sequence", "why_tests_cant": "all histories of tracked wires", "anchors": ["tket/src/serialize/pytket/decoder/wires.rs: WireTracker::{track_wire,find_typed_wire}", "tket/src/serialize/pytket/decoder/tracked_elem.rs"]}
{"id": "C39", "title": "Controlled and daggered gates implement the modified unitary", "statement": "Resolving n control modifiers (and possibly a dagger) on a gate emits gates that implement exactly the n-controlled (inverse) gate on the right qubits, restoring borrowed dirty qubits and keeping wire order.", "quantifier": "every gate, every number of controls, dagger or not, every rotation angle", "why_tests_cant": "unbounded number of controls; recursion with borrowed qubits; continuous angles", "anchors": ["tket/src/modifier/modifier_resolver/tket_op_modify.rs: modify_tket_op", "tket/src/modifier/modifier_resolver/global_phase_modify.rs: modify_global_phase"]}
{"id": "C40", "title": "Dagger of a circuit is its inverse", "statement": "Resolving a dagger on a straight-line circuit yields a circuit that undoes the original; a double dagger restores it.", "quantifier": "every gate sequence", "why_tests_cant": "all circuits", "anchors": ["tket/src/modifier/modifier_resolver/dfg_modify.rs: modify_dfg_children", "tket/src/modifier.rs: CombinedModifier::push"]}
{"id": "C41", "title": "Modifier chains combine correctly", "statement": "A chain of control and dagger modifiers accumulates to the sum of the controls and the parity of the daggers, and the generated function has exactly the signature the chain promises.", "quantifier": "every modifier chain", "why_tests_cant": "all chains", "anchors": ["tket/src/modifier.rs: CombinedModifier::push", "tket/src/modifier/modifier_resolver.rs: modify_signature", "tket/src/modifier/modifier_resolver/call_modify.rs: trace_modifiers_chain"]}
{"id": "C42", "title": "Dagger rewiring is a type-correct bijection", "statement": "When a dagger is resolved, every port of the old node is mapped to a distinct port of the new node with the same type, quantum ports swap direction and classical ports keep it.", "quantifier": "every signature", "why_tests_cant": "all mixes of quantum and classical ports", "anchors": ["tket/src/modifier/modifier_resolver.rs: wire_inout, wire_node_inout", "tket/src/modifier/modifier_resolver/dfg_modify.rs: modify_dfg"]}
{"id": "C43", "title": "Control ports of modified regions have qubit type", "statement": "Every port the resolver uses to pass a control qubit in or out of a modified nested region has qubit type and every other port keeps its type.", "quantifier": "every signature and number of controls", "why_tests_cant": "all rows of types", "anchors": ["tket/src/modifier/modifier_resolver/dfg_modify.rs: modify_tail_loop, modify_conditional, modify_dfg"]}
{"id": "C44", "title": "Unitarity flags survive storage", "statement": "Storing modifier flags in metadata and reading them back is the identity, and flags merged for a modified function satisfy the modifier that was applied.", "quantifier": "all flag combinations and all numbers", "why_tests_cant": "all values", "anchors": ["tket/src/modifier.rs: ModifierFlags::{from_metadata,set_metadata,satisfies,or,from_combined}"]}
{"id": "C45", "title": "Lowering to Q-System gates preserves the unitary", "statement": "Every gate is replaced by native gates implementing the same unitary up to a global phase.", "quantifier": "every gate, every angle, every input state", "why_tests_cant": "continuous angles and all input states", "anchors": ["tket-qsystem/src/extension/qsystem.rs: QSystemOpBuilder::build_*", "tket-qsystem/src/extension/qsystem/lower.rs: build_func, direct_map"]}
{"id": "C46", "title": "Lowered measurement leaves the measured state", "statement": "The lowering of a non-destructive measurement returns the measured bit and leaves the qubit in the corresponding basis state.", "quantifier": "every outcome and every input state", "why_tests_cant": "the state is a vector of complex amplitudes and the outcome is random; a test sees one run", "anchors": ["tket-qsystem/src/extension/qsystem.rs: build_measure_flip"]}
{"id": "C47", "title": "Lazy booleans compute the same values", "statement": "Replacing opaque booleans by lazily read futures does not change any boolean a program computes, and every future is read or freed exactly once.", "quantifier": "every boolean program", "why_tests_cant": "all programs", "anchors": ["tket-qsystem/src/replace_bools.rs: lowerer, read_builder, binary_logic_op_dest"]}
{"id": "C48", "title": "Only one random context can exist", "statement": "Creating a random number context returns nothing on a second call.", "quantifier": "every call history", "why_tests_cant": "history dependent", "anchors": ["tket-qsystem/src/extension/random.rs: RandomOp::NewRNGContext", "tket-qsystem/src/llvm/random.rs: RandomEmitter::emit"]}
{"id": "C49", "title": "Interval extension keeps resource paths contiguous", "statement": "Extending a subcircuit interval by a node on the same resource path yields the interval covering exactly the old nodes and the new one, and any non-adjacent or unrelated node is refused.", "quantifier": "every interval and node position", "why_tests_cant": "all positions", "anchors": ["tket/src/subcircuit/interval.rs: Interval::try_extend"]}
{"id": "C50", "title": "Resource tracking follows qubits", "statement": "Two ports carry the same resource exactly when they are linked by a chain of wires and resource-preserving operations, and positions strictly increase along every dataflow path.", "quantifier": "every circuit", "why_tests_cant": "all graphs", "anchors": ["tket/src/resource/scope.rs: ResourceScope", "tket/src/resource/flow.rs"]}
{"id": "C51", "title": "Popped circuits are released", "statement": "The search queue only stores circuits that are still queued or in the best-N list, so its memory is bounded by its configured sizes.", "quantifier": "every history of operations", "why_tests_cant": "growth is only visible over long histories", "anchors": ["tket/src/optimiser/pqueue.rs: StatePQueue::pop"]}
{"id": "C52", "title": "Exhaustive search is optimal", "statement": "If the queue is large enough for all reachable circuits and neither timeout nor budget stops the search, the result is a cheapest circuit reachable by the rewrites.", "quantifier": "every finite search space", "why_tests_cant": "all search graphs", "anchors": ["tket/src/optimiser/backtracking.rs: optimise_with_options", "tket/src/optimiser/pqueue.rs"]}
{"id": "C53", "title": "Best discovered circuit is returned", "statement": "The search returns a circuit at least as cheap as every circuit it has discovered, also when stopped by a budget or timeout.", "quantifier": "every search space and stopping point", "why_tests_cant": "depends on the stopping point", "anchors": ["tket/src/optimiser/backtracking.rs: optimise_with_options"]}
{"id": "C54", "title": "Gamma strategy allows exactly non-worsening rewrites", "statement": "With the default gamma, the gamma strategy applies exactly the rewrites that decrease the cost or leave it unchanged.", "quantifier": "every pattern and target cost", "why_tests_cant": "all magnitudes, including zero", "anchors": ["tket/src/rewrite/strategy.rs: GammaStrategyCost::under_threshold, exhaustive_cx"]}
{"id": "C55", "title": "Commands come in dataflow order, each once", "statement": "Iterating over the commands of a circuit never panics, yields every operation exactly once, and yields a node only after all nodes of the region it takes values from, with constants and constant loads held back until needed. Constants that nothing uses are not yielded.", "quantifier": "every acyclic region and every topological order the walker may choose", "why_tests_cant": "depends on graph shape, shared constants and traversal order", "anchors": ["tket/src/circuit/command.rs: CommandIterator::next_node, next_delayed_node"]}
{"id": "C56", "title": "Circuits that compare equal behave the same", "statement": "Circuit equality holds exactly for circuits that are the same up to renaming of nodes: equal circuits implement the same program, isomorphic circuits are equal and every circuit equals itself.", "quantifier": "every pair of circuits", "why_tests_cant": "all graph shapes, in particular shared versus repeated sub-computations", "anchors": ["tket/src/circuit.rs: impl PartialEq for Circuit", "tket/src/circuit/hash.rs: circuit_hash, hash_node"]}
{"id": "C57", "title": "Calls inside a modified function are modified too", "statement": "When a function is controlled or daggered, every call in its body is replaced by a call of the equally modified callee, or the resolver reports an error.", "quantifier": "every callee signature, stored flags and combined modifier", "why_tests_cant": "silently wrong code for particular callee signatures and flags", "anchors": ["tket/src/modifier/modifier_resolver/dfg_modify.rs: modify_fn_if_needed", "tket/src/modifier/modifier_resolver/call_modify.rs: modify_call"]}
{"id": "C58", "title": "Encoding to pytket is total and complete", "statement": "Encoding a valid region never fails, emits exactly one command for each operation and each unsupported component, and every command carries exactly the parameter expressions that flow into the operation.", "quantifier": "every well-formed region, and every order in which leftover components are visited", "why_tests_cant": "all regions; lazily emitted components interact with the order of the traversal and with hash map order", "anchors": ["tket/src/serialize/pytket/encoder.rs: try_encode_node, emit_node_command, emit_unsupported, register_node_outputs, get_wire_values, finish", "tket/src/serialize/pytket/encoder/value_tracker.rs: register_wire, wire_values, unregister_wire"]}
{"id": "C59", "title": "An expression of a copyable value computes that value", "statement": "CopyableExpr::try_new returns the requested wire itself or a convex subgraph made of exactly the copyable operations the value depends on up to the given boundary; evaluated on the values at its inputs, its output() is the requested value, its inputs come in the documented order, and it reports an error exactly when the subgraph would not be convex.", "quantifier": "every well-formed region, requested copyable port, boundary and excluded nodes, and every tie-breaking of the priority queue", "why_tests_cant": "all graph shapes, fan-out, nodes with several outputs, and orders of traversal", "anchors": ["tket/src/subcircuit/expression.rs: CopyableExpr::try_new, traverse_expression, sort_inputs, output", "tket/src/resource/scope.rs: any_reachable_from"]}
{"id": "C60", "title": "Lowered barriers cover every qubit and keep containers", "statement": "Lowering a generic barrier inserts one runtime barrier that acts on every qubit of its operands, including those in tuples and arrays to any depth, in order and exactly once, and every operand comes out of the lowered code equal to what went in. Lowering succeeds for every row of operand types, and the only run-time failure is an empty slot in an array of options.", "quantifier": "every row of operand types, nesting depth, array size, and all values of these types", "why_tests_cant": "unbounded nesting and sizes; unpacking and repacking are generated code, and a test checks a handful of types for validity, not for the values", "anchors": ["tket/src/passes/unpack_container.rs: UnpackContainerBuilder", "tket/src/passes/unpack_container/type_unpack.rs: TypeUnpacker", "tket-qsystem/src/extension/qsystem/barrier/barrier_inserter.rs: BarrierInserter"]}
{"id": "C61", "title": "Static arrays of booleans read the same after lowering", "statement": "After the static array pass, reading any position of a static array (or its length) gives the element the original program read, with tket.bool values restored outside the array, and constants and uses of the array agree on its type. The pass never panics.", "quantifier": "every element type (nested sums, static arrays, other containers), every constant and every index", "why_tests_cant": "unbounded nesting of element types; the conversion code is generated by recursion over the type, and tests check a few types for validity, not values", "anchors": ["tket-qsystem/src/replace_bools/static_array.rs: inner_replace_types, outer_replace_types, replace_const_static_array, build_new_to_old, get_op_dest, len_op_dest"]}
{"id": "C62", "title": "Classical expressions keep their meaning", "statement": "A boolean operation encoded as a pytket classical expression computes its result into the bit registered for its output, a classical expression that is decoded computes the same result into the same bit as in pytket, expressions outside the supported form are left opaque, and what the encoder emits can be decoded.", "quantifier": "every boolean operation, every classical expression (operands, placement, outputs, nesting) and all values of the bits", "why_tests_cant": "the space of expressions is infinite and wrong decodings are silent; tests contain no classical expression", "anchors": ["tket/src/serialize/pytket/extension/bool.rs: BoolEmitter::op_to_pytket, op_to_hugr", "tket/src/serialize/pytket/encoder.rs: make_tk1_classical_expression"]}
{"id": "C63", "title": "Gates mean the same in pytket circuits", "statement": "Every gate emitted to a pytket circuit is the same unitary (measurement, reset) on the same qubits up to a fixed global phase, with angles converted between radians and half-turns, and every decoded gate likewise; decoding an emitted gate gives the gate back, and each decoder registers exactly the gates it can decode.", "quantifier": "every operation in the tables of both emitters, all real angles, all placements of qubits", "why_tests_cant": "angles and states are continuous; a test of the table compares names, not matrices", "anchors": ["tket/src/serialize/pytket/extension/tket.rs: encode_tket_op, op_types, op_to_hugr", "tket-qsystem/src/pytket/qsystem.rs: encode_qsystem_op, op_types, op_to_hugr"]}
{"id": "C64", "title": "Types translate to registers independently of earlier questions", "statement": "The registers a type is translated to depend only on the translators registered so far, never on which types were translated before; they are the answer of the first responsible translator, with parameters only at top level. With the default translators a type gets one register per qubit and boolean in it, values of the type correspond one to one to contents of its registers, and a wire can be converted to exactly the isomorphic types, without loss.", "quantifier": "every interleaving of registrations and questions, every translator, every type", "why_tests_cant": "the cache is shared state; wrong entries show only for particular orders of questions", "anchors": ["tket/src/serialize/pytket/config/type_translators.rs: TypeTranslatorSet", "tket/src/serialize/pytket/extension/prelude.rs, bool.rs, float.rs, rotation.rs: PytketTypeTranslator", "tket-qsystem/src/pytket/futures.rs: FutureEmitter"]}
{"id": "C65", "title": "Compiled programs use the runtime correctly", "statement": "The runtime calls emitted for the operations on qubits and futures never use a qubit that was freed or not allocated, never use a future without references or as the wrong type, and keep exactly one allocation per qubit and one reference per future value, so that programs that use up their qubits and futures leak nothing; gates, measurements, resets, allocations and frees happen as the operations say, both copies of a future give the outcome of its measurement, and allocation gives a reset qubit or reports that there is none.", "quantifier": "every well-typed program with branches on outcomes, all decisions of the runtime (qubits, handles, outcomes), reuse of qubits and handles included", "why_tests_cant": "misuse shows only in particular orders of copies, reads and frees and particular outcomes; tests compare the emitted text of single operations", "anchors": ["tket-qsystem/src/llvm/qsystem.rs: QSystemCodegenExtension::emit, emit_impl, reset_if_qb", "tket-qsystem/src/llvm/futures.rs: FuturesEmitter::emit", "tket-qsystem/src/extension/qsystem.rs: QSystemOp::init_signature"]}
{"id": "C66", "title": "Results are reported under their tag with their values", "statement": "Whatever constants are emitted before and after, and whatever the hash function does, each constant string of a compiled program keeps its own content after a byte with its length, equal strings share a variable, and emission fails exactly for strings that are too long; a result operation reports its values under the tag of the user with the prefix of its type; exits end the current shot and panics end all shots.", "quantifier": "all modules and sequences of strings, hash functions and encodings, tags, types, array sizes and values, memory behind arrays, signals", "why_tests_cant": "collisions of truncated names and hashes do not occur in tests; tests compare the emitted text for 64-bit integers only", "anchors": ["tket-qsystem/src/llvm/prelude.rs: emit_global_string, emit_panic, emit_exit", "tket-qsystem/src/llvm/result.rs: ResultEmitter::emit", "tket-qsystem/src/llvm/array_utils.rs: struct_1d_arr_alloc"]}
{"id": "C67", "title": "Extension operations survive storage", "statement": "Result, future, state result and classical computing operations, and the types of classical computing, come back from their stored form (extension, name, type arguments) as they were, nothing else is loaded as one of them, and the declared polymorphic signature with the arguments of the operation in place of its variables is the signature that the operation is described to have.", "quantifier": "all operations with all tags, widths, sizes, rows of types and row variables; all stored operations", "why_tests_cant": "tests load a few operations; swapped arguments or wrong variable numbers show only for rows and sizes that differ", "anchors": ["tket-qsystem/src/extension/result.rs: ResultOpDef::instantiate, ResultOp::type_args, arg_type, array_op", "tket-qsystem/src/extension/futures.rs: FutureOpDef", "tket-qsystem/src/extension/classical_compute.rs: compute_opdef", "tket-qsystem/src/extension/classical_compute/wasm.rs: TryFrom<CustomType>", "tket/src/extension/debug.rs: StateResult"]}
{"id": "C68", "title": "Matches of patterns are copies of the patterns", "statement": "A pattern made of a circuit is matched at a node of another circuit exactly if that circuit contains a copy of it there: the same operations, connected through the same ports, with different nodes for different commands; the copy is unique, looking up its boundary never panics, each input port of the boundary is fed by the wire of its input, and the copy computes what the pattern computes.", "quantifier": "all patterns, circuits, roots, valid orders of the edges, and meanings of operations", "why_tests_cant": "tests match a few fixed circuits; the root and the order of edges are chosen inside an external crate, and wrong port checks show only for operations with several ports", "anchors": ["tket/src/portmatching.rs: PEdge::try_from_port", "tket/src/portmatching/pattern.rs: CircuitPattern::try_from_circuit, get_match_map", "tket/src/portmatching/matcher.rs: validate_circuit_edge, validate_circuit_node, PatternMatch::try_from_root_match_with_checker"]}
{"id": "C69", "title": "Calls of the GPU library follow its protocol", "statement": "In a compiled program the version of the GPU library is validated once and before all other calls, every function name is looked up at most once however often and wherever the operation occurs, each execution of an operation makes its call with arguments that can be read back from the blob with the help of the signature, its result is what the library answered, and the first refused call ends the program with the message of the library.", "quantifier": "all programs with GPU operations, all sequences of executions, all operands, all libraries, both byte orders", "why_tests_cant": "the library is external and stateful; tests compare the emitted text for single operations and never run several operations together", "anchors": ["qis-compiler/rust/gpu.rs: emit_get_context, emit_dispose_context, emit_lookup_by_name, emit_gpu_call, emit_read_result", "qis-compiler/rust/gpu.rs: emit_api_validation, verify_gpu_call, emit_panic_with_gpu_error", "qis-compiler/rust/gpu.rs: generate_signature, pack_arguments"]}
{"id": "C70", "title": "Opaque subgraphs are put back with the links they had", "statement": "When an encoded program is reassembled, every input of the operations that pytket could not represent, and of everything nested in them, has exactly one source again: the wire that now carries its registers or parameter, the same port of the new input, or the operation it came from before; unsupported outputs of the region are outputs of the new region in the same place, registers are handed to the outputs in order, and every subgraph is found by its identifier in the merged tables of all regions.", "quantifier": "all programs, regions, sets of opaque operations, sequences of decoder steps, numbers of regions", "why_tests_cant": "tests reassemble a few fixed programs; whether links survive depends on all uses of an output inside and outside of the subgraph and on the order of the steps", "anchors": ["tket/src/serialize/pytket/opaque/subgraph.rs: OpaqueSubgraph::try_from_nodes", "tket/src/serialize/pytket/opaque.rs: register_opaque_subgraph, merge", "tket/src/serialize/pytket/decoder/subgraph.rs: insert_external_subgraph, rewire_external_subgraph_inputs, rewire_external_subgraph_outputs", "tket/src/serialize/pytket/circuit.rs: EncodedCircuit::reassemble_inplace"]}
{"id": "C71", "title": "Standalone circuits keep their subgraphs", "statement": "ensure_standalone replaces every reference to a stored subgraph, also in boxes, by the subgraph itself and changes nothing else; it reports the first reference that cannot be written, and calling it again changes nothing. When such subgraphs are read back, in any order, each of their ports is linked to the sources it had: the one inside the subgraph, the wire found by the decoder, or for values without registers the output of the other subgraph with the same identifier.", "quantifier": "all nestings of boxes, data of barriers, lists of subgraphs, orders, node maps, identifiers", "why_tests_cant": "tests inline one or two subgraphs of fixed programs; repeated calls, other barriers and values passed between two subgraphs are not covered", "anchors": ["tket/src/serialize/pytket/opaque.rs: inline_if_payload", "tket/src/serialize/pytket/circuit.rs: EncodedCircuit::ensure_standalone", "tket/src/serialize/pytket/decoder/subgraph.rs: insert_inline_subgraph, wire_inline_subgraph_inputs, wire_inline_subgraph_outputs", "tket/src/serialize/pytket/decoder/wires.rs: connect_unsupported_wire_targets, connect_unsupported_wire_source"]}
{"id": "C72", "title": "Operations that pytket cannot represent are grouped soundly", "statement": "When a region is encoded, every operation is encoded exactly once: alone, or in one opaque subgraph. Each subgraph is connected and convex, everything an operation or subgraph needs is encoded before it, and while a subgraph is encoded no other one has to be started.", "quantifier": "all regions, all traversals in dataflow order, all choices of supported operations, all orders of the hash map", "why_tests_cant": "subgraphs are started lazily by the first operation that needs them, so which operations end up together depends on the whole traversal", "anchors": ["tket/src/serialize/pytket/encoder/unsupported_tracker.rs: record_node, extract_component", "tket/src/serialize/pytket/encoder.rs: run_encoder, finish, get_wire_values, emit_unsupported, try_encode_node, encode_nonlocal_inputs"]}
{"id": "C73", "title": "Circuits of Quartz files are loaded with their meaning", "statement": "Every circuit of an ECC file that has a meaning is loaded without panic as a valid circuit that applies the same gates with the same angles to the same qubits, and leaves the qubits where the circuit of the file leaves them. Every class of the file is loaded with all its circuits.", "quantifier": "all circuits over the gates of the table, all parameters; all files", "why_tests_cant": "files name the wires of every command; whether the names are followed depends on the whole circuit", "anchors": ["tket/src/optimiser/badger/qtz_circuit.rs: map_op, From<RepCircData> for Circuit, load_ecc_set"]}
{"id": "C74", "title": "Objects of the tket1 library are freed exactly once", "statement": "However the wrapper of the tket1 library is used and whatever the library answers, the library is never asked to use or free an object that does not exist, every circuit, pass and string that it allocates is freed exactly once, and applying a pass to all regions succeeds exactly if every call succeeds, with the circuits that the library wrote.", "quantifier": "all programs over the API of the crate, all answers of the library", "why_tests_cant": "leaks and double frees in foreign memory are invisible to the tests, and depend on sequences of moves, assignments and errors", "anchors": ["tket1-passes/src/lib.rs: Tket1Circuit, Tket1Pass", "tket-py/src/passes/tket1.rs: tket1_pass"]}
{"id": "C75", "title": "Splitting the circuit among threads keeps its meaning", "statement": "For a sound rewriter and every well-formed circuit, the search with `split_circuit` returns a circuit that does what the given one does and never costs more, whatever the clocks, tie-breaks and hash map orders; it starts at most `n_threads` threads, terminates if the circuits reachable from each chunk have finitely many hashes, and panics only if the queue size is zero or a chunk cannot be hashed.", "quantifier": "all circuits, sound rewriters, strategies, options and schedules", "why_tests_cant": "splitting, separate searches and reassembly interact; tests compare a few circuits with a fixed number of threads", "anchors": ["tket/src/optimiser/badger.rs: badger_split_multithreaded", "tket/src/passes/chunks.rs: split_with_cost, reassemble"]}
{"id": "C76", "title": "Removing packed and unpacked tuples keeps the meaning", "statement": "`find_tuple_unpack_rewrites` never fails on a valid circuit, and applying its rewrites, in any order and number, keeps the circuit valid and its meaning unchanged; there are at most as many rewrites as `UnpackTuple`s, and when none is left no packed tuple is unpacked.", "quantifier": "all valid flat circuits, all meanings of the other operations, all sequences of rewrites", "why_tests_cant": "tests apply the rewrites to three fixed circuits and count the remaining commands", "anchors": ["tket/src/passes/tuple_unpack.rs: find_tuple_unpack_rewrites, make_rewrite, remove_pack_unpack"]}
{"id": "C77", "title": "Rotations are finite and the code generated for rotations and opaque booleans does what is documented", "statement": "For every well-typed program of `tket.rotation` and `tket.bool` operations LLVM code is generated whose run gives every wire its documented value, or panics with the documented error exactly if `from_halfturns_unchecked` gets NaN or an infinity. Every rotation is finite: constants (in half-turns, radians or read from a pytket parameter) are checked without panics, and operations keep rotations finite.", "quantifier": "all well-typed straight-line programs, all double precision inputs including NaN, infinities and signed zeros, all decimal literals", "why_tests_cant": "tests check the text of the code for single operations and run a handful of numbers", "anchors": ["tket/src/extension/rotation.rs: ConstRotation, RotationOp", "tket/src/llvm/rotation.rs: emit_from_halfturns, emit_rotation_op", "tket/src/llvm/bool.rs: emit_bool_op", "tket/src/serialize/pytket/decoder/wires.rs: load_half_turns_parameter"]}
{"id": "C78", "title": "The function that is named is the one that is loaded, lowered and run", "statement": "Loading a function of a package by its name gives the first definition with this name in the first module that has one, and otherwise an error that lists the functions. `QSystemPass` runs its component passes in the documented order on the whole module and leaves the entrypoint on the function it had, or on `main`. The compiler accepts a single module without opaque pytket operations, and the generated program calls the function that is the entrypoint of the lowered module: the only `main`, or the entrypoint, which takes no inputs.", "quantifier": "all packages, names, configurations and component passes (those may fail or change the module in any way)", "why_tests_cant": "tests load single-module packages and compile modules whose entrypoint is right; failing passes, several modules and several functions with one name are not tried", "anchors": ["tket/src/serialize.rs: find_function_in_modules, find_function", "tket/src/circuit.rs: check_hugr", "tket-qsystem/src/lib.rs: QSystemPass::run", "qis-compiler/rust/lib.rs: get_entry_point_name, compile, get_opt_level", "qis-compiler/rust/utils.rs: read_hugr_envelope"]}
{"id": "C79", "title": "Forcing an order keeps dependencies and reads futures as late as possible", "statement": "`force_order` of `QSystemPass` gives each region exactly one execution order, which respects all dependencies. Frees of qubits are executed as soon as what they need has been executed, quantum operations before classical ones unless they need a classical result, allocations as late as possible, and what is executed after a read of a future is a read or needs the result of one executed not earlier.", "quantifier": "all regions without cycles, all operations, all ways to choose among operations of equal rank", "why_tests_cant": "the test has one program and random edges are not generated; which order results depends on all dependencies", "anchors": ["tket-qsystem/src/lib.rs: QSystemPass::force_order"]}
{"id": "C80", "title": "Calls in modified functions are linked to the functions they call", "statement": "When the modifier resolver makes a modified copy of a function, every call and every function load of the copy, at any depth, is linked to exactly the function that it calls: a modified copy of the callee, or the callee itself if it is not modified; recursive functions and indirect calls are handled.", "quantifier": "all programs, bodies, nestings of regions and orders of processing", "why_tests_cant": "tests check that some resolved programs validate; whether links survive depends on the order of calls and nested regions", "anchors": ["tket/src/modifier/modifier_resolver/dfg_modify.rs: modify_fn, insert_sub_dfg, update_call_map, wrap_fn_with_controls", "tket/src/modifier/modifier_resolver/call_modify.rs: modify_call, modify_indirect_call"]}
{"id": "C81", "title": "The modifier pass replaces every modified function and removes nothing else", "statement": "`ModifierResolverPass` makes every operation that uses a modified function use a load of the function generated for the whole chain of modifiers instead, removes the modifiers, and keeps all other operations and edges.", "quantifier": "all programs and all orders of visiting nodes", "why_tests_cant": "tests have one chain with one call; which nodes are removed depends on all paths that begin at modifiers", "anchors": ["tket/src/modifier/modifier_resolver.rs: resolve_modifier_with_entrypoints, ModifierResolver::{verify,try_rewrite}", "tket/src/modifier/pass.rs: ModifierResolverPass"]}
{"id": "C82", "title": "A modified region is the mirror image of the region under dagger", "statement": "For a region whose operations have been modified, the resolver connects the new operations as the old ones were: each edge has one new edge, between the corresponding ports, reversed if there is a dagger and the value has qubits. Each new port gets as many edges as the old port had, the types at both ends agree, and the new region has no cycles.", "quantifier": "all regions, with all ways to register the ports of operations", "why_tests_cant": "tests have regions in which classical values come from constants or inputs; regions, edges and array operations are unlimited", "anchors": ["tket/src/modifier/modifier_resolver.rs: connect_all, connect, map_get, forget_node, add_node_no_modification, modify_dataflow_op", "tket/src/modifier/modifier_resolver/array_modify.rs: generic_modify_array_op", "tket/src/modifier/modifier_resolver/call_modify.rs: modify_load_function"]}
{"id": "C83", "title": "Units of circuits and commands", "statement": "The units of a circuit are its inputs, each once and in order, with linear values numbered from zero without gaps and wires for the others. The units of the inputs and outputs of a command are the units of the circuit whose values they carry.", "quantifier": "all rows of types, all labellers, all commands of all circuits", "why_tests_cant": "tests use operations whose qubits come first; rows of types are unlimited", "anchors": ["tket/src/circuit/units.rs: Units::next, make_value, size_hint, DefaultUnitLabeller", "tket/src/circuit/units/filter.rs", "tket/src/circuit.rs: units, linear_units, nonlinear_units, qubits, qubit_count", "tket/src/circuit/command.rs: inputs, outputs, assign_linear, assign_wire"]}
{"id": "C84", "title": "The number of operations", "statement": "`num_operations` is the number of operations of the circuit, including those in nested regions; `operations` lists those at the top level.", "quantifier": "all programs", "why_tests_cant": "tests have one function; programs and nesting are unlimited", "anchors": ["tket/src/circuit.rs: num_operations, operations, IGNORED_EXTENSION_OPS"]}
{"id": "C85", "title": "The rewrite trace lists the rewrites that were applied", "statement": "Once tracing is enabled for a circuit, its trace lists what was registered since then, in order, and the numbers in it add up to the number of rewrites applied. Without the feature or without enabling, nothing changes and there is no trace.", "quantifier": "all histories of calls, all metadata, all lists of rewrites given to the strategies", "why_tests_cant": "histories and numbers of rewrites are unlimited; tests have at most three rewrites", "anchors": ["tket/src/rewrite/trace.rs", "tket/src/rewrite.rs: apply, apply_notrace", "tket/src/rewrite/strategy.rs: apply_rewrites"]}
{"id": "C86", "title": "Registered encoders and decoders, and constants", "statement": "An operation is encoded by the first registered encoder that supports it, and a command decoded by the first decoder; a constant is encoded as bits and parameters that hold its values, from left to right, and refused without effect if part of it is not supported.", "quantifier": "all configurations built by adding encoders and decoders, all contexts, all constants", "why_tests_cant": "tests use the default configurations and constants without tuples; configurations and constants are unlimited", "anchors": ["tket/src/serialize/pytket/config/encoder_config.rs: add_emitter, op_to_pytket, const_to_pytket, emitters_for_extension(s)", "tket/src/serialize/pytket/config/decoder_config.rs: add_decoder, op_to_hugr", "tket/src/serialize/pytket/extension/{bool,float,rotation}.rs: const_to_pytket"]}
{"id": "C87", "title": "The Badger pass of the Python package", "statement": "badger_optimise returns a circuit of the same kind and meaning as its argument, no more expensive than it; it uses at most max_threads threads, stops when the timeout or max_circuit_count is reached, gives every cycle its share of the time and leaves its argument alone.", "quantifier": "all circuits, numbers of CX gates, thread limits, timeouts and circuit limits; all behaviours of decoder, encoder, rebase pass and optimiser that keep the meaning", "why_tests_cant": "tests run one small circuit with one thread; the division of time and threads into cycles depends on all values of timeout and CX count", "anchors": ["tket-py/src/passes.rs: badger_optimise, rebase_nam", "tket-py/src/circuit/convert.rs: try_with_circ, try_update_circ, CircuitType::convert", "tket/src/optimiser/backtracking.rs: optimise_with_options"]}
{"id": "C88", "title": "Costs given by Python functions", "statement": "Tk2Circuit.circuit_cost returns the sum of the costs that a Python function gives to the operations, or the exception of the function; such costs are compared, subtracted and divided as their values.", "quantifier": "all circuits, all cost functions and all Python objects with the methods asked for by the documentation; integers, booleans and floats", "why_tests_cant": "the test uses integers and one class on one circuit; objects and circuits are unlimited, and the failures depend on the order of operations", "anchors": ["tket-py/src/circuit/cost.rs", "tket-py/src/circuit/tk2circuit.rs: circuit_cost", "tket/src/circuit.rs: circuit_cost"]}
{"id": "C89", "title": "Identifiers of edges between subgraphs", "statement": "The identifiers by which standalone circuits link their subgraphs are different for different wires, so writing subgraphs and reading them in any order links exactly the outputs and inputs that were the same wire; the identifier that stands for no edge is not used; and circuits can be put together in pytket.", "quantifier": "all nodes of 32 bits and ports of 16 bits; all lists of subgraphs, orders and node maps", "why_tests_cant": "there are 2^96 pairs of wires; a collision of the hash would link the wrong values only in a program that happens to contain both", "anchors": ["tket/src/serialize/pytket/opaque/payload.rs: EncodedEdgeID::new, new_inline", "tket/src/serialize/pytket/decoder/wires.rs: connect_unsupported_wire_targets, connect_unsupported_wire_source"]}
{"id": "C90", "title": "Every temporary operation gets exactly one generated function, and a failed one poisons the map", "statement": "When barriers are lowered, containers of qubits are taken apart and put together by temporary operations, whose functions are generated on demand and remembered in an OpFunctionMap; building one function may ask for others. If lowering gets through, every temporary operation that occurs in the program or in a generated function has exactly one function, the one its builder made, and there is no function that is not needed; so no temporary operation is left without replacement. Lowering ends even if functions ask for each other in a circle, it succeeds exactly if every function that is needed can be built, otherwise it returns an error and does not panic at an unfilled placeholder. What is in the map never changes. Not guaranteed: after insert_with failed, the operation counts as present (asking again succeeds) and collecting the functions always panics; and the names of generated functions are unique except that all functions that make options share one name, although the name arguments are documented \"to ensure uniqueness\".", "quantifier": "all sets of operations, all builders (any requests, including cyclic ones, any failures), all orders of requests, all later requests after a failure; all types and sizes for names", "why_tests_cant": "The map is filled recursively while functions are under construction; the tests insert one or two operations and check the length, never a failure or a circle.", "anchors": ["tket/src/passes/unpack_container/op_function_map.rs:61", "tket/src/passes/unpack_container/op_function_map.rs:101", "tket/src/passes/unpack_container.rs:216", "tket-qsystem/src/extension/qsystem/barrier/wrapped_barrier.rs:69", "tket-qsystem/src/extension/qsystem/lower.rs:138"]}
{"id": "C91", "title": "A plain circuit survives the trip through the pytket format from end to end", "statement": "A circuit whose region only applies operations on qubits, parameters and fresh or written bits is encoded to a serial circuit and decoded again with its own signature. Encoding, writing the file and decoding all succeed, and the decoded region runs the same operations as the original one, each exactly once, every operation receives on every port the value it received in the original, and the region returns the same values in the same order, provided that the output registers of each sort are the first registers of the file in order. The provision holds if no qubits are allocated, no booleans are returned and the k-th qubit that is returned is the one that came in as the k-th. Not guaranteed without it: a region that returns its two qubits crossed comes back with the outputs exchanged, and a region that returns one boolean twice cannot be decoded with its own signature.", "quantifier": "all regions with any number of operations and wires, all orders of nodes, all sizes, all numbers of parameters; all assignments of values that follow the data flow", "why_tests_cant": "Tests compare encoded or re-encoded files for a handful of circuits, mostly by counting commands; whether the values that reach every port of every operation are the same needs a semantic comparison over all circuits.", "anchors": ["tket/src/serialize/pytket/encoder.rs:255", "tket/src/serialize/pytket/encoder.rs:706", "tket/src/serialize/pytket/encoder/value_tracker.rs:437", "tket/src/serialize/pytket/decoder.rs:226", "tket/src/serialize/pytket/decoder/wires.rs:419"]}
{"id": "C92", "title": "Circuits built from Python commands apply them in order to the qubits they name", "statement": "from_coms turns a sequence of commands on qubit numbers into a circuit. If it returns a circuit, this has as many qubits as the largest number requires, runs the commands in order, every command receives the qubits with the numbers it names in the state the commands before left them in, and the circuit returns its qubits in the order of their numbers; every qubit wire is used exactly once if operations return the qubits they get and no command names a qubit twice. It returns a circuit exactly if every command names a qubit, has at least as many outputs as it names qubits, and names no negative number below minus the number of qubits. Not guaranteed: a command that names a qubit twice is accepted, the qubit is used twice and a result lost, although finish is documented to validate; allocations raise a ValueError, qubits cannot be freed, and negative numbers count from the last qubit; a builder can be finished only once.", "quantifier": "all sequences of commands, all operations with any outputs, all numbers including negative ones", "why_tests_cant": "Tests build rules of one or two commands on distinct small indices; which wire is tracked after any sequence is an invariant over all sequences, and the missing validation shows only for malformed commands.", "anchors": ["tket-py/tket/circuit/build.py:18", "tket-py/tket/circuit/build.py:63", "tket-py/tket/circuit/build.py:88", "tket-py/tket/circuit/build.py:114", "tket-py/src/circuit/tk2circuit.rs:157"]}
{"id": "C93", "title": "Nested regions are encoded once each and put back in any order", "statement": "Encoding a program encodes, each once, exactly those dataflow regions for which every dataflow region around them, up to the entry point, leaves the child that contains them to an opaque subgraph; without the option for subcircuits, only the outermost ones. An error in one of them is an error of the whole. Putting the circuits back with reassemble_inplace goes through the regions in the order of a hash map. Every order succeeds exactly if every circuit still has the opaque subgraphs that contain other encoded regions; then the result is the same for every order, the encoded regions have their new contents, and all other nodes that are left have the children they had. Not guaranteed: if an optimiser has removed the barrier of such a subgraph, whether reassembling fails depends on the order of the hash map.", "quantifier": "all programs (trees of nodes with distinct numbers), all choices of opaque subgraphs by the encoder, both values of the option, all contents of the decoded circuits, all orders of the hash map", "why_tests_cant": "Tests encode programs with one or two nested regions with a fixed set of unsupported operations, and the order of the hash map changes between runs.", "anchors": ["tket/src/serialize/pytket/circuit.rs:273", "tket/src/serialize/pytket/circuit.rs:291", "tket/src/serialize/pytket/circuit.rs:300", "tket/src/serialize/pytket/circuit.rs:149", "tket/src/serialize/pytket/circuit.rs:166", "tket/src/serialize/pytket/circuit.rs:223"]}
{"id": "C94", "title": "Rules whose sides mean the same never change the meaning of a circuit", "statement": "A RuleMatcher of the Python package is built from pairs of circuits. Every rewrite that find_matches gives replaces a copy of the left-hand side of one rule, found in the circuit, by the right-hand side of the same rule, and both have the signature of the place; find_match gives the first of them. Every copy of a left-hand side whose subgraph passes the check of HUGR is among the results. If the two sides of every rule mean the same, applying a rewrite succeeds, the new circuit is well formed, acyclic and well typed, and it means the same as the old circuit, whatever the operations mean; so do circuits reached by any number of rewrites. A list of rewriters, however nested, proposes exactly what its members propose. Not guaranteed: one rule whose sides have different signatures makes find_matches fail altogether once it matches, and nothing is checked when the rule is made; and an operation without outputs that consumes a value the left-hand side does not pass on is deleted by the rewrite.", "quantifier": "all lists of rules, circuits, choices of roots of patterns, interpretations of operations over any type of values, sequences of rewrites; all automata and checks of subgraphs that meet their contracts", "why_tests_cant": "Tests apply two or three rules to one circuit each and count gates. That every rewrite at every place keeps the meaning for every set of rules needs a proof.", "anchors": ["tket-py/src/pattern.rs:90", "tket-py/src/pattern.rs:100", "tket-py/src/pattern.rs:109", "tket-py/src/pattern.rs:119", "tket-py/src/rewrite.rs:82", "tket/src/portmatching/matcher.rs", "tket/src/rewrite.rs"]}
{"id": "C95", "title": "Rewrites applied together and the whole optimiser keep the meaning of a circuit", "statement": "The greedy and the exhaustive strategies apply several rewrites one after the other that were found in the same circuit. If the rewrites come from rules whose sides mean the same, all of them can be applied, the circuit stays well formed and well typed, and it means the same. If no output of a right-hand side depends on an input on which it does not depend in the left-hand side, the circuit stays acyclic; with the threshold strategy, which applies one rewrite at a time, it always does. A circuit has a hash exactly if no cycle leads to its outputs. Hence the result of BadgerOptimiser, for any strategy, costs, queue size, order and limits, means the same as the input and its outputs are determined by its inputs. Not guaranteed: the documentation says that rewrites can be composed if their invalidation sets are disjoint, but two such rewrites can make a cycle, and the check by the hash does not notice a cycle that ends in discarded qubits.", "quantifier": "all lists of rules, circuits, sets of rewrites, strategies, costs, interpretations of operations over any type of values, runs of the optimiser with any queue size and limits; all automata and checks of subgraphs that meet their contracts", "why_tests_cant": "Tests run strategies on circuits where rewrites are far apart, and compare numbers of gates. Whether rewrites that were found one by one still fit after others have been applied is a question about all circuits and all sets of rewrites.", "anchors": ["tket/src/rewrite.rs:46", "tket/src/rewrite.rs:65", "tket/src/rewrite/strategy.rs:128", "tket/src/rewrite/strategy.rs:211", "tket/src/optimiser/badger.rs:131", "tket/src/circuit/hash.rs:39"]}
{"id": "C96", "title": "Rewrites and the whole optimiser keep all amplitudes of a circuit up to a common phase", "statement": "Operations are matrices with any number of inputs and outputs, and the amplitude of a circuit for values of inputs and outputs is the sum, over all values of the wires inside, of the products of the entries. If the two sides of every rule have the same amplitudes up to a common factor (for example a global phase), every rewrite that is found keeps all amplitudes of the circuit up to such a factor, on entangled qubits, too; so does any sequence of rewrites, any set of rewrites that a strategy applies together, and a whole run of BadgerOptimiser. The amplitudes are those that one gets by running the operations one after the other in any order that respects the wires; for operations that are functions they say what the circuit computes.", "quantifier": "all rules and circuits, all finite types of values and commutative semirings (complex numbers for states; pairs of values for density matrices, with measurements and discarded qubits), all matrices of operations, all factors closed under products, all strategies, costs and limits of the optimiser, all orders of the operations", "why_tests_cant": "Tests compare numbers of gates, or simulate a few circuits of few qubits. That a local rewrite is sound inside every larger circuit, with entanglement between the part that is replaced and the rest, is a statement about all circuits and all states.", "anchors": ["tket/src/rewrite.rs:70", "tket-py/src/pattern.rs:82", "tket/src/rewrite/strategy.rs:128", "tket/src/rewrite/strategy.rs:211", "tket/src/optimiser/badger.rs:131"]}
{"id": "C97", "title": "The rewriter of equivalence classes keeps all amplitudes, from the classes to the optimised circuit", "statement": "Take classes of circuits of gates on qubits with the same signature and the same amplitudes up to a factor. Then ECCRewriter::from_eccs gives a rewriter whose get_rewrites does not panic; every rewrite that it returns replaces a copy of one circuit of a class, without the wires that are empty in it, by another circuit of the class, without the same wires, and one of the two is the representative; every match of a pattern is returned with every target that has those wires empty. Wires are empty exactly if they go from an input to an output, and removing them leaves the amplitudes of the other wires. Every rewrite keeps all amplitudes of the circuit up to a factor; so do all sequences of rewrites. If the gates are isometries, the same holds for any set of rewrites that a strategy applies together and for the result of BadgerOptimiser, without conditions on the wires of the classes.", "quantifier": "all lists of classes of circuits of gates of any size, all circuits that are rewritten, all matrices of gates over any commutative semiring, all factors, all choices of roots and orders of edges by the matching crate, all strategies, costs and limits of the optimiser", "why_tests_cant": "Tests load one file of classes and look at numbers of gates of a few circuits. Nothing in the code checks that an empty wire ends at the same output in pattern and target, or that rewrites of one class applied together give no cycle; that this is always so follows from the equality of the matrices only.", "anchors": ["tket/src/rewrite/ecc_rewriter.rs:85", "tket/src/rewrite/ecc_rewriter.rs:197", "tket/src/rewrite/ecc_rewriter.rs:259", "tket/src/rewrite/ecc_rewriter.rs:286", "tket/src/circuit.rs:413", "tket/src/optimiser/badger.rs:131"]}
{"id": "C98", "title": "The rewriter of equivalence classes keeps all amplitudes of circuits with parameters", "statement": "Take classes of circuits of gates with parameters, for example rotations by angles that are inputs or are computed from inputs, with the same signature and, for all values of the parameters, the same amplitudes up to a factor. Then ECCRewriter::from_eccs gives a rewriter whose get_rewrites does not panic; every rewrite that it returns replaces a copy of one circuit of a class, without its empty wires, by another one. Every rewrite keeps all amplitudes for all values of the parameters, also if parameters are used in other places; so do all sequences of rewrites, any set of rewrites that a strategy applies together, and BadgerOptimiser, if the operations are isometries for fixed parameters.", "quantifier": "all lists of classes of circuits with parameters, all circuits that are rewritten, all matrices that depend on parameters, all factors, all choices of roots and orders of edges by the matching crate, all strategies, costs and limits of the optimiser", "why_tests_cant": "Parameters can be copied and thrown away, qubits cannot. Whether a value inside of a match is used elsewhere depends on the whole circuit; tests have a few circuits with rotations and compare numbers of gates.", "anchors": ["tket/src/rewrite/ecc_rewriter.rs:85", "tket/src/rewrite/ecc_rewriter.rs:197", "tket/src/rewrite/ecc_rewriter.rs:259", "tket/src/portmatching/matcher.rs:120", "tket/src/rewrite.rs:70", "tket/src/optimiser/badger.rs:131"]}
{"id": "C99", "title": "Normalising a Guppy program runs the chosen passes in a fixed order, and from Python changes no object", "statement": "NormalizeGuppy::run with any options succeeds exactly if the passes that are on (simplify CFGs, remove tuples, fold constants, remove dead functions, inline DFGs, squash borrows) succeed one after the other in this order; the result is theirs. It fails exactly if one of them fails after those before it succeeded; the error names that pass, later passes do not run, and the program is as that pass left it; the error for inlining is never given. If every pass that is on keeps a meaning, the meaning is kept. With all options off nothing is done. From Python normalize_guppy gives a new circuit of the same format, and leaves all circuits that exist unchanged, also if it raises an exception.", "quantifier": "all options, all behaviours of the six passes with any results and errors, all programs, all circuits in memory and both formats, all conversions", "why_tests_cant": "There are 64 combinations of options and a pass can fail in any of them; tests run the default and one combination, and never an error. The test that says that all options are disabled leaves one on.", "anchors": ["tket/src/passes/guppy.rs:34", "tket/src/passes/guppy.rs:66", "tket/src/passes/guppy.rs:82", "tket/src/passes/guppy.rs:119", "tket-py/src/passes.rs:67", "tket-py/src/circuit/convert.rs:44", "tket-py/src/circuit/convert.rs:61"]}
{"id": "C100", "title": "Operations from Python are the operations of Rust, and compare as such", "statement": "The enumerations TketOp and Pauli of the Python package correspond one to one to those of Rust; conversions in both directions never raise an exception and are inverse to each other, and an operation is made from a string exactly if it is its name. Comparing any two of them, of either class and in either order, never raises an exception and is true exactly if they are the same operation. Comparison is an equivalence, and equal objects can be used in sets. to_custom gives the operation of the extension with the same name.", "quantifier": "all operations and Pauli matrices of both classes, all strings, all other objects with the default comparison, in all orders", "why_tests_cant": "Comparison in Python goes through two methods and depends on which side is asked first; tests compare objects of one class with themselves. Symmetry and transitivity are statements on pairs and triples of objects of five classes.", "anchors": ["tket-py/tket/ops.py:28", "tket-py/tket/ops.py:71", "tket-py/tket/ops.py:93", "tket-py/tket/ops.py:107", "tket-py/src/ops.rs:36", "tket-py/src/ops.rs:81", "tket-py/src/ops.rs:177", "tket-py/src/ops.rs:216", "tket/src/ops.rs:43"]}
{"id": "C101", "title": "The Python package of extensions makes the operations that Rust declares", "statement": "The files of the Python package list exactly the operations that the Rust extensions declare, with the same parameters. Every attribute and method of an extension object gives the operation of its name, for all arguments, and never raises an exception; OPS lists every operation once. Arguments are of the kinds of the declared parameters, and Rust loads each operation with the label, size, width, types, name or identifier given in Python.", "quantifier": "all fourteen extensions, all attributes and methods that give operations, all arguments", "why_tests_cant": "Names and argument orders are strings and lists written three times (Python, JSON, Rust). The test of the package makes each operation with one set of arguments, mostly 1 and empty lists, and compares only the number of operations; two extensions are not in its list.", "anchors": ["tket-exts/src/tket_exts/tket/_util.py:10", "tket-exts/src/tket_exts/tket/global_phase.py:30", "tket-exts/src/tket_exts/tket/result.py:86", "tket-exts/src/tket_exts/tket/wasm.py:126", "tket-exts/src/tket_exts/tket/quantum.py:24", "tket/src/extension/global_phase.rs:43", "tket-qsystem/src/extension/result.rs:140", "tket-exts/tests/test_validate_exts.py:196"]}
{"id": "C102", "title": "Files that are saved are complete when success is reported, and are found again", "statement": "A rewriter, a matcher or a circuit that is saved to a file is there completely if success is reported, and an old file is lost only if a new one is written. Files are written under the name returned, in the directory asked for, with the extension rwr or bin, and different names are different files. What compile-rewriter writes is what badger-optimiser loads, and the input is never overwritten.", "quantifier": "all data, all chunks in which encoders write it, all buffer sizes, all devices (room left), all names and file systems", "why_tests_cant": "A full disk is not simulated by tests, and whether it is noticed depends on the sizes of the data and of the chunks; tests save a few files under one name.", "anchors": ["tket/src/rewrite/ecc_rewriter.rs:127", "tket/src/portmatching/matcher.rs:326", "tket/src/serialize/pytket.rs:188", "compile-rewriter/src/main.rs:38", "badger-optimiser/src/main.rs:201"]}
{"id": "C103", "title": "The log of best circuits lists the improvements and does not change the result", "statement": "The file of best circuits of the optimiser begins with the cost of the input, has one row for each circuit that was cheaper than all before it, with strictly decreasing costs, and ends with the cost of the result; this is so with one thread, with many threads, and if the circuit is split. Logging has no effect on the result, also if the file can not be written.", "quantifier": "all inputs, rewriters, options, tie-breaks and timeouts; all interleavings of the threads; all rows at which writing may fail", "why_tests_cant": "Tests never look at the file, and a failing disk is not simulated. With threads, rows depend on the interleaving.", "anchors": ["tket/src/optimiser/badger/log.rs:52", "tket/src/optimiser/backtracking.rs:78", "tket/src/optimiser/backtracking.rs:92", "tket/src/optimiser/badger.rs:289", "tket/src/optimiser/badger.rs:338", "tket/src/optimiser/badger.rs:388", "tket/src/optimiser/badger.rs:428"]}
{"id": "C104", "title": "The optimiser object of the Python package runs with the arguments given to it", "statement": "`BadgerOptimiser.optimise` runs the search with the options given, by keyword in any order or by position as in the type stub, with the documented defaults; arguments of a wrong type or out of range, unknown cost functions and files that can not be read raise exceptions. `badger_pass` uses the rewriter given or else the default one and passes its arguments on to the optimiser.", "quantifier": "all Python values as arguments, positional and keyword, in any order; all circuits, files and searches", "why_tests_cant": "Two tests call `optimise` without arguments. No test passes several options at once, wrong values or missing files, and none compares the stub with the signature.", "anchors": ["tket-py/src/optimiser.rs:50", "tket-py/src/optimiser.rs:75", "tket-py/src/optimiser.rs:141", "tket-py/src/optimiser.rs:175", "tket-py/tket/_tket/optimiser.pyi:43", "tket-py/tket/passes.py:50"]}
{"id": "C105", "title": "Circuit objects in Python are independent, can be put into sets, and survive being stored", "statement": "`Tk2Circuit(x)`, `copy.copy` and `copy.deepcopy` give a new object with the same circuit; whatever is done later with one of the two has no effect on the other, and only `apply_rewrite` changes a circuit. Circuits with equal contents are equal and have equal hashes, handles of the same node are equal, and a circuit in a set is found in it. `to_bytes` uses the configuration given; what it gives is read back by `from_bytes` as the same circuit, with or without the name of the function.", "quantifier": "all programs made of these statements, all circuits, rewrites, hashes, configurations and extensions", "why_tests_cant": "Tests copy nothing, put no circuit into a set and store with one configuration; independence is a statement on all later programs.", "anchors": ["tket-py/src/circuit/tk2circuit.rs:77", "tket-py/src/circuit/tk2circuit.rs:95", "tket-py/src/circuit/tk2circuit.rs:103", "tket-py/src/circuit/tk2circuit.rs:138", "tket-py/src/circuit/tk2circuit.rs:262", "tket-py/src/circuit/tk2circuit.rs:272", "tket-py/src/circuit/tk2circuit.rs:335", "tket-py/src/circuit/tk2circuit.rs:359", "tket-py/src/circuit.rs:105", "tket/src/passes/pytket.rs:15", "tket/src/circuit.rs:342", "tket/src/extension.rs:58"]}
{"id": "C106", "title": "Calls that fit the type stubs are accepted by the extension module", "statement": "Every function, method and constructor declared in the type stubs of the Python package exists, and every call binds its positional and keyword arguments to the parameters as declared in the stub, or is refused as declared; everything that exists is declared.", "quantifier": "all 77 declarations, all calls with any number of positional arguments and any keywords", "why_tests_cant": "Tests do not use the stubs, and call methods with one form of arguments, mostly positional.", "anchors": ["tket-py/tket/_tket/circuit.pyi:17", "tket-py/tket/_tket/types.pyi:6", "tket-py/tket/_tket/ops.pyi:81", "tket-py/tket/_tket/pattern.pyi:28", "tket-py/tket/_tket/rewrite.pyi:4", "tket-py/tket/_tket/passes.pyi:10", "tket-py/src/circuit/tk2circuit.rs:137", "tket-py/src/types.rs:20", "tket-py/src/pattern.rs:90", "tket-py/src/rewrite.rs:120"]}
{"id": "C107", "title": "Drops of Guppy values free every future in them once", "statement": "Replacing the drop operations of a program keeps its results and frees every future inside a dropped value exactly once and no other; no drop is left, also none that stands for the discard of an array of lazy booleans; the pass fails exactly if a dropped type holds something linear for which no discarding operation is known, and its result tells whether there was a drop.", "quantifier": "all programs with nested conditionals and recursive functions, all types built from sums, rows and arrays, all values, states and machines for the other operations", "why_tests_cant": "The unit test counts the drops in one program with one array of integers; it runs nothing and has no futures.", "anchors": ["tket-qsystem/src/lower_drops.rs:23", "tket-qsystem/src/lib.rs:118", "tket-qsystem/src/replace_bools.rs:383", "tket/src/extension/guppy.rs:25", "tket-qsystem/src/extension/qsystem.rs:113"]}
{"id": "C108", "title": "Variables of decoded circuits read the right inputs", "statement": "When a pytket circuit is decoded with a signature and input parameter names, the k-th given name is the k-th parameter of the signature, further names and variables become the next parameters in order of first use and then new inputs after all others; uses of one variable read one input and different variables read different inputs, the names are stored in this order, and decoding fails exactly for repeated names, types that mix parameters with other values, or missing qubits. A region that was encoded is decoded with no new inputs and each variable reads the parameter it named, and all values are kept, also those of symbolic expressions; every output is connected again to its own parameter, input or subgraph.", "quantifier": "all signatures, lists of names, numbers of qubits and lists of parameter expressions of any size", "why_tests_cant": "The tests decode a few circuits with one or two parameters and compare counts of inputs; which variable reads which input depends on the order of uses and on the names.", "anchors": ["tket/src/serialize/pytket/decoder.rs:196", "tket/src/serialize/pytket/decoder/wires.rs:893", "tket/src/serialize/pytket/decoder/wires.rs:1043", "tket/src/serialize/pytket/encoder/value_tracker.rs:211", "tket/src/serialize/pytket/circuit.rs:179"]}
