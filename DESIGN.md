# Design of the formal model of tket2

The model is a Lean 4 library (`lean/Verif`). The Rust code in `/repo` is transcribed by hand, function by
function, into small total functions; every definition cites the file and lines it models and says where
it simplifies.

* `Verif/Model/*.lean`: the transcription. `*Spec.lean` files hold specifications that do not use the
  transcription's helpers.
* `Verif/Quantum/*.lean`: operators on qubits, the meaning of the gate set.
* `Verif/Lemmas/*.lean`: helper lemmas.
* `Verif/Props/*.lean`: the property theorems (named `Cxx_…`), the counterexamples, and examples that meet
  the hypotheses of the theorems.
* `seeded/LOG.jsonl`: the wrong programs the theorems were tested against.

## Trusted base

* The Lean 4.33.0 kernel and the Mathlib definitions used in statements (lists, finite sets, complex
  numbers, real exponential).
* Axioms: only `propext`, `Classical.choice` and `Quot.sound`, per theorem listed at the end. No `sorry`, no
  `native_decide`, no `bv_decide`, no added axioms.
* The correspondence between the Rust text and the Lean definitions, by reading. Nothing is extracted
  from or executed against the Rust code.
* The contracts of external crates, taken as parameters or modelled from their documentation: `hugr`
  (graphs, subgraph extraction and replacement, topological order, `ReplaceTypes` and its linearizer),
  `priority-queue` (any tie-breaking), `portmatching` (any set of matches), `crossbeam` channels (FIFO,
  rendezvous for capacity 0), hashers (arbitrary functions; for edge identifiers `fxhash::hash64` itself,
  fed with the node as 32 bits and the port as 16 bits), `pest` (PEG semantics).

## Conventions

* Panics (`unwrap`, `expect`, indexing, arithmetic where relevant) are explicit error values: `none` or a
  constructor of their own.
* `&mut self` methods return the new state. Mutable global state is threaded explicitly.
* Rust `usize` is `Nat` unless the property is about overflow or saturation; then the bound is in the model.
* Clocks, tie-breaking, iteration orders of hash maps, thread schedules, measurement outcomes and the
  behaviour of unknown operations are oracles: theorems hold for all of them.
* Unbounded loops run with fuel and have an explicit out-of-fuel outcome; theorems are about every fuel,
  and termination is proved separately where it is part of the property.
* Floats: exact reals in the quantum models, an arbitrary arithmetic with the needed laws as hypotheses in
  the parameter models; IEEE 754 double precision numbers with rounding (`Float/Basic`) in the gamma
  strategy, in the unit conversions and in the code generated for rotations.
* When a property is false of the code, the negation is proved with a concrete witness (or for all
  inputs of a class) and the strongest true restriction found is proved with suffix `_partial`.

## Properties: how each is modelled and proved

`proved`: the full statement of `properties.jsonl` is proved of the model. `partial`: the full statement is
false of the code or only part of it is proved; the note says what holds and what does not. Theorem names
are listed in `MANIFEST.json`.

* **C01** Search queue never loses or dangles a stored circuit — *proved* (2 theorems). Model: `Model/PQueue`. Proof: an invariant preserved by every call, by induction over all call histories. Holds for all histories of push/pop/pop_max. Finding: the (unused) truncate method breaks it; proved as C01_truncate_then_extract_panics.
* **C02** Search queue pops a cheapest entry with its own circuit — *proved* (2 theorems). Model: `Model/PQueue`. Proof: the same invariant; the popped key is extremal among the keys present. For every tie-breaking behaviour of the priority queue.
* **C03** A circuit hash is accepted at most once — *proved* (1 theorems). Model: `Model/PQueue`. Proof: history variable: the set of hashes ever accepted.
* **C04** Best-N list is exactly the N cheapest accepted states — *proved* (1 theorems). Model: `Model/PQueue`. Proof: specification by sorting the multiset of accepted costs; invariant over histories. Assumes DoublePriorityQueue::with_capacity(n).capacity() = n.
* **C05** Eviction only ever drops a worst entry — *proved* (2 theorems). Model: `Model/PQueue`. Proof: case analysis of one call in any reachable state. Exact accept/refuse criterion and eviction.
* **C06** Backtracking search never returns something worse or unrelated — *proved* (2 theorems). Model: `Model/Backtracking`. Proof: loop invariant, for every clock, tie-breaking and successor function. For every clock behaviour and successor function.
* **C07** Backtracking search respects its visit budget and terminates — *proved* (2 theorems). Model: `Model/Backtracking`. Proof: counting invariant, and a measure on the finite set of reachable hashes. Visit budget and termination.
* **C08** Badger always returns a circuit — *partial* (2 theorems). Model: `Model/Backtracking`. Proof: case analysis on top of C06; concrete search for the negation. False for queue_size = 0 (proved: always panics). Proved for positive queue sizes.
* **C09** Incrementally tracked costs equal real costs — *proved* (1 theorems). Model: `Model/Cost`. Proof: induction over the chain of rewrites. Costs below 2^63 per component.
* **C10** Parallel search reports the true minimum — *proved* (3 theorems). Model: `Model/Parallel`. Proof: inductive invariant of the transition system (all interleavings, any number of workers). For all interleavings of main, queue thread and any number of workers; 'submitted' means received by the queue thread.
* **C11** Parallel search stops when the search space is exhausted — *partial* (4 theorems). Model: `Model/Parallel`. Proof: inductive invariant for the negation; measure for termination after stopping; explicit execution for the deadlock. False: without timeout/limit the optimiser never returns (C11_never_returns_without_timeout), deadlock proved reachable. Proved: it terminates after main decided to stop.
* **C12** Queue pressure is shared with workers — *partial* (2 theorems). Model: `Model/Parallel`. Proof: inductive invariant. False: the shared maximum is never published in any execution (C12_max_cost_never_shared). Proved: skipped circuits would be refused.
* **C13** Circuit cost arithmetic is a lexicographic group action — *proved* (8 theorems). Model: `Model/Cost`. Proof: component-wise arithmetic with saturation. Round trip of add_delta/sub_cost for components below 2^63; above, counterexample C13_round_trip_fails_above_half.
* **C14** Dividing a cost over threads never loses budget — *proved* (2 theorems). Model: `Model/Cost`. Proof: component-wise arithmetic. Also proved: a zero cost divides to one (C14_zero_divides_to_one).
* **C15** Greedy strategy strictly reduces size with disjoint rewrites — *proved* (1 theorems). Model: `Model/Strategy`. Proof: induction over the sorted list of rewrites.
* **C16** Exhaustive strategies only emit allowed, independent rewrites — *proved* (2 theorems). Model: `Model/Strategy`. Proof: induction over the nested loops. Including maximality of the chosen set.
* **C17** Rewriter stays inside one equivalence class — *proved* (1 theorems). Model: `Model/Ecc`. Proof: induction over the construction of the tables. The pattern matcher (external crate portmatching) is a parameter returning any set of matches.
* **C18** Equivalence class representative is a smallest member — *proved* (2 theorems). Model: `Model/Ecc`. Proof: induction over the list.
* **C19** Chunking is an order-preserving partition with bounded chunks — *proved* (2 theorems). Model: `Model/Chunks`. Proof: induction over the commands with the running cost as invariant. Any cost function for the partition; the size bound for circuits below 2^63 commands.
* **C20** Chunks respect the requested cost — *partial* (3 theorems). Model: `Model/Chunks`. Proof: as C19; concrete circuit for the negation. False: the command that opens a chunk is not counted (C20_chunk_exceeds_cost). Proved: all commands of a chunk but the first cost at most max_cost.
* **C21** Reassembling chunks restores every connection — *proved* (4 theorems). Model: `Model/Chunks`. Proof: relational semantics of port graphs; simulation between the circuit and its reassembly. Chunks may be replaced by any circuit with the same interface; proved for every hash-map iteration order. State-order edges not modelled; SiblingSubgraph extraction/insertion of hugr is modelled.
* **C22** Command iteration gives distinct linear units to live qubits — *partial* (3 theorems). Model: `Model/Commands`. Proof: invariant over the command sequence. False as stated: after a qubit is released, an allocation may get the unit of a live qubit (C22_unit_of_a_live_qubit_reused). Proved: units follow wires always, and are distinct when allocations precede releases.
* **C23** Removing an empty wire leaves all other wires intact — *partial* (6 theorems). Model: `Model/EmptyWire`. Proof: relational semantics; renumbering bijection on links. Meaning and types proved for every well-formed region; reverse-order removal never fails. Findings proved: panics at the order port offset, on loop bodies, and on used wires of basic blocks.
* **C24** Circuit hash does not depend on traversal order — *proved* (2 theorems). Model: `Model/Hash`. Proof: the table of hashes is the unique solution of its equations, whatever the topological order. For any hasher. Also: no panic on a well-formed region.
* **C25** Commutation pass preserves the circuit's meaning — *partial* (6 theorems). Model: `Model/Commutation`. Proof: every move is a sequence of adjacent commuting swaps (trace equivalence), lifted to operators with C26. Proved for circuits of TketOps with at least one qubit each and no classical data flow: no panic, the result is executable, and every execution order has the original meaning (abstractly, and for operators on states). False outside, with proofs: unknown operations are crossed, classical dependencies may become cyclic, panics on QAlloc and on other linear types.
* **C26** Declared commutation data is sound — *proved* (3 theorems). Model: `Model/Ops`, `Quantum/*`. Proof: operators on complex-valued functions of basis states; algebra of Pauli-diagonal gates. Operators on any finite or infinite set of qubits over the complex numbers; all angles. Rotations and gates defined from the documentation of the gate set.
* **C27** Borrow squashing preserves array programs — *proved* (5 theorems). Model: `Model/BorrowSquash`. Proof: simulation between region semantics before and after one elision; induction over passes and nesting. For any meaning of the other operations, any contents and any hash-map order, including nested arrays. The top-level worklist is abstracted to any sequence of existing start wires; state-order edges not modelled.
* **C28** Encoder never assigns one qubit to two live wires — *partial* (4 theorems). Model: `Model/Encoder`, `Model/EncoderSpec`. Proof: invariant linking tracker state and symbolic register contents, over all commands. False in general: a lazily emitted unsupported component that creates a qubit, and an output wire mixing reused and new qubits, lead to repeated qubits (C28_lazy_component, C28_straddling_wire). Proved for all regions without these shapes: every command acts on distinct qubits that hold exactly the values flowing in, for every order of leftover components; and the register disjointness invariant after every prefix.
* **C29** Allocated qubits are encoded as clean qubits — *partial* (2 theorems). Model: as C28. Proof: ghost register contents. False in general (C29_dirty_allocation): the register of a measured and discarded qubit is handed out again without a reset. Proved for all regions where no allocation follows an operation giving up a qubit.
* **C30** Output qubit order survives the pytket round trip — *partial* (5 theorems). Model: `Model/Registers`. Proof: list lemmas on permutations; witnesses. False: the implicit permutation written by the encoder is always the identity (C30_permutation_identity), so swapped outputs are lost (C30_swap_lost, C30_bit_swap_lost). Proved when the outputs are the first registers in order.
* **C31** Decoded implicit permutations route outputs correctly — *partial* (4 theorems). Model: `Model/Registers`. Proof: list lemmas on permutations. Proved for permutations listing all registers, or a prefix of them; false for other incomplete permutations (C31_incomplete_permutation_wrong).
* **C32** Generated register names are fresh — *partial* (6 theorems). Model: `Model/Registers`. Proof: invariant: the next index is above all used ones. Proved with overflow checks, and in release builds below 65536 names; false beyond (C32_wraps_around) and for negative indices. Registers are compared directly instead of by hash.
* **C33** A bit still in use is never handed out again — *partial* (4 theorems). Model: as C28. Proof: as C28, for bits. False in general (C33_copied_bit_overwritten, C33_unused_input_shares_bit). Proved for all regions where copied bits are only read by operations without bit results and no unused bit precedes another one; also that constants are found cleared.
* **C34** Printed parameter expressions parse back to the same value — *partial* (4 theorems). Model: `Model/Params`, `Model/ParamsSpec`. Proof: round trip by structural induction on expressions over a character-level PEG parser. Character-level model of the grammar, the parser, loading and printing; floats are any type with exact printing. False for constants within 1e-10 of a multiple of pi and for inputs named pi (proved); proved for all other expressions.
* **C35** Parameter expressions are read with sympy's meaning — *partial* (4 theorems). Model: as C34. Proof: specification by Python's grammar; induction on precedence levels. False: powers associate to the left and bind weaker than a minus sign (C35_power_associativity, C35_negated_power). Proved for all expressions of Python's grammar in which neither a negated expression nor an exponent is a power, with any blanks around operators.
* **C36** Radian parameters are converted faithfully — *partial* (4 theorems). Model: as C34. Proof: structural induction. False for sums and differences: only the second operand is divided by pi (C36_sum_wrong for all sums, C36_sum_example). Proved for all other expressions.
* **C37** Angle unit conversions are mutually inverse — *partial* (7 theorems). Model: as C34, and `Float/Basic` for double precision numbers. Proof: case analysis of the conversions; for double precision a rounding error bound, accumulated by induction over the sequence. False in double precision: converting back changes the last bit, and large rotations become infinite radians and then panic (C37_not_restored, C37_large_panics). Proved with IEEE rounding (C37_float_partial): below 2^1020 half-turns no sequence of up to 2^52 conversions panics, and each changes the angle by at most two units of the 53rd bit. Also proved in exact arithmetic; conversions between rotations and half-turns are exact in any arithmetic.
* **C38** Decoder always wires the most recent value of a register — *partial* (11 theorems). Model: `Model/Decoder`, `Model/DecoderSpec`. Proof: refinement of a sequential register program, induction over commands. Last-writer theorem (refinement of a sequential register program), linear use of qubit wires, success on fitting circuits and well-typedness are proved for all circuits whose registers are carried by single qubits/booleans and whose operations take parameters last. Counterexamples are proved where the code deviates: a bit read without being written becomes outdated, converted bits are recorded with the old type, registers in tuples are replaced by fresh qubits, repeated qubit arguments, parameters before values, barriers on bits, missing outputs. Parameters and opaque subgraphs are outside this model.
* **C39** Controlled and daggered gates implement the modified unitary — *partial* (7 theorems). Model: `Model/ControlSynth`, `Quantum/*`. Proof: induction on the number of controls; operator algebra with projections. All 18 gates, every number of controls, every angle, with and without dagger, exact (no phase dropped) and restoring controls and dirty qubits, except: CZ with >=1 control and Z with >=2 controls (proved wrong for every phase), and the output order of Toffoli with >=1 control (proved swapped). Exact reals instead of floats.
* **C40** Dagger of a circuit is its inverse — *partial* (3 theorems). Model: as C39. Proof: induction over the circuit. Circuit dagger (with controls) is the exact inverse for straight-line circuits of the gates for which C39 holds; double dagger restores the circuit gate by gate for all gates.
* **C41** Modifier chains combine correctly — *partial* (7 theorems). Model: `Model/Modifier`. Proof: induction over the chain; composition with C40. Sum, parity and the meaning of chains proved (the latter for circuits as in C40). The generated signature is the promised one iff the control sizes form a palindrome: proved both ways, with a counterexample. Power modifiers are ignored (proved).
* **C42** Dagger rewiring is a type-correct bijection — *partial* (6 theorems). Model: `Model/Modifier`. Proof: arithmetic over ports. Injectivity, coverage and directions for all signatures. Types for all signatures without dagger and, with dagger, when quantum values are returned in the places they are taken; counterexamples for a classical value between qubits, and for every controlled daggered nested region with a classical input.
* **C43** Control ports of modified regions have qubit type — *partial* (4 theorems). Model: `Model/Modifier`. Proof: arithmetic over ports; witnesses. Proved for nested dataflow graphs and conditionals. Tail loops: proved exactly when all carried values are qubits, false otherwise (C43_tail_loop_wrong).
* **C44** Unitarity flags survive storage — *proved* (5 theorems). Model: `Model/Modifier`. Proof: exhaustive over the finite type of flags and all numbers. All flags, all stored numbers.
* **C45** Lowering to Q-System gates preserves the unitary — *proved* (3 theorems). Model: `Model/QSystem`, `Quantum/*`. Proof: matrix identities with complex exponentials; induction over the circuit. All 18 unitary gates of the gate set, all angles, all states, whole circuits with measurements and resets; exact reals instead of floats. The phase is a constant of the gate. No operation of the gate set is left unlowered.
* **C46** Lowered measurement leaves the measured state — *proved* (1 theorems). Model: `Model/QSystem`. Proof: as C45, with projections for outcomes. Both outcomes; the flip is applied exactly on outcome 1.
* **C47** Lazy booleans compute the same values — *proved* (5 theorems). Model: `Model/LazyBool`, `Model/LazyBoolSpec`. Proof: two simulations (replacement, linearization) by induction on fuel and syntax; a conservation argument counting futures. For every machine (measurement outcomes and other operations are parameters), every program in the modelled language (dataflow, conditionals, nested graphs, calls, loops, control flow graphs, sums, arrays), every entry point and every fuel: outcomes agree, results represent each other, every future is consumed exactly once or left in the results. The type replacement engine and the linearizer are part of hugr and modelled from their documentation. Programs that use futures before the pass, and the separate static array pass (C61), are outside.
* **C48** Only one random context can exist — *partial* (5 theorems). Model: `Model/Random`. Proof: induction over call sequences; witnesses. False: creating a context always succeeds and reseeds the one global generator (C48_always_some, C48_documented_iff, C48_contexts_interfere). Proved: contexts that do not overlap behave like separate generators.
* **C49** Interval extension keeps resource paths contiguous — *partial* (10 theorems). Model: `Model/Interval`, `Model/Resource`. Proof: case analysis over positions on the resource path. False in general: a node of another resource path whose position lies in the interval is accepted as if it were covered (C49_unrelated_node_accepted, C49_extend_unrelated). Proved for all nodes of the resource path, for all well-formed regions and intervals; debug assertions are not modelled.
* **C50** Resource tracking follows qubits — *proved* (9 theorems). Model: `Model/Resource`, `Model/ResourceSpec`. Proof: invariant over the topological traversal; equivalence closure as specification. For all regions that satisfy the HUGR validity conditions (WF) and any topological order, with the default flow; C50_same_resource_flows covers other flows. any_reachable_from is exact without state order edges and wrong with them (C50_reachability_misses_order_edges). Positions are naturals instead of Rational64.
* **C51** Popped circuits are released — *partial* (2 theorems). Model: `Model/PQueue`. Proof: invariant over histories; witness for the leak. True with best-N tracking; without it (the default) popped circuits are never released: proved leak.
* **C52** Exhaustive search is optimal — *proved* (1 theorems). Model: `Model/Backtracking`. Proof: invariant: every reachable state is seen or below a queued one.
* **C53** Best discovered circuit is returned — *partial* (2 theorems). Model: `Model/Backtracking`. Proof: concrete search for the negation; the queue of the loop is a history of calls, so that C04 and C05 apply to it. False: negation proved with a concrete search (C53_discovered_better_state_not_returned). Proved instead: with best-N tracking the first circuit of that list is at least as cheap as every discovered circuit, for every capacity, budget and clock (C53_head_of_best_n_partial); the returned best circuit is the cheapest expanded one (C06).
* **C54** Gamma strategy allows exactly non-worsening rewrites — *partial* (5 theorems). Model: `Model/Strategy` with double precision numbers (`Float/Basic`). Proof: monotonicity and error bound of rounding to 53 bits. False for pattern cost 0 and above 10000 (C54_gamma_threshold_fails); proved in between, in double precision arithmetic with rounding. C54_documented relates any gamma to the documented exact comparison, C54_monotone orders the allowed rewrites.
* **C55** Commands come in dataflow order, each once — *proved* (1 theorems). Model: `Model/Commands`. Proof: invariant over the topological traversal with delayed constants. For every topological order of the region. Constants without consumers in the region are never yielded (part of the statement).
* **C56** Circuits that compare equal behave the same — *partial* (4 theorems). Model: `Model/Hash`. Proof: witness circuits for any hasher; invariance under renumbering. False both ways, for any hasher: circuits sharing versus repeating a measured computation compare equal, operations not leading to the output are invisible, and circuits with nested control flow are not equal to themselves. Proved: isomorphic regions compare equal.
* **C57** Calls inside a modified function are modified too — *partial* (3 theorems). Model: `Model/Modifier`. Proof: case analysis. False: an unflagged callee with equal input and output types is called unmodified without an error (C57_unflagged_call_kept). Proved: exactly those calls are kept, flagged callees are always modified.
* **C58** Encoding to pytket is total and complete — *partial* (2 theorems). Model: as C28. Proof: progress: every step of the encoder succeeds in states satisfying the invariant. Proved for all well-formed regions in which every unsupported component touches a qubit or a bit; without that, encoding can fail (C58_component_without_registers).
* **C59** An expression of a copyable value computes that value — *partial* (12 theorems). Model: `Model/CopyExpr`, `Model/CopyExprSpec`, on `Model/Resource`. Proof: invariant of the backwards traversal (visited nodes, frontier ordered by position); evaluation of the subgraph by induction over its nodes. False in general: output() returns the first used port of the node instead of the requested one and panics if the value is unused (C59_wrong_output, C59_unused_output_panics; exactly when: C59_output_iff); inputs fed by excluded nodes come after the others, contrary to the documentation (C59_input_order_wrong). Proved for all regions and boundaries: totality, the exact nodes, inputs, outputs and calls, dataflow order, and that running the subgraph yields the requested value; convexity without state order edges.
* **C60** Lowered barriers cover every qubit and keep containers — *partial* (8 theorems). Model: `Model/Containers`, `Model/ContainersSpec`. Proof: structural induction over types, once for what the builder accepts and once for the values on the wires; the spec speaks about values and types only. False in general: a tuple with a qubit and a bare option of a qubit is refused with a type clash, and an array of empty arrays of qubits panics the compiler (C60_option_in_tuple, C60_empty_arrays_panic); C60_accepts_iff says exactly which types are accepted. Proved for all accepted types and all well-typed values: one barrier on all visible qubits in order, containers unchanged, only empty slots of option arrays stop the program. For element types other than qubit the builder is inconsistent (C60_other_element). HUGR's builder and array operations are modelled from their documentation; the memo table of generated functions is C90.
* **C61** Static arrays of booleans read the same after lowering — *partial* (10 theorems). Model: `Model/StaticArray`, `Model/StaticArraySpec`. Proof: structural induction over element types: converting a stripped value back gives the value outside the array. False in general: an array of tket.bool inside a static array is returned with native booleans (C61_array_of_bool), an empty static array constant keeps its old type while its uses change (C61_empty_constant), and elements that contain a function next to a tket.bool panic (C61_function_panics). Exactly when the build succeeds: C61_build_iff; exactly when the constant agrees with its type: C61_const_iff. Proved for all element types without tket.bool below another container: get returns the original element, with the right type. hugr's ReplaceTypes engine is not modelled.
* **C62** Classical expressions keep their meaning — *partial* (10 theorems). Model: `Model/ClExpr`, `Model/ClExprSpec`. Proof: evaluation of expressions over natural numbers with arbitrary register operators; case analysis on operators and bit values; loops by induction. False in general: nested operands, constants and the placement of bits are ignored when decoding, so other functions are computed (C62_nested_wrong, C62_constant_wrong, C62_places_wrong); updates in place are an error, b := b xor 1 panics (C62_in_place_refused, C62_one_bit_panics); the decoder refuses every expression the encoder emits, which also declares a bit it does not have (C62_own_output_refused, C62_declares_too_many). Proved: what is accepted (C62_decode_iff), correctness for plain operands placed in order with the result behind them, and that emitted expressions compute the operation.
* **C63** Gates mean the same in pytket circuits — *proved* (6 theorems). Model: `Model/GateTable`, `Model/GateTableSpec`, `Quantum/*`. Proof: case analysis over the tables, matrices multiplied symbolically. Tables of both emitters, all angles, against the matrices of pytket's documentation. V and Vdg differ by a fixed phase. A measurement that frees its qubit is emitted as an ordinary measurement by design. The texts of parameters are the subject of C34-C37.
* **C64** Types translate to registers independently of earlier questions — *partial* (8 theorems). Model: `Model/TypeTranslate`, `Model/TypeTranslateSpec`. Proof: invariant of the cache and of the index over all sequences of calls; induction over types for counts and values. Independence of the history, the first responsible translator, register counts and conversions are proved in full. The correspondence between values and registers holds unless the type without values is a component (C64_values_partial): such a tuple is given bits although it has no values (C64_never).
* **C65** Compiled programs use the runtime correctly — *proved* (5 theorems). Model: `Model/QRuntime`, `Model/QRuntimeSpec`. Proof: invariant (allocated qubits = qubits on wires, references = wires with the handle) and simulation of a semantics without handles, by induction over programs. The runtime is an abstract machine with arbitrary decisions; calls outside its contract are faults. Branching programs without loops: a finite execution of a loop is one of its unrolling. LLVM text, arrays and function calls are not modelled.
* **C66** Results are reported under their tag with their values — *partial* (15 theorems). Model: `Model/Results`, `Model/ResultsSpec`, `Model/StateResult`. Proof: induction over the search with injectivity of the names and the pigeonhole principle; induction over arrays in memory; hash and encoding are parameters. False for integers of other widths than 64 bits: arrays report wrong values and memory behind them (C66_array_width_wrong), single integers are refused (C66_width_refused); empty or too long tags panic the compiler (C66_bad_tag_panics); signals are not checked (C66_exit_unchecked). Proved for all other results (C66_report_partial, C66_exit_partial); the theorems on constant strings are complete. State results (llvm/debug.rs): C66_state, C66_state_error_iff, C66_state_tags, C66_state_load; nothing checks the size of the array if the program was not validated (C66_state_unvalidated).
* **C67** Extension operations survive storage — *partial* (11 theorems). Model: `Model/ExtOps`, `Model/ExtOpsSpec`. Proof: case analysis of operations, induction over rows. False only in that result operations are also loaded from arguments that do not fit their parameters (C67_misfit_loaded). Widths must be below 256 as the field is a byte. Types in rows are tokens.
* **C68** Matches of patterns are copies of the patterns — *partial* (8 theorems). Model: `Model/Matching`, `Model/MatchingSpec`. Proof: invariant of the map along the edges (soundness), agreement with a copy (completeness), induction over the commands for values; walk of the external crate is a parameter with a contract. False for nested regions and constants outside the region, which are not compared (C68_nested_ignored, C68_outer_constant_ignored), and a pattern with two inputs is not found where both are the same wire (C68_shared_angle_not_found); calls panic (C68_pattern_iff). C68_value_partial assumes that nested regions agree, C68_found_iff that patterns are closed. The order in which edges are followed is any that meets the stated contract of the external crate; the automaton for many patterns and the convexity check are external.
* **C69** Calls of the GPU library follow its protocol — *proved* (10 theorems). Model: `Model/Gpu`, `Model/GpuSpec`. Proof: invariant of emitted modules; invariant relating thread-local flags to the calls so far; induction over executions; the library is an arbitrary function of the history. Assumes that no other symbol of the module has one of the reserved names, that names contain no zero character, that operands have the types of their operations and that contexts come from GetContext. Disagreements with the documentation are recorded by C69_reserved_nonzero (the reserved argument of gpu_init, documented as zero, is the index chosen by the program) and C69_refused_context (the optional result is never empty). LLVM is modelled as a small instruction set.
* **C70** Opaque subgraphs are put back with the links they had — *partial* (9 theorems). Model: `Model/Opaque`, `Model/OpaqueSpec`. Proof: effect of each graph operation on the links into one port; induction over the steps of the decoder, split at the insertion of the subgraph; induction over registrations and merges for identifiers. The statement is false of the code in two cases (C70_shared_output_lost: an output with registers that is also used inside its subgraph loses the inner use; C70_parameter_linked_twice: a parameter computed by one subgraph for another ends with two sources). C70_links gives the exact links without these restrictions, C70_reassembled_partial the stated one-source form without these two cases. C70_outputs, C70_tracked, C70_identifiers, C70_boundary and C70_compatible are full. The steps of the decoder for other commands are a parameter (their links go to new nodes).
* **C71** Standalone circuits keep their subgraphs — *partial* (11 theorems). Model: `Model/Inline`, `Model/InlineSpec`. Proof: mutual induction over commands and boxes; for reading, an invariant that the links are those given plus one for each pair of a declared source and a declared target, kept by every step. The statement is false of the code: barriers with other data lose it (C71_payload_erased), so a second call erases all subgraphs (C71_twice_erases, for every circuit), a failed call loses the reference that failed (C71_failure_erases), values without registers are linked to a node of the program that has the number of the target in the envelope (C71_targets_not_mapped), and values that come from the input of the region are never linked (C71_input_edge_lost). C71_standalone_partial and C71_ports_partial give the stated form without other barrier data and without inputs that have no registers; C71_error, C71_no_reference, C71_links and C71_order are full.
* **C72** Operations that pytket cannot represent are grouped soundly — *partial* (7 theorems). Model: `Model/Unsup`, `Model/UnsupSpec`. Proof: invariant of the traversal: tracked and encoded operations are a permutation of those visited, tracked neighbours share a set, members of a set are joined inside it; convexity by induction over paths; the union-find by monotonicity and soundness for every equivalence relation. The statement is false of the code in two cases: a constant of the module that cannot be encoded is put into the subgraph of each operation that loads it (C72_constant_twice), and a constant that is loaded after an unsupported operation by an order link makes a subgraph that is not convex (C72_not_convex). Without such constants C72_once_partial, C72_order_partial, C72_connected_partial, C72_inputs_ready_partial and C72_convex_partial give the whole statement.
* **C73** Circuits of Quartz files are loaded with their meaning — *partial* (5 theorems). Model: `Model/Quartz`, `Model/QuartzSpec`. Proof: simulation: names of the file, units of the loader and wires of the graph hold the same qubits and angles after every command; validity of the graph by counting the uses of wires. False if gates give other names to their qubits than they had: the names of outputs are ignored for qubits (C73_renamed_outputs; C73_never_permutes shows that no loaded circuit moves a qubit). False for two classes with the same first identifier (C73_class_lost). With the names kept, C73_meaning_partial gives the first sentence in full; with distinct identifiers, C73_classes_partial the second.
* **C74** Objects of the tket1 library are freed exactly once — *partial* (7 theorems). Model: `Model/Tket1`, `Model/Tket1Spec`. Proof: ownership invariant: the objects that exist are exactly those of the variables, each of one variable; preserved by every statement. False for strings: a string that is not a circuit is never freed (C74_string_leaked), nor is one returned together with an error. Proved without exceptions: C74_safe, C74_freed_once, C74_no_leak for circuits and passes, C74_regions_iff, C74_regions_memory. C74_no_string_leak_partial covers strings if the library returns circuits on success and nothing otherwise.
* **C75** Splitting the circuit among threads keeps its meaning — *proved* (7 theorems). Model: `Model/BadgerSplit` on top of `Model/Chunks` and `Model/Backtracking`. Proof: refinement: each thread keeps interface, meaning and cost bound (C06 along the search), then C21 for replaced and for unmodified chunks; the number of chunks by induction over the commands. C75_meaning, C75_cost, C75_panic, C75_terminates, C75_threads (usize) and C75_threads_lex (lexicographic costs; both below the point where casts to isize wrap). C75_zero_queue shows that the queue size zero does panic on every circuit with a command.
* **C76** Removing packed and unpacked tuples keeps the meaning — *partial* (8 theorems). Model: `Model/Untuple`: circuits with typed ports, the boundary of the removed nodes, the replacement and its insertion. Meaning: relational semantics with arbitrary relations for other operations and tuples as lists of values (`Lemmas/Untuple`).. Proof: simulation in both directions (the values on the wires that stay are the same), preservation of a well-formedness invariant including acyclicity, a decreasing count of `UnpackTuple`s. C76_meaning, C76_valid, C76_all and C76_complete_partial (no rewrite panics) prove everything but the absence of failures, which is false: C76_panic_iff gives the exact condition, C76_unused_value_panics and C76_two_other_uses_panic are witnesses. C76_debug_assert: the assertion of debug builds demands nothing more.
* **C77** Rotations are finite and the code generated for rotations and opaque booleans does what is documented — *partial* (7 theorems). Model: `Model/Rotation`: the constants, the code generator as a builder of basic blocks, and an interpreter of the LLVM instructions used; `Float/Basic`: double precision arithmetic. `Model/RotationSpec`: types, documented results and runs of programs.. Proof: simulation by induction over the program from its end, with an invariant that relates blocks under construction to the finished ones; rounding lemmas for the literals. C77_code and C77_panics: the generated code, all operations. C77_constants: which constants are rejected. C77_finite_partial: all operations but `radd` keep rotations finite; C77_radd_infinite: `radd` does not. C77_literal: loading a literal panics exactly from 2^1024 - 2^970 on. C77_radians: radians and back is not the identity and can fail.
* **C78** The function that is named is the one that is loaded, lowered and run — *partial* (10 theorems). Model: `Model/Entry`: loading, the driver of `QSystemPass` and of the compiler; component passes and validation are parameters.. Proof: induction over the modules; the state of the driver tracks the chain of enabled passes. C78_loaded_partial: names that are not empty. C78_errors: exactly which errors. C78_pass: order of passes and entrypoint. C78_read, C78_compiled: the compiler. False of the code: C78_empty_names, C78_generic_hides (loading), C78_entry_lost (entrypoint after a failed pass), C78_main_with_inputs, C78_opt_level.
* **C79** Forcing an order keeps dependencies and reads futures as late as possible — *partial* (8 theorems). Model: `Model/ForceOrder`: the ranks, and the traversal of `hugr` (assumed: greedy by rank, any choice among equals). `Model/ForceOrderSpec`: execution orders, needs, allocated qubits.. Proof: invariant: every visited node was a candidate of least rank; a node that is not visited needs one that is ready. C79_order, C79_unique: one order, which respects dependencies. C79_delayed: the general statement on ranks. C79_reads_late, C79_frees_early, C79_quantum_first: its instances. False of the code: C79_allocs_not_late (allocations are executed before all classical operations they do not need), C79_quantum_not_early (an unneeded classical operation can be executed before a quantum operation).
* **C80** Calls in modified functions are linked to the functions they call — *partial* (9 theorems). Model: `Model/CallLinks`: the table of calls to be linked, the numbering of nodes by builders and by insertion. `Model/CallLinksSpec`: right links, the bodies for which links are right, the functions that can be modified.. Proof: invariants of the run: one entry per function, needs are numbered below the next node, and a call without entry never gets one; induction on the derivation that a function can be modified. False of the code. C80_linked_iff_partial: links are right if and only if no unmodified function is called twice and no nested region comes after a call. C80_calls: which functions the copy calls. C80_finishes_iff_partial: exactly the functions for which a copy is made. Witnesses: C80_twice_wrong, C80_nested_after_wrong, C80_nested_misdirected, C80_indirect_panics; C80_wrapper_panics and C80_recursive for all arguments.
* **C81** The modifier pass replaces every modified function and removes nothing else — *partial* (6 theorems). Model: `Model/ResolveAll`: the checks on a modifier, redirection of its edges, and the removal loop with its stack; the visiting orders are parameters. `Model/ResolveAllSpec`: the modifiers that are replaced, dependency, linear programs.. Proof: invariant of the first loop: the edges are those of the program, moved; of the removal: removed nodes are closed under use and reachable from the stack; termination by the number of nodes. False of the code if a modifier has two uses or its function is not known. C81_result_partial: nodes and edges of the result for all programs. C81_linear: the claim if each modifier has one use at most and can be applied (no panic, all modifiers removed, nothing else). C81_unreplaced: in all other cases users of the modified function and all that depends on them are removed. Witnesses: C81_two_calls_wrong, C81_two_calls_panic, C81_unknown_function_wrong.
* **C82** A modified region is the mirror image of the region under dagger — *partial* (18 theorems). Model: `Model/RegionWiring`: the registered ports for each way to register, `connect`, the loops of `connect_all` with both errors, array operations. `Model/RegionWiringSpec`: faithful correspondences, the image of an edge, numbers of edges at ports, cycles.. Proof: the loop collects the images of the edges, up to order; counts are transported along injective correspondences; a new rank that reverses the order of operations with qubits and puts them after the others. False of the code in several cases. C82_finishes_iff: when the edges can be connected, for all regions. C82_mirror_partial, C82_linear_partial, C82_typed_partial, C82_acyclic_partial: the claim if ports correspond faithfully, edges stay in the region and classical values do not come from operations with qubits. Which operations are faithful: C82_copy_iff, C82_reverse_iff, C82_gate, C82_wires, C82_arrays. Failures: C82_cycle_wrong, C82_two_regions_wrong, C82_outer_value_wrong, C82_nested_use_fails, C82_copy_fails, C82_classical_array_wrong, C82_array_swap_wrong, C82_loaded_function.
* **C83** Units of circuits and commands — *partial* (14 theorems). Model: `Model/Units`: the iterator with its position and count, both labellers, filters, the queries of circuits, inputs and outputs of commands on top of `Model/Commands`; panics are `none`. `Model/UnitsSpec`: the expected row of units.. Proof: induction on the types not yet visited; the units of commands are those of C22. The part about circuits is proved: C83_yields, C83_circuit_units, C83_circuit_ports, C83_linear_numbered, C83_filters, C83_qubit_count, C83_default_inputs, C83_size_hints, C83_fused. The part about commands holds if linear ports come first (C83_command_partial, C83_command_wires_partial) and is false otherwise: C83_inputs_panic, C83_outputs_panic, C83_conditional_wrong.
* **C84** The number of operations — *partial* (4 theorems). Model: `Model/NumOps`: the hierarchy as a forest, the loop with its stack, the filter of `operations`.. Proof: invariant of the loop: the count plus the operations on the stack. C84_counts_program: the number is that of all operations of the whole program, each once. C84_function_iff: it is that of the circuit exactly if no other function has operations; C84_two_functions_wrong is a witness. C84_operations: the list has the operations at the top level.
* **C85** The rewrite trace lists the rewrites that were applied — *partial* (12 theorems). Model: `Model/Trace`: the metadata entry, all functions of `trace.rs`, the counter of 16 bits, the traces of the strategies of `Model/Strategy`.. Proof: induction over histories with the stored list as state; arithmetic of the counter. C85_history, C85_add, C85_no_feature, C85_enable_again, C85_foreign, C85_greedy, C85_threshold: proved for all histories. False in these cases: rewrites that fail are counted (C85_failed_wrong; otherwise C85_matches_partial), 65536 rewrites in one step are counted as none or panic (C85_exhaustive_wrong; otherwise C85_exhaustive_partial), circuits without tracing get a null entry (C85_ignored_wrong).
* **C86** Registered encoders and decoders, and constants — *partial* (14 theorems). Model: `Model/EncConfig`: the tables, both loops, the queue of `const_to_pytket`, default emitters of constants, bits and parameters of the context with the values the bits hold. `Model/EncConfigSpec`: booleans and numbers of a constant from left to right.. Proof: tables by induction over registration; sorted sets; the queue by induction on its size with an invariant of allocated bits. Dispatch is proved: C86_emitters_for_operation, C86_emitters_for_constant, C86_operation, C86_decoder; the order for operations and constants differs (C86_order_differs) and emitters may be called twice (C86_called_twice). Constants: proved for values and flat tuples without booleans of the core type, in contexts whose unused bits hold zero (C86_constants_partial, C86_boolean_partial, C86_refused_iff). False otherwise: C86_tuple_wrong, C86_nested_wrong, C86_reuse_wrong, C86_sum_wrong, C86_unsupported_wrong.
* **C87** The Badger pass of the Python package — *partial* (13 theorems). Model: `Model/PyBadger`: number of threads, division of the time into cycles, the loop over the cycles, conversion of the argument and back, the in-place rebase. Optimiser, decoder, encoder and rebase are parameters.. Proof: induction over the cycles; integer arithmetic; one step of the loop of `Model/Backtracking` with its invariant, and induction over the chunks. Proved: C87_time, C87_threads, C87_result, C87_argument_partial, C87_circuit_count_partial, C87_search_without_effect, C87_cycle_without_effect. False of the code: the default timeout (C87_default_timeout_wrong), short timeouts (C87_short_timeout_wrong), the limit on circuits (C87_circuit_count_wrong), the argument is changed (C87_argument_changed) and Tk2Circuits are refused by default (C87_default_refuses, under the assumption that the pass of pytket refuses them).
* **C88** Costs given by Python functions — *partial* (12 theorems). Model: `Model/PyCost`: the fold of `Sum` for `Result`, comparison, difference, division and conversion, over any type of objects with partial methods; the numbers built into Python with `NotImplemented`.. Proof: induction over the commands with an arbitrary accumulator; case analysis for the built-in numbers. Proved for objects that add and compare as values of an ordered group (C88_sum_partial, C88_first_error, C88_compare, C88_delta), which integers with booleans, and floats alone, are (C88_integers, C88_floats); conversion in C88_as_usize. False: C88_empty_wrong, C88_other_operations_wrong, C88_mixed_wrong, C88_mixed_compare_wrong, C88_division_wrong.
* **C89** Identifiers of edges between subgraphs — *partial* (6 theorems). Model: `Model/EdgeIds`: the two words of a wire hashed with 64 bit arithmetic as in fxhash, `new_inline`, and reading by `Model/Inline`.. Proof: the factor is odd, so the last multiplication can be undone; a collision then gives two nodes whose difference times 32 times the factor is within 2^16 of a multiple of 2^64, which two neighbouring convergents of the continued fraction exclude below 2^32 (integer arithmetic); the links follow from C71 with this injection. The hash has no collisions (C89_unique) and does not take the default value (C89_default_unused); so subgraphs are linked by the wires of the program (C89_links), where the targets are numbered as in C71; writing panics exactly for inputs that are not linked (C89_write_panics). False for circuits put together: C89_appended_panics (for every pair with a common number), C89_two_programs_wrong. Assumes fxhash 0.2.1 and the words fed for a wire.
* **C90** Every temporary operation gets exactly one generated function, and a failed one poisons the map — *partial* (8 theorems). Model: `Model/OpMap`: the map as a list of operations with optional functions in order of insertion, `insert_with` with fuel for the nesting, `into_function_iter`, the lowering of barriers; builders are parameters (whether the signature is accepted, which operations they add, the result). Keys and mangled names of all requests.. Proof: `Model/OpMapSpec` says which operations are needed (least set closed under requests). Invariant `Step` by induction over fuel and requests: only needed operations are added, at the end, without repetition, and on success all of them are filled and their requests present. Fuel suffices by the number of operations of a finite closed set that are not in the map. Proved: C90_functions, C90_no_panic, C90_succeeds_iff, C90_kept, C90_keys. False of the code: C90_failure_stays (a failed insert_with leaves the placeholder for ever), C90_names_wrong; C90_names_partial is the part that holds.
* **C91** A plain circuit survives the trip through the pytket format from end to end — *partial* (5 theorems). Model: `Model/RoundTrip` joins the models of encoder (C-encoder) and decoder: the commands as they are written to the file, with registers of two sorts, the implicit permutation and the output parameters, read by `Decoder.decode`.. Proof: `Model/RoundTripSpec` says what a value assignment that follows the data flow is and what operations receive. `Lemmas/EncoderBound`: registers of commands are below the size of the pool. Simulation in `Lemmas/RoundTripRun`: the values held by the registers after the commands of a prefix are the values on the wires with these registers, using that a register is not overwritten while a wire in use has it (`encode_base_inv`). `Lemmas/RoundTripOut` treats the outputs with the permutation, `Lemmas/RoundTripFlow` shows that the decoder accepts the file. C91_round_trip_partial and C91_lines_partial hold for plain regions: no groups, no operations that consume qubits or read bits, no copies, allocations first, all registers used, registers with one index, the decoder knows the signatures of the operations. C91_values_exist shows that values following the data flow exist. False without the condition on outputs: C91_crossed_outputs, C91_bit_returned_twice.
* **C92** Circuits built from Python commands apply them in order to the qubits they name — *partial* (9 theorems). Model: `Model/PyBuild`: indices of Python lists, the list of tracked wires, adding an operation, counting qubits, outputs; exceptions as errors. `TrackedDfg` from the package hugr is modelled from its documentation.. Proof: `Model/PyBuildSpec` runs commands on numbered registers. Simulation by induction over the commands: tracked wires hold the registers. A wire that does not exist stays tracked until it is used and then raises, which gives the exact condition. Linearity by counting each wire in inputs and tracked wires. Proved for all commands given by numbers: C92_succeeds_iff, C92_meaning, C92_identity. C92_linear_partial needs commands that name each qubit once. False of the code otherwise: C92_same_qubit_accepted; limits: C92_no_index_fails, C92_free_fails, C92_negative_index, C92_finish_once. TrackedDfg of the Python package hugr is an assumption.
* **C93** Nested regions are encoded once each and put back in any order — *partial* (6 theorems). Model: `Model/SubRegions`: trees of nodes, the queue of candidates with the encoder as a parameter, replacing the contents of a region by new nodes and moved subtrees, rounds in a given order.. Proof: `Model/SubRegionsSpec` says which node is inside which child of which node. The queue is a permutation of a structural traversal, of which membership is characterised by induction. Rounds commute with replacing all regions at once (induction over the tree), which does not depend on the order; which nodes are left is characterised by induction over the tree. Proved without bounds: C93_encoded, C93_no_subcircuits, C93_every_order, C93_result. C93_round_trip_partial needs that all opaque subgraphs are still in the circuits; C93_order_matters shows that this is needed. Assumed: opaque subgraphs of a region are disjoint sets of its children; numbers of removed nodes are not reused.
* **C94** Rules whose sides mean the same never change the meaning of a circuit — *partial* (12 theorems). Model: `Model/Rules`: rules, patterns of the left-hand sides, the search for matches with the automaton and the check of subgraphs as parameters, signatures, rewrites, and applying a rewrite (nodes removed, new nodes added, wires rerouted in both directions).. Proof: `Model/RulesSpec` says what a circuit means (a relation between inputs and outputs for a given interpretation of operations), what a copy of a side is, and the contracts of the external parts. `Lemmas/Rules`: values of the old circuit restricted to the copy are values of the left-hand side and the other way round (both directions of the meaning); cycles of the new circuit would be cycles of the old one or break convexity. `Lemmas/RulesFind`: the search by induction over the commands. Proved without bounds: C94_from_rules, C94_found, C94_find_match, C94_complete, C94_total, C94_rewriters. C94_sound_partial and C94_many_partial need: circuits and sides of rules without nested regions (matching does not look at them, C68), every command of a left-hand side connected with its boundary, and values kept inside a left-hand side used by nothing else in the circuit; C94_consumer_removed shows that the last one is needed. The automaton of the portmatching crate, the check of subgraphs and the replacement of HUGR are parameters or written from their documentation. In circuits where every operation leads to the outputs the condition on values that are used elsewhere holds by itself (C94_alive, C94_alive_sound).
* **C95** Rewrites applied together and the whole optimiser keep the meaning of a circuit — *partial* (10 theorems). Model: `Model/Threads`: the same circuits in the transition system of `Model/Parallel`. `Model/Together`: the delta of node counts, the view of a rewrite that the strategies of `Model/Strategy` use, applying a list of rewrites with a choice of numbers for new nodes, the topological walk under the circuit hash, and the states of Badger as a search space of `Model/Backtracking`.. Proof: `Lemmas/Together`: a rewrite at another place stays applicable; edges between nodes of the remaining rewrites are compared with paths of the first circuit, where every place is convex, so that acyclicity is not needed for the meaning. Without new dependencies, places stay convex, hence no cycles. `Lemmas/TogetherBadger`: states without hash are never expanded (invariant of the search), the walk visits exactly the nodes that no cycle leads to, and outputs are determined by well-founded recursion. Proved without bounds: C95_chosen_apart, C95_hash, C95_defined. C95_together_partial, C95_no_new_partial, C95_strategy_partial, C95_threshold_partial and C95_badger_partial have the conditions of C94 (no nested regions, commands of left-hand sides connected with the boundary, inner values used by nothing else); several rewrites together need that a wire which goes straight through a right-hand side is a dependency of the left-hand side. C95_cycle is the counterexample for acyclicity without the condition on dependencies. With several threads and one queue C95_threads_partial says the same of every execution that returns. Splitting is in C75.
* **C96** Rewrites and the whole optimiser keep all amplitudes of a circuit up to a common phase — *partial* (15 theorems). Model: No new code: `Model/Rules`, `Model/Together` and `Model/Backtracking` with another meaning of circuits, `Model/AmplitudeSpec` (sums over paths, running operations one after the other, matrices of functions, agreement of the sides of a rule up to a factor).. Proof: `Lemmas/Amplitude`: the ports of a circuit are those that stay and the images of those of the left-hand side; for fixed values of the ports that stay, the sum over the others is the sum of the left-hand side weighted by a function of its outputs (renaming of sums), which by linearity is the factor times that of the right-hand side. No order of the operations and no acyclicity is needed. Lists of rewrites by the induction of C95 for any relation that is kept by single steps. Proved without conditions beyond well-formedness: C96_run, C96_functions. For rules whose sides are circuits of gates (all wires linear and used, Model/GateRulesSpec) the conditions on inner values, connected commands and wires through right-hand sides are theorems: C96_gates_through (isometries), C96_gates_rewrite, C96_gates_many, C96_gates_strategy, C96_gates_badger. For other rules C96_rewrite_partial, C96_many_partial, C96_together_partial, C96_strategy_partial and C96_badger_partial have the conditions of C94 and C95 (commands of left-hand sides connected with the boundary, inner values used by nothing else; for several rewrites together, a wire that goes straight through a right-hand side is a dependency of the left-hand side). Missing in all of them: nested regions. In circuits where every operation leads to the outputs the condition on values that are used elsewhere is not needed (C96_alive_rewrite). Several threads: C96_threads_partial, C96_gates_threads (all executions that return; also that the cost tracked for the result is not above the first one).
* **C97** The rewriter of equivalence classes keeps all amplitudes, from the classes to the optimised circuit — *proved* (10 theorems). Model: `Model/EccRun`: empty wires, removing them, patterns, all matches, rewrites of a match; `fromEccs` of `Model/Ecc`, matching of `Model/Matching`, rewrites of `Model/Rules`, strategies and optimiser as in C95. `Model/EccRunSpec`: circuits of gates, classes, isometries.. Proof: `Lemmas/EccRun`: a circuit of gates stays one without an empty wire, and its amplitudes are those with any value on the wire; an amplitude is zero if an empty wire changes its value, so equal amplitudes force the wire to the same output in both circuits; linearity gives the conditions on inner values and connectedness of C94. `Lemmas/Through`: isometries keep inner products, so an output that always shows the value of an input depends on it by a path of wires; hence a wire straight through a target is a dependency of the pattern, which is the condition of C95 and C96 for rewrites together. C97_wire, C97_agree, C97_found, C97_all, C97_total, C97_rewrite, C97_many; C97_through, C97_strategy, C97_badger for gates that are isometries. Circuits that are rewritten have no nested regions.
* **C98** The rewriter of equivalence classes keeps all amplitudes of circuits with parameters — *partial* (9 theorems). Model: Rewriter, matching, rewrites, strategies and optimiser as in C97. `Model/ParamClassSpec`: classes with parameters, operations that are isometries for fixed parameters, circuits that throw nothing away, circuits where every operation leads to the outputs. Values of all wires are in one finite set; matrices are taken for values of qubits and parameters together.. Proof: `Lemmas/ParamClass`: in a checked subgraph everything that hangs on an inner value and is outside of the copy stays in the subgraph and never gets to the outputs, so nothing does if every operation leads to them; a circuit without cycles that throws nothing away is such a circuit, and rewrites keep it one. `Lemmas/Through`: two inputs that differ in linear values only keep their inner product, since parameters stay equal; so an output that shows an input depends on it. C98_agree, C98_found, C98_total, C98_through; C98_rewrite_partial, C98_many_partial for circuits that throw nothing away (linear results are used, and every operation has a result that is used), which rewrites keep; C98_strategy_partial and C98_badger_partial if every operation leads to the outputs where rewrites are looked for. Without such a condition a rewrite can remove an operation whose result is needed (C94_consumer_removed). Circuits that are rewritten have no nested regions. Several threads: C98_threads_partial.
* **C99** Normalising a Guppy program runs the chosen passes in a fixed order, and from Python changes no object — *proved* (13 theorems). Model: `Model/NormalizeGuppy`: options with their setters, `run` with the six passes as parameters that return the program also if they fail, and the Python function on a list of objects in either format. `Model/NormalizeGuppySpec`: relations for one pass that succeeds or fails, and for passes one after the other.. Proof: Induction over the list of passes; passes are functions, so at most one way to succeed or to fail first. The witness for squashing from Python uses the model of `BorrowSquashPass` of C27. C99_succeeds_iff, C99_fails_iff, C99_meaning, C99_off, C99_setters, C99_inline_never_fails; C99_python, C99_python_pytket, C99_python_kept, C99_python_error. Findings: C99_python_cannot_turn_off, C99_defaults_differ, C99_failure_leaves_changes. The passes of hugr are parameters.
* **C100** Operations from Python are the operations of Rust, and compare as such — *partial* (16 theorems). Model: `Model/PyOps`: both enumerations with their names, constructors from strings, the methods `__eq__` of all classes with `NotImplemented`, and the rule of Python that combines them. `Model/PyOpsSpec`: the operation that an object stands for.. Proof: Case analysis over the operations (the whole enumerations) and lookup in lists with distinct names; a table of all comparisons is derived and used for symmetry and transitivity, for all strings and other objects. C100_new, C100_new_pauli, C100_convert, C100_convert_pauli, C100_values, C100_equal, C100_defined, C100_custom: as stated for operations. False: comparison depends on the order exactly for a Pauli matrix of Rust and the same one of Python (C100_symmetric_iff, C100_pauli_order), is not transitive with strings (C100_not_transitive, C100_name_ignored; otherwise C100_transitive_partial), neither class has a hash (C100_no_hash), Pauli.to_custom always raises an exception (C100_pauli_custom). Rules of Python for comparison and hashes, and names by strum, are part of the model.
* **C101** The Python package of extensions makes the operations that Rust declares — *partial* (13 theorems). Model: `Model/PyExts`: the files (names and parameters), the names and parameters declared in Rust, the attributes with the names they ask for, `OPS`, and the methods with their argument lists. `Model/PyExtsSpec`: names up to case and underscores; arguments of the kinds of parameters; the result operation asked for.. Proof: Whole tables by the kernel (`decide +kernel`) over the fourteen extensions; methods for all arguments by the loaders of C67. C101_data, C101_attribute, C101_ops, C101_plain, C101_method, C101_result, C101_futures, C101_state, C101_compute, C101_compute_types, C101_others: as stated, except for the extension of global phases, where everything raises an exception (C101_global_phase), and for widths, which are documented as numbers of bits: the integers never have this many bits, and from 7 on the arguments do not fit (C101_width_is_logarithm; the exact condition is in C101_method). Assumed of hugr-py: get_op raises for missing names, instantiate stores the arguments unchecked. Signatures and descriptions in the files are not modelled, nor negative numbers.
* **C102** Files that are saved are complete when success is reported, and are found again — *partial* (15 theorems). Model: `Model/SaveFile`: `BufWriter` byte by byte over a device with limited room, file names with `file_stem`, `extension` and `set_extension`, file systems, the three ways of saving, and the two tools.. Proof: Induction on the chunks with the number of bytes that reach the device before the file is closed; names by the last dot. C102_content, C102_complete, C102_matcher, C102_matcher_path, C102_rewriter_path, C102_circuit, C102_tool_iff, C102_tools: as stated if there is room, and always for matchers. False in general: the last bytes of rewriters and circuits, at most as many as the buffer holds, are written when the file is closed, where errors are ignored (C102_reported_iff is the exact condition, C102_truncated_reported_saved); names with version numbers are the same file (C102_version_lost, exactly C102_same_file_iff); circuits that can not be encoded empty the old file (C102_old_circuit_lost), and rewriters without room (C102_old_rewriter_lost). Assumed: BufWriter and paths of the standard library as in its source, decoding what was encoded (C102_tools), a device that takes a number of bytes.
* **C103** The log of best circuits lists the improvements and does not change the result — *partial* (9 theorems). Model: `Model/BadgerLog`: `log_best` over a writer that may fail at any row, put into the search of `Model/Backtracking`, the threads of `Model/Parallel` and the split circuits of `Model/BadgerSplit`.. Proof: Induction on the run: the rows are the strict minima of the costs visited; runs with a failing writer are cut at the failing row. Invariant over all executions for threads. C103_no_effect, C103_rows, C103_rows_decrease (one thread), C103_split_rows, C103_threads_no_effect: as stated for files that can be written. With threads and one queue the cost of the input is not in the file, which is empty if there is no improvement (C103_threads_rows). If a row can not be written, the optimiser panics and the result is lost (C103_failure is exact; C103_threads_failure, C103_split_failure). Times and messages to tracing are not modelled.
* **C104** The optimiser object of the Python package runs with the arguments given to it — *partial* (13 theorems). Model: `Model/PyOptimiser`: Python values, the binding of positional and keyword arguments to parameters, conversions, constructors and `badger_pass`, on top of `Model/PyBadger`.. Proof: Look-up in keyword lists is invariant under permutations; case analysis of conversions in the order of the parameters. C104_keywords, C104_bad_numbers, C104_bad_types, C104_cost, C104_pass: as stated for keywords. C104_panics: the only panic due to arguments is a log file that can not be created. False: by position from the fourth argument on (C104_stub_partial holds for three; C104_positional_wrong: the number of threads of the stub is taken as the number of circuits after which the search stops); the default size of the queue is 100 and not 20 (C104_queue_default); rewriters that can not be loaded panic (C104_load, C104_missing_file, C104_bad_classes). C104_pass_default: the pass does not rebase by default, `badger_optimise` does. The conversions of pyo3 are modelled from its documentation; the search itself is in other properties.
* **C105** Circuit objects in Python are independent, can be put into sets, and survive being stored — *partial* (22 theorems). Model: `Model/PyCircuit`: a memory of Python objects, sets as lists of hashes and objects, one step for each statement; the configuration of envelopes; the two registries.. Proof: Invariants over all programs by induction (memory only grows, `apply_rewrite` sets one place, only `add` adds entries of an object); arithmetic on 64 bits by `omega`. C105_untouched, C105_copy, C105_convert, C105_rewrite, C105_handles: independence as stated, for all programs. C105_hash, C105_hash_raises: equal circuits have equal hashes. False: circuits and handles are compared by place, so a copy is never equal to its original (C105_eq, C105_copy_not_equal, C105_handles_not_equal) and not found in a set (C105_set_copy); a circuit in a set is found exactly if its hash did not change (C105_set; C105_set_partial without rewrites, C105_set_lost with one). Envelopes: C105_to_bytes, C105_level_partial, C105_config_errors, C105_bytes_partial; compression levels from 255 on silently become the default (C105_level_wrong); circuits with operations of TKET1 are not read back (C105_bytes_tket1), and naming the function fails for all programs with extensions of Q-System, global phases or modifiers (C105_named). C105_lowering: lowering fails only if removing tuples does. That envelopes store no extensions, and are refused if an extension is unknown, is an assumption on hugr.
* **C106** Calls that fit the type stubs are accepted by the extension module — *partial* (8 theorems). Model: `Model/PyStubs`: the signatures of the stubs and of the Rust code, and the binding of arguments by Python.. Proof: The tables are compared as a whole in the kernel; lemmas on binding lift this to all calls: without keywords only kinds and defaults matter, and a keyword that is no name of a parameter is refused. C106_calls_partial: holds for 56 of 77 declarations and all calls. False: six declared methods and constructors do not exist (C106_missing); thirteen have a parameter with another name, so that calls with the declared keyword are refused (C106_keyword_wrong) while positional calls are as declared (C106_positional_partial); `__deepcopy__` has another number of parameters (C106_deepcopy), and `optimise` another list (C104_positional_wrong). Two methods are not declared (C106_complete_partial, C106_undeclared), and the members of `TypeBound` differ (C106_bounds). Types of arguments, properties and class attributes are not part of the tables, which are copied from the sources by hand.
* **C107** Drops of Guppy values free every future in them once — *proved* (14 theorems). Model: `Model/Drops`: types, the operations inserted for a type, both passes on programs, and running programs. `Model/DropsSpec`: what a drop means, which types can be dropped.. Proof: Induction on types for the inserted operations (every future is used as often as it is held; the operations exist exactly if all linear leaves are futures of booleans), induction on programs and on the depth of calls for the simulation. Proved for programs of any size and depth. The linearizer of hugr is modelled from its documentation: sums by cases, arrays element by element, registered operations for other types, an error for the rest; elements of borrow arrays are all present. Values of lazy booleans are the subject of C47; here only their types and drops are translated.
* **C108** Variables of decoded circuits read the right inputs — *partial* (22 theorems). Model: `Model/InputParams`: the parameters of the wire tracker, loading of expressions, the names of the encoder, the outputs of regions in encoder and decoder. `Model/InputParamsSpec`: order of names, positions of parameters, substitution.. Proof: An invariant of the tracker (bound inputs are the first slots, unused inputs the rest) kept by every step; induction on expressions with the final list of names as an extension; generated names are distinct because decimal numerals are, and enough by counting. Decoding is proved for all inputs of the modelled functions, and the values of all expressions for every meaning of the operations. Encoding and decoding keeps the inputs and values (C108_reassemble_partial, C108_returns_partial, C108_symbols_partial) if stored names are distinct identifiers other than pi and no symbol has the name of a parameter; without these conditions, and for the number of inputs when there are symbols, it is false (C108_capture, C108_symbol_input, C108_not_identifier, C108_pi, C108_duplicate). The condition on signatures holds for all types of tket (C108_types). Names of the encoder are read as variables if stored names are identifiers (C108_identifiers). Outputs are connected again (C108_outputs) if subgraphs have the links they had (C70); which registers outputs take is in C30 and C38. Expressions are already parsed (C34, C35), conversions between rotations and floats are left out, and so are errors of commands and of registers with equal names.

## Disagreements between code and claim found by the proofs

Each of these is a theorem about the model (named) unless marked *(read)*, which means it was seen while
reading the code and is not part of the model.

Optimiser
* `StatePQueue::truncate` leaves stale entries behind; a later pop panics (`C01_truncate_then_extract_panics`).
* Without best-N tracking popped circuits are never released (`C51_memory_leak_without_best_n`).
* Badger panics for `queue_size = 0` (`C08_badger_panics_on_zero_queue`).
* The search does not return the best circuit it discovered if that circuit is never popped
  (`C53_discovered_better_state_not_returned`).
* Multithreaded Badger never returns without a timeout or circuit limit (`C11_never_returns_without_timeout`); once
  the search space is exhausted all threads wait for each other (`C11_deadlock_reachable`).
* The shared maximum cost is never published to the workers (`C12_max_cost_never_shared`).
* Converting a parameter to radians and back changes its last bit for some values, and rotations near the
  largest double become infinite in radians, so that converting them back panics (`C37_not_restored`,
  `C37_large_panics`).
* The gamma strategy misjudges pattern cost 0 and large costs (`C54_gamma_threshold_fails`).
* *(read)* multithreaded Badger unwraps `circuit_hash()`, which fails on nested control flow (badger.rs 243).

Circuits and passes
* A chunk may cost up to twice the maximum: the command that opens a chunk is not counted (`C20_chunk_exceeds_cost`).
* The command iterator can give a new qubit the unit of a live one (`C22_unit_of_a_live_qubit_reused`).
* `remove_empty_wire` panics on loop bodies, basic blocks and the state-order port (`C23_loops_and_blocks_panic`).
* The commutation pass moves gates across unknown operations, can create cycles through classical data, and panics on
  allocations and other linear values (`C25_*`).
* Circuit equality identifies different circuits and is not reflexive (`C56_*`).
* A node off the resource path is accepted by interval extension (`C49_unrelated_node_accepted`).
* `CopyableExpr::output` can return another port than the requested one or panic, and inputs are not in the documented
  order (`C59_wrong_output`, `C59_unused_output_panics`, `C59_input_order_wrong`).
* `any_reachable_from` misses state-order edges (`C50_reachability_misses_order_edges`).

pytket encoder and decoder
* Repeated qubits in one command (`C28_lazy_component`, `C28_straddling_wire`); allocation without reset
  (`C29_dirty_allocation`); bits overwritten while still used (`C33_*`); output permutation always the identity
  (`C30_permutation_identity`); register names wrap at 65536 (`C32_wraps_around`).
* Encoding fails for an unsupported component without registers whose parameter output is used
  (`C58_component_without_registers`).
* Incomplete implicit permutations are decoded wrongly (`C31_incomplete_permutation_wrong`).
* Parameters: powers associate to the left and bind weaker than minus (`C35_*`); only the second summand is converted
  from radians (`C36_sum_wrong`); constants near multiples of pi are snapped, inputs named `pi` become the constant
  (`C34_*`); wrong arity panics (`C35_wrong_arity_panics`).
* Decoder: a bit read but not written becomes outdated, converted bits keep the old type, registers inside tuples are
  replaced by fresh qubits, a repeated qubit argument uses a wire twice, parameters before values are miswired, barriers
  on bits fail, missing outputs panic (`C38_*`).
* Classical expressions: nested operands, constants and bit placements are ignored by the decoder, in-place updates
  fail, and the decoder refuses whatever the encoder emits (`C62_*`).
* Tuples with a component of the type without values are given registers (`C64_never`).
* Results that are arrays of integers of another width than 64 bits are compiled without an error and report wrong values, made of several elements and of memory behind the array (`C66_array_width_wrong`).
* Results with an empty tag or a tag of (with its prefix) 256 bytes or more make the compiler panic instead of reporting an error (`C66_bad_tag_panics`).
* The ranges of signals are not checked: `panic` with signal 0 or near the top of its range ends only the current shot, `exit` with a signal above 1000 ends all shots (`C66_exit_unchecked`).
* `result_bool` stored with an additional number is loaded as the operation for arrays; an additional number of `result_array_bool` is dropped; widths are cut to eight bits (`C67_misfit_loaded`).
* Matching does not compare nested regions, and not the constants outside the region that a pattern loads: such a pattern matches circuits that compute something else (`C68_nested_ignored`, `C68_outer_constant_ignored`).
* A pattern with a call makes `try_from_circuit` panic instead of returning an error (`C68_pattern_iff`).
* A pattern with two angles is not found in a circuit that uses one angle for both (`C68_shared_angle_not_found`).
* `gpu_init` is documented to take a reserved argument that must be zero, but gets the index that the program passes to `GetContext` (`C69_reserved_nonzero`); a context that cannot be made ends the program although the operation returns an option (`C69_refused_context`, documented in the source).
* An output of an opaque subgraph that has registers is disconnected from all its uses when the subgraph is put back, also from those inside the subgraph, which nothing restores (`C70_shared_output_lost`). A parameter that one opaque subgraph computes for another ends with two sources, since only outputs without parameters are disconnected (`C70_parameter_linked_twice`).
* `inline_if_payload` takes the data out of every barrier before it looks at it, so barriers with other data lose it although the documentation says that they are ignored (`C71_payload_erased`). A second `ensure_standalone` therefore erases every subgraph (`C71_twice_erases`), and a failed one loses the reference (`C71_failure_erases`). When inline subgraphs are read, targets of values without registers are node numbers of the envelope that are not translated (`C71_targets_not_mapped`), and the inputs of the region are never declared as sources (`C71_input_edge_lost`).
* Constants of the module that cannot be encoded are recorded again for every operation that loads them, so that one constant is part of several opaque subgraphs and is moved out of the module when these are put back (`C72_constant_twice`). `LoadConstant` is encoded also if it has order links, which `has_order_edges` rules out for other operations only; subgraphs around it need not be convex (`C72_not_convex`).
* The loader of Quartz files says that output wires are named arbitrarily by each command, but ignores the names of qubits; `cx [Q1, Q0] [Q0, Q1]` is loaded as a plain `cx` (`C73_renamed_outputs`). Two classes with the same identifier overwrite each other (`C73_class_lost`). The files in the repository have neither.
* `to_serial_circuit` returns before `tket_free_string` if the text of the library is not a circuit that `tket_json_rs` can read; the string is lost (`C74_string_leaked`).
* `badger_split_multithreaded` (as `badger`) panics for `queue_size = 0` on every circuit with a command: the queue rejects the first state and `expect` fails (`C75_zero_queue`).
* `find_tuple_unpack_rewrites` panics on valid circuits: if one of the unpacked values is not used, or if the tuple is unpacked and has two other uses, the replacement has more outputs than the boundary of the subgraph (`C76_unused_value_panics`, `C76_two_other_uses_panic`). This relies on `SiblingSubgraph::try_from_nodes` listing each used output port once.
* `radd` of two finite rotations can be infinite, after which `from_halfturns_unchecked` of the `to_halfturns` of a rotation panics (`C77_radd_infinite`). The pytket decoder panics on a parameter literal such as `1e309` (`C77_literal`). `ConstRotation::from_radians` does not restore a rotation from `to_radians`: 1.375 half-turns change, and the largest rotations fail (`C77_radians`).
* Children of a module that are no function definitions are listed as available functions with an empty name, and hide a function with the empty name (`C78_empty_names`). A generic function hides the concrete one with the same name in a later module (`C78_generic_hides`). After an error of a component pass the entrypoint stays on the module root (`C78_entry_lost`). A `main` with inputs is accepted if the entrypoint is the module and rejected if it is `main` itself (`C78_main_with_inputs`). Optimisation levels above 3 panic although the function returns a `Result` (`C78_opt_level`).
* The comment says that allocations are pushed as late as possible, but they rank before all classical operations: a program that needs one qubit at a time then has two allocated, whatever the choice among equal ranks (`C79_allocs_not_late`). Quantum operations are only early relative to operations that are ready at the same time (`C79_quantum_not_early`).
* The table of calls that wait for their function is keyed by the function, so of two calls of the same unmodified function only the last is linked (`C80_twice_wrong`). It is also filtered by the nodes of every nested region that is inserted: a call before a nested region loses its link (`C80_nested_after_wrong`) or some node of the region is linked instead (`C80_nested_misdirected`). `wrap_fn_with_controls` connects ports that do not exist (`C80_wrapper_panics`). A recursive function is modified without end (`C80_recursive`).
* A modified function that is called twice: the modifier is skipped as having no caller, and then the modifier, both calls and everything that depends on them, the output of the function included, are removed (`C81_two_calls_wrong`); a node that is reached twice is removed twice, which panics (`C81_two_calls_panic`). The same happens if the function to be modified is an argument (`C81_unknown_function_wrong`).
* Edges of modified regions. If an operation gives both a qubit and a classical value to another operation, for example two nested regions one after the other, the dagger has a cycle (`C82_cycle_wrong`, `C82_two_regions_wrong`). Values from outside the region, such as constants of the module, are not connected (`C82_outer_value_wrong`), and values used in nested regions stop the resolution with an error that is called unreachable (`C82_nested_use_fails`); so do tags that carry qubits under dagger (`C82_copy_fails`). Array operations are reversed whether or not the array has qubits (`C82_classical_array_wrong`), and the reversal of `swap` refers to outputs that do not exist (`C82_array_swap_wrong`).
* Units of commands. `Command` keeps the units of its linear ports in a list without gaps but looks them up by the number of the port. For a command with a classical port before a qubit, such as every conditional with a qubit, `inputs`, `outputs` and the queries based on them panic (`C83_inputs_panic`, `C83_conditional_wrong`).
* `Circuit::num_operations` starts at the module root and counts the operations of all functions of the module, not only those of the circuit (`C84_function_iff`, `C84_two_functions_wrong`).
* Rewrite traces. `CircuitRewrite::apply` registers the rewrite before it is applied, also if it then fails (`C85_failed_wrong`). The exhaustive greedy strategy counts rewrites in 16 bits: with 65536 of them it panics or, without overflow checks, writes zero (`C85_exhaustive_wrong`). Rewriting a circuit that is not traced leaves a null entry in its metadata (`C85_ignored_wrong`).
* Constants for pytket. Of a constant tuple with a boolean of the core type only that one bit is encoded (`C86_tuple_wrong`); nested tuples are encoded in the wrong order (`C86_nested_wrong`). `false` is encoded by a new bit that is not written, but new bits may be old ones: after a measured bit is no longer used, the next constant `false` has the value that was measured (`C86_reuse_wrong`). Sums other than tuples count as encoded without values (`C86_sum_wrong`), and constants that are refused leave bits and commands behind (`C86_unsupported_wrong`).
* The Badger pass of the Python package. Without a timeout it stops after 30 seconds, not 15 minutes (`C87_default_timeout_wrong`). Timeouts are divided as integers, so that with less than ten seconds most cycles of large circuits have no time, and a cycle without time changes nothing, because results count only when taken from the queue (`C87_short_timeout_wrong`, `C87_cycle_without_effect`). `max_circuit_count` is a limit for each thread of each cycle (`C87_circuit_count_wrong`). By default the circuit of the caller is rebased in place, even if the call then fails (`C87_argument_changed`), and every `Tk2Circuit` is refused (`C87_default_refuses`).
* Costs given by Python functions. The cost of an empty circuit is `None` (`C88_empty_wrong`). Loading a constant angle is a command that is no `TketOp`, so the call raises an exception for every circuit with one (`C88_other_operations_wrong`). Methods are called directly, without the reflected ones: with integers and floats the outcome is the sum, `NotImplemented` or a panic, depending on the order of the commands (`C88_mixed_wrong`), and integers compare as less than all floats (`C88_mixed_compare_wrong`). Division ignores the divisor and always panics (`C88_division_wrong`).
* Standalone circuits put together. The identifiers of edges are hashes of node numbers and are without collisions inside one program (`C89_unique`), but say nothing about the program: appending, in pytket, two standalone circuits that each have an output without registers with the same numbers, for instance a circuit to itself, makes the decoder panic (`C89_appended_panics`), and an output of one may be linked to an input of the other (`C89_two_programs_wrong`).
* `insert_with` puts a placeholder into the map before it builds and does not remove it on failure: a second request reports success, and `into_function_iter` panics whatever else happens (`C90_failure_stays`). Lowering is safe because it stops at the first error (`C90_no_panic`); other users of the public type are not. `repack_option` passes no arguments for the name, so all its functions share one name (`C90_names_wrong`).
* End to end, a region that returns its qubits crossed comes back with the outputs exchanged (`C91_crossed_outputs`), and a region that returns one boolean twice is written without complaint and cannot be read with its own signature (`C91_bit_returned_twice`).
* `from_coms` and `CircBuild.finish` are documented to validate but reading the envelope does not: `CX(0, 0)` gives a circuit that uses a qubit twice and drops a result (`C92_same_qubit_accepted`). A command without a number raises the `ValueError` of `max()` (`C92_no_index_fails`).
* `reassemble_inplace` goes through a hash map: if a pass removed the barrier of an opaque subgraph with an encoded region inside, it fails or succeeds depending on the order (`C93_order_matters`).
* A rule whose sides have different signatures is accepted, and makes `find_matches` fail for every circuit in which it matches, also when other rules match (`C94_one_bad_rule`).
* Two rewrites with disjoint neighbourhoods, each convex and with the same meaning on both sides, together make a cycle, against the documentation of `invalidation_set`; if the cycle ends in discarded qubits, the circuit has a hash and Badger goes on with it (`C95_cycle`).
* `normalize_guppy` of Python has no argument for squashing borrows: with all arguments `False` borrows and returns are still removed (`C99_python_cannot_turn_off`). The default for folding constants is on in Rust and off in Python (`C99_defaults_differ`). If a pass fails in Rust, the program keeps the changes of the passes before it (`C99_failure_leaves_changes`). The test `test_guppy_pass_noop` says that all options are disabled, and leaves squashing on.
* `op == Pauli.X` is `False` for the matrix of the class of Rust while `Pauli.X == op` is `True` (`C100_pauli_order`); `TketOp.X == "X" == Pauli.X` but `TketOp.X != Pauli.X` (`C100_not_transitive`); operations that are given to cost functions never equal their names (`C100_name_ignored`). Both enumerations define `__eq__` without `__hash__` and can not be used in sets (`C100_no_hash`). `Pauli.to_custom` calls a class without constructor and always raises an exception (`C100_pauli_custom`). The stub says that the name of a custom operation includes the extension; it does not (`C100_custom`).
* `tket_exts.global_phase.global_phase` and its `OPS()` always raise an exception: they ask for `GlobalPhase`, and the operation is called `global_phase` (`C101_global_phase`). The width of `result_int`, `result_uint` and their arrays is documented as the bit width, but it is its logarithm, so that no documented use is right (`C101_width_is_logarithm`).
* Saving a rewriter or a circuit to a full disk can be reported as success: the buffer is flushed when the file is dropped, and this error is ignored; files shorter than the buffer (8 KiB) are always reported as saved (`C102_truncated_reported_saved`). Saving a circuit that can not be encoded empties the file that was there (`C102_old_circuit_lost`). Rewriters saved as `v1.2` and `v1.3` are the same file `v1.rwr` (`C102_version_lost`). `compile-rewriter` panics for an input file without extension (`C102_no_extension`).
* The optimiser panics if a row of the log of best circuits can not be written, and the circuit found is lost (`C103_failure`, `C103_threads_failure`, `C103_split_failure`). With several threads the log does not contain the cost of the input, with one thread it does (`C103_threads_rows`).
* The type stub of `BadgerOptimiser.optimise` lacks `max_circuit_count`, so that the fourth positional argument, the number of threads in the stub, stops the search after as many circuits (`C104_positional_wrong`); the queue has size 100 by default, documented are 20 (`C104_queue_default`); loading an optimiser from a missing file panics (`C104_missing_file`).
* Circuits in Python have a hash by value but are compared by place: a copy is not equal to its original (`C105_copy_not_equal`), handles of the same node are not equal (`C105_handles_not_equal`), and a circuit that is rewritten is lost in the sets and dictionaries it is in (`C105_set_lost`). The registry of the Python package lacks `TKET1`, so that `from_bytes` refuses what `to_bytes` wrote for circuits with unknown `pytket` operations (`C105_bytes_tket1`), and with a function name it uses a registry that lacks the extensions of Q-System (`C105_named`). Compression levels from 255 on are silently replaced (`C105_level_wrong`). The lowering error for function calls is never given (`C105_lowering`).
* The stub of `Tk2Circuit` declares `to_hugr_json`, `from_hugr_json`, `to_package_json` and `from_package_json`, which do not exist, and those of `HugrType` and `CustomOp` declare constructors that do not exist (`C106_missing`); thirteen functions have parameters with other names than declared (`C106_keyword_wrong`); `TypeBound.Any` and `TypeBound.Eq` do not exist (`C106_bounds`).
* `LowerDropsPass` registers only futures of booleans: a program that drops the outcome of `LazyMeasureLeaked` is refused (`C107_leaked`), with an error of the array pass, because both passes have the same error type. It has to run after `ReplaceBoolPass`, which makes drops (`C107_order`).
* Symbols of symbolic expressions and names of parameters share one name space when a region is encoded, and names are generated without looking at symbols: a symbol `f0` becomes the first unnamed parameter after a round trip (`C108_capture`), other symbols become new inputs of a region whose signature is not changed (`C108_symbol_input`), and a stored name such as `a-b` is read as an expression (`C108_not_identifier`). The documentation of `DecodeOptions` says that further parameters get generic names; they keep the names of the variables. That of `DecodeInsertionTarget` says that a circuit without a name becomes `main`; its name is empty. `EncodedCircuit::reassemble` gives the decoder no parameters for outputs, so a signature with such an output is refused (`C108_output_refused`).
* A parameter whose stored name is `pi` is lost in a round trip: the encoder writes the name and the decoder reads the constant (`C108_pi`). Stored names that are not distinct are used by the encoder and refused by the decoder (`C108_duplicate`). Without names, the parameters of a signature are given to variables in order of first use (`C108_first_used`).
- An operation without outputs that uses a value which the left-hand side drops is swallowed by the subgraph between the boundaries, and deleted by the rewrite (`C94_consumer_removed`).
* *(read)* an opaque pytket operation is emitted with the parameters stored when it was decoded, not with those on its
  input wires (`extension/tk1.rs:53-59`).
* *(read)* `QFree` and `Future.Free` do not consume their wire; the order of leftover components depends on a randomly
  seeded hash map (the theorems hold for every order); `1e999` panics; opaque subgraphs: `wire_inline_subgraph_inputs`
  passes node ids of the inserted hugr without mapping them (decoder/subgraph.rs).

Modifiers
* CZ with a control and Z with two controls are wrong for every phase (`C39_controlled_z_wrong`); controlled Toffoli
  swaps its outputs (`C39_toffoli_outputs_swapped`).
* Control arrays are generated in reverse order (`C41_signature`, `C41_two_controls_wrong`); power is ignored
  (`C41_power_ignored`).
* Daggered regions with classical values get ill-typed wires (`C42_*`); controls of tail loops are declared behind and
  connected in front (`C43_tail_loop_wrong`).
* A call to an unflagged function is kept unmodified without an error (`C57_unflagged_call_kept`).
* *(read)* tail loops under dagger hit `unimplemented!`; array `swap` under dagger maps index ports to outputs that do
  not exist; state-order edges are dropped.

Q-System
* Creating a second random context succeeds and reseeds the first one (`C48_*`).
* Barriers on a tuple with a bare option of a qubit are refused, on an array of empty qubit arrays they panic; with an
  element type other than qubit the container builder disagrees with its own analysis (`C60_*`).
* Static arrays of booleans: `array<tket.bool>` elements come back as arrays of native booleans, empty constants keep
  the old type, and a function next to a boolean panics the pass (`C61_*`).
* *(read)* the documentation of `ReplaceBoolPass` says `Measure` is replaced, the code replaces `MeasureFree`; `get`
  on standard arrays of `tket.bool` is not handled.

## What is modelled

| source (under `/repo`) | Lean | left out |
|---|---|---|
| `tket/src/optimiser/pqueue.rs` | `Model/PQueue` | |
| `tket/src/optimiser/backtracking.rs`, `optimiser.rs` | `Model/Backtracking` | loggers are in `Model/BadgerLog` |
| `tket/src/optimiser/pqueue_worker.rs`, `badger/worker.rs`, `badger.rs` 204-364 | `Model/Parallel`, `Props/Backtracking` | panicking rewriters; loggers are in `Model/BadgerLog` |
| `tket/src/optimiser/badger/eq_circ_class.rs`, `rewrite/ecc_rewriter.rs` | `Model/Ecc`, `Model/EmptyWire` | file formats |
| `tket/src/rewrite/strategy.rs` | `Model/Strategy` | application of a rewrite to the graph (hugr) |
| `tket/src/circuit/cost.rs` | `Model/Cost` | |
| `tket/src/circuit/command.rs` | `Model/Commands` | display |
| `tket/src/circuit/hash.rs` | `Model/Hash` | |
| `tket/src/circuit.rs` 413-640 | `Model/EmptyWire` | constructors, queries |
| `tket/src/passes/chunks.rs` | `Model/Chunks` | state order, metadata |
| `tket/src/passes/commutation.rs` | `Model/Commutation` | |
| `tket/src/passes/borrow_squash.rs` | `Model/BorrowSquash` | state order |
| `tket/src/ops.rs` | `Model/Ops`, `Quantum/*` | names, serialisation |
| `tket/src/resource/{types,flow,scope}.rs` | `Model/Resource` | rational positions, rewriting of scopes |
| `tket/src/subcircuit/expression.rs` | `Model/CopyExpr` | grouping of function calls |
| `tket/src/subcircuit/interval.rs` | `Model/Interval` | debug assertions |
| `tket/src/serialize/pytket/encoder/value_tracker.rs`, `encoder.rs` | `Model/Encoder` | subgraph payloads, function tables |
| `tket/src/serialize/pytket/encoder/unit_generator.rs` and permutations of both directions | `Model/Registers` | hash collisions |
| `tket/src/serialize/pytket/decoder/{param/*,wires.rs,param.rs}`, printers of `extension/{float,rotation}.rs` | `Model/Params` | NaN and infinities |
| `tket/src/serialize/pytket/decoder/wires.rs`, `decoder.rs` | `Model/Decoder` | opaque subgraphs |
| `tket/src/serialize/pytket/extension/bool.rs`, `make_tk1_classical_expression` | `Model/ClExpr` | constants |
| `tket/src/serialize/pytket/extension/tket.rs`, `tket-qsystem/src/pytket/qsystem.rs` | `Model/GateTable` | sympy operations |
| `tket/src/serialize/pytket/config/type_translators.rs` and the translators | `Model/TypeTranslate` | poisoned locks, concurrent callers |
| `tket/src/modifier.rs`, `modifier/modifier_resolver.rs`, `dfg_modify.rs`, `call_modify.rs` | `Model/Modifier` | array operations, indirect calls |
| `tket/src/modifier/modifier_resolver/{tket_op_modify,global_phase_modify}.rs` | `Model/ControlSynth` | |
| `tket-qsystem/src/extension/qsystem.rs`, `qsystem/lower.rs` | `Model/QSystem` | |
| `tket/src/passes/unpack_container.rs`, `unpack_container/*`, `tket-qsystem/src/extension/qsystem/barrier/*` | `Model/Containers` | row variables; the memo table and function names are in `Model/OpMap` |
| `tket-qsystem/src/replace_bools.rs` | `Model/LazyBool` | standard-array `get` |
| `tket-qsystem/src/replace_bools/static_array.rs` | `Model/StaticArray` | hugr's `ReplaceTypes` |
| `tket-qsystem/src/{extension,llvm}/random.rs` | `Model/Random` | LLVM text |
| `tket-qsystem/src/llvm/{qsystem,futures}.rs` | `Model/QRuntime` | LLVM text, declarations of functions; loops and calls of functions |
| `tket-qsystem/src/llvm/{prelude,result,debug}.rs`, parts of `array_utils.rs` | `Model/Results`, `Model/StateResult` | LLVM text, types of the prelude; conversion of the error code |
| `tket-qsystem/src/extension/{result,futures}.rs`, `classical_compute.rs` (with `wasm`, `gpu`), `tket/src/extension/debug.rs` | `Model/ExtOps` | descriptions, bounds of types, builders |
| `tket/src/portmatching.rs`, `portmatching/pattern.rs`, predicates and boundary of `portmatching/matcher.rs` | `Model/Matching` | automaton of the external crate, convexity of matches, handling of match errors, non-local edges, serialisation |
| `qis-compiler/rust/gpu.rs` | `Model/Gpu` | LLVM itself (emitted functions are interpreted directly), linkage attributes, constants of GPU modules |
| `serialize/pytket/opaque.rs`, `opaque/subgraph.rs`, `decoder/subgraph.rs`:54-225, `circuit.rs`:159-231 | `Model/Opaque` | payloads as text, inline subgraphs, the steps of the decoder for other commands (parameter), static and order links except in the compatibility flag |
| `serialize/pytket/opaque.rs`:118-151, `circuit.rs`:372-416, `decoder/subgraph.rs`:232-445, `decoder/wires.rs`:1063-1120 | `Model/Inline` | the envelope as text, finding typed wires (parameter), tracking of register outputs |
| `serialize/pytket/encoder/unsupported_tracker.rs`, `encoder.rs`:186-245, 300-323, 584-613, 856-942 | `Model/Unsup` | the union-find of `petgraph` (function to representatives), values of wires (C58), what an encoder accepts (parameter) |
| `optimiser/badger/qtz_circuit.rs` | `Model/Quartz` | JSON, order of the hash map (any order), `CircuitBuilder` and validation of `hugr` (modelled as they behave on these circuits) |
| `tket1-passes/src/lib.rs`, `tket-py/src/passes/tket1.rs` | `Model/Tket1` | the C library (its answers are arbitrary), UTF-8 and JSON |
| `tket/src/optimiser/badger.rs` 129-163, 366-442 | `Model/BadgerSplit` | panicking rewriters (loggers are in `Model/BadgerLog`), the circuit of a chunk is assumed to have its commands in the given order |
| `tket/src/passes/tuple_unpack.rs` 18-155 | `Model/Untuple` | one region, no order edges; boundary and insertion of a replacement follow the documentation of `hugr` |
| `tket/src/extension/rotation.rs`, `tket/src/llvm/{rotation,bool}.rs`, `tket/src/serialize/pytket/decoder/wires.rs` 914-925 | `Model/Rotation`, `Float/Basic` | straight-line programs; layout of sums; NaN payloads; deserialisation of constants, which is not checked |
| `tket/src/serialize.rs` 117-271, `tket/src/circuit.rs` 377-402, `tket-qsystem/src/lib.rs` 42-142, `qis-compiler/rust/lib.rs` 218-251, 319-364, 406-414, `qis-compiler/rust/utils.rs` 15-77 | `Model/Entry` | parsing and validation; component passes (parameters); mangled names (the node is returned) |
| `tket-qsystem/src/lib.rs` 144-182 | `Model/ForceOrder` | the traversal is `hugr`'s (assumption); one region |
| `tket/src/modifier/modifier_resolver/{call,dfg}_modify.rs` (calls) | `Model/CallLinks` | regions are lists of calls, nested regions and numbers of other nodes; modifiers before indirect calls left out |
| `tket/src/modifier/modifier_resolver.rs` 635-688, 1041-1104 | `Model/ResolveAll` | functions, hierarchy, removal of global phases and final validation left out |
| `tket/src/modifier/modifier_resolver.rs` 193-210, 524-559, 603-632, 717-787, 944-1005, `modifier_resolver/array_modify.rs` | `Model/RegionWiring` | gates that replace an operation are one node; input and output of the region are one node; tables for array conversions left out |
| `tket/src/circuit/units.rs`, `units/filter.rs`, `circuit.rs` 213-257, `circuit/command.rs` 78-124, 167-192 | `Model/Units` | types are a list, given by the caller |
| `tket/src/circuit.rs` 66-79, 186-211, 325-334 | `Model/NumOps` | order and dropping of commands (see C22); `is_extension_op` on unresolved operations is a parameter |
| `tket/src/rewrite/trace.rs`, `rewrite.rs` 72-92 | `Model/Trace` | JSON values are four kinds |
| `tket/src/serialize/pytket/config/{encoder,decoder}_config.rs`, `config.rs`, `extension/{bool,float,rotation}.rs` (`const_to_pytket`) | `Model/EncConfig` | emission of operations is a parameter; printing of numbers is in `Model/Params` |
| `tket-py/src/passes.rs` (`badger_optimise`), `tket-py/src/circuit/convert.rs` | `Model/PyBadger` | pytket, log files |
| `tket-py/src/circuit/cost.rs`, `tket-py/src/circuit/tk2circuit.rs` (`circuit_cost`) | `Model/PyCost` | rounding of floats; reflected methods are not called by the code |
| `tket/src/serialize/pytket/opaque/payload.rs` 28-62, 116-171 | `Model/EdgeIds` | fxhash and the derived `Hash` of wires are recorded from their sources (assumption); the envelope |
| `op_function_map.rs`, keys and names in `unpack_container.rs`, `wrapped_barrier.rs` | `Model/OpMap.lean` | whole; builders as parameters, `mangle_name` taken to be injective |
| encoder and decoder of the pytket format together | `Model/RoundTrip.lean` | plain regions; the operations themselves are kept by the gate table property |
| `tket-py/tket/circuit/build.py` | `Model/PyBuild.lean` | whole but serialisation; `TrackedDfg` of the package hugr from its documentation |
| `tket/src/serialize/pytket/circuit.rs` (`encode_circuits`, `reassemble_inplace`) | `Model/SubRegions.lean` | the hierarchy; links are in `Model/Opaque.lean` |
| `tket-py/src/pattern.rs`, `tket-py/src/rewrite.rs` (`PyRewriter`), `tket/src/portmatching/matcher.rs` (`find_rooted_matches`, `to_rewrite`), `tket/src/rewrite.rs` (`CircuitRewrite`) | `Model/Rules.lean` | `SiblingSubgraph` and `SimpleReplacement` from their documentation |
| `tket/src/rewrite.rs` (`node_count_delta`, `apply`), `tket/src/rewrite/strategy.rs` (loops that apply), `tket/src/optimiser/badger.rs` (`BadgerState`), `tket/src/circuit/hash.rs` (walk) | `Model/Together.lean` | `petgraph` walk and `SimpleReplacement` from their documentation |
| as C94 and C95, with amplitudes as meaning | `Model/AmplitudeSpec.lean` (specification) | matrices of operations are parameters |
| `tket/src/rewrite/ecc_rewriter.rs` (`get_rewrites`, patterns and targets without empty wires) | `Model/EccRun.lean` | on circuits without nested regions; `from_eccs` is in `Model/Ecc.lean`; the file format is not modelled |
| `tket/src/rewrite/ecc_rewriter.rs` (classes with parameters) | `Model/EccRun.lean`, `Model/ParamClassSpec.lean` | circuits that throw nothing away, without nested regions |
| `tket/src/passes/guppy.rs`, `tket-py/src/passes.rs` 56-90, `tket-py/src/circuit/convert.rs` 33-81 | `Model/NormalizeGuppy.lean` | passes of hugr and conversions are parameters |
| `tket-py/tket/ops.py`, `tket-py/src/ops.rs` | `Model/PyOps.lean` | rules of Python for comparison are assumed |
| `tket-exts/src/tket_exts/tket/**/*.py`, `data/tket/**/*.json` | `Model/PyExts.lean` | names, parameters and arguments; not signatures, descriptions, types other than those of classical computing |
| `save_binary` (twice), `save_tk1_json_file`, `compile-rewriter/src/main.rs`, `load_optimiser` | `Model/SaveFile.lean` | zstd, MessagePack and JSON are parameters; permissions are one flag per path |
| `tket/src/optimiser/badger/log.rs` (`log_best` and its calls) | `Model/BadgerLog.lean` | costs of the rows; not times, messages and branching factors |
| `tket-py/src/optimiser.rs`, constructors in `tket-py/src/rewrite.rs`, `badger_pass` in `tket-py/tket/passes.py` | `Model/PyOptimiser.lean` | pyo3 conversions as documented; pytket's `CustomPass` not modelled |
| `tket/src/optimiser/badger.rs` 228-264 with the circuits of `Model/Together` | `Model/Threads.lean` | several threads, one queue |
| `tket-py/src/circuit/tk2circuit.rs` (objects, hash, copies, envelopes, registry), `tket-py/src/circuit.rs` (`Node`), `tket/src/passes/pytket.rs`, `tket/src/circuit.rs` (`extract_dfg`) | `Model/PyCircuit` | encoders, decoders, hashes and rewrites are parameters; several Python threads |
| `tket-py/tket/_tket/*.pyi`, the signatures in `tket-py/src` | `Model/PyStubs` | types of arguments, properties, class attributes |
| `tket-qsystem/src/lower_drops.rs`, drops in `replace_bools.rs` | `Model/Drops`, `Model/DropsSpec` | the linearizer is written from its documentation; lent elements of borrow arrays |
| parameters in `decoder.rs`, `decoder/wires.rs`, `encoder/value_tracker.rs` | `Model/InputParams`, `Model/InputParamsSpec` | parsing of expressions, conversions of units |

Not modelled: the external matcher, file formats, extension definitions as such (types and signatures), `passes/pytket.rs`,
the LLVM code generation except for rotations and opaque booleans, random contexts, the runtime calls of qubits and futures, constant strings and results, `qis-compiler` except `gpu.rs` and the choice of the entry point, `tket-py` except `tket1.rs`, the Badger pass, costs and `build.py`,
and the files that are not part of the build (`circuit/extract_dfg.rs`, `passes/_squash.rs`, `passes/_classical.rs`).

## Tests of the theorems against wrong programs

1282 edits of definitions of the model were built in a scratch copy; every line of `seeded/LOG.jsonl` gives the definition,
the edit, the claim it breaks, the theorems that no longer prove, and the theorems that were tightened because
they first survived. Every seeded edit makes the build of the theorems fail, except those whose line says `none: equivalent`; two more edits (noted in their lines) are equivalent but break a proof script. Part of the edits were generated by a script that applies one textual change to a definition without a seeded edit so far.

## Axioms of each property theorem

Output of `#print axioms`, grouped. Anything not listed depends on `propext`, `Classical.choice` and
`Quot.sound`.

* no axioms (25): `C13_round_trip_fails_above_half`, `C32_empty_index_panics`, `C37_angle_partial`, `C37_round_trip_partial`, `C37_type`, `C61_no_bool_left`, `C66_exit_unchecked`, `C71_targets_not_mapped`, `C80_indirect_panics`, `C80_nested_after_wrong`, `C80_nested_misdirected`, `C80_recursive`, `C80_twice_wrong`, `C83_fused`, `C84_two_functions_wrong`, `C87_argument_changed`, `C88_empty_wrong`, `C92_finish_once`, `C99_setters`, `C100_order_differs`, `C100_pauli_custom`, `C106_bounds`, `C106_complete_partial`, `C106_deepcopy`, `C106_undeclared`.
* `propext` only (118): `C02_pop_empty`, `C14_zero_divides_to_one`, `C16_exhaustive_threshold`, `C31_unknown_register_panics`, `C32_negative_index`, `C32_wraps_around`, `C35_wrong_arity_panics`, `C37_large_panics`, `C37_not_restored`, `C37_rotation_exact`, `C41_two_controls_wrong`, `C42_mixed_types_wrong`, `C44_bits`, `C44_stored`, `C48_always_some`, `C48_contexts_interfere`, `C54_default_gamma`, `C60_bare_option`, `C60_option_in_tuple`, `C60_other_element`, `C61_array_of_bool`, `C61_empty_constant`, `C61_function_panics`, `C61_len`, `C62_constant_wrong`, `C62_encode`, `C62_in_place_refused`, `C62_nested_wrong`, `C62_one_bit_panics`, `C62_own_output_refused`, `C62_places_wrong`, `C63_decode_encode`, `C63_registered`, `C63_roundtrip`, `C64_never`, `C64_transform_iff`, `C66_state_load`, `C66_tag_injective`, `C67_array_op`, `C67_future_signature`, `C67_future_stored`, `C67_misfit_loaded`, `C67_result_signature`, `C67_state_stored`, `C68_nested_ignored`, `C68_outer_constant_ignored`, `C68_shared_angle_not_found`, `C69_reserved_nonzero`, `C71_error`, `C71_failure_erases`, `C71_payload_erased`, `C73_class_lost`, `C73_renamed_outputs`, `C74_regions_iff`, `C74_string_leaked`, `C77_finite_partial`, `C77_radians`, `C78_empty_names`, `C78_entry_lost`, `C78_main_with_inputs`, `C79_quantum_not_early`, `C82_array_swap_wrong`, `C82_arrays`, `C82_classical_array_wrong`, `C82_copy_iff`, `C82_reverse_iff`, `C83_conditional_wrong`, `C85_add`, `C85_enable_again`, `C85_failed_wrong`, `C85_ignored_wrong`, `C85_no_feature`, `C86_called_twice`, `C86_nested_wrong`, `C86_reuse_wrong`, `C86_sum_wrong`, `C86_unsupported_wrong`, `C87_argument_partial`, `C87_cycles`, `C87_result`, `C88_delta`, `C88_division_wrong`, `C88_first_error`, `C88_floats`, `C88_mixed_compare_wrong`, `C88_mixed_wrong`, `C88_sum_partial`, `C92_no_index_fails`, `C92_same_qubit_accepted`, `C94_one_bad_rule`, `C94_rewriters`, `C99_defaults_differ`, `C99_failure_leaves_changes`, `C99_meaning`, `C99_python_cannot_turn_off`, `C99_python_kept`, `C99_succeeds_iff`, `C100_not_transitive`, `C100_pauli_order`, `C100_values`, `C102_no_extension`, `C102_old_circuit_lost`, `C102_version_lost`, `C104_panics`, `C105_hash_raises`, `C105_to_bytes`, `C105_untouched`, `C106_calls_partial`, `C106_missing`, `C107_bools_drops`, `C107_order`, `C108_capture`, `C108_duplicate`, `C108_first_used`, `C108_not_identifier`, `C108_output_refused`, `C108_pi`, `C108_symbol_input`.
* `propext, Quot.sound` only (179): `C05_push_uncomputable`, `C11_deadlock_when_exhausted`, `C13_add_delta_clamps`, `C13_sum_componentwise`, `C14_div_cost_covers`, `C18_class_from_circuits`, `C18_representative_is_first_smallest`, `C19_split_is_partition`, `C20_chunk_exceeds_cost`, `C22_unit_of_a_live_qubit_reused`, `C22_units_follow_wires`, `C23_loops_and_blocks_panic`, `C23_out_of_range`, `C23_success_iff_empty`, `C24_hash_no_panic`, `C25_opaque_operation_crossed`, `C25_panics_on_allocation`, `C25_panics_on_other_linear_values`, `C30_permutation_identity`, `C30_round_trip_bits_partial`, `C35_negated_power`, `C35_power_associativity`, `C38_barrier_on_bits_fails`, `C38_bit_cannot_be_read_twice`, `C38_converted_bit_is_ill_typed`, `C38_missing_output_panics`, `C38_param_first_is_miswired`, `C38_register_in_tuple_is_lost`, `C38_repeated_argument_uses_wire_twice`, `C41_accumulates`, `C41_power_ignored`, `C41_signature`, `C44_read`, `C44_satisfies`, `C48_one_at_a_time_partial`, `C56_not_reflexive`, `C57_flagged_partial`, `C57_kept_calls`, `C57_unflagged_call_kept`, `C59_trivial`, `C59_wrong_output`, `C60_accepts_iff`, `C60_barrier_partial`, `C60_empty_arrays_panic`, `C60_roundtrip_partial`, `C61_build_iff`, `C61_const_typed`, `C61_get_partial`, `C61_get_typed_partial`, `C62_declares_too_many`, `C64_transform`, `C64_values_partial`, `C65_unsupported`, `C66_bad_tag_panics`, `C67_compute_signature`, `C67_compute_stored`, `C67_result_loaded`, `C67_result_stored`, `C68_boundary`, `C68_found`, `C68_found_iff`, `C68_pattern_iff`, `C68_value_partial`, `C69_blob`, `C69_emit_iff`, `C70_compatible`, `C70_identifiers`, `C71_no_reference`, `C71_twice_erases`, `C72_constant_twice`, `C72_not_convex`, `C73_classes_partial`, `C76_two_other_uses_panic`, `C76_unused_value_panics`, `C78_opt_level`, `C78_pass`, `C78_read`, `C79_allocs_not_late`, `C81_two_calls_panic`, `C81_two_calls_wrong`, `C81_unknown_function_wrong`, `C82_copy_fails`, `C82_cycle_wrong`, `C82_finishes_iff`, `C82_gate`, `C82_linear_partial`, `C82_loaded_function`, `C82_mirror_partial`, `C82_nested_use_fails`, `C82_typed_partial`, `C84_counts_program`, `C84_operations`, `C85_exhaustive_partial`, `C85_foreign`, `C85_greedy`, `C85_history`, `C85_matches_partial`, `C85_threshold`, `C86_boolean_partial`, `C86_constants_partial`, `C86_tuple_wrong`, `C87_circuit_count_wrong`, `C87_default_refuses`, `C87_short_timeout_wrong`, `C88_as_usize`, `C88_compare`, `C88_integers`, `C88_other_operations_wrong`, `C89_default_unused`, `C89_unique`, `C89_write_panics`, `C90_failure_stays`, `C90_functions`, `C90_kept`, `C90_no_panic`, `C91_values_exist`, `C92_identity`, `C93_every_order`, `C93_result`, `C94_find_match`, `C95_cycle`, `C99_fails_iff`, `C99_inline_never_fails`, `C99_python`, `C99_python_error`, `C99_python_pytket`, `C100_convert`, `C100_convert_pauli`, `C100_custom`, `C100_defined`, `C100_equal`, `C100_name_ignored`, `C100_new`, `C100_new_pauli`, `C100_no_hash`, `C100_symmetric_iff`, `C100_transitive_partial`, `C101_compute_types`, `C102_same_file_iff`, `C102_tool_iff`, `C103_split_failure`, `C103_threads_failure`, `C103_threads_rows`, `C104_bad_classes`, `C104_bad_numbers`, `C104_bad_types`, `C104_load`, `C104_missing_file`, `C104_pass`, `C104_pass_default`, `C104_stub_partial`, `C105_bytes_partial`, `C105_bytes_tket1`, `C105_convert`, `C105_copy`, `C105_copy_not_equal`, `C105_eq`, `C105_handles`, `C105_handles_not_equal`, `C105_level_partial`, `C105_level_wrong`, `C105_lowering`, `C105_rewrite`, `C105_set_copy`, `C106_keyword_wrong`, `C106_positional_partial`, `C107_after_bools`, `C107_again`, `C107_freed`, `C107_generic`, `C107_lazy`, `C107_leaked`, `C107_removed`, `C107_result`, `C107_same`, `C107_succeeds`, `C107_translated`, `C107_unchanged`, `C108_succeeds`.
* `propext, Classical.choice, Quot.sound`: the other 411 theorems.
