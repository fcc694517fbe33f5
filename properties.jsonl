{"id": "C01", "title": "get_bit / set_bit laws", "statement": "Reading a bit back after set_bit gives the written value at that position and the old value at every other position.", "quantifier": "every 64-bit word, every pair of bit positions below 64, both values", "why_tests_cant": "2^64 words x 64^2 positions; unit tests try two literals", "anchors": ["qip-iterators/src/utils.rs: get_bit, set_bit"]}
{"id": "C02", "title": "flip_bits reverses the low n bits and is an involution", "statement": "For 1 <= n <= 64, bit i of flip_bits(n,x) is bit n-1-i of x for i<n and 0 above; flipping twice restores every x < 2^n. For n = 0 (or n > 64) the call overflows its shift/subtraction and panics in a checked build.", "quantifier": "every n and every 64-bit word", "why_tests_cant": "domain is 65 x 2^64", "anchors": ["qip-iterators/src/utils.rs: flip_bits"]}
{"id": "C03", "title": "full_to_sub and sub_to_full are mutually inverse coordinate changes", "statement": "For distinct qubit indices below n: reading the sub-index back after sub_to_full returns it; writing a full index's own sub-index back restores it; sub_to_full never changes a qubit outside the index list; results stay below 2^k / 2^n.", "quantifier": "every n, every list of distinct indices below n, every sub index, every base", "why_tests_cant": "unbounded family of index lists and words", "anchors": ["qip-iterators/src/matrix_ops.rs: full_to_sub, sub_to_full", "qip/src/state_ops/matrix_ops.rs: select_matrix_coords"]}
{"id": "C04", "title": "extract_bits and entwine_bits", "statement": "Bit i of extract_bits(num, idx) is bit idx[i] of num, and entwine_bits places, at each result position, the next unused bit of off_bits or on_bits as told by the selector, so that extracting the selected / unselected positions of the result gives back on_bits / off_bits.", "quantifier": "every n, selector, off/on words, index list", "why_tests_cant": "unbounded", "anchors": ["qip/src/utils.rs: extract_bits, entwine_bits"]}
{"id": "C05", "title": "Dense and sparse row iterators yield exactly the row", "statement": "Iterating a dense row yields each nonzero entry of that row exactly once, in increasing column order, with its value; iterating a sparse row yields exactly the stored pairs in order; both then return None and afterwards start over from the beginning (they are not fused).", "quantifier": "every arity, row, matrix contents", "why_tests_cant": "unbounded matrices and rows; stateful next()", "anchors": ["qip-iterators/src/iterators/qubit_iterators.rs: MatrixOpIterator, SparseMatrixOpIterator"]}
{"id": "C06", "title": "Controlled row iterator", "statement": "A row whose control bits are not all one yields exactly (row, 1); a row whose control bits are all one yields the inner op's row with columns shifted into the controlled block.", "quantifier": "every number of control and op qubits, every row, every inner iterator", "why_tests_cant": "unbounded; stateful", "anchors": ["qip-iterators/src/iterators/qubit_iterators.rs: ControlledOpIterator"]}
{"id": "C07", "title": "Swap row iterator exchanges the two halves", "statement": "The single column yielded for a row is the row with its high and low half exchanged; applying it twice gives the row back.", "quantifier": "every half width and every row below 2^(2h)", "why_tests_cant": "unbounded", "anchors": ["qip-iterators/src/iterators/qubit_iterators.rs: SwapOpIterator"]}
{"id": "C08", "title": "Function iterator is the reversible map |x,y> -> |x, y xor f(x)>", "statement": "For every function f the row (x,y) yields exactly one column (x, y xor f(x)) (with little-endian reading of f's argument and result) carrying f's phase, and the row->column map is an involution, hence a permutation.", "quantifier": "every f, every input/output width, every row", "why_tests_cant": "quantifies over functions", "anchors": ["qip-iterators/src/iterators/qubit_iterators.rs: FunctionOpIterator"]}
{"id": "C09", "title": "Multi-op iterator enumerates the Kronecker product", "statement": "Given non-empty per-op entry lists, iteration yields every combination exactly once in lexicographic order with concatenated column and multiplied value, then None, then starts over.", "quantifier": "every number of ops, every non-empty entry lists", "why_tests_cant": "odometer over unbounded shapes; stateful", "anchors": ["qip-iterators/src/iterators/qubit_multi_iterator.rs: MultiOpIterator"]}
{"id": "C10", "title": "apply_op_overwrite is the embedded matrix-vector product", "statement": "For a well-formed op (dense, sparse, swap, arbitrarily nested control) on distinct qubits of an n-qubit register, the output vector is exactly the 2^n x 2^n matrix (op matrix on the op's qubits, identity elsewhere) times the input, and the call does not panic.", "quantifier": "every n, every well-formed op, every state vector, every initial output buffer", "why_tests_cant": "unbounded sizes, nesting depth and data", "anchors": ["qip-iterators/src/matrix_ops.rs: apply_op_overwrite, apply_op_row_indices", "qip-iterators/src/iterators/ops.rs: sum_for_op_cols, sum_for_control_iterator"]}
{"id": "C11", "title": "apply_op accumulates", "statement": "apply_op adds to each output entry exactly what apply_op_overwrite would write there, and apply_op_row returns that same summand.", "quantifier": "every n, op, input, output", "why_tests_cant": "unbounded", "anchors": ["qip-iterators/src/matrix_ops.rs: apply_op, apply_op_row"]}
{"id": "C12", "title": "Offsets: a distributed state gives the same result", "statement": "Cutting the input vector into consecutive chunks and accumulating apply_op over the chunks with their offsets, or cutting the output into chunks with output offsets, gives the same vector as one undivided call.", "quantifier": "every op, vector, cut points", "why_tests_cant": "all partitions of all vectors", "anchors": ["qip-iterators/src/matrix_ops.rs: apply_op, apply_op_row_indices (input_offset/output_offset)"]}
{"id": "C13", "title": "Parallel execution is schedule independent", "statement": "The per-row loop of apply_op / apply_op_overwrite / measure_state gives the same output whatever order (or interleaving) rows are executed in.", "quantifier": "every permutation of row tasks", "why_tests_cant": "the schedule is chosen by rayon at run time; tests see a few schedules", "anchors": ["qip-iterators/src/matrix_ops.rs: apply_op, apply_op_overwrite", "qip-iterators/src/rayon_helper/mod.rs", "qip/src/state_ops/measurement_ops.rs: measure_state"]}
{"id": "C14", "title": "Swap and Control ops act as documented on basis states", "statement": "A swap op sends basis state |x> to the basis state with the two index groups' values exchanged; a control op applies the inner op exactly on basis states whose control qubits are all 1 and is the identity otherwise.", "quantifier": "every n, index groups, inner op, basis state", "why_tests_cant": "unbounded", "anchors": ["qip-iterators/src/iterators/ops.rs: MatrixOp::Swap, MatrixOp::Control", "qip/src/state_ops/matrix_ops.rs: make_control_op, make_swap_op"]}
{"id": "C15", "title": "apply_ops of several ops equals applying them one after another", "statement": "apply_ops with ops on disjoint qubits gives the same vector as applying each op in sequence (tensor product).", "quantifier": "every list of ops on disjoint qubits", "why_tests_cant": "unbounded lists of ops", "anchors": ["qip-iterators/src/matrix_ops.rs: apply_ops", "qip-iterators/src/iterators/iterator_mapper.rs: sum_for_ops_cols"]}
{"id": "C16", "title": "transpose_op, conj_op and invert_op", "statement": "The matrix of transpose_op/conj_op/invert_op is the transpose / entrywise conjugate / conjugate transpose of the op's matrix; if the op is unitary, applying op then invert_op(op) restores every state.", "quantifier": "every well-formed op", "why_tests_cant": "in-place loops over unbounded matrices", "anchors": ["qip/src/state_ops/matrix_ops.rs: transpose_op, conj_op, invert_op", "qip/src/utils.rs: transpose_sparse"]}
{"id": "C17", "title": "Unitary ops preserve total probability", "statement": "prob_magnitude of the output of a unitary op equals that of the input.", "quantifier": "every unitary op and state", "why_tests_cant": "unbounded", "anchors": ["qip-iterators/src/matrix_ops.rs: apply_op_overwrite", "qip/src/state_ops/measurement_ops.rs: prob_magnitude"]}
{"id": "C18", "title": "Op constructors accept exactly the well-formed inputs", "statement": "make_matrix_op / make_sparse_matrix_op / make_swap_op / make_control_op return Ok exactly when the documented size conditions hold, and make_control_op collapses nested controls without changing the action.", "quantifier": "every argument", "why_tests_cant": "unbounded lengths", "anchors": ["qip/src/state_ops/matrix_ops.rs: make_matrix_op, make_sparse_matrix_op, make_swap_op, make_control_op"]}
{"id": "C19", "title": "Little-endian sparse matrices are the bit-reversed big-endian ones", "statement": "The entry of a LittleEndian sparse op at (row,col) is the given data's entry at the bit-reversed (row,col); building data from a function in one order and wrapping it in the other is consistent.", "quantifier": "every n, data", "why_tests_cant": "sorting by key over unbounded data", "anchors": ["qip/src/state_ops/matrix_ops.rs: make_sparse_matrix_op, make_sparse_matrix_from_function"]}
{"id": "C20", "title": "make_op_matrix lists the images of the basis states", "statement": "Entry [i][j] of make_op_matrix is the amplitude of basis state j in op|i> (i.e. the transpose of the usual matrix).", "quantifier": "every n and op", "why_tests_cant": "unbounded", "anchors": ["qip/src/state_ops/matrix_ops.rs: make_op_matrix"]}
{"id": "C21", "title": "Measurement probabilities form the Born distribution", "statement": "measure_prob(m) is the sum of |amplitude|^2 over exactly the basis states whose measured qubits spell m (bit i of m = qubit indices[i]); measure_probs has 2^k non-negative entries which sum to prob_magnitude; chunked states with offsets add up.", "quantifier": "every n, distinct indices, outcome, state", "why_tests_cant": "unbounded", "anchors": ["qip/src/state_ops/measurement_ops.rs: measure_prob, measure_probs, measure_prob_fn, prob_magnitude"]}
{"id": "C22", "title": "Measurement collapses to the measured subspace", "statement": "After measure_state with the outcome's own nonzero probability, amplitudes of basis states disagreeing with the outcome are 0, the others are scaled by one common factor, the total probability is 1, and measuring the same qubits again gives the same outcome with probability 1.", "quantifier": "every state, indices, outcome with nonzero probability", "why_tests_cant": "unbounded", "anchors": ["qip/src/state_ops/measurement_ops.rs: measure, measure_state"]}
{"id": "C23", "title": "Sampling follows the Born rule", "statement": "soft_measure only returns outcomes of positive probability, and outcome m is returned for a set of random numbers in [0,1) of length exactly measure_prob(m) (for a normalised state).", "quantifier": "every normalised state, indices and random draw", "why_tests_cant": "the random draw ranges over an interval", "anchors": ["qip/src/state_ops/measurement_ops.rs: soft_measure, measure"]}
{"id": "C24", "title": "No-cloning: every qubit is owned by at most one live register", "statement": "Along every history of allocating, merging, splitting, gating, measuring and borrowing/returning temporaries, the live registers and the temp pool hold pairwise disjoint, duplicate-free qubit indices below n().", "quantifier": "every finite sequence of builder calls", "why_tests_cant": "histories", "anchors": ["qip/src/builder.rs: LocalBuilder::register, merge_two_registers, split_register_relative, make_zeroed_temp_qubit, return_zeroed_temp_register"]}
{"id": "C25", "title": "Splitting and merging registers", "statement": "split_all_register returns the qubits in order and merging them restores the register; split_register_relative returns the selected qubits in the order asked for and the rest in original order; split_first/last_qubit and split_relative_index_groups likewise.", "quantifier": "every register, every list of distinct in-range indices", "why_tests_cant": "unbounded", "anchors": ["qip/src/builder_traits.rs: split_all_register, split_first_qubit, split_last_qubit, split_relative_index_groups, merge_registers", "qip/src/builder.rs: split_register_relative"]}
{"id": "C26", "title": "split_register_absolute selects by absolute qubit index", "statement": "split_register_absolute(r, idx) selects exactly the qubits of r whose absolute index occurs in idx.", "quantifier": "every register and index list", "why_tests_cant": "depends on which absolute indices the register happens to hold; tests start at qubit 0", "anchors": ["qip/src/builder_traits.rs: split_register_absolute"]}
{"id": "C27", "title": "Out-of-range relative indices are ignored", "statement": "split_register_relative ignores every relative index that is not a position of the register.", "quantifier": "every register and index list", "why_tests_cant": "boundary value depends on register size", "anchors": ["qip/src/builder.rs: split_register_relative"]}
{"id": "C28", "title": "Applying a circuit object broadcasts or fails cleanly", "statement": "apply_circuit_object appends one entry per qubit when a one-qubit object is given a larger register, one entry when sizes agree, and otherwise returns an error and leaves the circuit unchanged; the returned register is the one passed in.", "quantifier": "every builder state, register, object", "why_tests_cant": "histories and sizes", "anchors": ["qip/src/builder.rs: apply_circuit_object"]}
{"id": "C29", "title": "Initial values are read back by measurement", "statement": "calculate_state_with_init([(r,x)]) starts in the basis state where qubit r[k] is bit k of x, so measuring r straight away returns x (mod 2^|r|) with probability 1.", "quantifier": "every builder, register, value, disjoint set of registers", "why_tests_cant": "unbounded", "anchors": ["qip/src/builder.rs: calculate_state_with_init, measure"]}
{"id": "C30", "title": "calculate_state composes the gates in program order", "statement": "For a circuit of unitary gates the computed state is the product of the gates' matrices, in the order they were added, applied to the initial state; the total probability stays 1; the calculation does not change the circuit.", "quantifier": "every circuit", "why_tests_cant": "unbounded circuits", "anchors": ["qip/src/builder.rs: calculate_state_with_init"]}
{"id": "C31", "title": "Named gates have their textbook matrices", "statement": "x,y,z,h,s,t act on every qubit of the register by the Pauli/Hadamard/phase matrices, s_dagger/t_dagger undo s/t, cnot flips each target iff the control is 1, and swap exchanges the values of the two registers.", "quantifier": "every builder, register size and state", "why_tests_cant": "unbounded", "anchors": ["qip/src/builder_traits.rs: CliffordTBuilder", "qip/src/builder.rs: calculate_state_with_init"]}
{"id": "C32", "title": "toffoli flips the target iff all controls are 1", "statement": "For any number of control qubits, toffoli maps |c>|r> to |c>|not r> exactly when all controls are 1, for every basis state with clean temporaries (hence all superpositions), and returns the registers in the same order.", "quantifier": "every number of controls, target register size, builder state, basis state", "why_tests_cant": "recursion over unbounded number of controls", "anchors": ["qip/src/builder_traits.rs: basic_toffoli, toffoli"]}
{"id": "C33", "title": "Temporary qubits come back clean and are reused safely", "statement": "Temporaries used by toffoli (and by conditioned S/T/Z/X/CNOT) are 0 again when returned to the pool, a reused temporary never aliases a live register, and the pool only grows by fresh qubits.", "quantifier": "every builder history", "why_tests_cant": "histories", "anchors": ["qip/src/builder.rs: make_zeroed_temp_qubit, return_zeroed_temp_register", "qip/src/builder_traits.rs: toffoli"]}
{"id": "C34", "title": "Rotations rotate by the documented angle", "statement": "rz/rx/ry rotate by theta about the named axis, the _ratio and _pi_by variants rotate by pi times the ratio, and all apply to every qubit of the register.", "quantifier": "every angle, ratio, register", "why_tests_cant": "continuum of angles", "anchors": ["qip/src/builder_traits.rs: RotationsBuilder", "qip/src/builder.rs: rz, rz_pi_by, calculate_state_with_init"]}
{"id": "C35", "title": "Conditioned X, Z, S, T and CNOT are the controlled gates", "statement": "Applying an X, Z, S, T or CNOT object under a condition register applies the gate exactly when all condition qubits are 1, leaves other basis states alone, and returns both registers unchanged.", "quantifier": "every number of condition qubits, builder state, basis state", "why_tests_cant": "unbounded controls", "anchors": ["qip/src/builder.rs: try_apply_with_condition"]}
{"id": "C36", "title": "Conditioned Y, H, Rz and global phase are the controlled gates", "statement": "Applying a Y, H, Rz or GlobalPhase object under a condition register applies that gate exactly when all condition qubits are 1 and nothing otherwise.", "quantifier": "every number of condition qubits, angle, basis state", "why_tests_cant": "continuum of angles", "anchors": ["qip/src/builder.rs: try_apply_with_condition"]}
{"id": "C37", "title": "A conditioned builder conditions every gate added through it", "statement": "Every gate, including rotations, added through condition_with(cr) acts only when cr is all ones.", "quantifier": "every gate method of the conditioned builder", "why_tests_cant": "all method calls", "anchors": ["qip/src/conditioning.rs: impl RotationsBuilder for Conditioned"]}
{"id": "C38", "title": "Nested conditions are conjunctions and dissolve returns the condition register", "statement": "Conditioning a conditioned builder applies gates exactly when both condition registers are all ones, at any nesting depth, and dissolve gives back the very register passed to condition_with.", "quantifier": "every nesting depth and sequence of gates", "why_tests_cant": "unbounded nesting", "anchors": ["qip/src/conditioning.rs: Conditioned, try_apply_with_condition, dissolve"]}
{"id": "C39", "title": "invert_subcircuit produces the inverse circuit", "statement": "Running any measurement-free subcircuit and then its inverse restores every state; subcircuits containing a measurement are refused with an error.", "quantifier": "every subcircuit, every state", "why_tests_cant": "unbounded circuits", "anchors": ["qip/src/builder.rs: invert_subcircuit, invert_circuit_object"]}
{"id": "C40", "title": "apply_subcircuit replays the circuit on the given register", "statement": "apply_subcircuit(sc, r) appends sc with qubit k renamed to r[k] (indices beyond r become temporaries) and returns r.", "quantifier": "every subcircuit and register", "why_tests_cant": "unbounded", "anchors": ["qip/src/builder.rs: apply_pipeline_objects, apply_subcircuit, make_subcircuit"]}
{"id": "C41", "title": "inverter and #[invert] undo the function", "statement": "Applying f to registers and then inverter(f) (or the generated f_inv) restores the state, for every circuit-building function f.", "quantifier": "every f", "why_tests_cant": "quantifies over user functions", "anchors": ["qip/src/inverter.rs: inverter, inverter_args", "qip-macros/src/lib.rs: invert"]}
{"id": "C42", "title": "Measurement handles fetch their own measurement", "statement": "The handle returned by the k-th measure/measure_stochastic call fetches the result of exactly that measurement and is of the right kind, for every history of builder calls.", "quantifier": "every history", "why_tests_cant": "histories", "anchors": ["qip/src/builder.rs: measure, measure_stochastic, get_measurement, get_stochastic_measurement"]}
{"id": "C43", "title": "Stochastic measurements and global phases leave the state alone", "statement": "Adding measure_stochastic or apply_global_phase to a circuit does not change the state computed for it.", "quantifier": "every circuit and position", "why_tests_cant": "every position in every circuit", "anchors": ["qip/src/builder.rs: calculate_state_with_init"]}
{"id": "C44", "title": "Carry and sum circuits", "statement": "carry maps rc' to rc' xor majority(rc,ra,rb) and sum maps rb to ra xor rb xor rc, leaving the others unchanged; carry_inv undoes carry.", "quantifier": "all basis states, any builder state", "why_tests_cant": "all bits x any surrounding circuit", "anchors": ["qip/src/boolean_circuits/arithmetic.rs: carry, sum"]}
{"id": "C45", "title": "add computes b := a + b + c0", "statement": "For n-qubit rc, ra and (n+1)-qubit rb, with rc[1..] zero, add sends b to (a + b + c0) mod 2^(n+1) and leaves a and c unchanged; wrong sizes give an error.", "quantifier": "every n, a, b, c0", "why_tests_cant": "unbounded width", "anchors": ["qip/src/boolean_circuits/arithmetic.rs: add"]}
{"id": "C46", "title": "add_inv subtracts", "statement": "Under the same conditions add_inv sends b to (b - a - c0) mod 2^(n+1) and is the inverse of add.", "quantifier": "every n, a, b", "why_tests_cant": "unbounded width", "anchors": ["qip/src/boolean_circuits/arithmetic.rs: add (#[invert])", "qip-macros/src/lib.rs: invert"]}
{"id": "C47", "title": "rshift/lshift rotate the register", "statement": "rshift moves qubit value k to position k+1 mod n (doubling the little-endian value when the top bit is 0); lshift is its inverse.", "quantifier": "every register size and basis state", "why_tests_cant": "unbounded width", "anchors": ["qip/src/boolean_circuits/arithmetic.rs: rshift"]}
{"id": "C48", "title": "copy xors", "statement": "copy maps |a>|b> to |a>|a xor b> and is self inverse; unequal sizes give an error.", "quantifier": "every register size and basis state", "why_tests_cant": "unbounded width", "anchors": ["qip/src/boolean_circuits/arithmetic.rs: copy"]}
{"id": "C49", "title": "add_mod computes (a+b) mod m", "statement": "For a,b < m add_mod sends b to (a+b) mod m and leaves a and m and the temporaries unchanged.", "quantifier": "every n, a, b, m", "why_tests_cant": "unbounded width", "anchors": ["qip/src/boolean_circuits/arithmetic.rs: add_mod"]}
{"id": "C50", "title": "negate_bitmask and control(bits)", "statement": "negate_bitmask flips exactly the qubits whose mask bit is 0, is self inverse, and control(bits) therefore fires exactly on the register value given by the mask.", "quantifier": "every register and mask", "why_tests_cant": "unbounded width", "anchors": ["qip/src/macros/program.rs: negate_bitmask", "qip-macros/src/lib.rs: program"]}
{"id": "C51", "title": "program! routes qubits and restores every register", "statement": "A program! line calls its function with the registers selected by the index groups in the written order, and afterwards every input register has its original qubits in the original order.", "quantifier": "every register list, index groups and functions", "why_tests_cant": "all programs", "anchors": ["qip-macros/src/lib.rs: program"]}
{"id": "C52", "title": "qfft is the quantum Fourier transform", "statement": "qfft maps |x> to 2^(-n/2) sum_y exp(2 pi i xy/2^n)|y>.", "quantifier": "every n and x", "why_tests_cant": "unbounded n", "anchors": ["qip/src/qfft.rs: qfft"]}
{"id": "C53", "title": "Equal circuit objects hash equally", "statement": "If two circuit object types compare equal they feed the same data to the hasher; equality is reflexive and symmetric.", "quantifier": "every pair of objects", "why_tests_cant": "all float values", "anchors": ["qip/src/builder.rs: PartialEq/Eq/Hash impls"]}
{"id": "C54", "title": "Documented errors are returned, not panics, and leave the circuit unchanged", "statement": "cnot with several controls, swap of unequal registers, basic_toffoli without two controls, rz_pi_by(0), conditioning or inverting a measurement return Err and add nothing to the circuit.", "quantifier": "every builder state and register sizes", "why_tests_cant": "all sizes/histories", "anchors": ["qip/src/builder_traits.rs: cnot, swap, basic_toffoli, rx_pi_by", "qip/src/builder.rs: rz_pi_by, try_apply_with_condition, invert_circuit_object"]}
{"id": "C55", "title": "program! line grammar", "statement": "Parsing the token form of a register list (identifiers, optional index groups, bracketed groups, commas) returns exactly the written groups and indices and consumes exactly one line.", "quantifier": "every line", "why_tests_cant": "all token streams", "anchors": ["qip-macros/src/lib.rs: parse_list_of_registers, parse_register_and_indices"]}
{"id": "C56", "title": "make_circuit_matrix tabulates the circuit", "statement": "Row x of make_circuit_matrix is the state computed from initial value x of the register.", "quantifier": "every circuit and register", "why_tests_cant": "2^n rows", "anchors": ["qip/src/builder_traits.rs: make_circuit_matrix"]}
{"id": "C57", "title": "No word overflow", "statement": "For n <= 63 qubits the 64-bit index arithmetic of full_to_sub / sub_to_full / set_bit agrees with unbounded arithmetic; get_flat_index does so up to 31 qubits and panics exactly on overflow.", "quantifier": "every n <= 63, index list, word", "why_tests_cant": "64-bit domain", "anchors": ["qip-iterators/src/utils.rs", "qip-iterators/src/matrix_ops.rs: full_to_sub, sub_to_full"]}
{"id": "C58", "title": "Subcircuits applied through a conditioned builder are the controlled circuit", "statement": "Applying a subcircuit of X, Y, Z, H, S, T and CNOT gates to a register through any nesting of conditions acts as the subcircuit on that register when all condition qubits are 1 and does nothing otherwise.", "quantifier": "every subcircuit, nesting depth, condition registers, state", "why_tests_cant": "unbounded circuits and nesting", "anchors": ["qip/src/conditioning.rs: apply_subcircuit, apply_conditioned_subcircuit", "qip/src/builder.rs: apply_conditioned_subcircuit"]}
{"id": "C59", "title": "add inside conditions adds when they hold", "statement": "add called through any nesting of conditions sends b to (a + b + c0) mod 2^(n+1) when all condition qubits are 1 (carries zero), and changes nothing otherwise.", "quantifier": "every n, a, b, nesting depth", "why_tests_cant": "unbounded width and nesting", "anchors": ["qip/src/boolean_circuits/arithmetic.rs: add", "qip/src/conditioning.rs"]}
{"id": "C60", "title": "A failed call leaves a conditioned builder usable", "statement": "When a call on a Conditioned builder returns Err, the builder keeps its condition register, so that later calls and dissolve work.", "quantifier": "every parent builder, condition register and failing call", "why_tests_cant": "all histories", "anchors": ["qip/src/conditioning.rs: apply_circuit_object, try_apply_with_condition, apply_subcircuit, dissolve"]}
{"id": "C61", "title": "program! text is parsed as written", "statement": "Parsing the tokens of a program - builder, distinct input registers, lines with optional control, mask, function arguments and register groups, separated by semicolons with or without a final one - returns exactly the builder, the inputs and the lines that were written.", "quantifier": "every program text", "why_tests_cant": "all token streams", "anchors": ["qip-macros/src/lib.rs: program, parse_list_of_registers, parse_register_and_indices"]}
{"id": "C62", "title": "#[invert] finds the argument names", "statement": "The argument names read off the token stream of a function signature are exactly the names of the written arguments, in order, for all types that do not themselves contain a name followed by a single colon.", "quantifier": "every argument list", "why_tests_cant": "all token streams", "anchors": ["qip-macros/src/lib.rs: parse_function_args"]}
{"id": "C63", "title": "program! rejects duplicate input registers", "statement": "A program whose list of input registers names the same register twice is rejected.", "quantifier": "every program text", "why_tests_cant": "all lists of names", "anchors": ["qip-macros/src/lib.rs: program"]}
{"id": "C64", "title": "Gates given by a matrix apply that matrix", "statement": "apply_vec_matrix and apply_matrix with 4^n numbers on an n-qubit register apply the matrix listed row by row, the first qubit of the register being the most significant digit; they return the register and add one circuit element. Data of another size is accepted but makes every later calculation panic.", "quantifier": "every circuit, register, matrix (unitary or not)", "why_tests_cant": "continuum of matrices, all sizes", "anchors": ["qip/src/builder_traits.rs: apply_vec_matrix, apply_matrix", "qip/src/builder.rs: vec_matrix_to_circuitobject, calculate_state_with_init"]}
{"id": "C65", "title": "broadcast_single_qubit_matrix applies the matrix to each qubit", "statement": "broadcast_single_qubit_matrix(r, data) applies the one-qubit matrix data to each qubit of r.", "quantifier": "every register and matrix", "why_tests_cant": "continuum of matrices, all sizes", "anchors": ["qip/src/builder_traits.rs: broadcast_single_qubit_matrix"]}
{"id": "C66", "title": "The default gate objects are the gates they stand for", "statement": "The default make_x, make_y, make_z, make_h, make_s, make_t and make_cnot objects give, in every circuit, the same state as the objects LocalBuilder overrides them with, and gate methods working with them apply the textbook matrix to every qubit.", "quantifier": "every circuit, register and gate", "why_tests_cant": "all circuits", "anchors": ["qip/src/builder_traits.rs: CliffordTBuilder::make_x, ..., make_cnot"]}
{"id": "C67", "title": "add_inv inside conditions subtracts when they hold", "statement": "add_inv called through any nesting of conditions sends b to (b - a) mod 2^(n+1) when all condition qubits are 1 (carries zero), and changes nothing otherwise.", "quantifier": "every n, a, b, nesting depth", "why_tests_cant": "unbounded width and nesting", "anchors": ["qip/src/boolean_circuits/arithmetic.rs: add (#[invert])", "qip/src/conditioning.rs: apply_subcircuit"]}
{"id": "C68", "title": "Arithmetic inside conditions that do not hold does nothing", "statement": "Every arithmetic circuit (copy, rshift, add, add_mod, times_mod, square_mod, exp_mod, and their inverses), called through any nesting of conditions of which at least one does not hold, leaves every basis state unchanged, whatever the numbers, gives back registers and conditions, and returns its temporaries to the pool clean.", "quantifier": "every circuit, register sizes, nesting depth, builder state, basis state", "why_tests_cant": "unbounded widths and nesting; recursive circuits", "anchors": ["qip/src/boolean_circuits/arithmetic.rs: copy, rshift, add, add_mod, times_mod, square_mod, exp_mod", "qip/src/conditioning.rs"]}
{"id": "C69", "title": "Arithmetic succeeds exactly on fitting register sizes", "statement": "On non-empty, disjoint registers of fitting sizes every arithmetic circuit succeeds, at once or through any nesting of conditions; it gives back its registers, adds only unitary elements on allocated qubits and no measurement. Registers of other sizes give an error and leave the circuit unchanged.", "quantifier": "every circuit, register sizes, nesting depth, builder state", "why_tests_cant": "unbounded widths, nesting and recursion", "anchors": ["qip/src/boolean_circuits/arithmetic.rs: copy, rshift, add, add_mod, times_mod, square_mod, exp_mod", "qip/src/inverter.rs: inverter"]}
{"id": "C70", "title": "A conditioned SWAP object is the controlled swap", "statement": "Applying a SWAP object on 2k qubits under a condition register exchanges the values of its two halves exactly when all condition qubits are 1.", "quantifier": "every size, number of condition qubits, builder state, basis state", "why_tests_cant": "unbounded sizes", "anchors": ["qip/src/builder.rs: try_apply_with_condition (SWAP)"]}
{"id": "C71", "title": "A conditioned matrix object is the controlled matrix or an error", "statement": "Applying an object given by a matrix under a condition register applies the controlled matrix, or returns an error and leaves the circuit unchanged.", "quantifier": "every matrix, builder state, condition register", "why_tests_cant": "continuum of matrices", "anchors": ["qip/src/builder.rs: try_apply_with_condition (MAT)"]}
{"id": "C72", "title": "times_mod computes (p + b*a) mod M", "statement": "For a, p < M, times_mod sends |a>|b>|M>|p> to |a>|b>|M>|(p + ba) mod M>, with a of n+1 qubits, M of n, p of n+1 and b of any size; other sizes give an error.", "quantifier": "every n, k, a, b, M, p, builder state", "why_tests_cant": "unbounded widths", "anchors": ["qip/src/boolean_circuits/arithmetic.rs: times_mod"]}
{"id": "C73", "title": "square_mod computes (s + a*a) mod m", "statement": "For a, s < m, square_mod sends |a>|m>|s> to |a>|m>|(s + a*a) mod m>; other sizes give an error.", "quantifier": "every n, a, m, s, builder state", "why_tests_cant": "unbounded widths", "anchors": ["qip/src/boolean_circuits/arithmetic.rs: square_mod"]}
{"id": "C74", "title": "A generated inverse takes back what the circuit does", "statement": "The inverse of an arithmetic circuit that #[invert] generates sends |x> to |y> exactly when the circuit sends |y> to |x>, for basis states that agree outside its registers, whatever else the builder holds.", "quantifier": "every inverse (copy, rshift, add, add_mod, times_mod, square_mod, exp_mod), all sizes, basis states, builder state", "why_tests_cant": "unbounded widths and circuit histories", "anchors": ["qip/src/boolean_circuits/arithmetic.rs: #[invert]", "qip/src/inverter.rs: inverter"]}
{"id": "C75", "title": "add_mod_inv computes (b - a) mod m", "statement": "For a, b < m, add_mod_inv sends |a>|b>|m> to |a>|(b - a) mod m>|m>.", "quantifier": "every n, a, b, m, builder state", "why_tests_cant": "unbounded widths", "anchors": ["qip/src/boolean_circuits/arithmetic.rs: add_mod (invert)"]}
{"id": "C76", "title": "Circuits with measurements follow the Born rule", "statement": "In a circuit with measurements anywhere between the gates, a sequence of outcomes occurs with the probability that quantum mechanics gives to it; every measurement reports the probability of its outcome given the earlier ones; the state returned is what the outcomes leave of the initial state, scaled to length 1.", "quantifier": "every circuit of gates (global phases excepted) and measure calls, initial values, draws in (0,1), sequence of outcomes", "why_tests_cant": "a statement about probabilities and all circuits", "anchors": ["qip/src/builder.rs: calculate_state_with_init, measure", "qip/src/state_ops/measurement_ops.rs: measure"]}
{"id": "C77", "title": "Neighbouring elements on disjoint qubits may be exchanged", "statement": "Exchanging two neighbouring gates on disjoint qubits does not change anything the calculation returns; exchanging a gate and a measurement, or two measurements, does not change the probabilities of outcomes, nor (for a gate) the state that goes with them.", "quantifier": "every circuit of gates (global phases excepted) and measure calls, position, initial values, draws in (0,1)", "why_tests_cant": "all circuits and positions", "anchors": ["qip/src/builder.rs: calculate_state_with_init"]}
{"id": "C78", "title": "No signalling", "statement": "A gate or measurement on qubits that are not used afterwards has no influence on the probabilities of the outcomes of the other measurements.", "quantifier": "every circuit of gates (global phases excepted) and measure calls, initial values, sequence of outcomes", "why_tests_cant": "a statement about probabilities and all circuits", "anchors": ["qip/src/builder.rs: calculate_state_with_init, measure"]}
{"id": "C79", "title": "Registers keep their value until they are touched", "statement": "A register that no element has touched is measured with its initial value and probability 1; measuring a register again with nothing done to it in between gives the same outcome, with probability 1.", "quantifier": "every circuit of gates (global phases excepted) and measure calls, initial values, draws in (0,1)", "why_tests_cant": "all circuits", "anchors": ["qip/src/builder.rs: calculate_state_with_init, measure"]}
{"id": "C80", "title": "The swap test of the documentation", "statement": "The documented swap test (h, swap under a condition, h, measure) at the end of any circuit gives 0 and 1 with probabilities |psi+S psi|^2/4 and |psi-S psi|^2/4, where S exchanges the registers, and the measurement reports these divided by |psi|^2; on two registers in states alpha and beta it gives 1 with probability (1-|<alpha|beta>|^2)/2; the documented program (CSWAP example) with registers holding a and b gives 1 with probability 0 if a = b and 1/2 otherwise.", "quantifier": "every circuit of gates (global phases excepted) and measure calls that leaves the control qubit and the temporaries zero, every register size, state and initial value", "why_tests_cant": "all circuits, sizes, states; probabilities", "anchors": ["qip/src/lib.rs: CSWAP example", "qip/src/builder.rs: calculate_state_with_init, measure", "qip/src/conditioning.rs: condition_with"]}
{"id": "C81", "title": "Stochastic measurements report probabilities and leave the state alone", "statement": "In a circuit of gates and stochastic measurements every stochastic measurement reports the probabilities of the values of its register in the state made by the gates before it, and the state returned is that made by all gates (examples/simple.rs).", "quantifier": "every circuit of gates, stochastic measurements (and global phases), register, initial value", "why_tests_cant": "all circuits; the values reported are real numbers", "anchors": ["qip/src/builder.rs: calculate_state_with_init, measure_stochastic", "qip/examples/simple.rs"]}
{"id": "C82", "title": "The documented inverse program does nothing", "statement": "On registers of all sizes and in every builder the documented function gamma (toffoli ra rb; toffoli rb ra) flips rb if all qubits of ra are 1 and then ra if all qubits of rb are 1 (with the phase factors of toffoli, none if one of the registers is a single qubit), its generated inverse makes the same flips in the opposite order with the inverse factors, so that gamma and its inverse in any order restore every state; the program gamma g0, g1; gamma_inv g0, g1 of the documentation returns its registers and does nothing, for all registers and groups of qubits, and the documented example returns the initial state.", "quantifier": "every builder state, size of the two registers, choice of disjoint groups, initial value, argument skip", "why_tests_cant": "all sizes, states and groups; phases", "anchors": ["qip/src/lib.rs: gamma, inverse example", "qip/examples/inverse_example.rs: gamma", "qip/src/inverter.rs: inverter"]}
{"id": "C83", "title": "The documented control lines apply gamma under the condition", "statement": "A line control gamma g0, g1, g2 applies gamma to the groups g1 and g2 if all qubits of g0 are 1 and leaves the state alone otherwise; control(m) gamma does so if g0 has the value of the mask (documentation of program!).", "quantifier": "every builder state, registers, choice of groups (two qubits and one, as documented), mask, state", "why_tests_cant": "all states, registers and masks; amplitudes", "anchors": ["qip/src/lib.rs: program! example", "qip/src/builder_traits.rs: toffoli, basic_toffoli", "qip/src/conditioning.rs: Conditioned::apply_circuit_object"]}
{"id": "C84", "title": "exp_mod computes powers", "statement": "exp_mod maps |a>|b>|m>|p>|0> to |a>|b>|m>|p>|(p*a^b) mod m>.", "quantifier": "every builder state, registers of fitting sizes, contents with m > 0", "why_tests_cant": "all register sizes and contents; amplitudes", "anchors": ["qip/src/boolean_circuits/arithmetic.rs: exp_mod"]}
{"id": "C85", "title": "Gates that only move amplitudes are computed without rounding", "statement": "Applying an op whose matrix has a single 1 in every row (X, CNOT, Toffoli, swap, permutation matrices, with any controls) writes into every entry of the result exactly the entry of the input it moves there, in every arithmetic with 0 + x = x and 1 * x = x; so circuits of such gates return the amplitudes they were given, rearranged.", "quantifier": "every number of qubits, op of that kind, choice of distinct qubits, state, sequence of ops, number type", "why_tests_cant": "all states, ops and number types", "anchors": ["qip-iterators/src/matrix_ops.rs: apply_op_overwrite", "qip-iterators/src/iterators/ops.rs: sum_for_op_cols", "qip/src/builder.rs: calculate_state_with_init"]}
{"id": "C86", "title": "The rounding error of a simulation is bounded", "statement": "In floating point arithmetic with unit roundoff u, with gate entries stored up to the relative error u, the state calculated for a circuit of G gates differs from the exact state by at most (1 + e)^G - 1 in Euclidean length, e = ((1+u)^(w+1) - 1) sqrt w, where w is the largest number of entries in a row of a gate (2 for all gates but user matrices); probabilities of outcomes differ by at most d(2 + d) for an error d of the state. For binary numbers with p digits rounded to nearest, u = sqrt 2 (2*2^-p + 4^-p).", "quantifier": "every circuit of gates, initial values, number of digits, rounding to nearest, number of gates", "why_tests_cant": "all circuits and roundings; real numbers", "anchors": ["qip-iterators/src/matrix_ops.rs: apply_op_overwrite", "qip-iterators/src/iterators/ops.rs: sum_for_op_cols", "qip/src/builder.rs: calculate_state_with_init"]}
{"id": "C87", "title": "No overflow, no NaN and a bounded error in IEEE arithmetic", "statement": "In IEEE 754 arithmetic with gradual underflow, where results beyond the largest number become infinities and NaN and infinities spread, the state calculated for a circuit never contains an infinity or NaN as long as the error bound stays below 1, and it differs from the exact state by at most (1 + e)^G - 1 after G gates, where e covers rounding and underflow. For gates other than user matrices the difference is at most 2^(6-p) per gate: 2^-47 for f64 (2000 qubits, 2^47 gates), 2^-18 for f32 (200 qubits, 2^18 gates).", "quantifier": "every floating point format (digits, smallest and largest exponent), rounding to nearest, circuit, initial value, stored gate entries within the rounding error", "why_tests_cant": "overflow and underflow depend on values of amplitudes over all circuits; a test sees a few circuits and no exact reference", "anchors": ["qip-iterators/src/matrix_ops.rs: apply_op_overwrite", "qip-iterators/src/iterators/ops.rs: sum_for_op_cols", "qip/src/builder.rs: calculate_state_with_init"]}
{"id": "C88", "title": "Measurements in floating point arithmetic", "statement": "Whatever gates have been applied to the initial state, a measurement in IEEE arithmetic never reports an outcome whose computed probability is zero, for draws between 0 and 1. A measurement of distinct qubits always has a result. If no draw of a circuit of gates and measurements comes closer to a boundary between two outcomes than the accumulated error, every run in floating point arithmetic, in any order of the additions, reports the outcomes of the exact run, with finite positive probabilities near the exact ones, and ends in a finite state near the exact collapsed state.", "quantifier": "every floating point format, rounding to nearest, circuit of gates and measurements, initial value, draws, order of the additions", "why_tests_cant": "rounding errors in the sums of probabilities show only for special draws of probability 2^-24 or less, and there is no exact reference to compare with", "anchors": ["qip/src/state_ops/measurement_ops.rs: soft_measure", "qip/src/state_ops/measurement_ops.rs: measure_prob_fn", "qip/src/state_ops/measurement_ops.rs: measure_state", "qip/src/builder.rs: calculate_state_with_init"]}
{"id": "C89", "title": "Which calls panic", "statement": "After any history of builder calls without repeated split indices, a call on registers the program owns panics exactly when a split is given the size of the register as an index, an absolute split meets that size as a qubit number of the register, or index groups overlap or go beyond the register. It returns an error exactly when a circuit object does not fit, a CNOT has several controls, swapped registers differ in size, a basic Toffoli has other than two controls, or the divisor of an rz_pi_by is zero. Neither changes the builder. calculate_state_with_init panics exactly when a gate other than a global phase was applied to the wrong number of qubits, or an initial value names a qubit the builder does not have; never because of the draws of measurements.", "quantifier": "every history of builder calls, every call, initial values and draws", "why_tests_cant": "panics depend on the combination of earlier calls; a test covers a few programs", "anchors": ["qip/src/builder.rs: split_register_relative", "qip/src/builder_traits.rs: split_relative_index_groups", "qip/src/builder.rs: calculate_state_with_init"]}
{"id": "C90", "title": "Equivalent pieces of circuit cannot be told apart", "statement": "Replacing gates in the middle of a circuit with measurements by other gates that do the same up to a factor of absolute value one, on the states that occur there, changes neither the outcomes nor the probabilities reported for any draws, nor the probabilities of sequences of outcomes; the state returned is multiplied by the factor. In particular a subcircuit followed by its inverse, put anywhere, changes nothing.", "quantifier": "every circuit of gates and measurements, position, pair of equivalent gate lists, initial values, draws in (0,1)", "why_tests_cant": "compares runs of different circuits for all states, positions and random draws", "anchors": ["qip/src/builder.rs: calculate_state_with_init, invert_subcircuit", "qip/src/state_ops/measurement_ops.rs: measure, soft_measure"]}
{"id": "C91", "title": "Measurements may be put off past gates that leave the register alone", "statement": "A measurement may be exchanged with the gates after it, if these leave the value of the measured register alone on the basis states that occur: phase gates, gates on other qubits, CNOTs that use measured qubits as control only. All sequences of outcomes keep their probabilities, and runs with the same outcomes report the same probabilities and end in the same state (principle of deferred measurement).", "quantifier": "every circuit of gates and measurements, position, list of gates, initial values, outcomes, draws in (0,1)", "why_tests_cant": "a statement about probability distributions of two circuits, for all circuits", "anchors": ["qip/src/builder.rs: calculate_state_with_init, measure", "qip/src/state_ops/measurement_ops.rs: measure"]}
{"id": "C92", "title": "How many circuit elements and qubits the circuits take", "statement": "A Toffoli gate with any number of controls and targets and every arithmetic circuit, called at once or inside any conditions, appends exactly the stated number of elements of each kind, a function of the sizes of the registers and of the number of control qubits. It leaves as many qubits in use as before, and the builder grows exactly to what is needed for the stated number of temporaries at once (for circuits built by inversion: at most); calling it again adds no qubits. An exp_mod takes elements quadratic in the size of the modulus and linear in that of the exponent, and qubits linear in their product. A qfft of n qubits appends n H gates, n(n-1)/2 rotations and 3*(n/2) CNOT gates; inside conditions its H gates and swaps are replaced by controlled ones, while the n(n-1)/2 rotations stay uncontrolled.", "quantifier": "every builder, conditions, register sizes, number of controls and targets", "why_tests_cant": "the numbers hold for all sizes and nestings; a test counts single circuits", "anchors": ["qip/src/builder_traits.rs: toffoli, basic_toffoli", "qip/src/boolean_circuits/arithmetic.rs: copy, rshift, add, add_mod, times_mod, square_mod, exp_mod", "qip/src/conditioning.rs: try_apply_with_condition", "qip/src/builder.rs: make_zeroed_temp_qubit, return_zeroed_temp_register", "qip/src/qfft.rs: qfft"]}
{"id": "C93", "title": "A program! text does what it says", "statement": "For every well written program text - builder, distinct input registers, lines with optional control, bit mask, function, arguments, registers with index lists or ranges [a..b] and [a..=b], bracketed groups - the code generated calls the functions named, in order, with the qubits written: the input of each name, and of a range exactly the indices from a below b (or up to b). It compiles exactly if every name and expression has a meaning; repeated inputs never compile. The documented programs are the ones meant.", "quantifier": "every text, names, expressions, meaning of functions and numbers, builder and registers", "why_tests_cant": "the space of texts is unbounded; tests expand single programs", "anchors": ["qip-macros/src/lib.rs: program, parse_list_of_registers, parse_register_and_indices", "qip/src/macros/program.rs: QubitIndices"]}
{"id": "C94", "title": "The debug text of an op shows what it is", "statement": "Two ops made by the constructors have the same debug text exactly if they differ at most in their matrix entries; the text exists for all of them. In general formatting panics exactly if some controlled op has more control indices than indices.", "quantifier": "every op of any nesting and indices", "why_tests_cant": "injectivity over all ops", "anchors": ["qip-iterators/src/iterators/ops.rs: fmt"]}
{"id": "C95", "title": "#[invert] reads functions as they are written", "statement": "For every function with attributes, visibility, generics, a builder, other arguments, result type and where clause, #[invert] writes the same head with the new name (the one given or f_inv), calls the function by its name, and takes exactly the arguments after the builder that are not listed for registers, in order.", "quantifier": "every function signature and attribute", "why_tests_cant": "the space of signatures is unbounded; the crate only uses a few forms", "anchors": ["qip-macros/src/lib.rs: invert, parse_function_args"]}
{"id": "C96", "title": "The result of every circuit", "statement": "For a circuit of gates, global phases, stochastic and collapsing measurements in any order (every circuit the builder can make) the calculation succeeds, and state, reported results and the probabilities of all sequences of outcomes are those of a machine with two states, the current and the previous one: a gate acts on the current state, a collapsing measurement projects it, a stochastic measurement or global phase exchanges the two, and so does a measurement that finds an outcome of probability zero (always 0 in the zero state). Without stochastic measurements and global phases these are the rules of quantum mechanics.", "quantifier": "every history of builder calls, initial value, draws, sequence of outcomes", "why_tests_cant": "all circuits and draws; probabilities are real numbers", "anchors": ["qip/src/builder.rs: calculate_state_with_init, measure, measure_stochastic, apply_global_phase", "qip/src/state_ops/measurement_ops.rs: measure, soft_measure, measure_probs"]}
{"id": "C97", "title": "A measured register keeps its value", "statement": "If only stochastic measurements and global phases come between two measurements of a register, the second repeats the outcome of the first.", "quantifier": "every circuit, register, initial value, sequence of outcomes", "why_tests_cant": "random outcomes; all circuits", "anchors": ["qip/src/builder.rs: calculate_state_with_init", "qip/src/state_ops/measurement_ops.rs: measure"]}
{"id": "C98", "title": "No qubit is ever in two registers, in any program", "statement": "In every program made of the builder methods and library functions (splits naming no position twice), its own functions, program!, #[invert] and inverter, working at any depth of conditions and going on after errors, the registers owned, the condition registers of the builders and the pool of temporaries never share a qubit, no register holds a qubit twice or is empty, and all qubits are allocated.", "quantifier": "every program, nesting of conditions, sequence of calls and errors", "why_tests_cant": "all programs", "anchors": ["qip/src/builder.rs: impl CircuitBuilder, TemporaryRegisterBuilder, Subcircuitable for LocalBuilder", "qip/src/conditioning.rs", "qip/src/builder_traits.rs", "qip/src/inverter.rs", "qip/src/macros/program_ops.rs", "qip-macros/src/lib.rs: program, invert", "qip/src/boolean_circuits/arithmetic.rs", "qip/src/qfft.rs"]}
{"id": "C99", "title": "The only gates that do not fit their qubits are rotations of several qubits", "statement": "In every program as in C98, every circuit element acts on at least one qubit, on distinct allocated qubits and on as many as its object is made for. Calculating the state panics exactly when the initial values name an unallocated qubit or some gate does not fit its number of qubits; if the circuit objects the program brings in itself fit and its matrices are unitary, the latter happens exactly when a rotation acts on several qubits. Otherwise the calculation succeeds whatever is measured, with the results described by C96.", "quantifier": "every program, nesting of conditions, sequence of calls and errors; all initial values and random numbers", "why_tests_cant": "all programs", "anchors": ["qip/src/builder.rs: impl CircuitBuilder, Subcircuitable for LocalBuilder, invert_circuit_object, calculate_state_with_init", "qip/src/conditioning.rs", "qip/src/builder_traits.rs", "qip/src/inverter.rs", "qip/src/macros/program_ops.rs", "qip/src/boolean_circuits/arithmetic.rs", "qip/src/qfft.rs"]}
{"id": "C100", "title": "A function touches only what it is given", "statement": "In every program as in C98, a call of a function at any depth of conditions only adds elements to the circuit, also if it fails, and these act on the registers moved into the call, the condition registers, the temporaries in the pool and newly allocated qubits. Measuring another register of the program gives every outcome with the same probability whether or not the function was called before (summing over the outcomes of measurements in the function; circuits without global phases, stochastic measurements and rotations of several qubits).", "quantifier": "every program and function, nesting of conditions, success or error; all initial values and outcomes", "why_tests_cant": "all programs", "anchors": ["qip/src/builder.rs: impl CircuitBuilder, TemporaryRegisterBuilder, Subcircuitable for LocalBuilder", "qip/src/conditioning.rs", "qip/src/builder_traits.rs", "qip/src/inverter.rs", "qip/src/macros/program_ops.rs", "qip/src/boolean_circuits/arithmetic.rs", "qip/src/qfft.rs"]}
{"id": "C101", "title": "Inverting the functions of programs", "statement": "For every function of a program as in C98 whose own circuit objects fit: inverter and the function made by #[invert] fail as the function does in a new builder; if its circuit has a measurement, they return an Err and add nothing, at any depth of conditions; otherwise, on a builder without conditions, they add the inverse circuit on the registers and temporaries, or panic if the circuit does not reach the last qubit of the registers (or there are no registers). The inverse circuit has only fitting elements; with rotations of single qubits it undoes the circuit for all states, and if the function returns its temporaries to 0, inverter undoes its action on the registers.", "quantifier": "every function of every program, registers, builder state", "why_tests_cant": "all functions that can be written", "anchors": ["qip/src/inverter.rs: inverter_args, inverter, Invertable", "qip/src/builder.rs: invert_subcircuit, apply_pipeline_objects, invert_circuit_object", "qip-macros/src/lib.rs: invert"]}
{"id": "C102", "title": "Measurement handles in all programs", "statement": "In every program as in C98 whose own circuit objects do not measure, the number of handles given out is the number of measurements in the circuit, later handles are larger, and the handle returned by measure or measure_stochastic fetches, whatever the program does afterwards (functions at any depth of conditions, failing calls, subcircuits, temporaries), the result of that very measurement: the outcome drawn from the state of the circuit before the call with its Born probability, or the Born probabilities of all outcomes. Fetching it as the other kind gives nothing.", "quantifier": "every program before and after the call, all registers, initial values and random numbers", "why_tests_cant": "all programs", "anchors": ["qip/src/builder.rs: measure, measure_stochastic, get_measurement, get_stochastic_measurement, calculate_state_with_init", "qip/src/builder.rs: apply_subcircuit", "qip/src/conditioning.rs", "qip/src/inverter.rs"]}
{"id": "C103", "title": "Condition registers only grow", "statement": "A function of a program as in C98 that never goes on after an Err (its own functions inverted by inverter or #[invert] may do anything), called inside any number of conditions, leaves on success every condition register in place: its qubits in the same order, possibly followed by more (conditioning S or T on several qubits moves all but the last into the condition). In particular dissolve never panics after such a function and returns a register that begins with the one given to condition_with.", "quantifier": "every such function of every program, registers, builder state, nesting of conditions", "why_tests_cant": "all programs", "anchors": ["qip/src/conditioning.rs: Conditioned, condition_with, dissolve, apply_circuit_object, try_apply_with_condition", "qip/src/builder.rs: try_apply_with_condition", "qip/src/macros/program_ops.rs", "qip/src/inverter.rs"]}
{"id": "C104", "title": "Nothing happens inside a condition that is not met", "statement": "A function of a program as in C98 that never goes on after an Err, called inside any number of conditions and having returned, adds a circuit that leaves alone every basis state (with clean temporaries) in which some qubit of some condition is 0, up to one phase that is the same for all these states, and so every superposition of them; the temporaries are clean afterwards. The phase is 1 if the function conditions no Rz object and inverts no function of its own. Left out are the calls of rotations and of the Fourier transform, which are not conditioned (C37), the giving back of temporaries, which the caller answers for, and circuits with elements that do not follow the textbook (C34, C43, C97).", "quantifier": "every such function of every program, registers, builder state, nesting of conditions, input state", "why_tests_cant": "all programs and states", "anchors": ["qip/src/conditioning.rs: Conditioned, condition_with, apply_circuit_object, apply_conditioned_subcircuit", "qip/src/builder.rs: try_apply_with_condition", "qip/src/builder_traits.rs: basic_toffoli, toffoli", "qip/src/macros/program_ops.rs", "qip/src/inverter.rs"]}
{"id": "C105", "title": "Structured programs do what they say", "statement": "A program made of named one-qubit gates, cnot, swap, toffoli with one or two controls, negate_bitmask, sum, carry, copy and rshift - and, where no condition surrounds them, also of named gates on registers of any size, toffoli with any controls and targets, unitary matrices, rotations of a qubit, add, add_inv, carry_inv, copy_inv, lshift and qfft - by composition, condition_with ... dissolve and program! with plain, control and control(mask) lines, and (outside) inverses as in C107, nested in any way, possibly chosen by the register sizes, called on a builder inside any number of conditions with registers that fit, succeeds, returns its registers, and adds a circuit which does to every state in which all conditions hold what the program says (gates on their qubits, the body of a condition where the control register is all ones, or holds the mask), and nothing to the others. Programs whose H, Y and toffoli are all inside conditions of their own do inside further conditions exactly what they do outside. Qubits outside their registers keep their value and have no influence.", "quantifier": "every such program, register sizes and positions, builder state, nesting of conditions, input state", "why_tests_cant": "all programs, nestings and states", "anchors": ["qip/src/conditioning.rs: condition_with, dissolve, Conditioned", "qip/src/macros/program_ops.rs", "qip/src/builder_traits.rs", "qip-macros/src/lib.rs: program"]}
{"id": "C106", "title": "From programs to results", "statement": "A main program that allocates registers of any positive sizes in a new builder, runs structured programs (C105) on them and measures any of its registers at any point and any number of times succeeds, returns its registers and the handles 0, 1, 2, ... of its measurements. Its calculation with any initial values of registers succeeds: with independent uniform draws the outcomes ms have the probability that quantum mechanics gives them (the squared length of what the programs, by their meaning in C105, and the projections leave of the initial state); for any draws in (0,1) the handles fetch outcomes of positive probability together with the probability of each given the earlier ones, and the state vector returned is what is left, scaled to length 1, all temporaries being 0. Without measurements the state vector is the one the programs make.", "quantifier": "every such main program, register sizes, initial values, draws", "why_tests_cant": "all programs, outcomes and draws", "anchors": ["qip/src/builder.rs: register, measure, calculate_state_with_init", "qip/src/conditioning.rs", "qip/src/macros/program_ops.rs", "qip-macros/src/lib.rs: program"]}
{"id": "C107", "title": "Inverses of structured programs", "statement": "What a structured program (C105) does to its registers does not depend on which qubits they are. Outside conditions it preserves the length of every state. If it changes the last qubit of its registers or is influenced by it, inverter and the function made by #[invert], called outside conditions, succeed, return the registers and do the adjoint of the program: every amplitude is the conjugate of that of the opposite transition, and program and inverse undo each other. Inverses may be used in structured programs as any other function, and inverted again, which gives the program back.", "quantifier": "every structured program, register sizes and positions, builder state, input state", "why_tests_cant": "all programs, positions and states", "anchors": ["qip/src/inverter.rs: inverter_args, inverter", "qip/src/builder.rs: invert_subcircuit, apply_pipeline_objects", "qip-macros/src/lib.rs: invert"]}
{"id": "C108", "title": "Circuits of structured programs applied elsewhere", "statement": "make_subcircuit returns the whole circuit made so far, at any depth of conditions. If a structured program (C105) that changes the last qubit of its registers or is influenced by it is carried out on new registers of a new builder, the circuit taken with make_subcircuit and applied with apply_subcircuit to registers of the same sizes in another builder, this succeeds, returns the qubits and does what the program does on these registers. Through any nesting of conditions it does so when all conditions hold and nothing otherwise, if the circuit consists of X, Z, S, T and CNOT gates.", "quantifier": "every structured program, register sizes and positions, builder state, nesting of conditions, input state", "why_tests_cant": "all programs, positions and states", "anchors": ["qip/src/builder.rs: make_subcircuit, apply_subcircuit, apply_pipeline_objects", "qip/src/conditioning.rs: make_subcircuit, apply_subcircuit"]}
{"id": "C109", "title": "The programs of Deutsch and Jozsa and of Bernstein and Vazirani", "statement": "For every structured program (C105) that adds a function f of an n-qubit input register to a one-qubit output, the main program that allocates the registers, applies X and H to the output, H to the input, the oracle, H to the input and measures the input succeeds, and the measurement gives v with probability (2^-n sum_u (-1)^(f(u) + u.v))^2; whatever is drawn, the reported probability is this one. If f is the parity of the bits of u at which a has a 1, the outcome is always a. If f is constant the outcome is always 0, if f is balanced it never is. Lines control(v) x for all v with f(v) = 1 make such an oracle for every f, cnot gates from the ones of a for the parity.", "quantifier": "every n > 0, function of n bits, oracle program, random numbers", "why_tests_cant": "all sizes, functions, oracle programs and random numbers; probabilities", "anchors": ["qip-macros/src/lib.rs: program", "qip/src/builder.rs: calculate_state_with_init, measure", "qip/src/builder_traits.rs: h, x, cnot", "qip/src/macros/program.rs: negate_bitmask"]}
{"id": "C110", "title": "Grover search", "statement": "For every structured program (C105) that adds a function f of an n-qubit input register to a one-qubit output, and every number k of rounds, the main program that prepares the registers, applies k times the oracle, H, control(0) x and H, and measures the input succeeds. With M the number of marked inputs and t = arcsin sqrt(M/2^n), a marked v is measured with probability sin^2((2k+1)t)/M and any other with cos^2((2k+1)t)/(2^n-M); whatever is drawn, the reported probability is this one. Together the marked inputs have probability sin^2((2k+1)t), and if M > 0 there is a k <= pi/4 sqrt(2^n/M) for which this is at least 1 - M/2^n.", "quantifier": "every n > 0, function of n bits, oracle program, number of rounds, random numbers", "why_tests_cant": "all sizes, functions, oracle programs and numbers of rounds; probabilities", "anchors": ["qip-macros/src/lib.rs: program", "qip/src/builder.rs: calculate_state_with_init, measure", "qip/src/builder_traits.rs: h, x", "qip/src/macros/program.rs: negate_bitmask"]}
{"id": "C111", "title": "Wide registers", "statement": "qfft succeeds on every register that is not empty, for angles 1/2^d of all qubit distances d, and the masks of program! conditions select the qubits of their value.", "quantifier": "every register length, both kinds of build (with and without overflow checks), every u64 mask", "why_tests_cant": "a state of 64 qubits cannot be simulated, and tests run with overflow checks only", "anchors": ["qip/src/qfft.rs", "qip/src/builder.rs", "qip/src/macros/program.rs"]}
{"id": "C112", "title": "Structured programs with rotations inside conditions", "statement": "A structured program (C105) that also uses rotation methods of a qubit and qfft inside conditions, called on a builder inside any number of conditions with registers that fit, succeeds, returns its registers, and adds a circuit which does to every state in which all conditions hold what the program says, where H inside conditions is the matrix of C36; to the others, and wherever a condition of the program itself does not hold, it does the rotations only, in their order. For the programs of C105 this is what C105 says. Qubits outside the registers keep their value and have no influence in either case. So it is not true that a program inside a condition does nothing to the states in which the condition does not hold: qfft on two qubits multiplies them by a phase.", "quantifier": "every such program, register sizes and positions, builder state, nesting of conditions, input state", "why_tests_cant": "all programs, nestings and states", "anchors": ["qip/src/conditioning.rs: RotationsBuilder for Conditioned", "qip/src/qfft.rs", "qip-macros/src/lib.rs: program"]}
{"id": "C113", "title": "Looking at the state from anywhere", "statement": "A main program that allocates registers of any positive sizes in a new builder, runs structured programs on them (with rotations also inside conditions, C112), measures registers, makes a builder with conditions and works on it for a while, to any depth of nesting, and calculates the state at any point, also on a builder with conditions, succeeds. It returns its registers, the handles 0, 1, 2, ... of its measurements and one result per calculation. Each result shows everything that happened before the calculation and nothing else: it reports outcomes of positive probability with the probability of each given the earlier ones, and its state vector is what they leave of the initial state, scaled to length 1, including the parts in which the conditions do not hold. A builder with conditions calculates (calculate_state, calculate_state_with_init, make_circuit_matrix) what the builder without conditions under it calculates. The outcomes of a calculation after the program follow the Born rule.", "quantifier": "every such main program, register sizes, initial values, draws in (0,1)", "why_tests_cant": "all programs, nestings, places of calculations and draws", "anchors": ["qip/src/conditioning.rs: calculate_state_with_init, condition_with, dissolve", "qip/src/builder_traits.rs: calculate_state, make_circuit_matrix", "qip/src/builder.rs: calculate_state_with_init, measure"]}
{"id": "C114", "title": "Calculations of wide circuits", "statement": "On a 64-bit machine calculate_state_with_init ends with a panic or returns a vector with an entry for each of the 2^n basis states of the n qubits, in builds with and without overflow checks.", "quantifier": "every number of qubits, initial values, draws, both kinds of build, both precisions", "why_tests_cant": "state vectors of this size do not fit into memory", "anchors": ["qip/src/builder.rs: calculate_state_with_init"]}
{"id": "C115", "title": "Whole calculations on machine words", "statement": "On a 64-bit machine, as long as the state vector fits into a Vec, no index overflows anywhere in calculate_state_with_init: start, gates, controls, swaps, measurements and stochastic measurements give the same result, panic in the same cases and record the same measurements as with unbounded numbers, and builds with and without overflow checks agree.", "quantifier": "every circuit on distinct qubits of the builder (gates of a wrong size included), every number of qubits whose vector fits into a Vec, initial values, draws, both kinds of build, both precisions", "why_tests_cant": "overflow only shows for circuits too wide to run in a test", "anchors": ["qip/src/builder.rs: calculate_state_with_init (L388-507)", "qip/src/state_ops/matrix_ops.rs: make_matrix_op (L12-27)", "qip/src/state_ops/measurement_ops.rs: measure, measure_probs", "qip-iterators/src/matrix_ops.rs: full_to_sub, sub_to_full, apply_op_overwrite", "qip-iterators/src/iterators/qubit_iterators.rs"]}
{"id": "C116", "title": "Norm of wide calculations", "statement": "On a 64-bit machine a calculation without measurements ends with a panic or returns a state of norm 1, in builds with and without overflow checks.", "quantifier": "every number of qubits, initial values, draws, both kinds of build, both precisions", "why_tests_cant": "state vectors of this size do not fit into memory", "anchors": ["qip/src/builder.rs: calculate_state_with_init (L388-507)"]}
{"id": "C117", "title": "Sizes of wide matrices", "statement": "On a 64-bit machine make_matrix_op accepts a vector of entries for k qubits only if there are 4^k entries, in builds with and without overflow checks.", "quantifier": "every number of qubits, vectors of entries, both kinds of build", "why_tests_cant": "matrices of this size do not fit into memory", "anchors": ["qip/src/state_ops/matrix_ops.rs: make_matrix_op (L12-27)"]}
{"id": "C118", "title": "Initial values of foreign qubits", "statement": "On a 64-bit machine calculate_state_with_init panics if an initial value is given for a register with a qubit that the builder does not have, in builds with and without overflow checks.", "quantifier": "every builder, registers, initial values, both kinds of build", "why_tests_cant": "the qubits of registers from other builders are arbitrary numbers", "anchors": ["qip/src/builder.rs: calculate_state_with_init (L393-409)"]}
{"id": "C119", "title": "Stochastic measurements in floating point arithmetic", "statement": "For every circuit of gates, unitary user matrices, global phases and stochastic measurements, and every initial value, a calculation in IEEE arithmetic ends without a panic, whatever the order of the additions. Every stochastic measurement reports one number for each outcome, finite, not negative, and within E(2+E) + 24*2^(n-p) of the one that the exact calculation reports, where E is 2^-p times the cost of the circuit, 64 for each gate and 16*4^k for each user matrix on k qubits; the final state is finite and within E of the exact one. With measurements in between the same holds as long as no draw comes near a boundary between two outcomes.", "quantifier": "every floating point format, rounding to nearest, circuit, initial value, draws, order of the additions", "why_tests_cant": "rounding depends on the order in which threads add up and on the whole circuit; there is no exact reference to compare with", "anchors": ["qip/src/state_ops/measurement_ops.rs: measure_probs", "qip/src/state_ops/measurement_ops.rs: measure_prob_fn", "qip/src/builder.rs: calculate_state_with_init"]}
{"id": "C120", "title": "Rational angles on machine words", "statement": "For every ratio of 64-bit numbers in lowest terms and builds with and without overflow checks, ry_ratio rotates by that ratio, the inverse of a rotation by it is the rotation by the negated ratio, and a global phase under a condition uses half of it; for every 64-bit number m, rx_pi_by, ry_pi_by and apply_global_phase_pi_by use the ratio 1/m (and panic for 0).", "quantifier": "every ratio, number, register, builder, both kinds of build", "why_tests_cant": "overflows only for a few of 2^128 ratios, and in a way that depends on the build", "anchors": ["qip/src/builder.rs: Neg for RotationObject (L155-164), apply_global_phase_pi_by (L54-56), try_apply_with_condition (L753-776), invert_circuit_object (L911-955)", "qip/src/builder_traits.rs: rx_ratio, ry_ratio, rx_pi_by, ry_pi_by (L594-618)"]}
{"id": "C121", "title": "Measured frequencies in floating point arithmetic", "statement": "For every circuit of gates and unitary user matrices with a measurement at its end and every initial value, calculated in f32 or f64 (p = 24 or 53 digits) with n qubits and the cost G (64 for each gate, 16*4^k for each user matrix on k qubits), where G is at most 2^p and 2^n at most 2^p/64: over N draws evenly spaced in [0, 1) up to an error tau, the share of the runs that report an outcome m differs from the Born probability of m in the exact state by at most (2^n + 1)(2(E(2+E) + 20 2^(n-p) + tau) + 1/N) + 2^n/N with E = G 2^-p, whatever the order of the additions in each run.", "quantifier": "every circuit, initial value, measured register, outcome, number of draws, order of additions, rounding of ties", "why_tests_cant": "a test samples a few of 2^53 draws and sees statistical noise far above the bound", "anchors": ["qip/src/state_ops/measurement_ops.rs: soft_measure (L153-176), measure (L190-214)", "qip/src/builder.rs: calculate_state_with_init (L388-507)"]}
{"id": "C122", "title": "Entries of the gates in floating point arithmetic", "statement": "If cosine, sine and the constants of the standard library are correct to one unit in the last place, calculating a circuit in IEEE arithmetic computes finite entries for every gate, with zeros where the exact gate has zeros and with a relative error of at most 2^-p*sqrt(2)*max(2, 1+T) up to underflow, where T bounds the rational angles. For T = 1 the elements so computed, with user matrices that are unitary up to rounding and angles that are given up to rounding, satisfy what C88, C119 and C121 assume, so their bounds hold for whole calculations from angles and constants to results; for larger T a circuit of G gates other than user matrices gives the exact state up to 24*(3+T)*G*2^-p. The bound has to grow with T.", "quantifier": "every gate, circuit, register, angle, rounding to nearest, binary format (f32 and f64), standard library with this accuracy", "why_tests_cant": "tests compare with the same computed entries; all angles", "anchors": ["qip/src/builder.rs: calculate_state_with_init, RotationObject", "qip/src/state_ops/matrix_ops.rs: make_matrix_op"]}
{"id": "C123", "title": "From programs to measured frequencies in floating point arithmetic", "statement": "For every main program that allocates registers, runs structured programs (C105) and measures a register at the end, calculated in f32 or f64 from the angles, matrices and constants on (library functions correct to one unit in the last place, angles rounded, ratios at most 1, user matrices unitary up to rounding), every draw has a run without a panic, and over N draws evenly spaced up to tau the share of the runs that report m differs by at most the bound of C121 from the probability that quantum mechanics gives the programs, as in C106. In f64 with the 2^53 draws of rand, at most 10 qubits and 1000 gates, the bound is below 2^-24: at least 1 - 2^-24 of the runs of the program of Bernstein and Vazirani report the hidden number, at least 1 - 2^-24 of those of Deutsch and Jozsa report 0 if the function is constant and at most 2^-24 if it is balanced, and the share of the runs of the search of Grover that find a marked input is at least sin^2((2k+1)t), up to the bound for each marked input.", "quantifier": "every such main program, oracle, register sizes, initial value, outcome, number of draws, order of the additions, rounding of ties, library functions with this accuracy", "why_tests_cant": "a test samples a few draws of a few programs", "anchors": ["qip/src/builder.rs: calculate_state_with_init, measure", "qip/src/state_ops/measurement_ops.rs: soft_measure, measure", "qip-macros/src/lib.rs: program"]}
{"id": "C124", "title": "From programs to state vectors and probabilities in floating point arithmetic", "statement": "For every main program that allocates registers and runs structured programs (C105), with any initial values, calculated in f32 or f64 from the angles, matrices and constants on (as in C123), every calculation ends without a panic, whatever the order of the additions, and the state vector returned is finite and differs from the one that the programs make of the initial state by at most E (as vectors), 2^-p times the cost of the circuit; its length is one up to E. A program followed by its inverse gives the initial state back up to E. If the main program ends with measure_stochastic of a register, exactly one list is reported, of as many numbers as the register has values, finite and not negative, each of which differs by at most E(2+E) + 24*2^(n-p) from the probability that quantum mechanics gives the programs. In f64 with at most 10 qubits and 1000 gates the bounds are below 2^-37 and 2^-35.", "quantifier": "every such main program, register sizes, initial value, order of the additions, rounding of ties, library functions with this accuracy", "why_tests_cant": "a test compares a few amplitudes of a few programs, with the rounding of one machine", "anchors": ["qip/src/builder.rs: calculate_state_with_init, measure_stochastic", "qip/src/state_ops/matrix_ops.rs: apply_op", "qip/src/inverter.rs: inverter", "qip-macros/src/lib.rs: program, invert"]}
{"id": "C125", "title": "Joint frequencies of several measurements in floating point arithmetic", "statement": "For every main program of structured programs (C105) and measurements in any order, with any initial values, calculated in f32 or f64 from the angles, matrices and constants on (as in C123): whatever is drawn, the calculation ends without a panic. With J measurements, over all N^J sequences of draws close to 0, 1/N, 2/N, ..., whatever the order of the additions in each of the runs, the share of the runs that report a given list of J outcomes differs from the probability that quantum mechanics gives this list by at most a bound that is explicit in the number of qubits, the cost of the circuit, N and a freely chosen threshold for rare outcomes. In f64 with at most 10 qubits, 1000 gates and two measurements, with the 2^53 draws of rand::random, the bound is below 2^-13. A register measured twice reports two given different outcomes in at most that share of the runs.", "quantifier": "every such main program, initial value, list of outcomes, number of measurements, order of the additions, rounding of ties, library functions with this accuracy", "why_tests_cant": "a test samples a few runs; the state after an unlikely outcome and the draws close to a boundary are not met by it", "anchors": ["qip/src/builder.rs: calculate_state_with_init", "qip/src/state_ops/measurement_ops.rs: measure, measure_state, soft_measure", "qip/src/state_ops/matrix_ops.rs: apply_op"]}
{"id": "C126", "title": "Programs on basis states are calculated without rounding", "statement": "For every main program of structured programs (C105) and measurements in any order whose pipeline has only the gates X, Y, Z, S, CNOT and SWAP, with any initial values and any number of qubits and gates, calculated in any binary floating point format, with library functions of any accuracy: whatever is drawn, as long as no draw is exactly zero, and whatever the order of the additions, the calculation ends without a panic and without any rounding error. The final state is exactly one basis state times a power of i, the one the programs make of the initial value; the reported outcomes are exactly those that quantum mechanics is certain of, each with a probability of exactly one. A program that calls only x, y, z, s, s_dagger, cnot and swap, in any program! lines, has such a pipeline. An oracle made of such gates reports the value of its function in every run; so does the parity oracle of C109, for any number of qubits. With a draw of exactly zero a measurement of any basis state reports 0.", "quantifier": "every such main program, initial value, number of qubits, sequence of draws, order of the additions, floating point format, rounding of ties", "why_tests_cant": "a test runs a few circuits; the draw zero comes up once in 2^53 draws", "anchors": ["qip/src/builder.rs: calculate_state_with_init", "qip/src/state_ops/measurement_ops.rs: measure, measure_state, soft_measure", "qip/src/state_ops/matrix_ops.rs: apply_op"]}
{"id": "C127", "title": "Certain outcomes are reported for every draw, in floating point arithmetic", "statement": "For every main program of structured programs (C105) with all gates and library functions and measurements in any order, of which quantum mechanics predicts the outcomes with certainty, with any initial values, calculated in binary floating point arithmetic: whatever is drawn, as long as the draws stay away from finitely many places, namely the sums of squared amplitudes at which soft_measure goes from one basis state to the next, and whatever the order of the additions, the calculation ends without a panic, reports exactly the predicted outcomes, each with a probability near one, and ends with a state vector near the exact one. In f64 with at most 10 qubits, circuits of at most 1000 gates and four measurements the distance, and all errors, are at most 2^-30. For programs that measure basis states the places are 0 and 1: oracles for any function report its value, the adder reports the sum; for Bernstein and Vazirani and for Deutsch and Jozsa with a constant function they are 0, 1/2 and 1. Over all sequences of the 2^53 draws of rand::random::<f64>(), the share of the runs that report anything else is at most 2^-28 for each measurement and each place.", "quantifier": "every such main program, initial value, sequence of draws away from these places, order of the additions, floating point format with at least 10 bits, rounding of ties, library functions accurate to the last place", "why_tests_cant": "a test repeats a program a few times; a wrong outcome needs a rare draw, and no number of runs shows which draws are safe", "anchors": ["qip/src/builder.rs: calculate_state_with_init", "qip/src/state_ops/measurement_ops.rs: measure, measure_state, soft_measure", "qip/src/state_ops/matrix_ops.rs: apply_op"]}
{"id": "C128", "title": "Simon's program", "statement": "For every structured program (C105) that adds a function f from n bits to m bits of the input register to the output register, the main program that allocates the registers, applies H to the input, the oracle, H to the input and measures the input succeeds, and the measurement gives v with probability sum_w (2^-n sum_(u with f(u)=w) (-1)^(u.v))^2; whatever is drawn, the reported probability is this one. If f takes the same value exactly at u and u xor a, with a not zero, the outcomes are the numbers that have an even number of ones in common with a, each with probability 2/2^n, and a is the only number but 0 that has an even number of ones in common with all of them. If f takes no value twice all numbers have the same probability. Lines control(v) negate_bitmask for all v make such an oracle for every f. In f64, with at most 10 qubits and circuits of at most 1000 gates, over the 2^53 draws of rand::random::<f64>() the frequencies of the outcomes differ from these probabilities by at most 2^-24.", "quantifier": "every n, m > 0, function from n bits to m bits, oracle program, random numbers", "why_tests_cant": "a test runs small instances and sees single outcomes; the absence of odd outcomes and equal probabilities for all functions and sizes cannot be sampled", "anchors": ["qip/src/builder.rs: calculate_state_with_init", "qip/src/builder_traits.rs: h, measure", "qip/src/macros/program.rs: negate_bitmask", "qip-macros/src/lib.rs: program"]}
{"id": "C129", "title": "Teleportation", "statement": "For all structured programs p and q (C105) on a register of n qubits: the main program with three registers of n qubits in which p prepares the first, H and copy entangle the second and third, copy from the first to the second and H on the first follow, the first two registers are measured, and the receiver corrects the third with copy from the second and with copy from the first between two H and applies q, succeeds. Measuring the third register then gives m together with the outcomes s and t with probability 4^-n times the probability of m when q follows p on one register. Whatever is drawn, s and t are reported with probability 2^-n each and the returned state is the state that p and q make of one register, in the third register, with s and t in the others. Without the measurements of the first two registers the outcomes of the third are also those of one register. In floating point arithmetic the joint frequencies of s, t and m are these probabilities up to the bound of C125; in f64 with at most 10 qubits and 1000 gates up to 2^-9.", "quantifier": "every n > 0, every structured program p and q on n qubits, all outcomes, random numbers", "why_tests_cant": "a test sends a few chosen states of one qubit; that every state of every size arrives for every outcome of the sender cannot be sampled", "anchors": ["qip/src/builder.rs: calculate_state_with_init, measure", "qip/src/builder_traits.rs: h", "qip/src/boolean_circuits/arithmetic.rs: copy", "qip/src/state_ops/measurement_ops.rs: soft_measure", "qip-macros/src/lib.rs: program"]}
{"id": "C130", "title": "Dense coding", "statement": "For all n and all messages u, v of n bits each: the main program with two registers of n qubits in which H and copy entangle them, the sender negates the qubits of the ones of u in the first register and, between H, those of v, and the receiver undoes copy and H, succeeds, and the measurements give v and u with probability 1; whatever is drawn, these are fetched with probability 1 and the returned state is the basis state that holds them. Measured on their way, the n qubits of the first register give every number with the same probability, whatever the message. In f64 every pair of draws away from 0 and 1 reports v and u.", "quantifier": "every n > 0, every message of 2n bits, random numbers, floating point runs", "why_tests_cant": "a test sends single messages; that no message is ever misread, and that the qubits on their way are independent of it, needs all of them at every size", "anchors": ["qip/src/builder.rs: calculate_state_with_init, measure", "qip/src/builder_traits.rs: h", "qip/src/boolean_circuits/arithmetic.rs: copy", "qip/src/macros/program.rs: negate_bitmask", "qip-macros/src/lib.rs: program"]}
{"id": "C131", "title": "Deferred measurement", "statement": "A structured program that uses its k-th register only for conditions, as the control of cnot or toffoli, as the source of copy, as an input of sum or carry, or for gates with diagonal matrices (z, s, t, rz and their inverses), at any depth of conditions, program! lines and inversions, leaves the values of this register as they are. So in every main program a measurement of a register can be put off until after programs of this kind: the registers and handles are the same, every sequence of outcomes has the same probability for all initial values, and two calculations that report the same outcomes report the same probabilities and return the same state. Programs of this kind cannot be noticed by measuring the registers they leave as they are. For a program that changes the register this is false.", "quantifier": "every main program: all sizes, all programs and measurements before and after, all initial values, random numbers", "why_tests_cant": "a test moves a measurement in one circuit; that it never matters needs all programs", "anchors": ["qip/src/builder.rs: calculate_state_with_init, measure", "qip/src/conditioning.rs: condition_with, dissolve", "qip/src/builder_traits.rs: cnot, toffoli, rz", "qip/src/boolean_circuits/arithmetic.rs: copy, sum, carry", "qip-macros/src/lib.rs: program, invert"]}
{"id": "C132", "title": "No program clones", "statement": "For all n and all structured programs c with two registers of n qubits and any work registers: prepare one qubit of the first register with a gate that undoes itself, run c, undo the gate in the first and in the second register and measure both. For one of three preparations - nothing, X, H - the outcome 0 and 0, which a clone would give, has probability less than 1. copy gives it with probability 1 for the first two, so it clones basis states, and not for H.", "quantifier": "every n > 0, every structured program, any number and sizes of work registers", "why_tests_cant": "no number of tested programs shows that none clones", "anchors": ["qip/src/builder.rs: calculate_state_with_init, measure", "qip/src/builder_traits.rs: x, h", "qip/src/boolean_circuits/arithmetic.rs: copy", "qip-macros/src/lib.rs: program"]}
{"id": "C133", "title": "Independent programs can be exchanged", "statement": "A structured program has nothing to do with the registers that its text does not name: they keep their values and have no influence. Two programs that share no registers, except for registers both leave as they are in the sense of C131 (common controls, for example), commute. So in every main program two groups of such programs can be exchanged: the registers and handles are the same, every sequence of outcomes has the same probability for all initial values, and two calculations that report the same outcomes report the same probabilities and return the same state. For programs that share a register one of them changes this is false.", "quantifier": "every main program: all sizes, all programs and measurements before and after, all initial values, random numbers", "why_tests_cant": "a test exchanges two gates in one circuit; that the order never matters needs all programs", "anchors": ["qip/src/builder.rs: calculate_state_with_init, measure", "qip/src/conditioning.rs: condition_with, dissolve", "qip-macros/src/lib.rs: program, invert", "qip/src/inverter.rs: inverter"]}
{"id": "C134", "title": "Uncomputing leaves no trace", "statement": "A program of classical library functions takes each basis state to one basis state, up to a phase. Compute with such a program, use the result with a program that leaves the registers of the computation as they are (a controlled gate, a copy into another register), and apply the inverse of the computation: every register of the computation, work registers included, has its initial value again, and measuring it gives that value with probability 1. With copy as the use, the result is added to the target, everything else is as before, and no phase is left. For computations that are not classical (an H gate) this is false.", "quantifier": "all programs, registers, initial values", "why_tests_cant": "a test uncomputes one function on some inputs; that nothing is ever left behind needs all programs and all basis states", "anchors": ["qip-macros/src/lib.rs: program, invert", "qip/src/inverter.rs: inverter", "qip/src/conditioning.rs: condition_with, dissolve", "qip/src/builder.rs: calculate_state_with_init, measure"]}
{"id": "C135", "title": "No signalling between programs", "statement": "Take a main program with any steps, then two groups of steps (programs and measurements) that share no registers, except for registers both leave as they are (controls, measured registers). The outcomes of the second group, together with all earlier ones, have the same probabilities as in the main program without the first group, if one does not look at the outcomes of the first group. So nothing that is done to one half of an entangled state, measurements included, can be seen from the other half. Where the groups have to do with each other this is false: a measurement between two H gates can be seen.", "quantifier": "every main program: all sizes, all programs and measurements, all initial values, all outcomes", "why_tests_cant": "a test looks at the statistics of one circuit; that measuring never disturbs other registers needs all of them", "anchors": ["qip/src/builder.rs: calculate_state_with_init, measure", "qip/src/conditioning.rs: condition_with, dissolve", "qip/src/state_ops/measurement_ops.rs: measure, measure_state", "qip-macros/src/lib.rs: program, invert"]}
{"id": "C136", "title": "A register and its copy are measured alike", "statement": "In a main program whose steps so far, programs and measurements, leave a register that is initially 0 alone, copy another register to it and measure both. Two different outcomes have probability 0; the same outcome twice has exactly the probability that the outcome has without copying, together with all earlier outcomes. And a measurement whose outcome is not looked at can be replaced by a copy: if later steps have nothing to do with the copy, all other outcomes have the same probabilities.", "quantifier": "every main program before, all sizes, registers, initial values of the other registers, outcomes", "why_tests_cant": "a test compares outcomes of one circuit on some runs; that they never differ, for every state the program before can make, needs all of them", "anchors": ["qip/src/boolean_circuits/arithmetic.rs: copy", "qip/src/builder.rs: calculate_state_with_init, measure", "qip-macros/src/lib.rs: program"]}
