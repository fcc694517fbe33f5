{
 "C100": {
  "status": "proved",
  "note": "Programs as in C98. That global phases, stochastic measurements and rotations of several qubits do disturb or stop the calculation is the subject of C34, C43 and C97."
 },
 "C101": {
  "status": "proved",
  "note": "Which functions make inverting panic is part of the statement (see C40, C41 for the claim that none does). On conditioned builders only the failures are stated."
 },
 "C102": {
  "status": "proved",
  "note": "Circuit objects that measure can be brought in with apply_circuit_object or apply_subcircuit; for these the handles are wrong (C42). The statement excludes programs that do this."
 },
 "C103": {
  "status": "proved",
  "note": "C103_lost_after_err_counterexample shows why programs that go on after an Err are left out: the condition register is lost then."
 },
 "C104": {
  "status": "proved",
  "note": "C104_asleep (basis states), C104_superposition (all states), C104_exactly (no phase). C104_phase_counterexample: a conditioned Rz does leave a phase, as found in C36. C104_returnTemp_counterexample shows why return_temp_register is left out; rotations and the Fourier transform ignore conditions (C37)."
 },
 "C105": {
  "status": "proved",
  "note": "C105_does (inside any conditions), C105_outside, C105_controlled, C105_local. Inside conditions H, Y and toffoli with two controls have other matrices (C36, C83), which the meaning of a program takes into account; C105_y_counterexample shows that C105_controlled needs its hypothesis."
 },
 "C106": {
  "status": "proved",
  "note": "C106_runs, C106_born, C106_state, C106_unmeasured. Measurements as by measure; measure_stochastic changes the state that later elements see (C81) and is left out here."
 },
 "C107": {
  "status": "proved",
  "note": "C107_anywhere, C107_unitary, C107_inverse, C107_twice. Inside conditions inverses of programs are treated in C101 and C104 only."
 },
 "C111": {
  "status": "partial",
  "note": "Refuted by C111_refuted: with overflow checks qfft panics on every register of 64 qubits or more (C111_panics); without them the exponents wrap and from 65 qubits on the circuit is a wrong one (C111_release, C111_wraps). Up to 63 (64) qubits the function equals the one on unbounded numbers (C111_qfft_partial), and masks do for all lengths (C111_mask); values of 2^64 or more cannot be asked for (C111_mask_wide)."
 },
 "C112": {
  "status": "proved",
  "note": "C112_refuted: the expected statement that nothing happens if the conditions do not hold is false."
 },
 "C113": {
  "status": "proved",
  "note": "C113_root, C113_looks, C113_born. The numbers drawn are part of each calculation in the program. measure is a method of LocalBuilder only, so a program inside conditions does not measure."
 },
 "C114": {
  "status": "partial",
  "note": "Refuted (C114_refuted): without overflow checks an empty circuit of 64 k + j qubits returns a state of j qubits (C114_wraps). C114_fits_partial: as long as the vector fits into a Vec (58 qubits for f64, 59 for f32) the result is that of the unbounded model. C114_panics, C114_release_panics: wider circuits panic with overflow checks, and without them up to 63 qubits. The loop over the circuit is not modelled on words here (see C57); the memory of the machine is not modelled."
 },
 "C115": {
  "status": "proved",
  "note": "C115_words: equal to the unbounded model for every circuit of elements on distinct qubits whose matrices fit into a Vec. C115_builds: the two kinds of build agree. The memory of the machine is not modelled, only the size limit of Vec; usize has 64 bits."
 },
 "C116": {
  "status": "partial",
  "note": "Refuted (C116_refuted): without overflow checks a NOT gate on the first of 64 qubits gives the vector [0] (C116_zero). C116_norm_partial: for circuits of unitary gates whose state fits into a Vec the norm is 1. C116_panics_partial: with overflow checks, or up to 63 qubits, a circuit whose state does not fit panics."
 },
 "C117": {
  "status": "partial",
  "note": "Refuted (C117_refuted): without overflow checks 33 qubits and 4 entries are accepted; C117_wraps says exactly which sizes are, C117_panics that 32 or more qubits panic with overflow checks. C117_size_partial: for up to 31 qubits exactly the vectors with 4^k entries are accepted."
 },
 "C118": {
  "status": "partial",
  "note": "Refuted (C118_refuted): without overflow checks an initial value for qubit 66 of a circuit of three qubits sets the last one (C118_set); C118_alias: only the numbers modulo 64 matter; C118_twice: in a register of more than 64 qubits the value is repeated. C118_panics_partial: with overflow checks the calculation panics."
 },
 "C119": {
  "status": "proved",
  "note": "C119_stochastic: circuits without draws; C119_circuit: with measurements, under the condition on the draws that C88 needs; C119_probs and C119_total: one stochastic measurement; C119_exact: with exact numbers the loop is the one of the exact model; C119_stored: the rounded circuits exist; C119_simple: examples/simple.rs in f64. The exact results compared with are those of the code, including the stale buffers of C81."
 },
 "C120": {
  "status": "partial",
  "note": "The claim is false in both kinds of build (C120_refuted). A numerator -2^63 cannot be negated: ry_ratio and the inverse panic, or without checks rotate the other way, so that the inverse is the rotation itself. An odd numerator over a denominator of 2^62 or more cannot be halved: a panic, or without checks a phase of the other sign. The number -2^63 in the _pi_by methods: a panic, or the negated angle. In all other cases the claim holds (the _partial theorems), and rx_ratio always is right (C120_rx)."
 },
 "C121": {
  "status": "proved",
  "note": "C121_measure: one measurement of a state known up to an error; C121_frequency: a circuit with a measurement at its end; C121_f64: in f64 with the 2^53 draws of rand, up to 10 qubits and 1000 gates (or user matrices of the same cost), no frequency is off by more than 2^-24."
 },
 "C122": {
  "status": "proved",
  "note": "C122_entries: one gate; C122_elements: the elements of a circuit; C122_stochastic, C122_circuit: whole calculations (with C119); C122_measured, C122_frequency: the same for C88 and C121; C122_angles: rational angles of any size; C122_matrix: a circuit with a rounded user matrix; C122_accurate: the hypothesis can be met; C122_wide_angle: why the bound depends on the angle. The accuracy of cos, sin and Ratio::to_f64 is assumed."
 },
 "C123": {
  "status": "proved",
  "note": "C123_frequency: every main program; C123_circuit: the hypotheses can be met; C123_query, C123_search: the programs of C109 and C110; C123_bound: the bound in f64; C123_bernstein_vazirani, C123_deutsch_jozsa, C123_found: what the runs report."
 },
 "C124": {
  "status": "proved",
  "note": "C124_state, C124_length: the state vector; C124_back: a program and its inverse; C124_probabilities: measure_stochastic at the end; C124_circuit: the hypotheses can be met; C124_bound: the bounds in f64."
 },
 "C125": {
  "status": "proved",
  "note": "C125_joint: circuits; C125_programs: main programs; C125_bound: closed form of the bound; C125_f64: numbers; C125_again: a register measured twice."
 },
 "C126": {
  "status": "proved",
  "note": "C126_stored: the numbers; C126_circuit: circuits; C126_programs: main programs; C126_text: by the text of the program; C126_oracle, C126_parity: oracles; C126_zero: the draw zero."
 },
 "C127": {
  "status": "proved",
  "note": "C127_circuit: circuits; C127_programs: main programs; C127_certain: which programs these are; C127_f64: numbers; C127_oracle, C127_add, C127_query, C127_bernstein_vazirani, C127_deutsch_jozsa: instances; C127_share, C127_share_f64, C127_bernstein_vazirani_share, C127_add_share: the share of the sequences of draws that report them."
 },
 "C15": {
  "status": "partial",
  "note": "Refuted for two or more ops (C15_apply_ops_not_sequential): rows are taken apart in the opposite order to columns. Exact behaviour, single-op and no-op cases proved."
 },
 "C23": {
  "status": "partial",
  "note": "The distribution (Lebesgue measure of the draws giving m = Born probability) is proved in full; 'only positive-probability outcomes' is refuted for the single draw 0 (C23_refuted) and proved for every other draw."
 },
 "C24": {
  "status": "partial",
  "note": "Refuted by C24_no_cloning_refuted: split_register_relative with a repeated index hands out the same qubit twice. Proved for every history whose split calls repeat no index; in every history whatever, different registers and the pool share no qubit (C24_disjoint_partial)."
 },
 "C26": {
  "status": "partial",
  "note": "Refuted by C26_split_absolute_refuted: absolute indices are looked up but passed on as absolute instead of relative ones. Proved for registers whose qubits are numbered like their positions; panics characterised. C26_positions_partial gives the exact behaviour on every register and index list: the numbers are used as positions."
 },
 "C27": {
  "status": "partial",
  "note": "Refuted by C27_ignored_refuted: the index equal to the register size panics instead of being ignored. Proved for all other out-of-range indices."
 },
 "C32": {
  "status": "partial",
  "note": "Refuted by C32_refuted: with two or more controls and m targets the flipped states get the factor (-i)^(m-1). Exact action for all sizes in C32_toffoli_partial; the stated behaviour for one control or one target in C32_single_partial."
 },
 "C33": {
  "status": "proved",
  "note": "Proved in every history (C33_make_temp, C33_toffoli, C33_conditioned) for the conditioned X, Z, S, T and CNOT with any number of conditions and targets. Where a register holds a qubit twice (C24) the call may panic, which ends the program; the theorems named _no_repeat show that it does not otherwise."
 },
 "C34": {
  "status": "partial",
  "note": "Refuted four ways (ry sign, ratio and pi_by lack the factor pi, multi-qubit register panics in calculate). Exact action on one qubit in C34_one_qubit_partial."
 },
 "C35": {
  "status": "partial",
  "note": "Proved for one target qubit and for CNOT, any number of conditions; X and Z on registers with the exact phase. Refuted for S and T on two or more qubits (C35_refuted): they act as if all but the last qubit were conditions and give back other registers."
 },
 "C36": {
  "status": "partial",
  "note": "Refuted for each gate: conditioned Y is -Y, H has angles 1/4 in place of pi/4, Rz also changes states whose conditions fail, the global phase does nothing. Exact behaviour of each proved."
 },
 "C37": {
  "status": "partial",
  "note": "Proved for X, Z, S, T and daggers on one qubit, CNOT and swap on registers. Refuted by the rotation methods (C37_refuted), which ignore the condition altogether (C37_rotations_partial)."
 },
 "C38": {
  "status": "partial",
  "note": "Proved at any depth for all sequences of gates other than Y and H, including that dissolve returns the registers; the exact effect of all sequences with Y and H (C38_sequences_partial); for every object, nesting equals one condition register (C38_conjunction). Refuted for Y, since conditioned Y is -Y."
 },
 "C40": {
  "status": "partial",
  "note": "Refuted (C40_refuted, C40_panics): apply_subcircuit panics whenever the subcircuit reaches neither the last qubit of the register nor one beyond it, so also for the empty subcircuit. Proved for all other subcircuits, measurements included, with the effect on states."
 },
 "C41": {
  "status": "partial",
  "note": "Refuted (C41_refuted) by a function that leaves the last register alone: applying the inverse panics. Proved for every function acting alike in every builder whose circuit reaches the last qubit; functions that measure are refused."
 },
 "C42": {
  "status": "partial",
  "note": "Refuted (C42_refuted): measurements inside an applied subcircuit are not counted, so later handles fetch other results. Proved for every history of the other builder calls."
 },
 "C43": {
  "status": "partial",
  "note": "Refuted by C43_refuted and C43_stochastic_refuted: a lone global phase or stochastic measurement makes the calculation continue from a stale buffer. C43_pair_partial: two in a row restore the state; C43_step gives the exact effect."
 },
 "C44": {
  "status": "proved",
  "note": "sum and carry under any nesting of conditions; carry_inv on the plain builder (inside conditions the generated inverse is wrong, see C36, C58 and C67)."
 },
 "C45": {
  "status": "proved",
  "note": "Every n, every basis state with zero upper carries, any surrounding circuit; wrong sizes are an error leaving the builder unchanged. Plain builder; add inside a condition is treated under C49."
 },
 "C46": {
  "status": "proved",
  "note": "Subtraction modulo 2^(n+1) for every n; inverse of add in both orders on every basis state, also with non-zero carries."
 },
 "C47": {
  "status": "partial",
  "note": "rshift proved for every size under any conditions. The claim about lshift is refuted (C47_refuted): lshift of one qubit panics. For two or more qubits lshift is the inverse in both orders (C47_lshift_partial)."
 },
 "C48": {
  "status": "proved",
  "note": "copy under any nesting of conditions, self inverse; copy_inv inverse on the plain builder; unequal sizes are an error leaving the builder unchanged."
 },
 "C49": {
  "status": "partial",
  "note": "Refuted as stated (C49_refuted: 1+1 modulo 3 with two qubits). C49_exact_partial: for a,b<m the result is the basis state with b=(a+b) mod m if m<=a+b or no borrow occurs in a+b-m, and no basis state at all otherwise. Cause: the add inside the condition."
 },
 "C50": {
  "status": "proved",
  "note": "negate_bitmask for every register, mask and nesting of conditions; control(bits) lines for any function whose conditioned call acts on its own registers when all conditions hold."
 },
 "C51": {
  "status": "proved",
  "note": "Every list of registers and lines, on builders nested in any number of conditions; ill-formed selections panic before the call."
 },
 "C52": {
  "status": "partial",
  "note": "Refuted for every register of two or more qubits, both bit orders, all readings of the angles and even up to a factor per basis state (C52_never, C52_refuted): the controlled rotations are not controlled. Proved: the exact amplitudes for every size (C52_exact_partial), all outcomes equally likely as for the Fourier transform (C52_uniform_partial), and one qubit is right (C52_one_qubit_partial)."
 },
 "C53": {
  "status": "partial",
  "note": "Refuted (C53_zero_refuted, C53_nan_refuted, C53_refuted): 0.0 and -0.0 compare equal and hash differently, and NaN angles make an object differ from itself although Eq is implemented. Proved: exactly when two objects compare equal and when they hash equally (C53_exact_partial), equality implies equal hashes without signed zeros (C53_no_zero_partial), equality is an equivalence without NaN (C53_equivalence_partial)."
 },
 "C54": {
  "status": "proved",
  "note": "cnot, swap, basic_toffoli, rz_pi_by(0) in every builder (any nesting of conditions) leave the builder unchanged; a measurement inside conditions and the inverse of a subcircuit with a measurement are errors that leave the circuit unchanged. rx_pi_by(0), ry_pi_by(0) and apply_global_phase_pi_by(0) panic (C54_other_pi_by)."
 },
 "C55": {
  "status": "partial",
  "note": "Refuted (C55_refuted): inside a bracketed group a semicolon ends the group silently, [ra; rb] is read as [ra] (C55_dropped). Proved: the exact grammar the parser accepts (C55_exact_partial), every strictly written list is read as written and one line is consumed (C55_written_partial, C55_one_line_partial), and the reading is unique (C55_unambiguous_partial)."
 },
 "C58": {
  "status": "partial",
  "note": "Refuted (C58_refuted: a subcircuit of one H). Proved: exact action with the replaced matrices of C36, and the claim itself for circuits without Y and H, at any nesting depth."
 },
 "C59": {
  "status": "partial",
  "note": "Refuted (C59_refuted: 1+1 with two qubits). C59_exact_partial: works if and only if no carry occurs between positions below the last; C59_not_held: no effect if a condition does not hold."
 },
 "C60": {
  "status": "partial",
  "note": "Refuted (C60_refuted): every error of apply_circuit_object on a conditioned builder loses the condition register (C60_lost), later gates and dissolve panic (C60_unusable, C60_dissolve_panics). The errors checked before a gate is applied keep the builder (C60_partial)."
 },
 "C61": {
  "status": "proved",
  "note": "Round trip for whole program texts: every builder expression without a semicolon, distinct inputs and any non-empty list of well formed lines."
 },
 "C62": {
  "status": "proved",
  "note": "For every argument list whose patterns and types contain no top-level name followed by a lone colon."
 },
 "C63": {
  "status": "partial",
  "note": "Refuted (C63_refuted): Vec::dedup only removes neighbours, so ra, rb, ra is accepted. Exact criterion: rejected iff two neighbouring names are equal (C63_exact_partial)."
 },
 "C64": {
  "status": "proved",
  "note": "Right size: the calculated state is the matrix applied to the state without the element (C64_apply_matrix; C64_does for unitary matrices inside longer circuits). Wrong size: accepted, then every calculation panics (C64_wrong_size)."
 },
 "C65": {
  "status": "partial",
  "note": "Refuted (C65_refuted): the object is made with n = r.n() but only 4 entries, so for every register of two or more qubits the call succeeds and no state can be calculated any more (C65_never). Proved for one qubit (C65_one_qubit_partial)."
 },
 "C66": {
  "status": "proved",
  "note": "C66_defaults: same calculated state as LocalBuilder's own objects, and it is the textbook gate. C66_gate: the gate methods with default objects. (The doc comment of make_s says -i; the code uses i, which is the S gate.)"
 },
 "C67": {
  "status": "partial",
  "note": "Refuted (C67_refuted: 2-1). C67_exact_partial: inside held conditions add_inv subtracts if and only if every set bit of a is set in b, and otherwise yields no basis state; C67_not_held: no effect if a condition does not hold."
 },
 "C68": {
  "status": "proved",
  "note": "C68_idle, for all circuits of Spec/Circuits (everything public in arithmetic.rs)."
 },
 "C69": {
  "status": "proved",
  "note": "C69_runs; C69_sizes for the error side (lshift on one qubit is C47_refuted)."
 },
 "C70": {
  "status": "partial",
  "note": "Refuted (C70_refuted). C70_always_error: a SWAP object on an even number of qubits is refused with an error inside any nesting of conditions, because the circuit calls cnot with several controls; C70_odd: a panic on an odd number. C70_method_partial: the swap method, built from three CNOTs, is the controlled swap; C70_object: what the SWAP object means without a condition."
 },
 "C71": {
  "status": "partial",
  "note": "Refuted (C71_refuted). C71_panics_partial: todo!() inside any nesting of conditions, whatever the matrix."
 },
 "C72": {
  "status": "partial",
  "note": "Refuted: times_mod adds m back inside a condition and later takes it away inside the same condition, and inside conditions add and add_inv are not inverse to each other when a carry occurs (C59, C67). For b of one qubit, whatever it holds, the result is never a basis state in which only p has changed, for all widths, all a < m, all p and all values written to p; so never the stated one. Sizes that do not fit are an error. Not decided: b of two or more qubits (times_mod runs there too, but each further round acts on what the earlier ones left in a)."
 },
 "C73": {
  "status": "partial",
  "note": "Refuted through times_mod: for m of one qubit, whatever the builder state, the result is never the stated one. Sizes that do not fit are an error. Not decided: wider m."
 },
 "C74": {
  "status": "proved",
  "note": "Sends x to y means: succeeds, returns the same registers, and the recorded circuit maps the basis state x to the basis state y. Unconditioned builder."
 },
 "C75": {
  "status": "partial",
  "note": "C75_refuted: 2 - 1 mod 3 is not computed. C75_exact_partial is the exact criterion: right if and only if b < a, or m mod 2^i <= b mod 2^i for all i < n. C75_wraps_partial: right whenever b < a."
 },
 "C76": {
  "status": "proved",
  "note": "`outcomeProb` is the Lebesgue measure of the draws in [0,1)^k for which the calculation gives the outcomes. Stochastic measurements and global phases are excluded because of C43; a draw of exactly 0 (probability 0) is excluded from the statement about states because of C23. `C76_reachable`: the circuits are those built by histories of calls."
 },
 "C77": {
  "status": "proved",
  "note": "Same circuits as C76."
 },
 "C78": {
  "status": "proved",
  "note": "Same circuits as C76."
 },
 "C79": {
  "status": "proved",
  "note": "Same circuits as C76. Generalises C29 to registers read back at any place in a circuit."
 },
 "C80": {
  "status": "proved",
  "note": "Same circuits as C76. The documented example has registers of 3 qubits; the model has n."
 },
 "C81": {
  "status": "partial",
  "note": "Refuted (C81_refuted) by examples/simple.rs itself: the probabilities it prints are right (1/2, 0, 0, 1/2), the state returned lacks the last gate (C81_simple). C81_exact gives the exact result of every circuit of gates, global phases and stochastic measurements; C81_lost: the gate before a stochastic measurement or global phase is lost as soon as another gate follows; C81_state: the state returned is the one before the last gate. C81_probabilities_partial: the first stochastic measurement after gates reports the right probabilities."
 },
 "C82": {
  "status": "proved",
  "note": ""
 },
 "C83": {
  "status": "partial",
  "note": "the documented statement is refuted (C83_refuted): toffoli with two controls on a conditioned builder turns its target by another matrix; the exact effect is proved, and the statement for single qubits"
 },
 "C84": {
  "status": "partial",
  "note": "Refuted as documented (C84_refuted): exponent 0 gives p, not p mod m. Proved exactly for exponents of one qubit holding 0, all sizes and values, right iff p < m. Other exponents go through times_mod (C72, C73)."
 },
 "C85": {
  "status": "proved",
  "note": "Holds for IEEE numbers that are finite, with the two zeros identified (infinities times the zero imaginary part of 1 would give NaN)."
 },
 "C86": {
  "status": "proved",
  "note": "No overflow and no underflow: exponents are unlimited. The library functions for the entries of T and Rz enter through the hypothesis that stored entries have relative error at most u."
 },
 "C87": {
  "status": "proved",
  "note": "Infinities and NaN are one absorbing value. The format is proved to have roundings (exists_binary64)."
 },
 "C88": {
  "status": "partial",
  "note": "`C88_refuted`: in `f32`, after X, H, H the stored amplitude of 0 is 0 and that of 1 is 1 - 2^-24 or less; if the draw is 1 - 2^-24 the loop of `soft_measure` runs off the end and reports outcome 0, of computed probability 0, and the new state is whatever the scratch buffer held (`C88_f32`). In `f64` the same happens after one matrix of a user, `0 1; c 0` with `c = (15387 + 22484 i)/27245`, and the draw 1 - 2^-53 (`C88_f64`, `C88_refuted_f64`). Proved: a result always exists (`C88_total`), and the comparison with the exact run for draws that keep a distance from the boundaries between outcomes (`C88_measure_partial`, `C88_circuit_partial`), for f64 up to 47 and f32 up to 18 qubits. A user matrix on k qubits has to be unitary up to rounding and adds 16\u00b74^k\u00b72^-p to the error, any other gate 64\u00b72^-p."
 },
 "C89": {
  "status": "proved",
  "note": "For histories without repeated split indices; `C89_repeated` shows a further panic otherwise (a Toffoli whose control register holds a qubit twice). Sizes of 64 qubits and more and memory limits are not modelled."
 },
 "C90": {
  "status": "proved",
  "note": "For gates other than global phases (C43) and measurements, not stochastic ones. The single draw 0 is excluded as in C23."
 },
 "C91": {
  "status": "proved",
  "note": "For gates other than global phases (C43) and measurements, not stochastic ones. `C91_defer` takes the condition on the states that occur, so it also covers whole circuits that only keep the register with clean temporaries."
 },
 "C92": {
  "status": "proved",
  "note": "Exact numbers of elements and qubits for Toffoli gates and all arithmetic circuits under any conditions; for circuits built by inversion the number of qubits is an upper bound, as the statement says."
 },
 "C93": {
  "status": "proved",
  "note": "Expressions for numbers are arbitrary tokens without a comma or range operator, evaluated by the environment; index expressions other than arrays of numbers or of one range are not modelled."
 },
 "C94": {
  "status": "proved",
  "note": ""
 },
 "C95": {
  "status": "partial",
  "note": "Refuted as stated (C95_refuted): the macro takes the first name before a parenthesis or `<` for the function's name, so it panics on `pub(crate) fn` (C95_crate), and the first parenthesis after it for the arguments, so it panics on generics with `Fn(usize)` (C95_closure). Proved (C95_read_partial) for all functions without these."
 },
 "C96": {
  "status": "proved",
  "note": "`findProb` is the Lebesgue measure of the draws for which the collapsing measurements give the outcomes. `C96_exact` holds for all draws, including 0, for which an outcome of probability zero can be found (C23). `C96_reachable`: the hypothesis holds after every history of calls (unitary user matrices, no repeated split indices, rotations on single qubits). `C96_textbook`: without idle elements the rules are those of C76."
 },
 "C97": {
  "status": "partial",
  "note": "Refuted (C97_refuted): with one stochastic measurement in between, the two measurements of a qubit after a Hadamard gate give all four pairs with probability 1/4 (C97_again). C97_forgotten: a measurement followed by a stochastic measurement (or global phase) and a gate has no effect on anything later; C97_independent: measurements separated by one idle element are made on the same state. C97_partial: with an even number of idle elements in between, and none before, the outcome is repeated."
 },
 "C98": {
  "status": "proved",
  "note": "Programs are the inductive definitions Client and Session (Spec/Client). Splits whose index list names a position twice are left out; they do duplicate qubits (C24_refuted)."
 },
 "C99": {
  "status": "proved",
  "note": "Programs as in C98. That rz/rx/ry on a register of several qubits make an element that cannot be calculated is part of C34; an example program is given beside the theorem."
 }
}