{
 "C01": "`BitVec 64` model; specified bit by bit with `getLsbD`.",
 "C02": "`BitVec 64` model; bit-level specification.",
 "C03": "Nat model of the loops; specified through `Nat.testBit`.",
 "C04": "Nat model of the loops; specified through `Nat.testBit`.",
 "C05": "State machines for dense and sparse rows; the drained list is compared with a filter/map of the row; a fresh drain starts over.",
 "C06": "As C05, over any inner iterator.",
 "C07": "As C05.",
 "C08": "As C05.",
 "C09": "As C05; product of the lists of all ops, first op most significant.",
 "C10": "Row sums against a matrix indexed by full indices that is defined with `testBit` only (op matrix on the op's qubits, identity elsewhere).",
 "C11": "As C10, with the previous content of the output.",
 "C12": "As C10, for input and output windows with offsets.",
 "C13": "Row tasks as state updates; every interleaving of the tasks gives the same vector.",
 "C14": "Corollary of C10 on basis states.",
 "C15": "Matrix of a list of ops.",
 "C16": "List-level model of the functions; transposed and conjugated matrices on all op shapes, controls nested to any depth.",
 "C17": "Finite sums; unitarity of the op matrix gives the norm of the embedded one.",
 "C18": "Case analysis of the constructors: accepted if and only if well formed.",
 "C19": "Sorted rows against bit-reversed indices.",
 "C20": "Corollary of C10 on basis states.",
 "C21": "Finite sums of squared moduli against the Born rule on the full index.",
 "C22": "Projection and renormalisation as a vector; norms.",
 "C23": "Sampling as a function of the draw; Lebesgue measure of the set of draws.",
 "C24": "Inductive reachability relation `Hist` over builder calls and an ownership invariant; a second invariant up to repetitions inside a register covers all histories.",
 "C25": "Direct, by the list of qubits.",
 "C26": "Direct, by the list of qubits.",
 "C27": "Direct.",
 "C28": "Direct; `Emits` gives the elements added.",
 "C29": "Refinement from amplitude lists to waves (`Rep`).",
 "C30": "Refinement from amplitude lists to waves, by induction on the circuit.",
 "C31": "`Emits` (which elements are added) followed by matrix products per qubit (`eachW`).",
 "C32": "Induction over the number of controls with temporaries drawn from any pool.",
 "C33": "Invariant `Kept` on the pool of temporaries for single calls; `Hist.own_dd` carries ownership through every history, registers taken without repetitions (`dd`), and each call on a register with repetitions panics or equals the call without them.",
 "C34": "Matrix algebra with `exp`, `sin`, `cos`.",
 "C35": "Symbolic execution on basis states, extended by linearity.",
 "C36": "Symbolic execution; explicit matrices of what the code does.",
 "C37": "As C35 on `Conditioned`.",
 "C38": "Simulation between `k` nested conditions and one condition register (`Sim`), by induction on `k`.",
 "C39": "Conjugate transposes element by element, induction on the circuit.",
 "C40": "Slots of registers as an invariant over the fold (`SubSim`).",
 "C41": "Corollary of C39 and C40 with the function's circuit on a fresh builder.",
 "C42": "Induction on histories: handles against the measurements counted in the pipeline.",
 "C43": "Exact step of the fold with its two buffers.",
 "C44": "Truth table lifted to `Does`.",
 "C45": "Ripple-carry induction on the width.",
 "C46": "Inverse by C39 and C45.",
 "C47": "Invariant over the swaps.",
 "C48": "Induction over the qubit pairs.",
 "C49": "`add` and `add_inv` composed; amplitude of the conditioned `add` from C59.",
 "C50": "Fold over the qubits; `control` lines through C38.",
 "C51": "Model of the expansion: slots, pulling and putting back of registers, induction over groups and lines.",
 "C52": "Amplitudes computed by induction over the rows of rotations.",
 "C53": "Floats as NaN, signed zeros and other numbers.",
 "C54": "Error paths executed symbolically in every builder.",
 "C55": "Parser as a function on token lists; grammar as an inductive relation; both directions.",
 "C56": "Corollary of C29 and C30 per row.",
 "C57": "`BitVec 64` against `Nat`.",
 "C58": "Simulation of conditioned elements, induction on the subcircuit.",
 "C59": "Exact amplitude of conditioned `add` by induction on the width.",
 "C60": "Symbolic execution of the error paths of `Conditioned`.",
 "C61": "Round trip: printing to tokens, then parsing.",
 "C62": "Scan over the tokens of a signature.",
 "C63": "`Vec::dedup` on lists.",
 "C64": "`Emits`, then C30.",
 "C65": "`Emits`, then the panic of `make_matrix_op` in the calculation.",
 "C66": "Entrywise equality of matrices, then C30.",
 "C67": "Inverse subcircuit replayed element by element (C58) on top of the exact amplitudes of `add`.",
 "C68": "A circuit is Quiet inside conditions if it succeeds, returns its registers and is the identity while a condition fails; shown for the gates, kept by sequencing, temporaries, program! lines, nested conditions and inversion, then for each circuit by its recursion.",
 "C69": "Same induction as C68; wrong sizes by unfolding, and through the inverter.",
 "C70": "Unfolding to the first cnot, which has at least two controls; induction over the nesting.",
 "C71": "Unfolding; induction over the nesting.",
 "C72": "Symbolic run of the round. The conditioned `add_inv` does not undo the conditioned `add` (C59, C67). For `b` = 1 the conditioned `add_mod` in between is not followed: it only has to leave `a` alone, and then a qubit of `a` has one definite value before the second half while the wave that the second half sends to the stated result has none; the second half is injective.",
 "C73": "The circuit is injective on waves; with one qubit in `m` the copied bit is 0 and C72 applies.",
 "C74": "The inverse is built from the circuit recorded in a new builder (C50, C51 and `invertSub_ok`); applying it to `rs` renames the qubits, and the circuit run backwards is the inverse map on waves.",
 "C75": "C74 reduces it to `add_mod` in a new builder, and the criterion of C49 is translated to `b`.",
 "C76": "Induction over the circuit: gates keep the length of the state (C30), a measurement is `C23_born_rule` and `C22_collapse`. The draws giving prescribed outcomes form a box up to a null set, whose volume is the product of the conditional probabilities.",
 "C77": "Gates and projections on disjoint qubits commute as maps on waves; the run of a circuit is determined by its branches (C76).",
 "C78": "The element commutes with everything after it (C77); at the end of the circuit it keeps the length of the state, and the projections of a measurement split it.",
 "C79": "The branch of the state lies in the subspace in which the register holds the value; elements on other qubits keep it there.",
 "C80": "The three gates send |0>psi to ½(|0>(psi+S psi) + |1>(psi-S psi)); C76 turns the squared lengths of the two projections into probabilities. For a product state the length is a double sum that factors into the two norms and the overlap.",
 "C81": "Induction over the circuit with the pair (current state, previous state) that stands for the two buffers of the fold; `C43_step` for the elements that exchange them.",
 "C82": "Uniform effect of gamma on all registers of the two sizes, moved by renaming; C41_partial gives the inverses, inverter_does the exact effect of the generated inverse; C51_program lifts both to programs.",
 "C83": "C83_claim is the documented statement; C83_refuted gives a state whose amplitude after the program is -cos 1/2 in place of 0. On a builder with conditions toffoli is a sequence of conditioned gates, whose H is not H (C36), so with two controls the target is turned by another matrix in place of X. Exactly proved: what the lines do for all groups and masks (C83_control_partial), single qubits as documented (C83_single_partial), conditioned toffoli at any depth (C83_toffoli_partial), programs of any number of plain and control lines (C83_program_partial), the documented program (C83_example).",
 "C84": "The two lines for an exponent of one qubit: the copy under the negated condition is exact, `times_mod` under a failed condition has no effect (C68). The claim is refuted with `p >= m`.",
 "C85": "The op layer is modelled over any type with the operations used, sums from left to right from zero; the items of a row are computed without any law of arithmetic, a row with a single 1 gives one product and one sum.",
 "C86": "The standard model of rounding (`Rounds`) is a hypothesis on the number type and is proved for binary numbers without exponent limits under any rounding to nearest, with the complex sum and product of `num_complex`. Sum of a row by induction over the items, vectors by Cauchy-Schwarz and the unit columns, circuits by induction; `calculate_state_with_init` over the complex numbers is the exact reference.",
 "C87": "A format (`Format`: digits, least exponent, largest exponent) gives the representable numbers (`Fits`); rounding is any function to a nearest one, and a result beyond the largest number is `none` (infinity or NaN), which spreads through sums and products. `Proofs/Ieee` proves relative error plus absolute underflow error for the complex sum and product of `num_complex` under size limits (`Limits`), `Proofs/IeeeErr` the error of one row and one op, and induction over the circuit carries the bound and the limit on sizes. binary64 by estimating the constants. Zeros are not signed.",
 "C88": "`Model/FloatMeasure` repeats `soft_measure`, `measure_prob_fn`, `measure_state` and `measure` over any type of machine numbers, with all orders of the additions of the probability as a relation. Exact numbers give back the model of C21-C23 (`C88_exact`). `Proofs/IeeeSample` bounds the error of the running subtraction in `soft_measure`, `IeeeProb` that of the probability, `IeeeCollapse` that of the factor `1/sqrt p` and the rescaled state, `IeeeStep2` puts them together for one measurement and `IeeeCircuit` for a circuit by induction. The refutations compute the run of X, H, H, measure in `f32` and of a user matrix and measure in `f64` exactly. A gate with `K` entries in a row adds `16·K²·2^-p` to the error of the state (`gate_err`).",
 "C89": "For each call the existing descriptions of what it emits show that it succeeds; the failing cases of `split_register_relative` and `split_relative_index_groups` are computed (`selectIndices_any`, `splitGroups_any`). For the calculation, every helper of measurement and op application is shown to succeed on qubits below n (no condition that they are distinct), `unitaryOp` to fail exactly on a wrong size, and induction over the circuit gives the equivalence. Histories keep all qubits below n (`Hist.within`).",
 "C90": "`Proofs/Equiv` shows that branches, reported probabilities and the sets of draws of C76 (`branchW`, `reportW`, `drawSets`) do not feel a factor of absolute value one (`soft_measure` only looks at squared absolute values) and that a list of gates acts in them as its linear map. Both runs then have the same sets of draws, so the same outcomes. The case of inverses takes C39.",
 "C91": "A linear map that keeps the value of the register on basis states commutes with the projection to an outcome (`proj_run_comm`), and gates do not change lengths; the probabilities follow from C76. `C91_deferred` checks the condition gate by gate (`LeavesAlone`), `C91_needed` shows that it cannot be dropped.",
 "C92": "`Uses` (Proofs/Uses.lean) tracks the numbers of elements of each kind, the qubits in use, and lower and upper bounds on the growth of the builder; it composes along binds, Toffoli recursion, conditions and inversion. `circ_takes` (Proofs/Uses6.lean) instantiates it for all 14 circuits. The closed formulas (`C92_totals`, `C92_t_count`, `C92_growth`) follow by arithmetic. `C92_qfft` (Proofs/Uses7.lean) adds the Fourier transform, whose rotations reach the innermost builder through `onParent` and are counted as single elements at every depth.",
 "C93": "The text (`textOf`) is a program text in the sense of C61, so parsing gives back what was written; `evalIndices_meaning` evaluates the index expressions, `expandLine_means` the lines, both as equivalences. `C93_runs` adds C51, `C93_documented` instantiates the documented programs of lib.rs.",
 "C94": "The last `[` of the text separates name and indices, the first `,` the first index from the rest, and decimal numbers can be read back (`split_last`, `split_first`, `joinText_inj`); then induction on the op.",
 "C95": "The three loops over the token stream are list functions (`findName`, `findArgs`, `untilBrace`); each is shown to stop at the right token. `C95_crate` and `C95_closure` run the macro on two functions that it misreads.",
 "C96": "Induction over the circuit with both buffers represented by states, each of length 1 or zero: `stale_step` for gates and idle elements, `calcStep_measure` and `softMeasure_zero` for measurements. As in C76 the draws giving prescribed outcomes form a box up to a null set (a stochastic measurement takes part with the whole interval).",
 "C97": "`C96_probability` on both sides and `pairStep`: after measurement and idle element the current state is that from before the measurement, and the next gate overwrites the other one.",
 "C98": "A small ownership logic (`Passes`): a method takes registers and gives registers, leaving alone whatever else is held, and adds only fitting circuit elements; rules for sequencing and loops. Shown once for `LocalBuilder` and, given any parent, for `Conditioned`, hence for every depth; then for every library function and by induction over `Client` (functions of a program) and `Session` (states of a program).",
 "C99": "The same logic as C98: what is held includes that all circuit elements have distinct allocated qubits and an object from a class (`Stock`) closed under the library's own gates and inversion. With all objects this gives the elements and, by C89, the exact panics; with the fitting objects and unitary matrices (`Apt`) only rotations remain, and C96 applies.",
 "C100": "In the logic of C98 a method must also spare every register that is held but not moved into it (`Spares`): the circuit only grows, by elements off those registers. As this is shown for arbitrary held registers, any qubit not given can be taken as such a register. The statement on measurements then follows by leaving out the added elements one by one with C78, and C76 for the numbers of allocated qubits.",
 "C101": "The circuit of a function in a new builder is one of the circuits of C99, so all its objects are apt. Inverting an apt object succeeds unless it is a measurement, and the results are apt again. The laws of C39, C40 and C41 then need no further hypotheses; that the inverse also returns the temporaries to 0 is an argument on dimensions (`inverse_on`).",
 "C102": "The ownership logic of C98–C100 also tracks the measurement counter: every step adds as many measurements to the circuit as it counts, because subcircuits and inverses of such programs only bring in objects that do not measure. So the handle is the number of measurements before it in the final circuit, and the simulation lists results in circuit order.",
 "C103": "The ownership logic of C98 instantiated with a second ledger that also tracks the condition registers: conditioned application on the innermost builder is shown to return a register beginning with the condition it was given (all gates, from the lemmas of C34–C37), each Conditioned layer splits off exactly its caller's part again, and all functions, programs and inverses are sequences of these steps.",
 "C104": "A third ledger on top of that of C103: every step taken on a builder also has to rest (Rests): its segment multiplies all idle, clean basis states by one number of a submonoid G of ℂ. Conditioned objects rest by the lemmas of C35–C37 gate by gate, temporaries trivially, Toffoli cascades, subcircuits and conditioned subcircuits by composing these; the arithmetic circuits by C68, as they may return temporaries that are dirty in between; inverted functions because their circuit is replayed object by object through the conditioned builder. G is the unit circle for the general statement and {1} for the exact one.",
 "C105": "The programs are a type of their own (Prog, Lines), with one function giving the Rust program for any builder and one giving the action on basis states. The proof is by mutual induction, for all nestings of conditions at once, with the combinators used for single calls in C44–C51 and C83 (Moves: returns its registers, keeps the pool clean, evolves by U where the conditions hold). control(mask) needs that the body is not influenced by flipping the qubits of the control register (Blind), proved by another induction, as the groups of a line are disjoint. Outside conditions the calls of C44–C51, C64–C66 and of matrices and rotations are taken from the theorems for them (Method.moves_outside).",
 "C106": "Induction over the steps of the main program: each keeps the ownership of the registers, and its circuit does to states with clean temporaries what actsW says (C105 for programs, the definition of branchW for measurements). With C76 for the whole circuit this gives probabilities, reports and state. The example computes the outcome probabilities of a measured Bell pair from the program text on.",
 "C107": "A renaming of the qubits with flips outside the registers carries the action on some registers to that on others (Same; mutual induction over programs, function by function), which gives independence of the positions and of the other qubits at once. The circuit built by the inverter in a new builder is unitary, so the inverse circuit (C40, C41) is the adjoint by polarisation of lengths. A circuit that does not reach the last qubit neither changes it nor is influenced by it, so the hypothesis excludes the panic of C41.",
 "C108": "make_subcircuit by induction over the depth. The program's action in the new builder (C105) is the action of the circuit on its first qubits; C40 (C58 inside conditions) carries it to the given qubits, and C107_anywhere says that this is the program's action there. A circuit that reaches the last qubit does not panic, as in C107.",
 "C109": "H on all qubits of a register turns |x> into the sum of (-1)^(x.s)|s> (induction over the register). The states with (|0>-|1>)/sqrt 2 on the output are mapped among themselves by these gates and get the sign (-1)^f(u) from the oracle. C105 gives the action of the program, C106 the probabilities and results. The oracles by induction over their lines. Masks are unbounded numbers here; in Rust they are u64, so that the oracle for all f needs n <= 64.",
 "C110": "The states with (|0>-|1>)/sqrt 2 on the output (C109) are kept; on their coefficients a round is the sign flip of the marked inputs followed by the subtraction of twice the mean, where the reflection is computed from H.H = 1 and the action of control(0) x. Closed form by induction over the rounds with the addition theorems, including M = 0 and M = 2^n. C105 gives the action of the program, C106 the probabilities and results. The number of rounds is the integer part of pi/(4t).",
 "C111": "The loops of qfft are unfolded to the list of emitted gates with the i64 denominators; the exponents below 63 are the same as in the unbounded model, so the two functions are equal; at distance 63 the numerator and denominator overflow (Ratio::reduce), from 64 on the shift. For masks the two folds are compared step by step.",
 "C112": "As for C105, with two actions carried along: one for the states in which the conditions hold and one for the others. The rotation methods on a builder inside k conditions are those of its innermost parent (induction over k), so both actions are the rotation. qfft: the loops are unfolded; rotations as above, H and swaps conditioned. Inside one more condition the first action becomes the choice between the two. The second action, too, must be blind to the qubits flipped by control(mask) lines.",
 "C113": "A conditioned builder hands calculations to its parent (induction over the nesting). Induction over the main program, for builders inside any conditions: the circuit so far does, to states with clean temporaries, the events so far (C112 for programs, the definition of branchW for measurements); calculations leave the builder unchanged. Each calculation is then an instance of C76.",
 "C114": "The start of the calculation (vector length, initial index) on 64-bit words: below 64 qubits the shifts do not overflow, and the words are compared with the unbounded numbers step by step. A Vec refuses more than isize::MAX bytes. From 64 qubits on the shift 1 << n panics or is taken modulo 64; the circuit is empty in this case, so that the loop over it plays no part.",
 "C115": "Every function of the calculation once more, with each index a 64-bit word and each operation checked or wrapping. Bit by bit the words are the numbers of the unbounded model as long as all of them are below 2^64, which the number of qubits (at most 62) and the distinctness of the indices give; the iterators over matrix rows run in step (a simulation that drain preserves). For gates of a wrong size on 32 or more qubits make_matrix_op itself can go wrong without overflow checks (C117), but then the first row of the matrix cannot be read and the calculation panics all the same.",
 "C116": "The calculation on words of C115. From 64 qubits on the length of the vector wraps; the index of the other basis state of a gate on the first qubit is then outside the vector and counted as 0.",
 "C117": "The size 1 << 2k on words: exact below 32 qubits, beyond that a panic or taken modulo 64.",
 "C118": "The subtraction n - 1 - q panics or wraps; a shift by the wrapped number is taken modulo 64, so that only q modulo 64 matters.",
 "C119": "`Model/FloatLoop` is the whole loop of a calculation over any type of machine numbers, with all kinds of elements and all orders of additions as a relation; exact numbers give back the model of C30 (`C119_exact`). Both buffers are followed, since a global phase or a stochastic measurement exchanges them (C81): the state may then be the buffer of zeros, so that lengths at most one are allowed. Built on the bounds of C87 for a gate and C88 for a probability.",
 "C120": "Numerator and denominator as words, each operation checked or wrapping. `Ratio::new`, the negation and the division by 2 of num-rational are compared with the normal form of a rational number (numerator and denominator of Mathlib); which inputs overflow is decided exactly, and the methods are then equal to those of `Model/Gates` as programs. The source of num-rational is not part of the repository: its operations are modelled from the published version 0.4.",
 "C121": "A draw further than `κ + τ` from all sums of `|φ x|²` gives the exact outcome (C88). The other draws lie in `2^n + 1` intervals and are counted, as are the draws that fall between two sums. The draws and the choice of a run with each draw are arbitrary, so no assumption about the random number generator is needed; that `rand::random::<f64>()` returns each multiple of `2^-53` below 1 equally often is outside of the model.",
 "C122": "`Model/FloatGates` repeats the match of `calculate_state_with_init` with the numbers of a format; `cos`, `sin`, the two constants and the conversion of ratios are parameters (`StdLib`), their accuracy is a hypothesis (`StdLib.Accurate`, met by functions rounded to nearest: C122_accurate). Multiplying by one and negating are exact, halving is exact up to underflow, cosine and sine do not enlarge the error of the angle. C122_wide_angle shows that the dependence on the size of rational angles is there in the code: the ratios 2^60 and 2^60+1 give the same op in f64, though the exact rotations differ by more than 0.4. The numbers of a user matrix may be those of any unitary matrix up to the relative error of C87 (`EntryMeant`), and a floating point angle may differ from the one meant by a rounding error of an angle up to 2.",
 "C123": "The pipeline of the main program is that of its programs and one entry for the measurement (`main_split`); C106 gives the state the programs make, C122 and C121 the frequencies of the measurement. `Meant` (C122) relates the pipeline of the model with exact numbers to that with floating point numbers, `C123_circuit` makes such a floating point pipeline by rounding, for every main program whose angles fit the format (`AngleFits`: numbers of the format, angles up to 2, ratios up to 1). The examples evaluate the pipelines of the three programs in the kernel (`smallRun`).",
 "C124": "C122 compares a run in floating point arithmetic with the exact calculation, C106 the exact calculation with the meaning of the programs, C81 the reported probabilities with the state (there is one stochastic measurement, at the end, so no stale buffer is read before it). `progsW_low`: the state the programs make lives on the qubits of the builder, so its length is that of the vector. `C124_back` uses that a structured program and its inverse undo each other (C107). The examples evaluate the pipelines in the kernel.",
 "C125": "Induction over the pipeline for states that are close to a branch of the exact calculation (`joint_err`). At a measurement the draws split according to the outcome: C121 says for all draws that are not near a boundary which outcome it is, `avg_close` averages over the first draw. If the outcome is more likely than the threshold, the collapsed and scaled state is close to the scaled exact branch (C88) and the rest of the circuit is compared by induction; if not, both the share and the probability are small. `runs_total`: gates and measurements have a run on every vector, finite or not. `C125_bound` solves the recursion.",
 "C126": "The numbers 0, 1, -1, i, -i are stored exactly (`C126_stored`), and their products and sums with at most one nonzero term are (`apply_stored`, `sums_stored`): so the floating point step is the image of the exact one. Every row of a plain gate has one entry; with the length preserved (C82) the exact state stays a basis state (`unit_of_nrm`). A measurement of it gives its value for each draw in (0, 1] (`measure_stored`); dividing by the root of one changes nothing. Induction over the pipeline (`plain_run`), then the Born rule for main programs (C106).",
 "C127": "Induction over the exact course of the circuit (`certain_run`): a gate adds its rounding error (C87, C122) to the distance between the computed and the exact state; at a measurement the draw is further from all sums of the exact state than the error of the computed sums, so that `soft_measure` selects the same basis state as in exact arithmetic (C88, `measure_err`), and in this the register holds the certain value; the division by the root of a probability near one at most doubles the distance and adds `13·2^n·2^-p`. The exact course of the pipeline follows from the meaning of the structured programs (`main_sure`, C105, C106). `C127_certain`: a program has such a course exactly if the outcomes leave the whole of the initial state, because programs preserve the length (C107) and projections do not increase it. `C127_share` counts the draws near these places.",
 "C128": "As C109: H on the input turns `|u, w>` into the sum of `(-1)^(u.s)|s, w>`; the oracle takes `|u, 0>` to `|u, f(u)>`. The probability of `v` is split by the value of the output register (`normW_proj_sum`); the square of the sum over the inputs with one value is a sum over pairs `u`, `t` with `f(u) = f(t)`, which are `u` and `u xor a`, and the sign is multiplicative (`sign_xor`). `C128_determines` uses the outcomes with one and with two ones. The oracle by induction over its lines. In floating point arithmetic by C123.",
 "C129": "On basis states with explicit numbers in the three registers (`triAsg`): H makes sums with signs `(-1)^(u.s)`, `copy` adds numbers without carry (`copy_ab`, `copy_bc`, `copy_ac`), and H, `copy`, H on the third register is the sign `(-1)^(u.s)` (`had_copy_had`: H twice is the identity and the sign is multiplicative). Projecting on the outcomes and correcting leaves `2^-n` times the state moved to the third register (`sent`), for all states by linearity; programs do there what they do on the first register (C107). Moving a state keeps its length and its projections.",
 "C130": "With the basis states of C129: `negate_bitmask` adds the message without carry (`flip_a`), between H it is the sign `(-1)^(s.v)` (`had_flip_had`), so the state on its way is the sum of `(-1)^(s.v)|s, s xor u>` (`dense_sent`), from which the secrecy is read off; `copy` turns the second number into `u`, and the rest is H of `v` (`dense_wave`). Floating point by C127, as the final state is a basis state.",
 "C131": "`Prog.Spares` is read off the text. By induction on the program every basis state goes to basis states with the same values in the register (`Prog.leaves`); a line of `program!` either does not name the qubit (C105) or names it in a place the function leaves as it is (`call_leaves`), and the adjoint has the transposed support. Therefore the program commutes with the projections of the measurement (`KeepsReg.proj`); the reported probabilities use that programs preserve the length (C107). The rest is C106. `C131_needed` is the counterexample without the hypothesis.",
 "C132": "By linearity (`no_clone`): if 0 and 1 are cloned, then what H prepares goes to a state where the two qubits agree; undoing H on both gives the same amplitudes for 1, 1 as for 0, 0, so if 0, 0 were certain the state would vanish, but programs preserve the length (C107). That an outcome of probability 1 leaves no other basis states is `on_of_norm`; the rest is C106.",
 "C133": "`Prog.Uses` is read off the text; by induction on the program it acts on the qubits of these registers only (`Prog.localOn`: all others keep their values, and flips of them commute with it, from C105; the adjoint pointwise). Every basis state one program makes differs from the given one by flips the other is blind to, so both orders give the same double sum (`commute_of`). Common registers are left as they are by C131. The rest is C106. `C133_needed` is the counterexample without the hypothesis.",
 "C134": "`Prog.Classical` is read off the text; by induction such a program gives one basis state times a factor (`Prog.mono`), the adjoint included. If the computation gives z·|y⟩, the use of the result gives states that agree with y on the registers of the computation (C131), and the computation does to each of them what it did before (it is blind to all else, C133), so that its inverse brings back the initial values there (`uncompute_leaves`). `C134_needed` computes the counterexample with H.",
 "C135": "Each step of the first group commutes with each step of the second: two programs by C133, a program and a measurement by C131 (or because it does not name the register, C133), two measurements always. So it can be moved to the end (`passes_acts`), where a program changes no norm (C107) and the norms for all outcomes of a measurement add up (`normW_proj_sum`); the rest is C106. `C135_needed` is the counterexample.",
 "C136": "The steps before keep the target 0 in every basis state (C131, C133; `acts_keep`). `copy` then makes both registers hold the same value in every basis state (`copy_vals`), so the second projection changes nothing or leaves nothing; it leaves the copied register as it is, so the first projection can be moved before it (C131), and it changes no norm (C107). The rest is C106. For `C136_instead`, a copy that is measured without looking cannot be seen (C135); after its outcome u the copy differs from a state where register i gave u by flips of register j only, to which all later steps are blind (`flip_passes`)."
}