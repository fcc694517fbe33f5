# RustQIP: machine-checked model and proofs — design

Source under study: `/repo` (RustQIP at the pinned commit; crates `qip-iterators`, `qip`, `qip-macros`).
Properties: `properties.jsonl`. Claim status: `MANIFEST.json`. Lean project: `lean/` (Lean 4.33.0, Mathlib).
Mutation tests of the theorems: `seeded/LOG.jsonl`.

## Trusted base

* The Lean kernel and the three standard axioms `propext`, `Classical.choice`, `Quot.sound`.
  No own axioms, no `sorry`, no `native_decide`, no `bv_decide`, no `implemented_by`.
  (`krfl`, used for concrete circuits, is a tactic that closes `a = b` by handing `Eq.refl a` to the kernel; it adds
  nothing to the trusted base.)
* The hand translation Rust → Lean in `lean/Verif/Model/*.lean`. Every definition cites the file and lines it models.
* The reading of the properties in `lean/Verif/Spec/*.lean` and in the `…_claim` definitions of `lean/Verif/Props/*.lean`.

## Modelling conventions

* **Numbers.** Float amplitudes `Complex<P>` are modelled by exact numbers: an arbitrary type `K` with the operations used in
  the iterator layer (a semiring in C01–C20), `ℂ`/`ℝ` in the state layer. Rounding is treated in C85–C88, C119 and C121–C127 only: with unlimited
  exponents in C86, with underflow, overflow and NaN (one absorbing value for infinities and NaN, zeros without sign) in C87, for measurements in C88, C119 and C121, and for the entries of the gates in C122.
  Elsewhere NaN and infinities are not modelled, except in C53, where NaN and signed zero are the point (`Model/Hash.lean` has
  its own type of floats).
* **Words.** Bit helpers are modelled on 64-bit words (`BitVec 64`) *and* on `Nat`; C57 proves the two agree for
  n ≤ 63. `qfft` and the masks of `program!` are modelled on unbounded numbers and, in `Model/Wide`, on `i64` and `u64`, with and without
  overflow checks (C111); so is the start of a calculation (length of the vector, initial index) in `Model/WideCalc` (C114), and so is the whole of a calculation in `Model/Words64` (C115–C118), and the ratios of rotation angles in `Model/Ratio64` (C120). The rest of the index arithmetic is on `Nat` (no wrap-around).
* **Panics** (slice out of range, `unwrap` on `None`, underflow in a checked build, `todo!`, `unreachable!`) are explicit
  failure values (`none`, or `Fail.panic`), never default values. `CircuitError` is another failure value (`Fail.error`).
* **Iterators** are state machines with a `next` function; draining one is a `partial_fixpoint` in `Option`, so
  non-termination would also show as `none`.
* **Mutation.** `&mut self` methods are state transformers `M β α := EStateM Fail β α`; the builder survives an `Err`.
* **Traits** are type classes; `Conditioned<B>` is an instance for every instance `B`, as in Rust. The independent Rust
  traits form a chain `RegOps → CircuitBuilder → CliffordT → TempBuilder → Rotations → Conditionable → Recursive`, which
  every builder of the library implements.
* **Recursion** over register sizes (`toffoli`, `add`, `exp_mod`) uses fuel given by the size; running out of it is
  `Fail.panic`, and the theorems show that it never happens.
* **Generic calls.** `#[invert]` builds its inverse on a fresh `LocalBuilder`; a Rust function generic in the builder is
  modelled by a Lean function generic in the class, so it can be run on both.
* **Parallelism.** Rayon's schedules are permutations/interleavings of the per-row tasks (C13); elsewhere the sequential
  order is used.
* **Randomness.** The number drawn by `rand::random` is a parameter.
* **Macros.** `program!` and `#[invert]` are modelled twice: the parser on token trees (`Model/Parse.lean`), and the code
  they expand to (`Model/Program.lean`, `invertFn` in `Model/Sub.lean`). For `program!`, `Model/Expand.lean` connects the two (C93).

Not modelled: float rounding beyond C85–C88, C119 and C121–C127 (the code of `cos`, `sin` and `Ratio::to_f64`, whose accuracy is a hypothesis of C122; angles computed by library functions before they are given to a rotation, beyond a rounding error), wrap-around beyond C57, C111, C114–C118 and C120, the memory of the machine (the size limit of `Vec` is in C114), derived `Debug` and `Display` formatting (that of ops is C94),
threads other than as in C13, procedural-macro hygiene and spans, the `Qudit`-only accessors, benches. Builds
without the feature `parallel` run the same code with sequential iterators.

## How states are specified

A basis state is `Asg = ℕ → Bool` (a value for every qubit number), a state is `Wave = Asg →₀ ℂ`, a gate is the linear
map `gateW idx m` given by its matrix, a circuit is `runW`. None of this mentions the state-vector code; C30 connects
the two (`Rep n v ψ`: the vector holds the amplitudes of the wave). Statements about circuit-building methods have the
form `Does ang m s a L U`: the call `m` in builder `s` succeeds with result `a`, the caller then owns the qubits `L`
(distinct from each other and from the pool of temporaries), and the elements added send every basis state `x` with clean
temporaries to `U x`, again with clean temporaries. `ang` is the angle taken for a rotation object, so that the theorems
hold both for the code's reading and for the documented one. Nested conditions are `under crs m` on `NB k`, the builder
conditioned `k` times.

## Layers

| Layer | Model | Spec | Properties |
|---|---|---|---|
| bit utilities | `Model/Bits` | `Spec/Bits` | C01–C04, C57 |
| row iterators | `Model/Iter` | `Spec/Iter` | C05–C09 |
| op application | `Model/Apply`, `Model/Schedule`, `Model/Float`, `Model/FloatMeasure`, `Model/FloatLoop`, `Model/FloatGates` | `Spec/Matrix`, `Spec/Schedule`, `Spec/Float`, `Spec/Ieee`, `Spec/IeeeMeasure`, `Spec/FloatLoop`, `Spec/FloatGates`, `Spec/FloatMain`, `Spec/FloatState`, `Spec/FloatJoint`, `Spec/FloatExact`, `Spec/FloatCertain` | C10–C15, C85–C88, C119, C121–C127 |
| op constructors | `Model/Ops` | `Spec/Matrix` | C16–C20 |
| measurement | `Model/Measure` | `Spec/Measure` | C21–C23 |
| registers, histories | `Model/Builder` | `Spec/Registers`, `Spec/History`, `Spec/Panics` | C24–C28, C89 |
| calculation | `Model/Calc`, `Model/Look`, `Model/WideCalc`, `Model/Words64` | `Spec/Wave`, `Spec/Value`, `Spec/Born`, `Spec/Stale`, `Spec/Equiv`, `Spec/Pair`, `Spec/Sized` | C29, C30, C42, C43, C56, C76–C79, C81, C90, C91, C96, C97, C113–C118 |
| gates, temporaries | `Model/Gates`, `Model/Ratio64` | `Spec/Wave`, `Spec/Clean`, `Spec/Ratio64` | C31–C34, C64–C66, C120 |
| conditions | `Model/Cond` | `Spec/Cond`, `Spec/Nest` | C35–C38, C54, C60, C70, C71 |
| subcircuits, inversion | `Model/Sub` | `Spec/Sub` | C39–C41, C58 |
| arithmetic, qfft | `Model/Arith`, `Model/Wide` | `Spec/Arith`, `Spec/Circuits`, `Spec/Counts` | C44–C49, C52, C59, C67–C69, C72–C75, C84, C92, C111 |
| `program!` | `Model/Program` | `Spec/Program` | C50, C51 |
| whole programs | – | `Spec/Client`, `Spec/Steady`, `Spec/Sleep`, `Spec/Struct`, `Spec/Main`, `Spec/Oracle`, `Spec/Simon`, `Spec/Teleport`, `Spec/Dense`, `Spec/Defer`, `Spec/Clone`, `Spec/Commute`, `Spec/Uncompute`, `Spec/Signal`, `Spec/Copies`, `Spec/Loose`, `Spec/Tour` | C98–C110, C112, C113, C128–C136 |
| documented examples | `Model/Examples` | `Spec/Examples` | C80, C82, C83 |
| macro parsers and expansion | `Model/Parse`, `Model/Expand`, `Model/InvertText` | inside `Props/Parse` and `Props/InvertText`, `Spec/Text` | C55, C61–C63, C93, C95 |
| debug texts | `Model/Format` | inside `Props/Format` | C94 |
| hashing | `Model/Hash` | inside `Props/Hash` | C53 |

Each property has its theorems in `lean/Verif/Props/`, named `Cxx_…`, with `example`s that meet the hypotheses on
non-trivial data; helper lemmas are in `lean/Verif/Proofs/`. A name ending in `_partial` proves less than the property
says; `_refuted` proves the negation of the property as stated. Where the property is refuted, the file contains the full
statement as a definition `Cxx_claim`.

## Findings

What the refuted properties say about the code, by place. Each item is proved with a concrete witness (`…_refuted`); the theorems
named in "Per property" give the exact behaviour.

| Place | Behaviour | Property |
|---|---|---|
| `apply_ops` | several ops: rows are taken apart in the opposite order to columns | C15 |
| `soft_measure` | the draw 0 can select an outcome of probability 0; with rounding the loop can run off the end | C23, C88 |
| `split_register_relative` | a repeated index hands out a qubit twice; the index equal to the size panics | C24, C27 |
| `split_register_absolute` | absolute indices are used as positions | C26 |
| `calculate_state_with_init` | a global phase or stochastic measurement makes it go on from a stale buffer | C43, C81, C97 |
| `calculate_state_with_init` | without overflow checks, a circuit of 64 or more qubits gives too short a vector | C114 |
| `calculate_state_with_init` | without overflow checks, a NOT gate on the first of 64 qubits gives the zero vector | C116 |
| `make_matrix_op` | without overflow checks, accepts 4 entries as a matrix of 33 qubits | C117 |
| `calculate_state_with_init` | without overflow checks, an initial value for a qubit of another builder may set a qubit of this one | C118 |
| rotations by ratios | a numerator -2^63 cannot be negated (inverse, `ry_ratio`), an odd numerator over 2^62 or more cannot be halved (conditioned global phase): a panic, or without overflow checks the wrong sign | C120 |
| `toffoli` | with several controls and m targets the flipped states get a phase | C32, C83 |
| rotations | sign of `ry`; `ratio` and `pi_by` without π; several qubits panic | C34 |
| `broadcast_single_qubit_matrix` | on two or more qubits the object has too few entries and no state can be calculated | C65 |
| `Conditioned`: Y, H, Rz, global phase | conditioned Y is −Y, H has wrong angles, Rz is not confined, the phase has no effect | C36, C38, C58 |
| `Conditioned`: S, T on registers | all but the last qubit act as conditions | C35 |
| `Conditioned`: rotation methods | the condition is ignored | C37, C52 |
| `Conditioned`: SWAP object, matrices | error or panic; `todo!()` | C70, C71 |
| `Conditioned`: errors | the condition register is lost | C60 |
| `apply_subcircuit` | panics unless the subcircuit reaches the last qubit; measurements inside are not counted | C40, C41, C42 |
| `lshift` | panics on one qubit | C47 |
| `add`, `add_inv` inside conditions | wrong as soon as a carry occurs, and so is all modular arithmetic | C49, C59, C67, C72, C73, C75 |
| `exp_mod` | exponent 0 gives p, not p mod m | C84 |
| `qfft` | wrong for every register of two or more qubits; panics or wraps from 64 qubits on | C52, C111 |
| circuit objects | `Eq` and `Hash` disagree on 0.0 and −0.0; NaN | C53 |
| `program!` | `[ra; rb]` is read as `[ra]`; a name repeated with another between is accepted | C55, C63 |
| `#[invert]` | panics on `pub(crate) fn` and on generics with `Fn(…)` | C95 |

## Per property

* **C01 get_bit / set_bit laws** — proved. `BitVec 64` model; specified bit by bit with `getLsbD`.
* **C02 flip_bits reverses the low n bits and is an involution** — proved. `BitVec 64` model; bit-level specification.
* **C03 full_to_sub and sub_to_full are mutually inverse coordinate changes** — proved. Nat model of the loops; specified through `Nat.testBit`.
* **C04 extract_bits and entwine_bits** — proved. Nat model of the loops; specified through `Nat.testBit`.
* **C05 Dense and sparse row iterators yield exactly the row** — proved. State machines for dense and sparse rows; the drained list is compared with a filter/map of the row; a fresh drain starts over.
* **C06 Controlled row iterator** — proved. As C05, over any inner iterator.
* **C07 Swap row iterator exchanges the two halves** — proved. As C05.
* **C08 Function iterator is the reversible map |x,y> -> |x, y xor f(x)>** — proved. As C05.
* **C09 Multi-op iterator enumerates the Kronecker product** — proved. As C05; product of the lists of all ops, first op most significant.
* **C10 apply_op_overwrite is the embedded matrix-vector product** — proved. Row sums against a matrix indexed by full indices that is defined with `testBit` only (op matrix on the op's qubits, identity elsewhere).
* **C11 apply_op accumulates** — proved. As C10, with the previous content of the output.
* **C12 Offsets: a distributed state gives the same result** — proved. As C10, for input and output windows with offsets.
* **C13 Parallel execution is schedule independent** — proved. Row tasks as state updates; every interleaving of the tasks gives the same vector.
* **C14 Swap and Control ops act as documented on basis states** — proved. Corollary of C10 on basis states.
* **C15 apply_ops of several ops equals applying them one after another** — partial, refuted as stated. Matrix of a list of ops. Refuted for two or more ops (C15_apply_ops_not_sequential): rows are taken apart in the opposite order to columns. Exact behaviour, single-op and no-op cases proved.
* **C16 transpose_op, conj_op and invert_op** — proved. List-level model of the functions; transposed and conjugated matrices on all op shapes, controls nested to any depth.
* **C17 Unitary ops preserve total probability** — proved. Finite sums; unitarity of the op matrix gives the norm of the embedded one.
* **C18 Op constructors accept exactly the well-formed inputs** — proved. Case analysis of the constructors: accepted if and only if well formed.
* **C19 Little-endian sparse matrices are the bit-reversed big-endian ones** — proved. Sorted rows against bit-reversed indices.
* **C20 make_op_matrix lists the images of the basis states** — proved. Corollary of C10 on basis states.
* **C21 Measurement probabilities form the Born distribution** — proved. Finite sums of squared moduli against the Born rule on the full index.
* **C22 Measurement collapses to the measured subspace** — proved. Projection and renormalisation as a vector; norms.
* **C23 Sampling follows the Born rule** — partial, refuted as stated. Sampling as a function of the draw; Lebesgue measure of the set of draws. The distribution (Lebesgue measure of the draws giving m = Born probability) is proved in full; 'only positive-probability outcomes' is refuted for the single draw 0 (C23_refuted) and proved for every other draw.
* **C24 No-cloning: every qubit is owned by at most one live register** — partial, refuted as stated. Inductive reachability relation `Hist` over builder calls and an ownership invariant; a second invariant up to repetitions inside a register covers all histories. Refuted by C24_no_cloning_refuted: split_register_relative with a repeated index hands out the same qubit twice. Proved for every history whose split calls repeat no index; in every history whatever, different registers and the pool share no qubit (C24_disjoint_partial).
* **C25 Splitting and merging registers** — proved. Direct, by the list of qubits.
* **C26 split_register_absolute selects by absolute qubit index** — partial, refuted as stated. Direct, by the list of qubits. Refuted by C26_split_absolute_refuted: absolute indices are looked up but passed on as absolute instead of relative ones. Proved for registers whose qubits are numbered like their positions; panics characterised. C26_positions_partial gives the exact behaviour on every register and index list: the numbers are used as positions.
* **C27 Out-of-range relative indices are ignored** — partial, refuted as stated. Direct. Refuted by C27_ignored_refuted: the index equal to the register size panics instead of being ignored. Proved for all other out-of-range indices.
* **C28 Applying a circuit object broadcasts or fails cleanly** — proved. Direct; `Emits` gives the elements added.
* **C29 Initial values are read back by measurement** — proved. Refinement from amplitude lists to waves (`Rep`).
* **C30 calculate_state composes the gates in program order** — proved. Refinement from amplitude lists to waves, by induction on the circuit.
* **C31 Named gates have their textbook matrices** — proved. `Emits` (which elements are added) followed by matrix products per qubit (`eachW`).
* **C32 toffoli flips the target iff all controls are 1** — partial, refuted as stated. Induction over the number of controls with temporaries drawn from any pool. Refuted by C32_refuted: with two or more controls and m targets the flipped states get the factor (-i)^(m-1). Exact action for all sizes in C32_toffoli_partial; the stated behaviour for one control or one target in C32_single_partial.
* **C33 Temporary qubits come back clean and are reused safely** — proved. Invariant `Kept` on the pool of temporaries for single calls; `Hist.own_dd` carries ownership through every history, registers taken without repetitions (`dd`), and each call on a register with repetitions panics or equals the call without them. Proved in every history (C33_make_temp, C33_toffoli, C33_conditioned) for the conditioned X, Z, S, T and CNOT with any number of conditions and targets. Where a register holds a qubit twice (C24) the call may panic, which ends the program; the theorems named _no_repeat show that it does not otherwise.
* **C34 Rotations rotate by the documented angle** — partial, refuted as stated. Matrix algebra with `exp`, `sin`, `cos`. Refuted four ways (ry sign, ratio and pi_by lack the factor pi, multi-qubit register panics in calculate). Exact action on one qubit in C34_one_qubit_partial.
* **C35 Conditioned X, Z, S, T and CNOT are the controlled gates** — partial, refuted as stated. Symbolic execution on basis states, extended by linearity. Proved for one target qubit and for CNOT, any number of conditions; X and Z on registers with the exact phase. Refuted for S and T on two or more qubits (C35_refuted): they act as if all but the last qubit were conditions and give back other registers.
* **C36 Conditioned Y, H, Rz and global phase are the controlled gates** — partial, refuted as stated. Symbolic execution; explicit matrices of what the code does. Refuted for each gate: conditioned Y is -Y, H has angles 1/4 in place of pi/4, Rz also changes states whose conditions fail, the global phase does nothing. Exact behaviour of each proved.
* **C37 A conditioned builder conditions every gate added through it** — partial, refuted as stated. As C35 on `Conditioned`. Proved for X, Z, S, T and daggers on one qubit, CNOT and swap on registers. Refuted by the rotation methods (C37_refuted), which ignore the condition altogether (C37_rotations_partial).
* **C38 Nested conditions are conjunctions and dissolve returns the condition register** — partial, refuted as stated. Simulation between `k` nested conditions and one condition register (`Sim`), by induction on `k`. Proved at any depth for all sequences of gates other than Y and H, including that dissolve returns the registers; the exact effect of all sequences with Y and H (C38_sequences_partial); for every object, nesting equals one condition register (C38_conjunction). Refuted for Y, since conditioned Y is -Y.
* **C39 invert_subcircuit produces the inverse circuit** — proved. Conjugate transposes element by element, induction on the circuit.
* **C40 apply_subcircuit replays the circuit on the given register** — partial, refuted as stated. Slots of registers as an invariant over the fold (`SubSim`). Refuted (C40_refuted, C40_panics): apply_subcircuit panics whenever the subcircuit reaches neither the last qubit of the register nor one beyond it, so also for the empty subcircuit. Proved for all other subcircuits, measurements included, with the effect on states.
* **C41 inverter and #[invert] undo the function** — partial, refuted as stated. Corollary of C39 and C40 with the function's circuit on a fresh builder. Refuted (C41_refuted) by a function that leaves the last register alone: applying the inverse panics. Proved for every function acting alike in every builder whose circuit reaches the last qubit; functions that measure are refused.
* **C42 Measurement handles fetch their own measurement** — partial, refuted as stated. Induction on histories: handles against the measurements counted in the pipeline. Refuted (C42_refuted): measurements inside an applied subcircuit are not counted, so later handles fetch other results. Proved for every history of the other builder calls.
* **C43 Stochastic measurements and global phases leave the state alone** — partial, refuted as stated. Exact step of the fold with its two buffers. Refuted by C43_refuted and C43_stochastic_refuted: a lone global phase or stochastic measurement makes the calculation continue from a stale buffer. C43_pair_partial: two in a row restore the state; C43_step gives the exact effect.
* **C44 Carry and sum circuits** — proved. Truth table lifted to `Does`. sum and carry under any nesting of conditions; carry_inv on the plain builder (inside conditions the generated inverse is wrong, see C36, C58 and C67).
* **C45 add computes b := a + b + c0** — proved. Ripple-carry induction on the width. Every n, every basis state with zero upper carries, any surrounding circuit; wrong sizes are an error leaving the builder unchanged. Plain builder; add inside a condition is treated under C49.
* **C46 add_inv subtracts** — proved. Inverse by C39 and C45. Subtraction modulo 2^(n+1) for every n; inverse of add in both orders on every basis state, also with non-zero carries.
* **C47 rshift/lshift rotate the register** — partial, refuted as stated. Invariant over the swaps. rshift proved for every size under any conditions. The claim about lshift is refuted (C47_refuted): lshift of one qubit panics. For two or more qubits lshift is the inverse in both orders (C47_lshift_partial).
* **C48 copy xors** — proved. Induction over the qubit pairs. copy under any nesting of conditions, self inverse; copy_inv inverse on the plain builder; unequal sizes are an error leaving the builder unchanged.
* **C49 add_mod computes (a+b) mod m** — partial, refuted as stated. `add` and `add_inv` composed; amplitude of the conditioned `add` from C59. Refuted as stated (C49_refuted: 1+1 modulo 3 with two qubits). C49_exact_partial: for a,b<m the result is the basis state with b=(a+b) mod m if m<=a+b or no borrow occurs in a+b-m, and no basis state at all otherwise. Cause: the add inside the condition.
* **C50 negate_bitmask and control(bits)** — proved. Fold over the qubits; `control` lines through C38. negate_bitmask for every register, mask and nesting of conditions; control(bits) lines for any function whose conditioned call acts on its own registers when all conditions hold.
* **C51 program! routes qubits and restores every register** — proved. Model of the expansion: slots, pulling and putting back of registers, induction over groups and lines. Every list of registers and lines, on builders nested in any number of conditions; ill-formed selections panic before the call.
* **C52 qfft is the quantum Fourier transform** — partial, refuted as stated. Amplitudes computed by induction over the rows of rotations. Refuted for every register of two or more qubits, both bit orders, all readings of the angles and even up to a factor per basis state (C52_never, C52_refuted): the controlled rotations are not controlled. Proved: the exact amplitudes for every size (C52_exact_partial), all outcomes equally likely as for the Fourier transform (C52_uniform_partial), and one qubit is right (C52_one_qubit_partial).
* **C53 Equal circuit objects hash equally** — partial, refuted as stated. Floats as NaN, signed zeros and other numbers. Refuted (C53_zero_refuted, C53_nan_refuted, C53_refuted): 0.0 and -0.0 compare equal and hash differently, and NaN angles make an object differ from itself although Eq is implemented. Proved: exactly when two objects compare equal and when they hash equally (C53_exact_partial), equality implies equal hashes without signed zeros (C53_no_zero_partial), equality is an equivalence without NaN (C53_equivalence_partial).
* **C54 Documented errors are returned, not panics, and leave the circuit unchanged** — proved. Error paths executed symbolically in every builder. cnot, swap, basic_toffoli, rz_pi_by(0) in every builder (any nesting of conditions) leave the builder unchanged; a measurement inside conditions and the inverse of a subcircuit with a measurement are errors that leave the circuit unchanged. rx_pi_by(0), ry_pi_by(0) and apply_global_phase_pi_by(0) panic (C54_other_pi_by).
* **C55 program! line grammar** — partial, refuted as stated. Parser as a function on token lists; grammar as an inductive relation; both directions. Refuted (C55_refuted): inside a bracketed group a semicolon ends the group silently, [ra; rb] is read as [ra] (C55_dropped). Proved: the exact grammar the parser accepts (C55_exact_partial), every strictly written list is read as written and one line is consumed (C55_written_partial, C55_one_line_partial), and the reading is unique (C55_unambiguous_partial).
* **C56 make_circuit_matrix tabulates the circuit** — proved. Corollary of C29 and C30 per row.
* **C57 No word overflow** — proved. `BitVec 64` against `Nat`.
* **C58 Subcircuits applied through a conditioned builder are the controlled circuit** — partial, refuted as stated. Simulation of conditioned elements, induction on the subcircuit. Refuted (C58_refuted: a subcircuit of one H). Proved: exact action with the replaced matrices of C36, and the claim itself for circuits without Y and H, at any nesting depth.
* **C59 add inside conditions adds when they hold** — partial, refuted as stated. Exact amplitude of conditioned `add` by induction on the width. Refuted (C59_refuted: 1+1 with two qubits). C59_exact_partial: works if and only if no carry occurs between positions below the last; C59_not_held: no effect if a condition does not hold.
* **C60 A failed call leaves a conditioned builder usable** — partial, refuted as stated. Symbolic execution of the error paths of `Conditioned`. Refuted (C60_refuted): every error of apply_circuit_object on a conditioned builder loses the condition register (C60_lost), later gates and dissolve panic (C60_unusable, C60_dissolve_panics). The errors checked before a gate is applied keep the builder (C60_partial).
* **C61 program! text is parsed as written** — proved. Round trip: printing to tokens, then parsing. Round trip for whole program texts: every builder expression without a semicolon, distinct inputs and any non-empty list of well formed lines.
* **C62 #[invert] finds the argument names** — proved. Scan over the tokens of a signature. For every argument list whose patterns and types contain no top-level name followed by a lone colon.
* **C63 program! rejects duplicate input registers** — partial, refuted as stated. `Vec::dedup` on lists. Refuted (C63_refuted): Vec::dedup only removes neighbours, so ra, rb, ra is accepted. Exact criterion: rejected iff two neighbouring names are equal (C63_exact_partial).
* **C64 Gates given by a matrix apply that matrix** — proved. `Emits`, then C30. Right size: the calculated state is the matrix applied to the state without the element (C64_apply_matrix; C64_does for unitary matrices inside longer circuits). Wrong size: accepted, then every calculation panics (C64_wrong_size).
* **C65 broadcast_single_qubit_matrix applies the matrix to each qubit** — partial, refuted as stated. `Emits`, then the panic of `make_matrix_op` in the calculation. Refuted (C65_refuted): the object is made with n = r.n() but only 4 entries, so for every register of two or more qubits the call succeeds and no state can be calculated any more (C65_never). Proved for one qubit (C65_one_qubit_partial).
* **C66 The default gate objects are the gates they stand for** — proved. Entrywise equality of matrices, then C30. C66_defaults: same calculated state as LocalBuilder's own objects, and it is the textbook gate. C66_gate: the gate methods with default objects. (The doc comment of make_s says -i; the code uses i, which is the S gate.)
* **C67 add_inv inside conditions subtracts when they hold** — partial, refuted as stated. Inverse subcircuit replayed element by element (C58) on top of the exact amplitudes of `add`. Refuted (C67_refuted: 2-1). C67_exact_partial: inside held conditions add_inv subtracts if and only if every set bit of a is set in b, and otherwise yields no basis state; C67_not_held: no effect if a condition does not hold.
* **C68 Arithmetic inside conditions that do not hold does nothing** — proved. A circuit is Quiet inside conditions if it succeeds, returns its registers and is the identity while a condition fails; shown for the gates, kept by sequencing, temporaries, program! lines, nested conditions and inversion, then for each circuit by its recursion. C68_idle, for all circuits of Spec/Circuits (everything public in arithmetic.rs).
* **C69 Arithmetic succeeds exactly on fitting register sizes** — proved. Same induction as C68; wrong sizes by unfolding, and through the inverter. C69_runs; C69_sizes for the error side (lshift on one qubit is C47_refuted).
* **C70 A conditioned SWAP object is the controlled swap** — partial, refuted as stated. Unfolding to the first cnot, which has at least two controls; induction over the nesting. Refuted (C70_refuted). C70_always_error: a SWAP object on an even number of qubits is refused with an error inside any nesting of conditions, because the circuit calls cnot with several controls; C70_odd: a panic on an odd number. C70_method_partial: the swap method, built from three CNOTs, is the controlled swap; C70_object: what the SWAP object means without a condition.
* **C71 A conditioned matrix object is the controlled matrix or an error** — partial, refuted as stated. Unfolding; induction over the nesting. Refuted (C71_refuted). C71_panics_partial: todo!() inside any nesting of conditions, whatever the matrix.
* **C72 times_mod computes (p + b*a) mod M** — partial, refuted as stated. Symbolic run of the round. The conditioned `add_inv` does not undo the conditioned `add` (C59, C67). For `b` = 1 the conditioned `add_mod` in between is not followed: it only has to leave `a` alone, and then a qubit of `a` has one definite value before the second half while the wave that the second half sends to the stated result has none; the second half is injective. Refuted: times_mod adds m back inside a condition and later takes it away inside the same condition, and inside conditions add and add_inv are not inverse to each other when a carry occurs (C59, C67). For b of one qubit, whatever it holds, the result is never a basis state in which only p has changed, for all widths, all a < m, all p and all values written to p; so never the stated one. Sizes that do not fit are an error. Not decided: b of two or more qubits (times_mod runs there too, but each further round acts on what the earlier ones left in a).
* **C73 square_mod computes (s + a*a) mod m** — partial, refuted as stated. The circuit is injective on waves; with one qubit in `m` the copied bit is 0 and C72 applies. Refuted through times_mod: for m of one qubit, whatever the builder state, the result is never the stated one. Sizes that do not fit are an error. Not decided: wider m.
* **C74 A generated inverse takes back what the circuit does** — proved. The inverse is built from the circuit recorded in a new builder (C50, C51 and `invertSub_ok`); applying it to `rs` renames the qubits, and the circuit run backwards is the inverse map on waves. Sends x to y means: succeeds, returns the same registers, and the recorded circuit maps the basis state x to the basis state y. Unconditioned builder.
* **C75 add_mod_inv computes (b - a) mod m** — partial, refuted as stated. C74 reduces it to `add_mod` in a new builder, and the criterion of C49 is translated to `b`. C75_refuted: 2 - 1 mod 3 is not computed. C75_exact_partial is the exact criterion: right if and only if b < a, or m mod 2^i <= b mod 2^i for all i < n. C75_wraps_partial: right whenever b < a.
* **C76 Circuits with measurements follow the Born rule** — proved. Induction over the circuit: gates keep the length of the state (C30), a measurement is `C23_born_rule` and `C22_collapse`. The draws giving prescribed outcomes form a box up to a null set, whose volume is the product of the conditional probabilities. `outcomeProb` is the Lebesgue measure of the draws in [0,1)^k for which the calculation gives the outcomes. Stochastic measurements and global phases are excluded because of C43; a draw of exactly 0 (probability 0) is excluded from the statement about states because of C23. `C76_reachable`: the circuits are those built by histories of calls.
* **C77 Neighbouring elements on disjoint qubits may be exchanged** — proved. Gates and projections on disjoint qubits commute as maps on waves; the run of a circuit is determined by its branches (C76). Same circuits as C76.
* **C78 No signalling** — proved. The element commutes with everything after it (C77); at the end of the circuit it keeps the length of the state, and the projections of a measurement split it. Same circuits as C76.
* **C79 Registers keep their value until they are touched** — proved. The branch of the state lies in the subspace in which the register holds the value; elements on other qubits keep it there. Same circuits as C76. Generalises C29 to registers read back at any place in a circuit.
* **C80 The swap test of the documentation** — proved. The three gates send |0>psi to ½(|0>(psi+S psi) + |1>(psi-S psi)); C76 turns the squared lengths of the two projections into probabilities. For a product state the length is a double sum that factors into the two norms and the overlap. Same circuits as C76. The documented example has registers of 3 qubits; the model has n.
* **C81 Stochastic measurements report probabilities and leave the state alone** — partial, refuted as stated. Induction over the circuit with the pair (current state, previous state) that stands for the two buffers of the fold; `C43_step` for the elements that exchange them. Refuted (C81_refuted) by examples/simple.rs itself: the probabilities it prints are right (1/2, 0, 0, 1/2), the state returned lacks the last gate (C81_simple). C81_exact gives the exact result of every circuit of gates, global phases and stochastic measurements; C81_lost: the gate before a stochastic measurement or global phase is lost as soon as another gate follows; C81_state: the state returned is the one before the last gate. C81_probabilities_partial: the first stochastic measurement after gates reports the right probabilities.
* **C82 The documented inverse program does nothing** — proved. Uniform effect of gamma on all registers of the two sizes, moved by renaming; C41_partial gives the inverses, inverter_does the exact effect of the generated inverse; C51_program lifts both to programs.
* **C83 The documented control lines apply gamma under the condition** — partial, refuted as stated. C83_claim is the documented statement; C83_refuted gives a state whose amplitude after the program is -cos 1/2 in place of 0. On a builder with conditions toffoli is a sequence of conditioned gates, whose H is not H (C36), so with two controls the target is turned by another matrix in place of X. Exactly proved: what the lines do for all groups and masks (C83_control_partial), single qubits as documented (C83_single_partial), conditioned toffoli at any depth (C83_toffoli_partial), programs of any number of plain and control lines (C83_program_partial), the documented program (C83_example). the documented statement is refuted (C83_refuted): toffoli with two controls on a conditioned builder turns its target by another matrix; the exact effect is proved, and the statement for single qubits
* **C84 exp_mod computes powers** — partial, refuted as stated. The two lines for an exponent of one qubit: the copy under the negated condition is exact, `times_mod` under a failed condition has no effect (C68). The claim is refuted with `p >= m`. Refuted as documented (C84_refuted): exponent 0 gives p, not p mod m. Proved exactly for exponents of one qubit holding 0, all sizes and values, right iff p < m. Other exponents go through times_mod (C72, C73).
* **C85 Gates that only move amplitudes are computed without rounding** — proved. The op layer is modelled over any type with the operations used, sums from left to right from zero; the items of a row are computed without any law of arithmetic, a row with a single 1 gives one product and one sum. Holds for IEEE numbers that are finite, with the two zeros identified (infinities times the zero imaginary part of 1 would give NaN).
* **C86 The rounding error of a simulation is bounded** — proved. The standard model of rounding (`Rounds`) is a hypothesis on the number type and is proved for binary numbers without exponent limits under any rounding to nearest, with the complex sum and product of `num_complex`. Sum of a row by induction over the items, vectors by Cauchy-Schwarz and the unit columns, circuits by induction; `calculate_state_with_init` over the complex numbers is the exact reference. No overflow and no underflow: exponents are unlimited. The library functions for the entries of T and Rz enter through the hypothesis that stored entries have relative error at most u.
* **C87 No overflow, no NaN and a bounded error in IEEE arithmetic** — proved. A format (`Format`: digits, least exponent, largest exponent) gives the representable numbers (`Fits`); rounding is any function to a nearest one, and a result beyond the largest number is `none` (infinity or NaN), which spreads through sums and products. `Proofs/Ieee` proves relative error plus absolute underflow error for the complex sum and product of `num_complex` under size limits (`Limits`), `Proofs/IeeeErr` the error of one row and one op, and induction over the circuit carries the bound and the limit on sizes. binary64 by estimating the constants. Zeros are not signed. Infinities and NaN are one absorbing value. The format is proved to have roundings (exists_binary64).
* **C88 Measurements in floating point arithmetic** — partial, refuted as stated. `Model/FloatMeasure` repeats `soft_measure`, `measure_prob_fn`, `measure_state` and `measure` over any type of machine numbers, with all orders of the additions of the probability as a relation. Exact numbers give back the model of C21-C23 (`C88_exact`). `Proofs/IeeeSample` bounds the error of the running subtraction in `soft_measure`, `IeeeProb` that of the probability, `IeeeCollapse` that of the factor `1/sqrt p` and the rescaled state, `IeeeStep2` puts them together for one measurement and `IeeeCircuit` for a circuit by induction. The refutations compute the run of X, H, H, measure in `f32` and of a user matrix and measure in `f64` exactly. A gate with `K` entries in a row adds `16·K²·2^-p` to the error of the state (`gate_err`). `C88_refuted`: in `f32`, after X, H, H the stored amplitude of 0 is 0 and that of 1 is 1 - 2^-24 or less; if the draw is 1 - 2^-24 the loop of `soft_measure` runs off the end and reports outcome 0, of computed probability 0, and the new state is whatever the scratch buffer held (`C88_f32`). In `f64` the same happens after one matrix of a user, `0 1; c 0` with `c = (15387 + 22484 i)/27245`, and the draw 1 - 2^-53 (`C88_f64`, `C88_refuted_f64`). Proved: a result always exists (`C88_total`), and the comparison with the exact run for draws that keep a distance from the boundaries between outcomes (`C88_measure_partial`, `C88_circuit_partial`), for f64 up to 47 and f32 up to 18 qubits. A user matrix on k qubits has to be unitary up to rounding and adds 16·4^k·2^-p to the error, any other gate 64·2^-p.
* **C89 Which calls panic** — proved. For each call the existing descriptions of what it emits show that it succeeds; the failing cases of `split_register_relative` and `split_relative_index_groups` are computed (`selectIndices_any`, `splitGroups_any`). For the calculation, every helper of measurement and op application is shown to succeed on qubits below n (no condition that they are distinct), `unitaryOp` to fail exactly on a wrong size, and induction over the circuit gives the equivalence. Histories keep all qubits below n (`Hist.within`). For histories without repeated split indices; `C89_repeated` shows a further panic otherwise (a Toffoli whose control register holds a qubit twice). Sizes of 64 qubits and more and memory limits are not modelled.
* **C90 Equivalent pieces of circuit cannot be told apart** — proved. `Proofs/Equiv` shows that branches, reported probabilities and the sets of draws of C76 (`branchW`, `reportW`, `drawSets`) do not feel a factor of absolute value one (`soft_measure` only looks at squared absolute values) and that a list of gates acts in them as its linear map. Both runs then have the same sets of draws, so the same outcomes. The case of inverses takes C39. For gates other than global phases (C43) and measurements, not stochastic ones. The single draw 0 is excluded as in C23.
* **C91 Measurements may be put off past gates that leave the register alone** — proved. A linear map that keeps the value of the register on basis states commutes with the projection to an outcome (`proj_run_comm`), and gates do not change lengths; the probabilities follow from C76. `C91_deferred` checks the condition gate by gate (`LeavesAlone`), `C91_needed` shows that it cannot be dropped. For gates other than global phases (C43) and measurements, not stochastic ones. `C91_defer` takes the condition on the states that occur, so it also covers whole circuits that only keep the register with clean temporaries.
* **C92 How many circuit elements and qubits the circuits take** — proved. `Uses` (Proofs/Uses.lean) tracks the numbers of elements of each kind, the qubits in use, and lower and upper bounds on the growth of the builder; it composes along binds, Toffoli recursion, conditions and inversion. `circ_takes` (Proofs/Uses6.lean) instantiates it for all 14 circuits. The closed formulas (`C92_totals`, `C92_t_count`, `C92_growth`) follow by arithmetic. `C92_qfft` (Proofs/Uses7.lean) adds the Fourier transform, whose rotations reach the innermost builder through `onParent` and are counted as single elements at every depth. Exact numbers of elements and qubits for Toffoli gates and all arithmetic circuits under any conditions; for circuits built by inversion the number of qubits is an upper bound, as the statement says.
* **C93 A program! text does what it says** — proved. The text (`textOf`) is a program text in the sense of C61, so parsing gives back what was written; `evalIndices_meaning` evaluates the index expressions, `expandLine_means` the lines, both as equivalences. `C93_runs` adds C51, `C93_documented` instantiates the documented programs of lib.rs. Expressions for numbers are arbitrary tokens without a comma or range operator, evaluated by the environment; index expressions other than arrays of numbers or of one range are not modelled.
* **C94 The debug text of an op shows what it is** — proved. The last `[` of the text separates name and indices, the first `,` the first index from the rest, and decimal numbers can be read back (`split_last`, `split_first`, `joinText_inj`); then induction on the op.
* **C95 #[invert] reads functions as they are written** — partial, refuted as stated. The three loops over the token stream are list functions (`findName`, `findArgs`, `untilBrace`); each is shown to stop at the right token. `C95_crate` and `C95_closure` run the macro on two functions that it misreads. Refuted as stated (C95_refuted): the macro takes the first name before a parenthesis or `<` for the function's name, so it panics on `pub(crate) fn` (C95_crate), and the first parenthesis after it for the arguments, so it panics on generics with `Fn(usize)` (C95_closure). Proved (C95_read_partial) for all functions without these.
* **C96 The result of every circuit** — proved. Induction over the circuit with both buffers represented by states, each of length 1 or zero: `stale_step` for gates and idle elements, `calcStep_measure` and `softMeasure_zero` for measurements. As in C76 the draws giving prescribed outcomes form a box up to a null set (a stochastic measurement takes part with the whole interval). `findProb` is the Lebesgue measure of the draws for which the collapsing measurements give the outcomes. `C96_exact` holds for all draws, including 0, for which an outcome of probability zero can be found (C23). `C96_reachable`: the hypothesis holds after every history of calls (unitary user matrices, no repeated split indices, rotations on single qubits). `C96_textbook`: without idle elements the rules are those of C76.
* **C97 A measured register keeps its value** — partial, refuted as stated. `C96_probability` on both sides and `pairStep`: after measurement and idle element the current state is that from before the measurement, and the next gate overwrites the other one. Refuted (C97_refuted): with one stochastic measurement in between, the two measurements of a qubit after a Hadamard gate give all four pairs with probability 1/4 (C97_again). C97_forgotten: a measurement followed by a stochastic measurement (or global phase) and a gate has no effect on anything later; C97_independent: measurements separated by one idle element are made on the same state. C97_partial: with an even number of idle elements in between, and none before, the outcome is repeated.
* **C98 No qubit is ever in two registers, in any program** — proved. A small ownership logic (`Passes`): a method takes registers and gives registers, leaving alone whatever else is held, and adds only fitting circuit elements; rules for sequencing and loops. Shown once for `LocalBuilder` and, given any parent, for `Conditioned`, hence for every depth; then for every library function and by induction over `Client` (functions of a program) and `Session` (states of a program). Programs are the inductive definitions Client and Session (Spec/Client). Splits whose index list names a position twice are left out; they do duplicate qubits (C24_refuted).
* **C99 The only gates that do not fit their qubits are rotations of several qubits** — proved. The same logic as C98: what is held includes that all circuit elements have distinct allocated qubits and an object from a class (`Stock`) closed under the library's own gates and inversion. With all objects this gives the elements and, by C89, the exact panics; with the fitting objects and unitary matrices (`Apt`) only rotations remain, and C96 applies. Programs as in C98. That rz/rx/ry on a register of several qubits make an element that cannot be calculated is part of C34; an example program is given beside the theorem.
* **C100 A function touches only what it is given** — proved. In the logic of C98 a method must also spare every register that is held but not moved into it (`Spares`): the circuit only grows, by elements off those registers. As this is shown for arbitrary held registers, any qubit not given can be taken as such a register. The statement on measurements then follows by leaving out the added elements one by one with C78, and C76 for the numbers of allocated qubits. Programs as in C98. That global phases, stochastic measurements and rotations of several qubits do disturb or stop the calculation is the subject of C34, C43 and C97.
* **C101 Inverting the functions of programs** — proved. The circuit of a function in a new builder is one of the circuits of C99, so all its objects are apt. Inverting an apt object succeeds unless it is a measurement, and the results are apt again. The laws of C39, C40 and C41 then need no further hypotheses; that the inverse also returns the temporaries to 0 is an argument on dimensions (`inverse_on`). Which functions make inverting panic is part of the statement (see C40, C41 for the claim that none does). On conditioned builders only the failures are stated.
* **C102 Measurement handles in all programs** — proved. The ownership logic of C98–C100 also tracks the measurement counter: every step adds as many measurements to the circuit as it counts, because subcircuits and inverses of such programs only bring in objects that do not measure. So the handle is the number of measurements before it in the final circuit, and the simulation lists results in circuit order. Circuit objects that measure can be brought in with apply_circuit_object or apply_subcircuit; for these the handles are wrong (C42). The statement excludes programs that do this.
* **C103 Condition registers only grow** — proved. The ownership logic of C98 instantiated with a second ledger that also tracks the condition registers: conditioned application on the innermost builder is shown to return a register beginning with the condition it was given (all gates, from the lemmas of C34–C37), each Conditioned layer splits off exactly its caller's part again, and all functions, programs and inverses are sequences of these steps. C103_lost_after_err_counterexample shows why programs that go on after an Err are left out: the condition register is lost then.
* **C104 Nothing happens inside a condition that is not met** — proved. A third ledger on top of that of C103: every step taken on a builder also has to rest (Rests): its segment multiplies all idle, clean basis states by one number of a submonoid G of ℂ. Conditioned objects rest by the lemmas of C35–C37 gate by gate, temporaries trivially, Toffoli cascades, subcircuits and conditioned subcircuits by composing these; the arithmetic circuits by C68, as they may return temporaries that are dirty in between; inverted functions because their circuit is replayed object by object through the conditioned builder. G is the unit circle for the general statement and {1} for the exact one. C104_asleep (basis states), C104_superposition (all states), C104_exactly (no phase). C104_phase_counterexample: a conditioned Rz does leave a phase, as found in C36. C104_returnTemp_counterexample shows why return_temp_register is left out; rotations and the Fourier transform ignore conditions (C37).
* **C105 Structured programs do what they say** — proved. The programs are a type of their own (Prog, Lines), with one function giving the Rust program for any builder and one giving the action on basis states. The proof is by mutual induction, for all nestings of conditions at once, with the combinators used for single calls in C44–C51 and C83 (Moves: returns its registers, keeps the pool clean, evolves by U where the conditions hold). control(mask) needs that the body is not influenced by flipping the qubits of the control register (Blind), proved by another induction, as the groups of a line are disjoint. Outside conditions the calls of C44–C51, C64–C66 and of matrices and rotations are taken from the theorems for them (Method.moves_outside). C105_does (inside any conditions), C105_outside, C105_controlled, C105_local. Inside conditions H, Y and toffoli with two controls have other matrices (C36, C83), which the meaning of a program takes into account; C105_y_counterexample shows that C105_controlled needs its hypothesis.
* **C106 From programs to results** — proved. Induction over the steps of the main program: each keeps the ownership of the registers, and its circuit does to states with clean temporaries what actsW says (C105 for programs, the definition of branchW for measurements). With C76 for the whole circuit this gives probabilities, reports and state. The example computes the outcome probabilities of a measured Bell pair from the program text on. C106_runs, C106_born, C106_state, C106_unmeasured. Measurements as by measure; measure_stochastic changes the state that later elements see (C81) and is left out here.
* **C107 Inverses of structured programs** — proved. A renaming of the qubits with flips outside the registers carries the action on some registers to that on others (Same; mutual induction over programs, function by function), which gives independence of the positions and of the other qubits at once. The circuit built by the inverter in a new builder is unitary, so the inverse circuit (C40, C41) is the adjoint by polarisation of lengths. A circuit that does not reach the last qubit neither changes it nor is influenced by it, so the hypothesis excludes the panic of C41. C107_anywhere, C107_unitary, C107_inverse, C107_twice. Inside conditions inverses of programs are treated in C101 and C104 only.
* **C108 Circuits of structured programs applied elsewhere** — proved. make_subcircuit by induction over the depth. The program's action in the new builder (C105) is the action of the circuit on its first qubits; C40 (C58 inside conditions) carries it to the given qubits, and C107_anywhere says that this is the program's action there. A circuit that reaches the last qubit does not panic, as in C107.
* **C109 The programs of Deutsch and Jozsa and of Bernstein and Vazirani** — proved. H on all qubits of a register turns |x> into the sum of (-1)^(x.s)|s> (induction over the register). The states with (|0>-|1>)/sqrt 2 on the output are mapped among themselves by these gates and get the sign (-1)^f(u) from the oracle. C105 gives the action of the program, C106 the probabilities and results. The oracles by induction over their lines. Masks are unbounded numbers here; in Rust they are u64, so that the oracle for all f needs n <= 64.
* **C110 Grover search** — proved. The states with (|0>-|1>)/sqrt 2 on the output (C109) are kept; on their coefficients a round is the sign flip of the marked inputs followed by the subtraction of twice the mean, where the reflection is computed from H.H = 1 and the action of control(0) x. Closed form by induction over the rounds with the addition theorems, including M = 0 and M = 2^n. C105 gives the action of the program, C106 the probabilities and results. The number of rounds is the integer part of pi/(4t).
* **C111 Wide registers** — partial, refuted as stated. The loops of qfft are unfolded to the list of emitted gates with the i64 denominators; the exponents below 63 are the same as in the unbounded model, so the two functions are equal; at distance 63 the numerator and denominator overflow (Ratio::reduce), from 64 on the shift. For masks the two folds are compared step by step. Refuted by C111_refuted: with overflow checks qfft panics on every register of 64 qubits or more (C111_panics); without them the exponents wrap and from 65 qubits on the circuit is a wrong one (C111_release, C111_wraps). Up to 63 (64) qubits the function equals the one on unbounded numbers (C111_qfft_partial), and masks do for all lengths (C111_mask); values of 2^64 or more cannot be asked for (C111_mask_wide).
* **C112 Structured programs with rotations inside conditions** — proved, refuted as stated. As for C105, with two actions carried along: one for the states in which the conditions hold and one for the others. The rotation methods on a builder inside k conditions are those of its innermost parent (induction over k), so both actions are the rotation. qfft: the loops are unfolded; rotations as above, H and swaps conditioned. Inside one more condition the first action becomes the choice between the two. The second action, too, must be blind to the qubits flipped by control(mask) lines. C112_refuted: the expected statement that nothing happens if the conditions do not hold is false.
* **C113 Looking at the state from anywhere** — proved. A conditioned builder hands calculations to its parent (induction over the nesting). Induction over the main program, for builders inside any conditions: the circuit so far does, to states with clean temporaries, the events so far (C112 for programs, the definition of branchW for measurements); calculations leave the builder unchanged. Each calculation is then an instance of C76. C113_root, C113_looks, C113_born. The numbers drawn are part of each calculation in the program. measure is a method of LocalBuilder only, so a program inside conditions does not measure.
* **C114 Calculations of wide circuits** — partial, refuted as stated. The start of the calculation (vector length, initial index) on 64-bit words: below 64 qubits the shifts do not overflow, and the words are compared with the unbounded numbers step by step. A Vec refuses more than isize::MAX bytes. From 64 qubits on the shift 1 << n panics or is taken modulo 64; the circuit is empty in this case, so that the loop over it plays no part. Refuted (C114_refuted): without overflow checks an empty circuit of 64 k + j qubits returns a state of j qubits (C114_wraps). C114_fits_partial: as long as the vector fits into a Vec (58 qubits for f64, 59 for f32) the result is that of the unbounded model. C114_panics, C114_release_panics: wider circuits panic with overflow checks, and without them up to 63 qubits. The loop over the circuit is not modelled on words here (see C57); the memory of the machine is not modelled.
* **C115 Whole calculations on machine words** — proved. Every function of the calculation once more, with each index a 64-bit word and each operation checked or wrapping. Bit by bit the words are the numbers of the unbounded model as long as all of them are below 2^64, which the number of qubits (at most 62) and the distinctness of the indices give; the iterators over matrix rows run in step (a simulation that drain preserves). For gates of a wrong size on 32 or more qubits make_matrix_op itself can go wrong without overflow checks (C117), but then the first row of the matrix cannot be read and the calculation panics all the same. C115_words: equal to the unbounded model for every circuit of elements on distinct qubits whose matrices fit into a Vec. C115_builds: the two kinds of build agree. The memory of the machine is not modelled, only the size limit of Vec; usize has 64 bits.
* **C116 Norm of wide calculations** — partial, refuted as stated. The calculation on words of C115. From 64 qubits on the length of the vector wraps; the index of the other basis state of a gate on the first qubit is then outside the vector and counted as 0. Refuted (C116_refuted): without overflow checks a NOT gate on the first of 64 qubits gives the vector [0] (C116_zero). C116_norm_partial: for circuits of unitary gates whose state fits into a Vec the norm is 1. C116_panics_partial: with overflow checks, or up to 63 qubits, a circuit whose state does not fit panics.
* **C117 Sizes of wide matrices** — partial, refuted as stated. The size 1 << 2k on words: exact below 32 qubits, beyond that a panic or taken modulo 64. Refuted (C117_refuted): without overflow checks 33 qubits and 4 entries are accepted; C117_wraps says exactly which sizes are, C117_panics that 32 or more qubits panic with overflow checks. C117_size_partial: for up to 31 qubits exactly the vectors with 4^k entries are accepted.
* **C118 Initial values of foreign qubits** — partial, refuted as stated. The subtraction n - 1 - q panics or wraps; a shift by the wrapped number is taken modulo 64, so that only q modulo 64 matters. Refuted (C118_refuted): without overflow checks an initial value for qubit 66 of a circuit of three qubits sets the last one (C118_set); C118_alias: only the numbers modulo 64 matter; C118_twice: in a register of more than 64 qubits the value is repeated. C118_panics_partial: with overflow checks the calculation panics.
* **C119 Stochastic measurements in floating point arithmetic** — proved. `Model/FloatLoop` is the whole loop of a calculation over any type of machine numbers, with all kinds of elements and all orders of additions as a relation; exact numbers give back the model of C30 (`C119_exact`). Both buffers are followed, since a global phase or a stochastic measurement exchanges them (C81): the state may then be the buffer of zeros, so that lengths at most one are allowed. Built on the bounds of C87 for a gate and C88 for a probability. C119_stochastic: circuits without draws; C119_circuit: with measurements, under the condition on the draws that C88 needs; C119_probs and C119_total: one stochastic measurement; C119_exact: with exact numbers the loop is the one of the exact model; C119_stored: the rounded circuits exist; C119_simple: examples/simple.rs in f64. The exact results compared with are those of the code, including the stale buffers of C81.
* **C120 Rational angles on machine words** — partial, refuted as stated. Numerator and denominator as words, each operation checked or wrapping. `Ratio::new`, the negation and the division by 2 of num-rational are compared with the normal form of a rational number (numerator and denominator of Mathlib); which inputs overflow is decided exactly, and the methods are then equal to those of `Model/Gates` as programs. The source of num-rational is not part of the repository: its operations are modelled from the published version 0.4. The claim is false in both kinds of build (C120_refuted). A numerator -2^63 cannot be negated: ry_ratio and the inverse panic, or without checks rotate the other way, so that the inverse is the rotation itself. An odd numerator over a denominator of 2^62 or more cannot be halved: a panic, or without checks a phase of the other sign. The number -2^63 in the _pi_by methods: a panic, or the negated angle. In all other cases the claim holds (the _partial theorems), and rx_ratio always is right (C120_rx).
* **C121 Measured frequencies in floating point arithmetic** — proved. A draw further than `κ + τ` from all sums of `|φ x|²` gives the exact outcome (C88). The other draws lie in `2^n + 1` intervals and are counted, as are the draws that fall between two sums. The draws and the choice of a run with each draw are arbitrary, so no assumption about the random number generator is needed; that `rand::random::<f64>()` returns each multiple of `2^-53` below 1 equally often is outside of the model. C121_measure: one measurement of a state known up to an error; C121_frequency: a circuit with a measurement at its end; C121_f64: in f64 with the 2^53 draws of rand, up to 10 qubits and 1000 gates (or user matrices of the same cost), no frequency is off by more than 2^-24.
* **C122 Entries of the gates in floating point arithmetic** — proved. `Model/FloatGates` repeats the match of `calculate_state_with_init` with the numbers of a format; `cos`, `sin`, the two constants and the conversion of ratios are parameters (`StdLib`), their accuracy is a hypothesis (`StdLib.Accurate`, met by functions rounded to nearest: C122_accurate). Multiplying by one and negating are exact, halving is exact up to underflow, cosine and sine do not enlarge the error of the angle. C122_wide_angle shows that the dependence on the size of rational angles is there in the code: the ratios 2^60 and 2^60+1 give the same op in f64, though the exact rotations differ by more than 0.4. The numbers of a user matrix may be those of any unitary matrix up to the relative error of C87 (`EntryMeant`), and a floating point angle may differ from the one meant by a rounding error of an angle up to 2. C122_entries: one gate; C122_elements: the elements of a circuit; C122_stochastic, C122_circuit: whole calculations (with C119); C122_measured, C122_frequency: the same for C88 and C121; C122_angles: rational angles of any size; C122_matrix: a circuit with a rounded user matrix; C122_accurate: the hypothesis can be met; C122_wide_angle: why the bound depends on the angle. The accuracy of cos, sin and Ratio::to_f64 is assumed.
* **C123 From programs to measured frequencies in floating point arithmetic** — proved. The pipeline of the main program is that of its programs and one entry for the measurement (`main_split`); C106 gives the state the programs make, C122 and C121 the frequencies of the measurement. `Meant` (C122) relates the pipeline of the model with exact numbers to that with floating point numbers, `C123_circuit` makes such a floating point pipeline by rounding, for every main program whose angles fit the format (`AngleFits`: numbers of the format, angles up to 2, ratios up to 1). The examples evaluate the pipelines of the three programs in the kernel (`smallRun`). C123_frequency: every main program; C123_circuit: the hypotheses can be met; C123_query, C123_search: the programs of C109 and C110; C123_bound: the bound in f64; C123_bernstein_vazirani, C123_deutsch_jozsa, C123_found: what the runs report.
* **C124 From programs to state vectors and probabilities in floating point arithmetic** — proved. C122 compares a run in floating point arithmetic with the exact calculation, C106 the exact calculation with the meaning of the programs, C81 the reported probabilities with the state (there is one stochastic measurement, at the end, so no stale buffer is read before it). `progsW_low`: the state the programs make lives on the qubits of the builder, so its length is that of the vector. `C124_back` uses that a structured program and its inverse undo each other (C107). The examples evaluate the pipelines in the kernel. C124_state, C124_length: the state vector; C124_back: a program and its inverse; C124_probabilities: measure_stochastic at the end; C124_circuit: the hypotheses can be met; C124_bound: the bounds in f64.
* **C125 Joint frequencies of several measurements in floating point arithmetic** — proved. Induction over the pipeline for states that are close to a branch of the exact calculation (`joint_err`). At a measurement the draws split according to the outcome: C121 says for all draws that are not near a boundary which outcome it is, `avg_close` averages over the first draw. If the outcome is more likely than the threshold, the collapsed and scaled state is close to the scaled exact branch (C88) and the rest of the circuit is compared by induction; if not, both the share and the probability are small. `runs_total`: gates and measurements have a run on every vector, finite or not. `C125_bound` solves the recursion. C125_joint: circuits; C125_programs: main programs; C125_bound: closed form of the bound; C125_f64: numbers; C125_again: a register measured twice.
* **C126 Programs on basis states are calculated without rounding** — proved. The numbers 0, 1, -1, i, -i are stored exactly (`C126_stored`), and their products and sums with at most one nonzero term are (`apply_stored`, `sums_stored`): so the floating point step is the image of the exact one. Every row of a plain gate has one entry; with the length preserved (C82) the exact state stays a basis state (`unit_of_nrm`). A measurement of it gives its value for each draw in (0, 1] (`measure_stored`); dividing by the root of one changes nothing. Induction over the pipeline (`plain_run`), then the Born rule for main programs (C106). C126_stored: the numbers; C126_circuit: circuits; C126_programs: main programs; C126_text: by the text of the program; C126_oracle, C126_parity: oracles; C126_zero: the draw zero.
* **C127 Certain outcomes are reported for every draw, in floating point arithmetic** — proved. Induction over the exact course of the circuit (`certain_run`): a gate adds its rounding error (C87, C122) to the distance between the computed and the exact state; at a measurement the draw is further from all sums of the exact state than the error of the computed sums, so that `soft_measure` selects the same basis state as in exact arithmetic (C88, `measure_err`), and in this the register holds the certain value; the division by the root of a probability near one at most doubles the distance and adds `13·2^n·2^-p`. The exact course of the pipeline follows from the meaning of the structured programs (`main_sure`, C105, C106). `C127_certain`: a program has such a course exactly if the outcomes leave the whole of the initial state, because programs preserve the length (C107) and projections do not increase it. `C127_share` counts the draws near these places. C127_circuit: circuits; C127_programs: main programs; C127_certain: which programs these are; C127_f64: numbers; C127_oracle, C127_add, C127_query, C127_bernstein_vazirani, C127_deutsch_jozsa: instances; C127_share, C127_share_f64, C127_bernstein_vazirani_share, C127_add_share: the share of the sequences of draws that report them.
* **C128 Simon's program** — proved. As C109: H on the input turns `|u, w>` into the sum of `(-1)^(u.s)|s, w>`; the oracle takes `|u, 0>` to `|u, f(u)>`. The probability of `v` is split by the value of the output register (`normW_proj_sum`); the square of the sum over the inputs with one value is a sum over pairs `u`, `t` with `f(u) = f(t)`, which are `u` and `u xor a`, and the sign is multiplicative (`sign_xor`). `C128_determines` uses the outcomes with one and with two ones. The oracle by induction over its lines. In floating point arithmetic by C123.
* **C129 Teleportation** — proved. On basis states with explicit numbers in the three registers (`triAsg`): H makes sums with signs `(-1)^(u.s)`, `copy` adds numbers without carry (`copy_ab`, `copy_bc`, `copy_ac`), and H, `copy`, H on the third register is the sign `(-1)^(u.s)` (`had_copy_had`: H twice is the identity and the sign is multiplicative). Projecting on the outcomes and correcting leaves `2^-n` times the state moved to the third register (`sent`), for all states by linearity; programs do there what they do on the first register (C107). Moving a state keeps its length and its projections.
* **C130 Dense coding** — proved. With the basis states of C129: `negate_bitmask` adds the message without carry (`flip_a`), between H it is the sign `(-1)^(s.v)` (`had_flip_had`), so the state on its way is the sum of `(-1)^(s.v)|s, s xor u>` (`dense_sent`), from which the secrecy is read off; `copy` turns the second number into `u`, and the rest is H of `v` (`dense_wave`). Floating point by C127, as the final state is a basis state.
* **C131 Deferred measurement** — proved. `Prog.Spares` is read off the text. By induction on the program every basis state goes to basis states with the same values in the register (`Prog.leaves`); a line of `program!` either does not name the qubit (C105) or names it in a place the function leaves as it is (`call_leaves`), and the adjoint has the transposed support. Therefore the program commutes with the projections of the measurement (`KeepsReg.proj`); the reported probabilities use that programs preserve the length (C107). The rest is C106. `C131_needed` is the counterexample without the hypothesis.
* **C132 No program clones** — proved. By linearity (`no_clone`): if 0 and 1 are cloned, then what H prepares goes to a state where the two qubits agree; undoing H on both gives the same amplitudes for 1, 1 as for 0, 0, so if 0, 0 were certain the state would vanish, but programs preserve the length (C107). That an outcome of probability 1 leaves no other basis states is `on_of_norm`; the rest is C106.
* **C133 Independent programs can be exchanged** — proved. `Prog.Uses` is read off the text; by induction on the program it acts on the qubits of these registers only (`Prog.localOn`: all others keep their values, and flips of them commute with it, from C105; the adjoint pointwise). Every basis state one program makes differs from the given one by flips the other is blind to, so both orders give the same double sum (`commute_of`). Common registers are left as they are by C131. The rest is C106. `C133_needed` is the counterexample without the hypothesis.
* **C134 Uncomputing leaves no trace** — proved. `Prog.Classical` is read off the text; by induction such a program gives one basis state times a factor (`Prog.mono`), the adjoint included. If the computation gives z·|y⟩, the use of the result gives states that agree with y on the registers of the computation (C131), and the computation does to each of them what it did before (it is blind to all else, C133), so that its inverse brings back the initial values there (`uncompute_leaves`). `C134_needed` computes the counterexample with H.
* **C135 No signalling between programs** — proved. Each step of the first group commutes with each step of the second: two programs by C133, a program and a measurement by C131 (or because it does not name the register, C133), two measurements always. So it can be moved to the end (`passes_acts`), where a program changes no norm (C107) and the norms for all outcomes of a measurement add up (`normW_proj_sum`); the rest is C106. `C135_needed` is the counterexample.
* **C136 A register and its copy are measured alike** — proved. The steps before keep the target 0 in every basis state (C131, C133; `acts_keep`). `copy` then makes both registers hold the same value in every basis state (`copy_vals`), so the second projection changes nothing or leaves nothing; it leaves the copied register as it is, so the first projection can be moved before it (C131), and it changes no norm (C107). The rest is C106. For `C136_instead`, a copy that is measured without looking cannot be seen (C135); after its outcome u the copy differs from a state where register i gave u by flips of register j only, to which all later steps are blind (`flip_passes`).
