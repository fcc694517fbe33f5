# RustQIP: machine-checked model and proofs — design

Source under study: `/repo` (RustQIP at the pinned commit; crates `qip-iterators`, `qip`, `qip-macros`).
Properties: `properties.jsonl`. Claim status: `MANIFEST.json`. Lean project: `lean/` (Lean 4.33.0, Mathlib).
Mutation tests of the theorems: `seeded/LOG.jsonl`.

## Trusted base

* The Lean kernel and the three standard axioms `propext`, `Classical.choice`, `Quot.sound`.
  No own axioms, no `sorry`, no `native_decide`, no `bv_decide`, no `implemented_by`.
  (`krfl`, used for concrete circuits, is a tactic that closes `a = b` by handing `Eq.refl a` to the kernel; it adds
  nothing to the trusted base.)
* The hand translation Rust → Lean in `lean/Verif/Model/*.lean`. Every definition cites the file and lines it models.
* The reading of the properties in `lean/Verif/Spec/*.lean` and in the `…_claim` definitions of `lean/Verif/Props/*.lean`.

## Modelling conventions

* **Numbers.** Float amplitudes `Complex<P>` are modelled by exact numbers: an arbitrary type `K` with the operations used in
  the iterator layer (a semiring in C01–C20), `ℂ`/`ℝ` in the state layer. Rounding is treated in C85–C88, C119 and C121–C127 only: with unlimited
  exponents in C86, with underflow, overflow and NaN (one absorbing value for infinities and NaN, zeros without sign) in C87, for measurements in C88, C119 and C121, and for the entries of the gates in C122.
  Elsewhere NaN and infinities are not modelled, except in C53, where NaN and signed zero are the point (`Model/Hash.lean` has
  its own type of floats).
* **Words.** Bit helpers are modelled on 64-bit words (`BitVec 64`) *and* on `Nat`; C57 proves the two agree for
  n ≤ 63. `qfft` and the masks of `program!` are modelled on unbounded numbers and, in `Model/Wide`, on `i64` and `u64`, with and without
  overflow checks (C111); so is the start of a calculation (length of the vector, initial index) in `Model/WideCalc` (C114), and so is the whole of a calculation in `Model/Words64` (C115–C118), and the ratios of rotation angles in `Model/Ratio64` (C120). The rest of the index arithmetic is on `Nat` (no wrap-around).
* **Panics** (slice out of range, `unwrap` on `None`, underflow in a checked build, `todo!`, `unreachable!`) are explicit
  failure values (`none`, or `Fail.panic`), never default values. `CircuitError` is another failure value (`Fail.error`).
* **Iterators** are state machines with a `next` function; draining one is a `partial_fixpoint` in `Option`, so
  non-termination would also show as `none`.
* **Mutation.** `&mut self` methods are state transformers `M β α := EStateM Fail β α`; the builder survives an `Err`.
* **Traits** are type classes; `Conditioned<B>` is an instance for every instance `B`, as in Rust. The independent Rust
  traits form a chain `RegOps → CircuitBuilder → CliffordT → TempBuilder → Rotations → Conditionable → Recursive`, which
  every builder of the library implements.
* **Recursion** over register sizes (`toffoli`, `add`, `exp_mod`) uses fuel given by the size; running out of it is
  `Fail.panic`, and the theorems show that it never happens.
* **Generic calls.** `#[invert]` builds its inverse on a fresh `LocalBuilder`; a Rust function generic in the builder is
  modelled by a Lean function generic in the class, so it can be run on both.
* **Parallelism.** Rayon's schedules are permutations/interleavings of the per-row tasks (C13); elsewhere the sequential
  order is used.
* **Randomness.** The number drawn by `rand::random` is a parameter.
* **Macros.** `program!` and `#[invert]` are modelled twice: the parser on token trees (`Model/Parse.lean`), and the code
  they expand to (`Model/Program.lean`, `invertFn` in `Model/Sub.lean`). For `program!`, `Model/Expand.lean` connects the two (C93).

Not modelled: float rounding beyond C85–C88, C119 and C121–C127 (the code of `cos`, `sin` and `Ratio::to_f64`, whose accuracy is a hypothesis of C122; angles computed by library functions before they are given to a rotation, beyond a rounding error), wrap-around beyond C57, C111, C114–C118 and C120, the memory of the machine (the size limit of `Vec` is in C114), derived `Debug` and `Display` formatting (that of ops is C94),
threads other than as in C13, procedural-macro hygiene and spans, the `Qudit`-only accessors, benches. Builds
without the feature `parallel` run the same code with sequential iterators.

## How states are specified

A basis state is `Asg = ℕ → Bool` (a value for every qubit number), a state is `Wave = Asg →₀ ℂ`, a gate is the linear
map `gateW idx m` given by its matrix, a circuit is `runW`. None of this mentions the state-vector code; C30 connects
the two (`Rep n v ψ`: the vector holds the amplitudes of the wave). Statements about circuit-building methods have the
form `Does ang m s a L U`: the call `m` in builder `s` succeeds with result `a`, the caller then owns the qubits `L`
(distinct from each other and from the pool of temporaries), and the elements added send every basis state `x` with clean
temporaries to `U x`, again with clean temporaries. `ang` is the angle taken for a rotation object, so that the theorems
hold both for the code's reading and for the documented one. Nested conditions are `under crs m` on `NB k`, the builder
conditioned `k` times.

## Layers

| Layer | Model | Spec | Properties |
|---|---|---|---|
| bit utilities | `Model/Bits` | `Spec/Bits` | C01–C04, C57 |
| row iterators | `Model/Iter` | `Spec/Iter` | C05–C09 |
| op application | `Model/Apply`, `Model/Schedule`, `Model/Float`, `Model/FloatMeasure`, `Model/FloatLoop`, `Model/FloatGates` | `Spec/Matrix`, `Spec/Schedule`, `Spec/Float`, `Spec/Ieee`, `Spec/IeeeMeasure`, `Spec/FloatLoop`, `Spec/FloatGates`, `Spec/FloatMain`, `Spec/FloatState`, `Spec/FloatJoint`, `Spec/FloatExact`, `Spec/FloatCertain` | C10–C15, C85–C88, C119, C121–C127 |
| op constructors | `Model/Ops` | `Spec/Matrix` | C16–C20 |
| measurement | `Model/Measure` | `Spec/Measure` | C21–C23 |
| registers, histories | `Model/Builder` | `Spec/Registers`, `Spec/History`, `Spec/Panics` | C24–C28, C89 |
| calculation | `Model/Calc`, `Model/Look`, `Model/WideCalc`, `Model/Words64` | `Spec/Wave`, `Spec/Value`, `Spec/Born`, `Spec/Stale`, `Spec/Equiv`, `Spec/Pair`, `Spec/Sized` | C29, C30, C42, C43, C56, C76–C79, C81, C90, C91, C96, C97, C113–C118 |
| gates, temporaries | `Model/Gates`, `Model/Ratio64` | `Spec/Wave`, `Spec/Clean`, `Spec/Ratio64` | C31–C34, C64–C66, C120 |
| conditions | `Model/Cond` | `Spec/Cond`, `Spec/Nest` | C35–C38, C54, C60, C70, C71 |
| subcircuits, inversion | `Model/Sub` | `Spec/Sub` | C39–C41, C58 |
| arithmetic, qfft | `Model/Arith`, `Model/Wide` | `Spec/Arith`, `Spec/Circuits`, `Spec/Counts` | C44–C49, C52, C59, C67–C69, C72–C75, C84, C92, C111 |
| `program!` | `Model/Program` | `Spec/Program` | C50, C51 |
| whole programs | – | `Spec/Client`, `Spec/Steady`, `Spec/Sleep`, `Spec/Struct`, `Spec/Main`, `Spec/Oracle`, `Spec/Simon`, `Spec/Teleport`, `Spec/Dense`, `Spec/Defer`, `Spec/Clone`, `Spec/Commute`, `Spec/Uncompute`, `Spec/Signal`, `Spec/Copies`, `Spec/Loose`, `Spec/Tour` | C98–C110, C112, C113, C128–C136 |
| documented examples | `Model/Examples` | `Spec/Examples` | C80, C82, C83 |
| macro parsers and expansion | `Model/Parse`, `Model/Expand`, `Model/InvertText` | inside `Props/Parse` and `Props/InvertText`, `Spec/Text` | C55, C61–C63, C93, C95 |
| debug texts | `Model/Format` | inside `Props/Format` | C94 |
| hashing | `Model/Hash` | inside `Props/Hash` | C53 |

Each property has its theorems in `lean/Verif/Props/`, named `Cxx_…`, with `example`s that meet the hypotheses on
non-trivial data; helper lemmas are in `lean/Verif/Proofs/`. A name ending in `_partial` proves less than the property
says; `_refuted` proves the negation of the property as stated. Where the property is refuted, the file contains the full
statement as a definition `Cxx_claim`.

## Findings

What the refuted properties say about the code, by place. Each item is proved with a concrete witness (`…_refuted`); the theorems
named in "Per property" give the exact behaviour.

| Place | Behaviour | Property |
|---|---|---|
| `apply_ops` | several ops: rows are taken apart in the opposite order to columns | C15 |
| `soft_measure` | the draw 0 can select an outcome of probability 0; with rounding the loop can run off the end | C23, C88 |
| `split_register_relative` | a repeated index hands out a qubit twice; the index equal to the size panics | C24, C27 |
| `split_register_absolute` | absolute indices are used as positions | C26 |
| `calculate_state_with_init` | a global phase or stochastic measurement makes it go on from a stale buffer | C43, C81, C97 |
| `calculate_state_with_init` | without overflow checks, a circuit of 64 or more qubits gives too short a vector | C114 |
| `calculate_state_with_init` | without overflow checks, a NOT gate on the first of 64 qubits gives the zero vector | C116 |
| `make_matrix_op` | without overflow checks, accepts 4 entries as a matrix of 33 qubits | C117 |
| `calculate_state_with_init` | without overflow checks, an initial value for a qubit of another builder may set a qubit of this one | C118 |
| rotations by ratios | a numerator -2^63 cannot be negated (inverse, `ry_ratio`), an odd numerator over 2^62 or more cannot be halved (conditioned global phase): a panic, or without overflow checks the wrong sign | C120 |
| `toffoli` | with several controls and m targets the flipped states get a phase | C32, C83 |
| rotations | sign of `ry`; `ratio` and `pi_by` without π; several qubits panic | C34 |
| `broadcast_single_qubit_matrix` | on two or more qubits the object has too few entries and no state can be calculated | C65 |
| `Conditioned`: Y, H, Rz, global phase | conditioned Y is −Y, H has wrong angles, Rz is not confined, the phase has no effect | C36, C38, C58 |
| `Conditioned`: S, T on registers | all but the last qubit act as conditions | C35 |
| `Conditioned`: rotation methods | the condition is ignored | C37, C52 |
| `Conditioned`: SWAP object, matrices | error or panic; `todo!()` | C70, C71 |
| `Conditioned`: errors | the condition register is lost | C60 |
| `apply_subcircuit` | panics unless the subcircuit reaches the last qubit; measurements inside are not counted | C40, C41, C42 |
| `lshift` | panics on one qubit | C47 |
| `add`, `add_inv` inside conditions | wrong as soon as a carry occurs, and so is all modular arithmetic | C49, C59, C67, C72, C73, C75 |
| `exp_mod` | exponent 0 gives p, not p mod m | C84 |
| `qfft` | wrong for every register of two or more qubits; panics or wraps from 64 qubits on | C52, C111 |
| circuit objects | `Eq` and `Hash` disagree on 0.0 and −0.0; NaN | C53 |
| `program!` | `[ra; rb]` is read as `[ra]`; a name repeated with another between is accepted | C55, C63 |
| `#[invert]` | panics on `pub(crate) fn` and on generics with `Fn(…)` | C95 |

