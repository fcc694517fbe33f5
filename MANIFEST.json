{
 "claims": [
  {
   "property": "C01",
   "status": "proved",
   "theorems": [
    "Verif.Props.C01_get_after_set",
    "Verif.Props.C01_get_bit"
   ],
   "note": ""
  },
  {
   "property": "C02",
   "status": "proved",
   "theorems": [
    "Verif.Props.C02_flip_bits",
    "Verif.Props.C02_involution",
    "Verif.Props.C02_panics",
    "Verif.Props.C02_nat"
   ],
   "note": ""
  },
  {
   "property": "C03",
   "status": "proved",
   "theorems": [
    "Verif.Props.C03_full_to_sub",
    "Verif.Props.C03_sub_to_full",
    "Verif.Props.C03_read_after_write",
    "Verif.Props.C03_write_after_read",
    "Verif.Props.C03_panics",
    "Verif.Props.C03_select_matrix_coords"
   ],
   "note": ""
  },
  {
   "property": "C04",
   "status": "proved",
   "theorems": [
    "Verif.Props.C04_extract_bits",
    "Verif.Props.C04_entwine_bits",
    "Verif.Props.C04_extract_entwine_on",
    "Verif.Props.C04_extract_entwine_off"
   ],
   "note": ""
  },
  {
   "property": "C05",
   "status": "proved",
   "theorems": [
    "Verif.Props.C05_dense_row",
    "Verif.Props.C05_dense_row_panics",
    "Verif.Props.C05_sparse_row",
    "Verif.Props.C05_sparse_row_panics"
   ],
   "note": ""
  },
  {
   "property": "C06",
   "status": "proved",
   "theorems": [
    "Verif.Props.C06_controls_off",
    "Verif.Props.C06_controls_on"
   ],
   "note": ""
  },
  {
   "property": "C07",
   "status": "proved",
   "theorems": [
    "Verif.Props.C07_swap_row",
    "Verif.Props.C07_swap_involution"
   ],
   "note": ""
  },
  {
   "property": "C08",
   "status": "proved",
   "theorems": [
    "Verif.Props.C08_function_row",
    "Verif.Props.C08_function_involution",
    "Verif.Props.C08_function_panics"
   ],
   "note": ""
  },
  {
   "property": "C09",
   "status": "proved",
   "theorems": [
    "Verif.Props.C09_multi",
    "Verif.Props.C09_combos_exhaustive",
    "Verif.Props.C09_empty_panics"
   ],
   "note": ""
  },
  {
   "property": "C10",
   "status": "proved",
   "theorems": [
    "Verif.Props.C10_apply_op_overwrite",
    "Verif.Props.C10_apply_op_overwrite_full",
    "Verif.Props.C10_out_of_range"
   ],
   "note": ""
  },
  {
   "property": "C11",
   "status": "proved",
   "theorems": [
    "Verif.Props.C11_apply_op_accumulates",
    "Verif.Props.C11_add_equals_overwrite"
   ],
   "note": ""
  },
  {
   "property": "C12",
   "status": "proved",
   "theorems": [
    "Verif.Props.C12_chunked_input",
    "Verif.Props.C12_chunked_output"
   ],
   "note": ""
  },
  {
   "property": "C13",
   "status": "proved",
   "theorems": [
    "Verif.Props.C13_apply_op_any_schedule",
    "Verif.Props.C13_apply_op_overwrite_any_schedule",
    "Verif.Props.C13_measure_state_any_schedule"
   ],
   "note": ""
  },
  {
   "property": "C14",
   "status": "proved",
   "theorems": [
    "Verif.Props.C14_control",
    "Verif.Props.C14_swap_malformed",
    "Verif.Props.C14_swap"
   ],
   "note": ""
  },
  {
   "property": "C15",
   "status": "partial",
   "theorems": [
    "Verif.Props.C15_apply_ops_rows_reversed_partial",
    "Verif.Props.C15_apply_ops_not_sequential",
    "Verif.Props.C15_apply_ops_single_partial",
    "Verif.Props.C15_apply_ops_none_partial",
    "Verif.Props.C15_apply_ops_none_window_partial"
   ],
   "note": "Refuted for two or more ops (C15_apply_ops_not_sequential): rows are taken apart in the opposite order to columns. Exact behaviour, single-op and no-op cases proved."
  },
  {
   "property": "C16",
   "status": "proved",
   "theorems": [
    "Verif.Props.C16_transpose_op",
    "Verif.Props.C16_transpose_sparse_any_order",
    "Verif.Props.C16_conj_op",
    "Verif.Props.C16_invert_op",
    "Verif.Props.C16_invert_restores",
    "Verif.Props.C16_unitary_closed"
   ],
   "note": ""
  },
  {
   "property": "C17",
   "status": "proved",
   "theorems": [
    "Verif.Props.C17_prob_magnitude"
   ],
   "note": ""
  },
  {
   "property": "C18",
   "status": "proved",
   "theorems": [
    "Verif.Props.C18_make_matrix_op",
    "Verif.Props.C18_make_sparse_matrix_op",
    "Verif.Props.C18_make_swap_op",
    "Verif.Props.C18_make_control_op"
   ],
   "note": ""
  },
  {
   "property": "C19",
   "status": "proved",
   "theorems": [
    "Verif.Props.C19_little_endian",
    "Verif.Props.C19_function_order"
   ],
   "note": ""
  },
  {
   "property": "C20",
   "status": "proved",
   "theorems": [
    "Verif.Props.C20_make_op_matrix"
   ],
   "note": ""
  },
  {
   "property": "C21",
   "status": "proved",
   "theorems": [
    "Verif.Props.C21_measure_prob",
    "Verif.Props.C21_measure_probs",
    "Verif.Props.C21_chunks_add"
   ],
   "note": ""
  },
  {
   "property": "C22",
   "status": "proved",
   "theorems": [
    "Verif.Props.C22_measure_state_window",
    "Verif.Props.C22_disjoint_windows_panic",
    "Verif.Props.C22_collapse",
    "Verif.Props.C22_zero_probability_is_noop"
   ],
   "note": ""
  },
  {
   "property": "C23",
   "status": "partial",
   "theorems": [
    "Verif.Props.C23_refuted",
    "Verif.Props.C23_positive_partial",
    "Verif.Props.C23_born_rule"
   ],
   "note": "The distribution (Lebesgue measure of the draws giving m = Born probability) is proved in full; 'only positive-probability outcomes' is refuted for the single draw 0 (C23_refuted) and proved for every other draw."
  },
  {
   "property": "C24",
   "status": "partial",
   "theorems": [
    "Verif.Props.C24_disjoint_partial",
    "Verif.Props.C24_no_cloning_refuted",
    "Verif.Props.C24_no_cloning_partial"
   ],
   "note": "Refuted by C24_no_cloning_refuted: split_register_relative with a repeated index hands out the same qubit twice. Proved for every history whose split calls repeat no index; in every history whatever, different registers and the pool share no qubit (C24_disjoint_partial)."
  },
  {
   "property": "C25",
   "status": "proved",
   "theorems": [
    "Verif.Props.C25_split_all",
    "Verif.Props.C25_merge",
    "Verif.Props.C25_split_relative",
    "Verif.Props.C25_split_first",
    "Verif.Props.C25_split_last",
    "Verif.Props.C25_split_groups",
    "Verif.Props.C25_split_groups_sound",
    "Verif.Props.C25_get_selected"
   ],
   "note": ""
  },
  {
   "property": "C26",
   "status": "partial",
   "theorems": [
    "Verif.Props.C26_split_absolute_refuted",
    "Verif.Props.C26_split_absolute_panics",
    "Verif.Props.C26_split_absolute_partial",
    "Verif.Props.C26_positions_partial"
   ],
   "note": "Refuted by C26_split_absolute_refuted: absolute indices are looked up but passed on as absolute instead of relative ones. Proved for registers whose qubits are numbered like their positions; panics characterised. C26_positions_partial gives the exact behaviour on every register and index list: the numbers are used as positions."
  },
  {
   "property": "C27",
   "status": "partial",
   "theorems": [
    "Verif.Props.C27_ignored_refuted",
    "Verif.Props.C27_size_panics",
    "Verif.Props.C27_ignored_partial"
   ],
   "note": "Refuted by C27_ignored_refuted: the index equal to the register size panics instead of being ignored. Proved for all other out-of-range indices."
  },
  {
   "property": "C28",
   "status": "proved",
   "theorems": [
    "Verif.Props.C28_broadcast",
    "Verif.Props.C28_same_size",
    "Verif.Props.C28_mismatch",
    "Verif.Props.C28_depth"
   ],
   "note": ""
  },
  {
   "property": "C29",
   "status": "proved",
   "theorems": [
    "Verif.Props.C29_initial_state",
    "Verif.Props.C29_read_back"
   ],
   "note": ""
  },
  {
   "property": "C30",
   "status": "proved",
   "theorems": [
    "Verif.Props.C30_calculate_state",
    "Verif.Props.C30_reachable"
   ],
   "note": ""
  },
  {
   "property": "C31",
   "status": "proved",
   "theorems": [
    "Verif.Props.C31_named",
    "Verif.Props.C31_undo",
    "Verif.Props.C31_dagger",
    "Verif.Props.C31_cnot",
    "Verif.Props.C31_swap"
   ],
   "note": ""
  },
  {
   "property": "C32",
   "status": "partial",
   "theorems": [
    "Verif.Props.C32_toffoli_partial",
    "Verif.Props.C32_single_partial",
    "Verif.Props.C32_refuted"
   ],
   "note": "Refuted by C32_refuted: with two or more controls and m targets the flipped states get the factor (-i)^(m-1). Exact action for all sizes in C32_toffoli_partial; the stated behaviour for one control or one target in C32_single_partial."
  },
  {
   "property": "C33",
   "status": "proved",
   "theorems": [
    "Verif.Props.C33_make_temp",
    "Verif.Props.C33_conditioned",
    "Verif.Props.C33_toffoli",
    "Verif.Props.C33_make_temp_no_repeat",
    "Verif.Props.C33_toffoli_no_repeat",
    "Verif.Props.C33_conditioned_no_repeat"
   ],
   "note": "Proved in every history (C33_make_temp, C33_toffoli, C33_conditioned) for the conditioned X, Z, S, T and CNOT with any number of conditions and targets. Where a register holds a qubit twice (C24) the call may panic, which ends the program; the theorems named _no_repeat show that it does not otherwise."
  },
  {
   "property": "C34",
   "status": "partial",
   "theorems": [
    "Verif.Props.C34_one_qubit_partial",
    "Verif.Props.C34_ry_refuted",
    "Verif.Props.C34_ratio_refuted",
    "Verif.Props.C34_pi_by_refuted",
    "Verif.Props.C34_register_refuted",
    "Verif.Props.C34_refuted"
   ],
   "note": "Refuted four ways (ry sign, ratio and pi_by lack the factor pi, multi-qubit register panics in calculate). Exact action on one qubit in C34_one_qubit_partial."
  },
  {
   "property": "C35",
   "status": "partial",
   "theorems": [
    "Verif.Props.C35_one_target_partial",
    "Verif.Props.C35_cnot",
    "Verif.Props.C35_one_condition_partial",
    "Verif.Props.C35_more_conditions_partial",
    "Verif.Props.C35_register_partial",
    "Verif.Props.C35_refuted"
   ],
   "note": "Proved for one target qubit and for CNOT, any number of conditions; X and Z on registers with the exact phase. Refuted for S and T on two or more qubits (C35_refuted): they act as if all but the last qubit were conditions and give back other registers."
  },
  {
   "property": "C36",
   "status": "partial",
   "theorems": [
    "Verif.Props.C36_y_partial",
    "Verif.Props.C36_h_partial",
    "Verif.Props.C36_rz_partial",
    "Verif.Props.C36_global_phase_partial",
    "Verif.Props.C36_y_refuted",
    "Verif.Props.C36_h_refuted",
    "Verif.Props.C36_rz_refuted",
    "Verif.Props.C36_global_phase_refuted",
    "Verif.Props.C36_refuted",
    "Verif.Props.C36_phase_methods"
   ],
   "note": "Refuted for each gate: conditioned Y is -Y, H has angles 1/4 in place of pi/4, Rz also changes states whose conditions fail, the global phase does nothing. Exact behaviour of each proved."
  },
  {
   "property": "C37",
   "status": "partial",
   "theorems": [
    "Verif.Props.C37_named_partial",
    "Verif.Props.C37_cnot",
    "Verif.Props.C37_swap",
    "Verif.Props.C37_rotations_partial",
    "Verif.Props.C37_refuted"
   ],
   "note": "Proved for X, Z, S, T and daggers on one qubit, CNOT and swap on registers. Refuted by the rotation methods (C37_refuted), which ignore the condition altogether (C37_rotations_partial)."
  },
  {
   "property": "C38",
   "status": "partial",
   "theorems": [
    "Verif.Props.C38_nested_partial",
    "Verif.Props.C38_conjunction",
    "Verif.Props.C38_refuted",
    "Verif.Props.C38_sequences_partial"
   ],
   "note": "Proved at any depth for all sequences of gates other than Y and H, including that dissolve returns the registers; the exact effect of all sequences with Y and H (C38_sequences_partial); for every object, nesting equals one condition register (C38_conjunction). Refuted for Y, since conditioned Y is -Y."
  },
  {
   "property": "C39",
   "status": "proved",
   "theorems": [
    "Verif.Props.C39_inverse",
    "Verif.Props.C39_computed",
    "Verif.Props.C39_measurement"
   ],
   "note": ""
  },
  {
   "property": "C40",
   "status": "partial",
   "theorems": [
    "Verif.Props.C40_panics",
    "Verif.Props.C40_refuted",
    "Verif.Props.C40_partial",
    "Verif.Props.C40_effect_partial"
   ],
   "note": "Refuted (C40_refuted, C40_panics): apply_subcircuit panics whenever the subcircuit reaches neither the last qubit of the register nor one beyond it, so also for the empty subcircuit. Proved for all other subcircuits, measurements included, with the effect on states."
  },
  {
   "property": "C41",
   "status": "partial",
   "theorems": [
    "Verif.Props.C41_partial",
    "Verif.Props.C41_refuted",
    "Verif.Props.C41_measurement"
   ],
   "note": "Refuted (C41_refuted) by a function that leaves the last register alone: applying the inverse panics. Proved for every function acting alike in every builder whose circuit reaches the last qubit; functions that measure are refused."
  },
  {
   "property": "C42",
   "status": "partial",
   "theorems": [
    "Verif.Props.C42_core",
    "Verif.Props.C42_measure_hist",
    "Verif.Props.C42_stochastic_hist",
    "Verif.Props.C42_measure_partial",
    "Verif.Props.C42_measure_stochastic_partial",
    "Verif.Props.C42_refuted"
   ],
   "note": "Refuted (C42_refuted): measurements inside an applied subcircuit are not counted, so later handles fetch other results. Proved for every history of the other builder calls."
  },
  {
   "property": "C43",
   "status": "partial",
   "theorems": [
    "Verif.Props.C43_refuted",
    "Verif.Props.C43_stochastic_refuted",
    "Verif.Props.C43_step",
    "Verif.Props.C43_pair_partial"
   ],
   "note": "Refuted by C43_refuted and C43_stochastic_refuted: a lone global phase or stochastic measurement makes the calculation continue from a stale buffer. C43_pair_partial: two in a row restore the state; C43_step gives the exact effect."
  },
  {
   "property": "C44",
   "status": "proved",
   "theorems": [
    "Verif.Props.C44_sum",
    "Verif.Props.C44_carry",
    "Verif.Props.C44_carry_inv",
    "Verif.Props.C44_undoes"
   ],
   "note": "sum and carry under any nesting of conditions; carry_inv on the plain builder (inside conditions the generated inverse is wrong, see C36, C58 and C67)."
  },
  {
   "property": "C45",
   "status": "proved",
   "theorems": [
    "Verif.Props.C45_add",
    "Verif.Props.C45_sizes"
   ],
   "note": "Every n, every basis state with zero upper carries, any surrounding circuit; wrong sizes are an error leaving the builder unchanged. Plain builder; add inside a condition is treated under C49."
  },
  {
   "property": "C46",
   "status": "proved",
   "theorems": [
    "Verif.Props.C46_add_inv",
    "Verif.Props.C46_inverse"
   ],
   "note": "Subtraction modulo 2^(n+1) for every n; inverse of add in both orders on every basis state, also with non-zero carries."
  },
  {
   "property": "C47",
   "status": "partial",
   "theorems": [
    "Verif.Props.C47_rshift",
    "Verif.Props.C47_moves",
    "Verif.Props.C47_doubles",
    "Verif.Props.C47_doubles_low",
    "Verif.Props.C47_lshift_partial",
    "Verif.Props.C47_lshift_one",
    "Verif.Props.C47_refuted"
   ],
   "note": "rshift proved for every size under any conditions. The claim about lshift is refuted (C47_refuted): lshift of one qubit panics. For two or more qubits lshift is the inverse in both orders (C47_lshift_partial)."
  },
  {
   "property": "C48",
   "status": "proved",
   "theorems": [
    "Verif.Props.C48_copy",
    "Verif.Props.C48_self_inverse",
    "Verif.Props.C48_copy_inv",
    "Verif.Props.C48_sizes"
   ],
   "note": "copy under any nesting of conditions, self inverse; copy_inv inverse on the plain builder; unequal sizes are an error leaving the builder unchanged."
  },
  {
   "property": "C49",
   "status": "partial",
   "theorems": [
    "Verif.Props.C49_exact_partial",
    "Verif.Props.C49_one_qubit_partial",
    "Verif.Props.C49_sizes",
    "Verif.Props.C49_refuted"
   ],
   "note": "Refuted as stated (C49_refuted: 1+1 modulo 3 with two qubits). C49_exact_partial: for a,b<m the result is the basis state with b=(a+b) mod m if m<=a+b or no borrow occurs in a+b-m, and no basis state at all otherwise. Cause: the add inside the condition."
  },
  {
   "property": "C50",
   "status": "proved",
   "theorems": [
    "Verif.Props.C50_negate",
    "Verif.Props.C50_negate_qubits",
    "Verif.Props.C50_self_inverse",
    "Verif.Props.C50_control"
   ],
   "note": "negate_bitmask for every register, mask and nesting of conditions; control(bits) lines for any function whose conditioned call acts on its own registers when all conditions hold."
  },
  {
   "property": "C51",
   "status": "proved",
   "theorems": [
    "Verif.Props.C51_selects",
    "Verif.Props.C51_line",
    "Verif.Props.C51_line_fails",
    "Verif.Props.C51_line_invalid",
    "Verif.Props.C51_program",
    "Verif.Props.C51_program_fails"
   ],
   "note": "Every list of registers and lines, on builders nested in any number of conditions; ill-formed selections panic before the call."
  },
  {
   "property": "C52",
   "status": "partial",
   "theorems": [
    "Verif.Props.C52_exact_partial",
    "Verif.Props.C52_uniform_partial",
    "Verif.Props.C52_never",
    "Verif.Props.C52_refuted",
    "Verif.Props.C52_one_qubit_partial"
   ],
   "note": "Refuted for every register of two or more qubits, both bit orders, all readings of the angles and even up to a factor per basis state (C52_never, C52_refuted): the controlled rotations are not controlled. Proved: the exact amplitudes for every size (C52_exact_partial), all outcomes equally likely as for the Fourier transform (C52_uniform_partial), and one qubit is right (C52_one_qubit_partial)."
  },
  {
   "property": "C53",
   "status": "partial",
   "theorems": [
    "Verif.Props.C53_exact_partial",
    "Verif.Props.C53_no_zero_partial",
    "Verif.Props.C53_equivalence_partial",
    "Verif.Props.C53_zero_refuted",
    "Verif.Props.C53_nan_refuted",
    "Verif.Props.C53_refuted",
    "Verif.Props.C53_kinds_partial",
    "Verif.Props.C53_ratio_rounds_partial"
   ],
   "note": "Refuted (C53_zero_refuted, C53_nan_refuted, C53_refuted): 0.0 and -0.0 compare equal and hash differently, and NaN angles make an object differ from itself although Eq is implemented. Proved: exactly when two objects compare equal and when they hash equally (C53_exact_partial), equality implies equal hashes without signed zeros (C53_no_zero_partial), equality is an equivalence without NaN (C53_equivalence_partial)."
  },
  {
   "property": "C54",
   "status": "proved",
   "theorems": [
    "Verif.Props.C54_cnot",
    "Verif.Props.C54_swap",
    "Verif.Props.C54_basic_toffoli",
    "Verif.Props.C54_rz_pi_by",
    "Verif.Props.C54_other_pi_by",
    "Verif.Props.C54_qudit",
    "Verif.Props.C54_condition_measurement",
    "Verif.Props.C54_invert_measurement"
   ],
   "note": "cnot, swap, basic_toffoli, rz_pi_by(0) in every builder (any nesting of conditions) leave the builder unchanged; a measurement inside conditions and the inverse of a subcircuit with a measurement are errors that leave the circuit unchanged. rx_pi_by(0), ry_pi_by(0) and apply_global_phase_pi_by(0) panic (C54_other_pi_by)."
  },
  {
   "property": "C55",
   "status": "partial",
   "theorems": [
    "Verif.Props.C55_exact_partial",
    "Verif.Props.C55_written_partial",
    "Verif.Props.C55_unambiguous_partial",
    "Verif.Props.C55_one_line_partial",
    "Verif.Props.C55_dropped",
    "Verif.Props.C55_refuted"
   ],
   "note": "Refuted (C55_refuted): inside a bracketed group a semicolon ends the group silently, [ra; rb] is read as [ra] (C55_dropped). Proved: the exact grammar the parser accepts (C55_exact_partial), every strictly written list is read as written and one line is consumed (C55_written_partial, C55_one_line_partial), and the reading is unique (C55_unambiguous_partial)."
  },
  {
   "property": "C56",
   "status": "proved",
   "theorems": [
    "Verif.Props.C56_rows",
    "Verif.Props.C56_unitary"
   ],
   "note": ""
  },
  {
   "property": "C57",
   "status": "proved",
   "theorems": [
    "Verif.Props.C57_full_to_sub_no_overflow",
    "Verif.Props.C57_sub_to_full_no_overflow",
    "Verif.Props.C57_bit_no_overflow",
    "Verif.Props.C57_panics",
    "Verif.Props.C57_flat_index",
    "Verif.Props.C57_flat_index_no_overflow",
    "Verif.Props.C57_flip_bits_no_overflow"
   ],
   "note": ""
  },
  {
   "property": "C58",
   "status": "partial",
   "theorems": [
    "Verif.Props.C58_replaced_partial",
    "Verif.Props.C58_plain_partial",
    "Verif.Props.C58_refuted"
   ],
   "note": "Refuted (C58_refuted: a subcircuit of one H). Proved: exact action with the replaced matrices of C36, and the claim itself for circuits without Y and H, at any nesting depth."
  },
  {
   "property": "C59",
   "status": "partial",
   "theorems": [
    "Verif.Props.C59_exact_partial",
    "Verif.Props.C59_not_held",
    "Verif.Props.C59_refuted"
   ],
   "note": "Refuted (C59_refuted: 1+1 with two qubits). C59_exact_partial: works if and only if no carry occurs between positions below the last; C59_not_held: no effect if a condition does not hold."
  },
  {
   "property": "C60",
   "status": "partial",
   "theorems": [
    "Verif.Props.C60_lost",
    "Verif.Props.C60_unusable",
    "Verif.Props.C60_dissolve_panics",
    "Verif.Props.C60_refuted",
    "Verif.Props.C60_partial"
   ],
   "note": "Refuted (C60_refuted): every error of apply_circuit_object on a conditioned builder loses the condition register (C60_lost), later gates and dissolve panic (C60_unusable, C60_dissolve_panics). The errors checked before a gate is applied keep the builder (C60_partial)."
  },
  {
   "property": "C61",
   "status": "proved",
   "theorems": [
    "Verif.Props.C61_program"
   ],
   "note": "Round trip for whole program texts: every builder expression without a semicolon, distinct inputs and any non-empty list of well formed lines."
  },
  {
   "property": "C62",
   "status": "proved",
   "theorems": [
    "Verif.Props.C62_arguments"
   ],
   "note": "For every argument list whose patterns and types contain no top-level name followed by a lone colon."
  },
  {
   "property": "C63",
   "status": "partial",
   "theorems": [
    "Verif.Props.C63_exact_partial",
    "Verif.Props.C63_refuted"
   ],
   "note": "Refuted (C63_refuted): Vec::dedup only removes neighbours, so ra, rb, ra is accepted. Exact criterion: rejected iff two neighbouring names are equal (C63_exact_partial)."
  },
  {
   "property": "C64",
   "status": "proved",
   "theorems": [
    "Verif.Props.C64_apply_matrix",
    "Verif.Props.C64_does",
    "Verif.Props.C64_wrong_size"
   ],
   "note": "Right size: the calculated state is the matrix applied to the state without the element (C64_apply_matrix; C64_does for unitary matrices inside longer circuits). Wrong size: accepted, then every calculation panics (C64_wrong_size)."
  },
  {
   "property": "C65",
   "status": "partial",
   "theorems": [
    "Verif.Props.C65_one_qubit_partial",
    "Verif.Props.C65_never",
    "Verif.Props.C65_refuted"
   ],
   "note": "Refuted (C65_refuted): the object is made with n = r.n() but only 4 entries, so for every register of two or more qubits the call succeeds and no state can be calculated any more (C65_never). Proved for one qubit (C65_one_qubit_partial)."
  },
  {
   "property": "C66",
   "status": "proved",
   "theorems": [
    "Verif.Props.C66_defaults",
    "Verif.Props.C66_gate"
   ],
   "note": "C66_defaults: same calculated state as LocalBuilder's own objects, and it is the textbook gate. C66_gate: the gate methods with default objects. (The doc comment of make_s says -i; the code uses i, which is the S gate.)"
  },
  {
   "property": "C67",
   "status": "partial",
   "theorems": [
    "Verif.Props.C67_exact_partial",
    "Verif.Props.C67_not_held",
    "Verif.Props.C67_refuted"
   ],
   "note": "Refuted (C67_refuted: 2-1). C67_exact_partial: inside held conditions add_inv subtracts if and only if every set bit of a is set in b, and otherwise yields no basis state; C67_not_held: no effect if a condition does not hold."
  },
  {
   "property": "C68",
   "status": "proved",
   "theorems": [
    "Verif.Props.C68_idle"
   ],
   "note": "C68_idle, for all circuits of Spec/Circuits (everything public in arithmetic.rs)."
  },
  {
   "property": "C69",
   "status": "proved",
   "theorems": [
    "Verif.Props.C69_runs",
    "Verif.Props.C69_sizes"
   ],
   "note": "C69_runs; C69_sizes for the error side (lshift on one qubit is C47_refuted)."
  },
  {
   "property": "C70",
   "status": "partial",
   "theorems": [
    "Verif.Props.C70_always_error",
    "Verif.Props.C70_odd",
    "Verif.Props.C70_refuted",
    "Verif.Props.C70_object",
    "Verif.Props.C70_method_partial"
   ],
   "note": "Refuted (C70_refuted). C70_always_error: a SWAP object on an even number of qubits is refused with an error inside any nesting of conditions, because the circuit calls cnot with several controls; C70_odd: a panic on an odd number. C70_method_partial: the swap method, built from three CNOTs, is the controlled swap; C70_object: what the SWAP object means without a condition."
  },
  {
   "property": "C71",
   "status": "partial",
   "theorems": [
    "Verif.Props.C71_panics_partial",
    "Verif.Props.C71_refuted"
   ],
   "note": "Refuted (C71_refuted). C71_panics_partial: todo!() inside any nesting of conditions, whatever the matrix."
  },
  {
   "property": "C72",
   "status": "partial",
   "theorems": [
    "Verif.Props.C72_zero_partial",
    "Verif.Props.C72_refuted",
    "Verif.Props.C72_one_qubit_partial",
    "Verif.Props.C72_sizes"
   ],
   "note": "Refuted: times_mod adds m back inside a condition and later takes it away inside the same condition, and inside conditions add and add_inv are not inverse to each other when a carry occurs (C59, C67). For b of one qubit, whatever it holds, the result is never a basis state in which only p has changed, for all widths, all a < m, all p and all values written to p; so never the stated one. Sizes that do not fit are an error. Not decided: b of two or more qubits (times_mod runs there too, but each further round acts on what the earlier ones left in a)."
  },
  {
   "property": "C73",
   "status": "partial",
   "theorems": [
    "Verif.Props.C73_one_qubit_partial",
    "Verif.Props.C73_refuted",
    "Verif.Props.C73_sizes"
   ],
   "note": "Refuted through times_mod: for m of one qubit, whatever the builder state, the result is never the stated one. Sizes that do not fit are an error. Not decided: wider m."
  },
  {
   "property": "C74",
   "status": "proved",
   "theorems": [
    "Verif.Props.C74_undoes"
   ],
   "note": "Sends x to y means: succeeds, returns the same registers, and the recorded circuit maps the basis state x to the basis state y. Unconditioned builder."
  },
  {
   "property": "C75",
   "status": "partial",
   "theorems": [
    "Verif.Props.C75_exact_partial",
    "Verif.Props.C75_refuted",
    "Verif.Props.C75_wraps_partial"
   ],
   "note": "C75_refuted: 2 - 1 mod 3 is not computed. C75_exact_partial is the exact criterion: right if and only if b < a, or m mod 2^i <= b mod 2^i for all i < n. C75_wraps_partial: right whenever b < a."
  },
  {
   "property": "C76",
   "status": "proved",
   "theorems": [
    "Verif.Props.C76_reachable",
    "Verif.Props.C76_state",
    "Verif.Props.C76_born_rule",
    "Verif.Props.C76_length"
   ],
   "note": "`outcomeProb` is the Lebesgue measure of the draws in [0,1)^k for which the calculation gives the outcomes. Stochastic measurements and global phases are excluded because of C43; a draw of exactly 0 (probability 0) is excluded from the statement about states because of C23. `C76_reachable`: the circuits are those built by histories of calls."
  },
  {
   "property": "C77",
   "status": "proved",
   "theorems": [
    "Verif.Props.C77_gates",
    "Verif.Props.C77_gate_measurement",
    "Verif.Props.C77_measurements"
   ],
   "note": "Same circuits as C76."
  },
  {
   "property": "C78",
   "status": "proved",
   "theorems": [
    "Verif.Props.C78_gate",
    "Verif.Props.C78_measurement",
    "Verif.Props.C78_total"
   ],
   "note": "Same circuits as C76."
  },
  {
   "property": "C79",
   "status": "proved",
   "theorems": [
    "Verif.Props.C79_untouched",
    "Verif.Props.C79_repeated"
   ],
   "note": "Same circuits as C76. Generalises C29 to registers read back at any place in a circuit."
  },
  {
   "property": "C80",
   "status": "proved",
   "theorems": [
    "Verif.Props.C80_test",
    "Verif.Props.C80_overlap",
    "Verif.Props.C80_example"
   ],
   "note": "Same circuits as C76. The documented example has registers of 3 qubits; the model has n."
  },
  {
   "property": "C81",
   "status": "partial",
   "theorems": [
    "Verif.Props.C81_exact",
    "Verif.Props.C81_probabilities_partial",
    "Verif.Props.C81_state",
    "Verif.Props.C81_lost",
    "Verif.Props.C81_simple",
    "Verif.Props.C81_refuted"
   ],
   "note": "Refuted (C81_refuted) by examples/simple.rs itself: the probabilities it prints are right (1/2, 0, 0, 1/2), the state returned lacks the last gate (C81_simple). C81_exact gives the exact result of every circuit of gates, global phases and stochastic measurements; C81_lost: the gate before a stochastic measurement or global phase is lost as soon as another gate follows; C81_state: the state returned is the one before the last gate. C81_probabilities_partial: the first stochastic measurement after gates reports the right probabilities."
  },
  {
   "property": "C82",
   "status": "proved",
   "theorems": [
    "Verif.Props.C82_undo",
    "Verif.Props.C82_gamma",
    "Verif.Props.C82_inverse",
    "Verif.Props.C82_no_phase",
    "Verif.Props.C82_program",
    "Verif.Props.C82_example"
   ],
   "note": ""
  },
  {
   "property": "C83",
   "status": "partial",
   "theorems": [
    "Verif.Props.C83_control_partial",
    "Verif.Props.C83_single_partial",
    "Verif.Props.C83_toffoli_partial",
    "Verif.Props.C83_refuted",
    "Verif.Props.C83_program_partial",
    "Verif.Props.C83_example"
   ],
   "note": "the documented statement is refuted (C83_refuted): toffoli with two controls on a conditioned builder turns its target by another matrix; the exact effect is proved, and the statement for single qubits"
  },
  {
   "property": "C84",
   "status": "partial",
   "theorems": [
    "Verif.Props.C84_zero_partial",
    "Verif.Props.C84_zero_right_iff_partial",
    "Verif.Props.C84_refuted"
   ],
   "note": "Refuted as documented (C84_refuted): exponent 0 gives p, not p mod m. Proved exactly for exponents of one qubit holding 0, all sizes and values, right iff p < m. Other exponents go through times_mod (C72, C73)."
  },
  {
   "property": "C85",
   "status": "proved",
   "theorems": [
    "Verif.Props.C85_moves",
    "Verif.Props.C85_circuit"
   ],
   "note": "Holds for IEEE numbers that are finite, with the two zeros identified (infinities times the zero imaginary part of 1 would give NaN)."
  },
  {
   "property": "C86",
   "status": "proved",
   "theorems": [
    "Verif.Props.C86_apply_op",
    "Verif.Props.C86_circuit",
    "Verif.Props.C86_simulator",
    "Verif.Props.C86_probabilities",
    "Verif.Props.C86_binary"
   ],
   "note": "No overflow and no underflow: exponents are unlimited. The library functions for the entries of T and Rz enter through the hypothesis that stored entries have relative error at most u."
  },
  {
   "property": "C87",
   "status": "proved",
   "theorems": [
    "Verif.Props.C87_apply_op",
    "Verif.Props.C87_circuit",
    "Verif.Props.C87_simulator",
    "Verif.Props.C87_gates",
    "Verif.Props.C87_binary64",
    "Verif.Props.C87_binary32"
   ],
   "note": "Infinities and NaN are one absorbing value. The format is proved to have roundings (exists_binary64)."
  },
  {
   "property": "C88",
   "status": "partial",
   "theorems": [
    "Verif.Props.C88_f32",
    "Verif.Props.C88_refuted",
    "Verif.Props.C88_total",
    "Verif.Props.C88_exact",
    "Verif.Props.C88_measure_partial",
    "Verif.Props.C88_circuit_partial",
    "Verif.Props.C88_formats",
    "Verif.Props.C88_f64",
    "Verif.Props.C88_refuted_f64"
   ],
   "note": "`C88_refuted`: in `f32`, after X, H, H the stored amplitude of 0 is 0 and that of 1 is 1 - 2^-24 or less; if the draw is 1 - 2^-24 the loop of `soft_measure` runs off the end and reports outcome 0, of computed probability 0, and the new state is whatever the scratch buffer held (`C88_f32`). In `f64` the same happens after one matrix of a user, `0 1; c 0` with `c = (15387 + 22484 i)/27245`, and the draw 1 - 2^-53 (`C88_f64`, `C88_refuted_f64`). Proved: a result always exists (`C88_total`), and the comparison with the exact run for draws that keep a distance from the boundaries between outcomes (`C88_measure_partial`, `C88_circuit_partial`), for f64 up to 47 and f32 up to 18 qubits. A user matrix on k qubits has to be unitary up to rounding and adds 16\u00b74^k\u00b72^-p to the error, any other gate 64\u00b72^-p."
  },
  {
   "property": "C89",
   "status": "proved",
   "theorems": [
    "Verif.Props.C89_calls",
    "Verif.Props.C89_repeated",
    "Verif.Props.C89_calculate",
    "Verif.Props.C89_no_panic"
   ],
   "note": "For histories without repeated split indices; `C89_repeated` shows a further panic otherwise (a Toffoli whose control register holds a qubit twice). Sizes of 64 qubits and more and memory limits are not modelled."
  },
  {
   "property": "C90",
   "status": "proved",
   "theorems": [
    "Verif.Props.C90_replace",
    "Verif.Props.C90_equal",
    "Verif.Props.C90_outcomes",
    "Verif.Props.C90_inverse"
   ],
   "note": "For gates other than global phases (C43) and measurements, not stochastic ones. The single draw 0 is excluded as in C23."
  },
  {
   "property": "C91",
   "status": "proved",
   "theorems": [
    "Verif.Props.C91_defer",
    "Verif.Props.C91_deferred",
    "Verif.Props.C91_needed"
   ],
   "note": "For gates other than global phases (C43) and measurements, not stochastic ones. `C91_defer` takes the condition on the states that occur, so it also covers whole circuits that only keep the register with clean temporaries."
  },
  {
   "property": "C92",
   "status": "proved",
   "theorems": [
    "Verif.Props.C92_toffoli",
    "Verif.Props.C92_toffoli_total",
    "Verif.Props.C92_sum",
    "Verif.Props.C92_carry",
    "Verif.Props.C92_circuits",
    "Verif.Props.C92_all",
    "Verif.Props.C92_again",
    "Verif.Props.C92_totals",
    "Verif.Props.C92_t_count",
    "Verif.Props.C92_growth",
    "Verif.Props.C92_qfft",
    "Verif.Props.C92_qfft_total"
   ],
   "note": "Exact numbers of elements and qubits for Toffoli gates and all arithmetic circuits under any conditions; for circuits built by inversion the number of qubits is an upper bound, as the statement says."
  },
  {
   "property": "C93",
   "status": "proved",
   "theorems": [
    "Verif.Props.C93_text",
    "Verif.Props.C93_duplicates",
    "Verif.Props.C93_runs",
    "Verif.Props.C93_documented",
    "Verif.Props.C93_documented_inverse"
   ],
   "note": "Expressions for numbers are arbitrary tokens without a comma or range operator, evaluated by the environment; index expressions other than arrays of numbers or of one range are not modelled."
  },
  {
   "property": "C94",
   "status": "proved",
   "theorems": [
    "Verif.Props.C94_defined",
    "Verif.Props.C94_distinguishes",
    "Verif.Props.C94_constructors"
   ],
   "note": ""
  },
  {
   "property": "C95",
   "status": "partial",
   "theorems": [
    "Verif.Props.C95_read_partial",
    "Verif.Props.C95_crate",
    "Verif.Props.C95_closure",
    "Verif.Props.C95_refuted"
   ],
   "note": "Refuted as stated (C95_refuted): the macro takes the first name before a parenthesis or `<` for the function's name, so it panics on `pub(crate) fn` (C95_crate), and the first parenthesis after it for the arguments, so it panics on generics with `Fn(usize)` (C95_closure). Proved (C95_read_partial) for all functions without these."
  },
  {
   "property": "C96",
   "status": "proved",
   "theorems": [
    "Verif.Props.C96_reachable",
    "Verif.Props.C96_exact",
    "Verif.Props.C96_probability",
    "Verif.Props.C96_possible",
    "Verif.Props.C96_length",
    "Verif.Props.C96_textbook"
   ],
   "note": "`findProb` is the Lebesgue measure of the draws for which the collapsing measurements give the outcomes. `C96_exact` holds for all draws, including 0, for which an outcome of probability zero can be found (C23). `C96_reachable`: the hypothesis holds after every history of calls (unitary user matrices, no repeated split indices, rotations on single qubits). `C96_textbook`: without idle elements the rules are those of C76."
  },
  {
   "property": "C97",
   "status": "partial",
   "theorems": [
    "Verif.Props.C97_forgotten",
    "Verif.Props.C97_independent",
    "Verif.Props.C97_again",
    "Verif.Props.C97_refuted",
    "Verif.Props.C97_partial"
   ],
   "note": "Refuted (C97_refuted): with one stochastic measurement in between, the two measurements of a qubit after a Hadamard gate give all four pairs with probability 1/4 (C97_again). C97_forgotten: a measurement followed by a stochastic measurement (or global phase) and a gate has no effect on anything later; C97_independent: measurements separated by one idle element are made on the same state. C97_partial: with an even number of idle elements in between, and none before, the outcome is repeated."
  },
  {
   "property": "C98",
   "status": "proved",
   "theorems": [
    "Verif.Props.C98_no_cloning",
    "Verif.Props.C98_call",
    "Verif.Props.C98_function"
   ],
   "note": "Programs are the inductive definitions Client and Session (Spec/Client). Splits whose index list names a position twice are left out; they do duplicate qubits (C24_refuted)."
  },
  {
   "property": "C99",
   "status": "proved",
   "theorems": [
    "Verif.Props.C99_elements",
    "Verif.Props.C99_calculate",
    "Verif.Props.C99_only_rotations",
    "Verif.Props.C99_exact"
   ],
   "note": "Programs as in C98. That rz/rx/ry on a register of several qubits make an element that cannot be calculated is part of C34; an example program is given beside the theorem."
  },
  {
   "property": "C100",
   "status": "proved",
   "theorems": [
    "Verif.Props.C100_touches",
    "Verif.Props.C100_no_influence"
   ],
   "note": "Programs as in C98. That global phases, stochastic measurements and rotations of several qubits do disturb or stop the calculation is the subject of C34, C43 and C97."
  },
  {
   "property": "C101",
   "status": "proved",
   "theorems": [
    "Verif.Props.C101_inverse",
    "Verif.Props.C101_fails",
    "Verif.Props.C101_measures",
    "Verif.Props.C101_inverts",
    "Verif.Props.C101_short",
    "Verif.Props.C101_panics",
    "Verif.Props.C101_undoes"
   ],
   "note": "Which functions make inverting panic is part of the statement (see C40, C41 for the claim that none does). On conditioned builders only the failures are stated."
  },
  {
   "property": "C102",
   "status": "proved",
   "theorems": [
    "Verif.Props.C102_counts",
    "Verif.Props.C102_measure",
    "Verif.Props.C102_measure_stochastic",
    "Verif.Props.C102_distinct"
   ],
   "note": "Circuit objects that measure can be brought in with apply_circuit_object or apply_subcircuit; for these the handles are wrong (C42). The statement excludes programs that do this."
  },
  {
   "property": "C103",
   "status": "proved",
   "theorems": [
    "Verif.Props.C103_conditions_grow",
    "Verif.Props.C103_dissolve",
    "Verif.Props.C103_lost_after_err_counterexample"
   ],
   "note": "C103_lost_after_err_counterexample shows why programs that go on after an Err are left out: the condition register is lost then."
  },
  {
   "property": "C104",
   "status": "proved",
   "theorems": [
    "Verif.Props.C104_asleep",
    "Verif.Props.C104_exactly",
    "Verif.Props.C104_superposition",
    "Verif.Props.C104_phase_counterexample",
    "Verif.Props.C104_returnTemp_counterexample"
   ],
   "note": "C104_asleep (basis states), C104_superposition (all states), C104_exactly (no phase). C104_phase_counterexample: a conditioned Rz does leave a phase, as found in C36. C104_returnTemp_counterexample shows why return_temp_register is left out; rotations and the Fourier transform ignore conditions (C37)."
  },
  {
   "property": "C105",
   "status": "proved",
   "theorems": [
    "Verif.Props.C105_does",
    "Verif.Props.C105_outside",
    "Verif.Props.C105_controlled",
    "Verif.Props.C105_local",
    "Verif.Props.C105_y_counterexample"
   ],
   "note": "C105_does (inside any conditions), C105_outside, C105_controlled, C105_local. Inside conditions H, Y and toffoli with two controls have other matrices (C36, C83), which the meaning of a program takes into account; C105_y_counterexample shows that C105_controlled needs its hypothesis."
  },
  {
   "property": "C106",
   "status": "proved",
   "theorems": [
    "Verif.Props.C106_runs",
    "Verif.Props.C106_born",
    "Verif.Props.C106_state",
    "Verif.Props.C106_unmeasured"
   ],
   "note": "C106_runs, C106_born, C106_state, C106_unmeasured. Measurements as by measure; measure_stochastic changes the state that later elements see (C81) and is left out here."
  },
  {
   "property": "C107",
   "status": "proved",
   "theorems": [
    "Verif.Props.C107_anywhere",
    "Verif.Props.C107_unitary",
    "Verif.Props.C107_inverse",
    "Verif.Props.C107_twice"
   ],
   "note": "C107_anywhere, C107_unitary, C107_inverse, C107_twice. Inside conditions inverses of programs are treated in C101 and C104 only."
  },
  {
   "property": "C108",
   "status": "proved",
   "theorems": [
    "Verif.Props.C108_whole",
    "Verif.Props.C108_elsewhere"
   ],
   "note": ""
  },
  {
   "property": "C109",
   "status": "proved",
   "theorems": [
    "Verif.Props.C109_query",
    "Verif.Props.C109_draw",
    "Verif.Props.C109_bernstein_vazirani",
    "Verif.Props.C109_deutsch_jozsa",
    "Verif.Props.C109_oracles"
   ],
   "note": ""
  },
  {
   "property": "C110",
   "status": "proved",
   "theorems": [
    "Verif.Props.C110_search",
    "Verif.Props.C110_draw",
    "Verif.Props.C110_total",
    "Verif.Props.C110_rounds"
   ],
   "note": ""
  },
  {
   "property": "C111",
   "status": "partial",
   "theorems": [
    "Verif.Props.C111_angle",
    "Verif.Props.C111_pi_by",
    "Verif.Props.C111_qfft_partial",
    "Verif.Props.C111_panics",
    "Verif.Props.C111_refuted",
    "Verif.Props.C111_release",
    "Verif.Props.C111_wraps",
    "Verif.Props.C111_mask",
    "Verif.Props.C111_mask_wide"
   ],
   "note": "Refuted by C111_refuted: with overflow checks qfft panics on every register of 64 qubits or more (C111_panics); without them the exponents wrap and from 65 qubits on the circuit is a wrong one (C111_release, C111_wraps). Up to 63 (64) qubits the function equals the one on unbounded numbers (C111_qfft_partial), and masks do for all lengths (C111_mask); values of 2^64 or more cannot be asked for (C111_mask_wide)."
  },
  {
   "property": "C112",
   "status": "proved",
   "theorems": [
    "Verif.Props.C112_does",
    "Verif.Props.C112_outside",
    "Verif.Props.C112_agrees",
    "Verif.Props.C112_local",
    "Verif.Props.C112_refuted"
   ],
   "note": "C112_refuted: the expected statement that nothing happens if the conditions do not hold is false."
  },
  {
   "property": "C113",
   "status": "proved",
   "theorems": [
    "Verif.Props.C113_root",
    "Verif.Props.C113_looks",
    "Verif.Props.C113_born"
   ],
   "note": "C113_root, C113_looks, C113_born. The numbers drawn are part of each calculation in the program. measure is a method of LocalBuilder only, so a program inside conditions does not measure."
  },
  {
   "property": "C114",
   "status": "partial",
   "theorems": [
    "Verif.Props.C114_fits_partial",
    "Verif.Props.C114_panics",
    "Verif.Props.C114_release_panics",
    "Verif.Props.C114_wraps",
    "Verif.Props.C114_refuted"
   ],
   "note": "Refuted (C114_refuted): without overflow checks an empty circuit of 64 k + j qubits returns a state of j qubits (C114_wraps). C114_fits_partial: as long as the vector fits into a Vec (58 qubits for f64, 59 for f32) the result is that of the unbounded model. C114_panics, C114_release_panics: wider circuits panic with overflow checks, and without them up to 63 qubits. The loop over the circuit is not modelled on words here (see C57); the memory of the machine is not modelled."
  },
  {
   "property": "C115",
   "status": "proved",
   "theorems": [
    "Verif.Props.C115_words",
    "Verif.Props.C115_builds",
    "Verif.Props.C115_arith"
   ],
   "note": "C115_words: equal to the unbounded model for every circuit of elements on distinct qubits whose matrices fit into a Vec. C115_builds: the two kinds of build agree. The memory of the machine is not modelled, only the size limit of Vec; usize has 64 bits."
  },
  {
   "property": "C116",
   "status": "partial",
   "theorems": [
    "Verif.Props.C116_panics_partial",
    "Verif.Props.C116_norm_partial",
    "Verif.Props.C116_zero",
    "Verif.Props.C116_refuted"
   ],
   "note": "Refuted (C116_refuted): without overflow checks a NOT gate on the first of 64 qubits gives the vector [0] (C116_zero). C116_norm_partial: for circuits of unitary gates whose state fits into a Vec the norm is 1. C116_panics_partial: with overflow checks, or up to 63 qubits, a circuit whose state does not fit panics."
  },
  {
   "property": "C117",
   "status": "partial",
   "theorems": [
    "Verif.Props.C117_size_partial",
    "Verif.Props.C117_panics",
    "Verif.Props.C117_wraps",
    "Verif.Props.C117_refuted"
   ],
   "note": "Refuted (C117_refuted): without overflow checks 33 qubits and 4 entries are accepted; C117_wraps says exactly which sizes are, C117_panics that 32 or more qubits panic with overflow checks. C117_size_partial: for up to 31 qubits exactly the vectors with 4^k entries are accepted."
  },
  {
   "property": "C118",
   "status": "partial",
   "theorems": [
    "Verif.Props.C118_panics_partial",
    "Verif.Props.C118_alias",
    "Verif.Props.C118_set",
    "Verif.Props.C118_refuted",
    "Verif.Props.C118_twice"
   ],
   "note": "Refuted (C118_refuted): without overflow checks an initial value for qubit 66 of a circuit of three qubits sets the last one (C118_set); C118_alias: only the numbers modulo 64 matter; C118_twice: in a register of more than 64 qubits the value is repeated. C118_panics_partial: with overflow checks the calculation panics."
  },
  {
   "property": "C119",
   "status": "proved",
   "theorems": [
    "Verif.Props.C119_exact",
    "Verif.Props.C119_probs",
    "Verif.Props.C119_total",
    "Verif.Props.C119_circuit",
    "Verif.Props.C119_stochastic",
    "Verif.Props.C119_stored",
    "Verif.Props.C119_simple"
   ],
   "note": "C119_stochastic: circuits without draws; C119_circuit: with measurements, under the condition on the draws that C88 needs; C119_probs and C119_total: one stochastic measurement; C119_exact: with exact numbers the loop is the one of the exact model; C119_stored: the rounded circuits exist; C119_simple: examples/simple.rs in f64. The exact results compared with are those of the code, including the stale buffers of C81."
  },
  {
   "property": "C120",
   "status": "partial",
   "theorems": [
    "Verif.Props.C120_new",
    "Verif.Props.C120_neg",
    "Verif.Props.C120_half",
    "Verif.Props.C120_rx",
    "Verif.Props.C120_ry_partial",
    "Verif.Props.C120_ry_min",
    "Verif.Props.C120_inverse_partial",
    "Verif.Props.C120_inverse_min",
    "Verif.Props.C120_cond_partial",
    "Verif.Props.C120_cond_overflow",
    "Verif.Props.C120_pi_by_partial",
    "Verif.Props.C120_pi_by_min",
    "Verif.Props.C120_refuted"
   ],
   "note": "The claim is false in both kinds of build (C120_refuted). A numerator -2^63 cannot be negated: ry_ratio and the inverse panic, or without checks rotate the other way, so that the inverse is the rotation itself. An odd numerator over a denominator of 2^62 or more cannot be halved: a panic, or without checks a phase of the other sign. The number -2^63 in the _pi_by methods: a panic, or the negated angle. In all other cases the claim holds (the _partial theorems), and rx_ratio always is right (C120_rx)."
  },
  {
   "property": "C121",
   "status": "proved",
   "theorems": [
    "Verif.Props.C121_measure",
    "Verif.Props.C121_frequency",
    "Verif.Props.C121_f64"
   ],
   "note": "C121_measure: one measurement of a state known up to an error; C121_frequency: a circuit with a measurement at its end; C121_f64: in f64 with the 2^53 draws of rand, up to 10 qubits and 1000 gates (or user matrices of the same cost), no frequency is off by more than 2^-24."
  },
  {
   "property": "C122",
   "status": "proved",
   "theorems": [
    "Verif.Props.C122_entries",
    "Verif.Props.C122_elements",
    "Verif.Props.C122_stochastic",
    "Verif.Props.C122_circuit",
    "Verif.Props.C122_measured",
    "Verif.Props.C122_frequency",
    "Verif.Props.C122_angles",
    "Verif.Props.C122_accurate",
    "Verif.Props.C122_wide_angle",
    "Verif.Props.C122_example",
    "Verif.Props.C122_matrix"
   ],
   "note": "C122_entries: one gate; C122_elements: the elements of a circuit; C122_stochastic, C122_circuit: whole calculations (with C119); C122_measured, C122_frequency: the same for C88 and C121; C122_angles: rational angles of any size; C122_matrix: a circuit with a rounded user matrix; C122_accurate: the hypothesis can be met; C122_wide_angle: why the bound depends on the angle. The accuracy of cos, sin and Ratio::to_f64 is assumed."
  },
  {
   "property": "C123",
   "status": "proved",
   "theorems": [
    "Verif.Props.C123_frequency",
    "Verif.Props.C123_circuit",
    "Verif.Props.C123_query",
    "Verif.Props.C123_search",
    "Verif.Props.C123_bound",
    "Verif.Props.C123_bernstein_vazirani",
    "Verif.Props.C123_deutsch_jozsa",
    "Verif.Props.C123_found"
   ],
   "note": "C123_frequency: every main program; C123_circuit: the hypotheses can be met; C123_query, C123_search: the programs of C109 and C110; C123_bound: the bound in f64; C123_bernstein_vazirani, C123_deutsch_jozsa, C123_found: what the runs report."
  },
  {
   "property": "C124",
   "status": "proved",
   "theorems": [
    "Verif.Props.C124_state",
    "Verif.Props.C124_length",
    "Verif.Props.C124_back",
    "Verif.Props.C124_probabilities",
    "Verif.Props.C124_bound",
    "Verif.Props.C124_circuit"
   ],
   "note": "C124_state, C124_length: the state vector; C124_back: a program and its inverse; C124_probabilities: measure_stochastic at the end; C124_circuit: the hypotheses can be met; C124_bound: the bounds in f64."
  },
  {
   "property": "C125",
   "status": "proved",
   "theorems": [
    "Verif.Props.C125_joint",
    "Verif.Props.C125_programs",
    "Verif.Props.C125_bound",
    "Verif.Props.C125_f64",
    "Verif.Props.C125_again"
   ],
   "note": "C125_joint: circuits; C125_programs: main programs; C125_bound: closed form of the bound; C125_f64: numbers; C125_again: a register measured twice."
  },
  {
   "property": "C126",
   "status": "proved",
   "theorems": [
    "Verif.Props.C126_stored",
    "Verif.Props.C126_circuit",
    "Verif.Props.C126_programs",
    "Verif.Props.C126_zero",
    "Verif.Props.C126_oracle",
    "Verif.Props.C126_text",
    "Verif.Props.C126_parity"
   ],
   "note": "C126_stored: the numbers; C126_circuit: circuits; C126_programs: main programs; C126_text: by the text of the program; C126_oracle, C126_parity: oracles; C126_zero: the draw zero."
  },
  {
   "property": "C127",
   "status": "proved",
   "theorems": [
    "Verif.Props.C127_circuit",
    "Verif.Props.C127_programs",
    "Verif.Props.C127_f64",
    "Verif.Props.C127_certain",
    "Verif.Props.C127_oracle",
    "Verif.Props.C127_add",
    "Verif.Props.C127_query",
    "Verif.Props.C127_bernstein_vazirani",
    "Verif.Props.C127_deutsch_jozsa",
    "Verif.Props.C127_share",
    "Verif.Props.C127_share_f64",
    "Verif.Props.C127_bernstein_vazirani_share",
    "Verif.Props.C127_add_share"
   ],
   "note": "C127_circuit: circuits; C127_programs: main programs; C127_certain: which programs these are; C127_f64: numbers; C127_oracle, C127_add, C127_query, C127_bernstein_vazirani, C127_deutsch_jozsa: instances; C127_share, C127_share_f64, C127_bernstein_vazirani_share, C127_add_share: the share of the sequences of draws that report them."
  },
  {
   "property": "C128",
   "status": "proved",
   "theorems": [
    "Verif.Props.C128_frequency",
    "Verif.Props.C128_simon_f64",
    "Verif.Props.C128_query",
    "Verif.Props.C128_draw",
    "Verif.Props.C128_simon",
    "Verif.Props.C128_injective",
    "Verif.Props.C128_oracles",
    "Verif.Props.C128_determines"
   ],
   "note": ""
  },
  {
   "property": "C129",
   "status": "proved",
   "theorems": [
    "Verif.Props.C129_frequency",
    "Verif.Props.C129_f64",
    "Verif.Props.C129_teleport",
    "Verif.Props.C129_state",
    "Verif.Props.C129_deferred"
   ],
   "note": ""
  },
  {
   "property": "C130",
   "status": "proved",
   "theorems": [
    "Verif.Props.C130_dense",
    "Verif.Props.C130_draw",
    "Verif.Props.C130_secret",
    "Verif.Props.C130_f64"
   ],
   "note": ""
  },
  {
   "property": "C131",
   "status": "proved",
   "theorems": [
    "Verif.Props.C131_reads",
    "Verif.Props.C131_deferred",
    "Verif.Props.C131_state",
    "Verif.Props.C131_unnoticed",
    "Verif.Props.C131_needed"
   ],
   "note": ""
  },
  {
   "property": "C132",
   "status": "proved",
   "theorems": [
    "Verif.Props.C132_no_cloning",
    "Verif.Props.C132_copy"
   ],
   "note": ""
  },
  {
   "property": "C133",
   "status": "proved",
   "theorems": [
    "Verif.Props.C133_uses",
    "Verif.Props.C133_waves",
    "Verif.Props.C133_exchange",
    "Verif.Props.C133_state",
    "Verif.Props.C133_needed"
   ],
   "note": ""
  },
  {
   "property": "C134",
   "status": "proved",
   "theorems": [
    "Verif.Props.C134_classical",
    "Verif.Props.C134_clean",
    "Verif.Props.C134_copied",
    "Verif.Props.C134_measured",
    "Verif.Props.C134_needed"
   ],
   "note": ""
  },
  {
   "property": "C135",
   "status": "proved",
   "theorems": [
    "Verif.Props.C135_unseen",
    "Verif.Props.C135_needed"
   ],
   "note": ""
  },
  {
   "property": "C136",
   "status": "proved",
   "theorems": [
    "Verif.Props.C136_copies",
    "Verif.Props.C136_instead"
   ],
   "note": ""
  }
 ]
}