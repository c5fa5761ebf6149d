{
 "claims": [
  {
   "property": "C01",
   "status": "proved",
   "theorems": [
    "Verif.Float.C01_round_trip",
    "Verif.Float.C01_injective",
    "Verif.Float.C01_pattern_round_trip",
    "Verif.Float.C01_decode_ieee",
    "Verif.Float.C01_snan_needs_two_bits"
   ],
   "note": "All formats with e >= 1, f >= 1 (signaling NaN needs f >= 2, the one-bit case is shown to collide with -inf)."
  },
  {
   "property": "C02",
   "status": "partial",
   "theorems": [
    "Verif.Float.C02_omega_is_greatest",
    "Verif.Float.C02_min_normal",
    "Verif.Float.C02_min_subnormal",
    "Verif.Float.C02_max_subnormal_bounds_partial",
    "Verif.Float.C02_max_subnormal_is_not_subnormal",
    "Verif.Float.C02_saturate"
   ],
   "note": "omega, min normal, min subnormal proved; get_max_subnormal_value bounds all subnormals but is itself not subnormal in any format (proved)."
  },
  {
   "property": "C03",
   "status": "partial",
   "theorems": [
    "Verif.Fixed.C03_round_trip_nonneg_partial",
    "Verif.Fixed.C03_negative_off_by_modulus",
    "Verif.Fixed.C03_negative_not_round_trip",
    "Verif.Fixed.C03_coding_injective",
    "Verif.Fixed.C03_out_of_range_rejected"
   ],
   "note": "Round trip proved for non-negative values; for negative values the code decodes to value + 2^int_size (proved), so the full claim is false: C03_negative_not_round_trip."
  },
  {
   "property": "C04",
   "status": "proved",
   "theorems": [
    "Verif.Fixed.C04_max_is_greatest",
    "Verif.Fixed.C04_min_is_least",
    "Verif.Fixed.C04_saturate",
    "Verif.Fixed.C04_saturate_holds",
    "Verif.Fixed.C04_truncate_wraps",
    "Verif.Fixed.C04_truncate_id"
   ],
   "note": "min/max, saturate and truncate of fixed-point formats, all sizes, all rational inputs on the grid."
  },
  {
   "property": "C05",
   "status": "proved",
   "theorems": [
    "Verif.Fixed.C05_container_smallest",
    "Verif.Fixed.C05_container_exists_iff"
   ],
   "note": "Container selection for all integer/fraction sizes."
  },
  {
   "property": "C06",
   "status": "partial",
   "theorems": [
    "Verif.Special.C06_lt_partial",
    "Verif.Special.C06_ge_partial",
    "Verif.Special.C06_le_partial",
    "Verif.Special.C06_gt_partial",
    "Verif.Special.C06_eq_partial",
    "Verif.Special.C06_ne_partial",
    "Verif.Special.C06_number_vs_infinity_is_reversed",
    "Verif.Special.C06_gt_number_vs_special_fails",
    "Verif.Special.C06_zero_equality_not_symmetric"
   ],
   "note": "All pairs except number-vs-infinity (<, >=, <=), number > special, and numeric zero == signed zero, for which the code is proved wrong."
  },
  {
   "property": "C07",
   "status": "partial",
   "theorems": [
    "Verif.Special.C07_add",
    "Verif.Special.C07_add_opposite_zeros",
    "Verif.Special.C07_sub",
    "Verif.Special.C07_mul_partial",
    "Verif.Special.C07_mul_numeric_zero_sign",
    "Verif.Special.C07_div_partial",
    "Verif.Special.C07_div_number_by_nan_raises",
    "Verif.Special.C07_div_zero_by_inf_sign"
   ],
   "note": "Addition and subtraction proved on all pairs; multiplication and division proved except for the listed pairs, on which the code is proved wrong."
  },
  {
   "property": "C08",
   "status": "partial",
   "theorems": [
    "Verif.Interval.C08_union_partial",
    "Verif.Interval.C08_union_with_empty_raises",
    "Verif.Interval.C08_inter_partial",
    "Verif.Interval.C08_add",
    "Verif.Interval.C08_sub",
    "Verif.Interval.C08_neg",
    "Verif.Interval.C08_mul",
    "Verif.Interval.C08_div",
    "Verif.Interval.C08_lists",
    "Verif.Interval.C08_list_div",
    "Verif.Interval.C08_list_neg",
    "Verif.Interval.C08_contains_number",
    "Verif.Interval.C08_contains_interval_is_false"
   ],
   "note": "All operators on non-empty intervals and lists, over any ordered field; union and intersection with the empty interval raise (proved); interval-in-interval membership is always False (proved)."
  },
  {
   "property": "C09",
   "status": "proved",
   "theorems": [
    "Verif.Interval.C09_refine",
    "Verif.Interval.C09_bounds",
    "Verif.Interval.C09_empty_raises"
   ],
   "note": "Refinement of all non-empty lists of valid intervals; bounds of the refined list; empty inputs raise."
  },
  {
   "property": "C10",
   "status": "partial",
   "theorems": [
    "Verif.Range.C10_sound_partial",
    "Verif.Range.C10_total_partial",
    "Verif.Range.C10_modulo_unsound",
    "Verif.Range.C10_raw_exponent_unsound",
    "Verif.Range.C10_dot_product_negate_raises"
   ],
   "note": "Soundness for all graphs, call histories and memo/update flags in exact arithmetic, except Modulo and biased RawExponentExtraction whose range functions are proved wrong; totality except DotProductNegate which raises."
  },
  {
   "property": "C11",
   "status": "partial",
   "theorems": [
    "Verif.Simplify.C11_simplify_partial",
    "Verif.Simplify.C11_comparisons_min_max",
    "Verif.Simplify.C11_subnormal_wrong",
    "Verif.Simplify.C11_minus_infinity_wrong"
   ],
   "note": "Value preservation for all well-typed expressions except IsSubnormal on zero/negative/smallest normal values and infinity tests on -inf, where the code is proved wrong."
  },
  {
   "property": "C12",
   "status": "partial",
   "theorems": [
    "Verif.Logic.C12_simplify_partial",
    "Verif.Logic.C12_or_not_wrong",
    "Verif.Logic.C12_mixed_and_raises"
   ],
   "note": "Proved for all expressions without disjunction-of-negation trees and without mixed conjunction trees; on the former the code is proved to change the truth value, on the latter to raise."
  },
  {
   "property": "C13",
   "status": "proved",
   "theorems": [
    "Verif.Logic.C13_reduce_uses_each_once",
    "Verif.Logic.C13_reduce_value",
    "Verif.Logic.C13_reduce_empty",
    "Verif.Logic.C13_merge_conditions"
   ],
   "note": "Queue-based and halving reductions, for all lists."
  },
  {
   "property": "C14",
   "status": "partial",
   "theorems": [
    "Verif.Poly.C14_power_partial",
    "Verif.Poly.C14_history_partial",
    "Verif.Poly.C14_shared_map_wrong",
    "Verif.Poly.C14_zero_diverges",
    "Verif.Poly.C14_pow_operator_partial",
    "Verif.Poly.C14_pow_operator_diverges"
   ],
   "note": "generate_power is right for every exponent >= 1 and every history on one node; proved wrong when a map (e.g. the default one) is shared by two nodes, and non-terminating for 0. The ** operator is proved right for powers of two and non-terminating otherwise."
  },
  {
   "property": "C15",
   "status": "proved",
   "theorems": [
    "Verif.Poly.C15_horner_nodes",
    "Verif.Poly.C15_horner"
   ],
   "note": "All coefficient maps, any commutative ring, with or without a shared valid power map."
  },
  {
   "property": "C16",
   "status": "partial",
   "theorems": [
    "Verif.Poly.C16_estrin_partial",
    "Verif.Poly.C16_estrin_list_partial",
    "Verif.Poly.C16_two_coefficients_raise",
    "Verif.Poly.C16_empty_raises"
   ],
   "note": "All non-empty dictionaries and lists of length other than 2, on which (and on the empty map) generation is proved to raise."
  },
  {
   "property": "C17",
   "status": "proved",
   "theorems": [
    "Verif.Table.C17_linearization"
   ],
   "note": "All tables, graphs and sequences of rewriting requests with constant columns inside the table."
  },
  {
   "property": "C18",
   "status": "partial",
   "theorems": [
    "Verif.Table.C18_compute",
    "Verif.Table.C18_first_query_partial",
    "Verif.Table.C18_stale_cache",
    "Verif.Table.C18_special_overwrites"
   ],
   "note": "First query after any writes covers every entry of a numeric table; later queries are proved stale and special values are proved to overwrite both bounds."
  },
  {
   "property": "C19",
   "status": "partial",
   "theorems": [
    "Verif.Table.C19_in_table",
    "Verif.Table.C19_offset_interval",
    "Verif.Table.C19_partition",
    "Verif.Table.C19_lower_half_partial",
    "Verif.Table.C19_upper_half_wrong"
   ],
   "note": "Index in the table for any arithmetic; the offset interval always covers; the sub-interval itself is right for the lower half of each sub-interval only (round to nearest is used): proved wrong for the upper half."
  },
  {
   "property": "C20",
   "status": "partial",
   "theorems": [
    "Verif.Names.C20_free_name",
    "Verif.Names.C20_history",
    "Verif.Names.C20_distinct_partial",
    "Verif.Names.C20_undeclared_repeats"
   ],
   "note": "Freshness, termination and pairwise distinctness hold for all declaring requests; a request that does not declare its name can get the same name again (C20_undeclared_repeats)."
  },
  {
   "property": "C21",
   "status": "partial",
   "theorems": [
    "Verif.Names.C21_cst_name_partial",
    "Verif.Names.C21_hangs"
   ],
   "note": "Holds when the prefix is free everywhere or already in the constant table; C21_hangs shows the request never returns when the prefix is only used in another table."
  },
  {
   "property": "C22",
   "status": "proved",
   "theorems": [
    "Verif.Stack.C22_restore",
    "Verif.Stack.C22_current",
    "Verif.Stack.C22_reject",
    "Verif.Stack.C22_rejected_unset_poisons"
   ],
   "note": "C22_rejected_unset_poisons adds that a rejected unset empties the stack, after which no node can be built."
  },
  {
   "property": "C23",
   "status": "partial",
   "theorems": [
    "Verif.Passes.C23_terminates",
    "Verif.Passes.C23_schedule",
    "Verif.Passes.C23_all_run",
    "Verif.Passes.C23_history",
    "Verif.Passes.C23_chain_partial",
    "Verif.Passes.C23_batch_drops_results"
   ],
   "note": "Order, multiplicity, termination and completeness proved; chaining only when no two passes are ready together (C23_batch_drops_results is the violation)."
  },
  {
   "property": "C24",
   "status": "proved",
   "theorems": [
    "Verif.Passes.C24_worklist"
   ],
   "note": "All acyclic graphs, any memo closed under operands."
  },
  {
   "property": "C25",
   "status": "partial",
   "theorems": [
    "Verif.BB.C25_preserves_partial",
    "Verif.BB.C25_rejects",
    "Verif.BB.C25_raises"
   ],
   "note": "Acceptable programs (explicit predicate) are translated and run exactly alike, divergence included; all other programs are proved to be refused."
  },
  {
   "property": "C26",
   "status": "proved",
   "theorems": [
    "Verif.CFG.C26_simplify",
    "Verif.CFG.C26_duplicates"
   ],
   "note": "All block lists closed under branching. C26_duplicates: the new list may name a block several times."
  },
  {
   "property": "C27",
   "status": "partial",
   "theorems": [
    "Verif.CFG.C27_dominators_partial",
    "Verif.CFG.C27_entry_loop_wrong",
    "Verif.CFG.C27_generated",
    "Verif.CFG.C27_edges"
   ],
   "note": "All graphs whose entry has no incoming edge (proved of all generated code); proved wrong with an edge back to the entry."
  },
  {
   "property": "C28",
   "status": "partial",
   "theorems": [
    "Verif.Machine.C28_fallback_partial",
    "Verif.Machine.C28_removes_jumps",
    "Verif.Machine.C28_duplicate_wrong"
   ],
   "note": "All programs laid out without repetition, step for step; proved wrong on the repeated-block lists that basic-block simplification makes."
  },
  {
   "property": "C29",
   "status": "partial",
   "theorems": [
    "Verif.Machine.C29_collapse_partial",
    "Verif.Machine.C29_removes",
    "Verif.Machine.C29_chain_wrong",
    "Verif.Machine.C29_read_between_wrong",
    "Verif.Machine.C29_written_between_wrong"
   ],
   "note": "All tame programs and all paths; chains of copies and destinations used in between are proved to be miscompiled."
  },
  {
   "property": "C30",
   "status": "partial",
   "theorems": [
    "Verif.Legal.C30_test_expansion_partial",
    "Verif.Legal.C30_unsupported",
    "Verif.Legal.C30_subnormal_wrong",
    "Verif.Legal.C30_comp_sign_partial",
    "Verif.Legal.C30_comp_sign_wrong"
   ],
   "note": "All formats and patterns for six tests; IsSubnormal is proved to hold of zeros, sign comparison to be wrong on signed zeros and NaNs."
  },
  {
   "property": "C31",
   "status": "proved",
   "theorems": [
    "Verif.Legal.C31_exp_extraction",
    "Verif.Legal.C31_exp_insertion",
    "Verif.Legal.C31_round_trip",
    "Verif.Legal.C31_insertion_overflow",
    "Verif.Legal.C31_mantissa_extraction"
   ],
   "note": "All formats, all normal patterns, all exponents of the normal range (out of range shown to give infinity)."
  },
  {
   "property": "C32",
   "status": "partial",
   "theorems": [
    "Verif.Hyper.C32_ok",
    "Verif.Legal.C32_minmax_partial",
    "Verif.Legal.C32_nan_wrong"
   ],
   "note": "All non-NaN operands; with a NaN the result is proved to depend on the operand order."
  },
  {
   "property": "C33",
   "status": "partial",
   "theorems": [
    "Verif.Legal.C33_position_partial",
    "Verif.Legal.C33_point_to_msb_wrong",
    "Verif.Legal.C33_bitfield",
    "Verif.Legal.C33_concat_partial",
    "Verif.Legal.C33_concat_signed_wrong",
    "Verif.Legal.C33_concat_fraction_wrong",
    "Verif.Legal.C33_slices",
    "Verif.Legal.C33_slices_terminate",
    "Verif.Legal.C33_fractional_bit_raises"
   ],
   "note": "Bit fields, slices of slices and three alignments proved; FromPointToMSB contradicts its documentation, signed or fractional right operands break concatenation, fractional bits of constants raise (all proved)."
  },
  {
   "property": "C34",
   "status": "proved",
   "theorems": [
    "Verif.HW.C34_sw_clz"
   ],
   "note": "All 2^32 inputs, 32-bit registers, by case analysis on ranges (no enumeration)."
  },
  {
   "property": "C35",
   "status": "proved",
   "theorems": [
    "Verif.HW.C35_lzc",
    "Verif.HW.C35_emulation"
   ],
   "note": "All widths and inputs, block and test-bench emulation."
  },
  {
   "property": "C36",
   "status": "proved",
   "theorems": [
    "Verif.HW.C36_comp32",
    "Verif.HW.C36_comp42",
    "Verif.HW.C36_reduction_sum",
    "Verif.HW.C36_reduction_shrinks",
    "Verif.HW.C36_reduce",
    "Verif.HW.C36_limit_one_hangs",
    "Verif.HW.C36_convert",
    "Verif.HW.C36_convert_rows"
   ],
   "note": "Compressors, stage sum invariant, termination and conversion for every heap and every stage-height limit of at least two; with a limit of one the loop is proved never to end (C36_limit_one_hangs)."
  },
  {
   "property": "C37",
   "status": "partial",
   "theorems": [
    "Verif.HW.C37_product_partial",
    "Verif.HW.C37_product",
    "Verif.HW.C37_frac_wrong",
    "Verif.HW.C37_addition",
    "Verif.HW.C37_booth_partial",
    "Verif.HW.C37_booth",
    "Verif.HW.C37_array"
   ],
   "note": "Product exact for operands whose fractional parts the code takes into account; C37_frac_wrong: the right operand fraction size is ignored by the plain generator, both by the Booth one. Whole arrays (sums of products and additions) proved in C37_array."
  },
  {
   "property": "C38",
   "status": "proved",
   "theorems": [
    "Verif.HW.Compound.C38_compound",
    "Verif.HW.Compound.C38_width_mismatch",
    "Verif.HW.Compound.C38_limit_zero"
   ],
   "note": "Every width, cut-off of at least one, every operand. C38_limit_zero and C38_width_mismatch show what the remaining configurations do."
  },
  {
   "property": "C39",
   "status": "partial",
   "theorems": [
    "Verif.HW.Div.C39_div_partial",
    "Verif.HW.Div.C39_narrow_divisor_wrong",
    "Verif.HW.Div.C39_narrow_result_wrong",
    "Verif.HW.Div.C39_remainder_partial"
   ],
   "note": "Exact quotient and remainder invariant when the divisor is at least as wide as the dividend and the result at least as wide as the divisor; wrong results proved for a narrower divisor and for a narrower result. The multi-digit method cannot be generated (undefined names)."
  },
  {
   "property": "C40",
   "status": "proved",
   "theorems": [
    "Verif.HW.Trunc.C40_trunc",
    "Verif.HW.Trunc.C40_special",
    "Verif.HW.Trunc.C40_sign_lost"
   ],
   "note": "All formats with two exponent bits or more, all finite patterns; infinities and NaNs pass through; the sign of a zero result is lost (C40_sign_lost)."
  },
  {
   "property": "C41",
   "status": "proved",
   "theorems": [
    "Verif.HW.Trunc.C41_predicates"
   ],
   "note": "All formats and patterns; fp_is_subnormal includes zeros, as documented."
  },
  {
   "property": "C42",
   "status": "partial",
   "theorems": [
    "Verif.HW.C42_pos",
    "Verif.HW.C42_neg",
    "Verif.HW.C42_neg_abs_partial",
    "Verif.HW.C42_neg_power_wrong"
   ],
   "note": "Sums at least zero and negative sums against leading ones: proved. Against the magnitude (what the test bench checks) it is false when the magnitude is a power of two greater than one: C42_neg_power_wrong."
  },
  {
   "property": "C43",
   "status": "partial",
   "theorems": [
    "Verif.HW.Pipe.C43_pipeline_partial",
    "Verif.HW.Pipe.C43_accepts",
    "Verif.HW.Pipe.C43_refuses",
    "Verif.HW.Pipe.C43_unbalanced_delay_fails",
    "Verif.HW.Pipe.C43_unbalanced_delay_wrong",
    "Verif.HW.Pipe.C43_register",
    "Verif.HW.Pipe.C43_async_single_process_wrong",
    "Verif.HW.Pipe.C43_recirculate_needs_reset"
   ],
   "note": "All circuits whose StaticDelay inputs land on the stage of their user (all circuits without StaticDelay), all streams, cycles and initial register contents; acceptance and refusal characterised. Unbalanced delays are proved to fail or to mix transactions; an asynchronous reset in a single process is proved to clear every register; recirculation without reset is dropped."
  },
  {
   "property": "C44",
   "status": "partial",
   "theorems": [
    "Verif.Fixed.C44_mul_no_overflow",
    "Verif.Fixed.C44_add_no_overflow_partial",
    "Verif.Fixed.C44_add_mixed_overflow",
    "Verif.Fixed.C44_sub_no_overflow_partial",
    "Verif.Fixed.C44_sub_signed_overflow",
    "Verif.Fixed.C44_sub_unsigned_signed_overflow",
    "Verif.Fixed.C44_neg_no_overflow_partial",
    "Verif.Fixed.C44_neg_overflow",
    "Verif.Fixed.C44_clz_fits",
    "Verif.Fixed.C44_concat_bits",
    "Verif.Fixed.C44_subsignal_bits",
    "Verif.Fixed.C44_constant_fits",
    "Verif.Fixed.C44_constant_found",
    "Verif.Fixed.C44_fit_test_sound"
   ],
   "note": "mul, clz, concat, sub-signal, constants proved; add/sub/neg proved under the stated side conditions, with witnesses that the code overflows outside them."
  },
  {
   "property": "C45",
   "status": "partial",
   "theorems": [
    "Verif.Fixed.C45_largest_contains",
    "Verif.Fixed.C45_solve_equal_contains_partial",
    "Verif.Fixed.C45_failure_is_forgotten"
   ],
   "note": "Pairwise unification proved for all fixed-point formats; list unification proved for fixed/undef/integer operands; witness that a failed unification inside a list is forgotten."
  },
  {
   "property": "C46",
   "status": "proved",
   "theorems": [
    "Verif.Blocks.C46_twosum",
    "Verif.Blocks.C46_fasttwosum",
    "Verif.Blocks.C46_fasttwosum_needs_order",
    "Verif.Blocks.C46_fasttwosum_unit"
   ],
   "note": "TwoSum for every format with p >= 3, any smallest exponent, any round-to-nearest; FastTwoSum under |y| <= |x| (or x = 0) or when both operands are multiples of a common unit reached by x; the precondition is shown necessary. Overflow/NaN not modelled."
  },
  {
   "property": "C47",
   "status": "partial",
   "theorems": [
    "Verif.Blocks.C47_mul211",
    "Verif.Blocks.C47_add211_partial",
    "Verif.Blocks.C47_add_cancellation_wrong",
    "Verif.Blocks.C47_local111",
    "Verif.Blocks.C47_add111_partial",
    "Verif.Blocks.C47_mul111_partial",
    "Verif.Blocks.C47_mul111_wrong",
    "Verif.Blocks.C47_mul222_wrong",
    "Verif.Blocks.C47_add212",
    "Verif.Blocks.C47_add221",
    "Verif.Blocks.C47_add222_partial",
    "Verif.Blocks.C47_add222_cancellation_wrong",
    "Verif.Blocks.C47_mul212",
    "Verif.Blocks.C47_mul222_local",
    "Verif.Blocks.C47_add222_limbs",
    "Verif.Blocks.C47_add221_fast",
    "Verif.Blocks.C47_mul221",
    "Verif.Blocks.C47_mul221_global_partial"
   ],
   "note": "Mul211, Add212/Add221 and the fast Add221 (all signs and cancellations), Mul212/Mul221 and Mul222 local errors, Mul221 global error up to products of errors, Op111 local error proved for all operands; sums proved when the operands do not cancel; proved false: Mul111 and Mul222 global bounds, sums with cancellation, Add222 with opposite heads. The limbs of Add222 never overlap, whatever the signs. Three-limb blocks: C67."
  },
  {
   "property": "C48",
   "status": "partial",
   "theorems": [
    "Verif.Blocks.C48_cmp2",
    "Verif.Blocks.C48_cmp3_const_partial",
    "Verif.Blocks.C48_cmp3_variables_partial",
    "Verif.Blocks.C48_cmp3_mixed_wrong",
    "Verif.Blocks.C48_max",
    "Verif.Blocks.C48_min",
    "Verif.Blocks.C48_neg",
    "Verif.Blocks.C48_abs"
   ],
   "note": "Two limbs, min, max, abs and negation (any limb count) are proved for every monotone rounding. Three-limb comparison is proved when both or neither operand is a constant; it is wrong for one constant and one variable (C48_cmp3_mixed_wrong) because only the variable is renormalized and Normalize_33 may move its head across a tie."
  },
  {
   "property": "C49",
   "status": "proved",
   "theorems": [
    "Verif.Blocks.C49_constant_sum",
    "Verif.Blocks.C49_constant_residue",
    "Verif.Blocks.C49_constant_not_normalized",
    "Verif.Blocks.C49_widen",
    "Verif.Blocks.C49_narrow"
   ],
   "note": "Sum, residue bound and limb count for all values and all limb counts; widening is exact and narrowing loses one rounding of the last kept limb. The residue bounds assume unbounded exponents. C49_constant_not_normalized shows that limbs of a constant may be un-normalized."
  },
  {
   "property": "C50",
   "status": "partial",
   "theorems": [
    "Verif.Vec.C50_lane_partial",
    "Verif.Vec.C50_vector_function_partial",
    "Verif.Vec.C50_bare_unlikely_wrong",
    "Verif.Vec.C50_local_condition_wrong",
    "Verif.Vec.C50_switch_wrong",
    "Verif.Vec.C50_sub_vector_wrong"
   ],
   "note": "Proved for all schemes whose conditions read inputs only, whose unlikely conditions have an else branch and which contain no other effectful statement (SwitchBlock, Loop): each mask-valid lane, and the whole generated vector function with its scalar fallback, agree with the scalar scheme. The three exclusions are real: C50_bare_unlikely_wrong, C50_local_condition_wrong, C50_switch_wrong. Also C50_sub_vector_wrong: lanes are lost when the sub-vector size does not divide the vector size."
  },
  {
   "property": "C51",
   "status": "proved",
   "theorems": [
    "Verif.Fn.C51_remquo_exact",
    "Verif.Fn.C51_watchdog_range"
   ],
   "note": "In exact arithmetic, for every format whose exponent range fits the 5000-step watchdog, and all finite x, non-zero y of the format. C51_watchdog_range shows the bound is needed. NaN, infinity and zero-divisor exits are not modelled."
  },
  {
   "property": "C52",
   "status": "proved",
   "theorems": [
    "Verif.HW.Deq.C52_increment",
    "Verif.HW.Deq.C52_dequantize",
    "Verif.HW.Deq.C52_subnormal_wrong"
   ],
   "note": "Increment decision for every fixed-point value and mode; whole datapath for every normal scale (and offsets below 2^R). C52_subnormal_wrong: a subnormal scale loses the sticky information."
  },
  {
   "property": "C53",
   "status": "proved",
   "theorems": [
    "Verif.Legal.C53_evaluate_cst",
    "Verif.Legal.C53_evaluate_cst_total",
    "Verif.Legal.C53_evaluate_graph",
    "Verif.Legal.C53_evaluate_graph_total"
   ],
   "note": "Evaluation of constant sub-graphs, shallow model of evaluate_cst/evaluate_graph over integers and booleans; total on the operators the code accepts."
  },
  {
   "property": "C54",
   "status": "partial",
   "theorems": [
    "Verif.Legal.Place.C54_extract_partial",
    "Verif.Legal.Place.C54_free",
    "Verif.Legal.Place.C54_shared_repeats",
    "Verif.Legal.Place.C54_assignment_lost"
   ],
   "note": "Proved for every graph, sharing included. Negations: a shared placeholder repeats its statements; an extra operand that is not control flow is lost; the Statement branch is dead code."
  },
  {
   "property": "C55",
   "status": "partial",
   "theorems": [
    "Verif.Rng.C55_category",
    "Verif.Rng.C55_zero_weight_wrong",
    "Verif.Rng.C55_fixed_partial",
    "Verif.Rng.C55_fixed_signed",
    "Verif.Rng.C55_fixed_extremes",
    "Verif.Rng.C55_fixed_zero_wrong",
    "Verif.Rng.C55_fixed_near_zero_wrong",
    "Verif.Rng.C55_int_partial",
    "Verif.Rng.C55_int_wrong",
    "Verif.Rng.C55_raw",
    "Verif.Rng.C55_fp",
    "Verif.Rng.C55_log_range",
    "Verif.Rng.C55_log_partial",
    "Verif.Rng.C55_log_endpoints_wrong",
    "Verif.Rng.C55_log_subnormal_wrong",
    "Verif.Rng.C55_uniform_partial",
    "Verif.Rng.C55_uniform_wrong",
    "Verif.Rng.C55_mp_partial",
    "Verif.Rng.C55_mp_wrong"
   ],
   "note": "Random draws are arbitrary sequences of naturals, so the theorems hold for every state of the random source. Proved: the category choice (C55_category), fixed-point on representable intervals containing 0 when signed (C55_fixed_signed, all values of extreme categories in C55_fixed_extremes), integers when the category is standard (C55_int_partial), raw vectors (C55_raw), floating-point default generator with every number reachable (C55_fp), logarithmic and uniform intervals with representable bounds (C55_log_partial, C55_uniform_partial), multi-limb from below (C55_mp_partial). False as coded, with witnesses: zero outside the interval, unsigned near-zero values, integer high/low/near-zero categories raise, subnormal intervals, bounds that are not representable, multi-limb values above the interval, only the bounds are drawn from an interval inside a binade."
  },
  {
   "property": "C56",
   "status": "proved",
   "theorems": [
    "Verif.Legal.C56_invsqrt_scale",
    "Verif.Legal.C56_invsqrt_seed",
    "Verif.Legal.C56_reciprocal_seed",
    "Verif.Legal.C56_reciprocal_flush"
   ],
   "note": "Algebraic identities of the two seeds proved over the reals given the table/exponent parts; C56_reciprocal_flush exhibits that in floating-point the exponent insertion leaves its range in the largest binade."
  },
  {
   "property": "C57",
   "status": "partial",
   "theorems": [
    "Verif.Rewrite.Inline.C57_inline_partial",
    "Verif.Rewrite.Inline.C57_early_return_wrong"
   ],
   "note": "inline_function is modelled as the in-place heap rewriting it is (memo table, set_input, Return nodes replaced by assignments). C57_inline_partial: for every acyclic scheme with any sharing whose returns are last (a return, a sequence ending in one, a condition ending in one on both sides), arguments that share no operation with the scheme, and parameters that are not assigned: the destination ends with the returned value and every other variable as in the call. C57_early_return_wrong: with an early return the execution continues and the destination is overwritten. Returns inside loops are not covered."
  },
  {
   "property": "C58",
   "status": "proved",
   "theorems": [
    "Verif.Table.C58_rows",
    "Verif.Table.C58_partition",
    "Verif.Table.C58_expected"
   ],
   "note": "All size lists."
  },
  {
   "property": "C59",
   "status": "partial",
   "theorems": [
    "Verif.Rewrite.C59_lower",
    "Verif.Rewrite.C59_lower_complete_partial",
    "Verif.Rewrite.C59_lower_chain_wrong",
    "Verif.Rewrite.C59_transform",
    "Verif.Rewrite.C59_execute_none_wrong",
    "Verif.Rewrite.C59_transform_complete"
   ],
   "note": "LoweringEngine.lower_node and Pass_NodeTransformation.transform_graph are modelled as imperative heap algorithms (in-place set_input, memo tables, recursion on new nodes). For every acyclic graph with any sharing and every family of value-preserving methods: the pass ends, every node of the graph keeps its value, the result has (or represents) the value of the root, and no node is rewritten twice (C59_lower, C59_transform). Completeness: C59_transform_complete; for the lowering engine only when the node an action returns cannot be lowered itself (C59_lower_complete_partial), because the memo keeps the result of the first action (C59_lower_chain_wrong). The execute method of the concrete passes returns None when the root is kept (C59_execute_none_wrong)."
  },
  {
   "property": "C60",
   "status": "partial",
   "theorems": [
    "Verif.Float.C60_next_partial",
    "Verif.Float.C60_previous_partial",
    "Verif.Float.C60_next_of_power_is_stuck",
    "Verif.Float.C60_next_of_subnormal_is_stuck",
    "Verif.Float.C60_previous_of_min_normal_is_stuck"
   ],
   "note": "fp_next proved for normal non powers of two, fp_previous for normals above the smallest; proved stuck on powers of two, even subnormals and the smallest normal."
  },
  {
   "property": "C61",
   "status": "proved",
   "theorems": [
    "Verif.Table.C61_mantissa_index",
    "Verif.Table.C61_fp_index",
    "Verif.Table.C61_mantissa_partition",
    "Verif.Table.C61_fp_partition"
   ],
   "note": "Mantissa-field and exponent+mantissa-field indices, all formats."
  },
  {
   "property": "C62",
   "status": "proved",
   "theorems": [
    "Verif.CFG.C62_immediate_dominator"
   ],
   "note": "All reachable blocks, any set order."
  },
  {
   "property": "C63",
   "status": "proved",
   "theorems": [
    "Verif.CFG.C63_frontiers",
    "Verif.CFG.C63_phi_placement",
    "Verif.CFG.C63_phi_terminates"
   ],
   "note": "All graphs with every block reachable and no edge to the entry; any order of the work set."
  },
  {
   "property": "C64",
   "status": "partial",
   "theorems": [
    "Verif.Blocks.C64_split",
    "Verif.Blocks.C64_mul211_nofma_partial",
    "Verif.Blocks.C64_mul211_nofma_unbounded",
    "Verif.Blocks.C64_mul211_partial",
    "Verif.Blocks.C64_mul211_unbounded",
    "Verif.Blocks.C64_mul211_underflow_wrong",
    "Verif.Blocks.C64_normalize33",
    "Verif.Blocks.C64_add321",
    "Verif.Blocks.C64_add321v2_wrong",
    "Verif.Blocks.C64_fast_selected",
    "Verif.Blocks.C64_normalize23_partial"
   ],
   "note": "Mul211 with and without FMA (Veltkamp split, Dekker product) exact without underflow of the error term (counterexample with underflow), Normalize_33, Add321, range-selected fast sums exact; Add321_v2 is proved inexact; Normalize_23 error bounded."
  },
  {
   "property": "C65",
   "status": "partial",
   "theorems": [
    "Verif.Blocks.C65_fma2111_partial",
    "Verif.Blocks.C65_fma2212_wrong",
    "Verif.Blocks.C65_fma2211_partial",
    "Verif.Blocks.C65_fma2122_partial"
   ],
   "note": "FMA2111 for all operands; FMA2211 for all operands and FMA2122 for operands of one sign bounded by the errors of their two steps; FMA2212 proved wrong; FMA2121 passes no precision."
  },
  {
   "property": "C66",
   "status": "partial",
   "theorems": [
    "Verif.Fn.C66_remquo_partial",
    "Verif.Fn.C66_half_wrong"
   ],
   "note": "Proved for every monotone rounding when y is subnormal or y/2 is representable. C66_half_wrong is a concrete binary64 counterexample in the remaining slice: y*0.5 is inexact for odd mantissas of the lowest normal binade."
  },
  {
   "property": "C67",
   "status": "partial",
   "theorems": [
    "Verif.Blocks.C67_add333_partial",
    "Verif.Blocks.C67_mul322",
    "Verif.Blocks.C67_mul321_partial",
    "Verif.Blocks.C67_mul332_partial",
    "Verif.Blocks.C67_mul313",
    "Verif.Blocks.C67_mul333",
    "Verif.Blocks.C67_add332_partial",
    "Verif.Blocks.C67_add322",
    "Verif.Blocks.C67_add331_partial",
    "Verif.Blocks.C67_add333_wrong",
    "Verif.Blocks.C67_add333_cancellation_wrong",
    "Verif.Blocks.C67_add332_cancellation_wrong",
    "Verif.Blocks.C67_add322_factor_wrong",
    "Verif.Blocks.C67_add321_factor_wrong",
    "Verif.Blocks.C67_add322_binary32_wrong",
    "Verif.Blocks.C67_add331_wrong",
    "Verif.Blocks.C67_add331_factor_wrong",
    "Verif.Blocks.C67_mul322_binary32_wrong",
    "Verif.Blocks.C67_mul321_wrong",
    "Verif.Blocks.C67_mul332_wrong"
   ],
   "note": "Binary64 limbs. Proved for all operands the block accepts: Mul322, Mul333 (gaps of 5 bits), Mul313, Add322 (error; its limb factor is wrong). Proved with extra conditions: Add333 (same-sign heads, min(a_o,a_u) <= b_o), Add332 (same-sign heads, twice the declared error), Add331 (b_u <= 53), Mul321 (no overlap), Mul332 (b_o >= 2). Every missing condition is a proved counterexample, except the factor two of Add332. Products assume no underflow."
  },
  {
   "property": "C68",
   "status": "partial",
   "theorems": [
    "Verif.FixC.C68_conv_partial",
    "Verif.FixC.C68_conv_negative_wrong",
    "Verif.FixC.C68_add_partial",
    "Verif.FixC.C68_add_wrong",
    "Verif.FixC.C68_sub_partial",
    "Verif.FixC.C68_sub_wrong",
    "Verif.FixC.C68_mul_partial",
    "Verif.FixC.C68_mul_wrong",
    "Verif.FixC.C68_cmp_partial",
    "Verif.FixC.C68_cmp_wrong",
    "Verif.FixC.C68_from_fp_partial",
    "Verif.FixC.C68_from_fp_wrong",
    "Verif.FixC.C68_to_fp"
   ],
   "note": "Formats of 1 to 128 bits. Proved for values and products that are not negative or lose no bit. Proved wrong: negative values losing fraction bits (logic shift), subtraction that rounds its second operand, sums whose operands leave the result format, products when only the second operand has the C type of the product (the first operand is squared), comparisons of two formats, rounding of conversions from floating-point. Signed overflow and left shifts of negative numbers are taken as in GCC."
  },
  {
   "property": "C69",
   "status": "partial",
   "theorems": [
    "Verif.Rng.C69_seed_partial",
    "Verif.Rng.C69_seed_wrong"
   ],
   "note": "Proved for generators without special values and without uniform intervals. C69_seed_wrong: those two categories draw from the process-wide random module."
  },
  {
   "property": "C70",
   "status": "partial",
   "theorems": [
    "Verif.Check.C70_cr_partial",
    "Verif.Check.C70_cr_negative_zero_wrong",
    "Verif.Check.C70_cr_special",
    "Verif.Check.C70_faithful",
    "Verif.Check.C70_interval_special",
    "Verif.Check.C70_absolute_partial",
    "Verif.Check.C70_relative_partial",
    "Verif.Check.C70_absolute_infinite_wrong",
    "Verif.Check.C70_overflow",
    "Verif.Check.C70_nan",
    "Verif.Check.C70_absolute_accept_wrong",
    "Verif.Check.C70_absolute_reject_wrong"
   ],
   "note": "Exact values are reals. Faithful rounding, special values, overflow and NaN: proved. Correct rounding: proved except for a negative zero, which is rejected (C70_cr_negative_zero_wrong). Absolute and relative goals: proved that acceptance is the distance to the correctly rounded value, up to the rounding of the bounds; counterexamples to the distance to the exact value in both directions, and infinite results accepted near the end of the range."
  },
  {
   "property": "C71",
   "status": "partial",
   "theorems": [
    "Verif.Check.C71_vector",
    "Verif.Check.C71_scalar_partial",
    "Verif.Check.C71_break_error_wrong"
   ],
   "note": "Proved for vector implementations, and for scalar ones that stop at the first error. C71_break_error_wrong: with the break_error option the program returns 0 whatever fails. The outcome of a check is a parameter (see C70)."
  },
  {
   "property": "C72",
   "status": "partial",
   "theorems": [
    "Verif.Check.C72_scalar_invalid",
    "Verif.Check.C72_scalar_partial",
    "Verif.Check.C72_scalar_absolute",
    "Verif.Check.C72_infinite_wrong",
    "Verif.Check.C72_index_wrong",
    "Verif.Check.C72_vector_partial",
    "Verif.Check.C72_vector_nan_wrong",
    "Verif.Check.C72_vector_print_wrong",
    "Verif.Check.C72_faithful",
    "Verif.Check.C72_degraded_wrong"
   ],
   "note": "Correctly rounded goal, one format. Proved: unexpected NaNs give -2 at the right input, otherwise the largest relative error and where it is reached; the largest absolute error; faithful results have error zero. False as coded, with proofs: tests with an infinite result are ignored, inputs are read at index -1 when no test has an error, the vector program ignores NaNs and prints the absolute error as the relative one, the degraded goals measure the distance to the bounds. The ulp error is not modelled."
  },
  {
   "property": "C73",
   "status": "partial",
   "theorems": [
    "Verif.FpHw.C73_partial",
    "Verif.FpHw.C73_carry_wrong",
    "Verif.FpHw.C73_far_wrong",
    "Verif.FpHw.C73_zero_wrong",
    "Verif.FpHw.C73_cancel_wrong",
    "Verif.FpHw.C73_sub_wrong"
   ],
   "note": "Any format with at least one fraction bit. Proved for normal operands when the signs are equal or y is the largest, y is at most f+3 binades above x, and the rounded sum stays in the binade of the exact sum. Proved wrong in every other class of normal operands: rounding carries, subtraction with a larger x, large y, exact cancellation, and a zero x. Subnormal numbers, overflow, infinities and NaNs are not handled by the code."
  },
  {
   "property": "C74",
   "status": "partial",
   "theorems": [
    "Verif.FpHw.C74_partial",
    "Verif.FpHw.C74_half_wrong",
    "Verif.FpHw.C74_carry_wrong",
    "Verif.FpHw.C74_tie_wrong",
    "Verif.FpHw.C74_mixed_wrong"
   ],
   "note": "C74_partial: correct rounding when the addend exceeds the product by at least G.f+5 binades. C74_half_wrong: in all the other cases (normal operands or null addend, no tie) the operator returns exactly half the correctly rounded value: the constant added to the exponent of the product is exp_offset+1 instead of exp_offset+2. C74_carry_wrong, C74_tie_wrong, C74_mixed_wrong: a carry out of the rounding, ties, and mixed precisions with 2p < r+1. Not covered: subnormal numbers, overflow, special values (the operator does not handle them)."
  },
  {
   "property": "C75",
   "status": "partial",
   "theorems": [
    "Verif.CGen.C75_function_computes_description_partial",
    "Verif.CGen.C75_pure_function_computes_description",
    "Verif.CGen.C75_reuse_after_loop_wrong",
    "Verif.CGen.C75_stale_value_wrong",
    "Verif.CGen.C75_loop_condition_wrong",
    "Verif.CGen.C75_branch_local_wrong",
    "Verif.CGen.C75_argument_name_wrong"
   ],
   "note": "Proved for every description whose reuse is safe: no reused value depends on a variable assigned since it was computed, no value computed in a loop body is reused after the loop, local variables are met in the block that declares them (SafeReuse, decidable), and no argument is named like a generated name (NoClash). Descriptions that assign no variable and have no loop need only NoClash. Missing from the full statement: the five cases in which the code is wrong, each with a proved witness. SwitchBlock, function objects and vectors are not modelled."
  },
  {
   "property": "C76",
   "status": "proved",
   "theorems": [
    "Verif.CGen.C76_each_operation_once"
   ],
   "note": "Operator occurrences in the generated statements are counted and compared with the number of distinct operation nodes."
  },
  {
   "property": "C77",
   "status": "proved",
   "theorems": [
    "Verif.Elem.C77_exp_faithful",
    "Verif.Elem.C77_exp_poly_faithful",
    "Verif.Elem.C77_exp_special",
    "Verif.Elem.C77_exp_underflow_wrong",
    "Verif.Elem.C77_exp_goal_wrong"
   ],
   "note": "The polynomial is a parameter with an error bound. Findings: correct rounding is not reached before the early underflow exit in binary64 (C77_exp_underflow_wrong); the generator's own error goal does not imply a faithful result (C77_exp_goal_wrong)."
  },
  {
   "property": "C78",
   "status": "partial",
   "theorems": [
    "Verif.Elem.C78_div_faithful_partial",
    "Verif.Elem.C78_div_special_partial",
    "Verif.Elem.C78_div_zero_sign_wrong",
    "Verif.Elem.C78_div_overflow_wrong",
    "Verif.Elem.C78_div_rounding_wrong"
   ],
   "note": "Faithful is proved for normal operands whose quotient is at least a factor two away from the subnormal numbers and from overflow; quotients next to overflow, subnormal operands and subnormal quotients (whose path is a parameter) are missing. Findings: 4/3*2^emax gives an infinity or a NaN in every format (C78_div_overflow_wrong); 0 divided by a negative operand has the wrong sign (C78_div_zero_sign_wrong); the result is not correctly rounded because the last correction is dropped (C78_div_rounding_wrong)."
  },
  {
   "property": "C79",
   "status": "partial",
   "theorems": [
    "Verif.Elem.C79_sqrt_correctly_rounded_partial",
    "Verif.Elem.C79_sqrt_faithful_partial",
    "Verif.Elem.C79_rsqrt_error_partial",
    "Verif.Elem.C79_sqrt_special_partial",
    "Verif.Elem.C79_sqrt_minus_zero_wrong",
    "Verif.Elem.C79_rsqrt_special_partial",
    "Verif.Elem.C79_rsqrt_minus_zero_wrong",
    "Verif.Elem.C79_sqrt_subnormal_wrong",
    "Verif.Elem.C79_rsqrt_subnormal_wrong",
    "Verif.Elem.C79_sqrt_rounding_wrong",
    "Verif.Elem.C79_rsqrt_faithful_wrong"
   ],
   "note": "Correct rounding is proved from 2^(emin+f+4) to the largest number, faithfulness from 4 times the least normal number, the relative error of the reciprocal from twice the least normal number. Missing: the numbers between a eighth and four times the least normal number. Findings: sqrt(-0) is +0 and rsqrt(-0) is +inf (C79_sqrt_minus_zero_wrong, C79_rsqrt_minus_zero_wrong); both functions return a NaN for small subnormal numbers (C79_sqrt_subnormal_wrong, C79_rsqrt_subnormal_wrong); the square root is not correctly rounded next to the subnormal numbers (C79_sqrt_rounding_wrong); the reciprocal square root is not faithful next to overflow (C79_rsqrt_faithful_wrong)."
  },
  {
   "property": "C80",
   "status": "partial",
   "theorems": [
    "Verif.Rem.C80_remquo_exact_partial",
    "Verif.Rem.C80_remquo_zero_sign_partial",
    "Verif.Rem.C80_remquo_zero_sign_wrong",
    "Verif.Rem.C80_remquo_special",
    "Verif.Rem.C80_remquo_half_wrong"
   ],
   "note": "Remainder, quotient bits and termination proved for every pair of finite operands whose divisor has an exact half or is subnormal (C80_remquo_exact_partial). Findings: for normal divisors of the lowest binade half the divisor is rounded and the remainder is not the IEEE one (C80_remquo_half_wrong, a witness in every format); for |x| = |y| the null remainder is always +0, also for negative x (C80_remquo_zero_sign_wrong)."
  },
  {
   "property": "C81",
   "status": "partial",
   "theorems": [
    "Verif.Rem.C81_fmod_exact_partial",
    "Verif.Rem.C81_fmod_terminates_partial",
    "Verif.Rem.C81_fmod_special_partial",
    "Verif.Rem.C81_fmod_inf_wrong",
    "Verif.Rem.C81_fmod_zero_sign_wrong",
    "Verif.Rem.C81_fmod_overflow_wrong",
    "Verif.Rem.C81_fmod_sign_wrong",
    "Verif.Rem.C81_fmod_underflow_wrong"
   ],
   "note": "Exact result and termination proved for finite operands of the same sign, a product not below the normal range and a quotient that does not overflow (C81_fmod_exact_partial), termination for both signs (C81_fmod_terminates_partial), NaN, infinite dividend and null divisor (C81_fmod_special_partial). Findings, all with witnesses in every format: for opposite signs the divisor is added to a remainder of its sign, e.g. 4 modulo 3 (C81_fmod_sign_wrong); the product whose sign is tested underflows and the result is negative for positive operands (C81_fmod_underflow_wrong); a quotient that overflows gives a NaN (C81_fmod_overflow_wrong); an infinite divisor gives a NaN (C81_fmod_inf_wrong); a null result is +0 for negative dividends (C81_fmod_zero_sign_wrong)."
  },
  {
   "property": "C82",
   "status": "partial",
   "theorems": [
    "Verif.Trig.C82_sincos_half_turn_wrong",
    "Verif.Trig.C82_sincos_table_wrong",
    "Verif.Trig.C82_sincos_overflow_wrong",
    "Verif.Trig.C82_sincos_overflow_binade_wrong",
    "Verif.Trig.C82_sincos_partial",
    "Verif.Trig.C82_payne_hanek_partial",
    "Verif.Trig.C82_payne_hanek_quarter_partial"
   ],
   "note": "Proved modulo 2^(k+1) for k <= 10 away from the two boundary positions, and modulo 2^(k-1) everywhere. Wrong with the parameters of ml_sincos.py: half a turn is lost on [2^77, 2^78) for odd significands, the conversion overflows on part of [2^76, 2^77), the tables are too short from 2^1012 on. binary32 is not modelled: in Python 3 its chunk size is 9.5."
  },
  {
   "property": "C83",
   "status": "partial",
   "theorems": [
    "Verif.Trig.C83_sincos_std_partial",
    "Verif.Trig.C83_sincos_large_partial",
    "Verif.Trig.C83_sincos_negative_wrong",
    "Verif.Trig.C83_sincos_large_wrong",
    "Verif.Trig.C83_sincos_std_wrong"
   ],
   "note": "Proved for |x| < 2^33 (error half an ulp of x plus 2^-60), [2^33,2^49) and [2^52,2^72) (error 2^-60). Disproved by witnesses: std_wrong (4294971459), negative_wrong (every x in [-2^1000, -2^51]), large_wrong ([2^51,2^52) and from 2^1012). Not covered: [2^49,2^51), [2^72,2^1012) (see C82), the polynomials and the table."
  },
  {
   "property": "C84",
   "status": "partial",
   "theorems": [
    "Verif.Fuse.C84_fuse_exact",
    "Verif.Fuse.C84_fuse_rounded",
    "Verif.Fuse.C84_fused_operation",
    "Verif.Fuse.C84_fuse_accuracy",
    "Verif.Fuse.C84_supported_partial",
    "Verif.Fuse.C84_integer_wrong",
    "Verif.Fuse.C84_dot_wrong",
    "Verif.Fuse.C84_split_wrong"
   ],
   "note": "Proved: exact value, rounded value under exact products, accuracy of a single fusion, nearest rounding of the four fused operations and their lowering, support for floating-point sums. Disproved with witnesses: integer sums, dot products, Dekker's splitting."
  },
  {
   "property": "C85",
   "status": "partial",
   "theorems": [
    "Verif.X86.C85_comparison_partial",
    "Verif.X86.C85_unsigned_wrong",
    "Verif.X86.C85_select_partial",
    "Verif.X86.C85_select_lowered",
    "Verif.X86.C85_select_nan_wrong",
    "Verif.X86.C85_select_not_wrong",
    "Verif.X86.C85_select_mask_wrong",
    "Verif.X86.C85_mask_test",
    "Verif.X86.C85_mask_test_wrong"
   ],
   "note": "Comparisons, selections and tests of masks are proved where they are right; unsigned order, selections on an order comparison with NaN, on a negation and on boolean vectors are proved wrong."
  },
  {
   "property": "C86",
   "status": "partial",
   "theorems": [
    "Verif.X86.C86_constant_partial",
    "Verif.X86.C86_constant_carry_wrong",
    "Verif.X86.C86_constant_loop_wrong",
    "Verif.X86.C86_int64_conversion",
    "Verif.X86.C86_int64_conversion_exact",
    "Verif.X86.C86_nearest_integer",
    "Verif.X86.C86_float_conversion_partial",
    "Verif.X86.C86_float_conversion_wrong",
    "Verif.X86.C86_mantissa_partial",
    "Verif.X86.C86_mantissa_wrong",
    "Verif.X86.C86_table_index"
   ],
   "note": "Proved for constants in range, normal numbers, 64-bit integers that fit 32 bits and tables whose size fits the index format; the other cases are proved wrong."
  },
  {
   "property": "C87",
   "status": "partial",
   "theorems": [
    "Verif.Typing.C87_integer_format",
    "Verif.Typing.C87_integer_format_wrong",
    "Verif.Typing.C87_merge_float_partial",
    "Verif.Typing.C87_merge_mixed_wrong",
    "Verif.Typing.C87_merge_int_partial",
    "Verif.Typing.C87_merge_int_wrong",
    "Verif.Typing.C87_merge_small_wrong",
    "Verif.Typing.C87_all_typed",
    "Verif.Typing.C87_operands_fit",
    "Verif.Typing.C87_shared_constant_wrong",
    "Verif.Typing.C87_comparison_constant_wrong"
   ],
   "note": "The passes are proved to type every operation and to keep given formats; holding the operands is proved for floating-point and unmixed integer operands; the other cases are proved wrong. Vector formats, tables and statements are not modelled."
  },
  {
   "property": "C88",
   "status": "partial",
   "theorems": [
    "Verif.Elem.C88_exp2_error_partial",
    "Verif.Elem.C88_exp2_special",
    "Verif.Elem.C88_exp2_nan",
    "Verif.Elem.C88_exp2_table_wrong",
    "Verif.Elem.C88_exp2_least_wrong",
    "Verif.Elem.C88_exp2_integer",
    "Verif.Elem.C88_exp2_top_wrong"
   ],
   "note": "Proved: error below 4 unit roundoffs for all the inputs below emax+15/16, exact integer powers, special values. Disproved: NaN on [emax+15/16, emax+1), 0 at the least subnormal exponent, table read past its end. Faithful rounding itself is not proved. The polynomial is a parameter with an error hypothesis."
  },
  {
   "property": "C89",
   "status": "partial",
   "theorems": [
    "Verif.Elem.C89_pow_special_partial",
    "Verif.Elem.C89_pow_zero_inf_wrong",
    "Verif.Elem.C89_pow_negative_odd_wrong",
    "Verif.Elem.C89_pow_sign_wrong",
    "Verif.Elem.C89_pow_invalid_wrong",
    "Verif.Elem.C89_pow_one_nan_wrong",
    "Verif.Elem.C89_pow_two_integer_partial",
    "Verif.Elem.C89_pow_two_fraction_wrong",
    "Verif.Elem.C89_pow_two_wrap_wrong",
    "Verif.Elem.C89_pow_nan_base_wrong",
    "Verif.Elem.C89_pow_binade_partial"
   ],
   "note": "Proved: the special results for all the operands outside the listed exclusions, exact normal integer powers of 2. Disproved on whole classes: each of the exclusions. The numerical error of a general power is not bounded. The logarithm and the polynomial are parameters."
  },
  {
   "property": "C90",
   "status": "partial",
   "theorems": [
    "Verif.Lin.C90_linearize_partial",
    "Verif.Lin.C90_inputs",
    "Verif.Lin.C90_shared_blocks_wrong",
    "Verif.Lin.C90_stale_wrong",
    "Verif.Lin.C90_two_returns_wrong",
    "Verif.Lin.C90_phi_wrong",
    "Verif.Lin.C90_constant_return_wrong",
    "Verif.Lin.C90_unused_argument_wrong"
   ],
   "note": "Proved, by simulation, for programs whose operation nodes are each used in one block with no assignment to their variables between two uses. Wrong otherwise (witnesses): a node shared by two branches is only computed in the first one; a node used again after an assignment keeps its old value; two returned expressions give two output registers; phi nodes, returned constants and unused arguments raise."
  },
  {
   "property": "C91",
   "status": "partial",
   "theorems": [
    "Verif.Crit.C91_reported_is_a_path",
    "Verif.Crit.C91_reported_local",
    "Verif.Crit.C91_flat_partial",
    "Verif.Crit.C91_signal_wrong",
    "Verif.Crit.C91_comparison_wrong",
    "Verif.Crit.C91_shift_wrong"
   ],
   "note": "Proved for every circuit: what is reported is the delay of a path (never too much), and exactly the longest path inside the expression that drives the signal; hence right when no expression reads a driven signal, and wrong otherwise: a chain of n additions through signals is reported as one. Comparisons are sized by their one-bit result and shifts by their data instead of their amount. The pipelined mode is not modelled."
  },
  {
   "property": "C92",
   "status": "partial",
   "theorems": [
    "Verif.Atan.C92_atan_partial",
    "Verif.Atan.C92_atan_minus_zero_wrong",
    "Verif.Atan.C92_single_partial",
    "Verif.Atan.C92_single_wrong"
   ],
   "note": "Proved for every non-NaN datum including the infinities, given the bound of the approximation on [0,1] (computed by Sollya, a hypothesis). The sign of zero is lost (atan(-0) = +0), proved as a disagreement. Method single has no argument reduction: accurate on [-1,1], wrong at the infinities and beyond 2."
  },
  {
   "property": "C93",
   "status": "partial",
   "theorems": [
    "Verif.Atan.C93_atan2_partial",
    "Verif.Atan.C93_plus_zero_wrong",
    "Verif.Atan.C93_minus_zero_wrong",
    "Verif.Atan.C93_invalid_wrong"
   ],
   "note": "Proved for all non-NaN pairs where x is not +0 and the operands are neither both zero nor both infinite. Disagreements proved: atan2(y, +0) is the opposite angle for every y that is not null; atan2(-0, x > 0) is +0; two zeros and two infinities give a NaN."
  },
  {
   "property": "C94",
   "status": "partial",
   "theorems": [
    "Verif.Tanh.C94_tanh_partial",
    "Verif.Tanh.C94_tanh_odd",
    "Verif.Tanh.C94_tanh_nan_wrong",
    "Verif.Tanh.C94_tanh_minus_zero_wrong"
   ],
   "note": "Proved: oddness bit for bit, correct rounding from the computed bound on (with the computation of the bound), error below it from the errors of the polynomials (hypotheses, computed by Sollya), infinities. Disagreements proved: a NaN gives 1, -0 gives +0."
  },
  {
   "property": "C95",
   "status": "partial",
   "theorems": [
    "Verif.Search.C95_search_partial",
    "Verif.Search.C95_result_wrong",
    "Verif.Search.C95_endless_wrong",
    "Verif.Search.C95_ends",
    "Verif.Search.C95_mirror_partial",
    "Verif.Search.C95_mirror_endless_wrong"
   ],
   "note": "Proved: what the result of a terminating search satisfies, termination inside a binade. Disagreements proved: the result is the number before the threshold, for the function rounded upwards; the search never ends when it starts at a power of two that is next to the threshold (fp_next is stuck there)."
  },
  {
   "property": "C96",
   "status": "partial",
   "theorems": [
    "Verif.Cbrt.C96_cbrt_partial",
    "Verif.Cbrt.C96_negative_wrong",
    "Verif.Cbrt.C96_minus_zero_wrong",
    "Verif.Cbrt.C96_subnormal_wrong",
    "Verif.Cbrt.C96_infinity_wrong"
   ],
   "note": "Proved: relative error at most 5/2 half units for all normal numbers from twice the smallest one to the inverse of the smallest one, with the tables, the seed, the exponent division and the 8 Newton iterations in floating-point; NaN. Disagreements proved: a negative number never has a negative result, a small subnormal gives -infinity, an infinity gives a NaN, -0 gives +0."
  },
  {
   "property": "C97",
   "status": "partial",
   "theorems": [
    "Verif.Backend.C97_lookup",
    "Verif.Backend.C97_supported_iff",
    "Verif.Backend.C97_language_wrong"
   ],
   "note": "C97_lookup and C97_supported_iff are proved for all tables. The property fails for every language other than the default one of the class (C for all targets): C97_language_wrong proves that no operation is ever reported as supported then, although implementations exist (LLVM-IR and VHDL targets); the example shows such a target."
  },
  {
   "property": "C98",
   "status": "partial",
   "theorems": [
    "Verif.Backend.C98_hierarchy",
    "Verif.Backend.C98_single_order",
    "Verif.Backend.C98_order_wrong"
   ],
   "note": "C98_hierarchy: termination, completeness and no duplicates for every finite graph. C98_single_order: the order is right with single inheritance. C98_order_wrong: with multiple inheritance a target may come after its own base."
  },
  {
   "property": "C99",
   "status": "partial",
   "theorems": [
    "Verif.Subnorm.C99_positive_partial",
    "Verif.Subnorm.C99_negative_wrong",
    "Verif.Subnorm.C99_small_low_wrong",
    "Verif.Subnorm.C99_normal_wrong"
   ],
   "note": "C99_positive_partial: proved for a positive high part, a result in the subnormal range with at least one bit kept, and a low part that is zero or larger than 2^(emin-factor-2p). The property fails otherwise: C99_negative_wrong (negative operands are rounded on a grid twice too fine, then rounded again), C99_small_low_wrong (a tiny low part does not break a tie), C99_normal_wrong (a result that is normal loses its last bit)."
  },
  {
   "property": "C100",
   "status": "partial",
   "theorems": [
    "Verif.Subnorm.C100_rounds_partial",
    "Verif.Subnorm.C100_tie_wrong",
    "Verif.Subnorm.C100_undefined_wrong"
   ],
   "note": "C100_rounds_partial: right for both signs when 2 to 30 bits are dropped and the low part is not a zero of the other sign. C100_tie_wrong: with a low part +0 and a negative high part, ties go to the odd neighbour. C100_undefined_wrong: outside 2 to 30 dropped bits the C code has undefined behaviour (int shifts, shift by 64), although up to 53 bits may have to be dropped."
  },
  {
   "property": "C101",
   "status": "partial",
   "theorems": [
    "Verif.Share.C101_preserves_partial",
    "Verif.Share.C101_factors",
    "Verif.Share.C101_guard_wrong",
    "Verif.Share.C101_return_wrong"
   ],
   "note": "C101_preserves_partial: proved for all programs in which no returning or raising node object is used twice, on all inputs for which no input-only operation fails. C101_factors: the node is computed before the conditional. The property fails otherwise: C101_guard_wrong (a node used twice inside one branch is hoisted above its guard, because search_level_map reads the outermost level only) and C101_return_wrong (a shared Return node is hoisted, so the function always returns)."
  },
  {
   "property": "C102",
   "status": "partial",
   "theorems": [
    "Verif.Bipart.C102_error",
    "Verif.Bipart.C102_reported",
    "Verif.Bipart.C102_output_partial",
    "Verif.Bipart.C102_output_wrong"
   ],
   "note": "C102_error and C102_reported are proved for the sum of the two tables, C102_output_partial for the output with one more unit of the output format. C102_output_wrong: the reported error ignores the truncation to the output format, so it does not bound the error of what the block delivers."
  },
  {
   "property": "C103",
   "status": "partial",
   "theorems": [
    "Verif.Arr.C103_array",
    "Verif.Arr.C103_array_vectorized_partial",
    "Verif.Arr.C103_overlap_wrong",
    "Verif.Arr.C103_vla_partial",
    "Verif.Arr.C103_vla_mask_wrong",
    "Verif.Arr.C103_vla_wide_wrong",
    "Verif.Arr.C103_vla_length_wrong"
   ],
   "note": "The fixed-size loops are proved for every length and every position where the destination does not start inside the source (needed: C103_overlap_wrong). The vector-length agnostic function is proved for elements that take the likely path, operations not wider than the group allows, and lengths below 2^31; the three restrictions are needed: the mask computed by the vectorizer is never used, so an element outside the likely path gets the likely-path value (C103_vla_mask_wrong); the granted length is that of the array elements with a group of one register, so lanes of a wider operation are lost (C103_vla_wide_wrong); the length is read as a signed number (C103_vla_length_wrong)."
  },
  {
   "property": "C104",
   "status": "partial",
   "theorems": [
    "Verif.Softmax.C104_loops",
    "Verif.Softmax.C104_error_partial",
    "Verif.Softmax.C104_error_exp_partial",
    "Verif.Softmax.C104_overflow_wrong",
    "Verif.Softmax.C104_overflow_binary32_wrong",
    "Verif.Softmax.C104_underflow_wrong"
   ],
   "note": "Proved: the loops compute exp(x_k) * (1 / sum) for every array; the result is the softmax within (1+-e)^3 (1-+e)^-(n+1), e = 2^-f, when the exponentials and the result are normal and the sum is below the half of the range. The last sentence is false: there is no scaling by the maximum, so one overflowing exponential (100 in binary32) gives a NaN where the softmax is at most 1 (C104_overflow_wrong, C104_overflow_binary32_wrong), and an array whose exponentials all underflow gives NaNs everywhere (C104_underflow_wrong)."
  },
  {
   "property": "C105",
   "status": "partial",
   "theorems": [
    "Verif.Kulisch.C105_step",
    "Verif.Kulisch.C105_dot_partial",
    "Verif.Kulisch.C105_capacity_partial",
    "Verif.Kulisch.C105_extra_digit_wrong",
    "Verif.Kulisch.C105_subnormal_wrong",
    "Verif.Kulisch.C105_sign_magnitude_step",
    "Verif.Kulisch.C105_sign_magnitude_partial",
    "Verif.Kulisch.C105_zero_sign_wrong"
   ],
   "note": "Proved when no product has a subnormal factor with the other factor at least 2^(emin+1): the raw exponent field is used without correction, so such a product counts for one half (C105_subnormal_wrong). In two's complement the sum only has to fit at the end (C105_dot_partial), 2^d products need d+1 extra digits (C105_capacity_partial) and with none a single product can be read as a negative number (C105_extra_digit_wrong). In sign and magnitude 2^d products need d digits (C105_sign_magnitude_partial); a cancellation can return a zero with a negative sign, which numeric_emulate does not expect (C105_zero_sign_wrong). Infinities and NaNs are outside the statement (the block has no case for them); the pipeline registers are not modelled."
  },
  {
   "property": "C106",
   "status": "partial",
   "theorems": [
    "Verif.Piecewise.C106_value",
    "Verif.Piecewise.C106_extra_term_wrong",
    "Verif.Piecewise.C106_value_partial",
    "Verif.Piecewise.C106_error_partial",
    "Verif.Piecewise.C106_fp_partial",
    "Verif.Piecewise.C106_generated_wrong",
    "Verif.Piecewise.C106_max_error",
    "Verif.Piecewise.C106_load_tables",
    "Verif.Piecewise.C106_load_error_wrong",
    "Verif.Piecewise.C106_load_error_partial"
   ],
   "note": "The Horner loop starts from the leading coefficient and then visits it again: the graph evaluates the polynomial plus c_n r^(n+1) (C106_value, C106_extra_term_wrong); it is the polynomial only on the sub-intervals whose degree is less than the largest one (C106_value_partial). The error bounds carry this term (C106_error_partial, and C106_fp_partial for the field indexing, where the row, the containment and the exact reduction are proved for every format). The error returned by the generation is the maximum (C106_max_error), the loaded tables are the generated ones (C106_load_tables), but the loaded error is only updated for absent monomials: it is zero when the polynomials have all their coefficients (C106_load_error_wrong, C106_load_error_partial). The polynomials and their errors come from Sollya and are inputs. A sub-interval of degree 0 with a relative target evaluates offset_fct(offset_fct), which fails before any table is produced."
  },
  {
   "property": "C107",
   "status": "partial",
   "theorems": [
    "Verif.Axf.C107_round_trip",
    "Verif.Axf.C107_round_trip_list",
    "Verif.Axf.C107_single",
    "Verif.Axf.C107_tag_wrong",
    "Verif.Axf.C107_from_objects_wrong"
   ],
   "note": "Proved for the three classes and for lists (C107_round_trip, C107_round_trip_list, C107_single) when the text of a number, function, interval, format and indexing is read back as the same value: these printers belong to Sollya (with decimal display they are not exact) and are hypotheses. The tag of a single polynomial is lost (C107_tag_wrong). The three conversions from existing approximation objects always fail on an absent attribute or name (C107_from_objects_wrong). The JSON text itself is not modelled, only its effect on dictionaries: keys become strings and items are sorted."
  },
  {
   "property": "C108",
   "status": "partial",
   "theorems": [
    "Verif.Bfloat.C108_widen",
    "Verif.Bfloat.C108_narrow_widen",
    "Verif.Bfloat.C108_narrow",
    "Verif.Bfloat.C108_narrow_infinity",
    "Verif.Bfloat.C108_narrow_nan_wrong",
    "Verif.Bfloat.C108_narrow_nan_partial",
    "Verif.Bfloat.C108_constant_partial",
    "Verif.Bfloat.C108_constant_wrong",
    "Verif.Bfloat.C108_round_partial",
    "Verif.Bfloat.C108_round_wrong"
   ],
   "note": "The widening (C108_widen), the round trip (C108_narrow_widen) and the truncation of every number, normal, subnormal or zero (C108_narrow), hold. A NaN whose payload is in the 16 low bits is narrowed to an infinity (C108_narrow_nan_wrong); quiet NaNs are kept (C108_narrow_nan_partial). Constants are truncated, not rounded to nearest (C108_constant_wrong, C108_constant_partial). The rounding keeps 11 digits instead of 8: its results are not numbers of the format (C108_round_wrong), though normal numbers of the format are unchanged (C108_round_partial)."
  },
  {
   "property": "C109",
   "status": "partial",
   "theorems": [
    "Verif.Log.C109_special",
    "Verif.Log.C109_binary32_partial",
    "Verif.Log.C109_wide_partial",
    "Verif.Log.C109_binary64_wrong",
    "Verif.Log.C109_one",
    "Verif.Log.C109_above_one",
    "Verif.Log.C109_near_one_wrong"
   ],
   "note": "Special values (C109_special), log(1) = +0 (C109_one), the error bound for binary32 (C109_binary32_partial) and for wider formats away from the boundaries of the intervals of the table (C109_wide_partial), and a relative bound just above one (C109_above_one). Missing: faithful rounding. It does not hold: in binary64 the seed is read after a conversion of the operand to binary32 but the table of logarithms is indexed with the binary64 significand, so 3/2 - 2^-40 gets an error of more than 2^-8 (C109_binary64_wrong); in binary32 the logarithm of 1 - 2^-23 has a relative error of more than 2^-20 whatever the polynomial (C109_near_one_wrong). Overflow of intermediate results is not modelled (none is possible in range), only base e is."
  },
  {
   "property": "C110",
   "status": "partial",
   "theorems": [
    "Verif.Rootn.C110_error_partial",
    "Verif.Rootn.C110_special_partial",
    "Verif.Rootn.C110_minus_zero_wrong",
    "Verif.Rootn.C110_first",
    "Verif.Rootn.C110_reciprocal"
   ],
   "note": "Error (C110_error_partial, 12 units plus the error of the logarithm), special cases (C110_special_partial), identity and reciprocal (C110_first, C110_reciprocal). Missing: faithful rounding (the code does not provide it: the logarithm of the mantissa is a single rounded number), and the root of even positive order of -0, which is -0 where IEEE-754 asks +0 (C110_minus_zero_wrong). The logarithm of the mantissa is a parameter with a stated error."
  },
  {
   "property": "C111",
   "status": "partial",
   "theorems": [
    "Verif.Hyper.C111_cosh_even",
    "Verif.Hyper.C111_sinh_odd",
    "Verif.Hyper.C111_erf_odd",
    "Verif.Hyper.C111_cosh_special",
    "Verif.Hyper.C111_sinh_special_partial",
    "Verif.Hyper.C111_sinh_zero_wrong",
    "Verif.Hyper.C111_sinh_least_wrong",
    "Verif.Hyper.C111_erf_special_partial",
    "Verif.Hyper.C111_erf_nan_wrong",
    "Verif.Hyper.C111_erf_zero_wrong",
    "Verif.Hyper.C111_expm1_special_partial",
    "Verif.Hyper.C111_expm1_zero_wrong",
    "Verif.Hyper.C111_log1p_special_partial",
    "Verif.Hyper.C111_log1p_subnormal_wrong",
    "Verif.Hyper.C111_log1p_pole_wrong"
   ],
   "note": "cosh: proved for every datum. False, with proofs: sinh(-0), erf(-0) and expm1(-0) are +0; erf(NaN) is 1; sinh of the least positive number is 0; log1p(-1) is not -inf; every positive subnormal number has the log1p of +0. The other special values are proved for every datum."
  },
  {
   "property": "C112",
   "status": "partial",
   "theorems": [
    "Verif.Alloc.C112_allocation_partial",
    "Verif.Alloc.C112_end_to_end_partial",
    "Verif.Alloc.C112_clobber_wrong",
    "Verif.Alloc.C112_argument_wrong",
    "Verif.Alloc.C112_constant_branch_wrong"
   ],
   "note": "Proved when no result variable is written while the argument of the same rank is still needed, and no argument is also a result of another rank. Without it the property is false, with proofs: the result and the argument of the same rank share a physical register from the start, so z=y; z=z+x; return z gives 2y under every assignment; a function that returns its second argument returns the first. A branch on a constant is refused. C112_end_to_end_partial composes it with C90."
  },
  {
   "property": "C113",
   "status": "partial",
   "theorems": [
    "Verif.Llvm.C113_instructions_partial",
    "Verif.Llvm.C113_supported",
    "Verif.Llvm.C113_negation_wrong",
    "Verif.Llvm.C113_vector_negation_wrong",
    "Verif.Llvm.C113_nearest_wrong",
    "Verif.Llvm.C113_nearest_refused_wrong",
    "Verif.Llvm.C113_predicates_wrong",
    "Verif.Llvm.C113_comparison_format_wrong",
    "Verif.Llvm.C113_mask_wrong",
    "Verif.Llvm.C113_fused_partial",
    "Verif.Llvm.C113_fused_wrong"
   ],
   "note": "Proved for the operations listed in Covered, scalar and vector, for all operands. False, with proofs: the opposite of +0 is +0; negations and complements of vectors, roundings of doubles to integers and of vectors, != on floating-point numbers and >= on integers are refused by LLVM; roundings to an integer format drop the fractional part; a comparison declared with a 32-bit integer result gives a boolean; IsMaskNotAnyZero is true only when all lanes are zero; a*b-c fused has the wrong sign of zero when c is +0 (the fused operations are proved otherwise). The bit casts between floats and integers and the operations expanded by other legalizers are not modelled here."
  },
  {
   "property": "C114",
   "status": "partial",
   "theorems": [
    "Verif.LlvmGen.C114_text_partial",
    "Verif.LlvmGen.C114_single_assignment",
    "Verif.LlvmGen.C114_undefined_wrong",
    "Verif.LlvmGen.C114_siblings_wrong",
    "Verif.LlvmGen.C114_constant_wrong"
   ],
   "note": "Proved when each assigned value is an operation met for the first time in the text (or a constant that the addition of zero keeps) and nodes met again are available there (a certificate of available nodes, as in the classical data-flow analysis). Wrong elsewhere: a variable assigned another variable or an operation already assigned is never defined; a node shared by two sibling blocks is generated in the first only; an assigned constant -0 becomes +0. Single assignment of the registers is proved for every function in static single assignment form."
  },
  {
   "property": "C115",
   "status": "partial",
   "theorems": [
    "Verif.ChkPass.C115_first_check",
    "Verif.ChkPass.C115_first_check_ends",
    "Verif.ChkPass.C115_second_check_wrong",
    "Verif.ChkPass.C115_support_partial",
    "Verif.ChkPass.C115_support_ends",
    "Verif.ChkPass.C115_language_wrong",
    "Verif.ChkPass.C115_cycle_wrong"
   ],
   "note": "The first execution of the generic check is right on every finite graph, cycles included, and ends; the check of the support is right for C and ends on every graph without cycles. Wrong: a second execution of the same pass gives the check of the root alone; the language is not passed below the root; the check of the support never ends on a cycle."
  },
  {
   "property": "C116",
   "status": "partial",
   "theorems": [
    "Verif.Vhdl.C116_addsub_partial",
    "Verif.Vhdl.C116_add_mixed_wrong",
    "Verif.Vhdl.C116_add_unsigned_wrong",
    "Verif.Vhdl.C116_mul_partial",
    "Verif.Vhdl.C116_mul_wrong",
    "Verif.Vhdl.C116_conversion",
    "Verif.Vhdl.C116_negation",
    "Verif.Vhdl.C116_comparison",
    "Verif.Vhdl.C116_equal_partial",
    "Verif.Vhdl.C116_equal_wrong",
    "Verif.Vhdl.C116_shift_right_partial",
    "Verif.Vhdl.C116_shift_arith_partial",
    "Verif.Vhdl.C116_shift_left",
    "Verif.Vhdl.C116_shift_right_wrong",
    "Verif.Vhdl.C116_shift_arith_wrong",
    "Verif.Vhdl.C116_shift_constant_partial",
    "Verif.Vhdl.C116_shift_constant_wrong"
   ],
   "note": "Right for all formats: conversion, negation, order comparison, left shift by a signal. Right under conditions on the formats: addition, subtraction, multiplication, equality, right shifts, shifts by a constant. Wrong: adding a signed and an unsigned operand of equal size with a wider signed result; adding or multiplying unsigned operands with a wider signed result; equality between different formats; right shift to a narrower format; arithmetic shift of an unsigned number; shift by a constant between different formats."
  },
  {
   "property": "C117",
   "status": "partial",
   "theorems": [
    "Verif.Gappa.C117_bound_partial",
    "Verif.Gappa.C117_division_wrong",
    "Verif.Gappa.C117_negation_wrong",
    "Verif.Gappa.C117_conversion_wrong",
    "Verif.Gappa.C117_same_tag_wrong",
    "Verif.Gappa.C117_tag_wrong",
    "Verif.Gappa.C117_quantized_wrong",
    "Verif.Gappa.C117_first_version_wrong",
    "Verif.Gappa.C117_cases_partial",
    "Verif.Gappa.C117_cases_wrong",
    "Verif.Gappa.C117_interval_partial",
    "Verif.Gappa.C117_interval_wrong"
   ],
   "note": "Proved for graphs of additions, subtractions, multiplications, fused operations and integer roundings whose names do not coincide. The code is wrong for divisions (never rounded in the script), negations and conversions (still rounded in the exact graph), equal tags, operations tagged like a variable, approximate variables (the exact value is taken to be a number of the format), the first version of the function (always zero), the intervals left in the variables after a split into cases, and the last rounding of a node whose interval is asked for."
  },
  {
   "property": "C118",
   "status": "partial",
   "theorems": [
    "Verif.Mll.C118_constant",
    "Verif.Mll.C118_format",
    "Verif.Mll.C118_constant_format_partial",
    "Verif.Mll.C118_constant_format_wrong",
    "Verif.Mll.C118_binary32_wrong",
    "Verif.Mll.C118_variable",
    "Verif.Mll.C118_horner_partial",
    "Verif.Mll.C118_target_wrong",
    "Verif.Mll.C118_cancellation_wrong",
    "Verif.Mll.C118_missing_wrong",
    "Verif.Mll.C118_budget_wrong",
    "Verif.Mll.C118_choice_partial",
    "Verif.Mll.C118_descriptor_wrong"
   ],
   "note": "Proved: constants, formats and the conversion of the variable, and an error of at most 3/2 of the target when the monomials have the same sign. The code is wrong about the target itself (the shares add up to more), about cancellation (any relative error), about polynomials without some coefficient (failure), about constants that need more than three words or a binary32 context, about the budget of products (the assertion holds only when there is no budget) and about the descriptor after a renormalization of the result."
  },
  {
   "property": "C119",
   "status": "partial",
   "theorems": [
    "Verif.FastTrig.C119_accuracy_partial",
    "Verif.FastTrig.C119_negative_value_wrong",
    "Verif.FastTrig.C119_negative_wrong",
    "Verif.FastTrig.C119_small_interval_wrong",
    "Verif.FastTrig.C119_tiny_wrong"
   ],
   "note": "Proved, with the operations of the fixed-point backend, for intervals that end at 2 and for tables without negative values, for nonnegative inputs: the error is at most the approximation errors and 12 units. The code is wrong for negative table values on intervals that end at 4 or later (off by 4: the value is shifted as an unsigned number), for negative inputs and the end of the interval (access outside of the table), for intervals that end at 1/2 or earlier (the format cannot hold the cosine), and for tiny inputs of the sine when a relative accuracy is asked for."
  },
  {
   "property": "C120",
   "status": "partial",
   "theorems": [
    "Verif.Mask.C120_lanes_partial",
    "Verif.Mask.C120_opencl",
    "Verif.Mask.C120_not_equal_wrong",
    "Verif.Mask.C120_not_assembled_wrong",
    "Verif.Mask.C120_select_partial",
    "Verif.Mask.C120_lib_test",
    "Verif.Mask.C120_lib_test_wrong",
    "Verif.Mask.C120_expand",
    "Verif.Mask.C120_test_partial",
    "Verif.Mask.C120_any_difference_wrong"
   ],
   "note": "Proved for all expressions without `not equal` and without negations of assembled scalars in C, and without exceptions but `not equal` in OpenCL; selections, mask tests of the support library and their expansion included. Wrong: `not equal` is generated as `==` for vectors, the negation of an assembled scalar (`~1`) is true, and the support library has no tests for three lanes and for 64-bit masks."
  },
  {
   "property": "C121",
   "status": "partial",
   "theorems": [
    "Verif.VecTable.C121_lanes_partial",
    "Verif.VecTable.C121_three_wrong",
    "Verif.VecTable.C121_shift_wrong",
    "Verif.VecTable.C121_cast_wrong",
    "Verif.VecTable.C121_convert_wrong",
    "Verif.VecTable.C121_exponent_wrong"
   ],
   "note": "Proved for all entries but those listed, for any scalar functions. Wrong: all vectors of three lanes (their types do not exist in the support library); the logic shift to the right of signed lanes (arithmetic) and the arithmetic one of unsigned lanes (logic); casts between signed and unsigned vectors of eight lanes and the conversion of eight 64-bit unsigned integers to 32 bits (only four lanes are written); exponents of binary64 vectors as 32-bit integers (the function writes 64-bit integers)."
  },
  {
   "property": "C122",
   "status": "partial",
   "theorems": [
    "Verif.Recip.C122_faithful_partial",
    "Verif.Recip.C122_nearest_partial",
    "Verif.Recip.C122_nearest_wrong",
    "Verif.Recip.C122_large_wrong",
    "Verif.Recip.C122_small_wrong",
    "Verif.Recip.C122_nan_wrong",
    "Verif.Recip.C122_special_wrong",
    "Verif.Recip.C122_double_wrong",
    "Verif.Recip.C122_narrow_wrong"
   ],
   "note": "In single precision, when the input and its reciprocal are normal: the result is a number within one unit in the last place (C122_faithful_partial), and the nearest number unless the significand divides one of the seven integers before 2^48 (C122_nearest_partial). The rest is false: significands that divide 2^48-1 and are 3 modulo 4 are rounded wrongly (C122_nearest_wrong), inputs above 2^127 give no number (C122_large_wrong), inputs from 9/8*2^126 to 2^127 give too small numbers (C122_small_wrong), NaN gives a number (C122_nan_wrong), infinities, zeros and subnormal inputs are wrong (C122_special_wrong), double precision loses bits (C122_double_wrong), half precision and bfloat16 have no legal circuit (C122_narrow_wrong)."
  },
  {
   "property": "C123",
   "status": "partial",
   "theorems": [
    "Verif.Mprec.C123_split",
    "Verif.Mprec.C123_split_single",
    "Verif.Mprec.C123_sum",
    "Verif.Mprec.C123_fastsum",
    "Verif.Mprec.C123_fastsum_wrong",
    "Verif.Mprec.C123_product_partial",
    "Verif.Mprec.C123_product_wrong",
    "Verif.Mprec.C123_add",
    "Verif.Mprec.C123_addpairs",
    "Verif.Mprec.C123_addition",
    "Verif.Mprec.C123_exact",
    "Verif.Mprec.C123_fmapair_partial",
    "Verif.Mprec.C123_fma_partial",
    "Verif.Mprec.C123_fma_wrong",
    "Verif.Mprec.C123_split_finite_partial",
    "Verif.Mprec.C123_product_finite_partial",
    "Verif.Mprec.C123_overflow_wrong"
   ],
   "note": "Exact sums, splits and the accuracy of all additions are proved in full for doubles with gradual underflow; the product is exact iff it is a multiple of 2^-1074. False: ml_fma is not correctly rounded for any tie rule, the fast sum under its documented hypothesis x >= y, the product when it underflows, splitting (also the 'safe' one) and products from 2^997 on. Overflow is modelled for the splitting and the product only."
  },
  {
   "property": "C124",
   "status": "partial",
   "theorems": [
    "Verif.Rvv.C124_compiles",
    "Verif.Rvv.C124_lanes_partial",
    "Verif.Rvv.C124_rounding_partial",
    "Verif.Rvv.C124_floor_wrong",
    "Verif.Rvv.C124_conversion_wrong",
    "Verif.Rvv.C124_large_wrong",
    "Verif.Rvv.C124_negation",
    "Verif.Rvv.C124_function_wrong",
    "Verif.Rvv.C124_index",
    "Verif.Rvv.C124_index_wrong",
    "Verif.Rvv.C124_seed"
   ],
   "note": "C124_lanes_partial: expressions of any size, except the floor, the conversion of floats to integers and the combinations that do not compile (C124_compiles says exactly which: fused operations on integers, arithmetic shift, minimum and maximum of unsigned, negation of unsigned to unsigned, conversion of unsigned to float; C124_function_wrong). C124_floor_wrong: the floor of negative numbers is one too large. C124_conversion_wrong: the conversion to integers rounds to nearest where the C one truncates. C124_large_wrong: floats beyond the integers of the width are all rounded to one number. C124_index_wrong: an index whose width is not the one of the table elements is scaled by the wrong size."
  },
  {
   "property": "C125",
   "status": "partial",
   "theorems": [
    "Verif.Exp2i.C125_value",
    "Verif.Exp2i.C125_exact_partial",
    "Verif.Exp2i.C125_clamp_wrong",
    "Verif.Exp2i.C125_legalized_wrong"
   ],
   "note": "The value for every input, the exact set of inputs for which it is right, and two refutations: gradual underflow and overflow are not handled (C125_clamp_wrong), and the expansion of the insertion ignores the specifier that says the exponent is biased already (C125_legalized_wrong)."
  },
  {
   "property": "C126",
   "status": "proved",
   "theorems": [
    "Verif.Promo.C126_expression",
    "Verif.Promo.C126_statement"
   ],
   "note": "Graphs are their trees of operands: the memoization and the rewriting of unsupported nodes in place are not modelled."
  },
  {
   "property": "C127",
   "status": "proved",
   "theorems": [
    "Verif.ErrEval.C127_reports",
    "Verif.ErrEval.C127_unique",
    "Verif.ErrEval.C127_unknown"
   ],
   "note": "The memoization map and the map of reports are threaded through the recursions as in the code. The functions of the operations are parameters; the text of the printed statement is not modelled."
  },
  {
   "property": "C128",
   "status": "partial",
   "theorems": [
    "Verif.VBool.C128_uniform_partial",
    "Verif.VBool.C128_idempotent",
    "Verif.VBool.C128_mixed_wrong",
    "Verif.VBool.C128_test_wrong",
    "Verif.VBool.C128_width_wrong",
    "Verif.VBool.C128_assembling_wrong"
   ],
   "note": "Proved for graphs with one lane width; idempotence for all graphs; four refutations (mixed widths, other tests, other widths, assembling). Graphs are their trees of operands."
  },
  {
   "property": "C129",
   "status": "partial",
   "theorems": [
    "Verif.FctExpr.C129_generated_code",
    "Verif.FctExpr.C129_value_unique",
    "Verif.FctExpr.C129_variables",
    "Verif.FctExpr.C129_skipped_variable_wrong",
    "Verif.FctExpr.C129_atan2_partial",
    "Verif.FctExpr.C129_atan2_wrong"
   ],
   "note": "The code is proved right for every accepted expression. Expressions which skip a variable are refused (C129_skipped_variable_wrong) and the reference value of atan2 is wrong in the whole left half-plane (C129_atan2_wrong). The text of the expression is modelled after Python's parser."
  },
  {
   "property": "C130",
   "status": "partial",
   "theorems": [
    "Verif.Tags.C130_tagged",
    "Verif.Tags.C130_distinct_partial",
    "Verif.Tags.C130_unique",
    "Verif.Tags.C130_same_name_wrong",
    "Verif.Tags.C130_user_tag_wrong",
    "Verif.Tags.C130_debug"
   ],
   "note": "Uniqueness of the tags fails: Loop and RangeLoop bear the same class name (C130_same_name_wrong) and a user tag of the form name_number is given again (C130_user_tag_wrong). Everything else is proved."
  },
  {
   "property": "C131",
   "status": "partial",
   "theorems": [
    "Verif.LogFx.C131_reduction",
    "Verif.LogFx.C131_table_length",
    "Verif.LogFx.C131_one_step",
    "Verif.LogFx.C131_parameters",
    "Verif.LogFx.C131_datapath_partial",
    "Verif.LogFx.C131_datapath_parameters",
    "Verif.LogFx.C131_cut_wrong",
    "Verif.LogFx.C131_tables_wrong",
    "Verif.LogFx.C131_exponent_wrong",
    "Verif.LogFx.C131_special_partial"
   ],
   "note": "The reduction is proved for all parameters. The generated function is not a logarithm: no table entry is the inverse it stands for and the last ones are unset (C131_tables_wrong), the exponent is not used (C131_exponent_wrong), y is cut when prec2 < prec1 (C131_cut_wrong), and zero, infinities, negative and subnormal arguments get no value (C131_special_partial)."
  },
  {
   "property": "C132",
   "status": "partial",
   "theorems": [
    "Verif.VLog.C132_normalization",
    "Verif.VLog.C132_reduction",
    "Verif.VLog.C132_sum_partial",
    "Verif.VLog.C132_vector_binary64_wrong",
    "Verif.VLog.C132_table_loads",
    "Verif.VLog.C132_zero_wrong",
    "Verif.VLog.C132_fine_table_wrong"
   ],
   "note": "With a vector backend and binary64 every result is too small by the logarithm of two (C132_vector_binary64_wrong); zero is treated as subnormal with a shift amount larger than the integer (C132_zero_wrong); tables finer than the reciprocal give a wrong index (C132_fine_table_wrong). Polynomial, roundings of the double-word sums and arguments with the sign bit set are not modelled."
  },
  {
   "property": "C133",
   "status": "partial",
   "theorems": [
    "Verif.RtlSw.C133_format",
    "Verif.RtlSw.C133_format_other",
    "Verif.RtlSw.C133_container",
    "Verif.RtlSw.C133_wide_wrong",
    "Verif.RtlSw.C133_pass_partial",
    "Verif.RtlSw.C133_again",
    "Verif.RtlSw.C133_scheme_partial",
    "Verif.RtlSw.C133_scheme_wrong",
    "Verif.RtlSw.C133_kept_wrong",
    "Verif.RtlSw.C133_copy_wrong"
   ],
   "note": "A function whose root has a hardware format has its scheme replaced by the format (C133_scheme_wrong). Calls, tables of the first kind and signed or unsigned hardware integers keep their hardware format (C133_kept_wrong). Vectors of more than 128 bits get a format without C type (C133_wide_wrong). A copy of a translated table has the hardware format again (C133_copy_wrong). Everything else is proved."
  },
  {
   "property": "C134",
   "status": "partial",
   "theorems": [
    "Verif.Extern.C134_call_partial",
    "Verif.Extern.C134_call_site_partial",
    "Verif.Extern.C134_separate",
    "Verif.Extern.C134_no_format",
    "Verif.Extern.C134_names_partial",
    "Verif.Extern.C134_same_name_wrong",
    "Verif.Extern.C134_return_partial",
    "Verif.Extern.C134_no_return_wrong",
    "Verif.Extern.C134_table_argument_wrong",
    "Verif.Extern.C134_mutable_table_wrong",
    "Verif.Extern.C134_externalizer_wrong"
   ],
   "note": "Expressions only, no statements. An expression which is not an arithmetic operation gives a function which returns nothing (C134_no_return_wrong), a constant table given as argument is not replaced by its parameter (C134_table_argument_wrong), a table which is written is duplicated (C134_mutable_table_wrong), two parameters may have the same name (C134_same_name_wrong), and the method of the externalizer object always fails (C134_externalizer_wrong). Everything else is proved."
  },
  {
   "property": "C135",
   "status": "partial",
   "theorems": [
    "Verif.LogRep.C135_error_stops",
    "Verif.LogRep.C135_text",
    "Verif.LogRep.C135_shown",
    "Verif.LogRep.C135_enabled",
    "Verif.LogRep.C135_errors_shown",
    "Verif.LogRep.C135_other_levels_partial",
    "Verif.LogRep.C135_braces_wrong",
    "Verif.LogRep.C135_sub_level_wrong"
   ],
   "note": "A message with a brace in it is harmless when its level is hidden and stops the generator when it is shown (C135_braces_wrong). A sub-level of the error level is shown as an error but returns (C135_sub_level_wrong). Everything else is proved."
  },
  {
   "property": "C136",
   "status": "partial",
   "theorems": [
    "Verif.Stages.C136_stages",
    "Verif.Stages.C136_all_defined",
    "Verif.Stages.C136_unshared_partial",
    "Verif.Stages.C136_shared_wrong",
    "Verif.Stages.C136_execute_wrong",
    "Verif.Stages.C136_execute_partial"
   ],
   "note": "A shared operand gets the stage of the user met first, which can be later than the stage of another user (C136_shared_wrong); proved in order when nothing is shared. The pass passes its map in place of the stage, so a design whose root has no stage gets an empty dictionary for every undefined stage (C136_execute_wrong); proved to give numbers when the root has a number."
  },
  {
   "property": "C137",
   "status": "partial",
   "theorems": [
    "Verif.FnGroup.C137_applied",
    "Verif.FnGroup.C137_growing",
    "Verif.FnGroup.C137_added_wrong",
    "Verif.FnGroup.C137_merge_partial",
    "Verif.FnGroup.C137_merge_same_wrong",
    "Verif.FnGroup.C137_by_name",
    "Verif.FnGroup.C137_merge_names",
    "Verif.FnGroup.C137_merge_names_wrong",
    "Verif.FnGroup.C137_file",
    "Verif.FnGroup.C137_main"
   ],
   "note": "Functions added to the list being gone through are reached (C137_growing); a sub-function added while core functions are processed is not (C137_added_wrong). Merging a group which holds the same list does not end (C137_merge_same_wrong). A core function of the merged group can be hidden by a sub-function of that group with the same name (C137_merge_names_wrong)."
  },
  {
   "property": "C138",
   "status": "partial",
   "theorems": [
    "Verif.Entity.C138_stage",
    "Verif.Entity.C138_single",
    "Verif.Entity.C138_stage_kept",
    "Verif.Entity.C138_stage_wrong",
    "Verif.Entity.C138_no_stage_wrong",
    "Verif.Entity.C138_ports",
    "Verif.Entity.C138_names_partial",
    "Verif.Entity.C138_same_name_wrong",
    "Verif.Entity.C138_reserved_partial",
    "Verif.Entity.C138_reserved_wrong"
   ],
   "note": "Stages are right for the entity made last, or which has called instanciate_dyn_attributes since (C138_stage, C138_single); after a sub-entity is made, an entity which does not call it, as in ml_fp_gen_adder.py, no longer places its nodes (C138_stage_wrong). A node made before any entity has no stage (C138_no_stage_wrong). Two inputs, or an input and an output, can have the same name (C138_same_name_wrong). The names of registered inputs are not reserved (C138_reserved_wrong)."
  },
  {
   "property": "C139",
   "status": "partial",
   "theorems": [
    "Verif.Comp.C139_ids",
    "Verif.Comp.C139_wiring_partial",
    "Verif.Comp.C139_separate",
    "Verif.Comp.C139_unknown",
    "Verif.Comp.C139_declared_partial",
    "Verif.Comp.C139_shared_wrong",
    "Verif.Comp.C139_same_name_wrong",
    "Verif.Comp.C139_missing_wrong"
   ],
   "note": "Distinct identifiers, separate operands per port and refusal of unknown ports are proved for all histories. The wiring is proved when each instance has its own dictionary; with a shared dictionary it is false (C139_shared_wrong). An input left without a signal is accepted (C139_missing_wrong). Declarations are proved for components with distinct names; with equal names the last one wins (C139_same_name_wrong)."
  },
  {
   "property": "C140",
   "status": "partial",
   "theorems": [
    "Verif.Exc.C140_same",
    "Verif.Exc.C140_typed",
    "Verif.Exc.C140_flags",
    "Verif.Exc.C140_removed",
    "Verif.Exc.C140_left",
    "Verif.Exc.C140_untyped_wrong"
   ],
   "note": "Proved for all programs whose operations on flags have been typed; for all programs, exactly the operations with an entry in the table are removed and the rest of the behaviour is the same. Operations whose format was not instantiated stay (C140_untyped_wrong). Missing: pre-statements of condition blocks, which the engine does not visit."
  },
  {
   "property": "C141",
   "status": "partial",
   "theorems": [
    "Verif.SBool.C141_same",
    "Verif.SBool.C141_width",
    "Verif.SBool.C141_chosen",
    "Verif.SBool.C141_succeeds_partial",
    "Verif.SBool.C141_root_partial",
    "Verif.SBool.C141_root_wrong",
    "Verif.SBool.C141_execute_partial",
    "Verif.SBool.C141_execute_wrong",
    "Verif.SBool.C141_width_wrong",
    "Verif.SBool.C141_mixed_wrong"
   ],
   "note": "Preservation, the width chosen and that none is left without a width are proved for all expressions on which the pass succeeds. It succeeds when the widths are 8, 16, 32 or 64; other widths raise a KeyError (C141_width_wrong). Operands of a connective can differ in width (C141_mixed_wrong). For some roots None is returned in place of the expression (C141_root_wrong, C141_execute_wrong)."
  },
  {
   "property": "C142",
   "status": "proved",
   "theorems": [
    "Verif.Tabs.C142_tables",
    "Verif.Tabs.C142_operands"
   ],
   "note": "Proved for all finite graphs, with the bound on the number of turns."
  },
  {
   "property": "C143",
   "status": "partial",
   "theorems": [
    "Verif.Acos.C143_outside_partial",
    "Verif.Acos.C143_domain_wrong",
    "Verif.Acos.C143_block_partial",
    "Verif.Acos.C143_block_wrong"
   ],
   "note": "The code returns a NaN for every input: right out of the domain, wrong for every number of it (C143_domain_wrong). The block which is built and dropped is right on the interval of its approximation only (C143_block_partial, C143_block_wrong). The polynomial is evaluated exactly in the model."
  },
  {
   "property": "C144",
   "status": "partial",
   "theorems": [
    "Verif.Disp.C144_words",
    "Verif.Disp.C144_history_partial",
    "Verif.Disp.C144_sign_wrong",
    "Verif.Disp.C144_wide_wrong",
    "Verif.Disp.C144_digits_wrong"
   ],
   "note": "Right for every history without a format of the same sizes and support and the other sign, for integers up to 64 bits and all fractions (C144_history_partial), and the words make the code for any number of words (C144_words). False otherwise: the map has no sign in its keys (C144_sign_wrong), wide integers use a conversion that does not exist (C144_wide_wrong), and the digits of the words are written without separation (C144_digits_wrong). Rounding of %e is not modelled."
  }
 ]
}