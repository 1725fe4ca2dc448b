{
 "claims": [
  {
   "property": "C01",
   "status": "partial",
   "theorems": [
    "RustSat.C01_lit_ipasir_roundtrip",
    "RustSat.C01_int_ipasir_roundtrip_partial",
    "RustSat.C01_zero_rejected",
    "RustSat.C01_violated_at_i32_min"
   ],
   "note": "Violated at i32::MIN: from_ipasir accepts it but to_ipasir panics. Everything else proved."
  },
  {
   "property": "C02",
   "status": "proved",
   "theorems": [
    "RustSat.C02_negation",
    "RustSat.C02_negation_adjacent",
    "RustSat.C02_negation_valid"
   ],
   "note": ""
  },
  {
   "property": "C03",
   "status": "partial",
   "theorems": [
    "RustSat.C03_constructors_partial",
    "RustSat.C03_violated_at_max"
   ],
   "note": "Violated at MAX_IDX by Lit::new (assert uses < instead of <=). Proved for every other index."
  },
  {
   "property": "C04",
   "status": "proved",
   "theorems": [
    "RustSat.C04_assignment_refines_map",
    "RustSat.C04_lit_value",
    "RustSat.C04_iter"
   ],
   "note": ""
  },
  {
   "property": "C05",
   "status": "partial",
   "theorems": [
    "RustSat.C05_sat_comp_vline_partial",
    "RustSat.C05_violated_conflict_missed",
    "RustSat.C05_violated_false_conflict"
   ],
   "note": "Violated: the conflict check compares the literal value instead of the variable value. Proved for lines without repeated variables."
  },
  {
   "property": "C06",
   "status": "proved",
   "theorems": [
    "RustSat.C06_normalize_none_iff",
    "RustSat.C06_normalize_none_iff_valid",
    "RustSat.C06_normalize_preserves",
    "RustSat.C06_normalize_canonical"
   ],
   "note": ""
  },
  {
   "property": "C07",
   "status": "proved",
   "theorems": [
    "RustSat.C07_sanitize_none_iff",
    "RustSat.C07_sanitize_preserves"
   ],
   "note": ""
  },
  {
   "property": "C08",
   "status": "proved",
   "theorems": [
    "RustSat.C08_evaluate",
    "RustSat.C08_remove",
    "RustSat.C08_remove_thorough",
    "RustSat.C08_is_tautology"
   ],
   "note": ""
  },
  {
   "property": "C09",
   "status": "partial",
   "theorems": [
    "RustSat.C09_invert_ub_partial",
    "RustSat.C09_invert_lb_partial",
    "RustSat.C09_violated_invert_panics",
    "RustSat.C09_split_eq",
    "RustSat.C09_into_clause",
    "RustSat.C09_normalize",
    "RustSat.C09_add_set_bound",
    "RustSat.C09_of_clause"
   ],
   "note": "Violated: inverting a bound larger than the number of literals underflows (panic). Proved otherwise."
  },
  {
   "property": "C10",
   "status": "proved",
   "theorems": [
    "RustSat.C10_is_tautology",
    "RustSat.C10_is_unsat",
    "RustSat.C10_is_positive_assignment",
    "RustSat.C10_is_negative_assignment",
    "RustSat.C10_classification_complete"
   ],
   "note": ""
  },
  {
   "property": "C11",
   "status": "proved",
   "theorems": [
    "RustSat.C11_new_signed",
    "RustSat.C11_new_unsigned",
    "RustSat.C11_weight_sum",
    "RustSat.C11_add_set_bound",
    "RustSat.C11_invert_split"
   ],
   "note": ""
  },
  {
   "property": "C12",
   "status": "proved",
   "theorems": [
    "RustSat.C12_is_tautology",
    "RustSat.C12_is_unsat",
    "RustSat.C12_is_positive_assignment",
    "RustSat.C12_is_negative_assignment",
    "RustSat.C12_is_card",
    "RustSat.C12_zero_weight_witness"
   ],
   "note": ""
  },
  {
   "property": "C13",
   "status": "partial",
   "theorems": [
    "RustSat.C13_normalize",
    "RustSat.C13_normalize_equal_sound",
    "RustSat.C13_violated_normalize_complete",
    "RustSat.C13_into_card_constr",
    "RustSat.C13_violated_zero_weight_panics",
    "RustSat.C13_extend_to_card_partial",
    "RustSat.C13_violated_extend_negative",
    "RustSat.C13_into_clause",
    "RustSat.C13_of_clause_of_card"
   ],
   "note": "Violated: extend_to_card_constr is silently wrong for negative bounds, into_card_constr divides by zero with only zero weights. Proved outside of these cases."
  },
  {
   "property": "C14",
   "status": "partial",
   "theorems": [
    "RustSat.C14_card_evaluate_partial",
    "RustSat.C14_violated_card_false",
    "RustSat.C14_pb_evaluate_partial",
    "RustSat.C14_violated_pb_false",
    "RustSat.C14_violated_pb_isize"
   ],
   "note": "Violated: Lb/Eq evaluation answers False when the bound equals the largest possible value although a completion satisfies it; PB sums above isize::MAX. Proved otherwise (soundness of True, exactness on total assignments)."
  },
  {
   "property": "C15",
   "status": "proved",
   "theorems": [
    "RustSat.C15_normalize_sanitize",
    "RustSat.C15_normalize_canonical",
    "RustSat.C15_connectives",
    "RustSat.C15_builders",
    "RustSat.C15_evaluate"
   ],
   "note": ""
  },
  {
   "property": "C16",
   "status": "partial",
   "theorems": [
    "RustSat.C16_sanitize_partial",
    "RustSat.C16_violated_panic",
    "RustSat.C16_violated_zero_weight"
   ],
   "note": "Violated: panics on Eq with a common weight not dividing the bound, and zero-weight Eq literals are forced. Proved for instances without such Eq constraints."
  },
  {
   "property": "C17",
   "status": "partial",
   "theorems": [
    "RustSat.C17_extend_partial",
    "RustSat.C17_extend_exact",
    "RustSat.C17_violated_extend",
    "RustSat.C17_extend_known",
    "RustSat.C17_add_constraints",
    "RustSat.C17_add_implications",
    "RustSat.C17_add_implications_known",
    "RustSat.C17_from_cnf",
    "RustSat.C17_violated_extend_clauses"
   ],
   "note": "Violated: extend drops the cardinality and PB constraints of the other instance; extending by clauses does not mark variables used. Proved: exact characterisation of what extend does, the add_* methods."
  },
  {
   "property": "C18",
   "status": "proved",
   "theorems": [
    "RustSat.C18_into_pbs"
   ],
   "note": ""
  },
  {
   "property": "C19",
   "status": "proved",
   "theorems": [
    "RustSat.C19_fresh",
    "RustSat.C19_fresh_basic",
    "RustSat.C19_fresh_reindexing",
    "RustSat.C19_fresh_object",
    "RustSat.C19_object_var"
   ],
   "note": ""
  },
  {
   "property": "C20",
   "status": "partial",
   "theorems": [
    "RustSat.C20_reindex_objective",
    "RustSat.C20_reindex_opt_instance",
    "RustSat.C20_reindex_calls",
    "RustSat.C20_reindex_lit",
    "RustSat.C20_reindex_instance",
    "RustSat.C20_reindex_ordered",
    "RustSat.C20_violated_new_var",
    "RustSat.C20_violated_forget",
    "RustSat.C20_violated_identity",
    "RustSat.C20_random"
   ],
   "note": "Violated when new_var/increase_next_free/forget_from are interleaved with reindex. Proved for all sequences of reindex calls, instance, objective and optimisation-instance re-indexing and random re-indexing."
  },
  {
   "property": "C21",
   "status": "partial",
   "theorems": [
    "RustSat.C21_history",
    "RustSat.C21_increase",
    "RustSat.C21_from_iterators",
    "RustSat.C21_representation",
    "RustSat.C21_bounds",
    "RustSat.C21_add_soft_lit_partial",
    "RustSat.C21_lit_weight_partial",
    "RustSat.C21_add_soft_clause_partial",
    "RustSat.C21_violated_duplicates"
   ],
   "note": "Violated by repeated literals in the unweighted representation: lit_weight and add_soft_lit only see one occurrence. Proved: all histories of increase_* calls, iterators, representation switches, and what add_soft_lit/add_soft_clause do relative to the weight they return."
  },
  {
   "property": "C22",
   "status": "proved",
   "theorems": [
    "RustSat.C22_into_soft_cls",
    "RustSat.C22_convert_to_soft_lits",
    "RustSat.C22_into_soft_lits",
    "RustSat.C22_into_unweighted_soft_lits"
   ],
   "note": ""
  },
  {
   "property": "C23",
   "status": "partial",
   "theorems": [
    "RustSat.C23_normalize_weighted_partial",
    "RustSat.C23_normalize_unweighted_partial",
    "RustSat.C23_violated_offset",
    "RustSat.C23_violated_panic",
    "RustSat.C23_violated_complement"
   ],
   "note": "Violated: offset lost when nothing else remains; panic without soft literals; complementary soft literals are miscounted. Proved outside of these cases."
  },
  {
   "property": "C24",
   "status": "proved",
   "theorems": [
    "RustSat.C24_single_clause",
    "RustSat.C24_multiple_clauses"
   ],
   "note": ""
  },
  {
   "property": "C25",
   "status": "partial",
   "theorems": [
    "RustSat.C25_lit_impl_card",
    "RustSat.C25_card_impl_lit_partial",
    "RustSat.C25_lit_impl_pb",
    "RustSat.C25_pb_impl_lit_partial",
    "RustSat.C25_violated_tautology"
   ],
   "note": "Violated for tautological upper bounds (card_impl_lit, pb_impl_lit). Proved for all other constraints and both directions."
  },
  {
   "property": "C26",
   "status": "proved",
   "theorems": [
    "RustSat.C26_at_most_one",
    "RustSat.C26_product_in_range",
    "RustSat.C26_chunks"
   ],
   "note": ""
  },
  {
   "property": "C27",
   "status": "partial",
   "theorems": [
    "RustSat.C27_adder_stats",
    "RustSat.C27_adder_vars",
    "RustSat.C27_am1_partial",
    "RustSat.C27_violated_repeat",
    "RustSat.C27_dpw_stats_partial",
    "RustSat.C27_violated_dpw_reserve",
    "RustSat.C27_dpw_vars",
    "RustSat.C27_gte_partial",
    "RustSat.C27_violated_gte_reserve",
    "RustSat.C27_totalizer_partial",
    "RustSat.C27_violated_reserve"
   ],
   "note": "At-most-one encoders: proved for one encode of a new encoder; violated when encoding twice (n_clauses is overwritten, n_vars accumulated). Totalizer and generalized totalizer: proved for all histories without reserve; violated by reserve, whose variables are not counted. Binary adder: proved for all histories. Dynamic polynomial watchdog (including increased precision): clauses exact in all histories, variables exact without reserve, violated by reserve."
  },
  {
   "property": "C28",
   "status": "proved",
   "theorems": [
    "RustSat.C28_upper_bound",
    "RustSat.C28_clauses_of_call",
    "RustSat.C28_no_panic",
    "RustSat.C28_enforce_total"
   ],
   "note": "All histories of extend, encode_ub, encode_ub_change, encode_lb, encode_lb_change, encode_both, reserve and other uses of the variable manager. Out-of-memory of collectors is not modelled."
  },
  {
   "property": "C29",
   "status": "proved",
   "theorems": [
    "RustSat.C29_lower_bound",
    "RustSat.C29_clauses_of_call",
    "RustSat.C29_unsat",
    "RustSat.C29_equality"
   ],
   "note": "As C28."
  },
  {
   "property": "C30",
   "status": "partial",
   "theorems": [
    "RustSat.C30_adder_refused_partial",
    "RustSat.C30_violated_adder_waiting",
    "RustSat.C30_dpw_precision_refused_partial",
    "RustSat.C30_dpw_refused_partial",
    "RustSat.C30_violated_dpw_reserve",
    "RustSat.C30_gte_partial",
    "RustSat.C30_violated_gte_added",
    "RustSat.C30_violated_gte_forgotten",
    "RustSat.C30_upper_totalizer_partial",
    "RustSat.C30_lower_totalizer_partial",
    "RustSat.C30_after_add_totalizer_partial"
   ],
   "note": "Totalizer: exact characterization over all histories. Generalized totalizer: covered bounds are available and bounds with an unencoded literal of at most the bound's weight are refused; strict refusal and persistence are violated (C30_violated_gte_*). Binary adder: exact if no literals wait, violated otherwise (C30_violated_adder_waiting). Dynamic polynomial watchdog: covered bounds are available, nothing is accepted before encoding or after changing the precision; violated after reserve (C30_violated_dpw_reserve)."
  },
  {
   "property": "C31",
   "status": "proved",
   "theorems": [
    "RustSat.TotDb.C31_galois",
    "RustSat.TotDb.C31_beyond_limit",
    "RustSat.TotDb.C31_possible",
    "RustSat.TotDb.C31_con_len"
   ],
   "note": ""
  },
  {
   "property": "C32",
   "status": "partial",
   "theorems": [
    "RustSat.TotDb.C32_lit_tree",
    "RustSat.TotDb.C32_lit_tree_empty",
    "RustSat.TotDb.C32_weighted_lit_tree",
    "RustSat.TotDb.C32_violated_zero_weight",
    "RustSat.TotDb.C32_merge",
    "RustSat.TotDb.C32_merge_balanced",
    "RustSat.TotDb.C32_merge_thorough",
    "RustSat.TotDb.C32_wf_empty",
    "RustSat.TotDb.C32_general_values"
   ],
   "note": "Proved for positive weights; a literal of weight zero makes the construction panic (C32_violated_zero_weight). merge/merge_balanced are covered for full weighted connections and for unweighted connections with offset, divisor and limit to nodes with consecutive values; connections with offsets into generalized (weighted) nodes are not covered. merge_thorough: full weighted connections."
  },
  {
   "property": "C33",
   "status": "proved",
   "theorems": [
    "RustSat.C33_upper_bound",
    "RustSat.C33_available",
    "RustSat.C33_clauses_of_call",
    "RustSat.C33_no_panic",
    "RustSat.C33_enforce_total",
    "RustSat.C33_weight_sum",
    "RustSat.C33_zero_weight_panics"
   ],
   "note": "All histories of adding literals of positive weight, encoding, reserving and rehashing of the buffer; enforcing is sound, complete and panic-free."
  },
  {
   "property": "C34",
   "status": "partial",
   "theorems": [
    "RustSat.C34_no_panic_partial",
    "RustSat.C34_violated_reserve_panics",
    "RustSat.C34_upper_bound_partial",
    "RustSat.C34_upper_bound_available_partial",
    "RustSat.C34_upper_bound_complete",
    "RustSat.C34_lower_bound_sound",
    "RustSat.C34_lower_bound_complete_partial",
    "RustSat.C34_lower_bound_available_partial",
    "RustSat.C34_equality_partial",
    "RustSat.C34_violated_lb_then_ub",
    "RustSat.C34_violated_waiting",
    "RustSat.C34_violated_waiting_lb",
    "RustSat.C34_violated_skipped",
    "RustSat.C34_violated_reencode"
   ],
   "note": "All histories of adding literals of positive weight and all encode calls. Equality is sound and complete when no literals wait. Never excluding assignments by an upper bound and soundness of lower bounds hold in all histories; soundness of upper bounds needs that they are not encoded incrementally after lower bounds; completeness of lower bounds and soundness of upper bounds need that no literals wait. The excluded cases are violations with proved witnesses (C34_violated_*)."
  },
  {
   "property": "C35",
   "status": "partial",
   "theorems": [
    "RustSat.C35_no_panic_partial",
    "RustSat.C35_new_partial",
    "RustSat.C35_upper_bound_partial",
    "RustSat.C35_upper_bound_full_precision",
    "RustSat.C35_any_bound_partial",
    "RustSat.C35_complete_partial",
    "RustSat.C35_violated_reserve",
    "RustSat.C35_violated_single",
    "RustSat.C35_violated_coarse_panics",
    "RustSat.C35_violated_empty_panics",
    "RustSat.C35_violated_large_bound",
    "RustSat.C35_violated_extend_panics",
    "RustSat.C35_violated_extend_missing",
    "RustSat.C35_violated_extend_unsound",
    "RustSat.C35_next_precision",
    "RustSat.C35_violated_zero_weight"
   ],
   "note": "All histories of adding inputs one by one to an empty encoding or starting from given ones, choosing the precision before building, increasing it after building (merge_structures), encoding, reserving and other use of the variable manager. Full precision is proved completely for covered bounds; with a precision divisor at least two literals and a divisor of at most the largest weight are needed; precision increases must be at least a factor of 2 of the weights not yet merged (next_precision). Violations proved: bounds accepted after reserve without clauses, single literal, coarse precision panics, empty panics, zero weight panics, divisor zero after encoding panics, bounds in the range of encode_ub_change missing when nothing is left to merge, unsound bounds outside the range of encode_ub after an increase (so C35_any_bound_partial excludes increases)."
  },
  {
   "property": "C36",
   "status": "partial",
   "theorems": [
    "RustSat.C36_inverted_lower",
    "RustSat.C36_inverted_upper",
    "RustSat.C36_inverted_eq",
    "RustSat.C36_double",
    "RustSat.C36_double_available",
    "RustSat.C36_card",
    "RustSat.C36_double_gte_accepts",
    "RustSat.C36_double_gte",
    "RustSat.C36_violated_empty_range",
    "RustSat.C36_violated_unbounded"
   ],
   "note": "All simulators are proved lawful for any lawful inner encoder (Inverted, Double, CardSim) over all histories; two range computations violate availability (C36_violated_empty_range: empty range panics; C36_violated_unbounded: unbounded start excludes 0), so accepted ranges are a hypothesis."
  },
  {
   "property": "C37",
   "status": "partial",
   "theorems": [
    "RustSat.C37_card",
    "RustSat.C37_card_default",
    "RustSat.C37_card_inverted",
    "RustSat.C37_pb_partial",
    "RustSat.C37_pb_default_partial",
    "RustSat.C37_pb_card_partial",
    "RustSat.C37_violated_repeated",
    "RustSat.C37_violated_repeated_panics",
    "RustSat.C37_violated_indivisible",
    "RustSat.C37_violated_zero_weight",
    "RustSat.C37_dpw_ub_partial",
    "RustSat.C37_violated_dpw_zero_weight"
   ],
   "note": "Cardinality constraints: proved in full for every lawful encoding. PB constraints: proved for regular ones (positive weights, no repeated literals unless all weights equal, divisible equality); the code violates the property otherwise (C37_violated_*)."
  },
  {
   "property": "C38",
   "status": "partial",
   "theorems": [
    "RustSat.C38_partial",
    "RustSat.C38_violated_unknown"
   ],
   "note": "Proved for instances with known variables and regular PB constraints; violated otherwise (C38_violated_unknown, C37_violated_*)."
  },
  {
   "property": "C39",
   "status": "partial",
   "theorems": [
    "RustSat.C39_gte_partial",
    "RustSat.C39_adder_partial",
    "RustSat.C39_reported_cost",
    "RustSat.C39_violated_no_vars_unsat",
    "RustSat.C39_violated_no_vars_cost",
    "RustSat.C39_violated_duplicates",
    "RustSat.C39_violated_unknown_vars",
    "RustSat.C39_violated_dont_care",
    "RustSat.C39_violated_zero_weight"
   ],
   "note": "Proved for the generalized totalizer and the binary adder, arbitrary correct solvers (any model may be returned at each call) and any traversal order of hash maps, for objectives of distinct literals with positive weights whose variables the solver knows. The excluded cases are shown to be violated by the code."
  },
  {
   "property": "C40",
   "status": "partial",
   "theorems": [
    "RustSat.C40_partial",
    "RustSat.C40_violated_soft_clause",
    "RustSat.C40_violated_objective_vars"
   ],
   "note": "Proved for objectives of soft literals only, under the conditions of C39. Soft clauses get the relaxation literal in the wrong polarity (violation proved), objective-only variables clash (violation proved)."
  },
  {
   "property": "C41",
   "status": "partial",
   "theorems": [
    "RustSat.C41_layout",
    "RustSat.C41_round_trip",
    "RustSat.C41_read_instance",
    "RustSat.C41_instance",
    "RustSat.C41_requires_clausal",
    "RustSat.C41_write_lines_partial",
    "RustSat.C41_violated_header",
    "RustSat.C41_violated_comment",
    "RustSat.C41_violated_max_var",
    "RustSat.C41_violated_accepts_wcnf"
   ],
   "note": "Layout-independent: any file of the described shape (blank lines, comments, arbitrary spaces, carriage returns) is read as its header and clauses; written CNFs and instances are read back. write_cnf is only proved for clause lines: its header line lacks 'cnf' and its comments lack a line break (C41_violated_*). Literals of the last variable cannot be written (panic)."
  },
  {
   "property": "C42",
   "status": "partial",
   "theorems": [
    "RustSat.C42_layout",
    "RustSat.C42_old_format",
    "RustSat.C42_round_trip",
    "RustSat.C42_read_instance",
    "RustSat.C42_read_old_instance",
    "RustSat.C42_instance",
    "RustSat.C42_write_lines_partial",
    "RustSat.C42_violated_comment",
    "RustSat.C42_violated_from_lines",
    "RustSat.C42_violated_accepts_mcnf"
   ],
   "note": "Layout-independent reading of new and old WCNF files, round trips at data and instance level (objective equal up to the offset, which is only written as a comment). write_wcnf comments lack a line break and collecting WcnfLines replaces repeated soft clauses (C42_violated_*)."
  },
  {
   "property": "C43",
   "status": "partial",
   "theorems": [
    "RustSat.C43_layout",
    "RustSat.C43_round_trip",
    "RustSat.C43_read_instance",
    "RustSat.C43_instance_partial",
    "RustSat.C43_violated_empty_objective",
    "RustSat.C43_write_lines",
    "RustSat.C43_violated_from_lines"
   ],
   "note": "Layout-independent reading, round trips at data and instance level. Empty objectives at the end are lost and collecting McnfLines replaces repeated soft clauses (C43_violated_*)."
  },
  {
   "property": "C44",
   "status": "proved",
   "theorems": [
    "RustSat.C44_sat_instance",
    "RustSat.C44_opt_instance",
    "RustSat.C44_soft_clauses",
    "RustSat.C44_multi_instance",
    "RustSat.C44_write_lines"
   ],
   "note": "Round trip for decision, optimisation and multi-objective instances and for write_opb_lines, with and without negated literals, every first variable index; hypotheses: variables have a name and coefficients plus bound fit isize (otherwise the writer panics). Objectives come back up to a constant that is proved to be the one in the written comment."
  },
  {
   "property": "C45",
   "status": "partial",
   "theorems": [
    "RustSat.C45_layout_partial",
    "RustSat.C45_sat_instance_partial",
    "RustSat.C45_sat_objective",
    "RustSat.C45_opt_instance_partial",
    "RustSat.C45_opt_number",
    "RustSat.C45_multi_instance_partial",
    "RustSat.C45_same_order",
    "RustSat.C45_violated_lt",
    "RustSat.C45_violated_max_offset",
    "RustSat.C45_violated_panic"
   ],
   "note": "Proved for all file texts of the specification without `<`. Violated for `<` (read as <= b+1), for the offset of maximisation objectives with negative coefficients (order of solutions is still right), and by panics on numbers at the end of the machine range."
  },
  {
   "property": "C46",
   "status": "partial",
   "theorems": [
    "RustSat.C46_unsat",
    "RustSat.C46_unknown",
    "RustSat.C46_sat",
    "RustSat.C46_no_status",
    "RustSat.C46_no_values",
    "RustSat.C46_bad_status",
    "RustSat.C46_bad_values",
    "RustSat.C46_assignment",
    "RustSat.C46_values_partial",
    "RustSat.C46_values_meaning",
    "RustSat.C46_bits_partial",
    "RustSat.C46_violated_single",
    "RustSat.C46_violated_zero",
    "RustSat.C46_violated_conflict",
    "RustSat.C46_violated_panic"
   ],
   "note": "Verdicts characterised exactly (if and only if) for every text: unsat, unknown, sat, and each error. Value lines in SAT/PB competition format listing distinct variables and MaxSAT Evaluation lines are read back exactly. Violations: a value line with a single number made of digits 0/1 is misread as bits; `v 0` as empty list; contradictory literals accepted; an overlong PB variable index panics."
  },
  {
   "property": "C47",
   "status": "proved",
   "theorems": [
    "RustSat.C47_objective_evaluate",
    "RustSat.C47_cost",
    "RustSat.C47_cost_incomplete",
    "RustSat.C47_objective_lower_bound"
   ],
   "note": ""
  },
  {
   "property": "C48",
   "status": "partial",
   "theorems": [
    "RustSat.C48_opt_partial",
    "RustSat.C48_multi_partial",
    "RustSat.C48_violated_opt",
    "RustSat.C48_violated_multi"
   ],
   "note": "Proved for instances whose variable manager knows the objective variables, or (one objective) without constraints to encode. Two clashes of variables in other cases are proved as violations."
  },
  {
   "property": "C49",
   "status": "proved",
   "theorems": [
    "RustSat.C49_evaluate_total",
    "RustSat.C49_evaluate_sound"
   ],
   "note": ""
  },
  {
   "property": "C50",
   "status": "proved",
   "theorems": [
    "RustSat.C50_digits",
    "RustSat.C50_digits_unary"
   ],
   "note": ""
  },
  {
   "property": "C51",
   "status": "proved",
   "theorems": [
    "RustSat.C51_next_higher",
    "RustSat.C51_next_lower",
    "RustSat.C51_needs_all_included"
   ],
   "note": "Generalized totalizer; for literals still in the buffer values are skipped (C51_needs_all_included)."
  },
  {
   "property": "C52",
   "status": "partial",
   "theorems": [
    "RustSat.C52_violated_from_iter",
    "RustSat.C52_add_partial"
   ],
   "note": "Adding to an existing generalized totalizer is proved; creation from an iterator is violated (a hash map keeps only the last weight)."
  },
  {
   "property": "C53",
   "status": "partial",
   "theorems": [
    "RustSat.C53_limit_range_partial",
    "RustSat.C53_violated_all_true",
    "RustSat.C53_violated_precision"
   ],
   "note": "Full precision proved for values below the sum of weights; violated for the sum of all weights (C53_violated_all_true) and below full precision (C53_violated_precision)."
  },
  {
   "property": "C54",
   "status": "proved",
   "theorems": [
    "RustSat.C54_coarse_ub_le",
    "RustSat.C54_coarse_ub_easy"
   ],
   "note": "Dynamic polynomial watchdog; the default implementation of the trait is the identity."
  },
  {
   "property": "C55",
   "status": "proved",
   "theorems": [
    "RustSat.C55_gte",
    "RustSat.C55_adder",
    "RustSat.C55_totalizer",
    "RustSat.C55_dpw_not_monotone"
   ],
   "note": "Proved for all three encodings over all histories of adding literals, encoding upper bounds and enforcing them permanently. Also proved: the dynamic polynomial watchdog is not monotone."
  },
  {
   "property": "C56",
   "status": "partial",
   "theorems": [
    "RustSat.C56_solve_partial",
    "RustSat.C56_assumps_partial",
    "RustSat.C56_core",
    "RustSat.C56_no_failure",
    "RustSat.C56_statistics",
    "RustSat.C56_violated_assumptions_remain",
    "RustSat.C56_violated_clauses_missing",
    "RustSat.C56_violated_count",
    "RustSat.C56_violated_max_var"
   ],
   "note": "Correctness is proved for all histories without failures (C56_solve_partial, C56_assumps_partial), and that failures only come from the wrapped solver. After a failure the answers may be wrong, which is proved as violations, and so are two wrong statistics."
  },
  {
   "property": "C57",
   "status": "proved",
   "theorems": [
    "RustSat.C57_input",
    "RustSat.C57_solve",
    "RustSat.C57_once",
    "RustSat.C57_solution"
   ],
   "note": "Proved for all programs as functions from the input text to exit code and output. Starting a process, pipes, temporary files and paths are not modelled."
  },
  {
   "property": "C58",
   "status": "partial",
   "theorems": [
    "RustSat.C58_clauses",
    "RustSat.C58_instance",
    "RustSat.C58_violated_until_zero"
   ],
   "note": "Proved for every correct incremental solver and every limit except 0, which is a violation. File formats and printing are not part of it."
  },
  {
   "property": "C60",
   "status": "partial",
   "theorems": [
    "RustSat.C60_read",
    "RustSat.C60_check",
    "RustSat.C60_incomplete",
    "RustSat.C60_violated_incomplete"
   ],
   "note": "Proved for solutions that list all variables (C60_check), and bounds for the others (C60_incomplete); for them the printed values need not be those of any solution, which is proved as a violation."
  },
  {
   "property": "C59",
   "status": "partial",
   "theorems": [
    "RustSat.C59_optimum",
    "RustSat.C59_cnf2opb",
    "RustSat.C59_wcnf2opb",
    "RustSat.C59_mcnf2opb",
    "RustSat.C59_opb2cnf_partial",
    "RustSat.C59_opb2wcnf_partial",
    "RustSat.C59_opb2mcnf_partial",
    "RustSat.C59_opb2wcnf_printed",
    "RustSat.C59_opb2mcnf_printed",
    "RustSat.C59_violated_first_var_idx",
    "RustSat.C59_violated_stdout",
    "RustSat.C59_violated_panic"
   ],
   "note": "Proved for all readable inputs of cnf2opb, wcnf2opb and mcnf2opb whose numbers fit, and for the opb2* tools only with --first-var-idx 0, an output file, and constraints for which the default encodings are correct; the other cases are violations."
  },
  {
   "property": "C61",
   "status": "partial",
   "theorems": [
    "RustSat.C61_operations_partial",
    "RustSat.C61_empty_partial",
    "RustSat.C61_violated_weaken",
    "RustSat.C61_violated_weaken_always"
   ],
   "note": "Proved for all operations but weakening. Weakening is violated: weaken() has no operand for the variable, so that no weakened sequence is accepted."
  },
  {
   "property": "C62",
   "status": "proved",
   "theorems": [
    "RustSat.C62_ids",
    "RustSat.C62_models",
    "RustSat.C62_contradiction"
   ],
   "note": "Proved for pol, rup, red and del lines with absolute ids; the checker in Spec/VeriPb.lean is the specification of acceptance."
  },
  {
   "property": "C63",
   "status": "proved",
   "theorems": [
    "RustSat.C63_no_panic",
    "RustSat.C63_accepted",
    "RustSat.C63_same",
    "RustSat.C63_models"
   ],
   "note": "Proved for all histories of certified calls and user lines. The number of literals is below isize::MAX. Lines of the user must not use variables of the encoder that are not in the proof yet."
  },
  {
   "property": "C64",
   "status": "proved",
   "theorems": [
    "RustSat.C64_encode",
    "RustSat.C64_models",
    "RustSat.C64_same"
   ],
   "note": "Proved for all cardinality constraints with fewer than isize::MAX literals and all nestings of Inverted and Double around the totalizer."
  },
  {
   "property": "C65",
   "status": "partial",
   "theorems": [
    "RustSat.C65_direct_partial",
    "RustSat.C65_trivial_partial",
    "RustSat.C65_violated_no_structure",
    "RustSat.C65_violated_inverted"
   ],
   "note": "Partial: proved for at least two literals and bounds for which structure is built. Violated otherwise: the totalizer panics when no structure is built, Inverted panics for bounds above the number of literals."
  },
  {
   "property": "C66",
   "status": "proved",
   "theorems": [
    "RustSat.C66_no_panic",
    "RustSat.C66_accepted",
    "RustSat.C66_same",
    "RustSat.C66_models"
   ],
   "note": "Proved for all histories of certified calls and user lines. The sum of the weights is below isize::MAX. Lines of the user must not use variables of the encoder that are not in the proof yet."
  },
  {
   "property": "C67",
   "status": "partial",
   "theorems": [
    "RustSat.C67_encode_partial",
    "RustSat.C67_default_partial",
    "RustSat.C67_card_partial",
    "RustSat.C67_models_partial",
    "RustSat.C67_violated_no_output",
    "RustSat.C67_violated_multiplier",
    "RustSat.C67_violated_cardinality",
    "RustSat.C67_violated_negative"
   ],
   "note": "Partial: proved for the constraints characterised by Certifiable. Violated otherwise: the generalized totalizer panics when the small weights cannot exceed the bound together, derives a wrong constraint when all weights (or all weights below the bound) are equal and not one, and an equality with negative bound gives a rejected proof."
  },
  {
   "property": "C68",
   "status": "partial",
   "theorems": [
    "RustSat.C68_no_panic",
    "RustSat.C68_accepted",
    "RustSat.C68_lower_bound",
    "RustSat.C68_available_partial",
    "RustSat.C68_violated_all_true"
   ],
   "note": "Partial: availability is proved for bounds below the sum of the weights. Violated for the bound that requires all literals: the range is prepared as for upper bounds. Everything else is proved in full."
  },
  {
   "property": "C69",
   "status": "proved",
   "theorems": [
    "RustSat.C69_solve",
    "RustSat.C69_assumps",
    "RustSat.C69_errors",
    "RustSat.C69_states",
    "RustSat.C69_no_failure",
    "RustSat.C69_statistics"
   ],
   "note": "Proved in full for literals that fit a C integer; the library is a hypothesis (class LawfulIpasir), met by a small library in Lemmas/BindingsToy."
  },
  {
   "property": "C70",
   "status": "partial",
   "theorems": [
    "RustSat.C70_solve_partial",
    "RustSat.C70_assumps_partial",
    "RustSat.C70_simplify_partial",
    "RustSat.C70_simplify_assumps_partial",
    "RustSat.C70_states_partial",
    "RustSat.C70_violated_simplify_assumps",
    "RustSat.C70_violated_simplify",
    "RustSat.C70_violated_tmp_clause",
    "RustSat.C70_violated_count"
   ],
   "note": "Partial: violated in four ways (simplify_assumps after Sat and with Unsat, simplify after Unsat under assumptions, solve after Unsat because of a temporary clause, count of clauses). Proved for all other histories. The histories include propagating assumptions."
  },
  {
   "property": "C71",
   "status": "partial",
   "theorems": [
    "RustSat.C71_solve_partial",
    "RustSat.C71_assumps_partial",
    "RustSat.C71_errors",
    "RustSat.C71_states_partial",
    "RustSat.C71_violated_negative",
    "RustSat.C71_violated_unknown_variable"
   ],
   "note": "Partial: values are proved right for positive literals of known variables. Violated for negative literals and unknown variables. Everything else is proved. The histories include propagating assumptions."
  },
  {
   "property": "C72",
   "status": "partial",
   "theorems": [
    "RustSat.C72_solve_partial",
    "RustSat.C72_states_partial",
    "RustSat.C72_violated_interrupted",
    "RustSat.C72_violated_reserve",
    "RustSat.C72_violated_large_variable"
   ],
   "note": "Partial: violated after Interrupted (for every library like Kissat) and by reserve after a result. Proved for all other histories. Variables beyond Kissat's greatest one (2^30-1) abort the process (C72_violated_large_variable)."
  },
  {
   "property": "C73",
   "status": "partial",
   "theorems": [
    "RustSat.C73_in_effect_partial",
    "RustSat.C73_owned_partial",
    "RustSat.C73_violated_detach",
    "RustSat.C73_violated_length"
   ],
   "note": "Partial: violated by detach_learner while there is a terminator, and by attach_learner with lengths that do not fit. Proved for all other histories."
  },
  {
   "property": "C74",
   "status": "partial",
   "theorems": [
    "RustSat.Problems.C74_assignment_partial",
    "RustSat.Problems.C74_violated_no_tasks",
    "RustSat.Problems.C74_violated_no_objectives"
   ],
   "note": "Partial: violated for no tasks (the file is unsatisfiable) and no objectives (panic). Proved for all other data that fits machine integers."
  },
  {
   "property": "C75",
   "status": "partial",
   "theorems": [
    "RustSat.Problems.C75_facility_location_partial",
    "RustSat.Problems.C75_violated_no_customers"
   ],
   "note": "Partial: violated without customers (the file demands an open facility). Proved for all other data that fits machine integers."
  },
  {
   "property": "C76",
   "status": "partial",
   "theorems": [
    "RustSat.Problems.C76_knapsack_partial",
    "RustSat.Problems.C76_violated_no_items",
    "RustSat.Problems.C76_violated_no_objectives",
    "RustSat.Problems.C76_violated_large_capacity"
   ],
   "note": "Partial: violated without items or objectives (panic) and for capacities from 2^63 on. Proved for all other data that fits machine integers."
  },
  {
   "property": "C77",
   "status": "partial",
   "theorems": [
    "RustSat.Clustering.C77_clustering_partial",
    "RustSat.Clustering.C77_clustering_single_partial",
    "RustSat.Clustering.C77_saturating_map",
    "RustSat.Clustering.C77_violated_single_object",
    "RustSat.Clustering.C77_violated_inner_argument",
    "RustSat.Clustering.C77_violated_inner_argument_witness"
   ],
   "note": "Partial: violated for less than two objects (panic) and for the argument --single-objective after the name of the encoding, which is ignored. Proved for all other data that fits machine integers; the text of the input is the subject of C93."
  },
  {
   "property": "C78",
   "status": "partial",
   "theorems": [
    "RustSat.Problems.C78_knapsack_partial",
    "RustSat.Problems.C78_knapsack_single_partial",
    "RustSat.Problems.C78_violated_weightless_item",
    "RustSat.Problems.C78_violated_large_capacity"
   ],
   "note": "Partial: violated by items of weight 0 and by capacities from 2^63 on (the tool panics). Proved for all other data that fits machine integers and whose encoding needs at most 2^31-1 variables."
  },
  {
   "property": "C79",
   "status": "partial",
   "theorems": [
    "RustSat.Problems.C79_knapsack",
    "RustSat.Problems.C79_knapsack_long_row",
    "RustSat.Problems.C79_knapsack_long_weights",
    "RustSat.Problems.C79_knapsack_accepted",
    "RustSat.Problems.C79_violated_missing_weights",
    "RustSat.Problems.C79_voptlib_partial",
    "RustSat.Problems.C79_violated_voptlib_capacity",
    "RustSat.Problems.C79_violated_voptlib_shift",
    "RustSat.Problems.C79_facility",
    "RustSat.Problems.C79_violated_facility_rows",
    "RustSat.Problems.C79_assignment_long_row",
    "RustSat.Problems.C79_assignment",
    "RustSat.Problems.C79_violated_assignment_comma",
    "RustSat.Problems.C79_violated_assignment_loop",
    "RustSat.Problems.C79_violated_assignment_rows"
   ],
   "note": "Partial: the parser for vOptLib knapsacks reads one line twice, so that all numbers are shifted, and never reads the capacity; missing weights, short rows of costs and extra rows are accepted; a comma outside of the list panics and other text there loops forever. Proved: knapsacks and assignment problems of MOO-Library and facility location are read exactly, for all spaces, comments and line breaks."
  },
  {
   "property": "C80",
   "status": "partial",
   "theorems": [
    "RustSat.C80_instance",
    "RustSat.C80_objective",
    "RustSat.C80_cnf",
    "RustSat.C80_wcnf",
    "RustSat.C80_mcnf_partial",
    "RustSat.C80_file_type_partial",
    "RustSat.C80_dispatch_partial",
    "RustSat.C80_manager",
    "RustSat.C80_violated_xz",
    "RustSat.C80_violated_zero_weight"
   ],
   "note": "Partial: files compressed with xz, which the library reads, are always taken for CNF files (C80_violated_xz); objectives at the end of an MCNF file whose soft clauses have weight 0 are lost (C80_violated_zero_weight). Proved: for CNF, WCNF and MCNF texts and all random choices the output is the renamed input with the same costs; the same for re-indexing and shuffling all instances in memory; file names with the extensions gz and bz2."
  },
  {
   "property": "C81",
   "status": "partial",
   "theorems": [
    "RustSat.C81_bounds_partial",
    "RustSat.C81_no_panic",
    "RustSat.C81_available_partial",
    "RustSat.C81_clauses_of_call",
    "RustSat.C81_vars",
    "RustSat.C81_watchdog_weight_sum_partial",
    "RustSat.C81_watchdog_coarse_partial",
    "RustSat.C81_next_higher",
    "RustSat.C81_next_lower_partial",
    "RustSat.C81_violated_lb_resets_ub",
    "RustSat.C81_violated_lb_clauses",
    "RustSat.C81_violated_lb_zero",
    "RustSat.C81_violated_next_lower_zero",
    "RustSat.C81_violated_watchdog_weight_sum",
    "RustSat.C81_violated_watchdog_not_encoded",
    "RustSat.C81_violated_watchdog_two_bounds",
    "RustSat.C81_violated_watchdog_coarse"
   ],
   "note": "Partial: `encode_lb` of a referenced totalizer resets the semantics of upper bounds instead of lower bounds, so encoded upper bounds become unavailable (C81_violated_lb_resets_ub) and its clauses alone do not suffice (C81_violated_lb_clauses); enforcing the lower bound zero panics or assumes a literal (C81_violated_lb_zero); `next_lower(0)` overflows (C81_violated_next_lower_zero); for referenced watchdogs, bounds are accepted after reserving although no clauses exist (C81_violated_watchdog_not_encoded), two bounds of one watchdog exclude too much (C81_violated_watchdog_two_bounds), weight_sum is too large (C81_violated_watchdog_weight_sum), coarse bounds are not the easy ones (C81_violated_watchdog_coarse). Proved: any set of upper bounds (for watchdogs covered ones, one for each) and positive lower bounds (if all watchdogs have full precision) enforced together after any history; availability of lower bounds and of bounds of watchdogs, and of other upper bounds in histories without `encode_lb`; clauses of one `encode_ub` call; absence of panics; weight_sum up to the weight of an output; coarse_ub below the bound and idempotent. Not covered: increasing the precision of a watchdog after it was built."
  },
  {
   "property": "C82",
   "status": "partial",
   "theorems": [
    "RustSat.C82_history",
    "RustSat.C82_reads",
    "RustSat.C82_softs",
    "RustSat.C82_value_partial",
    "RustSat.C82_order",
    "RustSat.C82_normalized",
    "RustSat.C82_cuts",
    "RustSat.C82_cuts_limited",
    "RustSat.C82_optimum",
    "RustSat.C82_stats",
    "RustSat.C82_mcnf",
    "RustSat.C82_opb_partial",
    "RustSat.C82_exit_code",
    "RustSat.C82_violated_offset",
    "RustSat.C82_violated_opb",
    "RustSat.C82_violated_stdout"
   ],
   "note": "Partial: the offset becomes the offset of the most important objective although the warning says the least important one, so the sum with the multipliers is off (C82_violated_offset); OPB output drops the clauses that define the relaxation literals of longer soft clauses, so optima change (C82_violated_opb); without an output path messages are mixed into the written file (C82_violated_stdout). Proved: order equivalence, optima, exact cuts, multipliers, statistics, exit code, MCNF output, and OPB output for unit soft clauses. Overflows of sums of weights are not modelled."
  },
  {
   "property": "C83",
   "status": "partial",
   "theorems": [
    "RustSat.ProofText.C83_text_partial",
    "RustSat.ProofText.C83_new",
    "RustSat.ProofText.C83_call",
    "RustSat.ProofText.C83_ids_partial",
    "RustSat.ProofText.C83_no_panic",
    "RustSat.ProofText.C83_proof_vars",
    "RustSat.ProofText.C83_order",
    "RustSat.ProofText.C83_checked",
    "RustSat.ProofText.C83_checked_unsat",
    "RustSat.ProofText.C83_unsat",
    "RustSat.ProofText.C83_totalizer",
    "RustSat.ProofText.C83_gte",
    "RustSat.ProofText.C83_inverted",
    "RustSat.ProofText.C83_checked_proof",
    "RustSat.ProofText.C83_violated_offset",
    "RustSat.ProofText.C83_violated_obju_offset",
    "RustSat.ProofText.C83_violated_substitute",
    "RustSat.ProofText.C83_violated_obju_ids"
   ],
   "note": "Partial: the constant of an objective is not written (C83_violated_offset, C83_violated_obju_offset); substitute writes a line without keyword (C83_violated_substitute); goals in the sub-proof of an objective update do not count for ids (C83_violated_obju_ids). Proved: everything else for all histories; panics, fresh variables, orders, texts of certified encodings, soundness of UNSAT. The reader (Spec/ProofText) is written from the format of VeriPB 2.0 as the library and its documentation use it; empty lists of ids are read leniently. I/O errors are not modelled."
  },
  {
   "property": "C84",
   "status": "partial",
   "theorems": [
    "RustSat.Capi.C84_no_abort",
    "RustSat.Capi.C84_add",
    "RustSat.Capi.C84_upper_partial",
    "RustSat.Capi.C84_upper_available_partial",
    "RustSat.Capi.C84_lower_partial",
    "RustSat.Capi.C84_lower_available_partial",
    "RustSat.Capi.C84_enforce_ub_total_partial",
    "RustSat.Capi.C84_enforce_lb_unsat",
    "RustSat.Capi.C84_literals",
    "RustSat.Capi.C84_fits",
    "RustSat.Capi.C84_set_precision",
    "RustSat.Capi.C84_limit_range_partial",
    "RustSat.Capi.C84_am1",
    "RustSat.Capi.C84_violated_tot_enforce_ub",
    "RustSat.Capi.C84_violated_tot_enforce_lb",
    "RustSat.Capi.C84_violated_limit_range",
    "RustSat.Capi.C84_violated_encode_ub_max",
    "RustSat.Capi.C84_violated_dpw_weight_zero",
    "RustSat.Capi.C84_violated_gte_weight_zero",
    "RustSat.Capi.C84_violated_adder_reserve"
   ],
   "note": "Partial because of violations with proved witnesses: tot_enforce_ub/lb panic when no assumption is needed, SIZE_MAX as upper end panics or wraps (limit_range then excludes assignments), weight 0 (gte panics, dpw counts it as 1), bin_adder_reserve panics; the restrictions of C34, C35 and C53 carry over. Proved for all other histories: no abort, upper and lower bounds exactly enforced and available, literals and counter, return codes, precision (including increasing it after encoding), hardening, at-most-one. Pointers, drop and overflow of u32/c_int counters are not modelled (C84_fits gives the condition)."
  },
  {
   "property": "C85",
   "status": "partial",
   "theorems": [
    "RustSat.C85_totalizer",
    "RustSat.C85_gte",
    "RustSat.C85_dpw_partial",
    "RustSat.C85_violated_precision",
    "RustSat.C85_violated_limited"
   ],
   "note": "Full for the totalizer and the generalized totalizer; for the watchdog if its precision was not changed since the encoding was built or extended. Violations with witnesses: reserve does not extend the watchdog after its precision was increased; reserving for a connection with a limit misses the last value. reserve of the binary adder panics (C34 ff.)."
  },
  {
   "property": "C86",
   "status": "partial",
   "theorems": [
    "RustSat.C86_convert_partial",
    "RustSat.C86_text_unique",
    "RustSat.C86_pareto",
    "RustSat.C86_mo2ilp_partial",
    "RustSat.C86_violated_nonzeros"
   ],
   "note": "Full except for the two numbers of non-zero coefficients in the header of one of the formats, which are wrong: they count terms (violation with witness). The sums of the coefficients of each objective and constraint are assumed to be representable, since overflow is not modelled."
  },
  {
   "property": "C87",
   "status": "partial",
   "theorems": [
    "RustSat.C87_events",
    "RustSat.C87_malformed",
    "RustSat.C87_assignment",
    "RustSat.C87_lifetime_partial",
    "RustSat.C87_no_leak",
    "RustSat.C87_violated_wrong_solver",
    "RustSat.C87_violated_dropped_solver",
    "RustSat.C87_violated_reference",
    "RustSat.C87_violated_two_references",
    "RustSat.C87_violated_late_connect",
    "RustSat.C87_violated_early_drop"
   ],
   "note": "The notifications are proved in full. The life time is proved for programs that disconnect tracers only from the solver they are connected to, connect them while the solver is new, and use references while the handle exists; for the other programs there are violations with witnesses (use after free, double free, abort). That handles must not be dropped before the solver is documented."
  },
  {
   "property": "C88",
   "status": "partial",
   "theorems": [
    "RustSat.C88_propcheck",
    "RustSat.C88_propcheck_total",
    "RustSat.C88_prop_check_partial",
    "RustSat.C88_violated_empty",
    "RustSat.C88_mini",
    "RustSat.C88_mini_total_partial",
    "RustSat.C88_violated_unknown_variable",
    "RustSat.C88_cadical_partial",
    "RustSat.C88_cadical_range",
    "RustSat.C88_violated_tmp_clause"
   ],
   "note": "The functions that RustSAT adds to MiniSat, Glucose and CaDiCaL before 2.1 are proved to report exactly what unit propagation derives. For CaDiCaL from 2.1 on, propagation is part of the solver and only its results are assumed to be right. Partial: violated for solvers without variables, for unknown variables in MiniSat and Glucose, and with a temporary clause in CaDiCaL."
  },
  {
   "property": "C89",
   "status": "partial",
   "theorems": [
    "RustSat.Propagator.C89_names_partial",
    "RustSat.Propagator.C89_partial",
    "RustSat.Propagator.C89_violated_names",
    "RustSat.Propagator.C89_violated_no_variables",
    "RustSat.Propagator.C89_violated_other_variable"
   ],
   "note": "Partial: proved for assumptions on variables of the instance, on literals of these variables, for instances whose conversion works (C38). Violated: the names in the output are one too low, instances without variables panic, and assumptions on other variables may be taken for variables of encodings."
  },
  {
   "property": "C90",
   "status": "proved",
   "theorems": [
    "RustSat.C90_solve",
    "RustSat.C90_assumps",
    "RustSat.C90_states",
    "RustSat.C90_errors",
    "RustSat.C90_stats",
    "RustSat.C90_extend"
   ],
   "note": "BatSat itself is another crate; that it is correct is a hypothesis, which also says what its functions mean (LawfulBat). Reading the value of a variable that BatSat does not know is not covered. The average length of clauses is not modelled."
  },
  {
   "property": "C91",
   "status": "partial",
   "theorems": [
    "RustSat.C91_slice_partial",
    "RustSat.C91_index_partial",
    "RustSat.C91_violated_index",
    "RustSat.C91_violated_negative_step",
    "RustSat.C91_iterator",
    "RustSat.C91_modification_partial",
    "RustSat.C91_violated_modification_hidden",
    "RustSat.C91_violated_extend_unnoticed",
    "RustSat.C91_eq",
    "RustSat.C91_violated_spurious_error",
    "RustSat.C91_lit_partial",
    "RustSat.C91_violated_lit",
    "RustSat.C91_clause",
    "RustSat.C91_cnf",
    "RustSat.C91_var_manager",
    "RustSat.C91_increase_used"
   ],
   "note": "Violated for negative indices, indices from the length on, negative steps, modifications followed by a new iterator, Clause.extend during iteration, remove of absent literals during iteration and Lit(-2**31); proved for everything else. PyO3 is not modelled."
  },
  {
   "property": "C92",
   "status": "partial",
   "theorems": [
    "RustSat.C92_no_panic",
    "RustSat.C92_cnf",
    "RustSat.C92_upper_partial",
    "RustSat.C92_upper_available",
    "RustSat.C92_lower_partial",
    "RustSat.C92_lower_available_partial",
    "RustSat.C92_equal_partial",
    "RustSat.C92_enforce_ub",
    "RustSat.C92_enforce_lb",
    "RustSat.C92_refused_partial",
    "RustSat.C92_stats",
    "RustSat.C92_vars",
    "RustSat.C92_am1",
    "RustSat.C92_violated_largest_bound",
    "RustSat.C92_violated_adder_repeat",
    "RustSat.C92_violated_adder_waiting",
    "RustSat.C92_violated_adder_skipped",
    "RustSat.C92_violated_repeated_literal",
    "RustSat.C92_violated_zero_weight"
   ],
   "note": "Violated for the largest usize as bound, for repeated encode_both/encode_ub of the adder after lower bounds, for bounds of the adder after extend, for literals given twice to __new__ and for weights of zero; proved for all other histories. Order of iteration of hash maps is arbitrary in the model. PyO3 is not modelled."
  },
  {
   "property": "C93",
   "status": "partial",
   "theorems": [
    "RustSat.Clustering.C93_line",
    "RustSat.Clustering.C93_file",
    "RustSat.Clustering.C93_tool_partial",
    "RustSat.Clustering.C93_scaling_partial",
    "RustSat.Clustering.C93_scaling_exact",
    "RustSat.Clustering.C93_monotone",
    "RustSat.Clustering.C93_infinity",
    "RustSat.Clustering.C93_violated_truncation",
    "RustSat.Clustering.C93_violated_dropped",
    "RustSat.Clustering.C93_violated_nan"
   ],
   "note": "The parser accepts exactly the lines of the format (proved in both directions); scaling is monotone, exact for values with few binary places and otherwise right up to one unit (violation with witness: 0.29 times 100 is 28). Lines of another form are dropped silently (violation). Floating point is rational numbers with the rounding of IEEE 754; winnow's float is modelled after its documentation; overflow of isize by the offset is excluded."
  },
  {
   "property": "C94",
   "status": "partial",
   "theorems": [
    "RustSat.C94_cnf",
    "RustSat.C94_wcnf",
    "RustSat.C94_mcnf",
    "RustSat.C94_instance",
    "RustSat.C94_standard_partial",
    "RustSat.C94_violated_multiline",
    "RustSat.C94_violated_header",
    "RustSat.C94_violated_two_clauses",
    "RustSat.C94_violated_panic"
   ],
   "note": "Acceptance is proved in both directions for all three formats against a separate description of the lines. The standard reading (clauses end at zeros, line breaks do not matter) is proved for files in which each clause line ends in a zero; it is violated for clauses over several lines, several clauses in a line, and wrong numbers in the header (witnesses); a number of variables above the maximum makes the call panic (witness)."
  },
  {
   "property": "C95",
   "status": "partial",
   "theorems": [
    "RustSat.C95_accept",
    "RustSat.C95_meaning_partial",
    "RustSat.C95_sat_instance_partial",
    "RustSat.C95_opt_instance_partial",
    "RustSat.C95_multi_instance_partial"
   ],
   "note": "Acceptance is proved in both directions against the description of the format that C45 uses. The meaning of what is read is proved for files without `<` (C45_violated_lt)."
  },
  {
   "property": "C96",
   "status": "partial",
   "theorems": [
    "RustSat.C96_solve_partial",
    "RustSat.C96_assumps_partial",
    "RustSat.C96_states_partial",
    "RustSat.C96_frozen",
    "RustSat.C96_elimination",
    "RustSat.C96_failures_partial",
    "RustSat.C96_violated_eliminated_clause",
    "RustSat.C96_violated_core",
    "RustSat.C96_violated_unknown_variable"
   ],
   "note": "Proved for any choice of eliminated variables and any correct search, for histories in which no clause has a variable that was eliminated before (C96_violated_eliminated_clause). The core may be that of an earlier query if the clauses alone are contradictory (C96_violated_core); an assumption over a variable the solver does not know reads out of bounds (C96_violated_unknown_variable); values of negative literals are wrong as in C71."
  },
  {
   "property": "C97",
   "status": "partial",
   "theorems": [
    "RustSat.C97_upper_bound_partial",
    "RustSat.C97_never_too_strong",
    "RustSat.C97_same",
    "RustSat.C97_repair",
    "RustSat.C97_retry",
    "RustSat.C97_keeps",
    "RustSat.C97_no_panic",
    "RustSat.C97_stats_partial",
    "RustSat.C97_violated_stats",
    "RustSat.C97_distinct_weights",
    "RustSat.C97_violated_enforce",
    "RustSat.C97_violated_totalizer"
   ],
   "note": "Proved for the generalized totalizer. That an enforced bound holds is proved for calls that do not run out of memory while the clauses of an output already marked as encoded are collected; with pairwise different weights that never happens (C97_distinct_weights), and repeating encode_ub always repairs it (C97_repair). In general the output counts as encoded although its clauses are missing (C97_violated_enforce, C97_violated_totalizer); clauses and variables of a failed call are not counted (C97_violated_stats)."
  },
  {
   "property": "C98",
   "status": "partial",
   "theorems": [
    "RustSat.Collect.C98_cnf_ok",
    "RustSat.Collect.C98_cnf_out_of_memory",
    "RustSat.Collect.C98_cnf_no_abort",
    "RustSat.Collect.C98_cnf_enough_partial",
    "RustSat.Collect.C98_violated_bound",
    "RustSat.Collect.C98_add_clause",
    "RustSat.Collect.C98_solver",
    "RustSat.Collect.C98_solver_panic_partial",
    "RustSat.Collect.C98_violated_kissat"
   ],
   "note": "Proved for finite iterators with correct hints. An upper bound that is too large makes it fail although there is memory for the clauses (C98_violated_bound); other errors of a solver, such as a clause added to Kissat after solving, are panics (C98_violated_kissat)."
  },
  {
   "property": "C99",
   "status": "partial",
   "theorems": [
    "RustSat.CadicalApi.C99_no_abort_partial",
    "RustSat.CadicalApi.C99_results",
    "RustSat.CadicalApi.C99_values",
    "RustSat.CadicalApi.C99_flip",
    "RustSat.CadicalApi.C99_solve_partial",
    "RustSat.CadicalApi.C99_assumps_partial",
    "RustSat.CadicalApi.C99_limit",
    "RustSat.CadicalApi.C99_out_of_memory_partial",
    "RustSat.CadicalApi.C99_violated_set_option",
    "RustSat.CadicalApi.C99_violated_trace_proof",
    "RustSat.CadicalApi.C99_violated_declare",
    "RustSat.CadicalApi.C99_violated_melt",
    "RustSat.CadicalApi.C99_violated_oom_solve",
    "RustSat.CadicalApi.C99_violated_oom_clause",
    "RustSat.CadicalApi.C99_violated_oom_assumps",
    "RustSat.CadicalApi.C99_violated_oom_value"
   ],
   "note": "Proved for the calls of Spec.CadicalApi.Allowed; the others break contracts or give wrong answers: options and proofs after a clause, melting a variable that is not frozen, declared variables in the states Sat and Configuring, and running out of memory within a clause, a search, or while assumptions are passed (C99_violated_*). The library is a state machine read off solver.cpp; its searches are parameters assumed correct. Not covered: the conflict flag that propagate returns when the library finds a model; a model that reports a conflict there still satisfies all theorems (seeded/LOG.jsonl)."
  },
  {
   "property": "C100",
   "status": "partial",
   "theorems": [
    "RustSat.SolverOptions.C100_found",
    "RustSat.SolverOptions.C100_cadical_set",
    "RustSat.SolverOptions.C100_kissat_set_partial",
    "RustSat.SolverOptions.C100_nul",
    "RustSat.SolverOptions.C100_range",
    "RustSat.SolverOptions.C100_configuration_state",
    "RustSat.SolverOptions.C100_kissat_table",
    "RustSat.SolverOptions.C100_cadical_table",
    "RustSat.SolverOptions.C100_kissat_configuration",
    "RustSat.SolverOptions.C100_cadical_default",
    "RustSat.SolverOptions.C100_cadical_configuration",
    "RustSat.SolverOptions.C100_violated_kissat_error",
    "RustSat.SolverOptions.C100_violated_kissat_seed",
    "RustSat.SolverOptions.C100_violated_range",
    "RustSat.SolverOptions.C100_violated_unknown",
    "RustSat.SolverOptions.C100_violated_kissat_default"
   ],
   "note": "Proved for CaDiCaL's set_option and both set_configuration (tables of all 158 and 255 options). Kissat's set_option returns an error for every option whose value was 0 although it sets it (C100_violated_kissat_error, C100_violated_kissat_seed), accepts values out of range (C100_violated_range), and its Default configuration restores nothing (C100_violated_kissat_default); get_option of an unknown name is Ok(0) (C100_violated_unknown). The effect of options on the search is not modelled. The value of the option `stable` in Kissat's plain configuration can be changed without a theorem failing (seeded/LOG.jsonl), so the values of configurations are as transcribed in the model."
  },
  {
   "property": "C101",
   "status": "proved",
   "theorems": [
    "RustSat.C101_totalizer",
    "RustSat.C101_value",
    "RustSat.C101_gte"
   ],
   "note": "For totalizers and generalized totalizers in every reachable state of the histories of C28 and C33. Values are unbounded numbers; fuel bounds the number of steps of the iterator in the model, and the theorems show that a bound exists for which it ends."
  },
  {
   "property": "C102",
   "status": "partial",
   "theorems": [
    "RustSat.TotDb.C102_removed_partial",
    "RustSat.TotDb.C102_error_partial",
    "RustSat.TotDb.C102_violated_error",
    "RustSat.TotDb.C102_violated_dummy"
   ],
   "note": "Proved for calls that succeed, and exactly when they do. Violated by calls that fail, which leave earlier nodes changed, and by the id of the dummy node, which is never adjusted (C102_violated_*); the invariant of the database is kept if the dummy node is before the range or does not exist. The data for proof logging is not part of the modelled database."
  },
  {
   "property": "C103",
   "status": "proved",
   "theorems": [
    "RustSat.TotDb.C103_sum",
    "RustSat.TotDb.C103_leaves",
    "RustSat.TotDb.C103_certified_totalizer",
    "RustSat.TotDb.C103_certified_gte"
   ],
   "note": "The assumption that connections do not divide values is also asserted by the code. Fuel bounds the number of steps of the iterator in the model; the theorems show that it ends."
  },
  {
   "property": "C104",
   "status": "partial",
   "theorems": [
    "RustSat.C104_values",
    "RustSat.C104_as_before",
    "RustSat.C104_forgets",
    "RustSat.C104_again_partial",
    "RustSat.C104_handed_out",
    "RustSat.C104_violated_tares"
   ],
   "note": "Proved for managers that also know the variables watchdogs got when they were built; these are not reset, and with a manager that only knows the inputs they clash (C104_violated_tares). Histories of C81 may contain resets, too."
  },
  {
   "property": "C105",
   "status": "partial",
   "theorems": [
    "RustSat.C105_types",
    "RustSat.C105_means_partial",
    "RustSat.C105_formulas",
    "RustSat.C105_violated_right"
   ],
   "note": "Proved for all expressions without an instance that has cardinality or PB constraints on the right of `&`; such an instance loses them (C105_violated_right). Types are proved without restriction."
  },
  {
   "property": "C106",
   "status": "partial",
   "theorems": [
    "RustSat.C106_add",
    "RustSat.C106_sub",
    "RustSat.C106_release_partial",
    "RustSat.C106_inverse",
    "RustSat.C106_violated_release"
   ],
   "note": "Proved for builds with overflow checks; release builds agree where the result exists, but wrap or leave the range of variables otherwise (C106_violated_release)."
  },
  {
   "property": "C107",
   "status": "proved",
   "theorems": [
    "RustSat.Pigeons.C107_polish",
    "RustSat.Pigeons.C107_written",
    "RustSat.Pigeons.C107_lists"
   ],
   "note": "The sequences as they are represented; C107_lists connects them to the lists that C61 is about."
  },
  {
   "property": "C108",
   "status": "partial",
   "theorems": [
    "RustSat.AvgLen.C108_mean_partial",
    "RustSat.AvgLen.C108_batsat_partial",
    "RustSat.AvgLen.C108_batsat_units"
   ],
   "note": "Exact for rational numbers; rounding of f32 is not modelled. The wrapper of BatSat has no counter of its own: proved if the solver counts all clauses; C108_batsat_units shows that it fails for a solver that does not count unit clauses (BatSat itself is not in the repository)."
  }
 ]
}