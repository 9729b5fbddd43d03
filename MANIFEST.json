{
 "claims": [
  {
   "property": "C01",
   "status": "proved",
   "theorems": [
    "Verif.C01_times_increasing"
   ],
   "note": "All histories of push_back calls; any rounding."
  },
  {
   "property": "C02",
   "status": "proved",
   "theorems": [
    "Verif.C02_pushBack_accepts",
    "Verif.C02_pushBack_appends",
    "Verif.C02_pushBack_rejects",
    "Verif.C02_pushBack_agrees"
   ],
   "note": "Acceptance condition, effect and atomicity of push_back, for all doubles including NaN; any rounding."
  },
  {
   "property": "C03",
   "status": "proved",
   "theorems": [
    "Verif.C03_derivatives_are_slopes",
    "Verif.C03_derivatives_ofSamples",
    "Verif.C03_derivatives_ofPoints",
    "Verif.C03_slope_value"
   ],
   "note": "All histories and all constructors; any rounding."
  },
  {
   "property": "C04",
   "status": "proved",
   "theorems": [
    "Verif.C04_ofPoints_ok_iff",
    "Verif.C04_ofPoints_samples",
    "Verif.C04_ofPoints_throws"
   ],
   "note": "Exact success condition, resulting samples and exception; any rounding."
  },
  {
   "property": "C05",
   "status": "proved",
   "theorems": [
    "Verif.C05_copy",
    "Verif.C05_copy_history"
   ],
   "note": "All signals from constructors and from histories; any rounding."
  },
  {
   "property": "C06",
   "status": "proved",
   "theorems": [
    "Verif.C06_at_sample_time"
   ],
   "note": "All signals with strictly increasing non-NaN timestamps; any rounding."
  },
  {
   "property": "C07",
   "status": "partial",
   "theorems": [
    "Verif.C07_refuted",
    "Verif.C07_at_partial",
    "Verif.C07_at_between_partial",
    "Verif.C07_at_last_partial"
   ],
   "note": "False of the code: C07_refuted. Proved: right at sample times; between samples the code extrapolates the next segment backwards (right iff collinear)."
  },
  {
   "property": "C08",
   "status": "partial",
   "theorems": [
    "Verif.C08_refuted",
    "Verif.C08_at_outside_partial"
   ],
   "note": "False of the code: C08_refuted. Proved: at() never throws; after the end it is undefined behaviour, before the begin it extrapolates."
  },
  {
   "property": "C09",
   "status": "proved",
   "theorems": [
    "Verif.C09_beginAt"
   ],
   "note": "All signals with strictly increasing non-NaN timestamps, all non-NaN t; any rounding."
  },
  {
   "property": "C10",
   "status": "partial",
   "theorems": [
    "Verif.C10_refuted",
    "Verif.C10_endAt_partial"
   ],
   "note": "False of the code: C10_refuted. Proved: right for t >= end_time(); undefined behaviour for all t < end_time()."
  },
  {
   "property": "C11",
   "status": "proved",
   "theorems": [
    "Verif.C11_simplify_preserves"
   ],
   "note": "Finite non-empty signals, ideal arithmetic."
  },
  {
   "property": "C12",
   "status": "proved",
   "theorems": [
    "Verif.C12_simplify_subsequence",
    "Verif.C12_simplify_idempotent"
   ],
   "note": "Finite non-empty signals, ideal arithmetic."
  },
  {
   "property": "C13",
   "status": "partial",
   "theorems": [
    "Verif.C13_refuted",
    "Verif.C13_simplify_partial",
    "Verif.C13_exactly_partial"
   ],
   "note": "False of the code: C13_refuted. Proved: exactly the samples inside constant stretches are dropped (C13_exactly_partial)."
  },
  {
   "property": "C14",
   "status": "partial",
   "theorems": [
    "Verif.C14_refuted",
    "Verif.C14_resize_partial",
    "Verif.C14_resize_throws",
    "Verif.C14_resize_throws_fill",
    "Verif.C14_resize_late",
    "Verif.C14_resize_single",
    "Verif.C14_resize_empty",
    "Verif.C14_exactly_partial"
   ],
   "note": "False of the code: C14_refuted. Proved: exactly when the claim is right (C14_exactly_partial), and the outcome in every other case."
  },
  {
   "property": "C15",
   "status": "proved",
   "theorems": [
    "Verif.C15_shift",
    "Verif.C15_shift_zero",
    "Verif.C15_shift_add"
   ],
   "note": "Finite signals, ideal arithmetic."
  },
  {
   "property": "C16",
   "status": "partial",
   "theorems": [
    "Verif.C16_refuted",
    "Verif.C16_synchronize_partial",
    "Verif.C16_synchronize_aligned_partial",
    "Verif.C16_synchronize_failures"
   ],
   "note": "False of the code: C16_refuted. Proved: exact success condition and the kind of each failure; any rounding."
  },
  {
   "property": "C17",
   "status": "proved",
   "theorems": [
    "Verif.C17_common_times"
   ],
   "note": "Signals with strictly increasing non-NaN timestamps, any rounding."
  },
  {
   "property": "C18",
   "status": "proved",
   "theorems": [
    "Verif.C18_synchronize_preserves"
   ],
   "note": "Finite signals, ideal arithmetic."
  },
  {
   "property": "C19",
   "status": "proved",
   "theorems": [
    "Verif.C19_synchronize_symmetric",
    "Verif.C19_synchronize_idempotent"
   ],
   "note": "Finite signals, ideal arithmetic."
  },
  {
   "property": "C20",
   "status": "proved",
   "theorems": [
    "Verif.C20_predicate"
   ],
   "note": "Finite signals, ideal arithmetic; dense time."
  },
  {
   "property": "C21",
   "status": "proved",
   "theorems": [
    "Verif.C21_not_negates",
    "Verif.C21_not_not"
   ],
   "note": "All formulas and traces, infinities and NaN included; any sign-symmetric rounding."
  },
  {
   "property": "C22",
   "status": "proved",
   "theorems": [
    "Verif.C22_and_is_min",
    "Verif.C22_C23_success"
   ],
   "note": "Finite operand signals, ideal arithmetic; dense time. C22_C23_success gives a success condition."
  },
  {
   "property": "C23",
   "status": "proved",
   "theorems": [
    "Verif.C23_or_is_max"
   ],
   "note": "Finite operand signals, ideal arithmetic; dense time."
  },
  {
   "property": "C24",
   "status": "proved",
   "theorems": [
    "Verif.C24_and_nary",
    "Verif.C24_or_nary",
    "Verif.C24_order_independent"
   ],
   "note": "Operand lists of every length; finite operand signals with a common begin time, ideal arithmetic."
  },
  {
   "property": "C25",
   "status": "proved",
   "theorems": [
    "Verif.C25_de_morgan"
   ],
   "note": "All non-empty operand lists and all traces with finite timestamps; ideal arithmetic."
  },
  {
   "property": "C26",
   "status": "proved",
   "theorems": [
    "Verif.C26_eventually_is_supremum"
   ],
   "note": "Finite operand signals (of any formula), ideal arithmetic; the supremum is over real time."
  },
  {
   "property": "C27",
   "status": "proved",
   "theorems": [
    "Verif.C27_always_is_infimum"
   ],
   "note": "Finite operand signals (of any formula), ideal arithmetic."
  },
  {
   "property": "C28",
   "status": "partial",
   "theorems": [
    "Verif.C28_refuted",
    "Verif.C28_bounds_partial",
    "Verif.C28_exact_segments_partial"
   ],
   "note": "False of the code: C28_refuted. Proved: one-sided bounds at all times, and exactly on which segments the value is right."
  },
  {
   "property": "C29",
   "status": "proved",
   "theorems": [
    "Verif.C29_duality"
   ],
   "note": "All formulas, intervals and traces, infinities and NaN included; any sign-symmetric rounding."
  },
  {
   "property": "C30",
   "status": "proved",
   "theorems": [
    "Verif.C30_idempotent",
    "Verif.C30_monotone",
    "Verif.C30_monotone_dense"
   ],
   "note": "All formulas and traces for which the duration of the operand is not NaN (monotonicity: no NaN values); any rounding. Dense-time version for finite signals."
  },
  {
   "property": "C31",
   "status": "partial",
   "theorems": [
    "Verif.C31_refuted",
    "Verif.C31_interval_ignored_partial",
    "Verif.C31_long_interval_partial"
   ],
   "note": "False of the code: C31_refuted. Proved: the interval is ignored (for finite timestamps); right if it starts at 0 and is at least as long as the signal."
  },
  {
   "property": "C32",
   "status": "partial",
   "theorems": [
    "Verif.C32_refuted",
    "Verif.C32_upper_bound_partial",
    "Verif.C32_violation_reported_as_satisfied_partial",
    "Verif.C32_exact_partial",
    "Verif.C32_verdict_partial"
   ],
   "note": "False of the code: C32_refuted. Proved: what is computed instead, exactly, at all samples: the robustness of (phi U (psi or G not psi)) or G phi (C32_exact_partial), its sign (C32_verdict_partial); an upper bound of the right value; and if psi is negative everywhere the result is positive everywhere."
  },
  {
   "property": "C33",
   "status": "partial",
   "theorems": [
    "Verif.C33_refuted",
    "Verif.C33_interval_ignored_partial"
   ],
   "note": "False of the code: C33_refuted. Proved: the interval is ignored for all formulas, traces and intervals."
  },
  {
   "property": "C34",
   "status": "proved",
   "theorems": [
    "Verif.C34_total"
   ],
   "note": "Plain formulas of any depth with finite predicate bounds and intervals made by the constructors; ideal arithmetic."
  },
  {
   "property": "C35",
   "status": "proved",
   "theorems": [
    "Verif.C35_missing_signal"
   ],
   "note": "All formulas, all traces, any rounding."
  },
  {
   "property": "C36",
   "status": "proved",
   "theorems": [
    "Verif.C36_depends_only_on_used_signals",
    "Verif.C36_flag_ignored"
   ],
   "note": "All formulas without constants, all pairs of traces, any rounding."
  },
  {
   "property": "C37",
   "status": "partial",
   "theorems": [
    "Verif.C37_refuted",
    "Verif.C37_constants_partial"
   ],
   "note": "False of the code: C37_refuted (a constant first operand turns interior samples into NaN; And(phi, false) keeps the interior values of phi). Proved in C37_constants_partial: the exact result of And/Or with a constant in either position, for every signal spanning the trace."
  },
  {
   "property": "C38",
   "status": "proved",
   "theorems": [
    "Verif.C38_boolean_fragment_exact"
   ],
   "note": "Propositional formulas of any depth, real arithmetic, aligned finite signals."
  },
  {
   "property": "C39",
   "status": "proved",
   "theorems": [
    "Verif.C39_safety_sound"
   ],
   "note": "Polarity fragment (Always under even, Eventually under odd negations, any intervals), real arithmetic, signals on a common time domain."
  },
  {
   "property": "C40",
   "status": "proved",
   "theorems": [
    "Verif.C40_cosafety_sound"
   ],
   "note": "Dual fragment of C39, real arithmetic."
  },
  {
   "property": "C41",
   "status": "proved",
   "theorems": [
    "Verif.C41_shift"
   ],
   "note": "Ideal arithmetic; every formula whose And/Or nodes have at least two operands (the API builds no others), values may be infinite or NaN."
  },
  {
   "property": "C42",
   "status": "proved",
   "theorems": [
    "Verif.C42_robustness_well_formed"
   ],
   "note": "All formulas, all traces, any rounding."
  },
  {
   "property": "C43",
   "status": "partial",
   "theorems": [
    "Verif.C43_refuted",
    "Verif.C43_late_partial",
    "Verif.C43_dominated_partial",
    "Verif.C43_margin_partial"
   ],
   "note": "The claim is false: C43_refuted gives two-sample binary64 signals for which Or (and And) throws invalid_argument because the crossing computed from rounded slopes is later than the next sample. C43_late_partial characterises, for every rounding, exactly when the call throws; C43_dominated_partial and C43_margin_partial (binary64) give sufficient conditions for success. binary64_rounding proves that the modelled arithmetic is round-to-nearest-even with gradual underflow and overflow."
  },
  {
   "property": "C44",
   "status": "proved",
   "theorems": [
    "Verif.C44_nodes",
    "Verif.C44_and",
    "Verif.C44_or",
    "Verif.C44_not"
   ],
   "note": "All expressions, all valuations of predicates and temporal sub-formulas. C44_nodes: the functions that build one node."
  },
  {
   "property": "C45",
   "status": "proved",
   "theorems": [
    "Verif.C45_implies",
    "Verif.C45_xor",
    "Verif.C45_iff"
   ],
   "note": "All expressions, all valuations."
  },
  {
   "property": "C46",
   "status": "partial",
   "theorems": [
    "Verif.C46_refuted",
    "Verif.C46_andOp_partial",
    "Verif.C46_orOp_partial",
    "Verif.C46_implies_partial",
    "Verif.C46_xor_partial",
    "Verif.C46_iff_partial"
   ],
   "note": "False of the code: C46_refuted (And & false and Or | true throw std::invalid_argument). Proved: exactly when each of the five functions throws."
  },
  {
   "property": "C47",
   "status": "proved",
   "theorems": [
    "Verif.C47_arity"
   ],
   "note": "Induction over all construction histories (Spec.Built)."
  },
  {
   "property": "C48",
   "status": "proved",
   "theorems": [
    "Verif.C48_and",
    "Verif.C48_or"
   ],
   "note": "Every rounding; same signal or both fail, and the same outcome if the robustness of d can be computed."
  },
  {
   "property": "C49",
   "status": "partial",
   "theorems": [
    "Verif.C49_refuted",
    "Verif.C49_interval_partial",
    "Verif.C49_values",
    "Verif.C49_values_exact"
   ],
   "note": "False of the code: C49_refuted (integer bounds are not checked, NaN passes). Proved: the double constructor decides validity for all non-NaN bounds; the numbers that the bounds stand for."
  },
  {
   "property": "C50",
   "status": "proved",
   "theorems": [
    "Verif.C50_wedge",
    "Verif.C50_wedge_strict",
    "Verif.C50_wedge_failure",
    "Verif.C50_expire",
    "Verif.C50_samples"
   ],
   "note": "Every sequence of operations, every total preorder (and every strict weak ordering) on the values that occur."
  },
  {
   "property": "C51",
   "status": "partial",
   "theorems": [
    "Verif.C51_dual_partial",
    "Verif.C51_refuted_zero",
    "Verif.C51_refuted_values",
    "Verif.C51_first_window_partial",
    "Verif.C51_outcome_partial",
    "Verif.C51_same_partial"
   ],
   "note": "False of the code: C51_refuted_zero (undefined behaviour for every non-empty signal and every b > 0 when a = 0), C51_refuted_values (wrong values for a > 0). Proved: the first loop computes the extremum of the first window; maximum and minimum are mirror images (C51_dual_partial); for 0 < a < b the exact outcome on every finite signal in exact arithmetic (C51_outcome_partial: exception, undefined behaviour, or one value held), in which the comparison does not occur, so that the windowed minimum and maximum always agree (C51_same_partial)."
  },
  {
   "property": "C52",
   "status": "proved",
   "theorems": [
    "Verif.C52_terminates"
   ],
   "note": "Every input and both builds: the result is independent of the fuel of the model (any fuel above the length), and is a value, an exception or (debug only) a failed assertion; no undefined behaviour and no infinite loop. Stack overflow by deep nesting is not modelled."
  },
  {
   "property": "C53",
   "status": "proved",
   "theorems": [
    "Verif.C53_roundtrip",
    "Verif.C53_text_exists"
   ],
   "note": "Every specification tree and every layout (Text); every rounding. The numerals denote the rounded value of the decimal, out of range is an exception."
  },
  {
   "property": "C54",
   "status": "proved",
   "theorems": [
    "Verif.C54_wellformed",
    "Verif.C54_built"
   ],
   "note": "Every accepted byte string; C54_built: all parsed formulas can be built by the public interface."
  },
  {
   "property": "C55",
   "status": "proved",
   "theorems": [
    "Verif.C55_distinct",
    "Verif.C55_rejected",
    "Verif.C55_kept"
   ],
   "note": "Distinct names for every accepted byte string; rejection and persistence for every specification tree and layout."
  },
  {
   "property": "C56",
   "status": "proved",
   "theorems": [
    "Verif.C56_undefined"
   ],
   "note": "Every specification tree and layout."
  },
  {
   "property": "C57",
   "status": "partial",
   "theorems": [
    "Verif.C57_refuted",
    "Verif.C57_rejected_partial",
    "Verif.C57_exception_partial"
   ],
   "note": "False of the code: C57_refuted. Proved: every specification with such a predicate is rejected by an exception (bad_optional_access if the constant is in range)."
  },
  {
   "property": "C58",
   "status": "partial",
   "theorems": [
    "Verif.C58_last_partial",
    "Verif.C58_parens_partial",
    "Verif.C58_refuted_one",
    "Verif.C58_refuted_parens"
   ],
   "note": "False of the code: C58_refuted_one (several expressions in one pair of parentheses are accepted, only the last counts), C58_refuted_parens (redundant parentheses are rejected). Proved in general: the last expression counts; redundant parentheses always lead to an exception."
  },
  {
   "property": "C59",
   "status": "partial",
   "theorems": [
    "Verif.C59_refuted_interval",
    "Verif.C59_refuted_until",
    "Verif.C59_interval_partial",
    "Verif.C59_injective_partial",
    "Verif.C59_collisions_partial",
    "Verif.C59_intervals_partial",
    "Verif.C59_refuted_name",
    "Verif.C59_parsed_partial",
    "Verif.C59_refuted_robustness"
   ],
   "note": "False of the code: C59_refuted_interval (bounded intervals are not printed), C59_refuted_until (Until is not parenthesised), C59_refuted_robustness (two formulas with one text and robustness of opposite signs), C59_refuted_name (names with blanks and brackets, which only C++ and Python can give). Proved: restricting intervals are never printed; for formulas with plain names and arbitrary intervals C59_intervals_partial says exactly which formulas have the same text, likewise C59_collisions_partial and C59_parsed_partial for unbounded intervals and all that the parser returns; without Until and with unbounded intervals different formulas have different texts. Missing: an exact criterion for names with blanks or brackets."
  },
  {
   "property": "C60",
   "status": "proved",
   "theorems": [
    "Verif.C60_signal_points",
    "Verif.C60_signal"
   ],
   "note": "All signals, every faithful text of numbers."
  },
  {
   "property": "C61",
   "status": "proved",
   "theorems": [
    "Verif.C61_samples_exact",
    "Verif.C61_start_exact"
   ],
   "note": "Exact arithmetic over the reals; signals with a common start and end. And/Or inside a temporal operator are part of the propositional core, And/Or of temporal formulas at the start of the trace."
  },
  {
   "property": "C62",
   "status": "proved",
   "theorems": [
    "Verif.C62_safety_margin",
    "Verif.C62_cosafety_margin",
    "Verif.C62_start_margin",
    "Verif.C62_lipschitz"
   ],
   "note": "Exact arithmetic over the reals."
  },
  {
   "property": "C63",
   "status": "proved",
   "theorems": [
    "Verif.C63_sample_count",
    "Verif.C63_operators"
   ],
   "note": "Any rounding that keeps zero and never yields NaN; shown for binary64 and exact arithmetic."
  },
  {
   "property": "C64",
   "status": "proved",
   "theorems": [
    "Verif.C64_no_error_at_samples"
   ],
   "note": "Any rounding; partial correctness (whether And/Or throw because of rounding is C43)."
  },
  {
   "property": "C65",
   "status": "proved",
   "theorems": [
    "Verif.C65_eventually",
    "Verif.C65_always"
   ],
   "note": "Any rounding that keeps zero and never yields NaN. The interval is ignored by the code (C31)."
  },
  {
   "property": "C66",
   "status": "partial",
   "theorems": [
    "Verif.C66_same_size_partial",
    "Verif.C66_debug_partial",
    "Verif.C66_refuted",
    "Verif.C66_flag_partial",
    "Verif.C66_pair_partial"
   ],
   "note": "False for three and more operands (refuted: failed assertion or a truncated result). Proved for every rounding: at most two operands; any number in either build if the intermediate results gain no timestamp; in debug builds the outcome is that without the flag or an abort, and it is an abort exactly if an intermediate result gains a timestamp."
  },
  {
   "property": "C67",
   "status": "proved",
   "theorems": [
    "Verif.C67_idempotent"
   ],
   "note": "Every rounding that does not produce NaN; the example is in binary64."
  },
  {
   "property": "C68",
   "status": "partial",
   "theorems": [
    "Verif.C68_refuted",
    "Verif.C68_samples_partial"
   ],
   "note": "False between samples (refuted for Eventually). Proved at all samples for Not/Always/Eventually over Boolean formulas; one-sided verdicts at all times are C39, C40, at the start C61."
  },
  {
   "property": "C69",
   "status": "proved",
   "theorems": [
    "Verif.C69_units"
   ],
   "note": "All formulas and positive factors in exact arithmetic; a rounded multiplication is out of scope. The converted formula and trace are defined in Spec/Units.lean."
  },
  {
   "property": "C70",
   "status": "partial",
   "theorems": [
    "Verif.C70_refuted",
    "Verif.C70_resample_partial",
    "Verif.C70_presynchronized_partial"
   ],
   "note": "False between samples for temporal operators (C70_refuted). Proved: the value at the start of the trace, all times of formulas without temporal operators, and synchronizing the signals of two predicates in advance changes nothing. Missing: later times of temporal formulas, where it is false."
  },
  {
   "property": "C71",
   "status": "proved",
   "theorems": [
    "Verif.C71_area",
    "Verif.C71_integral"
   ],
   "note": "Real numbers, integral of Mathlib."
  },
  {
   "property": "C72",
   "status": "proved",
   "theorems": [
    "Verif.C72_indexed",
    "Verif.C72_intersect",
    "Verif.C72_parallel",
    "Verif.C72_binary64_order"
   ],
   "note": "Exact arithmetic; C72_binary64_order shows that symmetry does not survive rounding. C72_indexed: the functions with an index, every rounding."
  },
  {
   "property": "C73",
   "status": "proved",
   "theorems": [
    "Verif.C73_equivalence",
    "Verif.C73_same_robustness",
    "Verif.C73_constants",
    "Verif.C73_distinguished"
   ],
   "note": "The model has one zero, so 0.0 and -0.0 are one constant; the code compares them equal as well. Strictness of the comparison does not change the robustness. C73_constants: constants."
  },
  {
   "property": "C74",
   "status": "proved",
   "theorems": [
    "Verif.C74_update",
    "Verif.C74_amortized",
    "Verif.C74_total",
    "Verif.C74_log_literal_refuted"
   ],
   "note": "Comparisons are counted by copies of the functions (Model/WedgeCost.lean) proved to compute the same results. The bound log2(N^2) in the comment of mono_wedge.h is refuted literally (7 comparisons at 11 elements); 2 log2 N + 2 is proved."
  },
  {
   "property": "C75",
   "status": "proved",
   "theorems": [
    "Verif.C75_future",
    "Verif.C75_same_future",
    "Verif.C75_constant_refuted"
   ],
   "note": "For every rounding that does not produce NaN. Constants are excluded: with them it is false (C75_constant_refuted)."
  },
  {
   "property": "C76",
   "status": "partial",
   "theorems": [
    "Verif.C76_refuted",
    "Verif.C76_improvement_partial"
   ],
   "note": "C76_refuted: raising q from -20 to -5 lowers the start robustness of G(F(p>=0 or q>=0) or r>=0) from 10/3 to 2, because the operands of a disjunction are sampled at different times. The partial theorem covers the formulas whose value at the start is exact (Combination) and, at all times, those without temporal operators."
  },
  {
   "property": "C77",
   "status": "proved",
   "theorems": [
    "Verif.C77_rename",
    "Verif.C77_order"
   ],
   "note": "every rounding; keys of the trace are distinct as in std::map; the renaming need only be injective on the names that occur."
  },
  {
   "property": "C78",
   "status": "proved",
   "theorems": [
    "Verif.C78_meaning",
    "Verif.C78_end_to_end"
   ],
   "note": "Texts of the grammar with predicates written name first (NoRev; C53 shows why the other form is excluded) and exact arithmetic over the reals. The second theorem excludes temporal operators over Boolean combinations of temporal formulas, Until and constants in the assertion: C61, C32 and C37 show why."
  },
  {
   "property": "C79",
   "status": "partial",
   "theorems": [
    "Verif.C79_refuted",
    "Verif.C79_longer_partial"
   ],
   "note": "C79_refuted: false as stated for nested temporal operators over Boolean combinations (LongerTrace is the full statement). Proved for the safety and co-safety formulas whose start value is exact (Combination, C61)."
  },
  {
   "property": "C80",
   "status": "proved",
   "theorems": [
    "Verif.C80_error",
    "Verif.C80_start",
    "Verif.C80_sharp"
   ],
   "note": "Exact arithmetic over the reals. Until, constants and bounded intervals are not in the formulas (C31, C32, C37 show that their errors are not bounded by the sampling)."
  },
  {
   "property": "C81",
   "status": "proved",
   "theorems": [
    "Verif.C81_sampling",
    "Verif.C81_converges"
   ],
   "note": "Exact arithmetic over the reals; the same formulas as C80."
  },
  {
   "property": "C82",
   "status": "proved",
   "theorems": [
    "Verif.C82_exact",
    "Verif.C82_meaning",
    "Verif.C82_rejected",
    "Verif.C82_unambiguous",
    "Verif.C82_documented"
   ],
   "note": "Exact in both directions: the accepted texts are those of an explicit grammar with an evaluation. Includes the odd texts that the parser accepts (several expressions in one pair of parentheses) and shows that the documented language is the part with one expression in each pair."
  },
  {
   "property": "C83",
   "status": "partial",
   "theorems": [
    "Verif.C83_attributes_partial",
    "Verif.C83_refuted",
    "Verif.C83_sequence_partial",
    "Verif.C83_construct_partial"
   ],
   "note": "False: the attribute derivative is bound to Sample::value (C83_refuted). The attributes are right exactly when the derivative equals the value; len, iteration, indexing, construction, at and the exceptions are right."
  },
  {
   "property": "C84",
   "status": "partial",
   "theorems": [
    "Verif.C84_order_partial",
    "Verif.C84_nan_partial",
    "Verif.C84_refuted"
   ],
   "note": "False with NaN (C84_refuted). Proved for all samples without NaN, and what happens with NaN."
  },
  {
   "property": "C85",
   "status": "partial",
   "theorems": [
    "Verif.C85_count",
    "Verif.C85_exponential_partial",
    "Verif.C85_linear_partial",
    "Verif.C85_family",
    "Verif.C85_calls",
    "Verif.C85_refuted"
   ],
   "note": "False: definitions used twice in the next one double the number of calls (C85_refuted, C85_family, C85_calls: 2^(n+1)-1 calls for a text of length at most 60(n+1)^2). Proved: at most 4^length for every accepted text; at most 2*length without references between formulas, iff and xor."
  },
  {
   "property": "C86",
   "status": "proved",
   "theorems": [
    "Verif.C86_correctly_rounded",
    "Verif.C86_chain",
    "Verif.C86_verdicts"
   ],
   "note": "In binary64 (round to nearest even, overflow, gradual underflow; signed zeros not distinguished). Formulas: Not, And, Or over chains of Not, Always, Eventually around one predicate; all signals used end at the same time; values and bounds finite doubles. C86_correctly_rounded and C86_verdicts are about instants at which all signals used have a sample, if a robustness is returned (rounded crossing times may make And/Or throw); C86_chain proves that one is returned, with all samples correctly rounded, when there is no And/Or."
  },
  {
   "property": "C87",
   "status": "proved",
   "theorems": [
    "Verif.C87_value",
    "Verif.C87_inequalities",
    "Verif.C87_equations"
   ],
   "note": "Exact arithmetic; operands with finite robustness signals that start at the same time. The value of every term at every instant of the common domain; laws hold for the computed robustness exactly if they hold for numbers."
  },
  {
   "property": "C88",
   "status": "proved",
   "theorems": [
    "Verif.C88_samples_kept",
    "Verif.C88_range",
    "Verif.C88_crossings"
   ],
   "note": "Every timestamp of the signals is kept and the range is the common range (any rounding); And/Or of two operands add only crossings (exact arithmetic)."
  },
  {
   "property": "C89",
   "status": "partial",
   "theorems": [
    "Verif.C89_always_and_partial",
    "Verif.C89_eventually_or_partial",
    "Verif.C89_always_or",
    "Verif.C89_eventually_and",
    "Verif.C89_final",
    "Verif.C89_refuted"
   ],
   "note": "Distribution is refuted between samples in both directions (C89_refuted); proved: comparison at samples, equality at common timestamps, the one-sided laws at all instants, and GF/FG = final value for any rounding. Missing: equality at all instants, which is false."
  },
  {
   "property": "C90",
   "status": "partial",
   "theorems": [
    "Verif.C90_refuted",
    "Verif.C90_right_partial",
    "Verif.C90_left_partial"
   ],
   "note": "All four identities are refuted (C90_refuted); proved: the exact robustness of all four forms for every operand with finite timestamps (no NaN for the left forms), with any rounding. Missing: the identities themselves, which are false."
  },
  {
   "property": "C91",
   "status": "partial",
   "theorems": [
    "Verif.C91_refuted",
    "Verif.C91_rounded_partial",
    "Verif.C91_exact_partial"
   ],
   "note": "Refuted in binary64 for ties and, without rounding, for three operands (C91_refuted); proved: two operands without ties for every rounding, exceptions included; two operands in exact arithmetic, ties included. Missing: ties with rounding and more than two operands, for which the claim is false (C24 has the equality as functions)."
  },
  {
   "property": "C92",
   "status": "proved",
   "theorems": [
    "Verif.C92_squeezed",
    "Verif.C92_same",
    "Verif.C92_replace",
    "Verif.C92_before",
    "Verif.C92_after",
    "Verif.C92_ends"
   ],
   "note": "C92_squeezed: parsing a text and parsing the text with all superfluous layout removed (specification function squeeze) are equal, for every text and amount of fuel; C92_same, C92_replace, C92_before, C92_after, C92_ends spell it out."
  },
  {
   "property": "C93",
   "status": "proved",
   "theorems": [
    "Verif.C93_timestamps",
    "Verif.C93_builds",
    "Verif.C93_assertions",
    "Verif.C93_exceptions",
    "Verif.C93_missing",
    "Verif.C93_constructed",
    "Verif.C93_flag"
   ],
   "note": "Unlike the theorems on success these have no hypothesis on the signals. C93_flag covers the assertions that can fail: calls with synchronized = true. Exceptions are modelled by their type. Memory exhaustion and undefined behaviour (C09 and others) are not exceptions and not covered."
  },
  {
   "property": "C94",
   "status": "partial",
   "theorems": [
    "Verif.C94_exceptions_partial",
    "Verif.C94_local_partial",
    "Verif.C94_builds_partial",
    "Verif.C94_accepted_partial",
    "Verif.C94_documented_partial",
    "Verif.C94_documented_exceptions_partial",
    "Verif.C94_refuted_exceptions",
    "Verif.C94_refuted_builds"
   ],
   "note": "The claim is false. C94_refuted_exceptions: `()` is rejected by logic_error, an undefined formula and a large number by out_of_range, a reversed predicate by bad_optional_access, (xor (or p p) true) by invalid_argument. C94_refuted_builds: a text accepted by the release build for which an assertion fails in the debug build. Proved instead for all texts: these five exceptions are the only ones, the last throw of _parse is not reached, debug and release agree unless an assertion fails; for documented texts no assertion fails, logic_error does not occur and bad_optional_access only with a reversed predicate."
  },
  {
   "property": "C95",
   "status": "proved",
   "theorems": [
    "Verif.C95_separately",
    "Verif.C95_read_back"
   ],
   "note": "Bit for bit, for every rounding that is odd, does not make NaN, keeps zero and is idempotent (exact arithmetic and binary64 are instances). Operators And/Or of psi need an operand: And() has a sample at time 0, which may lie outside of the trace (example)."
  },
  {
   "property": "C96",
   "status": "proved",
   "theorems": [
    "Verif.C96_concatenate",
    "Verif.C96_common_name",
    "Verif.C96_inline",
    "Verif.C96_inline_release",
    "Verif.C96_unused",
    "Verif.C96_rename",
    "Verif.C96_swap"
   ],
   "note": "For the whole accepted language with arbitrary layout. In the release build left-over terms of a definition (C58) are not part of the formula, so inlining is stated for texts that the debug build accepts (example of the difference). Without the line feed an open comment at the end of the first text swallows the second (example)."
  },
  {
   "property": "C97",
   "status": "proved",
   "theorems": [
    "Verif.C97_relax",
    "Verif.C97_margin",
    "Verif.C97_until",
    "Verif.C97_thresholds",
    "Verif.C97_other"
   ],
   "note": "The exclusions are part of the statement and are shown to be necessary: C97_until (tightening the predicates of an Until raises its value from 4 to 5) and C97_other (relaxing one threshold lowers the robustness of G (F (p or q) or r) from 10/3 to 2)."
  },
  {
   "property": "C98",
   "status": "proved",
   "theorems": [
    "Verif.C98_or",
    "Verif.C98_and",
    "Verif.C98_spacing",
    "Verif.C98_unsound"
   ],
   "note": "C98_spacing and C98_unsound show that a bound without the distance of the timestamps is impossible, and what it means for the verdict. Calls that throw because of a late crossing are the subject of C43."
  },
  {
   "property": "C99",
   "status": "proved",
   "theorems": [
    "Verif.C99_accuracy",
    "Verif.C99_verdicts",
    "Verif.C99_margin_needed"
   ],
   "note": "C99_margin_needed shows that the sign of the computed value alone does not decide the formula. Formulas without And and Or of signals are covered exactly by C86."
  },
  {
   "property": "C100",
   "status": "proved",
   "theorems": [
    "Verif.C100_value",
    "Verif.C100_exact",
    "Verif.C100_monotone",
    "Verif.C100_digits",
    "Verif.C100_short",
    "Verif.C100_collisions"
   ],
   "note": "C100_collisions gives numerals with more digits that are read as the same threshold. Numerals below the normal range are excluded: whether strtod reports a range error for them is left open by the C standard."
  },
  {
   "property": "C101",
   "status": "proved",
   "theorems": [
    "Verif.C101_meanings",
    "Verif.C101_text_verdict"
   ],
   "note": "The meaning of a text (textSat) is the one of C78. Until and temporal operators above And or Or are not covered: C99 shows that a margin is needed there."
  },
  {
   "property": "C102",
   "status": "partial",
   "theorems": [
    "Verif.C102_refuted",
    "Verif.C102_copy_throws",
    "Verif.C102_other_partial",
    "Verif.C102_exact_partial",
    "Verif.C102_order_partial",
    "Verif.C102_spacing_partial"
   ],
   "note": "False in binary64 because of shift (C102_refuted, C102_copy_throws). C102_other_partial: all other members, every rounding. C102_exact_partial: everything in ideal arithmetic. C102_order_partial, C102_spacing_partial: what shift does in floating point."
  },
  {
   "property": "C103",
   "status": "proved",
   "theorems": [
    "Verif.C103_resize_shift",
    "Verif.C103_shift_resize",
    "Verif.C103_shift_simplify",
    "Verif.C103_shift_synchronize",
    "Verif.C103_resize_resize"
   ],
   "note": ""
  },
  {
   "property": "C104",
   "status": "proved",
   "theorems": [
    "Verif.C104_max_seq",
    "Verif.C104_min_seq",
    "Verif.C104_empty",
    "Verif.C104_access",
    "Verif.C104_dense"
   ],
   "note": ""
  },
  {
   "property": "C105",
   "status": "proved",
   "theorems": [
    "Verif.C105_values"
   ],
   "note": ""
  },
  {
   "property": "C106",
   "status": "proved",
   "theorems": [
    "Verif.C106_search",
    "Verif.C106_update"
   ],
   "note": ""
  },
  {
   "property": "C107",
   "status": "proved",
   "theorems": [
    "Verif.C107_same",
    "Verif.C107_linear"
   ],
   "note": ""
  },
  {
   "property": "C108",
   "status": "proved",
   "theorems": [
    "Verif.C108_crossings",
    "Verif.C108_polynomial"
   ],
   "note": ""
  },
  {
   "property": "C109",
   "status": "proved",
   "theorems": [
    "Verif.C109_same",
    "Verif.C109_operations",
    "Verif.C109_counted",
    "Verif.C109_nodes",
    "Verif.C109_rounding",
    "Verif.C109_polynomial"
   ],
   "note": ""
  },
  {
   "property": "C110",
   "status": "proved",
   "theorems": [
    "Verif.C110_same",
    "Verif.C110_always",
    "Verif.C110_only",
    "Verif.C110_sound",
    "Verif.C110_dead",
    "Verif.C110_few",
    "Verif.C110_inside",
    "Verif.C110_live",
    "Verif.C110_unclosed_false",
    "Verif.C110_texts"
   ],
   "note": "C110_texts: the texts of different messages are different."
  },
  {
   "property": "C111",
   "status": "proved",
   "theorems": [
    "Verif.C111_evaluation",
    "Verif.C111_members",
    "Verif.C111_pair",
    "Verif.C111_alias",
    "Verif.C111_synchronize",
    "Verif.C111_frame",
    "Verif.C111_python",
    "Verif.C111_repeat"
   ],
   "note": ""
  },
  {
   "property": "C112",
   "status": "proved",
   "theorems": [
    "Verif.C112_null",
    "Verif.C112_only"
   ],
   "note": ""
  },
  {
   "property": "C113",
   "status": "proved",
   "theorems": [
    "Verif.C113_signals",
    "Verif.C113_sequences",
    "Verif.C113_evaluation",
    "Verif.C113_returned",
    "Verif.C113_inputs",
    "Verif.C113_or",
    "Verif.C113_exact",
    "Verif.C113_and_throws"
   ],
   "note": ""
  },
  {
   "property": "C114",
   "status": "proved",
   "theorems": [
    "Verif.C114_safe",
    "Verif.C114_unsafe",
    "Verif.C114_common_start",
    "Verif.C114_needed",
    "Verif.C114_total"
   ],
   "note": ""
  },
  {
   "property": "C115",
   "status": "proved",
   "theorems": [
    "Verif.C115_same",
    "Verif.C115_any_fuel",
    "Verif.C115_term"
   ],
   "note": ""
  },
  {
   "property": "C116",
   "status": "proved",
   "theorems": [
    "Verif.C116_sound",
    "Verif.C116_no_issues",
    "Verif.C116_halts",
    "Verif.C116_parse",
    "Verif.C116_left_recursion",
    "Verif.C116_idle_loop"
   ],
   "note": ""
  },
  {
   "property": "C117",
   "status": "proved",
   "theorems": [
    "Verif.C117_enough",
    "Verif.C117_no_other",
    "Verif.C117_needed",
    "Verif.C117_accepted",
    "Verif.C117_unbounded"
   ],
   "note": ""
  },
  {
   "property": "C118",
   "status": "proved",
   "theorems": [
    "Verif.C118_position",
    "Verif.C118_unique",
    "Verif.C118_final",
    "Verif.C118_append",
    "Verif.C118_name",
    "Verif.C118_action"
   ],
   "note": ""
  },
  {
   "property": "C119",
   "status": "proved",
   "theorems": [
    "Verif.C119_synchronize",
    "Verif.C119_or",
    "Verif.C119_and"
   ],
   "note": ""
  },
  {
   "property": "C120",
   "status": "proved",
   "theorems": [
    "Verif.C120_accuracy",
    "Verif.C120_verdicts"
   ],
   "note": ""
  },
  {
   "property": "C121",
   "status": "proved",
   "theorems": [
    "Verif.C121_linear",
    "Verif.C121_total",
    "Verif.C121_needed",
    "Verif.C121_slow"
   ],
   "note": ""
  },
  {
   "property": "C122",
   "status": "proved",
   "theorems": [
    "Verif.C122_file",
    "Verif.C122_what",
    "Verif.C122_reports",
    "Verif.C122_status",
    "Verif.C122_output",
    "Verif.C122_listing"
   ],
   "note": ""
  },
  {
   "property": "C123",
   "status": "partial",
   "theorems": [
    "Verif.C123_ends_partial",
    "Verif.C123_silent_partial",
    "Verif.C123_refuted",
    "Verif.C123_refuted_debug"
   ],
   "note": "False of the code: C123_refuted. Proved instead: exactly how the program ends otherwise, and that it then shows nothing itself."
  },
  {
   "property": "C124",
   "status": "partial",
   "theorems": [
    "Verif.C124_attributes_partial",
    "Verif.C124_refuted",
    "Verif.C124_operators_partial",
    "Verif.C124_compare_partial",
    "Verif.C124_refuted_range"
   ],
   "note": "False of the code: C124_refuted, C124_refuted_range. Proved instead: all other attributes, the operators with the exact cases that raise, and that only the last comparison counts."
  },
  {
   "property": "C125",
   "status": "proved",
   "theorems": [
    "Verif.C125_or",
    "Verif.C125_and",
    "Verif.C125_margin"
   ],
   "note": "Existence and accuracy of the result of And and Or in binary64 under a margin at the timestamps; C125_margin shows that without a margin the code throws."
  },
  {
   "property": "C126",
   "status": "proved",
   "theorems": [
    "Verif.C126_simplify",
    "Verif.C126_simplify_error",
    "Verif.C126_simplify_exact",
    "Verif.C126_simplify_underflow",
    "Verif.C126_simplify_idempotent",
    "Verif.C126_area"
   ],
   "note": "C126_simplify: every rounding; C126_simplify_error, C126_simplify_exact, C126_simplify_idempotent: binary64; C126_simplify_underflow: a signal whose function changes; C126_area: error of area()."
  },
  {
   "property": "C127",
   "status": "proved",
   "theorems": [
    "Verif.C127_ok",
    "Verif.C127_error",
    "Verif.C127_linear"
   ],
   "note": "C127_ok: success; C127_error: the error with the exact power; C127_linear: the bound that is linear in n."
  },
  {
   "property": "C128",
   "status": "proved",
   "theorems": [
    "Verif.C128_upper",
    "Verif.C128_violated",
    "Verif.C128_satisfied",
    "Verif.C128_binary64",
    "Verif.C128_between_needed",
    "Verif.C128_grid_needed"
   ],
   "note": "C128_upper: bounds at and between samples; C128_violated: verdicts; C128_satisfied: the other parities; C128_binary64: rounded arithmetic. C128_between_needed and C128_grid_needed show that the hypotheses cannot be dropped."
  },
  {
   "property": "C129",
   "status": "proved",
   "theorems": [
    "Verif.C129_samples",
    "Verif.C129_start"
   ],
   "note": "C129_samples: bounds and verdicts at and between the samples; C129_start: combinations by And, Or and Not at the start of the trace. C128_between_needed shows that the sign between samples of different sign means nothing, C128_grid_needed that two nested operators Until need the same timestamps."
  },
  {
   "property": "C130",
   "status": "proved",
   "theorems": [
    "Verif.C130_transfer",
    "Verif.C130_exact",
    "Verif.C130_safety",
    "Verif.C130_cosafety",
    "Verif.C130_boolean",
    "Verif.C130_samples",
    "Verif.C130_start",
    "Verif.C130_rounding_needed"
   ],
   "note": "C130_transfer: any rounding that the map preserves; C130_exact: exact arithmetic; C130_safety and C130_cosafety: C39 and C40 for numbers of any kind; C130_boolean: C38; C130_samples and C130_start: C61; C130_rounding_needed: the hypothesis about the rounding cannot be dropped."
  },
  {
   "property": "C131",
   "status": "proved",
   "theorems": [
    "Verif.C131_error",
    "Verif.C131_covers",
    "Verif.C131_same",
    "Verif.C131_sampling",
    "Verif.C131_converges",
    "Verif.C131_not_phi",
    "Verif.C131_any"
   ],
   "note": "C131_error: the bound at every real time; C131_any: the same for traces of numbers of any kind; C131_covers: every such formula has a count d; C131_same: the translation of formulas without Until and intervals (C80); C131_sampling, C131_converges: signals in continuous time; C131_not_phi: the limit is the robustness of the translated formula, not of the given one."
  },
  {
   "property": "C132",
   "status": "proved",
   "theorems": [
    "Verif.C132_error",
    "Verif.C132_measured"
   ],
   "note": "C132_error: the bound and the verdict at every real time; C132_measured: the bound for the signals that were measured. The bound does not need the signals to have the same timestamps. Formulas with And and Or are not covered in binary64: see C120 for their rounding errors."
  },
  {
   "property": "C133",
   "status": "proved",
   "theorems": [
    "Verif.C133_safety",
    "Verif.C133_cosafety",
    "Verif.C133_until",
    "Verif.C133_sign"
   ],
   "note": "C133_safety, C133_cosafety: the margin and the verdict at every real time, without And and Or; C133_until: violations of formulas with one level of Until; C133_sign: And and Or outside of the temporal operators, no margin, at common timestamps."
  },
  {
   "property": "C134",
   "status": "proved",
   "theorems": [
    "Verif.C134_boolean",
    "Verif.C134_samples",
    "Verif.C134_start",
    "Verif.C134_error",
    "Verif.C134_binary64",
    "Verif.C134_rounded"
   ],
   "note": "C134_boolean, C134_samples, C134_start: exact arithmetic, the order is decided by the robustness; C134_error: all formulas in exact arithmetic up to the sampling error; C134_binary64, C134_rounded: binary64. For formulas with intervals and Until the order is the one of the translated formulas, since intervals are ignored (C31, C33); between samples the order can be wrong (C89)."
  },
  {
   "property": "C135",
   "status": "proved",
   "theorems": [
    "Verif.C135_error",
    "Verif.C135_resample",
    "Verif.C135_improve",
    "Verif.C135_binary64"
   ],
   "note": "C135_error, C135_resample, C135_improve: exact arithmetic; C135_binary64: binary64. The bound of C135_improve is for formulas without Until, as the computation of Until does not improve with its second operand (C131). Bounds the deviations that make C70 and C76 false."
  },
  {
   "property": "C136",
   "status": "proved",
   "theorems": [
    "Verif.C136_vector",
    "Verif.C136_reversed",
    "Verif.C136_enumerate",
    "Verif.C136_indices",
    "Verif.C136_both",
    "Verif.C136_update"
   ],
   "note": "C136_vector, C136_reversed, C136_enumerate, C136_indices, C136_both; C136_update: assigning to the elements through the references."
  },
  {
   "property": "C137",
   "status": "proved",
   "theorems": [
    "Verif.C137_future",
    "Verif.C137_longer",
    "Verif.C137_binary64"
   ],
   "note": "C137_future: every continuation, exact arithmetic; C137_longer: computed values of a longer trace; C137_binary64: every continuation, binary64. Bounds the deviation that makes C79 false. The intervals are replaced by [0, inf) because the code ignores them (C31); without intervals the formula is the given one (C131_same)."
  },
  {
   "property": "C138",
   "status": "proved",
   "theorems": [
    "Verif.C138_verdict",
    "Verif.C138_future",
    "Verif.C138_boolean",
    "Verif.C138_boolean_future"
   ],
   "note": "C138_verdict: both verdicts and their completeness; C138_future: verdicts that are final (safety and co-safety formulas), and one-sided verdicts on the formula with its intervals; C138_boolean, C138_boolean_future: the same with And and Or below Always and Eventually, at the samples of the result."
  },
  {
   "property": "C139",
   "status": "proved",
   "theorems": [
    "Verif.C139_error",
    "Verif.C139_sampling",
    "Verif.C139_future"
   ],
   "note": "C139_error: recorded signals; C139_sampling: signals in continuous time; C139_future: verdicts that are final."
  },
  {
   "property": "C140",
   "status": "proved",
   "theorems": [
    "Verif.C140_error",
    "Verif.C140_sampling",
    "Verif.C140_not_text"
   ],
   "note": "C140_error: recorded signals; C140_sampling: signals in continuous time; C140_not_text: the translated text differs from the text."
  }
 ]
}