{
 "claims": [
  {
   "property": "C01",
   "status": "proved",
   "theorems": [
    "Verif.C01_zorich_first_return"
   ],
   "note": ""
  },
  {
   "property": "C02",
   "status": "proved",
   "theorems": [
    "Verif.C02_zorich_maximal_run",
    "Verif.C02_step_unique"
   ],
   "note": ""
  },
  {
   "property": "C03",
   "status": "proved",
   "theorems": [
    "Verif.C03_valid"
   ],
   "note": ""
  },
  {
   "property": "C04",
   "status": "proved",
   "theorems": [
    "Verif.C04_zorich_return"
   ],
   "note": ""
  },
  {
   "property": "C05",
   "status": "proved",
   "theorems": [
    "Verif.C05_swap_inverse",
    "Verif.C05_swapped_history"
   ],
   "note": ""
  },
  {
   "property": "C06",
   "status": "proved",
   "theorems": [
    "Verif.C06_saf_correct",
    "Verif.C06_saf_invariant",
    "Verif.C06_saf_history"
   ],
   "note": ""
  },
  {
   "property": "C07",
   "status": "proved",
   "theorems": [
    "Verif.C07_saf_additive"
   ],
   "note": ""
  },
  {
   "property": "C08",
   "status": "proved",
   "theorems": [
    "Verif.C08_reduce_iff",
    "Verif.C08_reduce_split"
   ],
   "note": ""
  },
  {
   "property": "C09",
   "status": "proved",
   "theorems": [
    "Verif.C09_reduce_dynamics"
   ],
   "note": ""
  },
  {
   "property": "C10",
   "status": "proved",
   "theorems": [
    "Verif.C10_frame"
   ],
   "note": ""
  },
  {
   "property": "C11",
   "status": "proved",
   "theorems": [
    "Verif.C11_cylinder",
    "Verif.C11_cylinder_returns"
   ],
   "note": ""
  },
  {
   "property": "C12",
   "status": "proved",
   "theorems": [
    "Verif.C12_separating"
   ],
   "note": ""
  },
  {
   "property": "C13",
   "status": "proved",
   "theorems": [
    "Verif.C13_nonSeparating"
   ],
   "note": ""
  },
  {
   "property": "C14",
   "status": "proved",
   "theorems": [
    "Verif.C14_limitReached"
   ],
   "note": ""
  },
  {
   "property": "C15",
   "status": "proved",
   "theorems": [
    "Verif.C15_no_error"
   ],
   "note": ""
  },
  {
   "property": "C16",
   "status": "proved",
   "theorems": [
    "Verif.C16_induce_zero",
    "Verif.C16_negative_limit"
   ],
   "note": ""
  },
  {
   "property": "C17",
   "status": "proved",
   "theorems": [
    "Verif.C17_split",
    "Verif.C17_split_unlimited"
   ],
   "note": ""
  },
  {
   "property": "C18",
   "status": "proved",
   "theorems": [
    "Verif.C18_terminates",
    "Verif.C18_not_autoSimilar",
    "Verif.C18_integers",
    "Verif.C18_rationals"
   ],
   "note": ""
  },
  {
   "property": "C19",
   "status": "proved",
   "theorems": [
    "Verif.C19_zorich_periodic",
    "Verif.C19_induce_periodic"
   ],
   "note": ""
  },
  {
   "property": "C20",
   "status": "proved",
   "theorems": [
    "Verif.C20_no_periodic",
    "Verif.C20_induce_no_periodic"
   ],
   "note": ""
  },
  {
   "property": "C21",
   "status": "proved",
   "theorems": [
    "Verif.C21_no_saddle_connection",
    "Verif.C21_keane",
    "Verif.C21_returns"
   ],
   "note": ""
  },
  {
   "property": "C22",
   "status": "proved",
   "theorems": [
    "Verif.C22_saf_shortcut",
    "Verif.C22_exact"
   ],
   "note": ""
  },
  {
   "property": "C23",
   "status": "partial",
   "theorems": [
    "Verif.C23_induce_no_periodic_partial",
    "Verif.C23_refuted"
   ],
   "note": "False in general: C23_refuted gives an exchange of eight intervals with lengths in a totally real cubic field for which induce reports WITHOUT_PERIODIC_TRAJECTORY_AUTO_SIMILAR although it has periodic points (the code compares lengths label by label but the permutation position by position). C23_induce_no_periodic_partial proves the claim for points in any Archimedean ordered field if each label on the top of the reporting IET has the same length as the label at its place in the state the tracker remembers, i.e., if that state is similar not only label by label but also position by position. With at most three intervals, the report never happens (C110)."
  },
  {
   "property": "C24",
   "status": "proved",
   "theorems": [
    "Verif.C24_eq",
    "Verif.C24_equivalence",
    "Verif.C24_equivalent",
    "Verif.C24_same_map"
   ],
   "note": ""
  },
  {
   "property": "C25",
   "status": "proved",
   "theorems": [
    "Verif.C25_round_trip",
    "Verif.C25_equal",
    "Verif.C25_behaviour"
   ],
   "note": ""
  },
  {
   "property": "C26",
   "status": "proved",
   "theorems": [
    "Verif.C26_subtractRepeated",
    "Verif.C26_empty_stack",
    "Verif.C26_subtract"
   ],
   "note": ""
  },
  {
   "property": "C27",
   "status": "proved",
   "theorems": [
    "Verif.C27_floor_division"
   ],
   "note": ""
  },
  {
   "property": "C28",
   "status": "proved",
   "theorems": [
    "Verif.C28_no_overflow",
    "Verif.C28_bounded",
    "Verif.C28_same",
    "Verif.C28_no_similarity",
    "Verif.C28_counter",
    "Verif.C28_decomposition",
    "Verif.C28_decompose",
    "Verif.C28_total_needed",
    "Verif.C28_similar"
   ],
   "note": ""
  },
  {
   "property": "C29",
   "status": "proved",
   "theorems": [
    "Verif.C29_render_injective",
    "Verif.C29_render_letters"
   ],
   "note": ""
  },
  {
   "property": "C30",
   "status": "proved",
   "theorems": [
    "Verif.C30_only",
    "Verif.C30_forget",
    "Verif.C30_similar"
   ],
   "note": ""
  },
  {
   "property": "C31",
   "status": "proved",
   "theorems": [
    "Verif.C31_decides",
    "Verif.C31_nonZero",
    "Verif.C31_sizes"
   ],
   "note": ""
  },
  {
   "property": "C32",
   "status": "proved",
   "theorems": [
    "Verif.C32_strategies"
   ],
   "note": ""
  },
  {
   "property": "C33",
   "status": "partial",
   "theorems": [
    "Verif.C33_swap_partial",
    "Verif.C33_swap_undefined",
    "Verif.C33_elementary",
    "Verif.C33_elementary_inverse",
    "Verif.C33_elementary_not_injective"
   ],
   "note": "Proved as far as it holds; the statement as given is refuted: swap is undefined behaviour in dimension at least 3 and elementaryTransformation(i, i, -1) is not injective (theorems beside the partial ones)."
  },
  {
   "property": "C34",
   "status": "proved",
   "theorems": [
    "Verif.C34_construct",
    "Verif.C34_rejected",
    "Verif.C34_undetected",
    "Verif.C34_undetected_cases"
   ],
   "note": ""
  },
  {
   "property": "C35",
   "status": "proved",
   "theorems": [
    "Verif.C35_partition",
    "Verif.C35_step"
   ],
   "note": ""
  },
  {
   "property": "C36",
   "status": "proved",
   "theorems": [
    "Verif.C36_covers",
    "Verif.C36_periodic"
   ],
   "note": ""
  },
  {
   "property": "C37",
   "status": "partial",
   "theorems": [
    "Verif.C37_cylinder",
    "Verif.C37_withoutPeriodicTrajectory_partial",
    "Verif.C37_exclusive",
    "Verif.C37_selfSimilar_partial",
    "Verif.C37_refuted"
   ],
   "note": "False in general: C37_refuted gives an IET that decompose() leaves as a single component with withoutPeriodicTrajectory() true although it has periodic points. withoutPeriodicTrajectory() is proved sound if WITHOUT_PERIODIC_TRAJECTORY_AUTO_SIMILAR has not been reported in the history (C37_withoutPeriodicTrajectory_partial), and for points in any Archimedean ordered field if whenever it was reported each label on the top of the component had the same length as the label at its place in the state the tracker remembers (C37_selfSimilar_partial). The claims on cylinder() and that the flags exclude each other are proved without restriction. With at most three intervals, withoutPeriodicTrajectory() is sound without restriction (C110)."
  },
  {
   "property": "C38",
   "status": "proved",
   "theorems": [
    "Verif.C38_target",
    "Verif.C38_component",
    "Verif.C38_default",
    "Verif.C38_unsatisfiable"
   ],
   "note": ""
  },
  {
   "property": "C39",
   "status": "proved",
   "theorems": [
    "Verif.C39_decompose",
    "Verif.C39_never_without_periodic"
   ],
   "note": ""
  },
  {
   "property": "C40",
   "status": "proved",
   "theorems": [
    "Verif.C40_saddle_connections"
   ],
   "note": ""
  },
  {
   "property": "C41",
   "status": "proved",
   "theorems": [
    "Verif.C41_recorded_twice",
    "Verif.C41_check"
   ],
   "note": ""
  },
  {
   "property": "C42",
   "status": "proved",
   "theorems": [
    "Verif.C42_progress",
    "Verif.C42_state",
    "Verif.C42_results",
    "Verif.C42_wrapper"
   ],
   "note": ""
  },
  {
   "property": "C43",
   "status": "proved",
   "theorems": [
    "Verif.C43_limitReached",
    "Verif.C43_atMost",
    "Verif.C43_unlimited"
   ],
   "note": ""
  },
  {
   "property": "C44",
   "status": "proved",
   "theorems": [
    "Verif.C44_walk",
    "Verif.C44_inverse",
    "Verif.C44_negation"
   ],
   "note": ""
  },
  {
   "property": "C45",
   "status": "proved",
   "theorems": [
    "Verif.C45_separatrix",
    "Verif.C45_connection",
    "Verif.C45_orientation",
    "Verif.C45_halfEdge"
   ],
   "note": ""
  },
  {
   "property": "C46",
   "status": "partial",
   "theorems": [
    "Verif.C46_refuted",
    "Verif.C46_partial"
   ],
   "note": "Refuted for this code by C46_refuted: the decomposition shares the lengths of the IET it is created from, and a step changes them. C46_partial proves what remains true: top(), bottom() and everything with other lengths are unaffected."
  },
  {
   "property": "C47",
   "status": "proved",
   "theorems": [
    "Verif.C47_frame",
    "Verif.C47_snapshot",
    "Verif.C47_equal"
   ],
   "note": ""
  },
  {
   "property": "C48",
   "status": "proved",
   "theorems": [
    "Verif.C48_inject"
   ],
   "note": ""
  },
  {
   "property": "C49",
   "status": "proved",
   "theorems": [
    "Verif.C49_bounded"
   ],
   "note": ""
  },
  {
   "property": "C50",
   "status": "proved",
   "theorems": [
    "Verif.C50_perimeter"
   ],
   "note": ""
  },
  {
   "property": "C51",
   "status": "proved",
   "theorems": [
    "Verif.C51_limitReached",
    "Verif.C51_decomposition_limitReached",
    "Verif.C51_detected"
   ],
   "note": ""
  },
  {
   "property": "C52",
   "status": "proved",
   "theorems": [
    "Verif.C52_all_rounds",
    "Verif.C52_connection",
    "Verif.C52_other",
    "Verif.C52_rounds_unique"
   ],
   "note": ""
  },
  {
   "property": "C53",
   "status": "proved",
   "theorems": [
    "Verif.C53_all_separatrices",
    "Verif.C53_separatrix"
   ],
   "note": ""
  },
  {
   "property": "C54",
   "status": "proved",
   "theorems": [
    "Verif.C54_limitReached",
    "Verif.C54_unlimited"
   ],
   "note": ""
  },
  {
   "property": "C55",
   "status": "proved",
   "theorems": [
    "Verif.C55_no_invalid_iterator",
    "Verif.C55_paired",
    "Verif.C55_same_as_labels"
   ],
   "note": ""
  },
  {
   "property": "C56",
   "status": "proved",
   "theorems": [
    "Verif.C56_results",
    "Verif.C56_step",
    "Verif.C56_history"
   ],
   "note": ""
  },
  {
   "property": "C57",
   "status": "proved",
   "theorems": [
    "Verif.C57_make",
    "Verif.C57_step",
    "Verif.C57_decompose"
   ],
   "note": ""
  },
  {
   "property": "C58",
   "status": "proved",
   "theorems": [
    "Verif.C58_sum",
    "Verif.C58_cylinders"
   ],
   "note": ""
  },
  {
   "property": "C59",
   "status": "proved",
   "theorems": [
    "Verif.C59_towers",
    "Verif.C59_area"
   ],
   "note": ""
  },
  {
   "property": "C60",
   "status": "proved",
   "theorems": [
    "Verif.C60_perimeters"
   ],
   "note": ""
  },
  {
   "property": "C61",
   "status": "proved",
   "theorems": [
    "Verif.C61_equivalent"
   ],
   "note": ""
  },
  {
   "property": "C62",
   "status": "proved",
   "theorems": [
    "Verif.C62_dynamics",
    "Verif.C62_step",
    "Verif.C62_stored",
    "Verif.C62_above",
    "Verif.C62_inconsistent"
   ],
   "note": ""
  },
  {
   "property": "C63",
   "status": "proved",
   "theorems": [
    "Verif.C63_progress",
    "Verif.C63_state",
    "Verif.C63_results",
    "Verif.C63_step",
    "Verif.C63_decomposition",
    "Verif.C63_decompose"
   ],
   "note": ""
  },
  {
   "property": "C64",
   "status": "proved",
   "theorems": [
    "Verif.C64_progress",
    "Verif.C64_state",
    "Verif.C64_results",
    "Verif.C64_step",
    "Verif.C64_decomposition",
    "Verif.C64_decompose"
   ],
   "note": ""
  },
  {
   "property": "C65",
   "status": "proved",
   "theorems": [
    "Verif.C65_rational",
    "Verif.C65_renf",
    "Verif.C65_renf_returns",
    "Verif.C65_renf_throws",
    "Verif.C65_element",
    "Verif.C65_renf_lengths",
    "Verif.C65_element_lengths",
    "Verif.C65_order"
   ],
   "note": ""
  },
  {
   "property": "C66",
   "status": "proved",
   "theorems": [
    "Verif.C66_returns",
    "Verif.C66_iet_returns",
    "Verif.C66_component",
    "Verif.C66_decomposition",
    "Verif.C66_step",
    "Verif.C66_inductionStep",
    "Verif.C66_label",
    "Verif.C66_iet"
   ],
   "note": ""
  },
  {
   "property": "C67",
   "status": "proved",
   "theorems": [
    "Verif.C67_accepts",
    "Verif.C67_created",
    "Verif.C67_equal",
    "Verif.C67_lengths",
    "Verif.C67_stale"
   ],
   "note": ""
  },
  {
   "property": "C68",
   "status": "proved",
   "theorems": [
    "Verif.C68_induce",
    "Verif.C68_decompositionStep",
    "Verif.C68_unlimited",
    "Verif.C68_decompose"
   ],
   "note": ""
  },
  {
   "property": "C69",
   "status": "proved",
   "theorems": [
    "Verif.C69_noPeriodicTrajectory",
    "Verif.C69_noSaddleConnection₂",
    "Verif.C69_noSaddleConnection",
    "Verif.C69_induce",
    "Verif.C69_induce_unlimited",
    "Verif.C69_decompositionStep",
    "Verif.C69_decompose"
   ],
   "note": ""
  },
  {
   "property": "C70",
   "status": "proved",
   "theorems": [
    "Verif.C70_session",
    "Verif.C70_answers",
    "Verif.C70_decomposition",
    "Verif.C70_steps"
   ],
   "note": ""
  },
  {
   "property": "C71",
   "status": "partial",
   "theorems": [
    "Verif.C71_no_connection_partial",
    "Verif.C71_refuted",
    "Verif.C71_decompose_refuted"
   ],
   "note": "Refuted for this code by C71_refuted and C71_decompose_refuted: AUTO_SIMILAR is reported, and decompose() returns true, for an exchange of seven intervals over the ring of integers with a square root of 13 adjoined that has a saddle connection which further calls of zorichInduction find; the tracker compares lengths label by label but the permutation position by position. C71_no_connection_partial proves the claim if each label on the top has the same length as the label at its place in the state the tracker remembers."
  },
  {
   "property": "C72",
   "status": "proved",
   "theorems": [
    "Verif.C72_cylinders",
    "Verif.C72_same",
    "Verif.C72_marked",
    "Verif.C72_induce"
   ],
   "note": ""
  },
  {
   "property": "C73",
   "status": "proved",
   "theorems": [
    "Verif.C73_induce",
    "Verif.C73_induce_never",
    "Verif.C73_decompositionStep",
    "Verif.C73_unlimited",
    "Verif.C73_settle",
    "Verif.C73_cylinders"
   ],
   "note": ""
  },
  {
   "property": "C74",
   "status": "proved",
   "theorems": [
    "Verif.C74_attainable",
    "Verif.C74_unique",
    "Verif.C74_counts",
    "Verif.C74_complete_iff",
    "Verif.C74_finished"
   ],
   "note": ""
  },
  {
   "property": "C75",
   "status": "proved",
   "theorems": [
    "Verif.C75_boshernitzan",
    "Verif.C75_induce_never",
    "Verif.C75_component",
    "Verif.C75_orbits",
    "Verif.C75_attainable",
    "Verif.C75_exclusive"
   ],
   "note": ""
  },
  {
   "property": "C76",
   "status": "proved",
   "theorems": [
    "Verif.C76_limited",
    "Verif.C76_unlimited",
    "Verif.C76_overflow",
    "Verif.C76_minimal",
    "Verif.C76_separating"
   ],
   "note": ""
  },
  {
   "property": "C77",
   "status": "proved",
   "theorems": [
    "Verif.C77_itineraries",
    "Verif.C77_periodic",
    "Verif.C77_swap",
    "Verif.C77_swap_same"
   ],
   "note": ""
  },
  {
   "property": "C78",
   "status": "proved",
   "theorems": [
    "Verif.C78_saddle",
    "Verif.C78_once",
    "Verif.C78_complete",
    "Verif.C78_same",
    "Verif.C78_swap"
   ],
   "note": ""
  },
  {
   "property": "C79",
   "status": "proved",
   "theorems": [
    "Verif.C79_components",
    "Verif.C79_swap",
    "Verif.C79_swap_counts"
   ],
   "note": ""
  },
  {
   "property": "C80",
   "status": "proved",
   "theorems": [
    "Verif.C80_call",
    "Verif.C80_calls",
    "Verif.C80_results",
    "Verif.C80_step",
    "Verif.C80_decompose",
    "Verif.C80_components",
    "Verif.C80_inject",
    "Verif.C80_construct"
   ],
   "note": ""
  },
  {
   "property": "C81",
   "status": "partial",
   "theorems": [
    "Verif.C81_noassert_partial",
    "Verif.C81_nocheck",
    "Verif.C81_nocheck_left",
    "Verif.C81_refuted"
   ],
   "note": "Refuted for this code by C81_refuted: boshernitzanNoSaddleConnection increments its iterators inside of LIBINTERVALXT_CHECK_ARGUMENT, so with LIBINTERVALXT_NOCHECK it looks at the left instead of the right end points of the intervals (C81_nocheck_left) and without labels it always returns false (C81_nocheck). C81_noassert_partial proves the claim for NDEBUG and LIBINTERVALXT_NOASSERT."
  },
  {
   "property": "C82",
   "status": "proved",
   "theorems": [
    "Verif.C82_variables",
    "Verif.C82_values"
   ],
   "note": ""
  },
  {
   "property": "C83",
   "status": "proved",
   "theorems": [
    "Verif.C83_labels",
    "Verif.C83_nodes",
    "Verif.C83_paired",
    "Verif.C83_same",
    "Verif.C83_step",
    "Verif.C83_decompose",
    "Verif.C83_make"
   ],
   "note": ""
  },
  {
   "property": "C84",
   "status": "proved",
   "theorems": [
    "Verif.C84_points",
    "Verif.C84_decides",
    "Verif.C84_strategies",
    "Verif.C84_equal",
    "Verif.C84_equal_equations",
    "Verif.C84_equal_mixed",
    "Verif.C84_origin",
    "Verif.C84_equivalence",
    "Verif.C84_default"
   ],
   "note": ""
  },
  {
   "property": "C85",
   "status": "proved",
   "theorems": [
    "Verif.Lifetime.C85_valid",
    "Verif.Lifetime.C85_alive",
    "Verif.Lifetime.C85_leak",
    "Verif.Lifetime.C85_handle"
   ],
   "note": ""
  },
  {
   "property": "C86",
   "status": "proved",
   "theorems": [
    "Verif.C86_valid",
    "Verif.C86_progress",
    "Verif.C86_induce",
    "Verif.C86_const",
    "Verif.C86_renf",
    "Verif.C86_changed"
   ],
   "note": ""
  },
  {
   "property": "C87",
   "status": "proved",
   "theorems": [
    "Verif.C87_model",
    "Verif.C87_partition",
    "Verif.C87_covers",
    "Verif.C87_periodic",
    "Verif.C87_cylinder",
    "Verif.C87_withoutPeriodicTrajectory",
    "Verif.C87_exclusive",
    "Verif.C87_connections",
    "Verif.C87_recorded",
    "Verif.C87_check",
    "Verif.C87_progress",
    "Verif.C87_step",
    "Verif.C87_throw",
    "Verif.C87_decompose",
    "Verif.C87_changed"
   ],
   "note": ""
  },
  {
   "property": "C88",
   "status": "proved",
   "theorems": [
    "Verif.C88_calls",
    "Verif.C88_decomposition",
    "Verif.C88_cylinders",
    "Verif.C88_divides",
    "Verif.C88_rank"
   ],
   "note": ""
  },
  {
   "property": "C89",
   "status": "proved",
   "theorems": [
    "Verif.C89_cylinders",
    "Verif.C89_same",
    "Verif.C89_counts",
    "Verif.C89_attainable"
   ],
   "note": ""
  },
  {
   "property": "C90",
   "status": "proved",
   "theorems": [
    "Verif.C90_component",
    "Verif.C90_remaining",
    "Verif.C90_new",
    "Verif.C90_iet",
    "Verif.C90_total",
    "Verif.C90_relabelled"
   ],
   "note": ""
  },
  {
   "property": "C91",
   "status": "proved",
   "theorems": [
    "Verif.C91_translation",
    "Verif.C91_even",
    "Verif.C91_calls",
    "Verif.C91_decomposition",
    "Verif.C91_bound",
    "Verif.C91_complete",
    "Verif.C91_minimal",
    "Verif.C91_intervals",
    "Verif.C91_components",
    "Verif.C91_attained"
   ],
   "note": ""
  },
  {
   "property": "C92",
   "status": "proved",
   "theorems": [
    "Verif.C92_once",
    "Verif.C92_pickle",
    "Verif.C92_headers",
    "Verif.C92_gmp"
   ],
   "note": ""
  },
  {
   "property": "C93",
   "status": "proved",
   "theorems": [
    "Verif.C93_euler",
    "Verif.C93_zorich",
    "Verif.C93_swap",
    "Verif.C93_world",
    "Verif.C93_calls",
    "Verif.C93_decomposition",
    "Verif.C93_components",
    "Verif.C93_attained"
   ],
   "note": ""
  },
  {
   "property": "C94",
   "status": "proved",
   "theorems": [
    "Verif.C94_round_trip",
    "Verif.C94_unknown",
    "Verif.C94_unregistered",
    "Verif.C94_null"
   ],
   "note": ""
  },
  {
   "property": "C95",
   "status": "proved",
   "theorems": [
    "Verif.C95_zorich",
    "Verif.C95_calls",
    "Verif.C95_lengths"
   ],
   "note": ""
  },
  {
   "property": "C96",
   "status": "proved",
   "theorems": [
    "Verif.C96_induce",
    "Verif.C96_lengths",
    "Verif.C96_decompositionStep"
   ],
   "note": ""
  },
  {
   "property": "C97",
   "status": "proved",
   "theorems": [
    "Verif.C97_sides",
    "Verif.C97_between",
    "Verif.C97_halfEdge",
    "Verif.C97_names",
    "Verif.C97_names_stay"
   ],
   "note": ""
  },
  {
   "property": "C98",
   "status": "proved",
   "theorems": [
    "Verif.Lifetime.C98_move",
    "Verif.Lifetime.C98_same",
    "Verif.Lifetime.C98_empty",
    "Verif.Lifetime.C98_only",
    "Verif.Lifetime.C98_assign",
    "Verif.Lifetime.C98_self",
    "Verif.Lifetime.C98_leak"
   ],
   "note": ""
  },
  {
   "property": "C99",
   "status": "proved",
   "theorems": [
    "Verif.C99_visits",
    "Verif.C99_fits",
    "Verif.C99_shrink",
    "Verif.C99_decompositionStep"
   ],
   "note": ""
  },
  {
   "property": "C100",
   "status": "proved",
   "theorems": [
    "Verif.C100_round_trip",
    "Verif.C100_unknown",
    "Verif.C100_unregistered",
    "Verif.C100_once"
   ],
   "note": ""
  },
  {
   "property": "C101",
   "status": "proved",
   "theorems": [
    "Verif.C101_quotient",
    "Verif.C101_codimension"
   ],
   "note": ""
  },
  {
   "property": "C102",
   "status": "proved",
   "theorems": [
    "Verif.C102_rotation"
   ],
   "note": ""
  },
  {
   "property": "C103",
   "status": "proved",
   "theorems": [
    "Verif.C103_divisors",
    "Verif.C103_gcd",
    "Verif.C103_decompose",
    "Verif.C103_period"
   ],
   "note": ""
  },
  {
   "property": "C104",
   "status": "proved",
   "theorems": [
    "Verif.C104_rational",
    "Verif.C104_irrational"
   ],
   "note": ""
  },
  {
   "property": "C105",
   "status": "proved",
   "theorems": [
    "Verif.C105_make",
    "Verif.C105_default",
    "Verif.C105_construct"
   ],
   "note": ""
  },
  {
   "property": "C106",
   "status": "proved",
   "theorems": [
    "Verif.C106_three"
   ],
   "note": ""
  },
  {
   "property": "C107",
   "status": "proved",
   "theorems": [
    "Verif.C107_induce",
    "Verif.C107_decompositionStep",
    "Verif.C107_decompose"
   ],
   "note": ""
  },
  {
   "property": "C108",
   "status": "proved",
   "theorems": [
    "Verif.C108_decompose"
   ],
   "note": ""
  },
  {
   "property": "C109",
   "status": "proved",
   "theorems": [
    "Verif.C109_cylinders",
    "Verif.C109_decompose"
   ],
   "note": ""
  },
  {
   "property": "C110",
   "status": "proved",
   "theorems": [
    "Verif.C110_never",
    "Verif.C110_decompositionStep",
    "Verif.C110_withoutPeriodicTrajectory"
   ],
   "note": ""
  },
  {
   "property": "C111",
   "status": "proved",
   "theorems": [
    "Verif.C111_exact",
    "Verif.C111_marked",
    "Verif.C111_decompose",
    "Verif.C111_agree"
   ],
   "note": ""
  },
  {
   "property": "C112",
   "status": "proved",
   "theorems": [
    "Verif.C112_same",
    "Verif.C112_swap",
    "Verif.C112_periodic",
    "Verif.C112_induce"
   ],
   "note": ""
  },
  {
   "property": "C113",
   "status": "proved",
   "theorems": [
    "Verif.C113_minimal",
    "Verif.C113_decompose",
    "Verif.C113_orbits"
   ],
   "note": ""
  }
 ]
}