{
 "claims": [
  {
   "property": "C01",
   "status": "proved",
   "theorems": [
    "Gcl.C01_and",
    "Gcl.C01_or",
    "Gcl.C01_invert",
    "Gcl.C01_foreign",
    "Gcl.C01_arrays"
   ],
   "note": ""
  },
  {
   "property": "C02",
   "status": "proved",
   "theorems": [
    "Gcl.C02_eq_ne",
    "Gcl.C02_complement",
    "Gcl.C02_foreign",
    "Gcl.C02_false"
   ],
   "note": "Exact for all masks and operands (C02_eq_ne, C02_foreign). That any two masks of equal length can be compared is refuted (C02_false): MaskGroup == MaskArray and != between the two raise TypeError."
  },
  {
   "property": "C03",
   "status": "proved",
   "theorems": [
    "Gcl.C03_aggregate",
    "Gcl.C03_defined",
    "Gcl.C03_none",
    "Gcl.C03_empty",
    "Gcl.C03_ragged",
    "Gcl.C03_all_and",
    "Gcl.C03_all_or",
    "Gcl.C03_methods",
    "Gcl.C03_bool"
   ],
   "note": ""
  },
  {
   "property": "C04",
   "status": "proved",
   "theorems": [
    "Gcl.C04_look",
    "Gcl.C04_roundtrip",
    "Gcl.C04_faithful"
   ],
   "note": ""
  },
  {
   "property": "C05",
   "status": "proved",
   "theorems": [
    "Gcl.C05_equal_to",
    "Gcl.C05_equivalence",
    "Gcl.C05_order_implies",
    "Gcl.C05_ignores_agg_op"
   ],
   "note": ""
  },
  {
   "property": "C06",
   "status": "proved",
   "theorems": [
    "Gcl.C06_restored",
    "Gcl.C06_and",
    "Gcl.C06_explicit",
    "Gcl.C06_false"
   ],
   "note": "Exact: C06_restored, for every tree. agg_op is not serialized, so the round-trip expectation is refuted (C06_false)."
  },
  {
   "property": "C07",
   "status": "proved",
   "theorems": [
    "Gcl.C07_recursive_drop",
    "Gcl.C07_key_gone",
    "Gcl.C07_idempotent",
    "Gcl.C07_absent"
   ],
   "note": ""
  },
  {
   "property": "C08",
   "status": "proved",
   "theorems": [
    "Gcl.C08_flatten_rise",
    "Gcl.C08_distinct",
    "Gcl.C08_repeated"
   ],
   "note": ""
  },
  {
   "property": "C09",
   "status": "proved",
   "theorems": [
    "Gcl.C09_flatten_agg"
   ],
   "note": ""
  },
  {
   "property": "C10",
   "status": "proved",
   "theorems": [
    "Gcl.C10_leaf_masks",
    "Gcl.C10_repeated",
    "Gcl.C10_members"
   ],
   "note": ""
  },
  {
   "property": "C11",
   "status": "proved",
   "theorems": [
    "Gcl.C11_slice_data",
    "Gcl.C11_slice_shape"
   ],
   "note": ""
  },
  {
   "property": "C12",
   "status": "proved",
   "theorems": [
    "Gcl.C12_history",
    "Gcl.C12_lookup_errors"
   ],
   "note": ""
  },
  {
   "property": "C13",
   "status": "proved",
   "theorems": [
    "Gcl.C13_same",
    "Gcl.C13_isolated",
    "Gcl.C13_one_sided"
   ],
   "note": ""
  },
  {
   "property": "C14",
   "status": "proved",
   "theorems": [
    "Gcl.C14_original_untouched",
    "Gcl.C14_copy",
    "Gcl.C14_array",
    "Gcl.C14_inplace"
   ],
   "note": ""
  },
  {
   "property": "C15",
   "status": "proved",
   "theorems": [
    "Gcl.C15_scalar",
    "Gcl.C15_momentum",
    "Gcl.C15_pairs"
   ],
   "note": ""
  },
  {
   "property": "C16",
   "status": "proved",
   "theorems": [
    "Gcl.C16_by_name",
    "Gcl.C16_order_irrelevant",
    "Gcl.C16_error",
    "Gcl.C16_fields"
   ],
   "note": ""
  },
  {
   "property": "C17",
   "status": "proved",
   "theorems": [
    "Gcl.C17_by_name",
    "Gcl.C17_fields",
    "Gcl.C17_error"
   ],
   "note": ""
  },
  {
   "property": "C18",
   "status": "proved",
   "theorems": [
    "Gcl.C18_columns",
    "Gcl.C18_swapped",
    "Gcl.C18_false",
    "Gcl.C18_other_names"
   ],
   "note": "Exact: C18_columns, C18_swapped. Reading by name is refuted (C18_false)."
  },
  {
   "property": "C19",
   "status": "proved",
   "theorems": [
    "Gcl.C19_getitem_int",
    "Gcl.C19_false",
    "Gcl.C19_color"
   ],
   "note": "Proved for every class; length 2 for ColorArray (C19_color), so length 1 in general is refuted (C19_false)."
  },
  {
   "property": "C20",
   "status": "proved",
   "theorems": [
    "Gcl.C20_mask",
    "Gcl.C20_mask_length",
    "Gcl.C20_ints",
    "Gcl.C20_slice_zero",
    "Gcl.C20_slice_up",
    "Gcl.C20_slice_down"
   ],
   "note": ""
  },
  {
   "property": "C21",
   "status": "proved",
   "theorems": [
    "Gcl.C21_compose",
    "Gcl.C21_and"
   ],
   "note": ""
  },
  {
   "property": "C22",
   "status": "proved",
   "theorems": [
    "Gcl.C22_sensitive",
    "Gcl.C22_complement",
    "Gcl.C22_magnitude",
    "Gcl.C22_insensitive",
    "Gcl.C22_false"
   ],
   "note": "Exact for all codes and targets, with 32-bit wrap-around of abs at -2^31 (C22_magnitude). Negative targets never match without sign_sensitive (C22_false)."
  },
  {
   "property": "C23",
   "status": "proved",
   "theorems": [
    "Gcl.C23_signed",
    "Gcl.C23_unsigned",
    "Gcl.C23_default",
    "Gcl.C23_false"
   ],
   "note": "Exact for all 16-bit statuses; the default range rejects exactly -32768 (C23_default, C23_false)."
  },
  {
   "property": "C24",
   "status": "proved",
   "theorems": [
    "Gcl.C24_categories",
    "Gcl.C24_disjoint",
    "Gcl.C24_aggregate"
   ],
   "note": ""
  },
  {
   "property": "C25",
   "status": "proved",
   "theorems": [
    "Gcl.C25_getitem",
    "Gcl.C25_mask_error",
    "Gcl.C25_aligned"
   ],
   "note": ""
  },
  {
   "property": "C26",
   "status": "proved",
   "theorems": [
    "Gcl.C26_len_first",
    "Gcl.C26_empty",
    "Gcl.C26_aligned",
    "Gcl.C26_masked_len"
   ],
   "note": ""
  },
  {
   "property": "C27",
   "status": "proved",
   "theorems": [
    "Gcl.C27_copy",
    "Gcl.C27_parts",
    "Gcl.C27_false"
   ],
   "note": "Exact: everything but weights is copied (C27_copy, C27_parts); weights are lost (C27_false)."
  },
  {
   "property": "C28",
   "status": "proved",
   "theorems": [
    "Gcl.C28_false",
    "Gcl.C28_decides",
    "Gcl.C28_contents"
   ],
   "note": "Exact decision procedure for all pairs (C28_decides); independence from the contents (C28_contents); comparison of contents refuted (C28_false)."
  },
  {
   "property": "C29",
   "status": "proved",
   "theorems": [
    "Gcl.C29_translate",
    "Gcl.C29_order_irrelevant"
   ],
   "note": ""
  },
  {
   "property": "C30",
   "status": "proved",
   "theorems": [
    "Gcl.C30_false",
    "Gcl.C30_frame"
   ],
   "note": "Complete effect on the caller's arrays (C30_frame); an int16 status array is rewritten in place (C30_false)."
  },
  {
   "property": "C31",
   "status": "proved",
   "theorems": [
    "Gcl.C31_from_numpy",
    "Gcl.C31_from_event"
   ],
   "note": ""
  },
  {
   "property": "C32",
   "status": "proved",
   "theorems": [
    "Gcl.C32_graph",
    "Gcl.C32_arrays"
   ],
   "note": ""
  },
  {
   "property": "C33",
   "status": "proved",
   "theorems": [
    "Gcl.C33_nodes",
    "Gcl.C33_any",
    "Gcl.C33_false"
   ],
   "note": ""
  },
  {
   "property": "C34",
   "status": "proved",
   "theorems": [
    "Gcl.C34_roots",
    "Gcl.C34_leaves",
    "Gcl.C34_empty",
    "Gcl.C34_acyclic"
   ],
   "note": ""
  },
  {
   "property": "C35",
   "status": "proved",
   "theorems": [
    "Gcl.C35_matrix",
    "Gcl.C35_total"
   ],
   "note": ""
  },
  {
   "property": "C36",
   "status": "proved",
   "theorems": [
    "Gcl.C36_edges",
    "Gcl.C36_order",
    "Gcl.C36_self_loop",
    "Gcl.C36_roundtrip",
    "Gcl.C36_roundtrip_iff",
    "Gcl.C36_false"
   ],
   "note": "Edges, order and self-loops for all matrices; round trip characterised for all square 0/1 matrices (C36_roundtrip, C36_roundtrip_iff); isolated nodes are lost (C36_false)."
  },
  {
   "property": "C37",
   "status": "proved",
   "theorems": [
    "Gcl.C37_relabel",
    "Gcl.C37_empty",
    "Gcl.C37_isomorphism"
   ],
   "note": ""
  },
  {
   "property": "C38",
   "status": "proved",
   "theorems": [
    "Gcl.C38_weighted",
    "Gcl.C38_roundtrip"
   ],
   "note": ""
  },
  {
   "property": "C39",
   "status": "proved",
   "theorems": [
    "Gcl.C39_descendants",
    "Gcl.C39_terminates"
   ],
   "note": ""
  },
  {
   "property": "C40",
   "status": "proved",
   "theorems": [
    "Gcl.C40_edge",
    "Gcl.C40_reach"
   ],
   "note": ""
  },
  {
   "property": "C41",
   "status": "proved",
   "theorems": [
    "Gcl.C41_hadron"
   ],
   "note": ""
  },
  {
   "property": "C42",
   "status": "proved",
   "theorems": [
    "Gcl.C42_find",
    "Gcl.C42_mismatch"
   ],
   "note": ""
  },
  {
   "property": "C43",
   "status": "proved",
   "theorems": [
    "Gcl.C43_keys",
    "Gcl.C43_unique"
   ],
   "note": ""
  },
  {
   "property": "C44",
   "status": "proved",
   "theorems": [
    "Gcl.C44_all"
   ],
   "note": ""
  },
  {
   "property": "C45",
   "status": "proved",
   "theorems": [
    "Gcl.C45_exact",
    "Gcl.C45_prefix",
    "Gcl.C45_right_iff",
    "Gcl.C45_false"
   ],
   "note": "Exact masks for all targets (C45_exact) and when they are the intended ones (C45_right_iff); refuted in general (C45_false)."
  },
  {
   "property": "C46",
   "status": "proved",
   "theorems": [
    "Gcl.C46_errors"
   ],
   "note": ""
  },
  {
   "property": "C47",
   "status": "proved",
   "theorems": [
    "Gcl.C47_parent",
    "Gcl.C47_unique",
    "Gcl.C47_forest"
   ],
   "note": ""
  },
  {
   "property": "C48",
   "status": "proved",
   "theorems": [
    "Gcl.C48_tree",
    "Gcl.C48_flat",
    "Gcl.C48_given",
    "Gcl.C48_groups",
    "Gcl.C48_exact",
    "Gcl.C48_given_errors"
   ],
   "note": "Full tree characterised (C48_tree, C48_given, C48_flat); aggregate statement at every path (C48_groups); containment proved, hence exact aggregates, when final hard partons do not share their end vertex (C48_exact)."
  },
  {
   "property": "C49",
   "status": "proved",
   "theorems": [
    "Gcl.C49_any",
    "Gcl.C49_occurs",
    "Gcl.C49_forest",
    "Gcl.C49_false"
   ],
   "note": "Exact for every event (C49_any), and in terms of ancestry for acyclic events whose final hard partons do not share their end vertex (C49_occurs, C49_forest); every parton occurring is refuted (C49_false)."
  },
  {
   "property": "C50",
   "status": "proved",
   "theorems": [
    "Gcl.C50_leaf",
    "Gcl.C50_false"
   ],
   "note": "Exact leaf masks with an iff for when they are the descendant masks (C50_leaf); refuted in general (C50_false)."
  },
  {
   "property": "C51",
   "status": "proved",
   "theorems": [
    "Gcl.C51_assign",
    "Gcl.C51_partition",
    "Gcl.C51_any",
    "Gcl.C51_false"
   ],
   "note": ""
  },
  {
   "property": "C52",
   "status": "proved",
   "theorems": [
    "Gcl.C52_any",
    "Gcl.C52_frame"
   ],
   "note": ""
  },
  {
   "property": "C53",
   "status": "proved",
   "theorems": [
    "Gcl.C53_group",
    "Gcl.C53_overlap",
    "Gcl.C53_false",
    "Gcl.C53_lengths",
    "Gcl.C53_singles"
   ],
   "note": "any_overlap raises AttributeError for every MaskGroup (C53_group); the algorithm behind it is correct for objects having the attribute it reads (C53_overlap)."
  },
  {
   "property": "C54",
   "status": "proved",
   "theorems": [
    "Gcl.C54_any",
    "Gcl.C54_singlets",
    "Gcl.C54_invert_any",
    "Gcl.C54_invert",
    "Gcl.C54_misaligned"
   ],
   "note": "Exact for all leaves (C54_any, C54_invert_any); the intended meaning holds when each leaf holds exactly one outgoing parton (C54_singlets, C54_invert); C54_misaligned exhibits the misalignment of names otherwise."
  },
  {
   "property": "C55",
   "status": "proved",
   "theorems": [
    "Gcl.C55_all",
    "Gcl.C55_masked",
    "Gcl.C55_mismatch",
    "Gcl.C55_raises",
    "Gcl.C55_monotone",
    "Gcl.C55_nonpos",
    "Gcl.C55_balanced"
   ],
   "note": ""
  },
  {
   "property": "C56",
   "status": "proved",
   "theorems": [
    "Gcl.C56_errors",
    "Gcl.C56_masks",
    "Gcl.C56_disjoint",
    "Gcl.C56_top_k"
   ],
   "note": ""
  },
  {
   "property": "C57",
   "status": "proved",
   "theorems": [
    "Gcl.C57_assignment",
    "Gcl.C57_cost",
    "Gcl.C57_cost_mono",
    "Gcl.C57_equal_pt",
    "Gcl.C57_returns",
    "Gcl.C57_returns_iff",
    "Gcl.C57_equal"
   ],
   "note": "Exact condition for returning (C57_returns_iff), optimality whenever it returns. Relative to the contract of scipy's linear_sum_assignment; every schedule of the parallel loops; exact arithmetic with nan/inf."
  },
  {
   "property": "C58",
   "status": "proved",
   "theorems": [
    "Gcl.C58_errors",
    "Gcl.C58_tags",
    "Gcl.C58_returns",
    "Gcl.C58_swapped",
    "Gcl.C58_no_partons",
    "Gcl.C58_false"
   ],
   "note": "Relative to the contract of scipy's linear_sum_assignment. Blacklist with empty whitelist acts as whitelist (C58_swapped, C58_false)."
  },
  {
   "property": "C59",
   "status": "proved",
   "theorems": [
    "Gcl.C59_rapidity",
    "Gcl.C59_failure",
    "Gcl.C59_false"
   ],
   "note": "Complete heap effect: C59_rapidity (all outcomes but ZeroDivisionError) and C59_failure. Refutation of the unconditional expectation: C59_false."
  },
  {
   "property": "C60",
   "status": "proved",
   "theorems": [
    "Gcl.C60_clusters",
    "Gcl.C60_no_parton",
    "Gcl.C60_one_parton",
    "Gcl.C60_empty"
   ],
   "note": ""
  },
  {
   "property": "C61",
   "status": "proved",
   "theorems": [
    "Gcl.C61_rapidity",
    "Gcl.C61_timelike",
    "Gcl.C61_invariants",
    "Gcl.C61_compose",
    "Gcl.C61_sum",
    "Gcl.C61_array"
   ],
   "note": ""
  },
  {
   "property": "C62",
   "status": "proved",
   "theorems": [
    "Gcl.C62_invariants",
    "Gcl.C62_azimuth",
    "Gcl.C62_compose",
    "Gcl.C62_difference",
    "Gcl.C62_array"
   ],
   "note": ""
  },
  {
   "property": "C63",
   "status": "proved",
   "theorems": [
    "Gcl.C63_experimental",
    "Gcl.C63_experimental_beam",
    "Gcl.C63_experimental_array",
    "Gcl.C63_rapidity",
    "Gcl.C63_massless",
    "Gcl.C63_false",
    "Gcl.C63_beam",
    "Gcl.C63_array_false",
    "Gcl.C63_args"
   ],
   "note": "Exact effect for systems off the beam axis away from the tolerance (C63_rapidity, C63_massless, C63_false); experimental shift in full; array shifts raise TypeError (C63_array_false)."
  },
  {
   "property": "C64",
   "status": "proved",
   "theorems": [
    "Gcl.C64_nowarn",
    "Gcl.C64_exact",
    "Gcl.C64_false"
   ],
   "note": "C64_nowarn for every input; C64_exact characterises the warning off the beam axis; refuted converse: C64_false."
  },
  {
   "property": "C65",
   "status": "proved",
   "theorems": [
    "Gcl.C65_nonneg",
    "Gcl.C65_value",
    "Gcl.C65_cell",
    "Gcl.C65_symm",
    "Gcl.C65_self",
    "Gcl.C65_azimuth",
    "Gcl.C65_triangle",
    "Gcl.C65_invariant",
    "Gcl.C65_transpose"
   ],
   "note": "Zeros without sign; with signed zeros the claims hold for nonzero transverse momenta, see C142 (C142_rotation, C142_false)."
  },
  {
   "property": "C66",
   "status": "proved",
   "theorems": [
    "Gcl.C66_schedule",
    "Gcl.C66_agree"
   ],
   "note": ""
  },
  {
   "property": "C67",
   "status": "proved",
   "theorems": [
    "Gcl.C67_mass",
    "Gcl.C67_combined",
    "Gcl.C67_invariant",
    "Gcl.C67_weights"
   ],
   "note": ""
  },
  {
   "property": "C68",
   "status": "proved",
   "theorems": [
    "Gcl.C68_aggregate",
    "Gcl.C68_partition"
   ],
   "note": ""
  },
  {
   "property": "C69",
   "status": "proved",
   "theorems": [
    "Gcl.C69_thrust",
    "Gcl.C69_invariant"
   ],
   "note": ""
  },
  {
   "property": "C70",
   "status": "proved",
   "theorems": [
    "Gcl.C70_gradient",
    "Gcl.C70_false"
   ],
   "note": "Value and azimuth component exact, exact error term of the inclination component (C70_gradient); C70_false refutes that it vanishes."
  },
  {
   "property": "C71",
   "status": "proved",
   "theorems": [
    "Gcl.C71_value",
    "Gcl.C71_collinear",
    "Gcl.C71_invariant"
   ],
   "note": ""
  },
  {
   "property": "C72",
   "status": "proved",
   "theorems": [
    "Gcl.C72_value",
    "Gcl.C72_metric",
    "Gcl.C72_operands",
    "Gcl.C72_errors",
    "Gcl.C72_truncates"
   ],
   "note": ""
  },
  {
   "property": "C73",
   "status": "proved",
   "theorems": [
    "Gcl.C73_value",
    "Gcl.C73_range",
    "Gcl.C73_complete",
    "Gcl.C73_distbn"
   ],
   "note": ""
  },
  {
   "property": "C74",
   "status": "proved",
   "theorems": [
    "Gcl.C74_restored",
    "Gcl.C74_calls"
   ],
   "note": ""
  },
  {
   "property": "C75",
   "status": "proved",
   "theorems": [
    "Gcl.C75_value",
    "Gcl.C75_bounds",
    "Gcl.C75_rotation",
    "Gcl.C75_false",
    "Gcl.C75_beam",
    "Gcl.C75_total"
   ],
   "note": "Exact effect of a rotation (C75_rotation); equivariance refuted (C75_false); nan case C75_beam."
  },
  {
   "property": "C76",
   "status": "proved",
   "theorems": [
    "Gcl.C76_norm",
    "Gcl.C76_exact",
    "Gcl.C76_false"
   ],
   "note": "Exact domain of definition (C76_exact); refutation of the expectation C76_false."
  },
  {
   "property": "C77",
   "status": "proved",
   "theorems": [
    "Gcl.C77_binary",
    "Gcl.C77_weighted",
    "Gcl.C77_mode",
    "Gcl.C77_symmetric",
    "Gcl.C77_monotone",
    "Gcl.C77_flags_false"
   ],
   "note": ""
  },
  {
   "property": "C78",
   "status": "proved",
   "theorems": [
    "Gcl.C78_edges",
    "Gcl.C78_count",
    "Gcl.C78_error",
    "Gcl.C78_false",
    "Gcl.C78_ties_false"
   ],
   "note": "Relative to the contract of np.argpartition, for every permitted result. The documentation's orientation is refuted (C78_false)."
  },
  {
   "property": "C79",
   "status": "proved",
   "theorems": [
    "Gcl.C79_complete"
   ],
   "note": ""
  },
  {
   "property": "C80",
   "status": "proved",
   "theorems": [
    "Gcl.C80_orthogonal",
    "Gcl.C80_rodrigues",
    "Gcl.C80_axis",
    "Gcl.C80_turn",
    "Gcl.C80_group"
   ],
   "note": ""
  },
  {
   "property": "C81",
   "status": "proved",
   "theorems": [
    "Gcl.C81_angles",
    "Gcl.C81_softhard",
    "Gcl.C81_unit",
    "Gcl.C81_roundtrip",
    "Gcl.C81_false",
    "Gcl.C81_softhard_false"
   ],
   "note": "Exact round trip with an iff (C81_roundtrip); inversion refuted (C81_false, C81_softhard_false)."
  },
  {
   "property": "C82",
   "status": "proved",
   "theorems": [
    "Gcl.C82_split",
    "Gcl.C82_errors"
   ],
   "note": ""
  },
  {
   "property": "C83",
   "status": "proved",
   "theorems": [
    "Gcl.C83_split",
    "Gcl.C83_noaxis",
    "Gcl.C83_errors"
   ],
   "note": ""
  },
  {
   "property": "C84",
   "status": "proved",
   "theorems": [
    "Gcl.C84_momenta",
    "Gcl.C84_error",
    "Gcl.C84_false",
    "Gcl.C84_covers"
   ],
   "note": "Random draws are parameters. Exact set of directions: upper hemisphere (C84_false, C84_covers)."
  },
  {
   "property": "C85",
   "status": "proved",
   "theorems": [
    "Gcl.C85_first_read",
    "Gcl.C85_later_read",
    "Gcl.C85_follows",
    "Gcl.C85_copy",
    "Gcl.C85_false",
    "Gcl.C85_mixture"
   ],
   "note": "Complete account over all histories (C85_first_read, C85_later_read, C85_follows, C85_copy); refutation C85_false."
  },
  {
   "property": "C86",
   "status": "proved",
   "theorems": [
    "Gcl.C86_table",
    "Gcl.C86_particles",
    "Gcl.C86_empty",
    "Gcl.C86_false"
   ],
   "note": "The layout done by tabulate is not modelled. Events with edges but no particle data characterised by C86_false."
  },
  {
   "property": "C87",
   "status": "proved",
   "theorems": [
    "Gcl.C87_unknown",
    "Gcl.C87_roundtrip"
   ],
   "note": ""
  },
  {
   "property": "C88",
   "status": "proved",
   "theorems": [
    "Gcl.C88_unsupported",
    "Gcl.C88_result",
    "Gcl.C88_classes",
    "Gcl.C88_elementwise",
    "Gcl.C88_boolean",
    "Gcl.C88_columns_false",
    "Gcl.C88_single_values",
    "Gcl.C88_total_momentum",
    "Gcl.C88_axis_false",
    "Gcl.C88_mixed_false"
   ],
   "note": "Operands of one class in full; the failing combinations are characterised by C88_columns_false, C88_axis_false, C88_mixed_false. The universal function itself is a parameter."
  },
  {
   "property": "C89",
   "status": "proved",
   "theorems": [
    "Gcl.C89_pt_theta",
    "Gcl.C89_phi",
    "Gcl.C89_eta",
    "Gcl.C89_rapidity",
    "Gcl.C89_spacelike"
   ],
   "note": ""
  },
  {
   "property": "C90",
   "status": "proved",
   "theorems": [
    "Gcl.C90_domain",
    "Gcl.C90_sign"
   ],
   "note": ""
  },
  {
   "property": "C91",
   "status": "proved",
   "theorems": [
    "Gcl.C91_resultant"
   ],
   "note": ""
  },
  {
   "property": "C92",
   "status": "proved",
   "theorems": [
    "Gcl.C92_same_class",
    "Gcl.C92_not_equal",
    "Gcl.C92_record",
    "Gcl.C92_numbers",
    "Gcl.C92_decides"
   ],
   "note": "Proved; element equality is a parameter (so nan != nan is covered)."
  },
  {
   "property": "C93",
   "status": "proved",
   "theorems": [
    "Gcl.C93_ndarray",
    "Gcl.C93_unrelated",
    "Gcl.C93_structured",
    "Gcl.C93_edges",
    "Gcl.C93_rows",
    "Gcl.C93_events",
    "Gcl.C93_errors"
   ],
   "note": ""
  },
  {
   "property": "C94",
   "status": "proved",
   "theorems": [
    "Gcl.C94_records",
    "Gcl.C94_refused",
    "Gcl.C94_flat"
   ],
   "note": ""
  },
  {
   "property": "C95",
   "status": "proved",
   "theorems": [
    "Gcl.C95_assign",
    "Gcl.C95_structured",
    "Gcl.C95_momentum"
   ],
   "note": ""
  },
  {
   "property": "C96",
   "status": "proved",
   "theorems": [
    "Gcl.C96_entries",
    "Gcl.C96_value",
    "Gcl.C96_harder",
    "Gcl.C96_rest",
    "Gcl.C96_beam",
    "Gcl.C96_argmin",
    "Gcl.C96_partition"
   ],
   "note": "Proved in exact arithmetic with nan and infinities; schedule of the parallel loop is universally quantified."
  },
  {
   "property": "C97",
   "status": "proved",
   "theorems": [
    "Gcl.C97_thrust",
    "Gcl.C97_global",
    "Gcl.C97_spherocity",
    "Gcl.C97_pencil",
    "Gcl.C97_global_spherocity"
   ],
   "note": "scipy.optimize.minimize is a parameter: an arbitrary adaptive strategy returning the best of the in-bounds points it evaluated."
  },
  {
   "property": "C98",
   "status": "proved",
   "theorems": [
    "Gcl.C98_history",
    "Gcl.C98_descendants",
    "Gcl.C98_follows",
    "Gcl.C98_matrix_meaning",
    "Gcl.C98_copy",
    "Gcl.C98_false"
   ],
   "note": "The edges being written in place are modelled as replacing the whole buffer by as many edges."
  },
  {
   "property": "C99",
   "status": "proved",
   "theorems": [
    "Gcl.C99_slice",
    "Gcl.C99_fancy",
    "Gcl.C99_copy",
    "Gcl.C99_construct",
    "Gcl.C99_item",
    "Gcl.C99_contiguous",
    "Gcl.C99_write",
    "Gcl.C99_false"
   ],
   "note": "A record is one cell; the converter's re-interpretation of odd shapes is C17/C18/C95."
  },
  {
   "property": "C100",
   "status": "proved",
   "theorems": [
    "Gcl.C100_agg_op",
    "Gcl.C100_data",
    "Gcl.C100_history",
    "Gcl.C100_outcome",
    "Gcl.C100_handed_on",
    "Gcl.C100_methods",
    "Gcl.C100_flatten",
    "Gcl.C100_false",
    "Gcl.C100_subscript"
   ],
   "note": "Strings lower by ASCII rules (no other character lowers to a letter of the three names)."
  },
  {
   "property": "C101",
   "status": "proved",
   "theorems": [
    "Gcl.C101_lines",
    "Gcl.C101_complete"
   ],
   "note": "The guides, wrapping and markup done by rich are not modelled, only the lines and their depth."
  },
  {
   "property": "C102",
   "status": "proved",
   "theorems": [
    "Gcl.C102_structured",
    "Gcl.C102_plain",
    "Gcl.C102_to_dict"
   ],
   "note": ""
  },
  {
   "property": "C103",
   "status": "proved",
   "theorems": [
    "Gcl.C103_entries",
    "Gcl.C103_subscript",
    "Gcl.C103_within"
   ],
   "note": "The PDG table of mcpid is a parameter; properties(codes, columns) is assumed to return one new record per code."
  },
  {
   "property": "C104",
   "status": "proved",
   "theorems": [
    "Gcl.C104_hard",
    "Gcl.C104_hierarchy",
    "Gcl.C104_hierarchy_false",
    "Gcl.C104_masks",
    "Gcl.C104_vertices"
   ],
   "note": ""
  },
  {
   "property": "C105",
   "status": "proved",
   "theorems": [
    "Gcl.C105_hard",
    "Gcl.C105_hierarchy",
    "Gcl.C105_masks",
    "Gcl.C105_matrix",
    "Gcl.C105_hadrons"
   ],
   "note": ""
  },
  {
   "property": "C106",
   "status": "proved",
   "theorems": [
    "Gcl.C106_nested",
    "Gcl.C106_strict",
    "Gcl.C106_more_edges",
    "Gcl.C106_false"
   ],
   "note": "The expectation for all vertices is refuted (C106_false)."
  },
  {
   "property": "C107",
   "status": "proved",
   "theorems": [
    "Gcl.C107_history",
    "Gcl.C107_every",
    "Gcl.C107_in",
    "Gcl.C107_values",
    "Gcl.C107_items",
    "Gcl.C107_false"
   ],
   "note": "The mixin methods of collections.abc.MutableMapping are modelled from their documented source; the expectations of dict behaviour for popitem, setdefault and values() are refuted (C107_false)."
  },
  {
   "property": "C108",
   "status": "proved",
   "theorems": [
    "Gcl.C108_per_particle",
    "Gcl.C108_common",
    "Gcl.C108_errors",
    "Gcl.C108_false"
   ],
   "note": "Exact arithmetic; weights of three or more dimensions and the order of fields of structured weights are not modelled. The expectation of the documentation is refuted (C108_false)."
  },
  {
   "property": "C109",
   "status": "proved",
   "theorems": [
    "Gcl.C109_one_line",
    "Gcl.C109_lines",
    "Gcl.C109_faithful"
   ],
   "note": "The texts numpy prints for data and dtype are parameters."
  },
  {
   "property": "C110",
   "status": "proved",
   "theorems": [
    "Gcl.C110_idempotent",
    "Gcl.C110_false"
   ],
   "note": "Same hypotheses as C51."
  },
  {
   "property": "C111",
   "status": "proved",
   "theorems": [
    "Gcl.C111_weighted",
    "Gcl.C111_unweighted",
    "Gcl.C111_false"
   ],
   "note": "The expectation that diagonal weights survive is refuted (C111_false)."
  },
  {
   "property": "C112",
   "status": "proved",
   "theorems": [
    "Gcl.C112_order",
    "Gcl.C112_ids",
    "Gcl.C112_false_ties",
    "Gcl.C112_false_ids",
    "Gcl.C112_pipeline",
    "Gcl.C112_pipeline_ids"
   ],
   "note": "Same hypotheses as C51. That ids and order never matter is refuted (C112_false_ties, C112_false_ids)."
  },
  {
   "property": "C113",
   "status": "proved",
   "theorems": [
    "Gcl.C113_collinear",
    "Gcl.C113_split_hardest",
    "Gcl.C113_mass",
    "Gcl.C113_soft",
    "Gcl.C113_soft_mass",
    "Gcl.C113_false",
    "Gcl.C113_zero"
   ],
   "note": "Exact for collinear splittings; a limit for soft emissions. Zero momentum is refuted (C113_false)."
  },
  {
   "property": "C114",
   "status": "proved",
   "theorems": [
    "Gcl.C114_bounds",
    "Gcl.C114_union",
    "Gcl.C114_mask",
    "Gcl.C114_pair",
    "Gcl.C114_false"
   ],
   "note": "Over the reals; the condition on the energies is needed (C114_false)."
  },
  {
   "property": "C115",
   "status": "proved",
   "theorems": [
    "Gcl.C115_along",
    "Gcl.C115_thrust",
    "Gcl.C115_defined",
    "Gcl.C115_cParameter",
    "Gcl.C115_library",
    "Gcl.C115_false",
    "Gcl.C115_spherocity"
   ],
   "note": "Optimality inside the bounds is a hypothesis of C115_thrust, as in C97_global. For errors of spherocity refuted (C115_false)."
  },
  {
   "property": "C116",
   "status": "proved",
   "theorems": [
    "Gcl.C116_given",
    "Gcl.C116_default"
   ],
   "note": ""
  },
  {
   "property": "C117",
   "status": "proved",
   "theorems": [
    "Gcl.C117_not_a_group",
    "Gcl.C117_partition"
   ],
   "note": ""
  },
  {
   "property": "C118",
   "status": "proved",
   "theorems": [
    "Gcl.C118_exact",
    "Gcl.C118_mass_t",
    "Gcl.C118_mass",
    "Gcl.C118_rapidity",
    "Gcl.C118_mirror",
    "Gcl.C118_mass_false",
    "Gcl.C118_eta_false"
   ],
   "note": ""
  },
  {
   "property": "C119",
   "status": "proved",
   "theorems": [
    "Gcl.C119_meaning",
    "Gcl.C119_copy",
    "Gcl.C119_new",
    "Gcl.C119_false"
   ],
   "note": ""
  },
  {
   "property": "C120",
   "status": "proved",
   "theorems": [
    "Gcl.C120_clusters"
   ],
   "note": ""
  },
  {
   "property": "C121",
   "status": "proved",
   "theorems": [
    "Gcl.C121_stored",
    "Gcl.C121_kept",
    "Gcl.C121_integers",
    "Gcl.C121_classes",
    "Gcl.C121_false"
   ],
   "note": "Python lists of integers out of bounds (OverflowError or wrapping, by numpy version) are not modelled; conversions undefined in C are parameters."
  },
  {
   "property": "C122",
   "status": "proved",
   "theorems": [
    "Gcl.C122_construct",
    "Gcl.C122_select",
    "Gcl.C122_leaves",
    "Gcl.C122_rise",
    "Gcl.C122_agg",
    "Gcl.C122_write"
   ],
   "note": "Given enough recursion depth. Arrays handed over are contiguous and boolean (others are copied, as values)."
  },
  {
   "property": "C123",
   "status": "proved",
   "theorems": [
    "Gcl.C123_sum",
    "Gcl.C123_worst",
    "Gcl.C123_mass",
    "Gcl.C123_reorder",
    "Gcl.C123_centroid",
    "Gcl.C123_order_false",
    "Gcl.C123_exact"
   ],
   "note": ""
  },
  {
   "property": "C124",
   "status": "proved",
   "theorems": [
    "Gcl.C124_matrix",
    "Gcl.C124_unwritten",
    "Gcl.C124_transpose",
    "Gcl.C124_self",
    "Gcl.C124_frame",
    "Gcl.C124_errors",
    "Gcl.C124_copy_false",
    "Gcl.C124_overrun_false"
   ],
   "note": ""
  },
  {
   "property": "C125",
   "status": "proved",
   "theorems": [
    "Gcl.C125_once",
    "Gcl.C125_momenta",
    "Gcl.C125_false"
   ],
   "note": ""
  },
  {
   "property": "C126",
   "status": "proved",
   "theorems": [
    "Gcl.C126_values",
    "Gcl.C126_masks",
    "Gcl.C126_distances",
    "Gcl.C126_coeffs"
   ],
   "note": ""
  },
  {
   "property": "C127",
   "status": "proved",
   "theorems": [
    "Gcl.C127_fits",
    "Gcl.C127_zero",
    "Gcl.C127_false"
   ],
   "note": ""
  },
  {
   "property": "C128",
   "status": "proved",
   "theorems": [
    "Gcl.C128_getitem",
    "Gcl.C128_iter",
    "Gcl.C128_endless",
    "Gcl.C128_len",
    "Gcl.C128_endless_false",
    "Gcl.C128_whole",
    "Gcl.C128_color",
    "Gcl.C128_absent",
    "Gcl.C128_print"
   ],
   "note": ""
  },
  {
   "property": "C129",
   "status": "proved",
   "theorems": [
    "Gcl.C129_partition_rotated",
    "Gcl.C129_partition_boosted",
    "Gcl.C129_closest_rotated",
    "Gcl.C129_closest_schedule",
    "Gcl.C129_matrix_rotated",
    "Gcl.C129_closest_boosted",
    "Gcl.C129_tag_rotated",
    "Gcl.C129_tag_boosted",
    "Gcl.C129_partition_boost_false"
   ],
   "note": "Boost invariance of partition_descendants is proved for massless momenta and refuted with a massive parton (C129_partition_boost_false)."
  },
  {
   "property": "C130",
   "status": "proved",
   "theorems": [
    "Gcl.C130_augment",
    "Gcl.C130_seen",
    "Gcl.C130_binary",
    "Gcl.C130_alias",
    "Gcl.C130_stale",
    "Gcl.C130_stale_false",
    "Gcl.C130_errors",
    "Gcl.C130_stretch",
    "Gcl.C130_foreign",
    "Gcl.C130_foreign_binary",
    "Gcl.C130_foreign_false",
    "Gcl.C130_pure_history",
    "Gcl.C130_copy",
    "Gcl.C130_entries",
    "Gcl.C130_mask_augment",
    "Gcl.C130_mask_binary",
    "Gcl.C130_mask_ufunc",
    "Gcl.C130_group",
    "Gcl.C130_mask_false"
   ],
   "note": ""
  },
  {
   "property": "C131",
   "status": "proved",
   "theorems": [
    "Gcl.C131_arg_closest",
    "Gcl.C131_arg_closest_unique",
    "Gcl.C131_tag",
    "Gcl.C131_false"
   ],
   "note": ""
  },
  {
   "property": "C132",
   "status": "proved",
   "theorems": [
    "Gcl.C132_booleans",
    "Gcl.C132_sign",
    "Gcl.C132_hard_descendants",
    "Gcl.C132_no_antiparticles",
    "Gcl.C132_drop",
    "Gcl.C132_only_true",
    "Gcl.C132_false"
   ],
   "note": ""
  },
  {
   "property": "C133",
   "status": "proved",
   "theorems": [
    "Gcl.C133_clusters_ids",
    "Gcl.C133_singlets_order",
    "Gcl.C133_clusters_order",
    "Gcl.C133_labels",
    "Gcl.C133_conjugate",
    "Gcl.C133_clusters_colour",
    "Gcl.C133_clusters_rotated",
    "Gcl.C133_clusters_boosted"
   ],
   "note": ""
  },
  {
   "property": "C134",
   "status": "proved",
   "theorems": [
    "Gcl.C134_cut",
    "Gcl.C134_cut_scale",
    "Gcl.C134_distinct",
    "Gcl.C134_knn",
    "Gcl.C134_knn_ties",
    "Gcl.C134_grow",
    "Gcl.C134_cut_edges",
    "Gcl.C134_knn_edges",
    "Gcl.C134_particles"
   ],
   "note": ""
  },
  {
   "property": "C135",
   "status": "proved",
   "theorems": [
    "Gcl.C135_constructed",
    "Gcl.C135_lookup",
    "Gcl.C135_assigned",
    "Gcl.C135_history",
    "Gcl.C135_false"
   ],
   "note": ""
  },
  {
   "property": "C136",
   "status": "proved",
   "theorems": [
    "Gcl.C136_dphi",
    "Gcl.C136_distance",
    "Gcl.C136_delta_R",
    "Gcl.C136_eta",
    "Gcl.C136_delta_R_eta",
    "Gcl.C136_symmetric",
    "Gcl.C136_collinear",
    "Gcl.C136_false",
    "Gcl.C136_exact"
   ],
   "note": ""
  },
  {
   "property": "C137",
   "status": "proved",
   "theorems": [
    "Gcl.C137_shower",
    "Gcl.C137_parton",
    "Gcl.C137_event",
    "Gcl.C137_edge",
    "Gcl.C137_hard",
    "Gcl.C137_false"
   ],
   "note": ""
  },
  {
   "property": "C138",
   "status": "proved",
   "theorems": [
    "Gcl.C138_leaves",
    "Gcl.C138_descendants",
    "Gcl.C138_closed",
    "Gcl.C138_roots",
    "Gcl.C138_false"
   ],
   "note": ""
  },
  {
   "property": "C139",
   "status": "proved",
   "theorems": [
    "Gcl.C139_descendants",
    "Gcl.C139_ends",
    "Gcl.C139_hadron",
    "Gcl.C139_find",
    "Gcl.C139_hard",
    "Gcl.C139_matrix"
   ],
   "note": ""
  },
  {
   "property": "C140",
   "status": "proved",
   "theorems": [
    "Gcl.C140_axis",
    "Gcl.C140_thrust",
    "Gcl.C140_spherocity",
    "Gcl.C140_c_parameter"
   ],
   "note": ""
  },
  {
   "property": "C141",
   "status": "proved",
   "theorems": [
    "Gcl.C141_false"
   ],
   "note": ""
  },
  {
   "property": "C142",
   "status": "proved",
   "theorems": [
    "Gcl.C142_distance",
    "Gcl.C142_symm",
    "Gcl.C142_angles",
    "Gcl.C142_rapidity",
    "Gcl.C142_rotation",
    "Gcl.C142_false"
   ],
   "note": ""
  },
  {
   "property": "C143",
   "status": "proved",
   "theorems": [
    "Gcl.C143_quantity",
    "Gcl.C143_quantity_false",
    "Gcl.C143_codes",
    "Gcl.C143_hard",
    "Gcl.C143_distance",
    "Gcl.C143_shift"
   ],
   "note": ""
  },
  {
   "property": "C144",
   "status": "proved",
   "theorems": [
    "Gcl.C144_exact",
    "Gcl.C144_rotations",
    "Gcl.C144_rotation_back",
    "Gcl.C144_boosts",
    "Gcl.C144_mass",
    "Gcl.C144_energy",
    "Gcl.C144_false"
   ],
   "note": ""
  },
  {
   "property": "C145",
   "status": "proved",
   "theorems": [
    "Gcl.C145_finite",
    "Gcl.C145_pt",
    "Gcl.C145_eta",
    "Gcl.C145_theta",
    "Gcl.C145_phi",
    "Gcl.C145_rapidity",
    "Gcl.C145_mass_t",
    "Gcl.C145_mass",
    "Gcl.C145_experimental",
    "Gcl.C145_experimental_beam",
    "Gcl.C145_false",
    "Gcl.C145_distance",
    "Gcl.C145_boost",
    "Gcl.C145_combined_mass",
    "Gcl.C145_combined_mass_clash",
    "Gcl.C145_experimental_mass"
   ],
   "note": ""
  },
  {
   "property": "C146",
   "status": "proved",
   "theorems": [
    "Gcl.C146_norm",
    "Gcl.C146_thrust",
    "Gcl.C146_c_parameter",
    "Gcl.C146_raises",
    "Gcl.C146_spherocity",
    "Gcl.C146_exact",
    "Gcl.C146_false",
    "Gcl.C146_spherocity_false"
   ],
   "note": ""
  },
  {
   "property": "C147",
   "status": "proved",
   "theorems": [
    "Gcl.C147_hadrons",
    "Gcl.C147_soft",
    "Gcl.C147_unsafe",
    "Gcl.C147_soft_false",
    "Gcl.C147_flat",
    "Gcl.C147_collinear_false"
   ],
   "note": ""
  },
  {
   "property": "C148",
   "status": "proved",
   "theorems": [
    "Gcl.C148_undisputed",
    "Gcl.C148_self",
    "Gcl.C148_distance_false",
    "Gcl.C148_conflict_false"
   ],
   "note": ""
  },
  {
   "property": "C149",
   "status": "proved",
   "theorems": [
    "Gcl.C149_turn",
    "Gcl.C149_angle",
    "Gcl.C149_mass",
    "Gcl.C149_physical",
    "Gcl.C149_massless_false",
    "Gcl.C149_default_false"
   ],
   "note": ""
  },
  {
   "property": "C150",
   "status": "proved",
   "theorems": [
    "Gcl.C150_sequential",
    "Gcl.C150_rotation",
    "Gcl.C150_cases",
    "Gcl.C150_conserved",
    "Gcl.C150_energy",
    "Gcl.C150_children",
    "Gcl.C150_exact",
    "Gcl.C150_hardest",
    "Gcl.C150_false"
   ],
   "note": ""
  },
  {
   "property": "C151",
   "status": "proved",
   "theorems": [
    "Gcl.C151_mass_t",
    "Gcl.C151_mass_t_overflow",
    "Gcl.C151_mass",
    "Gcl.C151_mass_overflow",
    "Gcl.C151_mass_overflow_pt",
    "Gcl.C151_norm",
    "Gcl.C151_norm_tiny",
    "Gcl.C151_thrust_nan",
    "Gcl.C151_thrust_zero",
    "Gcl.C151_false",
    "Gcl.C151_rest",
    "Gcl.C151_thrust_fits"
   ],
   "note": ""
  },
  {
   "property": "C152",
   "status": "proved",
   "theorems": [
    "Gcl.C152_reachable",
    "Gcl.C152_copy",
    "Gcl.C152_copy_set",
    "Gcl.C152_subscript",
    "Gcl.C152_subscript_set",
    "Gcl.C152_slice",
    "Gcl.C152_new_set",
    "Gcl.C152_new_graph",
    "Gcl.C152_shared",
    "Gcl.C152_assign",
    "Gcl.C152_assign_graph",
    "Gcl.C152_property",
    "Gcl.C152_assign_data",
    "Gcl.C152_false"
   ],
   "note": ""
  },
  {
   "property": "C153",
   "status": "proved",
   "theorems": [
    "Gcl.C153_symmetric",
    "Gcl.C153_value",
    "Gcl.C153_self",
    "Gcl.C153_overflow",
    "Gcl.C153_weights",
    "Gcl.C153_counts",
    "Gcl.C153_triangle",
    "Gcl.C153_false",
    "Gcl.C153_triangle_false"
   ],
   "note": ""
  },
  {
   "property": "C154",
   "status": "proved",
   "theorems": [
    "Gcl.C154_value",
    "Gcl.C154_accurate",
    "Gcl.C154_range",
    "Gcl.C154_clique",
    "Gcl.C154_false",
    "Gcl.C154_distbn",
    "Gcl.C154_exact"
   ],
   "note": ""
  },
  {
   "property": "C155",
   "status": "proved",
   "theorems": [
    "Gcl.C155_singlets",
    "Gcl.C155_outcasts",
    "Gcl.C155_clusters",
    "Gcl.C155_false"
   ],
   "note": ""
  },
  {
   "property": "C156",
   "status": "proved",
   "theorems": [
    "Gcl.C156_angle",
    "Gcl.C156_distance",
    "Gcl.C156_decided",
    "Gcl.C156_nonpos",
    "Gcl.C156_monotone",
    "Gcl.C156_beam",
    "Gcl.C156_prune",
    "Gcl.C156_exact",
    "Gcl.C156_false"
   ],
   "note": ""
  },
  {
   "property": "C157",
   "status": "proved",
   "theorems": [
    "Gcl.C157_values",
    "Gcl.C157_waitfree",
    "Gcl.C157_no_deadlock",
    "Gcl.C157_terminates",
    "Gcl.C157_once",
    "Gcl.C157_momentum",
    "Gcl.C157_adjacency",
    "Gcl.C157_false"
   ],
   "note": ""
  },
  {
   "property": "C158",
   "status": "proved",
   "theorems": [
    "Gcl.C158_possible",
    "Gcl.C158_quiet",
    "Gcl.C158_uninterrupted",
    "Gcl.C158_false",
    "Gcl.C158_false_same",
    "Gcl.C158_user_filter"
   ],
   "note": ""
  },
  {
   "property": "C159",
   "status": "proved",
   "theorems": [
    "Gcl.C159_masks",
    "Gcl.C159_all",
    "Gcl.C159_apart",
    "Gcl.C159_resolved",
    "Gcl.C159_false",
    "Gcl.C159_consistent",
    "Gcl.C159_boost",
    "Gcl.C159_rotation",
    "Gcl.C159_order",
    "Gcl.C159_collinear"
   ],
   "note": ""
  },
  {
   "property": "C160",
   "status": "proved",
   "theorems": [
    "Gcl.C160_quantities",
    "Gcl.C160_fixed",
    "Gcl.C160_false",
    "Gcl.C160_distance",
    "Gcl.C160_sums",
    "Gcl.C160_closest",
    "Gcl.C160_tag",
    "Gcl.C160_fastjet",
    "Gcl.C160_shapes",
    "Gcl.C160_prune",
    "Gcl.C160_partition",
    "Gcl.C160_clusters"
   ],
   "note": ""
  },
  {
   "property": "C161",
   "status": "proved",
   "theorems": [
    "Gcl.C161_nearest",
    "Gcl.C161_even",
    "Gcl.C161_order",
    "Gcl.C161_accurate",
    "Gcl.C161_gradual",
    "Gcl.C161_normal",
    "Gcl.C161_eta",
    "Gcl.C161_mass",
    "Gcl.C161_ieee",
    "Gcl.C161_double",
    "Gcl.C161_powers",
    "Gcl.C161_false_rest",
    "Gcl.C161_false_eta",
    "Gcl.C161_false_order"
   ],
   "note": ""
  },
  {
   "property": "C162",
   "status": "proved",
   "theorems": [
    "Gcl.C162_across",
    "Gcl.C162_along",
    "Gcl.C162_distance",
    "Gcl.C162_shifts",
    "Gcl.C162_sums",
    "Gcl.C162_false",
    "Gcl.C162_false_gradient",
    "Gcl.C162_fastjet",
    "Gcl.C162_shapes",
    "Gcl.C162_closest",
    "Gcl.C162_tag",
    "Gcl.C162_tag_across",
    "Gcl.C162_partition",
    "Gcl.C162_prune",
    "Gcl.C162_clusters"
   ],
   "note": ""
  },
  {
   "property": "C163",
   "status": "proved",
   "theorems": [
    "Gcl.C163_clusters",
    "Gcl.C163_top_k",
    "Gcl.C163_eta_cut",
    "Gcl.C163_pt_cut",
    "Gcl.C163_range",
    "Gcl.C163_codes",
    "Gcl.C163_linked",
    "Gcl.C163_false",
    "Gcl.C163_false_top_k",
    "Gcl.C163_find"
   ],
   "note": ""
  },
  {
   "property": "C164",
   "status": "proved",
   "theorems": [
    "Gcl.C164_recluster",
    "Gcl.C164_prune",
    "Gcl.C164_prune_kept",
    "Gcl.C164_codes",
    "Gcl.C164_range",
    "Gcl.C164_flat",
    "Gcl.C164_false_prune"
   ],
   "note": ""
  },
  {
   "property": "C165",
   "status": "proved",
   "theorems": [
    "Gcl.C165_unique",
    "Gcl.C165_order",
    "Gcl.C165_again",
    "Gcl.C165_false"
   ],
   "note": ""
  },
  {
   "property": "C166",
   "status": "proved",
   "theorems": [
    "Gcl.C166_noise",
    "Gcl.C166_any_cut",
    "Gcl.C166_perturbed",
    "Gcl.C166_determined",
    "Gcl.C166_false_cut",
    "Gcl.C166_false_radius"
   ],
   "note": ""
  },
  {
   "property": "C167",
   "status": "proved",
   "theorems": [
    "Gcl.C167_axis",
    "Gcl.C167_c_parameter",
    "Gcl.C167_thrust",
    "Gcl.C167_spherocity",
    "Gcl.C167_mass",
    "Gcl.C167_false"
   ],
   "note": ""
  },
  {
   "property": "C168",
   "status": "proved",
   "theorems": [
    "Gcl.C168_partition",
    "Gcl.C168_prune",
    "Gcl.C168_tie_false",
    "Gcl.C168_boundary_false"
   ],
   "note": ""
  },
  {
   "property": "C169",
   "status": "proved",
   "theorems": [
    "Gcl.C169_arg_closest",
    "Gcl.C169_tag"
   ],
   "note": ""
  },
  {
   "property": "C170",
   "status": "proved",
   "theorems": [
    "Gcl.C170_clusters"
   ],
   "note": ""
  }
 ]
}