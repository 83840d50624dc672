Gcl.C01_and: Classical.choice, Quot.sound, propext
Gcl.C01_arrays: Quot.sound, propext
Gcl.C01_foreign: propext
Gcl.C01_invert: Quot.sound, propext
Gcl.C01_or: Classical.choice, Quot.sound, propext
Gcl.C02_complement: Quot.sound, propext
Gcl.C02_eq_ne: Quot.sound, propext
Gcl.C02_false: Quot.sound, propext
Gcl.C02_foreign: propext
Gcl.C03_aggregate: Quot.sound, propext
Gcl.C03_all_and: Classical.choice, Quot.sound, propext
Gcl.C03_all_or: Classical.choice, Quot.sound, propext
Gcl.C03_bool: Classical.choice, Quot.sound, propext
Gcl.C03_defined: Quot.sound, propext
Gcl.C03_empty: 
Gcl.C03_methods: 
Gcl.C03_none: propext
Gcl.C03_ragged: Quot.sound, propext
Gcl.C04_faithful: Classical.choice, Quot.sound, propext
Gcl.C04_look: Classical.choice, Quot.sound, propext
Gcl.C04_roundtrip: Classical.choice, Quot.sound, propext
Gcl.C05_equal_to: Classical.choice, Quot.sound, propext
Gcl.C05_equivalence: Classical.choice, Quot.sound, propext
Gcl.C05_ignores_agg_op: Classical.choice, Quot.sound, propext
Gcl.C05_order_implies: Classical.choice, Quot.sound, propext
Gcl.C06_and: Classical.choice, Quot.sound, propext
Gcl.C06_explicit: Classical.choice, Quot.sound, propext
Gcl.C06_false: Classical.choice, Quot.sound, propext
Gcl.C06_restored: Classical.choice, Quot.sound, propext
Gcl.C07_absent: Classical.choice, Quot.sound, propext
Gcl.C07_idempotent: propext
Gcl.C07_key_gone: Classical.choice, Quot.sound, propext
Gcl.C07_recursive_drop: Classical.choice, Quot.sound, propext
Gcl.C08_distinct: Quot.sound, propext
Gcl.C08_flatten_rise: Classical.choice, Quot.sound, propext
Gcl.C08_repeated: Quot.sound, propext
Gcl.C09_flatten_agg: Quot.sound, propext
Gcl.C100_agg_op: Classical.choice, Quot.sound, propext
Gcl.C100_data: Classical.choice, Quot.sound, propext
Gcl.C100_false: Classical.choice, Quot.sound, propext
Gcl.C100_flatten: Classical.choice, Quot.sound, propext
Gcl.C100_handed_on: propext
Gcl.C100_history: propext
Gcl.C100_methods: Classical.choice, Quot.sound, propext
Gcl.C100_outcome: Quot.sound, propext
Gcl.C100_subscript: Quot.sound, propext
Gcl.C101_complete: Quot.sound, propext
Gcl.C101_lines: Classical.choice, Quot.sound, propext
Gcl.C102_plain: Quot.sound, propext
Gcl.C102_structured: Classical.choice, Quot.sound, propext
Gcl.C102_to_dict: Classical.choice, Quot.sound, propext
Gcl.C103_entries: Classical.choice, Quot.sound, propext
Gcl.C103_subscript: Classical.choice, Quot.sound, propext
Gcl.C103_within: Classical.choice, Quot.sound, propext
Gcl.C104_hard: Classical.choice, Quot.sound, propext
Gcl.C104_hierarchy: Classical.choice, Quot.sound, propext
Gcl.C104_hierarchy_false: Classical.choice, Quot.sound, propext
Gcl.C104_masks: Classical.choice, Quot.sound, propext
Gcl.C104_vertices: Classical.choice, Quot.sound, propext
Gcl.C105_hadrons: Classical.choice, Quot.sound, propext
Gcl.C105_hard: Classical.choice, Quot.sound, propext
Gcl.C105_hierarchy: Classical.choice, Quot.sound, propext
Gcl.C105_masks: Classical.choice, Quot.sound, propext
Gcl.C105_matrix: Classical.choice, Quot.sound, propext
Gcl.C106_false: propext
Gcl.C106_more_edges: Classical.choice, Quot.sound, propext
Gcl.C106_nested: Classical.choice, Quot.sound, propext
Gcl.C106_strict: Classical.choice, Quot.sound, propext
Gcl.C107_every: Quot.sound, propext
Gcl.C107_false: Classical.choice, Quot.sound, propext
Gcl.C107_history: Quot.sound, propext
Gcl.C107_in: Classical.choice, Quot.sound, propext
Gcl.C107_items: Classical.choice, Quot.sound, propext
Gcl.C107_values: Classical.choice, Quot.sound, propext
Gcl.C108_common: Classical.choice, Quot.sound, propext
Gcl.C108_errors: Classical.choice, Quot.sound, propext
Gcl.C108_false: Classical.choice, Quot.sound, propext
Gcl.C108_per_particle: Classical.choice, Quot.sound, propext
Gcl.C109_faithful: Classical.choice, Quot.sound, propext
Gcl.C109_lines: Classical.choice, Quot.sound, propext
Gcl.C109_one_line: Classical.choice, Quot.sound, propext
Gcl.C10_leaf_masks: Quot.sound, propext
Gcl.C10_members: Classical.choice, Quot.sound, propext
Gcl.C10_repeated: Quot.sound, propext
Gcl.C110_false: propext
Gcl.C110_idempotent: Classical.choice, Quot.sound, propext
Gcl.C111_false: Classical.choice, Quot.sound, propext
Gcl.C111_unweighted: Classical.choice, Quot.sound, propext
Gcl.C111_weighted: Classical.choice, Quot.sound, propext
Gcl.C112_false_ids: Classical.choice, Quot.sound, propext
Gcl.C112_false_ties: Classical.choice, Quot.sound, propext
Gcl.C112_ids: Classical.choice, Quot.sound, propext
Gcl.C112_order: Classical.choice, Quot.sound, propext
Gcl.C112_pipeline: Classical.choice, Quot.sound, propext
Gcl.C112_pipeline_ids: Classical.choice, Quot.sound, propext
Gcl.C113_collinear: Classical.choice, Quot.sound, propext
Gcl.C113_false: Classical.choice, Quot.sound, propext
Gcl.C113_mass: Classical.choice, Quot.sound, propext
Gcl.C113_soft: Classical.choice, Quot.sound, propext
Gcl.C113_soft_mass: Classical.choice, Quot.sound, propext
Gcl.C113_split_hardest: Classical.choice, Quot.sound, propext
Gcl.C113_zero: Classical.choice, Quot.sound, propext
Gcl.C114_bounds: Classical.choice, Quot.sound, propext
Gcl.C114_false: Classical.choice, Quot.sound, propext
Gcl.C114_mask: Classical.choice, Quot.sound, propext
Gcl.C114_pair: Classical.choice, Quot.sound, propext
Gcl.C114_union: Classical.choice, Quot.sound, propext
Gcl.C115_along: Classical.choice, Quot.sound, propext
Gcl.C115_cParameter: Classical.choice, Quot.sound, propext
Gcl.C115_defined: Classical.choice, Quot.sound, propext
Gcl.C115_false: Classical.choice, Quot.sound, propext
Gcl.C115_library: Classical.choice, Quot.sound, propext
Gcl.C115_spherocity: Classical.choice, Quot.sound, propext
Gcl.C115_thrust: Classical.choice, Quot.sound, propext
Gcl.C116_default: Classical.choice, Quot.sound, propext
Gcl.C116_given: Classical.choice, Quot.sound, propext
Gcl.C117_not_a_group: propext
Gcl.C117_partition: Classical.choice, Quot.sound, propext
Gcl.C118_eta_false: Classical.choice, Quot.sound, propext
Gcl.C118_exact: Classical.choice, Quot.sound, propext
Gcl.C118_mass: Classical.choice, Quot.sound, propext
Gcl.C118_mass_false: Classical.choice, Quot.sound, propext
Gcl.C118_mass_t: Classical.choice, Quot.sound, propext
Gcl.C118_mirror: Classical.choice, Quot.sound, propext
Gcl.C118_rapidity: Classical.choice, Quot.sound, propext
Gcl.C119_copy: Classical.choice, Quot.sound, propext
Gcl.C119_false: Quot.sound, propext
Gcl.C119_meaning: Classical.choice, Quot.sound, propext
Gcl.C119_new: Classical.choice, Quot.sound, propext
Gcl.C11_slice_data: Quot.sound, propext
Gcl.C11_slice_shape: Classical.choice, Quot.sound, propext
Gcl.C120_clusters: Classical.choice, Quot.sound, propext
Gcl.C121_classes: Classical.choice, Quot.sound, propext
Gcl.C121_false: Classical.choice, Quot.sound, propext
Gcl.C121_integers: Classical.choice, Quot.sound, propext
Gcl.C121_kept: Classical.choice, Quot.sound, propext
Gcl.C121_stored: Classical.choice, Quot.sound, propext
Gcl.C122_agg: Classical.choice, Quot.sound, propext
Gcl.C122_construct: Classical.choice, Quot.sound, propext
Gcl.C122_leaves: Classical.choice, Quot.sound, propext
Gcl.C122_rise: Classical.choice, Quot.sound, propext
Gcl.C122_select: Classical.choice, Quot.sound, propext
Gcl.C122_write: propext
Gcl.C123_centroid: Classical.choice, Quot.sound, propext
Gcl.C123_exact: Classical.choice, Quot.sound, propext
Gcl.C123_mass: Classical.choice, Quot.sound, propext
Gcl.C123_order_false: Classical.choice, Quot.sound, propext
Gcl.C123_reorder: Classical.choice, Quot.sound, propext
Gcl.C123_sum: Classical.choice, Quot.sound, propext
Gcl.C123_worst: Classical.choice, Quot.sound, propext
Gcl.C124_copy_false: Classical.choice, Quot.sound, propext
Gcl.C124_errors: Classical.choice, Quot.sound, propext
Gcl.C124_frame: Classical.choice, Quot.sound, propext
Gcl.C124_matrix: Classical.choice, Quot.sound, propext
Gcl.C124_overrun_false: Classical.choice, Quot.sound, propext
Gcl.C124_self: Classical.choice, Quot.sound, propext
Gcl.C124_transpose: Classical.choice, Quot.sound, propext
Gcl.C124_unwritten: Classical.choice, Quot.sound, propext
Gcl.C125_false: Classical.choice, Quot.sound, propext
Gcl.C125_momenta: Classical.choice, Quot.sound, propext
Gcl.C125_once: Classical.choice, Quot.sound, propext
Gcl.C126_coeffs: Classical.choice, Quot.sound, propext
Gcl.C126_distances: Classical.choice, Quot.sound, propext
Gcl.C126_masks: Classical.choice, Quot.sound, propext
Gcl.C126_values: Classical.choice, Quot.sound, propext
Gcl.C127_false: Classical.choice, Quot.sound, propext
Gcl.C127_fits: Classical.choice, Quot.sound, propext
Gcl.C127_zero: Classical.choice, Quot.sound, propext
Gcl.C128_absent: propext
Gcl.C128_color: Classical.choice, Quot.sound, propext
Gcl.C128_endless: Quot.sound, propext
Gcl.C128_endless_false: Quot.sound, propext
Gcl.C128_getitem: Classical.choice, Quot.sound, propext
Gcl.C128_iter: Classical.choice, Quot.sound, propext
Gcl.C128_len: Quot.sound, propext
Gcl.C128_print: Classical.choice, Quot.sound, propext
Gcl.C128_whole: Classical.choice, Quot.sound, propext
Gcl.C129_closest_boosted: Classical.choice, Quot.sound, propext
Gcl.C129_closest_rotated: Classical.choice, Quot.sound, propext
Gcl.C129_closest_schedule: Classical.choice, Quot.sound, propext
Gcl.C129_matrix_rotated: Classical.choice, Quot.sound, propext
Gcl.C129_partition_boost_false: Classical.choice, Quot.sound, propext
Gcl.C129_partition_boosted: Classical.choice, Quot.sound, propext
Gcl.C129_partition_rotated: Classical.choice, Quot.sound, propext
Gcl.C129_tag_boosted: Classical.choice, Quot.sound, propext
Gcl.C129_tag_rotated: Classical.choice, Quot.sound, propext
Gcl.C12_history: Quot.sound, propext
Gcl.C12_lookup_errors: Classical.choice, Quot.sound, propext
Gcl.C130_alias: Classical.choice, Quot.sound, propext
Gcl.C130_augment: Classical.choice, Quot.sound, propext
Gcl.C130_binary: Classical.choice, Quot.sound, propext
Gcl.C130_copy: Classical.choice, Quot.sound, propext
Gcl.C130_entries: propext
Gcl.C130_errors: propext
Gcl.C130_foreign: Classical.choice, Quot.sound, propext
Gcl.C130_foreign_binary: propext
Gcl.C130_foreign_false: propext
Gcl.C130_group: Classical.choice, Quot.sound, propext
Gcl.C130_mask_augment: Classical.choice, Quot.sound, propext
Gcl.C130_mask_binary: Classical.choice, Quot.sound, propext
Gcl.C130_mask_false: Classical.choice, Quot.sound, propext
Gcl.C130_mask_ufunc: Classical.choice, Quot.sound, propext
Gcl.C130_pure_history: Classical.choice, Quot.sound, propext
Gcl.C130_seen: Classical.choice, Quot.sound, propext
Gcl.C130_stale: Classical.choice, Quot.sound, propext
Gcl.C130_stale_false: propext
Gcl.C130_stretch: Classical.choice, Quot.sound, propext
Gcl.C131_arg_closest: Classical.choice, Quot.sound, propext
Gcl.C131_arg_closest_unique: Classical.choice, Quot.sound, propext
Gcl.C131_false: Classical.choice, Quot.sound, propext
Gcl.C131_tag: Classical.choice, Quot.sound, propext
Gcl.C132_booleans: propext
Gcl.C132_drop: Classical.choice, Quot.sound, propext
Gcl.C132_false: propext
Gcl.C132_hard_descendants: Classical.choice, Quot.sound, propext
Gcl.C132_no_antiparticles: Classical.choice, Quot.sound, propext
Gcl.C132_only_true: propext
Gcl.C132_sign: Quot.sound, propext
Gcl.C133_clusters_boosted: Classical.choice, Quot.sound, propext
Gcl.C133_clusters_colour: Classical.choice, Quot.sound, propext
Gcl.C133_clusters_ids: Classical.choice, Quot.sound, propext
Gcl.C133_clusters_order: Classical.choice, Quot.sound, propext
Gcl.C133_clusters_rotated: Classical.choice, Quot.sound, propext
Gcl.C133_conjugate: Quot.sound, propext
Gcl.C133_labels: Quot.sound, propext
Gcl.C133_singlets_order: Classical.choice, Quot.sound, propext
Gcl.C134_cut: Classical.choice, Quot.sound, propext
Gcl.C134_cut_edges: Classical.choice, Quot.sound, propext
Gcl.C134_cut_scale: Classical.choice, Quot.sound, propext
Gcl.C134_distinct: Classical.choice, Quot.sound, propext
Gcl.C134_grow: Classical.choice, Quot.sound, propext
Gcl.C134_knn: Classical.choice, Quot.sound, propext
Gcl.C134_knn_edges: Classical.choice, Quot.sound, propext
Gcl.C134_knn_ties: Classical.choice, Quot.sound, propext
Gcl.C134_particles: Classical.choice, Quot.sound, propext
Gcl.C135_assigned: Classical.choice, Quot.sound, propext
Gcl.C135_constructed: Classical.choice, Quot.sound, propext
Gcl.C135_false: Classical.choice, Quot.sound, propext
Gcl.C135_history: Classical.choice, Quot.sound, propext
Gcl.C135_lookup: Classical.choice, Quot.sound, propext
Gcl.C136_collinear: Classical.choice, Quot.sound, propext
Gcl.C136_delta_R: Classical.choice, Quot.sound, propext
Gcl.C136_delta_R_eta: Classical.choice, Quot.sound, propext
Gcl.C136_distance: Classical.choice, Quot.sound, propext
Gcl.C136_dphi: Classical.choice, Quot.sound, propext
Gcl.C136_eta: Classical.choice, Quot.sound, propext
Gcl.C136_exact: Classical.choice, Quot.sound, propext
Gcl.C136_false: Classical.choice, Quot.sound, propext
Gcl.C136_symmetric: Classical.choice, Quot.sound, propext
Gcl.C137_edge: Classical.choice, Quot.sound, propext
Gcl.C137_event: Classical.choice, Quot.sound, propext
Gcl.C137_false: Classical.choice, Quot.sound, propext
Gcl.C137_hard: Classical.choice, Quot.sound, propext
Gcl.C137_parton: Classical.choice, Quot.sound, propext
Gcl.C137_shower: Classical.choice, Quot.sound, propext
Gcl.C138_closed: Classical.choice, Quot.sound, propext
Gcl.C138_descendants: Classical.choice, Quot.sound, propext
Gcl.C138_false: propext
Gcl.C138_leaves: Classical.choice, Quot.sound, propext
Gcl.C138_roots: Classical.choice, Quot.sound, propext
Gcl.C139_descendants: Classical.choice, Quot.sound, propext
Gcl.C139_ends: Classical.choice, Quot.sound, propext
Gcl.C139_find: Classical.choice, Quot.sound, propext
Gcl.C139_hadron: Classical.choice, Quot.sound, propext
Gcl.C139_hard: Classical.choice, Quot.sound, propext
Gcl.C139_matrix: Classical.choice, Quot.sound, propext
Gcl.C13_isolated: Classical.choice, Quot.sound, propext
Gcl.C13_one_sided: Classical.choice, Quot.sound, propext
Gcl.C13_same: Classical.choice, Quot.sound, propext
Gcl.C140_axis: Classical.choice, Quot.sound, propext
Gcl.C140_c_parameter: Classical.choice, Quot.sound, propext
Gcl.C140_spherocity: Classical.choice, Quot.sound, propext
Gcl.C140_thrust: Classical.choice, Quot.sound, propext
Gcl.C141_false: Classical.choice, Quot.sound, propext
Gcl.C142_angles: Classical.choice, Quot.sound, propext
Gcl.C142_distance: Classical.choice, Quot.sound, propext
Gcl.C142_false: Classical.choice, Quot.sound, propext
Gcl.C142_rapidity: Classical.choice, Quot.sound, propext
Gcl.C142_rotation: Classical.choice, Quot.sound, propext
Gcl.C142_symm: Classical.choice, Quot.sound, propext
Gcl.C143_codes: Classical.choice, Quot.sound, propext
Gcl.C143_distance: Classical.choice, Quot.sound, propext
Gcl.C143_hard: Quot.sound, propext
Gcl.C143_quantity: Classical.choice, Quot.sound, propext
Gcl.C143_quantity_false: Classical.choice, Quot.sound, propext
Gcl.C143_shift: Classical.choice, Quot.sound, propext
Gcl.C144_boosts: Classical.choice, Quot.sound, propext
Gcl.C144_energy: Classical.choice, Quot.sound, propext
Gcl.C144_exact: Classical.choice, Quot.sound, propext
Gcl.C144_false: Classical.choice, Quot.sound, propext
Gcl.C144_mass: Classical.choice, Quot.sound, propext
Gcl.C144_rotation_back: Classical.choice, Quot.sound, propext
Gcl.C144_rotations: Classical.choice, Quot.sound, propext
Gcl.C145_boost: Classical.choice, Quot.sound, propext
Gcl.C145_combined_mass: Classical.choice, Quot.sound, propext
Gcl.C145_combined_mass_clash: Classical.choice, Quot.sound, propext
Gcl.C145_distance: Classical.choice, Quot.sound, propext
Gcl.C145_eta: Classical.choice, Quot.sound, propext
Gcl.C145_experimental: Classical.choice, Quot.sound, propext
Gcl.C145_experimental_beam: Classical.choice, Quot.sound, propext
Gcl.C145_experimental_mass: Classical.choice, Quot.sound, propext
Gcl.C145_false: Classical.choice, Quot.sound, propext
Gcl.C145_finite: Classical.choice, Quot.sound, propext
Gcl.C145_mass: Classical.choice, Quot.sound, propext
Gcl.C145_mass_t: Classical.choice, Quot.sound, propext
Gcl.C145_phi: Classical.choice, Quot.sound, propext
Gcl.C145_pt: Classical.choice, Quot.sound, propext
Gcl.C145_rapidity: Classical.choice, Quot.sound, propext
Gcl.C145_theta: Classical.choice, Quot.sound, propext
Gcl.C146_c_parameter: Classical.choice, Quot.sound, propext
Gcl.C146_exact: Classical.choice, Quot.sound, propext
Gcl.C146_false: Classical.choice, Quot.sound, propext
Gcl.C146_norm: Classical.choice, Quot.sound, propext
Gcl.C146_raises: Classical.choice, Quot.sound, propext
Gcl.C146_spherocity: Classical.choice, Quot.sound, propext
Gcl.C146_spherocity_false: Classical.choice, Quot.sound, propext
Gcl.C146_thrust: Classical.choice, Quot.sound, propext
Gcl.C147_collinear_false: Classical.choice, Quot.sound, propext
Gcl.C147_flat: Classical.choice, Quot.sound, propext
Gcl.C147_hadrons: Classical.choice, Quot.sound, propext
Gcl.C147_soft: Classical.choice, Quot.sound, propext
Gcl.C147_soft_false: Classical.choice, Quot.sound, propext
Gcl.C147_unsafe: Classical.choice, Quot.sound, propext
Gcl.C148_conflict_false: Classical.choice, Quot.sound, propext
Gcl.C148_distance_false: Classical.choice, Quot.sound, propext
Gcl.C148_self: Classical.choice, Quot.sound, propext
Gcl.C148_undisputed: Classical.choice, Quot.sound, propext
Gcl.C149_angle: Classical.choice, Quot.sound, propext
Gcl.C149_default_false: Classical.choice, Quot.sound, propext
Gcl.C149_mass: Classical.choice, Quot.sound, propext
Gcl.C149_massless_false: Classical.choice, Quot.sound, propext
Gcl.C149_physical: Classical.choice, Quot.sound, propext
Gcl.C149_turn: Classical.choice, Quot.sound, propext
Gcl.C14_array: Classical.choice, Quot.sound, propext
Gcl.C14_copy: Classical.choice, Quot.sound, propext
Gcl.C14_inplace: Classical.choice, Quot.sound, propext
Gcl.C14_original_untouched: Classical.choice, Quot.sound, propext
Gcl.C150_cases: Classical.choice, Quot.sound, propext
Gcl.C150_children: Classical.choice, Quot.sound, propext
Gcl.C150_conserved: Classical.choice, Quot.sound, propext
Gcl.C150_energy: Classical.choice, Quot.sound, propext
Gcl.C150_exact: Classical.choice, Quot.sound, propext
Gcl.C150_false: Classical.choice, Quot.sound, propext
Gcl.C150_hardest: Classical.choice, Quot.sound, propext
Gcl.C150_rotation: Classical.choice, Quot.sound, propext
Gcl.C150_sequential: Classical.choice, Quot.sound, propext
Gcl.C151_false: Classical.choice, Quot.sound, propext
Gcl.C151_mass: Classical.choice, Quot.sound, propext
Gcl.C151_mass_overflow: Classical.choice, Quot.sound, propext
Gcl.C151_mass_overflow_pt: Classical.choice, Quot.sound, propext
Gcl.C151_mass_t: Classical.choice, Quot.sound, propext
Gcl.C151_mass_t_overflow: Classical.choice, Quot.sound, propext
Gcl.C151_norm: Classical.choice, Quot.sound, propext
Gcl.C151_norm_tiny: Classical.choice, Quot.sound, propext
Gcl.C151_rest: Classical.choice, Quot.sound, propext
Gcl.C151_thrust_fits: Classical.choice, Quot.sound, propext
Gcl.C151_thrust_nan: Classical.choice, Quot.sound, propext
Gcl.C151_thrust_zero: Classical.choice, Quot.sound, propext
Gcl.C152_assign: Classical.choice, Quot.sound, propext
Gcl.C152_assign_data: Quot.sound, propext
Gcl.C152_assign_graph: Classical.choice, Quot.sound, propext
Gcl.C152_copy: Classical.choice, Quot.sound, propext
Gcl.C152_copy_set: Classical.choice, Quot.sound, propext
Gcl.C152_false: propext
Gcl.C152_new_graph: Classical.choice, Quot.sound, propext
Gcl.C152_new_set: Classical.choice, Quot.sound, propext
Gcl.C152_property: propext
Gcl.C152_reachable: Classical.choice, Quot.sound, propext
Gcl.C152_shared: Classical.choice, Quot.sound, propext
Gcl.C152_slice: Classical.choice, Quot.sound, propext
Gcl.C152_subscript: Classical.choice, Quot.sound, propext
Gcl.C152_subscript_set: Classical.choice, Quot.sound, propext
Gcl.C153_counts: Classical.choice, Quot.sound, propext
Gcl.C153_false: Classical.choice, Quot.sound, propext
Gcl.C153_overflow: Classical.choice, Quot.sound, propext
Gcl.C153_self: Classical.choice, Quot.sound, propext
Gcl.C153_symmetric: Classical.choice, Quot.sound, propext
Gcl.C153_triangle: Classical.choice, Quot.sound, propext
Gcl.C153_triangle_false: Classical.choice, Quot.sound, propext
Gcl.C153_value: Classical.choice, Quot.sound, propext
Gcl.C153_weights: Classical.choice, Quot.sound, propext
Gcl.C154_accurate: Classical.choice, Quot.sound, propext
Gcl.C154_clique: Classical.choice, Quot.sound, propext
Gcl.C154_distbn: Classical.choice, Quot.sound, propext
Gcl.C154_exact: Classical.choice, Quot.sound, propext
Gcl.C154_false: Classical.choice, Quot.sound, propext
Gcl.C154_range: Classical.choice, Quot.sound, propext
Gcl.C154_value: Classical.choice, Quot.sound, propext
Gcl.C155_clusters: Classical.choice, Quot.sound, propext
Gcl.C155_false: propext
Gcl.C155_outcasts: Quot.sound, propext
Gcl.C155_singlets: propext
Gcl.C156_angle: Classical.choice, Quot.sound, propext
Gcl.C156_beam: Classical.choice, Quot.sound, propext
Gcl.C156_decided: Classical.choice, Quot.sound, propext
Gcl.C156_distance: Classical.choice, Quot.sound, propext
Gcl.C156_exact: Classical.choice, Quot.sound, propext
Gcl.C156_false: Classical.choice, Quot.sound, propext
Gcl.C156_monotone: Classical.choice, Quot.sound, propext
Gcl.C156_nonpos: Classical.choice, Quot.sound, propext
Gcl.C156_prune: Classical.choice, Quot.sound, propext
Gcl.C157_adjacency: Classical.choice, Quot.sound, propext
Gcl.C157_false: Classical.choice, Quot.sound, propext
Gcl.C157_momentum: Classical.choice, Quot.sound, propext
Gcl.C157_no_deadlock: Classical.choice, Quot.sound, propext
Gcl.C157_once: Quot.sound, propext
Gcl.C157_terminates: Classical.choice, Quot.sound, propext
Gcl.C157_values: Quot.sound, propext
Gcl.C157_waitfree: Classical.choice, Quot.sound, propext
Gcl.C158_false: Classical.choice, Quot.sound, propext
Gcl.C158_false_same: Classical.choice, Quot.sound, propext
Gcl.C158_possible: Classical.choice, Quot.sound, propext
Gcl.C158_quiet: Classical.choice, Quot.sound, propext
Gcl.C158_uninterrupted: Classical.choice, Quot.sound, propext
Gcl.C158_user_filter: Classical.choice, Quot.sound, propext
Gcl.C159_all: Classical.choice, Quot.sound, propext
Gcl.C159_apart: Classical.choice, Quot.sound, propext
Gcl.C159_boost: Classical.choice, Quot.sound, propext
Gcl.C159_collinear: Classical.choice, Quot.sound, propext
Gcl.C159_consistent: Classical.choice, Quot.sound, propext
Gcl.C159_false: Classical.choice, Quot.sound, propext
Gcl.C159_masks: Classical.choice, Quot.sound, propext
Gcl.C159_order: Classical.choice, Quot.sound, propext
Gcl.C159_resolved: Classical.choice, Quot.sound, propext
Gcl.C159_rotation: Classical.choice, Quot.sound, propext
Gcl.C15_momentum: Classical.choice, Quot.sound, propext
Gcl.C15_pairs: Classical.choice, Quot.sound, propext
Gcl.C15_scalar: Classical.choice, Quot.sound, propext
Gcl.C160_closest: Classical.choice, Quot.sound, propext
Gcl.C160_clusters: Classical.choice, Quot.sound, propext
Gcl.C160_distance: Classical.choice, Quot.sound, propext
Gcl.C160_false: Classical.choice, Quot.sound, propext
Gcl.C160_fastjet: Classical.choice, Quot.sound, propext
Gcl.C160_fixed: Classical.choice, Quot.sound, propext
Gcl.C160_partition: Classical.choice, Quot.sound, propext
Gcl.C160_prune: Classical.choice, Quot.sound, propext
Gcl.C160_quantities: Classical.choice, Quot.sound, propext
Gcl.C160_shapes: Classical.choice, Quot.sound, propext
Gcl.C160_sums: Classical.choice, Quot.sound, propext
Gcl.C160_tag: Classical.choice, Quot.sound, propext
Gcl.C161_accurate: Classical.choice, Quot.sound, propext
Gcl.C161_double: Classical.choice, Quot.sound, propext
Gcl.C161_eta: Classical.choice, Quot.sound, propext
Gcl.C161_even: Classical.choice, Quot.sound, propext
Gcl.C161_false_eta: Classical.choice, Quot.sound, propext
Gcl.C161_false_order: Classical.choice, Quot.sound, propext
Gcl.C161_false_rest: Classical.choice, Quot.sound, propext
Gcl.C161_gradual: Classical.choice, Quot.sound, propext
Gcl.C161_ieee: Classical.choice, Quot.sound, propext
Gcl.C161_mass: Classical.choice, Quot.sound, propext
Gcl.C161_nearest: Classical.choice, Quot.sound, propext
Gcl.C161_normal: Classical.choice, Quot.sound, propext
Gcl.C161_order: Classical.choice, Quot.sound, propext
Gcl.C161_powers: Classical.choice, Quot.sound, propext
Gcl.C162_across: Classical.choice, Quot.sound, propext
Gcl.C162_along: Classical.choice, Quot.sound, propext
Gcl.C162_closest: Classical.choice, Quot.sound, propext
Gcl.C162_clusters: Classical.choice, Quot.sound, propext
Gcl.C162_distance: Classical.choice, Quot.sound, propext
Gcl.C162_false: Classical.choice, Quot.sound, propext
Gcl.C162_false_gradient: Classical.choice, Quot.sound, propext
Gcl.C162_fastjet: Classical.choice, Quot.sound, propext
Gcl.C162_partition: Classical.choice, Quot.sound, propext
Gcl.C162_prune: Classical.choice, Quot.sound, propext
Gcl.C162_shapes: Classical.choice, Quot.sound, propext
Gcl.C162_shifts: Classical.choice, Quot.sound, propext
Gcl.C162_sums: Classical.choice, Quot.sound, propext
Gcl.C162_tag: Classical.choice, Quot.sound, propext
Gcl.C162_tag_across: Classical.choice, Quot.sound, propext
Gcl.C163_clusters: Classical.choice, Quot.sound, propext
Gcl.C163_codes: Quot.sound, propext
Gcl.C163_eta_cut: Classical.choice, Quot.sound, propext
Gcl.C163_false: Classical.choice, Quot.sound, propext
Gcl.C163_false_top_k: Classical.choice, Quot.sound, propext
Gcl.C163_find: Classical.choice, Quot.sound, propext
Gcl.C163_linked: Classical.choice, Quot.sound, propext
Gcl.C163_pt_cut: Classical.choice, Quot.sound, propext
Gcl.C163_range: Quot.sound, propext
Gcl.C163_top_k: Classical.choice, Quot.sound, propext
Gcl.C164_codes: Classical.choice, Quot.sound, propext
Gcl.C164_false_prune: Classical.choice, Quot.sound, propext
Gcl.C164_flat: Quot.sound, propext
Gcl.C164_prune: Classical.choice, Quot.sound, propext
Gcl.C164_prune_kept: Classical.choice, Quot.sound, propext
Gcl.C164_range: Classical.choice, Quot.sound, propext
Gcl.C164_recluster: Classical.choice, Quot.sound, propext
Gcl.C165_again: Classical.choice, Quot.sound, propext
Gcl.C165_false: Classical.choice, Quot.sound, propext
Gcl.C165_order: Classical.choice, Quot.sound, propext
Gcl.C165_unique: Classical.choice, Quot.sound, propext
Gcl.C166_any_cut: Classical.choice, Quot.sound, propext
Gcl.C166_determined: Classical.choice, Quot.sound, propext
Gcl.C166_false_cut: Classical.choice, Quot.sound, propext
Gcl.C166_false_radius: Classical.choice, Quot.sound, propext
Gcl.C166_noise: Classical.choice, Quot.sound, propext
Gcl.C166_perturbed: Classical.choice, Quot.sound, propext
Gcl.C167_axis: Classical.choice, Quot.sound, propext
Gcl.C167_c_parameter: Classical.choice, Quot.sound, propext
Gcl.C167_false: Classical.choice, Quot.sound, propext
Gcl.C167_mass: Classical.choice, Quot.sound, propext
Gcl.C167_spherocity: Classical.choice, Quot.sound, propext
Gcl.C167_thrust: Classical.choice, Quot.sound, propext
Gcl.C168_boundary_false: Classical.choice, Quot.sound, propext
Gcl.C168_partition: Classical.choice, Quot.sound, propext
Gcl.C168_prune: Classical.choice, Quot.sound, propext
Gcl.C168_tie_false: Classical.choice, Quot.sound, propext
Gcl.C169_arg_closest: Classical.choice, Quot.sound, propext
Gcl.C169_tag: Classical.choice, Quot.sound, propext
Gcl.C16_by_name: Classical.choice, Quot.sound, propext
Gcl.C16_error: Classical.choice, Quot.sound, propext
Gcl.C16_fields: Classical.choice, Quot.sound, propext
Gcl.C16_order_irrelevant: Classical.choice, Quot.sound, propext
Gcl.C170_clusters: Classical.choice, Quot.sound, propext
Gcl.C17_by_name: Classical.choice, Quot.sound, propext
Gcl.C17_error: Classical.choice, Quot.sound, propext
Gcl.C17_fields: Classical.choice, Quot.sound, propext
Gcl.C18_columns: Classical.choice, Quot.sound, propext
Gcl.C18_false: Classical.choice, Quot.sound, propext
Gcl.C18_other_names: Classical.choice, Quot.sound, propext
Gcl.C18_swapped: Classical.choice, Quot.sound, propext
Gcl.C19_color: Classical.choice, Quot.sound, propext
Gcl.C19_false: propext
Gcl.C19_getitem_int: Classical.choice, Quot.sound, propext
Gcl.C20_ints: Classical.choice, Quot.sound, propext
Gcl.C20_mask: Quot.sound, propext
Gcl.C20_mask_length: propext
Gcl.C20_slice_down: Classical.choice, Quot.sound, propext
Gcl.C20_slice_up: Classical.choice, Quot.sound, propext
Gcl.C20_slice_zero: propext
Gcl.C21_and: Classical.choice, Quot.sound, propext
Gcl.C21_compose: Classical.choice, Quot.sound, propext
Gcl.C22_complement: Quot.sound, propext
Gcl.C22_false: Quot.sound, propext
Gcl.C22_insensitive: Quot.sound, propext
Gcl.C22_magnitude: Quot.sound, propext
Gcl.C22_sensitive: Quot.sound, propext
Gcl.C23_default: Quot.sound, propext
Gcl.C23_false: 
Gcl.C23_signed: Quot.sound, propext
Gcl.C23_unsigned: Quot.sound, propext
Gcl.C24_aggregate: Classical.choice, Quot.sound, propext
Gcl.C24_categories: Classical.choice, Quot.sound, propext
Gcl.C24_disjoint: Classical.choice, Quot.sound, propext
Gcl.C25_aligned: Classical.choice, Quot.sound, propext
Gcl.C25_getitem: Classical.choice, Quot.sound, propext
Gcl.C25_mask_error: Classical.choice, Quot.sound, propext
Gcl.C26_aligned: Classical.choice, Quot.sound, propext
Gcl.C26_empty: Classical.choice, Quot.sound, propext
Gcl.C26_len_first: Classical.choice, Quot.sound, propext
Gcl.C26_masked_len: Classical.choice, Quot.sound, propext
Gcl.C27_copy: Classical.choice, Quot.sound, propext
Gcl.C27_false: Classical.choice, Quot.sound, propext
Gcl.C27_parts: propext
Gcl.C28_contents: Classical.choice, Quot.sound, propext
Gcl.C28_decides: Classical.choice, Quot.sound, propext
Gcl.C28_false: Classical.choice, Quot.sound, propext
Gcl.C29_order_irrelevant: Quot.sound, propext
Gcl.C29_translate: Quot.sound, propext
Gcl.C30_false: propext
Gcl.C30_frame: Quot.sound, propext
Gcl.C31_from_event: Quot.sound, propext
Gcl.C31_from_numpy: propext
Gcl.C32_arrays: Classical.choice, Quot.sound, propext
Gcl.C32_graph: 
Gcl.C33_any: Classical.choice, Quot.sound, propext
Gcl.C33_false: Classical.choice, Quot.sound, propext
Gcl.C33_nodes: Classical.choice, Quot.sound, propext
Gcl.C34_acyclic: Classical.choice, Quot.sound, propext
Gcl.C34_empty: propext
Gcl.C34_leaves: Classical.choice, Quot.sound, propext
Gcl.C34_roots: Classical.choice, Quot.sound, propext
Gcl.C35_matrix: Classical.choice, Quot.sound, propext
Gcl.C35_total: Classical.choice, Quot.sound, propext
Gcl.C36_edges: Classical.choice, Quot.sound, propext
Gcl.C36_false: Quot.sound, propext
Gcl.C36_order: Classical.choice, Quot.sound, propext
Gcl.C36_roundtrip: Classical.choice, Quot.sound, propext
Gcl.C36_roundtrip_iff: Classical.choice, Quot.sound, propext
Gcl.C36_self_loop: Classical.choice, Quot.sound, propext
Gcl.C37_empty: Classical.choice, Quot.sound, propext
Gcl.C37_isomorphism: Classical.choice, Quot.sound, propext
Gcl.C37_relabel: Classical.choice, Quot.sound, propext
Gcl.C38_roundtrip: Classical.choice, Quot.sound, propext
Gcl.C38_weighted: Classical.choice, Quot.sound, propext
Gcl.C39_descendants: Classical.choice, Quot.sound, propext
Gcl.C39_terminates: Classical.choice, Quot.sound, propext
Gcl.C40_edge: Classical.choice, Quot.sound, propext
Gcl.C40_reach: Classical.choice, Quot.sound, propext
Gcl.C41_hadron: Classical.choice, Quot.sound, propext
Gcl.C42_find: Classical.choice, Quot.sound, propext
Gcl.C42_mismatch: propext
Gcl.C43_keys: Quot.sound, propext
Gcl.C43_unique: Classical.choice, Quot.sound, propext
Gcl.C44_all: Classical.choice, Quot.sound, propext
Gcl.C45_exact: Classical.choice, Quot.sound, propext
Gcl.C45_false: propext
Gcl.C45_prefix: Classical.choice, Quot.sound, propext
Gcl.C45_right_iff: Classical.choice, Quot.sound, propext
Gcl.C46_errors: Classical.choice, Quot.sound, propext
Gcl.C47_forest: Quot.sound, propext
Gcl.C47_parent: Classical.choice, Quot.sound, propext
Gcl.C47_unique: Classical.choice, Quot.sound, propext
Gcl.C48_exact: Classical.choice, Quot.sound, propext
Gcl.C48_flat: Classical.choice, Quot.sound, propext
Gcl.C48_given: Classical.choice, Quot.sound, propext
Gcl.C48_given_errors: Classical.choice, Quot.sound, propext
Gcl.C48_groups: Classical.choice, Quot.sound, propext
Gcl.C48_tree: Classical.choice, Quot.sound, propext
Gcl.C49_any: Classical.choice, Quot.sound, propext
Gcl.C49_false: Classical.choice, Quot.sound, propext
Gcl.C49_forest: Classical.choice, Quot.sound, propext
Gcl.C49_occurs: Classical.choice, Quot.sound, propext
Gcl.C50_false: propext
Gcl.C50_leaf: Classical.choice, Quot.sound, propext
Gcl.C51_any: Classical.choice, Quot.sound, propext
Gcl.C51_assign: Classical.choice, Quot.sound, propext
Gcl.C51_false: Classical.choice, Quot.sound, propext
Gcl.C51_partition: Classical.choice, Quot.sound, propext
Gcl.C52_any: Classical.choice, Quot.sound, propext
Gcl.C52_frame: Classical.choice, Quot.sound, propext
Gcl.C53_false: propext
Gcl.C53_group: propext
Gcl.C53_lengths: Classical.choice, Quot.sound, propext
Gcl.C53_overlap: Classical.choice, Quot.sound, propext
Gcl.C53_singles: Classical.choice, Quot.sound, propext
Gcl.C54_any: Classical.choice, Quot.sound, propext
Gcl.C54_invert: Classical.choice, Quot.sound, propext
Gcl.C54_invert_any: Classical.choice, Quot.sound, propext
Gcl.C54_misaligned: propext
Gcl.C54_singlets: Classical.choice, Quot.sound, propext
Gcl.C55_all: Classical.choice, Quot.sound, propext
Gcl.C55_balanced: Classical.choice, Quot.sound, propext
Gcl.C55_masked: Classical.choice, Quot.sound, propext
Gcl.C55_mismatch: Classical.choice, Quot.sound, propext
Gcl.C55_monotone: Classical.choice, Quot.sound, propext
Gcl.C55_nonpos: Classical.choice, Quot.sound, propext
Gcl.C55_raises: Classical.choice, Quot.sound, propext
Gcl.C56_disjoint: Classical.choice, Quot.sound, propext
Gcl.C56_errors: Classical.choice, Quot.sound, propext
Gcl.C56_masks: Classical.choice, Quot.sound, propext
Gcl.C56_top_k: Classical.choice, Quot.sound, propext
Gcl.C57_assignment: Classical.choice, Quot.sound, propext
Gcl.C57_cost: Classical.choice, Quot.sound, propext
Gcl.C57_cost_mono: Classical.choice, Quot.sound, propext
Gcl.C57_equal: Classical.choice, Quot.sound, propext
Gcl.C57_equal_pt: Classical.choice, Quot.sound, propext
Gcl.C57_returns: Classical.choice, Quot.sound, propext
Gcl.C57_returns_iff: Classical.choice, Quot.sound, propext
Gcl.C58_errors: Classical.choice, Quot.sound, propext
Gcl.C58_false: Classical.choice, Quot.sound, propext
Gcl.C58_no_partons: Classical.choice, Quot.sound, propext
Gcl.C58_returns: Classical.choice, Quot.sound, propext
Gcl.C58_swapped: Classical.choice, Quot.sound, propext
Gcl.C58_tags: Classical.choice, Quot.sound, propext
Gcl.C59_failure: Classical.choice, Quot.sound, propext
Gcl.C59_false: Classical.choice, Quot.sound, propext
Gcl.C59_rapidity: Classical.choice, Quot.sound, propext
Gcl.C60_clusters: Classical.choice, Quot.sound, propext
Gcl.C60_empty: Classical.choice, Quot.sound, propext
Gcl.C60_no_parton: Classical.choice, Quot.sound, propext
Gcl.C60_one_parton: Classical.choice, Quot.sound, propext
Gcl.C61_array: Classical.choice, Quot.sound, propext
Gcl.C61_compose: Classical.choice, Quot.sound, propext
Gcl.C61_invariants: Classical.choice, Quot.sound, propext
Gcl.C61_rapidity: Classical.choice, Quot.sound, propext
Gcl.C61_sum: Classical.choice, Quot.sound, propext
Gcl.C61_timelike: Classical.choice, Quot.sound, propext
Gcl.C62_array: Classical.choice, Quot.sound, propext
Gcl.C62_azimuth: Classical.choice, Quot.sound, propext
Gcl.C62_compose: Classical.choice, Quot.sound, propext
Gcl.C62_difference: Classical.choice, Quot.sound, propext
Gcl.C62_invariants: Classical.choice, Quot.sound, propext
Gcl.C63_args: Classical.choice, Quot.sound, propext
Gcl.C63_array_false: Classical.choice, Quot.sound, propext
Gcl.C63_beam: Classical.choice, Quot.sound, propext
Gcl.C63_experimental: Classical.choice, Quot.sound, propext
Gcl.C63_experimental_array: Classical.choice, Quot.sound, propext
Gcl.C63_experimental_beam: Classical.choice, Quot.sound, propext
Gcl.C63_false: Classical.choice, Quot.sound, propext
Gcl.C63_massless: Classical.choice, Quot.sound, propext
Gcl.C63_rapidity: Classical.choice, Quot.sound, propext
Gcl.C64_exact: Classical.choice, Quot.sound, propext
Gcl.C64_false: Classical.choice, Quot.sound, propext
Gcl.C64_nowarn: Classical.choice, Quot.sound, propext
Gcl.C65_azimuth: Classical.choice, Quot.sound, propext
Gcl.C65_cell: Classical.choice, Quot.sound, propext
Gcl.C65_invariant: Classical.choice, Quot.sound, propext
Gcl.C65_nonneg: Classical.choice, Quot.sound, propext
Gcl.C65_self: Classical.choice, Quot.sound, propext
Gcl.C65_symm: Classical.choice, Quot.sound, propext
Gcl.C65_transpose: Classical.choice, Quot.sound, propext
Gcl.C65_triangle: Classical.choice, Quot.sound, propext
Gcl.C65_value: Classical.choice, Quot.sound, propext
Gcl.C66_agree: Classical.choice, Quot.sound, propext
Gcl.C66_schedule: Classical.choice, Quot.sound, propext
Gcl.C67_combined: Classical.choice, Quot.sound, propext
Gcl.C67_invariant: Classical.choice, Quot.sound, propext
Gcl.C67_mass: Classical.choice, Quot.sound, propext
Gcl.C67_weights: Classical.choice, Quot.sound, propext
Gcl.C68_aggregate: Classical.choice, Quot.sound, propext
Gcl.C68_partition: Classical.choice, Quot.sound, propext
Gcl.C69_invariant: Classical.choice, Quot.sound, propext
Gcl.C69_thrust: Classical.choice, Quot.sound, propext
Gcl.C70_false: Classical.choice, Quot.sound, propext
Gcl.C70_gradient: Classical.choice, Quot.sound, propext
Gcl.C71_collinear: Classical.choice, Quot.sound, propext
Gcl.C71_invariant: Classical.choice, Quot.sound, propext
Gcl.C71_value: Classical.choice, Quot.sound, propext
Gcl.C72_errors: Classical.choice, Quot.sound, propext
Gcl.C72_metric: Classical.choice, Quot.sound, propext
Gcl.C72_operands: Classical.choice, Quot.sound, propext
Gcl.C72_truncates: Classical.choice, Quot.sound, propext
Gcl.C72_value: Classical.choice, Quot.sound, propext
Gcl.C73_complete: Classical.choice, Quot.sound, propext
Gcl.C73_distbn: Classical.choice, Quot.sound, propext
Gcl.C73_range: Classical.choice, Quot.sound, propext
Gcl.C73_value: Classical.choice, Quot.sound, propext
Gcl.C74_calls: propext
Gcl.C74_restored: propext
Gcl.C75_beam: Classical.choice, Quot.sound, propext
Gcl.C75_bounds: Classical.choice, Quot.sound, propext
Gcl.C75_false: Classical.choice, Quot.sound, propext
Gcl.C75_rotation: Classical.choice, Quot.sound, propext
Gcl.C75_total: Classical.choice, Quot.sound, propext
Gcl.C75_value: Classical.choice, Quot.sound, propext
Gcl.C76_exact: Classical.choice, Quot.sound, propext
Gcl.C76_false: Classical.choice, Quot.sound, propext
Gcl.C76_norm: Classical.choice, Quot.sound, propext
Gcl.C77_binary: Classical.choice, Quot.sound, propext
Gcl.C77_flags_false: Quot.sound, propext
Gcl.C77_mode: Classical.choice, Quot.sound, propext
Gcl.C77_monotone: Classical.choice, Quot.sound, propext
Gcl.C77_symmetric: Quot.sound, propext
Gcl.C77_weighted: Classical.choice, Quot.sound, propext
Gcl.C78_count: Classical.choice, Quot.sound, propext
Gcl.C78_edges: Classical.choice, Quot.sound, propext
Gcl.C78_error: Classical.choice, Quot.sound, propext
Gcl.C78_false: Classical.choice, Quot.sound, propext
Gcl.C78_ties_false: Classical.choice, Quot.sound, propext
Gcl.C79_complete: Classical.choice, Quot.sound, propext
Gcl.C80_axis: Classical.choice, Quot.sound, propext
Gcl.C80_group: Classical.choice, Quot.sound, propext
Gcl.C80_orthogonal: Classical.choice, Quot.sound, propext
Gcl.C80_rodrigues: Classical.choice, Quot.sound, propext
Gcl.C80_turn: Classical.choice, Quot.sound, propext
Gcl.C81_angles: Classical.choice, Quot.sound, propext
Gcl.C81_false: Classical.choice, Quot.sound, propext
Gcl.C81_roundtrip: Classical.choice, Quot.sound, propext
Gcl.C81_softhard: Classical.choice, Quot.sound, propext
Gcl.C81_softhard_false: Classical.choice, Quot.sound, propext
Gcl.C81_unit: Classical.choice, Quot.sound, propext
Gcl.C82_errors: Classical.choice, Quot.sound, propext
Gcl.C82_split: Classical.choice, Quot.sound, propext
Gcl.C83_errors: Classical.choice, Quot.sound, propext
Gcl.C83_noaxis: Classical.choice, Quot.sound, propext
Gcl.C83_split: Classical.choice, Quot.sound, propext
Gcl.C84_covers: Classical.choice, Quot.sound, propext
Gcl.C84_error: Classical.choice, Quot.sound, propext
Gcl.C84_false: Classical.choice, Quot.sound, propext
Gcl.C84_momenta: Classical.choice, Quot.sound, propext
Gcl.C85_copy: Classical.choice, Quot.sound, propext
Gcl.C85_false: Classical.choice, Quot.sound, propext
Gcl.C85_first_read: Classical.choice, Quot.sound, propext
Gcl.C85_follows: Classical.choice, Quot.sound, propext
Gcl.C85_later_read: Classical.choice, Quot.sound, propext
Gcl.C85_mixture: Classical.choice, Quot.sound, propext
Gcl.C86_empty: Quot.sound, propext
Gcl.C86_false: Classical.choice, Quot.sound, propext
Gcl.C86_particles: Classical.choice, Quot.sound, propext
Gcl.C86_table: Classical.choice, Quot.sound, propext
Gcl.C87_roundtrip: Classical.choice, Quot.sound, propext
Gcl.C87_unknown: Classical.choice, Quot.sound, propext
Gcl.C88_axis_false: Classical.choice, Quot.sound, propext
Gcl.C88_boolean: Classical.choice, Quot.sound, propext
Gcl.C88_classes: Quot.sound, propext
Gcl.C88_columns_false: Classical.choice, Quot.sound, propext
Gcl.C88_elementwise: Classical.choice, Quot.sound, propext
Gcl.C88_mixed_false: Quot.sound, propext
Gcl.C88_result: Quot.sound, propext
Gcl.C88_single_values: Quot.sound, propext
Gcl.C88_total_momentum: Classical.choice, Quot.sound, propext
Gcl.C88_unsupported: Quot.sound, propext
Gcl.C89_eta: Classical.choice, Quot.sound, propext
Gcl.C89_phi: Classical.choice, Quot.sound, propext
Gcl.C89_pt_theta: Classical.choice, Quot.sound, propext
Gcl.C89_rapidity: Classical.choice, Quot.sound, propext
Gcl.C89_spacelike: Classical.choice, Quot.sound, propext
Gcl.C90_domain: Classical.choice, Quot.sound, propext
Gcl.C90_sign: Classical.choice, Quot.sound, propext
Gcl.C91_resultant: Classical.choice, Quot.sound, propext
Gcl.C92_decides: Classical.choice, Quot.sound, propext
Gcl.C92_not_equal: Classical.choice, Quot.sound, propext
Gcl.C92_numbers: Classical.choice, Quot.sound, propext
Gcl.C92_record: Classical.choice, Quot.sound, propext
Gcl.C92_same_class: Classical.choice, Quot.sound, propext
Gcl.C93_edges: Classical.choice, Quot.sound, propext
Gcl.C93_errors: propext
Gcl.C93_events: Classical.choice, Quot.sound, propext
Gcl.C93_ndarray: propext
Gcl.C93_rows: Classical.choice, Quot.sound, propext
Gcl.C93_structured: Classical.choice, Quot.sound, propext
Gcl.C93_unrelated: Classical.choice, Quot.sound, propext
Gcl.C94_flat: Classical.choice, Quot.sound, propext
Gcl.C94_records: Classical.choice, Quot.sound, propext
Gcl.C94_refused: propext
Gcl.C95_assign: propext
Gcl.C95_momentum: Classical.choice, Quot.sound, propext
Gcl.C95_structured: propext
Gcl.C96_argmin: Classical.choice, Quot.sound, propext
Gcl.C96_beam: Classical.choice, Quot.sound, propext
Gcl.C96_entries: Classical.choice, Quot.sound, propext
Gcl.C96_harder: Classical.choice, Quot.sound, propext
Gcl.C96_partition: Classical.choice, Quot.sound, propext
Gcl.C96_rest: Classical.choice, Quot.sound, propext
Gcl.C96_value: Classical.choice, Quot.sound, propext
Gcl.C97_global: Classical.choice, Quot.sound, propext
Gcl.C97_global_spherocity: Classical.choice, Quot.sound, propext
Gcl.C97_pencil: Classical.choice, Quot.sound, propext
Gcl.C97_spherocity: Classical.choice, Quot.sound, propext
Gcl.C97_thrust: Classical.choice, Quot.sound, propext
Gcl.C98_copy: Classical.choice, Quot.sound, propext
Gcl.C98_descendants: Classical.choice, Quot.sound, propext
Gcl.C98_false: propext
Gcl.C98_follows: Classical.choice, Quot.sound, propext
Gcl.C98_history: Classical.choice, Quot.sound, propext
Gcl.C98_matrix_meaning: Classical.choice, Quot.sound, propext
Gcl.C99_construct: Classical.choice, Quot.sound, propext
Gcl.C99_contiguous: propext
Gcl.C99_copy: Classical.choice, Quot.sound, propext
Gcl.C99_false: propext
Gcl.C99_fancy: Classical.choice, Quot.sound, propext
Gcl.C99_item: Classical.choice, Quot.sound, propext
Gcl.C99_slice: Classical.choice, Quot.sound, propext
Gcl.C99_write: Classical.choice, Quot.sound, propext
