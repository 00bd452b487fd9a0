{
 "claims": [
  {
   "property": "C01",
   "status": "proved",
   "theorems": [
    "Nikfemm.coo_behaves_as_independent_cells",
    "Nikfemm.coo_stores_exactly_touched_cells"
   ],
   "note": ""
  },
  {
   "property": "C02",
   "status": "proved",
   "theorems": [
    "Nikfemm.csr_conversion_preserves_entries",
    "Nikfemm.csr_conversion_order_independent"
   ],
   "note": ""
  },
  {
   "property": "C03",
   "status": "proved",
   "theorems": [
    "Nikfemm.csr_conversion_safe_iff_diagonal_complete",
    "Nikfemm.csr_conversion_wraps_when_too_few_cells"
   ],
   "note": ""
  },
  {
   "property": "C04",
   "status": "proved",
   "theorems": [
    "Nikfemm.csr_conversion_well_formed"
   ],
   "note": ""
  },
  {
   "property": "C05",
   "status": "proved",
   "theorems": [
    "Nikfemm.symmetric_product_correct"
   ],
   "note": ""
  },
  {
   "property": "C06",
   "status": "proved",
   "theorems": [
    "Nikfemm.upper_product_correct",
    "Nikfemm.lower_product_correct",
    "Nikfemm.triangular_products_adjoint"
   ],
   "note": ""
  },
  {
   "property": "C07",
   "status": "proved",
   "theorems": [
    "Nikfemm.binary_kernels_correct_in_place",
    "Nikfemm.division_kernel_correct_in_place",
    "Nikfemm.scalar_division_kernel_correct_in_place",
    "Nikfemm.unary_kernels_correct_in_place",
    "Nikfemm.kernels_correct_separate_buffers",
    "Nikfemm.reductions_correct"
   ],
   "note": ""
  },
  {
   "property": "C08",
   "status": "proved",
   "theorems": [
    "Nikfemm.dirichlet_solves_constrained_problem"
   ],
   "note": ""
  },
  {
   "property": "C09",
   "status": "proved",
   "theorems": [
    "Nikfemm.dirichlet_conditions_commute",
    "Nikfemm.dirichlet_condition_idempotent"
   ],
   "note": ""
  },
  {
   "property": "C10",
   "status": "proved",
   "theorems": [
    "Nikfemm.repinning_is_not_last_write_wins",
    "Nikfemm.repinning_agrees_iff"
   ],
   "note": ""
  },
  {
   "property": "C11",
   "status": "proved",
   "theorems": [
    "Nikfemm.expression_operation_homomorphic",
    "Nikfemm.expression_history_homomorphic",
    "Nikfemm.linear_expression_constant",
    "Nikfemm.expression_sum_defined_iff"
   ],
   "note": ""
  },
  {
   "property": "C12",
   "status": "proved",
   "theorems": [
    "Nikfemm.symbolic_conversion_agrees_with_numeric",
    "Nikfemm.dirichlet_commutes_with_evaluation"
   ],
   "note": ""
  },
  {
   "property": "C13",
   "status": "proved",
   "theorems": [
    "Nikfemm.ssor_application_correct",
    "Nikfemm.ssor_application_empty_matrix_ub"
   ],
   "note": ""
  },
  {
   "property": "C14",
   "status": "proved",
   "theorems": [
    "Nikfemm.ssor_preconditioner_spd"
   ],
   "note": ""
  },
  {
   "property": "C15",
   "status": "proved",
   "theorems": [
    "Nikfemm.solvers_keep_true_residual"
   ],
   "note": ""
  },
  {
   "property": "C16",
   "status": "proved",
   "theorems": [
    "Nikfemm.ssor_good_guess_unchanged",
    "Nikfemm.ic_good_guess_unchanged",
    "Nikfemm.jacobi_exact_guess_nonfinite",
    "Nikfemm.cg_exact_guess_unchanged"
   ],
   "note": ""
  },
  {
   "property": "C17",
   "status": "proved",
   "theorems": [
    "Nikfemm.ssor_cg_energy_decreases"
   ],
   "note": ""
  },
  {
   "property": "C18",
   "status": "proved",
   "theorems": [
    "Nikfemm.ssor_cg_converges_within_m"
   ],
   "note": ""
  },
  {
   "property": "C19",
   "status": "proved",
   "theorems": [
    "Nikfemm.incomplete_cholesky_correct"
   ],
   "note": ""
  },
  {
   "property": "C20",
   "status": "proved",
   "theorems": [
    "Nikfemm.point_equality_uses_distance",
    "Nikfemm.point_equality_laws",
    "Nikfemm.point_equality_not_transitive",
    "Nikfemm.point_equality_connects",
    "Nikfemm.point_hash_incompatible"
   ],
   "note": ""
  },
  {
   "property": "C21",
   "status": "proved",
   "theorems": [
    "Nikfemm.rotation_laws",
    "Nikfemm.oriented_area_laws",
    "Nikfemm.area_zero_iff_collinear",
    "Nikfemm.normal_laws",
    "Nikfemm.normalize_unit",
    "Nikfemm.normalize_zero"
   ],
   "note": ""
  },
  {
   "property": "C22",
   "status": "proved",
   "theorems": [
    "Nikfemm.point_segment_distance_correct",
    "Nikfemm.point_segment_distance_degenerate"
   ],
   "note": ""
  },
  {
   "property": "C23",
   "status": "proved",
   "theorems": [
    "Nikfemm.segments_intersect_exact",
    "Nikfemm.segments_intersect_symmetric"
   ],
   "note": ""
  },
  {
   "property": "C24",
   "status": "proved",
   "theorems": [
    "Nikfemm.t_junction_depends_on_side",
    "Nikfemm.t_junction_missed",
    "Nikfemm.second_end_on_first_reported",
    "Nikfemm.collinear_overlap_reported"
   ],
   "note": ""
  },
  {
   "property": "C25",
   "status": "proved",
   "theorems": [
    "Nikfemm.polygon_contains_even_odd"
   ],
   "note": ""
  },
  {
   "property": "C26",
   "status": "proved",
   "theorems": [
    "Nikfemm.contains_translate",
    "Nikfemm.contains_rotate",
    "Nikfemm.contains_reverse",
    "Nikfemm.contains_mirror",
    "Nikfemm.contains_bounding_box",
    "Nikfemm.contains_vertices",
    "Nikfemm.contains_empty",
    "Nikfemm.rectangle_contains",
    "Nikfemm.triangle_contains"
   ],
   "note": ""
  },
  {
   "property": "C27",
   "status": "proved",
   "theorems": [
    "Nikfemm.contains_boundary_spec",
    "Nikfemm.contains_boundary_ordered"
   ],
   "note": ""
  },
  {
   "property": "C28",
   "status": "proved",
   "theorems": [
    "Nikfemm.circumcircle_correct",
    "Nikfemm.circumcircle_degenerate",
    "Nikfemm.diameter_circle"
   ],
   "note": ""
  },
  {
   "property": "C29",
   "status": "proved",
   "theorems": [
    "Nikfemm.enclosing_circle_spec",
    "Nikfemm.enclosing_circle_empty",
    "Nikfemm.enclosing_circle_misses"
   ],
   "note": ""
  },
  {
   "property": "C30",
   "status": "proved",
   "theorems": [
    "Nikfemm.history_well_formed",
    "Nikfemm.history_no_undefined_behaviour",
    "Nikfemm.history_keeps_indices",
    "Nikfemm.history_keeps_values"
   ],
   "note": ""
  },
  {
   "property": "C31",
   "status": "proved",
   "theorems": [
    "Nikfemm.drawn_points_separated",
    "Nikfemm.drawn_segments_present",
    "Nikfemm.history_points_separated",
    "Nikfemm.separation_can_fail"
   ],
   "note": ""
  },
  {
   "property": "C32",
   "status": "proved",
   "theorems": [
    "Nikfemm.rejected_segment",
    "Nikfemm.rejected_segment_complete",
    "Nikfemm.bounding_box_gap",
    "Nikfemm.crossing_rectangles_accepted",
    "Nikfemm.rejected_rectangle_leaves_points"
   ],
   "note": ""
  },
  {
   "property": "C33",
   "status": "proved",
   "theorems": [
    "Nikfemm.region_id_correct",
    "Nikfemm.region_id_stable",
    "Nikfemm.region_lookup_total",
    "Nikfemm.draw_region_marks"
   ],
   "note": "getRegionFromId is not modelled: it does not compile if instantiated"
  },
  {
   "property": "C34",
   "status": "proved",
   "theorems": [
    "Nikfemm.translate_moves",
    "Nikfemm.translate_group_action"
   ],
   "note": ""
  },
  {
   "property": "C35",
   "status": "proved",
   "theorems": [
    "Nikfemm.polygon_closed_chain",
    "Nikfemm.convex_polygon_accepted",
    "Nikfemm.rectangle_closed_chain",
    "Nikfemm.rectangle_size_closed_chain",
    "Nikfemm.circle_closed_chain",
    "Nikfemm.empty_polygon_undefined"
   ],
   "note": ""
  },
  {
   "property": "C36",
   "status": "proved",
   "theorems": [
    "Nikfemm.refinement_only_appends",
    "Nikfemm.current_epsilon_correct",
    "Nikfemm.refining_points_clear_of_segments",
    "Nikfemm.refining_points_exact"
   ],
   "note": ""
  },
  {
   "property": "C37",
   "status": "proved",
   "theorems": [
    "Nikfemm.gradient_reproduces_differences",
    "Nikfemm.gradient_exact_on_affine",
    "Nikfemm.gradient_linear",
    "Nikfemm.gradient_ignores_constant",
    "Nikfemm.gradient_corner_order",
    "Nikfemm.curl_is_turned_gradient",
    "Nikfemm.gradient_degenerate"
   ],
   "note": ""
  },
  {
   "property": "C38",
   "status": "proved",
   "theorems": [
    "Nikfemm.conduction_matrix_energy",
    "Nikfemm.conduction_matrix_psd",
    "Nikfemm.conduction_matrix_row_sums",
    "Nikfemm.conduction_matrix_symmetric"
   ],
   "note": ""
  },
  {
   "property": "C39",
   "status": "proved",
   "theorems": [
    "Nikfemm.conduction_assembly_ub_iff",
    "Nikfemm.conduction_assembly_throw_iff",
    "Nikfemm.conduction_assembly_convertible"
   ],
   "note": "getFemSystemCotangentWeights is never called and is not modelled"
  },
  {
   "property": "C40",
   "status": "proved",
   "theorems": [
    "Nikfemm.power_density_sums",
    "Nikfemm.power_density_short"
   ],
   "note": ""
  },
  {
   "property": "C41",
   "status": "proved",
   "theorems": [
    "Nikfemm.magnetostatic_load",
    "Nikfemm.magnetostatic_matrix"
   ],
   "note": ""
  },
  {
   "property": "C42",
   "status": "proved",
   "theorems": [
    "Nikfemm.layer_offsets",
    "Nikfemm.merge_block_diagonal"
   ],
   "note": ""
  },
  {
   "property": "C43",
   "status": "proved",
   "theorems": [
    "Nikfemm.interconnection_current",
    "Nikfemm.interconnection_conserves_iff",
    "Nikfemm.interconnection_twice",
    "Nikfemm.interconnection_self",
    "Nikfemm.interconnections_conserve_current"
   ],
   "note": ""
  },
  {
   "property": "C44",
   "status": "proved",
   "theorems": [
    "Nikfemm.set_voltage_nearest",
    "Nikfemm.set_voltage_bad_layer",
    "Nikfemm.set_voltage_single"
   ],
   "note": ""
  },
  {
   "property": "C45",
   "status": "proved",
   "theorems": [
    "Nikfemm.converged_solve_honours_voltages"
   ],
   "note": ""
  },
  {
   "property": "C46",
   "status": "proved",
   "theorems": [
    "Nikfemm.far_nodes_correct",
    "Nikfemm.anchoring_pins_far_nodes"
   ],
   "note": ""
  },
  {
   "property": "C47",
   "status": "proved",
   "theorems": [
    "Nikfemm.kelvin_point",
    "Nikfemm.kelvin_involution",
    "Nikfemm.kelvin_origin",
    "Nikfemm.kelvin_collapse",
    "Nikfemm.kelvin_transform_mesh"
   ],
   "note": ""
  },
  {
   "property": "C48",
   "status": "proved",
   "theorems": [
    "Nikfemm.stitching_correct",
    "Nikfemm.stitching_valid_iff",
    "Nikfemm.stitching_connected"
   ],
   "note": ""
  },
  {
   "property": "C49",
   "status": "proved",
   "theorems": [
    "Nikfemm.curve_construction",
    "Nikfemm.permeability_lookup_degenerate",
    "Nikfemm.permeability_lookup_undefined_iff",
    "Nikfemm.permeability_lookup_value",
    "Nikfemm.permeability_lookup_positive"
   ],
   "note": ""
  },
  {
   "property": "C50",
   "status": "proved",
   "theorems": [
    "Nikfemm.permeability_update_defined_iff",
    "Nikfemm.permeability_update_relaxes"
   ],
   "note": ""
  },
  {
   "property": "C51",
   "status": "proved",
   "theorems": [
    "Nikfemm.zones_effect",
    "Nikfemm.zones_constrained_rhs",
    "Nikfemm.zones_order_independent_iff",
    "Nikfemm.zones_order_matters",
    "Nikfemm.zones_equations",
    "Nikfemm.zones_correct",
    "Nikfemm.zones_wrong_solution"
   ],
   "note": ""
  },
  {
   "property": "C52",
   "status": "proved",
   "theorems": [
    "Nikfemm.innermost_outcome",
    "Nikfemm.innermost_found",
    "Nikfemm.innermost_twice"
   ],
   "note": ""
  },
  {
   "property": "C53",
   "status": "proved",
   "theorems": [
    "Nikfemm.region_values",
    "Nikfemm.region_barycentre",
    "Nikfemm.barycentre_in_hull",
    "Nikfemm.inertia_parallel_axis",
    "Nikfemm.region_nonneg",
    "Nikfemm.region_linear",
    "Nikfemm.region_frame",
    "Nikfemm.notch_counted"
   ],
   "note": ""
  },
  {
   "property": "C54",
   "status": "proved",
   "theorems": [
    "Nikfemm.switches_outcome",
    "Nikfemm.switches_area"
   ],
   "note": ""
  },
  {
   "property": "C55",
   "status": "proved",
   "theorems": [
    "Nikfemm.view_contains",
    "Nikfemm.view_degenerate",
    "Nikfemm.view_clip",
    "Nikfemm.val2jet_jet",
    "Nikfemm.val2jet_constant",
    "Nikfemm.colour_range",
    "Nikfemm.uniform_not_plotted",
    "Nikfemm.field_plotted",
    "Nikfemm.map_limit"
   ],
   "note": ""
  },
  {
   "property": "C56",
   "status": "proved",
   "theorems": [
    "Nikfemm.generate_lists",
    "Nikfemm.solve_lists",
    "Nikfemm.solve_lists_short"
   ],
   "note": ""
  },
  {
   "property": "C57",
   "status": "proved",
   "theorems": [
    "Nikfemm.signature_checked",
    "Nikfemm.position_checked",
    "Nikfemm.polygon_checked",
    "Nikfemm.draw_effect",
    "Nikfemm.interconnection_effect",
    "Nikfemm.set_voltage_effect",
    "Nikfemm.draw_out_of_range",
    "Nikfemm.interconnection_out_of_range",
    "Nikfemm.raised_unchanged",
    "Nikfemm.huge_changed",
    "Nikfemm.constructor_accepts"
   ],
   "note": ""
  },
  {
   "property": "C58",
   "status": "proved",
   "theorems": [
    "Nikfemm.polygon_prop",
    "Nikfemm.polygon_prop_unknown"
   ],
   "note": ""
  },
  {
   "property": "C59",
   "status": "proved",
   "theorems": [
    "Nikfemm.orientation_correct",
    "Nikfemm.point_in_triangle_correct",
    "Nikfemm.point_in_triangle_excludes_sides",
    "Nikfemm.flat_triangle_contains_line"
   ],
   "note": ""
  },
  {
   "property": "C60",
   "status": "proved",
   "theorems": [
    "Nikfemm.multilayer_system",
    "Nikfemm.multilayer_simulation_converges"
   ],
   "note": "exact arithmetic; in floating point the iteration bound need not hold"
  },
  {
   "property": "C61",
   "status": "proved",
   "theorems": [
    "Nikfemm.edge_set_correct",
    "Nikfemm.magnet_load",
    "Nikfemm.single_polygon_magnet_multiplied",
    "Nikfemm.magnet_segments_correct"
   ],
   "note": ""
  },
  {
   "property": "C62",
   "status": "proved",
   "theorems": [
    "Nikfemm.linear_magnetostatic_solve_converges"
   ],
   "note": "exact arithmetic; in floating point the iteration bound need not hold"
  },
  {
   "property": "C63",
   "status": "proved",
   "theorems": [
    "Nikfemm.magnetostatic_assembly_outcome"
   ],
   "note": ""
  },
  {
   "property": "C64",
   "status": "proved",
   "theorems": [
    "Nikfemm.magnetostatic_solve_outcome"
   ],
   "note": "over the real numbers with exact square root and exponential"
  },
  {
   "property": "C65",
   "status": "proved",
   "theorems": [
    "Nikfemm.epsilon_half_shortest",
    "Nikfemm.epsilon_pos"
   ],
   "note": ""
  },
  {
   "property": "C66",
   "status": "proved",
   "theorems": [
    "Nikfemm.cell_loop_ends",
    "Nikfemm.cell_average",
    "Nikfemm.cell_average_negative"
   ],
   "note": ""
  },
  {
   "property": "C67",
   "status": "proved",
   "theorems": [
    "Nikfemm.surrounding_iff",
    "Nikfemm.surrounding_failure",
    "Nikfemm.surrounding_nested",
    "Nikfemm.force_needs_one_surrounding"
   ],
   "note": ""
  },
  {
   "property": "C68",
   "status": "proved",
   "theorems": [
    "Nikfemm.edge_table_outcome",
    "Nikfemm.neighbour_spec",
    "Nikfemm.field_error_formula",
    "Nikfemm.field_error_uniform",
    "Nikfemm.field_errors_all",
    "Nikfemm.error_range",
    "Nikfemm.weight_limits",
    "Nikfemm.weight_fails",
    "Nikfemm.weight_saturated"
   ],
   "note": ""
  },
  {
   "property": "C69",
   "status": "proved",
   "theorems": [
    "Nikfemm.force_sum",
    "Nikfemm.torque_sum",
    "Nikfemm.stress_quadratic",
    "Nikfemm.torque_center",
    "Nikfemm.stress_gauge",
    "Nikfemm.coefficients_match"
   ],
   "note": ""
  },
  {
   "property": "C70",
   "status": "proved",
   "theorems": [
    "Nikfemm.force_matrix",
    "Nikfemm.torque_matrix",
    "Nikfemm.force_matrix_kernel",
    "Nikfemm.force_weight_optimal"
   ],
   "note": ""
  },
  {
   "property": "C71",
   "status": "proved",
   "theorems": [
    "Nikfemm.weight_function_outcome",
    "Nikfemm.weight_function_fails",
    "Nikfemm.force_outcome",
    "Nikfemm.force_fails",
    "Nikfemm.torque_fails",
    "Nikfemm.no_field_fails"
   ],
   "note": ""
  },
  {
   "property": "C72",
   "status": "proved",
   "theorems": [
    "Nikfemm.ring_radius",
    "Nikfemm.prepared_drawings",
    "Nikfemm.missing_layer_undefined",
    "Nikfemm.interconnection_on_segment"
   ],
   "note": ""
  },
  {
   "property": "C73",
   "status": "proved",
   "theorems": [
    "Nikfemm.vertex_zones",
    "Nikfemm.vertex_zones_kind"
   ],
   "note": ""
  },
  {
   "property": "C74",
   "status": "proved",
   "theorems": [
    "Nikfemm.boundary_count",
    "Nikfemm.boundary_count_undefined",
    "Nikfemm.boundary_too_coarse",
    "Nikfemm.boundary_preparation",
    "Nikfemm.small_drawings_unbounded"
   ],
   "note": ""
  },
  {
   "property": "C75",
   "status": "proved",
   "theorems": [
    "Nikfemm.magnet_refinement_appends",
    "Nikfemm.refined_side_shrinks",
    "Nikfemm.rectangular_magnet_undefined"
   ],
   "note": ""
  },
  {
   "property": "C76",
   "status": "proved",
   "theorems": [
    "Nikfemm.minimum_circle_support",
    "Nikfemm.minimum_circle_empty",
    "Nikfemm.minimum_circle_four",
    "Nikfemm.minimum_circle_misses"
   ],
   "note": ""
  },
  {
   "property": "C77",
   "status": "proved",
   "theorems": [
    "Nikfemm.cotangent_assembly_ub_iff",
    "Nikfemm.cotangent_matrix_entries",
    "Nikfemm.cotangent_interior_row",
    "Nikfemm.cotangent_matrix_differs"
   ],
   "note": ""
  },
  {
   "property": "C78",
   "status": "proved",
   "theorems": [
    "Nikfemm.generate_checked",
    "Nikfemm.generate_effect",
    "Nikfemm.generate_angle_undefined",
    "Nikfemm.generate_overflow",
    "Nikfemm.generate_repeats",
    "Nikfemm.session_solves",
    "Nikfemm.solve_checked",
    "Nikfemm.solve_stale"
   ],
   "note": ""
  },
  {
   "property": "C79",
   "status": "proved",
   "theorems": [
    "Nikfemm.stress_is_force_and_torque",
    "Nikfemm.prescribed_drawn",
    "Nikfemm.force_drawn",
    "Nikfemm.torque_drawn"
   ],
   "note": ""
  },
  {
   "property": "C80",
   "status": "proved",
   "theorems": [
    "Nikfemm.request_faithful",
    "Nikfemm.negative_angle",
    "Nikfemm.negative_area",
    "Nikfemm.mesh_input",
    "Nikfemm.mesh_request",
    "Nikfemm.mesh_refused",
    "Nikfemm.mesh_unbounded",
    "Nikfemm.huge_area_undefined"
   ],
   "note": ""
  },
  {
   "property": "C81",
   "status": "proved",
   "theorems": [
    "Nikfemm.carve_spec",
    "Nikfemm.carve_material"
   ],
   "note": ""
  },
  {
   "property": "C82",
   "status": "proved",
   "theorems": [
    "Nikfemm.mesh_safe",
    "Nikfemm.mesh_no_leak",
    "Nikfemm.remesh_leaks",
    "Nikfemm.remesh_count",
    "Nikfemm.copy_double_free",
    "Nikfemm.unmeshed_read"
   ],
   "note": ""
  },
  {
   "property": "C83",
   "status": "proved",
   "theorems": [
    "Nikfemm.build_refs",
    "Nikfemm.call_leaks",
    "Nikfemm.calls_leak",
    "Nikfemm.pyRelease_fault"
   ],
   "note": ""
  },
  {
   "property": "C84",
   "status": "proved",
   "theorems": [
    "Nikfemm.rounded_product_error",
    "Nikfemm.rounded_dot_error",
    "Nikfemm.cg_rounded",
    "Nikfemm.jacobi_rounded",
    "Nikfemm.ic_rounded",
    "Nikfemm.ssor_rounded",
    "Nikfemm.drift_le",
    "Nikfemm.rounded_tolerance_fails",
    "Nikfemm.solvers_stay_inside",
    "Nikfemm.rndBits_err"
   ],
   "note": ""
  },
  {
   "property": "C85",
   "status": "proved",
   "theorems": [
    "Nikfemm.node_equation_is_current_balance",
    "Nikfemm.computed_currents_balance",
    "Nikfemm.surrounded_cell_closed",
    "Nikfemm.uniform_field_reproduced"
   ],
   "note": ""
  },
  {
   "property": "C86",
   "status": "proved",
   "theorems": [
    "Nikfemm.voltages_between_imposed",
    "Nikfemm.obtuse_triangle_overshoots"
   ],
   "note": ""
  },
  {
   "property": "C87",
   "status": "proved",
   "theorems": [
    "Nikfemm.cell_is_a_third",
    "Nikfemm.circulations_cancel",
    "Nikfemm.node_equation_is_ampere_law",
    "Nikfemm.linear_ampere_law",
    "Nikfemm.nonlinear_ampere_law"
   ],
   "note": ""
  },
  {
   "property": "C88",
   "status": "proved",
   "theorems": [
    "Nikfemm.reported_power_is_fed_in",
    "Nikfemm.solution_minimises_power",
    "Nikfemm.better_conductors_draw_more"
   ],
   "note": ""
  },
  {
   "property": "C89",
   "status": "proved",
   "theorems": [
    "Nikfemm.superposition_and_reciprocity",
    "Nikfemm.common_factor_cancels"
   ],
   "note": ""
  },
  {
   "property": "C90",
   "status": "proved",
   "theorems": [
    "Nikfemm.Materials.material_table",
    "Nikfemm.Materials.region_material",
    "Nikfemm.Materials.region_conductivity",
    "Nikfemm.Materials.magnetic_equality",
    "Nikfemm.Materials.region_magnetic",
    "Nikfemm.Materials.materials_depend_on_order"
   ],
   "note": ""
  },
  {
   "property": "C91",
   "status": "proved",
   "theorems": [
    "Nikfemm.PlotWindow.drawing_in_window",
    "Nikfemm.PlotWindow.drawing_centred",
    "Nikfemm.PlotWindow.negative_drawing_shrunk",
    "Nikfemm.PlotWindow.matrix_picture",
    "Nikfemm.PlotWindow.constant_matrix_no_picture"
   ],
   "note": ""
  },
  {
   "property": "C92",
   "status": "proved",
   "theorems": [
    "Nikfemm.Pred.ccw_exact_sign",
    "Nikfemm.Pred.ccw_zero_iff",
    "Nikfemm.Pred.ccw_consistent",
    "Nikfemm.Pred.exactinit_stops",
    "Nikfemm.Pred.exactinit_exact",
    "Nikfemm.Pred.noexact_wrong_sign"
   ],
   "note": ""
  },
  {
   "property": "C93",
   "status": "proved",
   "theorems": [
    "Nikfemm.Pred.ccw_reads_past_end"
   ],
   "note": ""
  },
  {
   "property": "C94",
   "status": "proved",
   "theorems": [
    "Nikfemm.VSort.vertexsort_sorts",
    "Nikfemm.VSort.one_vertex_per_place",
    "Nikfemm.VSort.plain_order"
   ],
   "note": ""
  },
  {
   "property": "C95",
   "status": "proved",
   "theorems": [
    "Nikfemm.VSort.vertexmedian_splits",
    "Nikfemm.VSort.alternating_cuts",
    "Nikfemm.VSort.order_determined"
   ],
   "note": ""
  },
  {
   "property": "C96",
   "status": "proved",
   "theorems": [
    "Nikfemm.BadQueue.queue_number",
    "Nikfemm.BadQueue.queue_monotone",
    "Nikfemm.BadQueue.same_queue"
   ],
   "note": ""
  },
  {
   "property": "C97",
   "status": "proved",
   "theorems": [
    "Nikfemm.BadQueue.queue_serves",
    "Nikfemm.BadQueue.served_short"
   ],
   "note": ""
  },
  {
   "property": "C98",
   "status": "proved",
   "theorems": [
    "Nikfemm.Quality.testtriangle_verdict"
   ],
   "note": ""
  },
  {
   "property": "C99",
   "status": "proved",
   "theorems": [
    "Nikfemm.Quality.lens_iff",
    "Nikfemm.Quality.circle_iff",
    "Nikfemm.Quality.encroached_result",
    "Nikfemm.Quality.lens_misses"
   ],
   "note": ""
  },
  {
   "property": "C100",
   "status": "proved",
   "theorems": [
    "Nikfemm.Quality.circumcentre",
    "Nikfemm.Quality.offcentre_placed",
    "Nikfemm.Quality.degenerate_centre",
    "Nikfemm.Quality.new_vertex_angle"
   ],
   "note": ""
  },
  {
   "property": "C101",
   "status": "proved",
   "theorems": [
    "Nikfemm.Quality.split_middle",
    "Nikfemm.Quality.split_power_of_two",
    "Nikfemm.Quality.refine_projects"
   ],
   "note": ""
  },
  {
   "property": "C102",
   "status": "proved",
   "theorems": [
    "Nikfemm.linear_field_energy",
    "Nikfemm.linear_field_minimises",
    "Nikfemm.linear_field_reciprocity",
    "Nikfemm.linear_field_superposition",
    "Nikfemm.current_densities_superpose"
   ],
   "note": ""
  },
  {
   "property": "C103",
   "status": "proved",
   "theorems": [
    "Nikfemm.pool_items_in_use",
    "Nikfemm.pool_walk",
    "Nikfemm.pool_walk_order"
   ],
   "note": ""
  },
  {
   "property": "C104",
   "status": "proved",
   "theorems": [
    "Nikfemm.vertex_walk",
    "Nikfemm.mesher_output",
    "Nikfemm.mesher_output_mesh",
    "Nikfemm.mesher_output_accepted",
    "Nikfemm.writeNodes_overflow",
    "Nikfemm.input_points_first"
   ],
   "note": ""
  },
  {
   "property": "C105",
   "status": "proved",
   "theorems": [
    "Nikfemm.flip_sound",
    "Nikfemm.flip_triangles",
    "Nikfemm.flip_casing",
    "Nikfemm.flip_outside",
    "Nikfemm.flip_regional",
    "Nikfemm.unflip_flip",
    "Nikfemm.unflip_flip_sound"
   ],
   "note": ""
  },
  {
   "property": "C106",
   "status": "proved",
   "theorems": [
    "Nikfemm.incircle_sign",
    "Nikfemm.doflip_iff",
    "Nikfemm.delaunay_flip",
    "Nikfemm.delaunay_flip_lowers"
   ],
   "note": ""
  },
  {
   "property": "C107",
   "status": "proved",
   "theorems": [
    "Nikfemm.splitThree_sound",
    "Nikfemm.splitThree_triangles",
    "Nikfemm.splitThree_casing",
    "Nikfemm.splitThree_outside",
    "Nikfemm.splitThree_regional",
    "Nikfemm.splitThree_ccw",
    "Nikfemm.splitEdge_sound",
    "Nikfemm.splitEdge_triangles",
    "Nikfemm.splitEdge_casing",
    "Nikfemm.splitEdge_parts",
    "Nikfemm.splitEdge_outside",
    "Nikfemm.splitEdge_regional",
    "Nikfemm.splitEdge_ccw"
   ],
   "note": ""
  },
  {
   "property": "C108",
   "status": "proved",
   "theorems": [
    "Nikfemm.insertAt_ends",
    "Nikfemm.insertAt_delaunay"
   ],
   "note": ""
  },
  {
   "property": "C109",
   "status": "proved",
   "theorems": [
    "Nikfemm.insertAt_corners",
    "Nikfemm.insertAt_regional",
    "Nikfemm.insertAt_inside_edges",
    "Nikfemm.insertAt_edge_edges",
    "Nikfemm.insertAt_refuses"
   ],
   "note": ""
  },
  {
   "property": "C110",
   "status": "proved",
   "theorems": [
    "Nikfemm.preciselocate_right"
   ],
   "note": ""
  },
  {
   "property": "C111",
   "status": "proved",
   "theorems": [
    "Nikfemm.preciselocate_ends"
   ],
   "note": ""
  },
  {
   "property": "C112",
   "status": "proved",
   "theorems": [
    "Nikfemm.insertvertex_cases",
    "Nikfemm.insertvertex_split"
   ],
   "note": ""
  },
  {
   "property": "C113",
   "status": "proved",
   "theorems": [
    "Nikfemm.locate_right",
    "Nikfemm.locate_ends",
    "Nikfemm.region_right",
    "Nikfemm.region_found",
    "Nikfemm.label_outside_null"
   ],
   "note": ""
  },
  {
   "property": "C114",
   "status": "proved",
   "theorems": [
    "Nikfemm.undovertex_restores",
    "Nikfemm.undovertex_attributes",
    "Nikfemm.undovertex_sound",
    "Nikfemm.undovertex_unfenced",
    "Nikfemm.insertNoting_insertAt",
    "Nikfemm.insertNoting_ends"
   ],
   "note": ""
  },
  {
   "property": "C115",
   "status": "proved",
   "theorems": [
    "Nikfemm.encroached_opposite",
    "Nikfemm.encroached_exactly"
   ],
   "note": ""
  },
  {
   "property": "C116",
   "status": "proved",
   "theorems": [
    "Nikfemm.tested_exactly",
    "Nikfemm.insertNoting_others"
   ],
   "note": ""
  },
  {
   "property": "C117",
   "status": "proved",
   "theorems": [
    "Nikfemm.newvertex_start",
    "Nikfemm.splittriangle_stale",
    "Nikfemm.splittriangle_ends"
   ],
   "note": ""
  },
  {
   "property": "C118",
   "status": "proved",
   "theorems": [
    "Nikfemm.splittriangle_inserted",
    "Nikfemm.splittriangle_undone",
    "Nikfemm.splittriangle_violating"
   ],
   "note": ""
  },
  {
   "property": "C119",
   "status": "proved",
   "theorems": [
    "Nikfemm.insertAt_winding",
    "Nikfemm.insertAt_apart",
    "Nikfemm.insertAt_covers",
    "Nikfemm.flip_winding",
    "Nikfemm.flip_apart"
   ],
   "note": ""
  },
  {
   "property": "C120",
   "status": "proved",
   "theorems": [
    "Nikfemm.deletevertex_ends",
    "Nikfemm.deletevertex_dead",
    "Nikfemm.deletevertex_good",
    "Nikfemm.deletevertex_vertices",
    "Nikfemm.deletevertex_edges",
    "Nikfemm.deletevertex_covers",
    "Nikfemm.deletevertex_regional"
   ],
   "note": ""
  },
  {
   "property": "C121",
   "status": "proved",
   "theorems": [
    "Nikfemm.deletevertex_local",
    "Nikfemm.deletevertex_tested",
    "Nikfemm.deletevertex_encroached",
    "Nikfemm.deletevertex_unencroached"
   ],
   "note": ""
  },
  {
   "property": "C122",
   "status": "proved",
   "theorems": [
    "Nikfemm.splitencsegs_entry",
    "Nikfemm.splitencsegs_entry_ends"
   ],
   "note": ""
  },
  {
   "property": "C123",
   "status": "proved",
   "theorems": [
    "Nikfemm.splitencsegs_done"
   ],
   "note": ""
  },
  {
   "property": "C124",
   "status": "proved",
   "theorems": [
    "Nikfemm.enforcequality_triangle",
    "Nikfemm.enforcequality_mesh",
    "Nikfemm.enforcequality_covers"
   ],
   "note": ""
  },
  {
   "property": "C125",
   "status": "proved",
   "theorems": [
    "Nikfemm.enforcequality_quality"
   ],
   "note": ""
  },
  {
   "property": "C126",
   "status": "proved",
   "theorems": [
    "Nikfemm.enforcequality_materials",
    "Nikfemm.enforcequality_overlap",
    "Nikfemm.insertAt_part"
   ],
   "note": ""
  },
  {
   "property": "C127",
   "status": "proved",
   "theorems": [
    "Nikfemm.finddirection_correct",
    "Nikfemm.finddirection_total",
    "Nikfemm.leads_unique"
   ],
   "note": ""
  },
  {
   "property": "C128",
   "status": "proved",
   "theorems": [
    "Nikfemm.segmentintersection_crossing",
    "Nikfemm.insertsubseg_covers"
   ],
   "note": ""
  },
  {
   "property": "C129",
   "status": "proved",
   "theorems": [
    "Nikfemm.scoutsegment_ends",
    "Nikfemm.scoutsegment_true",
    "Nikfemm.scoutsegment_false",
    "Nikfemm.scoutsegment_mono"
   ],
   "note": ""
  },
  {
   "property": "C130",
   "status": "proved",
   "theorems": [
    "Nikfemm.Pred.scale_expansion_exact"
   ],
   "note": ""
  },
  {
   "property": "C131",
   "status": "proved",
   "theorems": [
    "Nikfemm.Pred.incircle_exact_sign",
    "Nikfemm.Pred.incircle_consistent",
    "Nikfemm.Pred.circleinit_exact",
    "Nikfemm.Pred.incircle_noexact_wrong"
   ],
   "note": ""
  },
  {
   "property": "C132",
   "status": "proved",
   "theorems": [
    "Nikfemm.Pred.incircle_inside"
   ],
   "note": ""
  },
  {
   "property": "C133",
   "status": "proved",
   "theorems": [
    "Nikfemm.Pred.predicates_agree"
   ],
   "note": ""
  },
  {
   "property": "C134",
   "status": "proved",
   "theorems": [
    "Nikfemm.Rnd.orientation_error",
    "Nikfemm.Rnd.orientation_rounded",
    "Nikfemm.Rnd.orientation_collinear_rounded",
    "Nikfemm.Rnd.orientation_small",
    "Nikfemm.Rnd.orientation_exact_differences",
    "Nikfemm.Rnd.orientation_reverse",
    "Nikfemm.Rnd.orientation_wrong",
    "Nikfemm.Rnd.point_in_triangle_rounded"
   ],
   "note": ""
  },
  {
   "property": "C135",
   "status": "proved",
   "theorems": [
    "Nikfemm.Rnd.area_error",
    "Nikfemm.Rnd.area_exact",
    "Nikfemm.Rnd.area_wrong"
   ],
   "note": ""
  },
  {
   "property": "C136",
   "status": "proved",
   "theorems": [
    "Nikfemm.Rnd.contains_rounded",
    "Nikfemm.Rnd.contains_exact_differences",
    "Nikfemm.Rnd.contains_wrong",
    "Nikfemm.Rnd.contains_rotate",
    "Nikfemm.Rnd.contains_reverse",
    "Nikfemm.Rnd.contains_vertices",
    "Nikfemm.Rnd.contains_bounding_box",
    "Nikfemm.Rnd.rectangle_contains_rounded"
   ],
   "note": ""
  },
  {
   "property": "C137",
   "status": "proved",
   "theorems": [
    "Nikfemm.Rnd.segments_intersect_rounded",
    "Nikfemm.Rnd.segments_intersect_wrong"
   ],
   "note": ""
  },
  {
   "property": "C138",
   "status": "proved",
   "theorems": [
    "Nikfemm.Rnd.common_end_not_reported",
    "Nikfemm.Rnd.common_end_meets",
    "Nikfemm.Rnd.common_end_shifted",
    "Nikfemm.Rnd.touching_end_reported",
    "Nikfemm.Rnd.collinear_reported"
   ],
   "note": ""
  },
  {
   "property": "C139",
   "status": "proved",
   "theorems": [
    "Nikfemm.two_vertices",
    "Nikfemm.three_in_line",
    "Nikfemm.three_corners"
   ],
   "note": ""
  },
  {
   "property": "C140",
   "status": "proved",
   "theorems": [
    "Nikfemm.removeghosts_ends",
    "Nikfemm.removeghosts_correct"
   ],
   "note": ""
  },
  {
   "property": "C141",
   "status": "proved",
   "theorems": [
    "Nikfemm.removeghosts_flat"
   ],
   "note": ""
  },
  {
   "property": "C142",
   "status": "proved",
   "theorems": [
    "Nikfemm.three_points"
   ],
   "note": ""
  },
  {
   "property": "C143",
   "status": "proved",
   "theorems": [
    "Nikfemm.mergehulls_correct"
   ],
   "note": ""
  },
  {
   "property": "C144",
   "status": "proved",
   "theorems": [
    "Nikfemm.hull_walks_end",
    "Nikfemm.tangent_ends"
   ],
   "note": ""
  },
  {
   "property": "C145",
   "status": "proved",
   "theorems": [
    "Nikfemm.rounds_end",
    "Nikfemm.eaten_enough",
    "Nikfemm.round_choice"
   ],
   "note": ""
  },
  {
   "property": "C146",
   "status": "proved",
   "theorems": [
    "Nikfemm.fixup_ends",
    "Nikfemm.fixup_keeps",
    "Nikfemm.fixup_star",
    "Nikfemm.fixup_counterclockwise"
   ],
   "note": ""
  },
  {
   "property": "C147",
   "status": "proved",
   "theorems": [
    "Nikfemm.fixup_delaunay"
   ],
   "note": ""
  },
  {
   "property": "C148",
   "status": "proved",
   "theorems": [
    "Nikfemm.crossed_inside",
    "Nikfemm.constrainededge_first",
    "Nikfemm.constrainededge_reached",
    "Nikfemm.constrainededge_passed",
    "Nikfemm.segment_forced"
   ],
   "note": ""
  },
  {
   "property": "C149",
   "status": "proved",
   "theorems": [
    "Nikfemm.insertsegment_result",
    "Nikfemm.insertsegment_forced"
   ],
   "note": ""
  },
  {
   "property": "C150",
   "status": "proved",
   "theorems": [
    "Nikfemm.dig_stops",
    "Nikfemm.dig_stops_delaunay",
    "Nikfemm.dig_left",
    "Nikfemm.dig_right",
    "Nikfemm.dig_flip"
   ],
   "note": ""
  },
  {
   "property": "C151",
   "status": "proved",
   "theorems": [
    "Nikfemm.makevertexmap_right",
    "Nikfemm.formskeleton_result"
   ],
   "note": ""
  },
  {
   "property": "C152",
   "status": "proved",
   "theorems": [
    "Nikfemm.bounds_exact",
    "Nikfemm.bounds_cover",
    "Nikfemm.region_found_input"
   ],
   "note": ""
  }
 ]
}