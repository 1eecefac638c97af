{
 "claims": [
  {
   "property": "C01",
   "status": "proved",
   "theorems": [
    "PFEM.C01_roundtrip",
    "PFEM.C01_surjective",
    "PFEM.C01_eq_iff",
    "PFEM.C01_bijective",
    "PFEM.C01_real_formula"
   ],
   "note": ""
  },
  {
   "property": "C02",
   "status": "proved",
   "theorems": [
    "PFEM.C02_graded",
    "PFEM.C02_idx_counts",
    "PFEM.C02_add",
    "PFEM.C02_accepts",
    "PFEM.C02_rejects_length",
    "PFEM.C02_rejects_negative",
    "PFEM.C02_rejects_negative_id"
   ],
   "note": ""
  },
  {
   "property": "C03",
   "status": "proved",
   "theorems": [
    "PFEM.C03_canonical",
    "PFEM.C03_is_zero"
   ],
   "note": "Holds for every expression tree over the listed operations."
  },
  {
   "property": "C04",
   "status": "proved",
   "theorems": [
    "PFEM.C04_error",
    "PFEM.C04_exact",
    "PFEM.C04_idempotent",
    "PFEM.C04_order_independent",
    "PFEM.C04_coefficients"
   ],
   "note": ""
  },
  {
   "property": "C05",
   "status": "proved",
   "theorems": [
    "PFEM.C05_add_error",
    "PFEM.C05_iadd_error",
    "PFEM.C05_sub_error",
    "PFEM.C05_smul_error",
    "PFEM.C05_div_error",
    "PFEM.C05_addScalar_error",
    "PFEM.C05_subScalar_error",
    "PFEM.C05_exact",
    "PFEM.C05_neg_exact"
   ],
   "note": ""
  },
  {
   "property": "C06",
   "status": "proved",
   "theorems": [
    "PFEM.C06_mul_error",
    "PFEM.C06_mul_exact",
    "PFEM.C06_pow_exact",
    "PFEM.C06_pow_negative",
    "PFEM.C06_mul_comm"
   ],
   "note": ""
  },
  {
   "property": "C07",
   "status": "proved",
   "theorems": [
    "PFEM.C07_compose"
   ],
   "note": ""
  },
  {
   "property": "C08",
   "status": "proved",
   "theorems": [
    "PFEM.C08_partial_x",
    "PFEM.C08_partial_y",
    "PFEM.C08_grad",
    "PFEM.C08_invalid_variable",
    "PFEM.C08_laplacian_exact",
    "PFEM.C08_laplacian_error"
   ],
   "note": ""
  },
  {
   "property": "C09",
   "status": "partial",
   "theorems": [
    "PFEM.C09_laplacian_antiLaplacian_partial",
    "PFEM.C09_right_inverse_partial",
    "PFEM.C09_tiny_coefficient"
   ],
   "note": "Full statement fails: the absolute tolerance deletes small terms (C09_tiny_coefficient). Proved for all degrees when the coefficients are multiples of a spacing large enough for the degree."
  },
  {
   "property": "C10",
   "status": "proved",
   "theorems": [
    "PFEM.C10_refl",
    "PFEM.C10_symm",
    "PFEM.C10_complete",
    "PFEM.C10_sound",
    "PFEM.C10_iff",
    "PFEM.C10_not_transitive"
   ],
   "note": ""
  },
  {
   "property": "C11",
   "status": "partial",
   "theorems": [
    "PFEM.C11_alias_diverges",
    "PFEM.C11_iadd_partial"
   ],
   "note": "Full statement fails: p += p never terminates (C11_alias_diverges). Proved for distinct objects on every heap."
  },
  {
   "property": "C12",
   "status": "partial",
   "theorems": [
    "PFEM.C12_results",
    "PFEM.C12_no_mutation_partial",
    "PFEM.C12_neg_changes_operand",
    "PFEM.C12_neg_witness"
   ],
   "note": "Full statement fails: negating a Monomial changes it in place (C12_neg_changes_operand, C12_neg_witness). Proved for every history of the other operators on shared objects."
  },
  {
   "property": "C13",
   "status": "proved",
   "theorems": [
    "PFEM.C13_legendre",
    "PFEM.C13_at_one",
    "PFEM.C13_parity",
    "PFEM.C13_integrated",
    "PFEM.C13_integrated_first"
   ],
   "note": "Degrees up to 10^12 (integrated: 10^7), so that no coefficient is small enough to be discarded."
  },
  {
   "property": "C14",
   "status": "proved",
   "theorems": [
    "PFEM.C14_legendre",
    "PFEM.C14_integrated",
    "PFEM.C14_linear_positions"
   ],
   "note": "Degrees up to 10^6 (integrated: 1000)."
  },
  {
   "property": "C15",
   "status": "partial",
   "theorems": [
    "PFEM.C15_rejects_repeated",
    "PFEM.C15_rejects_only_close",
    "PFEM.C15_grid_partial",
    "PFEM.C15_error_partial",
    "PFEM.C15_edge",
    "PFEM.C15_clockwise_wrong"
   ],
   "note": "Full statement fails for clockwise triangles (C15_clockwise_wrong). Proved: exact on grid triangles, an error bound for every non-clockwise triangle, the rejection test, and the edge version."
  },
  {
   "property": "C16",
   "status": "partial",
   "theorems": [
    "PFEM.C16_mismatch",
    "PFEM.C16_constructor",
    "PFEM.C16_single_edge_partial",
    "PFEM.C16_overwrites",
    "PFEM.C16_tail_zero",
    "PFEM.C16_witness"
   ],
   "note": "Full statement fails: the running index is never advanced, so later edges overwrite earlier ones (C16_overwrites, C16_tail_zero, C16_witness). Proved for a single edge."
  },
  {
   "property": "C17",
   "status": "proved",
   "theorems": [
    "PFEM.C17_boundary",
    "PFEM.C17_divergence",
    "PFEM.C17_linear"
   ],
   "note": "integratePoly is the boundary integral of the field given by the closed radial formula; its divergence is the integrand; linear in the polynomial. That the sampled boundary integral equals the exact integral is quadrature accuracy and is not claimed."
  },
  {
   "property": "C18",
   "status": "proved",
   "theorems": [
    "PFEM.C18_componentwise",
    "PFEM.C18_division",
    "PFEM.C18_type_errors",
    "PFEM.C18_eq_iff",
    "PFEM.C18_refl_symm",
    "PFEM.C18_not_transitive"
   ],
   "note": ""
  },
  {
   "property": "C19",
   "status": "proved",
   "theorems": [
    "PFEM.C19_derivatives"
   ],
   "note": "All nine curves; derivatives in the sense of HasDerivAt over the reals."
  },
  {
   "property": "C20",
   "status": "proved",
   "theorems": [
    "PFEM.C20_errors",
    "PFEM.C20_closed",
    "PFEM.C20_open",
    "PFEM.C20_arc",
    "PFEM.C20_regular"
   ],
   "note": "Closedness, end points, errors and regularity for every shape parameter."
  },
  {
   "property": "C21",
   "status": "proved",
   "theorems": [
    "PFEM.C21_weight_is_derivative",
    "PFEM.C21_validation",
    "PFEM.C21_trap",
    "PFEM.C21_kress",
    "PFEM.C21_dict"
   ],
   "note": "Over the reals (rounding is not modelled)."
  },
  {
   "property": "C22",
   "status": "partial",
   "theorems": [
    "PFEM.C22_samples_partial",
    "PFEM.C22_geometry_partial",
    "PFEM.C22_points",
    "PFEM.C22_negative_dilation"
   ],
   "note": "Full statement fails for negative dilation factors (C22_negative_dilation). Proved for every history with positive factors and exactly orthogonal matrices."
  },
  {
   "property": "C23",
   "status": "proved",
   "theorems": [
    "PFEM.C23_join",
    "PFEM.C23_unsampled"
   ],
   "note": "With the tolerance 1e-12 of the code; a scale below 1e-12 is rejected too."
  },
  {
   "property": "C24",
   "status": "proved",
   "theorems": [
    "PFEM.C24_reverse"
   ],
   "note": ""
  },
  {
   "property": "C25",
   "status": "partial",
   "theorems": [
    "PFEM.C25_replay_partial",
    "PFEM.C25_stable_partial",
    "PFEM.C25_reflection_lost"
   ],
   "note": "Full statement fails: a reflection applied to an edge with two different ends is lost at the second parameterize (C25_reflection_lost), because join_points resets the diary. Proved: new edges with recorded transformations other than join_points (C25_replay_partial), and all parameterize calls after the first agree (C25_stable_partial)."
  },
  {
   "property": "C26",
   "status": "partial",
   "theorems": [
    "PFEM.C26_structure",
    "PFEM.C26_points_partial",
    "PFEM.C26_list_partial",
    "PFEM.C26_errors",
    "PFEM.C26_ends",
    "PFEM.C26_number_partial",
    "PFEM.C26_reflection_moved",
    "PFEM.C26_loop_anchor"
   ],
   "note": "Proved for one split parameter, a list of split parameters and a number of equal parts: pieces meet, cover the parameter interval, border the same cells and lie along the same path, for diaries without reflection and pieces that are not closed. Disproved for reflected edges (C26_reflection_moved) and for the anchor of loops (C26_loop_anchor)."
  },
  {
   "property": "C27",
   "status": "partial",
   "theorems": [
    "PFEM.C27_trapezoid",
    "PFEM.C27_linear",
    "PFEM.C27_unsampled",
    "PFEM.C27_ignore_endpoint_partial",
    "PFEM.C27_ignore_endpoint_wrong"
   ],
   "note": "Proved: the integral is the trapezoid sum of values times speed, and it is linear. With ignore_endpoint=True the code drops one more sample than it should: the value returned is given exactly (C27_ignore_endpoint_partial) and it is wrong for constant data (C27_ignore_endpoint_wrong)."
  },
  {
   "property": "C28",
   "status": "proved",
   "theorems": [
    "PFEM.C28_layout",
    "PFEM.C28_parameterize",
    "PFEM.C28_success",
    "PFEM.C28_deparameterize"
   ],
   "note": "The layout holds for any numbers of samples per edge and after parameterize (proved without the search for an interior point, which does not touch the layout; see C33_parameterize for the whole call)."
  },
  {
   "property": "C29",
   "status": "proved",
   "theorems": [
    "PFEM.C29_terminates",
    "PFEM.C29_accepts_iff",
    "PFEM.C29_rejects",
    "PFEM.C29_contours"
   ],
   "note": "The while loops of the code are shown to stop."
  },
  {
   "property": "C30",
   "status": "partial",
   "theorems": [
    "PFEM.C30_permutation",
    "PFEM.C30_outer_partial",
    "PFEM.C30_outer_last",
    "PFEM.C30_violated"
   ],
   "note": "Violated when the outer contour is the last of several: it is left in place (C30_outer_last, C30_violated). C30_outer_partial covers all other positions; C30_permutation holds always. The point-in-polygon test is a parameter."
  },
  {
   "property": "C31",
   "status": "partial",
   "theorems": [
    "PFEM.C31_points_partial",
    "PFEM.C31_rectangular",
    "PFEM.C31_violated"
   ],
   "note": "Violated for rows != cols: IndexError (C31_rectangular, C31_violated). C31_points_partial is the full statement for square meshes. Distance means distance to the sample points, as in the code; the point-in-polygon test is a parameter."
  },
  {
   "property": "C32",
   "status": "proved",
   "theorems": [
    "PFEM.C32_search",
    "PFEM.C32_unsampled"
   ],
   "note": "For sampled contours whose samples are not all equal, and every point-in-polygon test; an unsampled contour is refused."
  },
  {
   "property": "C33",
   "status": "proved",
   "theorems": [
    "PFEM.C33_parameterize",
    "PFEM.C33_values",
    "PFEM.C33_points",
    "PFEM.C33_multiply",
    "PFEM.C33_dots",
    "PFEM.C33_integral_components",
    "PFEM.C33_integral_edges",
    "PFEM.C33_kress",
    "PFEM.C33_linear"
   ],
   "note": "The sum over components needs the same number of samples on all edges of a component, which parameterize establishes (C33_parameterize). The sum over edges needs a value for the last sample of each edge that fits the first; with Kress rules every value does (C33_kress)."
  },
  {
   "property": "C34",
   "status": "proved",
   "theorems": [
    "PFEM.C34_accepts_iff",
    "PFEM.C34_rejects",
    "PFEM.C34_edges",
    "PFEM.C34_index_lists",
    "PFEM.C34_get_cell",
    "PFEM.C34_abs_cell_idx"
   ],
   "note": ""
  },
  {
   "property": "C35",
   "status": "proved",
   "theorems": [
    "PFEM.C35_functions",
    "PFEM.C35_edge",
    "PFEM.C35_boundary_edge_one_cell",
    "PFEM.C35_edge_index_range",
    "PFEM.C35_vert"
   ],
   "note": ""
  },
  {
   "property": "C36",
   "status": "proved",
   "theorems": [
    "PFEM.Pegboard.C36_edges",
    "PFEM.Pegboard.C36_cells",
    "PFEM.Pegboard.C36_cell_numbers",
    "PFEM.Pegboard.C36_loops",
    "PFEM.Pegboard.C36_vertices",
    "PFEM.Pegboard.C36_too_fine",
    "PFEM.Pegboard.C36_degenerate"
   ],
   "note": "Edges, cells and cell numbers for all sizes >= 1. C36_loops and C36_vertices assume at most 700000 squares in a row, because get_cell and is_loop compare points with fixed tolerances; beyond a million squares get_cell does reject the cells (C36_too_fine). Sizes with a zero are rejected (C36_degenerate)."
  },
  {
   "property": "C37",
   "status": "proved",
   "theorems": [
    "PFEM.C37_types",
    "PFEM.C37_fields",
    "PFEM.C37_same_function",
    "PFEM.C37_glob_idx"
   ],
   "note": ""
  },
  {
   "property": "C38",
   "status": "proved",
   "theorems": [
    "PFEM.C38_total",
    "PFEM.C38_injective",
    "PFEM.C38_surjective",
    "PFEM.C38_dimension"
   ],
   "note": "For every mesh and every family of edge spaces (how the edge spaces are built is separate)."
  },
  {
   "property": "C39",
   "status": "partial",
   "theorems": [
    "PFEM.C39_blocks",
    "PFEM.C39_sharing",
    "PFEM.C39_bubbles_private",
    "PFEM.C39_range_check_partial",
    "PFEM.C39_bubble_overflow",
    "PFEM.C39_unknown_vertex",
    "PFEM.C39_negative_wraps"
   ],
   "note": "Blocks and sharing are proved. The rejection of unknown keys fails: bubble numbers too large for the cell land in the block of another cell (C39_bubble_overflow) and negative edge numbers wrap around (C39_negative_wraps); an unknown vertex raises ValueError (C39_unknown_vertex). C39_range_check_partial: what is returned always lies in the block of its type."
  },
  {
   "property": "C40",
   "status": "proved",
   "theorems": [
    "PFEM.C40_symmetric",
    "PFEM.C40_system"
   ],
   "note": ""
  },
  {
   "property": "C41",
   "status": "proved",
   "theorems": [
    "PFEM.C41_entries",
    "PFEM.C41_symmetric_form",
    "PFEM.C41_succeeds"
   ],
   "note": "The local inner products are arbitrary functions."
  },
  {
   "property": "C42",
   "status": "proved",
   "theorems": [
    "PFEM.C42_boundary_rows",
    "PFEM.C42_solution_vanishes"
   ],
   "note": ""
  },
  {
   "property": "C43",
   "status": "partial",
   "theorems": [
    "PFEM.C43_matrices_partial",
    "PFEM.C43_dofs_double"
   ],
   "note": "Full statement fails: every assembly appends the keys of each cell again (C43_dofs_double). Proved: matrices and right-hand side are the same after every history."
  },
  {
   "property": "C44",
   "status": "partial",
   "theorems": [
    "PFEM.C44_before_solve",
    "PFEM.C44_after_solve_partial",
    "PFEM.C44_stale_after_assemble",
    "PFEM.C44_dimension_check"
   ],
   "note": "Full statement fails: get_solution before solve raises AttributeError (C44_before_solve). Proved: the dimension check, and queries after solve."
  },
  {
   "property": "C45",
   "status": "proved",
   "theorems": [
    "PFEM.C45_combo",
    "PFEM.C45_errors"
   ],
   "note": "The local functions form an arbitrary module over the coefficients."
  },
  {
   "property": "C46",
   "status": "proved",
   "theorems": [
    "PFEM.Trace.C46_history",
    "PFEM.Trace.C46_partition",
    "PFEM.Trace.C46_set_on_edge",
    "PFEM.Trace.C46_set_wnd_on_edge",
    "PFEM.Trace.C46_set_wtd_on_edge",
    "PFEM.Trace.C46_rejected",
    "PFEM.Trace.C46_set_values",
    "PFEM.Trace.C46_set_derivatives",
    "PFEM.Trace.C46_functions",
    "PFEM.Trace.C46_one_function",
    "PFEM.Trace.C46_add",
    "PFEM.Trace.C46_mul",
    "PFEM.Trace.C46_div",
    "PFEM.Trace.C46_sub",
    "PFEM.Trace.C46_add_rejected",
    "PFEM.Trace.C46_functions_checked"
   ],
   "note": "All traces on sampled edges and all histories of calls, also calls that raise: the data keep one entry per sample (C46_history), the blocks partition the sample vector (C46_partition), setting an edge replaces exactly its block or is rejected without change, algebra is entrywise with derivatives kept where both have them. Edges are held by value: sampling an edge again behind the back of a trace is not covered."
  },
  {
   "property": "C47",
   "status": "partial",
   "theorems": [
    "PFEM.C47_add_partial",
    "PFEM.C47_mul_partial",
    "PFEM.C47_sub_partial",
    "PFEM.C47_div_partial",
    "PFEM.C47_types",
    "PFEM.C47_harmonic",
    "PFEM.C47_polynomial_partial",
    "PFEM.C47_tiny_coefficient",
    "PFEM.C47_functions_partial",
    "PFEM.C47_multiples_partial"
   ],
   "note": "Exactly linear in all traces, derivatives, logarithmic coefficients and interior values; polynomials are linear up to 1e-12 per monomial, and exactly so on a lattice of spacing at least 1e-12. C47_tiny_coefficient: without that restriction the exact form of a product can vanish while its trace does not. C47_functions_partial and C47_multiples_partial: objects that hold the data of functions add and scale as the functions do."
  },
  {
   "property": "C48",
   "status": "partial",
   "theorems": [
    "PFEM.C48_swap",
    "PFEM.C48_polynomials",
    "PFEM.C48_green",
    "PFEM.C48_bilinear_parts_partial",
    "PFEM.C48_bilinear_left_partial",
    "PFEM.C48_bilinear_right_partial",
    "PFEM.C48_types",
    "PFEM.C48_missing",
    "PFEM.C48_not_symmetric",
    "PFEM.C48_tiny_coefficient"
   ],
   "note": "Bilinear for all complete objects of all kinds, with coefficients of polynomials on lattices whose product is at least 1e-12; C48_tiny_coefficient shows that without this restriction bilinearity fails. Swapping, symmetry of polynomials, the criterion for symmetry of harmonic functions (C48_green, with C48_not_symmetric a pair for which it fails) and rejection of wrong types hold without restriction."
  },
  {
   "property": "C49",
   "status": "proved",
   "theorems": [
    "PFEM.C49_exact",
    "PFEM.C49_sum",
    "PFEM.C49_constant",
    "PFEM.C49_antiderivative",
    "PFEM.C49_integral_of_derivative",
    "PFEM.C49_exact_integral",
    "PFEM.C49_errors",
    "PFEM.C49_cell",
    "PFEM.C49_stable"
   ],
   "note": "Any number of samples, any data, any nonzero period, over the reals; the transform is the defining sum. C49_cell carries it to all components of a cell. Empty data and period zero are errors (C49_errors). C49_stable: errors of the data are multiplied by at most len/pi."
  },
  {
   "property": "C50",
   "status": "proved",
   "theorems": [
    "PFEM.C50_formula",
    "PFEM.C50_constant",
    "PFEM.C50_linear",
    "PFEM.C50_neumann",
    "PFEM.C50_neumann_constant",
    "PFEM.C50_neumann_linear"
   ],
   "note": "Every cell in the sampled state whose edge lists are not empty, any vectors, over the reals; C51_sampled shows that parameterize leaves cells in that state. The boundary length is the integral of one that the code computes. GMRES is not part of the claim."
  },
  {
   "property": "C51",
   "status": "proved",
   "theorems": [
    "PFEM.C51_places",
    "PFEM.C51_blocks_double",
    "PFEM.C51_blocks_single",
    "PFEM.C51_double",
    "PFEM.C51_single",
    "PFEM.C51_touching",
    "PFEM.C51_sampled"
   ],
   "note": "Places of the samples (C51_places) and entries of the finished matrices (C51_blocks_double, C51_blocks_single) for any number of components, edges and samples; C51_double and C51_single add the kernels, for at most 4*10^7 intervals per edge in the single layer case; C51_touching says when no matrix is built."
  },
  {
   "property": "C52",
   "status": "proved",
   "theorems": [
    "PFEM.C52_residues",
    "PFEM.C52_residue_circle",
    "PFEM.C52_simply_connected",
    "PFEM.C52_stable",
    "PFEM.C52_components",
    "PFEM.C52_potentials",
    "PFEM.C52_multiply_connected"
   ],
   "note": "potentials and gradients of the log and rational terms, cells without and with holes; that rho and rho_hat are found is a hypothesis for cells with holes, discharged for the fft strategy by C71_exact; C52_stable: without holes errors of the data are multiplied by factors that do not depend on the number of samples"
  },
  {
   "property": "C53",
   "status": "proved",
   "theorems": [
    "PFEM.C53_terminates",
    "PFEM.C53_selection",
    "PFEM.C53_independent"
   ],
   "note": "All square matrices and tolerances >= 0: termination within m steps, positions valid, sorted and distinct (C53_terminates). For the matrix of products of functions under a symmetric form: each selected function stays farther than the tolerance from the span of those selected before, every function is within the tolerance of the span of the selected ones (C53_selection), and these are independent (C53_independent)."
  },
  {
   "property": "C54",
   "status": "partial",
   "theorems": [
    "PFEM.EdgeSpaceG.C54_partial",
    "PFEM.EdgeSpaceG.C54_loop",
    "PFEM.EdgeSpaceG.C54_degree",
    "PFEM.EdgeSpaceG.C54_built",
    "PFEM.EdgeSpaceG.C54_violated"
   ],
   "note": "Violated exactly: coefficients below 1e-12 are dropped, so for an edge starting at (5e-13, 0) the first vertex function is not 1 there (C54_violated). True up to an explicit multiple of 1e-12 for every edge, degree and decomposition (C54_partial); the space is always built on a sampled edge whose ends are at least 1e-12 apart (C54_built); loops have no vertex functions (C54_loop); degrees below 1 are rejected (C54_degree). The SVD is a parameter."
  },
  {
   "property": "C55",
   "status": "proved",
   "theorems": [
    "PFEM.C55_succeeds",
    "PFEM.C55_keys",
    "PFEM.C55_bubbles",
    "PFEM.C55_covers"
   ],
   "note": ""
  },
  {
   "property": "C56",
   "status": "partial",
   "theorems": [
    "PFEM.C56_contains_partial",
    "PFEM.C56_positive",
    "PFEM.C56_tight",
    "PFEM.C56_empty",
    "PFEM.C56_point_outside"
   ],
   "note": "Proved: positive width and height always, tight when both extents exceed 1e-12, contains the points if each extent is zero or at least the tolerance. Fails for point sets of an extent between 0 and the tolerance, whose points can lie outside the box (C56_point_outside)."
  },
  {
   "property": "C57",
   "status": "proved",
   "theorems": [
    "PFEM.C57_values",
    "PFEM.C57_gradient",
    "PFEM.C57_laplacian",
    "PFEM.C57_circle",
    "PFEM.C57_disc",
    "PFEM.C57_missing"
   ],
   "note": "Values, gradients and errors for all data; gradient and Laplacian of the computed function; exact error on a circle with N equispaced samples. All edges have the same number of samples, as after parameterize; an interior point at a sample or pole is a division by zero in the model (numpy yields nan or inf)."
  },
  {
   "property": "C58",
   "status": "proved",
   "theorems": [
    "PFEM.C58_traces",
    "PFEM.C58_single_valued"
   ],
   "note": ""
  },
  {
   "property": "C59",
   "status": "proved",
   "theorems": [
    "PFEM.C59_set_errors",
    "PFEM.C59_set_value",
    "PFEM.C59_set_exact",
    "PFEM.C59_idxs_errors",
    "PFEM.C59_idxs_exact",
    "PFEM.C59_copy_isZero"
   ],
   "note": "Exact for coefficients on a grid of spacing at least 1e-12; for a list of terms also an error bound without that assumption."
  },
  {
   "property": "C60",
   "status": "partial",
   "theorems": [
    "PFEM.Pegboard.C60_extent",
    "PFEM.Pegboard.C60_square_partial",
    "PFEM.Pegboard.C60_violated"
   ],
   "note": "Violated: size (a, b) gives a domain b squares wide and a squares high (C60_extent, C60_violated). True for equal sizes (C60_square_partial)."
  },
  {
   "property": "C61",
   "status": "partial",
   "theorems": [
    "PFEM.Trace.C61_list_partial",
    "PFEM.Trace.C61_violated"
   ],
   "note": "Violated: surplus arrays in a list are ignored, numbers in a list are rejected, and a list that is too short raises IndexError after the old values have been overwritten (C61_violated). True for lists of arrays with one array per edge (C61_list_partial)."
  },
  {
   "property": "C62",
   "status": "partial",
   "theorems": [
    "PFEM.Trace.C62_violated",
    "PFEM.Trace.C62_polys_partial"
   ],
   "note": "Violated: set_funcs_from_polys uses an attribute eval that Polynomial does not have and always raises (C62_violated). True for set_func_from_poly_on_edge and for set_funcs with polynomials (C62_polys_partial)."
  },
  {
   "property": "C63",
   "status": "partial",
   "theorems": [
    "PFEM.Trace.C63_violated",
    "PFEM.Trace.C63_find_values_partial"
   ],
   "note": "Violated: set_func_on_edge leaves the old values (C63_violated). True after a further call of find_values (C63_find_values_partial)."
  },
  {
   "property": "C64",
   "status": "proved",
   "theorems": [
    "PFEM.EdgeSpaceG.C64_gram"
   ],
   "note": "All sampled edges and all lists of polynomials, over the reals."
  },
  {
   "property": "C65",
   "status": "partial",
   "theorems": [
    "PFEM.C65_entries",
    "PFEM.C65_partial",
    "PFEM.C65_holes",
    "PFEM.C65_violated"
   ],
   "note": "Violated for every hole of every cell: entries of a hole are not moved by the start of its component (C65_holes, C65_violated). True for the outer boundary (C65_partial); C65_entries says what is stored."
  },
  {
   "property": "C66",
   "status": "proved",
   "theorems": [
    "PFEM.EdgeSpaceG.C66_lowRank"
   ],
   "note": "Any m >= 1 and tol >= 0; numpy's SVD is a parameter that is assumed to return a decomposition."
  },
  {
   "property": "C67",
   "status": "proved",
   "theorems": [
    "PFEM.C67_terms",
    "PFEM.C67_harmonic",
    "PFEM.C67_matrices"
   ],
   "note": "Every cell in the sampled state with an even number (8 to 4*10^7) of intervals per edge, whose holes have interior points that are not samples; over the reals."
  },
  {
   "property": "C68",
   "status": "proved",
   "theorems": [
    "PFEM.C68_indicators",
    "PFEM.C68_balanced"
   ],
   "note": "C68_indicators says what data the linear solver gets and what becomes of its answer, for any linear solver; C68_balanced needs the same number of samples on all edges of a component, as parameterize makes them."
  },
  {
   "property": "C69",
   "status": "proved",
   "theorems": [
    "PFEM.C69_system",
    "PFEM.C69_conjugate",
    "PFEM.C69_simply_connected",
    "PFEM.C69_refused"
   ],
   "note": "The linear solver is a parameter assumed to return only exact solutions (C69_conjugate, C69_simply_connected); C69_system needs no such assumption. That a solution exists is not claimed."
  },
  {
   "property": "C70",
   "status": "proved",
   "theorems": [
    "PFEM.C70_init",
    "PFEM.C70_options",
    "PFEM.C70_refused",
    "PFEM.C70_diagonal",
    "PFEM.C70_jacobi",
    "PFEM.C70_preconditioner"
   ],
   "note": "Any linear solver. C70_jacobi: the first sample of an edge under Kress' rule has weighted speed zero, a hypothesis there. A zero on the diagonal, where numpy would produce infinities, is excluded by hypothesis in C70_preconditioner."
  },
  {
   "property": "C71",
   "status": "proved",
   "theorems": [
    "PFEM.C71_recover",
    "PFEM.C71_refused",
    "PFEM.C71_unique",
    "PFEM.C71_exact",
    "PFEM.C71_direct"
   ],
   "note": "recovered values, their uniqueness, exactness for resolved functions, the direct strategy with an exact linear solver, refusals"
  },
  {
   "property": "C72",
   "status": "partial",
   "theorems": [
    "PFEM.C72_traces",
    "PFEM.C72_holds_partial",
    "PFEM.C72_without_cell"
   ],
   "note": "All traces and gradients for every polynomial without near-zero terms; that the stored anti-Laplacian has the right Laplacian needs coefficients on a lattice coarse enough for the degree (see C09)."
  },
  {
   "property": "C73",
   "status": "partial",
   "theorems": [
    "PFEM.C73_zeros",
    "PFEM.C73_default",
    "PFEM.C73_witness",
    "PFEM.C73_requested_partial"
   ],
   "note": "Violated: without a request for gradients (the default) int_grad1 and int_grad2 are zeros, not None. C73_zeros, C73_default and C73_witness prove this; C73_requested_partial is the part that holds."
  },
  {
   "property": "C74",
   "status": "proved",
   "theorems": [
    "PFEM.C74_solver",
    "PFEM.C74_data",
    "PFEM.C74_holds",
    "PFEM.C74_simply_connected",
    "PFEM.C74_without_solver"
   ],
   "note": "C74_solver: a solver made for a cell holds its logarithmic terms. C74_data: for every result of the solver the object stores exactly these data. C74_holds / C74_simply_connected: with an exact conjugate, resolved along the boundary, all stored data are those of the harmonic function. C74_without_solver: nyst=None. Float rounding not modelled."
  },
  {
   "property": "C75",
   "status": "partial",
   "theorems": [
    "PFEM.C75_trace",
    "PFEM.C75_laplacian_partial",
    "PFEM.C75_tiny_laplacian",
    "PFEM.C75_refused",
    "PFEM.C75_holds_partial"
   ],
   "note": "C75_trace and C75_refused hold for all inputs. C75_laplacian_partial and C75_holds_partial need coefficients on a lattice coarse enough for the degree, because the anti-Laplacian drops tiny terms (C09). Missing: other coefficients, where the statement is false."
  },
  {
   "property": "C76",
   "status": "proved",
   "theorems": [
    "PFEM.C76_conjugate",
    "PFEM.C76_harmonic",
    "PFEM.C76_circle"
   ],
   "note": "For counter-clockwise circles sampled with the trapezoidal rule, all centres, radii of at least 1e-14 and 4 <= n <= 2e7; the linear solver is a parameter supposed exact (it returns a solution whenever there is one). C76_circle shows that parameterized cells with one circle satisfy the hypotheses."
  },
  {
   "property": "C77",
   "status": "proved",
   "theorems": [
    "PFEM.C77_poisson",
    "PFEM.C77_holds",
    "PFEM.C77_unique"
   ],
   "note": "C77_unique: the solution compared with is the only one. Exactness of the anti-Laplacian of the right-hand side is a hypothesis (it fails for tiny coefficients, see C09); so is the linear solver being exact. Counter-clockwise circles with the trapezoidal rule."
  },
  {
   "property": "C78",
   "status": "proved",
   "theorems": [
    "PFEM.C78_integral",
    "PFEM.C78_inner_products"
   ],
   "note": "Hypotheses: the anti-Laplacians that the code computes are exact (they are unless coefficients are tiny, see C09); products of the polynomial parts are exact (coefficients on a lattice, see C06); the linear solver is a parameter supposed exact; counter-clockwise circles with the trapezoidal rule. Integrals are Lebesgue integrals over the disc."
  },
  {
   "property": "C79",
   "status": "proved",
   "theorems": [
    "PFEM.C79_refines"
   ],
   "note": "Refinement of the topological model of the local space (used by C38-C45) by the objects that the code constructs. GMRES is a parameter. Nothing is said about the case that a constructor raises."
  },
  {
   "property": "C80",
   "status": "partial",
   "theorems": [
    "PFEM.C80_monomial_partial",
    "PFEM.C80_large",
    "PFEM.C80_zero_bubble",
    "PFEM.C80_area",
    "PFEM.C80_disc",
    "PFEM.C80_no_energy"
   ],
   "note": "Violated: for cells of area above 1e6 the coefficient -1/A^2 is below the threshold 1e-12, the centred monomial is the zero polynomial, the bubble functions have zero boundary values and zero polynomial part, and on a disc the bilinear form vanishes on them (so the matrix is singular). Partial: the centred monomial is right if none of the coefficients of its expansion is nonzero and below 1e-12. Also: the area is the integral of 1, and on a disc it is pi r^2 and the centre is the centre."
  },
  {
   "property": "C81",
   "status": "proved",
   "theorems": [
    "PFEM.C81_basis",
    "PFEM.C81_origin"
   ],
   "note": "Hypotheses: exact linear solver, radius at least 1e-14, degree + 1 < n <= 2e7, one closed edge, no coefficient lost in the polynomial operations (BubbleExact; C81_origin gives it for discs about the origin that are not too large for the degree). The right-hand side needs an exact anti-Laplacian and coefficients on a lattice. Edge traces are any polynomials of degree below n - 1, so whatever the edge space builds is covered."
  },
  {
   "property": "C82",
   "status": "proved",
   "theorems": [
    "PFEM.SolverG.C82_entries",
    "PFEM.SolverG.C82_solution_vanishes"
   ],
   "note": "The parameterized cell, the order of its edges and GMRES are parameters (Env); Env.Fits asks that what parameterization gives is in order and has as many edges as listed, CellsOk that every cell is accepted. The value of an inner product is one of the two orders, since the code fills both triangles from one evaluation."
  },
  {
   "property": "C83",
   "status": "proved",
   "theorems": [
    "PFEM.SolverG.C83_disc",
    "PFEM.SolverG.C83_solve"
   ],
   "note": "Hypotheses (DiscMesh, LoadExact): one cell bounded by one closed edge, circle of radius at least 1e-14, degree + 1 < n <= 2e7, exact linear solver, no coefficient lost in the polynomial operations for bubbles and right-hand side. v are the polynomials for which the objects of the local space stand. An example meets all hypotheses for the unit disc with degree 3 and two edge functions."
  },
  {
   "property": "C84",
   "status": "proved",
   "theorems": [
    "PFEM.SolverG.C84_combo",
    "PFEM.SolverG.C84_dropped",
    "PFEM.SolverG.C84_small",
    "PFEM.SolverG.C84_errors",
    "PFEM.SolverG.C84_disc",
    "PFEM.SolverG.C84_solution"
   ],
   "note": "C84_combo: every entry of every stored array of the linear combination is the entry of the zero function plus the sum of used coefficients times the entries of the basis functions, and the boundary values are the combination of the trace polynomials' samples; errors in making the zero function are passed on. C84_dropped bounds the effect of the 1e-4 cut-off, C84_small shows that small coefficients give the zero function, C84_errors the exceptions. C84_disc and C84_solution: on a disc the boundary values are exact and interior values converge, also for the computed solution. On cells with holes an even number of samples and a GMRES that returns vectors of the right size are assumed (LogsFit). The polynomial parts of the objects are not covered, only the arrays."
  },
  {
   "property": "C85",
   "status": "proved",
   "theorems": [
    "PFEM.C85_edge",
    "PFEM.C85_cell",
    "PFEM.C85_fields",
    "PFEM.C85_curve",
    "PFEM.C85_direction"
   ],
   "note": "C85_edge and C85_cell hold for any continuous function; C85_fields for fluxes and circulations. EdgeG.Follows defines the exact curve from type, options, bounds and diary (C85_curve: it exists exactly for valid options and is unique). Diaries and actions with negative dilation factors or matrices that are orthogonal only up to the tolerance are excluded (see C22). C85_direction relates the integrals along a curve and its reverse. K.parameterize is assumed to have returned (C87 says when)."
  },
  {
   "property": "C86",
   "status": "proved",
   "theorems": [
    "PFEM.C86_edge",
    "PFEM.C86_trapezoid",
    "PFEM.C86_moving",
    "PFEM.C86_cell",
    "PFEM.C86_fields"
   ],
   "note": "C86_edge, C86_trapezoid, C86_cell, C86_fields; the proof of the orders is the Euler-Maclaurin expansion (Lemmas/EulerMaclaurin.lean) and the vanishing of the Kress weight at the ends (Lemmas/KressRule.lean). C86_moving gives the assumption on the speed from nondegenerate shape parameters. The orders are upper bounds of the error; that they are not better is not shown."
  },
  {
   "property": "C87",
   "status": "proved",
   "theorems": [
    "PFEM.C87_circle",
    "PFEM.C87_search",
    "PFEM.C87_cell",
    "PFEM.C87_outcomes",
    "PFEM.C87_failures"
   ],
   "note": "The inside test (matplotlib's Path.contains_points) is an arbitrary parameter; the assumption on room is about its answers. C87_circle discharges all assumptions for a circle with the trapezoidal rule and any test that accepts the points up to half the radius from the centre."
  },
  {
   "property": "C88",
   "status": "partial",
   "theorems": [
    "PFEM.C88_boundary_partial",
    "PFEM.C88_coordinates",
    "PFEM.C88_violated"
   ],
   "note": "The points and the marking of all triangles with a corner on the boundary are proved (C88_boundary_partial). The converse is false: C88_coordinates and C88_violated show that triangles in the interior are marked, too, when both coordinates of a corner occur among the coordinates of the samples of one contour."
  },
  {
   "property": "C89",
   "status": "partial",
   "theorems": [
    "PFEM.C89_holes_partial",
    "PFEM.C89_violated"
   ],
   "note": "Exact description of the mask (C89_holes_partial): a side counts as a boundary side if it is parallel to and as long as one, up to 1e-6. C89_violated: half of a square hole is kept because its diagonal is parallel to and as long as a side of the outer boundary. matplotlib's point-in-polygon test is a parameter."
  },
  {
   "property": "C90",
   "status": "partial",
   "theorems": [
    "PFEM.C90_frames",
    "PFEM.C90_gradient_partial",
    "PFEM.C90_errors",
    "PFEM.C90_violated"
   ],
   "note": "C90_gradient_partial: on every sampled cell with unit tangents and clockwise normals, for every local function that exactly holds u with gradient (g1, g2) near the boundary, each sample shows the component of the gradient, nothing where the weighted speed is below 1e-8 or the component above 1000; C90_errors for missing traces and other components. Violated by the code: components below -1000 are shown (C90_violated)."
  },
  {
   "property": "C91",
   "status": "partial",
   "theorems": [
    "PFEM.C91_values_partial",
    "PFEM.C91_gradient_partial",
    "PFEM.C91_violated",
    "PFEM.C91_violated_index"
   ],
   "note": "C91_values_partial and C91_gradient_partial: with use_interp, values, logarithms, gradient components and norms at every triangulated point and exactly which triangles are left out. Violated by the code: without use_interp every plot fails (C91_violated for all functions and cells, C91_violated_index for the exception)."
  },
  {
   "property": "C92",
   "status": "partial",
   "theorems": [
    "PFEM.C92_unchanged_partial",
    "PFEM.C92_violated",
    "PFEM.C92_changed"
   ],
   "note": "C92_unchanged_partial: with use_interp or without use_log10 the function is unchanged for every type and triangulation. Violated by the code: without use_interp a logarithmic plot overwrites small interior values (C92_violated)."
  },
  {
   "property": "C93",
   "status": "partial",
   "theorems": [
    "PFEM.C93_arrays_partial",
    "PFEM.C93_errors",
    "PFEM.C93_violated"
   ],
   "note": "C93_arrays_partial: arrays are drawn once each, in their formats; C93_errors: refusals. Violated by the code: DirichletTrace objects are stored twice (C93_violated, for every list that contains one, with the refused legends and formats)."
  },
  {
   "property": "C94",
   "status": "partial",
   "theorems": [
    "PFEM.C94_positions_partial",
    "PFEM.C94_ticks_partial",
    "PFEM.C94_violated",
    "PFEM.C94_errors"
   ],
   "note": "C94_positions_partial: positions of all samples; C94_ticks_partial: ticks and labels agree when the number of intervals divides the number of edges; C94_errors. Violated by the code in all other cases (C94_violated: every inner tick is misplaced, with its exact position)."
  },
  {
   "property": "C95",
   "status": "partial",
   "theorems": [
    "PFEM.C95_range_partial",
    "PFEM.C95_errors",
    "PFEM.C95_violated"
   ],
   "note": "C95_range_partial: order of the functions and ranges over all interior values, attained; C95_errors. Violated by the code: boundary values outside the range are drawn (C95_violated)."
  },
  {
   "property": "C96",
   "status": "partial",
   "theorems": [
    "PFEM.C96_arrows_partial",
    "PFEM.C96_limits_partial",
    "PFEM.C96_size_partial",
    "PFEM.C96_violated",
    "PFEM.C96_sampling"
   ],
   "note": "C96_arrows_partial, C96_limits_partial, C96_size_partial, C96_sampling. Violated by the code: horizontal edges give no finite figure size (C96_violated)."
  },
  {
   "property": "C97",
   "status": "partial",
   "theorems": [
    "PFEM.C97_dirname",
    "PFEM.C97_save_partial",
    "PFEM.C97_violated"
   ],
   "note": "C97_dirname: directory part of every path; C97_save_partial: order of operations. Violated by the code: names without directory (C97_violated)."
  },
  {
   "property": "C98",
   "status": "proved",
   "theorems": [
    "PFEM.Meshlib.C98_square_hole",
    "PFEM.Meshlib.C98_pacman",
    "PFEM.Meshlib.C98_pacman_subdiv",
    "PFEM.Meshlib.C98_square_hole_curves",
    "PFEM.Meshlib.C98_pacman_curves",
    "PFEM.Meshlib.C98_pacman_subdiv_curves",
    "PFEM.Meshlib.C98_nested"
   ],
   "note": "Topology for all placements of the vertices with mutual distances of 1e-6; geometry with ROOT3OVER2 the exact square root. C98_nested lists for the curves of the figures the region in which all their points lie."
  },
  {
   "property": "C99",
   "status": "proved",
   "theorems": [
    "PFEM.Meshlib.C99_places"
   ],
   "note": "For all lists of edges and all separated placements, also those where construction or get_cell fails."
  },
  {
   "property": "C100",
   "status": "proved",
   "theorems": [
    "PFEM.C100_contour",
    "PFEM.C100_cell",
    "PFEM.C100_derivative",
    "PFEM.C100_antiderivative"
   ],
   "note": "Exact arithmetic. On samples of a periodic function (C100_derivative, C100_antiderivative), on a contour (C100_contour) and on a parameterized cell (C100_cell). The curves are those of the library after similarity transformations; the function has k + 2 derivatives near the boundary. The order p - 2 on edges with the Kress rule comes from the smoothness of the trace in the parameter of the rule."
  },
  {
   "property": "C101",
   "status": "proved",
   "theorems": [
    "PFEM.C101_integral",
    "PFEM.C101_limit",
    "PFEM.C101_region"
   ],
   "note": "The region is described by Encloses (Spec/Region.lean): star-shaped contours, holes cut out, regions glued along common curves. Examples: the disc (area pi) and a triangle with a circular hole (area 50 - pi, order 8). That every simple closed curve encloses a region in this sense is not proved; cells outside this description are not covered."
  },
  {
   "property": "C102",
   "status": "proved",
   "theorems": [
    "PFEM.C102_inner_products"
   ],
   "note": "The stored arrays of the harmonic parts are hypotheses, exact up to e (what LocalHarmonic stores is C72-C79). The product of the polynomials must lose no coefficient to the tolerance 1e-12 (OnLattice, see C15), and the anti-Laplacian of the polynomials must be right (C09 is violated in general)."
  },
  {
   "property": "C103",
   "status": "proved",
   "theorems": [
    "PFEM.C103_interior"
   ],
   "note": "For cells whose boundary curves enclose a region (relation Encloses of C101) and compact sets inside it; the logarithmic coefficients are taken as stored. Exact arithmetic."
  },
  {
   "property": "C104",
   "status": "proved",
   "theorems": [
    "PFEM.C104_same",
    "PFEM.C104_inner",
    "PFEM.C104_trace",
    "PFEM.C104_refused",
    "PFEM.C104_other",
    "PFEM.C104_without"
   ],
   "note": "For every GMRES (a parameter of the model) and every solver whose logarithmic terms are those of the cell (C74_solver: all that the constructor makes). The attribute key and the deprecation warning are not modelled."
  },
  {
   "property": "C105",
   "status": "partial",
   "theorems": [
    "PFEM.C105_violated_interior",
    "PFEM.C105_violated_l2"
   ],
   "note": "Violated: proved that no call with compute_int_vals or compute_int_grad returns (AttributeError, since MeshCell has no attribute is_inside) and that get_l2_inner_prod raises AttributeError instead of ValueError when the data has not been computed."
  },
  {
   "property": "C106",
   "status": "proved",
   "theorems": [
    "PFEM.C106_ellipse",
    "PFEM.C106_parameterize",
    "PFEM.C106_conjugate",
    "PFEM.C106_normal"
   ],
   "note": "Geometric convergence of harmonic conjugates (C106_conjugate) and normal derivatives (C106_normal) of harmonic polynomials on ellipses, with explicit constants; ellipses of the library are parameterized (C106_parameterize) and meet the hypotheses (C106_ellipse). Needs gmres to return exact solutions, half-axes large enough that no kernel entry falls under the absolute threshold 1e-12, and enough samples for the discrete system to be invertible."
  },
  {
   "property": "C107",
   "status": "partial",
   "theorems": [
    "PFEM.C107_span_partial",
    "PFEM.C107_violated",
    "PFEM.C107_errors"
   ],
   "note": "Degrees 1 and 2 on edges with exact coordinates (proved for horizontal edges from the origin). The code violates the property for degree 3: C107_violated."
  },
  {
   "property": "C108",
   "status": "proved",
   "theorems": [
    "PFEM.C108_vals",
    "PFEM.C108_edge"
   ],
   "note": ""
  },
  {
   "property": "C109",
   "status": "proved",
   "theorems": [
    "PFEM.EdgeAttrs.C109_invariant",
    "PFEM.EdgeAttrs.C109_frame",
    "PFEM.EdgeAttrs.C109_errors",
    "PFEM.EdgeAttrs.C109_accepts"
   ],
   "note": "Bounds are real numbers; NaN is not modelled."
  },
  {
   "property": "C110",
   "status": "partial",
   "theorems": [
    "PFEM.EdgeAttrs.C110_partial",
    "PFEM.EdgeAttrs.C110_violated"
   ],
   "note": "The code violates the property: C110_violated."
  },
  {
   "property": "C111",
   "status": "partial",
   "theorems": [
    "PFEM.C111_fresh_partial",
    "PFEM.C111_violated"
   ],
   "note": "The code violates the property: C111_violated. Sampling again is proved to use the present attributes only."
  },
  {
   "property": "C112",
   "status": "proved",
   "theorems": [
    "PFEM.Spline.C112_derivatives",
    "PFEM.Spline.C112_ends",
    "PFEM.Spline.C112_errors"
   ],
   "note": "Given that scipy's splev and splprep do what their documentation says (SplineLib.Good)."
  },
  {
   "property": "C113",
   "status": "proved",
   "theorems": [
    "PFEM.Plot.C113_coefficients",
    "PFEM.Plot.C113_errors",
    "PFEM.Plot.C113_solution",
    "PFEM.Plot.C113_plot"
   ],
   "note": ""
  },
  {
   "property": "C114",
   "status": "proved",
   "theorems": [
    "PFEM.C114_solvable",
    "PFEM.C114_returns",
    "PFEM.C114_conjugate",
    "PFEM.C114_annulus"
   ],
   "note": "The number of samples must satisfy 4*ringConst*(a/b)^(2n) <= 1, which holds for all large n; residuals of the linear solver enter through the bound tol."
  },
  {
   "property": "C115",
   "status": "proved",
   "theorems": [
    "PFEM.C115_centre"
   ],
   "note": ""
  },
  {
   "property": "C116",
   "status": "proved",
   "theorems": [
    "PFEM.C116_text",
    "PFEM.C116_injective",
    "PFEM.C116_zero"
   ],
   "note": "Printed text as lists of characters; the number format is a parameter of which only injectivity and the absence of parentheses are used."
  },
  {
   "property": "C117",
   "status": "partial",
   "theorems": [
    "PFEM.C117_positive",
    "PFEM.C117_size",
    "PFEM.C117_set_partial",
    "PFEM.C117_violated",
    "PFEM.C117_used"
   ],
   "note": "Violated: a call with a positive absolute and a bad relative tolerance is refused after the absolute tolerance has been changed (C117_violated). The rest is proved."
  },
  {
   "property": "C118",
   "status": "partial",
   "theorems": [
    "PFEM.Trace.C118_functions_partial",
    "PFEM.Trace.C118_violated",
    "PFEM.Trace.C118_violated_number",
    "PFEM.Trace.C118_indices"
   ],
   "note": "Violated: set_trace_values keeps using the old sizes, so arrays of the new size are refused and numbers are stored as often as there were samples before (C118_violated, C118_violated_number). Proved for functions (find_values) and for the block indices."
  },
  {
   "property": "C119",
   "status": "proved",
   "theorems": [
    "PFEM.C119_integral",
    "PFEM.C119_inner_products"
   ],
   "note": "Integrals of polynomials exact on every ellipse (C119_integral); inner products of local functions with polynomial data converge like r^(N-d) with a constant that does not depend on the number of samples (C119_inner_products). Rests on C106, on C49_stable and C52_stable and on bounds of the constants of the computed conjugates. Same hypotheses as C106 and, for the polynomial parts, as C78."
  },
  {
   "property": "C120",
   "status": "proved",
   "theorems": [
    "PFEM.C120_interior",
    "PFEM.C120_unique"
   ],
   "note": "C120_unique: the solution compared with is the only one. C120_interior: the object is made, its boundary values are exact, interior values and gradients converge geometrically at all points that keep a distance from the ellipse. On the ellipse the trapezoidal rule for Cauchy's formula is evaluated exactly: the value of the polynomial times a factor that is computed from the two parameters of the point under the Joukowski map; gradients by Cauchy's estimate for the derivative of this factor. Same hypotheses as C106; interior points are any points inside the ellipse."
  },
  {
   "property": "C121",
   "status": "proved",
   "theorems": [
    "PFEM.C121_refines",
    "PFEM.C121_frame",
    "PFEM.C121_calls",
    "PFEM.C121_history",
    "PFEM.C121_settled",
    "PFEM.C121_assemble"
   ],
   "note": "C121_refines: one call on shared edges is the call on copies. C121_frame: only the edges of the cell change, and how. C121_calls, C121_history: after any list of calls parameterize gives what it gave at the beginning. C121_assemble: assembly on shared edges gives what assembly with copies gives (the model of C70 to C120). C121_settled: new edges meet the hypothesis. What a call that raises leaves behind is not modelled."
  },
  {
   "property": "C122",
   "status": "partial",
   "theorems": [
    "PFEM.C122_area",
    "PFEM.C122_disjoint_partial",
    "PFEM.C122_again_partial",
    "PFEM.C122_reversed",
    "PFEM.C122_negated",
    "PFEM.C122_island",
    "PFEM.C122_space"
   ],
   "note": "The property fails. C122_reversed: in a mesh, every edge between two cells is reversed when the second one is parameterized. C122_negated, C122_island: if the neighbour has all edges of the cell, integrals over the cell change sign, without an exception; C122_area is a concrete mesh where the area of the unit disc becomes -pi. C122_space: building a function space discards the samples of all cells. What holds: C122_disjoint_partial (cells without common edges), C122_again_partial (the same cell again)."
  },
  {
   "property": "C123",
   "status": "partial",
   "theorems": [
    "PFEM.C123_energy",
    "PFEM.C123_triangles",
    "PFEM.C123_gradient",
    "PFEM.C123_neighbour",
    "PFEM.C123_harmonic_partial",
    "PFEM.C123_inner"
   ],
   "note": "The property fails. Functions refer to their cell, the cell to its edges, and parameterizing a neighbour reverses the common edges. Proved: on common straight edges the gradient that is drawn becomes minus the gradient, elsewhere it stays (C123_gradient for edge states, C123_neighbour for two cells of a mesh); for a cell all of whose edges belong to the other cell the inner products change by minus twice the integral of the product of the polynomial parts, or of their gradients (C123_inner); products with a harmonic factor do not change (C123_harmonic_partial). Witnesses from the constructors on: a function on a disc with energy 17*pi/4 has energy -5*pi/2 once the ring around the disc is parameterized (C123_energy); a function with gradient (1, 0) on a triangle is drawn with gradient (-1, 0) on the common side once the other triangle is parameterized (C123_triangles)."
  },
  {
   "property": "C124",
   "status": "partial",
   "theorems": [
    "PFEM.C124_matrices",
    "PFEM.C124_solver",
    "PFEM.C124_harmonic",
    "PFEM.C124_energy",
    "PFEM.C124_scaling_partial",
    "PFEM.C124_scaling_violated",
    "PFEM.C124_edges",
    "PFEM.C124_shift",
    "PFEM.C124_turn"
   ],
   "note": "Rotations and translations: proved for samples of edges (C124_edges; loops only for translations, because the constructor does not turn loops), for whole cells with holes under translations (C124_shift) and for cells without holes under rotations (C124_turn), for both layer matrices, all solver answers, harmonic functions and energies (C124_matrices, C124_solver, C124_harmonic, C124_energy; these for every sampled cell that is a moved copy of another, with the interior points of its holes moved along). Scaling: C124_scaling_partial for cells of ordinary size; violated on tiny cells, where the absolute threshold 1e-12 takes other points for the same point (C124_scaling_violated)."
  },
  {
   "property": "C125",
   "status": "proved",
   "theorems": [
    "PFEM.C125_centre",
    "PFEM.SolverG.C125_poly",
    "PFEM.SolverG.C125_best",
    "PFEM.SolverG.C125_ellipse",
    "PFEM.SolverG.C125_origin"
   ],
   "note": "bounds hold for all n up to the thresholds of the code; the solvability statement is conditional on the bound being at most 1, since n is bounded above by the thresholds"
  },
  {
   "property": "C126",
   "status": "proved",
   "theorems": [
    "PFEM.SolverG.C126_solution"
   ],
   "note": "The Galerkin solution is that of C125. The term 1e-4 comes from coefficients below 1e-4 that linear_combo drops; the constant M is not given explicitly. GMRES and the sparse solver are parameters that are assumed to solve solvable systems."
  },
  {
   "property": "C127",
   "status": "proved",
   "theorems": [
    "PFEM.C127_frame",
    "PFEM.C127_iff",
    "PFEM.C127_spaces",
    "PFEM.C127_add",
    "PFEM.C127_broken"
   ],
   "note": "Meshes with common edges are not independent: C127_iff says exactly when the first mesh stays good, C127_spaces what goes wrong otherwise, C127_broken is a concrete case. Function spaces are those made before or after the second mesh; the keys of edge functions are not part of C127_spaces."
  },
  {
   "property": "C128",
   "status": "partial",
   "theorems": [
    "PFEM.EdgeSpaceG.C128_empty",
    "PFEM.EdgeSpaceG.C128_nonempty",
    "PFEM.EdgeSpaceG.C128_tiny_circle",
    "PFEM.EdgeSpaceG.C128_circle_partial",
    "PFEM.EdgeSpaceG.C128_parameterized",
    "PFEM.EdgeSpaceG.C128_broken"
   ],
   "note": "The property does not hold for the code: C128_broken (a circle of radius 1/100 and its copy scaled by 10^-6). C128_tiny_circle: radius at most 2.5e-8, no edge functions at degree 1; C128_circle_partial: radius between 1e-7 and 1, some. C128_empty and C128_nonempty give for any edge and any functions bounds on the Gram matrix under which all functions are dropped or some are kept; C128_parameterized connects circles with parameterize. Missing: the exact number of functions between the bounds, and radii that are not 1/N."
  },
  {
   "property": "C129",
   "status": "partial",
   "theorems": [
    "PFEM.C129_refines",
    "PFEM.C129_poisson",
    "PFEM.C129_separate_partial",
    "PFEM.C129_poisson_kept",
    "PFEM.C129_caller",
    "PFEM.C129_same_object",
    "PFEM.C129_lost",
    "PFEM.C129_broken"
   ],
   "note": "The property does not hold for the code: C129_broken (on the unit disc with 32 samples) and, in general, C129_lost: after other values for the trace object an older harmonic function holds the data of no function; C129_caller: the object of the caller gets both derivatives; C129_same_object: functions on one object have the same H1 inner products. C129_refines and C129_poisson: the constructors on a heap of trace objects do what the model on values says, raising included. What holds: C129_separate_partial (all histories that do not touch the object of the function), C129_poisson and C129_poisson_kept (local Poisson functions). Arrays inside the traces are values in the model; the code makes a new array when values are set."
  },
  {
   "property": "C130",
   "status": "proved",
   "theorems": [
    "PFEM.C130_solvable",
    "PFEM.C130_returns",
    "PFEM.C130_neumann",
    "PFEM.C130_mean"
   ],
   "note": "Rings are CellG.IsAnnulus: two concentric circles sampled with the trapezoidal rule; the samples must be many enough for the stated smallness condition (4 ringConst (a/b)^(2n) <= 1), inner radius at least 1e-14, at most 4e7 samples. C130_neumann: error bound; gmres enters only by its residual (ResidualWithin). C130_solvable: one solution for every right-hand side; C130_returns: the call returns if gmres finds solutions. C130_mean: the exact values minus ringMean have integral 0 over the boundary, so ringMean is the mean that the code subtracts. A concrete ring of two library circles is in RingNeumann.lean."
  },
  {
   "property": "C131",
   "status": "proved",
   "theorems": [
    "PFEM.C131_array",
    "PFEM.C131_trace",
    "PFEM.C131_returns",
    "PFEM.C131_normal"
   ],
   "note": "C131_array, C131_trace: the factor for arrays and for all cells with sampled edges. C131_normal: logarithmic coefficient and normal derivative on rings (hypotheses as in C114: two concentric circles, trapezoidal rule, enough samples, gmres with bounded residuals). C131_returns: the constructor succeeds with either strategy if gmres also finds solutions of solvable systems. A concrete ring of two library circles is in RingNormalExample.lean."
  },
  {
   "property": "C132",
   "status": "proved",
   "theorems": [
    "PFEM.C132_energy",
    "PFEM.C132_mixed",
    "PFEM.C132_integral",
    "PFEM.C132_polys"
   ],
   "note": "C132_energy: two harmonic functions; C132_mixed: a harmonic function and a polynomial, either order; C132_integral: integrals of polynomials are exact; C132_polys: inner products of polynomials. Real arithmetic, no rounding."
  },
  {
   "property": "C133",
   "status": "proved",
   "theorems": [
    "PFEM.C133_interior"
   ],
   "note": "C133_interior: boundary values exact; values within ringValueErr and gradients within ringGradErr at distance delta from the boundary. Real arithmetic, no rounding. The cell is the one that C114_annulus shows parameterize to produce."
  },
  {
   "property": "C134",
   "status": "proved",
   "theorems": [
    "PFEM.C134_energy"
   ],
   "note": "C134_energy. The residuals of the linear solver for right-hand sides of the size that occurs are at most tau. That such objects are made is part of C133_interior. Real arithmetic, no rounding."
  },
  {
   "property": "C135",
   "status": "proved",
   "theorems": [
    "PFEM.C135_interior"
   ],
   "note": "C135_interior. Real arithmetic, no rounding. The anti-Laplacian is exact for the right-hand sides of C09."
  },
  {
   "property": "C136",
   "status": "proved",
   "theorems": [
    "PFEM.C136_energy"
   ],
   "note": "C136_energy. Real arithmetic, no rounding. That the objects are made is part of C135_interior."
  },
  {
   "property": "C137",
   "status": "proved",
   "theorems": [
    "PFEM.C137_unique",
    "PFEM.C137_exists",
    "PFEM.C137_interior"
   ],
   "note": "C137_exists and C137_unique: the problem has one solution. C137_interior: accuracy. Real arithmetic, no rounding."
  },
  {
   "property": "C138",
   "status": "proved",
   "theorems": [
    "PFEM.C138_energy"
   ],
   "note": "C138_energy. Real arithmetic, no rounding. That the objects are made is part of C137_interior."
  }
 ]
}