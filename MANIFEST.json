{
 "claims": [
  {
   "property": "C01",
   "status": "proved",
   "theorems": [
    "C01_inv_mod_p_correct"
   ],
   "note": ""
  },
  {
   "property": "C02",
   "status": "partial",
   "theorems": [
    "C02_inv_mod_p_contract_fails_for_negative",
    "C02_inv_mod_p_negative_raises",
    "C02_inv_mod_p_raises_iff_partial",
    "C02_inv_mod_p_terminates",
    "C02_inv_mod_p_zero_raises"
   ],
   "note": "proved for a > 0; the unchanged code violates the contract for every a < 0 (negation proved)"
  },
  {
   "property": "C03",
   "status": "proved",
   "theorems": [
    "C03_add_arrays_mod_c",
    "C03_add_mod_c",
    "C03_multiply_mod_p"
   ],
   "note": ""
  },
  {
   "property": "C04",
   "status": "proved",
   "theorems": [
    "C04_index_pivot_last_nonzero",
    "C04_index_pivot_none"
   ],
   "note": ""
  },
  {
   "property": "C05",
   "status": "proved",
   "theorems": [
    "C05_gauss_col_total"
   ],
   "note": ""
  },
  {
   "property": "C06",
   "status": "proved",
   "theorems": [
    "C06_gauss_col_AT_eq_R"
   ],
   "note": ""
  },
  {
   "property": "C07",
   "status": "proved",
   "theorems": [
    "C07_gauss_col_distinct_pivots"
   ],
   "note": ""
  },
  {
   "property": "C08",
   "status": "proved",
   "theorems": [
    "C08_gauss_col_prefix_span",
    "C08_gauss_col_rank",
    "C08_gauss_col_zero_iff_dependent"
   ],
   "note": ""
  },
  {
   "property": "C09",
   "status": "proved",
   "theorems": [
    "C09_solve_mod_p_sound"
   ],
   "note": "entries reduced mod p, as the property states"
  },
  {
   "property": "C10",
   "status": "partial",
   "theorems": [
    "C10_solve_mod_p_complete_partial",
    "C10_solve_mod_p_fails_unreduced"
   ],
   "note": "proved for entries in [0,p); the unchanged code violates it for unreduced right hand sides (negation proved)"
  },
  {
   "property": "C11",
   "status": "proved",
   "theorems": [
    "C11_solve_matrix_mod_p_complete",
    "C11_solve_matrix_mod_p_is_transposed",
    "C11_solve_matrix_mod_p_sound"
   ],
   "note": "the transposition with respect to the docstring is also proved"
  },
  {
   "property": "C12",
   "status": "proved",
   "theorems": [
    "C12_gauss_col_rad_sound"
   ],
   "note": ""
  },
  {
   "property": "C13",
   "status": "proved",
   "theorems": [
    "C13_gauss_col_rad_complete",
    "C13_gauss_col_rad_complete_rank",
    "C13_gauss_col_rad_incomplete_in_general",
    "C13_gauss_col_rad_only_runtimeError"
   ],
   "note": "completeness under the stated pivot hypothesis; its necessity is shown by a witness"
  },
  {
   "property": "C14",
   "status": "proved",
   "theorems": [
    "C14_gauss_barcodes_complete",
    "C14_gauss_barcodes_sound"
   ],
   "note": ""
  },
  {
   "property": "C15",
   "status": "proved",
   "theorems": [
    "C15_flag_complex_cliques",
    "C15_flag_complex_is_complex",
    "C15_flag_complex_negative"
   ],
   "note": "Exact characterisation of every entry, error case, and closure under faces."
  },
  {
   "property": "C16",
   "status": "proved",
   "theorems": [
    "C16_vietoris_rips_simplices"
   ],
   "note": "For every argsort that returns a sorting permutation (no stability assumed)."
  },
  {
   "property": "C17",
   "status": "proved",
   "theorems": [
    "C17_vietoris_rips_radii"
   ],
   "note": ""
  },
  {
   "property": "C18",
   "status": "proved",
   "theorems": [
    "C18_vietoris_rips_filtration"
   ],
   "note": "Non-negative distances, as the vertices are born at 0."
  },
  {
   "property": "C19",
   "status": "proved",
   "theorems": [
    "C19_differentials_boundary",
    "C19_differentials_total"
   ],
   "note": ""
  },
  {
   "property": "C20",
   "status": "proved",
   "theorems": [
    "C20_boundary_boundary_zero"
   ],
   "note": ""
  },
  {
   "property": "C21",
   "status": "proved",
   "theorems": [
    "C21_representatives_are_cycles"
   ],
   "note": "for every filtered complex; Vietoris-Rips complexes satisfy the hypothesis (vr_filtComplex)"
  },
  {
   "property": "C22",
   "status": "proved",
   "theorems": [
    "C22_finite_bars_die_as_boundaries"
   ],
   "note": "also that the class is no boundary before its death"
  },
  {
   "property": "C23",
   "status": "proved",
   "theorems": [
    "C23_alive_bars_basis_of_homology"
   ],
   "note": "an explicit basis of the quotient module cycles / boundaries"
  },
  {
   "property": "C24",
   "status": "proved",
   "theorems": [
    "C24_persistent_betti",
    "C24_structure_maps"
   ],
   "note": "rank of the induced map, and the action of the structure maps on the basis"
  },
  {
   "property": "C25",
   "status": "proved",
   "theorems": [
    "C25_image_basis_of_boundaries",
    "C25_preimages"
   ],
   "note": ""
  },
  {
   "property": "C26",
   "status": "proved",
   "theorems": [
    "C26_barcodes_well_formed",
    "C26_persistent_homology_total"
   ],
   "note": ""
  },
  {
   "property": "C27",
   "status": "proved",
   "theorems": [
    "C27_local_homology_basis",
    "C27_local_persistent_betti",
    "C27_local_persistent_homology_total"
   ],
   "note": "simplicial homology is specified independently, on lists of vertices; scipy's pdist is a parameter with nonnegative entries"
  },
  {
   "property": "C28",
   "status": "proved",
   "theorems": [
    "C28_init_keeps_well_defined",
    "C28_init_store_well_defined_empty",
    "C28_init_value_error_iff"
   ],
   "note": ""
  },
  {
   "property": "C29",
   "status": "proved",
   "theorems": [
    "C29_sort",
    "C29_sort_empty_raises",
    "C29_sort_total"
   ],
   "note": "the IndexError on barcode_basis([]) is also proved"
  },
  {
   "property": "C30",
   "status": "proved",
   "theorems": [
    "C30_active",
    "C30_active_constant",
    "C30_birth",
    "C30_changes_list",
    "C30_death"
   ],
   "note": ""
  },
  {
   "property": "C31",
   "status": "proved",
   "theorems": [
    "C31_update_broken",
    "C31_update_broken_clears",
    "C31_update_broken_nothing_dies"
   ],
   "note": ""
  },
  {
   "property": "C32",
   "status": "proved",
   "theorems": [
    "C32_pivot_check_reduce"
   ],
   "note": ""
  },
  {
   "property": "C33",
   "status": "proved",
   "theorems": [
    "C33_kernel"
   ],
   "note": "absolute case, prime p, at least one bar in the domain; the rounding used for sorting must keep the order of births"
  },
  {
   "property": "C34",
   "status": "partial",
   "theorems": [
    "C34_image_monotone_partial",
    "C34_image_partial",
    "C34_image_zero_partial",
    "C34_violated"
   ],
   "note": "the code violates the property (C34_violated); proved: the nonzero alive generators form a basis, and the full statement when deaths are monotone in births or the morphism is zero"
  },
  {
   "property": "C35",
   "status": "partial",
   "theorems": [
    "C35_different_ambient",
    "C35_quotient_barcode_partial",
    "C35_quotient_late_partial",
    "C35_violated"
   ],
   "note": "the code violates the property in the coordinates of the returned generators (C35_violated); proved: the barcode of the quotient is right, as ranks of all maps of M/N, and the generators alive at a radius form a basis of M_t/N_t at every radius where the generators of N are all born; missing: the coordinates before, where the code is wrong"
  },
  {
   "property": "C36",
   "status": "partial",
   "theorems": [
    "C36_complex_of_product",
    "C36_generators_partial",
    "C36_module_homology_partial",
    "C36_violated"
   ],
   "note": "the code violates the property when a zero module lies below a nonzero one (C36_violated), and in the coordinates (C35_violated); proved: it always returns, Im generates the boundaries in every degree, and Hom[d] has the barcode of the homology exactly when it is not the case that the module in degree d - 1 is zero and there are boundaries in degree d; the generators of Hom are a basis of the homology in degree 0 at every radius, and in a positive degree over a nonzero module at the radii where the boundaries are born; missing: the other cases, where the code is wrong"
  },
  {
   "property": "C37",
   "status": "proved",
   "theorems": [
    "C37_enumerates"
   ],
   "note": ""
  },
  {
   "property": "C38",
   "status": "proved",
   "theorems": [
    "C38_degenerate",
    "C38_membership"
   ],
   "note": "exact arithmetic over any ordered field with a floor; degenerate inputs raise ValueError (C38_degenerate)"
  },
  {
   "property": "C39",
   "status": "partial",
   "theorems": [
    "C39_covers_partial",
    "C39_violated"
   ],
   "note": "the code violates the property for clouds that are flat in a coordinate (C39_violated); proved otherwise"
  },
  {
   "property": "C40",
   "status": "proved",
   "theorems": [
    "C40_small_sets"
   ],
   "note": ""
  },
  {
   "property": "C41",
   "status": "proved",
   "theorems": [
    "C41_nerve_edges",
    "C41_nerve_simplices"
   ],
   "note": "also every simplex of the nerve is characterised"
  },
  {
   "property": "C42",
   "status": "proved",
   "theorems": [
    "C42_last_empty",
    "C42_pure"
   ],
   "note": ""
  },
  {
   "property": "C43",
   "status": "proved",
   "theorems": [
    "C43_generate_cover",
    "C43_intersection"
   ],
   "note": "for the function and for the regions returned by generate_cover"
  },
  {
   "property": "C44",
   "status": "proved",
   "theorems": [
    "C44_add",
    "C44_add_needs_increasing",
    "C44_minus",
    "C44_sums"
   ],
   "note": "chains are read as functions of reference and coordinate; the need for increasing references is shown by a witness"
  },
  {
   "property": "C45",
   "status": "proved",
   "theorems": [
    "C45_cech_diff",
    "C45_cech_square_zero",
    "C45_page_zero"
   ],
   "note": "for a column that is not empty; also what cech_diff computes on every simplex (C45_cech_diff), and that page 0 is always completed"
  },
  {
   "property": "C46",
   "status": "proved",
   "theorems": [
    "C46_anticommute"
   ],
   "note": "for a column that is not empty, in the degrees of the complex that is stored"
  },
  {
   "property": "C47",
   "status": "proved",
   "theorems": [
    "C47_lift_decomposes",
    "C47_lift_exact"
   ],
   "note": "on every piece of every cover, with an exact criterion for when the lift exists"
  },
  {
   "property": "C48",
   "status": "partial",
   "theorems": [
    "C48_betas",
    "C48_violated",
    "C48_zigzag_partial"
   ],
   "note": "Betas are right on all pieces and use only classes alive at the radius (C48_betas), the lift on the pieces with classes in the degree (C48_zigzag_partial); the code violates the property on pieces without classes, which it skips (C48_violated, points of the plane)"
  },
  {
   "property": "C49",
   "status": "proved",
   "theorems": [
    "C49_first_page"
   ],
   "note": ""
  },
  {
   "property": "C50",
   "status": "proved",
   "theorems": [
    "C50_page",
    "C50_schedule"
   ],
   "note": "the schedule, and the effect: every processed entry is the result of exactly one computation from the previous page, all others are unchanged"
  },
  {
   "property": "C51",
   "status": "proved",
   "theorems": [
    "C51_limit_page"
   ],
   "note": ""
  },
  {
   "property": "C52",
   "status": "proved",
   "theorems": [
    "C52_parallel_failure",
    "C52_parallel_map"
   ],
   "note": "Pool.map is modelled with chunks of any size completing in any order; which of several exceptions is raised may depend on the order"
  },
  {
   "property": "C53",
   "status": "partial",
   "theorems": [
    "C53_index_partial",
    "C53_violated"
   ],
   "note": "the code violates the property when a diagonal is zero (C53_violated); proved when no diagonal is zero"
  },
  {
   "property": "C54",
   "status": "partial",
   "theorems": [
    "C54_plane_degree_partial",
    "C54_plane_partial",
    "C54_strip_barcodes_partial",
    "C54_strip_degree_partial",
    "C54_strip_partial",
    "C54_thin_barcodes_partial",
    "C54_thin_degree_partial",
    "C54_thin_partial",
    "C54_violated",
    "C54_violated_degree_two",
    "C54_violated_plane"
   ],
   "note": "the code violates the property: it returns four bars instead of three in degree two on ten points (C54_violated_degree_two), it raises on the witnesses of C54_violated and C54_violated_plane, and C53_violated shows a shift of the entries. Proved: degree zero for every run that returns (C61); degree one for every cover, every max_dim >= 2 and every run that returns (C54_plane_partial); the higher degrees when the cubes of the cover form a line or no point lies in three cubes next to each other, and no piece is skipped by the lift (C54_strip_barcodes_partial, C54_thin_barcodes_partial). For covers with points in three cubes next to each other the statement is false from degree two on (C54_violated_degree_two); C76 gives a condition on the second page under which a degree is right for any cover"
  },
  {
   "property": "C55",
   "status": "proved",
   "theorems": [
    "C55_take_sample"
   ],
   "note": "for every value of np.random.rand(), in particular for the start -1; distances symmetric, nonnegative, zero on the diagonal"
  },
  {
   "property": "C56",
   "status": "partial",
   "theorems": [
    "C56_ball",
    "C56_ball_diverges",
    "C56_ball_total",
    "C56_circle",
    "C56_circle_zero",
    "C56_grid",
    "C56_grid_tridimensional",
    "C56_random_circle",
    "C56_random_cube",
    "C56_random_sphere_partial",
    "C56_torus3D",
    "C56_torus3D_error",
    "C56_violated"
   ],
   "note": "proved for grid, grid_tridimensional, circle, random_circle, torus3D, ball and random_cube over the reals; random_sphere ignores its radius (C56_violated), and its points have norm one (C56_random_sphere_partial)"
  },
  {
   "property": "C57",
   "status": "partial",
   "theorems": [
    "C57_preimage_monotone_partial",
    "C57_violated"
   ],
   "note": "the code violates the property (C57_violated); proved when deaths are monotone in births"
  },
  {
   "property": "C58",
   "status": "proved",
   "theorems": [
    "C58_alive",
    "C58_first_differential",
    "C58_morphism"
   ],
   "note": "for every cloud, cover, prime and position; births and deaths are respected (C58_morphism), and only classes alive at the birth of the column are used (C58_alive)"
  },
  {
   "property": "C59",
   "status": "proved",
   "theorems": [
    "C59_square_zero"
   ],
   "note": "for every cloud, cover, prime and position"
  },
  {
   "property": "C60",
   "status": "partial",
   "theorems": [
    "C60_second_page_partial"
   ],
   "note": "proved for roundings that keep the order of the ends of the bars: a position of the second page is right exactly when it is not the case that the column before it has no classes and some of its classes are boundaries; missing: the other positions, where the code is wrong (C36_violated)"
  },
  {
   "property": "C61",
   "status": "proved",
   "theorems": [
    "C61_components",
    "C61_components_input",
    "C61_components_rank"
   ],
   "note": "for every run that returns; the hypothesis on rounding is part of the statement"
  },
  {
   "property": "C62",
   "status": "partial",
   "theorems": [
    "C62_glue_partial",
    "C62_levels_partial",
    "C62_violated"
   ],
   "note": "proved for extensions with two levels, i.e. when the generators in the values of the extension matrix go to zero at their own death (always the case for covers by a strip of cubes), and for any number of levels when the call returns (C62_levels_partial); missing: that the call returns with more than two levels, which is false: image_kernel keeps outdated pivots and the reduction may not end (C62_violated)"
  },
  {
   "property": "C63",
   "status": "proved",
   "theorems": [
    "C63_point_order"
   ],
   "note": ""
  },
  {
   "property": "C64",
   "status": "proved",
   "theorems": [
    "C64_max_radius"
   ],
   "note": ""
  },
  {
   "property": "C65",
   "status": "proved",
   "theorems": [
    "C65_noise",
    "C65_stability"
   ],
   "note": "C65_stability is the matching of bars; C65_noise the inequality of the numbers of bars through intervals"
  },
  {
   "property": "C66",
   "status": "proved",
   "theorems": [
    "C66_components_count",
    "C66_components_prime"
   ],
   "note": ""
  },
  {
   "property": "C67",
   "status": "proved",
   "theorems": [
    "C67_units"
   ],
   "note": ""
  },
  {
   "property": "C68",
   "status": "proved",
   "theorems": [
    "C68_bar_ends",
    "C68_cover_irrelevant",
    "C68_max_dim_one"
   ],
   "note": "the only hypothesis on rounding is about 0, max_r and the distances (also for C61, C61_components_input)"
  },
  {
   "property": "C69",
   "status": "partial",
   "theorems": [
    "C69_few_shared_partial",
    "C69_thin_partial",
    "C69_violated"
   ],
   "note": "the code violates the property (C69_violated, C54_violated, C54_violated_plane). Proved for max_dim = 1 (C68_max_dim_one), and for every max_dim when no point lies in three neighbouring cubes and two neighbouring cubes share at most three points (C69_few_shared_partial) or the intersections satisfy a condition on their bars (C69_thin_partial); then the result is also right"
  },
  {
   "property": "C70",
   "status": "proved",
   "theorems": [
    "C70_few_points"
   ],
   "note": ""
  },
  {
   "property": "C71",
   "status": "proved",
   "theorems": [
    "C71_central_point",
    "C71_central_point_component"
   ],
   "note": ""
  },
  {
   "property": "C72",
   "status": "proved",
   "theorems": [
    "C72_hierarchy",
    "C72_line"
   ],
   "note": ""
  },
  {
   "property": "C73",
   "status": "proved",
   "theorems": [
    "C73_repeated_point",
    "C73_same_points"
   ],
   "note": ""
  },
  {
   "property": "C74",
   "status": "proved",
   "theorems": [
    "C74_cech_exact",
    "C74_cech_exact_cubes"
   ],
   "note": "distances bound coordinate differences in the part about the cubes"
  },
  {
   "property": "C75",
   "status": "proved",
   "theorems": [
    "C75_cover_irrelevant",
    "C75_two_degrees"
   ],
   "note": "for runs that return; that every run returns is C69, which the code violates"
  },
  {
   "property": "C76",
   "status": "proved",
   "theorems": [
    "C76_collapse",
    "C76_collapse_degree"
   ],
   "note": "for runs that return, every cover and every degree; the condition is on the second page that the run stores"
  },
  {
   "property": "C77",
   "status": "proved",
   "theorems": [
    "C77_cube_cycles"
   ],
   "note": "for runs that return; every cover, prime and degree below max_dim"
  },
  {
   "property": "C78",
   "status": "proved",
   "theorems": [
    "C78_bound_sharp",
    "C78_cloud",
    "C78_elimination",
    "C78_elimination_bars",
    "C78_image_kernel",
    "C78_machines",
    "C78_module_homology",
    "C78_module_homology_double",
    "C78_persistentHomology",
    "C78_product"
   ],
   "note": "the spectral sequence class is only modelled with exact integers"
  },
  {
   "property": "C79",
   "status": "proved",
   "theorems": [
    "C79_one_cube"
   ],
   "note": "empty barcodes are left out of the list, see C53"
  },
  {
   "property": "C80",
   "status": "proved",
   "theorems": [
    "C80_cover",
    "C80_differences",
    "C80_translation"
   ],
   "note": "exact arithmetic; rounding of coordinates is not modelled"
  },
  {
   "property": "C81",
   "status": "proved",
   "theorems": [
    "C81_cloud",
    "C81_morse"
   ],
   "note": ""
  },
  {
   "property": "C82",
   "status": "partial",
   "theorems": [
    "C82_close_together_partial",
    "C82_covers_partial",
    "C82_doubles_partial",
    "C82_exact",
    "C82_exact_run",
    "C82_integers_partial",
    "C82_violated_double",
    "C82_violated_integer"
   ],
   "note": "violated for integers and for doubles (witnesses); proved with a margin for the errors of rounding; the exponents of doubles are not bounded in the model"
  },
  {
   "property": "C83",
   "status": "proved",
   "theorems": [
    "C83_components",
    "C83_degree_one",
    "C83_margin_needed",
    "C83_max_dim_one",
    "C83_two_degrees"
   ],
   "note": "rounding in the computation of the cover only: distances are compared as they are tabulated, C78 deals with coefficients"
  },
  {
   "property": "C84",
   "status": "partial",
   "theorems": [
    "C84_cubes_partial",
    "C84_exact",
    "C84_violated_double"
   ],
   "note": "violated for doubles (witness); proved with exact numbers, and with one more division per coordinate for rounded ones"
  },
  {
   "property": "C85",
   "status": "proved",
   "theorems": [
    "C85_clusters",
    "C85_two_clusters"
   ],
   "note": ""
  },
  {
   "property": "C86",
   "status": "proved",
   "theorems": [
    "C86_clusters",
    "C86_isometry",
    "C86_noise",
    "C86_prime",
    "C86_radius",
    "C86_stability"
   ],
   "note": "for runs that return, max_dim = 2, under the conditions of C75"
  },
  {
   "property": "C87",
   "status": "proved",
   "theorems": [
    "C87_correspondence",
    "C87_cover_samples",
    "C87_samples"
   ],
   "note": "for create_MV_ss: for runs that return, max_dim = 2, under the conditions of C75"
  },
  {
   "property": "C88",
   "status": "proved",
   "theorems": [
    "C88_relative_errors",
    "C88_rounded_distances"
   ],
   "note": ""
  },
  {
   "property": "C89",
   "status": "proved",
   "theorems": [
    "C89_gauss_col",
    "C89_gauss_col_rad",
    "C89_persistent_homology"
   ],
   "note": "gauss_col_rad with as many radii as columns"
  },
  {
   "property": "C90",
   "status": "partial",
   "theorems": [
    "C90_update_broken_partial",
    "C90_violated"
   ],
   "note": "violated (witness); proved: which rows change, that nothing else changes, and that the result is right"
  },
  {
   "property": "C91",
   "status": "partial",
   "theorems": [
    "C91_extension_partial",
    "C91_isolated_partial",
    "C91_max_dim_one",
    "C91_same_prime",
    "C91_sequential",
    "C91_violated_method",
    "C91_violated_threads"
   ],
   "note": "violated by threads with different primes and by the method extension on an older result (witnesses); proved for calls one after the other, for threads with the same prime, and for max_dim = 1"
  },
  {
   "property": "C92",
   "status": "proved",
   "theorems": [
    "C92_loops",
    "C92_thin"
   ],
   "note": "for runs that return; in degrees above one for covers without triple intersections, see C54 for the condition"
  },
  {
   "property": "C93",
   "status": "proved",
   "theorems": [
    "C93_components",
    "C93_one_entry"
   ],
   "note": "for runs that return; in positive degrees if the second page shows that the first column is the only one, as in C76"
  },
  {
   "property": "C94",
   "status": "proved",
   "theorems": [
    "C94_composite_misses_dependence",
    "C94_gauss_col_any_modulus",
    "C94_solve_mod_p_any_modulus"
   ],
   "note": ""
  },
  {
   "property": "C95",
   "status": "proved",
   "theorems": [
    "C95_add",
    "C95_add_entry",
    "C95_add_entry_shares",
    "C95_constructor",
    "C95_copy_seq",
    "C95_extension",
    "C95_later_writes",
    "C95_minus",
    "C95_sums"
   ],
   "note": "arrays with one row for each reference; the summands of + have the same number of columns on each piece; reference lists, which the code never writes to, are values"
  },
  {
   "property": "C96",
   "status": "proved",
   "theorems": [
    "C96_central_point",
    "C96_central_point_component",
    "C96_hierarchy",
    "C96_line",
    "C96_same_points",
    "C96_three_points",
    "C96_units"
   ],
   "note": "for runs with max_dim = 2 that return, degrees zero and one"
  },
  {
   "property": "C97",
   "status": "partial",
   "theorems": [
    "C97_calls_partial",
    "C97_first_call",
    "C97_next_call_partial",
    "C97_raises",
    "C97_violated_list_grows"
   ],
   "note": "violated: the list grows with every call (witness); proved: what the list holds after any number of calls"
  },
  {
   "property": "C98",
   "status": "proved",
   "theorems": [
    "C98_bases",
    "C98_image_kernel",
    "C98_pivot_check_reduce",
    "C98_two_calls"
   ],
   "note": "the bases built after the loop, from new arrays, are values"
  },
  {
   "property": "C99",
   "status": "proved",
   "theorems": [
    "C99_calls",
    "C99_module_persistence_homology",
    "C99_quotient"
   ],
   "note": "bases are values; quotient for bases with rectangular coordinates"
  },
  {
   "property": "C100",
   "status": "proved",
   "theorems": [
    "C100_barcodes",
    "C100_cover_barcodes",
    "C100_near_optimal",
    "C100_nested"
   ],
   "note": ""
  },
  {
   "property": "C101",
   "status": "proved",
   "theorems": [
    "C101_ball",
    "C101_batches",
    "C101_random_circle",
    "C101_random_cube",
    "C101_random_sphere",
    "C101_repeats",
    "C101_reproducible",
    "C101_take_sample",
    "C101_torus3D"
   ],
   "note": "the generator is a parameter; the loop of ball has fuel"
  },
  {
   "property": "C102",
   "status": "proved",
   "theorems": [
    "C102_take_sample"
   ],
   "note": ""
  },
  {
   "property": "C103",
   "status": "proved",
   "theorems": [
    "C103_all_points",
    "C103_overlap",
    "C103_points",
    "C103_units"
   ],
   "note": ""
  },
  {
   "property": "C104",
   "status": "proved",
   "theorems": [
    "C104_at_least",
    "C104_top_degree"
   ],
   "note": ""
  },
  {
   "property": "C105",
   "status": "proved",
   "theorems": [
    "C105_cover",
    "C105_shortest_tree",
    "C105_total_length"
   ],
   "note": ""
  }
 ]
}