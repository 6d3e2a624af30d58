{
 "claims": [
  {
   "property": "C01",
   "status": "proved",
   "theorems": [
    "Verif.Reparam.C01_no_control_point_lost",
    "Verif.Reparam.C01_positions",
    "Verif.Reparam.C01_group_laws",
    "Verif.Reparam.C01_same_surface"
   ],
   "note": ""
  },
  {
   "property": "C02",
   "status": "partial",
   "theorems": [
    "Verif.Reparam.C02_not_all_histories",
    "Verif.Reparam.C02_not_double_swap",
    "Verif.Reparam.C02_not_asymmetric_knots",
    "Verif.Reparam.C02_undo_partial",
    "Verif.Reparam.C02_library_histories_partial",
    "Verif.Reparam.C02_undo_exact",
    "Verif.Reparam.C02_aux_undo_partial"
   ],
   "note": "Full statement is false for the code (three negations proved); the exact condition under which the undo works is proved."
  },
  {
   "property": "C03",
   "status": "partial",
   "theorems": [
    "Verif.Reparam.C03_not_all_histories",
    "Verif.Reparam.C03_side_bookkeeping_partial"
   ],
   "note": "False for two or more rotations (negation proved); proved for the histories the library produces."
  },
  {
   "property": "C04",
   "status": "partial",
   "theorems": [
    "Verif.Reparam.C04_interface_fails_for_negative_orientation",
    "Verif.Reparam.C04_interface_partial",
    "Verif.Reparam.C04_interface_matches_partial",
    "Verif.Reparam.C04_single_side",
    "Verif.Reparam.C04_vertex",
    "Verif.Reparam.C04_vertex_sides"
   ],
   "note": "Interface tables are wrong for orientation -1 (negation proved); all other tables proved for both orientations."
  },
  {
   "property": "C05",
   "status": "partial",
   "theorems": [
    "Verif.Index.C05_address",
    "Verif.Index.C05_valid_injective_symmetric",
    "Verif.Index.C05_rejects_partial",
    "Verif.Index.C05_corner_request_not_rejected",
    "Verif.Index.C05_out_of_range",
    "Verif.Index.C05_from_sides",
    "Verif.Index.C05_flag_numbers"
   ],
   "note": "Requests for the corner function itself are not checked against the side (negation proved); everything else proved for all sizes."
  },
  {
   "property": "C06",
   "status": "proved",
   "theorems": [
    "Verif.Index.C06_split",
    "Verif.Index.C06_refine",
    "Verif.Index.C06_roundtrip",
    "Verif.Index.C06_export"
   ],
   "note": ""
  },
  {
   "property": "C07",
   "status": "partial",
   "theorems": [
    "Verif.Index.C07_indices",
    "Verif.Index.C07_corners_partial",
    "Verif.Index.C07_corner_patches",
    "Verif.Index.C07_corners_not_complementary",
    "Verif.Index.C07_too_many_invents"
   ],
   "note": "Index selection proved; corner selection splits the list only up to ties between corners of one patch (negation proved) and requests for more corners than present invent entries."
  },
  {
   "property": "C08",
   "status": "proved",
   "theorems": [
    "Verif.AlmostC1.C08_almost_coarse",
    "Verif.DPatch.C08_dpatch_coarse",
    "Verif.Smooth.C08_partition_of_unity",
    "Verif.Smooth.C08_constants",
    "Verif.Smooth.C08_cone_column_sum"
   ],
   "note": "For the base construction (gsDPatchBase / gsSmoothInterfaces) and for the coarse stages of gsAlmostC1 and gsDPatch, all topologies satisfying Ok, any processing order; gsDPatch with at most three patches at boundary vertices. Excluded fold case shown to violate it (C08_cone_column_sum)."
  },
  {
   "property": "C09",
   "status": "proved",
   "theorems": [
    "Verif.Smooth.C09_nonneg_in_range",
    "Verif.Smooth.C09_row_number"
   ],
   "note": "Non-negativity, rows written are exactly the free functions, columns are local functions, _performChecks succeeds, row numbers below the counted size."
  },
  {
   "property": "C10",
   "status": "proved",
   "theorems": [
    "Verif.DPatch.C10_dpatch_interface",
    "Verif.DPatch.C10_dpatch_vertex",
    "Verif.DPatch.C10_dpatch_vertex_agrees",
    "Verif.Smooth.C10_interface_midpoint",
    "Verif.Smooth.C10_interior_vertex_agrees",
    "Verif.Smooth.C10_smooth_vertex_midpoint",
    "Verif.Smooth.C10_corner_discontinuous",
    "Verif.Smooth.C10_not_continuous_when_marked"
   ],
   "note": "Base construction: midpoint property at every position except the ends, and at the ends of smooth vertices (interior valence 4, boundary valence 2 unmarked); agreement at interior vertices of any valence; independence (discontinuity) at marked / irregular boundary vertices proved as the limit of the claim. Coarse space of gsDPatch: the same, and also at boundary vertices with three patches."
  },
  {
   "property": "C11",
   "status": "proved",
   "theorems": [
    "Verif.AlmostC1.C11_almost_count",
    "Verif.DPatch.C11_dpatch_count",
    "Verif.DPatch.C11_dpatch_valence_error",
    "Verif.Smooth.C11_count",
    "Verif.Smooth.C11_no_wrap"
   ],
   "note": "gsSmoothInterfaces: all topologies. gsAlmostC1: interior vertices with at least three patches. gsDPatch: boundary vertices with at most three patches (otherwise its mapper stops with an error, proved). The subtractions of the interior count are the same in the three classes (C11_no_wrap)."
  },
  {
   "property": "C12",
   "status": "proved",
   "theorems": [
    "Verif.Smooth.C12_order_independent"
   ],
   "note": "Any order, orientation and repetition of interfaces, boundary sides, corners and functions."
  },
  {
   "property": "C13",
   "status": "proved",
   "theorems": [
    "Verif.Pi.C13_rows_sum_one",
    "Verif.Pi.C13_constants_fixed",
    "Verif.Pi.C13_defined_iff",
    "Verif.Pi.C13_valence_one_fails"
   ],
   "note": "Row sums are one for N >= 2 (both options); for valence one they are not (shown)."
  },
  {
   "property": "C14",
   "status": "partial",
   "theorems": [
    "Verif.Pi.C14_option0_has_negative_entry",
    "Verif.Pi.C14_option1_not_idempotent",
    "Verif.Pi.C14_option0_idempotent_symmetric",
    "Verif.Pi.C14_option1_nonneg"
   ],
   "note": "The documented claim is false as stated: the texts of the two options are swapped. Proved: negation for both options for every valence, and the properties with the options exchanged (option 0 idempotent and symmetric, option 1 non-negative)."
  },
  {
   "property": "C15",
   "status": "proved",
   "theorems": [
    "Verif.AlmostC1.C15_almost_partition_of_unity",
    "Verif.AlmostC1.C15_almost_local",
    "Verif.EV.C15_partition_of_unity",
    "Verif.EV.C15_local",
    "Verif.EV.C15_repeated_patch_unset"
   ],
   "note": "gsDPatch: all topologies with at most three patches at boundary vertices (the code stops with an error otherwise), any number of extraordinary vertices, every valence, both projections. gsAlmostC1: all topologies whose interior vertices have at least three patches, every mixture of special vertices, geometry not degenerate at the vertices; also non-negativity."
  },
  {
   "property": "C16",
   "status": "proved",
   "theorems": [
    "Verif.EV.C16_tangent_plane",
    "Verif.EV.C16_interface_midpoints",
    "Verif.Pi.C16_points_on_common_ellipse",
    "Verif.Pi.C16_points_in_order"
   ],
   "note": "Coincidence of the vertex and first ring, common tangent plane with coefficient-independent positions, midpoints on interfaces, order on the ellipse."
  },
  {
   "property": "C17",
   "status": "partial",
   "theorems": [
    "Verif.Compute.C17_smoothInterfaces",
    "Verif.Compute.C17_almostC1",
    "Verif.Compute.C17_smoothInterfaces_times",
    "Verif.Compute.C17_almostC1_times",
    "Verif.Compute.C17_dPatch_partial",
    "Verif.Compute.C17_dPatch_violated",
    "Verif.Compute.C17_transfer_violated",
    "Verif.Compute.C17_transfer_times"
   ],
   "note": "gsSmoothInterfaces and gsAlmostC1: the result of compute() depends on geometry, bases, topology and options only, for all object states and all numbers of calls. gsDPatch: only for the first call; every further call adds another copy of the bases (violated, proved for every number of calls). The transfer matrix of gsAlmostC1 can be stale after a change of options (violated). Data-flow model: what the steps compute is arbitrary."
  },
  {
   "property": "C18",
   "status": "proved",
   "theorems": [
    "Verif.Geom.C18_triangle",
    "Verif.Geom.C18_degenerate"
   ],
   "note": "Weights non-negative, sum one, reproduce the control points (projected to the tangent plane for surfaces); corners centred at the vertex and in the tangent plane; degenerate input characterised."
  },
  {
   "property": "C19",
   "status": "proved",
   "theorems": [
    "Verif.Geom.C19_rotation",
    "Verif.Geom.C19_det",
    "Verif.Geom.C19_axis",
    "Verif.Geom.C19_unit_required"
   ],
   "note": "Orthogonal and maps a to b for all unit vectors; determinant one except for opposite vectors, where the matrix is -1; the axis is fixed."
  },
  {
   "property": "C20",
   "status": "partial",
   "theorems": [
    "Verif.Geom.C20_orthogonal_iff",
    "Verif.Geom.C20_maps_normal_iff",
    "Verif.Geom.C20_violated",
    "Verif.Geom.C20_violated_unit",
    "Verif.Geom.C20_partial"
   ],
   "note": "False for the code: the axis is not normalised. Exact condition proved, negation with witness, and the part that holds (flat normals or unit-length axis)."
  },
  {
   "property": "C21",
   "status": "proved",
   "theorems": [
    "Verif.Container.C21_unique_piece",
    "Verif.Container.C21_active",
    "Verif.Container.C21_active_valid_nodup",
    "Verif.Container.C21_values_match",
    "Verif.Container.C21_side",
    "Verif.Container.C21_corner",
    "Verif.Container.C21_single"
   ],
   "note": "For one-piece and nine-piece containers (the two kinds the library builds); G+Smo pieces enter through stated assumptions."
  },
  {
   "property": "C22",
   "status": "partial",
   "theorems": [
    "Verif.C1Rows.C22_approx",
    "Verif.C1Rows.C22_surf_partial",
    "Verif.C1Rows.C22_surf_count_iff",
    "Verif.C1Rows.C22_surf_violated",
    "Verif.C1Rows.C22_inner_count_iff"
   ],
   "note": "Proved for gsApproxC1Spline for every multi-patch with at least four functions per direction (rows and functions correspond one to one, entries distinct and inside, matrix = coefficients). For gsC1SurfSpline the same when every edge space has at least six functions; missing: smaller edge spaces, where the code reserves too few rows although its own check passes (C22_surf_violated, exact condition C22_surf_count_iff). Directions with fewer than four functions: exact condition C22_inner_count_iff."
  },
  {
   "property": "C23",
   "status": "partial",
   "theorems": [
    "Verif.EdgeFun.C23_trace_parameter",
    "Verif.EdgeFun.C23_normal_parameter",
    "Verif.EdgeFun.C23_normal_boundary",
    "Verif.EdgeFun.C23_trace_gradient",
    "Verif.EdgeFun.C23_trace_C1",
    "Verif.EdgeFun.C23_normal_C1",
    "Verif.EdgeFun.C23_surface_trace_C1",
    "Verif.EdgeFun.C23_surface_normal_C1",
    "Verif.EdgeFun.C23_projection",
    "Verif.EdgeFun.C23_surf_plus_iff",
    "Verif.EdgeFun.C23_surf_plus_C1",
    "Verif.EdgeFun.C23_surf_minus_iff",
    "Verif.EdgeFun.C23_surf_minus_violated",
    "Verif.EdgeFun.C23_surf_plus_violated"
   ],
   "note": "Planar patches: trace and derivative functions of the approximate C1 method are C1 with the prescribed data for exact gluing data, all open knot vectors and degrees; surfaces in space with a common tangent plane likewise; the projection reproduces functions in the space. gsC1SurfSpline: exact iff-conditions and two violations (different mesh sizes; simple first interior knot). Missing: projection error for functions outside the space and the approximation of alpha and beta by splines."
  },
  {
   "property": "C24",
   "status": "proved",
   "theorems": [
    "Verif.VertexFun.C24_jet",
    "Verif.VertexFun.C24_planar",
    "Verif.VertexFun.C24_surface",
    "Verif.VertexFun.C24_surf_planar",
    "Verif.VertexFun.C24_surf_surface",
    "Verif.VertexFun.C24_independent"
   ],
   "note": "For the functions evaluated by gsVertexBasis::eval_into and gsC1SurfVisitorBasisVertex (before the projection to the spline space): value, gradient and Hessian at the vertex agree with the prescribed polynomial composed with the patch, planar and surface, interface or boundary edges; the six functions are independent."
  },
  {
   "property": "C25",
   "status": "partial",
   "theorems": [
    "Verif.Gluing.C25_expansion",
    "Verif.Gluing.C25_expansion_beta",
    "Verif.Gluing.C25_symmetric",
    "Verif.Gluing.C25_stationary_partial",
    "Verif.Gluing.C25_stationary_beta_partial",
    "Verif.Gluing.C25_least_squares",
    "Verif.Gluing.C25_documented_iff",
    "Verif.Gluing.C25_no_minimum",
    "Verif.Gluing.C25_no_minimum_beta",
    "Verif.Gluing.C25_exact",
    "Verif.Gluing.C25_eval",
    "Verif.Gluing.C25_evalBeta_error",
    "Verif.Gluing.C25_evalBeta_iff",
    "Verif.Gluing.C25_evalBeta_ends",
    "Verif.Gluing.C25_boundary",
    "Verif.Gluing.C25_evalBeta_violated",
    "Verif.Gluing.C25_stationary_violated"
   ],
   "note": "Both systems are symmetric and their matrices and right-hand sides are Hessian and gradient of the functionals with the penalty subtracted; without penalty these are the plain least-squares functionals. The documented functional adds the penalty: C25_stationary_violated, exact condition C25_documented_iff, and with exact gluing data the assembled functional has no minimum. evalBeta is not the solved polynomial unless its last two coefficients agree."
  },
  {
   "property": "C26",
   "status": "proved",
   "theorems": [
    "Verif.Parallel.C26_parallel_eq_serial",
    "Verif.Parallel.C26_each_once",
    "Verif.Parallel.C26_exclusive",
    "Verif.Parallel.C26_progress",
    "Verif.Parallel.C26_terminates",
    "Verif.Parallel.C26_race_without_critical"
   ],
   "note": "Threads as interleaved actions with an explicit lock for the critical section and a separate read and write of the system; every number of threads, every schedule. Exact arithmetic (commutative monoid); floating-point rounding is not modelled."
  },
  {
   "property": "C27",
   "status": "proved",
   "theorems": [
    "Verif.RefBox.C27_terminates",
    "Verif.RefBox.C27_boxes",
    "Verif.RefBox.C27_special",
    "Verif.RefBox.C27_inside_iff",
    "Verif.RefBox.C27_inside",
    "Verif.RefBox.C27_inside_enough",
    "Verif.RefBox.C27_passed_on",
    "Verif.RefBox.C27_elements",
    "Verif.RefBox.C27_release_violated"
   ],
   "note": "Loops modelled as a queue; termination with bound, exact set of handled corners, one box each, exact boxes, inside the patch (assertions active or enough elements; exact condition C27_inside_iff, release-build failure C27_release_violated), passing on. getCornerList is an arbitrary function."
  },
  {
   "property": "C28",
   "status": "proved",
   "theorems": [
    "Verif.MPBES.C28_set_get",
    "Verif.MPBES.C28_histories"
   ],
   "note": ""
  },
  {
   "property": "C29",
   "status": "partial",
   "theorems": [
    "Verif.MPBES.C29_exact",
    "Verif.MPBES.C29_ends",
    "Verif.MPBES.C29_fits_partial",
    "Verif.MPBES.C29_overlap_possible"
   ],
   "note": "False for short sides with interfaces at both ends (negation proved); exact condition proved."
  },
  {
   "property": "C30",
   "status": "proved",
   "theorems": [
    "Verif.Index.C30_decode",
    "Verif.Index.C30_encode",
    "Verif.Index.C30_ranges_contiguous",
    "Verif.Index.C30_tensor"
   ],
   "note": ""
  },
  {
   "property": "C31",
   "status": "partial",
   "theorems": [
    "Verif.Walk.C31_line",
    "Verif.Walk.C31_reverse",
    "Verif.Walk.C31_add",
    "Verif.Walk.C31_turns_partial",
    "Verif.Walk.C31_twist_violated"
   ],
   "note": "Walks in one direction are right over all side pairs and orientations, reversible and additive. Walks with turns are right unless opposite sides are glued with reversed orientation; there the code's table lacks a case (violated)."
  },
  {
   "property": "C32",
   "status": "partial",
   "theorems": [
    "Verif.Regions.C32_once_partial",
    "Verif.Regions.C32_double_violated",
    "Verif.Regions.C32_calls_partial",
    "Verif.Regions.C32_clip",
    "Verif.Regions.C32_periodic",
    "Verif.Regions.C32_periodic_violated"
   ],
   "note": "Once for every function and the right call (special corners included) for several patches, equal smoothing degrees; double counting at C0 boundary corners is a violation. One patch glued to itself at opposite sides: without special corners every function is visited once from one side of the interface; with special corners double counting is a violation."
  },
  {
   "property": "C33",
   "status": "partial",
   "theorems": [
    "Verif.MPBES.C33_symmetric",
    "Verif.MPBES.C33_bspline",
    "Verif.MPBES.C33_hierarchical_out_of_bounds",
    "Verif.MPBES.C33_hierarchical_not_symmetric"
   ],
   "note": "Proved for the B-spline class; the hierarchical class reads out of bounds (proved)."
  },
  {
   "property": "C34",
   "status": "partial",
   "theorems": [
    "Verif.Repair.C34_repair_partial",
    "Verif.Repair.C34_refine_partial",
    "Verif.Repair.C34_repeated_violated",
    "Verif.Repair.C34_degrees_violated"
   ],
   "note": "Loop ends, knots valid, only knots of neighbours, same knots on both sides of interfaces up to multiplicity; equal knot vectors if inner knots are simple. Repeated knots and different degrees are violations. Coefficients: C61."
  },
  {
   "property": "C35",
   "status": "proved",
   "theorems": [
    "Verif.DofMap.C35_free_iff",
    "Verif.DofMap.C35_numbering",
    "Verif.DofMap.C35_complement",
    "Verif.DofMap.C35_same_order",
    "Verif.DofMap.C35_projection",
    "Verif.DofMap.C35_multi_free_iff",
    "Verif.DofMap.C35_multi_index_iff",
    "Verif.DofMap.C35_multi_complement",
    "Verif.DofMap.C35_multi_reorder",
    "Verif.DofMap.C35_multi_projection"
   ],
   "note": "For every set of boundary conditions, every basis size and every list of boundary functions: who is free (C35_free_iff), gap-free numbering (C35_numbering), the projection's unknowns are exactly the fixed functions (C35_complement) in the same order (C35_same_order), and a vector solves the projection system iff the values the solver reads satisfy all equations of fixed functions (C35_projection). The C35_multi_* theorems treat the gsMultiBasis variant of the examples with coupled interfaces and the reordering loop. gsDofMapper and the assembler are G+Smo core and modelled as assumed behaviour; regularity of the projection matrix is not claimed."
  },
  {
   "property": "C36",
   "status": "partial",
   "theorems": [
    "Verif.Container.C36_support_wrong",
    "Verif.Container.C36_first_piece_partial",
    "Verif.Container.C36_single_piece_partial"
   ],
   "note": "False for the code beyond the first piece (negation proved)."
  },
  {
   "property": "C37",
   "status": "partial",
   "theorems": [
    "Verif.MPBES.C37_roundtrip_partial",
    "Verif.MPBES.C37_past_end",
    "Verif.MPBES.C37_requests_past_end",
    "Verif.MPBES.C37_second_corner_wrong",
    "Verif.MPBES.C37_second_corner_partial"
   ],
   "note": "Round trip proved for simple interior knots and requests within the knot spans; second corner measured from wrong end and requests past the end (negations proved)."
  },
  {
   "property": "C38",
   "status": "proved",
   "theorems": [
    "Verif.MPBES.C38_setC0"
   ],
   "note": ""
  },
  {
   "property": "C39",
   "status": "proved",
   "theorems": [
    "Verif.VertexFun.C39_data",
    "Verif.VertexFun.C39_interface",
    "Verif.VertexFun.C39_planar",
    "Verif.VertexFun.C39_surface",
    "Verif.VertexFun.C39_surf",
    "Verif.Spaces.C39_data_near",
    "Verif.Spaces.C39_spline",
    "Verif.Spaces.C39_spline_planar"
   ],
   "note": "Same functions: equal value and equal tangential derivatives on the whole interface for exact gluing data; planar, surface, and the linear gluing data of gsC1SurfSpline (polynomials of the first element); C39_spline and C39_spline_planar for the splines on all elements of the interface."
  },
  {
   "property": "C40",
   "status": "partial",
   "theorems": [
    "Verif.Walk.C40_points",
    "Verif.Walk.C40_locals",
    "Verif.Walk.C40_reverse",
    "Verif.Walk.C40_once",
    "Verif.Walk.C40_self_violated",
    "Verif.Walk.C40_block_partial",
    "Verif.Walk.C40_block_once_partial",
    "Verif.Walk.C40_block_violated",
    "Verif.Walk.C40_tube_violated"
   ],
   "note": "Lines over one interface and blocks over two interfaces at a regular vertex: same local functions from all two or four patches, each once, and exactly one call adds the function when the patches differ. Blocks need that no opposite sides are glued with reversed orientation (violated otherwise); a patch glued to itself is a violation."
  },
  {
   "property": "C41",
   "status": "partial",
   "theorems": [
    "Verif.Regions.C41_bounds_partial",
    "Verif.Regions.C41_mixed_degrees_violated"
   ],
   "note": "Weights exist for equal smoothing degrees, special corners included; different degrees are a violation."
  },
  {
   "property": "C42",
   "status": "proved",
   "theorems": [
    "Verif.AlmostC1.C42_control_points"
   ],
   "note": "All topologies, all special vertices; the corner through which the vertex is listed first supplies the tangent plane in both loops. Rows of the refined basis and control points are parameters."
  },
  {
   "property": "C43",
   "status": "partial",
   "theorems": [
    "Verif.AlmostC1.C43_almost_independent_partial",
    "Verif.AlmostC1.C43_almost_zero_rows",
    "Verif.AlmostC1.C43_base_independent",
    "Verif.AlmostC1.C43_almost_fan",
    "Verif.EV.C43_dpatch_coarse",
    "Verif.EV.C43_dpatch_independent"
   ],
   "note": "Proved for gsDPatchBase/gsSmoothInterfaces, and for gsDPatch in the coarse space and after the projection (refinement one-to-one, and determined near the vertices by the functions the projection does not touch; checked for biquadratics). gsAlmostC1: proved if no C0 vertex on the boundary has more than three patches; otherwise the claim is false (C43_almost_zero_rows, C43_almost_fan). For the approximate C1 bases see C68."
  },
  {
   "property": "C44",
   "status": "partial",
   "theorems": [
    "Verif.PreCoefs.C44_smooth_reproduces",
    "Verif.PreCoefs.C44_dpatch_coefficients",
    "Verif.PreCoefs.C44_dpatch_reproduces_iff",
    "Verif.PreCoefs.C44_dpatch_reproduces_partial",
    "Verif.PreCoefs.C44_c0_test",
    "Verif.PreCoefs.C44_dpatch_violation"
   ],
   "note": "Proved for gsSmoothInterfaces, and for the coarse space of gsDPatch without boundary vertices of three patches. At such vertices the code violates the claim: exactly when the surface is reproduced is proved (C44_dpatch_reproduces_iff), with a counterexample (C44_dpatch_violation); the test for C0 vertices compares a corner number with booleans (C44_c0_test). The step at extraordinary vertices is not part of this model."
  },
  {
   "property": "C45",
   "status": "proved",
   "theorems": [
    "Verif.Sharp.C45_two_boundary_sides",
    "Verif.Sharp.C45_sharp_iff",
    "Verif.Sharp.C45_marks_ok"
   ],
   "note": "Proved for all topologies of the smoothing theory, with the unit normals as parameters. The number of boundary sides follows from connectedness of the corners of a vertex by counting edges. The marks satisfy the hypothesis Ok.c0_same of the smoothing theorems."
  },
  {
   "property": "C46",
   "status": "partial",
   "theorems": [
    "Verif.Kernel.C46_rows",
    "Verif.Kernel.C46_rows_second_partial",
    "Verif.Kernel.C46_second_violation",
    "Verif.Kernel.C46_threshold",
    "Verif.Kernel.C46_completion",
    "Verif.Kernel.C46_same_space",
    "Verif.Kernel.C46_vanish",
    "Verif.Kernel.C46_vanish_exact",
    "Verif.Kernel.C46_trace",
    "Verif.Kernel.C46_dofs"
   ],
   "note": "Without option second: proved, and dofsCorner is the dimension of the quadratic polynomials with the required boundary values (C46_dofs). With it the code reads past the end of a vector if more than two patches lie between two interfaces (C46_second_violation); proved for the other vertices."
  },
  {
   "property": "C47",
   "status": "partial",
   "theorems": [
    "Verif.VertexKind.C47_inside_iff",
    "Verif.VertexKind.C47_kind_partial",
    "Verif.VertexKind.C47_kind_violation",
    "Verif.VertexKind.C47_gluing_data",
    "Verif.VertexKind.C47_gluing_data_corner",
    "Verif.VertexKind.C47_gluing_data_violation"
   ],
   "note": "The code decides by counting interfaces; the exact condition is proved (C47_inside_iff), the claim holds if the patches of the vertex share no further interface, and fails for a ring of two patches (C47_kind_violation, C47_gluing_data_violation). With the right kind selectGD is proved to fill all entries."
  },
  {
   "property": "C48",
   "status": "partial",
   "theorems": [
    "Verif.Pieces.C48_no_double_free_partial",
    "Verif.Pieces.C48_reference_valid",
    "Verif.Pieces.C48_no_leak_partial",
    "Verif.Pieces.C48_all_freed_partial",
    "Verif.Pieces.C48_clone_violation",
    "Verif.Pieces.C48_overlap_leak"
   ],
   "note": "Proved for all programs that clone only functions without piece (no double free, references valid, for all interleavings) and whose calls of piece() do not overlap (no leak). Cloning after piece() deletes twice (C48_clone_violation); overlapping calls leak (C48_overlap_leak)."
  },
  {
   "property": "C49",
   "status": "partial",
   "theorems": [
    "Verif.MPBESState.C49_uniform_refine",
    "Verif.MPBESState.C49_refine_partial",
    "Verif.MPBESState.C49_spline_refine_partial",
    "Verif.MPBESState.C49_spline_refine_all_partial",
    "Verif.MPBESState.C49_smooth",
    "Verif.MPBESState.C49_run_partial",
    "Verif.MPBESState.C49_refine_smooth_violation",
    "Verif.MPBESState.C49_uniform_smooth_violation",
    "Verif.MPBESState.C49_corner_violation",
    "Verif.MPBESState.C49_weight",
    "Verif.MPBESState.C49_weight_violation",
    "Verif.MPBESState.C49_assign_violation",
    "Verif.MPBESState.C49_copy_violation",
    "Verif.MPBESState.C49_delayed_violation"
   ],
   "note": "Proved for every sequence of uniform refinements, refinements of patches (knots apart, inner knots not repeated) and smoothing: interfaces conform, no knot is lost, the mapping is current (C49_run_partial and its parts). The other functions violate the claim, proved: refineAndSmooth does not repair neighbours, uniformRefineAndSmooth never refines, setC0/setCornerC0/setWeight keep a stale mapping, operator= leaves a null mapping, copies lose weights, a refinement without update is not repaired by a later refine_withCoefs. Coefficients and the mapping itself are not modelled here."
  },
  {
   "property": "C50",
   "status": "partial",
   "theorems": [
    "Verif.HRepair.C50_matched",
    "Verif.HRepair.C50_layers",
    "Verif.HRepair.C50_ends_partial",
    "Verif.HRepair.C50_repair_partial",
    "Verif.HRepair.C50_row_partial",
    "Verif.HRepair.C50_grow",
    "Verif.HRepair.C50_inner",
    "Verif.HRepair.C50_ends_aligned",
    "Verif.HRepair.C50_corner_violation",
    "Verif.HRepair.C50_fragment_violation",
    "Verif.HRepair.C50_opposite_violation",
    "Verif.HRepair.C50_box_iff",
    "Verif.HRepair.C50_few_violation",
    "Verif.HRepair.C50_loop_violation"
   ],
   "note": "Proved for any number of levels: the loop ends without undefined behaviour as long as no cell is cut by finer cells; if every patch is deep enough and nothing is left to refine, the functions agree on all levels and layers; a turn only refines. Proved for two levels: functions of level 1 agree at the end if refined cells lie in supports of active functions, and all functions agree if no patch has interfaces on adjacent sides. Violations: corner, fragment, opposite, loop. Missing: agreement at the end for more than two levels. Coefficients: see C65."
  },
  {
   "property": "C51",
   "status": "partial",
   "theorems": [
    "Verif.Spaces.C51_bilinear_edges",
    "Verif.Spaces.C51_jump_iff",
    "Verif.Spaces.C51_space_iff",
    "Verif.Spaces.C51_plus_minus",
    "Verif.Spaces.C51_default",
    "Verif.Spaces.C51_edge_mult",
    "Verif.Spaces.C51_edge_iff",
    "Verif.Spaces.C51_edge",
    "Verif.Spaces.C51_edge_small",
    "Verif.Spaces.C51_boundary",
    "Verif.Spaces.C51_boundary_mult",
    "Verif.Spaces.C51_edge_cont",
    "Verif.Spaces.C51_vertex_iface",
    "Verif.Spaces.C51_vertex_boundary",
    "Verif.Spaces.C51_fix",
    "Verif.Spaces.C51_fix_minus",
    "Verif.Spaces.C51_gluing_fix",
    "Verif.Spaces.C51_kink_violation",
    "Verif.Spaces.C51_geometry_violation",
    "Verif.Spaces.C51_absent_violation",
    "Verif.Spaces.C51_mixed_violation",
    "Verif.Spaces.C51_bilinear_data",
    "Verif.Spaces.C51_gluing_exact",
    "Verif.Spaces.C51_bilinear_C1",
    "Verif.Spaces.C51_basis",
    "Verif.Spaces.C51_spans",
    "Verif.Spaces.C51_unisolvent",
    "Verif.Spaces.C51_projection",
    "Verif.Spaces.C51_gluing_projection",
    "Verif.Spaces.C51_tensor_projection",
    "Verif.Spaces.C51_vertex_tensor",
    "Verif.Spaces.C51_vertex_first",
    "Verif.Spaces.C51_vertex_space",
    "Verif.Spaces.C51_vertex_projection",
    "Verif.Spaces.C51_vertex_solvable",
    "Verif.Spaces.C51_edge_space",
    "Verif.Spaces.C51_edge_tensor",
    "Verif.Spaces.C51_edge_projection",
    "Verif.Spaces.C51_edge_first",
    "Verif.Spaces.C51_bilinear_vertex"
   ],
   "note": "Proved for geometries without inner knots: exact condition for any multiplicities, true for equal multiplicities, with minimality; B-splines are a basis of the splines, so the projections of gluing data, edge and vertex functions have one solution and reproduce these functions on the whole patch; for bilinear patches the stored functions of an interface are exactly C1 (C51_bilinear_edges), and so are the stored functions of a vertex across every interface at it (C51_bilinear_vertex). Negations: mixed multiplicities, geometry with inner knots, coarser neighbour without the knots of the geometry. Missing: meshes that are not nested, interpolation at the anchors instead of the projection."
  },
  {
   "property": "C52",
   "status": "partial",
   "theorems": [
    "Verif.VertexScale.C52_gluing_scale",
    "Verif.VertexScale.C52_gluing_turn",
    "Verif.VertexScale.C52_turn",
    "Verif.VertexScale.C52_sigma_scale",
    "Verif.VertexScale.C52_sigma_value",
    "Verif.VertexScale.C52_sigma_degenerate",
    "Verif.VertexScale.C52_unit_planar",
    "Verif.VertexScale.C52_unit_surface",
    "Verif.VertexScale.C52_first_violation",
    "Verif.VertexScale.C52_order_violation",
    "Verif.VertexScale.C52_two_violation",
    "Verif.VertexTurn.C52_gluing_turn_surface",
    "Verif.VertexTurn.C52_turn_surface_partial",
    "Verif.VertexTurn.C52_turn_planar",
    "Verif.VertexTurn.C52_turn_plane",
    "Verif.VertexTurn.C52_turn_surface_violated"
   ],
   "note": "Proved: independence of the unit for planar patches and surfaces; the same span after a turn, on all patches around the vertex together, for planar geometries, for surfaces if the matrix of the code is a rotation (C20), and for surfaces in a plane; value and sign of the factor for equal degrees. Violated and proved so: the space changes when a curved surface is tilted (C52_turn_surface_violated); the factor depends on the order of the patches (only the bases of the first one are read; running maximum of the degree); division by zero at a degenerate vertex."
  },
  {
   "property": "C53",
   "status": "partial",
   "theorems": [
    "Verif.HIndex.C53_fine",
    "Verif.HIndex.C53_coarse",
    "Verif.HIndex.C53_distinct",
    "Verif.HIndex.C53_level1_iff",
    "Verif.HIndex.C53_dpatch_refined",
    "Verif.HIndex.C53_dpatch_base",
    "Verif.HIndex.C53_dpatch_quadratic",
    "Verif.HIndex.C53_almost",
    "Verif.HIndex.C53_exists",
    "Verif.HIndex.C53_row_violation",
    "Verif.HIndex.C53_refined_violation",
    "Verif.HIndex.C53_unrefined_violation",
    "Verif.HIndex.C53_c0_violation"
   ],
   "note": "Proved for the requests made by D-Patch and Almost-C1 and, with two levels, along rows inside the box; numbers behind a thin box on rows with an offset, and with three levels behind the box, are shown not to be right."
  },
  {
   "property": "C54",
   "status": "partial",
   "theorems": [
    "Verif.Boehm.C54_nonneg_partial",
    "Verif.Boehm.C54_first_partial",
    "Verif.Boehm.C54_symmetric_partial",
    "Verif.Boehm.C54_sum_partial",
    "Verif.Boehm.C54_function_partial",
    "Verif.Boehm.C54_smooth_partial",
    "Verif.Boehm.C54_first_patch_partial",
    "Verif.Boehm.C54_second_patch_partial",
    "Verif.Boehm.C54_parameters_partial",
    "Verif.Boehm.C54_shift_violated"
   ],
   "note": "All clauses proved for open knot vectors starting at zero (all degrees, inner knots, orientations, positive side weights). Violated for knot vectors with another first knot: C54_shift_violated."
  },
  {
   "property": "C55",
   "status": "partial",
   "theorems": [
    "Verif.HMap.C55_decode",
    "Verif.HMap.C55_numbers",
    "Verif.HMap.C55_block_partial",
    "Verif.HMap.C55_line_partial",
    "Verif.HMap.C55_vertex_partial",
    "Verif.HMap.C55_corner",
    "Verif.HMap.C55_corner_partial",
    "Verif.HMap.C55_levels_partial",
    "Verif.HMap.C55_inactive_violated",
    "Verif.HMap.C55_corner_violated"
   ],
   "note": "numbers, walking, blocks at lines and at vertices with four patches, levels and corners proved; false for some end states of the repair (C55_inactive_violated) and for cut cells (C55_corner_violated), where the theorems carry conditions"
  },
  {
   "property": "C56",
   "status": "partial",
   "theorems": [
    "Verif.Reparam.C56_bspline_surface",
    "Verif.Reparam.C56_nurbs_surface",
    "Verif.Reparam.C56_lengths",
    "Verif.Reparam.C56_same_points",
    "Verif.Reparam.C56_aux_surface_violated",
    "Verif.Reparam.C56_aux_symmetric"
   ],
   "note": "For gsPatchReparameterized proved in full: same polynomials on turned elements (C56_bspline_surface, C56_nurbs_surface), same set of points after any sequence of turns (C56_same_points). gsG1AuxiliaryPatch does not reverse knots: false there (C56_aux_surface_violated), except for symmetric knots (C56_aux_symmetric)."
  },
  {
   "property": "C57",
   "status": "partial",
   "theorems": [
    "Verif.Reparam.C57_turned_together",
    "Verif.Reparam.C57_put_back_partial",
    "Verif.Reparam.C57_knots",
    "Verif.Reparam.C57_normal",
    "Verif.Reparam.C57_normal_iff",
    "Verif.Reparam.C57_along",
    "Verif.Reparam.C57_graph_violated"
   ],
   "note": "Proved for symmetric knots and histories that can be undone (C57_put_back_partial). Knots of the function are those of the patch, for all knots (C57_knots), and the ones along the edge are used for the edge (C57_along). For other knots it is false: witness C57_graph_violated; the derivative across the interface is right exactly if the first and the last element have the same length (C57_normal, C57_normal_iff)."
  },
  {
   "property": "C58",
   "status": "partial",
   "theorems": [
    "Verif.Distances.C58_reach_partial",
    "Verif.Distances.C58_all_corners",
    "Verif.Distances.C58_boundary",
    "Verif.Distances.C58_others",
    "Verif.Distances.C58_smooth_everything",
    "Verif.Distances.C58_count",
    "Verif.Distances.C58_violated"
   ],
   "note": "All for calls with every corner of a vertex and for smoothEverything; with one corner only the edges that are sides of it (violated for the other edges, C58_violated)."
  },
  {
   "property": "C59",
   "status": "partial",
   "theorems": [
    "Verif.Distances.C59_far_end",
    "Verif.Distances.C59_symmetric_partial",
    "Verif.Distances.C59_uniform_partial",
    "Verif.Distances.C59_violated"
   ],
   "note": "The exact law for any refinement, and the property for symmetric knots and uniform refinement; violated in general (C59_violated). Simple interior knots."
  },
  {
   "property": "C60",
   "status": "partial",
   "theorems": [
    "Verif.Distances.C60_enough_partial",
    "Verif.Distances.C60_reserved_partial",
    "Verif.Distances.C60_past_end",
    "Verif.Distances.C60_enough_violated",
    "Verif.Distances.C60_too_many"
   ],
   "note": "For symmetric knots on all levels; violated for graded knots (C60_enough_violated, C60_too_many)."
  },
  {
   "property": "C61",
   "status": "partial",
   "theorems": [
    "Verif.Carry.C61_insert",
    "Verif.Carry.C61_loop",
    "Verif.Carry.C61_repair",
    "Verif.Carry.C61_refine_only",
    "Verif.Carry.C61_refine",
    "Verif.Carry.C61_uniform",
    "Verif.Carry.C61_construct",
    "Verif.Carry.C61_corners_partial",
    "Verif.Carry.C61_corners_fail",
    "Verif.Carry.C61_violated"
   ],
   "note": "Proved for repair, refinement of a patch with and without repair, uniform refinement, and the constructor from a multi-patch: the coefficients fit the new bases and every patch is the same surface (Boehm's formula proved for any knot). The constructor with a list of corners violates the claim, proved: it fails whenever knots do not match along an interface. Local to global coefficients are part of G+Smo."
  },
  {
   "property": "C62",
   "status": "partial",
   "theorems": [
    "Verif.SurfaceOp.C62_metric",
    "Verif.SurfaceOp.C62_var1",
    "Verif.SurfaceOp.C62_var1_solution",
    "Verif.SurfaceOp.C62_laplace_unique",
    "Verif.SurfaceOp.C62_energy",
    "Verif.SurfaceOp.C62_deriv2_partial",
    "Verif.TestData.C62_deriv2_violated"
   ],
   "note": "var1 is the Laplace-Beltrami operator; deriv2 is so only without first-order terms and is refuted on the example's own surface (C62_deriv2_violated). Boundary terms are not covered."
  },
  {
   "property": "C63",
   "status": "partial",
   "theorems": [
    "Verif.TestData.C63_assembler",
    "Verif.TestData.C63_planar",
    "Verif.TestData.C63_conditions",
    "Verif.TestData.C63_surface_laplace",
    "Verif.TestData.C63_surface_source",
    "Verif.TestData.C63_surface_gradient",
    "Verif.TestData.C63_surface_violated",
    "Verif.TestData.C63_surface_normal_violated"
   ],
   "note": "Data of the assembler and of the planar example fit; the surface example's source and Laplacian fit, its third gradient component is refuted (C63_surface_violated)."
  },
  {
   "property": "C64",
   "status": "partial",
   "theorems": [
    "Verif.Biharm.C64_equations",
    "Verif.Biharm.C64_projection",
    "Verif.Biharm.C64_energy",
    "Verif.Biharm.C64_regular",
    "Verif.Biharm.C64_wellposed",
    "Verif.Biharm.C64_exact_partial",
    "Verif.Biharm.C64_neumann_violated",
    "Verif.Biharm.C64_weak",
    "Verif.Biharm.C64_weak_clamped",
    "Verif.Biharm.C64_errors",
    "Verif.Biharm.C64_norms"
   ],
   "note": "Projection, energy, regularity, Green's identity and errors are proved; reproduction needs free functions without boundary data, and is refuted for Neumann sides that are not Dirichlet sides (C64_neumann_violated)."
  },
  {
   "property": "C65",
   "status": "partial",
   "theorems": [
    "Verif.HCarry.C65_unity",
    "Verif.HCarry.C65_independent",
    "Verif.HCarry.C65_nested",
    "Verif.HCarry.C65_same_space",
    "Verif.HCarry.C65_carrier",
    "Verif.HCarry.C65_loop",
    "Verif.HCarry.C65_lift",
    "Verif.HCarry.C65_refine"
   ],
   "note": "Proved for hierarchical and truncated bases, any number of levels, all degrees and all states of refinement: the functions are linearly independent, refined bases are nested, both kinds of basis span the same space, truncated functions sum to one, and exactly one refined column of coefficients exists; with it, refinement of a patch and every run of the repair loop keep the surfaces of all patches and fit the new bases, and coefficients do not change what is refined. Assumed: the refinement of a single patch (G+Smo) finds these coefficients. Missing: repeated inner knots."
  },
  {
   "property": "C66",
   "status": "partial",
   "theorems": [
    "Verif.Boxes.C66_count",
    "Verif.Boxes.C66_halved",
    "Verif.Boxes.C66_kept",
    "Verif.Boxes.C66_copies",
    "Verif.Boxes.C66_elements_partial",
    "Verif.Boxes.C66_elements_violated",
    "Verif.Boxes.C66_repaired",
    "Verif.Boxes.C66_elements"
   ],
   "note": "Proved for boxes of parameters: what is inserted, how often, and that the repair loses nothing. Boxes of element numbers are violated: the numbers are used as parameters (C66_elements_violated); proved where knots are integers (C66_elements_partial)."
  },
  {
   "property": "C67",
   "status": "partial",
   "theorems": [
    "Verif.Coarse.C67_same_partial",
    "Verif.Coarse.C67_tie_violated",
    "Verif.Coarse.C67_mirror_violated"
   ],
   "note": "Proved for the functions on the rotated patches if the numbers of elements differ or the stored knots are equal, and the coarser knots have equal multiplicities. Violated for ties with different knots (C67_tie_violated), which happens on matching meshes with patches in opposite directions (C67_mirror_violated). Geometries with inner knots: see C51."
  },
  {
   "property": "C68",
   "status": "partial",
   "theorems": [
    "Verif.C1Corner.C68_planar",
    "Verif.C1Corner.C68_surface",
    "Verif.C1Corner.C68_edge",
    "Verif.C1Corner.C68_inner",
    "Verif.VertexTurn.C68_rotated",
    "Verif.VertexTurn.C68_rotated_up",
    "Verif.VertexTurn.C68_rotated_dependent",
    "Verif.VertexTurn.C68_rotated_violated"
   ],
   "note": "Proved for the functions as they are before the projection to the spline space: locally at corners (planar patches; surfaces with the matrix of the code, exactly for the normals for which it does not map the axis to zero), on every element at an edge, on every element for the interior. Violated and proved so: for some normals that point downwards the functions at a vertex of a surface are dependent, one can be zero (C68_rotated_violated). Missing: that the projection, where it is not exact (C51), keeps the independence."
  },
  {
   "property": "C69",
   "status": "partial",
   "theorems": [
    "Verif.FullMap.C69_classes_partial",
    "Verif.FullMap.C69_basis_partial",
    "Verif.FullMap.C69_self_violated"
   ],
   "note": "Proved for smoothness 0 on tensor B-spline patches, several patches, no patch glued to itself (C69_classes_partial, C69_basis_partial); violated by the unchanged code for a patch glued to itself with C0 vertices (C69_self_violated). Missing: higher smoothness (the parts are C32, C40, C54) and hierarchical bases."
  },
  {
   "property": "C70",
   "status": "partial",
   "theorems": [
    "Verif.FullMap.C70_rows_partial",
    "Verif.FullMap.C70_unity_partial"
   ],
   "note": "Proved for all numbers of patches, topologies, degrees, smoothing degrees, knots and weights if every corner with two interfaces is special or one of four different patches around a vertex (blocks of functions), special corners are glued to special corners, both sides of an interface have the same coupled rows, and no patch is glued to itself. Missing: patches given upside down relative to each other at vertices with blocks (the claim is false there, see C40_block_violated), patches that meet themselves, different smoothing degrees in the two directions, hierarchical bases."
  },
  {
   "property": "C71",
   "status": "partial",
   "theorems": [
    "Verif.FullMap.C71_columns_partial",
    "Verif.FullMap.C71_functions_partial"
   ],
   "note": "Proved under the hypotheses of C70 (all numbers of patches, topologies, degrees, smoothing degrees, knots and weights; every corner with two interfaces special or one of four different patches around a vertex). Missing: patches given upside down relative to each other at vertices with blocks, patches that meet themselves, different smoothing degrees in the two directions, hierarchical bases."
  },
  {
   "property": "C72",
   "status": "partial",
   "theorems": [
    "Verif.FullMap.C72_rows_partial",
    "Verif.FullMap.C72_functions_partial",
    "Verif.FullMap.C72_weights_violated"
   ],
   "note": "Every column of the whole map is smooth over every interface, in the scaled parameters of the patches, for all topologies, degrees, smoothing degrees and positive weights that agree where interfaces meet; also for whole functions at points of an interface. C72_weights_violated: setWeight on one side only gives a function with a kink at the opposite interface. Missing: geometry maps, patches upside down at vertices with blocks (code is wrong there), patches glued twice at a vertex, different smoothing degrees per direction, hierarchical bases."
  },
  {
   "property": "C73",
   "status": "partial",
   "theorems": [
    "Verif.FullMap.C73_basis_partial",
    "Verif.FullMap.C73_default_partial"
   ],
   "note": "The columns of the whole map are a basis of all splines that are smooth over the interfaces (smoothing degree away from special vertices, continuous next to them), for all topologies, degrees, smoothing degrees and positive weights that agree where interfaces meet; C73_default_partial for weights one and meshes that agree. Missing: geometry maps, patches upside down at vertices with blocks (code is wrong there), patches glued twice at a vertex, different smoothing degrees per direction, hierarchical bases."
  },
  {
   "property": "C74",
   "status": "partial",
   "theorems": [
    "Verif.Select.C74_rows",
    "Verif.Select.C74_kernels",
    "Verif.Select.C74_select_partial",
    "Verif.Select.C74_vertex_partial",
    "Verif.Select.C74_numbers_partial",
    "Verif.Select.C74_numbers_violated"
   ],
   "note": "Proved for exact tests of independence and without dropped coefficients. The third of the numbers per type is wrong in the code: C74_numbers_violated shows it for all kernels that are neither zero nor everything. The members modelled here are not called at this commit; the systems for vertices between an interface and the boundary are not modelled."
  }
 ]
}