{
 "claims": [
  {
   "property": "C01",
   "status": "proved",
   "theorems": [
    "IOverlay.C01_overlay",
    "IOverlay.C01_graph",
    "IOverlay.C01_overlay_input"
   ],
   "note": "For every point of the rational plane, by ray casting with half-open columns (so points on edges are covered too). External collections and the contour cleaning of i_shape enter as contracts (Assumed), shown satisfiable."
  },
  {
   "property": "C02",
   "status": "proved",
   "theorems": [
    "IOverlay.C02_kept_iff_boundary",
    "IOverlay.C02_fill_top"
   ],
   "note": ""
  },
  {
   "property": "C03",
   "status": "proved",
   "theorems": [
    "IOverlay.C03_fill_flags",
    "IOverlay.C03_fill_flags_string",
    "IOverlay.C03_fill_rule_meaning"
   ],
   "note": ""
  },
  {
   "property": "C04",
   "status": "proved",
   "theorems": [
    "IOverlay.C04_contour_winding",
    "IOverlay.C04_edges_nondegenerate",
    "IOverlay.C04_overlay_winding"
   ],
   "note": ""
  },
  {
   "property": "C05",
   "status": "partial",
   "theorems": [
    "IOverlay.C05_explicit_closing_refuted",
    "IOverlay.C05_explicit_closing_partial"
   ],
   "note": "The claim is false of the code (a corner is cut off when the last point repeats the first): refuted by a kernel-checked witness; the partial theorem states exactly what is registered instead."
  },
  {
   "property": "C06",
   "status": "proved",
   "theorems": [
    "IOverlay.C06_degenerate_contour",
    "IOverlay.C06_degenerate_input"
   ],
   "note": ""
  },
  {
   "property": "C07",
   "status": "proved",
   "theorems": [
    "IOverlay.C07_rotation",
    "IOverlay.C07_reversal",
    "IOverlay.C07_fill_rules"
   ],
   "note": ""
  },
  {
   "property": "C08",
   "status": "proved",
   "theorems": [
    "IOverlay.C08_merge",
    "IOverlay.C08_merge_string",
    "IOverlay.C08_overlay"
   ],
   "note": ""
  },
  {
   "property": "C09",
   "status": "proved",
   "theorems": [
    "IOverlay.C09_order_independent",
    "IOverlay.C09_interleaved"
   ],
   "note": ""
  },
  {
   "property": "C10",
   "status": "proved",
   "theorems": [
    "IOverlay.C10_swap",
    "IOverlay.C10_symmetric",
    "IOverlay.C10_mirrored",
    "IOverlay.C10_graph"
   ],
   "note": "Exact equality of the returned shapes."
  },
  {
   "property": "C11",
   "status": "proved",
   "theorems": [
    "IOverlay.C11_graph_filter",
    "IOverlay.C68_prebuilt"
   ],
   "note": "C68_prebuilt: the lists of shapes are equal, not only the edges."
  },
  {
   "property": "C12",
   "status": "proved",
   "theorems": [
    "IOverlay.C12_noding",
    "IOverlay.C12_noding_list"
   ],
   "note": "List, tree, and auto up to 16000 edges without condition; the fragment strategy under FragOk (all touches discoverable), without which it is false (C38_fragment_refuted)."
  },
  {
   "property": "C13",
   "status": "proved",
   "theorems": [
    "IOverlay.C13_balanced",
    "IOverlay.C13_contours_stay_closed"
   ],
   "note": ""
  },
  {
   "property": "C14",
   "status": "proved",
   "theorems": [
    "IOverlay.C14_exact_marks",
    "IOverlay.C14_exact_split"
   ],
   "note": ""
  },
  {
   "property": "C15",
   "status": "proved",
   "theorems": [
    "IOverlay.C15_marks",
    "IOverlay.C15_no_degenerate_edges"
   ],
   "note": ""
  },
  {
   "property": "C16",
   "status": "proved",
   "theorems": [
    "IOverlay.C16_crossing_test",
    "IOverlay.C16_collinear_flags"
   ],
   "note": ""
  },
  {
   "property": "C17",
   "status": "proved",
   "theorems": [
    "IOverlay.C17_crossing_accuracy",
    "IOverlay.C17_half_unit"
   ],
   "note": ""
  },
  {
   "property": "C18",
   "status": "partial",
   "theorems": [
    "IOverlay.C18_division_partial",
    "IOverlay.C18_rounding_refuted"
   ],
   "note": "False of the code: the remainder used for rounding is always zero for dividends >= 2^64, so the quotient is truncated. The partial theorem gives the exact value returned in all cases; the refutation is a kernel-checked witness."
  },
  {
   "property": "C19",
   "status": "proved",
   "theorems": [
    "IOverlay.C19_no_overflow",
    "IOverlay.C19_bound_sharp"
   ],
   "note": ""
  },
  {
   "property": "C20",
   "status": "proved",
   "theorems": [
    "IOverlay.C20_graph_nodes"
   ],
   "note": "For every sort of the edge ends (stable or not) that is a sorted permutation."
  },
  {
   "property": "C21",
   "status": "proved",
   "theorems": [
    "IOverlay.C21_edges_once",
    "IOverlay.C21_edges_once_graph"
   ],
   "note": ""
  },
  {
   "property": "C22",
   "status": "proved",
   "theorems": [
    "IOverlay.C22_terminates",
    "IOverlay.C22_terminates_overlay"
   ],
   "note": "Fuel of the loops is linear in the number of edges; exhaustion would give none."
  },
  {
   "property": "C23",
   "status": "proved",
   "theorems": [
    "IOverlay.C23_nearest",
    "IOverlay.C23_order_independent",
    "IOverlay.C23_walk_overlay",
    "IOverlay.C23_walk_graph"
   ],
   "note": "Angles are real numbers in the specification (SweepAngle); candidates collinear with the incoming edge cannot occur in a noded graph, which is proved."
  },
  {
   "property": "C24",
   "status": "partial",
   "theorems": [
    "IOverlay.C24_area_filter",
    "IOverlay.C24_area_filter_graph",
    "IOverlay.C24_contours",
    "IOverlay.C24_area_filter_partial",
    "IOverlay.C24_area_filter_refuted"
   ],
   "note": "Proved exactly (the result is the result for area 0 without the contours that are too small, and the kept contours are those of the region) whenever no three edges of the result share their left end. The full claim is false of the code: after a contour that is too small another contour through the same vertex can be skipped or misclassified as a hole. Proved: among the walked contours exactly the large enough ones are returned; refuted by a kernel-checked witness that all are walked."
  },
  {
   "property": "C25",
   "status": "proved",
   "theorems": [
    "IOverlay.C25_join_sorted",
    "IOverlay.C25_join_unsorted",
    "IOverlay.C25_no_contour_lost"
   ],
   "note": ""
  },
  {
   "property": "C26",
   "status": "proved",
   "theorems": [
    "IOverlay.C26_bind"
   ],
   "note": "Stated for the sweep itself, for any floor and anchor edges that meet in end points only; that an extraction supplies such edges is part of the proof of C43."
  },
  {
   "property": "C27",
   "status": "proved",
   "theorems": [
    "IOverlay.C27_string_path",
    "IOverlay.C27_string_contour"
   ],
   "note": ""
  },
  {
   "property": "C28",
   "status": "proved",
   "theorems": [
    "IOverlay.C28_clip_rule"
   ],
   "note": ""
  },
  {
   "property": "C29",
   "status": "proved",
   "theorems": [
    "IOverlay.C29_walk",
    "IOverlay.C29_clip",
    "IOverlay.C29_clip_input",
    "IOverlay.C29_routes",
    "IOverlay.C29_clip_routes"
   ],
   "note": "C29_clip_routes relates the output to the user lines whatever rounding occurs. C29_clip_input restates it in terms of the user lines when no rounding occurs. With the tree strategy more than two edges after splitting are required (the loop stops at two)."
  },
  {
   "property": "C30",
   "status": "proved",
   "theorems": [
    "IOverlay.C30_slice_walks"
   ],
   "note": "For every run: the walks finish, and consume every filled (edge, side) pair exactly once; their total winding number is 1 inside and 0 outside. With the tree strategy more than two edges after splitting are required."
  },
  {
   "property": "C31",
   "status": "proved",
   "theorems": [
    "IOverlay.C31_split_loops",
    "IOverlay.C31_winding",
    "IOverlay.C31_slice"
   ],
   "note": "The hypothesis that no two points alternate is proved for every walk of every slice (C31_slice)."
  },
  {
   "property": "C32",
   "status": "partial",
   "theorems": [
    "IOverlay.C32_min_area_partial",
    "IOverlay.C32_min_area_refuted"
   ],
   "note": "False of the code: the area test is inverted and not applied to the last loop of a walk. The partial theorem says exactly which loops are kept; the refutation is a kernel-checked whole run."
  },
  {
   "property": "C33",
   "status": "partial",
   "theorems": [
    "IOverlay.C33_none_iff_partial",
    "IOverlay.C33_decompose_partial",
    "IOverlay.C33_vertices_partial",
    "IOverlay.C33_decompose_refuted"
   ],
   "note": "False of the code: the group of the largest point is never flushed (None although that point is repeated) and a point visited three times inside another loop loses vertices; both kernel-checked. Proved: the exact condition for None, and that the loops use every edge and vertex once and are simple (up to the largest point) when no two points alternate and no point but the first repeated one occurs more than twice."
  },
  {
   "property": "C34",
   "status": "proved",
   "theorems": [
    "IOverlay.C34_reverse_swaps",
    "IOverlay.C34_vector_edge"
   ],
   "note": ""
  },
  {
   "property": "C35",
   "status": "proved",
   "theorems": [
    "IOverlay.C35_parallel_serial",
    "IOverlay.C35_terminates"
   ],
   "note": "Any interleaving of the tasks; rayon's par_iter().map().collect() returns the results in the order of the groups (trusted)."
  },
  {
   "property": "C36",
   "status": "proved",
   "theorems": [
    "IOverlay.C36_fragments_cover",
    "IOverlay.C36_no_overflow",
    "IOverlay.C36_columns"
   ],
   "note": ""
  },
  {
   "property": "C37",
   "status": "proved",
   "theorems": [
    "IOverlay.C37_snap_radius"
   ],
   "note": ""
  },
  {
   "property": "C38",
   "status": "partial",
   "theorems": [
    "IOverlay.C38_strategies_agree_partial",
    "IOverlay.C38_fragment_refuted",
    "IOverlay.C38_fragment_strings_refuted",
    "IOverlay.C38_tree_strings_refuted"
   ],
   "note": "All three strategies agree on boolean overlays, the fragment strategy provided every touch is discoverable (FragSafe, decidable by fragSafeB). The unconditional statement is false: a corner touching a vertical edge on a column border is missed (C38_fragment_refuted); for line clipping fragments miss overlaps and the tree strategy does not split two crossing lines (C38_fragment_strings_refuted, C38_tree_strings_refuted)."
  },
  {
   "property": "C39",
   "status": "proved",
   "theorems": [
    "IOverlay.C39_sweep_fill",
    "IOverlay.C39_sweep_fill_input",
    "IOverlay.C39_sweep_fill_string"
   ],
   "note": "For every scan list (list or tree) satisfying the i_tree contract stated as ScanOracle.Ok."
  },
  {
   "property": "C40",
   "status": "proved",
   "theorems": [
    "IOverlay.C40_even_degree",
    "IOverlay.C40_even_degree_graph"
   ],
   "note": ""
  },
  {
   "property": "C41",
   "status": "proved",
   "theorems": [
    "IOverlay.C41_overlay",
    "IOverlay.C41_graph",
    "IOverlay.C41_overlay_input",
    "IOverlay.C41_overlay_limit"
   ],
   "note": "Minimum area 0; with a positive one C41_overlay_limit requires that no three edges of the result share their left end (otherwise the extraction can misclassify contours, see C24)."
  },
  {
   "property": "C42",
   "status": "proved",
   "theorems": [
    "IOverlay.C42_overlay",
    "IOverlay.C42_graph"
   ],
   "note": "Interior = nonzero winding number; minimum area 0."
  },
  {
   "property": "C43",
   "status": "partial",
   "theorems": [
    "IOverlay.C43_overlay_partial",
    "IOverlay.C43_graph_partial",
    "IOverlay.C43_succeeds_partial",
    "IOverlay.C43_simplified_partial",
    "IOverlay.C43_simplified_graph_partial",
    "IOverlay.C43_clockwise_refuted",
    "IOverlay.C43_simplified_refuted"
   ],
   "note": "Proved (one-shot and prebuilt graph) for counterclockwise output without simplification, and for clockwise output when each returned hole passes once through its leftmost vertex. With simplification, both directions: proved when the edges of the returned contours are different segments meeting in common ends only and each hole passes once through its leftmost vertex. False of the code otherwise: two kernel-checked whole runs give a hole to a shape that does not contain it."
  },
  {
   "property": "C44",
   "status": "proved",
   "theorems": [
    "IOverlay.C44_split",
    "IOverlay.C44_overlay",
    "IOverlay.C44_graph",
    "IOverlay.C44_clip",
    "IOverlay.C44_slice"
   ],
   "note": "The contour cleaning crate is assumed to return only points it was given."
  },
  {
   "property": "C45",
   "status": "proved",
   "theorems": [
    "IOverlay.C45_memory_safe",
    "IOverlay.C45_memory_safe_string"
   ],
   "note": "Faults are a separate outcome of the implementation-level model (cursor over sorted marks, bins, buffer writes). BinLayout (external) is assumed to number bins from left to right."
  },
  {
   "property": "C46",
   "status": "partial",
   "theorems": [
    "IOverlay.C46_edges",
    "IOverlay.C46_edges_graph",
    "IOverlay.C46_paths_found",
    "IOverlay.C46_complete_partial",
    "IOverlay.C46_complete_graph_partial",
    "IOverlay.C46_refuted_lost",
    "IOverlay.C46_refuted_panic",
    "IOverlay.C46_refuted_parent"
   ],
   "note": "Closed paths, truthful flags and no edge twice: unconditional. Completeness, sides and orientation: with at most four result edges going right from any point; false otherwise (C46_refuted_lost). Attaching holes to one of several shapes is wrong in the code (C46_refuted_panic, C46_refuted_parent)."
  },
  {
   "property": "C47",
   "status": "proved",
   "theorems": [
    "IOverlay.C47_separate"
   ],
   "note": ""
  },
  {
   "property": "C48",
   "status": "proved",
   "theorems": [
    "IOverlay.C48_stroke",
    "IOverlay.C48_outline"
   ],
   "note": "For every implementation of the floating point operations."
  },
  {
   "property": "C49",
   "status": "proved",
   "theorems": [
    "IOverlay.C49_stroke",
    "IOverlay.C49_stroke_pieces",
    "IOverlay.C49_stroke_covered",
    "IOverlay.C49_stroke_edges"
   ],
   "note": "Registered edges of length zero excluded (with them the walk can be endless, C50). The minimum area of the filter is ignored by the code, which the model reproduces."
  },
  {
   "property": "C50",
   "status": "partial",
   "theorems": [
    "IOverlay.C50_stroke_panics",
    "IOverlay.C50_stroke_terminates",
    "IOverlay.C50_outline_terminates",
    "IOverlay.C50_point_path",
    "IOverlay.C50_point_outline",
    "IOverlay.C50_refuted_endless",
    "IOverlay.C50_refuted_endless_fixed"
   ],
   "note": "False of the code for edges of length zero (kernel-checked endless walk) and for open paths with fewer than two points. Proved: exact condition for the index panic, termination without edges of length zero."
  },
  {
   "property": "C51",
   "status": "proved",
   "theorems": [
    "IOverlay.C51_stroke",
    "IOverlay.C51_outline",
    "IOverlay.C51_outline_marks",
    "IOverlay.C51_refuted_section"
   ],
   "note": "The stronger expectation that a stroke contains the rectangles of its sections is refuted by C51_refuted_section."
  },
  {
   "property": "C52",
   "status": "proved",
   "theorems": [
    "IOverlay.C52_outline_path",
    "IOverlay.C52_outline_clockwise",
    "IOverlay.C52_outline_part",
    "IOverlay.C52_outline_degenerate",
    "IOverlay.C52_outline_many"
   ],
   "note": "Several paths: list strategy and no crossing rounded, as the region is stated in terms of the shifted contours; single path: in terms of the noded edges, all strategies. At most two boundary edges going right from a point (cf. C24)."
  },
  {
   "property": "C53",
   "status": "proved",
   "theorems": [
    "IOverlay.C53_builder",
    "IOverlay.C53_roles",
    "IOverlay.C53_constructors",
    "IOverlay.C53_simplify",
    "IOverlay.C53_string_builder",
    "IOverlay.C53_string_roles",
    "IOverlay.C53_slice_clip"
   ],
   "note": "Exact equality of all results."
  },
  {
   "property": "C54",
   "status": "proved",
   "theorems": [
    "IOverlay.C54_resource",
    "IOverlay.C54_builder",
    "IOverlay.C54_overlay",
    "IOverlay.C54_graph_single_simplify",
    "IOverlay.C54_nesting",
    "IOverlay.C54_order",
    "IOverlay.C54_region",
    "IOverlay.C54_strings"
   ],
   "note": "The adapter (i_float) and the cleaning of floating point contours (i_shape) are parameters."
  },
  {
   "property": "C55",
   "status": "proved",
   "theorems": [
    "IOverlay.C55_contours",
    "IOverlay.C55_start",
    "IOverlay.C55_extra_vertex",
    "IOverlay.C55_reversal",
    "IOverlay.C55_direction",
    "IOverlay.C55_spike_start"
   ],
   "note": "For contours with spikes the start vertex does matter: C55_spike_start."
  },
  {
   "property": "C56",
   "status": "proved",
   "theorems": [
    "IOverlay.C56_overlay",
    "IOverlay.C56_graph",
    "IOverlay.C56_rectilinear",
    "IOverlay.wholeCrossings_rectilinear"
   ],
   "note": "Coordinates within the range of C17; strategies as in C38."
  },
  {
   "property": "C57",
   "status": "proved",
   "theorems": [
    "IOverlay.C57_result",
    "IOverlay.C57_again",
    "IOverlay.C57_idempotent",
    "IOverlay.C57_edges",
    "IOverlay.C57_rectilinear",
    "IOverlay.C57_expressions"
   ],
   "note": "The cleaning of contours (i_shape) is a parameter: no new points, edges run along the given ones."
  },
  {
   "property": "C58",
   "status": "proved",
   "theorems": [
    "IOverlay.C58_slice_contours",
    "IOverlay.C58_slice_shapes",
    "IOverlay.C58_slice_input",
    "IOverlay.C58_slice_area",
    "IOverlay.orderOk_area"
   ],
   "note": "is_clockwise_ordered (i_shape) is a parameter with contract OrderOk; the sign of the area meets it. With the tree strategy more than two edges after splitting are required."
  },
  {
   "property": "C59",
   "status": "proved",
   "theorems": [
    "IOverlay.C59_overlay",
    "IOverlay.C59_graph",
    "IOverlay.C59_slice"
   ],
   "note": "No area limit; OrderOk for slices."
  },
  {
   "property": "C60",
   "status": "proved",
   "theorems": [
    "IOverlay.C60_areas",
    "IOverlay.C60_mono",
    "IOverlay.C60_input",
    "IOverlay.C60_again"
   ],
   "note": "totalArea is the sum of twice the signed areas (shoelace)."
  },
  {
   "property": "C61",
   "status": "proved",
   "theorems": [
    "IOverlay.C61_overlay",
    "IOverlay.C61_graph",
    "IOverlay.C61_again",
    "IOverlay.C61_expressions"
   ],
   "note": "Counterclockwise output, min_area 0. split_once: one round suffices."
  },
  {
   "property": "C62",
   "status": "proved",
   "theorems": [
    "IOverlay.C62_rounds",
    "IOverlay.C62_operation"
   ],
   "note": "Negative result (finding 17)."
  },
  {
   "property": "C63",
   "status": "proved",
   "theorems": [
    "IOverlay.C63_local",
    "IOverlay.C63_edges",
    "IOverlay.C63_high",
    "IOverlay.drift_absolute"
   ],
   "note": "No area limit for the winding numbers. drift is the sum of the reaches of the rounds but the last."
  },
  {
   "property": "C64",
   "status": "proved",
   "theorems": [
    "IOverlay.C64_clip",
    "IOverlay.C64_clip_kept",
    "IOverlay.C64_slice"
   ],
   "note": "polysWind_const (winding numbers are constant along lines off the edges) is proved for the specification itself."
  },
  {
   "property": "C65",
   "status": "proved",
   "theorems": [
    "IOverlay.C65_noded",
    "IOverlay.C65_ends",
    "IOverlay.C65_overlay",
    "IOverlay.C65_noded_lines",
    "IOverlay.C65_clip",
    "IOverlay.C65_slice",
    "IOverlay.C65_shapes",
    "IOverlay.C65_graph_shapes",
    "IOverlay.C65_slice_lists",
    "IOverlay.C65_clip_lists"
   ],
   "note": "Shift.lean: every phase up to the noded edges commutes with the translation, function by function."
  },
  {
   "property": "C66",
   "status": "proved",
   "theorems": [
    "IOverlay.C66_slice_extract",
    "IOverlay.C66_slice_by",
    "IOverlay.C66_slice_total"
   ],
   "note": "The sweep for holes is shown to find, for every hole, an outer contour with the same surroundings; no hypothesis on contours passing twice through a vertex is needed (slices never repeat a point)."
  },
  {
   "property": "C67",
   "status": "proved",
   "theorems": [
    "IOverlay.C67_slice_extract",
    "IOverlay.C67_slice_by",
    "IOverlay.C67_slice_total"
   ],
   "note": "Separation is stated with winding numbers of closed paths along the noded edges; any closed path for points of the same shape, simple polygons suffice for points of different shapes."
  },
  {
   "property": "C68",
   "status": "proved",
   "theorems": [
    "IOverlay.C68_determined",
    "IOverlay.C68_graph",
    "IOverlay.C68_prebuilt",
    "IOverlay.C68_strategies"
   ],
   "note": "Equality of lists, not only of covered points; the oracles for cleaning, binding and sorting of hole segments must be the same functions in both runs. With min_area > 0 needs that no point is the left end of more than two edges of the result."
  },
  {
   "property": "C69",
   "status": "proved",
   "theorems": [
    "IOverlay.C69_canonical",
    "IOverlay.C69_stable",
    "IOverlay.C69_expressions",
    "IOverlay.C69_not_fixed"
   ],
   "note": "Equality of lists. Simplifications share the oracles for cleaning, binding and sorting; min_area 0."
  },
  {
   "property": "C70",
   "status": "proved",
   "theorems": [
    "IOverlay.C70_local",
    "IOverlay.C70_edges",
    "IOverlay.C70_clip",
    "IOverlay.C70_slice"
   ],
   "note": "Distances are in the maximum norm over the rationals. Assumes the adapter converts with errors ein, eout (Adapter.Faithful); clean_result off and min_area 0."
  },
  {
   "property": "C71",
   "status": "proved",
   "theorems": [
    "IOverlay.C71_no_clip",
    "IOverlay.C71_same_twice",
    "IOverlay.C71_nothing",
    "IOverlay.C71_repeated",
    "IOverlay.C71_one_reversed",
    "IOverlay.C71_added_twice"
   ],
   "note": "Assumes the tree sees only the edges (TreeOracle.SeesEdges)."
  },
  {
   "property": "C72",
   "status": "proved",
   "theorems": [
    "IOverlay.C72_stroke_far",
    "IOverlay.C72_stroke_edges",
    "IOverlay.C72_rectangle",
    "IOverlay.C72_custom_outside"
   ],
   "note": "Exact arithmetic for the style computations (floating point rounding before the grid is not modelled); adapter contract StrokeAdapter.Good; RegularStroke excludes zero-length registered edges (see C50)."
  },
  {
   "property": "C73",
   "status": "proved",
   "theorems": [
    "IOverlay.C73_section",
    "IOverlay.C73_round_cap",
    "IOverlay.C73_cap",
    "IOverlay.C73_bevel",
    "IOverlay.C73_round_join",
    "IOverlay.C73_miter",
    "IOverlay.C73_round_join_long"
   ],
   "note": "Exact arithmetic. The documented step of round joins is exceeded by up to 50%: C73_round_join_long."
  },
  {
   "property": "C74",
   "status": "proved",
   "theorems": [
    "IOverlay.C74_single_edges",
    "IOverlay.C74_single_region",
    "IOverlay.C74_many_edges",
    "IOverlay.C74_many_region",
    "IOverlay.C74_rectangle",
    "IOverlay.C74_default"
   ],
   "note": "Exact arithmetic for the style computations; adapter contract StrokeAdapter.Good; RegularPath / SidedPath exclude zero-length registered edges and chord-only contours (see C50, C52)."
  },
  {
   "property": "C75",
   "status": "proved",
   "theorems": [
    "IOverlay.C75_stroke_setters",
    "IOverlay.C75_stroke_angles",
    "IOverlay.C75_stroke_order",
    "IOverlay.C75_thin",
    "IOverlay.C75_width",
    "IOverlay.C75_outline_angles",
    "IOverlay.C75_outline_order",
    "IOverlay.C75_outline_nothing"
   ],
   "note": "Exact arithmetic."
  },
  {
   "property": "C76",
   "status": "proved",
   "theorems": [
    "IOverlay.C76_union",
    "IOverlay.C76_section",
    "IOverlay.C76_default"
   ],
   "note": "Exact arithmetic for the style computations; adapter contract StrokeAdapter.Good; half width over one grid unit; LongSections (for short sections the claim is false, C51_refuted_section)."
  },
  {
   "property": "C77",
   "status": "proved",
   "theorems": [
    "IOverlay.C77_single",
    "IOverlay.C77_many",
    "IOverlay.C77_default",
    "IOverlay.C77_room_convex"
   ],
   "note": "Exact arithmetic for the style computations; adapter contract StrokeAdapter.Good; RoomFor, RingApart; the contour hypotheses of C74."
  },
  {
   "property": "C78",
   "status": "proved",
   "theorems": [
    "IOverlay.C78_noded",
    "IOverlay.C78_ends",
    "IOverlay.C78_overlay",
    "IOverlay.C78_overlay_sum",
    "IOverlay.C78_contours",
    "IOverlay.C78_union",
    "IOverlay.C78_noded_lines",
    "IOverlay.C78_clip",
    "IOverlay.C78_slice"
   ],
   "note": "Same precision and cleaning of contours for whole and parts; strategies, trees and sorts may differ (FragOk as in C38); no area limit for the contours. To which outer contour a hole is attached is not part of the claim (C43)."
  },
  {
   "property": "C79",
   "status": "proved",
   "theorems": [
    "IOverlay.C79_net",
    "IOverlay.C79_net_string",
    "IOverlay.C79_reverse",
    "IOverlay.C79_chord"
   ],
   "note": "The contours that differ have no spikes (no two neighbouring edges fold back); the loop has at least two rounds, needed only if everything cancels."
  },
  {
   "property": "C80",
   "status": "proved",
   "theorems": [
    "IOverlay.C80_exact",
    "IOverlay.C80_exists",
    "IOverlay.C80_refine",
    "IOverlay.C80_slice"
   ],
   "note": "Contours not closed explicitly (C05), scaled coordinates within 30 bits, FragFor as in C38; the binder is assumed to find the nearest edge below (BindAssumed)."
  },
  {
   "property": "C81",
   "status": "proved",
   "theorems": [
    "IOverlay.C81_symmetry",
    "IOverlay.C81_flip",
    "IOverlay.C81_transpose",
    "IOverlay.C81_quarter"
   ],
   "note": "Contours not closed explicitly (C05), coordinates within 30 bits, FragFor as in C38; regions compared off the given edges."
  },
  {
   "property": "C82",
   "status": "proved",
   "theorems": [
    "IOverlay.C82_overlay",
    "IOverlay.C82_graph",
    "IOverlay.C82_no_crossing",
    "IOverlay.C82_slice",
    "IOverlay.C82_clip"
   ],
   "note": "Contours not closed explicitly (C05), coordinates within 30 bits, FragFor as in C38 (slicing and clipping with the other strategies: more than two edges after splitting, finding 8); the external cleaning of contours is assumed to add no points, as in C44."
  },
  {
   "property": "C83",
   "status": "proved",
   "theorems": [
    "IOverlay.C83_rings",
    "IOverlay.C83_evenOdd",
    "IOverlay.C83_exact",
    "IOverlay.C83_area",
    "IOverlay.C83_fixed"
   ],
   "note": "FragFor as in C38; the external cleaning of contours is assumed to leave contours alone that turn at every vertex."
  }
 ]
}