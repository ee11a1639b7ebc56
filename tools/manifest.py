#!/usr/bin/env python3
"""Writes MANIFEST.json. M: id -> (status, [theorems], note)."""
import json
N="IOverlay."
M={
"C02":("proved",["C02_kept_iff_boundary","C02_fill_top"],""),
"C03":("proved",["C03_fill_flags","C03_fill_flags_string","C03_fill_rule_meaning"],""),
"C04":("proved",["C04_contour_winding","C04_edges_nondegenerate","C04_overlay_winding"],""),
"C05":("partial",["C05_explicit_closing_refuted","C05_explicit_closing_partial"],"The claim is false of the code (a corner is cut off when the last point repeats the first): refuted by a kernel-checked witness; the partial theorem states exactly what is registered instead."),
"C06":("proved",["C06_degenerate_contour","C06_degenerate_input"],""),
"C07":("proved",["C07_rotation","C07_reversal","C07_fill_rules"],""),
"C08":("proved",["C08_merge","C08_merge_string","C08_overlay"],""),
"C09":("proved",["C09_order_independent","C09_interleaved"],""),
"C10":("proved",["C10_swap","C10_symmetric","C10_mirrored","C10_graph"],"Exact equality of the returned shapes."),
"C11":("proved",["C11_graph_filter","C68_prebuilt"],"C68_prebuilt: the lists of shapes are equal, not only the edges."),
"C12":("proved",["C12_noding","C12_noding_list"],"List, tree, and auto up to 16000 edges without condition; the fragment strategy under FragOk (all touches discoverable), without which it is false (C38_fragment_refuted)."),
"C13":("proved",["C13_balanced","C13_contours_stay_closed"],""),
"C14":("proved",["C14_exact_marks","C14_exact_split"],""),
"C15":("proved",["C15_marks","C15_no_degenerate_edges"],""),
"C39":("proved",["C39_sweep_fill","C39_sweep_fill_input","C39_sweep_fill_string"],"For every scan list (list or tree) satisfying the i_tree contract stated as ScanOracle.Ok."),
"C20":("proved",["C20_graph_nodes"],"For every sort of the edge ends (stable or not) that is a sorted permutation."),
"C40":("proved",["C40_even_degree","C40_even_degree_graph"],""),
"C41":("proved",["C41_overlay","C41_graph","C41_overlay_input","C41_overlay_limit"],"Minimum area 0; with a positive one C41_overlay_limit requires that no three edges of the result share their left end (otherwise the extraction can misclassify contours, see C24)."),
"C42":("proved",["C42_overlay","C42_graph"],"Interior = nonzero winding number; minimum area 0."),
"C26":("proved",["C26_bind"],"Stated for the sweep itself, for any floor and anchor edges that meet in end points only; that an extraction supplies such edges is part of the proof of C43."),
"C43":("partial",["C43_overlay_partial","C43_graph_partial","C43_succeeds_partial","C43_simplified_partial","C43_simplified_graph_partial","C43_clockwise_refuted","C43_simplified_refuted"],"Proved (one-shot and prebuilt graph) for counterclockwise output without simplification, and for clockwise output when each returned hole passes once through its leftmost vertex. With simplification, both directions: proved when the edges of the returned contours are different segments meeting in common ends only and each hole passes once through its leftmost vertex. False of the code otherwise: two kernel-checked whole runs give a hole to a shape that does not contain it."),
"C44":("proved",["C44_split","C44_overlay","C44_graph","C44_clip","C44_slice"],"The contour cleaning crate is assumed to return only points it was given."),
"C45":("proved",["C45_memory_safe","C45_memory_safe_string"],"Faults are a separate outcome of the implementation-level model (cursor over sorted marks, bins, buffer writes). BinLayout (external) is assumed to number bins from left to right."),
"C46":("partial",["C46_edges","C46_edges_graph","C46_paths_found","C46_complete_partial","C46_complete_graph_partial","C46_refuted_lost","C46_refuted_panic","C46_refuted_parent"],"Closed paths, truthful flags and no edge twice: unconditional. Completeness, sides and orientation: with at most four result edges going right from any point; false otherwise (C46_refuted_lost). Attaching holes to one of several shapes is wrong in the code (C46_refuted_panic, C46_refuted_parent)."),
"C47":("proved",["C47_separate"],""),
"C35":("proved",["C35_parallel_serial","C35_terminates"],"Any interleaving of the tasks; rayon's par_iter().map().collect() returns the results in the order of the groups (trusted)."),
"C36":("proved",["C36_fragments_cover","C36_no_overflow","C36_columns"],""),
"C37":("proved",["C37_snap_radius"],""),
"C38":("partial",["C38_strategies_agree_partial","C38_fragment_refuted","C38_fragment_strings_refuted","C38_tree_strings_refuted"],"All three strategies agree on boolean overlays, the fragment strategy provided every touch is discoverable (FragSafe, decidable by fragSafeB). The unconditional statement is false: a corner touching a vertical edge on a column border is missed (C38_fragment_refuted); for line clipping fragments miss overlaps and the tree strategy does not split two crossing lines (C38_fragment_strings_refuted, C38_tree_strings_refuted)."),
"C16":("proved",["C16_crossing_test","C16_collinear_flags"],""),
"C17":("proved",["C17_crossing_accuracy","C17_half_unit"],""),
"C18":("partial",["C18_division_partial","C18_rounding_refuted"],"False of the code: the remainder used for rounding is always zero for dividends >= 2^64, so the quotient is truncated. The partial theorem gives the exact value returned in all cases; the refutation is a kernel-checked witness."),
"C19":("proved",["C19_no_overflow","C19_bound_sharp"],""),
"C28":("proved",["C28_clip_rule"],""),
"C01":("proved",["C01_overlay","C01_graph","C01_overlay_input"],"For every point of the rational plane, by ray casting with half-open columns (so points on edges are covered too). External collections and the contour cleaning of i_shape enter as contracts (Assumed), shown satisfiable."),
"C21":("proved",["C21_edges_once","C21_edges_once_graph"],""),
"C22":("proved",["C22_terminates","C22_terminates_overlay"],"Fuel of the loops is linear in the number of edges; exhaustion would give none."),
"C24":("partial",["C24_area_filter","C24_area_filter_graph","C24_contours","C24_area_filter_partial","C24_area_filter_refuted"],"Proved exactly (the result is the result for area 0 without the contours that are too small, and the kept contours are those of the region) whenever no three edges of the result share their left end. The full claim is false of the code: after a contour that is too small another contour through the same vertex can be skipped or misclassified as a hole. Proved: among the walked contours exactly the large enough ones are returned; refuted by a kernel-checked witness that all are walked."),
"C25":("proved",["C25_join_sorted","C25_join_unsorted","C25_no_contour_lost"],""),
"C23":("proved",["C23_nearest","C23_order_independent","C23_walk_overlay","C23_walk_graph"],"Angles are real numbers in the specification (SweepAngle); candidates collinear with the incoming edge cannot occur in a noded graph, which is proved."),
"C27":("proved",["C27_string_path","C27_string_contour"],""),
"C29":("proved",["C29_walk","C29_clip","C29_clip_input","C29_routes","C29_clip_routes"],"C29_clip_routes relates the output to the user lines whatever rounding occurs. C29_clip_input restates it in terms of the user lines when no rounding occurs. With the tree strategy more than two edges after splitting are required (the loop stops at two)."),
"C30":("proved",["C30_slice_walks"],"For every run: the walks finish, and consume every filled (edge, side) pair exactly once; their total winding number is 1 inside and 0 outside. With the tree strategy more than two edges after splitting are required."),
"C31":("proved",["C31_split_loops","C31_winding","C31_slice"],"The hypothesis that no two points alternate is proved for every walk of every slice (C31_slice)."),
"C32":("partial",["C32_min_area_partial","C32_min_area_refuted"],"False of the code: the area test is inverted and not applied to the last loop of a walk. The partial theorem says exactly which loops are kept; the refutation is a kernel-checked whole run."),
"C33":("partial",["C33_none_iff_partial","C33_decompose_partial","C33_vertices_partial","C33_decompose_refuted"],"False of the code: the group of the largest point is never flushed (None although that point is repeated) and a point visited three times inside another loop loses vertices; both kernel-checked. Proved: the exact condition for None, and that the loops use every edge and vertex once and are simple (up to the largest point) when no two points alternate and no point but the first repeated one occurs more than twice."),
"C48":("proved",["C48_stroke","C48_outline"],"For every implementation of the floating point operations."),
"C49":("proved",["C49_stroke","C49_stroke_pieces","C49_stroke_covered","C49_stroke_edges"],"Registered edges of length zero excluded (with them the walk can be endless, C50). The minimum area of the filter is ignored by the code, which the model reproduces."),
"C50":("partial",["C50_stroke_panics","C50_stroke_terminates","C50_outline_terminates","C50_point_path","C50_point_outline","C50_refuted_endless","C50_refuted_endless_fixed"],"False of the code for edges of length zero (kernel-checked endless walk) and for open paths with fewer than two points. Proved: exact condition for the index panic, termination without edges of length zero."),
"C51":("proved",["C51_stroke","C51_outline","C51_outline_marks","C51_refuted_section"],"The stronger expectation that a stroke contains the rectangles of its sections is refuted by C51_refuted_section."),
"C52":("proved",["C52_outline_path","C52_outline_clockwise","C52_outline_part","C52_outline_degenerate","C52_outline_many"],"Several paths: list strategy and no crossing rounded, as the region is stated in terms of the shifted contours; single path: in terms of the noded edges, all strategies. At most two boundary edges going right from a point (cf. C24)."),
"C53":("proved",["C53_builder","C53_roles","C53_constructors","C53_simplify","C53_string_builder","C53_string_roles","C53_slice_clip"],"Exact equality of all results."),
"C54":("proved",["C54_resource","C54_builder","C54_overlay","C54_graph_single_simplify","C54_nesting","C54_order","C54_region","C54_strings"],"The adapter (i_float) and the cleaning of floating point contours (i_shape) are parameters."),
"C55":("proved",["C55_contours","C55_start","C55_extra_vertex","C55_reversal","C55_direction","C55_spike_start"],"For contours with spikes the start vertex does matter: C55_spike_start."),
"C56":("proved",["C56_overlay","C56_graph","C56_rectilinear","wholeCrossings_rectilinear"],"Coordinates within the range of C17; strategies as in C38."),
"C57":("proved",["C57_result","C57_again","C57_idempotent","C57_edges","C57_rectilinear","C57_expressions"],"The cleaning of contours (i_shape) is a parameter: no new points, edges run along the given ones."),
"C58":("proved",["C58_slice_contours","C58_slice_shapes","C58_slice_input","C58_slice_area","orderOk_area"],"is_clockwise_ordered (i_shape) is a parameter with contract OrderOk; the sign of the area meets it. With the tree strategy more than two edges after splitting are required."),
"C59":("proved",["C59_overlay","C59_graph","C59_slice"],"No area limit; OrderOk for slices."),
"C60":("proved",["C60_areas","C60_mono","C60_input","C60_again"],"totalArea is the sum of twice the signed areas (shoelace)."),
"C61":("proved",["C61_overlay","C61_graph","C61_again","C61_expressions"],"Counterclockwise output, min_area 0. split_once: one round suffices."),
"C62":("proved",["C62_rounds","C62_operation"],"Negative result (finding 17)."),
"C63":("proved",["C63_local","C63_edges","C63_high","drift_absolute"],"No area limit for the winding numbers. drift is the sum of the reaches of the rounds but the last."),
"C64":("proved",["C64_clip","C64_clip_kept","C64_slice"],"polysWind_const (winding numbers are constant along lines off the edges) is proved for the specification itself."),
"C65":("proved",["C65_noded","C65_ends","C65_overlay","C65_noded_lines","C65_clip","C65_slice","C65_shapes","C65_graph_shapes","C65_slice_lists","C65_clip_lists"],"Shift.lean: every phase up to the noded edges commutes with the translation, function by function."),
"C66":("proved",["C66_slice_extract","C66_slice_by","C66_slice_total"],"The sweep for holes is shown to find, for every hole, an outer contour with the same surroundings; no hypothesis on contours passing twice through a vertex is needed (slices never repeat a point)."),
"C67":("proved",["C67_slice_extract","C67_slice_by","C67_slice_total"],"Separation is stated with winding numbers of closed paths along the noded edges; any closed path for points of the same shape, simple polygons suffice for points of different shapes."),
"C68":("proved",["C68_determined","C68_graph","C68_prebuilt","C68_strategies"],"Equality of lists, not only of covered points; the oracles for cleaning, binding and sorting of hole segments must be the same functions in both runs. With min_area > 0 needs that no point is the left end of more than two edges of the result."),
"C69":("proved",["C69_canonical","C69_stable","C69_expressions","C69_not_fixed"],"Equality of lists. Simplifications share the oracles for cleaning, binding and sorting; min_area 0."),
"C70":("proved",["C70_local","C70_edges","C70_clip","C70_slice"],"Distances are in the maximum norm over the rationals. Assumes the adapter converts with errors ein, eout (Adapter.Faithful); clean_result off and min_area 0."),
"C71":("proved",["C71_no_clip","C71_same_twice","C71_nothing","C71_repeated","C71_one_reversed","C71_added_twice"],"Assumes the tree sees only the edges (TreeOracle.SeesEdges)."),
"C72":("proved",["C72_stroke_far","C72_stroke_edges","C72_rectangle","C72_custom_outside"],"Exact arithmetic for the style computations (floating point rounding before the grid is not modelled); adapter contract StrokeAdapter.Good; RegularStroke excludes zero-length registered edges (see C50)."),
"C73":("proved",["C73_section","C73_round_cap","C73_cap","C73_bevel","C73_round_join","C73_miter","C73_round_join_long"],"Exact arithmetic. The documented step of round joins is exceeded by up to 50%: C73_round_join_long."),
"C74":("proved",["C74_single_edges","C74_single_region","C74_many_edges","C74_many_region","C74_rectangle","C74_default"],"Exact arithmetic for the style computations; adapter contract StrokeAdapter.Good; RegularPath / SidedPath exclude zero-length registered edges and chord-only contours (see C50, C52)."),
"C75":("proved",["C75_stroke_setters","C75_stroke_angles","C75_stroke_order","C75_thin","C75_width","C75_outline_angles","C75_outline_order","C75_outline_nothing"],"Exact arithmetic."),
"C76":("proved",["C76_union","C76_section","C76_default"],"Exact arithmetic for the style computations; adapter contract StrokeAdapter.Good; half width over one grid unit; LongSections (for short sections the claim is false, C51_refuted_section)."),
"C77":("proved",["C77_single","C77_many","C77_default","C77_room_convex"],"Exact arithmetic for the style computations; adapter contract StrokeAdapter.Good; RoomFor, RingApart; the contour hypotheses of C74."),
"C78":("proved",["C78_noded","C78_ends","C78_overlay","C78_overlay_sum","C78_contours","C78_union","C78_noded_lines","C78_clip","C78_slice"],"Same precision and cleaning of contours for whole and parts; strategies, trees and sorts may differ (FragOk as in C38); no area limit for the contours. To which outer contour a hole is attached is not part of the claim (C43)."),
"C79":("proved",["C79_net","C79_net_string","C79_reverse","C79_chord"],"The contours that differ have no spikes (no two neighbouring edges fold back); the loop has at least two rounds, needed only if everything cancels."),
"C80":("proved",["C80_exact","C80_exists","C80_refine","C80_slice"],"Contours not closed explicitly (C05), scaled coordinates within 30 bits, FragFor as in C38; the binder is assumed to find the nearest edge below (BindAssumed)."),
"C81":("proved",["C81_symmetry","C81_flip","C81_transpose","C81_quarter"],"Contours not closed explicitly (C05), coordinates within 30 bits, FragFor as in C38; regions compared off the given edges."),
"C82":("proved",["C82_overlay","C82_graph","C82_no_crossing","C82_slice","C82_clip"],"Contours not closed explicitly (C05), coordinates within 30 bits, FragFor as in C38 (slicing and clipping with the other strategies: more than two edges after splitting, finding 8); the external cleaning of contours is assumed to add no points, as in C44."),
"C83":("proved",["C83_rings","C83_evenOdd","C83_exact","C83_area","C83_fixed"],"FragFor as in C38; the external cleaning of contours is assumed to leave contours alone that turn at every vertex."),
"C34":("proved",["C34_reverse_swaps","C34_vector_edge"],""),
}
ids=[json.loads(l)["id"] for l in open("/verif/properties.jsonl")]
out=[]
for i in ids:
    if i in M:
        s,t,n=M[i]; out.append({"property":i,"status":s,"theorems":[N+x for x in t],"note":n})
json.dump({"claims":out},open("/verif/MANIFEST.json","w"),indent=1)
print(len(out),"claims; missing:",[i for i in ids if i not in M])
