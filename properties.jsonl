{"id": "C01", "title": "Boolean overlay computes the boolean combination of the two filled regions", "statement": "For every set of subject contours and clip contours, every fill rule and every overlay rule, whenever overlay (min_area 0) returns, a point off the resulting edges lies inside an odd number of returned contours (outer boundaries and holes together) exactly when the overlay rule applied to 'inside subject' and 'inside clip' (by the fill rule on the winding numbers of the noded input edges) is true.", "quantifier": "all finite lists of subject/clip contours with arbitrary integer vertices (self-intersecting, overlapping, nested), 4 fill rules, 7 overlay rules, all query points in the plane off the edges with non-integral x", "why_tests_cant": "infinitely many polygons, self-intersections and query points; fixtures only sample a few polygons", "anchors": ["iOverlay/src/core/overlay.rs: Overlay::overlay_custom", "iOverlay/src/core/extract.rs: OverlayGraph::extract", "iOverlay/src/fill/solver.rs: FillSolver::solve", "iOverlay/src/core/link.rs: OverlayLinkBuilder"]}
{"id": "C02", "title": "An edge is kept by a rule exactly when it separates result from non-result", "statement": "For each overlay rule and every combination of in/out of subject and clip above and below an edge, the edge is kept iff the rule's truth value above differs from the one below; and for a kept edge the 'filled above' test used for hole detection equals the rule's value above.", "quantifier": "7 rules x 16 edge fills, for edges of any arrangement", "why_tests_cant": "the tests check final polygons, not the full table; a single wrong cell only shows up for special overlaps", "anchors": ["iOverlay/src/core/filter.rs: InclusionFilterStrategy, FillFilter", "iOverlay/src/core/overlay_rule.rs: OverlayRule::is_fill_top", "iOverlay/src/core/filter.rs: MaskFilter"]}
{"id": "C03", "title": "Fill rules mean what they are documented to mean", "statement": "The four in/out flags stored for an edge are the fill rule (odd / nonzero / positive / negative) applied to the subject and clip winding numbers of the two sides of the edge.", "quantifier": "all integer winding numbers (including negative and huge) of both shapes on both sides, 4 fill rules, boolean and string edges", "why_tests_cant": "winding numbers are unbounded; tests use a handful of values, negative odd numbers hit the bit trick (1 & w as u8)", "anchors": ["iOverlay/src/core/link.rs: EvenOddStrategy, NonZeroStrategy, PositiveStrategy, NegativeStrategy and the String variants"]}
{"id": "C04", "title": "Adding a contour registers exactly its winding number", "statement": "After adding a contour (not explicitly closed by repeating its first vertex), the winding number of every point of the plane computed from the stored edges equals the winding number of the closed polygon through the given points; no stored edge is degenerate.", "quantifier": "all contours of any length with any integer vertices incl. repeated points, spikes, collinear runs; all rational query points", "why_tests_cant": "collinear-run elimination has many cases depending on position of the start vertex; unit tests cover five tiny contours", "anchors": ["iOverlay/src/segm/build.rs: private_append_iter, Segment::with_ab", "iOverlay/src/core/overlay.rs: add_contour, add_path_iter"]}
{"id": "C05", "title": "Closing a contour explicitly must not change it", "statement": "Adding a contour whose last point repeats the first one registers the same winding numbers as adding it without the repetition ('doesn't require the start and endpoint to be the same').", "quantifier": "all contours with at least three points", "why_tests_cant": "needs quantification over all contours; no fixture repeats the end point", "anchors": ["iOverlay/src/segm/build.rs: private_append_iter", "iOverlay/src/float/overlay.rs: docs of Contour"]}
{"id": "C06", "title": "Degenerate contours contribute nothing", "statement": "A contour with fewer than two points, or all of whose points lie on one line, adds no edge, hence overlay of degenerate input is empty.", "quantifier": "all lists of collinear integer points of any length", "why_tests_cant": "unbounded number of collinear runs, back and forth moves", "anchors": ["iOverlay/src/segm/build.rs: private_append_iter", "iOverlay/src/core/link.rs: build_boolean"]}
{"id": "C07", "title": "The starting vertex and the direction of a contour do not matter beyond the sign", "statement": "Rotating the vertex list of a contour leaves all registered winding numbers unchanged; reversing it negates them; hence EvenOdd and NonZero regions are unaffected by both.", "quantifier": "all contours, all rotations, all query points", "why_tests_cant": "every rotation hits a different branch of the collinear elimination", "anchors": ["iOverlay/src/segm/build.rs: private_append_iter"]}
{"id": "C08", "title": "Coincident edges are merged by adding their counts", "statement": "After sorting and merging, there is one entry per distinct edge, the entries are sorted, and the count of each edge is the sum of the counts of all coincident input edges (edges with zero total are dropped whenever any merge took place).", "quantifier": "all lists of edges of any length with any multiplicities", "why_tests_cant": "merge compacts in place with two cursors; the number of duplicate patterns is unbounded", "anchors": ["iOverlay/src/segm/merge.rs: merge_if_needed, merge"]}
{"id": "C09", "title": "The order in which contours are added does not matter", "statement": "Adding the same contours in another order, or sorting with an unstable or parallel sort, leads to the same merged edge list and therefore to the same overlay result.", "quantifier": "all permutations of all edge lists, all outcomes of an unstable/parallel sort", "why_tests_cant": "schedules of rayon and unstable sort outcomes cannot be enumerated", "anchors": ["iOverlay/src/util/sort.rs: smart_bin_sort_by", "iOverlay/src/segm/merge.rs: merge", "iOverlay/src/split/solver.rs: split_segments"]}
{"id": "C10", "title": "Union, intersection and xor are symmetric; difference and inverse difference mirror each other", "statement": "Exchanging subject and clip leaves the returned shapes of Union, Intersect and Xor identical and turns Difference into InverseDifference and Subject into Clip.", "quantifier": "all inputs, 4 fill rules, all directions and area filters", "why_tests_cant": "relational property over pairs of runs on all inputs", "anchors": ["iOverlay/src/core/overlay.rs: ShapeType docs", "iOverlay/src/core/filter.rs", "iOverlay/src/core/overlay_rule.rs"]}
{"id": "C11", "title": "A prebuilt graph gives the same answers as the one-shot operation", "statement": "Extracting rule R from the graph built with into_graph keeps exactly the edges that the one-shot overlay with R keeps.", "quantifier": "all edge sets, all 7 rules", "why_tests_cant": "two separate code paths must agree for all inputs", "anchors": ["iOverlay/src/core/filter.rs: FillerFilter, filter_by_rule", "iOverlay/src/core/overlay.rs: into_graph", "iOverlay/src/core/extract.rs: extract_shapes_custom"]}
{"id": "C12", "title": "Noding: result edges only meet at common end points", "statement": "When the splitting phase finishes, any two different resulting edges have no common point except a common end point (for the fragment strategy: unless a touch is hidden from it, see C38).", "quantifier": "all overlay inputs with integer end points, all solver strategies, any number of snap rounds, any snap radius", "why_tests_cant": "crossing, touching and overlapping configurations are infinite; snapping moves vertices and can create new crossings", "anchors": ["iOverlay/src/split/solver_list.rs: list_split", "iOverlay/src/split/solver.rs: cross, apply", "iOverlay/src/split/cross_solver.rs: CrossSolver::cross", "iOverlay/src/split/solver_fragment.rs: fragment_split"]}
{"id": "C13", "title": "Noding keeps every contour closed", "statement": "Splitting (with or without rounding) preserves, at every vertex, that the signed number of edges leaving equals the number entering, so no gap is ever opened in a boundary.", "quantifier": "all closed inputs, any mark set produced, any number of rounds", "why_tests_cant": "needs an inductive invariant over rounds and marks", "anchors": ["iOverlay/src/split/solver.rs: apply, one_bin_merge, multi_split_edge", "iOverlay/src/segm/segment.rs: create_and_validate"]}
{"id": "C14", "title": "Noding without rounding does not move the boundary", "statement": "If every mark lies on its edge, the winding number of every point of the plane is the same before and after splitting.", "quantifier": "all edge sets, all exact mark sets, all query points", "why_tests_cant": "universally quantified over geometry", "anchors": ["iOverlay/src/split/solver.rs: apply"]}
{"id": "C15", "title": "No zero-length edges appear", "statement": "Every mark produced by the crossing test differs from both end points of the edge it splits and marks on one edge are distinct, so all edges produced are non-degenerate and ordered left to right.", "quantifier": "all pairs of edges with integer end points, any radius >= 1", "why_tests_cant": "rounding can land on an end point in rare configurations", "anchors": ["iOverlay/src/split/cross_solver.rs: middle_cross, collinear", "iOverlay/src/split/solver.rs: cross, apply"]}
{"id": "C16", "title": "The crossing test is exact", "statement": "For two non-degenerate edges the test reports: nothing iff they have no common point other than common end points (or are merely parallel); an end point touch iff an end of one lies strictly inside the other; overlay iff they are collinear, with precisely the end points strictly inside the other edge listed; and a crossing otherwise.", "quantifier": "all pairs of edges with integer coordinates", "why_tests_cant": "sign patterns times coordinates are unbounded", "anchors": ["iOverlay/src/split/cross_solver.rs: CrossSolver::cross, collinear"]}
{"id": "C17", "title": "A computed crossing point is within one unit of the true one and inside both bounding boxes", "statement": "For coordinates in the documented range (|c| < 2^30) the integer crossing point of two properly crossing edges differs from the exact rational intersection by less than 1 in each coordinate, lies within the bounding boxes of both edges, and is exact whenever the true intersection is an integer point; the divisions it uses are off by at most half a unit whenever the product fits 64 bits.", "quantifier": "all properly crossing pairs of edges", "why_tests_cant": "rounding for all slopes and magnitudes", "anchors": ["iOverlay/src/split/cross_solver.rs: cross_point"]}
{"id": "C18", "title": "128-bit division with rounding is exact", "statement": "The shift-subtract division returns the quotient rounded half up, for every 128-bit dividend and every divisor for which the quotient fits.", "quantifier": "all 64-bit divisors below 2^63 and 128-bit dividends with quotient below 2^64", "why_tests_cant": "2^191 inputs", "anchors": ["iOverlay/src/split/cross_solver.rs: RoundDivide::divide_with_rounding"]}
{"id": "C19", "title": "No integer overflow for documented coordinates", "statement": "With all coordinates strictly below 2^30 in absolute value (the documented range), every 64-bit intermediate of the orientation test, dot products, squared distances and of the crossing computation stays within i64/u64; the bound is sharp.", "quantifier": "all points with |x|,|y| < 2^30", "why_tests_cant": "extreme combinations are too many to test", "anchors": ["iOverlay/src/split/cross_solver.rs: cross_point (comment 'abs < 2^30')", "iOverlay/src/geom/v_segment.rs"]}
{"id": "C20", "title": "Graph nodes are exactly the distinct end points", "statement": "In the graph two edge ends carry the same node id iff they are the same point, and the node lists exactly the edges having an end there.", "quantifier": "all edge lists sorted by start point", "why_tests_cant": "two-pointer merge of two sorted lists over all lists", "anchors": ["iOverlay/src/core/graph.rs: build_nodes_and_connect_links", "iOverlay/src/core/node.rs"]}
{"id": "C21", "title": "Extraction uses every kept edge exactly once and all contours are closed", "statement": "The contours walked during extraction, put together, traverse each kept edge exactly once and nothing else; consecutive points of each contour are the ends of such an edge, cyclically.", "quantifier": "all graphs produced from noded input, all rules and directions", "why_tests_cant": "graph traversals with degree > 2 nodes; unbounded", "anchors": ["iOverlay/src/core/extract.rs: extract, get_contour, find_nearest_link_to, find_left_top_link"]}
{"id": "C22", "title": "Extraction always terminates and never gets stuck", "statement": "While walking a contour there is always an unused kept edge to continue with, so extraction finishes after at most as many steps as there are kept edges.", "quantifier": "all graphs produced from noded closed input", "why_tests_cant": "termination over all inputs", "anchors": ["iOverlay/src/core/extract.rs: get_contour", "iOverlay/src/core/extract.rs: find_nearest_link_to"]}
{"id": "C23", "title": "At a crossing the walk takes the first edge in rotation order", "statement": "Among the candidate edges at a node the chosen one is the first met when rotating from the incoming edge in the given direction, independently of the order in which candidates are listed.", "quantifier": "all sets of candidate directions around a node, both rotation directions", "why_tests_cant": "all angular configurations", "anchors": ["iOverlay/src/core/nearest_vector.rs: NearestVector", "iOverlay/src/core/extract.rs: find_nearest_link_to"]}
{"id": "C24", "title": "Area filter", "statement": "With a minimum area, a contour is returned iff it has at least three points after cleaning and its absolute area (halved, rounded down) is at least the minimum.", "quantifier": "all contours, all thresholds", "why_tests_cant": "all thresholds and polygons; boundary value", "anchors": ["iOverlay/src/core/extract.rs: Validate::validate"]}
{"id": "C25", "title": "Hole attachment loses and duplicates nothing", "statement": "Joining holes to shapes keeps every outer contour as first contour of its shape and puts each hole in exactly one shape (when there is at least one shape).", "quantifier": "all lists of outer contours and holes for which a parent is found", "why_tests_cant": "unbounded numbers of shapes and holes", "anchors": ["iOverlay/src/bind/solver.rs: join_sorted_holes, join_unsorted_holes, scan_join, private_solve"]}
{"id": "C26", "title": "A hole is attached to the shape of the nearest boundary below it", "statement": "The parent chosen for a hole is the shape owning the first boundary edge strictly below the hole's leftmost point (or the parent of the hole owning it).", "quantifier": "all noded sets of contours", "why_tests_cant": "sweep over unbounded inputs", "anchors": ["iOverlay/src/bind/solver.rs: ShapeBinder::private_solve"]}
{"id": "C27", "title": "Lines added as strings keep direction and are split into their segments", "statement": "Adding an open path registers one edge per pair of different consecutive points, with the direction flag telling whether the path runs left-to-right or right-to-left; closed string contours additionally register the closing edge.", "quantifier": "all paths of any length", "why_tests_cant": "all lengths and degenerate repetitions", "anchors": ["iOverlay/src/string/overlay.rs: add_string_line, add_string_path, add_string_contour"]}
{"id": "C28", "title": "Clip rule selects the documented parts of the lines", "statement": "A piece of string line is kept by clip (invert, boundary_included) iff (it counts as inside) differs from invert, where a piece counts as inside when the shape is filled on both sides, or on exactly one side (it runs along the boundary) and boundary_included is set.", "quantifier": "4 clip rules x all side fills of all edges", "why_tests_cant": "full table", "anchors": ["iOverlay/src/core/filter.rs: is_string_clip_*", "iOverlay/src/core/link.rs: build_string_with_clip_rule"]}
{"id": "C29", "title": "Clipping returns every kept piece once, in its original direction", "statement": "The returned polylines consist of exactly the kept directed pieces: each kept piece in each recorded direction occurs exactly once as a step of exactly one polyline, and every step is such a piece.", "quantifier": "all string graphs", "why_tests_cant": "walks in arbitrary multigraphs", "anchors": ["iOverlay/src/string/clip.rs: into_clip_string_lines, find_next_point, visit, visit_if_possible"]}
{"id": "C30", "title": "Slicing walks each side of an edge at most once and never gets stuck", "statement": "While extracting sliced shapes, each (edge, side) pair that is filled is consumed exactly once.", "quantifier": "all string graphs", "why_tests_cant": "walks in arbitrary graphs", "anchors": ["iOverlay/src/string/extract.rs: get_paths, find_nearest_link_to", "iOverlay/src/string/filter.rs: visit_fill, is_move_possible"]}
{"id": "C31", "title": "Loop splitting in slice keeps the boundary and yields simple loops", "statement": "Splitting a closed walk at repeated vertices yields loops without repeated vertices whose edges are the edges of the walk, apart from removed there-and-back spikes.", "quantifier": "all closed walks without interleaved repetitions", "why_tests_cant": "hash-map positions over all walks", "anchors": ["iOverlay/src/string/split.rs: split_loops"]}
{"id": "C32", "title": "Slice honours min_area", "statement": "With min_area > 0 slice returns no contour whose area is below min_area and drops none whose area is at least min_area.", "quantifier": "all slice results and thresholds", "why_tests_cant": "all thresholds", "anchors": ["iOverlay/src/string/split.rs: validate_area, split_loops", "iOverlay/src/string/extract.rs: extract_shapes_custom docs"]}
{"id": "C33", "title": "Contour decomposition", "statement": "decompose_contours of a contour with a repeated vertex returns simple loops that together use every vertex; it returns None only if there is no repeated vertex (or fewer than 3 points).", "quantifier": "all contours", "why_tests_cant": "all repetition patterns", "anchors": ["iOverlay/src/core/divide.rs: decompose_contours"]}
{"id": "C34", "title": "Vector edges report the fill relative to their direction", "statement": "Reversing an edge swaps its left and right fill flags, reversing twice is the identity, and an edge built from either end describes the same two sides.", "quantifier": "all 16 fills, all point pairs", "why_tests_cant": "full domain", "anchors": ["iOverlay/src/vector/edge.rs: Reverse, VectorEdge::new", "iOverlay/src/vector/extract_vectors.rs"]}
{"id": "C35", "title": "Parallel and serial fragment splitting agree", "statement": "Splitting the fragment groups in parallel yields the same list of marks and the same 'rounded' flag as doing it serially.", "quantifier": "all fragment groupings, all schedules of the parallel map", "why_tests_cant": "schedules cannot be enumerated", "anchors": ["iOverlay/src/split/solver_fragment.rs: parallel_split, serial_split, bin_split"]}
{"id": "C36", "title": "Grid fragments cover their segment", "statement": "The rectangles a segment is cut into cover every point of the segment, each inside its own grid column. A grid is laid out only over at least four units, its columns are at least two units wide, and the number of columns is at most about twice the root of the number of edges.", "quantifier": "all segments and grid layouts", "why_tests_cant": "fixed point arithmetic over all slopes", "anchors": ["iOverlay/src/split/grid_layout.rs: add_segment, add_horizontal, GridLayout"]}
{"id": "C37", "title": "Snap radius growth", "statement": "The snap radius starts at 2^start and is multiplied by 2^progression per round; for start <= 60 it never decreases, is always positive and never exceeds 2^60.", "quantifier": "all precisions with start <= 60 and all round counts", "why_tests_cant": "unbounded rounds; shift overflow", "anchors": ["iOverlay/src/split/snap_radius.rs", "iOverlay/src/core/solver.rs: Precision"]}
{"id": "C38", "title": "All splitting strategies node the same way", "statement": "The result does not depend on the chosen solver strategy (list, tree, fragment).", "quantifier": "all inputs, all strategies", "why_tests_cant": "relational over all inputs", "anchors": ["iOverlay/src/split/solver.rs: split", "iOverlay/src/split/solver_tree.rs", "iOverlay/src/split/solver_fragment.rs"]}
{"id": "C39", "title": "Sweep fill is correct", "statement": "The winding numbers the sweep assigns to the two sides of each edge are the ray-casting winding numbers just below and just above it.", "quantifier": "all noded closed sorted edge lists", "why_tests_cant": "sweep invariant over unbounded inputs", "anchors": ["iOverlay/src/fill/solver.rs: FillSolver::solve", "iOverlay/src/geom/v_segment.rs"]}
{"id": "C40", "title": "Every node has an even number of kept edges", "statement": "For every rule, the number of kept edges meeting at any vertex is even.", "quantifier": "all noded closed inputs, all rules and fill rules", "why_tests_cant": "global property of arrangements", "anchors": ["iOverlay/src/core/filter.rs", "iOverlay/src/core/graph.rs"]}
{"id": "C41", "title": "Contours are oriented as requested", "statement": "With no minimum area, every returned outer contour winds around any point at most once and in the requested main direction, every returned hole winds at most once in the opposite direction, and all returned contours together have winding number one (in the requested direction) exactly at the points where the overlay rule holds and zero elsewhere.", "quantifier": "all subject and clip contour lists, fill rules, overlay rules, output directions, all points of the plane", "why_tests_cant": "global topological statement over all inputs and all points", "anchors": ["iOverlay/src/core/extract.rs: GraphUtil::find_left_top_link, OverlayGraph::extract, StartPathData::new", "iOverlay/src/core/options.rs: output_direction"]}
{"id": "C42", "title": "Returned contours never cross", "statement": "With no minimum area, any two returned contours either have disjoint interiors or the interior of one contains the interior of the other.", "quantifier": "all inputs, rules and directions, all pairs of returned contours, all points", "why_tests_cant": "relation between all pairs of contours of every output", "anchors": ["iOverlay/src/core/extract.rs: OverlayGraph::extract", "iOverlay/src/core/nearest_vector.rs"]}
{"id": "C43", "title": "Holes lie in their shape; shapes do not overlap", "statement": "With no minimum area, in every returned shape each hole lies inside the outer contour, holes of one shape do not overlap, every shape covers each point at most once, and no point is covered by two different shapes.", "quantifier": "all subject and clip contour lists, fill rules, overlay rules, output directions, all points of the plane", "why_tests_cant": "global topological statement over all inputs, all points and all pairs of shapes", "anchors": ["iOverlay/src/bind/solver.rs: ShapeBinder::bind, JoinHoles", "iOverlay/src/bind/segment.rs", "iOverlay/src/core/extract.rs: OverlayGraph::extract"]}
{"id": "C44", "title": "Results stay inside the input's bounding box", "statement": "If all input coordinates lie in the documented range and in some axis-aligned rectangle, then all edges produced by splitting (rounding included), all vertices of all returned contours (one-shot overlay or prebuilt graph) and all vertices of clipped polylines lie in the same rectangle; in particular no round of splitting leaves the coordinate range.", "quantifier": "all inputs, rectangles containing them, rules, strategies, precisions and numbers of splitting rounds", "why_tests_cant": "intersection points are rounded and re-split in rounds; the bound must hold for every rounding and any number of rounds", "anchors": ["iOverlay/src/split/cross_solver.rs: CrossSolver", "iOverlay/src/split/solver.rs: SplitSolver", "iOverlay/src/core/extract.rs", "iOverlay/src/string/clip.rs"]}
{"id": "C45", "title": "Splitting never touches memory out of bounds", "statement": "For coordinates in the documented range, the splitting phase (all strategies, any number of rounds, any sort and any left-to-right bin layout) never reads or writes outside its buffers, bins and fragment groups although these are accessed without bounds checks, every slot of the output buffer is filled, and the bucket-based implementation returns exactly the edges obtained by plainly splitting every edge at its marks, sorting and merging.", "quantifier": "all subject and clip contours / lines with coordinates below 2^30 in absolute value, strategies, snap radii, numbers of rounds, sorts and bin layouts", "why_tests_cant": "undefined behaviour of unchecked accesses must be excluded for every input, bin layout and round; a test shows it only if the corruption happens to be visible", "anchors": ["iOverlay/src/split/solver.rs: SplitSolver::apply, init_bins, one_bin_merge, multi_split_edge, sort_and_filter_marks", "iOverlay/src/split/grid_layout.rs: FragmentBuffer::insert"]}
{"id": "C46", "title": "Vector shapes are the boundary of the result with truthful side flags", "statement": "into_shape_vectors / extract_shape_vectors return closed paths made of boundary edges of the result; the four flags of each edge say on which sides the subject and the clip shape are filled; no edge is returned twice. Moreover (proved for results with at most four edges going right from any point) every boundary edge is returned exactly once, the result lies on the right of every edge, each shape is an outer path winding clockwise followed by holes winding counter-clockwise, paths are nested or disjoint and together wind around exactly the points of the result. The full claim - for every result, with every hole in the shape around it and without panic - is false (a triangle is lost; a hole is attached to a shape that does not contain it; a panic).", "quantifier": "all subject and clip contours, fill rules, overlay rules, strategies and precisions", "why_tests_cant": "the walk depends on the order of all links at shared vertices; missing paths appear only for particular arrangements of three or more contours", "anchors": ["iOverlay/src/vector/extract_vectors.rs: extract_shape_vectors, get_vector_path, join, scan_join", "iOverlay/src/bind/segment.rs: IdSegments for VectorPath", "iOverlay/src/core/overlay.rs: into_shape_vectors"]}
{"id": "C47", "title": "Separate vectors list every noded edge once with truthful side flags", "statement": "into_separate_vectors lists every edge of the arrangement of subject and clip edges exactly once, directed from left to right, in sorted order; two listed edges meet at most in common end points; the flags of each edge say on which of its sides the subject and the clip shape are filled.", "quantifier": "all subject and clip contours, fill rules, strategies and precisions", "why_tests_cant": "must hold at every point of every edge of every arrangement", "anchors": ["iOverlay/src/vector/extract_vectors.rs: extract_separate_vectors", "iOverlay/src/core/overlay.rs: into_separate_vectors", "iOverlay/src/core/link.rs: build_boolean_all"]}
{"id": "C48", "title": "Strokes and outlines register closed contours", "statement": "For every style, join and cap, the edges registered for a stroke of any paths, or for an outline of any path, form closed contours: at every grid point as many edges arrive as leave. Hence the region of a stroke or outline is well defined whatever the floating point arithmetic does.", "quantifier": "all paths, styles, caps, joins; every implementation of the floating point operations", "why_tests_cant": "must hold for every path including repeated points, reversals and arbitrary rounding of the arithmetic", "anchors": ["iOverlay/src/mesh/stroke/builder.rs: open_segments, closed_segments", "iOverlay/src/mesh/stroke/builder_join.rs", "iOverlay/src/mesh/stroke/builder_cap.rs", "iOverlay/src/mesh/outline/builder.rs: build", "iOverlay/src/mesh/outline/builder_join.rs"]}
{"id": "C49", "title": "A stroke is the union of its pieces, with oriented nested contours", "statement": "stroke / stroke_custom return the set of points around which the rectangles of the sections, the joints and the caps of all paths together wind positively: all returned contours together wind around its points exactly once in the requested direction and not at all around other points; each shape is an outer contour followed by holes; contours are nested or disjoint; every boundary edge is returned exactly once; no point outside the pieces is covered.", "quantifier": "all paths and styles whose registered edges are not degenerate; all output directions", "why_tests_cant": "must hold at every point of the plane for every path and style", "anchors": ["iOverlay/src/mesh/stroke/offset.rs: stroke_custom", "iOverlay/src/mesh/boolean.rs: offset_graph_with_solver, extract_offset"]}
{"id": "C50", "title": "Strokes and outlines terminate without panicking", "statement": "stroke and outline never panic and always terminate; degenerate paths (all points equal on the grid) contribute nothing. Proved: registering the edges of a stroke panics exactly for open paths with fewer than two points; the graph is built and all walks end if no registered edge has length zero. The full claim is false: edges of length zero (custom caps, negative width, tiny radius) make the walk endless.", "quantifier": "all paths, styles, directions and minimum areas", "why_tests_cant": "termination of the walk depends on every arrangement of edges", "anchors": ["iOverlay/src/mesh/stroke/builder.rs", "iOverlay/src/mesh/boolean.rs: extract_offset_shapes, get_fill_path", "iOverlay/src/mesh/outline/builder.rs"]}
{"id": "C51", "title": "The edges of a stroke or outline are those of its pieces", "statement": "The winding number of the registered edges of a stroke is at every point the sum of the winding numbers of the rectangles of the sections, the joints between them (bevel, miter or round, only on the outer side of a turn) and the caps; for an outline it is that of the shifted contour. Every registered edge joins two consecutive vertices of a piece, and the extra vertices of the joints are exactly the tip or the two prolonged sides of a miter, or the points of the arc. (That the stroke contains every rectangle is false: at sections shorter than the width there are notches.)", "quantifier": "all paths and styles; every point of the plane; every implementation of the floating point operations", "why_tests_cant": "must hold for every sequence of sections and joints at every point", "anchors": ["iOverlay/src/mesh/stroke/builder.rs", "iOverlay/src/mesh/stroke/builder_join.rs", "iOverlay/src/mesh/stroke/builder_cap.rs", "iOverlay/src/mesh/outline/builder.rs"]}
{"id": "C52", "title": "An outline consists of the contours of the shifted shape", "statement": "outline / outline_custom of a counterclockwise path return exactly those contours of the region where the shifted contour winds positively that have an edge on a shifted side and are at least as large as the minimum area (at least one unit); a single clockwise or degenerate path gives nothing. For several paths the region consists of the points in more shifted outer paths than shifted holes; degenerate paths are ignored. Outer contours are oriented as requested, holes opposite; contours are nested or disjoint.", "quantifier": "all paths and styles with non-degenerate edges whose region has at most two boundary edges going right from any point; all directions and minimum areas", "why_tests_cant": "must hold at every point of the plane for every path and style", "anchors": ["iOverlay/src/mesh/outline/offset.rs: outline_custom", "iOverlay/src/mesh/boolean.rs", "iOverlay/src/mesh/outline/builder.rs"]}
{"id": "C53", "title": "Grouping and order of the calls that add geometry do not matter", "statement": "Two sequences of add_contour, add_contours, add_shape, add_shapes, add_path_iter calls that hand over the same contours with the same roles, in any order and grouping, give identical results: overlay shapes for every rule, direction and area limit, graph, shape vectors and separate vectors; so do the constructors with_contour(s), with_shapes. The four simplify implementations are the rule Subject on the given contours. The same for StringOverlay: shape contours, lines, paths and string contours in any order give identical clipped lines, graph and slices; the slice_by_* and clip_* functions of all shape types slice or clip the contours of the shape by the given lines.", "quantifier": "all sequences of builder calls, all rules, directions, area limits and solvers", "why_tests_cant": "must hold for every permutation and grouping of every input", "anchors": ["iOverlay/src/core/overlay.rs: Overlay", "iOverlay/src/core/simplify.rs", "iOverlay/src/string/overlay.rs: StringOverlay", "iOverlay/src/string/slice.rs", "iOverlay/src/string/clip.rs: IntClip"]}
{"id": "C54", "title": "Floating point operations are the integer operations on rounded coordinates", "statement": "FloatOverlay, FloatOverlayGraph, SingleFloatOverlay, SimplifyShape, FloatClip and FloatSlice return what the integer operation returns for the input rounded by the adapter computed from all input points, converted back (and cleaned if the filter says so). A loop over a resource (path, paths, groups of paths, empty groups included) sees every path once in order. Resources with the same paths give the same result however they are nested, and, if the adapter does not depend on the order of the points, in whatever order the paths are. If integer points survive conversion to floating point and back, the region of the rounded result is the boolean combination of the regions of the rounded input.", "quantifier": "all resources, adapters, rules, filters and solvers", "why_tests_cant": "must hold for every nesting and every adapter", "anchors": ["iOverlay/src/float/overlay.rs", "iOverlay/src/float/graph.rs", "iOverlay/src/float/single.rs", "iOverlay/src/float/simplify.rs", "iOverlay/src/float/clip.rs", "iOverlay/src/float/slice.rs", "iOverlay/src/float/string_overlay.rs", "iOverlay/src/float/string_graph.rs", "iOverlay/src/float/source/single.rs", "iOverlay/src/float/source/double.rs", "iOverlay/src/float/source/triple.rs"]}
{"id": "C55", "title": "Start vertex, vertices on edges and the common direction of the contours do not matter", "statement": "Contours with the same corners in the same cyclic order (another start vertex, extra or missing vertices inside edges) give identical results: overlay shapes for every rule, direction and area limit, graphs and vectors. Reversing all contours gives identical results with the fill rules Positive and Negative exchanged; so EvenOdd and NonZero results do not depend on the common direction.", "quantifier": "all contours without spikes and repeated points (for the start vertex), all contours (for the reversal), all rules, directions, area limits and solvers", "why_tests_cant": "must hold for every rotation, refinement and reversal of every input", "anchors": ["iOverlay/src/segm/build.rs: BuildSegments", "iOverlay/src/fill/solver.rs"]}
{"id": "C56", "title": "Operations are exact when edges cross in whole points", "statement": "If the edges of the given contours cross in whole points only, as those of contours with horizontal and vertical edges always do, the result of every boolean operation winds once around exactly the points of the boolean combination of the given contours and zero times around the others, whatever strategy, precision and snapping radius is chosen, in one shot and from a prebuilt graph.", "quantifier": "all such contours, all fill rules, overlay rules, directions, strategies and precisions", "why_tests_cant": "must hold at every point of the plane for every arrangement", "anchors": ["iOverlay/src/split/cross_solver.rs: CrossSolver", "iOverlay/src/split/solver.rs", "iOverlay/src/split/snap_radius.rs", "iOverlay/src/core/overlay.rs: Overlay"]}
{"id": "C57", "title": "Results can be processed again without loss", "statement": "The contours of every result, whatever rounding the operation did, meet in whole points only, so every further operation on that result alone is exact: simplified again (EvenOdd or NonZero) it covers the same points in the same direction, with any solver. If the crossings of the given contours are whole, every edge of the result lies on given edges; results for contours with horizontal and vertical edges have such edges again, so whole expressions of boolean operations on such contours are computed exactly.", "quantifier": "all contours in range, all rules, directions, area limits and solvers of both operations; all expressions", "why_tests_cant": "must hold for every sequence of operations at every point of the plane", "anchors": ["iOverlay/src/core/overlay.rs: Overlay", "iOverlay/src/core/extract.rs: OverlayGraph", "iOverlay/src/core/simplify.rs", "iOverlay/src/split/solver.rs"]}
{"id": "C58", "title": "Slicing returns properly turned, simple, uncut pieces that cover the shape exactly", "statement": "The shapes returned by slicing with lines are counterclockwise outer contours followed by clockwise holes; every contour winds at most once around any point, repeats no point and runs along pieces of the shape's edges and the cutting lines; together they wind exactly once around every point of the shape and not at all around the others; contours are disjoint or nested, also with every closed polygon drawn along the shape's edges and the cutting lines, so no piece needs to be cut any further. If the crossings are whole points, the pieces cover exactly the given shape and their areas add up to its area.", "quantifier": "all shapes, cutting lines and closed cutting contours, fill rules, strategies and precisions", "why_tests_cant": "must hold for every arrangement of lines and every point of the plane", "anchors": ["iOverlay/src/string/extract.rs: StringGraph::extract_shapes_custom", "iOverlay/src/string/split.rs: Split", "iOverlay/src/string/slice.rs", "iOverlay/src/string/graph.rs"]}
{"id": "C59", "title": "No returned contour has area zero; signs of areas tell outer contours and holes apart", "statement": "For every boolean operation, extraction from a graph, and slice, the signed area of every outer contour is positive if counterclockwise output is requested and negative otherwise, and that of every hole has the opposite sign; none is zero.", "quantifier": "all inputs, rules, directions, strategies and precisions (no area limit)", "why_tests_cant": "must hold for every contour of every result, including degenerate input", "anchors": ["iOverlay/src/core/extract.rs: OverlayGraph", "iOverlay/src/string/extract.rs: StringGraph"]}
{"id": "C60", "title": "Areas of results add up", "statement": "For one input, whatever rounding was necessary: area(union) + area(intersection) = area(subject) + area(clip); area(difference) + area(intersection) = area(subject); likewise for the inverse difference; area(xor) = area(difference) + area(inverse difference). A result selected by a stronger rule has no larger area, and equal area only if it covers the same points. If crossings are whole points, the areas are those of the given contours; processing a result again keeps its area.", "quantifier": "all inputs, fill rules, directions, strategies and precisions, one-shot operations and prebuilt graphs in any mixture", "why_tests_cant": "an equation between the results of several operations on every input", "anchors": ["iOverlay/src/core/overlay.rs: Overlay", "iOverlay/src/core/extract.rs: OverlayGraph", "iOverlay/src/core/overlay_rule.rs"]}
{"id": "C61", "title": "Without rounding every operation returns, and returns the exact result", "statement": "If the edges of the given contours cross in whole points only, every boolean operation (in one shot or from a prebuilt graph) returns after one round of splitting: a result is always produced, it winds once around exactly the points of the boolean combination and is well formed. For contours with horizontal and vertical edges every expression of boolean operations, however deeply nested, is evaluated to the end, and covers exactly the points selected by the expression.", "quantifier": "all such contours, fill rules, overlay rules, strategies and precisions (counterclockwise output, no area limit); all expressions of any depth", "why_tests_cant": "totality over all inputs: a test shows only that some inputs return", "anchors": ["iOverlay/src/split/solver.rs: SplitSolver", "iOverlay/src/core/overlay.rs: Overlay::overlay", "iOverlay/src/core/extract.rs: OverlayGraph::extract_shapes"]}
{"id": "C62", "title": "With Precision::ABSOLUTE the number of splitting rounds is bounded by no function of the number of edges", "statement": "With a constant snap radius of 1 (Precision::ABSOLUTE) there is, for every number N of rounds up to a quarter of the coordinate range, a contour with four points for which splitting has not ended after N rounds, with the list and the tree strategy; so time and memory of an operation on four points grow with the coordinates, not with the input.", "quantifier": "all N, all strategies but fragments, all trees meeting their contract, all fill and overlay rules", "why_tests_cant": "a statement about every number of rounds", "anchors": ["iOverlay/src/core/solver.rs: Precision::ABSOLUTE", "iOverlay/src/split/solver_list.rs: list_split", "iOverlay/src/split/solver_tree.rs: tree_split", "iOverlay/src/split/snap_radius.rs"]}
{"id": "C63", "title": "Rounding is local: far from the given edges every boolean operation is exact", "statement": "When crossings have to be rounded to integer points, the effect is confined to a neighbourhood of the given edges. If splitting ends within n rounds, every point farther (in the maximum norm) from every given edge than the sum over the first n-1 rounds of (floor of the square root of the snap radius, plus one) is classified exactly: the result winds once around it if the overlay rule holds for its membership in subject and clip under the fill rule, and not at all otherwise. Every point of every edge of the result is within that distance of a given edge. With the default precision that is 0, 2, 4 and 7 units for 1, 2, 3 and 4 rounds.", "quantifier": "all contours within the coordinate range (not closed explicitly), all overlay and fill rules, directions, strategies and precisions, one-shot and via graph; the edge bound also with an area limit", "why_tests_cant": "rounded crossings can cascade through rounds; a bound for every arrangement cannot be tested", "anchors": ["iOverlay/src/split/solver.rs: SplitSolver::split_segments", "iOverlay/src/split/cross_solver.rs: CrossSolver", "iOverlay/src/split/snap_radius.rs: SnapRadius", "iOverlay/src/core/overlay.rs: Overlay::overlay"]}
{"id": "C64", "title": "Rounding is local for clipping and slicing too", "statement": "Let d be the distance of C63. Clipping: every point of a returned line is within d of a given line, and if it is farther than d from the edges of the shape it is inside the given shape (outside if invert is set); conversely, if a point of a given line is farther than 2d from the edges of the shape and inside it (outside if invert is set), a returned line passes within d of it. Slicing: the pieces wind exactly once around every point inside the given shape and not at all around the others, for all points farther than d from the edges of the shape (cutting lines move nothing), and every edge of a piece is within d of an edge of the shape or of a cutting line.", "quantifier": "all shapes, open and closed lines within the coordinate range, all fill and clip rules, strategies and precisions (for strategies other than list more than two edges after splitting)", "why_tests_cant": "lines and shape edges move each other through several rounds; the bound concerns every arrangement and every point of the plane", "anchors": ["iOverlay/src/string/overlay.rs: StringOverlay", "iOverlay/src/string/clip.rs: StringGraph::clip_string_lines", "iOverlay/src/string/slice.rs: IntSlice", "iOverlay/src/split/solver.rs: SplitSolver::split_segments"]}
{"id": "C65", "title": "Moving the input moves the result", "statement": "Adding a whole-numbered vector to every point of the input changes nothing but the position of the result, although crossings are rounded: splitting ends for the moved contours iff it ends for the given ones, its edges are the given run's edges moved; the returned list of shapes is the given run's list moved, contour for contour and point for point (also with an area limit and from a prebuilt graph, if the external sorts and searches see relative positions only); without assumptions on those, a result for the moved contours winds around a moved point exactly as a result for the given contours winds around the point; clipping returns the same lines and slicing the same pieces, moved, point for point (under the same condition); without it, clipping returns the same directed pieces of lines, moved, and the pieces of a moved shape cut by moved lines cover the moved points as the given pieces cover the points. The two runs may use different strategies and the one-shot or the graph interface, but the same precision.", "quantifier": "all contours, lines and vectors (moved and unmoved coordinates in range), all overlay, fill and clip rules, directions, precisions and pairs of strategies (for lines and strategies other than list more than two edges after splitting)", "why_tests_cant": "rounding or comparisons that depend on absolute positions show up only for particular coordinates", "anchors": ["iOverlay/src/split/cross_solver.rs: CrossSolver::cross_point", "iOverlay/src/split/solver.rs: SplitSolver::split_segments", "iOverlay/src/core/overlay.rs: Overlay::overlay", "iOverlay/src/string/clip.rs", "iOverlay/src/string/slice.rs"]}
{"id": "C66", "title": "Slicing always returns, and its shapes are proper", "statement": "Whenever the splitting phase returns, slicing a shape by open and closed lines returns shapes (no panic while loops are split, classified and holes attached), in either output direction: every shape is an outer contour followed by holes turning the other way, the holes lie inside the outer contour and do not overlap each other, every point is covered at most once by a shape and by at most one shape, and the shapes together cover exactly the points inside. If the edges of the shape and the cutting lines cross in whole points only, splitting returns too and the points covered are exactly those inside the given shape.", "quantifier": "all shapes, open and closed cutting lines, fill rules, directions, precisions and strategies (for strategies other than list more than two edges after splitting), with min_area 0", "why_tests_cant": "a hole of a piece may be bounded by edges shared with other pieces, nested in any depth; attaching it to the wrong piece or failing to find one depends on the whole arrangement", "anchors": ["iOverlay/src/string/extract.rs: StringGraph::extract_shapes_custom", "iOverlay/src/string/slice.rs: IntSlice", "iOverlay/src/bind/solver.rs: JoinHoles::join_unsorted_holes, left_bottom_segment", "iOverlay/src/bind/segment.rs: append_id_segments", "iOverlay/src/string/split.rs: split_loops"]}
{"id": "C67", "title": "Slicing cuts exactly along the lines", "statement": "Whenever the splitting phase returns, the shapes returned by slicing are the cells cut out by the split edges of the shape and of the cutting lines, in either output direction: no closed path drawn along these edges separates two points of the same returned shape (winds differently around them), and two points inside that no polygon drawn along these edges separates are covered by the same returned shape. If the edges of the shape and the cutting lines cross in whole points only, slicing returns, and these edges are the given ones cut where they meet: every edge lies on a given edge or line, two edges meet only at ends, every point of every cutting line lies on one of them.", "quantifier": "all shapes, open and closed cutting lines, fill rules, directions, precisions and strategies (for strategies other than list more than two edges after splitting), all pairs of points and all closed paths, with min_area 0", "why_tests_cant": "whether two points end up in the same piece depends on every line of the arrangement (dangling lines, bridges to holes, lines touching at vertices); a sample of points of sample inputs cannot show that no piece is joined or split wrongly", "anchors": ["iOverlay/src/string/extract.rs: StringGraph::extract_shapes_custom", "iOverlay/src/string/slice.rs: IntSlice", "iOverlay/src/bind/solver.rs: JoinHoles::join_unsorted_holes", "iOverlay/src/string/split.rs: split_loops"]}
{"id": "C68", "title": "The returned list of shapes is determined by the edges of the result", "statement": "Two overlays, of whatever contours, rules, fill rules and strategies, whose results have the same boundary edges return exactly the same list: the same shapes in the same order, the same contours from the same start points. Hence extracting a rule from a prebuilt graph and the one-shot overlay are the same function (one returns iff the other does, and they return equal lists), and all splitting and fill strategies return equal lists.", "quantifier": "all contours, fill rules, overlay rules, output directions, strategies, precisions; min_area 0, or any min_area if no point is the left end of more than two edges of the result", "why_tests_cant": "the graph carries edges the rule leaves out and other node types (cross, bridge, end), so the walk takes different branches; equality of the outputs must hold for every arrangement", "anchors": ["iOverlay/src/core/extract.rs: OverlayGraph::extract_shapes, GraphUtil::find_left_top_link", "iOverlay/src/core/overlay.rs: Overlay::overlay, Overlay::build_graph_view", "iOverlay/src/core/link.rs"]}
{"id": "C69", "title": "Simplification is a normal form of results", "statement": "Whatever two operations produced them, two results that go around the same points (apart from points on edges) become exactly the same list when each is simplified (subject rule, even-odd or non-zero, same output direction): same shapes in the same order, same contours, same start points. A simplified result is not changed by simplifying it again. Two expressions of overlay operations on contours with horizontal and vertical edges that select the same points (e.g. (A or B) or C and A or (B or C)) give equal lists once simplified. A result that has not been simplified need not be a fixed point.", "quantifier": "all contours with coordinates in range, overlay rules, fill rules, strategies, precisions, output directions; min_area 0", "why_tests_cant": "the same region can be returned cut into different contours with different extra vertices, depending on the inputs; that the second pass removes all such traces must hold for every arrangement", "anchors": ["iOverlay/src/core/simplify.rs", "iOverlay/src/core/extract.rs: OverlayGraph::extract_shapes", "iOverlay/src/segm/build.rs: append_closed_path", "iOverlay/src/split/solver.rs"]}
{"id": "C70", "title": "Floating point operations are right except close to the given edges", "statement": "An overlay, clip or slice of floating point contours (one-shot or through a graph) is wrong at most close to the given edges. With D = (drift + ein + eout) / scale, where drift bounds how far splitting moves edges on the integer grid and ein, eout are the rounding errors of the conversions to and from it: every point of an edge of the result lies within D of a given edge; and around every rational point further than D from all given edges the result winds once (in the chosen direction) if the rule selects the point and not at all otherwise. A clipped line stays within D of the given lines and, away from the shape's edges, on the chosen side; slicing keeps the filled points away from the given edges covered exactly once.", "quantifier": "all floating point contours and lines whose integer images are in range, all rules, strategies, precisions and output directions, all points of the rational plane; clean_result off, min_area 0", "why_tests_cant": "the error of every rounding in the pipeline has to be bounded for every input at once, and the covered points are checked over a continuum", "anchors": ["iOverlay/src/float/overlay.rs", "iOverlay/src/float/graph.rs", "iOverlay/src/float/clip.rs", "iOverlay/src/float/slice.rs", "iOverlay/src/split/solver.rs", "iOverlay/src/core/extract.rs"]}
{"id": "C71", "title": "Laws of set algebra hold for the returned lists, rounding included", "statement": "Equal sets give equal answers, as lists of contours and not only up to rounding. Without clip contours union, difference and xor return the simplification of the subject, and intersection, clip and inverse difference return the empty list. A shape united or intersected with itself returns its simplification; its difference and xor with itself return the empty list. Adding every subject contour m times and every clip contour n times changes nothing (EvenOdd: for odd m and n). Reversing all subject contours, or all clip contours, changes nothing with EvenOdd or NonZero (for contours without spikes). With EvenOdd, adding the clip contours also to the subject exchanges the subject and xor results.", "quantifier": "all contours, clip contours, repetition counts, rules, strategies, precisions, output directions and min_area", "why_tests_cant": "the equations relate runs on different edge lists (different counts, different merge order) and must hold on every input although every run rounds its crossings", "anchors": ["iOverlay/src/core/overlay.rs", "iOverlay/src/build/boolean.rs", "iOverlay/src/segm/build.rs", "iOverlay/src/segm/merge.rs", "iOverlay/src/split/solver.rs", "iOverlay/src/core/extract.rs"]}
{"id": "C72", "title": "A stroke stays within the reach of its style", "statement": "A stroke covers no point, and returns no boundary point, farther from its path than half the width times the factor of the style (bevel, round joins and butt, round caps: 1; miter joins: 1 / sin(a/2) for the limit angle a clamped to 0.01 pi .. 0.99 pi; square caps: sqrt 2; custom caps: the norm of their farthest point), up to the conversion to the integer grid and the splitting error. With standard caps everything registered lies in the rectangle the integer grid is made for; custom caps can leave it.", "quantifier": "all widths, joins, caps, angles, paths (open or closed), solver strategies and precisions, adapters with a rounding error", "why_tests_cant": "joins and caps depend on every angle of consecutive edges; intersections of the registered pieces are rounded", "anchors": ["iOverlay/src/mesh/style.rs", "iOverlay/src/mesh/stroke/offset.rs", "iOverlay/src/mesh/stroke/builder.rs", "iOverlay/src/mesh/stroke/builder_join.rs", "iOverlay/src/mesh/stroke/builder_cap.rs", "iOverlay/src/mesh/stroke/section.rs", "iOverlay/src/mesh/rotator.rs", "stroke_custom", "StrokeStyle"]}
{"id": "C73", "title": "Sections, joins and caps have the documented shape", "statement": "Every edge of a stroked path adds the rectangle of half the width on both sides. Bevel joins add nothing. Round joins put a circular arc around the corner on the outer side, from one side to the other, in equal steps of less than 1.5 times the requested angle (nothing if the turn is smaller than the angle). Miter joins extend the outer sides to their common point, or cut them at the point given by the limit angle if the corner is sharper. Round caps are half circles in 4 to 100 equal steps; square caps extend by half the width; custom caps are placed with the path direction as x axis, scaled by half the width.", "quantifier": "all paths, corners, widths, angles and caps, in exact arithmetic", "why_tests_cant": "ranges over all angles between consecutive edges and all directions; wrong signs show only for some turns", "anchors": ["iOverlay/src/mesh/style.rs", "iOverlay/src/mesh/stroke/offset.rs", "iOverlay/src/mesh/stroke/builder.rs", "iOverlay/src/mesh/stroke/builder_join.rs", "iOverlay/src/mesh/stroke/builder_cap.rs", "iOverlay/src/mesh/stroke/section.rs", "iOverlay/src/mesh/rotator.rs", "LineJoin", "LineCap"]}
{"id": "C74", "title": "An outline changes its shape only within the offset of the boundary", "statement": "Every point of every edge returned by an outline is within the outer offset (counterclockwise paths) or the inner offset (holes) of a path, times the factor of the joins (bevel, round: 1; miter: 1 / sin(a/2) for the limit angle a clamped to 0.01 pi .. 0.99 pi), up to the conversion to the integer grid and the splitting errors. Farther away from the paths the outlined region is the given one: exactly the points inside more counterclockwise paths than clockwise ones. Everything registered lies in the rectangle the integer grid is made for.", "quantifier": "all offsets of either sign, joins, angles, numbers of paths, solver strategies and precisions, adapters with a rounding error", "why_tests_cant": "ranges over all paths, angles and offsets; parts far from the boundary can only be compared for all points", "anchors": ["iOverlay/src/mesh/style.rs", "iOverlay/src/mesh/outline/offset.rs", "iOverlay/src/mesh/outline/builder.rs", "iOverlay/src/mesh/outline/builder_join.rs", "iOverlay/src/mesh/outline/section.rs", "outline_custom", "OutlineStyle"]}
{"id": "C75", "title": "Styles are what was set", "statement": "Setters of stroke and outline styles can be called in any order and the last call for a field counts; they give the same result as writing the fields; angles out of range act as the nearest allowed angle. A stroke whose half width is at most one grid unit, or with a width set to zero or less, returns nothing; so does an outline without paths or with one clockwise path.", "quantifier": "all styles, widths, angles, paths", "why_tests_cant": "all combinations of values and orders", "anchors": ["iOverlay/src/mesh/style.rs", "iOverlay/src/mesh/outline/offset.rs", "iOverlay/src/mesh/outline/builder.rs", "iOverlay/src/mesh/outline/builder_join.rs", "iOverlay/src/mesh/outline/section.rs", "iOverlay/src/mesh/stroke/offset.rs", "StrokeStyle", "OutlineStyle"]}
{"id": "C76", "title": "A stroke covers the union of its parts", "statement": "When no section is shorter than the notch its corner needs, a stroke covers exactly the union of: the rectangle of half the width on both sides of every edge of the path, the outer join at every corner (bevel triangle, miter, round fan), and the caps of an open path; each point covered is covered once with the requested orientation. This holds for every point farther from the edges of those parts than the rounding to the integer grid. In particular every point beside an edge within half the width is covered.", "quantifier": "all paths, open or closed, numbers of paths, widths, joins, caps (butt, round, square), angles, solver strategies, adapters with a rounding error; sections long enough", "why_tests_cant": "ranges over all paths, angles and points of the plane", "anchors": ["iOverlay/src/mesh/stroke/offset.rs", "iOverlay/src/mesh/stroke/builder.rs", "iOverlay/src/mesh/stroke/builder_join.rs", "iOverlay/src/mesh/stroke/builder_cap.rs", "iOverlay/src/mesh/stroke/section.rs", "StrokeOffset::stroke", "StrokeOffset::stroke_custom"]}
{"id": "C77", "title": "An outline grows or shrinks its paths by bands and joins", "statement": "If no edge is shorter than what the offset cuts off at its two ends, the outline of a counterclockwise path with a positive offset covers exactly the inside of the path together with the band of the offset's width outside every edge, the join (bevel triangle, miter, round fan) at every corner where the shifted edges move apart, and the small triangle beyond every corner where they intersect; with a negative offset it covers exactly the inside of the path without these bands, joins and triangles. With several paths, a point is covered exactly if more grown or shrunk counterclockwise paths cover it than grown or shrunk holes do (holes use the inner offset in the opposite direction). Contours are dropped only for their area or for having no edge on a drawn side. This holds for every point farther from the drawn sides than the rounding to the integer grid.", "quantifier": "all paths, numbers of paths, offsets of either sign, joins, angles, solver strategies, adapters with a rounding error; edges long enough", "why_tests_cant": "ranges over all paths, angles and points of the plane", "anchors": ["iOverlay/src/mesh/outline/offset.rs", "iOverlay/src/mesh/outline/builder.rs", "iOverlay/src/mesh/outline/builder_join.rs", "iOverlay/src/mesh/outline/section.rs", "OutlineOffset::outline", "OutlineOffset::outline_custom"]}
{"id": "C78", "title": "Parts far apart do not influence each other", "statement": "If the contours consist of two parts lying in two rectangles that a vertical or horizontal line separates, then splitting ends for the whole exactly if it ends for both parts, all crossings of a part are rounded to the same points as when the part is processed alone, and the overlay of the whole returns exactly the contours that the overlays of the two parts return, point for point (the outer contours of each part in the same order). Clipping strings returns for a part exactly the pieces of the lines of the whole that lie in its rectangle, and the slices of the whole cover outside the rectangle of the other part what the slices of the part cover. So adding remote contours never changes the result elsewhere, although they may cause additional rounds of splitting with a larger snap radius.", "quantifier": "all contours in two separated rectangles, in any order and mix of subject and clip, all overlay and fill rules, directions, precisions, strategies (possibly different ones for the parts and the whole)", "why_tests_cant": "ranges over all pairs of inputs and all solver strategies; the snap radius grows with the number of rounds of the whole input", "anchors": ["iOverlay/src/split/solver.rs", "iOverlay/src/split/solver_list.rs", "iOverlay/src/split/snap_radius.rs", "iOverlay/src/core/overlay.rs", "iOverlay/src/core/extract.rs", "Overlay::overlay"]}
{"id": "C79", "title": "Only the net number of runs along an edge matters", "statement": "Two inputs whose contours run from a to b minus from b to a equally often, for all pairs of corners a, b and separately for subject and clip, give identical results (shapes for every rule, fill rule, direction and area limit, graphs, vectors, clipped lines and slices), whatever other contours are present. So a polygon may be given as parts cut along lines between its vertices (any triangulation), wherever these lines lie and whatever they cross, and a contour added together with its reverse has no effect: what cancels is removed before crossings are computed and causes no rounding.", "quantifier": "all lists of contours without spikes (the other contours are arbitrary), all rules, fill rules, directions, area limits, precisions and strategies", "why_tests_cant": "ranges over all pairs of inputs with equal net edges", "anchors": ["iOverlay/src/segm/merge.rs", "iOverlay/src/segm/build.rs", "iOverlay/src/split/solver.rs", "ShapeSegmentsMerge::merge_if_needed", "Overlay::overlay"]}
{"id": "C80", "title": "On a grid that is fine enough every boolean operation is exact", "statement": "If all coordinates are multiplied by a positive number that every non-zero cross product of two given edges divides (there always is one), and the products stay within the documented range, then every boolean operation returns and its result covers exactly the points that the overlay rule and the fill rule select from the given contours, in the units of the finer grid; every shape is an outer contour with the holes inside it. Refining the grid further does not change the region. The same holds for slicing: the slices are the cells into which the lines cut the shape.", "quantifier": "all contours, all such factors, all overlay and fill rules, directions and strategies", "why_tests_cant": "ranges over all inputs and all factors; exactness is about every point of the rational plane", "anchors": ["iOverlay/src/core/overlay.rs", "iOverlay/src/split/cross_solver.rs", "iOverlay/src/float/overlay.rs", "Overlay::overlay", "CrossSolver::cross"]}
{"id": "C81", "title": "The axes are not special: mirroring or turning the input mirrors or turns the result", "statement": "When the given edges cross in whole points, turning all contours by a quarter turn turns the region covered by the result of every boolean operation in the same way, and mirroring them at an axis or at the diagonal mirrors the region (with the fill rules Positive and Negative exchanged, since mirroring turns the winding direction around). This holds at every point off the given edges, although the sweep treats the two axes and the two directions of each very differently.", "quantifier": "all contours whose edges cross in whole points, all points of the rational plane off the edges, all overlay and fill rules, directions, strategies and configurations", "why_tests_cant": "ranges over all inputs and all points of the plane", "anchors": ["iOverlay/src/core/overlay.rs", "iOverlay/src/fill/solver.rs", "iOverlay/src/segm/build.rs", "Overlay::overlay"]}
{"id": "C82", "title": "No vertex of a result comes from nowhere", "statement": "When the given edges cross in whole points, every vertex of a result is a vertex that was given, or a point in which two given edges cross. In particular, if no two given edges cross, a boolean operation returns given vertices only. The same holds for the vertices of sliced shapes and of clipped lines, where the lines count as given edges.", "quantifier": "all contours whose edges cross in whole points, all overlay and fill rules, directions, area limits, strategies and configurations, one-shot operations and prebuilt graphs, slices and clips", "why_tests_cant": "ranges over all inputs and configurations", "anchors": ["iOverlay/src/core/overlay.rs", "iOverlay/src/split/cross_solver.rs", "iOverlay/src/split/solver.rs", "Overlay::overlay", "OverlayGraph::extract_shapes"]}
{"id": "C83", "title": "Contours that do not touch come back as they are", "statement": "If the given contours turn at every vertex, have no vertex in common and no edge touches another except where one follows the other, then every contour of the result of a boolean operation is one of the given contours - started at another vertex or run through the other way round, but with exactly the same vertices - and none is returned twice. A given contour comes back exactly if the operation selects the points on one side of its edges and not those on the other side; simplifying under the even-odd rule returns every one of them. An area limit keeps exactly those whose own area reaches it (holes only if some outer contour reaches it). Simplifying such a result again, under the even-odd or the non-zero rule, returns exactly the same shapes: same order, same contours, same first vertices.", "quantifier": "all families of such contours, all overlay and fill rules, directions, strategies and configurations", "why_tests_cant": "ranges over all families of contours", "anchors": ["iOverlay/src/core/overlay.rs", "iOverlay/src/core/extract.rs", "iOverlay/src/segm/build.rs", "iOverlay/src/split/solver.rs", "Overlay::overlay", "Simplify::simplify_shape"]}
