# iOverlay in Lean 4: model and proofs

Code under study: `/repo/iOverlay/src` (Rust, pinned commit). All model definitions live in
`lean/Verif/*.lean`; each carries a comment with the file and the lines it models and says where it
simplifies. The property theorems live in `lean/Verif/Props/*.lean` (names `Cnn_…`), apart from helper
lemmas; the small stand-alone specification (winding number of polygons over the rational plane, fill
rules, overlay rules as boolean operators, points of segments) is `lean/Verif/Spec.lean`. Beside each
property theorem an `example` instantiates its hypotheses with a concrete, non-trivial case.

Theorems named `…_partial` prove part of the property; `…_refuted` are kernel-checked witnesses that the full
property is false of the (modelled) code, so that a partial theorem is the best possible there.

## 1. Trusted base

* The Lean 4.33.0 kernel. Axioms: at most `propext`, `Classical.choice`, `Quot.sound` (reported by `vcheck` /
  `#print axioms`). No axioms of our own, no compiled evaluation: concrete runs are `decide +kernel`.
* The reading of the Rust code. Model and code are related by citation only; the code is never run.
* Integers. Coordinates, areas and winding counts are unbounded `Int`. `C19_no_overflow` proves that with
  |coordinate| < 2^30 all 64-bit intermediates of the crossing computation fit, and `C44_split` that no round of
  splitting leaves the range; `C36_no_overflow` does the same for the grid. `C19_bound_sharp`: 2^30 itself
  overflows. Winding counts (`i32`/`i16`) are not bounded in the model.
* Panics (index out of range, `unwrap`) and non-termination are explicit: the model returns `none` when an index
  is out of range or fuel is exhausted; theorems that state `= some …` therefore also exclude them.
* External crates (not in `/repo`) enter as *parameters with a contract*; each contract is shown satisfiable by a
  concrete instance, and every theorem holds for all instances.

| contract (Lean) | external code | what is assumed |
|---|---|---|
| `TreeOracle.Ok` | `i_tree::SegExpTree` (tree splitting) | for sorted edges the reported pairs include all pairs whose x-ranges and y-ranges meet (`Covers`) |
| `TreeOracle.Blind` | same | the pairs do not depend on the winding counts (C10 only) |
| `TreeOracle.SeesEdges` | same | the pairs depend on the edges only, whatever the type or value of the counts (C71 only) |
| `StrokeAdapter.Good` | `i_float` adapter | scaling by `g` around `c`, each coordinate rounded by at most `ein` units, in range on the points within reach of the path (C72_rectangle: it is enough on the rectangle it was made for); converted back with error ≤ `eout` (C72 only) |
| `RegularStroke` | input | no registered edge has length zero (finding 12), closed paths do not repeat their first point at the end, `FragOk` for large inputs (C72 only) |
| `RegularPath`, `SidedPath` | input | per path: no registered edge of length zero, the last point (holes: the first) not repeated, `FragOk` for large inputs; `SidedPath`: also no contour of the region made of chords only and no point the left end of three boundary edges (C74 only) |
| `LongSections`, `ApartOnGrid` | input | C76 only: every section is longer than the inner notch of its corners (short sections: finding 14); neighbouring path points differ on the grid |
| `RoomFor`, `RingApart`, `SimplyAround` | input | C77 only: every edge is at least as long as what the offset cuts off at its ends, and the path does not fold back at such a corner (always true when a path without right turns grows, `C77_room_convex`); neighbouring points differ on the grid; the path does not wind clockwise around the point asked about (growing) or more than once (shrinking) — always true for simple paths |
| `MovesWith` | sorts and search of the binder, contour cleaning | do with moved points what they do with the given points (C65_shapes, C65_graph_shapes, C65_slice_lists, C65_clip_lists only) |
| `ScanOracle.Ok` | `KeyExpList/Tree` (fill sweep) | `first_less_or_equal_by` returns the value of the greatest (by `VSegment::cmp`) live entry not above the point, else the default; nothing is assumed when no greatest one exists |
| `BindOracle.Ok` | same (hole binding) | `first_less` likewise |
| `ApplyExt.Ok` | `i_key_sort` `BinLayout`, sorts inside `apply` | bins numbered left to right; sorted permutations (C45 only) |
| `EndSort`, `SortsByA` | `i_key_sort`, `rayon` sorts | some sorted permutation (not nec. stable) |
| `CleanOk` | `i_shape` `simplify_contour`, `dedup_contour` | the winding number around every point is unchanged |
| `Tidies` | same, simplification on | of a contour with edges meeting in common ends only: vertices are at most dropped, the leftmost vertex is kept, a contour reported as not modified is the same (`C43_simplified_partial` only) |
| `Keeps` | same, simplification off | a contour without repeated consecutive points is returned as is (C43 only) |
| "returns only given points" | same | C44, C57 only |
| `CleanEdges` | same | edges of the cleaned contour run along edges of the given one and are not points (C57 only) |
| `CleanTurns` | same | a contour without spikes and repeated points is not given one (C69 only) |
| `Adapter.Faithful` | i_float `FloatPointAdapter` | scales by s around c: a given point is converted to a grid point within ein of its exact image, a grid point in range back to a point whose image is within eout of it (C70 only) |
| `OrderOk` | `i_shape` `is_clockwise_ordered` | right for contours that wind once (the sign of the area is, `orderOk_area`) (C58, C59 for slices) |
| `i_float` | `IntPoint`, `Triangle`, `cross_product`, `sqr_distance`, `UInt128::multiply` | reference definitions in `Geom.lean`, `Cross.lean` |
| rayon `par_iter().map().collect()` | fragment splitting | results in the order of the groups; the tasks may interleave arbitrarily (C35) |
| `is_clockwise_ordered` | `i_shape` | a parameter of the slice model (only the order of output depends on it) |

* `Assumed k x` and `BindAssumed x` bundle these contracts.
* Sorting of segments is modelled by insertion sort; after merging the result is unique (C08, C09), so the choice
  is unobservable.
* `FragOk` / `FragFor` / `FragRange`: hypotheses that only restrict the `Frag` strategy (or `Auto` above 16000
  edges). `FragRange`: coordinates in range. `FragOk`: moreover every touch can be discovered by the fragments in
  every round (`FragSafe`); false inputs exist, see finding 7. For List, Tree and Auto ≤ 16000 edges these
  hypotheses hold trivially (`FragOk.list`, `FragOk.small`).

## 2. What is modelled

| code | module | state |
|---|---|---|
| `segm/build.rs`, `segm/segment.rs`, `segm/winding_count.rs`, `segm/merge.rs` | `Segm`, `Geom` | complete |
| `split/cross_solver.rs` | `Cross`, `CrossMask` | complete incl. 128-bit division |
| `split/solver.rs`, `solver_list.rs`, `solver_tree.rs`, `snap_radius.rs`, `line_mark.rs` | `Split` | complete; tree pairs are a parameter; `apply` by its effect in `Split`, as implemented (bins, buffer, cursor) in `Apply`, proved equal (C45) |
| `split/solver_fragment.rs`, `grid_layout.rs`, `fragment.rs` | `Fragment` | complete (serial, parallel as interleaving) |
| `fill/solver.rs`, fill strategies (`core/solver.rs`, `string/…`) | `Fill`, `Rules` | complete |
| `core/filter.rs`, `core/overlay_rule.rs`, `core/fill_rule.rs`, `string/filter.rs` | `Rules` | complete |
| `core/link.rs`, `core/graph.rs`, `core/node.rs` | `Graph` | complete |
| `core/extract.rs`, `core/nearest_vector.rs` | `Extract` | complete |
| `bind/solver.rs`, `bind/segment.rs` | `Bind` | complete |
| `core/overlay.rs`, `OverlayGraph` entry points | `Overlay`, `Api` | one-shot, prebuilt graph, all builder calls |
| `core/simplify.rs`, traits `IntSlice`, `IntClip` | `Api` | complete |
| `core/divide.rs` | `Divide` | complete |
| `string/overlay.rs`, `clip.rs`, `graph.rs`, `rule.rs` | `Strings` | complete |
| `string/slice.rs`, `extract.rs`, `split.rs` | `Slice` | complete |
| `vector/edge.rs` | `Rules` | complete |
| `vector/extract_vectors.rs`, `core/overlay.rs` `into_*_vectors` | `Vector` | complete |
| `mesh/subject.rs`, `mesh/boolean.rs` | `Offset` | complete |
| `mesh/stroke/*`, `mesh/outline/*`, `mesh/rotator.rs` | `Mesh`, `Outline` | builders, joins, caps, shapes; in `Stroke`, `OutlineStyle` (C72–C75) in exact real arithmetic, with adapter rectangle, join parameters and final conversion; otherwise floating point operations are an arbitrary parameter `FloatOps` (every theorem holds for all of them); the computation of the adapter, of the join parameters and the final conversion to floats are not modelled |
| `float/*` | `Float` | complete; `FloatPointAdapter` and the cleaning of floating point contours (external crates) are parameters |
| `util/log.rs`, `examples/*` | – | not modelled: logging, GUI |

## 3. Properties: how each is proved

| id | how | status |
|----|-----|--------|
| C01 | composition of C12, C13, C39, C02, C21: crossing parity / telescoping of winding numbers along a vertical ray, for every rational point | proved |
| C02, C03, C28, C34 | boolean tables and integer arithmetic lifted to all fills and counts | proved |
| C04–C07 | induction on the builder's state machine; winding number over ℚ² as specification. C05 refuted (finding 1) | C05 partial |
| C08, C09 | induction; merged list is the unique sorted list with summed counts | proved |
| C10 | exact simulation of the pipeline under exchanging the two counts | proved |
| C11 | edge-wise equality of filtering before and after building the graph | proved |
| C12, C15 | loop invariant of rounds; at exit no pair needs a mark, hence edges meet at ends only | proved |
| C13 | each round keeps the divergence at every point zero (also through rounding) | proved |
| C14 | marks lying exactly on the edge leave all winding numbers unchanged | proved |
| C16–C19 | rational geometry, nonlinear integer arithmetic. C18 refuted for dividends ≥ 2^64 (finding 2) | C18 partial |
| C20 | sweep over sorted ends | proved |
| C21, C22, C40 | Euler-walk invariant: even degrees, every walk closes, fuel linear in edges | proved |
| C23 | real angles as specification; independence of the candidate order | proved |
| C24 | refuted (finding 3); exact filter if no three edges of the result share their left end: then the walks do not depend on what is rejected | partial |
| C25 | permutation argument | proved |
| C26 | sweep invariant of the binder | proved |
| C27, C29 | induction; Euler trails of the kept pieces | proved |
| C30 | each (edge, side) is consumed once; flow conservation | proved |
| C31 | invariant of loop splitting; its hypothesis (no two points alternate) holds for all walks of a slice, as they turn around faces | proved |
| C32, C33 | refuted (findings 4, 5); exact description otherwise | partial |
| C35 | all interleavings of the per-group tasks | proved |
| C36 | grid arithmetic: the rectangles of an edge cover it; the size of the grid against the number of edges (`Props/GridSize`) | proved |
| C37 | arithmetic | proved |
| C38 | equality of the rounds; refuted without `FragSafe` (finding 7) and for lines (8) | partial |
| C39 | sweep invariant: the scan list holds the edges crossing the sweep line in vertical order | proved |
| C41 | each walk hugs the region ("Hug"): its winding number is 0/±1, by a tour argument at its top link | proved |
| C42 | laminarity of tours in a planar graph | proved |
| C43 | C26 + C42; with simplification: the contours returned, taken as an arrangement of their own edges, give the sweep what it needs (Binding, Rings): edge sides from winding numbers alone; refuted for clockwise output / simplification in general (finding 6) | partial |
| C44 | crossing points lie in both boxes, in every round | proved |
| C45 | refinement: counting-sort invariant of the bin buffer; loops over the implementation equal loops over the description | proved |
| C46 | simulation: with ≤ 4 edges going right from a point the loop finds the contours of `extract`; sides from the tours of C41; refuted otherwise (finding 11) | partial |
| C47 | C12 + C39 on the unfiltered links | proved |
| C48, C51 | the edge list is decomposed into closed circuits, section by section, for every `FloatOps` | proved |
| C49 | all edges of a stroke are bold, so `extract_offset` equals the extraction of the boolean overlay on the masked graph; then C01, C21, C41, C42 | proved |
| C50 | C48 makes degrees even, then C22 on the masked graph; refuted for zero-length edges (finding 12) | partial |
| C52 | C24 with a cleaning function that rejects contours of weak edges only | proved |
| C53 | every phase starts from the sorted, merged edge list, which is the same for permuted input (C09) | proved |
| C54 | the iterators as state machines with an invariant (paths still to come); the rest by C53 | proved |
| C55 | the builder registers the edges between corners (induction over the contour); a sign change of all counts commutes with every phase | proved |
| C56 | invariant: every edge lies on a given one, so crossing points are whole and never rounded; then C41, C38 | proved |
| C57 | result edges run along noded edges, which meet at ends; C56 on the result; induction over expressions | proved |
| C58 | the walks turn around faces, so every closed flow is constant along a loop split off a walk; hence loops wind once and are nested with every polygon along the edges; C30 for the sum | proved |
| C59, C60 | the shoelace sum of closed steps is a sum over unit columns of integrals of the winding number (Abel summation per column), so it is monotone in the winding number; then C41, C58 | proved |
| C61 | the first round marks whole crossings only, so no rounding flag is raised and every strategy stops; then C56 and C26/C43 (`RunOk` runs return), and induction over expressions with C57 | proved |
| C62 | an invariant of the edges of the contour (0,1),(n,0),(2,1),(n+1,-1): in every round the only pair with a crossing is rounded two units further right, so the picture recurs shifted; induction on rounds | proved (refutes a bound on rounds) |
| C63 | every mark is within the reach of the round's radius of the edge it splits, so the chain that replaces an edge stays in a convex neighbourhood of it; around a point outside a convex set edges wind by differences of a potential, so the chain winds like the edge; induction on rounds; then the exact semantics of C21/C57 for the noded edges | proved |
| C64 | as C63, separately for the edges of the shape (those whose count is not zero) and the lines (those with a direction flag); chains that replace a line come close to each of its points; winding numbers are constant along lines that meet no edge (`polysWind_const`); then C29 and C58 | proved |
| C65 | every function up to the noded edges commutes with adding a vector (building, sorting, merging, crossing, rounding, marks, splitting; Shift.lean), for the list strategy; other strategies by C38; then the results by C41, C29 and C58; ShiftRun.lean does the same for the graph, the walk and the binder (`extract_shift`), ShiftLines.lean for slicing and clipping, which gives equal lists | proved |
| C66 | every directed edge is used by at most one contour and the filled sides are inside all contours together (SlicePieces); the first edge below a hole's lower left edge belongs to a contour with the same surroundings (SliceNest, LeftBottom); the sweep therefore finds the shape around every hole (SliceAttach, via C26's lemma); holes and shapes with the same surroundings are nested and disjoint as for C43 | proved |
| C67 | steps a walk makes back and forth along an edge (dropped by split_loops) carry no closed path, as both sides of the edge see the same face (SlicePieces); hence the first edge below a point or hole that any closed path uses belongs to a returned contour, and all closed paths wind around the point as around the filled side of that contour (SliceNest, SliceCells); contours of a shape have the same filled side by C66's chain; for the converse the contours of the shape themselves separate | proved |
| C68 | the tours of one run (Tours) are a function of the set of open edges: a tour is fixed by its start and the open edges (Same: Tour.eq_of_start), the next start is the least open edge, the filled side is fixed by parity; so the loop pushes the same contours in the same order | proved |
| C69 | the contours of a result are tidy: no rounding (C57), no spikes, winding 0 or one fixed number, changing across each edge (CanonRun); the noded edges counted in the simplification are then the maximal straight runs of the region's boundary cut at its turning points, which a set of points determines (Canon: cover, Turning); equal edges give equal lists by C68 | proved |
| C70 | winding of rational contours (FloatWind) is constant under moving all vertices by at most e except within e of the contour; the float front end (C54) is conversion, integer operation, conversion; the integer operation is right except within the drift (C63, C64), and its result fits the same rectangle (C44) so that converting back errs by at most eout | proved |
| C71 | both runs have total counts per edge related by a linear map of determinant ≠ 0 (or the identity); that map commutes with merging and splitting (`splitSegments_lin`), so the noded edges agree, and the rules agree on corresponding winding numbers; the extraction depends on the result edges and their filled side only (`overlay_resultLinks`) | proved |
| C72 | model of the styles in exact arithmetic (`Stroke`: ℝ, ℂ); every registered piece is within reach of one edge of its path (`strokes_near`, per join and cap); pieces near an edge stay in the convex neighbourhood of that edge, so they do not wind around points outside; then C51_stroke and `off_drift` for the run, density of ℚ for real points of the boundary | proved |
| C73 | the points registered for each part, computed with unit vectors, `exp` and the angle of the turn (spec in `Props/StrokeShape`) | proved |
| C74 | model of the outline styles in exact arithmetic (`OutlineStyle`); every registered edge is within reach of one edge of its path and the whole shifted contour winds around farther points as the path (`outlinePieces_near`, sections and joins as bridges inside the convex neighbourhood of one edge or corner); then `off_drift` per path, C52 and C24 for the contours, `noded_drift` for the second noding, density of ℚ for real points | proved |
| C75 | definitions of the styles; `normalize` is idempotent, so the result depends on normalized joins and caps only | proved |
| C76 | `StrokeParts` states the parts (rectangles, outer joins, caps) as polygons; the registered edges are, corner by corner, the sum of the parts' boundaries minus the notch between the inner corners, whose winding is non-negative and at most that of the two rectangles (`StrokeNotch.notch`, needs `LongSections`); so the winding of the registered edges is non-negative and zero exactly outside every part (`StrokeCorner`, `StrokeCover`, `StrokeSum`, `StrokePath`); then `off_drift` | proved |
| C77 | `OutlineParts` states the parts (bands cut at inner corners, joins, overshoot triangles) as counterclockwise polygons; the drawn sides are the path plus or minus the boundaries of the parts (`OutlineDraw.drawn_outline`, `OutlineCover.ring_total`), every part winds non-negatively (`OutlineCorner`, needs `RoomFor`), so away from the sides the registered edges wind as the path plus (minus) a number that is zero exactly outside all parts (`outline_path_wind`); then `off_drift`, C52 and C24 for the contours, `noded_drift` for the second noding | proved |
| C78 | a round of splitting restricted to a rectangle is the round of the edges in it (`TwoParts.round_part`: cuts of an edge come from edges of its rectangle, merging commutes with filtering); a part that is finished is not changed by further rounds (`splitLoop_noded`: noded edges get no marks whatever the radius), so the loops agree (`TwoParts.loop_part`, `loop_ends`); closed edges do not wind around points outside their rectangle (`segsWind_outside`); the walks of an extraction restricted to one side are the walks of the part (`Tours.side`, `Tours.unique`, `RunOk.part`); `Props/ApartLines.lean` does the same for slicing and clipping (`C78_slice`, `C78_clip`) | proved |
| C79 | the merged list is the strictly sorted list of the edges whose summed counts are not zero (`mergeIfNeeded_mem`), hence determined by the sums (`merged_eq_of_keySum`); the sums of contours without spikes are the net runs along the edges between corners (`coincidentSum_contours`, from `appendPath_corners`); `C79_straight` shows why a cut must start at corners | proved |
| C80 | by Cramer's rule the crossing of two edges, in units of their cross product, is whole (`crossing_units`); so on the finer grid all crossings are whole (`whole_grow`) and C56/C61 apply; winding numbers do not depend on the units (`polysWind_grow`) | proved |
| C81 | the winding number counted along the ray down and along the ray to the left differ, edge by edge, by a term that telescopes around a closed contour (`edgeWind_transpose`, `edgeWind_flip`); so winding numbers turn with the plane, and C56 applies on both sides | proved |
| C82 | registered edges consist of given vertices and stretches of given edges on their line (`Course`, through the removal of straight vertices); without rounding there is one round, and its cuts are ends of edges or proper crossings (`roundMarks_exact`, `noded_origin`); the same for the edges of a string overlay (`Props/ProvenanceLines`) | proved |
| C83 | such contours register their own edges, each once (`appendPath_turns`, `rings_count`), and nothing is cut (`rings_edges`); a closed walk along them that uses no edge twice has no choice but to run around one of them (`walk_follows`, `ring_walk`); under even-odd every edge with count 1 or -1 is kept; in general an edge is kept if the winding numbers on its sides, those of the given contours, are selected differently (`edge_sides`); the edges kept by simplifying the result are therefore those that made it (`rings_links`), and equal kept edges give equal results (C68) | proved |

## 4. Findings (behaviour of the code that contradicts the expected property)

1. **C05**. Repeating the first point at the end of a contour can cut off a corner (`segm/build.rs`, branch
   (true, true) when closing).
2. **C18**. `cross_solver.rs` division of 128-bit numbers: for dividends ≥ 2^64 the remainder used for rounding is
   always 0, the quotient is truncated; crossing points are then off by less than 1 instead of ½ (C17 states both).
3. **C24**. With a positive minimum area, after a contour that is too small `link_index += 1` skips a link that has
   not been visited; a large contour can be lost or be returned as a hole of another shape.
4. **C32**. `string/split.rs`: the area test is inverted, and the last loop of a walk is not tested. Also stale map
   entries for alternating walks.
5. **C33**. `core/divide.rs`: the last group of equal points is never flushed; nested points occurring three times
   lose vertices.
6. **C43**. `bind/solver.rs`: (a) with simplification a T-junction makes `VSegment::cmp` return `Equal`, the hole is
   attached to the wrong shape; (b) clockwise output: a hole passing twice through its leftmost vertex is attached
   to the wrong shape (panic in debug builds).
7. **C38 / fragments**. `on_border_split` inspects group `index`, but edges ending on the border from the left are in
   group `index-1`: a T onto a vertical edge on a column border is not split. Collinear overlaps that start in
   different columns are dropped. `radius as i32` is wrong for exponents ≥ 31.
8. **C38 / tree**. With exactly two edges the tree strategy does not split (`len > 2`): two crossing lines stay unsplit.
9. **C19**. Documented bound must be strict (|coordinate| < 2^30).
10. Not refuted by theorems, but visible in the model: `SnapRadius` with start ≥ 63 overflows the shift; merging keeps
    zero-count edges that precede the first duplicate; joining holes with no shape drops them;
    `find_left_top_link_on_bridge` ignores the visited state; an outer walk stops at the first return to its start, so
    a pinched boundary is returned as several contours; the names STRING_FORWARD/BACK_CLIP are exchanged (consistently).
11. **C46**. `vector/extract_vectors.rs`: (a) `link_index += 1` after every path skips unvisited links (cf. finding 3,
    but without any area limit): with three or more contours sharing their leftmost vertices a contour is taken for a
    hole or lost altogether (`C46_refuted_lost`); (b) `append_id_segments` for `VectorPath` offers the upper edges of
    the shapes to the binder (`a.x < b.x` with `a`, `b` in path order; the version for contours runs from `b` to `a`):
    with two or more shapes a hole is attached to a wrong shape or the binder panics (`C46_refuted_parent`,
    `C46_refuted_panic`).
12. **C50**. Registered edges of length zero make `get_fill_path` endless (memory exhaustion) or lose shapes: custom
    caps starting at (0,-1) or repeating a point, negative widths (`StrokeStyle::new(negative)`), round caps of tiny
    radius, neighbouring grid points (`C50_refuted_endless`).
13. Panics: a stroke of an open path with fewer than two points (index out of range, `C50_stroke_panics`), a resource
    without points (capacity underflow).
14. **C51**. A section much shorter than the width leaves a notch: a point of the rectangle of another section is not
    covered, because the joint is oriented negatively there (`C51_refuted_section`).
15. `stroke_custom` ignores `filter.min_area` (passes 0) although it is documented.
16. `geom/v_segment.rs:61,68` conversions use `mem::transmute` between `repr(Rust)` structs.
17. With `Precision::ABSOLUTE` the contour (0,1),(n,0),(2,1),(n+1,-1) needs about n/2 splitting rounds and becomes about n/2 edges (C62): four points with coordinates near 2^30 hang the operation. With a growing radius (HIGH and below) two or three rounds suffice.
18. A result need not be its own simplification, even with straight vertices dropped (C69_not_fixed): an outer contour is walked from the left end of its first edge, which can be a vertex that is dropped afterwards; on the second run the walk starts elsewhere and a contour touching itself comes back as outer contour and hole. The third run changes nothing (C69_stable).
19. Custom caps are not covered by the rectangle given to the adapter: `CapBuilder::additional_offset` adds width and height of the cap's own bounding box, which does not contain the end of the path (`C72_custom_outside`: one cap point at distance 10, offset 0); with coordinates scaled to use the full integer range such points overflow.
20. `StrokeStyle::new` does not clamp the width (the setter `width` does): a negative width has radius 0 for the builder, but |ir| > 1 lets the run start, so all registered edges are degenerate (cf. finding 12).
21. Documented maximum segment length of round joins and caps is exceeded: the number of steps is rounded to nearest (joins, up to 1.5 times the angle, `C73_round_join_long`) or down (caps), not up.

## 5. Mutation tests

`seeded/LOG.jsonl`: each line is a realistic bug put into the model in a scratch copy, with the theorems that failed.
