/-
C80: on a grid that is fine enough every boolean operation is exact. Multiplying all coordinates by a number that every cross
product of two given edges divides makes all crossings whole.
-/
import Verif.Props.Total
import Verif.Props.SliceCuts

namespace IOverlay

/-! ### specification -/

/-- The point in units of a grid `n` times as fine. -/
def Pt.grow (n : Int) (p : Pt) : Pt := ⟨n * p.x, n * p.y⟩

/-- The rational point in units of a grid `n` times as fine. -/
def QPt.grow (n : Int) (q : QPt) : QPt := ⟨n * q.x, n * q.y⟩

/-- Contours in units of a grid `n` times as fine. -/
def grown (n : Int) (cs : List (List Pt)) : List (List Pt) := cs.map fun c => c.map (Pt.grow n)

/-- Cross product of the directions of two edges; zero if they are parallel. -/
def edgesCross (e f : Pt × Pt) : Int := (e.2.x - e.1.x) * (f.2.y - f.1.y) - (e.2.y - e.1.y) * (f.2.x - f.1.x)

/-- The grid is fine enough: `n` is a multiple of the cross product of any two edges that are not parallel. -/
def FineEnough (n : Int) (es : List (Pt × Pt)) : Prop :=
  0 < n ∧ ∀ e ∈ es, ∀ f ∈ es, edgesCross e f ≠ 0 → edgesCross e f ∣ n

/-! ### winding numbers -/

variable {n : Int}

theorem edgeWind_grow (hn : 0 < n) (a b : Pt) (q : QPt) : edgeWind (a.grow n) (b.grow n) (q.grow n) = edgeWind a b q := by
  have h0 : (0 : ℚ) < n := by exact_mod_cast hn
  have hx : ∀ a : Pt, (((a.grow n).x : Int) : ℚ) ≤ (q.grow n).x ↔ (a.x : ℚ) ≤ q.x := by
    intro a
    simp only [Pt.grow, QPt.grow, Int.cast_mul]
    exact mul_le_mul_iff_right₀ h0
  have hx' : ∀ a : Pt, (q.grow n).x < (((a.grow n).x : Int) : ℚ) ↔ q.x < (a.x : ℚ) := by
    intro a
    simp only [Pt.grow, QPt.grow, Int.cast_mul]
    exact mul_lt_mul_iff_right₀ h0
  have hl : ∀ a b : Pt, aboveLine (a.grow n) (b.grow n) (q.grow n) ↔ aboveLine a b q := by
    intro a b
    unfold aboveLine
    simp only [Pt.grow, QPt.grow, Int.cast_mul]
    rw [show ((n : ℚ) * b.y - n * a.y) * (n * q.x - n * a.x) = (n * n) * ((b.y - a.y) * (q.x - a.x)) by ring,
      show ((n : ℚ) * b.x - n * a.x) * (n * q.y - n * a.y) = (n * n) * ((b.x - a.x) * (q.y - a.y)) by ring]
    exact mul_lt_mul_iff_right₀ (mul_pos h0 h0)
  unfold edgeWind
  have c1 : ∀ a b : Pt, (((a.grow n).x : ℚ) ≤ (q.grow n).x ∧ (q.grow n).x < (b.grow n).x ∧
      aboveLine (a.grow n) (b.grow n) (q.grow n)) ↔ ((a.x : ℚ) ≤ q.x ∧ q.x < b.x ∧ aboveLine a b q) :=
    fun a b => and_congr (hx a) (and_congr (hx' b) (hl a b))
  by_cases h1 : (a.x : ℚ) ≤ q.x ∧ q.x < b.x ∧ aboveLine a b q
  · rw [if_pos h1, if_pos ((c1 a b).2 h1)]
  · rw [if_neg h1, if_neg (fun h => h1 ((c1 a b).1 h))]
    by_cases h2 : (b.x : ℚ) ≤ q.x ∧ q.x < a.x ∧ aboveLine b a q
    · rw [if_pos h2, if_pos ((c1 b a).2 h2)]
    · rw [if_neg h2, if_neg (fun h => h2 ((c1 b a).1 h))]

theorem polyEdges_grow (c : List Pt) :
    polyEdges (c.map (Pt.grow n)) = (polyEdges c).map fun e => (e.1.grow n, e.2.grow n) := by
  cases c with
  | nil => rfl
  | cons p ps =>
    simp only [polyEdges, List.map_cons]
    rw [show ps.map (Pt.grow n) ++ [p.grow n] = (ps ++ [p]).map (Pt.grow n) by simp, ← List.map_cons, List.zip_map]
    rfl

theorem polysWind_grow (hn : 0 < n) (cs : List (List Pt)) (q : QPt) : polysWind (grown n cs) (q.grow n) = polysWind cs q := by
  unfold polysWind grown
  rw [List.map_map]
  congr 1
  refine List.map_congr_left fun c _ => ?_
  simp only [Function.comp, polyWind, polyEdges_grow, List.map_map]
  congr 1
  exact List.map_congr_left fun e _ => edgeWind_grow hn e.1 e.2 q

theorem grown_edges (cs : List (List Pt)) :
    (grown n cs).flatMap polyEdges = (cs.flatMap polyEdges).map fun e => (e.1.grow n, e.2.grow n) := by
  unfold grown
  induction cs with
  | nil => rfl
  | cons c cs ih => rw [List.map_cons, List.flatMap_cons, List.flatMap_cons, List.map_append, ih, polyEdges_grow]

theorem grown_append (cs ds : List (List Pt)) : grown n (cs ++ ds) = grown n cs ++ grown n ds := List.map_append

theorem grow_inj (hn : 0 < n) {p q : Pt} (h : p.grow n = q.grow n) : p = q := by
  obtain ⟨px, py⟩ := p
  obtain ⟨qx, qy⟩ := q
  simp only [Pt.grow, Pt.mk.injEq] at h
  rw [mul_right_inj' (ne_of_gt hn), mul_right_inj' (ne_of_gt hn)] at h
  rw [h.1, h.2]

theorem notClosed_grow (hn : 0 < n) {c : List Pt} (h : NotClosedExplicitly c) : NotClosedExplicitly (c.map (Pt.grow n)) := by
  intro hl e
  rw [List.length_map] at hl
  apply h hl
  rw [List.head?_map, List.getLast?_map] at e
  exact Option.map_injective (fun p q => grow_inj hn) e

/-! ### crossings on the fine grid -/

theorem inSeg_grow (hn : 0 < n) {a b : Pt} {q : QPt} (h : inSeg q (a.grow n) (b.grow n)) : inSeg ⟨q.x / n, q.y / n⟩ a b := by
  have h0 : (n : ℚ) ≠ 0 := by exact_mod_cast ne_of_gt hn
  obtain ⟨t, t0, t1, hx, hy⟩ := h
  refine ⟨t, t0, t1, ?_, ?_⟩
  · simp only [Pt.grow, Int.cast_mul] at hx ⊢
    rw [hx]; field_simp
  · simp only [Pt.grow, Int.cast_mul] at hy ⊢
    rw [hy]; field_simp

/-- The crossing of two edges that are not parallel, in units of their cross product, is a whole point. -/
theorem crossing_units {e f : Pt × Pt} {q : QPt} (h1 : inSeg q e.1 e.2) (h2 : inSeg q f.1 f.2) :
    ∃ p : Pt, (edgesCross e f : ℚ) * q.x = p.x ∧ (edgesCross e f : ℚ) * q.y = p.y := by
  obtain ⟨⟨ax, ay⟩, ⟨bx, bY⟩⟩ := e
  obtain ⟨⟨cx, cy⟩, ⟨dx, dy⟩⟩ := f
  obtain ⟨t, -, -, ex, ey⟩ := h1
  obtain ⟨s, -, -, fx, fy⟩ := h2
  simp only [atParam] at ex ey fx fy
  let N : Int := (cx - ax) * (dy - cy) - (cy - ay) * (dx - cx)
  have key : (((bx - ax) * (dy - cy) - (bY - ay) * (dx - cx) : Int) : ℚ) * t = (N : Int) := by
    simp only [N]
    push_cast
    have e1 : (ax : ℚ) + t * (bx - ax) = cx + s * (dx - cx) := by rw [← ex, ← fx]
    have e2 : (ay : ℚ) + t * (bY - ay) = cy + s * (dy - cy) := by rw [← ey, ← fy]
    linear_combination (dy - cy : ℚ) * e1 - (dx - cx : ℚ) * e2
  refine ⟨⟨((bx - ax) * (dy - cy) - (bY - ay) * (dx - cx)) * ax + N * (bx - ax),
    ((bx - ax) * (dy - cy) - (bY - ay) * (dx - cx)) * ay + N * (bY - ay)⟩, ?_, ?_⟩
  · unfold edgesCross
    rw [ex]
    push_cast at key ⊢
    linear_combination (bx - ax : ℚ) * key
  · unfold edgesCross
    rw [ey]
    push_cast at key ⊢
    linear_combination (bY - ay : ℚ) * key

theorem parallel_line {e f : Pt × Pt} {q : QPt} (h : edgesCross e f = 0) (h1 : inSeg q e.1 e.2) (h2 : inSeg q f.1 f.2) :
    area2 e.1 e.2 f.1 = 0 ∧ area2 e.1 e.2 f.2 = 0 := by
  obtain ⟨⟨ax, ay⟩, ⟨bx, bY⟩⟩ := e
  obtain ⟨⟨cx, cy⟩, ⟨dx, dy⟩⟩ := f
  obtain ⟨t, -, -, ex, ey⟩ := h1
  obtain ⟨s, -, -, fx, fy⟩ := h2
  simp only [atParam] at ex ey fx fy
  have hq : ((bx - ax : ℚ)) * (dy - cy) - (bY - ay) * (dx - cx) = 0 := by
    have : (((bx - ax) * (dy - cy) - (bY - ay) * (dx - cx) : Int) : ℚ) = 0 := by exact_mod_cast h
    push_cast at this
    exact this
  have e1 : (ax : ℚ) + t * (bx - ax) = cx + s * (dx - cx) := by rw [← ex, ← fx]
  have e2 : (ay : ℚ) + t * (bY - ay) = cy + s * (dy - cy) := by rw [← ey, ← fy]
  constructor
  · have : ((area2 ⟨ax, ay⟩ ⟨bx, bY⟩ ⟨cx, cy⟩ : Int) : ℚ) = 0 := by
      unfold area2
      push_cast
      linear_combination (bx - ax : ℚ) * e2 - (bY - ay : ℚ) * e1 + s * hq
    exact_mod_cast this
  · have : ((area2 ⟨ax, ay⟩ ⟨bx, bY⟩ ⟨dx, dy⟩ : Int) : ℚ) = 0 := by
      unfold area2
      push_cast
      linear_combination (bx - ax : ℚ) * e2 - (bY - ay : ℚ) * e1 - (1 - s) * hq
    exact_mod_cast this

theorem area2_grow (a b c : Pt) : area2 (a.grow n) (b.grow n) (c.grow n) = n * n * area2 a b c := by
  simp only [area2, Pt.grow]; ring

/-- On a grid that is fine enough all crossings are whole. -/
theorem whole_grow {es : List (Pt × Pt)} (h : FineEnough n es) :
    WholeCrossings (es.map fun e => (e.1.grow n, e.2.grow n)) := by
  have h0 : (n : ℚ) ≠ 0 := by exact_mod_cast ne_of_gt h.1
  intro e' he' f' hf' hne q h1 h2
  obtain ⟨e, he, rfl⟩ := List.mem_map.1 he'
  obtain ⟨f, hf, rfl⟩ := List.mem_map.1 hf'
  simp only [area2_grow] at hne h1 h2
  have i1 := inSeg_grow h.1 h1
  have i2 := inSeg_grow h.1 h2
  have hc : edgesCross e f ≠ 0 := by
    intro hc
    obtain ⟨z1, z2⟩ := parallel_line hc i1 i2
    rw [z1, z2] at hne
    simp at hne
  obtain ⟨m, hm⟩ := h.2 e he f hf hc
  obtain ⟨p, px, py⟩ := crossing_units i1 i2
  refine ⟨⟨m * p.x, m * p.y⟩, ?_⟩
  have hmq : (n : ℚ) = edgesCross e f * m := by exact_mod_cast hm
  have ex : q.x = n * (q.x / n) := by field_simp
  have ey : q.y = n * (q.y / n) := by field_simp
  obtain ⟨qx, qy⟩ := q
  simp only [Pt.q, QPt.mk.injEq, Int.cast_mul] at *
  constructor
  · rw [← px]
    conv_lhs => rw [ex, hmq]
    rw [hmq]; ring
  · rw [← py]
    conv_lhs => rw [ey, hmq]
    rw [hmq]; ring

/-- There always is such a grid. -/
theorem C80_exists (es : List (Pt × Pt)) : ∃ n, FineEnough n es := by
  let ds : List Int := (es.flatMap fun e => es.map fun f => edgesCross e f).filter (· ≠ 0)
  refine ⟨|ds.prod|, abs_pos.2 ?_, ?_⟩
  · rw [ne_eq, List.prod_eq_zero_iff]
    intro h
    have := (List.mem_filter.1 h).2
    simp at this
  · intro e he f hf hne
    rw [dvd_abs]
    apply List.dvd_prod
    refine List.mem_filter.2 ⟨List.mem_flatMap.2 ⟨e, he, List.mem_map.2 ⟨f, hf, rfl⟩⟩, by simpa using hne⟩

/-! ### the claim -/

section
variable {k : Config} {x : Externals} (ha : Assumed k x) (hk : 2 ≤ k.fuel) (hx : BindAssumed x) {subj clip : List (List Pt)}
  (hf : FragFor k (grown n subj) (grown n clip)) (hns : ∀ c ∈ subj ++ clip, NotClosedExplicitly c)
  (hin : ∀ c ∈ subj ++ clip, ∀ p ∈ c, InRange (p.grow n)) (hfine : FineEnough n ((subj ++ clip).flatMap polyEdges))
include ha hk hx hf hns hin hfine

/-- C80: on a grid that is fine enough (and on which the coordinates are in range) every boolean operation returns, and its
result covers exactly the points selected by the overlay rule and the fill rule from the given contours, once and
counterclockwise; every shape is an outer contour with the holes inside it. -/
theorem C80_exact (r : OverlayRule) (rule : FillRule) :
    ∃ shapes, overlayCustom k x r rule false 0 (overlaySegments (grown n subj) (grown n clip)) = some shapes ∧
      (∀ q : QPt, polysWind shapes.flatten (q.grow n) =
        if r.op (rule.inside (polysWind subj q)) (rule.inside (polysWind clip q)) then 1 else 0) ∧
      (∀ sh ∈ shapes, ProperShape sh) := by
  obtain ⟨shapes, h1, h2, h3⟩ := C61_overlay ha hk hf
    (by
      rw [← grown_append]
      intro c hc
      obtain ⟨d, hd, rfl⟩ := List.mem_map.1 hc
      exact notClosed_grow hfine.1 (hns d hd))
    (by
      rw [← grown_append]
      intro c hc p hp
      obtain ⟨d, hd, rfl⟩ := List.mem_map.1 hc
      obtain ⟨p', hp', rfl⟩ := List.mem_map.1 hp
      exact hin d hd p' hp')
    (by
      rw [← grown_append, grown_edges]
      exact whole_grow hfine) hx r rule
  refine ⟨shapes, h1, fun q => ?_, h3⟩
  rw [h2, polysWind_grow hfine.1, polysWind_grow hfine.1]

end

/-- Multiples of a grid that is fine enough are fine enough. -/
theorem FineEnough.mul {m : Int} (hm : 0 < m) {es : List (Pt × Pt)} (h : FineEnough n es) : FineEnough (n * m) es :=
  ⟨mul_pos h.1 hm, fun e he f hf hne => (h.2 e he f hf hne).mul_right m⟩

/-- C80 (refining further): two grids that are fine enough give the same region, in their own units. -/
theorem C80_refine {k k' : Config} {x x' : Externals} (ha : Assumed k x) (ha' : Assumed k' x') {n n' : Int}
    {subj clip : List (List Pt)} (hf : FragFor k (grown n subj) (grown n clip)) (hf' : FragFor k' (grown n' subj) (grown n' clip))
    (hns : ∀ c ∈ subj ++ clip, NotClosedExplicitly c) (hin : ∀ c ∈ subj ++ clip, ∀ p ∈ c, InRange (p.grow n))
    (hin' : ∀ c ∈ subj ++ clip, ∀ p ∈ c, InRange (p.grow n')) (h : FineEnough n ((subj ++ clip).flatMap polyEdges))
    (h' : FineEnough n' ((subj ++ clip).flatMap polyEdges)) (r : OverlayRule) (rule : FillRule) (cw : Bool)
    {shapes shapes' : List (List (List Pt))}
    (hs : overlayCustom k x r rule cw 0 (overlaySegments (grown n subj) (grown n clip)) = some shapes)
    (hs' : overlayCustom k' x' r rule cw 0 (overlaySegments (grown n' subj) (grown n' clip)) = some shapes') (q : QPt) :
    polysWind shapes.flatten (q.grow n) = polysWind shapes'.flatten (q.grow n') := by
  have key : ∀ {k : Config} {x : Externals} {n : Int}, Assumed k x → FragFor k (grown n subj) (grown n clip) →
      (∀ c ∈ subj ++ clip, ∀ p ∈ c, InRange (p.grow n)) → FineEnough n ((subj ++ clip).flatMap polyEdges) →
      ∀ {shapes : List (List (List Pt))},
        overlayCustom k x r rule cw 0 (overlaySegments (grown n subj) (grown n clip)) = some shapes →
      polysWind shapes.flatten (q.grow n) =
        outerTurn cw * if r.op (rule.inside (polysWind subj q)) (rule.inside (polysWind clip q)) then 1 else 0 := by
    intro k x n ha hf hin h shapes hs
    have nc : ∀ {cs : List (List Pt)}, (∀ c ∈ cs, NotClosedExplicitly c) → ∀ c ∈ grown n cs, NotClosedExplicitly c := by
      intro cs hcs c hc
      obtain ⟨d, hd, rfl⟩ := List.mem_map.1 hc
      exact notClosed_grow h.1 (hcs d hd)
    rw [C56_overlay k x ha r rule cw _ _ hf (nc fun c hc => hns c (List.mem_append_left _ hc))
      (nc fun c hc => hns c (List.mem_append_right _ hc))
      (by
        rw [← grown_append]
        intro c hc p hp
        obtain ⟨d, hd, rfl⟩ := List.mem_map.1 hc
        obtain ⟨p', hp', rfl⟩ := List.mem_map.1 hp
        exact hin d hd p' hp')
      (by
        rw [← grown_append, grown_edges]
        exact whole_grow h) shapes hs, polysWind_grow h.1, polysWind_grow h.1]
  rw [key ha hf hin h hs, key ha' hf' hin' h' hs']

/-! ### slicing -/

theorem grown_lines (paths contours : List (List Pt)) :
    userLines (grown n paths) (grown n contours) = (userLines paths contours).map fun e => (e.1.grow n, e.2.grow n) := by
  unfold userLines
  rw [List.map_append, grown_edges]
  congr 1
  unfold grown
  induction paths with
  | nil => rfl
  | cons c cs ih =>
    rw [List.map_cons, List.flatMap_cons, List.flatMap_cons, List.map_append, ih, ← List.map_tail, List.zip_map]
    rfl

/-- C80 (slicing): on a grid that is fine enough for the edges of the shape and the cutting lines, slicing returns the cells
into which the lines cut the shape; they cover exactly the points inside the given shape, once. -/
theorem C80_slice (x : Externals) (hok : x.bind.Ok) (hs : SortsByA x.sortI) (order : List Pt → Bool) (ho : OrderOk order)
    (rule : FillRule) (sr : SnapRadius) (tree : TreeOracle CountStr) (ht : tree.Ok) (sc : ScanOracle CountStr) (hsc : sc.Ok)
    (fuel : Nat) (h2 : 2 ≤ fuel) (hE : EndSort x.sortE) (shape paths contours : List (List Pt))
    (hns : ∀ c ∈ shape, NotClosedExplicitly c) (hin : ∀ c ∈ shape ++ paths ++ contours, ∀ p ∈ c, InRange (p.grow n))
    (hfine : FineEnough n (shape.flatMap polyEdges ++ userLines paths contours)) :
    ∃ shapes es, sliceBy x order rule .list sr tree sc fuel (grown n shape) (grown n paths) (grown n contours) = some shapes ∧
      CutUp ((grown n shape).flatMap polyEdges) (userLines (grown n paths) (grown n contours)) es ∧
      SliceCut es (fun q => rule.inside (polysWind (grown n shape) q)) shapes ∧
      ∀ q : QPt, polysWind shapes.flatten (q.grow n) = if rule.inside (polysWind shape q) then 1 else 0 := by
  have a1 : ∀ c ∈ grown n shape, NotClosedExplicitly c := by
    intro c hc
    obtain ⟨d, hd, rfl⟩ := List.mem_map.1 hc
    exact notClosed_grow hfine.1 (hns d hd)
  have a2 : ∀ c ∈ grown n shape ++ grown n paths ++ grown n contours, ∀ p ∈ c, InRange p := by
    rw [← grown_append, ← grown_append]
    intro c hc p hp
    obtain ⟨d, hd, rfl⟩ := List.mem_map.1 hc
    obtain ⟨p', hp', rfl⟩ := List.mem_map.1 hp
    exact hin d hd p' hp'
  have a3 : WholeCrossings ((grown n shape).flatMap polyEdges ++ userLines (grown n paths) (grown n contours)) := by
    rw [grown_edges, grown_lines, ← List.map_append]
    exact whole_grow hfine
  obtain ⟨shapes, es, h1, h3, h4⟩ := C67_slice_total x hok hs order ho rule sr tree ht sc hsc fuel h2 hE _ _ _ a1 a2 a3
  refine ⟨shapes, es, h1, h3, h4, fun q => ?_⟩
  rw [C58_slice_input x order ho rule sr tree ht sc hsc fuel hE _ _ _ a1 a2 a3 shapes h1, polysWind_grow hfine.1]

/-! ### examples -/

/-- Two triangles crossing in points that are not whole, and a grid that is fine enough for them. -/
def exFine : List (List Pt) × List (List Pt) := ([[⟨0, 0⟩, ⟨3, 1⟩, ⟨1, 2⟩]], [[⟨0, 1⟩, ⟨2, 0⟩, ⟨3, 2⟩]])

instance (n : Int) (es : List (Pt × Pt)) : Decidable (FineEnough n es) := by unfold FineEnough; infer_instance

example : FineEnough 20160 ((exFine.1 ++ exFine.2).flatMap polyEdges) ∧
    ¬ FineEnough 1 ((exFine.1 ++ exFine.2).flatMap polyEdges) ∧
    Assumed exConfig exRaw ∧ BindAssumed exRaw ∧ 2 ≤ exConfig.fuel ∧ FragFor exConfig (grown 20160 exFine.1) (grown 20160 exFine.2) ∧
    (∀ c ∈ exFine.1 ++ exFine.2, NotClosedExplicitly c) ∧ (∀ c ∈ exFine.1 ++ exFine.2, ∀ p ∈ c, InRange (p.grow 20160)) :=
  ⟨by decide +kernel, by decide +kernel, exRaw_assumed.1, exRaw_assumed.2, by decide, FragOk.list _ _, by decide,
    by unfold InRange; decide +kernel⟩

/-- The hypotheses of `C80_slice` are met for a triangle and a line through it. -/
example : FineEnough 120 (exFine.1.flatMap polyEdges ++ userLines [[⟨-1, 0⟩, ⟨3, 2⟩]] []) ∧
    ¬ FineEnough 1 (exFine.1.flatMap polyEdges ++ userLines [[⟨-1, 0⟩, ⟨3, 2⟩]] []) ∧
    (∀ c ∈ exFine.1, NotClosedExplicitly c) ∧
    (∀ c ∈ exFine.1 ++ [[⟨-1, 0⟩, ⟨3, 2⟩]] ++ [], ∀ p ∈ c, InRange (Pt.grow 120 p)) :=
  ⟨by decide +kernel, by decide +kernel, by decide, by unfold InRange; decide +kernel⟩

end IOverlay
