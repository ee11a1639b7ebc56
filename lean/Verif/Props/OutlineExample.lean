/-
An outline meeting the hypotheses of C74: a square with a square hole.
-/
import Verif.Props.OutlineFollow
import Verif.Props.StrokeExample

namespace IOverlay
open Complex

/-! ### paths along the axes -/

/-- Neighbours share a coordinate. -/
def AxisPt (a b : Pt) : Prop := a.x = b.x ∨ a.y = b.y

instance (a b : Pt) : Decidable (AxisPt a b) := by unfold AxisPt; infer_instance

theorem sign_abs (v : Int) (h : v ≠ 0) : (v : ℝ) / |(v : ℝ)| = ((v.sign : Int) : ℝ) := by
  rcases lt_or_gt_of_ne h with h | h
  · rw [Int.sign_eq_neg_one_of_neg h, abs_of_neg (by exact_mod_cast h), div_neg, div_self (by exact_mod_cast h.ne)]
    simp
  · rw [Int.sign_eq_one_of_pos h, abs_of_pos (by exact_mod_cast h), div_self (by exact_mod_cast h.ne')]
    simp

theorem axis_unit {d : Pt} (h : d.x ≠ 0 ∨ d.y ≠ 0) (ha : d.x = 0 ∨ d.y = 0) :
    gridC d / ‖gridC d‖ = gridC ⟨d.x.sign, d.y.sign⟩ := by
  obtain ⟨x, y⟩ := d
  dsimp only at h ha
  rcases ha with rfl | rfl
  · have hy : y ≠ 0 := by omega
    have e : gridC ⟨0, y⟩ = (y : ℝ) * I := by apply Complex.ext <;> simp [gridC]
    rw [e, norm_mul, Complex.norm_real, Complex.norm_I, mul_one, Real.norm_eq_abs, mul_div_right_comm, ← Complex.ofReal_div,
      sign_abs y hy]
    apply Complex.ext <;> simp [gridC]
  · have hx : x ≠ 0 := by omega
    have e : gridC ⟨x, 0⟩ = ((x : ℝ) : ℂ) := by apply Complex.ext <;> simp [gridC]
    rw [e, Complex.norm_real, Real.norm_eq_abs, ← Complex.ofReal_div, sign_abs x hx]
    apply Complex.ext <;> simp [gridC]

/-- A section with grid coordinates. -/
noncomputable def OSection.toC (s : OSection Pt) : OSection ℂ := ⟨gridC s.b, gridC s.aTop, gridC s.bTop, gridC s.dir⟩

section
variable {toInt : ℂ → Pt} (ht : ∀ p, toInt (gridC p) = p) (ratio : ℝ)

theorem oSection_grid (ρ : Int) {a b : Pt} (h : a ≠ b) (hab : AxisPt a b) :
    (realOps toInt ratio).oSection ρ (gridC a) (gridC b) = (intOps.oSection ρ a b).toC := by
  have hd : gridC b - gridC a = gridC ⟨b.x - a.x, b.y - a.y⟩ := by apply Complex.ext <;> simp [gridC]
  have hu : (gridC b - gridC a) / ‖gridC b - gridC a‖ = gridC ⟨(b.x - a.x).sign, (b.y - a.y).sign⟩ := by
    rw [hd]
    refine axis_unit ?_ ?_
    · by_contra hc
      obtain ⟨ax, ay⟩ := a
      obtain ⟨bx, bY⟩ := b
      dsimp only at hc
      exact h (by rw [Pt.mk.injEq]; omega)
    · unfold AxisPt at hab; dsimp only; omega
  show (⟨gridC b, gridC a + _, gridC b + _, (gridC b - gridC a) / ‖gridC b - gridC a‖⟩ : OSection ℂ) = _
  simp only [FloatOps.orthoScale, FloatOps.normal, realOps, OSection.toC, FloatOps.oSection, intOps]
  rw [hu]
  congr 1 <;> apply Complex.ext <;> simp [gridC]

include ht

theorem oLoop_grid (ρ : Int) : ∀ (l : List Pt) (s : OSection Pt), (s.b :: l).IsChain AxisPt →
    (realOps toInt ratio).oLoop ρ .bevel s.toC s.b (l.map gridC) =
      ((intOps.oLoop ρ .bevel s s.b l).1, (intOps.oLoop ρ .bevel s s.b l).2.toC) := by
  intro l
  induction l with
  | nil => intro s _; rfl
  | cons p l ih =>
    intro s hc
    have hT : (realOps toInt ratio).toInt = toInt := rfl
    have hI : intOps.toInt p = p := rfl
    rw [List.map_cons, FloatOps.oLoop, FloatOps.oLoop, hT, ht, hI]
    rw [List.isChain_cons_cons] at hc
    by_cases h : p = s.b
    · rw [if_pos h, if_pos h]
      exact ih s (by rw [← h]; exact hc.2)
    · rw [if_neg h, if_neg h]
      have hs : s.toC.b = gridC s.b := rfl
      rw [hs, oSection_grid ratio ρ (Ne.symm h) hc.1]
      have hb : (intOps.oSection ρ s.b p).b = p := rfl
      have := ih (intOps.oSection ρ s.b p) (by rw [hb]; exact hc.2)
      rw [hb] at this
      simp only [this]
      simp only [FloatOps.oAddJoin, FloatOps.joinWeak, FloatOps.oAddSection, hT, OSection.toC, ht]
      rfl

theorem skipEqual_grid (q : Pt) (l : List Pt) :
    (realOps toInt ratio).skipEqual q (l.map gridC) = (intOps.skipEqual q l).map gridC := by
  induction l with
  | nil => rfl
  | cons p l ih =>
    have hT : (realOps toInt ratio).toInt = toInt := rfl
    have hI : intOps.toInt p = p := rfl
    rw [List.map_cons, FloatOps.skipEqual, FloatOps.skipEqual, hT, ht, hI]
    split
    · exact ih
    · rfl

omit ht in
theorem skipEqual_chain {q : Pt} : ∀ {l : List Pt} {p : Pt} {m : List Pt}, (q :: l).IsChain AxisPt → intOps.skipEqual q l = p :: m →
    p ≠ q ∧ (q :: p :: m).IsChain AxisPt := by
  intro l
  induction l with
  | nil => intro p m _ h; cases h
  | cons a l ih =>
    intro p m hc h
    have hI : intOps.toInt a = a := rfl
    rw [FloatOps.skipEqual, hI] at h
    split at h
    · next e =>
      rw [List.isChain_cons_cons] at hc
      exact ih (by rw [← e]; exact hc.2) h
    · next e =>
      obtain ⟨rfl, rfl⟩ := List.cons.inj h
      exact ⟨e, hc⟩

/-- Exact arithmetic on a closed path along the axes agrees with integer arithmetic. -/
theorem outlineSegments_grid (ρ : Int) (path : List Pt) (hc : ∀ z ∈ path.getLast?, (z :: path).IsChain AxisPt) :
    (realOps toInt ratio).outlineSegments ρ .bevel (path.map gridC) = intOps.outlineSegments ρ .bevel path := by
  match path, hc with
  | [], _ => rfl
  | [_], _ => rfl
  | p0 :: p1 :: rest, hc =>
    have hT : (realOps toInt ratio).toInt = toInt := rfl
    simp only [List.map_cons, FloatOps.outlineSegments]
    have hl : (gridC p1 :: rest.map gridC).getLast (by simp) = gridC ((p1 :: rest).getLast (by simp)) := by
      rw [← List.getLast_map (f := gridC)]
      · simp only [List.map_cons]
      · simp
    have hc := hc ((p1 :: rest).getLast (by simp)) (by
      rw [Option.mem_def, List.getLast?_cons_cons, List.getLast?_eq_getLast_of_ne_nil (by simp)])
    have hI : ∀ p, intOps.toInt p = p := fun _ => rfl
    rw [hl, hT, ht, hI]
    have hs := skipEqual_grid ht ratio ((p1 :: rest).getLast (by simp)) (p0 :: p1 :: rest)
    simp only [List.map_cons] at hs
    rw [hs]
    cases hk : intOps.skipEqual ((p1 :: rest).getLast (by simp)) (p0 :: p1 :: rest) with
    | nil => rfl
    | cons p m =>
      obtain ⟨k1, k2⟩ := skipEqual_chain hc hk
      rw [List.isChain_cons_cons] at k2
      simp only [List.map_cons]
      rw [ht, hI, oSection_grid ratio ρ (Ne.symm k1) k2.1]
      have hb : (intOps.oSection ρ ((p1 :: rest).getLast (by simp)) p).b = p := rfl
      have := oLoop_grid ht ratio ρ m (intOps.oSection ρ ((p1 :: rest).getLast (by simp)) p) (by rw [hb]; exact k2.2)
      rw [hb] at this
      rw [this]
      simp only [FloatOps.oAddJoin, FloatOps.joinWeak, FloatOps.oAddSection, hT, OSection.toC, ht]
      rfl

end

/-! ### the outline -/

/-- The result of several paths from their parts. -/
theorem outlineCustom_of (e : OutlineEnv) (k : OffConfig) (kb : Config) (x : Externals) (s : OutlineStyle) (cw : Bool)
    (minArea : ℝ) (paths : List (List ℂ)) (hlen : 2 ≤ paths.length) (parts shapes : List (List (List Pt)))
    (h1 : outlineParts e k x s paths = some parts)
    (h2 : overlayCustom kb x .subject .positive cw (max (e.sqrToInt (outlineAdapter e s paths) minArea) 1)
      (overlaySegments parts.flatten []) = some shapes) :
    outlineCustom e k kb x s cw minArea false paths = some (toFloats (outlineAdapter e s paths) shapes) := by
  have hn : outlineNothing (e.area (outlineAdapter e s paths)) paths = false := by
    unfold outlineNothing
    split
    · simp at hlen
    · simp at hlen
    · rfl
  have ho : (realOps (outlineAdapter e s paths).toInt s.join.normalize.ratio).outline k kb x (e.area (outlineAdapter e s paths))
      s.params cw (e.sqrToInt (outlineAdapter e s paths) minArea) paths = some shapes := by
    unfold FloatOps.outline
    split
    · simp at hlen
    · simp at hlen
    · have : paths.mapM ((realOps (outlineAdapter e s paths).toInt s.join.normalize.ratio).outlinePart k x
          (e.area (outlineAdapter e s paths)) s.params) = some parts := h1
      rw [this]
      exact h2
  unfold outlineCustom
  dsimp only
  rw [hn, ho]
  rfl

/-- Rounding to the nearest integers, scale 1; no minimum area. -/
noncomputable def exOutlineEnv : OutlineEnv where
  adapterOf := exStrokeEnv.adapterOf
  area a path := exArea (path.map a.toInt)
  sqrToInt _ _ := 0
  cleanFloat _ l := l

/-- Outer paths grow by 10, holes shrink by 5; bevel joins. -/
noncomputable def exOStyle : OutlineStyle := ((OutlineStyle.new 10).setInner 5).setJoin .bevel

noncomputable def exOPaths : List (List ℂ) := [exSquare.map gridC, exHole.map gridC]

section
variable {ps : List (List ℂ)}

theorem exO_toInt (p : Pt) : (outlineAdapter exOutlineEnv exOStyle ps).toInt (gridC p) = p := exOps_toInt p

theorem exO_grid (l : List Pt) : (l.map gridC).map (outlineAdapter exOutlineEnv exOStyle ps).toInt = l := by
  rw [List.map_map]
  conv_rhs => rw [← List.map_id l]
  exact List.map_congr_left fun p _ => exO_toInt p

theorem exO_area (l : List Pt) : outlineArea exOutlineEnv exOStyle ps (l.map gridC) = exArea l := by
  show exArea ((l.map gridC).map (outlineAdapter exOutlineEnv exOStyle ps).toInt) = _
  rw [exO_grid]

theorem exO_params : exOStyle.params = ⟨((-10 : Int) : ℝ), .bevel, ((5 : Int) : ℝ), .bevel⟩ := by
  show (⟨-10, .bevel, 5, .bevel⟩ : OutlineParams ℝ) = _
  norm_num

theorem exO_edges : ∀ l ∈ [exSquare, exHole], outlineEdges exOutlineEnv exOStyle ps (l.map gridC) =
    intOps.pathEdges exOutline (exArea l) l := by
  intro l hl
  unfold outlineEdges
  rw [exO_area, exO_params]
  have key : ∀ (ρ : Int) (l : List Pt), (∀ z ∈ l.getLast?, (z :: l).IsChain AxisPt) →
      (realOps (outlineAdapter exOutlineEnv exOStyle ps).toInt exOStyle.join.normalize.ratio).outlineSegments ρ .bevel
        (l.map gridC) = intOps.outlineSegments ρ .bevel l :=
    fun ρ l h => outlineSegments_grid exO_toInt _ ρ l h
  simp only [List.mem_cons, List.not_mem_nil, or_false] at hl
  rcases hl with rfl | rfl
  · have ha : exArea exSquare < 0 := by decide
    unfold FloatOps.pathEdges OutlineParams.radius OutlineParams.joinFor alongPath
    simp only [if_pos ha]
    exact key _ _ (by decide)
  · have ha : ¬ exArea exHole < 0 := by decide
    unfold FloatOps.pathEdges OutlineParams.radius OutlineParams.joinFor alongPath
    simp only [if_neg ha]
    rw [← List.map_reverse]
    exact key _ _ (by decide)

theorem exO_seam (l : List Pt) : Seam (outlineAdapter exOutlineEnv exOStyle ps).toInt (l.map gridC) := by
  intro z hz p hp h
  obtain ⟨q, -, rfl⟩ := List.mem_map.1 hp
  have hz' : z ∈ l.map gridC := List.mem_of_getLast? hz
  obtain ⟨q', -, rfl⟩ := List.mem_map.1 hz'
  rw [exO_toInt, exO_toInt] at h
  rw [h]

/-- Both paths are regular. -/
theorem exO_path : ∀ l ∈ [exSquare, exHole], SidedPath exOutlineEnv exOff exOStyle ps (l.map gridC) := by
  intro l hl
  have he := exO_edges (ps := ps) l hl
  have hpl := exPlain l hl
  refine ⟨⟨?_, ?_, ?_⟩, ?_⟩
  · rw [he]; exact hpl.proper
  · exact FragOk.list _ _
  · rw [exO_area]
    unfold alongPath
    split
    · exact exO_seam l
    · rw [← List.map_reverse]; exact exO_seam _
  · rw [he]; exact hpl.sides

theorem exO_part (l : List Pt) (hl : l ∈ [exSquare, exHole]) (part : List (List Pt))
    (h : intOps.outlinePart exOff exRaw exArea exOutline l = some part) :
    (realOps (outlineAdapter exOutlineEnv exOStyle ps).toInt exOStyle.join.normalize.ratio).outlinePart exOff exRaw
      (outlineArea exOutlineEnv exOStyle ps) exOStyle.params (l.map gridC) = some part := by
  have he := exO_edges (ps := ps) l hl
  unfold outlineEdges at he
  rw [exO_area] at he
  unfold FloatOps.outlinePart at h ⊢
  rw [exO_area]
  split
  · next h1 => rw [if_pos h1] at h; exact h
  · next h1 =>
    rw [if_neg h1] at h
    split
    · next h2 =>
      rw [if_pos h2] at h
      rw [pathEdges_outer h2] at he
      rw [he]
      unfold FloatOps.pathEdges OutlineParams.radius OutlineParams.joinFor alongPath
      simp only [if_pos h2]
      exact h
    · next h2 =>
      rw [if_neg h2] at h
      rw [pathEdges_inner h2] at he
      rw [he]
      unfold FloatOps.pathEdges OutlineParams.radius OutlineParams.joinFor alongPath
      simp only [if_neg h2]
      exact h

end

theorem exO_sided : ∀ path, Counted exOutlineEnv exOStyle exOPaths path → SidedPath exOutlineEnv exOff exOStyle exOPaths path := by
  intro path hp
  have := hp.1
  simp only [exOPaths, List.mem_cons, List.not_mem_nil, or_false] at this
  rcases this with rfl | rfl
  · exact exO_path exSquare (by simp)
  · exact exO_path exHole (by simp)

theorem exO_parts : outlineParts exOutlineEnv exOff exRaw exOStyle exOPaths = some exParts := by
  unfold outlineParts
  have h1 := exO_part (ps := exOPaths) exSquare (by simp) [[⟨-10, 100⟩, ⟨-10, 0⟩, ⟨0, -10⟩, ⟨100, -10⟩, ⟨110, 0⟩, ⟨110, 100⟩, ⟨100, 110⟩, ⟨0, 110⟩]]
    (by decide +kernel)
  have h2 := exO_part (ps := exOPaths) exHole (by simp) [[⟨65, 65⟩, ⟨65, 35⟩, ⟨35, 35⟩, ⟨35, 65⟩]] (by decide +kernel)
  generalize (realOps (outlineAdapter exOutlineEnv exOStyle exOPaths).toInt exOStyle.join.normalize.ratio).outlinePart exOff exRaw
      (outlineArea exOutlineEnv exOStyle exOPaths) exOStyle.params = f at h1 h2 ⊢
  show [exSquare.map gridC, exHole.map gridC].mapM f = some exParts
  rw [List.mapM_cons, List.mapM_cons, List.mapM_nil, h1, h2]
  rfl

/-- The integer result: the grown square with a smaller hole. -/
def exOShapes : List (List (List Pt)) :=
  [[[⟨-10, 0⟩, ⟨-10, 100⟩, ⟨0, 110⟩, ⟨100, 110⟩, ⟨110, 100⟩, ⟨110, 0⟩, ⟨100, -10⟩, ⟨0, -10⟩],
    [⟨35, 65⟩, ⟨35, 35⟩, ⟨65, 35⟩, ⟨65, 65⟩]]]

theorem exO_result : outlineCustom exOutlineEnv exOff exConfig exRaw exOStyle true 0 false exOPaths =
    some (toFloats (outlineAdapter exOutlineEnv exOStyle exOPaths) exOShapes) := by
  refine outlineCustom_of _ _ _ _ _ _ _ _ (by simp [exOPaths]) exParts exOShapes exO_parts ?_
  have : exOutlineEnv.sqrToInt (outlineAdapter exOutlineEnv exOStyle exOPaths) 0 = 0 := rfl
  rw [this]
  decide +kernel

/-- The adapter keeps its contract on the rectangle of the outline. -/
theorem exO_good : (outlineAdapter exOutlineEnv exOStyle exOPaths).Good 1 0 (1 / 2) 0 (outlineRect exOStyle exOPaths).Has where
  pos := one_pos
  toInt z hz := by
    have hrect : outlineRect exOStyle exOPaths = ⟨-16.5, 116.5, -16.5, 116.5⟩ := by
      have ho : exOStyle.additional = 16.5 := by
        show |(1.1 * 10 : ℝ)| + |(1.1 * 5 : ℝ)| = 16.5
        rw [abs_of_pos (by norm_num), abs_of_pos (by norm_num)]; norm_num
      unfold outlineRect
      rw [ho]
      simp only [exOPaths, exSquare, exHole, List.map_cons, List.map_nil, List.flatten_cons, List.flatten_nil, List.append_nil,
        List.cons_append, List.nil_append, rectOf, List.foldl_cons, List.foldl_nil, Option.getD_some, FRect.addOffset, gridC]
      norm_num
    rw [hrect] at hz
    obtain ⟨h1, h2, h3, h4⟩ := hz
    dsimp only at h1 h2 h3 h4
    have hg : toGrid 1 0 z = z := by unfold toGrid; simp
    have r1 := abs_sub_round z.re
    have r2 := abs_sub_round z.im
    refine ⟨⟨?_, ?_⟩, ?_⟩
    · rw [hg, abs_sub_comm]; exact r1
    · rw [hg, abs_sub_comm]; exact r2
    · rw [abs_le] at r1 r2
      have a1 : (-2 ^ 30 : ℝ) < (round z.re : ℝ) := by linarith
      have a2 : (round z.re : ℝ) < 2 ^ 30 := by linarith
      have a3 : (-2 ^ 30 : ℝ) < (round z.im : ℝ) := by linarith
      have a4 : (round z.im : ℝ) < 2 ^ 30 := by linarith
      exact ⟨by exact_mod_cast a1, by exact_mod_cast a2, by exact_mod_cast a3, by exact_mod_cast a4⟩
  toFloat p _ := by
    show ‖gridC p - fromGrid 1 0 p.q‖ ≤ 0
    have : gridC p = fromGrid 1 0 p.q := by unfold fromGrid gridC Pt.q; simp
    rw [this, sub_self, norm_zero]

/-- C74 applies to this outline: to its edges, and to its region. -/
example : (∀ w ∈ cycleEdges (([⟨35, 65⟩, ⟨35, 35⟩, ⟨65, 35⟩, ⟨65, 65⟩] : List Pt).map gridC), ∀ z ∈ segment ℝ w.1 w.2,
      ∃ path, Counted exOutlineEnv exOStyle exOPaths path ∧
        NearPath (exOStyle.pathReach (outlineArea exOutlineEnv exOStyle exOPaths path) + outlineError exOff exConfig 1 (1 / 2) + 0)
          true path z) ∧
    ∃ (outer holes : List (List Pt)), ∀ q, (∀ path, Counted exOutlineEnv exOStyle exOPaths path →
        ¬ NearPath (exOStyle.pathReach (outlineArea exOutlineEnv exOStyle exOPaths path) + outlineError exOff exConfig 1 (1 / 2))
          true path (fromGrid 1 0 q)) →
      polysWind (outer ++ holes) q = outerTurn true * (if 0 < coverCount exOutlineEnv exOStyle exOPaths q then 1 else 0) := by
  have hcl : CleanAssumed exRaw := ⟨fun _ _ h => h, Keeps.edges fun _ _ => rfl⟩
  have hgood := C74_rectangle exOutlineEnv exOStyle exOPaths _ 1 0 (1 / 2) 0 exO_good
  have hf : ∀ parts, outlineParts exOutlineEnv exOff exRaw exOStyle exOPaths = some parts → FragFor exConfig parts.flatten [] :=
    fun _ _ => FragOk.list _ _
  constructor
  · refine C74_many_edges exOutlineEnv exOff exConfig exRaw exOff_assumed exRaw_assumed.1 hcl exOStyle true 0 exOPaths
      (by simp [exOPaths]) (fun p hp => (exO_sided p hp).toRegularPath) hf 1 0 (1 / 2) 0 hgood _ exO_result _ ?_
    simp only [toFloats, exOShapes, List.map_cons, List.map_nil, List.flatten_cons, List.flatten_nil, List.append_nil]
    exact List.mem_cons_of_mem _ (List.mem_singleton.2 rfl)
  · obtain ⟨outer, holes, _, -, -, -, -, -, -, h⟩ := C74_many_region exOutlineEnv exOff exConfig exRaw exOff_assumed exRaw_assumed.1 hcl exOStyle true 0 exOPaths
      (by simp [exOPaths]) exO_sided exParts exO_parts (hf _ exO_parts)
      ((buildBoolean (isIncluded .subject) .positive exConfig.st exConfig.sr exConfig.tree exConfig.scan exConfig.fuel
        (overlaySegments exParts.flatten [])).getD []) (by decide +kernel) (atMostTwo_of_mem (by decide +kernel)) 1 0 (1 / 2) 0 hgood _
        exO_result
    exact ⟨outer, holes, fun q hq => (h q hq).1⟩

/-- The square alone. -/
theorem exO_single : outlineCustom exOutlineEnv exOff exConfig exRaw exOStyle true 0 false [exSquare.map gridC] =
    some (toFloats (outlineAdapter exOutlineEnv exOStyle [exSquare.map gridC])
      [[[⟨-10, 0⟩, ⟨-10, 100⟩, ⟨0, 110⟩, ⟨100, 110⟩, ⟨110, 100⟩, ⟨110, 0⟩, ⟨100, -10⟩, ⟨0, -10⟩]]]) := by
  have hA : outlineArea exOutlineEnv exOStyle [exSquare.map gridC] (exSquare.map gridC) = -10000 := by
    rw [exO_area]; decide
  have he := exO_edges (ps := [exSquare.map gridC]) exSquare (by simp)
  unfold outlineEdges at he
  rw [hA, pathEdges_outer (by decide)] at he
  unfold outlineArea at hA
  have hn : ¬ -1 ≤ exOutlineEnv.area (outlineAdapter exOutlineEnv exOStyle [exSquare.map gridC]) (exSquare.map gridC) := by
    rw [hA]; decide
  unfold outlineCustom outlineNothing FloatOps.outline
  dsimp only
  rw [if_neg (by simpa using hn), if_neg hn, he]
  have h0 : exOutlineEnv.sqrToInt (outlineAdapter exOutlineEnv exOStyle [exSquare.map gridC]) 0 = 0 := rfl
  have h1 : offsetShapes exOff exRaw true (max 0 1) (intOps.pathEdges exOutline (exArea exSquare) exSquare) =
      some [[[⟨-10, 0⟩, ⟨-10, 100⟩, ⟨0, 110⟩, ⟨100, 110⟩, ⟨110, 100⟩, ⟨110, 0⟩, ⟨100, -10⟩, ⟨0, -10⟩]]] := by decide +kernel
  rw [h0, h1]
  rfl

/-- C74 applies to the square alone. -/
example : ∃ r, nodedEdges exOff.st exOff.sr exOff.tree exOff.fuel
      (outlineEdges exOutlineEnv exOStyle [exSquare.map gridC] (exSquare.map gridC)) = some r ∧
    ∃ (outer holes : List (List Pt)), OffsetContours true r outer holes ∧
      ∀ q, ¬ NearPath (exOStyle.join.reach |exOStyle.outerOffset| + roundingError exOff 1 (1 / 2)) true (exSquare.map gridC)
          (fromGrid 1 0 q) →
        polysWind (outer ++ holes) q = outerTurn true * (if 0 < polyWind (gridPath exOutlineEnv exOStyle [exSquare.map gridC]
          (exSquare.map gridC)) q then 1 else 0) := by
  have hp := exO_path (ps := [exSquare.map gridC]) exSquare (by simp)
  have hr : nodedEdges exOff.st exOff.sr exOff.tree exOff.fuel
      (outlineEdges exOutlineEnv exOStyle [exSquare.map gridC] (exSquare.map gridC)) =
        some ((nodedEdges exOff.st exOff.sr exOff.tree exOff.fuel (intOps.pathEdges exOutline (exArea exSquare) exSquare)).getD []) := by
    rw [exO_edges exSquare (by simp)]
    decide +kernel
  have hgood : (outlineAdapter exOutlineEnv exOStyle [exSquare.map gridC]).Good 1 0 (1 / 2) 0
      (OutlineReached exOutlineEnv exOStyle [exSquare.map gridC]) := by
    have h := C74_rectangle exOutlineEnv exOStyle exOPaths _ 1 0 (1 / 2) 0 exO_good
    refine ⟨h.pos, fun z hz => h.toInt z ?_, h.toFloat⟩
    obtain ⟨path, hp, u, hu, hz⟩ := hz
    rw [List.mem_singleton.1 hp] at hu hz
    refine ⟨exSquare.map gridC, by simp [exOPaths], u, hu, ?_⟩
    rw [exO_area] at hz ⊢
    exact hz
  obtain ⟨outer, holes, _, -, h1, -, -, h2⟩ := C74_single_region exOutlineEnv exOff exConfig exRaw exOff_assumed exOStyle true 0
    (exSquare.map gridC) (by rw [exO_area]; decide) hp.toRegularPath _ hr (hp.sides _ hr).2 1 0 (1 / 2) 0 hgood _ exO_single
  exact ⟨_, hr, outer, holes, h1, fun q hq => (h2 q hq).1⟩

end IOverlay
