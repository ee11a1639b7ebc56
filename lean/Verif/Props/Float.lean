/-
C54: the floating point operations are the integer operations on rounded coordinates; the nesting of the input
does not matter.
-/
import Verif.Float
import Verif.Props.Api
import Verif.Props.Extract

namespace IOverlay

/-! ### specification -/

section
variable {P T : Type}

/-- The paths of a resource. -/
def Resource.paths : Resource P → List (List P)
  | .single path => [path]
  | .double paths => paths
  | .triple groups => groups.flatten

/-- Paths with rounded coordinates. -/
def Adapter.round (a : Adapter P T) (paths : List (List P)) : List (List Pt) := paths.map fun c => c.map a.toInt

/-! ### resources -/

theorem drain_single (path : List P) (n : Nat) : (PathIter.single path false).drain (n + 2) = some [path] := by
  simp [PathIter.drain, PathIter.next]

theorem drain_double (slice : List (List P)) (n m : Nat) (h : slice.length + 1 ≤ n + m) :
    (PathIter.double slice n).drain m = some (slice.drop n) ∨ m = 0 ∨ slice.length < n := by
  induction m generalizing n with
  | zero => exact Or.inr (Or.inl rfl)
  | succ m ih =>
    by_cases hn : n < slice.length
    · left
      have e : slice.drop n = slice[n] :: slice.drop (n + 1) := List.drop_eq_getElem_cons hn
      rcases ih (n + 1) (by omega) with h1 | h1 | h1
      · have hx : (PathIter.double slice n).next = (some slice[n], .double slice (n + 1)) := by
          simp [PathIter.next, hn]
        rw [PathIter.drain, hx]
        dsimp only
        rw [h1, e]
        rfl
      · subst h1; omega
      · omega
    · by_cases hn' : slice.length < n
      · exact Or.inr (Or.inr hn')
      · left
        simp [PathIter.drain, PathIter.next, hn]
        omega

/-- The paths a triple iterator has still to give. -/
def tripleRest (slice : List (List (List P))) (i j : Nat) : List (List P) :=
  match slice.drop i with
  | [] => []
  | g :: gs => g.drop j ++ gs.flatten

theorem tripleNext_spec (slice : List (List (List P))) (i j : Nat) :
    (tripleRest slice i j = [] ∧ (tripleNext slice i j).1 = none) ∨
      ∃ p, (tripleNext slice i j).1 = some p ∧
        tripleRest slice i j = p :: tripleRest slice (tripleNext slice i j).2.1 (tripleNext slice i j).2.2 := by
  rw [tripleNext]
  by_cases h : i < slice.length
  · rw [dif_pos h]
    have e : slice.drop i = slice[i] :: slice.drop (i + 1) := List.drop_eq_getElem_cons h
    by_cases hj : j < slice[i].length
    · rw [dif_pos hj]
      right
      refine ⟨slice[i][j], rfl, ?_⟩
      unfold tripleRest
      simp only [e]
      rw [List.drop_eq_getElem_cons hj, List.cons_append]
    · rw [dif_neg hj]
      have e' : tripleRest slice i j = tripleRest slice (i + 1) 0 := by
        unfold tripleRest
        simp only [e]
        rw [List.drop_eq_nil_of_le (by omega), List.nil_append]
        cases slice.drop (i + 1) <;> simp
      rw [e']
      exact tripleNext_spec slice (i + 1) 0
  · rw [dif_neg h]
    left
    refine ⟨?_, rfl⟩
    unfold tripleRest
    rw [List.drop_eq_nil_of_le (by omega)]
termination_by slice.length - i

theorem drain_triple (slice : List (List (List P))) (m i j : Nat) (h : (tripleRest slice i j).length < m) :
    (PathIter.triple slice i j).drain m = some (tripleRest slice i j) := by
  induction m generalizing i j with
  | zero => omega
  | succ m ih =>
    unfold PathIter.drain
    simp only [PathIter.next]
    rcases tripleNext_spec slice i j with ⟨h1, h2⟩ | ⟨p, h1, h2⟩
    · rw [h2, h1]
    · rw [h1]
      dsimp only
      rw [h2, List.length_cons] at h
      rw [ih _ _ (by omega), h2]
      rfl

theorem tripleRest_zero (slice : List (List (List P))) : tripleRest slice 0 0 = slice.flatten := by
  unfold tripleRest
  cases slice <;> simp

/-- C54 (resources): a loop over a resource sees its paths, each once, in order, empty groups being skipped; it ends
after as many steps as there are paths. -/
theorem C54_resource (r : Resource P) (n : Nat) (h : r.paths.length < n) : r.iterPaths.drain n = some r.paths := by
  cases r with
  | single path =>
    obtain ⟨m, rfl⟩ : ∃ m, n = m + 2 := ⟨n - 2, by simp [Resource.paths] at h; omega⟩
    exact drain_single path m
  | double paths =>
    simp only [Resource.paths] at h
    rcases drain_double paths 0 n (by omega) with h1 | h1 | h1
    · rw [List.drop_zero] at h1; exact h1
    · omega
    · omega
  | triple groups =>
    have e := tripleRest_zero groups
    simp only [Resource.paths] at h ⊢
    have := drain_triple groups n 0 0 (by rw [e]; exact h)
    rw [e] at this
    exact this

theorem loop_eq (r : Resource P) : r.loop = some r.paths := by
  unfold Resource.loop
  apply C54_resource
  cases r <;> simp [Resource.paths]

/-! ### the builders -/

theorem foldl_addContour (o : FloatOverlay P T) (st : ShapeType) (paths : List (List P)) :
    paths.foldl (fun o c => o.addContour c st) o =
      ⟨o.overlay ++ (o.adapter.round paths).flatMap (appendContour st), o.adapter⟩ := by
  induction paths generalizing o with
  | nil => simp [Adapter.round]
  | cons c l ih =>
    rw [List.foldl_cons, ih]
    simp [FloatOverlay.addContour, OverlayB.addPathIter, Adapter.round]

theorem addSource_eq (o : FloatOverlay P T) (r : Resource P) (st : ShapeType) :
    o.addSource r st = some ⟨o.overlay ++ (o.adapter.round r.paths).flatMap (appendContour st), o.adapter⟩ := by
  unfold FloatOverlay.addSource
  rw [loop_eq, Option.map_some, foldl_addContour]

/-- C54: the builder registers the rounded subject and clip contours, with the adapter computed from all points. -/
theorem C54_builder (e : FloatEnv P T) (subj clip : Resource P) :
    let a := e.adapterOf (subj.paths ++ clip.paths).flatten
    FloatOverlay.withSubjAndClip e subj clip =
      some ⟨overlaySegments (a.round subj.paths) (a.round clip.paths), a⟩ := by
  intro a
  unfold FloatOverlay.withSubjAndClip
  rw [loop_eq, Option.bind_some, loop_eq, Option.bind_some, addSource_eq, Option.bind_some, addSource_eq]
  rfl

theorem withSubj_eq (e : FloatEnv P T) (subj : Resource P) :
    let a := e.adapterOf subj.paths.flatten
    FloatOverlay.withSubj e subj = some ⟨overlaySegments (a.round subj.paths) [], a⟩ := by
  intro a
  unfold FloatOverlay.withSubj
  rw [loop_eq, Option.bind_some, addSource_eq]
  simp [overlaySegments, FloatOverlay.withAdapter, OverlayB.new, a]

/-- C54: the floating point overlay is the integer overlay of the rounded contours, converted back. -/
theorem C54_overlay (e : FloatEnv P T) (k : Config) (x : Bool → Externals) (subj clip : Resource P) (r : OverlayRule)
    (rule : FillRule) (cw : Bool) (f : ContourFilter T) :
    let a := e.adapterOf (subj.paths ++ clip.paths).flatten
    ((FloatOverlay.withSubjAndClip e subj clip).bind fun o => o.overlayCustom e k x r rule cw f) =
      (overlayCustom k (x f.simplifyContour) r rule cw (a.sqrToInt f.minArea)
        (overlaySegments (a.round subj.paths) (a.round clip.paths))).map fun shapes =>
          if f.cleanResult then e.cleanFloat a (a.shapes shapes) else a.shapes shapes := by
  intro a
  rw [C54_builder]
  rfl

/-- C54: so are extraction from a graph, the default overlay and `simplify_shape`. -/
theorem C54_graph_single_simplify (e : FloatEnv P T) (k : Config) (x : Bool → Externals) (xg : Externals)
    (subj clip : Resource P) (r : OverlayRule) (rule : FillRule) (cw : Bool) (f : ContourFilter T) (minArea : T) :
    (let a := e.adapterOf (subj.paths ++ clip.paths).flatten;
      ((FloatOverlay.withSubjAndClip e subj clip).bind (fun o => o.intoGraph k xg rule)).bind
          (fun g => g.extractShapesCustom e x r cw f) =
        ((intoGraph k xg rule (overlaySegments (a.round subj.paths) (a.round clip.paths))).bind
          (fun g => extractShapesCustom (x f.simplifyContour) g r cw (a.sqrToInt f.minArea))).map fun shapes =>
            if f.cleanResult then e.cleanFloat a (a.shapes shapes) else a.shapes shapes) ∧
    (let a := e.adapterOf (subj.paths ++ clip.paths).flatten;
      floatOverlay e k x subj clip r rule =
        (overlayCustom k (x true) r rule false (a.sqrToInt e.zero)
          (overlaySegments (a.round subj.paths) (a.round clip.paths))).map fun shapes =>
            if e.bits ≤ 32 then e.cleanFloat a (a.shapes shapes) else a.shapes shapes) ∧
    (let a := e.adapterOf subj.paths.flatten;
      floatSimplify e k x subj rule cw minArea =
        (overlayCustom k (x true) .subject rule cw (a.sqrToInt minArea)
          (overlaySegments (a.round subj.paths) [])).map fun shapes => e.cleanFloat a (a.shapes shapes)) := by
  refine ⟨?_, ?_, ?_⟩
  · intro a
    rw [C54_builder, Option.bind_some]
    unfold FloatOverlay.intoGraph
    cases intoGraph k xg rule (overlaySegments (a.round subj.paths) (a.round clip.paths)) <;> rfl
  · intro a
    unfold floatOverlay
    rw [C54_overlay]
    simp [FloatEnv.defaultFilter, a]
  · intro a
    unfold floatSimplify
    rw [withSubj_eq]
    rfl

/-- C54: contours, lists of contours and shapes with the same paths give the same result. -/
theorem C54_nesting (e : FloatEnv P T) (subj subj' clip clip' : Resource P) (hs : subj.paths = subj'.paths)
    (hc : clip.paths = clip'.paths) :
    FloatOverlay.withSubjAndClip e subj clip = FloatOverlay.withSubjAndClip e subj' clip' ∧
      FloatOverlay.withSubj e subj = FloatOverlay.withSubj e subj' ∧
      FloatString.withShapeAndString e subj clip = FloatString.withShapeAndString e subj' clip' := by
  have e1 : FloatString.addShapes (P := P) (T := T) = fun o r => (some r.paths).map fun ps => ps.foldl FloatString.addShapeContour o := by
    funext o r; unfold FloatString.addShapes; rw [loop_eq]
  have e2 : FloatString.addLines (P := P) (T := T) = fun o r => (some r.paths).map fun ps => ps.foldl FloatString.addLine o := by
    funext o r; unfold FloatString.addLines; rw [loop_eq]
  refine ⟨?_, ?_, ?_⟩
  · rw [C54_builder, C54_builder, hs, hc]
  · rw [withSubj_eq, withSubj_eq, hs]
  · unfold FloatString.withShapeAndString
    simp only [loop_eq, e1, e2, hs, hc]

/-- C54: the order of the paths makes no difference either, if the adapter does not depend on the order of the
points (it is computed from their bounding box). -/
theorem C54_order (e : FloatEnv P T) (he : ∀ l l' : List P, l.Perm l' → e.adapterOf l = e.adapterOf l')
    (k : Config) (x : Bool → Externals) (subj subj' clip clip' : Resource P) (hs : subj.paths.Perm subj'.paths)
    (hc : clip.paths.Perm clip'.paths) (r : OverlayRule) (rule : FillRule) (cw : Bool) (f : ContourFilter T) :
    ((FloatOverlay.withSubjAndClip e subj clip).bind fun o => o.overlayCustom e k x r rule cw f) =
      (FloatOverlay.withSubjAndClip e subj' clip').bind fun o => o.overlayCustom e k x r rule cw f := by
  rw [C54_overlay, C54_overlay]
  have ha : e.adapterOf (subj.paths ++ clip.paths).flatten = e.adapterOf (subj'.paths ++ clip'.paths).flatten :=
    he _ _ ((hs.append hc).flatten)
  rw [← ha]
  have hp : (overlaySegments ((e.adapterOf (subj.paths ++ clip.paths).flatten).round subj.paths)
      ((e.adapterOf (subj.paths ++ clip.paths).flatten).round clip.paths) : List (Seg CountBool)).Perm
      (overlaySegments ((e.adapterOf (subj.paths ++ clip.paths).flatten).round subj'.paths)
        ((e.adapterOf (subj.paths ++ clip.paths).flatten).round clip'.paths)) :=
    ((hs.map _).flatMap_right _).append ((hc.map _).flatMap_right _)
  rw [(sameResults_of_perm k (x f.simplifyContour) hp (overlaySegments_nonempty _ _)).overlay]

/-! ### what is returned -/

theorem round_shapes (a : Adapter P T) (shapes : List (List (List Pt)))
    (h : ∀ s ∈ shapes, ∀ c ∈ s, ∀ p ∈ c, a.toInt (a.toFloat p) = p) :
    (a.shapes shapes).map a.round = shapes := by
  unfold Adapter.shapes Adapter.round
  rw [List.map_map]
  refine (List.map_congr_left fun s hs => ?_).trans (List.map_id _)
  rw [Function.comp, List.map_map]
  refine (List.map_congr_left fun c hc => ?_).trans (List.map_id _)
  rw [Function.comp, List.map_map]
  refine (List.map_congr_left fun p hp => ?_).trans (List.map_id _)
  exact h s hs c hc p hp

/-- C54: if converting an integer point to floating point and back gives the point again, the region covered by the
returned shapes, rounded with the adapter of the call, is the boolean combination of the regions of the rounded
input (no area limit, no cleaning of the result). -/
theorem C54_region (e : FloatEnv P T) (k : Config) (x : Bool → Externals) (subj clip : Resource P) (r : OverlayRule)
    (rule : FillRule) (cw : Bool) (f : ContourFilter T) (ha : Assumed k (x f.simplifyContour)) (hclean : f.cleanResult = false)
    (a : Adapter P T) (hadapt : a = e.adapterOf (subj.paths ++ clip.paths).flatten)
    (hround : ∀ p, a.toInt (a.toFloat p) = p) (hmin : a.sqrToInt f.minArea = 0)
    (hf : FragFor k (a.round subj.paths) (a.round clip.paths)) (out : List (List (List P)))
    (h : ((FloatOverlay.withSubjAndClip e subj clip).bind fun o => o.overlayCustom e k x r rule cw f) = some out) :
    ∃ segs, nodedEdges k.st k.sr k.tree k.fuel (overlaySegments (a.round subj.paths) (a.round clip.paths)) = some segs ∧
      ∀ q : QPt, polysWind (out.map a.round).flatten q % 2 = 1 ↔
        r.op (rule.inside (segsWind CountBool.subj segs q)) (rule.inside (segsWind CountBool.clip segs q)) = true := by
  have h0 := C54_overlay e k x subj clip r rule cw f
  dsimp only at h0
  rw [h0, ← hadapt, hmin, hclean] at h
  obtain ⟨shapes, hs, hout⟩ := Option.map_eq_some_iff.1 h
  rw [if_neg (by simp)] at hout
  obtain ⟨segs, h1, h2⟩ := C01_overlay k _ ha r rule cw _ _ hf shapes hs
  refine ⟨segs, h1, fun q => ?_⟩
  rw [← hout, round_shapes a shapes fun _ _ _ _ p _ => hround p]
  exact h2 q

/-! ### strings -/

theorem addLine_eq (o : FloatString P T) (path : List P) :
    o.addLine path = ⟨o.overlay ++ addStringPath (path.map o.adapter.toInt), o.adapter⟩ := by
  have hl : ∀ (p : P) (l : List P) (o : FloatString P T),
      (windows2 (p :: l)).foldl
        (fun o w => { o with overlay := o.overlay.addLine (o.adapter.toInt w.1, o.adapter.toInt w.2) }) o =
      ⟨o.overlay ++ stringLoop (o.adapter.toInt p) (l.map o.adapter.toInt), o.adapter⟩ := by
    intro p l
    induction l generalizing p with
    | nil => intro o; simp [windows2, stringLoop]
    | cons q l ih =>
      intro o
      rw [windows2, List.foldl_cons, ih]
      simp [StringB.addLine, stringLoop]
  unfold FloatString.addLine
  match path with
  | [] => simp [windows2, addStringPath]
  | [p] => simp [windows2, addStringPath]
  | p :: q :: l =>
    rw [hl]
    simp [addStringPath]

theorem withShapeAndString_eq (e : FloatEnv P T) (shape string : Resource P) :
    let a := e.adapterOf (shape.paths ++ string.paths).flatten
    FloatString.withShapeAndString e shape string =
      some ⟨stringSegments (a.round shape.paths) (a.round string.paths) [], a⟩ := by
  intro a
  have e1 : ∀ (o : FloatString P T) (ps : List (List P)), ps.foldl FloatString.addShapeContour o =
      ⟨o.overlay ++ (o.adapter.round ps).flatMap (appendContour .subject), o.adapter⟩ := by
    intro o ps
    induction ps generalizing o with
    | nil => simp [Adapter.round]
    | cons c l ih =>
      rw [List.foldl_cons, ih]
      simp [FloatString.addShapeContour, StringB.addShapeContour, Adapter.round]
  have e2 : ∀ (o : FloatString P T) (ps : List (List P)), ps.foldl FloatString.addLine o =
      ⟨o.overlay ++ (o.adapter.round ps).flatMap addStringPath, o.adapter⟩ := by
    intro o ps
    induction ps generalizing o with
    | nil => simp [Adapter.round]
    | cons c l ih =>
      rw [List.foldl_cons, ih, addLine_eq]
      simp [Adapter.round]
  unfold FloatString.withShapeAndString FloatString.addShapes FloatString.addLines
  rw [loop_eq, Option.bind_some, loop_eq, Option.bind_some, Option.map_some, Option.bind_some, Option.map_some, e1, e2]
  simp [stringSegments, StringB.new, a]

/-- C54 (strings): floating point clipping and slicing are the integer operations on the rounded shape and the
rounded lines, converted back. -/
theorem C54_strings (e : FloatEnv P T) (k : StrConfig) (x : Externals) (order : List Pt → Bool) (shape string : Resource P)
    (rule : FillRule) (clip : ClipRule) (cw : Bool) (f : ContourFilter T) :
    let a := e.adapterOf (shape.paths ++ string.paths).flatten
    floatClip e k x.sortE string shape rule clip =
        (clipLines clip rule k.st k.sr k.tree k.scan k.fuel x.sortE
          (stringSegments (a.round shape.paths) (a.round string.paths) [])).map
            (fun paths => paths.map fun p => p.map a.toFloat) ∧
      floatSlice e k x order shape string rule cw f =
        ((stringGraph rule k.st k.sr k.tree k.scan k.fuel x.sortE
          (stringSegments (a.round shape.paths) (a.round string.paths) [])).bind
            (sliceShapes x order cw (a.sqrToInt f.minArea))).map fun shapes =>
              if f.cleanResult then e.cleanFloat a (a.shapes shapes) else a.shapes shapes := by
  intro a
  constructor
  · unfold floatClip
    rw [withShapeAndString_eq]
    rfl
  · unfold floatSlice
    rw [withShapeAndString_eq]
    rfl

end

/-! ### examples -/

/-- Groups, some of them empty. -/
example : (Resource.triple [[], [[1, 2], []], [], [[3]]] : Resource Nat).loop = some [[1, 2], [], [3]] :=
  (loop_eq _).trans (by decide)

/-- Coordinates in tenths, rounded down to integers. -/
def exAdapter : Adapter (Int × Int) Int := ⟨fun p => ⟨p.1 / 10, p.2 / 10⟩, fun p => (p.x * 10, p.y * 10), Int.toNat⟩

def exEnv : FloatEnv (Int × Int) Int := ⟨fun _ => exAdapter, fun _ s => s, 0, 64⟩

theorem exAdapter_round (p : Pt) : exAdapter.toInt (exAdapter.toFloat p) = p := by
  cases p with
  | mk x y =>
    have h : ∀ z : Int, z * 10 / 10 = z := fun z => Int.mul_ediv_cancel _ (by decide)
    simp [exAdapter, h]

/-- The hypotheses of `C54_region` are met, and something is returned. -/
example :
    Assumed exConfig exExternals ∧
    ((FloatOverlay.withSubjAndClip exEnv (.single [(5, 3), (2009, 7), (1008, 1504)])
        (.double [[(3000, 0), (4000, 0), (3000, 1000)], []])).bind fun o =>
          o.overlayCustom exEnv exConfig (fun _ => exExternals) .union .nonZero false ⟨0, false, false⟩).isSome = true := by
  refine ⟨exAssumed, ?_⟩
  rw [C54_overlay]
  decide +kernel

end IOverlay
