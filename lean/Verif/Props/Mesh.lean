/-
Strokes: C48 (registered edges are balanced), C49 (the result of a stroke), C50 (panics and paths that contribute
nothing), C51 (what a stroke or an outline consists of).
-/
import Verif.MeshLemmas
import Verif.Props.Attach
import Verif.Props.Bounds

namespace IOverlay
open WindingCount
variable {T P : Type}

/-- The contracts of the external parts used for offset edges. -/
structure OffAssumed (k : OffConfig) (x : Externals) : Prop where
  tree : k.tree.Ok
  scan : k.scan.Ok
  sortE : EndSort x.sortE
  clean : CleanOk x.clean

/-! ### the registered edges -/

theorem mapM_forall₂ {α β : Type} {f : α → Option β} : ∀ {l : List α} {m : List β}, l.mapM f = some m →
    List.Forall₂ (fun a b => f a = some b) l m := by
  intro l
  induction l with
  | nil => intro m h; simp at h; subst h; exact .nil
  | cons a l ih =>
    intro m h
    rw [List.mapM_cons] at h
    obtain ⟨b, hb, h⟩ := Option.bind_eq_some_iff.1 h
    obtain ⟨bs, hbs, h⟩ := Option.bind_eq_some_iff.1 h
    cases h
    exact .cons hb (ih hbs)

section
variable (o : FloatOps T P)

/-- The edges of one path. -/
def pathSegments (s : StrokeParams T P) (closed : Bool) (path : List P) : Option (List (Seg CountOff)) :=
  if closed then some (o.closedSegments s.radius s.join path)
  else o.openSegments s.radius s.join s.startCap s.endCap path

theorem strokeSegments_paths {s : StrokeParams T P} {closed : Bool} {paths : List (List P)} {segs : List (Seg CountOff)}
    (h : o.strokeSegments s closed paths = some segs) :
    ∃ ls, List.Forall₂ (fun path l => pathSegments o s closed path = some l) paths ls ∧ segs = ls.flatten := by
  unfold FloatOps.strokeSegments at h
  obtain ⟨ls, h1, h2⟩ := Option.map_eq_some_iff.1 h
  exact ⟨ls, mapM_forall₂ h1, h2.symm⟩

theorem pathSegments_pieces {s : StrokeParams T P} {closed : Bool} {path : List P} {l : List (Seg CountOff)}
    (h : pathSegments o s closed path = some l) : ∃ cs, StrokePieces o s closed path cs ∧ Circuits cs l := by
  have hnil : Circuits [] [] := Circuits.nil
  unfold pathSegments at h
  unfold StrokePieces
  cases closed
  · simp only [Bool.false_eq_true, if_false] at h ⊢
    obtain ⟨p0, rest, h1, h2, h3⟩ := openSegments_circuits o h
    rcases h3 with ⟨h3, rfl⟩ | ⟨s0, sn, cs, h4, h5, h6, h7⟩
    · exact ⟨[], ⟨p0, rest, h1, h2, Or.inl ⟨h3, rfl⟩⟩, hnil⟩
    · exact ⟨_, ⟨p0, rest, h1, h2, Or.inr ⟨s0, sn, cs, h4, h5, h6, rfl⟩⟩, h7⟩
  · simp only [if_true, Option.some.injEq] at h ⊢
    subst h
    rcases closedSegments_circuits o s.radius s.join path with ⟨h1, h2⟩ | ⟨s0, sn, cs, top, bot, h1, h2, h3, h4, h5, h6⟩
    · rw [h2]; exact ⟨[], Or.inl ⟨h1, rfl⟩, hnil⟩
    · exact ⟨_, Or.inr ⟨s0, sn, cs, top, bot, h1, h2, h3, h4, h5, rfl⟩, h6⟩

theorem strokeSegments_pieces {s : StrokeParams T P} {closed : Bool} {paths : List (List P)} {segs : List (Seg CountOff)}
    (h : o.strokeSegments s closed paths = some segs) :
    ∃ css, List.Forall₂ (StrokePieces o s closed) paths css ∧ Circuits css.flatten segs := by
  obtain ⟨ls, h1, rfl⟩ := strokeSegments_paths o h
  clear h
  induction h1 with
  | nil => exact ⟨[], .nil, Circuits.nil⟩
  | cons h _ ih =>
    obtain ⟨cs, h1, h2⟩ := pathSegments_pieces o h
    obtain ⟨css, h3, h4⟩ := ih
    exact ⟨cs :: css, .cons h1 h3, by rw [List.flatten_cons, List.flatten_cons]; exact h2.append h4⟩

/-- C48 (strokes): the edges registered for any stroke are balanced: at every grid point as many boundary lines start
as end there. Nothing is assumed about the floating point operations. -/
theorem C48_stroke (s : StrokeParams T P) (closed : Bool) (paths : List (List P)) (segs : List (Seg CountOff))
    (h : o.strokeSegments s closed paths = some segs) : Balanced CountOff.subj segs := by
  obtain ⟨css, -, h⟩ := strokeSegments_pieces o h
  exact (closed_iff_balanced _ _).1 h.closed

/-- C48 (outlines). -/
theorem C48_outline (radius : T) (j : Join T) (path : List P) :
    Balanced CountOff.subj (o.outlineSegments radius j path) := by
  rcases outlineSegments_circuits o radius j path with ⟨-, h⟩ | ⟨_, c, -, -, h⟩
  · rw [h]; exact (closed_iff_balanced _ _).1 fun _ => rfl
  · exact (closed_iff_balanced _ _).1 h.closed

/-- C51 (strokes): the winding number of the registered edges around any point is the sum of the winding numbers of
the pieces of all paths: the rectangles of the sections, the joints and the caps; and every registered edge joins two
consecutive vertices of a piece. -/
theorem C51_stroke (s : StrokeParams T P) (closed : Bool) (paths : List (List P)) (segs : List (Seg CountOff))
    (h : o.strokeSegments s closed paths = some segs) :
    ∃ css, List.Forall₂ (StrokePieces o s closed) paths css ∧
      (∀ q, segsWind CountOff.subj segs q = polysWind css.flatten q) ∧ EdgesOf (css.flatten.flatMap polyEdges) segs := by
  obtain ⟨css, h1, h⟩ := strokeSegments_pieces o h
  exact ⟨css, h1, h.wind, h.edges⟩

/-- C51 (outlines): the winding number of the registered edges is that of the shifted contour, and
every registered edge joins two consecutive vertices of it. -/
theorem C51_outline (radius : T) (j : Join T) (path : List P) :
    ∃ cs, OutlinePieces o radius j path cs ∧
      (∀ q, segsWind CountOff.subj (o.outlineSegments radius j path) q = polysWind cs q) ∧
      EdgesOf (cs.flatMap polyEdges) (o.outlineSegments radius j path) := by
  unfold OutlinePieces
  rcases outlineSegments_circuits o radius j path with ⟨h1, h⟩ | ⟨s0, c, h1, h2, h⟩
  · rw [h]; exact ⟨[], Or.inl ⟨h1, rfl⟩, fun _ => rfl, EdgesOf.nil _⟩
  · exact ⟨[c], Or.inr ⟨s0, c, h1, h2, rfl⟩, h.wind, h.edges⟩

/-! ### all edges of a stroke are bold -/

/-- An edge registered by `bold_subject_ab`. -/
def Drawn (e : Seg CountOff) : Prop := ∃ p q, e = boldAB p q

theorem Drawn.bold {e : Seg CountOff} (h : Drawn e) : e.c.bold = true := by
  obtain ⟨p, q, rfl⟩ := h; unfold boldAB; split <;> rfl

theorem Drawn.nonempty {e : Seg CountOff} (h : Drawn e) : isNotEmpty e.c = true := by
  obtain ⟨p, q, rfl⟩ := h; unfold boldAB; split <;> rfl

theorem Drawn.lt {e : Seg CountOff} (h : Drawn e) (hne : e.a ≠ e.b) : e.a < e.b := by
  obtain ⟨p, q, rfl⟩ := h
  unfold boldAB at hne ⊢
  split
  · rename_i h; exact h
  · rename_i h
    rw [if_neg h] at hne
    rcases Pt.lt_tri p q with h' | h' | h'
    · exact absurd h' h
    · exact absurd h'.symm hne
    · exact h'

def AllDrawn (l : List (Seg CountOff)) : Prop := ∀ e ∈ l, Drawn e

theorem AllDrawn.nil : AllDrawn [] := by intro e he; cases he
theorem AllDrawn.one (p q : Pt) : AllDrawn [boldAB p q] := by
  intro e he; rw [List.mem_singleton] at he; exact ⟨p, q, he⟩
theorem AllDrawn.append {l m : List (Seg CountOff)} (h : AllDrawn l) (h' : AllDrawn m) : AllDrawn (l ++ m) := by
  intro e he
  rcases List.mem_append.1 he with he | he
  · exact h e he
  · exact h' e he
theorem AllDrawn.ite {c : Prop} [Decidable c] {l m : List (Seg CountOff)} (h : AllDrawn l) (h' : AllDrawn m) :
    AllDrawn (if c then l else m) := by split <;> assumption

theorem allDrawn_cap (ps : List Pt) (a : Pt) : AllDrawn (capLoop a ps).1 := by
  induction ps generalizing a with
  | nil => exact .nil
  | cons m rest ih => rw [capLoop]; exact (AllDrawn.one a m).append (ih m)

theorem allDrawn_arc {push : Pt → Pt → Seg CountOff} (hp : ∀ a b, Drawn (push a b)) (ps : List Pt) (a : Pt) :
    AllDrawn (arcLoop push a ps).1 := by
  induction ps generalizing a with
  | nil => exact .nil
  | cons m rest ih =>
    rw [arcLoop]
    split
    · intro e he
      rcases List.mem_cons.1 he with rfl | he
      · exact hp _ _
      · exact ih m e he
    · exact ih a

theorem allDrawn_addSection (s : Section P) : AllDrawn (o.addSection s) :=
  (AllDrawn.one _ _).append (AllDrawn.one _ _)

theorem allDrawn_joinTop (s0 s1 : Section P) : AllDrawn (o.joinTop s0 s1) := .ite (.one _ _) .nil
theorem allDrawn_joinBot (s0 s1 : Section P) : AllDrawn (o.joinBot s0 s1) := .ite (.one _ _) .nil

theorem allDrawn_sharp (pa pb va vb : P) : AllDrawn
    (match o.sharp pa pb va vb with
      | .ab a b => [boldAB b a]
      | .acb a c b => [boldAB c a, boldAB b c]
      | .degenerate => []) := by
  split
  · exact .one _ _
  · exact (AllDrawn.one _ _).append (.one _ _)
  · exact .nil

theorem allDrawn_addJoin (j : Join T) (s0 s1 : Section P) : AllDrawn (o.addJoin j s0 s1) := by
  have ht := allDrawn_joinTop o s0 s1
  have hb := allDrawn_joinBot o s0 s1
  cases j with
  | bevel => exact ht.append hb
  | miter l m e =>
    unfold FloatOps.addJoin
    dsimp only
    unfold FloatOps.miterJoin
    dsimp only
    split
    · exact ht.append hb
    · generalize o.lt o.zero (o.cross s0.dir s1.dir) = turn
      cases turn
      · simp only [Bool.false_eq_true, if_false]
        split
        · exact .ite hb (((hb.append (.ite (.one _ _) .nil)).append (.ite (.one _ _) .nil)).append (.ite (.one _ _) .nil))
        · exact hb.append (allDrawn_sharp o _ _ _ _)
      · simp only [if_true]
        split
        · exact .ite ht (((ht.append (.ite (.one _ _) .nil)).append (.ite (.one _ _) .nil)).append (.ite (.one _ _) .nil))
        · exact ht.append (allDrawn_sharp o _ _ _ _)
  | round l r e =>
    unfold FloatOps.addJoin
    dsimp only
    unfold FloatOps.roundJoin
    dsimp only
    split
    · exact ht.append hb
    · refine ((?_ : AllDrawn _).append (allDrawn_arc (fun a b => ⟨b, a, rfl⟩) _ _)).append (.ite (.one _ _) .nil)
      split
      · exact ht
      · exact hb

theorem allDrawn_loop (radius : T) (j : Join T) (l : List P) (s0 : Section P) (ip0 : Pt) :
    AllDrawn (o.sectionLoop radius j s0 ip0 l).1 := by
  induction l generalizing s0 ip0 with
  | nil => exact .nil
  | cons p rest ih =>
    rw [FloatOps.sectionLoop]
    split
    · exact ih s0 ip0
    · exact ((allDrawn_addJoin o j _ _).append (allDrawn_addSection o _)).append (ih _ _)

theorem allDrawn_open {radius : T} {j : Join T} {c0 c1 : CapPoints P} {path : List P} {segs : List (Seg CountOff)}
    (h : o.openSegments radius j c0 c1 path = some segs) : AllDrawn segs := by
  unfold FloatOps.openSegments at h
  split at h
  · cases h
  · cases h
  · split at h
    · cases h; exact .nil
    · cases h
      exact (((((allDrawn_cap _ _).append (.one _ _)).append (allDrawn_addSection o _)).append
        (allDrawn_loop o _ _ _ _ _))).append ((allDrawn_cap _ _).append (.one _ _))

theorem allDrawn_closed (radius : T) (j : Join T) (path : List P) : AllDrawn (o.closedSegments radius j path) := by
  unfold FloatOps.closedSegments
  split
  · exact .nil
  · exact .nil
  · dsimp only
    split
    · exact .nil
    · exact ((allDrawn_addSection o _).append (allDrawn_loop o _ _ _ _ _)).append (allDrawn_addJoin o j _ _)

theorem allDrawn_stroke {s : StrokeParams T P} {closed : Bool} {paths : List (List P)} {segs : List (Seg CountOff)}
    (h : o.strokeSegments s closed paths = some segs) : AllDrawn segs := by
  obtain ⟨ls, h1, rfl⟩ := strokeSegments_paths o h
  clear h
  induction h1 with
  | nil => exact .nil
  | cons h _ ih =>
    rw [List.flatten_cons]
    refine AllDrawn.append ?_ ih
    unfold pathSegments at h
    split at h
    · cases h; exact allDrawn_closed o _ _ _
    · exact allDrawn_open o h

end

/-! ### the result of a stroke -/

/-- Graph and extraction for bold edges: extraction of the subject under the positive fill rule. -/
theorem drawn_run {k : OffConfig} {x : Externals} (ha : OffAssumed k x) {cw : Bool} {minArea : Nat}
    {segs : List (Seg CountOff)} (hd : AllDrawn segs) (hb : Balanced CountOff.subj segs) (hz : ∀ e ∈ segs, e.a ≠ e.b)
    (hf : FragOk k.st k.sr segs) {shapes : List (List (List Pt))}
    (h : offsetShapes k x cw minArea segs = some shapes) :
    ∃ (r : List (Seg CountOff)) (g : Graph) (V : List Pt), nodedEdges k.st k.sr k.tree k.fuel segs = some r ∧ Planar r ∧
      OffOk r ∧ g.links.map (fun l => (l.a, l.b, l.fill)) = r.map (fun s => (s.a, s.b, fillOfOff r s)) ∧
      RunOk .positive .subject (r.map Seg.toBool) g.masked V (g.masked.links.map fun l => maskFilter .subject l.fill) ∧
      extract x g.masked .subject cw minArea (g.masked.links.map fun l => maskFilter .subject l.fill) = some shapes := by
  have hl : ∀ s ∈ segs, s.a < s.b := fun s hs => (hd s hs).lt (hz s hs)
  have hok : OffOk segs := ⟨(closed_iff_balanced _ _).2 hb, fun s hs => (hd s hs).nonempty⟩
  obtain ⟨r, g, V, h1, h2, h3, h4, h5, h6, h7, h8⟩ := offset_run ha.tree ha.scan ha.sortE hl hok hf h
  refine ⟨r, g, V, h1, h2, h3, h4, h5, ?_⟩
  have hrb : ∀ s ∈ r, s.c.bold = true := by
    unfold nodedEdges at h1
    split at h1
    · cases h1; simp
    · exact offset_bold ha.tree hl hok hf (fun s hs => (hd s hs).bold) h1
  refine h8 x.clean (boldOnly_self ?_ _)
  intro l hlm
  have : (l.a, l.b, l.fill) ∈ g.links.map (fun l => (l.a, l.b, l.fill)) := List.mem_map.2 ⟨l, hlm, rfl⟩
  rw [h4] at this
  obtain ⟨s, hs, e⟩ := List.mem_map.1 this
  simp only [Prod.mk.injEq] at e
  unfold Link.isBold
  rw [← e.2.2]
  unfold fillOfOff
  rw [hrb s hs]
  generalize decide (botW CountOff.subj r s + s.c.subj > 0) = a
  generalize decide (botW CountOff.subj r s > 0) = b
  cases a <;> cases b <;> decide

/-- The region has different sides along the edge. -/
noncomputable def offBoundary (r : List (Seg CountOff)) (e : Seg CountOff) : Bool :=
  decide (botW CountOff.subj r e + e.c.subj > 0) != decide (botW CountOff.subj r e > 0)

theorem offBoundary_links {r : List (Seg CountOff)} {g : Graph}
    (h : g.links.map (fun l => (l.a, l.b, l.fill)) = r.map (fun s => (s.a, s.b, fillOfOff r s))) :
    ((g.masked.links.filter fun l => !maskFilter .subject l.fill).map fun l => (l.a, l.b)) =
      (r.filter (offBoundary r)).map fun e => (e.a, e.b) := by
  have hB : ∀ e, offBoundary r e = !maskFilter .subject (fillOfOff r e) := by
    intro e
    unfold offBoundary fillOfOff
    generalize decide (botW CountOff.subj r e + e.c.subj > 0) = a
    generalize decide (botW CountOff.subj r e > 0) = b
    generalize e.c.bold = c
    revert a b c; decide
  have e1 : (g.masked.links.filter fun l => !maskFilter .subject l.fill).map (fun l => (l.a, l.b)) =
      (g.links.filter fun l => !maskFilter .subject l.fill).map fun l => (l.a, l.b) := by
    unfold Graph.masked
    rw [List.filter_map, List.map_map]
    refine congrArg₂ _ rfl (List.filter_congr fun l _ => ?_)
    simp only [Function.comp, maskFilter_subjBits]
  rw [e1, List.filter_congr fun e _ => hB e]
  have := congrArg (fun l : List (Pt × Pt × Fill) =>
    (l.filter fun t => !maskFilter .subject t.2.2).map fun t => (t.1, t.2.1)) h
  rwa [List.filter_map, List.filter_map, List.map_map, List.map_map] at this

theorem offBoundary_spec {r : List (Seg CountOff)} (hp : Planar r) (hok : OffOk r) {e : Seg CountOff} (he : e ∈ r)
    {m : QPt} (hm : inSeg m e.a e.b) : ∃ ε : ℚ, 0 < ε ∧ ∀ δ, 0 < δ → δ < ε →
      (offBoundary r e = true ↔ ¬ (0 < segsWind CountOff.subj r (leftOf e.a e.b m δ) ↔
        0 < segsWind CountOff.subj r (rightOf e.a e.b m δ))) := by
  obtain ⟨ε, h1, h2⟩ := hp.near hok.1 he hm
  refine ⟨ε, h1, fun δ d0 d1 => ?_⟩
  obtain ⟨h3, h4⟩ := h2 δ d0 d1
  rw [h3, h4]
  unfold offBoundary
  by_cases c1 : botW CountOff.subj r e + e.c.subj > 0 <;> by_cases c2 : botW CountOff.subj r e > 0 <;>
    simp [c1, c2]

/-- What a stroke with registered edges `segs` returns. -/
theorem drawn_result {k : OffConfig} {x : Externals} (ha : OffAssumed k x) {cw : Bool}
    {segs : List (Seg CountOff)} (hd : AllDrawn segs) (hb : Balanced CountOff.subj segs) (hz : ∀ e ∈ segs, e.a ≠ e.b)
    (hf : FragOk k.st k.sr segs) {shapes : List (List (List Pt))}
    (h : offsetShapes k x cw 0 segs = some shapes) :
    ∃ r : List (Seg CountOff), nodedEdges k.st k.sr k.tree k.fuel segs = some r ∧
      (∀ q, polysWind shapes.flatten q = outerTurn cw * if 0 < segsWind CountOff.subj r q then 1 else 0) ∧
      (∀ sh ∈ shapes, OrientedShape cw sh) ∧ shapes.flatten.Pairwise Nested := by
  obtain ⟨r, g, V, h1, -, -, -, h2, h3⟩ := drawn_run ha hd hb hz hf h
  obtain ⟨q1, q2, q3⟩ := h2.shapes_oriented cw ha.clean h3
  refine ⟨r, h1, fun q => ?_, q2, q3⟩
  rw [q1 q, segsWind_toBool]
  simp [OverlayRule.op, FillRule.inside]

section
variable (o : FloatOps T P)

/-- The registered edges of a stroke that reaches the graph. -/
theorem stroke_offset {k : OffConfig} {x : Externals} {s : StrokeParams T P} {small closed cw : Bool}
    {paths : List (List P)} {shapes : List (List (List Pt))} (h : o.stroke k x s small closed cw paths = some shapes) :
    ((paths = [] ∨ small = true) ∧ shapes = []) ∨
    ∃ segs, o.strokeSegments s closed paths = some segs ∧ offsetShapes k x cw 0 segs = some shapes := by
  unfold FloatOps.stroke at h
  split at h
  · rename_i hc
    cases h
    rw [Bool.or_eq_true, List.isEmpty_iff] at hc
    exact Or.inl ⟨hc, rfl⟩
  · split at h
    · cases h
    · obtain ⟨segs, h1, h2⟩ := Option.bind_eq_some_iff.1 h
      exact Or.inr ⟨segs, h1, h2⟩

/-- C49: a stroke whose registered edges are not degenerate returns the region where they wind positively around
(after noding): all contours together wind around its points exactly once, in the requested direction, and not at all
around other points; every shape is an outer contour followed by holes, winding at most once and oriented as
requested; contours are nested or disjoint. -/
theorem C49_stroke (k : OffConfig) (x : Externals) (ha : OffAssumed k x) (s : StrokeParams T P) (closed cw : Bool)
    (paths : List (List P)) (segs : List (Seg CountOff)) (hs : o.strokeSegments s closed paths = some segs)
    (hz : ∀ e ∈ segs, e.a ≠ e.b) (hf : FragOk k.st k.sr segs) (shapes : List (List (List Pt)))
    (h : o.stroke k x s false closed cw paths = some shapes) :
    ∃ r : List (Seg CountOff), nodedEdges k.st k.sr k.tree k.fuel segs = some r ∧
      (∀ q, polysWind shapes.flatten q = outerTurn cw * if 0 < segsWind CountOff.subj r q then 1 else 0) ∧
      (∀ sh ∈ shapes, OrientedShape cw sh) ∧ shapes.flatten.Pairwise Nested := by
  rcases stroke_offset o h with ⟨hp, rfl⟩ | ⟨segs', h1, h2⟩
  · rcases hp with rfl | hp
    · have : segs = [] := by simpa [FloatOps.strokeSegments] using hs.symm
      subst this
      refine ⟨[], rfl, fun q => ?_, by simp, List.Pairwise.nil⟩
      simp [polysWind, segsWind]
    · cases hp
  · rw [hs] at h1
    cases h1
    exact drawn_result ha (allDrawn_stroke o hs) (C48_stroke o s closed paths segs hs) hz hf h2

/-- C49 against the pieces: if no crossing had to be rounded (list strategy), the stroke covers exactly the points
around which the rectangles of the sections, the joints and the caps of all paths together wind positively. -/
theorem C49_stroke_pieces (k : OffConfig) (x : Externals) (ha : OffAssumed k x) (s : StrokeParams T P) (closed cw : Bool)
    (paths : List (List P)) (segs : List (Seg CountOff)) (hs : o.strokeSegments s closed paths = some segs)
    (hz : ∀ e ∈ segs, e.a ≠ e.b) (hst : k.st = .list)
    (hx : (roundMarks k.sr.radius (listPairs (mergeIfNeeded (sortSegs segs)))).2 = false)
    (shapes : List (List (List Pt))) (h : o.stroke k x s false closed cw paths = some shapes) :
    ∃ pieces, List.Forall₂ (StrokePieces o s closed) paths pieces ∧
      ∀ q, polysWind shapes.flatten q = outerTurn cw * if 0 < polysWind pieces.flatten q then 1 else 0 := by
  obtain ⟨css, c1, c2, -⟩ := C51_stroke o s closed paths segs hs
  obtain ⟨r, r1, r2, -⟩ := C49_stroke o k x ha s closed cw paths segs hs hz (by rw [hst]; exact FragOk.list _ _) shapes h
  refine ⟨css, c1, fun q => ?_⟩
  rw [r2, ← c2]
  unfold nodedEdges at r1
  split at r1
  · rename_i he
    cases r1
    rw [List.isEmpty_iff] at he
    rw [he]
  · rw [hst] at r1
    rw [C14_exact_split isComp_off k.sr k.tree k.fuel segs r
      (fun e he => (allDrawn_stroke o hs e he).lt (hz e he)) hx r1 q]

/-- C49: no point outside the pieces is covered (no crossing rounded). -/
theorem C49_stroke_covered (k : OffConfig) (x : Externals) (ha : OffAssumed k x) (s : StrokeParams T P) (closed cw : Bool)
    (paths : List (List P)) (segs : List (Seg CountOff)) (hs : o.strokeSegments s closed paths = some segs)
    (hz : ∀ e ∈ segs, e.a ≠ e.b) (hst : k.st = .list)
    (hx : (roundMarks k.sr.radius (listPairs (mergeIfNeeded (sortSegs segs)))).2 = false)
    (shapes : List (List (List Pt))) (h : o.stroke k x s false closed cw paths = some shapes) :
    ∃ pieces, List.Forall₂ (StrokePieces o s closed) paths pieces ∧
      ∀ q, polysWind shapes.flatten q ≠ 0 → ∃ c ∈ pieces.flatten, 0 < polyWind c q := by
  obtain ⟨css, c1, c2⟩ := C49_stroke_pieces o k x ha s closed cw paths segs hs hz hst hx shapes h
  refine ⟨css, c1, fun q hq => ?_⟩
  by_contra hn
  push Not at hn
  refine hq ?_
  rw [c2, if_neg, mul_zero]
  unfold polysWind
  have : ∀ l : List (List Pt), (∀ c ∈ l, polyWind c q ≤ 0) → (l.map fun c => polyWind c q).sum ≤ 0 := by
    intro l
    induction l with
    | nil => intro _; simp
    | cons c l ih =>
      intro h
      rw [List.map_cons, List.sum_cons]
      have h1 := h c (by simp)
      have h2 := ih fun c hc => h c (by simp [hc])
      omega
  have := this _ hn
  omega

/-- C49: the boundary. The returned contours are the cleaned versions of closed contours; their edges, put together,
are exactly the noded edges with the region of the stroke (positive winding) on one side only, each once. -/
theorem C49_stroke_edges (k : OffConfig) (x : Externals) (ha : OffAssumed k x) (s : StrokeParams T P) (closed cw : Bool)
    (paths : List (List P)) (segs : List (Seg CountOff)) (hs : o.strokeSegments s closed paths = some segs)
    (hz : ∀ e ∈ segs, e.a ≠ e.b) (hf : FragOk k.st k.sr segs) (shapes : List (List (List Pt)))
    (h : o.stroke k x s false closed cw paths = some shapes) :
    ∃ (r : List (Seg CountOff)) (contours : List (List Pt)) (B : Seg CountOff → Bool),
      nodedEdges k.st k.sr k.tree k.fuel segs = some r ∧ Planar r ∧
      shapes.flatten.Perm (contours.map fun c => (x.clean c).1) ∧
      ((contours.flatMap polyEdges).map leftToRight).Perm ((r.filter B).map fun e => (e.a, e.b)) ∧
      ∀ e ∈ r, ∀ m, inSeg m e.a e.b → ∃ ε : ℚ, 0 < ε ∧ ∀ δ, 0 < δ → δ < ε →
        (B e = true ↔ ¬ (0 < segsWind CountOff.subj r (leftOf e.a e.b m δ) ↔
          0 < segsWind CountOff.subj r (rightOf e.a e.b m δ))) := by
  rcases stroke_offset o h with ⟨hp, rfl⟩ | ⟨segs', h1, h2⟩
  · rcases hp with rfl | hp
    · have : segs = [] := by simpa [FloatOps.strokeSegments] using hs.symm
      subst this
      exact ⟨[], [], fun _ => true, rfl, ⟨by simp, List.Pairwise.nil, List.Pairwise.nil⟩, by simp, by simp, by simp⟩
    · cases hp
  · rw [hs] at h1
    cases h1
    obtain ⟨r, g, V, h1, hp, hok, h4, h2, h3⟩ :=
      drawn_run ha (allDrawn_stroke o hs) (C48_stroke o s closed paths segs hs) hz hf h2
    obtain ⟨cs, c1, c2⟩ := h2.edges_once cw ha.clean h3
    refine ⟨r, cs, offBoundary r, h1, hp, c1, ?_, fun e he m hm => offBoundary_spec hp hok he hm⟩
    rwa [offBoundary_links h4] at c2

/-! ### panics, endless walks, paths that contribute nothing -/

theorem openSegments_none (radius : T) (j : Join T) (c0 c1 : CapPoints P) (path : List P) :
    o.openSegments radius j c0 c1 path = none ↔ path.length < 2 := by
  unfold FloatOps.openSegments
  split
  · simp
  · simp
  · rename_i p0 rest hne
    cases rest with
    | nil => exact absurd rfl hne
    | cons p1 rest =>
      constructor
      · intro h; split at h <;> cases h
      · intro h; simp at h

/-- C50: registering the edges of a stroke panics (index out of range) exactly if an open path has fewer than two
points. -/
theorem C50_stroke_panics (s : StrokeParams T P) (closed : Bool) (paths : List (List P)) :
    o.strokeSegments s closed paths = none ↔ closed = false ∧ ∃ path ∈ paths, path.length < 2 := by
  have hm : ∀ l : List (List P), l.mapM (pathSegments o s closed) = none ↔
      ∃ path ∈ l, pathSegments o s closed path = none := by
    intro l
    induction l with
    | nil => simp
    | cons p l ih =>
      rw [List.mapM_cons]
      cases h : pathSegments o s closed p with
      | none => simp [h]
      | some v =>
        cases h' : l.mapM (pathSegments o s closed) with
        | none =>
          obtain ⟨path, h1, h2⟩ := ih.1 h'
          simp only [Option.bind_eq_bind, Option.bind_some, Option.bind_none, true_iff]
          exact ⟨path, List.mem_cons_of_mem _ h1, h2⟩
        | some w =>
          simp only [Option.bind_eq_bind, Option.bind_some, Option.pure_def, reduceCtorEq, false_iff, not_exists, not_and]
          intro path hp
          rcases List.mem_cons.1 hp with rfl | hp
          · rw [h]; simp
          · intro hn
            have := ih.2 ⟨path, hp, hn⟩
            rw [h'] at this; cases this
  unfold FloatOps.strokeSegments
  rw [Option.map_eq_none_iff]
  refine (hm paths).trans ?_
  unfold pathSegments
  cases closed
  · simp [openSegments_none]
  · simp

/-- C50: if the splitting phase of a stroke without degenerate edges finishes, the graph is built and every walk of
the extraction terminates: no endless loop, no index out of range. -/
theorem C50_stroke_terminates (k : OffConfig) (x : Externals) (ha : OffAssumed k x) (s : StrokeParams T P) (closed cw : Bool)
    (paths : List (List P)) (segs r : List (Seg CountOff)) (hs : o.strokeSegments s closed paths = some segs)
    (hz : ∀ e ∈ segs, e.a ≠ e.b) (hf : FragOk k.st k.sr segs)
    (hr : nodedEdges k.st k.sr k.tree k.fuel segs = some r) (minArea : Nat) :
    ∃ g e, offsetGraph k x segs = some g ∧ extractOffContours g cw x.clean minArea = some e := by
  have hd := allDrawn_stroke o hs
  obtain ⟨g, V, h1, -, -, -, h5, h6, h7, h8⟩ := offset_graph (k := k) (x := x) ha.tree ha.scan ha.sortE
    (fun s hs => (hd s hs).lt (hz s hs))
    ⟨(closed_iff_balanced _ _).2 (C48_stroke o s closed paths segs hs), fun s hs => (hd s hs).nonempty⟩ hf hr
  obtain ⟨ws, e, h, -⟩ := h5.extract cw (boldClean g x.clean) minArea
  exact ⟨g, e, h1, by rw [(h8 cw minArea _ (boldOnly_boldClean h6 h7 _)).1]; exact h⟩

theorem dedupFrom_const (ip : Pt) (l : List P) (h : ∀ p ∈ l, o.toInt p = ip) : o.dedupFrom ip l = [] := by
  induction l with
  | nil => rfl
  | cons p l ih => rw [FloatOps.dedupFrom, if_pos (h p (by simp))]; exact ih fun p hp => h p (by simp [hp])

/-- C50: a path all of whose points are the same grid point registers no edges; so does a closed path or an outline
with fewer than two points. -/
theorem C50_point_path (s : StrokeParams T P) (closed : Bool) (path : List P) (ip : Pt) (h : ∀ p ∈ path, o.toInt p = ip)
    (hl : closed = true ∨ 2 ≤ path.length) : o.strokeSegments s closed [path] = some [] := by
  have e : ∀ l, pathSegments o s closed path = some l → l = [] := by
    intro l hl
    unfold pathSegments at hl
    cases closed
    · simp only [Bool.false_eq_true, if_false] at hl
      obtain ⟨p0, rest, rfl, h2, h3⟩ := openSegments_circuits o hl
      rw [dedupFrom_const o _ rest fun p hp => (h p (by simp [hp])).trans (h p0 (by simp)).symm] at h3
      rcases h3 with h3 | ⟨s0, _, _, h3, -⟩
      · exact h3.2
      · cases h3
    · simp only [if_true, Option.some.injEq] at hl
      subst hl
      have hc : o.closedSections s.radius path = [] := by
        unfold FloatOps.closedSections
        split
        · rfl
        · rename_i last hlast
          rw [dedupFrom_const o _ path fun p hp => (h p hp).trans (h last (List.mem_of_getLast? hlast)).symm]; rfl
      rcases closedSegments_circuits o s.radius s.join path with h3 | ⟨s0, _, _, _, _, h3, -⟩
      · exact h3.2
      · rw [hc] at h3; cases h3
  cases hp : o.strokeSegments s closed [path] with
  | none =>
    rw [C50_stroke_panics] at hp
    obtain ⟨h1, p, h2, h3⟩ := hp
    rw [List.mem_singleton] at h2
    subst h2
    rcases hl with hl | hl
    · rw [hl] at h1; cases h1
    · omega
  | some segs =>
    obtain ⟨ls, h1, rfl⟩ := strokeSegments_paths o hp
    cases h1 with
    | cons h1 h2 => cases h2; rw [e _ h1]; rfl

/-- C50 (outlines). -/
theorem C50_point_outline (radius : T) (j : Join T) (path : List P) (ip : Pt) (h : ∀ p ∈ path, o.toInt p = ip) :
    o.outlineSegments radius j path = [] := by
  have hc : o.oClosedSections radius path = [] := by
    unfold FloatOps.oClosedSections
    split
    · rfl
    · rename_i last hlast
      rw [dedupFrom_const o _ path fun p hp => (h p hp).trans (h last (List.mem_of_getLast? hlast)).symm]; rfl
  rcases outlineSegments_circuits o radius j path with h3 | ⟨s0, _, h3, -⟩
  · exact h3.2
  · rw [hc] at h3; cases h3

end

/-! ### witnesses -/

/-- Integer arithmetic in place of floating point: exact for paths along the axes. -/
def intOps : FloatOps Int Pt where
  toInt p := p
  fromXY x y := ⟨x, y⟩
  x p := p.x
  y p := p.y
  vAdd p q := ⟨p.x + q.x, p.y + q.y⟩
  vSub p q := ⟨p.x - q.x, p.y - q.y⟩
  vScale p s := ⟨p.x * s, p.y * s⟩
  normalize p := ⟨p.x.sign, p.y.sign⟩
  dot p q := p.x * q.x + p.y * q.y
  cross p q := p.x * q.y - p.y * q.x
  add x y := x + y
  sub x y := x - y
  mul x y := x * y
  div x y := x / y
  neg x := -x
  abs x := x.natAbs
  lt x y := decide (x < y)
  le x y := decide (x ≤ y)
  zero := 0
  eps := 1
  arcCount _ := 2
  arcRotator _ _ := (1, 0)

def exOff : OffConfig := ⟨.list, ⟨0, 1⟩, bruteTree CountOff, listScanOracle, 5⟩

theorem exOff_assumed : OffAssumed exOff exRaw :=
  ⟨bruteTree_ok, listScanOracle_ok, insertionEndSort_ok, fun _ _ => rfl⟩

/-- A miter join with a large limit, radius 10, butt caps. -/
def exStroke : StrokeParams Int Pt := ⟨10, .miter (-1) 30 false, none, none⟩

/-- The stroke of a closed square path: a ring. -/
example : intOps.stroke exOff exRaw exStroke false true false [[⟨0, 0⟩, ⟨100, 0⟩, ⟨100, 100⟩, ⟨0, 100⟩]] =
    some [[[⟨-10, 0⟩, ⟨-10, -10⟩, ⟨0, -10⟩, ⟨100, -10⟩, ⟨110, -10⟩, ⟨110, 0⟩, ⟨110, 100⟩, ⟨110, 110⟩, ⟨100, 110⟩,
      ⟨0, 110⟩, ⟨-10, 110⟩, ⟨-10, 100⟩], [⟨10, 10⟩, ⟨10, 90⟩, ⟨90, 90⟩, ⟨90, 10⟩]]] := by
  decide +kernel

/-- Its edges are not degenerate and need no rounding. -/
example : ∃ segs, intOps.strokeSegments exStroke true [[⟨0, 0⟩, ⟨100, 0⟩, ⟨100, 100⟩, ⟨0, 100⟩]] = some segs ∧
    (∀ e ∈ segs, e.a ≠ e.b) ∧
    (roundMarks exOff.sr.radius (listPairs (mergeIfNeeded (sortSegs segs)))).2 = false := by
  refine ⟨(intOps.strokeSegments exStroke true [[⟨0, 0⟩, ⟨100, 0⟩, ⟨100, 100⟩, ⟨0, 100⟩]]).getD [], ?_, ?_, ?_⟩ <;>
    decide +kernel

/-- An open path with a repeated point and a square end cap. -/
example : intOps.stroke exOff exRaw { exStroke with endCap := some [⟨10, -10⟩, ⟨10, 10⟩] } false false false
    [[⟨0, 0⟩, ⟨0, 0⟩, ⟨100, 0⟩, ⟨100, 0⟩, ⟨100, 100⟩]] =
    some [[[⟨0, 10⟩, ⟨0, -10⟩, ⟨100, -10⟩, ⟨110, -10⟩, ⟨110, 0⟩, ⟨110, 100⟩, ⟨110, 110⟩, ⟨90, 110⟩, ⟨90, 100⟩,
      ⟨90, 10⟩]]] := by
  decide +kernel

end IOverlay
