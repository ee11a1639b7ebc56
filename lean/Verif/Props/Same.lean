/-
C68: the list of shapes returned is determined by the edges of the result.
-/
import Verif.Same
import Verif.Props.Filter
import Verif.Props.Shift

namespace IOverlay

/-- The ends of links. -/
def linkEnds (links : List Link) : List (Pt × Pt) := links.map fun l => (l.a, l.b)

/-- Extractions whose results have the same edges return the same shapes. -/
theorem RunOk.same_shapes {rule rule' : FillRule} {r r' : OverlayRule} {segs segs' : List (Seg CountBool)} {g g' : Graph}
    {V V' : List Pt} {vis vis' : List Bool} (h : RunOk rule r segs g V vis) (h' : RunOk rule' r' segs' g' V' vis')
    (hk : ∀ a b, (∃ t ∈ segs, keptB rule r segs t = true ∧ t.a = a ∧ t.b = b) ↔
      ∃ t ∈ segs', keptB rule' r' segs' t = true ∧ t.a = a ∧ t.b = b) (cw : Bool) {x x' : Externals}
    (hc : CleanOk x.clean) (e1 : x'.clean = x.clean) (e2 : x'.bind = x.bind) (e3 : x'.sortI = x.sortI) {minArea : Nat}
    (hm : minArea = 0 ∨ TwoRight g vis) : IOverlay.extract x g r cw minArea vis = IOverlay.extract x' g' r' cw minArea vis' := by
  obtain ⟨ws, e, he, -⟩ := h.extract cw x.clean minArea
  obtain ⟨ws', e', he', -⟩ := h'.extract cw x.clean minArea
  have := h.same h' hk cw hc hm he he'
  subst this
  unfold IOverlay.extract
  rw [e1, e2, e3, he, he']

theorem keptB_ends {rule : FillRule} {r : OverlayRule} {segs : List (Seg CountBool)} {g : Graph} {V : List Pt}
    {F : Fill → Bool} (h : RunOk rule r segs g V (g.links.map fun l => F l.fill)) (a b : Pt) :
    (∃ t ∈ segs, keptB rule r segs t = true ∧ t.a = a ∧ t.b = b) ↔
      (a, b) ∈ linkEnds (g.links.filter fun l => !F l.fill) := by
  have h1 : (∃ t ∈ segs, keptB rule r segs t = true ∧ t.a = a ∧ t.b = b) ↔
      Open g (g.links.map fun l => F l.fill) ⟨a, b, (a, b)⟩ := by
    rw [h.open_iff]
    constructor
    · rintro ⟨t, t1, t2, rfl, rfl⟩; exact ⟨t, t1, t2, rfl⟩
    · rintro ⟨t, t1, t2, e⟩
      exact ⟨t, t1, t2, congrArg (fun s : Edge => s.a) e, congrArg (fun s : Edge => s.b) e⟩
  rw [h1]
  unfold Open linkEnds
  constructor
  · rintro ⟨i, l, i1, i2, i3⟩
    unfold isVisited at i2
    rw [List.getD_eq_getElem?_getD, List.getElem?_map, i1] at i2
    refine List.mem_map.2 ⟨l, List.mem_filter.2 ⟨List.mem_of_getElem? i1, ?_⟩, ?_⟩
    · simp at i2; simp [i2]
    · exact congrArg (fun s : Edge => (s.a, s.b)) i3
  · intro hm
    obtain ⟨l, hl, e⟩ := List.mem_map.1 hm
    rw [List.mem_filter] at hl
    obtain ⟨i, hi⟩ := List.mem_iff_getElem?.1 hl.1
    refine ⟨i, l, hi, ?_, ?_⟩
    · unfold isVisited
      rw [List.getD_eq_getElem?_getD, List.getElem?_map, hi]
      simpa using hl.2
    · unfold Link.edge
      simp only [Prod.mk.injEq] at e
      rw [e.1, e.2]

theorem oneShot_run {k : Config} {x : Externals} (ha : Assumed k x) {r : OverlayRule} {rule : FillRule}
    {subj clip : List (List Pt)} (hf : FragFor k subj clip) {links : List Link}
    (hl : buildBoolean (isIncluded r) rule k.st k.sr k.tree k.scan k.fuel (overlaySegments subj clip) = some links) :
    ∃ segs g V, RunOk rule r segs g V (g.links.map fun l => (fun _ => false) l.fill) ∧
      linkEnds (g.links.filter fun l => !(fun _ => false) l.fill) = linkEnds links ∧ ∀ cw minArea,
        overlayCustom k x r rule cw minArea (overlaySegments subj clip) =
          IOverlay.extract x g r cw minArea (g.links.map fun l => (fun _ => false) l.fill) := by
  obtain ⟨segs, g, V, q1, q2, q3, q4⟩ := runOk_oneShot ha.tree ha.scan ha.sortE hf hl
  have ev : List.replicate g.links.length false = g.links.map fun l => (fun _ => false) l.fill := by
    rw [List.map_const']
  rw [ev] at q4
  refine ⟨segs, g, V, q4, ?_, fun cw minArea => ?_⟩
  · have e := congrArg (List.map fun t : Pt × Pt × Fill => (t.1, t.2.1)) q3
    rw [List.map_map, List.map_map] at e
    rw [List.filter_eq_self.2 (by simp)]
    exact e
  · unfold overlayCustom
    rw [hl, Option.bind_some, q2, Option.bind_some, ev]

theorem twoRight_ends {g : Graph} {F : Fill → Bool} (h : AtMostTwoRight (linkEnds (g.links.filter fun l => !F l.fill))) :
    TwoRight g (g.links.map fun l => F l.fill) := by
  refine twoRight_links fun p => ?_
  have := h p
  unfold linkEnds at this
  rwa [List.filter_map, List.length_map] at this

/-- C68: two overlays, of whatever contours, rules and solvers, whose results have the same edges return the same list
of shapes: the same contours, in the same order, from the same start points. (With an area limit: if no point is the
left end of more than two of these edges.) The sorting of graph nodes may differ too. -/
theorem C68_determined (k k' : Config) (x x' : Externals) (ha : Assumed k x) (ha' : Assumed k' x')
    (e1 : x'.clean = x.clean) (e2 : x'.bind = x.bind) (e3 : x'.sortI = x.sortI) (r r' : OverlayRule)
    (rule rule' : FillRule) (cw : Bool) (minArea : Nat) (subj clip subj' clip' : List (List Pt))
    (hf : FragFor k subj clip) (hf' : FragFor k' subj' clip') (links links' : List Link)
    (hl : buildBoolean (isIncluded r) rule k.st k.sr k.tree k.scan k.fuel (overlaySegments subj clip) = some links)
    (hl' : buildBoolean (isIncluded r') rule' k'.st k'.sr k'.tree k'.scan k'.fuel (overlaySegments subj' clip') =
      some links')
    (hE : ∀ e, e ∈ linkEnds links ↔ e ∈ linkEnds links') (hm : minArea = 0 ∨ AtMostTwoRight (linkEnds links)) :
    overlayCustom k x r rule cw minArea (overlaySegments subj clip) =
      overlayCustom k' x' r' rule' cw minArea (overlaySegments subj' clip') := by
  obtain ⟨segs, g, V, q1, q2, q3⟩ := oneShot_run ha hf hl
  obtain ⟨segs', g', V', q1', q2', q3'⟩ := oneShot_run ha' hf' hl'
  rw [q3, q3']
  refine q1.same_shapes q1' ?_ cw ha.clean e1 e2 e3 (hm.imp id fun h2 => ?_)
  · intro a b
    rw [keptB_ends (F := fun _ => false) q1, keptB_ends (F := fun _ => false) q1', q2, q2']
    exact hE (a, b)
  · rw [← q2] at h2
    exact twoRight_ends (F := fun _ => false) h2

/-- C68 (prebuilt graph): a rule extracted from a prebuilt graph gives the same list of shapes as any overlay whose
result has the same edges. -/
theorem C68_graph (k k' : Config) (x x' : Externals) (ha : Assumed k x) (ha' : Assumed k' x')
    (e1 : x'.clean = x.clean) (e2 : x'.bind = x.bind) (e3 : x'.sortI = x.sortI) (r r' : OverlayRule)
    (rule rule' : FillRule) (cw : Bool) (minArea : Nat) (subj clip subj' clip' : List (List Pt))
    (hf : FragFor k subj clip) (hf' : FragFor k' subj' clip') (links : List Link) (g : Graph)
    (hl : buildBoolean (isIncluded r) rule k.st k.sr k.tree k.scan k.fuel (overlaySegments subj clip) = some links)
    (hg : intoGraph k' x' rule' (overlaySegments subj' clip') = some g)
    (hE : ∀ e, e ∈ linkEnds links ↔ e ∈ linkEnds (g.links.filter fun l => !maskFilter r' l.fill))
    (hm : minArea = 0 ∨ AtMostTwoRight (linkEnds links)) :
    overlayCustom k x r rule cw minArea (overlaySegments subj clip) = extractShapesCustom x' g r' cw minArea := by
  obtain ⟨segs, g0, V, q1, q2, q3⟩ := oneShot_run ha hf hl
  unfold intoGraph at hg
  obtain ⟨links', h1, h2⟩ := Option.bind_eq_some_iff.1 hg
  obtain ⟨segs', g', V', -, p2, -, p4⟩ := runOk_graph ha'.tree ha'.scan r' ha'.sortE hf' h1
  rw [h2] at p2
  obtain rfl := Option.some.inj p2
  rw [q3]
  unfold extractShapesCustom
  refine q1.same_shapes p4 ?_ cw ha.clean e1 e2 e3 (hm.imp id fun h2 => ?_)
  · intro a b
    rw [keptB_ends (F := fun _ => false) q1, keptB_ends p4, q2]
    exact hE (a, b)
  · rw [← q2] at h2
    exact twoRight_ends (F := fun _ => false) h2

/-- C68, C11: extracting a rule from the prebuilt graph and the one-shot overlay are the same function: same shapes in
the same order, same contours, same start points; and one returns iff the other does. (With an area limit: if no point
is the left end of more than two edges of the result.) -/
theorem C68_prebuilt (k : Config) (x : Externals) (ha : Assumed k x) (r : OverlayRule) (rule : FillRule) (cw : Bool)
    (minArea : Nat) (subj clip : List (List Pt)) (hf : FragFor k subj clip)
    (hm : minArea = 0 ∨ ∀ links, buildBoolean (isIncluded r) rule k.st k.sr k.tree k.scan k.fuel
      (overlaySegments subj clip) = some links → AtMostTwoRight (linkEnds links)) :
    ((intoGraph k x rule (overlaySegments subj clip)).bind fun g => extractShapesCustom x g r cw minArea) =
      overlayCustom k x r rule cw minArea (overlaySegments subj clip) := by
  by_cases hl : ∃ links, buildBoolean (isIncluded r) rule k.st k.sr k.tree k.scan k.fuel
      (overlaySegments subj clip) = some links
  · obtain ⟨links, hl⟩ := hl
    have hb : ∃ links', buildBoolean isGraphIncluded rule k.st k.sr k.tree k.scan k.fuel
        (overlaySegments subj clip) = some links' := by
      unfold buildBoolean at hl ⊢
      split at hl
      · rename_i h0; rw [if_pos h0]; exact ⟨_, rfl⟩
      · rename_i h0
        rw [if_neg h0]
        obtain ⟨s, hs, -⟩ := Option.map_eq_some_iff.1 hl
        rw [hs]; exact ⟨_, rfl⟩
    obtain ⟨links', hb⟩ := hb
    obtain ⟨segs, g, V, p1, p2, p3, p4⟩ := runOk_graph ha.tree ha.scan r ha.sortE hf hb
    obtain ⟨segs', g', V', o1, o2, o3, o4⟩ := runOk_oneShot ha.tree ha.scan ha.sortE hf hl
    obtain rfl : segs = segs' := Option.some.inj (p1.symm.trans o1)
    have hg : intoGraph k x rule (overlaySegments subj clip) = some g := by
      unfold intoGraph; rw [hb, Option.bind_some, p2]
    have ev : List.replicate g'.links.length false = g'.links.map fun l => (fun _ => false) l.fill := by
      rw [List.map_const']
    rw [ev] at o4
    rw [hg, Option.bind_some]
    refine (C68_graph k k x x ha ha rfl rfl rfl r r rule rule cw minArea subj clip subj clip hf hf links g hl hg ?_
      (hm.imp id fun h => h links hl)).symm
    rintro ⟨a, b⟩
    rw [← keptB_ends p4, keptB_ends (F := fun _ => false) o4]
    have e := congrArg (List.map fun t : Pt × Pt × Fill => (t.1, t.2.1)) o3
    rw [List.map_map, List.map_map] at e
    rw [List.filter_eq_self.2 (by simp)]
    have e' : linkEnds g'.links = linkEnds links := e
    rw [e']
  · have hn : ∀ inc, buildBoolean inc rule k.st k.sr k.tree k.scan k.fuel (overlaySegments subj clip) = none := by
      intro inc
      have hl' : buildBoolean (isIncluded r) rule k.st k.sr k.tree k.scan k.fuel (overlaySegments subj clip) = none := by
        cases hb : buildBoolean (isIncluded r) rule k.st k.sr k.tree k.scan k.fuel (overlaySegments subj clip) with
        | none => rfl
        | some l => exact absurd ⟨l, hb⟩ hl
      unfold buildBoolean at hl' ⊢
      split at hl'
      · cases hl'
      · rename_i h0
        rw [if_neg h0]
        rw [Option.map_eq_none_iff] at hl' ⊢
        exact hl'
    unfold intoGraph overlayCustom
    rw [hn, hn]; rfl

/-- C68 (strategies): whatever strategies two solvers use, if both return they return the same list of shapes, under
the conditions of C38; also when one builds a graph first. -/
theorem C68_strategies (k k' : Config) (x : Externals) (ha : Assumed k x) (ha' : Assumed k' x) (hsr : k'.sr = k.sr)
    (r : OverlayRule) (rule : FillRule) (cw : Bool) (subj clip : List (List Pt))
    (hf : FragFor k subj clip) (hf' : FragFor k' subj clip) (shapes shapes' : List (List (List Pt)))
    (h : overlayCustom k x r rule cw 0 (overlaySegments subj clip) = some shapes)
    (h' : overlayCustom k' x r rule cw 0 (overlaySegments subj clip) = some shapes' ∨
      ((intoGraph k' x rule (overlaySegments subj clip)).bind fun g => extractShapesCustom x g r cw 0) = some shapes') :
    shapes = shapes' := by
  have h'' : overlayCustom k' x r rule cw 0 (overlaySegments subj clip) = some shapes' := by
    rcases h' with h' | h'
    · exact h'
    · rwa [C68_prebuilt k' x ha' r rule cw 0 subj clip hf' (Or.inl rfl)] at h'
  obtain ⟨segs, g, V, vis, n1, q1, q2⟩ := extract_oneShot ha hf h
  obtain ⟨segs', g', V', vis', n1', q1', q2'⟩ := extract_oneShot ha' hf' h''
  have hs : segs = segs' := by
    have hz0 : ∀ p : Pt, p.shift ⟨0, 0⟩ = p := by
      intro p; unfold Pt.shift; simp
    have hz : ∀ c : List (List Pt), moved ⟨0, 0⟩ c = c := by
      intro c
      unfold moved
      simp only [hz0, List.map_id']
    have hf2 : FragOk k'.st k.sr (overlaySegments (moved ⟨0, 0⟩ subj) (moved ⟨0, 0⟩ clip) : List (Seg CountBool)) := by
      rw [hz, hz, ← hsr]; exact hf'
    rw [hsr] at n1'
    have := C65_noded ⟨0, 0⟩ ha.tree ha'.tree hf hf2 n1 (by rw [hz, hz]; exact n1')
    rw [this]
    have e : (fun s : Seg CountBool => (⟨s.a.shift ⟨0, 0⟩, s.b.shift ⟨0, 0⟩, s.c⟩ : Seg CountBool)) = id := by
      funext s; simp only [hz0]; rfl
    rw [e, List.map_id]
  subst hs
  have := q1.same_shapes q1' (fun _ _ => Iff.rfl) cw ha.clean rfl rfl rfl (minArea := 0) (Or.inl rfl)
  rw [q2, q2'] at this
  exact Option.some.inj this

/-- Two overlapping squares. -/
def exSameA : List (List Pt) := [[⟨0, 0⟩, ⟨10, 0⟩, ⟨10, 10⟩, ⟨0, 10⟩]]
def exSameB : List (List Pt) := [[⟨5, 5⟩, ⟨15, 5⟩, ⟨15, 15⟩, ⟨5, 15⟩]]

/-- The links of an example result. -/
def exSameLinks (r : OverlayRule) (c d : List (List Pt)) : List Link :=
  (buildBoolean (isIncluded r) .nonZero exConfig.st exConfig.sr exConfig.tree exConfig.scan exConfig.fuel
    (overlaySegments c d)).getD []

/-- The hypotheses of `C68_determined` hold for overlays of different contours: exchanging the operands and giving one
of them in the other direction. -/
example : Assumed exConfig exRaw ∧ FragFor exConfig exSameA exSameB ∧
    linkEnds (exSameLinks .union exSameA exSameB) = linkEnds (exSameLinks .union (exSameB.map List.reverse) exSameA) ∧
    AtMostTwoRight (linkEnds (exSameLinks .union exSameA exSameB)) ∧
    overlayCustom exConfig exRaw .union .nonZero false 0 (overlaySegments exSameA exSameB) =
      some [[[⟨0, 10⟩, ⟨0, 0⟩, ⟨10, 0⟩, ⟨10, 5⟩, ⟨15, 5⟩, ⟨15, 15⟩, ⟨5, 15⟩, ⟨5, 10⟩]]] ∧
    ((intoGraph exConfig exRaw .nonZero (overlaySegments exSameA exSameB)).bind fun g =>
      extractShapesCustom exRaw g .union false 0) =
      some [[[⟨0, 10⟩, ⟨0, 0⟩, ⟨10, 0⟩, ⟨10, 5⟩, ⟨15, 5⟩, ⟨15, 15⟩, ⟨5, 15⟩, ⟨5, 10⟩]]] := by
  refine ⟨exRaw_assumed.1, FragOk.list _ _, by decide +kernel,
    atMostTwo_of_mem (by decide +kernel), by decide +kernel, by decide +kernel⟩

end IOverlay
