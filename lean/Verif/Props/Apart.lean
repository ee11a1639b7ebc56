/-
C78: parts far apart do not influence each other, rounding included.
-/
import Verif.Apart
import Verif.Props.Same
import Verif.Props.AttachSimple

namespace IOverlay

/-- The contours are those of two parts (in any order), in two rectangles separated by a vertical or a horizontal line. -/
structure Separated (A B : Box) (subj clip subjA clipA subjB clipB : List (List Pt)) : Prop where
  subj : subj.Perm (subjA ++ subjB)
  clip : clip.Perm (clipA ++ clipB)
  inA : ∀ c ∈ subjA ++ clipA, ∀ p ∈ c, InRange p ∧ A.Has p
  inB : ∀ c ∈ subjB ++ clipB, ∀ p ∈ c, InRange p ∧ B.Has p
  apart : A.Apart B

theorem Separated.symm {A B : Box} {subj clip subjA clipA subjB clipB : List (List Pt)}
    (h : Separated A B subj clip subjA clipA subjB clipB) : Separated B A subj clip subjB clipB subjA clipA :=
  ⟨h.subj.trans List.perm_append_comm, h.clip.trans List.perm_append_comm, h.inB, h.inA, h.apart.symm⟩

/-- The given edges before splitting. -/
def startEdges (subj clip : List (List Pt)) : List (Seg CountBool) := mergeIfNeeded (sortSegs (overlaySegments subj clip))

section
variable {A B : Box} {subj clip subjA clipA subjB clipB : List (List Pt)}
  (h : Separated A B subj clip subjA clipA subjB clipB)
include h

theorem Separated.segments : (overlaySegments subj clip : List (Seg CountBool)).Perm
    (overlaySegments subjA clipA ++ overlaySegments subjB clipB) := by
  unfold overlaySegments
  have h1 := h.subj.flatMap_right (appendContour (C := CountBool) .subject)
  have h2 := h.clip.flatMap_right (appendContour (C := CountBool) .clip)
  rw [List.flatMap_append] at h1 h2
  refine (h1.append h2).trans ?_
  simp only [List.append_assoc]
  refine List.Perm.append_left _ ?_
  rw [← List.append_assoc, ← List.append_assoc]
  exact List.Perm.append_right _ List.perm_append_comm

theorem Separated.ends : ∀ s ∈ (overlaySegments subj clip : List (Seg CountBool)),
    (InRange s.a ∧ InRange s.b) ∧ (A.HasSeg s ∨ B.HasSeg s) := by
  intro s hs
  rcases List.mem_append.1 (h.segments.mem_iff.1 hs) with g | g
  · obtain ⟨e1, e2⟩ := overlaySegments_ends h.inA s g
    exact ⟨⟨e1.1, e2.1⟩, Or.inl ⟨e1.2, e2.2⟩⟩
  · obtain ⟨e1, e2⟩ := overlaySegments_ends h.inB s g
    exact ⟨⟨e1.1, e2.1⟩, Or.inr ⟨e1.2, e2.2⟩⟩

theorem Separated.twoParts : TwoParts A B (startEdges subj clip) := by
  refine ⟨start_sorted _, start_lt (overlaySegments_lt _ _), ?_, (overlaySegments_boolOk subj clip).start.2.2, ?_⟩
  · exact start_ends fun s hs => (h.ends s hs).1
  · intro s hs
    obtain ⟨e, h1, h2, h3⟩ := mergeIfNeeded_edges _ s hs
    rw [(sortSegs_perm _).mem_iff] at h1
    unfold Box.HasSeg
    rw [h2, h3]
    exact (h.ends e h1).2

theorem Separated.start : inBox A (startEdges subj clip) = startEdges subjA clipA := by
  unfold inBox startEdges
  rw [merge_filter A.has (overlaySegments_nonempty subj clip)]
  refine mergeIfNeeded_perm ?_ (sortSegs_sorted _) (sortSegs_sorted _) ?_
  · refine (sortSegs_perm _).trans (List.Perm.trans ?_ (sortSegs_perm _).symm)
    refine (h.segments.filter _).trans ?_
    rw [List.filter_append, List.filter_eq_self.2, List.filter_eq_nil_iff.2, List.append_nil]
    · intro s hs hA
      exact h.apart.not_has (Box.has_iff.1 hA) (overlaySegments_ends h.inB s hs).1.2
    · intro s hs
      exact Box.has_iff.2 (overlaySegments_ends h.inA s hs).1.2
  · intro s hs
    exact overlaySegments_nonempty subj clip s (List.mem_filter.1 ((sortSegs_perm _).mem_iff.1 hs)).1

end

theorem noded_list {st : Strategy} {sr : SnapRadius} {tree : TreeOracle CountBool} (ht : tree.Ok) {fuel : Nat}
    {subj clip : List (List Pt)} {segs : List (Seg CountBool)}
    (hf : FragOk st sr (overlaySegments subj clip : List (Seg CountBool)))
    (h : nodedEdges st sr tree fuel (overlaySegments subj clip) = some segs) :
    ∃ n, splitLoop .list tree n .list sr (startEdges subj clip) = some segs := by
  unfold nodedEdges at h
  split at h
  · rename_i h0
    rw [List.isEmpty_iff] at h0
    obtain rfl := Option.some.inj h
    refine ⟨1, ?_⟩
    unfold startEdges
    rw [h0]
    rfl
  · exact ⟨fuel, noded_to_list ht hf h⟩

/-- C78 (noding): if splitting ends for the whole and for the first part, whatever strategies and segment trees are used, the
edges of the part are exactly the edges of the whole that lie in its rectangle: all crossings are rounded to the same
points. -/
theorem C78_noded {A B : Box} {subj clip subjA clipA subjB clipB : List (List Pt)}
    (h : Separated A B subj clip subjA clipA subjB clipB) {st stA : Strategy} {sr : SnapRadius}
    {tree treeA : TreeOracle CountBool} (ht : tree.Ok) (htA : treeA.Ok) {fuel fuelA : Nat}
    (hf : FragOk st sr (overlaySegments subj clip : List (Seg CountBool)))
    (hfA : FragOk stA sr (overlaySegments subjA clipA : List (Seg CountBool))) {r rA : List (Seg CountBool)}
    (hr : nodedEdges st sr tree fuel (overlaySegments subj clip) = some r)
    (hrA : nodedEdges stA sr treeA fuelA (overlaySegments subjA clipA) = some rA) :
    rA = r.filter (fun s => A.has s.a) ∧ ∀ s ∈ r, (A.Has s.a ∧ A.Has s.b) ∨ (B.Has s.a ∧ B.Has s.b) := by
  obtain ⟨n, e⟩ := noded_list ht hf hr
  obtain ⟨m, eA⟩ := noded_list htA hfA hrA
  have p := h.twoParts.loop_part CountBool.invert_nonempty h.apart (tree' := treeA) n e
  rw [h.start] at p
  refine ⟨?_, ?_⟩
  · have p1 := splitLoop_mono _ _ _ _ _ _ _ p (max n m) (le_max_left _ _)
    have p2 := splitLoop_mono _ _ _ _ _ _ _ eA (max n m) (le_max_right _ _)
    rw [p1] at p2
    exact (Option.some.inj p2).symm
  · exact h.twoParts.loop_sides CountBool.invert_nonempty h.apart n e

/-- C78 (noding): splitting ends for the whole iff it ends for both parts. -/
theorem C78_ends {A B : Box} {subj clip subjA clipA subjB clipB : List (List Pt)}
    (h : Separated A B subj clip subjA clipA subjB clipB) {st stA stB : Strategy} {sr : SnapRadius}
    {tree treeA treeB : TreeOracle CountBool} (ht : tree.Ok) (htA : treeA.Ok) (htB : treeB.Ok)
    (hf : FragOk st sr (overlaySegments subj clip : List (Seg CountBool)))
    (hfA : FragOk stA sr (overlaySegments subjA clipA : List (Seg CountBool)))
    (hfB : FragOk stB sr (overlaySegments subjB clipB : List (Seg CountBool))) :
    (∃ fuel r, splitSegments st sr tree fuel (overlaySegments subj clip) = some r) ↔
    (∃ fuel r, splitSegments stA sr treeA fuel (overlaySegments subjA clipA) = some r) ∧
    ∃ fuel r, splitSegments stB sr treeB fuel (overlaySegments subjB clipB) = some r := by
  have part : ∀ {A B : Box} {subjA clipA subjB clipB : List (List Pt)} (_ : Separated A B subj clip subjA clipA subjB clipB)
      {stA : Strategy} {treeA : TreeOracle CountBool} (_ : treeA.Ok)
      (_ : FragOk stA sr (overlaySegments subjA clipA : List (Seg CountBool))),
      (∃ fuel r, splitSegments st sr tree fuel (overlaySegments subj clip) = some r) →
      ∃ fuel r, splitSegments stA sr treeA fuel (overlaySegments subjA clipA) = some r := by
    rintro A B subjA clipA subjB clipB h stA treeA htA hfA ⟨n, r, e⟩
    have e1 := noded_to_list ht hf e
    have p := h.twoParts.loop_part CountBool.invert_nonempty h.apart (tree' := treeA) n e1
    rw [h.start] at p
    obtain ⟨m, hm⟩ := (C38_strategies_agree_partial .list stA sr treeA htA subjA clipA (FragOk.list _ _) hfA _).1
      ⟨n, by unfold splitSegments; simp only [isListSplit_list, if_true]; exact p⟩
    exact ⟨m, _, hm⟩
  refine ⟨fun he => ⟨part h htA hfA he, part h.symm htB hfB he⟩, ?_⟩
  rintro ⟨⟨n, rA, eA⟩, m, rB, eB⟩
  have eA := splitLoop_mono _ _ _ _ _ _ _ (noded_to_list htA hfA eA) (max n m) (le_max_left _ _)
  have eB := splitLoop_mono _ _ _ _ _ _ _ (noded_to_list htB hfB eB) (max n m) (le_max_right _ _)
  change splitLoop _ _ _ _ _ (startEdges subjA clipA) = _ at eA
  change splitLoop _ _ _ _ _ (startEdges subjB clipB) = _ at eB
  rw [← h.start] at eA
  rw [← h.symm.start] at eB
  obtain ⟨r, hr⟩ := h.twoParts.loop_ends CountBool.invert_nonempty h.apart (tree'' := tree) _ eA eB
  obtain ⟨k, hk⟩ := (C38_strategies_agree_partial .list st sr tree ht subj clip (FragOk.list _ _) hf _).1
    ⟨_, by unfold splitSegments; simp only [isListSplit_list, if_true]; exact hr⟩
  exact ⟨k, _, hk⟩

/-! ### winding numbers -/

/-- The point of the plane lies in the rectangle. -/
def Box.HasQ (B : Box) (q : QPt) : Prop := (B.x0 : ℚ) ≤ q.x ∧ q.x ≤ B.x1 ∧ (B.y0 : ℚ) ≤ q.y ∧ q.y ≤ B.y1

theorem Box.Apart.not_hasQ {A B : Box} (h : A.Apart B) {q : QPt} (ha : A.HasQ q) : ¬ B.HasQ q := by
  rintro ⟨b1, b2, b3, b4⟩
  obtain ⟨a1, a2, a3, a4⟩ := ha
  rcases h with h | h | h | h
  all_goals
    have h' : ((_ : Int) : ℚ) < ((_ : Int) : ℚ) := Int.cast_lt.2 h
    linarith

/-- Closed edges in a rectangle do not wind around points outside. -/
theorem segsWind_outside {C : Type} {φ : C → Int} {l : List (Seg C)} (hc : Closed φ l) {B : Box} (hB : ∀ s ∈ l, B.Has s.a ∧ B.Has s.b)
    {q : QPt} (hq : ¬ B.HasQ q) : segsWind φ l q = 0 := by
  have cast : ∀ {p : Pt}, B.Has p → (B.x0 : ℚ) ≤ p.x ∧ (p.x : ℚ) ≤ B.x1 ∧ (B.y0 : ℚ) ≤ p.y ∧ (p.y : ℚ) ≤ B.y1 := by
    rintro p ⟨a, b, c, d⟩
    exact ⟨by exact_mod_cast a, by exact_mod_cast b, by exact_mod_cast c, by exact_mod_cast d⟩
  by_cases hup : (B.y1 : ℚ) < q.y
  · -- above the rectangle
    have key : ∀ s ∈ l, edgeWind s.a s.b q =
        (if (s.a.x : ℚ) ≤ q.x then 1 else 0 : Int) - (if (s.b.x : ℚ) ≤ q.x then 1 else 0 : Int) := by
      intro s hs
      obtain ⟨a1, a2, a3, a4⟩ := cast (hB s hs).1
      obtain ⟨b1, b2, b3, b4⟩ := cast (hB s hs).2
      have hab : ∀ {u v : Pt}, (u.y : ℚ) ≤ B.y1 → (v.y : ℚ) ≤ B.y1 → (u.x : ℚ) ≤ q.x → q.x < v.x → aboveLine u v q := by
        intro u v hu hv h1 h2
        unfold aboveLine
        have p1 : (0 : ℚ) ≤ q.x - u.x := by linarith
        have p2 : (0 : ℚ) < v.x - q.x := by linarith
        have n1 : (0 : ℚ) < q.y - u.y := by linarith
        have n2 : (0 : ℚ) < q.y - v.y := by linarith
        nlinarith [mul_nonneg p1 n2.le, mul_pos p2 n1]
      unfold edgeWind
      by_cases c1 : (s.a.x : ℚ) ≤ q.x
      · by_cases c2 : (s.b.x : ℚ) ≤ q.x
        · rw [if_neg (fun h => absurd h.2.1 (not_lt.2 c2)), if_neg (fun h => absurd h.2.1 (not_lt.2 c1)), if_pos c1, if_pos c2]; rfl
        · rw [if_pos ⟨c1, not_le.1 c2, hab a4 b4 c1 (not_le.1 c2)⟩, if_pos c1, if_neg c2]; rfl
      · by_cases c2 : (s.b.x : ℚ) ≤ q.x
        · rw [if_neg (fun h => c1 h.1), if_pos ⟨c2, not_le.1 c1, hab b4 a4 c2 (not_le.1 c1)⟩, if_neg c1, if_pos c2]; rfl
        · rw [if_neg (fun h => c1 h.1), if_neg (fun h => c2 h.1), if_neg c1, if_neg c2]; rfl
    have := hc fun p => if (p.x : ℚ) ≤ q.x then 1 else 0
    unfold segSum at this
    unfold segsWind
    rw [← this]
    congr 1
    exact List.map_congr_left fun s hs => by rw [key s hs]
  · have key : ∀ s ∈ l, edgeWind s.a s.b q = 0 := by
      intro s hs
      obtain ⟨a1, a2, a3, a4⟩ := cast (hB s hs).1
      obtain ⟨b1, b2, b3, b4⟩ := cast (hB s hs).2
      have out : q.x < B.x0 ∨ B.x1 < q.x ∨ q.y < B.y0 := by
        by_contra hn
        simp only [not_or, not_lt] at hn
        exact hq ⟨hn.1, hn.2.1, hn.2.2, not_lt.1 hup⟩
      have hno : ∀ {u v : Pt}, (B.x0 : ℚ) ≤ u.x → (B.x1 : ℚ) ≥ v.x → (B.y0 : ℚ) ≤ u.y → (B.y0 : ℚ) ≤ v.y →
          ¬ ((u.x : ℚ) ≤ q.x ∧ q.x < v.x ∧ aboveLine u v q) := by
        rintro u v h1 h2 h3 h4 ⟨g1, g2, g3⟩
        rcases out with o | o | o
        · linarith
        · linarith
        · unfold aboveLine at g3
          have p1 : (0 : ℚ) ≤ q.x - u.x := by linarith
          have p2 : (0 : ℚ) < v.x - q.x := by linarith
          have n1 : (0 : ℚ) < u.y - q.y := by linarith
          have n2 : (0 : ℚ) < v.y - q.y := by linarith
          nlinarith [mul_nonneg p1 n2.le, mul_pos p2 n1]
      unfold edgeWind
      rw [if_neg (hno a1 b2 a3 b3), if_neg (hno b1 a2 b3 a3)]
    unfold segsWind
    apply List.sum_eq_zero
    intro z hz
    obtain ⟨s, hs, rfl⟩ := List.mem_map.1 hz
    rw [key s hs, mul_zero]

theorem segsWind_filter {C : Type} (φ : C → Int) (P Q : Seg C → Bool) (q : QPt) : ∀ {l : List (Seg C)} (_ : ∀ s ∈ l, P s = !Q s),
    segsWind φ l q = segsWind φ (l.filter P) q + segsWind φ (l.filter Q) q := by
  intro l
  induction l with
  | nil => intro _; rfl
  | cons s l ih =>
    intro hPQ
    have h0 := hPQ s (by simp)
    rw [segsWind_cons, ih fun t ht => hPQ t (by simp [ht]), List.filter_cons, List.filter_cons]
    cases hQ : Q s
    · rw [h0, hQ]
      simp only [Bool.not_false, if_true, segsWind_cons]
      simp only [Bool.false_eq_true, if_false]
      ring
    · rw [h0, hQ]
      simp only [Bool.not_true, if_true, segsWind_cons]
      simp only [Bool.false_eq_true, if_false]
      ring

theorem sides_bool {A B : Box} (hAB : A.Apart B) {C : Type} {l : List (Seg C)} (hs : ∀ s ∈ l, A.HasSeg s ∨ B.HasSeg s) :
    ∀ s ∈ l, A.has s.a = !B.has s.a := by
  intro s hm
  rcases hs s hm with g | g
  · rw [Box.has_iff.2 g.1]
    have : ¬ B.has s.a = true := fun hb => hAB.not_has g.1 (Box.has_iff.1 hb)
    simp [this]
  · rw [Box.has_iff.2 g.1]
    have : ¬ A.has s.a = true := fun hb => hAB.not_has (Box.has_iff.1 hb) g.1
    simp [this]

theorem has_both {A B : Box} (hAB : A.Apart B) {C : Type} {s : Seg C} (hs : A.HasSeg s ∨ B.HasSeg s) : A.has s.a = A.has s.b := by
  rcases hs with g | g
  · rw [Box.has_iff.2 g.1, Box.has_iff.2 g.2]
  · have h1 : ¬ A.has s.a = true := fun hb => hAB.not_has (Box.has_iff.1 hb) g.1
    have h2 : ¬ A.has s.b = true := fun hb => hAB.not_has (Box.has_iff.1 hb) g.2
    simp [h1, h2]

/-- The edges in a rectangle are closed themselves. -/
theorem closed_inBox {C : Type} {φ : C → Int} {A B : Box} (hAB : A.Apart B) {l : List (Seg C)} (hc : Closed φ l)
    (hs : ∀ s ∈ l, A.HasSeg s ∨ B.HasSeg s) : Closed φ (inBox A l) := by
  intro f
  have := hc fun p => if A.has p then f p else 0
  unfold segSum at *
  rw [← this]
  clear this hc
  induction l with
  | nil => rfl
  | cons s l ih =>
    have ih := ih fun t ht => hs t (by simp [ht])
    have hb := has_both hAB (hs s (by simp))
    unfold inBox at *
    rw [List.filter_cons, List.map_cons, List.sum_cons, ← ih]
    dsimp only
    rw [← hb]
    cases A.has s.a <;> simp

/-- Outside the other rectangle the whole winds as the part does. -/
theorem segsWind_part {C : Type} {φ : C → Int} {A B : Box} (hAB : A.Apart B) {l : List (Seg C)} (hc : Closed φ l)
    (hs : ∀ s ∈ l, A.HasSeg s ∨ B.HasSeg s) {q : QPt} (hq : ¬ B.HasQ q) : segsWind φ l q = segsWind φ (inBox A l) q := by
  rw [segsWind_filter φ (fun s => A.has s.a) (fun s => B.has s.a) q (sides_bool hAB hs)]
  have h2 : segsWind φ (l.filter fun s => B.has s.a) q = 0 := by
    refine segsWind_outside (closed_inBox hAB.symm hc fun s hm => (hs s hm).symm) (B := B) ?_ hq
    intro s hm
    obtain ⟨m1, m2⟩ := List.mem_filter.1 hm
    rcases hs s m1 with g | g
    · exact absurd g.1 (hAB.symm.not_has (Box.has_iff.1 m2))
    · exact g
  rw [h2, add_zero]
  rfl

/-- C78 (boolean overlays): outside the rectangle of the other part, a result for the whole winds around every point as a
result for the part alone (computed with any strategy but the same precision); around points outside the rectangle of the
part the result for the part does not wind. -/
theorem C78_overlay {A B : Box} {subj clip subjA clipA subjB clipB : List (List Pt)}
    (h : Separated A B subj clip subjA clipA subjB clipB) {k kA : Config} {x xA : Externals} (ha : Assumed k x)
    (haA : Assumed kA xA) (hsr : kA.sr = k.sr) {r : OverlayRule} {rule : FillRule} {cw : Bool} (hf : FragFor k subj clip)
    (hfA : FragFor kA subjA clipA) {shapes shapesA : List (List (List Pt))} (hr : IsResult k x r rule cw 0 subj clip shapes)
    (hrA : IsResult kA xA r rule cw 0 subjA clipA shapesA) (q : QPt) :
    (¬ B.HasQ q → polysWind shapes.flatten q = polysWind shapesA.flatten q) ∧
    (¬ A.HasQ q → polysWind shapesA.flatten q = 0) := by
  obtain ⟨segs, g, V, vis, w1, w2, -⟩ := hr.run ha hf
  obtain ⟨s, h1, h2⟩ := hr.winding ha hf
  obtain ⟨sA, h1A, h2A⟩ := hrA.winding haA hfA
  rw [hsr] at h1A
  have hfA' : FragOk kA.st k.sr (overlaySegments subjA clipA : List (Seg CountBool)) := hsr ▸ hfA
  obtain ⟨e, hs⟩ := C78_noded h ha.tree haA.tree hf hfA' h1 h1A
  rw [h1] at w1
  obtain rfl := Option.some.inj w1
  change sA = inBox A s at e
  constructor
  · intro hq
    rw [h2, h2A, e, segsWind_part h.apart w2.edges.subj hs hq, segsWind_part h.apart w2.edges.clip hs hq]
  · intro hq
    have hA : ∀ t ∈ inBox A s, A.Has t.a ∧ A.Has t.b := by
      intro t ht
      obtain ⟨m1, m2⟩ := List.mem_filter.1 ht
      rcases hs t m1 with g | g
      · exact g
      · exact absurd g.1 (h.apart.not_has (Box.has_iff.1 m2))
    rw [h2A, e, segsWind_outside (closed_inBox h.apart w2.edges.subj hs) hA hq,
      segsWind_outside (closed_inBox h.apart w2.edges.clip hs) hA hq]
    have := ruleAt_zero rule r
    unfold ruleAt at this
    dsimp only at this
    rw [this]
    simp

/-- C78 (boolean overlays): the winding numbers of the whole are the sums of those of the parts. -/
theorem C78_overlay_sum {A B : Box} {subj clip subjA clipA subjB clipB : List (List Pt)}
    (h : Separated A B subj clip subjA clipA subjB clipB) {k kA kB : Config} {x xA xB : Externals} (ha : Assumed k x)
    (haA : Assumed kA xA) (haB : Assumed kB xB) (hsr : kA.sr = k.sr) (hsr' : kB.sr = k.sr) {r : OverlayRule} {rule : FillRule}
    {cw : Bool} (hf : FragFor k subj clip) (hfA : FragFor kA subjA clipA) (hfB : FragFor kB subjB clipB)
    {shapes shapesA shapesB : List (List (List Pt))} (hr : IsResult k x r rule cw 0 subj clip shapes)
    (hrA : IsResult kA xA r rule cw 0 subjA clipA shapesA) (hrB : IsResult kB xB r rule cw 0 subjB clipB shapesB) (q : QPt) :
    polysWind shapes.flatten q = polysWind shapesA.flatten q + polysWind shapesB.flatten q := by
  obtain ⟨a1, a2⟩ := C78_overlay h ha haA hsr hf hfA hr hrA q
  obtain ⟨b1, b2⟩ := C78_overlay h.symm ha haB hsr' hf hfB hr hrB q
  by_cases hq : B.HasQ q
  · have hA : ¬ A.HasQ q := fun hA => h.apart.not_hasQ hA hq
    rw [b1 hA, a2 hA, zero_add]
  · rw [a1 hq, b2 hq, add_zero]

/-! ### contours -/

theorem Tour.one_side {cw : Bool} {E : List Edge} {U : Edge → Prop} {q : Pt} {D : List (Dart (Pt × Pt))} (h : Tour cw E U q D)
    {P : Pt → Bool} (hP : ∀ s ∈ E, U s → P s.a = P s.b) : ∀ d ∈ D, P d.s.a = P q := by
  have hd : ∀ d ∈ D, P d.start = P d.s.a ∧ P d.finish = P d.s.a := by
    intro d hd
    have := hP d.s (h.mem d hd).1 (h.mem d hd).2
    unfold Dart.start Dart.finish
    cases d.fwd <;> simp [this]
  have := steps_induct (P := fun d : Dart (Pt × Pt) => d ∈ D → P d.s.a = P q) D
    (fun d h0 hm => by rw [← (hd d hm).1, h.first d h0])
    (fun pre e f post hD hpre he hf => by
      have hem : e ∈ D := by rw [hD]; simp
      rw [← (hd f hf).1, ← (h.next pre e f post hD).1, (hd e hem).2, he hem])
  exact fun d hdm => this d hdm hdm

/-- Walks restricted to one side. -/
theorem Tours.side {clockwise : Bool} {E : List Edge} {R : Edge → Prop} {fs : List Found} (h : Tours clockwise E R fs)
    (P : Pt → Bool) (hP : ∀ s ∈ E, R s → P s.a = P s.b) :
    Tours clockwise E (fun s => R s ∧ P s.a = true) (fs.filter fun f => P f.top.a) := by
  induction h with
  | nil U => exact Tours.nil _
  | @cons U f fs t ts ih =>
    have ih := ih fun s hs hu => hP s hs hu.1
    obtain ⟨q, ht⟩ := t.tour
    have hside := ht.one_side hP
    have htop : P f.top.a = P q := hside _ t.head_mem
    rw [List.filter_cons]
    by_cases hp : P f.top.a = true
    · rw [if_pos hp]
      refine Tours.cons ⟨⟨q, ?_⟩, t.head, fun g hg hu => t.min g hg hu.1, fun g hg hu => t.top g hg hu.1⟩ ?_
      · exact ⟨fun d hd => ⟨(ht.mem d hd).1, (ht.mem d hd).2, by rw [hside d hd, ← htop, hp]⟩, ht.nodup, ht.first, ht.last, ht.next,
          fun pre e f post hD s hs hu => ht.turns pre e f post hD s hs hu.1⟩
      · have e : (fun s => (U s ∧ P s.a = true) ∧ s ∉ f.darts.map (·.s)) = fun s => (U s ∧ s ∉ f.darts.map (·.s)) ∧ P s.a = true := by
          funext s; exact propext ⟨fun h => ⟨⟨h.1.1, h.2⟩, h.1.2⟩, fun h => ⟨⟨h.1.1, h.2⟩, h.1.2⟩⟩
        rw [e]
        exact ih
    · rw [if_neg hp]
      have e : (fun s => U s ∧ P s.a = true) = fun s => (U s ∧ s ∉ f.darts.map (·.s)) ∧ P s.a = true := by
        funext s
        refine propext ⟨fun h => ⟨⟨h.1, ?_⟩, h.2⟩, fun h => ⟨h.1.1, h.2⟩⟩
        intro hm
        obtain ⟨d, hd, rfl⟩ := List.mem_map.1 hm
        rw [hside d hd, ← htop] at h
        exact hp h.2
      rw [e]
      exact ih

/-- The sides of an edge of the part are as in the whole. -/
theorem botP_part {A B : Box} (hAB : A.Apart B) {segs : List (Seg CountBool)} (h : EdgesOk segs) (hA : EdgesOk (inBox A segs))
    (hs : ∀ s ∈ segs, A.HasSeg s ∨ B.HasSeg s) {t : Seg CountBool} (ht : t ∈ inBox A segs) : botP segs t = botP (inBox A segs) t := by
  obtain ⟨m1, m2⟩ := List.mem_filter.1 ht
  have htA : A.HasSeg t := by
    rcases hs t m1 with g | g
    · exact g
    · exact absurd g.1 (hAB.not_has (Box.has_iff.1 m2))
  have hm : inSeg ⟨((t.a.x:ℚ) + t.b.x) / 2, ((t.a.y:ℚ) + t.b.y) / 2⟩ t.a t.b :=
    ⟨1/2, by norm_num, by norm_num, by simp; ring, by simp; ring⟩
  have out : ∀ δ : ℚ, 0 < δ → δ < 1 →
      ¬ B.HasQ (rightOf t.a t.b ⟨((t.a.x:ℚ) + t.b.x) / 2, ((t.a.y:ℚ) + t.b.y) / 2⟩ δ) := by
    intro δ d0 d1
    obtain ⟨⟨a1, a2, a3, a4⟩, b1, b2, b3, b4⟩ := htA
    have a1' : (A.x0 : ℚ) ≤ t.a.x := by exact_mod_cast a1
    have a2' : (t.a.x : ℚ) ≤ A.x1 := by exact_mod_cast a2
    have a3' : (A.y0 : ℚ) ≤ t.a.y := by exact_mod_cast a3
    have a4' : (t.a.y : ℚ) ≤ A.y1 := by exact_mod_cast a4
    have b1' : (A.x0 : ℚ) ≤ t.b.x := by exact_mod_cast b1
    have b2' : (t.b.x : ℚ) ≤ A.x1 := by exact_mod_cast b2
    have b3' : (A.y0 : ℚ) ≤ t.b.y := by exact_mod_cast b3
    have b4' : (t.b.y : ℚ) ≤ A.y1 := by exact_mod_cast b4
    have gap : ∀ {u v : Int}, u < v → (u : ℚ) + 1 ≤ v := fun h => by exact_mod_cast h
    rintro ⟨c1, c2, c3, c4⟩
    unfold rightOf at c1 c2 c3 c4
    rcases hAB with g | g | g | g
    all_goals
      have g' := gap g
      split_ifs at c1 c2 c3 c4 <;> dsimp only at c1 c2 c3 c4 <;> linarith
  have one : ∀ {φ : CountBool → Int}, Closed φ segs → Closed φ (inBox A segs) → botW φ segs t = botW φ (inBox A segs) t := by
    intro φ c1 c2
    obtain ⟨e1, p1, f1⟩ := h.planar.near c1 m1 hm
    obtain ⟨e2, p2, f2⟩ := hA.planar.near c2 ht hm
    obtain ⟨δ, d0, d1, d2, d3⟩ : ∃ δ : ℚ, 0 < δ ∧ δ < e1 ∧ δ < e2 ∧ δ < 1 := by
      refine ⟨min (min e1 e2) 1 / 2, by positivity, ?_, ?_, ?_⟩
      all_goals
        have hpos : 0 < min (min e1 e2) 1 := by positivity
        have l1 := min_le_left (min e1 e2) 1
        have l2 := min_le_right (min e1 e2) 1
        have l3 := min_le_left e1 e2
        have l4 := min_le_right e1 e2
        linarith
    rw [← (f1 δ d0 d1).1, ← (f2 δ d0 d2).1, segsWind_part hAB c1 hs (out δ d0 d3)]
  unfold botP
  rw [one h.subj hA.subj, one h.clip hA.clip]

open Classical in
/-- The contours found in the part are those of the whole in its rectangle. -/
theorem RunOk.part {A B : Box} (hAB : A.Apart B) {rule : FillRule} {r : OverlayRule} {segs : List (Seg CountBool)} {g gA : Graph}
    {V VA : List Pt} {vis visA : List Bool} (h : RunOk rule r segs g V vis) (hA : RunOk rule r (inBox A segs) gA VA visA)
    (hs : ∀ s ∈ segs, A.HasSeg s ∨ B.HasSeg s) (cw : Bool) {clean : List Pt → List Pt × Bool} (hc : CleanOk clean)
    {e eA : Extracted} (he : extractContours g r cw clean 0 vis = some e) (heA : extractContours gA r cw clean 0 visA = some eA) :
    ∃ fs : List Found, (∀ f ∈ fs, (validate clean 0 f.raw).1 = true ∧ ∀ p ∈ f.raw, A.has p = A.has f.top.a) ∧
      e.shapes = keptContours clean 0 false (fs.map Found.walked) ∧ e.holes = keptContours clean 0 true (fs.map Found.walked) ∧
      eA.shapes = keptContours clean 0 false ((fs.filter fun f => A.has f.top.a).map Found.walked) ∧
      eA.holes = keptContours clean 0 true ((fs.filter fun f => A.has f.top.a).map Found.walked) := by
  obtain ⟨fs, Φ, F, hR, k1, k2, k3, -⟩ := h.tours_all cw hc (Or.inl rfl) he
  obtain ⟨fsA, ΦA, FA, hRA, j1, j2, -⟩ := hA.tours_all cw hc (Or.inl rfl) heA
  have hbot : ∀ {t}, t ∈ inBox A segs → botP segs t = botP (inBox A segs) t := fun ht => botP_part hAB h.edges hA.edges hs ht
  have hkept : ∀ {t}, t ∈ inBox A segs → keptB rule r segs t = keptB rule r (inBox A segs) t := by
    intro t ht; unfold keptB; rw [hbot ht]
  have hopen : (fun s => Open g vis s ∧ A.has s.a = true) = Open gA visA := by
    funext s
    rw [propext (h.open_iff s), propext (hA.open_iff s)]
    refine propext ⟨?_, ?_⟩
    · rintro ⟨⟨t, t1, t2, rfl⟩, t3⟩
      have tm : t ∈ inBox A segs := List.mem_filter.2 ⟨t1, t3⟩
      exact ⟨t, tm, by rw [← hkept tm]; exact t2, rfl⟩
    · rintro ⟨t, t1, t2, rfl⟩
      obtain ⟨m1, m2⟩ := List.mem_filter.1 t1
      exact ⟨⟨t, m1, by rw [hkept t1]; exact t2, rfl⟩, m2⟩
  have hsideE : ∀ s ∈ segs.map Seg.key, Open g vis s → A.has s.a = A.has s.b := by
    intro s hm _
    obtain ⟨t, ht, rfl⟩ := List.mem_map.1 hm
    exact has_both hAB (hs t ht)
  have hT := hR.tours.side A.has hsideE
  rw [hopen] at hT
  have hmem : ∀ s, Open gA visA s → s ∈ (inBox A segs).map Seg.key := by
    intro s ho
    obtain ⟨t, t1, -, rfl⟩ := (hA.open_iff s).1 ho
    exact List.mem_map_of_mem t1
  have hmem' : ∀ s, Open gA visA s → s ∈ segs.map Seg.key := by
    intro s ho
    obtain ⟨t, t1, -, rfl⟩ := (hA.open_iff s).1 ho
    exact List.mem_map_of_mem (List.mem_filter.1 t1).1
  have hT' : Tours cw ((inBox A segs).map Seg.key) (Open gA visA) (fs.filter fun f => A.has f.top.a) :=
    hT.mono (fun s ho _ => hmem s ho) fun s ho _ => hmem' s ho
  -- the walks of a contour stay on its side
  have hraw : ∀ {fs : List Found} {R : Edge → Prop}, Tours cw (segs.map Seg.key) R fs →
      (∀ s ∈ segs.map Seg.key, R s → A.has s.a = A.has s.b) → ∀ f ∈ fs, (∀ d ∈ f.darts, A.has d.s.a = A.has f.top.a) ∧
      ∀ p ∈ f.raw, A.has p = A.has f.top.a := by
    intro fs R hT
    induction hT with
    | nil => intro _ f hf; simp at hf
    | @cons U f fs t ts ih =>
      intro hP f' hf'
      rcases List.mem_cons.1 hf' with rfl | hf'
      · obtain ⟨q, ht⟩ := t.tour
        have hside := ht.one_side hP
        have htop : A.has f'.top.a = A.has q := hside _ t.head_mem
        refine ⟨fun d hd => by rw [hside d hd, htop], ?_⟩
        intro p hp
        obtain ⟨d, hd, rfl⟩ := List.mem_map.1 hp
        rw [htop, ← hside d hd]
        have := hP d.s (ht.mem d hd).1 (ht.mem d hd).2
        unfold Dart.start
        cases d.fwd <;> simp [this]
      · exact ih (fun s hm hu => hP s hm hu.1) f' hf'
  have hraw := hraw hR.tours hsideE
  have hfs : fs.filter (fun f => A.has f.top.a) = fsA := by
    refine hT'.unique hRA.planar hRA.tours ?_ hRA.all
      (fun s => decide (FA (bvec ΦA ((inBox A segs).map Seg.key) s + cvec ΦA s) = 1)) ?_ ?_
    · intro s ho
      have ho' := ho
      rw [← hopen] at ho'
      obtain ⟨f, hf, hd⟩ := List.mem_flatMap.1 (hR.all s ho'.1)
      refine List.mem_flatMap.2 ⟨f, List.mem_filter.2 ⟨hf, ?_⟩, hd⟩
      obtain ⟨d, hd', rfl⟩ := List.mem_map.1 hd
      rw [← (hraw f hf).1 d hd']
      exact ho'.2
    · intro f hf
      obtain ⟨t, t1, -, e1⟩ := (hA.open_iff f.top).1 (hT'.tops f hf).2
      have h1 := hR.hole f (List.mem_filter.1 hf).1
      rw [← e1, (hR.bot t (List.mem_filter.1 t1).1).2, hbot t1] at h1
      rw [← e1, (hRA.bot t t1).2]
      cases hh : f.hole <;> cases hr : ruleAt rule r (botP (inBox A segs) t + cpair t) <;> simp [hh, hr] at h1 ⊢
    · intro f hf
      rw [hRA.hole f hf]
      cases f.hole <;> simp
  exact ⟨fs, fun f hf => ⟨(k3 f hf).1, (hraw f hf).2⟩, k1, k2, by rw [j1, hfs], by rw [j2, hfs]⟩

/-- The contours returned are those extracted, outer contours in their order. -/
theorem RunOk.returned_all {rule : FillRule} {r : OverlayRule} {segs : List (Seg CountBool)} {g : Graph} {V : List Pt}
    {vis : List Bool} (h : RunOk rule r segs g V vis) (cw : Bool) {x : Externals} (hc : CleanOk x.clean) {e : Extracted}
    (he : extractContours g r cw x.clean 0 vis = some e) {shapes : List (List (List Pt))}
    (hs : IOverlay.extract x g r cw 0 vis = some shapes) :
    shapes.flatten.Perm (e.shapes ++ e.holes) ∧ shapes.map (fun sh => sh.headD []) = e.shapes := by
  obtain ⟨ws, e', w1, w2, w3, w4, w5, w6⟩ := h.extract_all cw hc
  rw [he] at w1
  obtain rfl := Option.some.inj w1
  unfold IOverlay.extract at hs
  rw [he, Option.bind_some] at hs
  dsimp only at hs
  by_cases h0 : e.shapes = []
  · have hw : ws = [] := by
      rcases ws with _ | ⟨w, ws⟩
      · rfl
      · have := w5 w rfl
        rw [w2, List.filter_cons] at h0
        simp [this] at h0
    subst hw
    have hh : e.holes = [] := by rw [w3]; rfl
    rw [h0, hh] at hs ⊢
    have : shapes = [] := by
      unfold joinSortedHoles at hs
      simpa using hs.symm
    rw [this]
    exact ⟨List.Perm.refl _, rfl⟩
  · obtain ⟨p, parents, -, -, p3⟩ := C25_join_sorted _ _ _ _ _ _ _ (by simpa using h0) hs
    rw [show ∀ l : List (List Pt), (l.map fun c => [c]).flatten = l from fun l => by induction l <;> simp_all] at p
    refine ⟨p, ?_⟩
    rw [p3]
    apply List.ext_getElem?
    intro i
    rw [List.getElem?_map, List.getElem?_mapIdx, List.getElem?_map]
    cases e.shapes[i]? <;> rfl

theorem keptContours_side {clean : List Pt → List Pt × Bool} (hpts : ∀ c, ∀ p ∈ (clean c).1, p ∈ c) (A : Box) (hole : Bool) :
    ∀ {fs : List Found}, (∀ f ∈ fs, (validate clean 0 f.raw).1 = true ∧ ∀ p ∈ f.raw, A.has p = A.has f.top.a) →
    (keptContours clean 0 hole (fs.map Found.walked)).filter (fun c => c.all A.has) =
      keptContours clean 0 hole ((fs.filter fun f => A.has f.top.a).map Found.walked) := by
  intro fs
  induction fs with
  | nil => intro _; rfl
  | cons f fs ih =>
    intro hf
    obtain ⟨v, hp⟩ := hf f (by simp)
    have ih := ih fun g hg => hf g (by simp [hg])
    have hall : (clean f.walked.raw).1.all A.has = A.has f.top.a := by
      show (clean f.raw).1.all A.has = _
      have hne : (clean f.raw).1 ≠ [] := by
        intro h0
        unfold validate at v
        simp [h0] at v
      obtain ⟨p, hpm⟩ := List.exists_mem_of_ne_nil _ hne
      cases hA : A.has f.top.a
      · rw [List.all_eq_false]
        exact ⟨p, hpm, by rw [hp p (hpts _ p hpm), hA]; simp⟩
      · rw [List.all_eq_true]
        intro p' hp'
        rw [hp p' (hpts _ p' hp'), hA]
    unfold keptContours at ih ⊢
    rw [List.map_cons, List.filter_cons, List.filter_cons]
    cases hA : A.has f.top.a
    · simp only [Bool.false_eq_true, if_false]
      split
      · rw [List.map_cons, List.filter_cons]
        rw [hall, hA]
        simpa using ih
      · exact ih
    · simp only [if_true]
      rw [List.map_cons, List.filter_cons]
      split
      · rw [List.map_cons, List.filter_cons, List.map_cons]
        rw [hall, hA]
        simp only [if_true]
        rw [← ih]
      · exact ih

theorem mem_keptContours {clean : List Pt → List Pt × Bool} (hpts : ∀ c, ∀ p ∈ (clean c).1, p ∈ c) (A : Box) {hole : Bool}
    {fs : List Found} (hf : ∀ f ∈ fs, (validate clean 0 f.raw).1 = true ∧ ∀ p ∈ f.raw, A.has p = A.has f.top.a) {c : List Pt}
    (hc : c ∈ keptContours clean 0 hole (fs.map Found.walked)) : c ≠ [] ∧ ∀ p ∈ c, ∀ p' ∈ c, A.has p = A.has p' := by
  unfold keptContours at hc
  obtain ⟨w, hw, rfl⟩ := List.mem_map.1 hc
  obtain ⟨f, hfm, rfl⟩ := List.mem_map.1 (List.mem_filter.1 hw).1
  obtain ⟨v, hp⟩ := hf f hfm
  refine ⟨?_, fun p h p' h' => (hp p (hpts _ p h)).trans (hp p' (hpts _ p' h')).symm⟩
  intro h0
  change (clean f.raw).1 = [] at h0
  unfold validate at v
  simp [h0] at v

section
variable {A B : Box} {subj clip subjA clipA subjB clipB : List (List Pt)}
    (h : Separated A B subj clip subjA clipA subjB clipB) {k kA : Config} {x xA : Externals} (ha : Assumed k x)
    (haA : Assumed kA xA) (hsr : kA.sr = k.sr) (hcl : xA.clean = x.clean) (hca : CleanAssumed x) {r : OverlayRule} {rule : FillRule}
    {cw : Bool} (hf : FragFor k subj clip) (hfA : FragFor kA subjA clipA) {shapes shapesA : List (List (List Pt))}
    (hr : IsResult k x r rule cw 0 subj clip shapes) (hrA : IsResult kA xA r rule cw 0 subjA clipA shapesA)
include h ha haA hsr hcl hca hf hfA hr hrA

theorem contours_part : shapesA.flatten.Perm (shapes.flatten.filter fun c => c.all A.has) ∧
    shapesA.map (fun sh => sh.headD []) = (shapes.map fun sh => sh.headD []).filter (fun c => c.all A.has) ∧
    ∀ c ∈ shapes.flatten, c.all A.has = !c.all B.has := by
  obtain ⟨s, g, V, vis, h1, h2, h3⟩ := hr.run ha hf
  obtain ⟨sA, gA, VA, visA, h1A, h2A, h3A⟩ := hrA.run haA hfA
  rw [hsr] at h1A
  have hfA' : FragOk kA.st k.sr (overlaySegments subjA clipA : List (Seg CountBool)) := hsr ▸ hfA
  obtain ⟨e, hs⟩ := C78_noded h ha.tree haA.tree hf hfA' h1 h1A
  change sA = inBox A s at e
  subst e
  obtain ⟨-, e, he, -⟩ := h2.extract cw x.clean 0
  obtain ⟨-, eA, heA, -⟩ := h2A.extract cw x.clean 0
  obtain ⟨fs, f1, f2, f3, f4, f5⟩ := h2.part h.apart h2A hs cw ha.clean he heA
  obtain ⟨p1, p2⟩ := h2.returned_all cw ha.clean he h3
  obtain ⟨q1, q2⟩ := h2A.returned_all cw haA.clean (by rw [hcl]; exact heA) h3A
  have s1 := keptContours_side hca.points A false f1
  have s2 := keptContours_side hca.points A true f1
  rw [← f2, ← f4] at s1
  rw [← f3, ← f5] at s2
  refine ⟨?_, ?_, ?_⟩
  · refine q1.trans ?_
    rw [← s1, ← s2, ← List.filter_append]
    exact (p1.filter _).symm
  · rw [q2, p2, s1]
  · intro c hc
    have hu : c ≠ [] ∧ ∀ p ∈ c, ∀ p' ∈ c, A.has p = A.has p' := by
      rcases List.mem_append.1 (p1.mem_iff.1 hc) with hm | hm
      · rw [f2] at hm; exact mem_keptContours hca.points A f1 hm
      · rw [f3] at hm; exact mem_keptContours hca.points A f1 hm
    have hv : ∀ p ∈ c, A.has p = !B.has p := by
      intro p hp
      obtain ⟨sh, hsh, hcs⟩ := List.mem_flatten.1 hc
      obtain ⟨d, hd, hd'⟩ := h2.vertices cw hca.points h3 sh hsh c hcs p hp
      rcases hs d hd with g | g
      · have hp' : A.Has p := by rcases hd' with rfl | rfl; exacts [g.1, g.2]
        have : ¬ B.has p = true := fun hb => h.apart.not_has hp' (Box.has_iff.1 hb)
        rw [Box.has_iff.2 hp']; simp [this]
      · have hp' : B.Has p := by rcases hd' with rfl | rfl; exacts [g.1, g.2]
        have : ¬ A.has p = true := fun hb => h.apart.not_has (Box.has_iff.1 hb) hp'
        rw [Box.has_iff.2 hp']; simp [this]
    obtain ⟨p0, hp0⟩ := List.exists_mem_of_ne_nil _ hu.1
    cases hA : A.has p0
    · have a : c.all A.has = false := List.all_eq_false.2 ⟨p0, hp0, by simp [hA]⟩
      have b : c.all B.has = true := List.all_eq_true.2 fun p hp => by
        have := hv p hp
        rw [hu.2 p hp p0 hp0, hA] at this
        simpa using this
      rw [a, b]; rfl
    · have a : c.all A.has = true := List.all_eq_true.2 fun p hp => by rw [hu.2 p hp p0 hp0, hA]
      have b : c.all B.has = false := List.all_eq_false.2 ⟨p0, hp0, by
        have := hv p0 hp0
        rw [hA] at this
        simpa using this⟩
      rw [a, b]; rfl

/-- C78 (contours): the contours returned for the part alone are exactly the contours returned for the whole that lie in the
rectangle of the part, point for point; and the outer contours come in the same order. The strategies, segment trees and
sorting may differ, not the precision and the cleaning of contours. -/
theorem C78_contours : shapesA.flatten.Perm (shapes.flatten.filter fun c => c.all A.has) ∧
    shapesA.map (fun sh => sh.headD []) = (shapes.map fun sh => sh.headD []).filter fun c => c.all A.has :=
  ⟨(contours_part h ha haA hsr hcl hca hf hfA hr hrA).1, (contours_part h ha haA hsr hcl hca hf hfA hr hrA).2.1⟩

/-- C78 (contours): the contours returned for the whole are those returned for the two parts. -/
theorem C78_union {kB : Config} {xB : Externals} (haB : Assumed kB xB) (hsrB : kB.sr = k.sr) (hclB : xB.clean = x.clean)
    (hfB : FragFor kB subjB clipB) {shapesB : List (List (List Pt))} (hrB : IsResult kB xB r rule cw 0 subjB clipB shapesB) :
    shapes.flatten.Perm (shapesA.flatten ++ shapesB.flatten) := by
  obtain ⟨a1, -, a3⟩ := contours_part h ha haA hsr hcl hca hf hfA hr hrA
  obtain ⟨b1, -, -⟩ := contours_part h.symm ha haB hsrB hclB hca hf hfB hr hrB
  refine List.Perm.trans ?_ (a1.append b1).symm
  have e : shapes.flatten.filter (fun c => c.all B.has) = shapes.flatten.filter fun c => !c.all A.has := by
    refine List.filter_congr fun c hc => ?_
    rw [a3 c hc, Bool.not_not]
  rw [e]
  exact (List.filter_append_perm _ _).symm

end

/-! ### examples -/

def exFarA : List (List Pt) × List (List Pt) := ([[⟨0, 0⟩, ⟨7, 0⟩, ⟨7, 5⟩]], [[⟨2, -3⟩, ⟨5, -3⟩, ⟨3, 4⟩]])
def exFarB : List (List Pt) × List (List Pt) := ([[⟨20, 0⟩, ⟨27, 1⟩, ⟨26, 5⟩]], [[⟨22, -3⟩, ⟨25, -3⟩, ⟨23, 4⟩]])

def exFarShapesA : List (List (List Pt)) := [[[⟨3, 2⟩, ⟨0, 0⟩, ⟨2, 0⟩]], [[⟨7, 5⟩, ⟨3, 2⟩, ⟨4, 0⟩, ⟨7, 0⟩]]]
def exFarShapesB : List (List (List Pt)) := [[[⟨23, 2⟩, ⟨20, 0⟩, ⟨22, 0⟩]], [[⟨26, 5⟩, ⟨23, 4⟩, ⟨24, 1⟩, ⟨27, 1⟩]]]

theorem exFar_separated : Separated ⟨0, 7, -3, 5⟩ ⟨20, 27, -3, 5⟩ (exFarB.1 ++ exFarA.1) (exFarA.2 ++ exFarB.2)
    exFarA.1 exFarA.2 exFarB.1 exFarB.2 :=
  ⟨List.perm_append_comm, List.Perm.refl _, by unfold InRange Box.Has; decide, by unfold InRange Box.Has; decide, Or.inl (by decide)⟩

/-- Two triangles in each of two rectangles; crossings are rounded in both parts. -/
theorem exFar_runs : (roundMarks exConfig.sr.radius (listPairs (startEdges exFarA.1 exFarA.2))).2 = true ∧
    (roundMarks exConfig.sr.radius (listPairs (startEdges exFarB.1 exFarB.2))).2 = true ∧
    IsResult exConfig exRaw .difference .nonZero false 0 exFarA.1 exFarA.2 exFarShapesA ∧
    IsResult exConfig exRaw .difference .nonZero false 0 exFarB.1 exFarB.2 exFarShapesB ∧
    IsResult exConfig exRaw .difference .nonZero false 0 (exFarB.1 ++ exFarA.1) (exFarA.2 ++ exFarB.2)
      (exFarShapesA ++ exFarShapesB) :=
  ⟨by decide +kernel, by decide +kernel, Or.inl (by decide +kernel), Or.inl (by decide +kernel), Or.inl (by decide +kernel)⟩

/-- The hypotheses of the theorems are met by this example. -/
example : (exFarShapesA ++ exFarShapesB).flatten.Perm (exFarShapesA.flatten ++ exFarShapesB.flatten) :=
  C78_union exFar_separated exRaw_assumed.1 exRaw_assumed.1 rfl rfl exRaw_clean (FragOk.list _ _) (FragOk.list _ _)
    exFar_runs.2.2.2.2 exFar_runs.2.2.1 exRaw_assumed.1 rfl rfl (FragOk.list _ _) exFar_runs.2.2.2.1

example (q : QPt) : polysWind (exFarShapesA ++ exFarShapesB).flatten q =
    polysWind exFarShapesA.flatten q + polysWind exFarShapesB.flatten q :=
  C78_overlay_sum exFar_separated exRaw_assumed.1 exRaw_assumed.1 exRaw_assumed.1 rfl rfl (FragOk.list _ _) (FragOk.list _ _)
    (FragOk.list _ _) exFar_runs.2.2.2.2 exFar_runs.2.2.1 exFar_runs.2.2.2.1 q

example : (∃ fuel r, splitSegments .list exConfig.sr (bruteTree CountBool) fuel
      (overlaySegments (exFarB.1 ++ exFarA.1) (exFarA.2 ++ exFarB.2)) = some r) ↔
    (∃ fuel r, splitSegments .tree exConfig.sr (bruteTree CountBool) fuel (overlaySegments exFarA.1 exFarA.2) = some r) ∧
    ∃ fuel r, splitSegments .list exConfig.sr (bruteTree CountBool) fuel (overlaySegments exFarB.1 exFarB.2) = some r :=
  C78_ends exFar_separated bruteTree_ok bruteTree_ok bruteTree_ok (FragOk.list _ _)
    (fun _ h => absurd h (by decide +kernel)) (FragOk.list _ _)

end IOverlay
