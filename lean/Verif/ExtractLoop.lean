/-
The main loop of the extraction: which contours are walked and which are returned. C21, C22, C24.
-/
import Verif.ExtractLemmas

namespace IOverlay

/-- A contour walked by the extraction: the links in the order of the walk, the points visited, and
whether the walk started below a filled region (a hole). -/
structure Walked where
  trail : List Nat
  raw : List Pt
  hole : Bool

/-- The contours that pass `validate`, cleaned; `h`: holes or outer boundaries. -/
def keptContours (clean : List Pt → List Pt × Bool) (minArea : Nat) (h : Bool) (ws : List Walked) : List (List Pt) :=
  (ws.filter fun w => decide (w.hole = h) && (validate clean minArea w.raw).1).map fun w => (clean w.raw).1

theorem validate_snd (clean : List Pt → List Pt × Bool) (minArea : Nat) (c : List Pt) :
    (validate clean minArea c).2.2 = (clean c).1 := by
  unfold validate
  dsimp only
  split
  · rfl
  · split <;> rfl

theorem validate_len {clean : List Pt → List Pt × Bool} {minArea : Nat} {c : List Pt}
    (h : (validate clean minArea c).1 = true) : 3 ≤ (clean c).1.length := by
  unfold validate at h
  dsimp only at h
  split at h
  · simp at h
  · omega

theorem minIndex_some {c : List Pt} (h : c ≠ []) : ∃ m, minIndex c = some m := by
  cases c with
  | nil => exact absurd rfl h
  | cons p ps => exact ⟨_, rfl⟩

theorem leftBottomSegment_some {c : List Pt} (h : c ≠ []) : ∃ s, leftBottomSegment c = some s := by
  obtain ⟨m, hm⟩ := minIndex_some h
  have hn : 0 < c.length := List.length_pos_iff.2 h
  unfold leftBottomSegment
  rw [hm, Option.bind_some]
  dsimp only
  rw [List.getElem?_eq_getElem (Nat.mod_lt _ hn), List.getElem?_eq_getElem (Nat.mod_lt _ hn)]
  exact ⟨_, rfl⟩

theorem holeSegment_some {c : List Pt} (clockwise : Bool) (h : 3 ≤ c.length) : ∃ s, holeSegment clockwise c = some s := by
  unfold holeSegment
  cases clockwise
  · simp only [Bool.false_eq_true, if_false]
    rw [List.getElem?_eq_getElem (by omega), List.getElem?_eq_getElem (by omega)]
    exact ⟨_, rfl⟩
  · simp only [if_true]
    rw [List.getElem?_eq_getElem (by omega), List.getElem?_eq_getElem (by omega)]
    exact ⟨_, rfl⟩

theorem push_spec (e : Extracted) (clockwise isHole isModified : Bool) {c : List Pt} (h : 3 ≤ c.length) :
    ∃ e', e.push clockwise isHole isModified c = some e' ∧
      e'.shapes = e.shapes ++ (if isHole then [] else [c]) ∧
      e'.holes = e.holes ++ (if isHole then [c] else []) ∧
      e'.anchors.map (·.1) = e.anchors.map (·.1) ++ (if isHole then [e.holes.length] else []) := by
  unfold Extracted.push
  cases isHole
  · simp
  · obtain ⟨s, hs⟩ := holeSegment_some clockwise h
    obtain ⟨t, ht⟩ := leftBottomSegment_some (c := c) (by intro e; rw [e] at h; simp at h)
    simp only [if_true, hs, ht, Option.bind_some]
    split <;> simp

/-- A contour left unchanged by `clean`: its anchor is the segment given by the walk. -/
theorem push_kept {e e' : Extracted} {clockwise isHole : Bool} {c : List Pt}
    (h : e.push clockwise isHole false c = some e') :
    e'.sorted = e.sorted ∧
      e'.anchors = e.anchors ++ ((if isHole then [c] else []).zipIdx e.holes.length).filterMap fun h =>
        (holeSegment clockwise h.1).map fun v => (h.2, v) := by
  unfold Extracted.push at h
  cases isHole
  · simp only [Bool.false_eq_true, if_false] at h
    obtain rfl := Option.some.inj h
    simp
  · simp only [if_true] at h
    cases hv : holeSegment clockwise c with
    | none => rw [hv] at h; simp at h
    | some v =>
      rw [hv, Option.bind_some] at h
      cases hw : leftBottomSegment c with
      | none => rw [hw] at h; simp at h
      | some w =>
        rw [hw, Option.bind_some] at h
        simp only [Bool.false_and, Bool.false_eq_true, if_false] at h
        obtain rfl := Option.some.inj h
        simp [hv]

section
variable {g : Graph} {V : List Pt} (hg : GraphOk g V)
include hg

/-- What the main loop does from any balanced state: it finishes; the contours it walks are closed
trails through pairwise different, initially unvisited links; it returns those passing `validate`. -/
theorem extractLoop_spec (rule : OverlayRule) (clockwise : Bool) (clean : List Pt → List Pt × Bool)
    (minArea : Nat) : ∀ (fuel li : Nat) (vis : List Bool) (e : Extracted), vis.length = g.links.length →
    (∀ n, dpar g vis n = false) → (g.links.length - li) + unv g vis < fuel →
    e.anchors.map (·.1) = List.range e.holes.length →
    ∃ ws e', extractLoop g rule clockwise clean minArea fuel li vis e = some e' ∧
      e'.shapes = e.shapes ++ keptContours clean minArea false ws ∧
      e'.holes = e.holes ++ keptContours clean minArea true ws ∧
      e'.anchors.map (·.1) = List.range e'.holes.length ∧
      (ws.flatMap (·.trail)).Nodup ∧ (∀ i ∈ ws.flatMap (·.trail), isVisited vis i = false) ∧
      (∀ w ∈ ws, ClosedTrail g.links w.trail w.raw ∧ w.trail ≠ [] ∧
        ∃ i l, i ∈ w.trail ∧ g.links[i]? = some l ∧ w.hole = isFillTop rule l.fill) ∧
      (∀ w ∈ ws.head?, ∃ k lt l, li ≤ k ∧ (∀ i, li ≤ i → i < k → isVisited vis i = true) ∧
        isVisited vis k = false ∧ findLeftTop g k vis = some lt ∧ g.links[lt]? = some l ∧
        w.hole = isFillTop rule l.fill) ∧
      ((∀ i < li, isVisited vis i = true) → (∀ w ∈ ws, (validate clean minArea w.raw).1 = true) →
        ∀ i, isVisited vis i = false → i ∈ ws.flatMap (·.trail)) := by
  intro fuel
  induction fuel with
  | zero => intro li vis e _ _ h; omega
  | succ fuel ih =>
    intro li vis e hlen hd hf ha
    rw [extractLoop]
    by_cases c1 : li < vis.length
    · rw [if_pos c1]
      by_cases c2 : isVisited vis li = true
      · rw [if_pos c2]
        obtain ⟨ws, e', h1, h2, h3, h4, h5, h6, h7, h9, h8⟩ := ih (li + 1) vis e hlen hd (by omega) ha
        refine ⟨ws, e', h1, h2, h3, h4, h5, h6, h7, ?_, fun hl => h8 ?_⟩
        · intro w hw
          obtain ⟨k, lt, l, q1, q2, q3⟩ := h9 w hw
          refine ⟨k, lt, l, by omega, ?_, q3⟩
          intro i hi hk
          rcases Nat.eq_or_lt_of_le hi with h | h
          · rw [← h]; exact c2
          · exact q2 i h hk
        intro i hi
        rcases Nat.lt_succ_iff_lt_or_eq.1 hi with h | rfl
        · exact hl i h
        · exact c2
      · rw [if_neg c2]
        have hv : isVisited vis li = false := by simpa using c2
        obtain ⟨lt, l, f1, f2, f3⟩ := findLeftTop_spec hg hd (by omega) hv
        rw [f1, Option.bind_some, f2, Option.bind_some]
        dsimp only
        obtain ⟨trail, pts, vis', g1, g2, g3, g4, g5, g6, g7, g8, -⟩ :=
          getContour_spec hg hd f2 f3 (isFillTop rule l.fill == clockwise) (isFillTop rule l.fill == clockwise)
        rw [g1, Option.bind_some]
        dsimp only
        generalize hraw : (if (isFillTop rule l.fill == clockwise) = true then l.b else l.a) = p at g8 ⊢
        have hct : ClosedTrail g.links (lt :: trail) (p :: pts) := g8.closed
        have glue : ∀ ws : List Walked, (ws.flatMap (·.trail)).Nodup →
            (∀ i ∈ ws.flatMap (·.trail), isVisited vis' i = false) →
            (((⟨lt :: trail, p :: pts, isFillTop rule l.fill⟩ : Walked) :: ws).flatMap (·.trail)).Nodup ∧
            ∀ i ∈ ((⟨lt :: trail, p :: pts, isFillTop rule l.fill⟩ : Walked) :: ws).flatMap (·.trail),
              isVisited vis i = false := by
          intro ws w1 w2
          rw [List.flatMap_cons]
          constructor
          · refine List.nodup_append.2 ⟨g3, w1, ?_⟩
            rintro i hi j hj rfl
            have := w2 i hj
            rw [g5] at this
            simp only [Bool.or_eq_false_iff, decide_eq_false_iff_not] at this
            exact this.2 hi
          · intro i hi
            rcases List.mem_append.1 hi with h | h
            · exact g4 i h
            · have := w2 i h
              rw [g5] at this
              exact (Bool.or_eq_false_iff.1 this).1
        by_cases c3 : (validate clean minArea (p :: pts)).1 = true
        · rw [if_neg (by simp [c3])]
          have h3 := validate_len c3
          obtain ⟨e1, p1, p2, p3, p4⟩ := push_spec e clockwise (isFillTop rule l.fill)
            (validate clean minArea (p :: pts)).2.1 (c := (clean (p :: pts)).1) h3
          rw [validate_snd, p1, Option.bind_some]
          obtain ⟨ws, e', h1, h2, h3, h4, h5, h6, h7, h9, h8⟩ := ih li vis' e1 (by omega) g6 (by omega) (by
            rw [p4, p3, ha, List.length_append]
            cases isFillTop rule l.fill
            · simp
            · simp [List.range_succ])
          refine ⟨⟨lt :: trail, p :: pts, isFillTop rule l.fill⟩ :: ws, e', h1, ?_, ?_, h4,
            (glue ws h5 h6).1, (glue ws h5 h6).2, ?_, ?_, ?_⟩
          · rw [h2, p2]
            unfold keptContours
            rw [List.filter_cons]
            cases isFillTop rule l.fill <;> simp [c3]
          · rw [h3, p3]
            unfold keptContours
            rw [List.filter_cons]
            cases isFillTop rule l.fill <;> simp [c3]
          · intro w hw
            rcases List.mem_cons.1 hw with rfl | hw
            · exact ⟨hct, by simp, lt, l, by simp, f2, rfl⟩
            · exact h7 w hw
          · intro w hw
            obtain rfl := Option.some.inj hw
            exact ⟨li, lt, l, le_refl _, fun i h1 h2 => absurd h2 (by omega), hv, f1, f2, rfl⟩
          · intro k1 k2 i hi
            rw [List.flatMap_cons, List.mem_append]
            by_cases hm : i ∈ lt :: trail
            · exact Or.inl hm
            · refine Or.inr (h8 ?_ (fun w hw => k2 w (List.mem_cons_of_mem _ hw)) i (by rw [g5, hi]; simpa using hm))
              intro j hj
              rw [g5, k1 j hj]; rfl
        · rw [if_pos (by simp [c3])]
          obtain ⟨ws, e', h1, h2, h3, h4, h5, h6, h7, h9, h8⟩ := ih (li + 1) vis' e (by omega) g6 (by omega) ha
          refine ⟨⟨lt :: trail, p :: pts, isFillTop rule l.fill⟩ :: ws, e', h1, ?_, ?_, h4,
            (glue ws h5 h6).1, (glue ws h5 h6).2, ?_, ?_, ?_⟩
          · rw [h2]
            unfold keptContours
            rw [List.filter_cons]
            simp [c3]
          · rw [h3]
            unfold keptContours
            rw [List.filter_cons]
            simp [c3]
          · intro w hw
            rcases List.mem_cons.1 hw with rfl | hw
            · exact ⟨hct, by simp, lt, l, by simp, f2, rfl⟩
            · exact h7 w hw
          · intro w hw
            obtain rfl := Option.some.inj hw
            exact ⟨li, lt, l, le_refl _, fun i h1 h2 => absurd h2 (by omega), hv, f1, f2, rfl⟩
          · intro k1 k2 i hi
            exact absurd (k2 ⟨lt :: trail, p :: pts, isFillTop rule l.fill⟩ (by simp)) c3
    · rw [if_neg c1]
      refine ⟨[], e, rfl, by simp [keptContours], by simp [keptContours], ha, by simp, by simp, by simp, by simp, ?_⟩
      intro k1 _ i hi
      have := unvisited_lt hi
      rw [k1 i (by omega)] at hi
      exact absurd hi (by simp)

end

end IOverlay
