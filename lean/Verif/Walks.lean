/-
The contours walked by the extraction do not depend on which of them are dropped, provided no three edges of the
result share their left end. C24, C52.
-/
import Verif.Keys

namespace IOverlay

section
variable {g : Graph} {V : List Pt} (hg : GraphOk g V) (hpl : Planar (g.links.map Link.seg))
include hg hpl

/-- The contours walked, whatever is dropped. -/
theorem extractLoop_walks (rule : OverlayRule) (clockwise : Bool) : ∀ (n li : Nat) (vis : List Bool),
    vis.length = g.links.length → (∀ n, dpar g vis n = false) → TwoRight g vis →
    (∀ i < li, isVisited vis i = true) → (g.links.length - li) + unv g vis < n →
    ∃ ws : List Walked, (ws.flatMap (·.trail)).Nodup ∧ (∀ i ∈ ws.flatMap (·.trail), isVisited vis i = false) ∧
      (∀ w ∈ ws, ClosedTrail g.links w.trail w.raw ∧ w.trail ≠ []) ∧
      (∀ i, isVisited vis i = false → i ∈ ws.flatMap (·.trail)) ∧
      ∀ (clean : List Pt → List Pt × Bool) (minArea fuel : Nat) (e e' : Extracted),
        extractLoop g rule clockwise clean minArea fuel li vis e = some e' →
        e'.shapes = e.shapes ++ keptContours clean minArea false ws ∧
        e'.holes = e.holes ++ keptContours clean minArea true ws := by
  intro n
  induction n with
  | zero => intro li vis _ _ _ _ h; omega
  | succ n ih =>
    intro li vis hlen hd h2 hall hn
    by_cases c1 : li < vis.length
    · by_cases c2 : isVisited vis li = true
      · obtain ⟨ws, h1, h3, h4, h5, h6⟩ := ih (li + 1) vis hlen hd h2 (by
          intro i hi
          rcases Nat.lt_succ_iff_lt_or_eq.1 hi with h | rfl
          · exact hall i h
          · exact c2) (by omega)
        refine ⟨ws, h1, h3, h4, h5, fun clean minArea fuel e e' he => ?_⟩
        cases fuel with
        | zero => simp [extractLoop] at he
        | succ fuel => rw [extractLoop, if_pos c1, if_pos c2] at he; exact h6 clean minArea fuel e e' he
      · have hv : isVisited vis li = false := by simpa using c2
        obtain ⟨lt, l, f1, f2, f3⟩ := findLeftTop_spec hg hd (by omega) hv
        obtain ⟨trail, pts, vis', g1, g2, g3, g4, g5, g6, g7, g8, -⟩ :=
          getContour_spec hg hd f2 f3 (isFillTop rule l.fill == clockwise) (isFillTop rule l.fill == clockwise)
        have hli := start_visited hg hpl h2 hd g6 hall (by omega) hv f1 f2 f3 g5
        generalize hraw : (if (isFillTop rule l.fill == clockwise) = true then l.b else l.a) = p at g1 g8
        have hall' : ∀ i < li + 1, isVisited vis' i = true := by
          intro i hi
          rcases Nat.lt_succ_iff_lt_or_eq.1 hi with h | rfl
          · rw [g5, hall i h]; rfl
          · exact hli
        obtain ⟨ws, h1, h3, h4, h5, h6⟩ := ih (li + 1) vis' (by omega) g6 (h2.mono (by
          intro i hi; rw [g5] at hi; exact (Bool.or_eq_false_iff.1 hi).1)) hall' (by omega)
        refine ⟨⟨lt :: trail, p :: pts, isFillTop rule l.fill⟩ :: ws, ?_, ?_, ?_, ?_, ?_⟩
        · rw [List.flatMap_cons]
          refine List.nodup_append.2 ⟨g3, h1, ?_⟩
          rintro i hi j hj rfl
          have := h3 i hj
          rw [g5] at this
          simp only [Bool.or_eq_false_iff, decide_eq_false_iff_not] at this
          exact this.2 hi
        · intro i hi
          rw [List.flatMap_cons] at hi
          rcases List.mem_append.1 hi with h | h
          · exact g4 i h
          · have := h3 i h
            rw [g5] at this
            exact (Bool.or_eq_false_iff.1 this).1
        · intro w hw
          rcases List.mem_cons.1 hw with rfl | hw
          · exact ⟨g8.closed, by simp⟩
          · exact h4 w hw
        · intro i hi
          rw [List.flatMap_cons, List.mem_append]
          by_cases hm : i ∈ lt :: trail
          · exact Or.inl hm
          · exact Or.inr (h5 i (by rw [g5, hi]; simpa using hm))
        · intro clean minArea fuel e e' he
          cases fuel with
          | zero => simp [extractLoop] at he
          | succ fuel =>
            rw [extractLoop, if_pos c1, if_neg c2, f1, Option.bind_some, f2, Option.bind_some] at he
            dsimp only at he
            rw [g1, Option.bind_some] at he
            dsimp only at he
            by_cases c3 : (validate clean minArea (p :: pts)).1 = true
            · rw [if_neg (by simp [c3])] at he
              obtain ⟨e1, p1, p2, p3, -⟩ := push_spec e clockwise (isFillTop rule l.fill)
                (validate clean minArea (p :: pts)).2.1 (c := (clean (p :: pts)).1) (validate_len c3)
              rw [validate_snd, p1, Option.bind_some] at he
              cases fuel with
              | zero => simp [extractLoop] at he
              | succ fuel =>
                rw [extractLoop, if_pos (by omega), if_pos hli] at he
                obtain ⟨k1, k2⟩ := h6 clean minArea fuel e1 e' he
                rw [k1, k2, p2, p3]
                unfold keptContours
                rw [List.filter_cons, List.filter_cons]
                cases isFillTop rule l.fill <;> simp [c3]
            · rw [if_pos (by simp [c3])] at he
              obtain ⟨k1, k2⟩ := h6 clean minArea fuel e e' he
              rw [k1, k2]
              unfold keptContours
              rw [List.filter_cons, List.filter_cons]
              simp [c3]
    · refine ⟨[], by simp, by simp, by simp, ?_, ?_⟩
      · intro i hi
        have := unvisited_lt hi
        rw [hall i (by omega)] at hi
        cases hi
      · intro clean minArea fuel e e' he
        cases fuel with
        | zero => simp [extractLoop] at he
        | succ fuel =>
          rw [extractLoop, if_neg c1] at he
          obtain rfl := Option.some.inj he
          simp [keptContours]

end

section
variable {rule : FillRule} {r : OverlayRule} {segs : List (Seg CountBool)} {g : Graph} {V : List Pt}
  {vis : List Bool} (h : RunOk rule r segs g V vis)
include h

/-- The contours of the region, of which every extraction keeps those that pass `validate`. -/
theorem RunOk.walks (clockwise : Bool) (h2 : TwoRight g vis) :
    ∃ ws : List Walked, (ws.flatMap (·.trail)).Perm ((List.range g.links.length).filter fun i => !isVisited vis i) ∧
      (∀ w ∈ ws, ClosedTrail g.links w.trail w.raw ∧ w.trail ≠ []) ∧
      ∀ (clean : List Pt → List Pt × Bool) (minArea : Nat), ∃ e,
        extractContours g r clockwise clean minArea vis = some e ∧
        e.shapes = keptContours clean minArea false ws ∧ e.holes = keptContours clean minArea true ws := by
  obtain ⟨ws, h1, h3, h4, h5, h6⟩ := extractLoop_walks h.graph h.planar r clockwise _ 0 vis h.length h.dpar h2
    (by intro i hi; omega) (Nat.lt_succ_self _)
  refine ⟨ws, ?_, h4, fun clean minArea => ?_⟩
  · refine (List.perm_ext_iff_of_nodup h1 (List.nodup_range.filter _)).2 fun i => ?_
    rw [List.mem_filter, List.mem_range]
    constructor
    · intro hi
      have hv := h3 i hi
      have := unvisited_lt hv
      rw [h.length] at this
      exact ⟨this, by simp [hv]⟩
    · rintro ⟨-, hv⟩
      exact h5 i (by simpa using hv)
  · obtain ⟨-, e, e1, -⟩ := h.extract clockwise clean minArea
    refine ⟨e, e1, ?_⟩
    obtain ⟨k1, k2⟩ := h6 clean minArea _ _ _ e1
    exact ⟨by simpa [Extracted.empty] using k1, by simpa [Extracted.empty] using k2⟩

end

end IOverlay
