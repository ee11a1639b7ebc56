/-
The fragment strategy (C38, C12): a computable criterion for inputs on which it agrees with the other strategies, and
inputs on which it does not.
-/
import Verif.FragLoop
import Verif.Props.Swap
import Verif.Props.Strings
import Verif.Props.Attach

namespace IOverlay
variable {C : Type}

/-! ### a criterion -/

/-- Decides whether fragments can discover all touches. -/
def fragSafeB (g : Grid) (segs : List (Seg C)) : Bool :=
  segs.all fun s => segs.all fun t => [t.a, t.b].all fun e =>
    !(decide (area2 s.a s.b e = 0) && decide (s.a < e) && decide (e < s.b)) ||
    segs.any fun u => (decide (e = u.a) || decide (e = u.b)) &&
      (if area2 s.a s.b u.a = 0 ∧ area2 s.a s.b u.b = 0 ∧ area2 u.a u.b s.a = 0 ∧ area2 u.a u.b s.b = 0 then
        decide (g.index s.a.x = g.index u.a.x)
      else decide (e = u.a) || decide (s.a.x < s.b.x) || decide ((s.a.x - g.minX) % 2 ^ g.power ≠ 0))

theorem fragSafe_of {g : Grid} {segs : List (Seg C)} (hl : ∀ s ∈ segs, s.a < s.b) (h : fragSafeB g segs = true) :
    FragSafe g segs := by
  intro s hs t ht e he hin
  unfold fragSafeB at h
  rw [List.all_eq_true] at h
  have h := h s hs
  rw [List.all_eq_true] at h
  have h := h t ht
  rw [List.all_eq_true] at h
  have h := h e (by rcases he with rfl | rfl <;> simp)
  obtain ⟨l1, l2⟩ := inSeg_lt (hl s hs) hin
  have l0 := area2_of_inSeg hin.on
  rw [decide_eq_true l0, decide_eq_true l1, decide_eq_true l2] at h
  simp only [Bool.and_self, Bool.not_true, Bool.false_or, List.any_eq_true, Bool.and_eq_true, Bool.or_eq_true,
    decide_eq_true_eq] at h
  obtain ⟨u, hu, h1, h2⟩ := h
  refine ⟨u, hu, h1, ?_⟩
  unfold Seen
  split at h2
  · rename_i h
    exact Or.inl ⟨h, by simpa using h2⟩
  · rename_i h
    refine Or.inr ⟨h, ?_⟩
    simp only [Bool.or_eq_true, decide_eq_true_eq] at h2
    rcases h2 with (h2 | h2) | h2
    · exact Or.inl h2
    · exact Or.inr (Or.inl h2)
    · refine Or.inr (Or.inr ?_)
      intro b hb
      apply h2
      rw [← hb]
      unfold Grid.pos
      rw [show (b : Int) * 2 ^ g.power + g.minX - g.minX = 2 ^ g.power * b by ring]
      exact Int.mul_emod_right _ _

/-- If the first round of the list strategy needs no further round, only the first round matters. -/
theorem FragClear.of_exact [WindingCount C] {g : Grid} {sr : SnapRadius} {segs : List (Seg C)}
    (hx : (roundMarks sr.radius (listPairs segs)).2 = false) (hs : FragSafe g segs) (hc : sr.current ≤ 30) :
    FragClear g sr segs := by
  intro sr' l h
  cases h with
  | start => exact ⟨hs, hc⟩
  | next h => rw [hx] at h; exact absurd h (by simp)

/-- Two rectangles sharing a part of a border (a clip corner lies inside a subject edge of another column) and crossing
elsewhere; split by fragments. -/
def exFragInput : List (List Pt) × List (List Pt) :=
  ([[⟨0, 0⟩, ⟨20, 0⟩, ⟨20, 10⟩, ⟨0, 10⟩]], [[⟨9, 0⟩, ⟨25, 0⟩, ⟨25, 30⟩, ⟨9, 30⟩]])

/-- The condition of the fragment strategy is met by a non-trivial input: four columns, crossing edges, overlapping edges
starting in different columns. -/
theorem exFragOk : FragOk .frag ⟨0, 1⟩ (overlaySegments exFragInput.1 exFragInput.2 : List (Seg CountBool)) := by
  intro _ _ g hg
  have e : Grid.new (mergeIfNeeded (sortSegs (overlaySegments exFragInput.1 exFragInput.2 : List (Seg CountBool)))) =
      some ⟨0, 25, 3⟩ := by decide +kernel
  rw [e] at hg
  obtain rfl := Option.some.inj hg
  refine ⟨?_, FragClear.of_exact (by decide +kernel) (fragSafe_of ?_ (by decide +kernel)) (by decide)⟩
  · unfold InRange; decide +kernel
  · decide +kernel

/-- Solver parameters: fragments. -/
def fragConfig : Config := ⟨.frag, ⟨0, 1⟩, bruteTree CountBool, listScanOracle, 8⟩

example : FragFor fragConfig exFragInput.1 exFragInput.2 ∧
    overlayCustom fragConfig exRaw .intersect .nonZero false 0 (overlaySegments exFragInput.1 exFragInput.2) =
      some [[[⟨9, 10⟩, ⟨9, 0⟩, ⟨20, 0⟩, ⟨20, 10⟩]]] :=
  ⟨exFragOk, by decide +kernel⟩

/-! ### refutations -/

/-- A triangle whose right corner touches the left edge of a square. -/
def teeInput : List (List Pt) × List (List Pt) :=
  ([[⟨0, 0⟩, ⟨8, 4⟩, ⟨0, 8⟩]], [[⟨8, 0⟩, ⟨16, 0⟩, ⟨16, 16⟩, ⟨8, 16⟩]])

/-- Counterexample to the full statement of C38 and, for fragments, of C12: with the fragment strategy the left edge of
the square, which lies on a column border, is not split at the corner touching it, so two of the resulting edges touch
inside one of them; the list strategy splits it, and the returned contours differ. -/
theorem C38_fragment_refuted :
    ∃ (r r' : List (Seg CountBool)) (e f : Seg CountBool) (out out' : List (List (List Pt))),
      splitSegments .frag ⟨0, 1⟩ (bruteTree CountBool) 8 (overlaySegments teeInput.1 teeInput.2) = some r ∧
      splitSegments .list ⟨0, 1⟩ (bruteTree CountBool) 8 (overlaySegments teeInput.1 teeInput.2) = some r' ∧
      e ∈ r ∧ f ∈ r ∧ e ≠ f ∧ ¬ MeetAtEnds e.a e.b f.a f.b ∧ r.length ≠ r'.length ∧
      overlayCustom fragConfig exRaw .union .nonZero false 0 (overlaySegments teeInput.1 teeInput.2) = some out ∧
      overlayCustom { fragConfig with st := .list } exRaw .union .nonZero false 0
        (overlaySegments teeInput.1 teeInput.2) = some out' ∧
      out ≠ out' := by
  refine ⟨[⟨⟨0, 0⟩, ⟨0, 8⟩, ⟨-1, 0⟩⟩, ⟨⟨0, 0⟩, ⟨8, 4⟩, ⟨1, 0⟩⟩, ⟨⟨0, 8⟩, ⟨8, 4⟩, ⟨-1, 0⟩⟩, ⟨⟨8, 0⟩, ⟨8, 16⟩, ⟨0, -1⟩⟩,
      ⟨⟨8, 0⟩, ⟨16, 0⟩, ⟨0, 1⟩⟩, ⟨⟨8, 16⟩, ⟨16, 16⟩, ⟨0, -1⟩⟩, ⟨⟨16, 0⟩, ⟨16, 16⟩, ⟨0, 1⟩⟩],
    [⟨⟨0, 0⟩, ⟨0, 8⟩, ⟨-1, 0⟩⟩, ⟨⟨0, 0⟩, ⟨8, 4⟩, ⟨1, 0⟩⟩, ⟨⟨0, 8⟩, ⟨8, 4⟩, ⟨-1, 0⟩⟩, ⟨⟨8, 0⟩, ⟨8, 4⟩, ⟨0, -1⟩⟩,
      ⟨⟨8, 0⟩, ⟨16, 0⟩, ⟨0, 1⟩⟩, ⟨⟨8, 4⟩, ⟨8, 16⟩, ⟨0, -1⟩⟩, ⟨⟨8, 16⟩, ⟨16, 16⟩, ⟨0, -1⟩⟩, ⟨⟨16, 0⟩, ⟨16, 16⟩, ⟨0, 1⟩⟩],
    ⟨⟨8, 0⟩, ⟨8, 16⟩, ⟨0, -1⟩⟩, ⟨⟨0, 0⟩, ⟨8, 4⟩, ⟨1, 0⟩⟩,
    [[[⟨0, 8⟩, ⟨0, 0⟩, ⟨8, 4⟩]], [[⟨8, 16⟩, ⟨8, 0⟩, ⟨16, 0⟩, ⟨16, 16⟩]]],
    [[[⟨0, 8⟩, ⟨0, 0⟩, ⟨8, 4⟩]], [[⟨8, 4⟩, ⟨8, 0⟩, ⟨16, 0⟩, ⟨16, 16⟩, ⟨8, 16⟩]]],
    by decide +kernel, by decide +kernel, by decide, by decide, by decide, ?_, by decide, by decide +kernel,
    by decide +kernel, by decide⟩
  intro h
  have h1 : onSeg (⟨8, 4⟩ : Pt).q ⟨8, 0⟩ ⟨8, 16⟩ := by
    refine onSeg_of_between (Pt.lt_def.2 (by decide)) (by decide) ?_ ?_ <;> rw [Pt.lt_def] <;> decide
  have h2 := (h _ h1 (onSeg_right _ _)).1
  rcases h2 with h2 | h2
  · have := congrArg Pt.y (Pt.q_inj h2); simp at this
  · have := congrArg Pt.y (Pt.q_inj h2); simp at this

/-- Counterexample for clipping lines: a line running along the lower edge of a square and leaving it. Boundary pieces
are not to be returned; the list strategy returns nothing, the fragment strategy the piece along the edge. -/
theorem C38_fragment_strings_refuted :
    let segs := stringSegments [[⟨0, 0⟩, ⟨20, 0⟩, ⟨20, 10⟩, ⟨0, 10⟩]] [[⟨9, 0⟩, ⟨25, 0⟩]] []
    clipLines ⟨false, false⟩ .nonZero .list ⟨0, 1⟩ (bruteTree CountStr) listScanOracle 8 insertionEndSort segs = some [] ∧
    clipLines ⟨false, false⟩ .nonZero .frag ⟨0, 1⟩ (bruteTree CountStr) listScanOracle 8 insertionEndSort segs =
      some [[⟨9, 0⟩, ⟨20, 0⟩]] := by
  decide +kernel

/-- Counterexample for lines and the tree strategy: two crossing lines and no shape are not split at their crossing. -/
theorem C38_tree_strings_refuted :
    let segs := stringSegments [] [[⟨0, 0⟩, ⟨10, 10⟩], [⟨0, 10⟩, ⟨10, 0⟩]] []
    (splitSegments .list ⟨0, 1⟩ (bruteTree CountStr) 8 segs).map List.length = some 4 ∧
    (splitSegments .tree ⟨0, 1⟩ (bruteTree CountStr) 8 segs).map List.length = some 2 := by
  decide +kernel

end IOverlay
