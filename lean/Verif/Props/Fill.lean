/-
Property C39: the sweep assigns to the two sides of each edge their ray-casting winding numbers.
-/
import Verif.FillSides
import Verif.Props.Split

namespace IOverlay
open WindingCount

/-- The edges left by the splitting phase of a boolean overlay. -/
theorem overlay_planar {st : Strategy} {sr : SnapRadius} {tree : TreeOracle CountBool} (ht : tree.Ok)
    {fuel : Nat} {subj clip : List (List Pt)} (hf : FragOk st sr (overlaySegments subj clip : List (Seg CountBool)))
    {r : List (Seg CountBool)}
    (he : splitSegments st sr tree fuel (overlaySegments subj clip) = some r) :
    Planar r ∧ BoolOk r := by
  obtain ⟨h1, h2, h3, h4⟩ := splitSegments_spec st sr tree ht BoolOk (fun m l hl => hl.apply m)
    (Or.inr boolOk_small_noded) fuel _ r (overlaySegments_lt subj clip) hf
    (overlaySegments_boolOk subj clip).start he
  exact ⟨⟨h3, h2, h1⟩, h4⟩

/-- The two components of a boolean count. -/
def boolComp : Bool → CountBool → Int
  | true => CountBool.subj
  | false => CountBool.clip

theorem addAndFillBool_additive (rule : FillRule) : Additive boolComp (addAndFillBool rule) := by
  intro k this bot
  rw [addAndFillBool_eq]
  cases k <;> rfl

theorem addAndFillStr_additive (rule : FillRule) :
    Additive (fun _ : Unit => CountStr.subj) (addAndFillStr rule) := by
  intro k this bot
  rw [addAndFillStr_eq]

/-- The value the sweep stores for an edge of a noded boolean edge list. -/
theorem fillSweep_bool (rule : FillRule) {segs : List (Seg CountBool)} (hp : Planar segs)
    (hs : Closed CountBool.subj segs) (hc : Closed CountBool.clip segs) (sc : ScanOracle CountBool)
    (hsc : sc.Ok) (i : Nat) (s : Seg CountBool) (hi : segs[i]? = some s) :
    (fillSweep sc (addAndFillBool rule) segs)[i]? = some (mkFill
      (rule.inside (botW CountBool.subj segs s + s.c.subj)) (rule.inside (botW CountBool.subj segs s))
      (rule.inside (botW CountBool.clip segs s + s.c.clip)) (rule.inside (botW CountBool.clip segs s))) := by
  obtain ⟨v, hv, bot, rfl, hb⟩ := fillSweep_spec boolComp (addAndFillBool_additive rule) hp
    (by intro k; cases k
        · exact hc
        · exact hs) sc hsc (by intro k; cases k <;> rfl) i s hi
  rw [hv, addAndFillBool_eq]
  have h1 : bot.subj = botW CountBool.subj segs s := hb true
  have h2 : bot.clip = botW CountBool.clip segs s := hb false
  rw [h1, h2]

/-- C39 (boolean overlay): for any contours, fill rule, strategy, precision, for every edge left after
splitting and every point strictly inside it, for all points close enough on either side of the
edge, the flags stored for the edge are the fill rule applied to the subject / clip winding numbers
(by ray casting) of the point on the left ("top") and on the right ("bottom") of the edge. -/
theorem C39_sweep_fill (st : Strategy) (sr : SnapRadius) (tree : TreeOracle CountBool) (ht : tree.Ok)
    (sc : ScanOracle CountBool) (hsc : sc.Ok) (rule : FillRule) (fuel : Nat)
    (subj clip : List (List Pt)) (hf : FragOk st sr (overlaySegments subj clip : List (Seg CountBool)))
    (r : List (Seg CountBool))
    (he : splitSegments st sr tree fuel (overlaySegments subj clip) = some r)
    (i : Nat) (s : Seg CountBool) (hi : r[i]? = some s) (m : QPt) (hm : inSeg m s.a s.b) :
    ∃ ε : ℚ, 0 < ε ∧ ∀ δ, 0 < δ → δ < ε →
      (fillSweep sc (addAndFillBool rule) r)[i]? = some (mkFill
        (rule.inside (segsWind CountBool.subj r (leftOf s.a s.b m δ)))
        (rule.inside (segsWind CountBool.subj r (rightOf s.a s.b m δ)))
        (rule.inside (segsWind CountBool.clip r (leftOf s.a s.b m δ)))
        (rule.inside (segsWind CountBool.clip r (rightOf s.a s.b m δ)))) := by
  obtain ⟨hp, h1, h2, -⟩ := overlay_planar ht hf he
  have hs := List.mem_of_getElem? hi
  obtain ⟨ε1, p1, n1⟩ := hp.near h1 hs hm
  obtain ⟨ε2, p2, n2⟩ := hp.near h2 hs hm
  refine ⟨min ε1 ε2, lt_min p1 p2, fun δ d0 d1 => ?_⟩
  obtain ⟨d2, d3⟩ := lt_min_iff.1 d1
  obtain ⟨a1, a2⟩ := n1 δ d0 d2
  obtain ⟨a3, a4⟩ := n2 δ d0 d3
  rw [a1, a2, a3, a4]
  exact fillSweep_bool rule hp h1 h2 sc hsc i s hi

/-- C39 against the contours the user gave: when the crossing tests needed no rounding, the flags are
the fill rule applied to the winding numbers of the given polygons. -/
theorem C39_sweep_fill_input (sr : SnapRadius) (tree : TreeOracle CountBool) (ht : tree.Ok)
    (sc : ScanOracle CountBool) (hsc : sc.Ok) (rule : FillRule) (fuel : Nat)
    (subj clip : List (List Pt)) (r : List (Seg CountBool))
    (hns : ∀ c ∈ subj, NotClosedExplicitly c) (hnc : ∀ c ∈ clip, NotClosedExplicitly c)
    (hx : (roundMarks sr.radius (listPairs (mergeIfNeeded (sortSegs
      (overlaySegments subj clip : List (Seg CountBool)))))).2 = false)
    (he : splitSegments .list sr tree fuel (overlaySegments subj clip) = some r)
    (i : Nat) (s : Seg CountBool) (hi : r[i]? = some s) (m : QPt) (hm : inSeg m s.a s.b) :
    ∃ ε : ℚ, 0 < ε ∧ ∀ δ, 0 < δ → δ < ε →
      (fillSweep sc (addAndFillBool rule) r)[i]? = some (mkFill
        (rule.inside (polysWind subj (leftOf s.a s.b m δ)))
        (rule.inside (polysWind subj (rightOf s.a s.b m δ)))
        (rule.inside (polysWind clip (leftOf s.a s.b m δ)))
        (rule.inside (polysWind clip (rightOf s.a s.b m δ)))) := by
  obtain ⟨ε, e0, h⟩ := C39_sweep_fill .list sr tree ht sc hsc rule fuel subj clip (FragOk.list _ _) r he i s hi m hm
  refine ⟨ε, e0, fun δ d0 d1 => ?_⟩
  have e1 : ∀ q, segsWind CountBool.subj r q = polysWind subj q := fun q =>
    (C14_exact_split isComp_subj sr tree fuel _ r (overlaySegments_lt subj clip) hx he q).trans
      (C04_overlay_winding subj clip hns hnc q).1
  have e2 : ∀ q, segsWind CountBool.clip r q = polysWind clip q := fun q =>
    (C14_exact_split isComp_clip sr tree fuel _ r (overlaySegments_lt subj clip) hx he q).trans
      (C04_overlay_winding subj clip hns hnc q).2.1
  have := h δ d0 d1
  rwa [e1, e1, e2, e2] at this

/-- C39 (string overlay): for any noded edge list whose subject counts are balanced, the flags are
those of the subject winding numbers on both sides, plus the direction mask of the string lines. -/
theorem C39_sweep_fill_string (sc : ScanOracle CountStr) (hsc : sc.Ok) (rule : FillRule)
    (segs : List (Seg CountStr)) (hp : Planar segs) (hb : Balanced CountStr.subj segs)
    (i : Nat) (s : Seg CountStr) (hi : segs[i]? = some s) (m : QPt) (hm : inSeg m s.a s.b) :
    ∃ ε : ℚ, 0 < ε ∧ ∀ δ, 0 < δ → δ < ε →
      (fillSweep sc (addAndFillStr rule) segs)[i]? = some (mkFill
        (rule.inside (segsWind CountStr.subj segs (leftOf s.a s.b m δ)))
        (rule.inside (segsWind CountStr.subj segs (rightOf s.a s.b m δ)))
        s.c.back s.c.fwd) := by
  rw [← closed_iff_balanced] at hb
  have hs := List.mem_of_getElem? hi
  obtain ⟨ε, p1, n1⟩ := hp.near hb hs hm
  refine ⟨ε, p1, fun δ d0 d1 => ?_⟩
  obtain ⟨a1, a2⟩ := n1 δ d0 d1
  obtain ⟨v, hv, bot, rfl, hbot⟩ := fillSweep_spec (fun _ : Unit => CountStr.subj)
    (addAndFillStr_additive rule) hp (fun _ => hb) sc hsc (fun _ => rfl) i s hi
  rw [hv, addAndFillStr_eq, a1, a2, ← hbot ()]

/-! ### witnesses -/

/-- The sweep over the edges of two crossing squares: every edge gets a fill. -/
example : ((splitSegments .list ⟨0, 1⟩ (bruteTree CountBool) 5 (overlaySegments
    [[⟨0, 0⟩, ⟨10, 0⟩, ⟨10, 10⟩, ⟨0, 10⟩]] [[⟨5, 5⟩, ⟨15, 5⟩, ⟨15, 15⟩, ⟨5, 15⟩]])).map
      fun r => (fillSweep listScanOracle (addAndFillBool .nonZero) r).map BitVec.toNat) =
    some [2, 1, 2, 11, 7, 8, 14, 8, 1, 13, 4, 4] := by
  decide +kernel

end IOverlay
