/-
The links of a boolean overlay: from contours to `OverlayGraph` input (core/link.rs `build_boolean`).
-/
import Verif.GraphLemmas
import Verif.Even
import Verif.Props.Fill

namespace IOverlay
open WindingCount
variable {C : Type}

/-- `OverlayLinkBuilder::build_boolean`, core/link.rs:106-112: split, fill, filter. -/
def buildBoolean (inc : Fill → Bool) (rule : FillRule) (st : Strategy) (sr : SnapRadius)
    (tree : TreeOracle CountBool) (sc : ScanOracle CountBool) (fuel : Nat)
    (segs : List (Seg CountBool)) : Option (List Link) :=
  if segs.isEmpty then some []
  else (splitSegments st sr tree fuel segs).map fun r =>
    if r.isEmpty then [] else buildLinks inc r (fillSweep sc (addAndFillBool rule) r)

/-- The noded edges of an overlay: the result of the splitting phase (core/link.rs:106-112; no
edges, nothing to do). -/
def nodedEdges [WindingCount C] (st : Strategy) (sr : SnapRadius) (tree : TreeOracle C) (fuel : Nat)
    (segs : List (Seg C)) : Option (List (Seg C)) :=
  if segs.isEmpty then some [] else splitSegments st sr tree fuel segs

theorem buildLinks_map (inc : Fill → Bool) (segs : List (Seg C)) (F : Seg C → Fill) :
    buildLinks inc segs (segs.map F) =
      (segs.filter fun s => inc (F s)).map fun s => ⟨s.a, 0, s.b, 0, F s⟩ := by
  unfold buildLinks
  induction segs with
  | nil => rfl
  | cons s l ih =>
    rw [List.map_cons, List.zip_cons_cons, List.filterMap_cons, List.filter_cons]
    by_cases h : inc (F s)
    · simp [h, ih]
    · simp [h, ih]

/-- The flags the sweep stores for an edge. -/
noncomputable def fillOf (rule : FillRule) (segs : List (Seg CountBool)) (s : Seg CountBool) : Fill :=
  mkFill
    (rule.inside (botW CountBool.subj segs s + s.c.subj)) (rule.inside (botW CountBool.subj segs s))
    (rule.inside (botW CountBool.clip segs s + s.c.clip)) (rule.inside (botW CountBool.clip segs s))

theorem fillSweep_map (rule : FillRule) {segs : List (Seg CountBool)} (hp : Planar segs)
    (hs : Closed CountBool.subj segs) (hc : Closed CountBool.clip segs) (sc : ScanOracle CountBool)
    (hsc : sc.Ok) : fillSweep sc (addAndFillBool rule) segs = segs.map (fillOf rule segs) := by
  apply List.ext_getElem?
  intro i
  rw [List.getElem?_map]
  rcases h : segs[i]? with _ | s
  · rw [List.getElem?_eq_none_iff] at h
    have : (fillSweep sc (addAndFillBool rule) segs)[i]? = none := by
      rw [List.getElem?_eq_none_iff, fillSweep_length]; exact h
    rw [this]; rfl
  · rw [fillSweep_bool rule hp hs hc sc hsc i s h]; rfl

theorem isIncluded_fillOf (rule : FillRule) (r : OverlayRule) (segs : List (Seg CountBool))
    (s : Seg CountBool) : isIncluded r (fillOf rule segs s) = keptB rule r segs s := by
  unfold fillOf keptB
  rw [isIncluded_mkFill]
  have e : ∀ a b : Bool, (a != b) = xor b a := by decide
  rw [e]; rfl

theorem isFillTop_fillOf (rule : FillRule) (r : OverlayRule) (segs : List (Seg CountBool))
    (s : Seg CountBool) (h : keptB rule r segs s = true) :
    isFillTop r (fillOf rule segs s) = ruleAt rule r (botP segs s + cpair s) := by
  unfold fillOf
  rw [isFillTop_mkFill]
  · rfl
  · intro e
    unfold keptB ruleAt botP cpair at h
    simp only [Prod.mk_add_mk] at h
    rw [e] at h
    simp at h

/-- Noded, balanced edges as produced by the splitting phase. -/
structure EdgesOk (segs : List (Seg CountBool)) : Prop where
  planar : Planar segs
  subj : Closed CountBool.subj segs
  clip : Closed CountBool.clip segs

/-- The links built by `build_boolean` are the edges accepted by the filter. -/
theorem buildBoolean_spec {inc : Fill → Bool} {rule : FillRule} {st : Strategy} {sr : SnapRadius}
    {tree : TreeOracle CountBool} (ht : tree.Ok) {sc : ScanOracle CountBool} (hsc : sc.Ok) {fuel : Nat}
    {subj clip : List (List Pt)} {links : List Link}
    (hf : FragOk st sr (overlaySegments subj clip : List (Seg CountBool)))
    (h : buildBoolean inc rule st sr tree sc fuel (overlaySegments subj clip) = some links) :
    ∃ segs, EdgesOk segs ∧ nodedEdges st sr tree fuel (overlaySegments subj clip) = some segs ∧
      links = (segs.filter fun s => inc (fillOf rule segs s)).map fun s => ⟨s.a, 0, s.b, 0, fillOf rule segs s⟩ := by
  unfold buildBoolean at h
  have enil : EdgesOk [] := ⟨⟨by simp, List.Pairwise.nil, List.Pairwise.nil⟩, fun _ => rfl, fun _ => rfl⟩
  split at h
  · rename_i he
    have hl := (Option.some.inj h).symm
    subst hl
    exact ⟨[], enil, by unfold nodedEdges; rw [if_pos he], rfl⟩
  · rename_i hne
    obtain ⟨segs, h1, h2⟩ := Option.map_eq_some_iff.1 h
    obtain ⟨hp, b1, b2, -⟩ := overlay_planar ht hf h1
    refine ⟨segs, ⟨hp, b1, b2⟩, by unfold nodedEdges; rw [if_neg hne, h1], ?_⟩
    rw [← h2]
    split
    · rename_i he
      rw [List.isEmpty_iff.1 he]; rfl
    · rw [fillSweep_map rule hp b1 b2 sc hsc, buildLinks_map]

theorem linksOk_of_planar {segs : List (Seg CountBool)} (hp : Planar segs) (q : Seg CountBool → Bool)
    (F : Seg CountBool → Fill) :
    LinksOk ((segs.filter q).map fun s => ⟨s.a, 0, s.b, 0, F s⟩) where
  lt := by
    intro l hl
    obtain ⟨s, hs, rfl⟩ := List.mem_map.1 hl
    exact hp.lt s (List.mem_filter.1 hs).1
  sorted := by
    rw [List.pairwise_map]
    refine (hp.sorted.filter q).imp ?_
    intro s t hst hlt
    rcases hst with h | ⟨h, -⟩
    · exact Pt.lt_asymm h hlt
    · rw [h] at hlt; exact Pt.lt_irrefl _ hlt

end IOverlay
