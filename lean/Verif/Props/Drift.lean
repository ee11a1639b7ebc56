/-
C63: rounding is local. Whatever crossings have to be rounded, every point farther from the given edges than rounding can
move them is classified exactly, and the edges of the result are no farther from the given ones.
-/
import Verif.Drift
import Verif.Props.Chain

namespace IOverlay

section
variable {k : Config} {x : Externals} (ha : Assumed k x) {r : OverlayRule} {rule : FillRule} {cw : Bool} {minArea : Nat}
  {subj clip : List (List Pt)} (hf : FragFor k subj clip) {shapes : List (List (List Pt))}
include ha hf

/-- C63: a result obtained with `k.fuel` rounds of splitting winds once around every point for which the overlay rule holds
for "inside subject" and "inside clip" (by the fill rule on the winding numbers of the given contours), and not at all around
the others, for every point that is not within `drift` of a given edge. -/
theorem C63_local (hns : ∀ c ∈ subj ++ clip, NotClosedExplicitly c) (hin : ∀ c ∈ subj ++ clip, ∀ p ∈ c, InRange p)
    (h : IsResult k x r rule cw 0 subj clip shapes) (q : QPt)
    (hq : ∀ e ∈ (subj ++ clip).flatMap polyEdges, ¬ Within (drift k.sr k.fuel) q e.1 e.2) :
    polysWind shapes.flatten q =
      outerTurn cw * if r.op (rule.inside (polysWind subj q)) (rule.inside (polysWind clip q)) then 1 else 0 := by
  obtain ⟨segs, h1, h2⟩ := h.winding ha hf
  have e := (noded_drift ha.tree hf (fun c hc => hns c (List.mem_append_left _ hc))
    (fun c hc => hns c (List.mem_append_right _ hc)) hin h1).1 q hq
  rw [h2, e.1, e.2]

/-- C63: every point of every edge of the result is within `drift` of a given edge. -/
theorem C63_edges (hc : CleanAssumed x) (hns : ∀ c ∈ subj ++ clip, NotClosedExplicitly c)
    (hin : ∀ c ∈ subj ++ clip, ∀ p ∈ c, InRange p) (h : IsResult k x r rule cw minArea subj clip shapes) :
    ∀ c ∈ shapes.flatten, ∀ e ∈ polyEdges c, ∀ q, onSeg q e.1 e.2 →
      ∃ d ∈ (subj ++ clip).flatMap polyEdges, Within (drift k.sr k.fuel) q d.1 d.2 := by
  obtain ⟨segs, g, V, vis, h1, h2, h3⟩ := h.run ha hf
  have e := (noded_drift ha.tree hf (fun c hc => hns c (List.mem_append_left _ hc))
    (fun c hc => hns c (List.mem_append_right _ hc)) hin h1).2
  intro c hcm d hd q hq
  obtain ⟨u, hu, hon⟩ := (h2.along cw hc.edges h3 c hcm d hd).2.on hq
  obtain ⟨s, hs, rfl⟩ := List.mem_map.1 hu
  exact e s hs q hon

end

/-! ### how much that is -/

/-- With a constant snap radius of 1 (`Precision::ABSOLUTE`) each round but the last moves edges by at most 2. -/
theorem drift_absolute (n : Nat) : drift ⟨0, 0⟩ (n + 1) = 2 * n := by
  induction n with
  | zero => simp [drift]
  | succ n ih =>
    rw [drift]
    have e : (⟨0, 0⟩ : SnapRadius).increment = ⟨0, 0⟩ := rfl
    have hr : reach (⟨0, 0⟩ : SnapRadius).radius = 2 := by
      have : (⟨0, 0⟩ : SnapRadius).radius.toNat = 1 := rfl
      unfold reach; rw [this]; norm_num
    rw [e, ih, hr]; push_cast; ring

/-- C63 in numbers, for the default precision (`Precision::HIGH`: radius 1, doubled in every round): nothing if one round
suffices; two units with two rounds, four with three, seven with four. -/
theorem C63_high : drift ⟨0, 1⟩ 1 = 0 ∧ drift ⟨0, 1⟩ 2 = 2 ∧ drift ⟨0, 1⟩ 3 = 4 ∧ drift ⟨0, 1⟩ 4 = 7 := by
  have r : ∀ c : Nat, (⟨c, 1⟩ : SnapRadius).radius.toNat = 2 ^ c := by
    intro c
    unfold SnapRadius.radius
    have : ((2 : Int) ^ c) = ((2 ^ c : Nat) : Int) := by push_cast; rfl
    rw [this, Int.toNat_natCast]
  have s2 : Nat.sqrt 2 = 1 := (Nat.eq_sqrt.2 ⟨by norm_num, by norm_num⟩).symm
  have s4 : Nat.sqrt 4 = 2 := (Nat.eq_sqrt.2 ⟨by norm_num, by norm_num⟩).symm
  have i0 : (⟨0, 1⟩ : SnapRadius).increment = ⟨1, 1⟩ := rfl
  have i1 : (⟨1, 1⟩ : SnapRadius).increment = ⟨2, 1⟩ := rfl
  simp only [drift, i0, i1, reach, r]
  norm_num [s2, s4]

/-- Two triangles with no crossing at a whole point, intersected with two rounds of splitting; the point (35, 10) is farther
than `drift` from all six edges, so it is wound once. -/
example :
    let k : Config := { exConfig with fuel := 2 }
    let subj : List (List Pt) := [[⟨0, 0⟩, ⟨71, 0⟩, ⟨71, 50⟩]]
    let clip : List (List Pt) := [[⟨20, -30⟩, ⟨51, -30⟩, ⟨33, 40⟩]]
    let shapes : List (List (List Pt)) := [[[⟨29, 21⟩, ⟨25, 0⟩, ⟨43, 0⟩, ⟨37, 26⟩]]]
    IsResult k exRaw .intersect .nonZero false 0 subj clip shapes ∧
    (∀ e ∈ (subj ++ clip).flatMap polyEdges, ¬ Within (drift k.sr k.fuel) ⟨35, 10⟩ e.1 e.2) ∧
    polysWind shapes.flatten ⟨35, 10⟩ = outerTurn false := by
  intro k subj clip shapes
  have h1 : IsResult k exRaw .intersect .nonZero false 0 subj clip shapes := Or.inl (by decide +kernel)
  have hd : drift k.sr k.fuel = 2 := C63_high.2.1
  have h2 : ∀ e ∈ (subj ++ clip).flatMap polyEdges, ¬ Within (drift k.sr k.fuel) ⟨35, 10⟩ e.1 e.2 := by
    rw [hd]
    have hm : (subj ++ clip).flatMap polyEdges = [(⟨0, 0⟩, ⟨71, 0⟩), (⟨71, 0⟩, ⟨71, 50⟩), (⟨71, 50⟩, ⟨0, 0⟩),
      (⟨20, -30⟩, ⟨51, -30⟩), (⟨51, -30⟩, ⟨33, 40⟩), (⟨33, 40⟩, ⟨20, -30⟩)] := by decide
    rw [hm]
    simp only [List.mem_cons, List.not_mem_nil, or_false]
    rintro e (rfl | rfl | rfl | rfl | rfl | rfl) ⟨p, ⟨t, t0, t1, px, py⟩, d1, d2⟩ <;>
      · rw [abs_le] at d1 d2
        dsimp only at px py
        norm_num at px py
        linarith [d1.1, d1.2, d2.1, d2.2]
  refine ⟨h1, h2, ?_⟩
  have ha : Assumed k exRaw := ⟨exRaw_assumed.1.1, exRaw_assumed.1.2, exRaw_assumed.1.3, exRaw_assumed.1.4⟩
  have := C63_local (k := k) (x := exRaw) (shapes := shapes) ha (FragOk.list _ _) (subj := subj)
    (clip := clip) (by decide) (by unfold InRange; decide) h1 ⟨35, 10⟩ h2
  rw [this]
  have e1 : polysWind subj ⟨35, 10⟩ = 1 := by
    simp only [subj, polysWind, polyWind, polyEdges, edgeWind, aboveLine]; norm_num
  have e2 : polysWind clip ⟨35, 10⟩ = 1 := by
    simp only [clip, polysWind, polyWind, polyEdges, edgeWind, aboveLine]; norm_num
  rw [e1, e2]
  decide

end IOverlay
