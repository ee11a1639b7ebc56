/-
Which contours of a slice surround a hole: the one owning the first edge below it has the same surroundings. C66.
-/
import Verif.SlicePieces

namespace IOverlay

/-- Every closed flow along the edges has the same winding number on the filled sides of the two contours. -/
def SameSide (cw : Bool) (E : List Edge) (H Y : List Pt) : Prop :=
  ∀ φ, Closed φ E → ∀ e ∈ polyEdges H, ∀ f ∈ polyEdges Y, hug (!cw) φ E (dartOf e) = hug (!cw) φ E (dartOf f)

theorem outerTurn_side (cw : Bool) : side (!cw) = outerTurn cw := by cases cw <;> rfl

theorem exists_edge {c : List Pt} (h : c ≠ []) : ∃ e, e ∈ polyEdges c := by
  have h1 : (polyEdges c).length = c.length := by
    have := congrArg List.length (polyEdges_fst c); simpa using this
  have hpos : 0 < (polyEdges c).length := by rw [h1]; exact List.length_pos_iff.2 h
  exact ⟨_, List.getElem_mem hpos⟩

section
variable {E : List Edge} (hp : Planar E) (hk : Keyed E)
include hp hk

theorem far_values (d : Bool) {φ ψ : Pt × Pt → Int} (hφ : Closed φ E) (hψ : Closed ψ E) {e : Pt × Pt} (he : (dartOf e).s ∈ E) :
    ∃ q, segsWind φ E q = far d φ E (dartOf e) ∧ segsWind ψ E q = far d ψ E (dartOf e) := by
  obtain ⟨h1, h2⟩ := side_values hp hk hφ hψ he
  unfold far
  by_cases h : (dartOf e).fwd = d
  · simp only [if_pos h, add_zero]; exact h1
  · simp only [if_neg h]; exact h2

end

section
variable {cw : Bool} {E : List Edge} {outer holes : List (List Pt)} (hp : Planar E) (hk : Keyed E)
  (h : Cells cw E outer holes)
include h

theorem Cells.edge {X : List Pt} (hX : X ∈ outer ++ holes) : ∃ e, e ∈ polyEdges X :=
  exists_edge (by
    have := (h.loop X hX).three
    intro e; rw [e] at this; simp at this)

/-- Every directed edge belongs to one contour. -/
theorem Cells.owner {X Y : List Pt} (hX : X ∈ outer ++ holes) (hY : Y ∈ outer ++ holes) {e : Pt × Pt}
    (h1 : e ∈ polyEdges X) (h2 : e ∈ polyEdges Y) : X = Y :=
  nodup_owner h.once hX hY h1 h2

theorem Cells.nodup : (outer ++ holes).Nodup := by
  refine List.Pairwise.imp_of_mem (R := fun X Y => List.Disjoint (polyEdges X) (polyEdges Y)) (fun {X Y} hX _ hd => ?_)
    (List.nodup_flatMap.1 h.once).2
  rintro rfl
  obtain ⟨e, he⟩ := h.edge hX
  exact hd he he

omit h in
theorem Cells.same_symm {H Y : List Pt} (hs : SameSide cw E H Y) : SameSide cw E Y H :=
  fun φ hφ e he f hf => (hs φ hφ f hf e he).symm

theorem Cells.same_trans {H Y Z : List Pt} (hY : Y ∈ outer ++ holes) (h1 : SameSide cw E H Y)
    (h2 : SameSide cw E Y Z) : SameSide cw E H Z := by
  intro φ hφ e he f hf
  obtain ⟨g, hg⟩ := h.edge hY
  exact (h1 φ hφ e he g hg).trans (h2 φ hφ g hg f hf)

include hp hk

theorem Cells.closed {X : List Pt} (hX : X ∈ outer ++ holes) : Closed (stepFlow (polyEdges X)) E :=
  loop_closed hp hk (h.loop X hX).mem

theorem Cells.wind {X : List Pt} (hX : X ∈ outer ++ holes) (q : QPt) : segsWind (stepFlow (polyEdges X)) E q = polyWind X q :=
  stepFlow_wind hp hk (h.loop X hX).mem q

omit hp hk in
/-- One pair of edges suffices. -/
theorem Cells.same_of {H Y : List Pt} (hH : H ∈ outer ++ holes) (hY : Y ∈ outer ++ holes) {e f : Pt × Pt}
    (he : e ∈ polyEdges H) (hf : f ∈ polyEdges Y)
    (hs : ∀ φ, Closed φ E → hug (!cw) φ E (dartOf e) = hug (!cw) φ E (dartOf f)) : SameSide cw E H Y := by
  intro φ hφ e' he' f' hf'
  obtain ⟨m, hm⟩ := (h.loop H hH).const φ hφ
  obtain ⟨n, hn⟩ := (h.loop Y hY).const φ hφ
  rw [hm e' he', hn f' hf', ← hm e he, ← hn f hf]
  exact hs φ hφ

/-- The filled side of an outer contour is inside it. -/
theorem Cells.own_outer {X : List Pt} (hX : X ∈ outer) {e : Pt × Pt} (he : e ∈ polyEdges X) :
    hug (!cw) (stepFlow (polyEdges X)) E (dartOf e) = outerTurn cw := by
  have hl := h.loop X (List.mem_append_left _ hX)
  obtain ⟨m, hm⟩ := hl.const _ (h.closed hp hk (List.mem_append_left _ hX))
  rw [hm e he]
  rcases loop_winds hp hk hl.simple hl.three hl.mem hm with ⟨h1, -⟩ | ⟨-, h2⟩
  · rw [h1, outerTurn_side]
  · exfalso
    obtain ⟨q, hq⟩ := (h.turn_outer X hX).2
    have := h2.1 q
    rw [outerTurn_side, hq] at this
    have := outerTurn_ne cw
    omega

/-- The filled side of a hole is outside it. -/
theorem Cells.own_hole {X : List Pt} (hX : X ∈ holes) {e : Pt × Pt} (he : e ∈ polyEdges X) :
    hug (!cw) (stepFlow (polyEdges X)) E (dartOf e) = 0 := by
  have hl := h.loop X (List.mem_append_right _ hX)
  obtain ⟨m, hm⟩ := hl.const _ (h.closed hp hk (List.mem_append_right _ hX))
  rw [hm e he]
  rcases loop_winds hp hk hl.simple hl.three hl.mem hm with ⟨-, h2⟩ | ⟨h1, -⟩
  · exfalso
    obtain ⟨q, hq⟩ := (h.turn_holes X hX).2
    have := h2.1 q
    rw [outerTurn_side, hq] at this
    have := outerTurn_ne cw
    omega
  · exact h1

theorem Cells.outer_ne_hole {X Y : List Pt} (hX : X ∈ outer) (hY : Y ∈ holes) : X ≠ Y := by
  rintro rfl
  obtain ⟨e, he⟩ := h.edge (List.mem_append_left _ hX)
  have h1 := h.own_outer hp hk hX he
  have h2 := h.own_hole hp hk hY he
  rw [h1] at h2
  exact outerTurn_ne cw h2

/-- Values on the other side of an edge: inside a hole. -/
theorem Cells.far_hole {X : List Pt} (hX : X ∈ holes) {e : Pt × Pt} (he : e ∈ polyEdges X) :
    far (!cw) (stepFlow (polyEdges X)) E (dartOf e) = - outerTurn cw := by
  have hl := h.loop X (List.mem_append_right _ hX)
  have := hug_far (!cw) (stepFlow (polyEdges X)) E (dartOf e)
  rw [h.own_hole hp hk hX he, loop_flux hp hk hl.simple hl.three hl.mem he, outerTurn_side] at this
  omega

/-- Values of another contour on the other side of an edge: the same, or one more if it runs along that side. -/
theorem Cells.far_other {X Y : List Pt} (hX : X ∈ outer ++ holes) (hY : Y ∈ outer ++ holes) (hne : X ≠ Y) {e : Pt × Pt}
    (he : e ∈ polyEdges X) :
    far (!cw) (stepFlow (polyEdges Y)) E (dartOf e) = hug (!cw) (stepFlow (polyEdges Y)) E (dartOf e) ∨
    far (!cw) (stepFlow (polyEdges Y)) E (dartOf e) = hug (!cw) (stepFlow (polyEdges Y)) E (dartOf e) + outerTurn cw := by
  have hl := h.loop Y hY
  have := hug_far (!cw) (stepFlow (polyEdges Y)) E (dartOf e)
  rw [stepFlow_flux hp hk hl.mem ((h.loop X hX).mem e he), List.count_eq_zero.2 (fun hm => hne (h.owner hX hY he hm)),
    outerTurn_side] at this
  have hc : (polyEdges Y).count e.swap ≤ 1 := List.nodup_iff_count_le_one.1 (loop_nodup hl.simple) _
  rcases Nat.le_one_iff_eq_zero_or_eq_one.1 hc with hcc | hcc <;> rw [hcc] at this
  · left; simp at this; omega
  · right; push_cast at this; linarith

/-- A hole with the same surroundings as the filled side of an outer contour lies in that contour. -/
theorem Cells.hole_inside {H O : List Pt} (hH : H ∈ holes) (hO : O ∈ outer) (hs : SameSide cw E H O)
    (q : QPt) (hq : polyWind H q ≠ 0) : polyWind O q ≠ 0 := by
  have hH' : H ∈ outer ++ holes := List.mem_append_right _ hH
  have hO' : O ∈ outer ++ holes := List.mem_append_left _ hO
  obtain ⟨e, he⟩ := h.edge hH'
  obtain ⟨f, hf⟩ := h.edge hO'
  have heE := (h.loop H hH').mem e he
  have hOe : hug (!cw) (stepFlow (polyEdges O)) E (dartOf e) = outerTurn cw := by
    rw [hs _ (h.closed hp hk hO') e he f hf, h.own_outer hp hk hO hf]
  have hcH := h.closed hp hk hH'
  have hcO := h.closed hp hk hO'
  obtain ⟨p1, a1, a2⟩ := hug_values hp hk (!cw) hcH hcO heE
  obtain ⟨p2, b1, b2⟩ := far_values hp hk (!cw) hcH hcO heE
  rw [h.wind hp hk hH', h.own_hole hp hk hH he] at a1
  rw [h.wind hp hk hO', hOe] at a2
  rw [h.wind hp hk hH', h.far_hole hp hk hH he] at b1
  rw [h.wind hp hk hO'] at b2
  have hn := outerTurn_ne cw
  rcases (h.loop H hH').nested hp hk (h.loop O hO').simple (h.loop O hO').three (h.loop O hO').mem with k | k | k
  · exfalso
    have := k p2 (by rw [b1]; omega)
    rw [this] at b2
    rcases h.far_other hp hk hH' hO' (h.outer_ne_hole hp hk hO hH).symm he with c | c <;> rw [hOe] at c <;> omega
  · exact k q hq
  · exact absurd a1 (k p1 (by rw [a2]; exact hn))

omit hp hk in
theorem windsOnce_cases {k : Int} {c : List Pt} (hw : WindsOnce k c) (q : QPt) : polyWind c q = 0 ∨ polyWind c q = k := hw.1 q

/-- Two holes with the same surroundings do not overlap. -/
theorem Cells.holes_disjoint {H H' : List Pt} (hH : H ∈ holes) (hH' : H' ∈ holes) (hne : H ≠ H')
    (hs : SameSide cw E H H') (q : QPt) : polyWind H q = 0 ∨ polyWind H' q = 0 := by
  have key : ∀ {H H' : List Pt}, H ∈ holes → H' ∈ holes → H ≠ H' → SameSide cw E H H' →
      ∃ p, polyWind H p ≠ 0 ∧ polyWind H' p = 0 := by
    intro H H' hH hH' hne hs
    have m : H ∈ outer ++ holes := List.mem_append_right _ hH
    have m' : H' ∈ outer ++ holes := List.mem_append_right _ hH'
    obtain ⟨e, he⟩ := h.edge m
    obtain ⟨f, hf⟩ := h.edge m'
    have hHe : hug (!cw) (stepFlow (polyEdges H')) E (dartOf e) = 0 := by
      rw [hs _ (h.closed hp hk m') e he f hf, h.own_hole hp hk hH' hf]
    obtain ⟨p, b1, b2⟩ := far_values hp hk (!cw) (h.closed hp hk m) (h.closed hp hk m') ((h.loop H m).mem e he)
    rw [h.wind hp hk m, h.far_hole hp hk hH he] at b1
    rw [h.wind hp hk m'] at b2
    have hn := outerTurn_ne cw
    refine ⟨p, by rw [b1]; omega, ?_⟩
    rcases h.far_other hp hk m m' hne he with c | c <;> rw [hHe] at c
    · rw [b2, c]
    · rcases (h.turn_holes H' hH').1 p with w | w
      · exact w
      · rw [b2, c] at w; omega
  obtain ⟨p1, a1, a2⟩ := key hH hH' hne hs
  obtain ⟨p2, b1, b2⟩ := key hH' hH hne.symm (Cells.same_symm hs)
  have m : H ∈ outer ++ holes := List.mem_append_right _ hH
  have m' : H' ∈ outer ++ holes := List.mem_append_right _ hH'
  rcases (h.loop H m).nested hp hk (h.loop H' m').simple (h.loop H' m').three (h.loop H' m').mem with k | k | k
  · by_cases hq : polyWind H q = 0
    · exact Or.inl hq
    · exact Or.inr (k q hq)
  · exact absurd a2 (k p1 a1)
  · exact absurd b2 (k p2 b1)

omit hk in
theorem Cells.all_mem : ∀ e ∈ (outer ++ holes).flatMap polyEdges, (dartOf e).s ∈ E := by
  intro e he
  obtain ⟨c, hc, he⟩ := List.mem_flatMap.1 he
  exact (h.loop c hc).mem e he

/-- The edges some closed flow runs along. -/
def Carries (E : List Edge) (g : Edge) : Prop := ∃ φ, Closed φ E ∧ φ g.c ≠ 0

omit hp hk h in
theorem not_carries {g : Edge} (hn : ¬ Carries E g) {φ : Pt × Pt → Int} (hφ : Closed φ E) : φ g.c = 0 := by
  by_contra hc
  exact hn ⟨φ, hφ, hc⟩

theorem Cells.carries {c : List Pt} (hc : c ∈ outer ++ holes) {k : Pt × Pt} (hkc : k ∈ polyEdges c) : Carries E (dartOf k).s := by
  refine ⟨_, h.closed hp hk hc, ?_⟩
  have hl := h.loop c hc
  have := loop_flux hp hk hl.simple hl.three hl.mem hkc
  intro h0
  unfold flux at this
  rw [h0] at this
  simp at this

/-- An edge some closed flow runs along, with the filled side above, is used there by a contour. -/
theorem Cells.used {g : Edge} (hg : g ∈ E) (hR : Carries E g)
    (hv : botW (stepFlow ((outer ++ holes).flatMap polyEdges)) E g + stepFlow ((outer ++ holes).flatMap polyEdges) g.c = outerTurn cw) :
    ∃ Y ∈ outer ++ holes, ∃ f ∈ polyEdges Y, (dartOf f).fwd = (!cw) ∧ (dartOf f).s = g := by
  have hab := dartOf_ab (hk g hg) (hp.lt g hg)
  obtain ⟨f, f1, f2⟩ : ∃ f, (dartOf f).fwd = (!cw) ∧ (dartOf f).s = g := by
    cases cw
    · exact ⟨(g.a, g.b), by rw [hab]; rfl, by rw [hab]⟩
    · have hne : (g.a, g.b).1 ≠ (g.a, g.b).2 := step_ne hp (e := (g.a, g.b)) (by rw [hab]; exact hg)
      obtain ⟨s1, s2⟩ := dartOf_swap hne
      rw [hab] at s1 s2
      exact ⟨_, s2, s1⟩
  have hh : hug (!cw) (stepFlow ((outer ++ holes).flatMap polyEdges)) E (dartOf f) = outerTurn cw := by
    unfold hug
    rw [if_pos f1, f2]; exact hv
  rcases h.thin f (by rw [f2]; exact hg) hh with k | k
  · obtain ⟨Y, hY, hf⟩ := List.mem_flatMap.1 k
    exact ⟨Y, hY, f, hf, f1, f2⟩
  · exfalso
    obtain ⟨φ, hφ, h0⟩ := hR
    rw [f2] at k
    exact h0 (k φ hφ)

theorem Cells.all_closed : Closed (stepFlow ((outer ++ holes).flatMap polyEdges)) E :=
  stepFlow_closed hp hk (h.all_mem hp) (polysEdges_sum _)

omit hp hk h in
theorem FirstBelow.mono {C : Type} {L L' : Seg C → Prop} {s e : Seg C} (hb : FirstBelow L s e) (hL : ∀ f, L' f → L f) (he : L' e) :
    FirstBelow L' s e :=
  ⟨he, hb.spans, hb.low, fun f hf => hb.first f (hL f hf)⟩

/-- Below an edge with the filled side below, the first edge of any contour belongs to a contour with the filled side
above, and that contour has the same surroundings. -/
theorem Cells.surround {H : List Pt} (hH : H ∈ outer ++ holes) {e : Pt × Pt} (he : e ∈ polyEdges H)
    (hfw : (dartOf e).fwd = cw) (hx : (dartOf e).s.a.x < (dartOf e).s.b.x) :
    ∃ Y ∈ outer ++ holes, ∃ f ∈ polyEdges Y, (dartOf f).fwd = (!cw) ∧
      FirstBelow (fun g => g ∈ E ∧ ∃ c ∈ outer ++ holes, ∃ k ∈ polyEdges c, (dartOf k).s = g) (dartOf e).s (dartOf f).s ∧
      SameSide cw E H Y := by
  have heE := (h.loop H hH).mem e he
  have hcl := h.all_closed hp hk
  have hbelow : ∀ (φ : Pt × Pt → Int), hug (!cw) φ E (dartOf e) = botW φ E (dartOf e).s := by
    intro φ
    unfold hug
    rw [hfw]; cases cw <;> simp
  have hb0 : botW (stepFlow ((outer ++ holes).flatMap polyEdges)) E (dartOf e).s = outerTurn cw := by
    rw [← hbelow]; exact h.full H hH e he
  obtain ⟨g, hg⟩ := hp.below_exists (R := Carries E) (fun f _ hn => not_carries hn hcl) heE hx (by rw [hb0]; exact outerTurn_ne cw)
  have hsum : ∀ φ, Closed φ E → botW φ E (dartOf e).s = botW φ E g + φ g.c := fun φ hφ =>
    hp.below_sum hφ (fun f _ hn => not_carries hn hφ) heE hx hg
  obtain ⟨Y, hY, f, hf, hfw', rfl⟩ := h.used hp hk hg.mem.1 hg.mem.2 (by rw [← hsum _ hcl, hb0])
  refine ⟨Y, hY, f, hf, hfw', hg.mono ?_ ⟨hg.mem.1, Y, hY, f, hf, rfl⟩, ?_⟩
  · rintro _ ⟨k1, c, hc, k, hkc, rfl⟩
    exact ⟨k1, h.carries hp hk hc hkc⟩
  · refine h.same_of hH hY he hf fun φ hφ => ?_
    rw [hbelow, hsum φ hφ]
    unfold hug
    rw [if_pos hfw']

end
end IOverlay
