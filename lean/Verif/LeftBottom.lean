/-
The lower edge at the leftmost vertex of a contour (`left_bottom_segment`, bind/solver.rs:205-224). C66.
-/
import Verif.SliceNest

namespace IOverlay

theorem minFold_spec : ∀ (ps : List Pt) (k : Nat) (m : Nat × Pt),
    let r := (ps.zipIdx k).foldl (fun m x => if x.1 < m.2 then (x.2, x.1) else m) m
    (r = m ∨ ∃ j, ps[j]? = some r.2 ∧ r.1 = k + j) ∧ ¬ m.2 < r.2 ∧ ∀ p ∈ ps, ¬ p < r.2 := by
  intro ps
  induction ps with
  | nil => intro k m; exact ⟨Or.inl rfl, Pt.lt_irrefl _, by simp⟩
  | cons p ps ih =>
    intro k m
    rw [List.zipIdx_cons, List.foldl_cons]
    obtain ⟨h1, h2, h3⟩ := ih (k + 1) (if p < m.2 then (k, p) else m)
    generalize (ps.zipIdx (k + 1)).foldl (fun m x => if x.1 < m.2 then (x.2, x.1) else m) (if p < m.2 then (k, p) else m) = r at *
    by_cases hpm : p < m.2
    · rw [if_pos hpm] at h1 h2
      refine ⟨Or.inr ?_, ?_, ?_⟩
      · rcases h1 with h1 | ⟨j, h1, h4⟩
        · exact ⟨0, by rw [h1]; rfl, by rw [h1]; rfl⟩
        · exact ⟨j + 1, by simpa using h1, by omega⟩
      · intro hlt
        exact h2 (Pt.lt_trans hpm hlt)
      · intro p' hp'
        rcases List.mem_cons.1 hp' with rfl | hp'
        · exact h2
        · exact h3 p' hp'
    · rw [if_neg hpm] at h1 h2
      refine ⟨?_, h2, ?_⟩
      · rcases h1 with h1 | ⟨j, h1, h4⟩
        · exact Or.inl h1
        · exact Or.inr ⟨j + 1, by simpa using h1, by omega⟩
      · intro p' hp'
        rcases List.mem_cons.1 hp' with rfl | hp'
        · intro hlt
          rcases Pt.lt_tri p' m.2 with c | c | c
          · exact hpm c
          · rw [c] at hlt; exact h2 hlt
          · exact h2 (Pt.lt_trans c hlt)
        · exact h3 p' hp'

theorem minIndex_spec {c : List Pt} {m : Nat × Pt} (h : minIndex c = some m) :
    c[m.1]? = some m.2 ∧ ∀ p ∈ c, ¬ p < m.2 := by
  rcases c with _ | ⟨p, ps⟩
  · simp [minIndex] at h
  · unfold minIndex at h
    obtain ⟨h1, h2, h3⟩ := minFold_spec ps 1 (0, p)
    dsimp only at h1 h2 h3
    simp only [Option.some.injEq] at h
    rw [h] at h1 h2 h3
    refine ⟨?_, ?_⟩
    · rcases h1 with rfl | ⟨j, h1, h4⟩
      · rfl
      · rw [h4, Nat.add_comm]; simpa using h1
    · intro p' hp'
      rcases List.mem_cons.1 hp' with rfl | hp'
      · exact h2
      · exact h3 p' hp'

theorem polyEdges_getElem? {c : List Pt} {i : Nat} {a b : Pt} (ha : c[i]? = some a) (hb : c[(i + 1) % c.length]? = some b) :
    (a, b) ∈ polyEdges c := by
  rcases c with _ | ⟨p, ps⟩
  · simp at ha
  · have hi := (List.getElem?_eq_some_iff.1 ha).1
    unfold polyEdges
    refine List.mem_of_getElem? (i := i) ?_
    rw [List.getElem?_zip_eq_some]
    refine ⟨ha, ?_⟩
    dsimp only
    rw [List.length_cons] at hi hb
    by_cases h : i < ps.length
    · rw [List.getElem?_append_left h]
      rw [Nat.mod_eq_of_lt (by omega)] at hb
      simpa using hb
    · have : i = ps.length := by omega
      subst this
      rw [Nat.mod_self] at hb
      simpa using hb

theorem leftBottom_spec {c : List Pt} (hc : c ≠ []) :
    ∃ v b0 b1, (v, b0) ∈ polyEdges c ∧ (b1, v) ∈ polyEdges c ∧ (∀ p ∈ c, ¬ p < v) ∧
      leftBottomSegment c = some (if isClockwise v b1 b0 then (v, b0) else (v, b1)) := by
  obtain ⟨m, hm⟩ := minIndex_some hc
  obtain ⟨h1, h2⟩ := minIndex_spec hm
  have hi := (List.getElem?_eq_some_iff.1 h1).1
  have hn : 0 < c.length := List.length_pos_iff.2 hc
  have e0 := List.getElem?_eq_getElem (l := c) (Nat.mod_lt (m.1 + 1) hn)
  have e1 := List.getElem?_eq_getElem (l := c) (Nat.mod_lt (m.1 + c.length - 1) hn)
  refine ⟨m.2, c[(m.1 + 1) % c.length]'(Nat.mod_lt _ hn), c[(m.1 + c.length - 1) % c.length]'(Nat.mod_lt _ hn), ?_, ?_, h2, ?_⟩
  · exact polyEdges_getElem? h1 e0
  · refine polyEdges_getElem? e1 ?_
    have : ((m.1 + c.length - 1) % c.length + 1) % c.length = m.1 := by
      rw [Nat.mod_add_mod, show m.1 + c.length - 1 + 1 = m.1 + c.length by omega, Nat.add_mod_right, Nat.mod_eq_of_lt hi]
    rw [this]; exact h1
  · unfold leftBottomSegment
    rw [hm, Option.bind_some]
    dsimp only
    rw [e0, e1, Option.bind_some, Option.bind_some]
    unfold isUnderSegment
    simp only [Pt.lt_irrefl, if_false, if_true]

/-- The lower edge at the leftmost vertex of a hole passing there once has the filled side below; all edges of the hole
with the filled side above come later in the order of the sweep. -/
theorem low_anchor {cw : Bool} {E : List Edge} (hp : Planar E) (hk : Keyed E) {H : List Pt} (hne : H ≠ [])
    (hE : ∀ e ∈ polyEdges H, (dartOf e).s ∈ E)
    (hu : ∀ v, (∀ p ∈ H, ¬ p < v) → ∀ e ∈ polyEdges H, ∀ f ∈ polyEdges H, (e.1 = v → f.1 = v → e = f) ∧ (e.2 = v → f.2 = v → e = f))
    (hsw : ∀ e ∈ polyEdges H, e.swap ∉ polyEdges H)
    (hfl1 : ∀ e ∈ polyEdges H, flux (stepFlow (polyEdges H)) (dartOf e) = 1)
    (hown0 : ∀ e ∈ polyEdges H, hug (!cw) (stepFlow (polyEdges H)) E (dartOf e) = 0) :
    ∃ e ∈ polyEdges H, leftBottomSegment H = some ((dartOf e).s.a, (dartOf e).s.b) ∧ (dartOf e).fwd = cw ∧
      (dartOf e).s.a.x < (dartOf e).s.b.x ∧ (∀ p ∈ H, ¬ p < (dartOf e).s.a) ∧
      ∀ f ∈ polyEdges H, (dartOf f).fwd = (!cw) → Before (dartOf e).s (dartOf f).s := by
  obtain ⟨v, b0, b1, n0, n1, hmin, hlb⟩ := leftBottom_spec hne
  have memc : ∀ {f : Pt × Pt}, f ∈ polyEdges H → f.1 ∈ H ∧ f.2 ∈ H := by
    intro f hf
    constructor
    · have := List.mem_map_of_mem (f := fun e : Pt × Pt => e.1) hf
      rwa [polyEdges_fst] at this
    · have := List.mem_map_of_mem (f := fun e : Pt × Pt => e.2) hf
      exact (polyEdges_snd H).mem_iff.1 this
  have m0 := hE _ n0
  have m1 := hE _ n1
  have l0 : v < b0 := by
    rcases Pt.lt_tri v b0 with c | c | c
    · exact c
    · exact absurd c (step_ne hp m0)
    · exact absurd c (hmin _ (memc n0).2)
  have l1 : v < b1 := by
    rcases Pt.lt_tri v b1 with c | c | c
    · exact c
    · exact absurd c.symm (step_ne hp m1)
    · exact absurd c (hmin _ (memc n1).1)
  have d0 : dartOf (v, b0) = ⟨⟨v, b0, (v, b0)⟩, true⟩ := by unfold dartOf; rw [if_pos l0]
  have d1 : dartOf (b1, v) = ⟨⟨v, b1, (v, b1)⟩, false⟩ := by
    unfold dartOf; rw [if_neg (Pt.lt_asymm l1)]; rfl
  rw [d0] at m0
  rw [d1] at m1
  -- edges of the hole
  have hleft : ∀ f ∈ polyEdges H, ((dartOf f).s.a ∈ H) := by
    intro f hf
    rcases dartOf_cases f with hc | hc
    · rw [← show f.1 = (dartOf f).s.a from congrArg Prod.fst hc]; exact (memc hf).1
    · rw [← show f.2 = (dartOf f).s.a from congrArg Prod.snd hc]; exact (memc hf).2
  have htwo : ∀ f ∈ polyEdges H, (dartOf f).s.a = v → f = (v, b0) ∨ f = (b1, v) := by
    intro f hf ha
    rcases dartOf_cases f with hc | hc
    · left
      exact (hu v hmin _ hf _ n0).1 ((congrArg Prod.fst hc).trans ha) rfl
    · right
      exact (hu v hmin _ hf _ n1).2 ((congrArg Prod.snd hc).trans ha) rfl
  -- the topmost edge
  obtain ⟨T, ⟨hTE, g, hg, rfl⟩, t1, t2⟩ := exists_topmost hp (fun s => ∃ e ∈ polyEdges H, (dartOf e).s = s)
    ⟨_, m0, (v, b0), n0, by rw [d0]⟩
  have hTa : (dartOf g).s.a = v := by
    have a1 := t1 _ m0 ⟨_, n0, by rw [d0]⟩
    have a2 := hmin _ (hleft g hg)
    rcases Pt.lt_tri (dartOf g).s.a v with c | c | c
    · exact absurd c a2
    · exact c
    · exact absurd c a1
  have hcl := loop_closed hp hk hE
  have hz := hp.top_zero hcl (U := fun s => ∃ e ∈ polyEdges H, (dartOf e).s = s) (by
    intro s hs hn
    by_contra hne
    exact hn (loop_supp hk hs hne)) hTE t1 t2
  have hgf : (dartOf g).fwd = (!cw) := by
    by_contra hn
    have hown := hown0 g hg
    unfold hug at hown
    rw [if_neg hn, add_zero] at hown
    have hfl := hfl1 g hg
    unfold flux at hfl
    rw [hown, zero_add] at hz
    rw [hz, mul_zero] at hfl
    simp at hfl
  have hb01 : b0 ≠ b1 := by
    rintro rfl
    exact hsw _ n0 n1
  -- the other edge is the lower one
  have fin : ∀ e ∈ polyEdges H, leftBottomSegment H = some ((dartOf e).s.a, (dartOf e).s.b) → (dartOf e).s.a = v →
      (dartOf e).fwd = cw → 0 < area2 (dartOf g).s.a (dartOf g).s.b (dartOf e).s.b →
      ∃ e ∈ polyEdges H, leftBottomSegment H = some ((dartOf e).s.a, (dartOf e).s.b) ∧ (dartOf e).fwd = cw ∧
        (dartOf e).s.a.x < (dartOf e).s.b.x ∧ (∀ p ∈ H, ¬ p < (dartOf e).s.a) ∧
        ∀ f ∈ polyEdges H, (dartOf f).fwd = (!cw) → Before (dartOf e).s (dartOf f).s := by
    intro e he h1 h2 h3 h4
    refine ⟨e, he, h1, h3, ?_, by rw [h2]; exact hmin, ?_⟩
    · rw [h2, ← hTa]
      exact (fanLt_spans (h2.trans hTa.symm) (hp.lt _ (hE e he)) (hp.lt _ (hE g hg)) h4).2
    · intro f hf hff
      by_cases hfa : (dartOf f).s.a = v
      · right
        refine ⟨h2.trans hfa.symm, ?_⟩
        have : f = g := by
          rcases htwo f hf hfa with rfl | rfl <;> rcases htwo g hg hTa with rfl | rfl
          · rfl
          · rw [d0] at hff; rw [d1] at hgf; simp only at hff hgf; rw [← hff] at hgf; simp at hgf
          · rw [d1] at hff; rw [d0] at hgf; simp only at hff hgf; rw [← hff] at hgf; simp at hgf
          · rfl
        rw [this]; exact h4
      · left
        rw [h2]
        rcases Pt.lt_tri v (dartOf f).s.a with c | c | c
        · exact c
        · exact absurd c.symm hfa
        · exact absurd c (hmin _ (hleft f hf))
  rcases htwo g hg hTa with rfl | rfl
  · rw [d0] at t2 hgf
    simp only at t2 hgf
    have ha := t2 _ m1 ⟨_, n1, by rw [d1]⟩ rfl (by
      intro e
      exact hb01 (congrArg Seg.b e).symm)
    refine fin (b1, v) n1 ?_ (by rw [d1]) (by rw [d1]; simpa using congrArg not hgf) (by rw [d0, d1]; exact ha)
    rw [hlb, d1]
    simp only
    rw [if_neg]
    unfold isClockwise
    rw [decide_eq_true_eq, fan_swap]
    simp only at ha
    omega
  · rw [d1] at t2 hgf
    simp only at t2 hgf
    have ha := t2 _ m0 ⟨_, n0, by rw [d0]⟩ rfl (by
      intro e
      exact hb01 (congrArg Seg.b e))
    refine fin (v, b0) n0 ?_ (by rw [d0]) (by rw [d0]; simpa using congrArg not hgf) (by rw [d0, d1]; exact ha)
    rw [hlb, d0]
    simp only
    rw [if_pos]
    unfold isClockwise
    rw [decide_eq_true_eq]
    exact ha

section
variable {cw : Bool} {E : List Edge} {outer holes : List (List Pt)} (hp : Planar E) (hk : Keyed E)
  (h : Cells cw E outer holes)
include hp hk h

/-- The edge chosen for a hole has the filled side below; all edges of the hole with the filled side above come later in
the order of the sweep. -/
theorem Cells.anchor {H : List Pt} (hH : H ∈ holes) :
    ∃ e ∈ polyEdges H, leftBottomSegment H = some ((dartOf e).s.a, (dartOf e).s.b) ∧ (dartOf e).fwd = cw ∧
      (dartOf e).s.a.x < (dartOf e).s.b.x ∧
      ∀ f ∈ polyEdges H, (dartOf f).fwd = (!cw) → Before (dartOf e).s (dartOf f).s := by
  have hl := h.loop H (List.mem_append_right _ hH)
  have hne : H ≠ [] := by
    have := hl.three
    intro e; rw [e] at this; simp at this
  obtain ⟨e, e1, e2, e3, e4, -, e5⟩ := low_anchor hp hk (cw := cw) hne hl.mem
    (fun v _ e he f hf => ⟨fun a b => edge_fst_inj hl.simple he hf (a.trans b.symm),
      fun a b => edge_snd_inj hl.simple he hf (a.trans b.symm)⟩)
    (fun e he => loop_swap hl.simple hl.three he) (fun e he => loop_flux hp hk hl.simple hl.three hl.mem he)
    (fun e he => h.own_hole hp hk hH he)
  exact ⟨e, e1, e2, e3, e4, e5⟩

end
end IOverlay
