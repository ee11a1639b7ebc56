/-
Closed trails in a noded graph: the parity of their winding numbers, and a point inside them.
-/
import Verif.ExtractLoop
import Verif.Even

namespace IOverlay

/-- The edge of a link. -/
def Link.seg (l : Link) : Seg Unit := ⟨l.a, l.b, ()⟩

open Classical in
/-- The ray going down from `q` meets the link. -/
noncomputable def belowB (q : QPt) (l : Link) : Bool :=
  decide ((l.a.x:ℚ) ≤ q.x ∧ q.x < l.b.x ∧ ht l.seg q.x < q.y)

/-- The same for the link with index `i`. -/
noncomputable def belowI (links : List Link) (q : QPt) (i : Nat) : Bool :=
  match links[i]? with
  | some l => belowB q l
  | none => false

theorem edgeWind_parity {l : Link} (h : l.a < l.b) (q : QPt) :
    edgeWind l.a l.b q % 2 = if belowB q l then 1 else 0 := by
  have := edgeWind_eq_ind (s := l.seg) h q
  change edgeWind l.a l.b q = _ at this
  rw [this]
  unfold belowB ind
  by_cases c : (l.a.x:ℚ) ≤ q.x ∧ q.x < l.b.x ∧ ht l.seg q.x < q.y
  · have c' : (l.seg.a.x:ℚ) ≤ q.x ∧ q.x < l.seg.b.x ∧ ht l.seg q.x < q.y := c
    rw [if_pos c']; simp [c]
  · have c' : ¬ ((l.seg.a.x:ℚ) ≤ q.x ∧ q.x < l.seg.b.x ∧ ht l.seg q.x < q.y) := c
    rw [if_neg c']; simp [c]

theorem forall₂_parity {links : List Link} (hl : ∀ l ∈ links, l.a < l.b) (q : QPt) {trail : List Nat}
    {es : List (Pt × Pt)}
    (h : List.Forall₂ (fun i e => ∃ l, links[i]? = some l ∧ (e = (l.a, l.b) ∨ e = (l.b, l.a))) trail es) :
    (es.map fun e => edgeWind e.1 e.2 q).sum % 2 = if par (belowI links q) trail then 1 else 0 := by
  induction h with
  | nil => rfl
  | @cons i e trail es h1 h2 ih =>
    obtain ⟨l, hli, he⟩ := h1
    have hlt := hl l (List.mem_of_getElem? hli)
    have hb : belowI links q i = belowB q l := by unfold belowI; rw [hli]
    rw [List.map_cons, List.sum_cons, par_cons, hb]
    have hp := edgeWind_parity hlt q
    have hw : edgeWind e.1 e.2 q % 2 = if belowB q l then 1 else 0 := by
      rcases he with rfl | rfl
      · exact hp
      · dsimp only
        rw [edgeWind_swap, Int.neg_emod_two]; exact hp
    rw [Int.add_emod, hw, ih]
    cases belowB q l <;> cases par (belowI links q) trail <;> rfl

/-- Parity of the winding number of a closed trail. -/
theorem ClosedTrail.parity {links : List Link} (hl : ∀ l ∈ links, l.a < l.b) {trail : List Nat} {pts : List Pt}
    (h : ClosedTrail links trail pts) (q : QPt) :
    polyWind pts q % 2 = if par (belowI links q) trail then 1 else 0 := forall₂_parity hl q h

/-! ### a point inside -/

theorem Planar.up_unique {C : Type} {segs : List (Seg C)} (hp : Planar segs) {f s : Seg C} (hf : f ∈ segs)
    (hs : s ∈ segs) (ha : f.a = s.a) (vf : f.a.x = f.b.x) (vs : s.a.x = s.b.x) : f = s := by
  by_contra hne
  apply hp.fan_ne hf hs hne ha
  have e1 : f.b.x = s.a.x := by rw [← vf, ha]
  unfold area2
  rw [e1, ← vs]; ring

theorem polyEdges_fst : ∀ pts : List Pt, (polyEdges pts).map (·.1) = pts := by
  intro pts
  cases pts with
  | nil => rfl
  | cons p ps =>
    unfold polyEdges
    rw [List.map_fst_zip]
    simp

theorem polyEdges_snd : ∀ pts : List Pt, ((polyEdges pts).map (·.2)).Perm pts := by
  intro pts
  cases pts with
  | nil => exact List.Perm.refl _
  | cons p ps =>
    unfold polyEdges
    rw [List.map_snd_zip]
    · exact List.perm_append_singleton p ps
    · simp

theorem exists_min_pt : ∀ (pts : List Pt), pts ≠ [] → ∃ p ∈ pts, ∀ q ∈ pts, ¬ q < p := by
  intro pts
  induction pts with
  | nil => intro h; exact absurd rfl h
  | cons p ps ih =>
    intro _
    by_cases hps : ps = []
    · subst hps
      exact ⟨p, by simp, by intro q hq; rw [List.mem_singleton.1 hq]; exact Pt.lt_irrefl _⟩
    · obtain ⟨m, hm, hmin⟩ := ih hps
      by_cases c : p < m
      · refine ⟨p, by simp, ?_⟩
        intro q hq hlt
        rcases List.mem_cons.1 hq with rfl | hq
        · exact Pt.lt_irrefl _ hlt
        · exact hmin q hq (Pt.lt_trans hlt c)
      · refine ⟨m, List.mem_cons_of_mem _ hm, ?_⟩
        intro q hq
        rcases List.mem_cons.1 hq with rfl | hq
        · exact c
        · exact hmin q hq

section
variable {links : List Link} (hp : Planar (links.map Link.seg))
include hp

theorem link_inj {i j : Nat} {l m : Link} (hi : links[i]? = some l) (hj : links[j]? = some m)
    (h : l.seg = m.seg) : i = j := by
  have hd := hp.nodup
  have h1 : (links.map Link.seg)[i]? = some l.seg := by rw [List.getElem?_map, hi]; rfl
  have h2 : (links.map Link.seg)[j]? = some l.seg := by rw [List.getElem?_map, hj, h]; rfl
  exact (List.getElem?_inj (List.getElem?_eq_some_iff.1 h1).1 hd).1 (h1.trans h2.symm)

/-- A closed trail has an edge that is not vertical. -/
theorem ClosedTrail.not_vertical {trail : List Nat} {pts : List Pt} (hd : trail.Nodup) (hne : trail ≠ [])
    (h : ClosedTrail links trail pts) : ∃ i l, i ∈ trail ∧ links[i]? = some l ∧ l.a.x < l.b.x := by
  have hlt : ∀ l ∈ links, l.a < l.b := fun l hl => hp.lt l.seg (List.mem_map_of_mem hl)
  have hlen := List.Forall₂.length_eq h
  have hpl : (polyEdges pts).length = pts.length := by
    conv_rhs => rw [← polyEdges_fst pts]
    simp
  have hpne : pts ≠ [] := by
    rintro rfl
    apply hne
    apply List.length_eq_zero_iff.1
    rw [hlen]; rfl
  obtain ⟨p, hpm, hmin⟩ := exists_min_pt pts hpne
  have hget := (List.forall₂_iff_get.1 h).2
  obtain ⟨e1, he1, hf1⟩ := List.mem_map.1 (show p ∈ (polyEdges pts).map (·.1) by rw [polyEdges_fst]; exact hpm)
  obtain ⟨e2, he2, hf2⟩ := List.mem_map.1 ((polyEdges_snd pts).mem_iff.2 hpm)
  obtain ⟨k1, hk1, ek1⟩ := List.mem_iff_getElem.1 he1
  obtain ⟨k2, hk2, ek2⟩ := List.mem_iff_getElem.1 he2
  have inpts : ∀ e ∈ polyEdges pts, e.1 ∈ pts ∧ e.2 ∈ pts := by
    intro e he
    refine ⟨?_, (polyEdges_snd pts).mem_iff.1 (List.mem_map_of_mem he)⟩
    have : e.1 ∈ (polyEdges pts).map (·.1) := List.mem_map_of_mem he
    rwa [polyEdges_fst] at this
  obtain ⟨l1, q1, r1⟩ := hget k1 (by rw [hlen]; exact hk1) hk1
  obtain ⟨l2, q2, r2⟩ := hget k2 (by rw [hlen]; exact hk2) hk2
  simp only [List.get_eq_getElem] at q1 q2 r1 r2
  rw [ek1] at r1
  rw [ek2] at r2
  have t1 := hlt l1 (List.mem_of_getElem? q1)
  have t2 := hlt l2 (List.mem_of_getElem? q2)
  have a1 : l1.a = p := by
    rcases r1 with rfl | rfl
    · exact hf1
    · exact absurd (hf1 ▸ t1) (hmin _ (inpts _ he1).2)
  have a2 : l2.a = p := by
    rcases r2 with rfl | rfl
    · exact absurd (hf2 ▸ t2) (hmin _ (inpts _ he2).1)
    · exact hf2
  have hk : k1 ≠ k2 := by
    rintro rfl
    have hee : e1 = e2 := ek1.symm.trans ek2
    have : e1.1 = e1.2 := by rw [hf1, hee, hf2]
    rcases r1 with rfl | rfl
    · exact Pt.ne_of_lt t1 this
    · exact Pt.ne_of_lt t1 this.symm
  have hi : trail[k1]'(by rw [hlen]; exact hk1) ≠ trail[k2]'(by rw [hlen]; exact hk2) := by
    intro e
    exact hk ((List.Nodup.getElem_inj_iff hd).1 e)
  by_cases v1 : l1.a.x = l1.b.x
  · by_cases v2 : l2.a.x = l2.b.x
    · exfalso
      apply hi
      refine link_inj hp q1 q2 ?_
      exact hp.up_unique (List.mem_map_of_mem (List.mem_of_getElem? q1)) (List.mem_map_of_mem (List.mem_of_getElem? q2))
        (a1.trans a2.symm) v1 v2
    · exact ⟨_, l2, List.getElem_mem _, q2, by rw [Pt.lt_def] at t2; omega⟩
  · exact ⟨_, l1, List.getElem_mem _, q1, by rw [Pt.lt_def] at t1; omega⟩

omit hp in
theorem gap_above (h0 : ℚ) (hs : List ℚ) : ∃ ε > 0, ∀ h ∈ hs, h0 < h → h0 + ε ≤ h := by
  induction hs with
  | nil => exact ⟨1, by norm_num, by simp⟩
  | cons h hs ih =>
    obtain ⟨ε, he, hh⟩ := ih
    by_cases c : h0 < h
    · refine ⟨min ε (h - h0), lt_min he (by linarith), ?_⟩
      intro x hx hlt
      rcases List.mem_cons.1 hx with rfl | hx
      · have := min_le_right ε (x - h0); linarith
      · have := min_le_left ε (h - h0)
        have := hh x hx hlt
        linarith
    · refine ⟨ε, he, ?_⟩
      intro x hx hlt
      rcases List.mem_cons.1 hx with rfl | hx
      · exact absurd hlt c
      · exact hh x hx hlt

/-- A nonempty closed trail winds oddly around some point. -/
theorem ClosedTrail.odd {trail : List Nat} {pts : List Pt} (hd : trail.Nodup) (hne : trail ≠ [])
    (h : ClosedTrail links trail pts) : ∃ q, polyWind pts q % 2 = 1 := by
  have hlt : ∀ l ∈ links, l.a < l.b := fun l hl => hp.lt l.seg (List.mem_map_of_mem hl)
  obtain ⟨i, l, hi, hl, hx⟩ := ClosedTrail.not_vertical hp hd hne h
  have hlm : l.seg ∈ links.map Link.seg := List.mem_map_of_mem (List.mem_of_getElem? hl)
  have ss : l.seg.spans l.a.x := ⟨le_refl _, hx⟩
  obtain ⟨ε, he, hgap⟩ := gap_above (ht l.seg (mid l.a.x)) (links.map fun f => ht f.seg (mid l.a.x))
  have hsp : ∀ f : Link, ((f.a.x:ℚ) ≤ mid l.a.x ∧ mid l.a.x < f.b.x) ↔ f.seg.spans l.a.x := by
    intro f
    unfold mid Seg.spans Link.seg
    constructor
    · rintro ⟨h1, h2⟩
      constructor
      · have : (f.a.x:ℚ) < (l.a.x + 1 : ℤ) := by push_cast; linarith
        have := Int.cast_lt.1 this
        change f.a.x ≤ l.a.x
        omega
      · have : (l.a.x:ℚ) < f.b.x := by linarith
        exact Int.cast_lt.1 this
    · rintro ⟨h1, h2⟩
      have h1' : (f.a.x:ℚ) ≤ l.a.x := by exact_mod_cast h1
      have h2 : l.a.x + 1 ≤ f.b.x := h2
      have h2' : (l.a.x:ℚ) + 1 ≤ f.b.x := by exact_mod_cast h2
      constructor <;> linarith
  have key : par (belowI links ⟨mid l.a.x, ht l.seg (mid l.a.x) + ε⟩) trail =
      !par (belowI links ⟨mid l.a.x, ht l.seg (mid l.a.x)⟩) trail := by
    rw [par_one_diff hd hi (p := belowI links ⟨mid l.a.x, ht l.seg (mid l.a.x) + ε⟩)
      (p' := belowI links ⟨mid l.a.x, ht l.seg (mid l.a.x)⟩)]
    · have e : ∀ x : ℚ, belowI links ⟨mid l.a.x, x⟩ i = decide (ht l.seg (mid l.a.x) < x) := by
        intro x
        unfold belowI belowB
        rw [hl]
        have := (hsp l).2 ss
        simp [this.1, this.2]
      rw [e, e]
      simp [he]
    · intro j hj hne'
      unfold belowI belowB
      cases hm : links[j]? with
      | none => rfl
      | some m =>
        dsimp only
        rw [decide_eq_decide]
        have hmm : m.seg ∈ links.map Link.seg := List.mem_map_of_mem (List.mem_of_getElem? hm)
        have hms : m.seg ≠ l.seg := fun e => hne' (link_inj hp hm hl e)
        constructor
        · rintro ⟨h1, h2, h3⟩
          refine ⟨h1, h2, ?_⟩
          rcases lt_trichotomy (ht m.seg (mid l.a.x)) (ht l.seg (mid l.a.x)) with h | h | h
          · exact h
          · exact absurd h (hp.mid_ne hmm hlm hms ((hsp m).1 ⟨h1, h2⟩) ss)
          · have := hgap _ (List.mem_map_of_mem (f := fun f : Link => ht f.seg (mid l.a.x)) (List.mem_of_getElem? hm)) h
            linarith
        · rintro ⟨h1, h2, h3⟩
          exact ⟨h1, h2, by linarith⟩
  have p1 := h.parity hlt ⟨mid l.a.x, ht l.seg (mid l.a.x)⟩
  have p2 := h.parity hlt ⟨mid l.a.x, ht l.seg (mid l.a.x) + ε⟩
  rw [key] at p2
  cases c : par (belowI links ⟨mid l.a.x, ht l.seg (mid l.a.x)⟩) trail
  · rw [c] at p2; exact ⟨_, p2⟩
  · rw [c] at p1; exact ⟨_, p1⟩

end

/-! ### cleaning -/

/-- Contract of `simplify_contour` / `dedup_contour` (external crate `i_shape`): the cleaned contour has
the same winding number around every point. -/
def CleanOk (clean : List Pt → List Pt × Bool) : Prop := ∀ c q, polyWind (clean c).1 q = polyWind c q

theorem polyWind_short {c : List Pt} (h : c.length < 3) (q : QPt) : polyWind c q = 0 := by
  rcases c with _ | ⟨p, _ | ⟨p', _ | ⟨p'', c⟩⟩⟩
  · rfl
  · unfold polyWind polyEdges
    simp [edgeWind_self]
  · unfold polyWind polyEdges
    simp [edgeWind_swap p p']
  · simp at h; omega

/-- Without area limit every walked contour is returned. -/
theorem validate_trail {links : List Link} (hp : Planar (links.map Link.seg)) {clean : List Pt → List Pt × Bool}
    (hc : CleanOk clean) {trail : List Nat} {pts : List Pt} (hd : trail.Nodup) (hne : trail ≠ [])
    (h : ClosedTrail links trail pts) : (validate clean 0 pts).1 = true := by
  unfold validate
  dsimp only
  split
  · rename_i hlen
    obtain ⟨q, hq⟩ := ClosedTrail.odd hp hd hne h
    rw [← hc, polyWind_short hlen] at hq
    simp at hq
  · simp

end IOverlay
