/-
Property C23: at a node the walk takes the first unused edge in rotation order.
-/
import Verif.Rotation
import Verif.Props.Extract

namespace IOverlay

/-! ### the search for the nearest vector -/

theorem sub_ne_zero {p c : Pt} (h : p ≠ c) : p.sub c ≠ ⟨0, 0⟩ := by
  intro he
  apply h
  unfold Pt.sub at he
  simp only [Vec.mk.injEq] at he
  rw [Pt.ext_iff']; omega

/-- C23 (the search): the chosen candidate is one of the given ones, and turning from `a` around `c` no
other candidate is met at a smaller angle. Every candidate has such an angle. -/
theorem C23_nearest (c a : Pt) (clockwise : Bool) (cands : List (Pt × Nat)) (hne : cands ≠ []) (ha : a ≠ c)
    (hc : ∀ e ∈ cands, e.1 ≠ c ∧ ¬ (a.sub c).sameDirection (e.1.sub c)) :
    (∀ e ∈ cands, ∃ θ, SweepAngle clockwise (a.sub c) (e.1.sub c) θ) ∧
    ∃ s, nearest c a clockwise cands = some s ∧ ∃ e ∈ cands, e.2 = s.bestId ∧
      ∀ θ, SweepAngle clockwise (a.sub c) (e.1.sub c) θ →
        ∀ f ∈ cands, ∀ φ, SweepAngle clockwise (a.sub c) (f.1.sub c) φ → θ ≤ φ := by
  refine ⟨fun e he => sweepAngle_exists clockwise (sub_ne_zero ha) (sub_ne_zero (hc e he).1), ?_⟩
  obtain ⟨s, hs⟩ : ∃ s, nearest c a clockwise cands = some s := by
    rcases cands with _ | ⟨⟨p, id⟩, rest⟩
    · exact absurd rfl hne
    · exact ⟨_, rfl⟩
  have := nearest_spec ha hc hs
  obtain ⟨e, h1, h2, h3⟩ := this.best
  refine ⟨s, hs, e, h1, h2, ?_⟩
  rw [← h3]
  exact this.least

theorem sameDirection_of_angle {cw : Bool} {a p q : Vec} {θ : ℝ} (h : SweepAngle cw a p θ)
    (h' : SweepAngle cw a q θ) : p.sameDirection q := by
  obtain ⟨-, -, r, hr, h1, h2⟩ := h
  obtain ⟨-, -, r', hr', h1', h2'⟩ := h'
  refine ⟨r' / r, div_pos hr' hr, ?_, ?_⟩
  · rw [h1, h1']; field_simp
  · rw [h2, h2']; field_simp

/-- C23 (order): with candidates in different directions the order in which they are listed does not
matter. -/
theorem C23_order_independent (c a : Pt) (clockwise : Bool) (cands cands' : List (Pt × Nat))
    (hperm : cands.Perm cands') (ha : a ≠ c)
    (hc : ∀ e ∈ cands, e.1 ≠ c ∧ ¬ (a.sub c).sameDirection (e.1.sub c))
    (hd : ∀ e ∈ cands, ∀ f ∈ cands, (e.1.sub c).sameDirection (f.1.sub c) → e = f) :
    (nearest c a clockwise cands).map (·.bestId) = (nearest c a clockwise cands').map (·.bestId) := by
  by_cases hne : cands = []
  · subst hne; rw [List.nil_perm.1 hperm]
  · obtain ⟨hex, s, h1, e, h2, h3, h4⟩ := C23_nearest c a clockwise cands hne ha hc
    have hc' : ∀ e ∈ cands', e.1 ≠ c ∧ ¬ (a.sub c).sameDirection (e.1.sub c) :=
      fun e he => hc e (hperm.mem_iff.2 he)
    obtain ⟨-, s', h1', e', h2', h3', h4'⟩ := C23_nearest c a clockwise cands'
      (fun h => hne (by rw [h] at hperm; exact hperm.eq_nil)) ha hc'
    rw [h1, h1', Option.map_some, Option.map_some, ← h3, ← h3']
    obtain ⟨θ, ht⟩ := hex e h2
    obtain ⟨φ, hf⟩ := hex e' (hperm.mem_iff.2 h2')
    have e1 := h4 θ ht e' (hperm.mem_iff.2 h2') φ hf
    have e2 := h4' φ hf e (hperm.mem_iff.1 h2) θ ht
    have e3 : θ = φ := le_antisymm e1 e2
    subst e3
    rw [hd e h2 e' (hperm.mem_iff.2 h2') (sameDirection_of_angle ht hf)]

/-! ### in the graph -/


/-- A vector in the direction of `u - p` that is not longer ends on the segment. -/
theorem onSeg_of_sameDirection {p u v : Pt} (hu : u ≠ p)
    (h : (u.sub p).sameDirection (v.sub p))
    (hle : (v.sub p).x ^ 2 + (v.sub p).y ^ 2 ≤ (u.sub p).x ^ 2 + (u.sub p).y ^ 2) : onSeg v.q p u := by
  obtain ⟨r, hr, h1, h2⟩ := h
  generalize hU : u.sub p = U at *
  generalize hV : v.sub p = W at *
  have eU : U.x = u.x - p.x ∧ U.y = u.y - p.y := by rw [← hU]; exact ⟨rfl, rfl⟩
  have eV : W.x = v.x - p.x ∧ W.y = v.y - p.y := by rw [← hV]; exact ⟨rfl, rfl⟩
  have hN : (0:ℝ) < (U.x:ℝ)^2 + (U.y:ℝ)^2 := normSq_pos (by rw [← hU]; exact sub_ne_zero hu)
  have hNi : 0 < U.x^2 + U.y^2 := by exact_mod_cast hN
  have hNq : (0:ℚ) < (U.x:ℚ)^2 + (U.y:ℚ)^2 := by exact_mod_cast hNi
  have hcr : U.x * W.y = U.y * W.x := by
    have : (U.x:ℝ) * W.y = U.y * W.x := by rw [h1, h2]; ring
    exact_mod_cast this
  have hdot : 0 < U.x * W.x + U.y * W.y := by
    have : (0:ℝ) < U.x * W.x + U.y * W.y := by
      have e : (U.x:ℝ) * W.x + U.y * W.y = r * ((U.x:ℝ)^2 + (U.y:ℝ)^2) := by rw [h1, h2]; ring
      rw [e]; exact mul_pos hr hN
    exact_mod_cast this
  have hdle : U.x * W.x + U.y * W.y ≤ U.x^2 + U.y^2 := by nlinarith [sq_nonneg (U.x - W.x), sq_nonneg (U.y - W.y)]
  have hcrq : (U.x:ℚ) * W.y = U.y * W.x := by exact_mod_cast hcr
  have hdq : (0:ℚ) < U.x * W.x + U.y * W.y := by exact_mod_cast hdot
  have hdlq : (U.x:ℚ) * W.x + U.y * W.y ≤ U.x^2 + U.y^2 := by exact_mod_cast hdle
  have ux : (u.x:ℚ) - p.x = U.x := by rw [eU.1]; push_cast; ring
  have uy : (u.y:ℚ) - p.y = U.y := by rw [eU.2]; push_cast; ring
  have vx : (v.x:ℚ) = p.x + W.x := by rw [eV.1]; push_cast; ring
  have vy : (v.y:ℚ) = p.y + W.y := by rw [eV.2]; push_cast; ring
  refine ⟨((U.x:ℚ) * W.x + U.y * W.y) / ((U.x:ℚ)^2 + (U.y:ℚ)^2), div_nonneg hdq.le hNq.le,
    (div_le_one hNq).2 hdlq, ?_, ?_⟩
  · change (v.x:ℚ) = _
    rw [ux, vx]
    field_simp
    linear_combination -(U.y:ℚ) * hcrq
  · change (v.y:ℚ) = _
    rw [uy, vy]
    field_simp
    linear_combination (U.x:ℚ) * hcrq

theorem sameDirection_symm {a p : Vec} (h : a.sameDirection p) : p.sameDirection a := by
  obtain ⟨r, hr, h1, h2⟩ := h
  exact ⟨r⁻¹, inv_pos.2 hr, by rw [h1]; field_simp, by rw [h2]; field_simp⟩

/-- Two noded edges with a common end point leave it in different directions. -/
theorem Planar.directions {C : Type} {segs : List (Seg C)} (hp : Planar segs) {f g : Seg C} (hf : f ∈ segs)
    (hg : g ∈ segs) {p u v : Pt} (ef : (f.a = p ∧ f.b = u) ∨ (f.a = u ∧ f.b = p))
    (eg : (g.a = p ∧ g.b = v) ∨ (g.a = v ∧ g.b = p)) (h : (u.sub p).sameDirection (v.sub p)) : f = g := by
  by_contra hne
  have hm := hp.meet hf hg hne
  have lf := hp.lt f hf
  have lg := hp.lt g hg
  have hup : u ≠ p := by
    rintro rfl; rcases ef with ⟨h1, h2⟩ | ⟨h1, h2⟩ <;> exact Pt.ne_of_lt lf (h1.trans h2.symm)
  have hvp : v ≠ p := by
    rintro rfl; rcases eg with ⟨h1, h2⟩ | ⟨h1, h2⟩ <;> exact Pt.ne_of_lt lg (h1.trans h2.symm)
  have ofF : ∀ q, onSeg q p u → onSeg q f.a f.b := by
    intro q hq
    rcases ef with ⟨h1, h2⟩ | ⟨h1, h2⟩
    · rw [h1, h2]; exact hq
    · rw [h1, h2]; exact onSeg_symm hq
  have ofG : ∀ q, onSeg q p v → onSeg q g.a g.b := by
    intro q hq
    rcases eg with ⟨h1, h2⟩ | ⟨h1, h2⟩
    · rw [h1, h2]; exact hq
    · rw [h1, h2]; exact onSeg_symm hq
  have hend : ∀ w z : Pt, onSeg w.q w z := by
    intro w z
    exact ⟨0, le_refl _, by norm_num, by simp [Pt.q], by simp [Pt.q]⟩
  have qinj : ∀ {w z : Pt}, w.q = z.q → w = z := by
    intro w z h
    unfold Pt.q at h
    simp only [QPt.mk.injEq, Int.cast_inj] at h
    exact Pt.ext_iff'.2 h
  have huv : u = v := by
    rcases le_total ((v.sub p).x ^ 2 + (v.sub p).y ^ 2) ((u.sub p).x ^ 2 + (u.sub p).y ^ 2) with hle | hle
    · have h1 := ofF _ (onSeg_of_sameDirection hup h hle)
      have h2 := ofG _ (onSeg_symm (hend v p))
      rcases (hm _ h1 h2).1 with h | h <;> have h := qinj h <;> rcases ef with ⟨e1, e2⟩ | ⟨e1, e2⟩
      · exact absurd (h.trans e1) hvp
      · exact (h.trans e1).symm
      · exact (h.trans e2).symm
      · exact absurd (h.trans e2) hvp
    · have h1 := ofG _ (onSeg_of_sameDirection hvp (sameDirection_symm h) hle)
      have h2 := ofF _ (onSeg_symm (hend u p))
      rcases (hm _ h2 h1).2 with h | h <;> have h := qinj h <;> rcases eg with ⟨e1, e2⟩ | ⟨e1, e2⟩
      · exact absurd (h.trans e1) hup
      · exact h.trans e1
      · exact h.trans e2
      · exact absurd (h.trans e2) hup
  subst huv
  apply hne
  rcases ef with ⟨e1, e2⟩ | ⟨e1, e2⟩ <;> rcases eg with ⟨e3, e4⟩ | ⟨e3, e4⟩
  · exact hp.seg_ext hf hg (e1.trans e3.symm) (e2.trans e4.symm)
  · rw [e1, e2] at lf; rw [e3, e4] at lg; exact absurd lf (Pt.lt_asymm lg)
  · rw [e1, e2] at lf; rw [e3, e4] at lg; exact absurd lf (Pt.lt_asymm lg)
  · exact hp.seg_ext hf hg (e1.trans e3.symm) (e2.trans e4.symm)

section
variable {g : Graph} {V : List Pt}

theorem addVectors_eq (node : Nat) : ∀ (is : List Nat) (s s' : NearestVector), addVectors g node is s = some s' →
    ∃ cs : List (Pt × Nat), cs.map (·.2) = is ∧ (∀ e ∈ cs, ∃ l, g.links[e.2]? = some l ∧ e.1 = l.other node) ∧
      s' = cs.foldl (fun s e => s.add e.1 e.2) s := by
  intro is
  induction is with
  | nil => intro s s' h; exact ⟨[], rfl, by simp, (Option.some.inj h).symm⟩
  | cons i is ih =>
    intro s s' h
    rw [addVectors] at h
    obtain ⟨l, hl, h⟩ := Option.bind_eq_some_iff.1 h
    obtain ⟨cs, h1, h2, h3⟩ := ih _ _ h
    refine ⟨(l.other node, i) :: cs, by simp [h1], ?_, h3⟩
    intro e he
    rcases List.mem_cons.1 he with rfl | he
    · exact ⟨l, hl, rfl⟩
    · exact h2 e he

end

section
variable {g : Graph} {V : List Pt} (hg : GraphOk g V) (hp : Planar (g.links.map Link.seg))
include hg hp

/-- The ends of a link seen from one of its nodes. -/
theorem link_ends {l : Link} (hl : l ∈ g.links) {node : Nat} {p : Pt} (hn : V[node]? = some p)
    (h : l.aId = node ∨ l.bId = node) :
    (l.a = p ∧ l.b = l.other node ∧ l.aId = node) ∨ (l.a = l.other node ∧ l.b = p ∧ l.aId ≠ node) := by
  have h1 := hg.aId l hl
  have h2 := hg.bId l hl
  have hne := ends_ne hg hl
  unfold Link.other
  rcases h with rfl | rfl
  · rw [h1] at hn
    exact Or.inl ⟨Option.some.inj hn, by simp, rfl⟩
  · rw [h2] at hn
    refine Or.inr ⟨by simp [hne], Option.some.inj hn, hne⟩

theorem link_directions {i j : Nat} {l m : Link} (hi : g.links[i]? = some l) (hj : g.links[j]? = some m)
    {node : Nat} {p : Pt} (hn : V[node]? = some p) (h : l.aId = node ∨ l.bId = node)
    (h' : m.aId = node ∨ m.bId = node)
    (hs : ((l.other node).sub p).sameDirection ((m.other node).sub p)) : i = j := by
  have lm := List.mem_of_getElem? hi
  have mm := List.mem_of_getElem? hj
  refine link_inj hp hi hj (hp.directions (List.mem_map_of_mem lm) (List.mem_map_of_mem mm) (p := p)
    (u := l.other node) (v := m.other node) ?_ ?_ hs)
  · rcases link_ends hg hp lm hn h with h | h
    · exact Or.inl ⟨h.1, h.2.1⟩
    · exact Or.inr ⟨h.1, h.2.1⟩
  · rcases link_ends hg hp mm hn h' with h | h
    · exact Or.inl ⟨h.1, h.2.1⟩
    · exact Or.inr ⟨h.1, h.2.1⟩

theorem other_ne {l : Link} (hl : l ∈ g.links) {node : Nat} {p : Pt} (hn : V[node]? = some p)
    (h : l.aId = node ∨ l.bId = node) : l.other node ≠ p := by
  have lt := hg.lt l hl
  rcases link_ends hg hp hl hn h with ⟨h1, h2, -⟩ | ⟨h1, h2, -⟩
  · rw [← h2, ← h1]; exact (Pt.ne_of_lt lt).symm
  · rw [← h1, ← h2]; exact Pt.ne_of_lt lt

/-- The next link: the first unvisited one met when turning from the link the walk arrived by. -/
theorem nextLink_first {link node : Nat} {clockwise : Bool} {vis : List Bool} {p : Pt} (hn : V[node]? = some p)
    {t : Link} (ht : g.links[link]? = some t) (hinc : t.aId = node ∨ t.bId = node)
    (hv : isVisited vis link = true) (hex : ∃ i, inc g i node = true ∧ isVisited vis i = false) :
    ∃ j m, nextLink g link node clockwise vis = some j ∧ g.links[j]? = some m ∧ (m.aId = node ∨ m.bId = node) ∧
      isVisited vis j = false ∧
      ∀ i l, g.links[i]? = some l → (l.aId = node ∨ l.bId = node) → isVisited vis i = false → i ≠ j →
        ∀ θ, SweepAngle clockwise ((t.other node).sub p) ((m.other node).sub p) θ →
        ∀ φ, SweepAngle clockwise ((t.other node).sub p) ((l.other node).sub p) φ → θ < φ := by
  have hnl : node < g.nodes.length := by
    rw [hg.nodes]; exact (List.getElem?_eq_some_iff.1 hn).1
  obtain ⟨nd, hnd⟩ : ∃ nd, g.nodes[node]? = some nd := ⟨_, List.getElem?_eq_getElem hnl⟩
  have hm := mem_indices hg hnd
  obtain ⟨k, k1, k2⟩ := hex
  have tm := List.mem_of_getElem? ht
  have incOf : ∀ {i l}, g.links[i]? = some l → inc g i node = true → (l.aId = node ∨ l.bId = node) := by
    intro i l hl h
    obtain ⟨l', h1, h2⟩ := inc_get h
    rw [hl] at h1
    obtain rfl := Option.some.inj h1
    exact h2
  -- a unique unvisited link
  have single : ∀ j, nextLink g link node clockwise vis = some j → inc g j node = true → isVisited vis j = false →
      (∀ i, inc g i node = true → isVisited vis i = false → i = j) →
      ∃ j m, nextLink g link node clockwise vis = some j ∧ g.links[j]? = some m ∧ (m.aId = node ∨ m.bId = node) ∧
      isVisited vis j = false ∧
      ∀ i l, g.links[i]? = some l → (l.aId = node ∨ l.bId = node) → isVisited vis i = false → i ≠ j →
        ∀ θ, SweepAngle clockwise ((t.other node).sub p) ((m.other node).sub p) θ →
        ∀ φ, SweepAngle clockwise ((t.other node).sub p) ((l.other node).sub p) φ → θ < φ := by
    intro j h1 h2 h3 h4
    obtain ⟨m, hm, hmi⟩ := inc_get h2
    refine ⟨j, m, h1, hm, hmi, h3, ?_⟩
    intro i l hi hli hvi hne
    exact absurd (h4 i (inc_of hi hli) hvi) hne
  cases nd with
  | bridge i j =>
    have e : ∀ x, inc g x node = true ↔ x = i ∨ x = j := by
      intro x; rw [← hm x]; simp [Node.indices]
    have hk := (e k).1 k1
    have hlk := (e link).1 (inc_of ht hinc)
    have hne : k ≠ link := by rintro rfl; rw [hv] at k2; simp at k2
    have hx : ∀ y, y ≠ link → (y = i ∨ y = j) → y = if i = link then j else i := by
      intro y hy h
      by_cases hil : i = link
      · simp only [if_pos hil]; exact h.resolve_left fun h => hy (h.trans hil)
      · simp only [if_neg hil]
        have hj : link = j := hlk.resolve_left fun h => hil h.symm
        exact h.resolve_right fun h => hy (h.trans hj.symm)
    refine single (if i = link then j else i) ?_ ?_ ?_ ?_
    · unfold nextLink; rw [hnd]; rfl
    · rw [← hx k hne hk]; exact k1
    · rw [← hx k hne hk]; exact k2
    · intro y y1 y2
      exact hx y (by rintro rfl; rw [hv] at y2; simp at y2) ((e y).1 y1)
  | cross indices =>
    have hi : ∀ i ∈ indices, inc g i node = true := fun i h => (hm i).1 h
    have hmf : ∀ i, i ∈ (indices.filter fun i => !isVisited vis i) ↔ inc g i node = true ∧ isVisited vis i = false := by
      intro i; rw [List.mem_filter, ← hm i]; simp [Node.indices]
    have hnx : nextLink g link node clockwise vis = findNearest g link node clockwise indices vis := by
      unfold nextLink; rw [hnd]; rfl
    unfold findNearest at hnx
    rcases hf : indices.filter (fun i => !isVisited vis i) with _ | ⟨x, rest⟩
    · have := (hmf k).2 ⟨k1, k2⟩
      rw [hf] at this; simp at this
    · rw [hf] at hmf
      rcases rest with _ | ⟨y, rest⟩
      · refine single x (by rw [hnx, hf]) ((hmf x).1 (by simp)).1 ((hmf x).1 (by simp)).2 ?_
        intro i h1 h2
        simpa using (hmf i).2 ⟨h1, h2⟩
      · rw [hf] at hnx
        obtain ⟨lx, hlx, hlxi⟩ := inc_get ((hmf x).1 (by simp)).1
        simp only [ht, hlx, Option.bind_some] at hnx
        have hca : (if t.aId = node then (t.a, t.b) else (t.b, t.a)) = (p, t.other node) := by
          rcases link_ends hg hp tm hn hinc with ⟨h1, h2, h3⟩ | ⟨h1, h2, h3⟩
          · rw [if_pos h3, h1, h2]
          · rw [if_neg h3, h1, h2]
        rw [hca] at hnx
        obtain ⟨s', h1, -⟩ := addVectors_spec (g := g) node (y :: rest)
          (NearestVector.new p (t.other node) (lx.other node) x clockwise)
          (fun i h => inc_lt ((hmf i).1 (List.mem_cons_of_mem _ h)).1)
        dsimp only at hnx
        rw [h1, Option.map_some] at hnx
        obtain ⟨cs, c1, c2, c3⟩ := addVectors_eq node _ _ _ h1
        have hcand : ∀ e ∈ (lx.other node, x) :: cs, ∃ l, g.links[e.2]? = some l ∧ e.1 = l.other node ∧
            inc g e.2 node = true ∧ isVisited vis e.2 = false := by
          intro e he
          rcases List.mem_cons.1 he with rfl | he
          · exact ⟨lx, hlx, rfl, (hmf x).1 (by simp)⟩
          · obtain ⟨l, q1, q2⟩ := c2 e he
            exact ⟨l, q1, q2, (hmf e.2).1 (by rw [← c1]; exact List.mem_cons_of_mem _ (List.mem_map_of_mem he))⟩
        have hcok : ∀ e ∈ (lx.other node, x) :: cs, e.1 ≠ p ∧ ¬ ((t.other node).sub p).sameDirection (e.1.sub p) := by
          intro e he
          obtain ⟨l, q1, q2, q3, q4⟩ := hcand e he
          rw [q2]
          refine ⟨other_ne hg hp (List.mem_of_getElem? q1) hn (incOf q1 q3), fun hs => ?_⟩
          have := link_directions hg hp ht q1 hn hinc (incOf q1 q3) hs
          rw [this, q4] at hv
          simp at hv
        have hnr : nearest p (t.other node) clockwise ((lx.other node, x) :: cs) = some s' := by
          rw [nearest, c3]
        have hok := nearest_spec (other_ne hg hp tm hn hinc) hcok hnr
        obtain ⟨e, b1, b2, b3⟩ := hok.best
        obtain ⟨m, q1, q2, q3, q4⟩ := hcand e b1
        rw [b2] at q1 q3 q4
        refine ⟨s'.bestId, m, hnx, q1, incOf q1 q3, q4, ?_⟩
        intro i l hi' hli hvi hne θ hθ φ hφ
        have hmem : (l.other node, i) ∈ (lx.other node, x) :: cs := by
          have : i ∈ ((lx.other node, x) :: cs).map (·.2) := by
            rw [List.map_cons, c1]; exact (hmf i).2 ⟨inc_of hi' hli, hvi⟩
          obtain ⟨e', m1, m2⟩ := List.mem_map.1 this
          obtain ⟨l', q1', q2', -⟩ := hcand e' m1
          rw [m2, hi'] at q1'
          obtain rfl := Option.some.inj q1'
          have : e' = (l.other node, i) := by rw [← q2', ← m2]
          rw [← this]; exact m1
        have hle := hok.least θ (by rw [b3, q2]; exact hθ) _ hmem φ hφ
        refine lt_of_le_of_ne hle ?_
        rintro rfl
        exact hne (link_directions hg hp hi' q1 hn hli (incOf q1 q3) (sameDirection_of_angle hφ hθ))

end

/-- The end of the link that is not `p`. -/
def Link.farPt (l : Link) (p : Pt) : Pt := if l.a = p then l.b else l.a

/-- The next link of the walk is the first unused one in rotation order: standing at the point `p` of
node `node` after arriving by `link`, turning from it in the given direction, every other unused edge at
`p` is met later than the chosen one. -/
def TakesFirst (g : Graph) : Prop :=
  ∀ (clockwise : Bool) (vis : List Bool) (link node : Nat) (t : Link) (p : Pt),
    g.links[link]? = some t → (t.aId = node ∧ t.a = p ∨ t.bId = node ∧ t.b = p) → isVisited vis link = true →
    (∃ (i : Nat) (l : Link), g.links[i]? = some l ∧ (l.a = p ∨ l.b = p) ∧ isVisited vis i = false) →
    ∃ j m, nextLink g link node clockwise vis = some j ∧ g.links[j]? = some m ∧ (m.a = p ∨ m.b = p) ∧
      isVisited vis j = false ∧
      (∃ θ, SweepAngle clockwise ((t.farPt p).sub p) ((m.farPt p).sub p) θ) ∧
      ∀ i l, g.links[i]? = some l → (l.a = p ∨ l.b = p) → isVisited vis i = false → i ≠ j →
        ∀ θ, SweepAngle clockwise ((t.farPt p).sub p) ((m.farPt p).sub p) θ →
        ∀ φ, SweepAngle clockwise ((t.farPt p).sub p) ((l.farPt p).sub p) φ → θ < φ

theorem GraphOk.takesFirst {g : Graph} {V : List Pt} (hg : GraphOk g V) (hp : Planar (g.links.map Link.seg)) :
    TakesFirst g := by
  intro clockwise vis link node t p ht hinc hv ⟨i, l, hi, hli, hvi⟩
  have tm := List.mem_of_getElem? ht
  have hn : V[node]? = some p := by
    rcases hinc with ⟨h1, h2⟩ | ⟨h1, h2⟩
    · rw [← h1, ← h2]; exact hg.aId t tm
    · rw [← h1, ← h2]; exact hg.bId t tm
  have hnl := (List.getElem?_eq_some_iff.1 hn).1
  have hV : V.Nodup := hg.sorted.imp fun h => Pt.ne_of_lt h
  have back : ∀ (l : Link), l ∈ g.links → (l.a = p ∨ l.b = p) → (l.aId = node ∨ l.bId = node) := by
    intro l lm h
    rcases h with h | h
    · left
      have := hg.aId l lm
      rw [h, ← hn] at this
      exact (List.getElem?_inj hnl hV).1 this.symm |>.symm
    · right
      have := hg.bId l lm
      rw [h, ← hn] at this
      exact (List.getElem?_inj hnl hV).1 this.symm |>.symm
  have fwd : ∀ (l : Link), l ∈ g.links → (l.aId = node ∨ l.bId = node) → (l.a = p ∨ l.b = p) := by
    intro l lm h
    rcases h with rfl | rfl
    · left; have := hg.aId l lm; rw [hn] at this; exact (Option.some.inj this).symm
    · right; have := hg.bId l lm; rw [hn] at this; exact (Option.some.inj this).symm
  have hinc' : t.aId = node ∨ t.bId = node := hinc.imp And.left And.left
  obtain ⟨j, m, h1, h2, h3, h4, h5⟩ := nextLink_first hg hp (clockwise := clockwise) hn ht hinc' hv
    ⟨i, inc_of hi (back l (List.mem_of_getElem? hi) hli), hvi⟩
  have mm := List.mem_of_getElem? h2
  have far : ∀ (l : Link), l ∈ g.links → (l.aId = node ∨ l.bId = node) → l.other node = l.farPt p := by
    intro l lm h
    have lt := hg.lt l lm
    unfold Link.farPt
    rcases link_ends hg hp lm hn h with ⟨q1, q2, -⟩ | ⟨q1, q2, -⟩
    · rw [if_pos q1, q2]
    · rw [if_neg (by rw [← q2]; exact Pt.ne_of_lt lt), q1]
  have f1 := far t tm hinc'
  have f2 := far m mm h3
  rw [f1, f2] at h5
  refine ⟨j, m, h1, h2, fwd m mm h3, h4, sweepAngle_exists clockwise
    (sub_ne_zero (by rw [← f1]; exact other_ne hg hp tm hn hinc'))
    (sub_ne_zero (by rw [← f2]; exact other_ne hg hp mm hn h3)), ?_⟩
  intro i l hi hli hvi
  rw [← far l (List.mem_of_getElem? hi) (back l (List.mem_of_getElem? hi) hli)]
  exact h5 i l hi (back l (List.mem_of_getElem? hi) hli) hvi

/-- C23 (one-shot overlay): in the graph of every overlay the walk takes the first unused edge in rotation
order. -/
theorem C23_walk_overlay (k : Config) (x : Externals) (ha : Assumed k x) (r : OverlayRule) (rule : FillRule)
    (subj clip : List (List Pt)) (hf : FragFor k subj clip) (links : List Link) (g : Graph)
    (hl : buildBoolean (isIncluded r) rule k.st k.sr k.tree k.scan k.fuel (overlaySegments subj clip) = some links)
    (hg : Graph.new x.sortE links = some g) : TakesFirst g := by
  obtain ⟨segs, g', V, -, q2, -, q4⟩ := runOk_oneShot ha.tree ha.scan ha.sortE hf hl
  rw [hg] at q2
  obtain rfl := Option.some.inj q2
  exact q4.graph.takesFirst q4.planar

/-- C23 (prebuilt graph). -/
theorem C23_walk_graph (k : Config) (x : Externals) (ha : Assumed k x) (rule : FillRule)
    (subj clip : List (List Pt)) (hf : FragFor k subj clip) (g : Graph)
    (hg : intoGraph k x rule (overlaySegments subj clip) = some g) : TakesFirst g := by
  unfold intoGraph at hg
  obtain ⟨links, h1, h2⟩ := Option.bind_eq_some_iff.1 hg
  obtain ⟨segs, g', V, q1, q2, -, q4⟩ := runOk_graph ha.tree ha.scan .union ha.sortE hf h1
  rw [h2] at q2
  obtain rfl := Option.some.inj q2
  exact q4.graph.takesFirst q4.planar

/-! ### witnesses -/

/-- A star of four directions: arriving from the left, turning clockwise the first is the upper one,
counterclockwise the lower one, in whatever order they are listed. -/
example : (nearest ⟨0, 0⟩ ⟨-5, 0⟩ true [(⟨3, 1⟩, 7), (⟨1, -4⟩, 8), (⟨0, 2⟩, 9)]).map (·.bestId) = some 9 ∧
    (nearest ⟨0, 0⟩ ⟨-5, 0⟩ false [(⟨3, 1⟩, 7), (⟨1, -4⟩, 8), (⟨0, 2⟩, 9)]).map (·.bestId) = some 8 ∧
    (nearest ⟨0, 0⟩ ⟨-5, 0⟩ true [(⟨0, 2⟩, 9), (⟨3, 1⟩, 7), (⟨1, -4⟩, 8)]).map (·.bestId) = some 9 := by
  decide +kernel

/-- The graph of two squares touching in a corner has a node with four links where the hypotheses of
`TakesFirst` hold with several unused links. -/
example : ∃ g, intoGraph exConfig exExternals .nonZero
      (overlaySegments [[⟨0, 0⟩, ⟨10, 0⟩, ⟨10, 10⟩, ⟨0, 10⟩]] [[⟨10, 10⟩, ⟨20, 10⟩, ⟨20, 20⟩, ⟨10, 20⟩]]) = some g ∧
    g.nodes.any (fun nd => nd.indices.length == 4) = true ∧
    nextLink g 2 3 false (visit (List.replicate g.links.length false) 2) = some 3 := by
  refine ⟨_, by rfl, ?_, ?_⟩ <;> decide +kernel

end IOverlay
