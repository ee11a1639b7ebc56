/- Correctness of the fill sweep: the count passed to the strategy for an edge is the sum of the
counts of the edges below it. -/
import Verif.Fill

namespace IOverlay
open WindingCount
variable {C : Type}

/-- Counts of the edges below the edge `s` just to the right of its left end; for a vertical edge all
edges not above its lower end. -/
noncomputable def botW (φ : C → Int) (segs : List (Seg C)) (s : Seg C) : Int :=
  wsum φ (fun f => ind (f.spans s.a.x ∧
    (ht f s.a.x < s.a.y ∨ (f.a = s.a ∧ 0 < area2 s.a s.b f.b)))) segs

/-- `p` strictly above the line of a non-vertical segment. -/
theorem area_above {f : Seg C} (h : f.a.x < f.b.x) (p : Pt) :
    (0 < area2 f.a p f.b ↔ ht f p.x < p.y) ∧ (area2 f.a p f.b < 0 ↔ (p.y:ℚ) < ht f p.x) := by
  have d := dx_pos h
  have e : (p.y:ℚ) - ht f p.x = (area2 f.a p f.b : ℚ) / (f.b.x - f.a.x) := by
    unfold ht area2; push_cast; field_simp; ring
  constructor
  · rw [← Int.cast_pos (R := ℚ)]
    constructor
    · intro h; have := div_pos h d; linarith
    · intro h
      have : 0 < (area2 f.a p f.b : ℚ) / (f.b.x - f.a.x) := by rw [← e]; linarith
      rcases div_pos_iff.1 this with h' | h'
      · exact h'.1
      · linarith [h'.2]
  · rw [← Int.cast_lt_zero (R := ℚ)]
    constructor
    · intro h; have := div_neg_of_neg_of_pos h d; linarith
    · intro h
      have : (area2 f.a p f.b : ℚ) / (f.b.x - f.a.x) < 0 := by rw [← e]; linarith
      rcases div_neg_iff.1 this with h' | h'
      · linarith [h'.2]
      · exact h'.1

/-- Two segments with the same left end: order by angle is order of heights to the right. -/
theorem fan_order {f s : Seg C} (hf : f.a.x < f.b.x) (hs : s.a.x < s.b.x) (ha : f.a = s.a) {x : ℚ}
    (hx : (s.a.x:ℚ) < x) : 0 < area2 s.a s.b f.b ↔ ht f x < ht s x := by
  have d1 := dx_pos hf
  have d2 := dx_pos hs
  have e : (ht s x - ht f x) * ((f.b.x - f.a.x) * (s.b.x - s.a.x)) =
      (x - s.a.x) * (area2 s.a s.b f.b : ℚ) := by
    unfold ht area2; rw [ha] at *; push_cast; field_simp; ring
  have hx' : 0 < x - s.a.x := by linarith
  rw [← Int.cast_pos (R := ℚ)]
  constructor
  · intro h
    have := mul_pos hx' h
    rw [← e] at this
    have := (mul_pos_iff_of_pos_right (mul_pos d1 d2)).1 this
    linarith
  · intro h
    have : 0 < (ht s x - ht f x) * ((f.b.x - f.a.x) * (s.b.x - s.a.x)) :=
      mul_pos (by linarith) (mul_pos d1 d2)
    rw [e] at this
    exact (mul_pos_iff_of_pos_left hx').1 this

section geo
variable {segs : List (Seg C)} (hp : Planar segs)
include hp

theorem Planar.low_iff {f s : Seg C} (hf : f ∈ segs) (hs : s ∈ segs) (sx : s.a.x < s.b.x)
    (sf : f.spans s.a.x) :
    ht f (mid s.a.x) < ht s (mid s.a.x) ↔
      (ht f s.a.x < s.a.y ∨ (f.a = s.a ∧ 0 < area2 s.a s.b f.b)) := by
  have ss : s.spans s.a.x := ⟨le_refl _, sx⟩
  have hm : (s.a.x:ℚ) < mid s.a.x := by unfold mid; linarith
  constructor
  · intro h
    have hne : f ≠ s := by rintro rfl; exact lt_irrefl _ h
    have h1 := hp.of_mid hf hs sf ss (x := s.a.x) (le_refl _) (by linarith) h
    rw [ht_a] at h1
    rcases lt_or_eq_of_le h1 with h2 | h2
    · exact Or.inl h2
    · right
      have fa : f.a = s.a := by
        by_cases hfx : f.a.x < s.a.x
        · exact absurd h2 (hp.vertex_ne hf hs (Or.inl rfl) hfx sf.2)
        · have : f.a.x = s.a.x := by have := sf.1; omega
          rw [Pt.ext_iff']
          refine ⟨this, ?_⟩
          rw [← this, ht_a] at h2
          exact_mod_cast h2
      exact ⟨fa, (fan_order sf.x sx fa hm).2 h⟩
  · rintro (h | ⟨h1, h2⟩)
    · rw [← ht_a s] at h
      exact hp.mid_of hf hs sf ss (x := s.a.x) (le_refl _) (by linarith) h
    · exact (fan_order sf.x sx h1 hm).1 h2

theorem Planar.botW_eq_lowSum (φ : C → Int) {s : Seg C} (hs : s ∈ segs) (sx : s.a.x < s.b.x) :
    botW φ segs s = lowSum φ segs s s.a.x := by
  refine wsum_congr φ fun f hf => ind_congr ?_
  constructor
  · rintro ⟨h1, h2⟩; exact ⟨h1, (hp.low_iff hf hs sx h1).2 h2⟩
  · rintro ⟨h1, h2⟩; exact ⟨h1, (hp.low_iff hf hs sx h1).1 h2⟩

/-- The key order of the scan list is the vertical order over the column. -/
theorem Planar.vCmp_lt {f s : Seg C} (hf : f ∈ segs) (hs : s ∈ segs) {n : Int} (sf : f.spans n)
    (ss : s.spans n) (h : ht f (mid n) < ht s (mid n)) : vCmp f s = .lt := by
  have hne : f ≠ s := by rintro rfl; exact lt_irrefl _ h
  have bf := sf.bounds
  have bs := ss.bounds
  have hm1 : (n:ℚ) < mid n := by unfold mid; linarith
  have hm2 : mid n < n + 1 := by unfold mid; linarith
  unfold vCmp
  rcases Pt.lt_tri f.a s.a with hl | hl | hl
  · rw [if_pos hl, clockOrder_lt, (area_above sf.x s.a).1]
    have hx := ab_x_le hl
    have hxq : (f.a.x:ℚ) ≤ s.a.x := by exact_mod_cast hx
    have h1 := hp.order hf hs hne (x := mid n) (x' := s.a.x) sf.x ss.x (by linarith) (by linarith)
      (by linarith) (by linarith) (by linarith) (by linarith) (le_refl _) (by linarith) h
    rw [ht_a] at h1
    refine lt_of_le_of_ne h1 ?_
    by_cases hfx : f.a.x < s.a.x
    · exact hp.vertex_ne hf hs (Or.inl rfl) hfx (by have := ss.1; have := sf.2; omega)
    · intro e
      have hfx' : f.a.x = s.a.x := by omega
      rw [← hfx', ht_a] at e
      have : f.a.y = s.a.y := by exact_mod_cast e
      exact Pt.ne_of_lt hl (Pt.ext_iff'.2 ⟨hfx', this⟩)
  · rw [if_neg (by rw [hl]; exact Pt.lt_irrefl _), if_pos hl, clockOrder_lt, hl]
    exact (fan_order sf.x ss.x hl (by linarith)).2 h
  · rw [if_neg (Pt.lt_asymm hl), if_neg (Ne.symm (Pt.ne_of_lt hl)), clockOrder_lt]
    have e : area2 s.a s.b f.a = - area2 s.a f.a s.b := by unfold area2; ring
    rw [e]
    have : area2 s.a f.a s.b < 0 := by
      rw [(area_above ss.x f.a).2]
      have hx := ab_x_le hl
      have hxq : (s.a.x:ℚ) ≤ f.a.x := by exact_mod_cast hx
      have h1 := hp.order hf hs hne (x := mid n) (x' := f.a.x) sf.x ss.x (by linarith) (by linarith)
        (by linarith) (by linarith) (le_refl _) (by linarith) (by linarith) (by linarith) h
      rw [ht_a] at h1
      refine lt_of_le_of_ne h1 (Ne.symm ?_)
      by_cases hfx : s.a.x < f.a.x
      · exact hp.vertex_ne hs hf (Or.inl rfl) hfx (by have := sf.1; have := ss.2; omega)
      · intro e
        have hfx' : s.a.x = f.a.x := by omega
        rw [← hfx', ht_a] at e
        have : s.a.y = f.a.y := by exact_mod_cast e
        exact Pt.ne_of_lt hl (Pt.ext_iff'.2 ⟨hfx', this⟩)
    omega

end geo

theorem exists_max {α : Type} (l : List α) (h : l ≠ []) (f : α → ℚ) : ∃ x ∈ l, ∀ y ∈ l, f y ≤ f x := by
  induction l with
  | nil => exact absurd rfl h
  | cons a l ih =>
    by_cases hl : l = []
    · subst hl; exact ⟨a, by simp, by simp⟩
    · obtain ⟨x, hx, hm⟩ := ih hl
      by_cases hax : f a ≤ f x
      · exact ⟨x, List.mem_cons_of_mem _ hx, by
          intro y hy; rcases List.mem_cons.1 hy with rfl | hy
          · exact hax
          · exact hm y hy⟩
      · refine ⟨a, by simp, ?_⟩
        intro y hy; rcases List.mem_cons.1 hy with rfl | hy
        · exact le_refl _
        · push Not at hax; exact le_trans (hm y hy) hax.le

/-! ### the scan list invariant -/

variable {K : Type} (Φ : K → C → Int)

/-- The scan list when the edges satisfying `D` have been processed: one entry per processed
non-vertical edge, holding the counts above that edge. -/
structure ScanInv (segs : List (Seg C)) (D : Seg C → Prop) (scan : List (Seg C)) : Prop where
  sound : ∀ e ∈ scan, ∃ s ∈ segs, D s ∧ s.a.x < s.b.x ∧ e.a = s.a ∧ e.b = s.b ∧
    ∀ k, Φ k e.c = botW (Φ k) segs s + Φ k s.c
  complete : ∀ s ∈ segs, D s → s.a.x < s.b.x → ∃ e ∈ scan, e.a = s.a ∧ e.b = s.b
  uniq : ∀ e ∈ scan, ∀ e' ∈ scan, e.a = e'.a → e.b = e'.b → e = e'

theorem Planar.seg_ext {segs : List (Seg C)} (hp : Planar segs) {s t : Seg C} (hs : s ∈ segs)
    (ht : t ∈ segs) (ha : s.a = t.a) (hb : s.b = t.b) : s = t := by
  by_contra hne
  have := hp.meet hs ht hne
  -- the middle of the edge is a common point but no end
  have hlt := hp.lt s hs
  have hm : onSeg ⟨(s.a.x + s.b.x) / 2, (s.a.y + s.b.y) / 2⟩ s.a s.b :=
    ⟨1/2, by norm_num, by norm_num, by simp only; ring, by simp only; ring⟩
  have hm' := hm
  rw [ha, hb] at hm'
  obtain ⟨h, -⟩ := this _ hm (by rw [ha, hb]; exact hm')
  rw [Pt.lt_def] at hlt
  rcases h with h | h <;> simp only [Pt.q, QPt.mk.injEq] at h
  · have h1 : (s.b.x:ℚ) = s.a.x := by linarith [h.1]
    have h2 : (s.b.y:ℚ) = s.a.y := by linarith [h.2]
    have h1' : s.b.x = s.a.x := by exact_mod_cast h1
    have h2' : s.b.y = s.a.y := by exact_mod_cast h2
    omega
  · have h1 : (s.b.x:ℚ) = s.a.x := by linarith [h.1]
    have h2 : (s.b.y:ℚ) = s.a.y := by linarith [h.2]
    have h1' : s.b.x = s.a.x := by exact_mod_cast h1
    have h2' : s.b.y = s.a.y := by exact_mod_cast h2
    omega

/-- Counts of all edges passing strictly below `p` to its right. -/
noncomputable def baseW (φ : C → Int) (segs : List (Seg C)) (p : Pt) : Int :=
  wsum φ (fun f => ind (f.spans p.x ∧ ht f p.x < p.y)) segs

theorem lookup_spec [WindingCount C] {segs : List (Seg C)} (hp : Planar segs)
    (hc : ∀ k, Closed (Φ k) segs) (sc : ScanOracle C) (hsc : sc.Ok) (hz : ∀ k, Φ k zero = 0)
    {p : Pt} {scan : List (Seg C)} (hi : ScanInv Φ segs (fun s => s.a < p) scan) (hv : ∃ g ∈ segs, g.a = p) :
    ∀ k, Φ k (sc.lookup scan p.x p zero) = baseW (Φ k) segs p := by
  obtain ⟨g, hg, rfl⟩ := hv
  -- a segment starting before p and spanning the column is not through p
  have hne : ∀ f ∈ segs, f.a < g.a → f.spans g.a.x → ht f g.a.x ≠ g.a.y := by
    intro f hf hlt sf
    by_cases hx : f.a.x < g.a.x
    · exact hp.vertex_ne hf hg (Or.inl rfl) hx sf.2
    · intro e
      have hx' : f.a.x = g.a.x := by have := sf.1; omega
      rw [← hx', ht_a] at e
      exact Pt.ne_of_lt hlt (Pt.ext_iff'.2 ⟨hx', by exact_mod_cast e⟩)
  have hbefore : ∀ f : Seg C, f.spans g.a.x → ht f g.a.x < g.a.y → f.a < g.a := by
    intro f sf h
    rw [Pt.lt_def]
    by_cases hx : f.a.x < g.a.x
    · exact Or.inl hx
    · have hx' : f.a.x = g.a.x := by have := sf.1; omega
      rw [← hx', ht_a] at h
      exact Or.inr ⟨hx', by exact_mod_cast h⟩
  -- entries of interest
  have hund : ∀ e ∈ scan, g.a.x < e.b.x → underPt e g.a ≠ .gt →
      ∃ s ∈ segs, s.a < g.a ∧ e.a = s.a ∧ e.b = s.b ∧ s.spans g.a.x ∧ ht s g.a.x < g.a.y ∧
        ∀ k, Φ k e.c = botW (Φ k) segs s + Φ k s.c := by
    intro e he hx hu
    obtain ⟨s, hs, h1, h2, h3, h4, h5⟩ := hi.sound e he
    have ss : s.spans g.a.x := ⟨ab_x_le h1, by rw [← h4]; exact hx⟩
    refine ⟨s, hs, h1, h3, h4, ss, ?_, h5⟩
    unfold underPt at hu
    rw [Ne, clockOrder_gt, h3, h4, (area_above h2 g.a).2, not_lt] at hu
    exact lt_of_le_of_ne hu (hne s hs h1 ss)
  by_cases hex : ∃ e ∈ scan, g.a.x < e.b.x ∧ underPt e g.a ≠ .gt
  · classical
    -- the greatest entry
    set live := scan.filter (fun e => decide (g.a.x < e.b.x) && (underPt e g.a != .gt)) with hlive
    have hmem : ∀ e, e ∈ live ↔ e ∈ scan ∧ g.a.x < e.b.x ∧ underPt e g.a ≠ .gt := by
      intro e; rw [hlive, List.mem_filter]; simp
    have hl : live ≠ [] := by
      obtain ⟨e, he, h⟩ := hex
      exact List.ne_nil_of_mem ((hmem e).2 ⟨he, h⟩)
    obtain ⟨e, he, hmax⟩ := exists_max live hl (fun e => ht e (mid g.a.x))
    obtain ⟨he1, he2, he3⟩ := (hmem e).1 he
    obtain ⟨s, hs, hsa, ea, eb, ss, hlow, hval⟩ := hund e he1 he2 he3
    have hht : ∀ (e s : Seg C), e.a = s.a → e.b = s.b → ∀ x, ht e x = ht s x := by
      intro e s h1 h2 x; unfold ht; rw [h1, h2]
    have hall : ∀ f ∈ segs, f.spans g.a.x → ht f g.a.x < g.a.y → f = s ∨ ht f (mid g.a.x) < ht s (mid g.a.x) := by
      intro f hf sf hlo
      obtain ⟨e', he', ea', eb'⟩ := hi.complete f hf (hbefore f sf hlo) sf.x
      have hm' : e' ∈ live := by
        rw [hmem]
        refine ⟨he', by rw [eb']; exact sf.2, ?_⟩
        unfold underPt
        rw [Ne, clockOrder_gt, ea', eb', (area_above sf.x g.a).2, not_lt]
        exact hlo.le
      have := hmax e' hm'
      simp only [hht e' f ea' eb', hht e s ea eb] at this
      by_cases hfs : f = s
      · exact Or.inl hfs
      · exact Or.inr (lt_of_le_of_ne this (hp.mid_ne hf hs hfs sf ss))
    have hlook := hsc.greatest scan g.a.x g.a zero e he1 he2 he3 (by
      intro e' he' hx' hu'
      obtain ⟨s', hs', hsa', ea', eb', ss', hlow', -⟩ := hund e' he' hx' hu'
      rcases hall s' hs' ss' hlow' with h | h
      · subst h
        exact Or.inl (hi.uniq e' he' e he1 (by rw [ea', ea]) (by rw [eb', eb]))
      · right
        have := hp.vCmp_lt hs' hs ss' ss h
        unfold vCmp at *
        rw [ea', eb', ea, eb]; exact this)
    intro k
    rw [hlook, hval k, hp.botW_eq_lowSum (Φ k) hs ss.x, ← hp.lowSum_const (hc k) hs _ ss]
    have hsum : lowSum (Φ k) segs s g.a.x + Φ k s.c =
        wsum (Φ k) (fun f => ind (f.spans g.a.x ∧ ht f (mid g.a.x) < ht s (mid g.a.x)) + ind (f = s)) segs := by
      rw [wsum_add, wsum_single (Φ k) hp.nodup hs]; rfl
    rw [hsum]
    refine wsum_congr (Φ k) fun f hf => ?_
    by_cases hfs : f = s
    · subst hfs
      rw [ind_false (fun h => lt_irrefl _ h.2), ind_true rfl, ind_true ⟨ss, hlow⟩]; rfl
    · rw [ind_false hfs, add_zero]
      apply ind_congr
      constructor
      · rintro ⟨sf, h⟩
        refine ⟨sf, lt_of_le_of_lt (hp.of_mid hf hs sf ss (x := g.a.x) (le_refl _) (by linarith) h) hlow⟩
      · rintro ⟨sf, h⟩
        exact ⟨sf, (hall f hf sf h).resolve_left hfs⟩
  · push Not at hex
    rw [hsc.none_under scan g.a.x g.a zero hex]
    intro k
    rw [hz k]
    unfold baseW
    rw [wsum_congr (Φ k) (w' := fun _ => 0)]
    · simp [wsum]
    · intro f hf
      refine ind_false ?_
      rintro ⟨sf, h⟩
      obtain ⟨e, he, ea, eb⟩ := hi.complete f hf (hbefore f sf h) sf.x
      have := hex e he (by rw [eb]; exact sf.2)
      unfold underPt at this
      rw [clockOrder_gt, ea, eb, (area_above sf.x g.a).2] at this
      linarith

/-! ### the bundle of edges starting at one node -/

/-- `f` is strictly below `s` in the fan of edges starting at `p`. -/
def fanLt (p : Pt) (f s : Seg C) : Prop := 0 < area2 p s.b f.b

theorem cross_trans {ax ay bx b_y cx cy : Int} (ha : 0 < ax ∨ (ax = 0 ∧ 0 < ay))
    (hb : 0 < bx ∨ (bx = 0 ∧ 0 < b_y)) (hc : 0 < cx ∨ (cx = 0 ∧ 0 < cy))
    (h1 : 0 < ax * b_y - ay * bx) (h2 : 0 < bx * cy - b_y * cx) : 0 < ax * cy - ay * cx := by
  have hax : 0 ≤ ax := by omega
  have hcx : 0 ≤ cx := by omega
  rcases hb with hb | ⟨rfl, hb⟩
  · have e : bx * (ax * cy - ay * cx) = ax * (bx * cy - b_y * cx) + cx * (ax * b_y - ay * bx) := by ring
    have hpos : 0 < bx * (ax * cy - ay * cx) := by
      rw [e]
      rcases lt_or_eq_of_le hax with h | h
      · have := mul_pos h h2
        have := mul_nonneg hcx h1.le
        linarith
      · subst h
        have : 0 < ay := by omega
        have := mul_pos this hb
        linarith
    exact (mul_pos_iff_of_pos_left hb).1 hpos
  · have : 0 ≤ b_y * cx := mul_nonneg hb.le hcx
    linarith

theorem fan_trans {p a b c : Pt} (ha : p < a) (hb : p < b) (hc : p < c)
    (h1 : 0 < area2 p b a) (h2 : 0 < area2 p c b) : 0 < area2 p c a := by
  rw [Pt.lt_def] at ha hb hc
  have e : ∀ u v : Pt, area2 p v u = (u.x - p.x) * (v.y - p.y) - (u.y - p.y) * (v.x - p.x) := by
    intro u v; unfold area2; ring
  rw [e] at *
  exact cross_trans (by omega) (by omega) (by omega) h1 h2

theorem fan_swap (p a b : Pt) : area2 p b a = - area2 p a b := by unfold area2; ring

/-- An edge below another one in a fan is not vertical. -/
theorem fanLt_spans {f s : Seg C} {p : Pt} (hf : f.a = p) (hfl : f.a < f.b) (hsl : p < s.b)
    (h : fanLt p f s) : f.spans p.x := by
  refine ⟨by rw [hf], ?_⟩
  rw [hf, Pt.lt_def] at hfl
  rw [Pt.lt_def] at hsl
  rcases hfl with h1 | ⟨h1, h2⟩
  · exact h1
  · unfold fanLt area2 at h
    rw [← h1] at h
    have h3 : 0 ≤ s.b.x - p.x := by omega
    have := mul_nonneg h3 (show 0 ≤ f.b.y - p.y by omega)
    nlinarith

section bundle
variable {segs : List (Seg C)} (hp : Planar segs)
include hp

theorem Planar.fan_ne {f s : Seg C} (hf : f ∈ segs) (hs : s ∈ segs) (hne : f ≠ s) (ha : f.a = s.a) :
    area2 s.a s.b f.b ≠ 0 := by
  intro h0
  have lf := hp.lt f hf
  have ls := hp.lt s hs
  rw [Pt.lt_def] at lf ls
  rcases lf with lf | lf <;> rcases ls with ls | ls
  · have h1 := fan_order lf ls ha (x := mid s.a.x) (by unfold mid; linarith)
    have h2 := fan_order ls lf ha.symm (x := mid s.a.x) (by rw [ha]; unfold mid; linarith)
    have h3 : area2 f.a f.b s.b = 0 := by rw [ha, fan_swap]; omega
    rw [h0] at h1; rw [h3] at h2
    have e : ht f (mid s.a.x) = ht s (mid s.a.x) :=
      le_antisymm (not_lt.1 fun h => absurd (h2.2 h) (by omega)) (not_lt.1 fun h => absurd (h1.2 h) (by omega))
    exact hp.mid_ne hf hs hne (n := s.a.x) ⟨by rw [ha], by rw [← ha]; exact lf⟩ ⟨le_refl _, ls⟩ e
  · unfold area2 at h0
    rw [ha] at lf
    have e1 : s.b.x - s.a.x = 0 := by omega
    rw [e1] at h0
    have : (s.b.y - s.a.y) * (s.b.x - f.b.x) = 0 := by linarith
    rcases mul_eq_zero.1 this with h | h <;> omega
  · unfold area2 at h0
    rw [ha] at lf
    rw [← lf.1] at h0
    have : (s.b.x - s.a.x) * (s.a.y - f.b.y) = 0 := by linarith
    rcases mul_eq_zero.1 this with h | h <;> omega
  · have q1 : onSeg ⟨f.a.x, f.a.y + 1/2⟩ f.a f.b := by
      have h : f.a.y + 1 ≤ f.b.y := by omega
      have h' : (f.a.y:ℚ) + 1 ≤ f.b.y := by exact_mod_cast h
      exact onSeg_vert lf.1 lf.2 (by linarith) (by linarith)
    have q2 : onSeg ⟨f.a.x, f.a.y + 1/2⟩ s.a s.b := by
      rw [ha]
      have h : s.a.y + 1 ≤ s.b.y := by omega
      have h' : (s.a.y:ℚ) + 1 ≤ s.b.y := by exact_mod_cast h
      exact onSeg_vert ls.1 ls.2 (by linarith) (by linarith)
    rcases (hp.meet hf hs hne _ q1 q2).1 with h | h <;> simp only [Pt.q, QPt.mk.injEq] at h
    · linarith [h.2]
    · have : (2 * f.a.y + 1 : ℚ) = 2 * f.b.y := by linarith [h.2]
      have : 2 * f.a.y + 1 = 2 * f.b.y := by exact_mod_cast this
      omega

omit hp in
theorem insertEnd_perm (p : Pt) (x : Seg C × Nat) (l : List (Seg C × Nat)) :
    (insertEnd p x l).Perm (x :: l) := by
  induction l with
  | nil => exact List.Perm.refl _
  | cons y l ih =>
    rw [insertEnd]; split
    · exact (List.Perm.cons _ ih).trans (List.Perm.swap _ _ _)
    · exact List.Perm.refl _

omit hp in
theorem sortEnds_perm (p : Pt) (l : List (Seg C × Nat)) : (sortEnds p l).Perm l := by
  induction l with
  | nil => exact List.Perm.refl _
  | cons x l ih =>
    exact (insertEnd_perm p x _).trans (ih.cons x)

theorem insertEnd_sorted (p : Pt) (x : Seg C × Nat) (l : List (Seg C × Nat))
    (hm : ∀ y ∈ x :: l, y.1 ∈ segs ∧ y.1.a = p) (hd : ∀ y ∈ l, y.1 ≠ x.1)
    (hs : l.Pairwise fun y z => fanLt p y.1 z.1) :
    (insertEnd p x l).Pairwise fun y z => fanLt p y.1 z.1 := by
  have plt : ∀ y ∈ x :: l, p < y.1.b := by
    intro y hy; obtain ⟨h1, h2⟩ := hm y hy
    have := hp.lt _ h1; rwa [h2] at this
  induction l with
  | nil => exact List.pairwise_singleton _ _
  | cons y l ih =>
    obtain ⟨hs1, hs2⟩ := List.pairwise_cons.1 hs
    rw [insertEnd]
    split
    · next hgt =>
      rw [List.pairwise_cons]
      refine ⟨?_, ih (fun z hz => hm z (by
          rcases List.mem_cons.1 hz with h | h
          · rw [h]; simp
          · exact List.mem_cons_of_mem _ (List.mem_cons_of_mem _ h)))
        (fun z hz => hd z (List.mem_cons_of_mem _ hz)) hs2 (fun z hz => plt z (by
          rcases List.mem_cons.1 hz with h | h
          · rw [h]; simp
          · exact List.mem_cons_of_mem _ (List.mem_cons_of_mem _ h)))⟩
      intro z hz
      rcases List.mem_cons.1 ((insertEnd_perm p x l).mem_iff.1 hz) with h | h
      · subst h
        unfold endCmp at hgt
        rw [clockOrder_gt] at hgt
        unfold fanLt
        rw [fan_swap]; omega
      · exact hs1 z h
    · next hgt =>
      have hxy : fanLt p x.1 y.1 := by
        unfold endCmp at hgt
        rw [clockOrder_gt] at hgt
        have h1 := hm x (by simp)
        have h2 := hm y (by simp)
        have := hp.fan_ne h1.1 h2.1 (hd y (by simp)).symm (by rw [h1.2, h2.2])
        rw [h2.2] at this
        unfold fanLt; omega
      rw [List.pairwise_cons]
      refine ⟨?_, hs⟩
      intro z hz
      rcases List.mem_cons.1 hz with h | h
      · rw [h]; exact hxy
      · exact fan_trans (plt x (by simp)) (plt y (by simp))
          (plt z (List.mem_cons_of_mem _ (List.mem_cons_of_mem _ h))) hxy (hs1 z h)

theorem sortEnds_sorted (p : Pt) (l : List (Seg C × Nat))
    (hm : ∀ y ∈ l, y.1 ∈ segs ∧ y.1.a = p) (hd : (l.map Prod.fst).Nodup) :
    (sortEnds p l).Pairwise fun y z => fanLt p y.1 z.1 := by
  induction l with
  | nil => exact List.Pairwise.nil
  | cons x l ih =>
    rw [List.map_cons, List.nodup_cons] at hd
    refine insertEnd_sorted hp p x _ ?_ ?_ (ih (fun y hy => hm y (List.mem_cons_of_mem _ hy)) hd.2)
    · intro y hy
      rcases List.mem_cons.1 hy with h | h
      · exact hm y (by rw [h]; simp)
      · exact hm y (List.mem_cons_of_mem _ ((sortEnds_perm p l).mem_iff.1 h))
    · intro y hy h
      exact hd.1 (by rw [← h]; exact List.mem_map.2 ⟨y, (sortEnds_perm p l).mem_iff.1 hy, rfl⟩)

theorem wsum_mem (φ : C → Int) (pre : List (Seg C)) (hd : pre.Nodup) (hsub : ∀ f ∈ pre, f ∈ segs) :
    wsum φ (fun f => ind (f ∈ pre)) segs = (pre.map fun f => φ f.c).sum := by
  induction pre with
  | nil =>
    rw [wsum_congr φ (w' := fun _ => 0)]
    · simp [wsum]
    · intro f _; exact ind_false (by simp)
  | cons x pre ih =>
    obtain ⟨h1, h2⟩ := List.nodup_cons.1 hd
    rw [List.map_cons, List.sum_cons, ← ih h2 fun f hf => hsub f (List.mem_cons_of_mem _ hf),
      ← wsum_single φ hp.nodup (hsub x (by simp)), ← wsum_add]
    refine wsum_congr φ fun f _ => ?_
    by_cases hfx : f = x
    · subst hfx; rw [ind_true (by simp), ind_true rfl, ind_false h1]; rfl
    · rw [ind_false hfx, zero_add]; apply ind_congr; simp [hfx]

theorem botW_eq (φ : C → Int) {s : Seg C} (hs : s ∈ segs) (pre : List (Seg C)) (hd : pre.Nodup)
    (hpre : ∀ f, f ∈ pre ↔ (f ∈ segs ∧ f.a = s.a ∧ fanLt s.a f s)) :
    botW φ segs s = baseW φ segs s.a + (pre.map fun f => φ f.c).sum := by
  rw [← wsum_mem hp φ pre hd fun f hf => ((hpre f).1 hf).1]
  unfold botW baseW
  rw [← wsum_add]
  refine wsum_congr φ fun f hf => ?_
  by_cases hm : f ∈ pre
  · obtain ⟨-, h2, h3⟩ := (hpre f).1 hm
    have sf := fanLt_spans h2 (hp.lt f hf) (hp.lt s hs) h3
    rw [ind_true hm, ind_true ⟨sf, Or.inr ⟨h2, h3⟩⟩, ind_false]
    · rfl
    · rintro ⟨_, h⟩
      rw [← h2, ht_a] at h; exact lt_irrefl _ h
  · rw [ind_false hm, add_zero]
    apply ind_congr
    constructor
    · rintro ⟨h1, h2 | ⟨h2, h3⟩⟩
      · exact ⟨h1, h2⟩
      · exact absurd ((hpre f).2 ⟨hf, h2, h3⟩) hm
    · rintro ⟨h1, h2⟩; exact ⟨h1, Or.inl h2⟩

end bundle

/-! ### one node -/

/-- The strategy adds counts componentwise. -/
def Additive (F : C → C → C × Fill) : Prop := ∀ k this bot, Φ k (F this bot).1 = Φ k bot + Φ k this

/-- Correct value for an edge: the strategy applied to the counts below the edge. -/
def GoodFill (F : C → C → C × Fill) (segs : List (Seg C)) (s : Seg C) (v : Fill) : Prop :=
  ∃ bot : C, v = (F s.c bot).2 ∧ ∀ k, Φ k bot = botW (Φ k) segs s

theorem flush_spec {F : C → C → C × Fill} (hF : Additive Φ F) {segs : List (Seg C)} (hp : Planar segs)
    (p : Pt) (pre rest : List (Seg C × Nat)) (D : Seg C → Prop)
    (hm : ∀ f, f ∈ (pre ++ rest).map Prod.fst ↔ (f ∈ segs ∧ f.a = p))
    (hso : (pre ++ rest).Pairwise fun y z => fanLt p y.1 z.1)
    (hD : ∀ s, D s → s.a ≠ p)
    (sum : C) (hsum : ∀ k, Φ k sum = baseW (Φ k) segs p + ((pre.map Prod.fst).map fun f => Φ k f.c).sum)
    (scan : List (Seg C))
    (hscan : ScanInv Φ segs (fun s => D s ∨ s ∈ pre.map Prod.fst) scan) :
    (∀ w ∈ (flush F scan sum rest).1, ∃ x ∈ rest, x.2 = w.1 ∧ GoodFill Φ F segs x.1 w.2) ∧
    (∀ x ∈ rest, ∃ w ∈ (flush F scan sum rest).1, w.1 = x.2) ∧
    ScanInv Φ segs (fun s => D s ∨ s ∈ (pre ++ rest).map Prod.fst) (flush F scan sum rest).2 := by
  induction rest generalizing pre sum scan with
  | nil =>
    refine ⟨by simp [flush], by simp, ?_⟩
    simpa [flush] using hscan
  | cons x rest ih =>
    obtain ⟨s, i⟩ := x
    have happ : pre ++ (s, i) :: rest = (pre ++ [(s, i)]) ++ rest := by simp
    have hirr : ∀ f : Seg C, ¬ fanLt p f f := by
      intro f h; unfold fanLt area2 at h; ring_nf at h; omega
    have hnd : ((pre ++ (s, i) :: rest).map Prod.fst).Nodup := by
      rw [List.Nodup, List.pairwise_map]
      refine hso.imp ?_
      intro a b hab e
      rw [e] at hab
      exact hirr _ hab
    obtain ⟨hs, hsp⟩ := (hm s).1 (by simp)
    have hcross : ∀ y ∈ pre, fanLt p y.1 s := by
      intro y hy
      exact (List.pairwise_append.1 hso).2.2 y hy (s, i) (by simp)
    have hafter : ∀ y ∈ rest, fanLt p s y.1 := by
      intro y hy
      exact (List.pairwise_cons.1 (List.pairwise_append.1 hso).2.1).1 y hy
    have hbot : ∀ k, Φ k sum = botW (Φ k) segs s := by
      intro k
      rw [hsum k, botW_eq hp (Φ k) hs (pre.map Prod.fst), hsp]
      · rw [List.map_append] at hnd
        exact (List.nodup_append.1 hnd).1
      · intro f
        constructor
        · intro hf
          obtain ⟨h1, h2⟩ := (hm f).1 (by rw [List.map_append]; exact List.mem_append_left _ hf)
          obtain ⟨y, hy, rfl⟩ := List.mem_map.1 hf
          refine ⟨h1, by rw [h2, hsp], ?_⟩
          rw [hsp]; exact hcross y hy
        · rintro ⟨h1, h2, h3⟩
          rw [hsp] at h2 h3
          have := (hm f).2 ⟨h1, h2⟩
          rw [List.map_append, List.map_cons, List.mem_append, List.mem_cons] at this
          rcases this with h | h | h
          · exact h
          · simp only at h; subst h; exact absurd h3 (hirr f)
          · obtain ⟨y, hy, rfl⟩ := List.mem_map.1 h
            have := hafter y hy
            unfold fanLt at this h3
            rw [fan_swap] at this; omega
    have hsum' : ∀ k, Φ k (F s.c sum).1 =
        baseW (Φ k) segs p + (((pre ++ [(s, i)]).map Prod.fst).map fun f => Φ k f.c).sum := by
      intro k
      rw [hF k, hsum k]; simp; ring
    -- the new scan list
    have hscan' : ScanInv Φ segs (fun t => D t ∨ t ∈ (pre ++ [(s, i)]).map Prod.fst)
        (if s.a.x ≠ s.b.x then scan ++ [⟨s.a, s.b, (F s.c sum).1⟩] else scan) := by
      have hnew : ∀ t, (D t ∨ t ∈ pre.map Prod.fst) → t ≠ s := by
        rintro t (h | h) rfl
        · exact hD t h hsp
        · rw [List.map_append] at hnd
          exact (List.nodup_append.1 hnd).2.2 t h t (by simp) rfl
      have hx := ab_x_le (hp.lt s hs)
      split
      · next hv =>
        refine ⟨?_, ?_, ?_⟩
        · intro e he
          rcases List.mem_append.1 he with h | h
          · obtain ⟨t, h1, h2, h3⟩ := hscan.sound e h
            refine ⟨t, h1, h2.imp id (fun h => ?_), h3⟩
            rw [List.map_append]; exact List.mem_append_left _ h
          · rw [List.mem_singleton] at h
            subst h
            exact ⟨s, hs, Or.inr (by simp), by omega, rfl, rfl, fun k => by rw [hF k, hbot k]⟩
        · intro t ht hDt htx
          by_cases hts : t = s
          · subst hts
            exact ⟨_, List.mem_append_right _ (List.mem_singleton.2 rfl), rfl, rfl⟩
          · obtain ⟨e, h1, h2⟩ := hscan.complete t ht (hDt.imp id (fun h => by
              rw [List.map_append, List.mem_append] at h
              rcases h with h | h
              · exact h
              · simp at h; exact absurd h hts)) htx
            exact ⟨e, List.mem_append_left _ h1, h2⟩
        · intro e he e' he' h1 h2
          rcases List.mem_append.1 he with h | h <;> rcases List.mem_append.1 he' with h' | h'
          · exact hscan.uniq e h e' h' h1 h2
          · rw [List.mem_singleton] at h'
            subst h'
            obtain ⟨t, g1, g2, _, g3, g4, _⟩ := hscan.sound e h
            exact absurd (hp.seg_ext g1 hs (by rw [← g3]; exact h1) (by rw [← g4]; exact h2)) (hnew t g2)
          · rw [List.mem_singleton] at h
            subst h
            obtain ⟨t, g1, g2, _, g3, g4, _⟩ := hscan.sound e' h'
            exact absurd (hp.seg_ext g1 hs (by rw [← g3]; exact h1.symm) (by rw [← g4]; exact h2.symm))
              (hnew t g2)
          · rw [List.mem_singleton] at h h'
            rw [h, h']
      · next hv =>
        refine ⟨?_, ?_, hscan.uniq⟩
        · intro e h
          obtain ⟨t, h1, h2, h3⟩ := hscan.sound e h
          refine ⟨t, h1, h2.imp id (fun h => ?_), h3⟩
          rw [List.map_append]; exact List.mem_append_left _ h
        · intro t ht hDt htx
          have hts : t ≠ s := by
            rintro rfl; push Not at hv; omega
          obtain ⟨e, h1, h2⟩ := hscan.complete t ht (hDt.imp id (fun h => by
              rw [List.map_append, List.mem_append] at h
              rcases h with h | h
              · exact h
              · simp at h; exact absurd h hts)) htx
          exact ⟨e, h1, h2⟩
    obtain ⟨g1, g2, g3⟩ := ih (pre ++ [(s, i)]) (by rw [← happ]; exact hm) (by rw [← happ]; exact hso)
      (F s.c sum).1 hsum' _ hscan'
    refine ⟨?_, ?_, ?_⟩
    · intro w hw
      rw [flush, List.mem_cons] at hw
      rcases hw with rfl | hw
      · exact ⟨(s, i), by simp, rfl, sum, rfl, hbot⟩
      · obtain ⟨x, hx, h⟩ := g1 w hw
        exact ⟨x, List.mem_cons_of_mem _ hx, h⟩
    · intro x hx
      rw [flush]
      rcases List.mem_cons.1 hx with rfl | hx
      · exact ⟨_, List.mem_cons_self, rfl⟩
      · obtain ⟨w, hw, h⟩ := g2 x hx
        exact ⟨w, List.mem_cons_of_mem _ hw, h⟩
    · rw [flush, happ]; exact g3

section loop
variable [WindingCount C] {F : C → C → C × Fill} (hF : Additive Φ F) {segs : List (Seg C)}
  (hp : Planar segs) (hc : ∀ k, Closed (Φ k) segs) (sc : ScanOracle C) (hsc : sc.Ok)
  (hz : ∀ k, Φ k zero = 0)
include hF hp hc hsc hz

theorem processNode_spec (p : Pt) (buf : List (Seg C × Nat)) (hne : buf ≠ [])
    (hm : ∀ f, f ∈ buf.map Prod.fst ↔ (f ∈ segs ∧ f.a = p)) (hnd : (buf.map Prod.fst).Nodup)
    (scan : List (Seg C)) (hi : ScanInv Φ segs (fun s => s.a < p) scan) :
    (∀ w ∈ (processNode sc F scan p buf).1, ∃ x ∈ buf, x.2 = w.1 ∧ GoodFill Φ F segs x.1 w.2) ∧
    (∀ x ∈ buf, ∃ w ∈ (processNode sc F scan p buf).1, w.1 = x.2) ∧
    ScanInv Φ segs (fun s => s.a < p ∨ s.a = p) (processNode sc F scan p buf).2 := by
  have hperm := sortEnds_perm p buf
  have hm' : ∀ f, f ∈ ([] ++ sortEnds p buf).map Prod.fst ↔ (f ∈ segs ∧ f.a = p) := by
    intro f; rw [← hm f, List.nil_append]; exact (hperm.map _).mem_iff
  have hv : ∃ g ∈ segs, g.a = p := by
    obtain ⟨x, hx⟩ := List.exists_mem_of_ne_nil _ hne
    obtain ⟨h1, h2⟩ := (hm x.1).1 (List.mem_map.2 ⟨x, hx, rfl⟩)
    exact ⟨_, h1, h2⟩
  have hbuf : ∀ y ∈ buf, y.1 ∈ segs ∧ y.1.a = p := fun y hy =>
    (hm y.1).1 (List.mem_map.2 ⟨y, hy, rfl⟩)
  obtain ⟨g1, g2, g3⟩ := flush_spec Φ hF hp p [] (sortEnds p buf) (fun s => s.a < p) hm'
    (by rw [List.nil_append]; exact sortEnds_sorted hp p buf hbuf hnd)
    (fun s h => Pt.ne_of_lt h) (sc.lookup scan p.x p zero)
    (by
      intro k
      rw [lookup_spec Φ hp hc sc hsc hz hi hv k]; simp)
    scan (by
      refine ⟨?_, ?_, hi.uniq⟩
      · intro e he
        obtain ⟨t, h1, h2, h3⟩ := hi.sound e he
        exact ⟨t, h1, Or.inl h2, h3⟩
      · intro t ht hD
        exact hi.complete t ht (by simpa using hD))
  refine ⟨?_, ?_, ?_, ?_, g3.uniq⟩
  · intro w hw
    obtain ⟨x, hx, h⟩ := g1 w hw
    exact ⟨x, hperm.mem_iff.1 hx, h⟩
  · intro x hx
    exact g2 x (hperm.mem_iff.2 hx)
  · intro e he
    obtain ⟨t, h1, h2, h3⟩ := g3.sound e he
    exact ⟨t, h1, h2.imp id (fun h => ((hm' t).1 h).2), h3⟩
  · intro t ht hD
    exact g3.complete t ht (hD.imp id fun h => (hm' t).2 ⟨ht, h⟩)

theorem fillLoop_spec (rest : List (Seg C × Nat)) : ∀ (p : Pt) (buf : List (Seg C × Nat))
    (_ : buf ≠ []) (_ : ∀ x ∈ buf, x.1 ∈ segs ∧ x.1.a = p)
    (_ : ∀ x ∈ rest, x.1 ∈ segs ∧ ¬ x.1.a < p)
    (_ : rest.Pairwise fun x y => ¬ y.1.a < x.1.a)
    (_ : ∀ f ∈ segs, ¬ f.a < p → f ∈ (buf ++ rest).map Prod.fst)
    (_ : ((buf ++ rest).map Prod.fst).Nodup)
    (scan : List (Seg C)) (_ : ScanInv Φ segs (fun s => s.a < p) scan),
    (∀ w ∈ fillLoop sc F scan p buf rest, ∃ x ∈ buf ++ rest, x.2 = w.1 ∧ GoodFill Φ F segs x.1 w.2) ∧
    (∀ x ∈ buf ++ rest, ∃ w ∈ fillLoop sc F scan p buf rest, w.1 = x.2) := by
  induction rest with
  | nil =>
    intro p buf hne hbuf _ _ hcov hnd scan hi
    rw [List.append_nil] at *
    obtain ⟨g1, g2, -⟩ := processNode_spec Φ hF hp hc sc hsc hz p buf hne (fun f => ⟨fun h => by
        obtain ⟨x, hx, rfl⟩ := List.mem_map.1 h; exact hbuf x hx,
      fun h => hcov f h.1 (by rw [h.2]; exact Pt.lt_irrefl _)⟩) hnd scan hi
    exact ⟨g1, g2⟩
  | cons x rest ih =>
    intro p buf hne hbuf hrest hso hcov hnd scan hi
    obtain ⟨hso1, hso2⟩ := List.pairwise_cons.1 hso
    have happ : buf ++ x :: rest = (buf ++ [x]) ++ rest := by simp
    obtain ⟨hx1, hx2⟩ := hrest x (by simp)
    rw [fillLoop]
    split
    · next hxp =>
      rw [happ] at hnd ⊢
      simp only [happ] at hcov
      refine ih p (buf ++ [x]) (by simp) ?_ ?_ hso2 hcov hnd scan hi
      · intro y hy
        rcases List.mem_append.1 hy with h | h
        · exact hbuf y h
        · rw [List.mem_singleton] at h; rw [h]; exact ⟨hx1, hxp⟩
      · exact fun y hy => hrest y (List.mem_cons_of_mem _ hy)
    · next hxp =>
      have hpx : p < x.1.a := Pt.lt_of_not_lt_ne hx2 hxp
      have hge : ∀ y ∈ x :: rest, p < y.1.a ∧ ¬ y.1.a < x.1.a := by
        intro y hy
        rcases List.mem_cons.1 hy with rfl | h
        · exact ⟨hpx, Pt.lt_irrefl _⟩
        · refine ⟨?_, hso1 y h⟩
          rcases Pt.lt_tri x.1.a y.1.a with g | g | g
          · exact Pt.lt_trans hpx g
          · rw [← g]; exact hpx
          · exact absurd g (hso1 y h)
      rw [List.map_append] at hnd hcov
      have hm : ∀ f, f ∈ buf.map Prod.fst ↔ (f ∈ segs ∧ f.a = p) := by
        intro f
        constructor
        · intro h; obtain ⟨y, hy, rfl⟩ := List.mem_map.1 h; exact hbuf y hy
        · rintro ⟨h1, h2⟩
          rcases List.mem_append.1 (hcov f h1 (by rw [h2]; exact Pt.lt_irrefl _)) with h | h
          · exact h
          · obtain ⟨y, hy, rfl⟩ := List.mem_map.1 h
            exact absurd h2 (Ne.symm (Pt.ne_of_lt (hge y hy).1))
      obtain ⟨g1, g2, g3⟩ := processNode_spec Φ hF hp hc sc hsc hz p buf hne hm
        (List.nodup_append.1 hnd).1 scan hi
      have hlt_iff : ∀ f ∈ segs, f.a < x.1.a ↔ (f.a < p ∨ f.a = p) := by
        intro f hf
        constructor
        · intro h
          rcases Pt.lt_tri f.a p with g | g | g
          · exact Or.inl g
          · exact Or.inr g
          · rcases List.mem_append.1 (hcov f hf (Pt.lt_asymm g)) with h' | h'
            · exact Or.inr ((hm f).1 h').2
            · obtain ⟨y, hy, rfl⟩ := List.mem_map.1 h'
              exact absurd h (hge y hy).2
        · rintro (h | h)
          · exact Pt.lt_trans h hpx
          · rw [h]; exact hpx
      obtain ⟨k1, k2⟩ := ih x.1.a [x] (by simp) (by intro y hy; rw [List.mem_singleton] at hy; rw [hy]; exact ⟨hx1, rfl⟩)
        (fun y hy => ⟨(hrest y (List.mem_cons_of_mem _ hy)).1, hso1 y hy⟩) hso2
        (by
          intro f hf h
          rw [hlt_iff f hf] at h
          push Not at h
          rcases List.mem_append.1 (hcov f hf (fun g => h.1 g)) with h' | h'
          · exact absurd ((hm f).1 h').2 h.2
          · exact h')
        (List.nodup_append.1 hnd).2.1 _
        (by
          refine ⟨?_, ?_, g3.uniq⟩
          · intro e he
            obtain ⟨t, h1, h2, h3⟩ := g3.sound e he
            exact ⟨t, h1, (hlt_iff t h1).2 h2, h3⟩
          · intro t ht hD
            exact g3.complete t ht ((hlt_iff t ht).1 hD))
      refine ⟨?_, ?_⟩
      · intro w hw
        rcases List.mem_append.1 hw with h | h
        · obtain ⟨y, hy, h⟩ := g1 w h
          exact ⟨y, List.mem_append_left _ hy, h⟩
        · obtain ⟨y, hy, h⟩ := k1 w h
          exact ⟨y, List.mem_append_right _ hy, h⟩
      · intro y hy
        rcases List.mem_append.1 hy with h | h
        · obtain ⟨w, hw, h⟩ := g2 y h
          exact ⟨w, List.mem_append_left _ hw, h⟩
        · obtain ⟨w, hw, h⟩ := k2 y h
          exact ⟨w, List.mem_append_right _ hw, h⟩

theorem fillWrites_spec :
    (∀ w ∈ fillWrites sc F segs, ∃ s, segs[w.1]? = some s ∧ GoodFill Φ F segs s w.2) ∧
    (∀ i, i < segs.length → ∃ w ∈ fillWrites sc F segs, w.1 = i) := by
  have hz' : ∀ x ∈ segs.zipIdx, segs[x.2]? = some x.1 := by
    intro x hx
    exact List.mk_mem_zipIdx_iff_getElem?.1 hx
  have hmap : segs.zipIdx.map Prod.fst = segs := List.zipIdx_map_fst 0 segs
  have hsrt : segs.zipIdx.Pairwise fun x y => ¬ y.1.a < x.1.a := by
    have := hp.sorted
    rw [← hmap, List.pairwise_map] at this
    refine this.imp ?_
    intro a b hab
    rcases hab with h | h
    · exact Pt.lt_asymm h
    · rw [h.1]; exact Pt.lt_irrefl _
  have hidx : ∀ i, i < segs.length → ∃ x ∈ segs.zipIdx, x.2 = i := by
    intro i hi
    exact ⟨(segs[i], i), List.mk_mem_zipIdx_iff_getElem?.2 (List.getElem?_eq_getElem hi), rfl⟩
  unfold fillWrites
  generalize hl : segs.zipIdx = l at *
  cases l with
  | nil =>
    refine ⟨by simp, ?_⟩
    intro i hi
    obtain ⟨x, hx, _⟩ := hidx i hi
    simp at hx
  | cons x rest =>
    simp only
    obtain ⟨s1, s2⟩ := List.pairwise_cons.1 hsrt
    have hall : ∀ y ∈ x :: rest, y.1 ∈ segs := by
      intro y hy
      exact List.mem_of_getElem? (hz' y hy)
    have hge : ∀ f ∈ segs, ¬ f.a < x.1.a := by
      intro f hf
      rw [← hmap] at hf
      obtain ⟨y, hy, rfl⟩ := List.mem_map.1 hf
      rcases List.mem_cons.1 hy with rfl | h
      · exact Pt.lt_irrefl _
      · exact s1 y h
    obtain ⟨k1, k2⟩ := fillLoop_spec Φ hF hp hc sc hsc hz rest x.1.a [x] (by simp)
      (by intro y hy; rw [List.mem_singleton] at hy; rw [hy]; exact ⟨hall x (by simp), rfl⟩)
      (fun y hy => ⟨hall y (List.mem_cons_of_mem _ hy), s1 y hy⟩) s2
      (by intro f hf _; rw [← hmap] at hf; exact hf)
      (by
        have := hp.nodup
        rw [← hmap] at this; exact this)
      [] ⟨by simp, fun s hs h => absurd h (hge s hs), by simp⟩
    refine ⟨?_, ?_⟩
    · intro w hw
      obtain ⟨y, hy, h1, h2⟩ := k1 w hw
      exact ⟨y.1, by rw [← h1]; exact hz' y hy, h2⟩
    · intro i hi
      obtain ⟨y, hy, h⟩ := hidx i hi
      obtain ⟨w, hw, h'⟩ := k2 y hy
      exact ⟨w, hw, by rw [h', h]⟩

omit hF hp hc hsc hz in
theorem fillSweep_length : (fillSweep sc F segs).length = segs.length := by
  unfold fillSweep
  have : ∀ (ws : List (Nat × Fill)) (r : List Fill),
      (ws.foldl (fun r w => r.set w.1 w.2) r).length = r.length := by
    intro ws
    induction ws with
    | nil => intro r; rfl
    | cons w ws ih => intro r; rw [List.foldl_cons, ih, List.length_set]
  rw [this, List.length_replicate]

/-- The sweep writes for every edge the value computed from the counts of the edges below it. -/
theorem fillSweep_spec (i : Nat) (s : Seg C) (hs : segs[i]? = some s) :
    ∃ v, (fillSweep sc F segs)[i]? = some v ∧ GoodFill Φ F segs s v := by
  obtain ⟨h1, h2⟩ := fillWrites_spec Φ hF hp hc sc hsc hz
  have hi : i < segs.length := by
    rw [List.getElem?_eq_some_iff] at hs; exact hs.1
  have key : ∀ (ws : List (Nat × Fill)) (r : List Fill),
      (∀ w ∈ ws, w.1 = i → GoodFill Φ F segs s w.2) → i < r.length →
      ((∃ w ∈ ws, w.1 = i) ∨ ∃ v, r[i]? = some v ∧ GoodFill Φ F segs s v) →
      ∃ v, (ws.foldl (fun r w => r.set w.1 w.2) r)[i]? = some v ∧ GoodFill Φ F segs s v := by
    intro ws
    induction ws with
    | nil =>
      intro r _ _ h
      rcases h with ⟨w, hw, _⟩ | h
      · simp at hw
      · exact h
    | cons w ws ih =>
      intro r hgood hlen h
      rw [List.foldl_cons]
      refine ih _ (fun w' hw' => hgood w' (List.mem_cons_of_mem _ hw')) (by rw [List.length_set]; exact hlen) ?_
      by_cases hw : w.1 = i
      · right
        refine ⟨w.2, ?_, hgood w (by simp) hw⟩
        rw [hw, List.getElem?_set_self hlen]
      · rcases h with ⟨w', hw', h⟩ | ⟨v, hv, h⟩
        · rcases List.mem_cons.1 hw' with rfl | hw'
          · exact absurd h hw
          · exact Or.inl ⟨w', hw', h⟩
        · right
          exact ⟨v, by rw [List.getElem?_set_ne hw]; exact hv, h⟩
  refine key _ _ ?_ (by rw [List.length_replicate]; exact hi) (Or.inl (h2 i hi))
  intro w hw hwi
  obtain ⟨s', hs', hg⟩ := h1 w hw
  rw [hwi, hs] at hs'
  rw [Option.some.injEq] at hs'
  rw [hs']; exact hg

end loop

end IOverlay
