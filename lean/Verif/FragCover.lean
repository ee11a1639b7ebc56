/-
The fragments of an edge cover it, column by column.
-/
import Verif.Fragment
import Verif.SplitLemmas

namespace IOverlay

/-- The point lies in the closed rectangle. -/
def Rect.Has (r : Rect) (q : QPt) : Prop := r.minX ≤ q.x ∧ q.x ≤ r.maxX ∧ r.minY ≤ q.y ∧ q.y ≤ r.maxY

/-- The rectangle lies in column `b`, and contains the part of the edge `s` over that column. -/
def CoversColumn (g : Grid) (s : XSeg) (b : Nat) (r : Rect) : Prop :=
  g.pos b ≤ r.minX ∧ r.maxX ≤ g.pos (b + 1) ∧
  ∀ q : QPt, onSeg q s.a s.b → (g.pos b : ℚ) ≤ q.x → q.x ≤ g.pos (b + 1) → r.Has q

theorem Grid.pos_succ (g : Grid) (i : Nat) : g.pos (i + 1) = g.pos i + 2 ^ g.power := by
  unfold Grid.pos; push_cast; ring

theorem Grid.index_pos (g : Grid) {x : Int} (h : g.minX ≤ x) : g.pos (g.index x) ≤ x ∧ x < g.pos (g.index x + 1) := by
  rw [g.pos_succ]
  unfold Grid.index Grid.pos
  have hp : (0:Int) < 2 ^ g.power := by positivity
  have h0 : 0 ≤ (x - g.minX) / 2 ^ g.power := Int.ediv_nonneg (by omega) hp.le
  rw [Int.toNat_of_nonneg h0]
  have h1 := Int.ediv_mul_le (x - g.minX) hp.ne'
  have h2 := Int.lt_ediv_add_one_mul_self (x - g.minX) hp
  constructor
  · linarith
  · linarith

theorem Grid.pos_mono (g : Grid) {i j : Nat} (h : i ≤ j) : g.pos i ≤ g.pos j := by
  unfold Grid.pos
  have hp : (0:Int) ≤ 2 ^ g.power := by positivity
  have : (i:Int) ≤ j := by exact_mod_cast h
  have := mul_le_mul_of_nonneg_right this hp
  linarith

theorem Grid.index_mono (g : Grid) {x y : Int} (h : x ≤ y) : g.index x ≤ g.index y := by
  unfold Grid.index
  exact Int.toNat_le_toNat (Int.ediv_le_ediv (by positivity) (by omega))

/-- The column of a coordinate. -/
theorem Grid.index_eq (g : Grid) {x : Int} {b : Nat} (h1 : g.pos b ≤ x) (h2 : x < g.pos (b + 1)) : g.index x = b := by
  have hm : g.minX ≤ x := by
    have := g.pos_mono (Nat.zero_le b)
    unfold Grid.pos at this h1
    simp only [Nat.cast_zero, zero_mul, zero_add] at this
    omega
  obtain ⟨a1, a2⟩ := g.index_pos hm
  rcases lt_trichotomy (g.index x) b with h | h | h
  · have := g.pos_mono (show g.index x + 1 ≤ b by omega); omega
  · exact h
  · have := g.pos_mono (show b + 1 ≤ g.index x by omega); omega

theorem raiseTo_spec (width height w : Nat) : ∀ fuel h, height * w ≤ (h + fuel) * width →
    height * w ≤ raiseTo width height w fuel h * width ∧ h ≤ raiseTo width height w fuel h := by
  intro fuel
  induction fuel with
  | zero => intro h hf; exact ⟨hf, le_refl _⟩
  | succ n ih =>
    intro h hf
    rw [raiseTo]
    split
    · obtain ⟨a, b⟩ := ih (h + 1) (by rw [show h + 1 + n = h + (n + 1) by omega]; exact hf)
      exact ⟨a, by omega⟩
    · exact ⟨by omega, le_refl _⟩

/-- Offsets of a point of an edge. -/
theorem onSeg_offset {s : XSeg} {q : QPt} (h : onSeg q s.a s.b) (hx : s.a.x < s.b.x) :
    ∃ u : ℚ, 0 ≤ u ∧ u ≤ (s.b.x - s.a.x : Int) ∧ q.x = s.a.x + u ∧
      (q.y - s.a.y) * (s.b.x - s.a.x : Int) = u * (s.b.y - s.a.y : Int) := by
  obtain ⟨t, t0, t1, ex, ey⟩ := h
  have hw : (0:ℚ) < ((s.b.x - s.a.x : Int) : ℚ) := by exact_mod_cast (by omega : (0:Int) < s.b.x - s.a.x)
  refine ⟨t * ((s.b.x - s.a.x : Int) : ℚ), by positivity, by nlinarith, ?_, ?_⟩
  · rw [ex]; push_cast; ring
  · rw [ey]; push_cast; ring

theorem cutLoop_spec (g : Grid) (index : Nat) (s : XSeg) (width height p k : Nat) (hx : s.a.x < s.b.x)
    (hw : (width : Int) = s.b.x - s.a.x) (hh : height = (s.b.y - s.a.y).natAbs) (hk : k = height * 2 ^ p / width) :
    ∀ (n i w : Nat) (px py : Int) (w0 h0 : Nat), s.a.x + w = g.pos (i + 1) → px = s.a.x + w0 →
      (px = g.pos i ∨ (w0 = 0 ∧ g.pos i ≤ px)) → py = (if s.a.y ≤ s.b.y then s.a.y + h0 else s.a.y - h0) →
      h0 * width ≤ height * w0 → g.pos (i + n) < s.b.x → s.b.x ≤ g.pos (i + n + 1) → 
      (cutLoop g index s width height p k n i w px py).map Prod.fst = List.range' i (n + 1) ∧
      ∀ f ∈ cutLoop g index s width height p k n i w px py, f.2.index = index ∧ f.2.seg = s ∧
        CoversColumn g s f.1 f.2.rect := by
  have hw0 : 0 < width := by omega
  have hwq : (0:ℚ) < (width:ℚ) := by exact_mod_cast hw0
  have hwe : ((s.b.x - s.a.x : Int) : ℚ) = (width : ℚ) := by rw [← hw]; simp
  -- lower bound from the previous border, upper bound from the next one
  have lower : ∀ (u v : ℚ) (w0 h0 : Nat), h0 * width ≤ height * w0 → (w0:ℚ) ≤ u → v * width = u * height → (h0:ℚ) ≤ v := by
    intro u v w0 h0 h1 h2 h3
    have h1' : (h0:ℚ) * width ≤ height * w0 := by exact_mod_cast h1
    have : (w0:ℚ) * height ≤ u * height := mul_le_mul_of_nonneg_right h2 (by positivity)
    by_contra hc
    push Not at hc
    have := mul_lt_mul_of_pos_right hc hwq
    linarith
  have upper : ∀ (u v : ℚ) (w h : Nat), height * w ≤ h * width → u ≤ w → v * width = u * height → v ≤ h := by
    intro u v w h h1 h2 h3
    have h1' : (height:ℚ) * w ≤ h * width := by exact_mod_cast h1
    have : u * height ≤ (w:ℚ) * height := mul_le_mul_of_nonneg_right h2 (by positivity)
    by_contra hc
    push Not at hc
    have := mul_lt_mul_of_pos_right hc hwq
    linarith
  -- the height of a point
  have hgt : ∀ q, onSeg q s.a s.b → ∃ u v : ℚ, 0 ≤ u ∧ u ≤ width ∧ q.x = s.a.x + u ∧ v * width = u * height ∧ v ≤ height ∧
      q.y = if s.a.y ≤ s.b.y then s.a.y + v else s.a.y - v := by
    intro q hq
    obtain ⟨u, u0, u1, u2, u3⟩ := onSeg_offset hq hx
    rw [hwe] at u1 u3
    have hle : ∀ v : ℚ, v * width = u * height → v ≤ height := fun v hv =>
      upper u v width height (le_of_eq rfl) u1 hv
    split
    · rename_i hy
      have e : (height : Int) = s.b.y - s.a.y := by omega
      have e' : ((s.b.y - s.a.y : Int) : ℚ) = height := by rw [← e]; simp
      rw [e'] at u3
      exact ⟨u, q.y - s.a.y, u0, u1, u2, u3, hle _ u3, by ring⟩
    · rename_i hy
      have e : (height : Int) = -(s.b.y - s.a.y) := by omega
      have e' : ((s.b.y - s.a.y : Int) : ℚ) = -(height : ℚ) := by
        rw [show s.b.y - s.a.y = -(height : Int) by omega]; simp
      rw [e'] at u3
      have u3' : (s.a.y - q.y) * width = u * height := by linarith
      exact ⟨u, s.a.y - q.y, u0, u1, u2, u3', hle _ u3', by ring⟩
  intro n
  induction n with
  | zero =>
    intro i w px py w0 h0 e1 e2 e3 e4 e5 e6 e7
    have hpx : g.pos i ≤ px := by rcases e3 with h | h <;> omega
    refine ⟨rfl, ?_⟩
    intro f hf
    rw [cutLoop, List.mem_singleton] at hf
    subst hf
    refine ⟨rfl, rfl, ?_⟩
    refine ⟨?_, ?_, ?_⟩
    · dsimp only; split <;> exact hpx
    · dsimp only; split <;> exact e7
    · intro q hq q1 q2
      obtain ⟨u, v, u0, u1, ux, uv, vh, uy⟩ := hgt q hq
      have hu : (w0:ℚ) ≤ u := by
        rcases e3 with h | h
        · have : ((s.a.x : ℚ) + w0) ≤ q.x := by
            have : (px:ℚ) ≤ q.x := by rw [h]; exact q1
            rw [e2] at this; push_cast at this; exact this
          linarith
        · rw [h.1]; simpa using u0
      have hv := lower u v w0 h0 e5 hu uv
      have hbx : q.x ≤ s.b.x := by
        rw [ux]; have : ((s.b.x - s.a.x : Int):ℚ) = s.b.x - s.a.x := by push_cast; ring
        rw [← hwe, this] at u1; linarith
      have hpx' : (px:ℚ) ≤ q.x := by rw [e2, ux]; push_cast; linarith
      dsimp only
      split
      · rename_i hy
        rw [if_pos hy] at e4 uy
        have e : s.b.y = s.a.y + height := by omega
        refine ⟨hpx', hbx, ?_, ?_⟩
        · rw [e4, uy]; push_cast; linarith
        · rw [uy, e]; push_cast; linarith
      · rename_i hy
        rw [if_neg hy] at e4 uy
        have e : s.b.y = s.a.y - height := by omega
        refine ⟨hpx', hbx, ?_, ?_⟩
        · rw [uy, e]; push_cast; linarith
        · rw [e4, uy]; push_cast; linarith
  | succ n ih =>
    intro i w px py w0 h0 e1 e2 e3 e4 e5 e6 e7
    have hpx : g.pos i ≤ px := by rcases e3 with h | h <;> omega
    have hmin : w * k / 2 ^ p * width ≤ height * w := by
      have h1 : w * k / 2 ^ p * 2 ^ p ≤ w * k := Nat.div_mul_le_self _ _
      have h2 : k * width ≤ height * 2 ^ p := by rw [hk]; exact Nat.div_mul_le_self _ _
      have h3 : w * k / 2 ^ p * width * 2 ^ p ≤ height * w * 2 ^ p := by
        calc w * k / 2 ^ p * width * 2 ^ p = w * k / 2 ^ p * 2 ^ p * width := by ring
          _ ≤ w * k * width := Nat.mul_le_mul_right _ h1
          _ = w * (k * width) := by ring
          _ ≤ w * (height * 2 ^ p) := Nat.mul_le_mul_left _ h2
          _ = height * w * 2 ^ p := by ring
      exact Nat.le_of_mul_le_mul_right h3 (by positivity)
    have hwle : w ≤ width := by
      have := g.pos_mono (show i + 1 ≤ i + (n + 1) by omega)
      omega
    obtain ⟨hmax, -⟩ := raiseTo_spec width height w (height + 1) (w * k / 2 ^ p) (by
      have : height * w ≤ height * width := Nat.mul_le_mul_left _ hwle
      have : height * width ≤ (w * k / 2 ^ p + (height + 1)) * width := Nat.mul_le_mul_right _ (le_trans (Nat.le_succ _) (Nat.le_add_left _ _))
      omega)
    have hcov : ∀ (r : Rect), r.minX = px → r.maxX = s.a.x + w →
        (if s.a.y ≤ s.b.y then r.minY = py ∧ r.maxY = s.a.y + (raiseTo width height w (height + 1) (w * k / 2 ^ p) : Nat)
          else r.minY = s.a.y - (raiseTo width height w (height + 1) (w * k / 2 ^ p) : Nat) ∧ r.maxY = py) →
        CoversColumn g s i r := by
      intro r r1 r2 r3
      refine ⟨by rw [r1]; exact hpx, by rw [r2, e1], ?_⟩
      intro q hq q1 q2
      obtain ⟨u, v, u0, u1, ux, uv, vh, uy⟩ := hgt q hq
      have hu : (w0:ℚ) ≤ u := by
        rcases e3 with h | h
        · have : ((s.a.x : ℚ) + w0) ≤ q.x := by
            have : (px:ℚ) ≤ q.x := by rw [h]; exact q1
            rw [e2] at this; push_cast at this; exact this
          linarith
        · rw [h.1]; simpa using u0
      have hu2 : u ≤ w := by
        rw [← e1] at q2; push_cast at q2; linarith
      have hv := lower u v w0 h0 e5 hu uv
      have hv2 := upper u v w _ hmax hu2 uv
      have hpx' : (px:ℚ) ≤ q.x := by rw [e2, ux]; push_cast; linarith
      have hmx : q.x ≤ ((s.a.x + w : Int) : ℚ) := by rw [ux]; push_cast; linarith
      generalize raiseTo width height w (height + 1) (w * k / 2 ^ p) = H at *
      split at r3
      · rename_i hy
        rw [if_pos hy] at e4 uy
        refine ⟨by rw [r1]; exact hpx', by rw [r2]; exact hmx, ?_, ?_⟩
        · rw [r3.1, e4, uy]; push_cast; linarith
        · rw [r3.2, uy]; push_cast; linarith
      · rename_i hy
        rw [if_neg hy] at e4 uy
        refine ⟨by rw [r1]; exact hpx', by rw [r2]; exact hmx, ?_, ?_⟩
        · rw [r3.1, uy]; push_cast; linarith
        · rw [r3.2, e4, uy]; push_cast; linarith
    have hrec := ih (i + 1) (w + 2 ^ g.power) (s.a.x + w)
      (if s.a.y ≤ s.b.y then s.a.y + (w * k / 2 ^ p : Nat) else s.a.y - (w * k / 2 ^ p : Nat)) w (w * k / 2 ^ p)
      (by rw [g.pos_succ (i + 1), ← e1]; push_cast; ring) rfl (Or.inl e1) rfl hmin
      (by rw [show i + 1 + n = i + (n + 1) by omega]; exact e6)
      (by rw [show i + 1 + n + 1 = i + (n + 1) + 1 by omega]; exact e7)
    rw [cutLoop]
    by_cases hy : s.a.y ≤ s.b.y
    · rw [if_pos hy]
      rw [if_pos hy] at hrec
      refine ⟨by rw [List.map_cons, hrec.1]; rfl, ?_⟩
      intro f hf
      rcases List.mem_cons.1 hf with rfl | hf
      · exact ⟨rfl, rfl, hcov _ rfl rfl (by rw [if_pos hy]; exact ⟨rfl, rfl⟩)⟩
      · exact hrec.2 f hf
    · rw [if_neg hy]
      rw [if_neg hy] at hrec
      refine ⟨by rw [List.map_cons, hrec.1]; rfl, ?_⟩
      intro f hf
      rcases List.mem_cons.1 hf with rfl | hf
      · exact ⟨rfl, rfl, hcov _ rfl rfl (by rw [if_neg hy]; exact ⟨rfl, rfl⟩)⟩
      · exact hrec.2 f hf

theorem flatLoop_spec (g : Grid) (index : Nat) (s : XSeg) (hx : s.a.x < s.b.x) (hy : s.a.y = s.b.y) :
    ∀ (n i : Nat) (x0 : Int), (x0 = g.pos i ∨ (x0 = s.a.x ∧ g.pos i ≤ x0)) → g.pos (i + n) < s.b.x →
      s.b.x ≤ g.pos (i + n + 1) →
      (flatLoop g index s n i x0).map Prod.fst = List.range' i (n + 1) ∧
      ∀ f ∈ flatLoop g index s n i x0, f.2.index = index ∧ f.2.seg = s ∧ CoversColumn g s f.1 f.2.rect := by
  have hb : ∀ q, onSeg q s.a s.b → (s.a.x:ℚ) ≤ q.x ∧ q.x ≤ s.b.x ∧ q.y = s.a.y := by
    intro q hq
    obtain ⟨b1, b2, b3, b4⟩ := onSeg_bounds hq
    rw [min_eq_left hx.le] at b1
    rw [max_eq_right hx.le] at b2
    rw [hy, min_self] at b3
    rw [hy, max_self] at b4
    exact ⟨b1, b2, by rw [hy]; linarith⟩
  intro n
  induction n with
  | zero =>
    intro i x0 e1 e2 e3
    refine ⟨rfl, ?_⟩
    intro f hf
    rw [flatLoop, List.mem_singleton] at hf
    subst hf
    refine ⟨rfl, rfl, by rcases e1 with h | h <;> dsimp only <;> omega, e3, ?_⟩
    intro q hq q1 q2
    obtain ⟨c1, c2, c3⟩ := hb q hq
    refine ⟨?_, c2, by rw [c3], by rw [c3]⟩
    rcases e1 with h | h
    · rw [h]; exact q1
    · rw [h.1]; exact c1
  | succ n ih =>
    intro i x0 e1 e2 e3
    obtain ⟨r1, r2⟩ := ih (i + 1) (g.pos (i + 1)) (Or.inl rfl) (by rw [show i + 1 + n = i + (n + 1) by omega]; exact e2)
      (by rw [show i + 1 + n + 1 = i + (n + 1) + 1 by omega]; exact e3)
    rw [flatLoop]
    refine ⟨by rw [List.map_cons, r1]; rfl, ?_⟩
    intro f hf
    rcases List.mem_cons.1 hf with rfl | hf
    · refine ⟨rfl, rfl, by rcases e1 with h | h <;> dsimp only <;> omega, le_refl _, ?_⟩
      intro q hq q1 q2
      obtain ⟨c1, c2, c3⟩ := hb q hq
      refine ⟨?_, q2, by rw [c3], by rw [c3]⟩
      rcases e1 with h | h
      · rw [h]; exact q1
      · rw [h.1]; exact c1
    · exact r2 f hf

theorem whole_has (index : Nat) (s : XSeg) (hx : s.a.x ≤ s.b.x) {q : QPt} (h : onSeg q s.a s.b) :
    (Fragment.whole index s).rect.Has q := by
  obtain ⟨b1, b2, b3, b4⟩ := onSeg_bounds h
  rw [min_eq_left hx] at b1
  rw [max_eq_right hx] at b2
  unfold Fragment.whole
  dsimp only
  split
  · rename_i hy
    rw [min_eq_left hy.le] at b3
    rw [max_eq_right hy.le] at b4
    exact ⟨b1, b2, b3, b4⟩
  · rename_i hy
    rw [min_eq_right (by omega)] at b3
    rw [max_eq_left (by omega)] at b4
    exact ⟨b1, b2, b3, b4⟩

/-- Last column of an edge. -/
def lastColumn (g : Grid) (s : XSeg) : Nat := max (g.index s.a.x) (g.index (s.b.x - 1))

/-- An edge is cut into one fragment for each of its columns, covering the part of the edge there. -/
theorem addSegment_spec (g : Grid) (index : Nat) (s : XSeg) (hl : s.a < s.b) (hm : g.minX ≤ s.a.x) :
    (addSegment g index s).map Prod.fst = List.range' (g.index s.a.x) (lastColumn g s - g.index s.a.x + 1) ∧
    ∀ f ∈ addSegment g index s, f.2.index = index ∧ f.2.seg = s ∧ CoversColumn g s f.1 f.2.rect := by
  rw [Pt.lt_def] at hl
  obtain ⟨a1, a2⟩ := g.index_pos hm
  have hwhole : s.b.x ≤ g.pos (g.index s.a.x + 1) → ∀ f ∈ [(g.index s.a.x, Fragment.whole index s)], f.2.index = index ∧ f.2.seg = s ∧
      CoversColumn g s f.1 f.2.rect := by
    intro hb f hf
    rw [List.mem_singleton] at hf
    subst hf
    refine ⟨rfl, rfl, ?_, ?_, fun q hq _ _ => whole_has index s (by omega) hq⟩
    · unfold Fragment.whole; dsimp only; split <;> exact a1
    · unfold Fragment.whole; dsimp only; split <;> exact hb
  unfold addSegment lastColumn
  dsimp only
  by_cases hx : s.a.x = s.b.x
  · have hy : s.a.y ≠ s.b.y := by omega
    rw [if_neg hy, if_pos hx]
    have := g.index_mono (show s.b.x - 1 ≤ s.a.x by omega)
    refine ⟨?_, hwhole (by omega)⟩
    rw [max_eq_left this]; simp
  · have hx' : s.a.x < s.b.x := by omega
    have hle := g.index_mono (show s.a.x ≤ s.b.x - 1 by omega)
    obtain ⟨b1, b2⟩ := g.index_pos (show g.minX ≤ s.b.x - 1 by omega)
    rw [max_eq_right hle]
    by_cases hy : s.a.y = s.b.y
    · rw [if_pos hy]
      exact flatLoop_spec g index s hx' hy _ _ _ (Or.inr ⟨rfl, a1⟩)
        (by rw [show g.index s.a.x + (g.index (s.b.x - 1) - g.index s.a.x) = g.index (s.b.x - 1) by omega]; omega)
        (by rw [show g.index s.a.x + (g.index (s.b.x - 1) - g.index s.a.x) = g.index (s.b.x - 1) by omega]; omega)
    · rw [if_neg hy, if_neg hx]
      split
      · rename_i hge
        have e : g.index s.a.x = g.index (s.b.x - 1) := by omega
        refine ⟨by rw [← e]; simp, hwhole (by rw [e]; omega)⟩
      · exact cutLoop_spec g index s _ _ _ _ hx' (by omega) rfl rfl _ _ _ _ _ 0 0 (by omega) (by simp)
          (Or.inr ⟨rfl, a1⟩) (by simp) (by simp)
          (by rw [show g.index s.a.x + (g.index (s.b.x - 1) - g.index s.a.x) = g.index (s.b.x - 1) by omega]; omega)
          (by rw [show g.index s.a.x + (g.index (s.b.x - 1) - g.index s.a.x) = g.index (s.b.x - 1) by omega]; omega)

end IOverlay
