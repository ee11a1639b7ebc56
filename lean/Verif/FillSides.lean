/- The counts found by the sweep are winding numbers of points next to the edge. -/
import Verif.FillLemmas
import Mathlib.Algebra.Order.Floor.Ring
import Mathlib.Data.Rat.Floor

namespace IOverlay
variable {C : Type}

/-- The point at distance `δ` from `m` on the right-hand side of the edge `a b` (`a < b`): below it, or
to the right of it when it is vertical. -/
def rightOf (a b : Pt) (m : QPt) (δ : ℚ) : QPt :=
  if a.x = b.x then ⟨m.x + δ, m.y⟩ else ⟨m.x, m.y - δ⟩

/-- The point at distance `δ` from `m` on the left-hand side of the edge `a b` (`a < b`): above it, or
to the left of it when it is vertical. -/
def leftOf (a b : Pt) (m : QPt) (δ : ℚ) : QPt :=
  if a.x = b.x then ⟨m.x - δ, m.y⟩ else ⟨m.x, m.y + δ⟩

theorem exists_eps (l : List ℚ) (c : ℚ) : ∃ ε : ℚ, 0 < ε ∧ ∀ h ∈ l, ∀ δ : ℚ, 0 < δ → δ < ε →
    (h < c - δ ↔ h < c) ∧ (h < c + δ ↔ h ≤ c) := by
  induction l with
  | nil => exact ⟨1, one_pos, by simp⟩
  | cons a l ih =>
    obtain ⟨ε, h0, hε⟩ := ih
    by_cases hac : a = c
    · refine ⟨ε, h0, ?_⟩
      intro h hh δ d0 d1
      rcases List.mem_cons.1 hh with rfl | hh
      · subst hac
        exact ⟨⟨fun h => by linarith, fun h => absurd h (lt_irrefl _)⟩, ⟨fun _ => le_refl _, fun _ => by linarith⟩⟩
      · exact hε h hh δ d0 d1
    · refine ⟨min ε |c - a|, lt_min h0 (abs_pos.2 (sub_ne_zero.2 (Ne.symm hac))), ?_⟩
      intro h hh δ d0 d1
      obtain ⟨d2, d3⟩ := lt_min_iff.1 d1
      rcases List.mem_cons.1 hh with rfl | hh
      · rcases lt_or_gt_of_ne hac with hl | hl
        · rw [abs_of_pos (by linarith)] at d3
          exact ⟨⟨fun _ => hl, fun _ => by linarith⟩, ⟨fun _ => hl.le, fun _ => by linarith⟩⟩
        · rw [abs_of_neg (by linarith)] at d3
          exact ⟨⟨fun h => by linarith, fun h => by linarith⟩, ⟨fun h => by linarith, fun h => by linarith⟩⟩
      · exact hε h hh δ d0 d2

theorem exists_eps_slope (l : List (Seg C)) (x c : ℚ) : ∃ ε : ℚ, 0 < ε ∧ ∀ f ∈ l, ht f x ≠ c →
    ∀ δ : ℚ, |δ| < ε → (ht f (x + δ) < c ↔ ht f x < c) := by
  induction l with
  | nil => exact ⟨1, one_pos, by simp⟩
  | cons a l ih =>
    obtain ⟨ε, h0, hε⟩ := ih
    set k : ℚ := (a.b.y - a.a.y) / (a.b.x - a.a.x) with hk
    by_cases hac : ht a x = c
    · refine ⟨ε, h0, ?_⟩
      intro f hf hne
      rcases List.mem_cons.1 hf with rfl | hf
      · exact absurd hac hne
      · exact hε f hf hne
    · have hpos : 0 < |c - ht a x| := abs_pos.2 (sub_ne_zero.2 (Ne.symm hac))
      have hk1 : 0 < |k| + 1 := by have := abs_nonneg k; linarith
      refine ⟨min ε (|c - ht a x| / (|k| + 1)), lt_min h0 (div_pos hpos hk1), ?_⟩
      intro f hf hne δ d1
      obtain ⟨d2, d3⟩ := lt_min_iff.1 d1
      rcases List.mem_cons.1 hf with rfl | hf
      · rw [ht_add, ← hk]
        rw [lt_div_iff₀ hk1] at d3
        have hb : |δ * k| < |c - ht f x| := by
          rw [abs_mul]
          have := abs_nonneg δ
          linarith
        have hb1 := abs_lt.1 hb
        rcases lt_or_gt_of_ne hac with hl | hl
        · rw [abs_of_pos (by linarith)] at hb1
          exact ⟨fun _ => hl, fun _ => by linarith [hb1.2]⟩
        · rw [abs_of_neg (by linarith)] at hb1
          exact ⟨fun h => by linarith [hb1.1], fun h => by linarith⟩
      · exact hε f hf hne δ d2

theorem spans_floor (f : Seg C) (x : ℚ) : ((f.a.x:ℚ) ≤ x ∧ x < f.b.x) ↔ f.spans ⌊x⌋ := by
  unfold Seg.spans
  rw [Int.le_floor, Int.floor_lt]

section near
variable {segs : List (Seg C)} (hp : Planar segs) {φ : C → Int} (hc : Closed φ segs)
include hp hc

theorem Planar.near_slanted {s : Seg C} (hs : s ∈ segs) (sx : s.a.x < s.b.x) {m : QPt}
    (hm : inSeg m s.a s.b) : ∃ ε : ℚ, 0 < ε ∧ ∀ δ, 0 < δ → δ < ε →
      segsWind φ segs ⟨m.x, m.y - δ⟩ = botW φ segs s ∧
      segsWind φ segs ⟨m.x, m.y + δ⟩ = botW φ segs s + φ s.c := by
  obtain ⟨ε, h0, hε⟩ := exists_eps (segs.map fun f => ht f m.x) m.y
  refine ⟨ε, h0, fun δ d0 d1 => ?_⟩
  have dx := dx_pos sx
  obtain ⟨t, t0, t1, mx, my⟩ := hm
  have b1 : (s.a.x:ℚ) < m.x := by rw [mx]; have := mul_pos t0 dx; linarith
  have b2 : m.x < s.b.x := by rw [mx]; have := mul_lt_mul_of_pos_right t1 dx; linarith
  have hmy : m.y = ht s m.x := (ht_of_onSeg sx ⟨t, t0.le, t1.le, mx, my⟩).1
  have ss : s.spans ⌊m.x⌋ := (spans_floor s m.x).1 ⟨b1.le, b2⟩
  have f1 : (⌊m.x⌋:ℚ) ≤ m.x := Int.floor_le _
  have f2 : m.x ≤ ⌊m.x⌋ + 1 := (Int.lt_floor_add_one _).le
  have hiff : ∀ f ∈ segs, f.spans ⌊m.x⌋ →
      (ht f m.x < m.y ↔ ht f (mid ⌊m.x⌋) < ht s (mid ⌊m.x⌋)) := by
    intro f hf sf
    constructor
    · intro h; rw [hmy] at h; exact hp.mid_of hf hs sf ss f1 f2 h
    · intro h; rw [hmy]; exact hp.of_mid_strict hf hs sf ss f1 f2 b1 b2 h
  have hbot : botW φ segs s = lowSum φ segs s ⌊m.x⌋ := by
    rw [hp.botW_eq_lowSum φ hs sx, hp.lowSum_const hc hs _ ss]
  constructor
  · rw [segsWind_eq_wsum φ hp.lt, hbot]
    refine wsum_congr φ fun f hf => ind_congr ?_
    simp only
    rw [(hε (ht f m.x) (List.mem_map.2 ⟨f, hf, rfl⟩) δ d0 d1).1, ← and_assoc, spans_floor]
    constructor
    · rintro ⟨h1, h2⟩; exact ⟨h1, (hiff f hf h1).1 h2⟩
    · rintro ⟨h1, h2⟩; exact ⟨h1, (hiff f hf h1).2 h2⟩
  · rw [segsWind_eq_wsum φ hp.lt, hbot, ← wsum_single φ hp.nodup hs]
    unfold lowSum
    rw [← wsum_add]
    refine wsum_congr φ fun f hf => ?_
    simp only
    rw [ind_congr (and_assoc.symm.trans (and_congr (spans_floor f m.x)
      (hε (ht f m.x) (List.mem_map.2 ⟨f, hf, rfl⟩) δ d0 d1).2))]
    by_cases hfs : f = s
    · subst hfs
      rw [ind_true ⟨ss, by rw [hmy]⟩, ind_true rfl, ind_false (fun h => lt_irrefl _ h.2)]; rfl
    · rw [ind_false hfs, add_zero]
      apply ind_congr
      constructor
      · rintro ⟨h1, h2⟩
        refine ⟨h1, (hiff f hf h1).1 (lt_of_le_of_ne h2 ?_)⟩
        rw [hmy]
        have := h1.bounds
        exact Ne.symm (hp.ht_ne hs hf (Ne.symm hfs) b1 b2 (by linarith) (by linarith) h1.x)
      · rintro ⟨h1, h2⟩; exact ⟨h1, ((hiff f hf h1).2 h2).le⟩

theorem Planar.near_vertical {s : Seg C} (hs : s ∈ segs) (sx : s.a.x = s.b.x) {m : QPt}
    (hm : inSeg m s.a s.b) : ∃ ε : ℚ, 0 < ε ∧ ∀ δ, 0 < δ → δ < ε →
      segsWind φ segs ⟨m.x + δ, m.y⟩ = botW φ segs s ∧
      segsWind φ segs ⟨m.x - δ, m.y⟩ = botW φ segs s + φ s.c := by
  obtain ⟨t, t0, t1, mx, my⟩ := hm
  have hlt := hp.lt s hs
  rw [Pt.lt_def] at hlt
  have sy : s.a.y < s.b.y := by omega
  have dy : (0:ℚ) < s.b.y - s.a.y := by
    have : (s.a.y:ℚ) < s.b.y := by exact_mod_cast sy
    linarith
  have b1 : (s.a.y:ℚ) < m.y := by rw [my]; have := mul_pos t0 dy; linarith
  have b2 : m.y < s.b.y := by rw [my]; have := mul_lt_mul_of_pos_right t1 dy; linarith
  have hmx : m.x = s.a.x := by rw [mx, sx]; ring
  have hms : onSeg ⟨(s.a.x:ℚ), m.y⟩ s.a s.b := onSeg_vert sx sy b1.le b2.le
  -- no other edge passes through m
  have hno : ∀ f ∈ segs, f ≠ s → ¬ onSeg ⟨(s.a.x:ℚ), m.y⟩ f.a f.b := by
    intro f hf hne h
    rcases (hp.meet hf hs hne _ h hms).2 with e | e <;> simp only [Pt.q, QPt.mk.injEq] at e
    · linarith [e.2]
    · linarith [e.2]
  have hns : ∀ n, ¬ s.spans n := by rintro n ⟨h1, h2⟩; omega
  have hhne : ∀ f ∈ segs, f.a.x < f.b.x → f.a.x ≤ s.a.x → s.a.x ≤ f.b.x → ht f s.a.x ≠ m.y := by
    intro f hf fx h1 h2 e
    have hne : f ≠ s := by rintro rfl; omega
    apply hno f hf hne
    rw [← e]
    exact onSeg_ht fx (by exact_mod_cast h1) (by exact_mod_cast h2)
  obtain ⟨ε, h0, hε⟩ := exists_eps_slope segs s.a.x m.y
  refine ⟨min ε 1, lt_min h0 one_pos, fun δ d0 d1 => ?_⟩
  obtain ⟨d2, d3⟩ := lt_min_iff.1 d1
  have fl1 : ⌊(s.a.x:ℚ) + δ⌋ = s.a.x := by
    rw [Int.floor_eq_iff]; constructor <;> linarith
  have fl2 : ⌊(s.a.x:ℚ) - δ⌋ = s.a.x - 1 := by
    rw [Int.floor_eq_iff]; push_cast; constructor <;> linarith
  -- the edges to the right below m
  have hR : botW φ segs s = wsum φ (fun f => ind (f.spans s.a.x ∧ ht f s.a.x < m.y)) segs := by
    refine wsum_congr φ fun f hf => ind_congr ?_
    constructor
    · rintro ⟨h1, h2 | ⟨h2, h3⟩⟩
      · exact ⟨h1, by linarith⟩
      · refine ⟨h1, ?_⟩
        rw [← h2, ht_a, h2]; exact b1
    · rintro ⟨h1, h2⟩
      refine ⟨h1, ?_⟩
      by_cases hlow : ht f s.a.x < s.a.y
      · exact Or.inl hlow
      · right
        push Not at hlow
        have hne : f ≠ s := by rintro rfl; exact hns _ h1
        have hb := h1.bounds
        have q1 : onSeg ⟨(s.a.x:ℚ), ht f s.a.x⟩ f.a f.b := onSeg_ht h1.x hb.1 (by linarith)
        have q2 : onSeg ⟨(s.a.x:ℚ), ht f s.a.x⟩ s.a s.b := onSeg_vert sx sy hlow (by linarith)
        obtain ⟨e1, e2⟩ := hp.meet hf hs hne _ q1 q2
        have ha : s.a = f.a := by
          have h3 : ht f s.a.x = s.a.y := by
            rcases e2 with e | e <;> simp only [Pt.q, QPt.mk.injEq] at e
            · exact e.2
            · linarith [e.2]
          rcases e1 with e | e <;> simp only [Pt.q, QPt.mk.injEq] at e
          · rw [Pt.ext_iff']
            refine ⟨by exact_mod_cast e.1, ?_⟩
            have := e.2
            rw [h3] at this
            exact_mod_cast this
          · linarith [e.1]
        refine ⟨ha.symm, ?_⟩
        have hfx := h1.2
        have : area2 s.a s.b f.b = (s.b.y - s.a.y) * (f.b.x - s.a.x) := by
          unfold area2; rw [← sx]; ring
        rw [this]
        exact mul_pos (by omega) (by omega)
  constructor
  · rw [segsWind_eq_wsum φ hp.lt, hR]
    refine wsum_congr φ fun f hf => ind_congr ?_
    simp only
    rw [hmx, ← and_assoc, spans_floor, fl1]
    refine and_congr_right fun sf => ?_
    exact hε f hf (hhne f hf sf.x sf.1 sf.2.le) δ (by rw [abs_of_pos d0]; exact d2)
  · rw [segsWind_eq_wsum φ hp.lt, hR, ← wsum_single φ hp.nodup hs, ← wsum_add]
    have hcg : wsum φ (fun f => ind ((f.a.x:ℚ) ≤ m.x - δ ∧ m.x - δ < f.b.x ∧ ht f (m.x - δ) < m.y)) segs =
        wsum φ (fun f => ind (f.spans (s.a.x - 1) ∧ ht f s.a.x < m.y)) segs := by
      refine wsum_congr φ fun f hf => ind_congr ?_
      rw [hmx, ← and_assoc, spans_floor, fl2]
      refine and_congr_right fun sf => ?_
      have := hε f hf (hhne f hf sf.x (by have := sf.1; omega) (by have := sf.2; omega)) (-δ)
        (by rw [abs_neg, abs_of_pos d0]; exact d2)
      rw [← sub_eq_add_neg] at this
      exact this
    rw [hcg]
    refine wsum_potential hc (fun v => ind (v.x = s.a.x ∧ (v.y:ℚ) < m.y)) fun f hf => ?_
    by_cases hfs : f = s
    · subst hfs
      rw [ind_false (fun h => hns _ h.1), ind_false (fun h => hns _ h.1), ind_true rfl,
        ind_false (P := _ = _ ∧ (f.b.y:ℚ) < _) (fun h => by linarith [h.2]),
        ind_true (P := _ = _ ∧ (f.a.y:ℚ) < _) ⟨rfl, b1⟩]; rfl
    · rw [ind_false hfs, add_zero]
      exact hp.cross_ind hf s.a.x m.y (hno f hf hfs) _ _ (fun _ => Iff.rfl) (fun _ => Iff.rfl)

/-- Both sides of an edge. -/
theorem Planar.near {s : Seg C} (hs : s ∈ segs) {m : QPt} (hm : inSeg m s.a s.b) :
    ∃ ε : ℚ, 0 < ε ∧ ∀ δ, 0 < δ → δ < ε →
      segsWind φ segs (rightOf s.a s.b m δ) = botW φ segs s ∧
      segsWind φ segs (leftOf s.a s.b m δ) = botW φ segs s + φ s.c := by
  unfold rightOf leftOf
  by_cases hx : s.a.x = s.b.x
  · simp only [if_pos hx]; exact hp.near_vertical hc hs hx hm
  · simp only [if_neg hx]
    have := ab_x_le (hp.lt s hs)
    exact hp.near_slanted hc hs (by omega) hm

end near

end IOverlay
