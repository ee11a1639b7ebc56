/-
Geometry of a noded edge list in vertical columns: heights of edges over a column, their order, and
sums of counts of the edges below. Used for the sweep (C39), parity (C40) and the overlay (C01).
-/
import Verif.Noding
import Mathlib.Tactic.Positivity

namespace IOverlay
variable {C : Type}

/-- A noded edge list as produced by the splitting phase. -/
structure Planar (segs : List (Seg C)) : Prop where
  lt : ∀ s ∈ segs, s.a < s.b
  sorted : segs.Pairwise Seg.lt
  noded : Noded segs

theorem Planar.meet {segs : List (Seg C)} (h : Planar segs) {f g : Seg C} (hf : f ∈ segs) (hg : g ∈ segs)
    (hne : f ≠ g) : MeetAtEnds f.a f.b g.a g.b := by
  have hsym : ∀ {x y : Seg C}, MeetAtEnds x.a x.b y.a y.b → MeetAtEnds y.a y.b x.a x.b :=
    fun h q a b => (h q b a).symm
  have : ∀ (l : List (Seg C)), Noded l → f ∈ l → g ∈ l → MeetAtEnds f.a f.b g.a g.b := by
    intro l
    induction l with
    | nil => intro _ h; simp at h
    | cons z l ih =>
      intro hn h1 h2
      obtain ⟨n1, n2⟩ := List.pairwise_cons.1 hn
      rcases List.mem_cons.1 h1 with h1' | h1' <;> rcases List.mem_cons.1 h2 with h2' | h2'
      · exact absurd (h1'.trans h2'.symm) hne
      · subst h1'; exact n1 g h2'
      · subst h2'; exact hsym (n1 f h1')
      · exact ih n2 h1' h2'
  exact this segs h.noded hf hg

/-- Height of the line of a segment at abscissa `x`. -/
def ht (s : Seg C) (x : ℚ) : ℚ :=
  s.a.y + (s.b.y - s.a.y) * ((x - s.a.x) / (s.b.x - s.a.x))

theorem dx_pos {s : Seg C} (h : s.a.x < s.b.x) : (0:ℚ) < s.b.x - s.a.x := by
  have : (s.a.x:ℚ) < s.b.x := by exact_mod_cast h
  linarith

theorem ht_a (s : Seg C) : ht s s.a.x = s.a.y := by unfold ht; simp

theorem ht_b {s : Seg C} (h : s.a.x < s.b.x) : ht s s.b.x = s.b.y := by
  have := dx_pos h
  unfold ht; rw [div_self (ne_of_gt this)]; ring

theorem ht_affine (s : Seg C) (x x' t : ℚ) :
    ht s (x + t * (x' - x)) = ht s x + t * (ht s x' - ht s x) := by
  unfold ht; ring

theorem ht_add (s : Seg C) (x d : ℚ) :
    ht s (x + d) = ht s x + d * ((s.b.y - s.a.y) / (s.b.x - s.a.x)) := by
  unfold ht; ring

theorem onSeg_ht {s : Seg C} (h : s.a.x < s.b.x) {x : ℚ} (h1 : (s.a.x:ℚ) ≤ x) (h2 : x ≤ s.b.x) :
    onSeg ⟨x, ht s x⟩ s.a s.b := by
  have d := dx_pos h
  refine ⟨(x - s.a.x) / (s.b.x - s.a.x), div_nonneg (by linarith) d.le, ?_, ?_, ?_⟩
  · rw [div_le_one d]; linarith
  · simp only; field_simp; ring
  · simp only [ht]; ring

theorem ht_of_onSeg {s : Seg C} (h : s.a.x < s.b.x) {q : QPt} (hq : onSeg q s.a s.b) :
    q.y = ht s q.x ∧ (s.a.x:ℚ) ≤ q.x ∧ q.x ≤ s.b.x := by
  have d := dx_pos h
  obtain ⟨t, h0, h1, hx, hy⟩ := hq
  refine ⟨?_, ?_, ?_⟩
  · unfold ht; rw [hx, hy]; field_simp; ring
  · rw [hx]; have := mul_nonneg h0 d.le; linarith
  · rw [hx]; have := mul_le_mul_of_nonneg_right h1 d.le; linarith

theorem onSeg_vert {s : Seg C} (h : s.a.x = s.b.x) (hy : s.a.y < s.b.y) {y : ℚ}
    (h1 : (s.a.y:ℚ) ≤ y) (h2 : y ≤ s.b.y) : onSeg ⟨s.a.x, y⟩ s.a s.b := by
  have d : (0:ℚ) < s.b.y - s.a.y := by
    have : (s.a.y:ℚ) < s.b.y := by exact_mod_cast hy
    linarith
  refine ⟨(y - s.a.y) / (s.b.y - s.a.y), div_nonneg (by linarith) d.le, ?_, ?_, ?_⟩
  · rw [div_le_one d]; linarith
  · simp only [h]; ring
  · simp only; field_simp; ring

theorem aboveLine_iff {s : Seg C} (h : s.a.x < s.b.x) (q : QPt) :
    aboveLine s.a s.b q ↔ ht s q.x < q.y := by
  have d := dx_pos h
  unfold aboveLine ht
  have e : (s.a.y:ℚ) + (s.b.y - s.a.y) * ((q.x - s.a.x) / (s.b.x - s.a.x)) =
      (s.a.y * (s.b.x - s.a.x) + (s.b.y - s.a.y) * (q.x - s.a.x)) / (s.b.x - s.a.x) := by
    field_simp
  rw [e, div_lt_iff₀ d]
  constructor <;> intro h <;> linarith

open Classical in
/-- Indicator of a proposition. -/
noncomputable def ind (P : Prop) : Int := if P then 1 else 0

theorem ind_true {P : Prop} (h : P) : ind P = 1 := by unfold ind; exact if_pos h
theorem ind_false {P : Prop} (h : ¬ P) : ind P = 0 := by unfold ind; exact if_neg h
theorem ind_congr {P Q : Prop} (h : P ↔ Q) : ind P = ind Q := by rw [propext h]

theorem edgeWind_eq_ind {s : Seg C} (h : s.a < s.b) (q : QPt) :
    edgeWind s.a s.b q = ind ((s.a.x:ℚ) ≤ q.x ∧ q.x < s.b.x ∧ ht s q.x < q.y) := by
  have hx := ab_x_le h
  have hxq : (s.a.x:ℚ) ≤ s.b.x := by exact_mod_cast hx
  unfold edgeWind
  by_cases hc : (s.a.x:ℚ) ≤ q.x ∧ q.x < s.b.x
  · have : s.a.x < s.b.x := by
      have : (s.a.x:ℚ) < s.b.x := by linarith [hc.1, hc.2]
      exact_mod_cast this
    by_cases ha : ht s q.x < q.y
    · rw [if_pos ⟨hc.1, hc.2, (aboveLine_iff this q).2 ha⟩, ind_true ⟨hc.1, hc.2, ha⟩]
    · rw [if_neg, if_neg, ind_false]
      · rintro ⟨_, _, h⟩; exact ha h
      · rintro ⟨h1, h2, _⟩; linarith
      · rintro ⟨_, _, h⟩; exact ha ((aboveLine_iff this q).1 h)
  · rw [if_neg, if_neg, ind_false]
    · rintro ⟨h1, h2, _⟩; exact hc ⟨h1, h2⟩
    · rintro ⟨h1, h2, _⟩; linarith
    · rintro ⟨h1, h2, _⟩; exact hc ⟨h1, h2⟩

/-! ### weighted sums -/

/-- Sum of the counts weighted by `w`. -/
def wsum (φ : C → Int) (w : Seg C → Int) (l : List (Seg C)) : Int := (l.map fun s => φ s.c * w s).sum

@[simp] theorem wsum_nil (φ : C → Int) (w) : wsum φ w [] = 0 := rfl
@[simp] theorem wsum_cons (φ : C → Int) (w) (s : Seg C) (l) :
    wsum φ w (s :: l) = φ s.c * w s + wsum φ w l := by simp [wsum]

theorem wsum_congr (φ : C → Int) {w w' : Seg C → Int} {l : List (Seg C)} (h : ∀ s ∈ l, w s = w' s) :
    wsum φ w l = wsum φ w' l := by
  induction l with
  | nil => rfl
  | cons s l ih =>
    rw [wsum_cons, wsum_cons, h s (by simp), ih fun t ht => h t (List.mem_cons_of_mem _ ht)]

theorem wsum_add (φ : C → Int) (w w' : Seg C → Int) (l : List (Seg C)) :
    wsum φ (fun s => w s + w' s) l = wsum φ w l + wsum φ w' l := by
  induction l with
  | nil => rfl
  | cons s l ih => simp only [wsum_cons, ih]; ring

theorem wsum_perm (φ : C → Int) (w) {l l' : List (Seg C)} (h : l.Perm l') : wsum φ w l = wsum φ w l' :=
  (h.map _).sum_eq

theorem segsWind_eq_wsum (φ : C → Int) {l : List (Seg C)} (hl : ∀ s ∈ l, s.a < s.b) (q : QPt) :
    segsWind φ l q =
      wsum φ (fun s => ind ((s.a.x:ℚ) ≤ q.x ∧ q.x < s.b.x ∧ ht s q.x < q.y)) l :=
  wsum_congr φ fun s hs => edgeWind_eq_ind (hl s hs) q

theorem wsum_single (φ : C → Int) {l : List (Seg C)} (hd : l.Nodup) {s : Seg C} (hs : s ∈ l) :
    wsum φ (fun f => ind (f = s)) l = φ s.c := by
  induction l with
  | nil => simp at hs
  | cons t l ih =>
    obtain ⟨h1, h2⟩ := List.nodup_cons.1 hd
    rw [wsum_cons]
    by_cases hts : t = s
    · subst hts
      rw [ind_true rfl, wsum_congr φ (w' := fun _ => 0)]
      · simp [wsum]
      · intro f hf
        exact ind_false (by rintro rfl; exact h1 hf)
    · rw [ind_false hts, ih h2 (List.mem_of_ne_of_mem (Ne.symm hts) hs)]; ring

/-- With a closed flow, changing the weight by a potential difference changes nothing. -/
theorem wsum_potential {φ : C → Int} {l : List (Seg C)} (hc : Closed φ l) {w w' : Seg C → Int}
    (P : Pt → Int) (h : ∀ s ∈ l, w s = w' s + (P s.b - P s.a)) : wsum φ w l = wsum φ w' l := by
  have := hc fun p => - P p
  rw [wsum_congr φ h, wsum_add]
  have e : wsum φ (fun s => P s.b - P s.a) l = 0 := by
    rw [← this]; unfold wsum segSum
    congr 1; apply List.map_congr_left; intro s _; ring
  rw [e, add_zero]

theorem Planar.nodup {segs : List (Seg C)} (h : Planar segs) : segs.Nodup :=
  h.sorted.imp fun {a b} hab => by rintro rfl; exact Seg.lt_irrefl _ hab

/-! ### order of edges over a column -/

section order
variable {segs : List (Seg C)} (hp : Planar segs)
include hp

/-- Two different edges have no common point above an inner abscissa of the first. -/
theorem Planar.ne_inner {f g : Seg C} (hf : f ∈ segs) (hg : g ∈ segs) (hne : f ≠ g) {q : QPt}
    (h1 : (f.a.x:ℚ) < q.x) (h2 : q.x < f.b.x) (hqf : onSeg q f.a f.b) (hqg : onSeg q g.a g.b) : False := by
  rcases (hp.meet hf hg hne q hqf hqg).1 with e | e
  · rw [e] at h1; exact lt_irrefl _ h1
  · rw [e] at h2; exact lt_irrefl _ h2

theorem Planar.ht_ne {f g : Seg C} (hf : f ∈ segs) (hg : g ∈ segs) (hne : f ≠ g) {x : ℚ}
    (h1 : (f.a.x:ℚ) < x) (h2 : x < f.b.x) (h3 : (g.a.x:ℚ) ≤ x) (h4 : x ≤ g.b.x)
    (hgx : g.a.x < g.b.x) : ht f x ≠ ht g x := by
  intro e
  have hfx : f.a.x < f.b.x := by
    have : (f.a.x:ℚ) < f.b.x := by linarith
    exact_mod_cast this
  have a := onSeg_ht hfx h1.le h2.le
  have b := onSeg_ht hgx h3 h4
  rw [← e] at b
  exact hp.ne_inner hf hg hne (q := ⟨x, ht f x⟩) h1 h2 a b

/-- A vertex of another edge never lies on the inside of an edge. -/
theorem Planar.vertex_ne {f g : Seg C} (hf : f ∈ segs) (hg : g ∈ segs) {v : Pt} (hv : v = g.a ∨ v = g.b)
    (h1 : f.a.x < v.x) (h2 : v.x < f.b.x) : ht f v.x ≠ v.y := by
  intro e
  have h1' : (f.a.x:ℚ) < v.x := by exact_mod_cast h1
  have h2' : (v.x:ℚ) < f.b.x := by exact_mod_cast h2
  by_cases hne : f = g
  · subst hne
    rcases hv with rfl | rfl <;> omega
  · have a := onSeg_ht (by omega) h1'.le h2'.le
    refine hp.ne_inner hf hg hne (q := ⟨v.x, ht f v.x⟩) h1' h2' a ?_
    rw [e]
    rcases hv with rfl | rfl
    · exact ⟨0, le_refl _, zero_le_one, by simp, by simp⟩
    · exact ⟨1, zero_le_one, le_refl _, by simp, by simp⟩

/-- The vertical order of two edges cannot be reversed over their common range. -/
theorem Planar.order {f g : Seg C} (hf : f ∈ segs) (hg : g ∈ segs) (hne : f ≠ g) {x x' : ℚ}
    (_hfx : f.a.x < f.b.x) (hgx : g.a.x < g.b.x)
    (f1 : (f.a.x:ℚ) ≤ x) (f2 : x ≤ f.b.x) (g1 : (g.a.x:ℚ) ≤ x) (g2 : x ≤ g.b.x)
    (f1' : (f.a.x:ℚ) ≤ x') (f2' : x' ≤ f.b.x) (g1' : (g.a.x:ℚ) ≤ x') (g2' : x' ≤ g.b.x)
    (h : ht f x < ht g x) : ht f x' ≤ ht g x' := by
  by_contra hcon
  push Not at hcon
  -- D(t) = ht g - ht f : positive at x, negative at x'
  set D := ht g x - ht f x with hD
  set D' := ht f x' - ht g x' with hD'
  have d1 : 0 < D := by rw [hD]; linarith
  have d2 : 0 < D' := by rw [hD']; linarith
  set t := D / (D + D') with ht'
  have t0 : 0 < t := div_pos d1 (by linarith)
  have t1 : t < 1 := by rw [ht', div_lt_one (by linarith)]; linarith
  have e : ht f (x + t * (x' - x)) = ht g (x + t * (x' - x)) := by
    rw [ht_affine, ht_affine]
    have : t * (D + D') = D := by rw [ht']; field_simp
    rw [hD, hD'] at this
    linear_combination this
  have hxx : x ≠ x' := by rintro rfl; linarith
  have b1 : x < x' → x < x + t * (x' - x) ∧ x + t * (x' - x) < x' := by
    intro hl
    have := mul_pos t0 (sub_pos.2 hl)
    have := mul_lt_mul_of_pos_right t1 (sub_pos.2 hl)
    constructor <;> linarith
  have b2 : x' < x → x' < x + t * (x' - x) ∧ x + t * (x' - x) < x := by
    intro hl
    have := mul_pos t0 (sub_pos.2 hl)
    have := mul_lt_mul_of_pos_right t1 (sub_pos.2 hl)
    constructor <;> linarith
  rcases lt_or_gt_of_ne hxx with hl | hl
  · obtain ⟨c1, c2⟩ := b1 hl
    exact hp.ht_ne hf hg hne (by linarith) (by linarith) (by linarith) (by linarith) hgx e
  · obtain ⟨c1, c2⟩ := b2 hl
    exact hp.ht_ne hf hg hne (by linarith) (by linarith) (by linarith) (by linarith) hgx e

end order

/-- The edge crosses the open column between the integer abscissas `n` and `n + 1`. -/
def Seg.spans (s : Seg C) (n : Int) : Prop := s.a.x ≤ n ∧ n < s.b.x

/-- Middle of the column `n`. -/
def mid (n : Int) : ℚ := n + 1 / 2

theorem Seg.spans.x {s : Seg C} {n : Int} (h : s.spans n) : s.a.x < s.b.x := _root_.lt_of_le_of_lt h.1 h.2
theorem Seg.spans.bounds {s : Seg C} {n : Int} (h : s.spans n) :
    (s.a.x:ℚ) ≤ n ∧ ((n:ℚ) + 1 ≤ s.b.x) := by
  refine ⟨by exact_mod_cast h.1, ?_⟩
  have : n + 1 ≤ s.b.x := h.2
  exact_mod_cast this

section columns
variable {segs : List (Seg C)} (hp : Planar segs)
include hp

theorem Planar.mid_ne {f g : Seg C} (hf : f ∈ segs) (hg : g ∈ segs) (hne : f ≠ g) {n : Int}
    (sf : f.spans n) (sg : g.spans n) : ht f (mid n) ≠ ht g (mid n) := by
  have := sf.bounds; have := sg.bounds
  refine hp.ht_ne hf hg hne ?_ ?_ ?_ ?_ sg.x <;> unfold mid <;> linarith

/-- Order over the middle of a column from the order anywhere over the closed column. -/
theorem Planar.mid_of {f g : Seg C} (hf : f ∈ segs) (hg : g ∈ segs) {n : Int}
    (sf : f.spans n) (sg : g.spans n) {x : ℚ} (h1 : (n:ℚ) ≤ x) (h2 : x ≤ n + 1)
    (h : ht f x < ht g x) : ht f (mid n) < ht g (mid n) := by
  have hne : f ≠ g := by rintro rfl; exact lt_irrefl _ h
  have := sf.bounds; have := sg.bounds
  refine lt_of_le_of_ne ?_ (hp.mid_ne hf hg hne sf sg)
  refine hp.order hf hg hne (x := x) sf.x sg.x ?_ ?_ ?_ ?_ ?_ ?_ ?_ ?_ h <;> (try unfold mid) <;> linarith

theorem Planar.of_mid {f g : Seg C} (hf : f ∈ segs) (hg : g ∈ segs) {n : Int}
    (sf : f.spans n) (sg : g.spans n) {x : ℚ} (h1 : (n:ℚ) ≤ x) (h2 : x ≤ n + 1)
    (h : ht f (mid n) < ht g (mid n)) : ht f x ≤ ht g x := by
  have hne : f ≠ g := by rintro rfl; exact lt_irrefl _ h
  have := sf.bounds; have := sg.bounds
  refine hp.order hf hg hne (x := mid n) sf.x sg.x ?_ ?_ ?_ ?_ ?_ ?_ ?_ ?_ h <;> (try unfold mid) <;> linarith

theorem Planar.of_mid_strict {f g : Seg C} (hf : f ∈ segs) (hg : g ∈ segs) {n : Int}
    (sf : f.spans n) (sg : g.spans n) {x : ℚ} (h1 : (n:ℚ) ≤ x) (h2 : x ≤ n + 1)
    (hx1 : (g.a.x:ℚ) < x) (hx2 : x < g.b.x)
    (h : ht f (mid n) < ht g (mid n)) : ht f x < ht g x := by
  have hne : f ≠ g := by rintro rfl; exact lt_irrefl _ h
  have := sf.bounds
  exact lt_of_le_of_ne (hp.of_mid hf hg sf sg h1 h2 h)
    (Ne.symm (hp.ht_ne hg hf (Ne.symm hne) hx1 hx2 (by linarith) (by linarith) sf.x))

end columns

/-- Sum of the counts of the edges strictly below `g` over the column `n`. -/
noncomputable def lowSum (φ : C → Int) (segs : List (Seg C)) (g : Seg C) (n : Int) : Int :=
  wsum φ (fun f => ind (f.spans n ∧ ht f (mid n) < ht g (mid n))) segs

section const
variable {segs : List (Seg C)} (hp : Planar segs) {φ : C → Int} (hc : Closed φ segs)
include hp

/-- Potential comparison when crossing the abscissa `k` below a point `(k, H)` not on any edge
except possibly in the inside of `e`: abstract per-edge identity. -/
theorem Planar.cross_ind {f : Seg C} (hf : f ∈ segs) (k : Int) (H : ℚ)
    (hno : ¬ onSeg ⟨k, H⟩ f.a f.b) (L R : Prop)
    (hL : f.spans (k - 1) → (L ↔ ht f k < H)) (hR : f.spans k → (R ↔ ht f k < H)) :
    ind (f.spans (k - 1) ∧ L) = ind (f.spans k ∧ R) +
      (ind (f.b.x = k ∧ (f.b.y:ℚ) < H) - ind (f.a.x = k ∧ (f.a.y:ℚ) < H)) := by
  have hlt := hp.lt f hf
  rw [Pt.lt_def] at hlt
  by_cases hv : f.a.x = f.b.x
  · -- vertical
    have s1 : ¬ f.spans (k - 1) := by rintro ⟨h1, h2⟩; omega
    have s2 : ¬ f.spans k := by rintro ⟨h1, h2⟩; omega
    rw [ind_false (fun h => s1 h.1), ind_false (fun h => s2 h.1)]
    have hy : f.a.y < f.b.y := by omega
    have hyq : (f.a.y:ℚ) < f.b.y := by exact_mod_cast hy
    by_cases hk : f.a.x = k
    · by_cases hb : (f.b.y:ℚ) < H
      · rw [ind_true ⟨by omega, hb⟩, ind_true ⟨hk, by linarith⟩]; rfl
      · rw [ind_false (fun h => hb h.2), ind_false]
        · rfl
        · rintro ⟨_, h⟩
          apply hno
          rw [← hk]
          exact onSeg_vert hv hy h.le (by linarith)
    · rw [ind_false (fun h => hk (by omega)), ind_false (fun h => hk h.1)]; rfl
  · have hx : f.a.x < f.b.x := by omega
    have hb := ht_b hx
    have ha := ht_a f
    by_cases c1 : f.a.x < k <;> by_cases c2 : k < f.b.x
    · -- passes through
      have s1 : f.spans (k - 1) := ⟨by omega, by omega⟩
      have s2 : f.spans k := ⟨by omega, by omega⟩
      rw [ind_false (P := f.b.x = k ∧ _) (fun h => by omega),
        ind_false (P := f.a.x = k ∧ _) (fun h => by omega)]
      rw [ind_congr (Q := f.spans k ∧ R)]
      · ring
      · rw [hL s1, hR s2]; simp [s1, s2]
    · have s2 : ¬ f.spans k := by rintro ⟨h1, h2⟩; omega
      rw [ind_false (P := f.spans k ∧ R) (fun h => s2 h.1),
        ind_false (P := f.a.x = k ∧ _) (fun h => by omega)]
      by_cases c3 : f.b.x = k
      · have s1 : f.spans (k - 1) := ⟨by omega, by omega⟩
        rw [ind_congr (Q := f.b.x = k ∧ (f.b.y:ℚ) < H)]
        · ring
        · rw [hL s1, ← hb, c3]; simp [s1]
      · have s1 : ¬ f.spans (k - 1) := by rintro ⟨h1, h2⟩; omega
        rw [ind_false (fun h => s1 h.1), ind_false (fun h => c3 h.1)]; rfl
    · have s1 : ¬ f.spans (k - 1) := by rintro ⟨h1, h2⟩; omega
      rw [ind_false (P := f.spans (k - 1) ∧ L) (fun h => s1 h.1),
        ind_false (P := f.b.x = k ∧ _) (fun h => by omega)]
      by_cases c3 : f.a.x = k
      · have s2 : f.spans k := ⟨by omega, by omega⟩
        rw [ind_congr (P := f.spans k ∧ R) (Q := f.a.x = k ∧ (f.a.y:ℚ) < H)]
        · ring
        · rw [hR s2, ← ha, c3]; simp [s2]
      · have s2 : ¬ f.spans k := by rintro ⟨h1, h2⟩; omega
        rw [ind_false (fun h => s2 h.1), ind_false (fun h => c3 h.1)]; rfl
    · omega

include hc

/-- The counts below an edge do not depend on the column. -/
theorem Planar.lowSum_step {e : Seg C} (he : e ∈ segs) (n : Int) (s1 : e.spans (n - 1)) (s2 : e.spans n) :
    lowSum φ segs e (n - 1) = lowSum φ segs e n := by
  unfold lowSum
  have hb1 := s1.bounds
  have hb2 := s2.bounds
  have k1 : (e.a.x:ℚ) < n := by push_cast at hb1; linarith
  have k2 : (n:ℚ) < e.b.x := by linarith
  refine wsum_potential hc (fun v => ind (v.x = n ∧ (v.y:ℚ) < ht e n)) fun f hf => ?_
  by_cases hfe : f = e
  · subst hfe
    rw [ind_false (fun h => lt_irrefl _ h.2), ind_false (fun h => lt_irrefl _ h.2),
      ind_false (P := _ = n ∧ _), ind_false (P := _ = n ∧ _)]
    · rfl
    · have := s1.1; rintro ⟨h, _⟩; omega
    · have := s2.2; rintro ⟨h, _⟩; omega
  · refine hp.cross_ind hf n (ht e n) ?_ _ _ ?_ ?_
    · intro h
      exact hp.ne_inner he hf (Ne.symm hfe) (q := ⟨n, ht e n⟩) k1 k2 (onSeg_ht s1.x k1.le k2.le) h
    · intro sf
      constructor
      · intro h
        refine hp.of_mid_strict hf he sf s1 ?_ ?_ k1 k2 h <;> push_cast <;> linarith
      · intro h
        refine hp.mid_of hf he sf s1 ?_ ?_ h <;> push_cast <;> linarith
    · intro sf
      constructor
      · intro h
        refine hp.of_mid_strict hf he sf s2 ?_ ?_ k1 k2 h <;> linarith
      · intro h
        refine hp.mid_of hf he sf s2 ?_ ?_ h <;> linarith

theorem Planar.lowSum_const {e : Seg C} (he : e ∈ segs) (n : Int) (s : e.spans n) :
    lowSum φ segs e n = lowSum φ segs e e.a.x := by
  obtain ⟨k, hk⟩ : ∃ k : Nat, n = e.a.x + k := ⟨(n - e.a.x).toNat, by have := s.1; omega⟩
  induction k generalizing n with
  | zero => rw [hk]; simp
  | succ k ih =>
    have s1 : e.spans (n - 1) := ⟨by omega, by have := s.2; omega⟩
    rw [← hp.lowSum_step hc he n s1 s]
    exact ih (n - 1) s1 (by push_cast at hk; omega)

end const

end IOverlay
