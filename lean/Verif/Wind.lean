/- Lemmas about the winding specification. -/
import Verif.Spec
import Verif.Segm

namespace IOverlay

theorem edgeWind_self (u : Pt) (q : QPt) : edgeWind u u q = 0 := by
  unfold edgeWind
  rw [if_neg, if_neg] <;> rintro ⟨h1, h2, _⟩ <;> linarith

theorem edgeWind_swap (u v : Pt) (q : QPt) : edgeWind v u q = - edgeWind u v q := by
  unfold edgeWind
  by_cases h1 : (u.x : ℚ) ≤ q.x ∧ q.x < v.x ∧ aboveLine u v q
  · have h2 : ¬ ((v.x : ℚ) ≤ q.x ∧ q.x < u.x ∧ aboveLine v u q) := by
      rintro ⟨h, h', _⟩; linarith [h1.1, h1.2.1]
    rw [if_neg h2, if_pos h1, if_pos h1]
  · by_cases h2 : (v.x : ℚ) ≤ q.x ∧ q.x < u.x ∧ aboveLine v u q
    · rw [if_pos h2, if_neg h1, if_pos h2]; rfl
    · rw [if_neg h2, if_neg h1, if_neg h1, if_neg h2]; rfl

theorem area2_rot (u v w : Pt) : area2 v w u = area2 u v w := by unfold area2; ring
theorem area2_swap (u v w : Pt) : area2 w v u = - area2 u v w := by unfold area2; ring

/-- On a common line "above" does not depend on the pair of points that span it. -/
theorem aboveLine_congr {u v u' v' : Pt} (q : QPt) (h : u.x < v.x) (h' : u'.x < v'.x)
    (hu : area2 u v u' = 0) (hv : area2 u v v' = 0) :
    aboveLine u v q ↔ aboveLine u' v' q := by
  unfold aboveLine
  have hu' : ((v.x:ℚ) - u.x) * (v.y - u'.y) - (v.y - u.y) * (v.x - u'.x) = 0 := by
    exact_mod_cast hu
  have hv' : ((v.x:ℚ) - u.x) * (v.y - v'.y) - (v.y - u.y) * (v.x - v'.x) = 0 := by
    exact_mod_cast hv
  have d : (0:ℚ) < v.x - u.x := by have : (u.x:ℚ) < v.x := by exact_mod_cast h
                                   linarith
  have d' : (0:ℚ) < v'.x - u'.x := by have : (u'.x:ℚ) < v'.x := by exact_mod_cast h'
                                      linarith
  -- expression E(q) = dx*(qy-uy) - dy*(qx-ux); E' = dx'*(qy-u'y) - dy'*(qx-u'x); dx*E' = dx'*E
  have key : ((v.x:ℚ) - u.x) * (((v'.x:ℚ) - u'.x) * (q.y - u'.y) - ((v'.y:ℚ) - u'.y) * (q.x - u'.x))
      = ((v'.x:ℚ) - u'.x) * (((v.x:ℚ) - u.x) * (q.y - u.y) - ((v.y:ℚ) - u.y) * (q.x - u.x)) := by
    linear_combination ((v'.x:ℚ) - u'.x - q.x + u'.x) * hu' + (q.x - u'.x) * hv'
  constructor
  · intro hh
    have : 0 < ((v'.x:ℚ) - u'.x) * (((v.x:ℚ) - u.x) * (q.y - u.y) - ((v.y:ℚ) - u.y) * (q.x - u.x)) :=
      mul_pos d' (by linarith)
    rw [← key] at this
    have := (mul_pos_iff_of_pos_left d).1 this
    linarith
  · intro hh
    have : 0 < ((v.x:ℚ) - u.x) * (((v'.x:ℚ) - u'.x) * (q.y - u'.y) - ((v'.y:ℚ) - u'.y) * (q.x - u'.x)) :=
      mul_pos d (by linarith)
    rw [key] at this
    have := (mul_pos_iff_of_pos_left d').1 this
    linarith

open Classical in
theorem edgeWind_eq_of_line {u v : Pt} {q : QPt} {A : Prop}
    (h1 : u.x < v.x → (aboveLine u v q ↔ A)) (h2 : v.x < u.x → (aboveLine v u q ↔ A)) :
    edgeWind u v q = if A then
      (if (u.x : ℚ) ≤ q.x then 1 else 0) - (if (v.x : ℚ) ≤ q.x then 1 else 0) else 0 := by
  unfold edgeWind
  by_cases hA : A
  · rw [if_pos hA]
    by_cases hu : (u.x : ℚ) ≤ q.x <;> by_cases hv : (v.x : ℚ) ≤ q.x
    · rw [if_neg, if_neg] <;> simp [hu, hv]
    · have : u.x < v.x := by
        have : (u.x : ℚ) < v.x := by linarith
        exact_mod_cast this
      rw [if_pos ⟨hu, by linarith, (h1 this).2 hA⟩]; simp [hu, hv]
    · have : v.x < u.x := by
        have : (v.x : ℚ) < u.x := by linarith
        exact_mod_cast this
      rw [if_neg (by rintro ⟨h, _⟩; exact hu h), if_pos ⟨hv, by linarith, (h2 this).2 hA⟩]
      simp [hu, hv]
    · rw [if_neg (by rintro ⟨h, _⟩; exact hu h), if_neg (by rintro ⟨h, _⟩; exact hv h)]
      simp [hu, hv]
  · rw [if_neg hA, if_neg, if_neg]
    · rintro ⟨h, h', h''⟩
      have : v.x < u.x := by
        have : (v.x : ℚ) < u.x := by linarith
        exact_mod_cast this
      exact hA ((h2 this).1 h'')
    · rintro ⟨h, h', h''⟩
      have : u.x < v.x := by
        have : (u.x : ℚ) < v.x := by linarith
        exact_mod_cast this
      exact hA ((h1 this).1 h'')

theorem area2_self_left (u v : Pt) : area2 u v u = 0 := by unfold area2; ring
theorem area2_self_right (u v : Pt) : area2 u v v = 0 := by unfold area2; ring
theorem area2_self_mid (u v : Pt) : area2 u u v = 0 := by unfold area2; ring

/-- Three points on the line through two points with different `x` are collinear. -/
theorem exists_line_prop {u v w : Pt} (h : area2 u v w = 0) (q : QPt) : ∃ A : Prop,
    ∀ s ∈ [u, v, w], ∀ t ∈ [u, v, w], s.x < t.x → (aboveLine s t q ↔ A) := by
  by_cases hx : ∃ s ∈ [u, v, w], ∃ t ∈ [u, v, w], s.x < t.x
  · obtain ⟨s, hs, t, ht, hst⟩ := hx
    refine ⟨aboveLine s t q, ?_⟩
    intro s' hs' t' ht' hst'
    have hall : ∀ a ∈ [u, v, w], ∀ b ∈ [u, v, w], ∀ c ∈ [u, v, w], area2 a b c = 0 := by
      have e1 := area2_rot u v w
      have e2 := area2_rot v w u
      have e3 := area2_swap u v w
      have e4 := area2_rot w v u
      have e5 := area2_rot v u w
      intro a ha b hb c hc
      simp only [List.mem_cons, List.not_mem_nil, or_false] at ha hb hc
      rcases ha with rfl | rfl | rfl <;> rcases hb with rfl | rfl | rfl <;>
        rcases hc with rfl | rfl | rfl <;>
        first
          | exact area2_self_left _ _
          | exact area2_self_right _ _
          | exact area2_self_mid _ _
          | omega
    exact (aboveLine_congr q hst hst' (hall _ hs _ ht _ hs') (hall _ hs _ ht _ ht')).symm
  · refine ⟨True, ?_⟩
    intro s hs t ht hst
    exact absurd ⟨s, hs, t, ht, hst⟩ hx

/-- Additivity of the crossing number along a line: a detour over a collinear point (spikes
included) changes nothing, for every point of the plane. -/
theorem edgeWind_add {u v w : Pt} (h : area2 u v w = 0) (q : QPt) :
    edgeWind u v q + edgeWind v w q = edgeWind u w q := by
  obtain ⟨A, hA⟩ := exists_line_prop h q
  rw [edgeWind_eq_of_line (A := A) (hA u (by simp) v (by simp)) (hA v (by simp) u (by simp)),
    edgeWind_eq_of_line (A := A) (hA v (by simp) w (by simp)) (hA w (by simp) v (by simp)),
    edgeWind_eq_of_line (A := A) (hA u (by simp) w (by simp)) (hA w (by simp) u (by simp))]
  by_cases hh : A
  · simp [hh]
  · simp [hh]

/-- Winding number of `q` computed from stored segments, `φ` selecting the count component. -/
noncomputable def segsWind {C : Type} (φ : C → Int) (l : List (Seg C)) (q : QPt) : Int :=
  (l.map fun s => φ s.c * edgeWind s.a s.b q).sum

@[simp] theorem segsWind_nil {C : Type} (φ : C → Int) (q : QPt) : segsWind φ [] q = 0 := rfl
@[simp] theorem segsWind_cons {C : Type} (φ : C → Int) (s : Seg C) (l) (q : QPt) :
    segsWind φ (s :: l) q = φ s.c * edgeWind s.a s.b q + segsWind φ l q := by
  simp [segsWind]
@[simp] theorem segsWind_append {C : Type} (φ : C → Int) (l l' : List (Seg C)) (q : QPt) :
    segsWind φ (l ++ l') q = segsWind φ l q + segsWind φ l' q := by
  simp [segsWind]

end IOverlay
