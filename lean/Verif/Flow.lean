/-
Flows derived from the winding numbers: for any function `f` of the winding numbers, the differences of `f`
across the edges form a closed flow whose winding number at a point is the value of `f` there.
Used for slicing (C30) and for the orientation of contours (C41).
-/
import Verif.Even
import Verif.Props.Split

namespace IOverlay
variable {C K : Type}

theorem teleSum {α M : Type} [AddCommGroup M] (f : M → Int) (c : α → M) (key : α → ℚ) (base : M) (l : List α)
    (hk : l.Pairwise fun x y => key x ≠ key y) (k : α → Int)
    (hkept : ∀ s ∈ l, k s = f (base + ((l.filter fun f => decide (key f < key s)).map c).sum + c s) -
      f (base + ((l.filter fun f => decide (key f < key s)).map c).sum)) :
    (l.map k).sum = f (base + (l.map c).sum) - f base := by
  obtain ⟨n, hn⟩ : ∃ n, n = l.length := ⟨_, rfl⟩
  induction n generalizing l with
  | zero =>
    have : l = [] := List.eq_nil_of_length_eq_zero hn.symm
    subst this; simp
  | succ n ih =>
    have hne : l ≠ [] := by rintro rfl; simp at hn
    obtain ⟨m, hm, hmax⟩ := exists_max l hne key
    obtain ⟨l1, l2, rfl⟩ := List.append_of_mem hm
    have hperm : (l1 ++ m :: l2).Perm (m :: (l1 ++ l2)) := List.perm_middle
    rw [(hperm.map k).sum_eq, List.map_cons, List.sum_cons]
    have hk' : (m :: (l1 ++ l2)).Pairwise fun x y => key x ≠ key y :=
      hperm.pairwise hk (fun h => Ne.symm h)
    obtain ⟨hk1, hk2⟩ := List.pairwise_cons.1 hk'
    have hlt : ∀ f ∈ l1 ++ l2, key f < key m := by
      intro f hf
      exact lt_of_le_of_ne (hmax f (hperm.mem_iff.2 (List.mem_cons_of_mem _ hf))) (Ne.symm (hk1 f hf))
    have hfil : ∀ s, (((l1 ++ m :: l2).filter fun f => decide (key f < key s)).map c).sum =
        (((m :: (l1 ++ l2)).filter fun f => decide (key f < key s)).map c).sum := fun s =>
      ((hperm.filter _).map c).sum_eq
    have hrest := ih (l1 ++ l2) hk2 (by
      intro s hs
      have hkk := hkept s (hperm.mem_iff.2 (List.mem_cons_of_mem _ hs))
      rw [hfil s] at hkk
      have : ¬ key m < key s := not_lt.2 (hlt s hs).le
      rw [List.filter_cons, if_neg (by simpa using this)] at hkk
      exact hkk) (by
        have := hperm.length_eq
        rw [List.length_cons] at this
        omega)
    have hkm := hkept m hm
    rw [hfil m, List.filter_cons, if_neg (by simp)] at hkm
    have hall : (l1 ++ l2).filter (fun f => decide (key f < key m)) = l1 ++ l2 := by
      rw [List.filter_eq_self]; intro f hf; simpa using hlt f hf
    rw [hall] at hkm
    have hsum : ((l1 ++ m :: l2).map c).sum = ((l1 ++ l2).map c).sum + c m := by
      rw [(hperm.map c).sum_eq, List.map_cons, List.sum_cons, add_comm]
    rw [hkm, hrest, hsum, add_assoc]
    ring

section
variable (Φ : K → C → Int) (f : (K → Int) → Int)

/-- All counts of an edge. -/
def cvec (s : Seg C) : K → Int := fun k => Φ k s.c

/-- All counts below an edge. -/
noncomputable def bvec (segs : List (Seg C)) (s : Seg C) : K → Int := fun k => botW (Φ k) segs s

/-- Change of `f` across an edge, from its right-hand to its left-hand side. -/
noncomputable def jump (segs : List (Seg C)) (s : Seg C) : Int :=
  f (bvec Φ segs s + cvec Φ s) - f (bvec Φ segs s)

/-- Sum of the counts of the edges satisfying `P`. -/
noncomputable def vsum (P : Seg C → Prop) (l : List (Seg C)) : K → Int :=
  fun k => wsum (Φ k) (fun f => ind (P f)) l

open Classical in
theorem vsum_eq (P : Seg C → Prop) (l : List (Seg C)) :
    vsum Φ P l = ((l.filter fun f => decide (P f)).map (cvec Φ)).sum := by
  funext k
  unfold vsum
  rw [wsum_ind]
  have : ∀ l : List (Seg C), (l.map (cvec Φ)).sum k = (l.map fun f => Φ k f.c).sum := by
    intro l
    induction l with
    | nil => rfl
    | cons s l ih => simp only [List.map_cons, List.sum_cons, Pi.add_apply, ih]; rfl
  rw [this]

theorem vsum_congr {P Q : Seg C → Prop} {l : List (Seg C)} (h : ∀ f ∈ l, P f ↔ Q f) :
    vsum Φ P l = vsum Φ Q l := by
  funext k
  exact wsum_congr (Φ k) fun f hf => ind_congr (h f hf)

theorem vsum_or {P Q : Seg C → Prop} {l : List (Seg C)} (h : ∀ f ∈ l, P f → ¬ Q f) :
    vsum Φ (fun f => P f ∨ Q f) l = vsum Φ P l + vsum Φ Q l := by
  have e : ∀ f ∈ l, ind (P f ∨ Q f) = ind (P f) + ind (Q f) := by
    intro f hf
    by_cases hP : P f
    · rw [ind_true (Or.inl hP), ind_true hP, ind_false (h f hf hP)]; rfl
    · by_cases hQ : Q f
      · rw [ind_true (Or.inr hQ), ind_false hP, ind_true hQ]; rfl
      · rw [ind_false (by simp [hP, hQ]), ind_false hP, ind_false hQ]; rfl
  funext k
  show wsum _ _ _ = wsum _ _ _ + wsum _ _ _
  rw [wsum_congr _ e, wsum_add]

section planar
variable {segs : List (Seg C)} (hp : Planar segs) (hc : ∀ k, Closed (Φ k) segs)
include hp hc

theorem bvec_low {s : Seg C} (h : s ∈ segs) {n : Int} (ss : s.spans n) :
    bvec Φ segs s = vsum Φ (fun f => f.spans n ∧ ht f (mid n) < ht s (mid n)) segs := by
  funext k
  unfold bvec
  rw [hp.botW_eq_lowSum _ h ss.x, ← hp.lowSum_const (hc k) h n ss]; rfl

open Classical in
theorem column_sum (n : Int) (P : Seg C → Prop) (B : Seg C → Prop)
    (hP : ∀ f ∈ segs, P f → f.spans n)
    (hB : ∀ s ∈ segs, P s → ∀ f ∈ segs,
      ((f.spans n ∧ ht f (mid n) < ht s (mid n)) ↔ (B f ∨ (P f ∧ ht f (mid n) < ht s (mid n)))))
    (hdis : ∀ f ∈ segs, B f → ¬ P f) :
    ((segs.filter fun f => decide (P f)).map (jump Φ f segs)).sum =
      f (vsum Φ B segs + vsum Φ P segs) - f (vsum Φ B segs) := by
  rw [vsum_eq Φ P]
  refine teleSum f (cvec Φ) (fun f => ht f (mid n)) (vsum Φ B segs) _ ?_ _ ?_
  · refine List.Pairwise.imp_of_mem ?_ (hp.nodup.filter _)
    intro a b ha hb hab
    rw [List.mem_filter, decide_eq_true_eq] at ha hb
    exact hp.mid_ne ha.1 hb.1 hab (hP a ha.1 ha.2) (hP b hb.1 hb.2)
  · intro s hm
    rw [List.mem_filter, decide_eq_true_eq] at hm
    have e : bvec Φ segs s = vsum Φ B segs + (((segs.filter fun f => decide (P f)).filter fun f =>
        decide (ht f (mid n) < ht s (mid n))).map (cvec Φ)).sum := by
      rw [bvec_low Φ hp hc hm.1 (hP s hm.1 hm.2), vsum_congr Φ (hB s hm.1 hm.2),
        vsum_or Φ (fun f hf hb h => hdis f hf hb h.1)]
      congr 1
      rw [vsum_eq, List.filter_filter]
      congr 2
      refine List.filter_congr fun f _ => ?_
      rw [Bool.decide_and, Bool.and_comm]
    unfold jump
    rw [e]

end planar

/-- The edges with the change of `f` as count. -/
noncomputable def jumps (segs : List (Seg C)) : List (Seg Int) :=
  segs.map fun s => ⟨s.a, s.b, jump Φ f segs s⟩


open Classical in
theorem sum_ite (k : Seg C → Int) (P : Seg C → Prop) (l : List (Seg C)) :
    ((l.filter fun f => decide (P f)).map k).sum = (l.map fun f => k f * ind (P f)).sum := by
  induction l with
  | nil => rfl
  | cons s l ih =>
    rw [List.filter_cons, List.map_cons, List.sum_cons, ← ih]
    by_cases h : P s
    · rw [ind_true h, if_pos (by simpa using h)]; simp
    · rw [ind_false h, if_neg (by simpa using h)]; simp

theorem sum_split (k : Seg C → Int) (P Q R : Seg C → Prop) (l : List (Seg C))
    (h : ∀ f ∈ l, ind (P f) = ind (Q f) + ind (R f)) :
    (l.map fun f => k f * ind (P f)).sum =
      (l.map fun f => k f * ind (Q f)).sum + (l.map fun f => k f * ind (R f)).sum := by
  induction l with
  | nil => rfl
  | cons s l ih =>
    simp only [List.map_cons, List.sum_cons]
    rw [ih fun f hf => h f (List.mem_cons_of_mem _ hf), h s (by simp)]; ring

open Classical in
theorem sum_single {segs : List (Seg C)} (hd : segs.Nodup) (P : Seg C → Prop) (B : K → Int)
    (hu : ∀ f ∈ segs, ∀ s ∈ segs, P f → P s → f = s) (hB : ∀ s ∈ segs, P s → bvec Φ segs s = B) :
    ((segs.filter fun f => decide (P f)).map (jump Φ f segs)).sum = f (B + vsum Φ P segs) - f B := by
  have hm : ∀ f, f ∈ segs.filter (fun f => decide (P f)) ↔ f ∈ segs ∧ P f := by
    intro f; rw [List.mem_filter, decide_eq_true_eq]
  have hd' := hd.filter fun f => decide (P f)
  rw [vsum_eq]
  rcases hl : segs.filter (fun f => decide (P f)) with _ | ⟨s, l⟩
  · simp
  · rw [hl] at hm hd'
    have h0 : l = [] := by
      rcases l with _ | ⟨t, l⟩
      · rfl
      · have h1 := (hm s).1 (by simp)
        have h2 := (hm t).1 (by simp)
        have := hu s h1.1 t h2.1 h1.2 h2.2
        subst this
        simp at hd'
    subst h0
    have h1 := (hm s).1 (by simp)
    have := hB s h1.1 h1.2
    simp [jump, this]

section planar
variable {segs : List (Seg C)} (hp : Planar segs) (hc : ∀ k, Closed (Φ k) segs)
include hp hc

/-- The winding number of the jumps at a point is the value of `f` there, relative to far away. -/
theorem jumps_wind (q : QPt) :
    segsWind id (jumps Φ f segs) q = f (fun k => segsWind (Φ k) segs q) - f 0 := by
  classical
  have f1 : (⌊q.x⌋:ℚ) ≤ q.x := Int.floor_le _
  have f2 : q.x ≤ ⌊q.x⌋ + 1 := (Int.lt_floor_add_one _).le
  have hsp : ∀ f : Seg C, ((f.a.x:ℚ) ≤ q.x ∧ q.x < f.b.x ∧ ht f q.x < q.y) ↔
      (f.spans ⌊q.x⌋ ∧ ht f q.x < q.y) := by
    intro f; rw [← and_assoc, spans_floor]
  have h := column_sum Φ f hp hc ⌊q.x⌋
    (fun f => (f.a.x:ℚ) ≤ q.x ∧ q.x < f.b.x ∧ ht f q.x < q.y) (fun _ => False)
    (fun f _ hf => ((hsp f).1 hf).1)
    (by
      intro s hm hP f hf
      obtain ⟨ss, hl⟩ := (hsp s).1 hP
      constructor
      · rintro ⟨sf, hlt⟩
        refine Or.inr ⟨(hsp f).2 ⟨sf, ?_⟩, hlt⟩
        exact lt_of_le_of_lt (hp.of_mid hf hm sf ss f1 f2 hlt) hl
      · rintro (h | ⟨h1, h2⟩)
        · exact h.elim
        · exact ⟨((hsp f).1 h1).1, h2⟩)
    (fun _ _ h => h.elim)
  have e0 : vsum Φ (fun _ => False) segs = 0 := by
    rw [vsum_eq]; simp
  have e1 : vsum Φ (fun f => (f.a.x:ℚ) ≤ q.x ∧ q.x < f.b.x ∧ ht f q.x < q.y) segs =
      fun k => segsWind (Φ k) segs q := by
    funext k
    rw [segsWind_eq_wsum _ hp.lt]; rfl
  rw [e0, e1, zero_add, sum_ite] at h
  rw [← h]
  unfold segsWind jumps
  rw [List.map_map]
  congr 1
  refine List.map_congr_left fun s hs => ?_
  exact congrArg _ (edgeWind_eq_ind (hp.lt s hs) q)

/-- The jumps form a closed flow. -/
theorem jumps_closed : Closed id (jumps Φ f segs) := by
  classical
  rw [closed_iff_balanced]
  intro p
  -- in terms of the edges
  have hout : leftAt id (jumps Φ f segs) p = (segs.map fun s => jump Φ f segs s * ind (s.a = p)).sum := by
    unfold leftAt jumps
    rw [List.filter_map, List.map_map, ← sum_ite]
    congr 1
    congr 1
    refine List.filter_congr fun s _ => ?_
    simp
  have hin : rightAt id (jumps Φ f segs) p = (segs.map fun s => jump Φ f segs s * ind (s.b = p)).sum := by
    unfold rightAt jumps
    rw [List.filter_map, List.map_map, ← sum_ite]
    congr 1
    congr 1
    refine List.filter_congr fun s _ => ?_
    simp
  rw [hout, hin]
  by_cases hvx : ∃ g ∈ segs, p = g.a ∨ p = g.b
  swap
  · have z : ∀ (P : Seg C → Prop), (∀ s ∈ segs, ¬ P s) → (segs.map fun s => jump Φ f segs s * ind (P s)).sum = 0 := by
      intro P hP
      apply List.sum_eq_zero
      intro x hx
      obtain ⟨s, hs, rfl⟩ := List.mem_map.1 hx
      rw [ind_false (hP s hs), mul_zero]
    rw [z _ fun s hs h => hvx ⟨s, hs, Or.inl h.symm⟩, z _ fun s hs h => hvx ⟨s, hs, Or.inr h.symm⟩]
  obtain ⟨g, hg, hv⟩ := hvx
  -- right fan
  have tR := column_sum Φ f hp hc p.x (RF p) (BR p)
    (by rintro f _ ⟨rfl, h⟩; exact ⟨le_refl _, h⟩)
    (by
      rintro s hm ⟨rfl, hx⟩ f hf
      constructor
      · rintro ⟨sf, h⟩
        rcases (hp.low_iff hf hm hx sf).1 h with h1 | ⟨h1, h2⟩
        · exact Or.inl ⟨sf, h1⟩
        · exact Or.inr ⟨⟨h1, sf.x⟩, h⟩
      · rintro (⟨sf, h⟩ | ⟨⟨h1, h2⟩, h⟩)
        · exact ⟨sf, (hp.low_iff hf hm hx sf).2 (Or.inl h)⟩
        · exact ⟨⟨by rw [h1], by rw [← h1]; exact h2⟩, h⟩)
    (by
      rintro f _ ⟨_, h⟩ ⟨rfl, _⟩
      rw [ht_a] at h; exact lt_irrefl _ h)
  -- left fan
  have tL := column_sum Φ f hp hc (p.x - 1) (LF p) (BL p)
    (by rintro f _ ⟨rfl, h⟩; exact ⟨by omega, by omega⟩)
    (by
      rintro s hm ⟨rfl, hx⟩ f hf
      have ss : s.spans (s.b.x - 1) := ⟨by omega, by omega⟩
      constructor
      · rintro ⟨sf, h⟩
        have h1 := hp.of_mid hf hm sf ss (x := s.b.x) (by push_cast; linarith) (by push_cast; linarith) h
        rw [ht_b hx] at h1
        rcases lt_or_eq_of_le h1 with h2 | h2
        · exact Or.inl ⟨sf, h2⟩
        · right
          refine ⟨⟨?_, sf.x⟩, h⟩
          obtain ⟨sf1, sf2⟩ := sf
          by_cases hlt : s.b.x < f.b.x
          · exact absurd h2 (hp.vertex_ne hf hm (Or.inr rfl) (by omega) hlt)
          · have e : f.b.x = s.b.x := by omega
            rw [← e, ht_b (by omega)] at h2
            exact Pt.ext_iff'.2 ⟨e, by exact_mod_cast h2⟩
      · rintro (⟨sf, h⟩ | ⟨⟨h1, h2⟩, h⟩)
        · refine ⟨sf, ?_⟩
          rw [← ht_b hx] at h
          exact hp.mid_of hf hm sf ss (x := s.b.x) (by push_cast; linarith) (by push_cast; linarith) h
        · exact ⟨⟨by rw [← h1]; omega, by rw [← h1]; omega⟩, h⟩)
    (by
      rintro f _ ⟨_, h⟩ ⟨rfl, hx⟩
      rw [ht_b hx] at h; exact lt_irrefl _ h)
  -- vertical up
  have tU := sum_single Φ f hp.nodup (UV p) (vsum Φ (BR p) segs + vsum Φ (RF p) segs)
    (by
      rintro f hf s hm ⟨rfl, h2⟩ ⟨h3, h4⟩
      by_contra hne
      apply hp.fan_ne hf hm hne h3.symm
      have e1 : f.b.x = s.b.x := by rw [← h2, ← h4, h3]
      have e2 : s.a.x = s.b.x := h4
      unfold area2; rw [e1, e2]; ring)
    (by
      rintro s hm ⟨rfl, h2⟩
      rw [← vsum_or Φ (P := BR s.a) (Q := RF s.a) (by
        rintro f _ ⟨_, h⟩ ⟨h1, _⟩
        rw [← h1, ht_a] at h; exact lt_irrefl _ h)]
      have key : ∀ f ∈ segs, ((f.spans s.a.x ∧ (ht f s.a.x < s.a.y ∨ (f.a = s.a ∧ 0 < area2 s.a s.b f.b)))
          ↔ (BR s.a f ∨ RF s.a f)) := by
        intro f hf
        constructor
        · rintro ⟨sf, h | ⟨h, _⟩⟩
          · exact Or.inl ⟨sf, h⟩
          · exact Or.inr ⟨h, sf.x⟩
        · rintro (⟨sf, h⟩ | ⟨h1, h3⟩)
          · exact ⟨sf, Or.inl h⟩
          · refine ⟨⟨by rw [h1], by rw [← h1]; exact h3⟩, Or.inr ⟨h1, ?_⟩⟩
            have hl := hp.lt s hm
            rw [Pt.lt_def] at hl
            have e1 : area2 s.a s.b f.b = (s.b.y - s.a.y) * (f.b.x - s.a.x) := by
              unfold area2; rw [← h2]; ring
            rw [e1]
            rw [h1] at h3
            exact mul_pos (by omega) (by omega)
      funext k
      exact wsum_congr (Φ k) fun f hf => ind_congr (key f hf))
  -- vertical down
  have tD := sum_single Φ f hp.nodup (DV p) (vsum Φ (BR p) segs)
    (by
      rintro f hf s hm ⟨h1, h2⟩ ⟨h3, h4⟩
      exact hp.down_unique hf hm (h1.trans h3.symm) h2 h4)
    (by
      rintro s hm ⟨rfl, h2⟩
      have hl := hp.lt s hm
      rw [Pt.lt_def] at hl
      have hy : s.a.y < s.b.y := by omega
      have hyq : (s.a.y:ℚ) < s.b.y := by exact_mod_cast hy
      have key : ∀ f ∈ segs, ((f.spans s.a.x ∧ (ht f s.a.x < s.a.y ∨ (f.a = s.a ∧ 0 < area2 s.a s.b f.b)))
          ↔ BR s.b f) := by
        intro f hf
        unfold BR
        rw [← h2]
        constructor
        · rintro ⟨sf, h | ⟨h, _⟩⟩
          · exact ⟨sf, by linarith⟩
          · exact ⟨sf, by rw [← h, ht_a, h]; exact hyq⟩
        · rintro ⟨sf, h⟩
          refine ⟨sf, ?_⟩
          by_cases hlow : ht f s.a.x < s.a.y
          · exact Or.inl hlow
          · right
            push Not at hlow
            have hne : f ≠ s := by rintro rfl; have := sf.x; omega
            have b := sf.bounds
            have o1 := onSeg_ht sf.x (x := s.a.x) b.1 (by linarith [b.2])
            have o2 := onSeg_vert h2 hy hlow h.le
            have hm' := hp.meet hf hm hne _ o1 o2
            have ea : (⟨s.a.x, ht f s.a.x⟩ : QPt) = s.a.q := by
              rcases hm'.2 with h' | h'
              · exact h'
              · simp only [Pt.q, QPt.mk.injEq] at h'; linarith [h'.2]
            have fa : f.a = s.a := by
              rcases hm'.1 with h' | h'
              · exact Pt.q_inj (h'.symm.trans ea)
              · simp only [Pt.q, QPt.mk.injEq] at h'; linarith [h'.1, b.2]
            refine ⟨fa, ?_⟩
            have e1 : area2 s.a s.b f.b = (s.b.y - s.a.y) * (f.b.x - s.a.x) := by
              unfold area2; rw [← h2]; ring
            rw [e1]
            have := sf.2
            exact mul_pos (by omega) (by omega)
      funext k
      exact wsum_congr (Φ k) fun f hf => ind_congr (key f hf))
  -- relations
  have rel1 : vsum Φ (BL p) segs = vsum Φ (BR p) segs + vsum Φ (DV p) segs := by
    funext k
    exact around_left hp hg hv (hc k)
  have rel2 : vsum Φ (DV p) segs + vsum Φ (LF p) segs = vsum Φ (RF p) segs + vsum Φ (UV p) segs := by
    funext k
    exact around_balance hp (hc k)
  have e1 : vsum Φ (BL p) segs + vsum Φ (LF p) segs =
      vsum Φ (BR p) segs + vsum Φ (RF p) segs + vsum Φ (UV p) segs := by
    rw [rel1, add_assoc, rel2, add_assoc]
  rw [sum_ite] at tR tL tU tD
  rw [sum_split _ (fun s => s.a = p) (RF p) (UV p) segs (by
      intro f hf
      have hx := ab_x_le (hp.lt f hf)
      by_cases h : f.a = p
      · by_cases hx' : f.a.x = f.b.x
        · rw [ind_true (P := UV p f) ⟨h, hx'⟩, ind_false (P := RF p f) (fun q => by have := q.2; omega), ind_true h]; rfl
        · rw [ind_true (P := RF p f) ⟨h, by omega⟩, ind_false (P := UV p f) (fun q => hx' q.2), ind_true h]; rfl
      · rw [ind_false (P := RF p f) (fun q => h q.1), ind_false (P := UV p f) (fun q => h q.1), ind_false h]; rfl),
    sum_split _ (fun s => s.b = p) (LF p) (DV p) segs (by
      intro f hf
      have hx := ab_x_le (hp.lt f hf)
      by_cases h : f.b = p
      · by_cases hx' : f.a.x = f.b.x
        · rw [ind_true (P := DV p f) ⟨h, hx'⟩, ind_false (P := LF p f) (fun q => by have := q.2; omega), ind_true h]; rfl
        · rw [ind_true (P := LF p f) ⟨h, by omega⟩, ind_false (P := DV p f) (fun q => hx' q.2), ind_true h]; rfl
      · rw [ind_false (P := LF p f) (fun q => h q.1), ind_false (P := DV p f) (fun q => h q.1), ind_false h]; rfl),
    tR, tL, tU, tD, e1, rel1]
  ring

end planar
end
end IOverlay
