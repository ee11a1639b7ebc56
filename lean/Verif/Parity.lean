/-
Parity arguments over a noded edge list: telescoping of "the rule's value changes across this edge"
along a column and around a vertex. Used for C40 and C01.
-/
import Verif.FillSides

namespace IOverlay
variable {C : Type}

/-! ### telescoping -/

/-- Parity of the number of elements satisfying `p`. -/
def par {α : Type} (p : α → Bool) (l : List α) : Bool := l.foldr (fun x b => xor (p x) b) false

@[simp] theorem par_nil {α : Type} (p : α → Bool) : par p [] = false := rfl
@[simp] theorem par_cons {α : Type} (p : α → Bool) (x : α) (l) : par p (x :: l) = xor (p x) (par p l) := rfl

theorem par_append {α : Type} (p : α → Bool) (l l' : List α) :
    par p (l ++ l') = xor (par p l) (par p l') := by
  induction l with
  | nil => simp
  | cons x l ih => simp [ih, Bool.xor_assoc]

theorem par_perm {α : Type} (p : α → Bool) {l l' : List α} (h : l.Perm l') : par p l = par p l' := by
  induction h with
  | nil => rfl
  | cons x _ ih => simp [ih]
  | swap x y l => simp only [par_cons]; cases p x <;> cases p y <;> simp
  | trans _ _ h1 h2 => rw [h1, h2]

theorem par_congr {α : Type} {p p' : α → Bool} {l : List α} (h : ∀ x ∈ l, p x = p' x) :
    par p l = par p' l := by
  induction l with
  | nil => rfl
  | cons x l ih =>
    rw [par_cons, par_cons, h x (by simp), ih fun y hy => h y (List.mem_cons_of_mem _ hy)]

theorem par_eq_countP {α : Type} (p : α → Bool) (l : List α) : par p l = decide (l.countP p % 2 = 1) := by
  induction l with
  | nil => rfl
  | cons x l ih =>
    rw [par_cons, ih, List.countP_cons]
    cases hx : p x
    · simp
    · by_cases h : l.countP p % 2 = 1
      · have : ¬ (l.countP p + 1) % 2 = 1 := by omega
        simp [h, this]
      · have : (l.countP p + 1) % 2 = 1 := by omega
        simp [h, this]

theorem par_filter {α : Type} (p q : α → Bool) (l : List α) :
    par p (l.filter q) = par (fun x => q x && p x) l := by
  induction l with
  | nil => rfl
  | cons x l ih =>
    rw [List.filter_cons]
    cases hq : q x <;> simp [ih, hq]

section tele
variable {α M : Type} [AddCommGroup M]

/-- Walking upwards through edges ordered by a key, the truth value of `ρ` at the accumulated count
changes exactly at the kept edges. -/
theorem tele (ρ : M → Bool) (c : α → M) (key : α → ℚ) (base : M) (l : List α)
    (hk : l.Pairwise fun x y => key x ≠ key y) (k : α → Bool)
    (hkept : ∀ s ∈ l, k s = xor (ρ (base + ((l.filter fun f => decide (key f < key s)).map c).sum))
      (ρ (base + ((l.filter fun f => decide (key f < key s)).map c).sum + c s))) :
    par k l = xor (ρ base) (ρ (base + (l.map c).sum)) := by
  obtain ⟨n, hn⟩ : ∃ n, n = l.length := ⟨_, rfl⟩
  induction n generalizing l with
  | zero =>
    have : l = [] := List.eq_nil_of_length_eq_zero hn.symm
    subst this; simp
  | succ n ih =>
    have hne : l ≠ [] := by rintro rfl; simp at hn
    obtain ⟨m, hm, hmax⟩ := exists_max l hne key
    obtain ⟨l1, l2, rfl⟩ := List.append_of_mem hm
    have hperm : (l1 ++ m :: l2).Perm (m :: (l1 ++ l2)) := List.perm_middle
    rw [par_perm k hperm, par_cons]
    have hk' : (m :: (l1 ++ l2)).Pairwise fun x y => key x ≠ key y :=
      hperm.pairwise hk (fun h => Ne.symm h)
    obtain ⟨hk1, hk2⟩ := List.pairwise_cons.1 hk'
    have hlt : ∀ f ∈ l1 ++ l2, key f < key m := by
      intro f hf
      exact lt_of_le_of_ne (hmax f (hperm.mem_iff.2 (List.mem_cons_of_mem _ hf))) (Ne.symm (hk1 f hf))
    have hfil : ∀ s, (((l1 ++ m :: l2).filter fun f => decide (key f < key s)).map c).sum =
        (((m :: (l1 ++ l2)).filter fun f => decide (key f < key s)).map c).sum := fun s =>
      ((hperm.filter _).map c).sum_eq
    have hrest := ih (l1 ++ l2) hk2 (by
      intro s hs
      have hkk := hkept s (hperm.mem_iff.2 (List.mem_cons_of_mem _ hs))
      rw [hfil s] at hkk
      have : ¬ key m < key s := not_lt.2 (hlt s hs).le
      rw [List.filter_cons, if_neg (by simpa using this)] at hkk
      exact hkk) (by
        have := hperm.length_eq
        rw [List.length_cons] at this
        omega)
    have hkm := hkept m hm
    rw [hfil m, List.filter_cons, if_neg (by simp)] at hkm
    have hall : (l1 ++ l2).filter (fun f => decide (key f < key m)) = l1 ++ l2 := by
      rw [List.filter_eq_self]; intro f hf; simpa using hlt f hf
    rw [hall] at hkm
    have hsum : ((l1 ++ m :: l2).map c).sum = ((l1 ++ l2).map c).sum + c m := by
      rw [(hperm.map c).sum_eq, List.map_cons, List.sum_cons, add_comm]
    rw [hkm, hrest, hsum, add_assoc]
    cases ρ base <;> cases ρ (base + ((l1 ++ l2).map c).sum) <;>
      cases ρ (base + (((l1 ++ l2).map c).sum + c m)) <;> rfl

end tele

/-! ### the count pairs -/

/-- The two components of a count. -/
def cpair (s : Seg CountBool) : Int × Int := (s.c.subj, s.c.clip)

open Classical in
/-- Sum of the counts of the edges satisfying `P`. -/
noncomputable def psum (P : Seg CountBool → Prop) (l : List (Seg CountBool)) : Int × Int :=
  ((l.filter fun f => decide (P f)).map cpair).sum

open Classical in
theorem wsum_ind (φ : C → Int) (P : Seg C → Prop) (l : List (Seg C)) :
    wsum φ (fun f => ind (P f)) l = ((l.filter fun f => decide (P f)).map fun f => φ f.c).sum := by
  induction l with
  | nil => rfl
  | cons s l ih =>
    rw [wsum_cons, ih, List.filter_cons]
    by_cases h : P s
    · rw [ind_true h, if_pos (by simpa using h)]; simp
    · rw [ind_false h, if_neg (by simpa using h)]; simp

theorem sum_pair (l : List (Seg CountBool)) :
    (l.map cpair).sum = ((l.map fun f => f.c.subj).sum, (l.map fun f => f.c.clip).sum) := by
  induction l with
  | nil => rfl
  | cons s l ih => simp only [List.map_cons, List.sum_cons, ih]; rfl

theorem psum_eq (P : Seg CountBool → Prop) (l : List (Seg CountBool)) :
    psum P l = (wsum CountBool.subj (fun f => ind (P f)) l, wsum CountBool.clip (fun f => ind (P f)) l) := by
  unfold psum; rw [sum_pair, wsum_ind, wsum_ind]

theorem psum_congr {P Q : Seg CountBool → Prop} {l : List (Seg CountBool)} (h : ∀ f ∈ l, P f ↔ Q f) :
    psum P l = psum Q l := by
  rw [psum_eq, psum_eq, wsum_congr CountBool.subj fun f hf => ind_congr (h f hf),
    wsum_congr CountBool.clip fun f hf => ind_congr (h f hf)]

theorem psum_or {P Q : Seg CountBool → Prop} {l : List (Seg CountBool)} (h : ∀ f ∈ l, P f → ¬ Q f) :
    psum (fun f => P f ∨ Q f) l = psum P l + psum Q l := by
  have e : ∀ f ∈ l, ind (P f ∨ Q f) = ind (P f) + ind (Q f) := by
    intro f hf
    by_cases hP : P f
    · rw [ind_true (Or.inl hP), ind_true hP, ind_false (h f hf hP)]; rfl
    · by_cases hQ : Q f
      · rw [ind_true (Or.inr hQ), ind_false hP, ind_true hQ]; rfl
      · rw [ind_false (by simp [hP, hQ]), ind_false hP, ind_false hQ]; rfl
  rw [psum_eq, psum_eq, psum_eq, wsum_congr _ e, wsum_congr _ e, wsum_add, wsum_add]; rfl

/-- The pair of counts below an edge. -/
noncomputable def botP (segs : List (Seg CountBool)) (s : Seg CountBool) : Int × Int :=
  (botW CountBool.subj segs s, botW CountBool.clip segs s)

/-- Value of the rule at a pair of winding numbers. -/
def ruleAt (rule : FillRule) (r : OverlayRule) (w : Int × Int) : Bool :=
  r.op (rule.inside w.1) (rule.inside w.2)

/-- The edge separates result from non-result. -/
noncomputable def keptB (rule : FillRule) (r : OverlayRule) (segs : List (Seg CountBool))
    (s : Seg CountBool) : Bool :=
  xor (ruleAt rule r (botP segs s)) (ruleAt rule r (botP segs s + cpair s))

section planar
variable {segs : List (Seg CountBool)} (hp : Planar segs) (hs : Closed CountBool.subj segs)
  (hc : Closed CountBool.clip segs) (rule : FillRule) (r : OverlayRule)
include hp hs hc

theorem botP_low {s : Seg CountBool} (h : s ∈ segs) {n : Int} (ss : s.spans n) :
    botP segs s = psum (fun f => f.spans n ∧ ht f (mid n) < ht s (mid n)) segs := by
  rw [psum_eq]; unfold botP
  rw [hp.botW_eq_lowSum _ h ss.x, hp.botW_eq_lowSum _ h ss.x, ← hp.lowSum_const hs h n ss,
    ← hp.lowSum_const hc h n ss]; rfl

open Classical in
/-- A set of edges over one column, closed downwards except for a set of counts `base`. -/
theorem column_tele (n : Int) (P : Seg CountBool → Prop) (B : Seg CountBool → Prop)
    (hP : ∀ f ∈ segs, P f → f.spans n)
    (hB : ∀ s ∈ segs, P s → ∀ f ∈ segs,
      ((f.spans n ∧ ht f (mid n) < ht s (mid n)) ↔ (B f ∨ (P f ∧ ht f (mid n) < ht s (mid n)))))
    (hdis : ∀ f ∈ segs, B f → ¬ P f) :
    par (keptB rule r segs) (segs.filter fun f => decide (P f)) =
      xor (ruleAt rule r (psum B segs)) (ruleAt rule r (psum B segs + psum P segs)) := by
  refine tele (ruleAt rule r) cpair (fun f => ht f (mid n)) (psum B segs) _ ?_ _ ?_
  · refine List.Pairwise.imp_of_mem ?_ (hp.nodup.filter _)
    intro a b ha hb hab
    rw [List.mem_filter, decide_eq_true_eq] at ha hb
    exact hp.mid_ne ha.1 hb.1 hab (hP a ha.1 ha.2) (hP b hb.1 hb.2)
  · intro s hm
    rw [List.mem_filter, decide_eq_true_eq] at hm
    have e : botP segs s = psum B segs + (((segs.filter fun f => decide (P f)).filter fun f =>
        decide (ht f (mid n) < ht s (mid n))).map cpair).sum := by
      rw [botP_low hp hs hc hm.1 (hP s hm.1 hm.2), psum_congr (hB s hm.1 hm.2),
        psum_or (fun f hf hb h => hdis f hf hb h.1)]
      congr 1
      unfold psum
      rw [List.filter_filter]
      congr 2
      refine List.filter_congr fun f _ => ?_
      rw [Bool.decide_and, Bool.and_comm]
    unfold keptB
    rw [e]

/-- Along a downward ray: the number of kept edges below a point off all edges is odd iff the rule
holds at the point (and does not hold far below). -/
theorem ray_parity (q : QPt) :
    xor (ruleAt rule r (0, 0)) (ruleAt rule r (segsWind CountBool.subj segs q, segsWind CountBool.clip segs q))
      = par (keptB rule r segs) (segs.filter fun f =>
          decide ((f.a.x:ℚ) ≤ q.x ∧ q.x < f.b.x ∧ ht f q.x < q.y)) := by
  classical
  have f1 : (⌊q.x⌋:ℚ) ≤ q.x := Int.floor_le _
  have f2 : q.x ≤ ⌊q.x⌋ + 1 := (Int.lt_floor_add_one _).le
  have hsp : ∀ f : Seg CountBool, ((f.a.x:ℚ) ≤ q.x ∧ q.x < f.b.x ∧ ht f q.x < q.y) ↔
      (f.spans ⌊q.x⌋ ∧ ht f q.x < q.y) := by
    intro f; rw [← and_assoc, spans_floor]
  have h := column_tele hp hs hc rule r ⌊q.x⌋
    (fun f => (f.a.x:ℚ) ≤ q.x ∧ q.x < f.b.x ∧ ht f q.x < q.y) (fun _ => False)
    (fun f _ hf => ((hsp f).1 hf).1)
    (by
      intro s hm hP f hf
      obtain ⟨ss, hl⟩ := (hsp s).1 hP
      constructor
      · rintro ⟨sf, hlt⟩
        refine Or.inr ⟨(hsp f).2 ⟨sf, ?_⟩, hlt⟩
        exact lt_of_le_of_lt (hp.of_mid hf hm sf ss f1 f2 hlt) hl
      · rintro (h | ⟨h1, h2⟩)
        · exact h.elim
        · exact ⟨((hsp f).1 h1).1, h2⟩)
    (fun _ _ h => h.elim)
  have e0 : psum (fun _ => False) segs = (0, 0) := by
    unfold psum; simp; rfl
  have e1 : psum (fun f => (f.a.x:ℚ) ≤ q.x ∧ q.x < f.b.x ∧ ht f q.x < q.y) segs =
      (segsWind CountBool.subj segs q, segsWind CountBool.clip segs q) := by
    rw [psum_eq, segsWind_eq_wsum _ hp.lt, segsWind_eq_wsum _ hp.lt]
  rw [e0, e1] at h
  have e2 : ((0:Int), (0:Int)) + (segsWind CountBool.subj segs q, segsWind CountBool.clip segs q) =
      (segsWind CountBool.subj segs q, segsWind CountBool.clip segs q) := by
    simp
  rw [e2] at h
  rw [← h]
  congr 1
  refine List.filter_congr fun f _ => ?_
  congr

end planar

end IOverlay
