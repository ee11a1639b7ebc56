/-
One round of fragment splitting finds the same marks as the list strategy, unless the only edges ending at some point
inside an edge `s` end, from the left, on a vertical `s` lying on a column border, or lie on the line of `s` and start in
another column.
-/
import Verif.FragCover
import Verif.Noding
import Verif.Props.CrossPoint
import Verif.Props.Fragment
import Mathlib.Data.List.TakeWhile

namespace IOverlay

variable {C : Type}

/-! ### the pairs of a group -/

theorem binScan_sub (fi : Fragment) : ∀ (l : List Fragment), ∀ w ∈ binScan fi l, w.1 = fi ∧ w.2 ∈ l := by
  intro l
  induction l with
  | nil => intro w hw; simp [binScan] at hw
  | cons fj rest ih =>
    intro w hw
    rw [binScan] at hw
    split at hw
    · simp at hw
    · split at hw
      · obtain ⟨h1, h2⟩ := ih w hw; exact ⟨h1, List.mem_cons_of_mem _ h2⟩
      · rcases List.mem_cons.1 hw with rfl | hw
        · exact ⟨rfl, by simp⟩
        · obtain ⟨h1, h2⟩ := ih w hw; exact ⟨h1, List.mem_cons_of_mem _ h2⟩

theorem binPairs_sub : ∀ (l : List Fragment), ∀ w ∈ binPairs l, List.Sublist [w.1, w.2] l := by
  intro l
  induction l with
  | nil => intro w hw; simp [binPairs] at hw
  | cons f rest ih =>
    intro w hw
    rw [binPairs, List.mem_append] at hw
    rcases hw with hw | hw
    · obtain ⟨h1, h2⟩ := binScan_sub f rest w hw
      rw [h1]
      exact List.Sublist.cons_cons _ (List.singleton_sublist.2 h2)
    · exact (ih w hw).cons _

theorem Rect.meets_y {r o : Rect} (h : r.meets o = true) : o.minY ≤ r.maxY := by
  unfold Rect.meets at h
  simp only [Bool.and_eq_true, decide_eq_true_eq] at h
  exact h.2

theorem Rect.meets_symm {r o : Rect} (h : r.meets o = true) : o.meets r = true := by
  unfold Rect.meets at *
  simp only [Bool.and_eq_true, decide_eq_true_eq] at *
  exact ⟨⟨⟨h.1.1.2, h.1.1.1⟩, h.2⟩, h.1.2⟩

theorem Rect.meets_of_has {r o : Rect} {q : QPt} (h1 : r.Has q) (h2 : o.Has q) : r.meets o = true := by
  unfold Rect.meets
  obtain ⟨a1, a2, a3, a4⟩ := h1
  obtain ⟨b1, b2, b3, b4⟩ := h2
  simp only [Bool.and_eq_true, decide_eq_true_eq]
  refine ⟨⟨⟨?_, ?_⟩, ?_⟩, ?_⟩
  · exact_mod_cast a1.trans b2
  · exact_mod_cast b1.trans a2
  · exact_mod_cast a3.trans b4
  · exact_mod_cast b3.trans a4

theorem binScan_mem (fi h : Fragment) (hm : fi.rect.meets h.rect = true) : ∀ (l : List Fragment),
    l.Pairwise (fun a b => a.rect.minY ≤ b.rect.minY) → h ∈ l → (fi, h) ∈ binScan fi l := by
  intro l
  induction l with
  | nil => intro _ h; simp at h
  | cons fj rest ih =>
    intro hs hh
    rw [List.pairwise_cons] at hs
    rw [binScan]
    have hy := Rect.meets_y hm
    rcases List.mem_cons.1 hh with rfl | hh
    · rw [if_neg (by omega), hm]; simp
    · have := hs.1 h hh
      rw [if_neg (by omega)]
      split
      · exact ih hs.2 hh
      · exact List.mem_cons_of_mem _ (ih hs.2 hh)

theorem binPairs_mem {f h : Fragment} (hm : f.rect.meets h.rect = true) : ∀ (l : List Fragment),
    l.Pairwise (fun a b => a.rect.minY ≤ b.rect.minY) → List.Sublist [f, h] l → (f, h) ∈ binPairs l := by
  intro l
  induction l with
  | nil => intro _ h; simp at h
  | cons f' rest ih =>
    intro hs hsub
    rw [List.pairwise_cons] at hs
    rw [binPairs, List.mem_append]
    cases hsub with
    | cons _ h' => exact Or.inr (ih hs.2 h')
    | cons_cons _ h' =>
      exact Or.inl (binScan_mem f h hm rest hs.2 (List.singleton_sublist.1 h'))

theorem two_sublist {α : Type} {x y : α} (hne : x ≠ y) : ∀ {l : List α}, x ∈ l → y ∈ l →
    List.Sublist [x, y] l ∨ List.Sublist [y, x] l := by
  intro l
  induction l with
  | nil => intro h; simp at h
  | cons z l ih =>
    intro hx hy
    rcases List.mem_cons.1 hx with rfl | hx'
    · rcases List.mem_cons.1 hy with rfl | hy
      · exact absurd rfl hne
      · exact Or.inl (List.Sublist.cons_cons _ (List.singleton_sublist.2 hy))
    · rcases List.mem_cons.1 hy with rfl | hy
      · exact Or.inr (List.Sublist.cons_cons _ (List.singleton_sublist.2 hx'))
      · exact (ih hx' hy).imp (·.cons _) (·.cons _)

theorem sortByMinY_perm (fs : List Fragment) : (sortByMinY fs).Perm fs := List.perm_insertionSort _ _

theorem sortByMinY_sorted (fs : List Fragment) : (sortByMinY fs).Pairwise fun a b => a.rect.minY ≤ b.rect.minY := by
  have : IsTrans Fragment (fun a b => a.rect.minY ≤ b.rect.minY) := ⟨fun a b c h1 h2 => le_trans h1 h2⟩
  have : Std.Total (fun a b : Fragment => a.rect.minY ≤ b.rect.minY) := ⟨fun a b => le_total _ _⟩
  exact List.pairwise_insertionSort _ _

/-- Which pairs are examined in a group: all with meeting rectangles, in some order. -/
theorem binWork_mem {fs : List Fragment} {f h : Fragment} (hne : f ≠ h) (hf : f ∈ fs) (hh : h ∈ fs)
    (hm : f.rect.meets h.rect = true) : (f, h) ∈ binWork fs ∨ (h, f) ∈ binWork fs := by
  have h2 : ¬ fs.length < 2 := by
    intro hlt
    match fs, hlt with
    | [], _ => simp at hf
    | [z], _ =>
      rw [List.mem_singleton] at hf hh
      exact hne (hf.trans hh.symm)
  unfold binWork
  rw [if_neg h2]
  have p := sortByMinY_perm fs
  rcases two_sublist hne (p.mem_iff.2 hf) (p.mem_iff.2 hh) with h' | h'
  · exact Or.inl (binPairs_mem hm _ (sortByMinY_sorted fs) h')
  · exact Or.inr (binPairs_mem (Rect.meets_symm hm) _ (sortByMinY_sorted fs) h')

theorem binWork_sub {fs : List Fragment} {w : Fragment × Fragment} (hw : w ∈ binWork fs) :
    List.Sublist [w.1, w.2] (sortByMinY fs) := by
  unfold binWork at hw
  split at hw
  · simp at hw
  · exact binPairs_sub _ w hw

/-! ### the groups -/

theorem mem_allFragments {g : Grid} {segs : List (Seg C)} {f : Nat × Fragment} :
    f ∈ allFragments g segs ↔ ∃ i s, segs[i]? = some s ∧ f ∈ addSegment g i s.x := by
  unfold allFragments
  simp only [List.mem_flatMap, Prod.exists, List.mem_zipIdx_iff_getElem?]
  constructor
  · rintro ⟨s, i, h, hf⟩; exact ⟨i, s, h, hf⟩
  · rintro ⟨i, s, h, hf⟩; exact ⟨s, i, h, hf⟩

theorem mem_groupOf {fs : List (Nat × Fragment)} {b : Nat} {f : Fragment} : f ∈ groupOf fs b ↔ (b, f) ∈ fs := by
  unfold groupOf
  simp only [List.mem_map, List.mem_filter, beq_iff_eq, Prod.exists]
  constructor
  · rintro ⟨a, f', ⟨h, rfl⟩, rfl⟩; exact h
  · intro h; exact ⟨b, f, ⟨h, rfl⟩, rfl⟩

/-- All edges run left to right inside the grid. -/
structure InGrid (g : Grid) (segs : List (Seg C)) : Prop where
  lt : ∀ s ∈ segs, s.a < s.b
  left : ∀ s ∈ segs, g.minX ≤ s.a.x
  right : ∀ s ∈ segs, s.b.x ≤ g.maxX

/-- Column `b` is one of the columns of the edge. -/
def HasCol (g : Grid) (s : XSeg) (b : Nat) : Prop := g.index s.a.x ≤ b ∧ b ≤ lastColumn g s

theorem mem_group {g : Grid} {segs : List (Seg C)} (hg : InGrid g segs) {b : Nat} {f : Fragment}
    (hf : f ∈ groupOf (allFragments g segs) b) :
    ∃ s, segs[f.index]? = some s ∧ f.seg = s.x ∧ HasCol g s.x b ∧ CoversColumn g s.x b f.rect := by
  rw [mem_groupOf, mem_allFragments] at hf
  obtain ⟨i, s, h1, h2⟩ := hf
  have hs := List.mem_of_getElem? h1
  obtain ⟨e1, e2⟩ := addSegment_spec g i s.x (hg.lt s hs) (hg.left s hs)
  obtain ⟨c1, c2, c3⟩ := e2 _ h2
  have hb : b ∈ (addSegment g i s.x).map Prod.fst := List.mem_map.2 ⟨_, h2, rfl⟩
  rw [e1, List.mem_range'] at hb
  obtain ⟨k, k1, k2⟩ := hb
  dsimp only at c1 c2 c3
  have hle : g.index s.x.a.x ≤ lastColumn g s.x := le_max_left _ _
  refine ⟨s, by rw [c1]; exact h1, c2, ⟨by omega, by omega⟩, c3⟩

theorem group_of_col {g : Grid} {segs : List (Seg C)} (hg : InGrid g segs) {i b : Nat} {s : Seg C}
    (h1 : segs[i]? = some s) (hb : HasCol g s.x b) :
    ∃ f ∈ groupOf (allFragments g segs) b, f.index = i ∧ f.seg = s.x ∧ CoversColumn g s.x b f.rect := by
  have hs := List.mem_of_getElem? h1
  obtain ⟨e1, e2⟩ := addSegment_spec g i s.x (hg.lt s hs) (hg.left s hs)
  have : b ∈ (addSegment g i s.x).map Prod.fst := by
    rw [e1, List.mem_range']
    exact ⟨b - g.index s.x.a.x, by have := hb.1; have := hb.2; omega, by have := hb.1; omega⟩
  obtain ⟨f, hf, rfl⟩ := List.mem_map.1 this
  obtain ⟨c1, c2, c3⟩ := e2 f hf
  refine ⟨f.2, ?_, c1, c2, c3⟩
  rw [mem_groupOf, mem_allFragments]
  exact ⟨i, s, h1, hf⟩

/-- An edge has at most one fragment in a group. -/
theorem group_nodup {g : Grid} {segs : List (Seg C)} (hg : InGrid g segs) (b : Nat) :
    (groupOf (allFragments g segs) b).Pairwise fun f h => f.index ≠ h.index := by
  have key : (allFragments g segs).Pairwise fun f h => f.1 = h.1 → f.2.index ≠ h.2.index := by
    unfold allFragments
    rw [List.pairwise_flatMap]
    have spec : ∀ s i, (s, i) ∈ segs.zipIdx → _ := fun s i h =>
      addSegment_spec g i s.x (hg.lt s (List.mem_of_getElem? (List.mem_zipIdx_iff_getElem?.1 h)))
        (hg.left s (List.mem_of_getElem? (List.mem_zipIdx_iff_getElem?.1 h)))
    constructor
    · rintro ⟨s, i⟩ h
      obtain ⟨e1, -⟩ := spec s i h
      have nd : ((addSegment g i s.x).map Prod.fst).Nodup := by rw [e1]; exact List.nodup_range'
      rw [List.Nodup, List.pairwise_map] at nd
      exact nd.imp fun h1 h2 => absurd h2 h1
    · have nd : (segs.zipIdx.map Prod.snd).Nodup := by
        rw [List.zipIdx_map_snd]; exact List.nodup_range'
      rw [List.Nodup, List.pairwise_map] at nd
      refine List.Pairwise.imp_of_mem ?_ nd
      rintro ⟨s, i⟩ ⟨t, j⟩ h1 h2 hij f hf f' hf' _
      rw [((spec s i h1).2 f hf).1, ((spec t j h2).2 f' hf').1]
      exact hij
  unfold groupOf
  rw [List.pairwise_map]
  refine List.Pairwise.imp_of_mem ?_ (key.filter _)
  intro f h hf hh hfh
  simp only [List.mem_filter, beq_iff_eq] at hf hh
  exact hfh (hf.2.trans hh.2.symm)

theorem binWork_pair {g : Grid} {segs : List (Seg C)} (hg : InGrid g segs) {b : Nat} {w : Fragment × Fragment}
    (hw : w ∈ binWork (groupOf (allFragments g segs) b)) :
    w.1 ∈ groupOf (allFragments g segs) b ∧ w.2 ∈ groupOf (allFragments g segs) b ∧ w.1.index ≠ w.2.index := by
  have hsub := binWork_sub hw
  have hp := sortByMinY_perm (groupOf (allFragments g segs) b)
  have hd : (sortByMinY (groupOf (allFragments g segs) b)).Pairwise fun f h => f.index ≠ h.index :=
    (hp.pairwise_iff (fun h => Ne.symm h)).2 (group_nodup hg b)
  have := hd.sublist hsub
  rw [List.pairwise_cons] at this
  exact ⟨hp.mem_iff.1 (hsub.subset (by simp)), hp.mem_iff.1 (hsub.subset (by simp)), this.1 _ (by simp)⟩

/-! ### crossing two fragments -/

theorem crossFragments_or (radius : Int) (fi fj : Fragment) : crossFragments radius fi fj = ([], false) ∨
    crossFragments radius fi fj = crossMarks radius ⟨fi.index, fj.index, fi.seg, fj.seg⟩ := by
  unfold crossFragments crossMarks
  dsimp only
  generalize cross fi.seg fj.seg radius = r
  cases r with
  | none => left; rfl
  | some r =>
    dsimp only
    cases hr : r.type with
    | overlay =>
      dsimp only
      split
      · left; rfl
      · split
        · left; rfl
        · right; rfl
    | pure => dsimp only; split
              · left; rfl
              · right; rfl
    | targetEnd => dsimp only; split
                   · left; rfl
                   · right; rfl
    | otherEnd => dsimp only; split
                  · left; rfl
                  · right; rfl

theorem crossFragments_eq {radius : Int} {fi fj : Fragment}
    (h : ∀ r, cross fi.seg fj.seg radius = some r →
      if r.type = .overlay then fi.rect.containsWithRadius fi.seg.a (toI32 radius) = true
      else fi.rect.containsWithRadius r.point (toI32 radius) = true ∧
        fj.rect.containsWithRadius r.point (toI32 radius) = true) :
    crossFragments radius fi fj = crossMarks radius ⟨fi.index, fj.index, fi.seg, fj.seg⟩ := by
  unfold crossFragments crossMarks
  dsimp only
  generalize cross fi.seg fj.seg radius = r at h
  cases r with
  | none => rfl
  | some r =>
    have := h r rfl
    dsimp only
    cases hr : r.type with
    | overlay =>
      rw [hr, if_pos rfl] at this
      dsimp only
      simp only [this, Bool.true_or, Bool.not_true, Bool.false_eq_true, if_false]
    | pure =>
      rw [hr, if_neg (by decide)] at this
      dsimp only
      simp only [this.1, this.2, Bool.not_true, Bool.or_self, Bool.false_eq_true, if_false]
    | targetEnd =>
      rw [hr, if_neg (by decide)] at this
      dsimp only
      simp only [this.1, this.2, Bool.not_true, Bool.or_self, Bool.false_eq_true, if_false]
    | otherEnd =>
      rw [hr, if_neg (by decide)] at this
      dsimp only
      simp only [this.1, this.2, Bool.not_true, Bool.or_self, Bool.false_eq_true, if_false]

/-- With the edges strictly sorted, the operands of a pair are ordered by their numbers. -/
theorem crossOrdered_eq {segs : List (Seg C)} (hs : segs.Pairwise Seg.lt) {f h : Fragment} {s t : Seg C}
    (h1 : segs[f.index]? = some s) (h2 : segs[h.index]? = some t) (e1 : f.seg = s.x) (e2 : h.seg = t.x)
    (hij : f.index < h.index) (radius : Int) :
    crossOrdered radius f h = crossFragments radius f h ∧ crossOrdered radius h f = crossFragments radius f h := by
  obtain ⟨l1, r1⟩ := List.getElem?_eq_some_iff.1 h1
  obtain ⟨l2, r2⟩ := List.getElem?_eq_some_iff.1 h2
  have hlt := List.pairwise_iff_getElem.1 hs _ _ l1 l2 hij
  rw [r1, r2] at hlt
  have a1 : f.seg.lt h.seg = true := by
    unfold XSeg.lt; rw [decide_eq_true_eq, e1, e2]; exact hlt
  have a2 : h.seg.lt f.seg = false := by
    unfold XSeg.lt
    rw [decide_eq_false_iff_not, e1, e2]
    rintro (h' | ⟨h', h''⟩)
    · rcases hlt with g | ⟨g, _⟩
      · exact Pt.lt_irrefl _ (Pt.lt_trans h' g)
      · change t.a < s.a at h'; rw [g] at h'; exact Pt.lt_irrefl _ h'
    · change t.a = s.a at h'
      change t.b < s.b at h''
      rcases hlt with g | ⟨_, g⟩
      · rw [h'] at g; exact Pt.lt_irrefl _ g
      · exact Pt.lt_irrefl _ (Pt.lt_trans h'' g)
  unfold crossOrdered
  rw [a1, a2]
  exact ⟨rfl, rfl⟩

/-- The marks of a covering enumeration are those of all pairs. -/
theorem roundMarks_iff {segs : List (Seg C)} {pairs : List EPair} {radius : Int} (hl : ∀ s ∈ segs, s.a < s.b)
    (hc : Covers pairs segs) (hr : 0 ≤ radius) :
    (∀ m, m ∈ (roundMarks radius pairs).1 ↔ ∃ i j s t, i < j ∧ segs[i]? = some s ∧ segs[j]? = some t ∧
      m ∈ (crossMarks radius ⟨i, j, s.x, t.x⟩).1) ∧
    ((roundMarks radius pairs).2 = true ↔ ∃ i j s t, i < j ∧ segs[i]? = some s ∧ segs[j]? = some t ∧
      (crossMarks radius ⟨i, j, s.x, t.x⟩).2 = true) := by
  have back : ∀ i j s t, i < j → segs[i]? = some s → segs[j]? = some t →
      crossMarks radius ⟨i, j, s.x, t.x⟩ = ([], false) ∨ (⟨i, j, s.x, t.x⟩ : EPair) ∈ pairs := by
    intro i j s t hij h1 h2
    by_cases hq : ∃ q, onSeg q s.a s.b ∧ onSeg q t.a t.b
    · exact Or.inr (hc.complete i j s t hij h1 h2 hq)
    · left
      refine crossMarks_disjoint (Pt.ne_of_lt (hl s (List.mem_of_getElem? h1)))
        (Pt.ne_of_lt (hl t (List.mem_of_getElem? h2))) hr ?_
      intro q a b
      exact hq ⟨q, a, b⟩
  have fwd : ∀ p ∈ pairs, ∃ i j s t, i < j ∧ segs[i]? = some s ∧ segs[j]? = some t ∧ p = ⟨i, j, s.x, t.x⟩ := by
    intro p hp
    obtain ⟨hij, ⟨s, h1, e1⟩, ⟨t, h2, e2⟩⟩ := hc.sound p hp
    refine ⟨p.i, p.j, s, t, hij, h1, h2, ?_⟩
    rw [← e1, ← e2]
  unfold roundMarks
  dsimp only
  constructor
  · intro m
    rw [List.mem_flatMap]
    constructor
    · rintro ⟨p, hp, hm⟩
      obtain ⟨i, j, s, t, a, b, c, rfl⟩ := fwd p hp
      exact ⟨i, j, s, t, a, b, c, hm⟩
    · rintro ⟨i, j, s, t, a, b, c, hm⟩
      rcases back i j s t a b c with h | h
      · rw [h] at hm; simp at hm
      · exact ⟨_, h, hm⟩
  · rw [List.any_eq_true]
    constructor
    · rintro ⟨p, hp, hm⟩
      obtain ⟨i, j, s, t, a, b, c, rfl⟩ := fwd p hp
      exact ⟨i, j, s, t, a, b, c, hm⟩
    · rintro ⟨i, j, s, t, a, b, c, hm⟩
      rcases back i j s t a b c with h | h
      · rw [h] at hm; simp at hm
      · exact ⟨_, h, hm⟩

/-- Every result of a pair of fragments is empty or that of the pair of edges. -/
theorem work_sound {g : Grid} {segs : List (Seg C)} (hg : InGrid g segs) (hs : segs.Pairwise Seg.lt) {b : Nat}
    {w : Fragment × Fragment} (hw : w ∈ binWork (groupOf (allFragments g segs) b)) (radius : Int) :
    crossOrdered radius w.1 w.2 = ([], false) ∨ ∃ i j s t, i < j ∧ segs[i]? = some s ∧ segs[j]? = some t ∧
      crossOrdered radius w.1 w.2 = crossMarks radius ⟨i, j, s.x, t.x⟩ := by
  obtain ⟨m1, m2, hne⟩ := binWork_pair hg hw
  obtain ⟨s, s1, s2, -⟩ := mem_group hg m1
  obtain ⟨t, t1, t2, -⟩ := mem_group hg m2
  rcases lt_or_gt_of_ne hne with h | h
  · rw [(crossOrdered_eq hs s1 t1 s2 t2 h radius).1]
    rcases crossFragments_or radius w.1 w.2 with h' | h'
    · exact Or.inl h'
    · refine Or.inr ⟨_, _, s, t, h, s1, t1, ?_⟩
      rw [h', s2, t2]
  · rw [(crossOrdered_eq hs t1 s1 t2 s2 h radius).2]
    rcases crossFragments_or radius w.2 w.1 with h' | h'
    · exact Or.inl h'
    · refine Or.inr ⟨_, _, t, s, h, t1, s1, ?_⟩
      rw [h', s2, t2]

/-! ### a common column -/

theorem hasCol_of {g : Grid} {s : XSeg} (hm : g.minX ≤ s.a.x) {b : Nat}
    (h1 : s.a.x < g.pos (b + 1)) (h2 : g.pos b < s.b.x ∨ g.pos b ≤ s.a.x) : HasCol g s b := by
  have mono : ∀ x : Int, g.pos b ≤ x → b ≤ g.index x := by
    intro x hx
    by_contra hlt
    push Not at hlt
    have hp := g.pos_mono (show g.index x + 1 ≤ b by omega)
    have h0 := g.pos_mono (Nat.zero_le b)
    have : g.pos 0 = g.minX := by simp [Grid.pos]
    have := (g.index_pos (show g.minX ≤ x by omega)).2
    omega
  constructor
  · by_contra hlt
    push Not at hlt
    have := g.pos_mono (show b + 1 ≤ g.index s.a.x by omega)
    have := (g.index_pos hm).1
    omega
  · unfold lastColumn
    rcases h2 with h | h
    · exact le_trans (mono (s.b.x - 1) (by omega)) (le_max_right _ _)
    · exact le_trans (mono s.a.x h) (le_max_left _ _)

/-- The edge `s` does not end, from the left, inside a vertical edge `v` that lies on the left border of a column. -/
def TeeFree (g : Grid) (s v : Seg C) : Prop :=
  s.a.x < s.b.x → v.a.x = v.b.x → s.b.x = v.a.x → v.a.y < s.b.y → s.b.y < v.b.y → ∀ b, g.pos b ≠ v.a.x

/-- Fragments can discover from the edge `u` that its end `e` lies inside `s`: edges of one line have to start in the
same column; otherwise, if `s` is vertical and on the border of a column, `u` has to start at `e`. -/
def Seen (g : Grid) (s u : Seg C) (e : Pt) : Prop :=
  (AllOnLine s.x u.x ∧ g.index s.a.x = g.index u.a.x) ∨
  (¬ AllOnLine s.x u.x ∧ (e = u.a ∨ s.a.x < s.b.x ∨ ∀ b, g.pos b ≠ s.a.x))

/-- Every edge end lying inside an edge `s` is the end of some edge from which fragments can discover this. -/
def FragSafe (g : Grid) (segs : List (Seg C)) : Prop :=
  ∀ s ∈ segs, ∀ t ∈ segs, ∀ e, (e = t.a ∨ e = t.b) → inSeg e.q s.a s.b →
    ∃ u ∈ segs, (e = u.a ∨ e = u.b) ∧ Seen g s u e

theorem exists_col (g : Grid) {x : ℚ} (h : (g.minX : ℚ) ≤ x) : ∃ b, (g.pos b : ℚ) ≤ x ∧ x < g.pos (b + 1) := by
  have hf : g.minX ≤ x.floor := Rat.le_floor_iff.2 h
  obtain ⟨h1, h2⟩ := g.index_pos hf
  refine ⟨g.index x.floor, ?_, ?_⟩
  · exact Rat.le_floor_iff.1 h1
  · exact Rat.floor_lt_iff.1 h2

theorem end_of_x {a b : Pt} {q : QPt} (hx : a.x < b.x) (hq : onSeg q a b) :
    (q.x = b.x → q = b.q) ∧ (q.x = a.x → q = a.q) := by
  obtain ⟨t, t0, t1, ex, ey⟩ := hq
  have hd : (0:ℚ) < (b.x:ℚ) - a.x := by
    have : (a.x:ℚ) < b.x := by exact_mod_cast hx
    linarith
  constructor
  · intro h
    have : t = 1 := by nlinarith
    subst this
    unfold Pt.q
    cases q
    simp only at *
    rw [ex, ey]; simp
  · intro h
    have : t = 0 := by nlinarith
    subst this
    unfold Pt.q
    cases q
    simp only at *
    rw [ex, ey]; simp

/-- If the left one of the columns at a common point is needed by `s`, it is also one of `t`. -/
theorem column_left {g : Grid} {segs : List (Seg C)} (hg : InGrid g segs) {s t : Seg C} (hsafe : TeeFree g s t)
    (hs : s ∈ segs) (ht : t ∈ segs) {q : QPt} (h1 : onSeg q s.a s.b) (h2 : onSeg q t.a t.b)
    (hin : inSeg q s.a s.b ∨ inSeg q t.a t.b) {b : Nat} (b1 : (g.pos b : ℚ) ≤ q.x)
    (hfail : ¬ (g.pos b < s.b.x ∨ g.pos b ≤ s.a.x)) :
    ∃ c, (g.pos c : ℚ) ≤ q.x ∧ q.x ≤ g.pos (c + 1) ∧ HasCol g s.x c ∧ HasCol g t.x c := by
  push Not at hfail
  obtain ⟨f1, f2⟩ := hfail
  have ls := Pt.lt_def.1 (hg.lt s hs)
  have lt := Pt.lt_def.1 (hg.lt t ht)
  obtain ⟨q1, q2, -, -⟩ := onSeg_bounds h1
  rw [min_eq_left (by omega)] at q1
  rw [max_eq_right (by omega)] at q2
  have hb : g.pos b = s.b.x := by
    have : (g.pos b : ℚ) ≤ s.b.x := b1.trans q2
    have : g.pos b ≤ s.b.x := by exact_mod_cast this
    omega
  have hqx : q.x = s.b.x := le_antisymm q2 (by rw [← hb]; exact b1)
  have hsx : s.a.x < s.b.x := by omega
  have hqb : q = s.b.q := (end_of_x hsx h1).1 hqx
  have hnot : ¬ inSeg q s.a s.b := fun h => (h.ne (Pt.ne_of_lt (hg.lt s hs))).2 hqb
  have hint : inSeg q t.a t.b := hin.resolve_left hnot
  have hb0 : b ≠ 0 := by
    rintro rfl
    have : g.pos 0 = g.minX := by simp [Grid.pos]
    have := hg.left s hs
    omega
  obtain ⟨c, rfl⟩ : ∃ c, b = c + 1 := ⟨b - 1, by omega⟩
  have hpos := g.pos_succ c
  have hp2 : (0:Int) < 2 ^ g.power := by positivity
  obtain ⟨p1, p2, -, -⟩ := onSeg_bounds h2
  rw [min_eq_left (by omega)] at p1
  rw [max_eq_right (by omega)] at p2
  have htb : g.pos (c + 1) ≤ t.b.x := by
    rw [hb]
    rw [hqx] at p2
    exact_mod_cast p2
  have hta : t.a.x ≤ g.pos (c + 1) := by
    rw [hb]
    rw [hqx] at p1
    exact_mod_cast p1
  refine ⟨c, ?_, ?_, hasCol_of (hg.left s hs) ?_ (Or.inl ?_),
    hasCol_of (hg.left t ht) ?_ (Or.inl ?_)⟩
  · have : g.pos c ≤ g.pos (c + 1) := by omega
    have : (g.pos c : ℚ) ≤ g.pos (c + 1) := by exact_mod_cast this
    linarith
  · rw [hqx, hb]
  · exact f2
  · change g.pos c < s.b.x; omega
  · change t.a.x < _
    by_contra hge
    have hta' : t.a.x = s.b.x := by omega
    rcases lt_or_eq_of_le (show t.a.x ≤ t.b.x by omega) with htx | htx
    · have : q = t.a.q := (end_of_x htx h2).2 (by rw [hqx, hta'])
      exact (hint.ne (Pt.ne_of_lt (hg.lt t ht))).1 this
    · have hin2 := inSeg_lt (hg.lt t ht) (by rw [← hqb]; exact hint)
      rw [Pt.lt_def, Pt.lt_def] at hin2
      exact hsafe hsx htx hta'.symm (by omega) (by omega) (c + 1) (by omega)
  · change g.pos c < t.b.x; omega

theorem common_column {g : Grid} {segs : List (Seg C)} (hg : InGrid g segs) {s t : Seg C} (h12 : TeeFree g s t)
    (h21 : TeeFree g t s) (hs : s ∈ segs) (ht : t ∈ segs) {q : QPt} (h1 : onSeg q s.a s.b) (h2 : onSeg q t.a t.b)
    (hin : inSeg q s.a s.b ∨ inSeg q t.a t.b) :
    ∃ c, (g.pos c : ℚ) ≤ q.x ∧ q.x ≤ g.pos (c + 1) ∧ HasCol g s.x c ∧ HasCol g t.x c := by
  have ls := Pt.lt_def.1 (hg.lt s hs)
  have lt := Pt.lt_def.1 (hg.lt t ht)
  obtain ⟨q1, q2, -, -⟩ := onSeg_bounds h1
  rw [min_eq_left (by omega)] at q1
  obtain ⟨p1, p2, -, -⟩ := onSeg_bounds h2
  rw [min_eq_left (by omega)] at p1
  have hmin : (g.minX : ℚ) ≤ q.x := by
    have : (g.minX : ℚ) ≤ s.a.x := by exact_mod_cast hg.left s hs
    linarith
  obtain ⟨b, b1, b2⟩ := exists_col g hmin
  by_cases f1 : g.pos b < s.b.x ∨ g.pos b ≤ s.a.x
  · by_cases f2 : g.pos b < t.b.x ∨ g.pos b ≤ t.a.x
    · refine ⟨b, b1, b2.le, hasCol_of (hg.left s hs) ?_ f1,
        hasCol_of (hg.left t ht) ?_ f2⟩
      · have : (s.a.x : ℚ) < g.pos (b + 1) := lt_of_le_of_lt q1 b2
        exact_mod_cast this
      · have : (t.a.x : ℚ) < g.pos (b + 1) := lt_of_le_of_lt p1 b2
        exact_mod_cast this
    · obtain ⟨c, c1, c2, c3, c4⟩ := column_left hg h21 ht hs h2 h1 hin.symm b1 f2
      exact ⟨c, c1, c2, c4, c3⟩
  · exact column_left hg h12 hs ht h1 h2 hin b1 f1

/-! ### where the crossing is looked for -/

theorem onSeg_of_between {a b p : Pt} (hab : a < b) (h0 : area2 a b p = 0) (h1 : ¬ p < a) (h2 : ¬ b < p) :
    onSeg p.q a b := by
  rw [Pt.lt_def] at hab h1 h2
  unfold area2 at h0
  have h0' : ((b.x:ℚ) - a.x) * (b.y - p.y) - (b.y - a.y) * (b.x - p.x) = 0 := by exact_mod_cast h0
  by_cases hx : a.x = b.x
  · have hy : (a.y:ℚ) < b.y := by
      have : a.y < b.y := by omega
      exact_mod_cast this
    have hd : (0:ℚ) < b.y - a.y := by linarith
    have hxq : (a.x:ℚ) = b.x := by exact_mod_cast hx
    have e : (p.x:ℚ) = a.x := by
      rw [hxq] at h0' ⊢
      have : ((b.y:ℚ) - a.y) * (b.x - p.x) = 0 := by linarith
      rcases mul_eq_zero.1 this with h | h <;> linarith
    have e' : p.x = a.x := by exact_mod_cast e
    have y1 : (a.y:ℚ) ≤ p.y := by
      have : a.y ≤ p.y := by omega
      exact_mod_cast this
    have y2 : (p.y:ℚ) ≤ b.y := by
      have : p.y ≤ b.y := by omega
      exact_mod_cast this
    refine ⟨(p.y - a.y) / (b.y - a.y), div_nonneg (by linarith) hd.le, (div_le_one hd).2 (by linarith), ?_, ?_⟩
    · simp only [Pt.q]; rw [e, hxq]; ring
    · simp only [Pt.q]; field_simp; ring
  · have hx' : (a.x:ℚ) < b.x := by
      have : a.x < b.x := by omega
      exact_mod_cast this
    have hd : (0:ℚ) < b.x - a.x := by linarith
    have x1 : (a.x:ℚ) ≤ p.x := by
      have : a.x ≤ p.x := by omega
      exact_mod_cast this
    have x2 : (p.x:ℚ) ≤ b.x := by
      have : p.x ≤ b.x := by omega
      exact_mod_cast this
    refine ⟨(p.x - a.x) / (b.x - a.x), div_nonneg (by linarith) hd.le, (div_le_one hd).2 (by linarith), ?_, ?_⟩
    · simp only [Pt.q]; field_simp; ring
    · simp only [Pt.q]; field_simp; linarith

theorem middleCross_dist (t o : XSeg) (radius : Int) : (middleCross t o radius).point = crossPoint t o ∨
    sqrDist (middleCross t o radius).point (crossPoint t o) ≤ radius := by
  unfold middleCross
  dsimp only
  split
  · exact Or.inl rfl
  · split
    · rename_i hle
      split
      · by_cases h : sqrDist t.a (crossPoint t o) < sqrDist t.b (crossPoint t o)
        · rw [if_pos h]
          split
          · right; dsimp only; omega
          · exact Or.inl rfl
        · rw [if_neg h]
          split
          · right; dsimp only; omega
          · exact Or.inl rfl
      · by_cases h : sqrDist o.a (crossPoint t o) < sqrDist o.b (crossPoint t o)
        · rw [if_pos h]
          split
          · right; dsimp only; omega
          · exact Or.inl rfl
        · rw [if_neg h]
          split
          · right; dsimp only; omega
          · exact Or.inl rfl
    · exact Or.inl rfl

theorem contains_of_dist {R : Rect} {q : QPt} (h : R.Has q) {c p : Pt} (hx : |(c.x : ℚ) - q.x| < 1)
    (hy : |(c.y : ℚ) - q.y| < 1) {radius : Int} (hr : 1 ≤ radius) (hd : p = c ∨ sqrDist p c ≤ radius) :
    R.containsWithRadius p radius = true := by
  obtain ⟨h1, h2, h3, h4⟩ := h
  rw [abs_lt] at hx hy
  have lo : ∀ (m k : Int) (v : ℚ), (m:ℚ) ≤ v → (k:ℚ) - v > -1 → m ≤ k := by
    intro m k v a b
    have : (m:ℚ) < k + 1 := by linarith
    have : m < k + 1 := by exact_mod_cast this
    omega
  have hi : ∀ (m k : Int) (v : ℚ), v ≤ (m:ℚ) → (k:ℚ) - v < 1 → k ≤ m := by
    intro m k v a b
    have : (k:ℚ) < m + 1 := by linarith
    have : k < m + 1 := by exact_mod_cast this
    omega
  have c1 := lo _ _ _ h1 hx.1
  have c2 := hi _ _ _ h2 hx.2
  have c3 := lo _ _ _ h3 hy.1
  have c4 := hi _ _ _ h4 hy.2
  have near : -radius ≤ p.x - c.x ∧ p.x - c.x ≤ radius ∧ -radius ≤ p.y - c.y ∧ p.y - c.y ≤ radius := by
    rcases hd with rfl | hd
    · omega
    · unfold sqrDist at hd
      have sq : ∀ u : Int, u * u ≤ radius → -radius ≤ u ∧ u ≤ radius := by
        intro u hu
        constructor <;> nlinarith
      have n1 := mul_self_nonneg (p.x - c.x)
      have n2 := mul_self_nonneg (p.y - c.y)
      have a := sq (p.x - c.x) (by linarith)
      have b := sq (p.y - c.y) (by linarith)
      omega
  unfold Rect.containsWithRadius
  simp only [Bool.and_eq_true, decide_eq_true_eq]
  omega

/-- The point of a crossing lies in every rectangle containing the true common point, up to the radius. -/
theorem cross_near {s t : XSeg} (hs : s.a ≠ s.b) (ht : t.a ≠ t.b) {radius : Int} (hr : 1 ≤ radius)
    (r1 : InRange s.a) (r2 : InRange s.b) (r3 : InRange t.a) (r4 : InRange t.b) {r : CrossResult}
    (hc : cross s t radius = some r) (hne : r.type ≠ .overlay) :
    ∃ q, onSeg q s.a s.b ∧ onSeg q t.a t.b ∧ (inSeg q s.a s.b ∨ inSeg q t.a t.b) ∧
      ∀ R : Rect, R.Has q → R.containsWithRadius r.point radius = true := by
  have sp := cross_spec s t hs ht radius
  rw [hc] at sp
  have self : ∀ (p : Pt) (R : Rect), R.Has p.q → R.containsWithRadius p radius = true := by
    intro p R h
    exact contains_of_dist h (c := p) (by simp [Pt.q]) (by simp [Pt.q]) hr (Or.inl rfl)
  have hend : ∀ {a b x : Pt}, (x = a ∨ x = b) → onSeg x.q a b := by
    rintro a b x (rfl | rfl)
    · exact onSeg_left _ _
    · exact onSeg_right _ _
  cases sp with
  | overlay h => exact absurd rfl hne
  | otherEnd p h he hin => exact ⟨p.q, hin.on, hend he, Or.inl hin, self p⟩
  | targetEnd p h he hin => exact ⟨p.q, hend he, hin.on, Or.inr hin, self p⟩
  | middle o1 o2 =>
    obtain ⟨P, h1, h2, -, h4, h5, -⟩ := C17_crossing_accuracy s t o1 o2 r1 r2 r3 r4
    exact ⟨P, h1.on, h2.on, Or.inl h1, fun R hR => contains_of_dist hR h4 h5 hr (middleCross_dist s t radius)⟩

theorem toI32_id {r : Int} (h0 : 0 ≤ r) (h1 : r < 2 ^ 31) : toI32 r = r := by
  unfold toI32
  rw [Int.bmod_eq_of_le] <;> omega

/-- A pair of edges with a mark is found in some group, with the same marks. -/
theorem work_complete {g : Grid} {segs : List (Seg C)} (hg : InGrid g segs) (hs : segs.Pairwise Seg.lt)
    (hR : ∀ s ∈ segs, InRange s.a ∧ InRange s.b) {radius : Int} (hr : 1 ≤ radius)
    (hr' : radius < 2 ^ 31) {i j : Nat} {s t : Seg C} (hij : i < j) (h1 : segs[i]? = some s) (h2 : segs[j]? = some t)
    (hov : AllOnLine s.x t.x → g.index s.a.x = g.index t.a.x) (h12 : TeeFree g s t) (h21 : TeeFree g t s)
    (hne : (crossMarks radius ⟨i, j, s.x, t.x⟩).1 ≠ []) :
    ∃ b < g.size, ∃ w ∈ binWork (groupOf (allFragments g segs) b),
      crossOrdered radius w.1 w.2 = crossMarks radius ⟨i, j, s.x, t.x⟩ := by
  have ms := List.mem_of_getElem? h1
  have mt := List.mem_of_getElem? h2
  have ns := Pt.ne_of_lt (hg.lt s ms)
  have nt := Pt.ne_of_lt (hg.lt t mt)
  have hsize : ∀ b, HasCol g s.x b → b < g.size := by
    intro b hb
    have ls := Pt.lt_def.1 (hg.lt s ms)
    have := hg.right s ms
    refine lt_of_le_of_lt hb.2 (Nat.lt_succ_of_le (max_le (g.index_mono ?_) (g.index_mono ?_)))
    · change s.a.x ≤ _; omega
    · change s.b.x - 1 ≤ _; omega
  -- it suffices to have both fragments in a group with the crossing in view
  have finish : ∀ (b : Nat) (q : QPt), HasCol g s.x b → HasCol g t.x b → onSeg q s.a s.b → onSeg q t.a t.b →
      (g.pos b : ℚ) ≤ q.x → q.x ≤ g.pos (b + 1) →
      (∀ (R R' : Rect), CoversColumn g s.x b R → CoversColumn g t.x b R' → ∀ r, cross s.x t.x radius = some r →
        if r.type = .overlay then R.containsWithRadius s.a (toI32 radius) = true
        else R.containsWithRadius r.point (toI32 radius) = true ∧ R'.containsWithRadius r.point (toI32 radius) = true) →
      ∃ b < g.size, ∃ w ∈ binWork (groupOf (allFragments g segs) b),
        crossOrdered radius w.1 w.2 = crossMarks radius ⟨i, j, s.x, t.x⟩ := by
    intro b q c1 c2 q1 q2 b1 b2 hin
    obtain ⟨f, f1, f2, f3, f4⟩ := group_of_col hg h1 c1
    obtain ⟨h, g1, g2, g3, g4⟩ := group_of_col hg h2 c2
    have hfh : f ≠ h := by rintro rfl; omega
    have hm : f.rect.meets h.rect = true := Rect.meets_of_has (f4.2.2 q q1 b1 b2) (g4.2.2 q q2 b1 b2)
    have e := crossFragments_eq (radius := radius) (fi := f) (fj := h) (by
      rw [f3, g3]; exact hin f.rect h.rect f4 g4)
    obtain ⟨o1, o2⟩ := crossOrdered_eq hs (by rw [f2]; exact h1) (by rw [g2]; exact h2) f3 g3 (by omega) radius
    rw [f2, g2, f3, g3] at e
    refine ⟨b, hsize b c1, ?_⟩
    rcases binWork_mem hfh f1 g1 hm with hw | hw
    · exact ⟨_, hw, by rw [o1, e]⟩
    · exact ⟨_, hw, by rw [o2, e]⟩
  by_cases hall : AllOnLine s.x t.x
  · -- overlapping edges
    obtain ⟨m, hm⟩ := List.exists_mem_of_ne_nil _ hne
    rw [crossMarks_collinear ns nt (by omega) hall] at hm
    have hcol := hov hall
    -- the left end of `t` lies on `s`
    have hord : ¬ t.a < s.a := by
      obtain ⟨l1, e1⟩ := List.getElem?_eq_some_iff.1 h1
      obtain ⟨l2, e2⟩ := List.getElem?_eq_some_iff.1 h2
      have hlt := List.pairwise_iff_getElem.1 hs _ _ l1 l2 hij
      rw [e1, e2] at hlt
      intro h
      rcases hlt with h' | ⟨h', -⟩
      · exact Pt.lt_irrefl _ (Pt.lt_trans h h')
      · rw [h'] at h; exact Pt.lt_irrefl _ h
    have hon : onSeg t.a.q s.a s.b := by
      have hlt : t.a < s.b := by
        rcases hm with ⟨-, he, hin⟩ | ⟨-, he, hin⟩
        · obtain ⟨a1, a2⟩ := inSeg_lt (hg.lt t mt) hin
          rcases he with he | he
          · rw [he] at a1; exact absurd a1 hord
          · rw [he] at a1; exact a1
        · obtain ⟨a1, a2⟩ := inSeg_lt (hg.lt s ms) hin
          rcases he with he | he
          · rw [he] at a2; exact a2
          · rw [he] at a2; exact Pt.lt_trans (hg.lt t mt) a2
      refine onSeg_of_between (hg.lt s ms) hall.1 hord ?_
      intro h; exact Pt.lt_irrefl _ (Pt.lt_trans h hlt)
    have c1 : HasCol g s.x (g.index s.a.x) := ⟨le_refl _, le_max_left _ _⟩
    have c2 : HasCol g t.x (g.index s.a.x) := by rw [hcol]; exact ⟨le_refl _, le_max_left _ _⟩
    obtain ⟨p1, p2⟩ := g.index_pos (hg.left t mt)
    obtain ⟨p3, p4⟩ := g.index_pos (hg.left s ms)
    refine finish (g.index s.a.x) t.a.q c1 c2 hon (onSeg_left _ _) ?_ ?_ ?_
    · rw [hcol]; simp only [Pt.q]; exact_mod_cast p1
    · rw [hcol]; simp only [Pt.q]; exact_mod_cast p2.le
    · intro R R' hR1 hR2 r hc
      have sp := cross_spec s.x t.x ns nt radius
      rw [hc] at sp
      cases sp with
      | overlay h =>
        rw [if_pos rfl]
        have : R.Has s.a.q := hR1.2.2 s.a.q (onSeg_left _ _) (by simp only [Pt.q]; exact_mod_cast p3)
          (by simp only [Pt.q]; exact_mod_cast p4.le)
        rw [toI32_id (by omega) hr']
        exact contains_of_dist this (c := s.a) (by simp [Pt.q]) (by simp [Pt.q]) hr (Or.inl rfl)
      | otherEnd p h => exact absurd hall h
      | targetEnd p h => exact absurd hall h
      | middle o1 o2 => unfold Opp at o1; have := hall.1; omega
  · cases hc : cross s.x t.x radius with
    | none =>
      exfalso
      apply hne
      unfold crossMarks
      dsimp only
      rw [hc]
    | some r =>
      have hnov : r.type ≠ .overlay := by
        have sp := cross_spec s.x t.x ns nt radius
        rw [hc] at sp
        intro hov
        cases sp with
        | overlay h => exact hall h
        | otherEnd p h => simp at hov
        | targetEnd p h => simp at hov
        | middle o1 o2 =>
          have ms := middleCross_spec o1 o2 (radius := radius) (by omega)
          generalize middleCross s.x t.x radius = r at ms hov
          cases ms <;> simp at hov
      obtain ⟨q, q1, q2, q3, q4⟩ := cross_near ns nt hr (hR s ms).1 (hR s ms).2 (hR t mt).1 (hR t mt).2 hc hnov
      obtain ⟨b, b1, b2, b3, b4⟩ := common_column hg h12 h21 ms mt q1 q2 q3
      refine finish b q b3 b4 q1 q2 b1 b2 ?_
      intro R R' hR1 hR2 r' hc'
      rw [hc] at hc'
      simp only [Option.some.injEq] at hc'
      subst hc'
      rw [if_neg hnov, toI32_id (by omega) hr']
      exact ⟨q4 R (hR1.2.2 q q1 b1 b2), q4 R' (hR2.2.2 q q2 b1 b2)⟩

/-! ### marks on the borders -/

theorem borderLoop_mem : ∀ (vs : List (Nat × Int × Int)) (pts : List Pt), pts.Pairwise (fun p q => p.y ≤ q.y) →
    ∀ m ∈ borderLoop vs pts, ∃ v ∈ vs, v.1 = m.index ∧ m.point ∈ pts ∧ v.2.1 < m.point.y ∧ m.point.y < v.2.2 := by
  intro vs
  induction vs with
  | nil => intro pts _ m hm; simp [borderLoop] at hm
  | cons v rest ih =>
    intro pts hs m hm
    rw [borderLoop] at hm
    have hsub : (pts.dropWhile fun p => decide (p.y ≤ v.2.1)).Sublist pts := List.dropWhile_sublist _
    have hs' := hs.sublist hsub
    rcases List.mem_append.1 hm with h | h
    · obtain ⟨p, hp, rfl⟩ := List.mem_map.1 h
      have hp' := (List.takeWhile_sublist _).subset hp
      have hlt : p.y < v.2.2 := by
        have := List.mem_takeWhile_imp hp
        simpa using this
      refine ⟨v, by simp, rfl, hsub.subset hp', ?_, hlt⟩
      dsimp only
      generalize hd : (pts.dropWhile fun p => decide (p.y ≤ v.2.1)) = d at hp' hs'
      cases d with
      | nil => simp at hp'
      | cons p0 d =>
        have h0 : ¬ p0.y ≤ v.2.1 := by
          have := List.head_dropWhile_not (p := fun p : Pt => decide (p.y ≤ v.2.1)) (l := pts) (w := by rw [hd]; simp)
          simp only [hd, List.head_cons] at this
          simpa using this
        rw [List.pairwise_cons] at hs'
        rcases List.mem_cons.1 hp' with rfl | hp'
        · omega
        · have := hs'.1 p hp'; omega
    · obtain ⟨w, h1, h2, h3, h4⟩ := ih _ hs' m h
      exact ⟨w, List.mem_cons_of_mem _ h1, h2, hsub.subset h3, h4⟩

theorem borders_mem {g : Grid} {segs : List (Seg C)} {b : Nat} {v : Nat × Int × Int} (h : v ∈ borders g segs b) :
    ∃ s, segs[v.1]? = some s ∧ s.a.x = s.b.x ∧ s.a.x = g.pos b ∧ v.2 = yRange s.x := by
  unfold borders at h
  rw [List.mem_filterMap] at h
  obtain ⟨⟨s, i⟩, h1, h2⟩ := h
  rw [List.mem_zipIdx_iff_getElem?] at h1
  dsimp only at h1 h2
  split at h2
  · rename_i hc
    simp only [Option.some.injEq] at h2
    subst h2
    exact ⟨s, h1, hc.2.1, hc.2.2.2.2, rfl⟩
  · simp at h2

/-- Every mark put on a border edge is one of the pair of collinear edges it comes from. -/
theorem border_sound {g : Grid} {segs : List (Seg C)} (hg : InGrid g segs) {radius : Int} (hr : 0 ≤ radius) {b : Nat}
    {m : Mark} (hm : m ∈ onBorderSplit (g.pos b) (groupOf (allFragments g segs) b) (borders g segs b)) :
    ∃ i j s t, i < j ∧ segs[i]? = some s ∧ segs[j]? = some t ∧ m ∈ (crossMarks radius ⟨i, j, s.x, t.x⟩).1 := by
  unfold onBorderSplit at hm
  dsimp only at hm
  split at hm
  · simp at hm
  · have : IsTrans Pt (fun p q => p.y ≤ q.y) := ⟨fun a b c h1 h2 => le_trans h1 h2⟩
    have : Std.Total (fun p q : Pt => p.y ≤ q.y) := ⟨fun a b => le_total _ _⟩
    obtain ⟨v, v1, v2, v3, v4, v5⟩ := borderLoop_mem _ _ (List.pairwise_insertionSort _ _) m hm
    rw [(List.perm_insertionSort _ _).mem_iff] at v1 v3
    obtain ⟨w, w1, w2, w3, w4⟩ := borders_mem v1
    rw [List.mem_map] at v3
    obtain ⟨f, f1, f2⟩ := v3
    rw [List.mem_filter] at f1
    obtain ⟨f1, f3⟩ := f1
    obtain ⟨s, s1, s2, s3, -⟩ := mem_group hg f1
    have ms := List.mem_of_getElem? s1
    have mw := List.mem_of_getElem? w1
    have ls := Pt.lt_def.1 (hg.lt s ms)
    have lw := Pt.lt_def.1 (hg.lt w mw)
    have f3 : s.b.x = g.pos b := by
      rw [s2] at f3; exact beq_iff_eq.1 f3
    have f2 : s.b = m.point := by rw [s2] at f2; exact f2
    have hv : s.a.x = s.b.x := by
      by_contra hne
      have hm0 := hg.left s ms
      have b1 : s.a.x < g.pos b := by omega
      have i1 : g.index s.a.x < b := by
        by_contra h
        push Not at h
        have := g.pos_mono h
        have := (g.index_pos hm0).1
        omega
      have i2 : g.index (s.b.x - 1) < b := by
        by_contra h
        push Not at h
        have := g.pos_mono h
        have := (g.index_pos (show g.minX ≤ s.b.x - 1 by omega)).1
        omega
      have := s3.2
      unfold lastColumn at this
      change b ≤ max (g.index s.a.x) (g.index (s.b.x - 1)) at this
      omega
    have hy : w.a.y < s.b.y ∧ s.b.y < w.b.y := by
      rw [w4] at v4 v5
      unfold yRange Seg.x at v4 v5
      dsimp only at v4 v5
      rw [if_pos (by omega)] at v4 v5
      rw [f2]
      exact ⟨v4, v5⟩
    have hin : inSeg s.b.q w.a w.b := by
      have := onSeg_of_between (a := w.a) (b := w.b) (p := s.b) (hg.lt w mw) (by
        unfold area2; rw [← w2, w3, f3]; ring) (by rw [Pt.lt_def]; omega) (by rw [Pt.lt_def]; omega)
      rcases onSeg_cases this with h | h | h
      · have := congrArg QPt.y h
        simp only [Pt.q] at this
        have : s.b.y = w.a.y := by exact_mod_cast this
        omega
      · have := congrArg QPt.y h
        simp only [Pt.q] at this
        have : s.b.y = w.b.y := by exact_mod_cast this
        omega
      · exact h
    have hsx : s.a.x = w.a.x := by omega
    have hall : AllOnLine w.x s.x := by
      unfold AllOnLine area2 Seg.x
      dsimp only
      rw [← hv, ← w2, hsx]
      refine ⟨by ring, by ring, by ring, by ring⟩
    have hne : v.1 ≠ f.index := by
      intro e
      rw [e, s1] at w1
      simp only [Option.some.injEq] at w1
      subst w1
      omega
    rcases lt_or_gt_of_ne hne with h | h
    · refine ⟨_, _, w, s, h, w1, s1, ?_⟩
      rw [crossMarks_collinear (Pt.ne_of_lt (hg.lt w mw)) (Pt.ne_of_lt (hg.lt s ms)) hr hall]
      right
      exact ⟨v2.symm, Or.inr f2.symm, by rw [← f2]; exact hin⟩
    · refine ⟨_, _, s, w, h, s1, w1, ?_⟩
      rw [crossMarks_collinear (Pt.ne_of_lt (hg.lt s ms)) (Pt.ne_of_lt (hg.lt w mw)) hr
        ⟨hall.2.2.1, hall.2.2.2, hall.1, hall.2.1⟩]
      left
      exact ⟨v2.symm, Or.inr f2.symm, by rw [← f2]; exact hin⟩

/-! ### one round -/

theorem mem_serialSplit {radius : Int} {gs : List (List Fragment)} :
    (∀ m, m ∈ (serialSplit radius gs).1 ↔ ∃ fs ∈ gs, ∃ w ∈ binWork fs, m ∈ (crossOrdered radius w.1 w.2).1) ∧
    ((serialSplit radius gs).2 = true ↔ ∃ fs ∈ gs, ∃ w ∈ binWork fs, (crossOrdered radius w.1 w.2).2 = true) := by
  rw [serialSplit_eq]
  unfold binSplit
  simp only [List.mem_flatMap, List.any_eq_true]
  exact ⟨fun m => trivial, trivial⟩

theorem mem_groups {g : Grid} {segs : List (Seg C)} {fs : List Fragment} :
    fs ∈ groups g segs ↔ ∃ b < g.size, fs = groupOf (allFragments g segs) b := by
  unfold groups
  simp only [List.mem_map, List.mem_range]
  exact ⟨fun ⟨b, h, e⟩ => ⟨b, h, e.symm⟩, fun ⟨b, h, e⟩ => ⟨b, h, e.symm⟩⟩

theorem mem_fragRound_border {g : Grid} {segs : List (Seg C)} {m : Mark} :
    m ∈ ((groups g segs).zipIdx.flatMap fun fs => onBorderSplit (g.pos fs.2) fs.1 (borders g segs fs.2)) ↔
    ∃ b < g.size, m ∈ onBorderSplit (g.pos b) (groupOf (allFragments g segs) b) (borders g segs b) := by
  simp only [List.mem_flatMap, Prod.exists, List.mem_zipIdx_iff_getElem?]
  unfold groups
  simp only [List.getElem?_map, Option.map_eq_some_iff]
  constructor
  · rintro ⟨fs, b, ⟨c, h1, h2⟩, hm⟩
    obtain ⟨h3, h4⟩ := List.getElem?_eq_some_iff.1 h1
    rw [List.getElem_range] at h4
    subst h4
    rw [List.length_range] at h3
    exact ⟨b, h3, by rw [h2]; exact hm⟩
  · rintro ⟨b, h, hm⟩
    exact ⟨_, b, ⟨b, by rw [List.getElem?_range h], rfl⟩, hm⟩

/-- Soundness of a round: fragments never produce a mark or a flag that examining all pairs of edges does not. -/
theorem fragRound_sound {g : Grid} {segs : List (Seg C)} {pairs : List EPair} (hc : Covers pairs segs)
    (hg : InGrid g segs) (hs : segs.Pairwise Seg.lt) {radius : Int} (hr : 0 ≤ radius) :
    (∀ m ∈ (fragRound g radius segs).1, m ∈ (roundMarks radius pairs).1) ∧
    ((fragRound g radius segs).2 = true → (roundMarks radius pairs).2 = true) := by
  obtain ⟨i1, i2⟩ := roundMarks_iff hg.lt hc hr
  have j1 := fun m => (mem_serialSplit (radius := radius) (gs := groups g segs)).1 m
  have j2 := (mem_serialSplit (radius := radius) (gs := groups g segs)).2
  unfold fragRound
  dsimp only
  constructor
  · intro m hm
    rw [i1]
    rcases List.mem_append.1 hm with h | h
    · rw [j1] at h
      obtain ⟨fs, h1, w, hw, hmw⟩ := h
      obtain ⟨b, -, rfl⟩ := mem_groups.1 h1
      rcases work_sound hg hs hw radius with e | ⟨i, j, s, t, a1, a2, a3, e⟩
      · rw [e] at hmw; simp at hmw
      · rw [e] at hmw; exact ⟨i, j, s, t, a1, a2, a3, hmw⟩
    · rw [mem_fragRound_border] at h
      obtain ⟨b, -, hmb⟩ := h
      exact border_sound hg hr hmb
  · intro h
    rw [j2] at h
    rw [i2]
    obtain ⟨fs, h1, w, hw, hmw⟩ := h
    obtain ⟨b, -, rfl⟩ := mem_groups.1 h1
    rcases work_sound hg hs hw radius with e | ⟨i, j, s, t, a1, a2, a3, e⟩
    · rw [e] at hmw; simp at hmw
    · rw [e] at hmw; exact ⟨i, j, s, t, a1, a2, a3, hmw⟩

theorem crossMarks_flag {radius : Int} {p : EPair} (h : (crossMarks radius p).2 = true) :
    (crossMarks radius p).1 ≠ [] := by
  unfold crossMarks at h ⊢
  generalize cross p.ei p.ej radius = r at h ⊢
  cases r with
  | none => simp at h
  | some r =>
    dsimp only at h ⊢
    cases hr : r.type with
    | pure => simp
    | targetEnd => simp
    | otherEnd => simp
    | overlay =>
      rw [hr] at h
      dsimp only at h ⊢
      split
      · rename_i hz; rw [if_pos hz] at h; simp at h
      · rename_i hz
        revert hz
        generalize (collinear p.ei p.ej).targetA = a
        generalize (collinear p.ei p.ej).targetB = b
        generalize (collinear p.ei p.ej).otherA = c
        generalize (collinear p.ei p.ej).otherB = d
        cases a <;> cases b <;> cases c <;> cases d <;> simp

/-- An end of the second edge inside the first one is marked. -/
theorem crossMarks_touch {radius : Int} {p : EPair} (hi : p.ei.a ≠ p.ei.b) (hj : p.ej.a ≠ p.ej.b) {e : Pt} :
    ((e = p.ej.a ∨ e = p.ej.b) → inSeg e.q p.ei.a p.ei.b → ¬ AllOnLine p.ei p.ej →
      (⟨p.i, e⟩ : Mark) ∈ (crossMarks radius p).1) ∧
    ((e = p.ei.a ∨ e = p.ei.b) → inSeg e.q p.ej.a p.ej.b → ¬ AllOnLine p.ei p.ej →
      (⟨p.j, e⟩ : Mark) ∈ (crossMarks radius p).1) := by
  have hend : ∀ {a b x : Pt}, (x = a ∨ x = b) → onSeg x.q a b := by
    rintro a b x (rfl | rfl)
    · exact onSeg_left _ _
    · exact onSeg_right _ _
  have ne : ∀ {a b x : Pt}, a ≠ b → inSeg x.q a b → (x = a ∨ x = b) → False := by
    intro a b x hab h he
    obtain ⟨n1, n2⟩ := h.ne hab
    rcases he with rfl | rfl
    · exact n1 rfl
    · exact n2 rfl
  have zero : ∀ {a b x : Pt}, onSeg x.q a b → area2 a b x = 0 := area2_of_inSeg
  have sp := cross_spec p.ei p.ej hi hj radius
  unfold crossMarks
  dsimp only
  constructor
  · intro he hin hn
    have uniq := fun q => common_unique (not_zero_of_not_all hi hn) (p := e.q) (p' := q) hin.on (hend he)
    generalize cross p.ei p.ej radius = r at sp
    cases sp with
    | overlay h => exact absurd h hn
    | none _ h =>
      exfalso
      rcases (h e.q hin.on (hend he)).1 with h | h
      · exact ne hi hin (Or.inl (Pt.q_inj h))
      · exact ne hi hin (Or.inr (Pt.q_inj h))
    | otherEnd p' _ h1 h2 =>
      have := Pt.q_inj (uniq p'.q h2.on (hend h1))
      subst this
      simp
    | targetEnd p' _ h1 h2 =>
      have := Pt.q_inj (uniq p'.q (hend h1) h2.on)
      subst this
      exact absurd h1 (ne hi hin)
    | middle o1 o2 =>
      exfalso
      have := zero hin.on
      unfold Opp at o1
      rcases he with rfl | rfl <;> omega
  · intro he hin hn
    have uniq := fun q => common_unique (not_zero_of_not_all hi hn) (p := e.q) (p' := q) (hend he) hin.on
    generalize cross p.ei p.ej radius = r at sp
    cases sp with
    | overlay h => exact absurd h hn
    | none _ h =>
      exfalso
      rcases (h e.q (hend he) hin.on).2 with h | h
      · exact ne hj hin (Or.inl (Pt.q_inj h))
      · exact ne hj hin (Or.inr (Pt.q_inj h))
    | otherEnd p' _ h1 h2 =>
      have := Pt.q_inj (uniq p'.q h2.on (hend h1))
      subst this
      exact absurd h1 (ne hj hin)
    | targetEnd p' _ h1 h2 =>
      have := Pt.q_inj (uniq p'.q (hend h1) h2.on)
      subst this
      simp
    | middle o1 o2 =>
      exfalso
      have := zero hin.on
      unfold Opp at o2
      rcases he with rfl | rfl <;> omega

/-- If the end of an edge inside `s` can be discovered, its mark is found. -/
theorem seen_complete {g : Grid} {segs : List (Seg C)} (hg : InGrid g segs) (hs : segs.Pairwise Seg.lt)
    (hsafe : FragSafe g segs) (hR : ∀ s ∈ segs, InRange s.a ∧ InRange s.b) {radius : Int} (hr : 1 ≤ radius)
    (hr' : radius < 2 ^ 31) {i : Nat} {s t : Seg C} (h1 : segs[i]? = some s) (ht : t ∈ segs) {e : Pt}
    (he : e = t.a ∨ e = t.b) (hin : inSeg e.q s.a s.b) :
    ∃ b < g.size, ∃ w ∈ binWork (groupOf (allFragments g segs) b), (⟨i, e⟩ : Mark) ∈ (crossOrdered radius w.1 w.2).1 := by
  have ms := List.mem_of_getElem? h1
  obtain ⟨u, mu, heu, hseen⟩ := hsafe s ms t ht e he hin
  obtain ⟨k, h2⟩ := List.mem_iff_getElem?.1 mu
  have ns := Pt.ne_of_lt (hg.lt s ms)
  have nu := Pt.ne_of_lt (hg.lt u mu)
  have ls := Pt.lt_def.1 (hg.lt s ms)
  have lu := Pt.lt_def.1 (hg.lt u mu)
  have hend : onSeg e.q u.a u.b := by
    rcases heu with rfl | rfl
    · exact onSeg_left _ _
    · exact onSeg_right _ _
  have hne : i ≠ k := by
    rintro rfl
    rw [h1] at h2
    obtain rfl := Option.some.inj h2
    obtain ⟨n1, n2⟩ := hin.ne ns
    rcases heu with rfl | rfl
    · exact n1 rfl
    · exact n2 rfl
  obtain ⟨in1, in2⟩ := inSeg_lt (hg.lt s ms) hin
  rw [Pt.lt_def] at in1 in2
  have t12 : TeeFree g s u := by
    intro a1 a2 a3 a4 a5 b hb
    have hon : onSeg s.b.q u.a u.b := by
      refine onSeg_of_between (hg.lt u mu) ?_ ?_ ?_
      · unfold area2; rw [a2, a3, a2]; ring
      · rw [Pt.lt_def]; omega
      · rw [Pt.lt_def]; omega
    rcases hseen with ⟨h, -⟩ | ⟨h, -⟩
    · have := h.2.2.1
      have h4 := h.2.2.2
      unfold area2 Seg.x at this h4
      simp only at this h4
      have q1 : (u.b.x - u.a.x) * (u.b.y - s.a.y) - (u.b.y - u.a.y) * (u.b.x - s.a.x) = 0 := this
      rw [← a2] at q1
      have : (u.b.y - u.a.y) * (u.a.x - s.a.x) = 0 := by linarith
      rcases mul_eq_zero.1 this with h | h <;> omega
    · have := Pt.q_inj (common_unique (not_zero_of_not_all ns h) (p := e.q) (p' := s.b.q) hin.on hend (onSeg_right _ _) hon)
      rw [this] at in2
      omega
  have t21 : TeeFree g u s := by
    intro a1 a2 a3 a4 a5 b hb
    rcases hseen with ⟨h, -⟩ | ⟨-, h | h | h⟩
    · have := h.1
      unfold area2 Seg.x at this
      simp only at this
      have q1 : (s.b.x - s.a.x) * (s.b.y - u.a.y) - (s.b.y - s.a.y) * (s.b.x - u.a.x) = 0 := this
      rw [← a2] at q1
      have : (s.b.y - s.a.y) * (s.a.x - u.a.x) = 0 := by linarith
      rcases mul_eq_zero.1 this with h | h <;> omega
    · subst h
      omega
    · omega
    · exact h b hb
  rcases Nat.lt_or_gt_of_ne hne with hlt | hlt
  · have hm : (⟨i, e⟩ : Mark) ∈ (crossMarks radius ⟨i, k, s.x, u.x⟩).1 := by
      rcases hseen with ⟨h, -⟩ | ⟨h, -⟩
      · rw [crossMarks_collinear ns nu (by omega) h]
        exact Or.inr ⟨rfl, heu, hin⟩
      · exact (crossMarks_touch (p := ⟨i, k, s.x, u.x⟩) ns nu).1 heu hin h
    obtain ⟨b, hb, w, hw, e'⟩ := work_complete hg hs hR hr hr' hlt h1 h2 (fun h => by
      rcases hseen with ⟨-, h'⟩ | ⟨h', -⟩
      · exact h'
      · exact absurd h h') t12 t21 (List.ne_nil_of_mem hm)
    exact ⟨b, hb, w, hw, by rw [e']; exact hm⟩
  · have hm : (⟨i, e⟩ : Mark) ∈ (crossMarks radius ⟨k, i, u.x, s.x⟩).1 := by
      rcases hseen with ⟨h, -⟩ | ⟨h, -⟩
      · rw [crossMarks_collinear nu ns (by omega) h.symm]
        exact Or.inl ⟨rfl, heu, hin⟩
      · exact (crossMarks_touch (p := ⟨k, i, u.x, s.x⟩) nu ns).2 heu hin (fun h' => h h'.symm)
    obtain ⟨b, hb, w, hw, e'⟩ := work_complete hg hs hR hr hr' hlt h2 h1 (fun h => by
      rcases hseen with ⟨-, h'⟩ | ⟨h', -⟩
      · exact h'.symm
      · exact absurd h.symm h') t21 t12 (List.ne_nil_of_mem hm)
    exact ⟨b, hb, w, hw, by rw [e']; exact hm⟩

/-- Completeness of a round where every touch can be discovered. -/
theorem fragRound_complete {g : Grid} {segs : List (Seg C)} {pairs : List EPair} (hc : Covers pairs segs)
    (hg : InGrid g segs) (hs : segs.Pairwise Seg.lt) (hsafe : FragSafe g segs)
    (hR : ∀ s ∈ segs, InRange s.a ∧ InRange s.b) {radius : Int} (hr : 1 ≤ radius) (hr' : radius < 2 ^ 31) :
    (∀ m ∈ (roundMarks radius pairs).1, m ∈ (fragRound g radius segs).1) ∧
    ((roundMarks radius pairs).2 = true → (fragRound g radius segs).2 = true) := by
  obtain ⟨i1, i2⟩ := roundMarks_iff hg.lt hc (show 0 ≤ radius by omega)
  have j1 := fun m => (mem_serialSplit (radius := radius) (gs := groups g segs)).1 m
  have j2 := (mem_serialSplit (radius := radius) (gs := groups g segs)).2
  -- crossings in the middle of both edges
  have mid : ∀ {i j : Nat} {s t : Seg C}, i < j → segs[i]? = some s → segs[j]? = some t →
      (crossMarks radius ⟨i, j, s.x, t.x⟩).1 ≠ [] →
      (∃ q, inSeg q s.a s.b ∧ inSeg q t.a t.b) → ¬ AllOnLine s.x t.x →
      ∃ b < g.size, ∃ w ∈ binWork (groupOf (allFragments g segs) b),
        crossOrdered radius w.1 w.2 = crossMarks radius ⟨i, j, s.x, t.x⟩ := by
    intro i j s t hij h1 h2 hne ⟨q, q1, q2⟩ hn
    have ms := List.mem_of_getElem? h1
    have mt := List.mem_of_getElem? h2
    have ls := Pt.lt_def.1 (hg.lt s ms)
    have lt := Pt.lt_def.1 (hg.lt t mt)
    have ns := Pt.ne_of_lt (hg.lt s ms)
    have nt := Pt.ne_of_lt (hg.lt t mt)
    refine work_complete hg hs hR hr hr' hij h1 h2 (fun h => absurd h hn) ?_ ?_ hne
    · intro a1 a2 a3 a4 a5 b hb
      have hon : onSeg s.b.q t.a t.b := by
        refine onSeg_of_between (hg.lt t mt) ?_ ?_ ?_
        · unfold area2; rw [a2, a3, a2]; ring
        · rw [Pt.lt_def]; omega
        · rw [Pt.lt_def]; omega
      exact (q1.ne ns).2 (common_unique (not_zero_of_not_all ns hn) q1.on q2.on (onSeg_right _ _) hon)
    · intro a1 a2 a3 a4 a5 b hb
      have hon : onSeg t.b.q s.a s.b := by
        refine onSeg_of_between (hg.lt s ms) ?_ ?_ ?_
        · unfold area2; rw [a2, a3, a2]; ring
        · rw [Pt.lt_def]; omega
        · rw [Pt.lt_def]; omega
      exact (q2.ne nt).2 (common_unique (not_zero_of_not_all ns hn) q1.on q2.on hon (onSeg_right _ _))
  unfold fragRound
  dsimp only
  constructor
  · intro m hm
    rw [i1] at hm
    obtain ⟨i, j, s, t, a1, a2, a3, hm⟩ := hm
    have ms := List.mem_of_getElem? a2
    have mt := List.mem_of_getElem? a3
    refine List.mem_append_left _ ?_
    rw [j1]
    have sp := crossMarks_spec ⟨i, j, s.x, t.x⟩ (Pt.ne_of_lt (hg.lt s ms)) (Pt.ne_of_lt (hg.lt t mt))
      (show 0 ≤ radius by omega)
    have fin : (∃ b < g.size, ∃ w ∈ binWork (groupOf (allFragments g segs) b), m ∈ (crossOrdered radius w.1 w.2).1) →
        ∃ fs ∈ groups g segs, ∃ w ∈ binWork fs, m ∈ (crossOrdered radius w.1 w.2).1 := by
      rintro ⟨b, hb, w, hw, h⟩
      exact ⟨_, mem_groups.2 ⟨b, hb, rfl⟩, w, hw, h⟩
    have mid' : (∃ q, inSeg q s.a s.b ∧ inSeg q t.a t.b) → ¬ AllOnLine s.x t.x →
        ∃ b < g.size, ∃ w ∈ binWork (groupOf (allFragments g segs) b), m ∈ (crossOrdered radius w.1 w.2).1 := by
      intro hq hn
      obtain ⟨b, hb, w, hw, e⟩ := mid a1 a2 a3 (List.ne_nil_of_mem hm) hq hn
      exact ⟨b, hb, w, hw, by rw [e]; exact hm⟩
    apply fin
    obtain ⟨mi, mp⟩ := m
    generalize crossMarks radius ⟨i, j, s.x, t.x⟩ = r at sp hm
    cases sp with
    | none => simp at hm
    | endI pt _ h1 h2 =>
      simp only [List.mem_singleton, Mark.mk.injEq] at hm
      obtain ⟨rfl, rfl⟩ := hm
      exact seen_complete hg hs hsafe hR hr hr' a2 mt h1 h2
    | endJ pt _ h1 h2 =>
      simp only [List.mem_singleton, Mark.mk.injEq] at hm
      obtain ⟨rfl, rfl⟩ := hm
      exact seen_complete hg hs hsafe hR hr hr' a3 ms h1 h2
    | both pt hn h1 h2 => exact mid' ⟨_, h1, h2⟩ hn
    | round l hn h _ _ => exact mid' h hn
    | overlay l _ h =>
      rw [h] at hm
      rcases hm with ⟨e, h1, h2⟩ | ⟨e, h1, h2⟩
      · dsimp only at e h1 h2
        subst e
        exact seen_complete hg hs hsafe hR hr hr' a3 ms h1 h2
      · dsimp only at e h1 h2
        subst e
        exact seen_complete hg hs hsafe hR hr hr' a2 mt h1 h2
  · intro h
    rw [i2] at h
    obtain ⟨i, j, s, t, a1, a2, a3, hm⟩ := h
    have ms := List.mem_of_getElem? a2
    have mt := List.mem_of_getElem? a3
    have sp := crossMarks_spec ⟨i, j, s.x, t.x⟩ (Pt.ne_of_lt (hg.lt s ms)) (Pt.ne_of_lt (hg.lt t mt))
      (show 0 ≤ radius by omega)
    have hq : (∃ q, inSeg q s.a s.b ∧ inSeg q t.a t.b) ∧ ¬ AllOnLine s.x t.x := by
      generalize crossMarks radius ⟨i, j, s.x, t.x⟩ = r at sp hm
      cases sp with
      | none => simp at hm
      | endI pt _ h1 h2 => simp at hm
      | endJ pt _ h1 h2 => simp at hm
      | both pt hn h1 h2 => simp at hm
      | round l hn h _ _ => exact ⟨h, hn⟩
      | overlay l _ h => simp at hm
    obtain ⟨b, hb, w, hw, e⟩ := mid a1 a2 a3 (crossMarks_flag hm) hq.1 hq.2
    rw [j2]
    exact ⟨_, mem_groups.2 ⟨b, hb, rfl⟩, w, hw, by rw [e]; exact hm⟩

end IOverlay
