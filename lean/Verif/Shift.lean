/-
Shifting the input: the phases up to the noded edges commute with adding a vector to all points.
-/
import Verif.Split
import Verif.Links

namespace IOverlay
variable {C : Type}

/-- The point moved by a vector. -/
def Pt.shift (p v : Pt) : Pt := ⟨p.x + v.x, p.y + v.y⟩

def XSeg.shift (v : Pt) (e : XSeg) : XSeg := ⟨e.a.shift v, e.b.shift v⟩
def Seg.shift (v : Pt) (s : Seg C) : Seg C := ⟨s.a.shift v, s.b.shift v, s.c⟩
def Mark.shift (v : Pt) (m : Mark) : Mark := ⟨m.index, m.point.shift v⟩
def EPair.shift (v : Pt) (p : EPair) : EPair := ⟨p.i, p.j, p.ei.shift v, p.ej.shift v⟩

variable (v : Pt)

@[simp] theorem shift_x (p : Pt) : (p.shift v).x = p.x + v.x := rfl
@[simp] theorem shift_y (p : Pt) : (p.shift v).y = p.y + v.y := rfl
@[simp] theorem xseg_shift_a (e : XSeg) : (e.shift v).a = e.a.shift v := rfl
@[simp] theorem xseg_shift_b (e : XSeg) : (e.shift v).b = e.b.shift v := rfl
@[simp] theorem seg_shift_a (s : Seg C) : (s.shift v).a = s.a.shift v := rfl
@[simp] theorem seg_shift_b (s : Seg C) : (s.shift v).b = s.b.shift v := rfl
@[simp] theorem seg_shift_c (s : Seg C) : (s.shift v).c = s.c := rfl
@[simp] theorem seg_shift_x (s : Seg C) : (s.shift v).x = s.x.shift v := rfl

@[simp] theorem shift_inj {p q : Pt} : p.shift v = q.shift v ↔ p = q := by
  rw [Pt.ext_iff', Pt.ext_iff']; simp

@[simp] theorem shift_lt {p q : Pt} : p.shift v < q.shift v ↔ p < q := by
  rw [Pt.lt_def, Pt.lt_def]; simp

@[simp] theorem area2_shift (p q r : Pt) : area2 (p.shift v) (q.shift v) (r.shift v) = area2 p q r := by
  unfold area2; simp only [shift_x, shift_y]; ring

@[simp] theorem sqrDist_shift (p q : Pt) : sqrDist (p.shift v) (q.shift v) = sqrDist p q := by
  unfold sqrDist; simp only [shift_x, shift_y]; ring

@[simp] theorem isLine_shift (p q r : Pt) : isLine (p.shift v) (q.shift v) (r.shift v) = isLine p q r := by
  unfold isLine; simp

@[simp] theorem clockDir_shift (p q r : Pt) : clockDir (p.shift v) (q.shift v) (r.shift v) = clockDir p q r := by
  unfold clockDir; simp

/-! ### building -/

theorem withAB_shift (a b : Pt) (d i : C) : withAB (a.shift v) (b.shift v) d i = (withAB a b d i).shift v := by
  unfold withAB
  by_cases h : a < b <;> simp [h, Seg.shift]

theorem skipLine_shift (l : List Pt) : ∀ p q : Pt, skipLine (p.shift v) (q.shift v) (l.map (·.shift v)) =
    ((skipLine p q l).1.shift v, (skipLine p q l).2.1.shift v, (skipLine p q l).2.2.map (·.shift v)) := by
  induction l with
  | nil => intro p q; rfl
  | cons m l ih =>
    intro p q
    rw [List.map_cons, skipLine, skipLine, isLine_shift]
    split
    · rfl
    · exact ih p m

theorem mainLoop_shift (d i : C) (l : List Pt) : ∀ p q : Pt, mainLoop d i (p.shift v) (q.shift v) (l.map (·.shift v)) =
    ((mainLoop d i p q l).1.map (·.shift v), (mainLoop d i p q l).2.1.shift v, (mainLoop d i p q l).2.2.shift v) := by
  induction l with
  | nil => intro p q; rfl
  | cons m l ih =>
    intro p q
    rw [List.map_cons, mainLoop, mainLoop, isLine_shift]
    split
    · exact ih p m
    · rw [ih q m, withAB_shift]; rfl

theorem closePath_shift (d i : C) (q0 q1 p0 p1 : Pt) :
    closePath d i (q0.shift v) (q1.shift v) (p0.shift v) (p1.shift v) = (closePath d i q0 q1 p0 p1).map (·.shift v) := by
  unfold closePath
  simp only [isLine_shift, withAB_shift, ne_eq, shift_inj]
  cases isLine p0 p1 q0 <;> cases isLine q0 q1 p1 <;> simp only <;> (try split_ifs) <;> simp

theorem appendPath_shift (d i : C) (l : List Pt) :
    appendPath d i (l.map (·.shift v)) = (appendPath d i l).map (·.shift v) := by
  rcases l with _ | ⟨q, _ | ⟨p, l⟩⟩
  · rfl
  · rfl
  · simp only [List.map_cons, appendPath]
    rw [skipLine_shift, mainLoop_shift, closePath_shift, List.map_append]

theorem overlaySegments_shift [WindingCount C] (subj clip : List (List Pt)) :
    (overlaySegments (subj.map (·.map (·.shift v))) (clip.map (·.map (·.shift v))) : List (Seg C)) =
      (overlaySegments subj clip).map (·.shift v) := by
  unfold overlaySegments appendContour
  rw [List.map_append, List.flatMap_map, List.flatMap_map, List.map_flatMap, List.map_flatMap]
  simp only [appendPath_shift]

/-! ### sorting and merging -/

@[simp] theorem seg_le_shift (s t : Seg C) : (s.shift v).le (t.shift v) = s.le t := by
  unfold Seg.le; simp

@[simp] theorem sameX_shift (s t : Seg C) : (s.shift v).sameX (t.shift v) = s.sameX t := by
  unfold Seg.sameX; simp

theorem insertSeg_shift (s : Seg C) (l : List (Seg C)) :
    insertSeg (s.shift v) (l.map (·.shift v)) = (insertSeg s l).map (·.shift v) := by
  induction l with
  | nil => rfl
  | cons t l ih =>
    rw [List.map_cons, insertSeg, insertSeg, seg_le_shift]
    split
    · simp
    · rw [ih]; simp

theorem sortSegs_shift (l : List (Seg C)) : sortSegs (l.map (·.shift v)) = (sortSegs l).map (·.shift v) := by
  unfold sortSegs
  induction l with
  | nil => rfl
  | cons s l ih => rw [List.map_cons, List.foldr_cons, ih, insertSeg_shift, List.foldr_cons]

theorem mergeLoop_shift [WindingCount C] (l : List (Seg C)) : ∀ p : Seg C,
    mergeLoop (p.shift v) (l.map (·.shift v)) = (mergeLoop p l).map (·.shift v) := by
  induction l with
  | nil => intro p; rw [List.map_nil, mergeLoop, mergeLoop, seg_shift_c]; split <;> simp
  | cons s l ih =>
    intro p
    rw [List.map_cons, mergeLoop, mergeLoop, sameX_shift, seg_shift_c, seg_shift_c]
    split
    · exact ih { p with c := WindingCount.add p.c s.c }
    · split
      · rw [ih s]; simp
      · exact ih s

theorem mergeIfNeeded_shift [WindingCount C] (l : List (Seg C)) :
    mergeIfNeeded (l.map (·.shift v)) = (mergeIfNeeded l).map (·.shift v) := by
  have scan : ∀ (l : List (Seg C)) (p : Seg C), mergeScan (p.shift v) (l.map (·.shift v)) = (mergeScan p l).map (·.shift v) := by
    intro l
    induction l with
    | nil => intro p; rfl
    | cons s l ih =>
      intro p
      rw [List.map_cons, mergeScan, mergeScan, sameX_shift]
      split
      · exact mergeLoop_shift v (s :: l) p
      · rw [ih s]; simp
  cases l with
  | nil => rfl
  | cons p l => exact scan l p

/-! ### crossings -/

theorem crossPoint_shift (t o : XSeg) : crossPoint (t.shift v) (o.shift v) = (crossPoint t o).shift v := by
  have e1 : ∀ p q : Pt, (p.shift v).x - (q.shift v).x = p.x - q.x := by intros; simp
  have e2 : ∀ p q : Pt, (p.shift v).y - (q.shift v).y = p.y - q.y := by intros; simp
  unfold crossPoint
  simp only [xseg_shift_a, xseg_shift_b, e1, e2]
  split_ifs <;> simp only [Pt.shift, Pt.mk.injEq] <;> constructor <;> ring

/-- The result of a crossing test moved by a vector; the point is not used for collinear edges. -/
def CrossResult.shift (r : CrossResult) : CrossResult := { r with point := r.point.shift v }

theorem middleCross_shift (t o : XSeg) (radius : Int) :
    middleCross (t.shift v) (o.shift v) radius = (middleCross t o radius).shift v := by
  unfold middleCross
  simp only [crossPoint_shift, xseg_shift_a, xseg_shift_b, isLine_shift, sqrDist_shift]
  have ite : ∀ (c : Prop) [Decidable c] (p q : Pt), (if c then p.shift v else q.shift v) = (if c then p else q).shift v := by
    intros c _ p q; split <;> rfl
  simp only [ite, isLine_shift]
  split_ifs <;> rfl

@[simp] theorem dot_shift (p q r s : Pt) : dot (p.shift v) (q.shift v) (r.shift v) (s.shift v) = dot p q r s := by
  unfold dot; simp only [shift_x, shift_y]; ring

theorem collinear_shift (t o : XSeg) : collinear (t.shift v) (o.shift v) = collinear t o := by
  unfold collinear; simp

theorem cross_shift (t o : XSeg) (radius : Int) :
    (cross t o radius = none ∧ cross (t.shift v) (o.shift v) radius = none) ∨
    (∃ r, cross t o radius = some r ∧ r.type ≠ .overlay ∧ cross (t.shift v) (o.shift v) radius = some (r.shift v)) ∨
    (cross t o radius = some ⟨⟨0, 0⟩, .overlay, false⟩ ∧ cross (t.shift v) (o.shift v) radius = some ⟨⟨0, 0⟩, .overlay, false⟩) := by
  have mid : (middleCross t o radius).type ≠ .overlay := by
    unfold middleCross
    dsimp only
    split_ifs <;> simp
  unfold cross
  simp only [xseg_shift_a, xseg_shift_b, clockDir_shift, middleCross_shift]
  split_ifs
  · exact Or.inr (Or.inr ⟨rfl, rfl⟩)
  · exact Or.inl ⟨rfl, rfl⟩
  · exact Or.inr (Or.inl ⟨_, rfl, by simp, rfl⟩)
  · exact Or.inr (Or.inl ⟨_, rfl, by simp, rfl⟩)
  · exact Or.inr (Or.inl ⟨_, rfl, by simp, rfl⟩)
  · exact Or.inr (Or.inl ⟨_, rfl, by simp, rfl⟩)
  · exact Or.inr (Or.inl ⟨_, rfl, mid, rfl⟩)

theorem crossMarks_shift (radius : Int) (p : EPair) :
    crossMarks radius (p.shift v) = ((crossMarks radius p).1.map (·.shift v), (crossMarks radius p).2) := by
  unfold crossMarks
  have e1 : (p.shift v).ei = p.ei.shift v := rfl
  have e2 : (p.shift v).ej = p.ej.shift v := rfl
  have e3 : (p.shift v).i = p.i := rfl
  have e4 : (p.shift v).j = p.j := rfl
  rw [e1, e2, e3, e4]
  rcases cross_shift v p.ei p.ej radius with ⟨h1, h2⟩ | ⟨r, h1, h3, h2⟩ | ⟨h1, h2⟩
  · rw [h1, h2]; rfl
  · rw [h1, h2]
    obtain ⟨pt, ty, rd⟩ := r
    cases ty
    · rfl
    · rfl
    · rfl
    · exact absurd rfl h3
  · rw [h1, h2]
    simp only [collinear_shift]
    split
    · rfl
    · refine Prod.ext ?_ rfl
      simp only [List.map_append]
      congr 1
      · congr 1
        · congr 1
          · split <;> rfl
          · split <;> rfl
        · split <;> rfl
      · split <;> rfl

theorem roundMarks_shift (radius : Int) (l : List EPair) :
    roundMarks radius (l.map (·.shift v)) = ((roundMarks radius l).1.map (·.shift v), (roundMarks radius l).2) := by
  unfold roundMarks
  rw [List.flatMap_map, List.map_flatMap, List.any_map]
  simp only [crossMarks_shift, Function.comp_def]

theorem notIntersectY_shift (e f : XSeg) : notIntersectY (e.shift v) (yRange (f.shift v)) = notIntersectY e (yRange f) := by
  unfold notIntersectY yRange
  simp only [xseg_shift_a, xseg_shift_b, shift_y, add_lt_add_iff_right]
  split <;> simp

theorem listScan_shift (i : Nat) (e : XSeg) (l : List (Seg C)) : ∀ j,
    listScan i (e.shift v) j (l.map (·.shift v)) = (listScan i e j l).map (·.shift v) := by
  induction l with
  | nil => intro j; rfl
  | cons s l ih =>
    intro j
    rw [List.map_cons, listScan, listScan, seg_shift_x, notIntersectY_shift, ih]
    simp only [xseg_shift_b, seg_shift_a, shift_x, add_lt_add_iff_right]
    split
    · rfl
    · split
      · rfl
      · rfl

theorem listPairs_shift (l : List (Seg C)) : listPairs (l.map (·.shift v)) = (listPairs l).map (·.shift v) := by
  have : ∀ (l : List (Seg C)) (i : Nat), listPairsFrom i (l.map (·.shift v)) = (listPairsFrom i l).map (·.shift v) := by
    intro l
    induction l with
    | nil => intro i; rfl
    | cons s l ih => intro i; rw [List.map_cons, listPairsFrom, listPairsFrom, seg_shift_x, listScan_shift, ih, List.map_append]
  exact this l 0

/-! ### applying marks -/

theorem insertPt_shift (p : Pt) (l : List Pt) : insertPt (p.shift v) (l.map (·.shift v)) = (insertPt p l).map (·.shift v) := by
  induction l with
  | nil => rfl
  | cons q l ih =>
    rw [List.map_cons, insertPt, insertPt]
    simp only [shift_lt, shift_inj]
    split
    · rfl
    · split
      · rfl
      · rw [ih]; rfl

theorem pointsOf_shift (i : Nat) (marks : List Mark) :
    pointsOf i (marks.map (·.shift v)) = (pointsOf i marks).map (·.shift v) := by
  unfold pointsOf
  induction marks with
  | nil => rfl
  | cons m l ih =>
    rw [List.map_cons, List.filter_cons, List.filter_cons]
    have e : (m.shift v).index = m.index := rfl
    rw [e]
    split
    · rw [List.map_cons, List.map_cons, List.foldr_cons, List.foldr_cons, ih]
      exact insertPt_shift v m.point _
    · exact ih

theorem takeWhile_shift (x : Int) (l : List Pt) :
    (l.map (·.shift v)).takeWhile (fun q => q.x == x + v.x) = (l.takeWhile fun q => q.x == x).map (·.shift v) ∧
    (l.map (·.shift v)).dropWhile (fun q => q.x == x + v.x) = (l.dropWhile fun q => q.x == x).map (·.shift v) := by
  rw [List.takeWhile_map, List.dropWhile_map]
  have : ((fun q : Pt => q.x == x + v.x) ∘ fun p => p.shift v) = fun q : Pt => q.x == x := by
    funext q
    simp only [Function.comp_apply, shift_x]
    rw [Bool.eq_iff_iff, beq_iff_eq, beq_iff_eq]; omega
  rw [this]
  exact ⟨rfl, rfl⟩

theorem subSort_shift : ∀ (n : Nat) (y : Int) (b : Pt) (l : List Pt),
    subSort n (y + v.y) (b.shift v) (l.map (·.shift v)) = (subSort n y b l).map (·.shift v) := by
  intro n
  induction n with
  | zero => intro y b l; rfl
  | succ n ih =>
    intro y b l
    cases l with
    | nil => rfl
    | cons p rest =>
      rw [List.map_cons, subSort, subSort]
      obtain ⟨t1, t2⟩ := takeWhile_shift v p.x rest
      simp only [shift_x, t1, t2]
      generalize (rest.takeWhile fun q => q.x == p.x) = run
      generalize (rest.dropWhile fun q => q.x == p.x) = tail
      have hrun : p.shift v :: run.map (·.shift v) = (p :: run).map (·.shift v) := rfl
      rw [hrun]
      suffices key : ∀ y1 : Int,
          (if y + v.y > y1 + v.y then ((p :: run).map (·.shift v)).reverse else (p :: run).map (·.shift v)) ++
            subSort n ((((if y + v.y > y1 + v.y then ((p :: run).map (·.shift v)).reverse
              else (p :: run).map (·.shift v)).getLast?).map Pt.y).getD (y + v.y)) (b.shift v) (tail.map (·.shift v)) =
          ((if y > y1 then (p :: run).reverse else p :: run) ++
            subSort n ((((if y > y1 then (p :: run).reverse else p :: run).getLast?).map Pt.y).getD y) b tail).map
              (·.shift v) by
        cases tail with
        | nil => exact key b.y
        | cons t tl => exact key t.y
      intro y1
      have hif : (if y + v.y > y1 + v.y then ((p :: run).map (·.shift v)).reverse else (p :: run).map (·.shift v)) =
          (if y > y1 then (p :: run).reverse else p :: run).map (·.shift v) := by
        simp only [gt_iff_lt, add_lt_add_iff_right]
        split
        · rw [List.map_reverse]
        · rfl
      rw [hif]
      generalize (if y > y1 then (p :: run).reverse else p :: run) = run'
      rw [List.map_append]
      congr 1
      have hlast : (((run'.map (·.shift v)).getLast?).map Pt.y).getD (y + v.y) = ((run'.getLast?).map Pt.y).getD y + v.y := by
        rw [List.getLast?_map]
        cases run'.getLast? <;> rfl
      rw [hlast, ih]

theorem createValidate_shift [WindingCount C] (a b : Pt) (c : C) :
    createValidate (a.shift v) (b.shift v) c = (createValidate a b c).shift v := by
  unfold createValidate
  simp only [shift_lt]
  split <;> rfl

theorem chainSegs_shift [WindingCount C] (c : C) (b : Pt) (l : List Pt) : ∀ p : Pt,
    chainSegs c (b.shift v) (p.shift v) (l.map (·.shift v)) = (chainSegs c b p l).map (·.shift v) := by
  induction l with
  | nil => intro p; simp only [List.map_nil, chainSegs, List.map_cons, createValidate_shift]
  | cons m l ih => intro p; simp only [List.map_cons, chainSegs, createValidate_shift, ih]

theorem splitSeg_shift [WindingCount C] (marks : List Mark) (i : Nat) (s : Seg C) :
    splitSeg (marks.map (·.shift v)) i (s.shift v) = (splitSeg marks i s).map (·.shift v) := by
  unfold splitSeg
  rw [pointsOf_shift]
  cases pointsOf i marks with
  | nil => rfl
  | cons m rest =>
    simp only [List.map_cons, List.length_map, seg_shift_a, seg_shift_b, seg_shift_c, shift_y]
    have h := subSort_shift v (rest.length + 1) s.a.y s.b (m :: rest)
    rw [List.map_cons] at h
    rw [h, chainSegs_shift]

theorem splitAll_shift [WindingCount C] (marks : List Mark) (l : List (Seg C)) : ∀ i,
    splitAll (marks.map (·.shift v)) i (l.map (·.shift v)) = (splitAll marks i l).map (·.shift v) := by
  induction l with
  | nil => intro i; rfl
  | cons s l ih => intro i; rw [List.map_cons, splitAll, splitAll, splitSeg_shift, ih, List.map_append]

theorem applyMarks_shift [WindingCount C] (marks : List Mark) (l : List (Seg C)) :
    applyMarks (marks.map (·.shift v)) (l.map (·.shift v)) = (applyMarks marks l).map (·.shift v) := by
  unfold applyMarks
  rw [splitAll_shift, sortSegs_shift, mergeIfNeeded_shift]

/-- The rounds of the list strategy commute with shifting. -/
theorem splitLoop_shift [WindingCount C] (tree tree' : TreeOracle C) (n : Nat) : ∀ (sr : SnapRadius) (segs : List (Seg C)),
    splitLoop .list tree n .list sr (segs.map (·.shift v)) = (splitLoop .list tree' n .list sr segs).map (·.map (·.shift v)) := by
  induction n with
  | zero => intro sr segs; rfl
  | succ n ih =>
    intro sr segs
    rw [splitLoop, splitLoop]
    simp only [List.length_map, listPairs_shift, roundMarks_shift, List.isEmpty_map, applyMarks_shift, ih]
    split
    · rfl
    · split
      · rfl
      · split
        · rfl
        · rfl

end IOverlay
