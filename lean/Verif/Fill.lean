/-
The fill sweep (fill/solver.rs): winding counts of the two sides of every edge.
-/
import Verif.Column
import Verif.RuleLemmas

namespace IOverlay
open WindingCount
variable {C : Type}

/-- `VSegment::is_under_segment_order` (= `Ord::cmp`), geom/v_segment.rs:15-22. -/
def vCmp (s t : Seg C) : Ordering :=
  if s.a < t.a then clockOrder s.a t.a s.b
  else if s.a = t.a then clockOrder s.a t.b s.b
  else clockOrder t.a t.b s.a

/-- `VSegment::is_under_point_order`, geom/v_segment.rs:24-30. -/
def underPt (s : Seg C) (p : Pt) : Ordering := clockOrder s.a p s.b

/-- The scan list (`i_tree` `KeyExpList` / `KeyExpTree`, external crate): `lookup entries time p d` is
`first_less_or_equal_by(time, d, |s| s.is_under_point_order(p))`, fill/solver.rs:65-66. An entry is
a `VSegment` key (`a`, `b`) with the stored count `c`. The collection is a parameter of the model. -/
structure ScanOracle (C : Type) where
  lookup : List (Seg C) → Int → Pt → C → C

/-- Contract of the scan list: entries expire when their right end is reached (`expiration`,
geom/v_segment.rs:86-91); among the live entries not above the point, the greatest one with respect
to `VSegment::cmp` is found, or the default is returned if there is none. -/
structure ScanOracle.Ok (sc : ScanOracle C) : Prop where
  none_under : ∀ (es : List (Seg C)) (t : Int) (p : Pt) (d : C),
    (∀ e ∈ es, t < e.b.x → underPt e p = .gt) → sc.lookup es t p d = d
  greatest : ∀ (es : List (Seg C)) (t : Int) (p : Pt) (d : C) (e : Seg C),
    e ∈ es → t < e.b.x → underPt e p ≠ .gt →
    (∀ e' ∈ es, t < e'.b.x → underPt e' p ≠ .gt → e' = e ∨ vCmp e' e = .lt) →
    sc.lookup es t p d = e.c

/-- The comparison of `buf.sort_by`, fill/solver.rs:62. -/
def endCmp (p : Pt) (s t : Seg C) : Ordering := clockOrder p t.b s.b

/-- Insertion into a sorted buffer (helper of `sortEnds`). -/
def insertEnd (p : Pt) (x : Seg C × Nat) : List (Seg C × Nat) → List (Seg C × Nat)
  | [] => [x]
  | y :: r => if endCmp p x.1 y.1 = .gt then y :: insertEnd p x r else x :: y :: r

/-- `buf.sort_by`, fill/solver.rs:61-63 (a stable sort; insertion sort in the model). -/
def sortEnds (p : Pt) (l : List (Seg C × Nat)) : List (Seg C × Nat) := l.foldr (insertEnd p) []

/-- The `for se in buf` loop, fill/solver.rs:69-76: pairs (index, fill) written to `result`, and the
new scan list. `F` is `FillStrategy::add_and_fill`. -/
def flush (F : C → C → C × Fill) : List (Seg C) → C → List (Seg C × Nat) →
    List (Nat × Fill) × List (Seg C)
  | scan, _, [] => ([], scan)
  | scan, sum, (s, i) :: rest =>
    let r := F s.c sum
    let scan' := if s.a.x ≠ s.b.x then scan ++ [⟨s.a, s.b, r.1⟩] else scan
    let q := flush F scan' r.1 rest
    ((i, r.2) :: q.1, q.2)

/-- One iteration of the outer loop after the buffer is filled, fill/solver.rs:61-78. -/
def processNode [WindingCount C] (sc : ScanOracle C) (F : C → C → C × Fill) (scan : List (Seg C))
    (p : Pt) (buf : List (Seg C × Nat)) : List (Nat × Fill) × List (Seg C) :=
  flush F scan (sc.lookup scan p.x p zero) (sortEnds p buf)

/-- The outer loop of `FillSolver::solve`, fill/solver.rs:44-79: `p` is the current left end, `buf`
the edges collected so far. -/
def fillLoop [WindingCount C] (sc : ScanOracle C) (F : C → C → C × Fill) :
    List (Seg C) → Pt → List (Seg C × Nat) → List (Seg C × Nat) → List (Nat × Fill)
  | scan, p, buf, [] => (processNode sc F scan p buf).1
  | scan, p, buf, x :: rest =>
    if x.1.a = p then fillLoop sc F scan p (buf ++ [x]) rest
    else
      let r := processNode sc F scan p buf
      r.1 ++ fillLoop sc F r.2 x.1.a [x] rest

/-- All writes to `result` of `FillSolver::solve`. -/
def fillWrites [WindingCount C] (sc : ScanOracle C) (F : C → C → C × Fill) (segs : List (Seg C)) :
    List (Nat × Fill) :=
  match segs.zipIdx with
  | [] => []
  | x :: rest => fillLoop sc F [] x.1.a [x] rest

/-- `FillSolver::solve`, fill/solver.rs:34-82. -/
def fillSweep [WindingCount C] (sc : ScanOracle C) (F : C → C → C × Fill) (segs : List (Seg C)) :
    List Fill :=
  (fillWrites sc F segs).foldl (fun r w => r.set w.1 w.2) (List.replicate segs.length NONE)

/-- The scan list as a plain list: the greatest live entry not above the point. -/
def listScanOracle : ScanOracle C where
  lookup es t p d :=
    let live := es.filter fun e => decide (t < e.b.x) && (underPt e p != .gt)
    match live with
    | [] => d
    | e :: rest => (rest.foldl (fun b e' => if vCmp e' b = .lt then b else e') e).c

/-- A list in which `e` is the unique greatest element: the fold finds it. -/
theorem foldl_greatest (e : Seg C) (l : List (Seg C)) (b : Seg C) (he : e ∈ b :: l)
    (h : ∀ e' ∈ b :: l, e' = e ∨ vCmp e' e = .lt)
    (_hirr : vCmp e e ≠ .lt) (hanti : ∀ e' ∈ b :: l, e' ≠ e → vCmp e e' ≠ .lt) :
    l.foldl (fun b e' => if vCmp e' b = .lt then b else e') b = e := by
  induction l generalizing b with
  | nil => simp at he; simp [he]
  | cons x l ih =>
    rw [List.foldl_cons]
    have hx := h x (by simp)
    have hb := h b (by simp)
    by_cases hlt : vCmp x b = .lt
    · rw [if_pos hlt]
      refine ih b ?_ (fun e' h' => h e' ?_) (fun e' h' => hanti e' ?_)
      · rcases List.mem_cons.1 he with h1 | h1
        · rw [h1]; simp
        · rcases List.mem_cons.1 h1 with h2 | h2
          · subst h2
            by_cases hbe : b = e
            · rw [hbe]; simp
            · exact absurd hlt (hanti b (by simp) hbe)
          · exact List.mem_cons_of_mem _ h2
      · rcases List.mem_cons.1 h' with h1 | h1
        · rw [h1]; simp
        · exact List.mem_cons_of_mem _ (List.mem_cons_of_mem _ h1)
      · rcases List.mem_cons.1 h' with h1 | h1
        · rw [h1]; simp
        · exact List.mem_cons_of_mem _ (List.mem_cons_of_mem _ h1)
    · rw [if_neg hlt]
      refine ih x ?_ (fun e' h' => h e' ?_) (fun e' h' => hanti e' ?_)
      · rcases List.mem_cons.1 he with h1 | h1
        · subst h1
          rcases hx with h2 | h2
          · rw [h2]; simp
          · exact absurd h2 hlt
        · exact h1
      · exact List.mem_cons_of_mem _ h'
      · exact List.mem_cons_of_mem _ h'

theorem clockOrder_lt {a b c : Pt} : clockOrder a b c = .lt ↔ 0 < area2 a b c := by
  unfold clockOrder; rw [Int.compare_eq_lt]

theorem clockOrder_gt {a b c : Pt} : clockOrder a b c = .gt ↔ area2 a b c < 0 := by
  unfold clockOrder; rw [Int.compare_eq_gt]

theorem vCmp_asymm {s t : Seg C} (h : vCmp s t = .lt) : vCmp t s ≠ .lt := by
  unfold vCmp at *
  have e1 := area2_swap
  rcases Pt.lt_tri s.a t.a with hl | hl | hl
  · rw [if_pos hl, clockOrder_lt] at h
    rw [if_neg (Pt.lt_asymm hl), if_neg (Ne.symm (Pt.ne_of_lt hl)), Ne, clockOrder_lt]
    have : area2 s.a s.b t.a = - area2 s.a t.a s.b := by unfold area2; ring
    omega
  · rw [if_neg (by rw [hl]; exact Pt.lt_irrefl _), if_pos hl, clockOrder_lt] at h
    rw [if_neg (by rw [hl]; exact Pt.lt_irrefl _), if_pos hl.symm, Ne, clockOrder_lt]
    have : area2 t.a s.b t.b = - area2 t.a t.b s.b := by unfold area2; ring
    rw [hl] at h
    omega
  · rw [if_neg (Pt.lt_asymm hl), if_neg (Ne.symm (Pt.ne_of_lt hl)), clockOrder_lt] at h
    rw [if_pos hl, Ne, clockOrder_lt]
    have : area2 t.a t.b s.a = - area2 t.a s.a t.b := by unfold area2; ring
    omega

/-- The contract is satisfiable: the plain list satisfies it. -/
theorem listScanOracle_ok : (listScanOracle : ScanOracle C).Ok := by
  refine ⟨?_, ?_⟩
  · intro es t p d h
    have : (es.filter fun e => decide (t < e.b.x) && (underPt e p != .gt)) = [] := by
      rw [List.filter_eq_nil_iff]
      intro e he
      by_cases ht : t < e.b.x
      · simp [h e he ht]
      · simp [ht]
    simp only [listScanOracle, this]
  · intro es t p d e he ht hu hall
    have hm : e ∈ es.filter fun e => decide (t < e.b.x) && (underPt e p != .gt) := by
      rw [List.mem_filter]; refine ⟨he, ?_⟩; simp [ht, hu]
    simp only [listScanOracle]
    generalize hl : (es.filter fun e => decide (t < e.b.x) && (underPt e p != .gt)) = l at hm
    have hall' : ∀ e' ∈ l, e' = e ∨ vCmp e' e = .lt := by
      intro e' h'
      rw [← hl, List.mem_filter] at h'
      have h2 := h'.2
      rw [Bool.and_eq_true, decide_eq_true_eq, bne_iff_ne] at h2
      exact hall e' h'.1 h2.1 h2.2
    cases l with
    | nil => simp at hm
    | cons b l =>
      simp only
      rw [foldl_greatest e l b hm hall' (fun h => vCmp_asymm h h)]
      intro e' h' hne
      rcases hall' e' h' with h1 | h1
      · exact absurd h1 hne
      · exact vCmp_asymm h1

end IOverlay
