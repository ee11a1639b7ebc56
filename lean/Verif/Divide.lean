/-
Model of core/divide.rs: `decompose_contours`.
-/
import Verif.Geom
import Mathlib.Data.List.Sort

namespace IOverlay

/-- `IdPoint`, geom/id_point.rs:4-8. -/
structure IdPt where
  id : Nat
  pt : Pt
deriving DecidableEq, Repr

/-- The order of core/divide.rs:44: by point, then by id. -/
def IdPt.le (a b : IdPt) : Prop := a.pt < b.pt ∨ (a.pt = b.pt ∧ a.id ≤ b.id)

instance : DecidableRel IdPt.le := fun a b =>
  inferInstanceAs (Decidable (a.pt < b.pt ∨ (a.pt = b.pt ∧ a.id ≤ b.id)))

/-- The order of core/divide.rs:68: by id. -/
def IdPt.idLe (a b : IdPt) : Prop := a.id ≤ b.id

instance : DecidableRel IdPt.idLe := fun a b => inferInstanceAs (Decidable (a.id ≤ b.id))

/-- The numbered vertices before sorting, core/divide.rs:39-42. -/
def idPts (c : List Pt) : List IdPt := c.zipIdx.map fun e => ⟨e.2, e.1⟩

/-- `&source[from..to]`. -/
def slice {α : Type} (l : List α) (i j : Nat) : List α := (l.take j).drop i

/-- The variables `p0`, `n`, `anchors` of core/divide.rs:46-48. -/
structure AnchorScan where
  p0 : Pt
  n : Nat
  anchors : List IdPt

/-- One iteration of core/divide.rs:49-61: `e` is the entry and its index. -/
def anchorStep (s : List IdPt) (st : AnchorScan) (e : IdPt × Nat) : AnchorScan :=
  if st.p0 = e.1.pt then { st with n := st.n + 1 }
  else ⟨e.1.pt, 0, if 0 < st.n then st.anchors ++ slice s (e.2 - st.n - 1) e.2 else st.anchors⟩

/-- The anchors in sorting order, core/divide.rs:46-61 (the group of equal points reached last is not flushed,
as in the code). -/
def anchorScan (s : List IdPt) : List IdPt :=
  match s with
  | [] => []
  | a :: _ => ((s.zipIdx.drop 1).foldl (anchorStep s) ⟨a.pt, 0, []⟩).anchors

/-- The anchors ordered by position, core/divide.rs:39-68 (`sort_by` on a total order without equal elements:
any sort gives the same list). -/
def anchorsOf (c : List Pt) : List IdPt :=
  (anchorScan ((idPts c).insertionSort IdPt.le)).insertionSort IdPt.idLe

/-- `SubPath`, core/divide.rs:6-10. -/
structure SubPath where
  last : Nat
  node : Pt
  path : List Pt
deriving DecidableEq, Repr

/-- `SubPath::start`, core/divide.rs:13-19. -/
def SubPath.start (a : IdPt) : SubPath := ⟨a.id + 1, a.pt, [a.pt]⟩

/-- `SubPath::join`, core/divide.rs:21-24. -/
def SubPath.join (s : SubPath) (a : IdPt) (src : List Pt) : SubPath :=
  { s with path := s.path ++ slice src s.last a.id, last := a.id }

/-- `SubPath::shift`, core/divide.rs:26-28. -/
def SubPath.shift (s : SubPath) (a : IdPt) : SubPath := { s with last := a.id }

/-- `contours` and `queue` (a stack, last element first here), core/divide.rs:71-73. -/
structure DivState where
  contours : List (List Pt)
  stack : List SubPath

/-- The stack below a closed sub path, core/divide.rs:88-92. -/
def belowClosed (a : IdPt) : List SubPath → List SubPath
  | [] => [SubPath.start a]
  | prev :: r => prev.shift a :: r

/-- One iteration of core/divide.rs:76-99. -/
def decStep (src : List Pt) (st : DivState) (a : IdPt) : DivState :=
  match st.stack with
  | [] => { st with stack := [SubPath.start a] }
  | top :: below =>
    if top.node = a.pt then
      ⟨st.contours ++ [(top.join a src).path],
        belowClosed a below⟩
    else ⟨st.contours, SubPath.start a :: top.join a src :: below⟩

/-- `decompose_contours`, core/divide.rs:35-116. The inner `none` of the result is the documented `None`; the
outer one stands for the panic of `queue.pop().unwrap()`. -/
def decompose (c : List Pt) : Option (Option (List (List Pt))) :=
  if c.length < 3 then some none
  else
    let anchors := anchorsOf c
    match anchors.head? with
    | none => some none
    | some a0 =>
      let st := anchors.foldl (decStep c) ⟨[], []⟩
      st.stack.head?.map fun top =>
        some (st.contours ++ [top.path ++ c.drop top.last ++ c.take a0.id])

end IOverlay
