/-
Strokes, what does not hold: an edge of length zero makes the extraction loop forever (C50); a section shorter than
the width removes part of the neighbouring section from the stroke (C51).
-/
import Verif.Props.Mesh

namespace IOverlay

/-- One step of the walk without the collected points: the next node and link. -/
def walkStep (g : Graph) (clockwise : Bool) (st : Nat × Nat × List Bool) : Option (Nat × Nat × List Bool) :=
  (nextLink g st.2.1 st.1 clockwise st.2.2).bind fun link' =>
    (g.links[link']?).bind fun l =>
      some (if l.aId = st.1 then l.bId else l.aId, link', visit st.2.2 link')

/-- States of the walk closed under its step, none of them at the end: the walk never ends. -/
theorem walkOff_endless (g : Graph) (clockwise : Bool) (last : Nat) (S : List (Nat × Nat × List Bool))
    (hS : ∀ st ∈ S, st.1 ≠ last ∧ ∃ st' ∈ S, walkStep g clockwise st = some st') :
    ∀ fuel, ∀ st ∈ S, ∀ path bold, walkOff g clockwise last fuel st.1 st.2.1 st.2.2 path bold = none := by
  intro fuel
  induction fuel with
  | zero =>
    intro st hst path bold
    rw [walkOff, if_neg (hS st hst).1]
  | succ fuel ih =>
    intro st hst path bold
    obtain ⟨h1, st', h2, h3⟩ := hS st hst
    rw [walkOff, if_neg h1]
    unfold walkStep at h3
    obtain ⟨link', h4, h3⟩ := Option.bind_eq_some_iff.1 h3
    obtain ⟨l, h5, h3⟩ := Option.bind_eq_some_iff.1 h3
    simp only [Option.some.injEq] at h3
    rw [h4, Option.bind_some, h5, Option.bind_some]
    split
    · rename_i hc
      rw [if_pos hc] at h3
      subst h3
      exact ih _ h2 _ _
    · rename_i hc
      rw [if_neg hc] at h3
      subst h3
      exact ih _ h2 _ _

/-- The stroke of the horizontal line from 0 to 100 with radius 10 and the custom end cap (0, -1), (1, 0): the first
point of the cap is the corner of the section. -/
def endlessStroke : StrokeParams Int Pt := ⟨10, .bevel, none, some [⟨0, -10⟩, ⟨10, 0⟩]⟩

def endlessSegs : List (Seg CountOff) :=
  [boldAB ⟨0, 10⟩ ⟨0, -10⟩, boldAB ⟨100, 10⟩ ⟨0, 10⟩, boldAB ⟨0, -10⟩ ⟨100, -10⟩,
    boldAB ⟨100, -10⟩ ⟨100, -10⟩, boldAB ⟨100, -10⟩ ⟨110, 0⟩, boldAB ⟨110, 0⟩ ⟨100, 10⟩]

def endlessGraph : Graph := (offsetGraph exOff exRaw endlessSegs).getD ⟨[], []⟩

def endlessStart : List Bool := endlessGraph.links.map fun l => maskFilter .subject l.fill

/-- C50 fails for strokes with an edge of length zero: for this stroke the graph is built, the first contour starts
at link 0, and its walk (default counterclockwise output) goes back and forth between two nodes forever, whatever
the number of steps. (In the code `path.push` runs until memory is exhausted.) -/
theorem C50_refuted_endless :
    intOps.strokeSegments endlessStroke false [[⟨0, 0⟩, ⟨100, 0⟩]] = some endlessSegs ∧
    offsetGraph exOff exRaw endlessSegs = some endlessGraph ∧
    findLeftTop endlessGraph 0 endlessStart = some 0 ∧ isVisited endlessStart 0 = false ∧
    ∃ l, endlessGraph.links[0]? = some l ∧ (l.fill &&& SUBJ_TOP == SUBJ_TOP) = false ∧
      ∀ fuel, getFillPath endlessGraph fuel (StartPath.new true l 0) true l.isBold endlessStart = none := by
  refine ⟨by decide +kernel, by decide +kernel, by decide +kernel, by decide +kernel,
    ⟨⟨0, -10⟩, 0, ⟨0, 10⟩, 1, 6#8⟩, by decide +kernel, by decide +kernel, fun fuel => ?_⟩
  exact walkOff_endless endlessGraph true 1
    [(0, 0, [true, false, false, true, true, true]), (2, 1, [true, true, false, true, true, true]),
      (0, 0, [true, true, false, true, true, true])]
    (by decide +kernel) fuel (0, 0, visit endlessStart 0) (by decide +kernel) _ _

/-- The same edges without the one of length zero. -/
theorem C50_refuted_endless_fixed : offsetShapes exOff exRaw false 0 (endlessSegs.filter fun e => e.a ≠ e.b) =
    some [[[⟨0, 10⟩, ⟨0, -10⟩, ⟨100, -10⟩, ⟨110, 0⟩, ⟨100, 10⟩]]] := by
  decide +kernel

/-- A path with a section much shorter than the width. -/
def notchPath : List Pt := [⟨0, 0⟩, ⟨1, 0⟩, ⟨1, 100⟩]

/-- C51: a stroke need not contain the rectangles of its sections. The stroke (radius 10, bevel joins, butt caps) of
the path (0,0), (1,0), (1,100) does not contain the point (-5, 1), although it lies in the rectangle of the section
from (1,0) to (1,100). -/
theorem C51_refuted_section : ∃ shapes, intOps.stroke exOff exRaw ⟨10, .bevel, none, none⟩ false false false [notchPath] =
      some shapes ∧
    intOps.sectionsFrom 10 ⟨0, 0⟩ (intOps.dedupFrom ⟨0, 0⟩ notchPath.tail) =
      [intOps.section 10 ⟨0, 0⟩ ⟨1, 0⟩, intOps.section 10 ⟨1, 0⟩ ⟨1, 100⟩] ∧
    polyWind (intOps.quad (intOps.section 10 ⟨1, 0⟩ ⟨1, 100⟩)) ⟨-5, 1⟩ = 1 ∧
    polysWind shapes.flatten ⟨-5, 1⟩ = 0 := by
  refine ⟨[[[⟨-9, 100⟩, ⟨-9, 0⟩, ⟨0, 9⟩, ⟨0, -10⟩, ⟨1, -10⟩, ⟨11, 0⟩, ⟨11, 100⟩]]], by decide +kernel, rfl, ?_, ?_⟩
  · have : intOps.quad (intOps.section 10 ⟨1, 0⟩ ⟨1, 100⟩) = [⟨11, 0⟩, ⟨11, 100⟩, ⟨-9, 100⟩, ⟨-9, 0⟩] := by decide
    rw [this]
    simp [polyWind, polyEdges, edgeWind, aboveLine]
    norm_num
  · simp [polysWind, polyWind, polyEdges, edgeWind, aboveLine]
    norm_num

end IOverlay
