/-
Attaching the holes of a slice. C66.
-/
import Verif.Binding

namespace IOverlay

section
variable {cw : Bool} {E : List Edge} {outer holes : List (List Pt)} (hp : Planar E) (hk : Keyed E)
  (h : Cells cw E outer holes)
include hp hk h

theorem Cells.bindable : Bindable cw E outer holes (SameSide cw E) :=
  ⟨fun c hc => (h.loop c hc).mem, h.nodup, fun _ hX _ hY _ => h.owner hX hY, fun _ _ _ hY => h.same_trans hY,
    fun _ hH => h.anchor hp hk hH, fun _ hH _ he => h.surround hp hk hH he⟩

/-- Joining succeeds; every hole goes to an outer contour with the same surroundings. -/
theorem Cells.attached {o : BindOracle} (hok : o.Ok) {sortI : List IdSeg → List IdSeg} (hs : SortsByA sortI) :
    ∃ parents : List Nat, parents.length = holes.length ∧ (∀ p ∈ parents, p < outer.length) ∧
      joinUnsortedHoles o sortI (outer.map fun c => [c]) holes cw =
        some (attach (outer.map fun c => [c]) (holes.zip parents)) ∧
      ∀ (i : Nat) (H : List Pt), holes[i]? = some H → ∃ (p : Nat) (O : List Pt), parents[i]? = some p ∧ outer[p]? = some O ∧
        SameSide cw E H O :=
  (h.bindable hp hk).unsorted hp hok hs

end
end IOverlay
