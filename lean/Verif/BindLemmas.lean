/-
Attaching holes: nothing is lost or duplicated. C25.
-/
import Verif.Bind

namespace IOverlay

/-- The shapes after attaching each hole to the shape given by `parents`. -/
def attach {α : Type} (shapes : List (List α)) (hs : List (α × Nat)) : List (List α) :=
  shapes.mapIdx fun i s => s ++ ((hs.filter fun h => decide (h.2 = i)).map (·.1))

theorem attach_nil {α : Type} (shapes : List (List α)) : attach shapes [] = shapes := by
  unfold attach
  apply List.ext_getElem?
  intro i
  rw [List.getElem?_mapIdx]
  cases shapes[i]? <;> simp

theorem pushHoles_spec {α : Type} : ∀ (hs : List (α × Nat)) (shapes : List (List α)),
    (∀ h ∈ hs, h.2 < shapes.length) → pushHoles shapes hs = some (attach shapes hs) := by
  intro hs
  induction hs with
  | nil => intro shapes _; rw [pushHoles, attach_nil]
  | cons h hs ih =>
    obtain ⟨hole, parent⟩ := h
    intro shapes hl
    have hp : parent < shapes.length := hl (hole, parent) (by simp)
    rw [pushHoles, List.getElem?_eq_getElem hp, Option.bind_some, ih]
    · congr 1
      unfold attach
      apply List.ext_getElem?
      intro i
      rw [List.getElem?_mapIdx, List.getElem?_mapIdx, List.getElem?_set]
      by_cases hi : parent = i
      · subst hi
        rw [if_pos rfl, if_pos hp, List.getElem?_eq_getElem hp]
        simp
      · rw [if_neg hi]
        cases shapes[i]? with
        | none => rfl
        | some s => simp [hi]
    · intro x hx
      rw [List.length_set]
      exact hl x (List.mem_cons_of_mem _ hx)

theorem bindLoop_spec (o : BindOracle) (n : Nat) : ∀ (anchors segs scan : List IdSeg) (parents ps : List Nat),
    bindLoop o n anchors segs scan parents = some ps → (∀ p ∈ parents, p < n) →
    ps.length = parents.length ∧ ∀ p ∈ ps, p < n := by
  intro anchors
  induction anchors with
  | nil =>
    intro segs scan parents ps h hp
    rw [bindLoop] at h
    obtain rfl := Option.some.inj h
    exact ⟨rfl, hp⟩
  | cons a rest ih =>
    intro segs scan parents ps h hp
    rw [bindLoop] at h
    obtain ⟨t, -, h⟩ := Option.bind_eq_some_iff.1 h
    obtain ⟨p, -, h⟩ := Option.bind_eq_some_iff.1 h
    split at h
    · rename_i hc
      have := ih _ _ _ _ h (by
        intro q hq
        rcases List.mem_or_eq_of_mem_set hq with h1 | h1
        · exact hp q h1
        · rw [h1]; exact hc.2)
      rw [List.length_set] at this
      exact this
    · simp at h

theorem scanJoin_spec {o : BindOracle} {sortI : List IdSeg → List IdSeg} {shapes : List (List (List Pt))}
    {holes : List (List Pt)} {anchors : List IdSeg} {cw : Bool} {r : List (List (List Pt))}
    (hs : shapes ≠ []) (h : scanJoin o sortI shapes holes anchors cw = some r) :
    ∃ parents : List Nat, parents.length = holes.length ∧ (∀ p ∈ parents, p < shapes.length) ∧
      r = attach shapes (holes.zip parents) := by
  have hn : 0 < shapes.length := List.length_pos_iff.2 hs
  unfold scanJoin at h
  obtain ⟨f, -, h⟩ := Option.bind_eq_some_iff.1 h
  obtain ⟨l, -, h⟩ := Option.bind_eq_some_iff.1 h
  obtain ⟨ps, h1, h⟩ := Option.bind_eq_some_iff.1 h
  split at h
  · rename_i hl
    obtain ⟨b1, b2⟩ := bindLoop_spec o _ _ _ _ _ _ h1 (by
      intro p hp
      rw [(List.mem_replicate.1 hp).2]; exact hn)
    refine ⟨ps.take holes.length, by rw [List.length_take]; omega, fun p hp => b2 p (List.mem_of_mem_take hp), ?_⟩
    have e : holes.zip ps = holes.zip (ps.take holes.length) := by
      conv_lhs => rw [← List.take_append_drop holes.length ps, List.zip_eq_zipWith]
      rw [List.zip_eq_zipWith]
      apply List.ext_getElem?
      intro i
      rw [List.getElem?_zipWith, List.getElem?_zipWith]
      by_cases hi : i < holes.length
      · rw [List.getElem?_append_left (by rw [List.length_take]; omega)]
      · rw [List.getElem?_eq_none (by omega)]
    rw [e] at h
    rw [pushHoles_spec] at h
    · exact (Option.some.inj h).symm
    · intro x hx
      exact b2 _ (List.mem_of_mem_take (List.of_mem_zip hx).2)
  · simp at h

theorem attach_single {α : Type} (s : List α) (holes : List α) :
    [s ++ holes] = attach [s] (holes.zip (List.replicate holes.length 0)) := by
  have : ∀ l : List α, ((l.zip (List.replicate l.length 0)).filter fun h => decide (h.2 = 0)).map (·.1) = l := by
    intro l
    induction l with
    | nil => rfl
    | cons x l ih =>
      rw [List.length_cons, List.replicate_succ, List.zip_cons_cons, List.filter_cons]
      simp only [decide_true, if_true, List.map_cons]
      rw [ih]
  unfold attach
  simp [List.mapIdx_cons, this holes]

theorem joinSortedHoles_spec {o : BindOracle} {sortI : List IdSeg → List IdSeg} {shapes : List (List (List Pt))}
    {holes : List (List Pt)} {anchors : List IdSeg} {cw : Bool} {r : List (List (List Pt))}
    (h : joinSortedHoles o sortI shapes holes anchors cw = some r) (hs : shapes ≠ []) :
    ∃ parents : List Nat, parents.length = holes.length ∧ (∀ p ∈ parents, p < shapes.length) ∧
      r = attach shapes (holes.zip parents) := by
  unfold joinSortedHoles at h
  split at h
  · rename_i hc
    obtain rfl := Option.some.inj h
    rcases holes with _ | ⟨x, holes⟩
    · exact ⟨[], rfl, by simp, by rw [List.zip_nil_left, attach_nil]⟩
    · simp [hs] at hc
  · split at h
    · rename_i s _
      obtain rfl := Option.some.inj h
      exact ⟨List.replicate holes.length 0, by simp, by simp, attach_single s holes⟩
    · exact scanJoin_spec hs h

theorem joinUnsortedHoles_spec {o : BindOracle} {sortI : List IdSeg → List IdSeg} {shapes : List (List (List Pt))}
    {holes : List (List Pt)} {cw : Bool} {r : List (List (List Pt))}
    (h : joinUnsortedHoles o sortI shapes holes cw = some r) (hs : shapes ≠ []) :
    ∃ parents : List Nat, parents.length = holes.length ∧ (∀ p ∈ parents, p < shapes.length) ∧
      r = attach shapes (holes.zip parents) := by
  unfold joinUnsortedHoles at h
  split at h
  · rename_i hc
    obtain rfl := Option.some.inj h
    rcases holes with _ | ⟨x, holes⟩
    · exact ⟨[], rfl, by simp, by rw [List.zip_nil_left, attach_nil]⟩
    · simp [hs] at hc
  · split at h
    · rename_i s _
      obtain rfl := Option.some.inj h
      exact ⟨List.replicate holes.length 0, by simp, by simp, attach_single s holes⟩
    · obtain ⟨_, -, h⟩ := Option.bind_eq_some_iff.1 h
      exact scanJoin_spec hs h

/-- All contours of the result, as a multiset. -/
theorem attach_perm {α : Type} (shapes : List (List α)) : ∀ (hs : List (α × Nat)),
    (∀ h ∈ hs, h.2 < shapes.length) →
    (attach shapes hs).flatten.Perm (shapes.flatten ++ hs.map (·.1)) := by
  intro hs
  induction hs generalizing shapes with
  | nil => intro _; rw [attach_nil]; simp
  | cons h hs ih =>
    obtain ⟨hole, parent⟩ := h
    intro hl
    have hp : parent < shapes.length := hl (hole, parent) (by simp)
    have e : attach shapes ((hole, parent) :: hs) = attach (shapes.set parent (shapes[parent] ++ [hole])) hs := by
      have h1 := pushHoles_spec ((hole, parent) :: hs) shapes hl
      rw [pushHoles, List.getElem?_eq_getElem hp, Option.bind_some, pushHoles_spec] at h1
      · exact (Option.some.inj h1).symm
      · intro x hx
        rw [List.length_set]
        exact hl x (List.mem_cons_of_mem _ hx)
    rw [e]
    refine (ih _ ?_).trans ?_
    · intro x hx
      rw [List.length_set]
      exact hl x (List.mem_cons_of_mem _ hx)
    · rw [List.set_eq_take_append_cons_drop, if_pos hp]
      have e2 : shapes.flatten = (shapes.take parent).flatten ++ (shapes[parent] ++ (shapes.drop (parent + 1)).flatten) := by
        conv_lhs => rw [← List.take_append_drop parent shapes, List.drop_eq_getElem_cons hp]
        rw [List.flatten_append, List.flatten_cons]
      rw [e2, List.flatten_append, List.flatten_cons, List.map_cons]
      simp only [List.append_assoc]
      refine List.Perm.append_left _ (List.Perm.append_left _ ?_)
      simp only [List.cons_append, List.nil_append]
      exact List.perm_middle.symm

end IOverlay
