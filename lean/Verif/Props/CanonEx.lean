/-
C69: examples, and a result that is not its own simplification.
-/
import Verif.Props.Canon

namespace IOverlay

/-! ### a cleaner that drops the vertices where a contour goes straight on -/

def MayDrop (c : List Pt) : Prop :=
  NoSpikes c ∧ NotClosedExplicitly c ∧ NoSpikes (corners c) ∧ ∀ e ∈ polyEdges (corners c), e.1 ≠ e.2

instance (c : List Pt) : Decidable (MayDrop c) := by unfold MayDrop; infer_instance

/-- Stands for `simplify_contour` of i_float / i_shape (external) in the examples below; it satisfies the contracts. -/
def cleanCorners (c : List Pt) : List Pt × Bool := if MayDrop c then (corners c, decide (corners c ≠ c)) else (c, false)

theorem corners_wind {c : List Pt} (h : MayDrop c) (q : QPt) : polyWind (corners c) q = polyWind c q := by
  have h1 := appendPath_wind (d := (1 : Int)) (i := (-1 : Int)) id 1 rfl rfl c h.2.1 q
  rw [appendPath_corners _ _ _ h.1, one_mul] at h1
  rw [← h1]
  unfold polyWind segsWind
  rw [List.map_map]
  congr 1
  refine List.map_congr_left fun e _ => ?_
  have := withAB_wind (d := (1 : Int)) (i := (-1 : Int)) id 1 rfl rfl e.1 e.2 q
  rw [one_mul] at this
  exact this.symm

theorem corners_along {c : List Pt} (h : MayDrop c) : ∀ e ∈ polyEdges (corners c), Along (polyEdges c) e.1 e.2 := by
  intro e he
  have h1 := appendPath_along (1 : Int) (-1 : Int) c h.2.1
  rw [appendPath_corners _ _ _ h.1] at h1
  have h2 := h1 _ (List.mem_map.2 ⟨e, he, rfl⟩)
  unfold withAB at h2
  split at h2
  · exact h2
  · intro q hq
    rcases h2 q (onSeg_symm hq) with h3 | ⟨f, hf, h3, h4, h5⟩
    · exact Or.inl h3
    · refine Or.inr ⟨f, hf, h3, ?_, ?_⟩
      · unfold area2 at *; linarith
      · unfold area2 at *; linarith

theorem triples_mem : ∀ (l : List Pt), ∀ t ∈ triples l, t.2.1 ∈ l
  | [], _, h | [_], _, h | [_, _], _, h => by simp [triples] at h
  | a :: b :: c :: l, t, h => by
    rcases List.mem_cons.1 h with rfl | h
    · simp
    · exact List.mem_cons_of_mem _ (triples_mem _ t h)

theorem corners_mem {c : List Pt} {p : Pt} (h : p ∈ corners c) : p ∈ c := by
  obtain ⟨t, ht, rfl⟩ := List.mem_map.1 h
  rcases List.mem_append.1 (triples_mem _ t (List.mem_filter.1 ht).1) with h | h
  exacts [h, List.mem_of_mem_take h]

/-- External parts of the examples: straight vertices are dropped. -/
def exDrop : Externals := { exRaw with clean := cleanCorners }

theorem exDrop_assumed : Assumed exConfig exDrop ∧ CleanAssumed exDrop ∧ CleanTurns exDrop.clean := by
  refine ⟨⟨exRaw_assumed.1.tree, exRaw_assumed.1.scan, exRaw_assumed.1.sortE, ?_⟩, ⟨?_, ?_⟩, ?_⟩
  · intro c q
    change polyWind (cleanCorners c).1 q = _
    unfold cleanCorners
    split
    · rename_i h; exact corners_wind h q
    · rfl
  · intro c p hp
    change p ∈ (cleanCorners c).1 at hp
    unfold cleanCorners at hp
    split at hp
    · exact corners_mem hp
    · exact hp
  · intro c hc e he
    change e ∈ polyEdges (cleanCorners c).1 at he
    unfold cleanCorners at he
    split at he
    · rename_i h; exact ⟨h.2.2.2 e he, corners_along h e he⟩
    · exact ⟨hc e he, Along.edge he⟩
  · intro c hc
    change NoSpikes (cleanCorners c).1
    unfold cleanCorners
    split
    · rename_i h; exact h.2.2.1
    · exact hc

/-! ### a result that changes when it is simplified, once -/

def exFold : List (List Pt) :=
  [[⟨0, 0⟩, ⟨10, 0⟩, ⟨10, 10⟩, ⟨0, 10⟩], [⟨0, 10⟩, ⟨6, 6⟩, ⟨4, 3⟩], [⟨0, 2⟩, ⟨1, 3⟩, ⟨0, 4⟩]]

def exFolded : List (List (List Pt)) := [[[⟨0, 0⟩, ⟨10, 0⟩, ⟨10, 10⟩, ⟨0, 10⟩, ⟨6, 6⟩, ⟨4, 3⟩, ⟨0, 10⟩]]]

def exUnfolded : List (List (List Pt)) := [[[⟨0, 0⟩, ⟨10, 0⟩, ⟨10, 10⟩, ⟨0, 10⟩], [⟨6, 6⟩, ⟨4, 3⟩, ⟨0, 10⟩]]]

theorem exFold_runs : IsResult exConfig exDrop .subject .nonZero false 0 exFold [] exFolded ∧
    IsResult exConfig exDrop .subject .nonZero false 0 exFolded.flatten [] exUnfolded :=
  ⟨Or.inl (by decide +kernel), Or.inl (by decide +kernel)⟩

/-- C69 (only results of a simplification are fixed): the contract of the cleaner and all other assumptions hold, and
still the first result, a contour that touches itself, is changed by simplifying it: the outer contour was walked from
a vertex that the cleaner dropped later. The second result is not changed any more, as `C69_stable` says. -/
theorem C69_not_fixed : ∃ (k : Config) (x : Externals) (subj : List (List Pt)) (P P' : List (List (List Pt))),
    Assumed k x ∧ CleanAssumed x ∧ CleanTurns x.clean ∧ FragFor k subj [] ∧ FragFor k P.flatten [] ∧
    FragFor k P'.flatten [] ∧ (∀ c ∈ subj, ∀ p ∈ c, InRange p) ∧
    IsResult k x .subject .nonZero false 0 subj [] P ∧ IsResult k x .subject .nonZero false 0 P.flatten [] P' ∧ P' ≠ P ∧
    IsResult k x .subject .nonZero false 0 P'.flatten [] P' :=
  ⟨exConfig, exDrop, exFold, exFolded, exUnfolded, exDrop_assumed.1, exDrop_assumed.2.1, exDrop_assumed.2.2,
    FragOk.list _ _, FragOk.list _ _, FragOk.list _ _, by unfold InRange; decide, exFold_runs.1, exFold_runs.2, by decide,
    Or.inl (by decide +kernel)⟩

/-! ### union is associative, as a list of shapes, once simplified -/

def exU1 : List (List (List Pt)) := [[[⟨0, 4⟩, ⟨0, 0⟩, ⟨4, 0⟩, ⟨4, 2⟩, ⟨6, 2⟩, ⟨6, 6⟩, ⟨2, 6⟩, ⟨2, 4⟩]]]
def exU2 : List (List (List Pt)) := [[[⟨2, 6⟩, ⟨2, 2⟩, ⟨4, 2⟩, ⟨4, 0⟩, ⟨8, 0⟩, ⟨8, 4⟩, ⟨6, 4⟩, ⟨6, 6⟩]]]
def exU : List (List (List Pt)) := [[[⟨0, 4⟩, ⟨0, 0⟩, ⟨4, 0⟩, ⟨8, 0⟩, ⟨8, 4⟩, ⟨6, 4⟩, ⟨6, 6⟩, ⟨2, 6⟩, ⟨2, 4⟩]]]

/-- The hypotheses of `C69_expressions` hold of the two ways to put brackets into the union of three boxes. -/
theorem exU_expressions (shapes shapes' : List (List (List Pt)))
    (g : IsResult exConfig exRaw .subject .nonZero false 0 exU.flatten [] shapes)
    (g' : IsResult exConfig exRaw .subject .evenOdd false 0 exU.flatten [] shapes') : shapes = shapes' := by
  have g1 := Computed.given (rule := .nonZero) (exChainBox 0 0 4 4) (by decide) (by unfold InRange; decide) (by decide)
  have g2 := Computed.given (rule := .nonZero) (exChainBox 2 2 6 6) (by decide) (by unfold InRange; decide) (by decide)
  have g3 := Computed.given (rule := .nonZero) (exChainBox 4 0 8 4) (by decide) (by unfold InRange; decide) (by decide)
  have h1 := Computed.step g1 g2 exConfig exRaw exRaw_assumed.1 exRaw_clean .union false (FragOk.list _ _) exU1
    (Or.inl (by decide +kernel))
  have h2 := Computed.step g2 g3 exConfig exRaw exRaw_assumed.1 exRaw_clean .union false (FragOk.list _ _) exU2
    (Or.inl (by decide +kernel))
  exact C69_expressions .nonZero .nonZero (.inr rfl) (.inr rfl) _ _ _ _ _ _ _ _ h1 g3 g1 h2 exConfig exConfig exRaw exRaw
    exRaw_assumed.1 exRaw_assumed.1 exRaw_clean exRaw_clean (fun _ h => h) (fun _ h => h) .union .union false false
    (FragOk.list _ _) (FragOk.list _ _) exU exU (Or.inl (by decide +kernel)) (Or.inl (by decide +kernel))
    (fun q => by simp only [OverlayRule.op, Bool.or_assoc])
    exConfig exConfig exRaw exRaw exRaw_assumed.1 exRaw_assumed.1 rfl rfl rfl (FragOk.list _ _) (FragOk.list _ _)
    .nonZero .evenOdd (.inr rfl) (.inl rfl) false shapes shapes' g g'

example : overlayCustom exConfig exRaw .subject .nonZero false 0 (overlaySegments exU.flatten []) =
    some [[[⟨0, 4⟩, ⟨0, 0⟩, ⟨8, 0⟩, ⟨8, 4⟩, ⟨6, 4⟩, ⟨6, 6⟩, ⟨2, 6⟩, ⟨2, 4⟩]]] := by decide +kernel

end IOverlay
