/-
A closed walk along the edges of contours without common vertices, using no edge twice, runs once around one of the contours.
-/
import Mathlib.Data.List.Rotate
import Verif.Direction
import Verif.Corners
import Verif.CanonRun

namespace IOverlay

/-- The same closed polygon: another starting vertex or the other direction. -/
def RingOf (d c : List Pt) : Prop := d ~r c ∨ d ~r c.reverse

/-- One of the two directions is an edge of the closed polygon. -/
def SideOf (c : List Pt) (e : Pt × Pt) : Prop := e ∈ polyEdges c ∨ e.swap ∈ polyEdges c

theorem pathSteps_cut (l : List Pt) (a : Pt) (m : List Pt) : pathSteps (l ++ a :: m) = pathSteps (l ++ [a]) ++ pathSteps (a :: m) := by
  induction l with
  | nil => rfl
  | cons x l ih =>
    cases l with
    | nil => rfl
    | cons y l =>
      have h1 : pathSteps (x :: y :: l ++ a :: m) = (x, y) :: pathSteps (y :: l ++ a :: m) := rfl
      have h2 : pathSteps (x :: y :: l ++ [a]) = (x, y) :: pathSteps (y :: l ++ [a]) := rfl
      rw [h1, h2, ih]
      rfl

/-- Successors and predecessors along a closed polygon with different vertices. -/
theorem polyEdges_succ {c : List Pt} (hn : c.Nodup) {p q q' : Pt} (h : (p, q) ∈ polyEdges c) (h' : (p, q') ∈ polyEdges c) :
    q = q' := by
  have hf : ((polyEdges c).map (·.1)).Nodup := by rw [polyEdges_fst]; exact hn
  have := List.inj_on_of_nodup_map hf h h' rfl
  exact congrArg Prod.snd this

theorem polyEdges_pred {c : List Pt} (hn : c.Nodup) {p p' q : Pt} (h : (p, q) ∈ polyEdges c) (h' : (p', q) ∈ polyEdges c) :
    p = p' := by
  have hf : ((polyEdges c).map (·.2)).Nodup := (polyEdges_snd c).nodup_iff.2 hn
  have := List.inj_on_of_nodup_map hf h h' rfl
  exact congrArg Prod.fst this

/-- The walk follows the polygon. `W` and `c ++ [u]` agree up to `b`. -/
theorem walk_follows {c : List Pt} {u : Pt} (hc : c.Nodup) (hu : c.head? = some u) {W : List Pt}
    (hW : ∀ e ∈ pathSteps W, e.1 ∈ c → SideOf c e) (hp : (pathSteps W).Pairwise fun e f => e ≠ f ∧ e ≠ f.swap)
    (hl : W.getLast? = some u) : ∀ (t s pre : List Pt) (a b : Pt), c ++ [u] = pre ++ a :: b :: t → W = pre ++ a :: b :: s → s = t := by
  have hpe := polyEdges_eq_pathSteps hu
  have memc : ∀ {p}, p ∈ c ++ [u] → p ∈ c := by
    intro p h
    rcases List.mem_append.1 h with h | h
    · exact h
    · rw [List.mem_singleton.1 h]; exact List.mem_of_mem_head? hu
  intro t
  induction t with
  | nil =>
    intro s pre a b h1 h2
    cases s with
    | nil => rfl
    | cons x s =>
      exfalso
      have e0 : W = (pre ++ [a]) ++ b :: (x :: s) := by rw [h2]; simp
      have e1 : c ++ [u] = (pre ++ [a]) ++ b :: [] := by rw [h1]; simp
      rw [e0, pathSteps_cut, ← e1, ← hpe] at hp hW
      obtain ⟨-, -, hx⟩ := List.pairwise_append.1 hp
      have hmem : (b, x) ∈ pathSteps (b :: x :: s) := by rw [pathSteps_cons_cons]; simp
      have hbc : b ∈ c := memc (by rw [h1]; simp)
      rcases hW (b, x) (List.mem_append_right _ hmem) hbc with h | h
      · exact (hx _ h _ hmem).1 rfl
      · exact (hx _ h _ hmem).2 rfl
  | cons z t ih =>
    intro s pre a b h1 h2
    have e1 : c ++ [u] = (pre ++ [a]) ++ b :: (z :: t) := by rw [h1]; simp
    have hbz : (b, z) ∈ polyEdges c := by
      rw [hpe, e1, pathSteps_cut, pathSteps_cons_cons]; simp
    have hab : (a, b) ∈ polyEdges c := by
      rw [hpe, h1, pathSteps_cut, pathSteps_cons_cons]; simp
    have hbc : b ∈ c := memc (by rw [h1]; simp)
    cases s with
    | nil =>
      exfalso
      have hb : b = u := by
        rw [h2] at hl
        have : (pre ++ [a, b]).getLast? = some b := by simp
        rw [this] at hl
        exact Option.some.inj hl
      -- `b` is not the first vertex
      obtain ⟨t', ht'⟩ : ∃ t', c = (pre ++ [a]) ++ b :: t' := by
        have hd := congrArg List.dropLast e1
        rw [List.dropLast_concat] at hd
        refine ⟨(z :: t).dropLast, ?_⟩
        rw [hd, List.dropLast_append_of_ne_nil (by simp)]
        rfl
      rw [ht'] at hc hu
      have hu' : u ∈ pre ++ [a] := by
        cases pre with
        | nil => simp at hu; simp [hu]
        | cons p pre => simp at hu; simp [hu]
      exact List.disjoint_of_nodup_append hc hu' (by rw [hb]; simp)
    | cons x s =>
      have e0 : W = (pre ++ [a]) ++ b :: (x :: s) := by rw [h2]; simp
      have hmem : (b, x) ∈ pathSteps (b :: x :: s) := by rw [pathSteps_cons_cons]; simp
      have hmem0 : (a, b) ∈ pathSteps (pre ++ [a] ++ [b]) := by
        have : pre ++ [a] ++ [b] = pre ++ a :: [b] := by simp
        rw [this, pathSteps_cut, pathSteps_cons_cons]; simp
      have hx : x = z := by
        have hpp := hp
        rw [e0, pathSteps_cut] at hpp
        obtain ⟨-, -, hx⟩ := List.pairwise_append.1 hpp
        rcases hW (b, x) (by rw [e0, pathSteps_cut]; exact List.mem_append_right _ hmem) hbc with h | h
        · exact polyEdges_succ hc h hbz
        · have : x = a := polyEdges_pred hc h hab
          exact absurd (by rw [this]; rfl) (hx (a, b) hmem0 (b, x) hmem).2
      subst hx
      rw [ih s (pre ++ [a]) b x e1 e0]

/-- The polygon written from one of its edges on. -/
theorem rotate_to {c : List Pt} {u v : Pt} (h : (u, v) ∈ polyEdges c) (hl : 2 ≤ c.length) (hn : c.Nodup) :
    ∃ r, c ~r u :: v :: r := by
  have hu := (polyEdges_mem h).1
  obtain ⟨s, t, rfl⟩ := List.append_of_mem hu
  have hr : s ++ u :: t ~r u :: (t ++ s) := by
    rw [← List.cons_append]
    exact List.isRotated_append
  have h' : (u, v) ∈ polyEdges (u :: (t ++ s)) := (polyEdges_rotated hr).mem_iff.1 h
  have hn' : (u :: (t ++ s)).Nodup := hr.nodup_iff.1 hn
  rcases e : t ++ s with _ | ⟨w, r⟩
  · have : (s ++ u :: t).length = (t ++ s).length + 1 := by simp; omega
    rw [this, e] at hl
    simp at hl
  · refine ⟨r, ?_⟩
    rw [e] at hr h' hn'
    have : v = w := polyEdges_succ hn' h' (by
      rw [polyEdges_eq_pathSteps (p := u) rfl]
      simp [pathSteps_cons_cons])
    rw [this]; exact hr

/-- A closed walk that starts along an edge of a contour, stays on edges meeting the contour only if they are sides of it, and
uses no edge twice, runs around the contour. -/
theorem walk_around {c : List Pt} {u v : Pt} {w : List Pt} (hc : c.Nodup) (hl : 2 ≤ c.length)
    (h0 : (u, v) ∈ polyEdges c)
    (hW : ∀ e ∈ polyEdges (u :: v :: w), e.1 ∈ c → SideOf c e)
    (hp : (polyEdges (u :: v :: w)).Pairwise fun e f => e ≠ f ∧ e ≠ f.swap) : (u :: v :: w) ~r c := by
  obtain ⟨r, hr⟩ := rotate_to h0 hl hc
  rw [polyEdges_eq_pathSteps (p := u) rfl] at hp hW
  have hside : ∀ e, SideOf c e → SideOf (u :: v :: r) e := by
    intro e h
    unfold SideOf at *
    rwa [(polyEdges_rotated hr).mem_iff, (polyEdges_rotated hr).mem_iff] at h
  have := walk_follows (c := u :: v :: r) (u := u) (hr.nodup_iff.1 hc) rfl (W := u :: v :: w ++ [u])
    (fun e he h => hside e (hW e he (hr.perm.mem_iff.2 h))) hp (List.getLast?_concat ..) (r ++ [u]) (w ++ [u]) [] u v (by simp) (by simp)
  have e : w = r := List.append_cancel_right this
  rw [e]
  exact hr.symm

/-- C83 (walks). -/
theorem ring_walk {cs : List (List Pt)} (hn : cs.flatten.Nodup) (hl : ∀ c ∈ cs, 3 ≤ c.length) {L : List Pt} (hL : L ≠ [])
    (hE : ∀ e ∈ polyEdges L, ∃ c ∈ cs, SideOf c e)
    (hp : (polyEdges L).Pairwise fun e f => e ≠ f ∧ e ≠ f.swap) : ∃ c ∈ cs, RingOf L c := by
  have hnc : ∀ c ∈ cs, c.Nodup := (List.nodup_flatten.1 hn).1
  have hdis := (List.nodup_flatten.1 hn).2
  have only : ∀ c ∈ cs, ∀ c' ∈ cs, ∀ p, p ∈ c → p ∈ c' → c = c' := by
    intro c h c' h' p p1 p2
    obtain ⟨i, hi, rfl⟩ := List.mem_iff_getElem.1 h
    obtain ⟨j, hj, rfl⟩ := List.mem_iff_getElem.1 h'
    rcases lt_trichotomy i j with hij | rfl | hij
    · exact absurd p2 (List.pairwise_iff_getElem.1 hdis i j hi hj hij p1)
    · rfl
    · exact absurd p1 (List.pairwise_iff_getElem.1 hdis j i hj hi hij p2)
  have onside : ∀ c ∈ cs, ∀ e ∈ polyEdges L, e.1 ∈ c → SideOf c e := by
    intro c hc e he h
    obtain ⟨c', hc', hs⟩ := hE e he
    have : e.1 ∈ c' := by
      rcases hs with hs | hs
      · exact (polyEdges_mem hs).1
      · exact (polyEdges_mem hs).2
    rw [only c hc c' hc' _ h this]
    exact hs
  have noloop : ∀ p, (p, p) ∉ polyEdges L := by
    intro p hpp
    obtain ⟨c, hc, hs⟩ := hE _ hpp
    have h1 : (p, p) ∈ polyEdges c := by rcases hs with hs | hs <;> exact hs
    obtain ⟨r, hr⟩ := rotate_to h1 (by have := hl c hc; omega) (hnc c hc)
    have := hr.nodup_iff.1 (hnc c hc)
    simp at this
  rcases L with _ | ⟨u, _ | ⟨v, w⟩⟩
  · exact absurd rfl hL
  · exact absurd (by rw [polyEdges_eq_pathSteps (p := u) rfl]; simp [pathSteps]) (noloop u)
  have huv : (u, v) ∈ polyEdges (u :: v :: w) := by
    rw [polyEdges_eq_pathSteps (p := u) rfl]
    simp [pathSteps_cons_cons]
  obtain ⟨c, hc, hs⟩ := hE _ huv
  refine ⟨c, hc, ?_⟩
  have hlc := hl c hc
  rcases hs with hs | hs
  · exact Or.inl (walk_around (hnc c hc) (by omega) hs (onside c hc) hp)
  · right
    have swapS : ∀ e, SideOf c e → SideOf c.reverse e := by
      intro e h
      unfold SideOf at *
      rw [(polyEdges_reverse c).mem_iff, (polyEdges_reverse c).mem_iff]
      rcases h with h | h
      · exact Or.inr (List.mem_map_of_mem h)
      · exact Or.inl (List.mem_map.2 ⟨_, h, Prod.swap_swap e⟩)
    refine walk_around (List.nodup_reverse.2 (hnc c hc)) (by rw [List.length_reverse]; omega) ?_ ?_ hp
    · rw [(polyEdges_reverse c).mem_iff]
      exact List.mem_map.2 ⟨_, hs, rfl⟩
    · intro e he h
      exact swapS e (onside c hc e he (List.mem_reverse.1 h))

/-- The sides of a ring do not depend on starting vertex and direction. -/
theorem RingOf.side {d c : List Pt} (h : RingOf d c) (e : Pt × Pt) : SideOf d e ↔ SideOf c e := by
  rcases h with h | h
  · unfold SideOf
    rw [(polyEdges_rotated h).mem_iff, (polyEdges_rotated h).mem_iff]
  · unfold SideOf
    rw [(polyEdges_rotated h).mem_iff, (polyEdges_rotated h).mem_iff, (polyEdges_reverse c).mem_iff, (polyEdges_reverse c).mem_iff]
    have : ∀ f : Pt × Pt, f ∈ (polyEdges c).map Prod.swap ↔ f.swap ∈ polyEdges c := by
      intro f
      rw [List.mem_map]
      constructor
      · rintro ⟨g, hg, rfl⟩; rwa [Prod.swap_swap]
      · intro h; exact ⟨_, h, Prod.swap_swap f⟩
    rw [this, this, Prod.swap_swap, or_comm]

theorem RingOf.mem {d c : List Pt} (h : RingOf d c) (p : Pt) : p ∈ d ↔ p ∈ c := by
  rcases h with h | h
  · exact h.perm.mem_iff
  · rw [h.perm.mem_iff, List.mem_reverse]

end IOverlay
