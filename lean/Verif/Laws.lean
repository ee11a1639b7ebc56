/-
Changing the counts of all edges by one linear map: the noded edges stay the same (C71).
-/
import Verif.Direction
import Verif.Rounds
import Verif.Props.Extract

namespace IOverlay
open WindingCount

/-- A linear change of the two counts. -/
def lin (α β γ δ : Int) (c : CountBool) : CountBool := ⟨α * c.subj + β * c.clip, γ * c.subj + δ * c.clip⟩

/-- The same on pairs of winding numbers. -/
def linP (α β γ δ : Int) (w : Int × Int) : Int × Int := (α * w.1 + β * w.2, γ * w.1 + δ * w.2)

/-- The tree sees only the edges, not their counts (split/solver_tree.rs uses `x_segment` only). -/
def TreeOracle.SeesEdges (tree : TreeOracle CountBool) : Prop := ∀ f, tree.Blind f

section
variable {α β γ δ : Int}

theorem lin_hom (h : α * δ - β * γ ≠ 0) : CountHom (lin α β γ δ) where
  nonempty c := by
    rw [Bool.eq_iff_iff]
    simp only [isNotEmpty, lin, Bool.or_eq_true, bne_iff_ne]
    constructor
    · intro h1
      by_contra h2
      push Not at h2
      rw [h2.1, h2.2] at h1
      simp at h1
    · intro h1
      by_contra h2
      push Not at h2
      have e1 : (α * δ - β * γ) * c.subj = 0 := by linear_combination δ * h2.1 - β * h2.2
      have e2 : (α * δ - β * γ) * c.clip = 0 := by linear_combination α * h2.2 - γ * h2.1
      rcases mul_eq_zero.1 e1 with e | e
      · exact h e
      · rcases mul_eq_zero.1 e2 with e' | e'
        · exact h e'
        · rcases h1 with h1 | h1
          · exact h1 e
          · exact h1 e'
  add c d := by
    simp only [add, lin, CountBool.mk.injEq]
    constructor <;> ring
  invert c := by
    simp only [invert, lin, CountBool.mk.injEq]
    constructor <;> ring

theorem keySum_lin (l : List (Seg CountBool)) (a b : Pt) :
    keySum (l.map (Seg.mapC (lin α β γ δ))) a b = lin α β γ δ (keySum l a b) := by
  induction l with
  | nil => simp [lin, zero]
  | cons s l ih =>
    rw [List.map_cons, keySum_cons, keySum_cons, ih]
    have : (s.mapC (lin α β γ δ)).a = s.a ∧ (s.mapC (lin α β γ δ)).b = s.b ∧ (s.mapC (lin α β γ δ)).c = lin α β γ δ s.c :=
      ⟨rfl, rfl, rfl⟩
    rw [this.1, this.2.1, this.2.2]
    split
    · simp only [add, lin, CountBool.mk.injEq]
      constructor <;> ring
    · rfl

end

theorem fixed_of_map {A : Type} {f : A → A} {l : List A} (h : l.map f = l) : ∀ a ∈ l, f a = a := by
  have h' : l.map f = l.map id := by rw [List.map_id]; exact h
  exact fun a ha => List.map_eq_map_iff.1 h' a ha

/-- Lists of edges with the same total counts become the same list. -/
theorem mergeIfNeeded_keySum {l l' : List (Seg CountBool)} (hk : ∀ a b, keySum l a b = keySum l' a b)
    (hne : ∀ s ∈ l, isNotEmpty s.c = true) (hne' : ∀ s ∈ l', isNotEmpty s.c = true) :
    mergeIfNeeded (sortSegs l) = mergeIfNeeded (sortSegs l') := by
  apply strictSorted_ext (mergeIfNeeded_sorted _ (sortSegs_sorted _)) (mergeIfNeeded_sorted _ (sortSegs_sorted _))
  intro s
  rw [mergeIfNeeded_mem _ (sortSegs_sorted _) (fun s hs => hne s ((sortSegs_perm _).mem_iff.1 hs)),
    mergeIfNeeded_mem _ (sortSegs_sorted _) (fun s hs => hne' s ((sortSegs_perm _).mem_iff.1 hs)),
    keySum_perm (sortSegs_perm l), keySum_perm (sortSegs_perm l'), hk]

section
variable {α β γ δ : Int} (hdet : α * δ - β * γ ≠ 0)
include hdet

theorem splitSegments_lin (st : Strategy) (sr : SnapRadius) {tree : TreeOracle CountBool} (ht : tree.SeesEdges) (fuel : Nat)
    {l l' : List (Seg CountBool)} (hk : ∀ a b, keySum l' a b = lin α β γ δ (keySum l a b))
    (hne : ∀ s ∈ l, isNotEmpty s.c = true) (hne' : ∀ s ∈ l', isNotEmpty s.c = true) :
    splitSegments st sr tree fuel l' = (splitSegments st sr tree fuel l).map (List.map (Seg.mapC (lin α β γ δ))) := by
  have hf := lin_hom hdet
  have e : mergeIfNeeded (sortSegs l') = (mergeIfNeeded (sortSegs l)).map (Seg.mapC (lin α β γ δ)) := by
    rw [← mergeIfNeeded_mapC hf, ← sortSegs_mapC]
    refine mergeIfNeeded_keySum (fun a b => ?_) hne' (fun s hs => ?_)
    · rw [hk, keySum_lin]
    · obtain ⟨t, ht, rfl⟩ := List.mem_map.1 hs
      exact (hf.nonempty t.c).trans (hne t ht)
  unfold splitSegments
  dsimp only
  rw [e, List.length_map]
  split
  · exact splitLoop_mapC hf st (ht _) _ _ _ _
  · split
    · unfold fragSplit
      rw [Grid.new_mapC]
      split
      · exact splitLoop_mapC hf st (ht _) _ _ _ _
      · exact fragLoop_mapC hf _ _ _ _
    · exact splitLoop_mapC hf st (ht _) _ _ _ _

theorem closed_lin {segs : List (Seg CountBool)} (hs : Closed CountBool.subj segs) (hc : Closed CountBool.clip segs) :
    Closed CountBool.subj (segs.map (Seg.mapC (lin α β γ δ))) ∧ Closed CountBool.clip (segs.map (Seg.mapC (lin α β γ δ))) := by
  have key : ∀ (φ : CountBool → Int) (u v : Int), (∀ c, φ (lin α β γ δ c) = u * c.subj + v * c.clip) →
      Closed φ (segs.map (Seg.mapC (lin α β γ δ))) := by
    intro φ u v hφ f
    have h1 := hs f
    have h2 := hc f
    unfold segSum at h1 h2 ⊢
    rw [List.map_map]
    have : ∀ l : List (Seg CountBool), ∀ g : Pt → Pt → Int,
        (l.map ((fun s => φ s.c * g s.a s.b) ∘ Seg.mapC (lin α β γ δ))).sum =
          u * (l.map fun s => s.c.subj * g s.a s.b).sum + v * (l.map fun s => s.c.clip * g s.a s.b).sum := by
      intro l g
      induction l with
      | nil => simp
      | cons s l ih =>
        rw [List.map_cons, List.map_cons, List.map_cons, List.sum_cons, List.sum_cons, List.sum_cons, ih]
        have : ((fun s => φ s.c * g s.a s.b) ∘ Seg.mapC (lin α β γ δ)) s = (u * s.c.subj + v * s.c.clip) * g s.a s.b := by
          simp only [Function.comp, Seg.mapC, hφ]
        rw [this]; ring
    refine (this segs fun a b => f a - f b).trans ?_
    rw [h1, h2]; ring
  exact ⟨key _ α β fun _ => rfl, key _ γ δ fun _ => rfl⟩

omit hdet in
theorem botP_lin (segs : List (Seg CountBool)) (s : Seg CountBool) :
    botP (segs.map (Seg.mapC (lin α β γ δ))) (s.mapC (lin α β γ δ)) = linP α β γ δ (botP segs s) := by
  have key : ∀ (φ : CountBool → Int) (u v : Int), (∀ c, φ (lin α β γ δ c) = u * c.subj + v * c.clip) →
      ∀ (w w' : Seg CountBool → Int), (∀ t, w' (t.mapC (lin α β γ δ)) = w t) → ∀ l : List (Seg CountBool),
      wsum φ w' (l.map (Seg.mapC (lin α β γ δ))) = u * wsum CountBool.subj w l + v * wsum CountBool.clip w l := by
    intro φ u v hφ w w' hw l
    induction l with
    | nil => simp
    | cons t l ih =>
      rw [List.map_cons, wsum_cons, wsum_cons, wsum_cons, ih, hw]
      have : (t.mapC (lin α β γ δ)).c = lin α β γ δ t.c := rfl
      rw [this, hφ]; ring
  unfold botP linP botW
  rw [key CountBool.subj α β (fun _ => rfl) _ _ (fun t => rfl) segs, key CountBool.clip γ δ (fun _ => rfl) _ _ (fun t => rfl) segs]
  rfl

end


/-! ### the flags matter only through the filled side -/

/-- The flags of a link that is filled above or not. -/
def topFill (r : OverlayRule) (f : Fill) : Fill := if isFillTop r f then SUBJ_TOP else NONE

theorem isFillTop_topFill (r : OverlayRule) (f : Fill) : isFillTop .subject (topFill r f) = isFillTop r f := by
  unfold topFill
  cases isFillTop r f <;> decide

theorem extract_topFill (x : Externals) (r : OverlayRule) (cw : Bool) (minArea : Nat) (links : List Link) :
    ((Graph.new x.sortE links).bind fun g => extract x g r cw minArea (List.replicate g.links.length false)) =
      (Graph.new x.sortE (links.map (Link.mapF (topFill r)))).bind fun g =>
        extract x g .subject cw minArea (List.replicate g.links.length false) := by
  rw [graphNew_mapF, Option.bind_map]
  congr 1
  funext g
  simp only [Function.comp]
  have e : (g.mapF (topFill r)).links.length = g.links.length := by unfold Graph.mapF; simp
  rw [e]
  exact (extract_mapF g x (fun l _ => isFillTop_topFill r l.fill) cw minArea _).symm

/-- The edges of a result with the filled side: all that shapes depend on. -/
noncomputable def resultLinks (rule : FillRule) (r : OverlayRule) (segs : List (Seg CountBool)) : List Link :=
  (segs.filter fun s => keptB rule r segs s).map fun s =>
    ⟨s.a, 0, s.b, 0, if ruleAt rule r (botP segs s + cpair s) then SUBJ_TOP else NONE⟩

theorem overlay_resultLinks (k : Config) (x : Externals) (hsc : k.scan.Ok) (r : OverlayRule) (rule : FillRule) (cw : Bool)
    (minArea : Nat) {l : List (Seg CountBool)} (hl : ∀ segs, nodedEdges k.st k.sr k.tree k.fuel l = some segs → EdgesOk segs) :
    overlayCustom k x r rule cw minArea l = (nodedEdges k.st k.sr k.tree k.fuel l).bind fun segs =>
      (Graph.new x.sortE (resultLinks rule r segs)).bind fun g =>
        extract x g .subject cw minArea (List.replicate g.links.length false) := by
  have key : ∀ segs, EdgesOk segs →
      (buildLinks (isIncluded r) segs (fillSweep k.scan (addAndFillBool rule) segs)).map (Link.mapF (topFill r)) =
        resultLinks rule r segs := by
    intro segs h
    rw [fillSweep_map rule h.planar h.subj h.clip k.scan hsc, buildLinks_map, List.map_map]
    unfold resultLinks
    have e : (fun s => isIncluded r (fillOf rule segs s)) = fun s => keptB rule r segs s := by
      funext s; exact isIncluded_fillOf rule r segs s
    rw [e]
    apply List.map_congr_left
    intro s hs
    simp only [Function.comp, Link.mapF, topFill]
    rw [isFillTop_fillOf rule r segs s (List.mem_filter.1 hs).2]
  unfold overlayCustom buildBoolean nodedEdges at *
  split
  · have : resultLinks rule r [] = [] := rfl
    rw [Option.bind_some, Option.bind_some, this, extract_topFill]
    rfl
  · rename_i hne
    rw [if_neg hne] at hl
    rcases hs : splitSegments k.st k.sr k.tree k.fuel l with _ | segs
    · rfl
    · rw [Option.map_some, Option.bind_some, Option.bind_some, extract_topFill, ← key segs (hl segs hs)]
      split
      · rename_i h0
        rw [List.isEmpty_iff] at h0
        subst h0
        rfl
      · rfl

/-- Without clip contours no noded edge counts for the clip. -/
theorem noded_clip_zero (k : Config) (hb : k.tree.SeesEdges) (subj clip : List (List Pt)) : clip = [] → ∀ segs, nodedEdges k.st k.sr k.tree k.fuel (overlaySegments subj clip) = some segs →
      ∀ s ∈ segs, s.c.clip = 0 := by
  have hne0 := overlaySegments_nonempty subj clip
  intro hc segs h
  unfold nodedEdges at h
  split at h
  · rw [← Option.some.inj h]; simp
  have e : ∀ a b, keySum (overlaySegments subj clip : List (Seg CountBool)) a b =
      lin 1 0 0 (-1) (keySum (overlaySegments subj clip) a b) := by
    intro a b
    have : ∀ l : List (Seg CountBool), (∀ s ∈ l, s.c.clip = 0) → (keySum l a b).clip = 0 := by
      intro l hl
      induction l with
      | nil => rfl
      | cons s l ih =>
        have ih := ih fun t ht => hl t (by simp [ht])
        rw [keySum_cons]
        split
        · have := hl s (by simp)
          simp only [add]; rw [this, ih]; rfl
        · exact ih
    have := this (overlaySegments subj clip) (by
      subst hc
      intro s hs
      unfold overlaySegments at hs
      rw [List.flatMap_nil, List.append_nil] at hs
      obtain ⟨c, -, hs⟩ := List.mem_flatMap.1 hs
      have e2 := appendPath_mapC (lin 1 0 0 (-1)) ⟨1, 0⟩ ⟨-1, 0⟩ c
      have e3 : lin 1 0 0 (-1) ⟨1, 0⟩ = ⟨1, 0⟩ ∧ lin 1 0 0 (-1) ⟨-1, 0⟩ = ⟨-1, 0⟩ := by decide
      rw [e3.1, e3.2] at e2
      have : (appendContour .subject c : List (Seg CountBool)) = appendPath ⟨1, 0⟩ ⟨-1, 0⟩ c := rfl
      rw [this] at hs
      have h4 := fixed_of_map e2.symm s hs
      have := congrArg (fun t : Seg CountBool => t.c.clip) h4
      simp only [Seg.mapC, lin] at this
      omega)
    simp only [lin]
    rcases hq : keySum (overlaySegments subj clip : List (Seg CountBool)) a b with ⟨u, v⟩
    rw [hq] at this
    simp only at this
    subst this
    simp
  have h5 := splitSegments_lin (α := 1) (β := 0) (γ := 0) (δ := -1) (by decide) k.st k.sr hb k.fuel e hne0 hne0
  rw [h, Option.map_some] at h5
  intro s hs
  have h6 := fixed_of_map (Option.some.inj h5).symm s hs
  have := congrArg (fun t : Seg CountBool => t.c.clip) h6
  simp only [Seg.mapC, lin] at this
  omega

theorem noded_edgesOk {k : Config} (ht : k.tree.Ok) {subj clip : List (List Pt)} (hf : FragFor k subj clip) :
    ∀ segs, nodedEdges k.st k.sr k.tree k.fuel (overlaySegments subj clip) = some segs → EdgesOk segs := by
  intro segs h
  unfold nodedEdges at h
  split at h
  · rw [← Option.some.inj h]
    exact ⟨⟨by simp, List.Pairwise.nil, List.Pairwise.nil⟩, fun _ => rfl, fun _ => rfl⟩
  · obtain ⟨hp, b1, b2, -⟩ := overlay_planar ht hf h
    exact ⟨hp, b1, b2⟩

section
variable {α β γ δ : Int} (hdet : α * δ - β * γ ≠ 0)
include hdet

/-- Two overlays whose counts differ by a linear map, and whose rules agree on the winding numbers that occur, return
the same shapes. -/
theorem overlay_lin (k : Config) (x : Externals) (ht : k.tree.Ok) (hb : k.tree.SeesEdges) (hsc : k.scan.Ok)
    {subj clip : List (List Pt)} (hf : FragFor k subj clip) {l' : List (Seg CountBool)}
    (hk : ∀ a b, keySum l' a b = lin α β γ δ (keySum (overlaySegments subj clip) a b))
    (hne : ∀ s ∈ l', isNotEmpty s.c = true) (hemp : l' = [] ↔ (overlaySegments subj clip : List (Seg CountBool)) = [])
    (r r' : OverlayRule) (rule rule' : FillRule)
    (hop : ∀ s c : Int, (clip = [] → c = 0) → ruleAt rule' r' (linP α β γ δ (s, c)) = ruleAt rule r (s, c))
    (cw : Bool) (minArea : Nat) :
    overlayCustom k x r' rule' cw minArea l' = overlayCustom k x r rule cw minArea (overlaySegments subj clip) := by
  have hne0 := overlaySegments_nonempty subj clip
  have hnod : nodedEdges k.st k.sr k.tree k.fuel l' =
      (nodedEdges k.st k.sr k.tree k.fuel (overlaySegments subj clip)).map (List.map (Seg.mapC (lin α β γ δ))) := by
    unfold nodedEdges
    have : l'.isEmpty = (overlaySegments subj clip : List (Seg CountBool)).isEmpty := by
      rw [Bool.eq_iff_iff, List.isEmpty_iff, List.isEmpty_iff, hemp]
    rw [this]
    split
    · rfl
    · exact splitSegments_lin hdet _ _ hb _ hk hne0 hne
  have hok : ∀ segs, nodedEdges k.st k.sr k.tree k.fuel (overlaySegments subj clip) = some segs → EdgesOk segs := by
    intro segs h
    unfold nodedEdges at h
    split at h
    · rw [← Option.some.inj h]
      exact ⟨⟨by simp, List.Pairwise.nil, List.Pairwise.nil⟩, fun _ => rfl, fun _ => rfl⟩
    · obtain ⟨hp, b1, b2, -⟩ := overlay_planar ht hf h
      exact ⟨hp, b1, b2⟩
  have hok' : ∀ segs, nodedEdges k.st k.sr k.tree k.fuel l' = some segs → EdgesOk segs := by
    intro segs h
    rw [hnod] at h
    obtain ⟨s0, h1, rfl⟩ := Option.map_eq_some_iff.1 h
    have := hok s0 h1
    obtain ⟨c1, c2⟩ := closed_lin hdet this.subj this.clip
    exact ⟨planar_mapC this.planar, c1, c2⟩
  have hzero := noded_clip_zero k hb subj clip
  rw [overlay_resultLinks k x hsc r' rule' cw minArea hok', overlay_resultLinks k x hsc r rule cw minArea hok, hnod,
    Option.bind_map]
  rcases hs : nodedEdges k.st k.sr k.tree k.fuel (overlaySegments subj clip) with _ | segs
  · rfl
  · rw [Option.bind_some, Option.bind_some]
    simp only [Function.comp]
    have hbot : clip = [] → ∀ s, (botP segs s).2 = 0 := by
      intro hc s
      have := hzero hc segs hs
      unfold botP botW wsum
      apply List.sum_eq_zero
      intro n hn
      obtain ⟨t, ht, rfl⟩ := List.mem_map.1 hn
      rw [this t ht, zero_mul]
    have hcp : ∀ s : Seg CountBool, cpair (s.mapC (lin α β γ δ)) = linP α β γ δ (cpair s) := fun s => rfl
    have hadd : ∀ u v : Int × Int, linP α β γ δ u + linP α β γ δ v = linP α β γ δ (u + v) := by
      intro u v
      simp only [linP, Prod.mk_add_mk, Prod.fst_add, Prod.snd_add, Prod.mk.injEq]
      constructor <;> ring
    have h1 : ∀ s ∈ segs, ruleAt rule' r' (botP (segs.map (Seg.mapC (lin α β γ δ))) (s.mapC (lin α β γ δ))) =
        ruleAt rule r (botP segs s) := by
      intro s _
      rw [botP_lin]
      exact hop _ _ fun hc => hbot hc s
    have h2 : ∀ s ∈ segs, ruleAt rule' r' (botP (segs.map (Seg.mapC (lin α β γ δ))) (s.mapC (lin α β γ δ)) +
        cpair (s.mapC (lin α β γ δ))) = ruleAt rule r (botP segs s + cpair s) := by
      intro s hs'
      rw [botP_lin, hcp, hadd]
      refine hop _ _ fun hc => ?_
      have := hzero hc segs hs s hs'
      change (botP segs s).2 + s.c.clip = 0
      rw [this, hbot hc s]; rfl
    have : resultLinks rule' r' (segs.map (Seg.mapC (lin α β γ δ))) = resultLinks rule r segs := by
      unfold resultLinks
      rw [List.filter_map, List.map_map]
      have e : segs.filter ((fun s => keptB rule' r' (segs.map (Seg.mapC (lin α β γ δ))) s) ∘ Seg.mapC (lin α β γ δ)) =
          segs.filter fun s => keptB rule r segs s := by
        apply List.filter_congr
        intro s hs'
        simp only [Function.comp, keptB]
        rw [h1 s hs', h2 s hs']
      rw [e]
      apply List.map_congr_left
      intro s hs'
      simp only [Function.comp]
      rw [h2 s (List.mem_filter.1 hs').1]
      rfl
    rw [this]

end

end IOverlay
