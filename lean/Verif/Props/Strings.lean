/-
Properties C27 (lines are split into directed edges) and C29 (clipping returns every kept piece once).
-/
import Verif.StringLemmas
import Verif.Links
import Verif.Props.Rules

namespace IOverlay

/-! ### C27 -/

/-- The directed pieces of string line recorded in an edge. -/
def Seg.pieces (s : Seg CountStr) : List (Pt × Pt) :=
  (if s.c.back then [(s.a, s.b)] else []) ++ (if s.c.fwd then [(s.b, s.a)] else [])

theorem addStringLine_pieces (a b : Pt) :
    (addStringLine a b).flatMap Seg.pieces = [(a, b)].filter (fun e => decide (e.1 ≠ e.2)) ∧
    ∀ s ∈ addStringLine a b, s.a < s.b ∧ s.c.subj = 0 ∧ s.c.back = !s.c.fwd := by
  unfold addStringLine
  by_cases h1 : a < b
  · rw [if_pos h1]
    have := Pt.ne_of_lt h1
    simp [Seg.pieces, this, h1]
  · rw [if_neg h1]
    by_cases h2 : b < a
    · rw [if_pos h2]
      have := (Pt.ne_of_lt h2).symm
      simp [Seg.pieces, this, h2]
    · rw [if_neg h2]
      have : a = b := by
        rcases Pt.lt_tri a b with h | h | h
        · exact absurd h h1
        · exact h
        · exact absurd h h2
      simp [this]

theorem stringLoop_pieces : ∀ (l : List Pt) (a : Pt),
    (stringLoop a l).flatMap Seg.pieces = (pathSteps (a :: l)).filter (fun e => decide (e.1 ≠ e.2)) ∧
    ∀ s ∈ stringLoop a l, s.a < s.b ∧ s.c.subj = 0 ∧ s.c.back = !s.c.fwd := by
  intro l
  induction l with
  | nil => intro a; exact ⟨rfl, by simp [stringLoop]⟩
  | cons b l ih =>
    intro a
    obtain ⟨h1, h2⟩ := addStringLine_pieces a b
    obtain ⟨h3, h4⟩ := ih b
    refine ⟨?_, ?_⟩
    · have : pathSteps (a :: b :: l) = [(a, b)] ++ pathSteps (b :: l) := rfl
      rw [stringLoop, List.flatMap_append, h1, h3, this, List.filter_append]
    · intro s hs
      rw [stringLoop, List.mem_append] at hs
      rcases hs with hs | hs
      · exact h2 s hs
      · exact h4 s hs

/-- C27 (open path): the directed pieces registered are exactly the steps between different consecutive
points, in order; every edge registered runs left to right, carries exactly one direction and does not
count as a shape edge. -/
theorem C27_string_path (path : List Pt) :
    (addStringPath path).flatMap Seg.pieces = (path.zip path.tail).filter (fun e => decide (e.1 ≠ e.2)) ∧
    ∀ s ∈ addStringPath path, s.a < s.b ∧ s.c.subj = 0 ∧ s.c.back = !s.c.fwd := by
  unfold addStringPath
  rcases path with _ | ⟨p, _ | ⟨p', ps⟩⟩
  · exact ⟨rfl, by simp⟩
  · exact ⟨rfl, by simp⟩
  · rw [if_neg (by simp)]
    exact stringLoop_pieces (p' :: ps) p

theorem polyEdges_eq_steps {p l : Pt} {ps : List Pt} (h : (p :: ps).getLast? = some l) :
    (pathSteps (l :: p :: ps)).Perm (polyEdges (p :: ps)) := by
  have h1 : pathSteps (l :: p :: ps) = (l, p) :: pathSteps (p :: ps) := rfl
  have h2 : polyEdges (p :: ps) = pathSteps (p :: ps) ++ [(l, p)] := by
    rw [← pathSteps_append h p]
    have e0 : polyEdges (p :: ps) = (p :: ps).zip (ps ++ [p]) := rfl
    have e : (p :: ps) ++ [p] = p :: (ps ++ [p]) := rfl
    rw [e0]
    unfold pathSteps
    rw [e, List.tail_cons]
    have : ∀ (A B : List Pt) (x : Pt), A.length = B.length → A.zip B = (A ++ [x]).zip B := by
      intro A
      induction A with
      | nil => intro B x h; cases B with
        | nil => rfl
        | cons => simp at h
      | cons y A ih =>
        intro B x h
        cases B with
        | nil => simp at h
        | cons z B => rw [List.cons_append, List.zip_cons_cons, List.zip_cons_cons, ih B x (by simpa using h)]
    rw [this (p :: ps) (ps ++ [p]) p (by simp)]
    rfl
  rw [h1, h2]
  exact (List.perm_append_singleton _ _).symm

/-- C27 (closed string contour): the directed pieces registered are those of the closed polygon,
the closing edge included. -/
theorem C27_string_contour (contour : List Pt) :
    ((addStringContour contour).flatMap Seg.pieces).Perm
      ((polyEdges contour).filter fun e => decide (e.1 ≠ e.2)) ∧
    ∀ s ∈ addStringContour contour, s.a < s.b ∧ s.c.subj = 0 ∧ s.c.back = !s.c.fwd := by
  unfold addStringContour
  rcases contour with _ | ⟨p, _ | ⟨p', ps⟩⟩
  · exact ⟨List.Perm.refl _, by simp⟩
  · refine ⟨?_, by simp⟩
    simp [polyEdges]
  · rw [if_neg (by simp)]
    obtain ⟨l, hl⟩ : ∃ l, (p :: p' :: ps).getLast? = some l := by
      rcases h : (p :: p' :: ps).getLast? with _ | l
      · simp at h
      · exact ⟨l, rfl⟩
    rw [hl]
    have := stringLoop_pieces (p :: p' :: ps) l
    refine ⟨?_, this.2⟩
    dsimp only
    rw [this.1]
    exact (polyEdges_eq_steps hl).filter _

/-! ### C29 -/

/-- C29 (graph): for any links (left end first, sorted by left end) clipping finishes, every returned
polyline has at least two points, and the steps of all polylines together are exactly the recorded
directed pieces, each once. -/
theorem C29_walk (sortE : List End → List End) (hE : EndSort sortE) (links : List Link)
    (hl : ∀ l ∈ links, l.a < l.b) (hs : links.Pairwise fun l m => ¬ m.a < l.a) :
    ∃ g paths, Graph.new sortE links = some g ∧ clipStringLines g = some paths ∧
      (∀ p ∈ paths, 2 ≤ p.length) ∧
      (paths.flatMap fun p => p.zip p.tail).Perm (links.flatMap Link.pieces) := by
  obtain ⟨g, V, h1, h2, h3⟩ := Graph.new_spec hE ⟨hl, hs⟩
  have hlen : g.links.length = links.length := by simpa using congrArg List.length h3
  have hp : g.links.flatMap Link.pieces = links.flatMap Link.pieces := by
    have : ∀ L : List Link, L.flatMap Link.pieces =
        (L.map fun l => (l.a, l.b, l.fill)).flatMap fun x => Link.pieces ⟨x.1, 0, x.2.1, 0, x.2.2⟩ := by
      intro L; rw [List.flatMap_map]; rfl
    rw [this, h3, ← this]
  have hbound : (g.links.flatMap Link.pieces).length ≤ 2 * g.links.length := by
    have : ∀ L : List Link, (L.flatMap Link.pieces).length ≤ 2 * L.length := by
      intro L
      induction L with
      | nil => simp
      | cons x L ihL =>
        rw [List.flatMap_cons, List.length_append, List.length_cons]
        have := pieces_length x
        omega
    exact this _
  obtain ⟨paths, e1, e2, e3⟩ := clipLoop_spec h2 (3 * g.links.length + 1) 0 g.links [] ⟨rfl⟩
    (by intro j l _ h; omega) (by omega)
  refine ⟨g, paths, h1, e1, fun p hp => (e2 p hp).resolve_left (by simp), ?_⟩
  rw [← hp]
  change (paths.flatMap pathSteps).Perm _
  simpa using e3.symm


/-! ### the whole clipping run -/

theorem stringSegments_lt (shape paths contours : List (List Pt)) :
    ∀ s ∈ stringSegments shape paths contours, s.a < s.b := by
  intro s hs
  unfold stringSegments at hs
  rw [List.mem_append, List.mem_append] at hs
  rcases hs with (hs | hs) | hs
  · obtain ⟨c, -, hs⟩ := List.mem_flatMap.1 hs
    exact appendPath_lt _ _ _ s hs
  · obtain ⟨c, -, hs⟩ := List.mem_flatMap.1 hs
    exact ((C27_string_path c).2 s hs).1
  · obtain ⟨c, -, hs⟩ := List.mem_flatMap.1 hs
    exact ((C27_string_contour c).2 s hs).1

theorem closed_of_zero {l : List (Seg CountStr)} (h : ∀ s ∈ l, s.c.subj = 0) : Closed CountStr.subj l := by
  intro f
  induction l with
  | nil => rfl
  | cons s l ih =>
    have := ih fun t ht => h t (List.mem_cons_of_mem _ ht)
    rw [segSum_cons, this, h s (by simp)]; simp

theorem stringSegments_closed (shape paths contours : List (List Pt)) :
    Closed CountStr.subj (stringSegments shape paths contours) := by
  refine (Closed.append (Closed.flatMap fun c _ => ?_) (Closed.flatMap fun c _ => ?_)).append
    (Closed.flatMap fun c _ => ?_)
  · exact appendPath_closed CountStr.subj 1 rfl rfl c
  · exact closed_of_zero fun s hs => ((C27_string_path c).2 s hs).2.1
  · exact closed_of_zero fun s hs => ((C27_string_contour c).2 s hs).2.1


/-- The flags the sweep stores for an edge of a string overlay. -/
noncomputable def fillOfStr (rule : FillRule) (segs : List (Seg CountStr)) (s : Seg CountStr) : Fill :=
  mkFill (rule.inside (botW CountStr.subj segs s + s.c.subj)) (rule.inside (botW CountStr.subj segs s))
    s.c.back s.c.fwd

theorem fillSweep_map_str (rule : FillRule) {segs : List (Seg CountStr)} (hp : Planar segs)
    (hs : Closed CountStr.subj segs) (sc : ScanOracle CountStr)
    (hsc : sc.Ok) : fillSweep sc (addAndFillStr rule) segs = segs.map (fillOfStr rule segs) := by
  apply List.ext_getElem?
  intro i
  rw [List.getElem?_map]
  rcases h : segs[i]? with _ | s
  · rw [List.getElem?_eq_none_iff] at h
    have : (fillSweep sc (addAndFillStr rule) segs)[i]? = none := by
      rw [List.getElem?_eq_none_iff, fillSweep_length]; exact h
    rw [this]; rfl
  · obtain ⟨v, hv, bot, rfl, hbot⟩ := fillSweep_spec (fun _ : Unit => CountStr.subj)
      (addAndFillStr_additive rule) hp (fun _ => hs) sc hsc (fun _ => rfl) i s h
    have hb : bot.subj = botW CountStr.subj segs s := hbot ()
    rw [hv, addAndFillStr_eq, hb]; rfl

theorem pieces_mkFill (a b : Pt) (i j : Nat) (p q bk fw : Bool) :
    Link.pieces ⟨a, i, b, j, mkFill p q bk fw⟩ =
      (if bk then [(a, b)] else []) ++ (if fw then [(b, a)] else []) := by
  have k : ∀ p q bk fw : Bool, (mkFill p q bk fw &&& CLIP_BACK == CLIP_BACK) = bk ∧
      (mkFill p q bk fw &&& CLIP_FORWARD == CLIP_FORWARD) = fw := by decide
  unfold Link.pieces
  simp only [(k p q bk fw).1, (k p q bk fw).2]

/-- The edges left by the splitting phase of a string overlay. -/
theorem string_planar {st : Strategy} {sr : SnapRadius} {tree : TreeOracle CountStr} (ht : tree.Ok) {fuel : Nat}
    {shape paths contours : List (List Pt)} (hf : FragOk st sr (stringSegments shape paths contours)) {r : List (Seg CountStr)}
    (hr : nodedEdges st sr tree fuel (stringSegments shape paths contours) = some r)
    (hn : st = .list ∨ 2 < r.length) : Planar r ∧ Closed CountStr.subj r := by
  unfold nodedEdges at hr
  split at hr
  · rw [← Option.some.inj hr]
    exact ⟨⟨by simp, List.Pairwise.nil, List.Pairwise.nil⟩, fun _ => rfl⟩
  · have lt := stringSegments_lt shape paths contours
    have bal := (closed_iff_balanced _ _).2 (C13_balanced isComp_strSubj st sr tree fuel _ r
      ((closed_iff_balanced _ _).1 (stringSegments_closed shape paths contours)) hr)
    rcases hn with rfl | hn
    · obtain ⟨h1, h2, h3, -⟩ := splitSegments_spec .list sr tree ht (fun _ => True) (fun _ _ _ => trivial)
        (Or.inl rfl) fuel _ r lt hf trivial hr
      exact ⟨⟨h3, h2, h1⟩, bal⟩
    · obtain ⟨h1, h2, h3, -⟩ := splitSegments_gen st sr tree ht (fun _ => True)
        (fun l => Noded l ∨ l.length ≤ 2) (fun _ h => Or.inl h) (fun _ _ _ => trivial)
        (Or.inr fun l _ _ _ h => Or.inr h) fuel _ r lt hf trivial hr
      exact ⟨⟨h3, h2, h1.resolve_right (by omega)⟩, bal⟩

theorem buildString_eq {inc : Fill → Bool} {rule : FillRule} {st : Strategy} {sr : SnapRadius} {tree : TreeOracle CountStr}
    {sc : ScanOracle CountStr} (hsc : sc.Ok) {fuel : Nat} {segs r : List (Seg CountStr)}
    (hr : nodedEdges st sr tree fuel segs = some r) (hp : Planar r) (hb : Closed CountStr.subj r) :
    buildString inc rule st sr tree sc fuel segs =
      some ((r.filter fun s => inc (fillOfStr rule r s)).map fun s => ⟨s.a, 0, s.b, 0, fillOfStr rule r s⟩) := by
  unfold nodedEdges at hr
  unfold buildString
  split
  · rename_i he
    rw [if_pos he] at hr
    rw [← Option.some.inj hr]; rfl
  · rename_i he
    rw [if_neg he] at hr
    rw [hr, Option.map_some]
    split
    · rename_i he
      rw [List.isEmpty_iff.1 he]; rfl
    · rw [fillSweep_map_str rule hp hb sc hsc, buildLinks_map]

/-- A piece of line with the shape filled on the left (`l`) and on the right (`r`) counts as inside the
shape: filled on both sides, or, if boundaries are to be included, on exactly one. -/
def CountsInside (clip : ClipRule) (l r : Bool) : Prop :=
  (l = true ∧ r = true) ∨ (l ≠ r ∧ clip.boundaryIncluded = true)

/-- C29 for a whole run: shape contours, open and closed lines given by the user, any fill and clip rule,
strategy and precision; `r` are the edges after splitting (C12-C15). The polylines returned consist of
the directed pieces of the edges selected by `K`, each exactly once; `K` selects a piece of line iff it
counts as inside (judged by the winding number of the shape close to any inner point of the piece) and
`invert` is off, or does not and `invert` is on.
(For strategies other than `list` the splitting loop stops with two edges whether or not they cross, so
more than two edges are required there.) -/
theorem C29_clip (clip : ClipRule) (rule : FillRule) (st : Strategy) (sr : SnapRadius)
    (tree : TreeOracle CountStr) (ht : tree.Ok) (sc : ScanOracle CountStr) (hsc : sc.Ok) (fuel : Nat)
    (sortE : List End → List End) (hE : EndSort sortE) (shape paths contours : List (List Pt))
    (hf : FragOk st sr (stringSegments shape paths contours))
    (r : List (Seg CountStr))
    (hr : nodedEdges st sr tree fuel (stringSegments shape paths contours) = some r)
    (hn : st = .list ∨ 2 < r.length) :
    ∃ (out : List (List Pt)) (K : Seg CountStr → Bool),
      clipLines clip rule st sr tree sc fuel sortE (stringSegments shape paths contours) = some out ∧
      (∀ p ∈ out, 2 ≤ p.length) ∧
      (out.flatMap fun p => p.zip p.tail).Perm ((r.filter K).flatMap Seg.pieces) ∧
      ∀ s ∈ r, s.c.back = true ∨ s.c.fwd = true → ∀ m : QPt, inSeg m s.a s.b →
        ∃ ε : ℚ, 0 < ε ∧ ∀ δ, 0 < δ → δ < ε →
          (K s = true ↔
            (CountsInside clip (rule.inside (segsWind CountStr.subj r (leftOf s.a s.b m δ)))
              (rule.inside (segsWind CountStr.subj r (rightOf s.a s.b m δ))) ↔ clip.invert = false)) := by
  obtain ⟨hp, hb⟩ := string_planar ht hf hr hn
  have hlinks := buildString_eq (inc := isClipIncluded clip) (rule := rule) hsc hr hp hb
  obtain ⟨g, out, h1, h2, h3, h4⟩ := C29_walk sortE hE _
    (by
      intro l hl
      obtain ⟨s, hs, rfl⟩ := List.mem_map.1 hl
      exact hp.lt s (List.mem_filter.1 hs).1)
    (by
      rw [List.pairwise_map]
      refine (hp.sorted.filter fun s => isClipIncluded clip (fillOfStr rule r s)).imp ?_
      intro s t hst hlt
      rcases hst with h | ⟨h, -⟩
      · exact Pt.lt_asymm h hlt
      · rw [h] at hlt; exact Pt.lt_irrefl _ hlt :
      ((r.filter fun s => isClipIncluded clip (fillOfStr rule r s)).map
        fun s => (⟨s.a, 0, s.b, 0, fillOfStr rule r s⟩ : Link)).Pairwise fun l m => ¬ m.a < l.a)
  refine ⟨out, fun s => isClipIncluded clip (fillOfStr rule r s), ?_, h3, ?_, ?_⟩
  · unfold clipLines
    rw [hlinks, Option.bind_some, h1, Option.bind_some, h2]
  · refine h4.trans (List.Perm.of_eq ?_)
    rw [List.flatMap_map]
    congr 1
    funext s
    unfold fillOfStr Seg.pieces
    rw [pieces_mkFill]
  · intro s hs hstr m hm
    obtain ⟨ε, e0, he⟩ := hp.near hb hs hm
    refine ⟨ε, e0, fun δ d0 d1 => ?_⟩
    obtain ⟨a1, a2⟩ := he δ d0 d1
    rw [a1, a2]
    unfold fillOfStr
    have key : ∀ (i b p q bk fw : Bool), bk = true ∨ fw = true →
        (isClipIncluded ⟨i, b⟩ (mkFill p q bk fw) = true ↔
          (((p = true ∧ q = true) ∨ (p ≠ q ∧ b = true)) ↔ i = false)) := by decide
    obtain ⟨i, b⟩ := clip
    exact key i b _ _ _ _ hstr


/-! ### no rounding: the pieces lie exactly on the lines -/

/-- A direction flag of string counts. -/
structure IsFlag (φ : CountStr → Bool) : Prop where
  add : ∀ x y, φ (WindingCount.add x y) = (φ x || φ y)
  zero : φ WindingCount.zero = false
  some : ∀ x, φ x = true → WindingCount.isNotEmpty x = true

theorem isFlag_back : IsFlag CountStr.back :=
  ⟨fun _ _ => rfl, rfl, fun x h => by simp [WindingCount.isNotEmpty, h]⟩
theorem isFlag_fwd : IsFlag CountStr.fwd :=
  ⟨fun _ _ => rfl, rfl, fun x h => by simp [WindingCount.isNotEmpty, h]⟩

/-- The edges of `r` carrying the flag subdivide those of `l`: each is part of one, and each point of
one of `l` lies on a part of it. -/
structure Refines (φ : CountStr → Bool) (l r : List (Seg CountStr)) : Prop where
  part : ∀ s ∈ r, φ s.c = true → ∃ t ∈ l, φ t.c = true ∧ onSeg s.a.q t.a t.b ∧ onSeg s.b.q t.a t.b
  cover : ∀ t ∈ l, φ t.c = true → ∀ q, onSeg q t.a t.b →
    ∃ s ∈ r, φ s.c = true ∧ onSeg s.a.q t.a t.b ∧ onSeg s.b.q t.a t.b ∧ onSeg q s.a s.b

theorem Refines.trans {φ : CountStr → Bool} {l m r : List (Seg CountStr)} (h : Refines φ l m) (h' : Refines φ m r) :
    Refines φ l r where
  part := by
    intro s hs h1
    obtain ⟨t, ht, h2, h3, h4⟩ := h'.part s hs h1
    obtain ⟨u, hu, h5, h6, h7⟩ := h.part t ht h2
    exact ⟨u, hu, h5, onSeg_sub h6 h7 h3, onSeg_sub h6 h7 h4⟩
  cover := by
    intro t ht h1 q hq
    obtain ⟨s, hs, h2, h3, h4, h5⟩ := h.cover t ht h1 q hq
    obtain ⟨u, hu, h6, h7, h8, h9⟩ := h'.cover s hs h2 q h5
    exact ⟨u, hu, h6, onSeg_sub h3 h4 h7, onSeg_sub h3 h4 h8, h9⟩

theorem keySum_flag {φ : CountStr → Bool} (hφ : IsFlag φ) (l : List (Seg CountStr)) (a b : Pt) :
    φ (keySum l a b) = true ↔ ∃ s ∈ l, s.a = a ∧ s.b = b ∧ φ s.c = true := by
  induction l with
  | nil => rw [keySum_nil, hφ.zero]; simp
  | cons s l ih =>
    rw [keySum_cons]
    split
    · rename_i h
      rw [hφ.add, Bool.or_eq_true, ih]
      simp [h]
    · rename_i h
      rw [ih]
      simp only [List.mem_cons, exists_eq_or_imp]
      tauto

theorem merge_refines {φ : CountStr → Bool} (hφ : IsFlag φ) {l : List (Seg CountStr)}
    (hne : ∀ s ∈ l, WindingCount.isNotEmpty s.c = true) :
    Refines φ l (mergeIfNeeded (sortSegs l)) := by
  have hne' : ∀ s ∈ sortSegs l, WindingCount.isNotEmpty s.c = true := fun s hs =>
    hne s ((sortSegs_perm l).mem_iff.1 hs)
  have hm := fun s => mergeIfNeeded_mem (sortSegs l) (sortSegs_sorted l) hne' s
  constructor
  · intro s hs h1
    have := ((hm s).1 hs).1
    rw [keySum_perm (sortSegs_perm l)] at this
    rw [this, keySum_flag hφ] at h1
    obtain ⟨t, ht, e1, e2, h3⟩ := h1
    exact ⟨t, ht, h3, by rw [e1, e2]; exact onSeg_left _ _, by rw [e1, e2]; exact onSeg_right _ _⟩
  · intro s hs h1 q h2
    have hk : φ (keySum l s.a s.b) = true := (keySum_flag hφ _ _ _).2 ⟨s, hs, rfl, rfl, h1⟩
    refine ⟨⟨s.a, s.b, keySum l s.a s.b⟩, (hm _).2 ⟨?_, hφ.some _ hk⟩, hk, onSeg_left _ _, onSeg_right _ _, h2⟩
    rw [keySum_perm (sortSegs_perm l)]

theorem onSeg_split {p b m : Pt} (hm : onSeg m.q p b) {q : QPt} (hq : onSeg q p b) :
    onSeg q p m ∨ onSeg q m b := by
  obtain ⟨t, t0, t1, ht⟩ := hq
  obtain ⟨u, u0, u1, hu⟩ := hm
  simp only [atParam, Pt.q] at hu ht
  rcases le_or_gt t u with h | h
  · left
    rcases eq_or_lt_of_le u0 with e | e
    · have : t = 0 := by linarith
      refine ⟨0, le_refl _, by norm_num, ?_, ?_⟩
      · rw [ht.1, this]; ring
      · rw [ht.2, this]; ring
    · refine ⟨t / u, by positivity, by rw [div_le_one e]; exact h, ?_, ?_⟩
      · rw [ht.1, hu.1]; field_simp; ring
      · rw [ht.2, hu.2]; field_simp; ring
  · right
    have e : 0 < 1 - u := by linarith
    refine ⟨(t - u) / (1 - u), div_nonneg (by linarith) e.le, by rw [div_le_one e]; linarith, ?_, ?_⟩
    · rw [ht.1, hu.1]; field_simp; ring
    · rw [ht.2, hu.2]; field_simp; ring

theorem inSeg_right {p b m n : Pt} (hm : inSeg m.q p b) (hn : inSeg n.q p b) (hpb : p < b) (h : m < n) :
    inSeg n.q m b := by
  obtain ⟨t, t0, t1, ht⟩ := hm
  obtain ⟨u, u0, u1, hu⟩ := hn
  have htu := (param_lt hpb ht hu).1 h
  simp only [atParam, Pt.q] at hu ht
  have e : 0 < 1 - t := by linarith
  refine ⟨(u - t) / (1 - t), div_pos (by linarith) e, by rw [div_lt_one e]; linarith, ?_, ?_⟩
  · simp only [Pt.q]; rw [hu.1, ht.1]; field_simp; ring
  · simp only [Pt.q]; rw [hu.2, ht.2]; field_simp; ring

theorem chainSegs_cover (c : CountStr) (b : Pt) : ∀ (l : List Pt) (p : Pt), p < b → l.Pairwise (· < ·) →
    (∀ m ∈ l, inSeg m.q p b) → ∀ q, onSeg q p b →
    ∃ e ∈ chainSegs c b p l, e.c = c ∧ onSeg q e.a e.b := by
  intro l
  induction l with
  | nil =>
    intro p hpb _ _ q hq
    exact ⟨_, by simp [chainSegs]; rfl, by simp [createValidate, hpb], by simp [createValidate, hpb, hq]⟩
  | cons m rest ih =>
    intro p hpb hs hin q hq
    obtain ⟨h1, h2⟩ := List.pairwise_cons.1 hs
    have hm := hin m (by simp)
    have hlt := inSeg_lt hpb hm
    rcases onSeg_split hm.on hq with h | h
    · refine ⟨createValidate p m c, by simp [chainSegs], ?_, ?_⟩
      · simp [createValidate, hlt.1]
      · simp [createValidate, hlt.1, h]
    · obtain ⟨e, e1, e2⟩ := ih m hlt.2 h2
        (fun n hn => inSeg_right hm (hin n (List.mem_cons_of_mem _ hn)) hpb (h1 n hn)) q h
      exact ⟨e, by rw [chainSegs]; exact List.mem_cons_of_mem _ e1, e2⟩

theorem split_refines {φ : CountStr → Bool} (hφ : IsFlag φ) {segs : List (Seg CountStr)} {pairs : List EPair}
    {radius : Int} (hl : ∀ s ∈ segs, s.a < s.b) (hc : Covers pairs segs) (hr : 0 ≤ radius)
    (hf : (roundMarks radius pairs).2 = false) (hne : ∀ s ∈ segs, WindingCount.isNotEmpty s.c = true) :
    Refines φ segs (applyMarks (roundMarks radius pairs).1 segs) := by
  have hex : ∀ {i : Nat} {s : Seg CountStr}, segs[i]? = some s →
      ∀ p ∈ pointsOf i (roundMarks radius pairs).1, inSeg p.q s.a s.b := by
    intro i s hi p hp
    rw [mem_pointsOf] at hp
    obtain ⟨s', k, u, h3, _, _, h5, _⟩ := roundMarks_exact hl hc hr hf hp
    rw [hi] at h3; cases h3; exact h5
  refine Refines.trans (m := splitAll (roundMarks radius pairs).1 0 segs) ⟨?_, ?_⟩ (merge_refines hφ ?_)
  · intro e he h1
    obtain ⟨i, s, h3, h4⟩ := (mem_splitAll _ _ _ _).1 he
    rw [Nat.zero_add] at h4
    obtain ⟨a1, -, a2, a3, -⟩ := splitSeg_piece hl hc hr hf h3 h4
    exact ⟨s, List.mem_of_getElem? h3, by rw [← a1]; exact h1,
      onChain_onSeg hl hc hr hf h3 a2, onChain_onSeg hl hc hr hf h3 a3⟩
  · intro s hs h1 q h2
    obtain ⟨i, hi⟩ := List.getElem?_of_mem hs
    have hsorted := pointsOf_sorted i (roundMarks radius pairs).1
    have heq : splitSeg (roundMarks radius pairs).1 i s =
        chainSegs s.c s.b s.a (pointsOf i (roundMarks radius pairs).1) := by
      have hex' := hex hi
      unfold splitSeg
      split
      · next h => rw [h, chainSegs, createValidate, if_pos (hl s hs)]
      · next m rest h => rw [h] at hsorted hex' ⊢; rw [subSort_exact _ (hl s hs) _ hsorted hex']
    obtain ⟨e, e1, e2, e3⟩ := chainSegs_cover s.c s.b _ s.a (hl s hs) hsorted (hex hi) q h2
    rw [← heq] at e1
    obtain ⟨a1, -, a2, a3, -⟩ := splitSeg_piece hl hc hr hf hi e1
    refine ⟨e, (mem_splitAll _ _ _ _).2 ⟨i, s, hi, ?_⟩, by rw [e2]; exact h1,
      onChain_onSeg hl hc hr hf hi a2, onChain_onSeg hl hc hr hf hi a3, e3⟩
    rw [Nat.zero_add]; exact e1
  · intro e he
    obtain ⟨i, s, h3, h4⟩ := (mem_splitAll _ _ _ _).1 he
    rw [Nat.zero_add] at h4
    obtain ⟨a1, -⟩ := splitSeg_piece hl hc hr hf h3 h4
    rw [a1]; exact hne s (List.mem_of_getElem? h3)

/-- With the list strategy and no rounding in the first round, splitting subdivides the edges of each direction. -/
theorem exact_refines {φ : CountStr → Bool} (hφ : IsFlag φ) (sr : SnapRadius)
    (tree : TreeOracle CountStr) (fuel : Nat) (segs r : List (Seg CountStr)) (hl : ∀ s ∈ segs, s.a < s.b)
    (hne : ∀ s ∈ segs, WindingCount.isNotEmpty s.c = true)
    (hx : (roundMarks sr.radius (listPairs (mergeIfNeeded (sortSegs segs)))).2 = false)
    (he : splitSegments .list sr tree fuel segs = some r) : Refines φ segs r := by
  have h0 := merge_refines hφ hne
  unfold splitSegments at he
  simp only [isListSplit, if_true] at he
  cases fuel with
  | zero => simp [splitLoop] at he
  | succ n =>
    rw [splitLoop] at he
    split at he
    · simp only [Option.some.injEq] at he; subst he; exact h0
    · simp only [hx] at he
      split at he
      · simp only [Option.some.injEq] at he; subst he; exact h0
      · simp only [Bool.false_eq_true, if_false, Option.some.injEq] at he
        subst he
        exact h0.trans (split_refines hφ (start_lt hl)
          (listPairs_covers _ (sorted_of_strict (start_sorted segs)) (start_lt hl))
          sr.radius_nonneg hx (start_nonempty hne))


/-- All edges of a contour carry one of the two counts. -/
theorem appendPath_all {C : Type} (P : C → Prop) {d i : C} (hd : P d) (hi : P i) (pts : List Pt) :
    ∀ s ∈ appendPath d i pts, P s.c := by
  have hw : ∀ u v : Pt, P (withAB u v d i).c := by
    intro u v; unfold withAB; split
    · exact hd
    · exact hi
  have hm : ∀ (r : List Pt) (p0 p1 : Pt), ∀ s ∈ (mainLoop d i p0 p1 r).1, P s.c := by
    intro r
    induction r with
    | nil => simp [mainLoop]
    | cons p r ih =>
      intro p0 p1
      rw [mainLoop]; split
      · exact ih _ _
      · intro s hs
        rcases List.mem_cons.1 hs with rfl | hs
        · exact hw _ _
        · exact ih _ _ s hs
  match pts with
  | [] => simp [appendPath]
  | [p] => simp [appendPath]
  | q0 :: p1 :: rest =>
    intro s hs
    simp only [appendPath, List.mem_append] at hs
    rcases hs with hs | hs
    · exact hm _ _ _ s hs
    · unfold closePath at hs
      split at hs <;> (try split at hs) <;> simp at hs <;>
        (try (rcases hs with rfl | rfl | rfl)) <;> exact hw _ _

theorem stringSegments_nonempty (shape paths contours : List (List Pt)) :
    ∀ s ∈ stringSegments shape paths contours, WindingCount.isNotEmpty s.c = true := by
  have str : ∀ c : CountStr, c.back = !c.fwd → WindingCount.isNotEmpty c = true := by
    rintro ⟨a, b, f⟩ h
    simp only [WindingCount.isNotEmpty] at h ⊢
    cases f <;> simp_all
  intro s hs
  unfold stringSegments at hs
  rw [List.mem_append, List.mem_append] at hs
  rcases hs with (hs | hs) | hs
  · obtain ⟨c, -, hs⟩ := List.mem_flatMap.1 hs
    exact appendPath_all (fun c : CountStr => WindingCount.isNotEmpty c = true) rfl rfl c s hs
  · obtain ⟨c, -, hs⟩ := List.mem_flatMap.1 hs
    exact str _ ((C27_string_path c).2 s hs).2.2
  · obtain ⟨c, -, hs⟩ := List.mem_flatMap.1 hs
    exact str _ ((C27_string_contour c).2 s hs).2.2


/-- The directed lines given by the user: the steps of the open paths and the edges of the closed
contours. -/
def userLines (paths contours : List (List Pt)) : List (Pt × Pt) :=
  (paths.flatMap fun p => p.zip p.tail) ++ contours.flatMap polyEdges

theorem stringSegments_pieces (shape paths contours : List (List Pt)) (e : Pt × Pt) :
    (∃ t ∈ stringSegments shape paths contours, e ∈ t.pieces) ↔ e ∈ userLines paths contours ∧ e.1 ≠ e.2 := by
  unfold stringSegments userLines
  constructor
  · rintro ⟨t, ht, he⟩
    rw [List.mem_append, List.mem_append] at ht
    rcases ht with (ht | ht) | ht
    · obtain ⟨c, -, ht⟩ := List.mem_flatMap.1 ht
      have := appendPath_all (fun c : CountStr => c.back = false ∧ c.fwd = false) ⟨rfl, rfl⟩ ⟨rfl, rfl⟩ c t ht
      simp [Seg.pieces, this.1, this.2] at he
    · obtain ⟨c, hc, ht⟩ := List.mem_flatMap.1 ht
      have h := List.mem_flatMap.2 ⟨t, ht, he⟩
      rw [(C27_string_path c).1, List.mem_filter] at h
      exact ⟨List.mem_append_left _ (List.mem_flatMap.2 ⟨c, hc, h.1⟩), by simpa using h.2⟩
    · obtain ⟨c, hc, ht⟩ := List.mem_flatMap.1 ht
      have h := List.mem_flatMap.2 ⟨t, ht, he⟩
      rw [(C27_string_contour c).1.mem_iff, List.mem_filter] at h
      exact ⟨List.mem_append_right _ (List.mem_flatMap.2 ⟨c, hc, h.1⟩), by simpa using h.2⟩
  · rintro ⟨h, hne⟩
    rcases List.mem_append.1 h with h | h
    · obtain ⟨c, hc, h⟩ := List.mem_flatMap.1 h
      have : e ∈ (addStringPath c).flatMap Seg.pieces := by
        rw [(C27_string_path c).1, List.mem_filter]; exact ⟨h, by simpa using hne⟩
      obtain ⟨t, ht, he⟩ := List.mem_flatMap.1 this
      exact ⟨t, List.mem_append_left _ (List.mem_append_right _ (List.mem_flatMap.2 ⟨c, hc, ht⟩)), he⟩
    · obtain ⟨c, hc, h⟩ := List.mem_flatMap.1 h
      have : e ∈ (addStringContour c).flatMap Seg.pieces := by
        rw [(C27_string_contour c).1.mem_iff, List.mem_filter]; exact ⟨h, by simpa using hne⟩
      obtain ⟨t, ht, he⟩ := List.mem_flatMap.1 this
      exact ⟨t, List.mem_append_right _ (List.mem_flatMap.2 ⟨c, hc, ht⟩), he⟩

theorem mem_pieces (s : Seg CountStr) (u v : Pt) : (u, v) ∈ s.pieces ↔
    (s.c.back = true ∧ u = s.a ∧ v = s.b) ∨ (s.c.fwd = true ∧ u = s.b ∧ v = s.a) := by
  unfold Seg.pieces
  rw [List.mem_append]
  cases s.c.back <;> cases s.c.fwd <;> simp

theorem stringSegments_wind (shape paths contours : List (List Pt)) (hs : ∀ c ∈ shape, NotClosedExplicitly c)
    (q : QPt) : segsWind CountStr.subj (stringSegments shape paths contours) q = polysWind shape q := by
  have z : ∀ l : List (Seg CountStr), (∀ s ∈ l, s.c.subj = 0) → segsWind CountStr.subj l q = 0 := by
    intro l hl
    rw [segsWind_eq_segSum]
    induction l with
    | nil => rfl
    | cons s l ih => rw [segSum_cons, ih fun t ht => hl t (List.mem_cons_of_mem _ ht), hl s (by simp)]; simp
  unfold stringSegments
  have z1 : segsWind CountStr.subj (paths.flatMap addStringPath) q = 0 := z _ (by
      intro s hs
      obtain ⟨c, -, h⟩ := List.mem_flatMap.1 hs
      exact ((C27_string_path c).2 s h).2.1)
  have z2 : segsWind CountStr.subj (contours.flatMap addStringContour) q = 0 := z _ (by
      intro s hs
      obtain ⟨c, -, h⟩ := List.mem_flatMap.1 hs
      exact ((C27_string_contour c).2 s h).2.1)
  rw [segsWind_append, segsWind_append, z1, z2, segsWind_flatMap, add_zero, add_zero]
  unfold polysWind
  congr 1
  exact List.map_congr_left fun c hc => (C04_contour_winding c (hs c hc) q).2.2.2.2

/-- Close to the inner points of the piece `u v`, the clip rule selects the piece: it counts as inside the
shape given by the user, and `invert` is off, or does not, and `invert` is on. -/
def SelectedAt (clip : ClipRule) (rule : FillRule) (shape : List (List Pt)) (u v : Pt) (m : QPt) (δ : ℚ) : Prop :=
  CountsInside clip (rule.inside (polysWind shape (leftOf u v m δ)))
    (rule.inside (polysWind shape (rightOf u v m δ))) ↔ clip.invert = false

/-- C29 in terms of the input (list strategy, no rounding needed by the crossing tests): every step of a
returned polyline runs along a user line, in its direction, and is selected by the clip rule; every
point of a user line lies on a piece of it that is either a step of a returned polyline or not selected;
no directed piece occurs twice. -/
theorem C29_clip_input (clip : ClipRule) (rule : FillRule) (sr : SnapRadius)
    (tree : TreeOracle CountStr) (ht : tree.Ok) (sc : ScanOracle CountStr) (hsc : sc.Ok) (fuel : Nat)
    (sortE : List End → List End) (hE : EndSort sortE) (shape paths contours : List (List Pt))
    (hns : ∀ c ∈ shape, NotClosedExplicitly c) (r : List (Seg CountStr))
    (hr : nodedEdges .list sr tree fuel (stringSegments shape paths contours) = some r)
    (hx : (roundMarks sr.radius (listPairs (mergeIfNeeded (sortSegs
      (stringSegments shape paths contours))))).2 = false) :
    ∃ out, clipLines clip rule .list sr tree sc fuel sortE (stringSegments shape paths contours) = some out ∧
      (out.flatMap fun p => p.zip p.tail).Nodup ∧
      (∀ u v, (u, v) ∈ (out.flatMap fun p => p.zip p.tail) →
        (∃ l ∈ userLines paths contours, onSeg u.q l.1 l.2 ∧ onSeg v.q l.1 l.2 ∧ u ≠ v ∧ (u < v ↔ l.1 < l.2)) ∧
        ∀ m, inSeg m u v → ∃ ε : ℚ, 0 < ε ∧ ∀ δ, 0 < δ → δ < ε → SelectedAt clip rule shape u v m δ) ∧
      (∀ l ∈ userLines paths contours, l.1 ≠ l.2 → ∀ q, onSeg q l.1 l.2 →
        ∃ u v : Pt, onSeg u.q l.1 l.2 ∧ onSeg v.q l.1 l.2 ∧ u ≠ v ∧ (u < v ↔ l.1 < l.2) ∧ onSeg q u v ∧
          ((u, v) ∈ (out.flatMap fun p => p.zip p.tail) ∨
            ∀ m, inSeg m u v → ∃ ε : ℚ, 0 < ε ∧ ∀ δ, 0 < δ → δ < ε → ¬ SelectedAt clip rule shape u v m δ)) := by
  obtain ⟨out, K, h1, -, h3, h4⟩ := C29_clip clip rule .list sr tree ht sc hsc fuel sortE hE shape paths contours
    (FragOk.list _ _) r hr
    (Or.inl rfl)
  have lt0 := stringSegments_lt shape paths contours
  have ne0 := stringSegments_nonempty shape paths contours
  -- splitting
  have ok : (∀ q, segsWind CountStr.subj r q = polysWind shape q) ∧
      Refines CountStr.back (stringSegments shape paths contours) r ∧
      Refines CountStr.fwd (stringSegments shape paths contours) r ∧
      r.Pairwise Seg.lt ∧ ∀ s ∈ r, s.a < s.b := by
    unfold nodedEdges at hr
    split at hr
    · rename_i he
      have e := List.isEmpty_iff.1 he
      rw [← Option.some.inj hr, e]
      refine ⟨fun q => ?_, ⟨by simp, by simp⟩, ⟨by simp, by simp⟩, List.Pairwise.nil, by simp⟩
      rw [← stringSegments_wind shape paths contours hns q, e]
    · obtain ⟨-, s2, s3, -⟩ := splitSegments_spec .list sr tree ht (fun _ => True) (fun _ _ _ => trivial)
          (Or.inl rfl) fuel _ r lt0 (FragOk.list _ _) trivial hr
      refine ⟨fun q => ?_, exact_refines isFlag_back sr tree fuel _ r lt0 ne0 hx hr,
        exact_refines isFlag_fwd sr tree fuel _ r lt0 ne0 hx hr, s2, s3⟩
      rw [C14_exact_split isComp_strSubj sr tree fuel _ r lt0 hx hr q]
      exact stringSegments_wind shape paths contours hns q
  obtain ⟨w, rb, rf, so, lt⟩ := ok
  -- selection of a directed piece
  have sel : ∀ s ∈ r, ∀ u v, (u, v) ∈ s.pieces → ∀ m, inSeg m u v → ∃ ε : ℚ, 0 < ε ∧ ∀ δ, 0 < δ → δ < ε →
      (K s = true ↔ SelectedAt clip rule shape u v m δ) := by
    intro s hs u v hp m hm
    rcases (mem_pieces s u v).1 hp with ⟨hb, rfl, rfl⟩ | ⟨hb, rfl, rfl⟩
    · obtain ⟨ε, e0, he⟩ := h4 s hs (Or.inl hb) m hm
      refine ⟨ε, e0, fun δ d0 d1 => ?_⟩
      have := he δ d0 d1
      rw [w, w] at this
      exact this
    · obtain ⟨ε, e0, he⟩ := h4 s hs (Or.inr hb) m (inSeg_symm hm)
      refine ⟨ε, e0, fun δ d0 d1 => ?_⟩
      have := he δ d0 d1
      rw [w, w] at this
      rw [this]
      have c1 : leftOf s.b s.a m δ = leftOf s.a s.b m δ := by
        unfold leftOf; simp only [eq_comm]
      have c2 : rightOf s.b s.a m δ = rightOf s.a s.b m δ := by
        unfold rightOf; simp only [eq_comm]
      unfold SelectedAt
      rw [c1, c2]
  have memOut : ∀ u v, (u, v) ∈ (out.flatMap fun p => p.zip p.tail) ↔ ∃ s ∈ r, K s = true ∧ (u, v) ∈ s.pieces := by
    intro u v
    rw [h3.mem_iff, List.mem_flatMap]
    constructor
    · rintro ⟨s, hs, h⟩
      exact ⟨s, (List.mem_filter.1 hs).1, (List.mem_filter.1 hs).2, h⟩
    · rintro ⟨s, hs, hk, h⟩
      exact ⟨s, List.mem_filter.2 ⟨hs, hk⟩, h⟩
  refine ⟨out, h1, ?_, ?_, ?_⟩
  · rw [h3.nodup_iff, List.nodup_flatMap]
    refine ⟨fun s hs => ?_, ?_⟩
    · have := lt s (List.mem_filter.1 hs).1
      have ne := Pt.ne_of_lt this
      unfold Seg.pieces
      cases s.c.back <;> cases s.c.fwd <;> simp [ne]
    · refine List.Pairwise.imp_of_mem ?_ (so.filter K)
      intro s t hs ht hst e h1 h2
      obtain ⟨u, v⟩ := e
      have l1 := lt s (List.mem_filter.1 hs).1
      have l2 := lt t (List.mem_filter.1 ht).1
      have : s.a = t.a ∧ s.b = t.b := by
        rcases (mem_pieces s u v).1 h1 with ⟨-, e1, e2⟩ | ⟨-, e1, e2⟩ <;>
        rcases (mem_pieces t u v).1 h2 with ⟨-, f1, f2⟩ | ⟨-, f1, f2⟩
        · exact ⟨e1 ▸ f1, e2 ▸ f2⟩
        · exact absurd l2 (by rw [← f1, ← f2, e1, e2]; exact Pt.lt_asymm l1)
        · exact absurd l2 (by rw [← f1, ← f2, e1, e2]; exact Pt.lt_asymm l1)
        · exact ⟨e2 ▸ f2, e1 ▸ f1⟩
      unfold Seg.lt at hst
      rw [this.1, this.2] at hst
      rcases hst with h | ⟨_, h⟩ <;> exact Pt.lt_irrefl _ h
  · intro u v huv
    obtain ⟨s, hs, hk, hp⟩ := (memOut u v).1 huv
    refine ⟨?_, fun m hm => ?_⟩
    · rcases (mem_pieces s u v).1 hp with ⟨hb, rfl, rfl⟩ | ⟨hb, rfl, rfl⟩
      · obtain ⟨t, ht, tb, p1, p2⟩ := rb.part s hs hb
        have := (stringSegments_pieces shape paths contours (t.a, t.b)).1
          ⟨t, ht, (mem_pieces _ _ _).2 (Or.inl ⟨tb, rfl, rfl⟩)⟩
        exact ⟨_, this.1, p1, p2, Pt.ne_of_lt (lt s hs), by simp [lt s hs, lt0 t ht]⟩
      · obtain ⟨t, ht, tb, p1, p2⟩ := rf.part s hs hb
        have := (stringSegments_pieces shape paths contours (t.b, t.a)).1
          ⟨t, ht, (mem_pieces _ _ _).2 (Or.inr ⟨tb, rfl, rfl⟩)⟩
        exact ⟨_, this.1, onSeg_symm p2, onSeg_symm p1, (Pt.ne_of_lt (lt s hs)).symm,
          by simp [Pt.lt_asymm (lt s hs), Pt.lt_asymm (lt0 t ht)]⟩
    · obtain ⟨ε, e0, he⟩ := sel s hs u v hp m hm
      exact ⟨ε, e0, fun δ d0 d1 => (he δ d0 d1).1 hk⟩
  · rintro ⟨a, b⟩ hl hne q hq
    obtain ⟨t, ht, tp⟩ := (stringSegments_pieces shape paths contours (a, b)).2 ⟨hl, hne⟩
    dsimp only at hq ⊢
    -- the piece through `q`
    have fin : ∀ s ∈ r, ∀ u v : Pt, (u, v) ∈ s.pieces → (u, v) ∈ (out.flatMap fun p => p.zip p.tail) ∨
        ∀ m, inSeg m u v → ∃ ε : ℚ, 0 < ε ∧ ∀ δ, 0 < δ → δ < ε → ¬ SelectedAt clip rule shape u v m δ := by
      intro s hs u v hp
      by_cases hk : K s = true
      · exact Or.inl ((memOut u v).2 ⟨s, hs, hk, hp⟩)
      · right
        intro m hm
        obtain ⟨ε, e0, he⟩ := sel s hs u v hp m hm
        exact ⟨ε, e0, fun δ d0 d1 h => hk ((he δ d0 d1).2 h)⟩
    rcases (mem_pieces t a b).1 tp with ⟨hb, rfl, rfl⟩ | ⟨hb, rfl, rfl⟩
    · obtain ⟨s, hs, sb, p1, p2, p3⟩ := rb.cover t ht hb q hq
      exact ⟨s.a, s.b, p1, p2, Pt.ne_of_lt (lt s hs), by simp [lt s hs, lt0 t ht], p3,
        fin s hs _ _ ((mem_pieces _ _ _).2 (Or.inl ⟨sb, rfl, rfl⟩))⟩
    · obtain ⟨s, hs, sb, p1, p2, p3⟩ := rf.cover t ht hb q (onSeg_symm hq)
      exact ⟨s.b, s.a, onSeg_symm p2, onSeg_symm p1, (Pt.ne_of_lt (lt s hs)).symm,
        by simp [Pt.lt_asymm (lt s hs), Pt.lt_asymm (lt0 t ht)], onSeg_symm p3,
        fin s hs _ _ ((mem_pieces _ _ _).2 (Or.inr ⟨sb, rfl, rfl⟩))⟩


/-! ### witnesses -/

/-- A square, an open path crossing it twice (left to right, then back), and a closed line around a
corner: what the examples clip. -/
def exShape : List (List Pt) := [[⟨-10, -10⟩, ⟨-10, 10⟩, ⟨10, 10⟩, ⟨10, -10⟩]]
def exPaths : List (List Pt) := [[⟨-15, 0⟩, ⟨15, 0⟩, ⟨15, 5⟩, ⟨-15, 5⟩]]
def exContours : List (List Pt) := [[⟨5, 5⟩, ⟨15, 5⟩, ⟨15, 15⟩, ⟨5, 15⟩]]

/-- The hypotheses of `C29_clip_input` (and of `C29_clip`) are met. -/
example : (∀ c ∈ exShape, NotClosedExplicitly c) ∧
    (nodedEdges .list ⟨0, 1⟩ (bruteTree CountStr) 5 (stringSegments exShape exPaths exContours)).isSome ∧
    (roundMarks (SnapRadius.radius ⟨0, 1⟩) (listPairs (mergeIfNeeded (sortSegs
      (stringSegments exShape exPaths exContours))))).2 = false ∧
    (bruteTree CountStr).Ok ∧ (listScanOracle (C := CountStr)).Ok ∧ EndSort insertionEndSort := by
  refine ⟨?_, by decide +kernel, by decide +kernel, bruteTree_ok, listScanOracle_ok, insertionEndSort_ok⟩
  unfold NotClosedExplicitly exShape; decide

/-- The parts inside: the path keeps its direction on both passes; the part shared with the closed line
occurs once in each direction. -/
example : clipLines ⟨false, false⟩ .nonZero .list ⟨0, 1⟩ (bruteTree CountStr) listScanOracle 5 insertionEndSort
    (stringSegments exShape exPaths exContours) =
    some [[⟨-10, 0⟩, ⟨10, 0⟩], [⟨5, 10⟩, ⟨5, 5⟩, ⟨-10, 5⟩], [⟨5, 5⟩, ⟨10, 5⟩, ⟨5, 5⟩]] := by
  decide +kernel

/-- The parts outside. -/
example : clipLines ⟨true, false⟩ .nonZero .list ⟨0, 1⟩ (bruteTree CountStr) listScanOracle 5 insertionEndSort
    (stringSegments exShape exPaths exContours) =
    some [[⟨-15, 0⟩, ⟨-10, 0⟩], [⟨-10, 5⟩, ⟨-15, 5⟩],
      [⟨10, 0⟩, ⟨15, 0⟩, ⟨15, 5⟩, ⟨10, 5⟩, ⟨15, 5⟩, ⟨15, 15⟩, ⟨5, 15⟩, ⟨5, 10⟩]] := by
  decide +kernel

end IOverlay
