/-
C69: simplification is a normal form of results. Two results that cover the same points give, simplified, the same list;
simplifying twice is the same as once.
-/
import Verif.CanonRun

namespace IOverlay

/-- The point lies on no edge of the contours. -/
def OffEdges (P : List (List Pt)) (q : QPt) : Prop := ∀ c ∈ P, ∀ e ∈ polyEdges c, ¬ onSeg q e.1 e.2

/-- The contours go around the same points, not counting points on edges. -/
def SameArea (P P' : List (List Pt)) : Prop :=
  ∀ q, OffEdges P q → OffEdges P' q → (polysWind P q ≠ 0 ↔ polysWind P' q ≠ 0)

theorem SameArea.symm {P P' : List (List Pt)} (h : SameArea P P') : SameArea P' P := fun q h1 h2 => (h q h2 h1).symm

theorem offEdges_iff {P : List (List Pt)} {q : QPt} : OffEdges P q ↔ ¬ OnAny (P.flatMap polyEdges) q := by
  unfold OffEdges OnAny
  constructor
  · rintro h ⟨e, he, hq⟩
    obtain ⟨c, hc, hec⟩ := List.mem_flatMap.1 he
    exact h c hc e hec hq
  · intro h c hc e he hq
    exact h ⟨e, List.mem_flatMap.2 ⟨c, hc, he⟩, hq⟩

section
variable {P P' : List (List Pt)} (hP : Tidy P) (hP' : Tidy P') {k k' : Config} {x x' : Externals}
  (ha : Assumed k x) (ha' : Assumed k' x') (hf : FragFor k P []) (hf' : FragFor k' P' [])
  {segs segs' : List (Seg CountBool)}
  (h : nodedEdges k.st k.sr k.tree k.fuel (overlaySegments P []) = some segs)
  (h' : nodedEdges k'.st k'.sr k'.tree k'.fuel (overlaySegments P' []) = some segs')
  (he : EdgesOk segs) (he' : EdgesOk segs') (hs : SameArea P P')
include hP hP' ha ha' hf hf' h h' he he' hs

theorem Tidy.covers {q : QPt} (hq : OnAny (ends (counted segs)) q) : OnAny (ends (counted segs')) q := by
  obtain ⟨s, hs1, hqs⟩ := onAny_ends.1 hq
  have hM : ∀ e ∈ ends (counted segs'), e.1 ≠ e.2 := by
    intro e he1
    obtain ⟨s, hs, rfl⟩ := List.mem_map.1 he1
    exact Pt.ne_of_lt (he'.counted_planar.lt s hs)
  refine cover (a := s.a) (b := s.b) (f := fun q => polysWind P q ≠ 0) (ok := fun q => ¬ OnAny (ends (counted segs)) q)
    hM ?_ ?_ q hqs
  · intro p hp
    obtain ⟨ε, e0, e1⟩ := he.counted_planar.near he.counted_closed hs1 hp
    obtain ⟨ε', e0', e1'⟩ := he.counted_planar.beside hs1 hp
    refine ⟨min ε ε', lt_min e0 e0', fun δ d0 d1 => ⟨?_, e1' δ d0 (lt_min_iff.1 d1).2⟩⟩
    obtain ⟨k1, k2⟩ := e1 δ d0 (lt_min_iff.1 d1).1
    rw [segsWind_counted, (hP.wind ha hf h _).1] at k1 k2
    have hc : CountBool.subj s.c ≠ 0 := by simpa using (List.mem_filter.1 hs1).2
    obtain ⟨t, ht, hv⟩ := hP.value
    have v1 := hv (rightOf s.a s.b p δ)
    have v2 := hv (leftOf s.a s.b p δ)
    intro e
    rw [eq_iff_iff] at e
    rw [k1] at v1 e
    rw [k2] at v2 e
    by_cases hb : botW CountBool.subj (counted segs) s = 0
    · rw [hb, zero_add] at e
      exact absurd rfl (e.2 hc)
    · have := e.1 hb
      rcases v1 with v1 | v1
      · exact hb v1
      · rcases v2 with v2 | v2
        · exact this v2
        · apply hc; omega
  · intro q q' o1 o2 hb
    have self : ∀ {q q' : QPt}, q.Between q q' := fun {q q'} => ⟨0, le_refl _, zero_le_one, by ring, by ring⟩
    have n1 : ¬ OnAny (ends (counted segs')) q := fun hn => hb q hn self
    have n2 : ¬ OnAny (ends (counted segs')) q' := fun hn => hb q' hn self.symm
    have off : ∀ q, ¬ OnAny (ends (counted segs)) q → OffEdges P q := fun q hn =>
      offEdges_iff.2 fun hq => hn (hP.on_counted ha hf h he hq)
    have off' : ∀ q, ¬ OnAny (ends (counted segs')) q → OffEdges P' q := fun q hn =>
      offEdges_iff.2 fun hq => hn (hP'.on_counted ha' hf' h' he' hq)
    have e1 := hs q (off q o1) (off' q n1)
    have e2 := hs q' (off q' o2) (off' q' n2)
    have e3 : polysWind P' q = polysWind P' q' := by
      rw [← (hP'.wind ha' hf' h' q).1, ← (hP'.wind ha' hf' h' q').1, ← segsWind_counted segs' q,
        ← segsWind_counted segs' q']
      exact segsWind_const he'.counted_closed hb
    rw [eq_iff_iff, e1, e2, e3]

theorem Tidy.same_edges {rule rule' : FillRule} (hr : rule = .evenOdd ∨ rule = .nonZero)
    (hr' : rule' = .evenOdd ∨ rule' = .nonZero) (a b : Pt) :
    (∃ t ∈ segs, keptB rule .subject segs t = true ∧ t.a = a ∧ t.b = b) →
      ∃ t ∈ segs', keptB rule' .subject segs' t = true ∧ t.a = a ∧ t.b = b := by
  rintro ⟨t, t1, t2, rfl, rfl⟩
  rw [hP.kept ha hf h he hr t t1] at t2
  have hm : t ∈ counted segs := List.mem_filter.2 ⟨t1, t2⟩
  obtain ⟨m, m1, m2, m3⟩ := Turning.same he.counted_planar he'.counted_planar (hP.turning ha hf h he)
    (hP'.turning ha' hf' h' he') (fun q hq => hP.covers hP' ha ha' hf hf' h h' he he' hs hq)
    (fun q hq => hP'.covers hP ha' ha hf' hf h' h he' he hs.symm hq) t hm
  obtain ⟨m4, m5⟩ := List.mem_filter.1 m1
  exact ⟨m, m4, by rw [hP'.kept ha' hf' h' he' hr' m m4]; exact m5, m2, m3⟩

end

/-- Simplifications of tidy contours around the same points are equal. -/
theorem Tidy.canonical {P P' : List (List Pt)} (hP : Tidy P) (hP' : Tidy P') {k k' : Config} {x x' : Externals}
    (ha : Assumed k x) (ha' : Assumed k' x') (e1 : x'.clean = x.clean) (e2 : x'.bind = x.bind) (e3 : x'.sortI = x.sortI)
    (hf : FragFor k P []) (hf' : FragFor k' P' []) (hs : SameArea P P')
    {rule rule' : FillRule} (hr : rule = .evenOdd ∨ rule = .nonZero)
    (hr' : rule' = .evenOdd ∨ rule' = .nonZero) {cw : Bool} {shapes shapes' : List (List (List Pt))}
    (h : IsResult k x .subject rule cw 0 P [] shapes) (h' : IsResult k' x' .subject rule' cw 0 P' [] shapes') :
    shapes = shapes' := by
  obtain ⟨segs, g, V, vis, h1, h2, h3⟩ := h.run ha hf
  obtain ⟨segs', g', V', vis', h1', h2', h3'⟩ := h'.run ha' hf'
  have := h2.same_shapes h2' (fun a b =>
    ⟨hP.same_edges hP' ha ha' hf hf' h1 h1' h2.edges h2'.edges hs hr hr' a b,
      hP'.same_edges hP ha' ha hf' hf h1' h1 h2'.edges h2.edges hs.symm hr' hr a b⟩) cw ha.clean e1 e2 e3 (minArea := 0)
    (Or.inl rfl)
  rw [h3, h3'] at this
  exact Option.some.inj this

/-- C69: whatever operations, solvers and directions two results come from, if they go around the same points their
simplifications are the same list of shapes: same contours, same order, same start points. -/
theorem C69_canonical (k k' : Config) (x x' : Externals) (ha : Assumed k x) (ha' : Assumed k' x') (hc : CleanAssumed x)
    (hc' : CleanAssumed x') (ht : CleanTurns x.clean) (ht' : CleanTurns x'.clean)
    (r r' : OverlayRule) (rule rule' : FillRule) (cw cw' : Bool) (subj clip subj' clip' : List (List Pt))
    (hf : FragFor k subj clip) (hf' : FragFor k' subj' clip')
    (hin : ∀ c ∈ subj ++ clip, ∀ p ∈ c, InRange p) (hin' : ∀ c ∈ subj' ++ clip', ∀ p ∈ c, InRange p)
    (P P' : List (List (List Pt))) (h : IsResult k x r rule cw 0 subj clip P)
    (h' : IsResult k' x' r' rule' cw' 0 subj' clip' P')
    (hs : SameArea P.flatten P'.flatten)
    -- the simplifications
    (l l' : Config) (y y' : Externals) (hl : Assumed l y) (hl' : Assumed l' y') (e1 : y'.clean = y.clean)
    (e2 : y'.bind = y.bind) (e3 : y'.sortI = y.sortI) (hg : FragFor l P.flatten []) (hg' : FragFor l' P'.flatten [])
    (rs rs' : FillRule) (hr : rs = .evenOdd ∨ rs = .nonZero) (hr' : rs' = .evenOdd ∨ rs' = .nonZero) (cs : Bool)
    (shapes shapes' : List (List (List Pt))) (g : IsResult l y .subject rs cs 0 P.flatten [] shapes)
    (g' : IsResult l' y' .subject rs' cs 0 P'.flatten [] shapes') : shapes = shapes' :=
  (h.tidy ha hc ht hf hin).canonical (h'.tidy ha' hc' ht' hf' hin') hl hl' e1 e2 e3 hg hg' hs hr hr' g g'

/-- C69 (fixed points): a simplified result is not changed by simplifying it again. -/
theorem C69_stable (k : Config) (x : Externals) (ha : Assumed k x) (hc : CleanAssumed x) (ht : CleanTurns x.clean)
    (r : OverlayRule) (rule : FillRule) (cw : Bool) (subj clip : List (List Pt)) (hf : FragFor k subj clip)
    (hin : ∀ c ∈ subj ++ clip, ∀ p ∈ c, InRange p) (P : List (List (List Pt)))
    (h : IsResult k x r rule cw 0 subj clip P)
    (l l' : Config) (y y' : Externals) (hl : Assumed l y) (hl' : Assumed l' y') (hcy : CleanAssumed y)
    (hty : CleanTurns y.clean) (e1 : y'.clean = y.clean)
    (e2 : y'.bind = y.bind) (e3 : y'.sortI = y.sortI) (shapes shapes' : List (List (List Pt)))
    (hg : FragFor l P.flatten []) (hg' : FragFor l' shapes.flatten [])
    (rs rs' : FillRule) (hr : rs = .evenOdd ∨ rs = .nonZero) (hr' : rs' = .evenOdd ∨ rs' = .nonZero) (cs : Bool)
    (g : IsResult l y .subject rs cs 0 P.flatten [] shapes)
    (g' : IsResult l' y' .subject rs' cs 0 shapes.flatten [] shapes') : shapes' = shapes := by
  have hP := h.tidy ha hc ht hf hin
  have hS := g.tidy hl hcy hty hg (by simpa using hP.range)
  refine (hP.canonical hS hl hl' e1 e2 e3 hg hg' ?_ hr hr' g g').symm
  intro q _ _
  rw [C57_again k l x y ha hl hc r .subject rule rs cw cs 0 subj clip hf hin P shapes hg (fun _ => rfl) h g q]
  obtain ⟨t, ht, hv⟩ := hP.value
  have := hv q
  generalize polysWind P.flatten q = w at *
  rcases ht with rfl | rfl <;> rcases hr with rfl | rfl <;> rcases this with rfl | rfl <;> cases cs <;> decide

/-- C69 (expressions): two expressions of operations on contours with horizontal and vertical edges that select the same
points give the same list of shapes, once simplified. E.g. union and intersection are associative, as lists of shapes. -/
theorem C69_expressions (rule rule' : FillRule) (hr : rule = .evenOdd ∨ rule = .nonZero)
    (hr' : rule' = .evenOdd ∨ rule' = .nonZero)
    (a b a' b' : List (List Pt)) (A B A' B' : QPt → Bool) (ha : Computed rule a A) (hb : Computed rule b B)
    (ha' : Computed rule' a' A') (hb' : Computed rule' b' B')
    (k k' : Config) (x x' : Externals) (hk : Assumed k x) (hk' : Assumed k' x') (hc : CleanAssumed x)
    (hc' : CleanAssumed x') (ht : CleanTurns x.clean) (ht' : CleanTurns x'.clean) (r r' : OverlayRule) (cw cw' : Bool)
    (hf : FragFor k a b) (hf' : FragFor k' a' b') (P P' : List (List (List Pt)))
    (h : IsResult k x r rule cw 0 a b P) (h' : IsResult k' x' r' rule' cw' 0 a' b' P')
    (hs : ∀ q, r.op (A q) (B q) = r'.op (A' q) (B' q))
    -- the simplifications
    (l l' : Config) (y y' : Externals) (hl : Assumed l y) (hl' : Assumed l' y') (e1 : y'.clean = y.clean)
    (e2 : y'.bind = y.bind) (e3 : y'.sortI = y.sortI) (hg : FragFor l P.flatten []) (hg' : FragFor l' P'.flatten [])
    (rs rs' : FillRule) (hrs : rs = .evenOdd ∨ rs = .nonZero) (hrs' : rs' = .evenOdd ∨ rs' = .nonZero) (cs : Bool)
    (shapes shapes' : List (List (List Pt))) (g : IsResult l y .subject rs cs 0 P.flatten [] shapes)
    (g' : IsResult l' y' .subject rs' cs 0 P'.flatten [] shapes') : shapes = shapes' := by
  have hin : ∀ c ∈ a ++ b, ∀ p ∈ c, InRange p := by
    intro c hc; rcases List.mem_append.1 hc with hc | hc
    exacts [(ha.ok hr).2.1 c hc, (hb.ok hr).2.1 c hc]
  have hin' : ∀ c ∈ a' ++ b', ∀ p ∈ c, InRange p := by
    intro c hc; rcases List.mem_append.1 hc with hc | hc
    exacts [(ha'.ok hr').2.1 c hc, (hb'.ok hr').2.1 c hc]
  have hP := h.tidy hk hc ht hf hin
  have hP' := h'.tidy hk' hc' ht' hf' hin'
  refine hP.canonical hP' hl hl' e1 e2 e3 hg hg' ?_ hrs hrs' g g'
  intro q _ _
  have w1 := ((ha.step hb k x hk hc r cw hf P h).ok hr).2.2.2 q
  have w2 := ((ha'.step hb' k' x' hk' hc' r' cw' hf' P' h').ok hr').2.2.2 q
  rw [hs q, ← w2] at w1
  obtain ⟨t, ht1, hv⟩ := hP.value
  obtain ⟨t', ht1', hv'⟩ := hP'.value
  have v := hv q
  have v' := hv' q
  generalize polysWind P.flatten q = w at *
  generalize polysWind P'.flatten q = w' at *
  clear hs g g' h h' hP hP' hv hv' w2
  rcases ht1 with rfl | rfl <;> rcases ht1' with rfl | rfl <;> rcases hr with rfl | rfl <;> rcases hr' with rfl | rfl <;>
    rcases v with rfl | rfl <;> rcases v' with rfl | rfl <;> revert w1 <;> decide

end IOverlay
