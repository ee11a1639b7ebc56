/-
C44 for slicing; C70: floating point clipping and slicing are right except close to the given edges.
-/
import Verif.Props.FloatNear
import Verif.Props.DriftString
import Verif.Props.Shift

namespace IOverlay

/-- C44 (slicing): the returned contours lie in any rectangle containing shape and lines. -/
theorem C44_slice (x : Externals) (order : List Pt → Bool) (ho : OrderOk order) (rule : FillRule) (st : Strategy)
    (sr : SnapRadius) (tree : TreeOracle CountStr) (ht : tree.Ok) (sc : ScanOracle CountStr) (hsc : sc.Ok) (fuel : Nat)
    (hE : EndSort x.sortE) (shape paths contours : List (List Pt))
    (hf : FragOk st sr (stringSegments shape paths contours)) (x0 x1 y0 y1 : Int)
    (hin : ∀ c ∈ shape ++ paths ++ contours, ∀ p ∈ c, InRange p ∧ InRect x0 x1 y0 y1 p)
    (hn : st = .list ∨ ∀ r, nodedEdges st sr tree fuel (stringSegments shape paths contours) = some r → 2 < r.length)
    (shapes : List (List (List Pt)))
    (h : sliceBy x order rule st sr tree sc fuel shape paths contours = some shapes) :
    ∀ c ∈ shapes.flatten, ∀ p ∈ c, InRect x0 x1 y0 y1 p := by
  obtain ⟨r, hr⟩ : ∃ r, nodedEdges st sr tree fuel (stringSegments shape paths contours) = some r := by
    unfold sliceBy stringGraph buildString at h
    unfold nodedEdges
    split
    · exact ⟨_, rfl⟩
    · rename_i he
      rw [if_neg he] at h
      rcases e : splitSegments st sr tree fuel (stringSegments shape paths contours) with _ | r
      · rw [e] at h; simp at h
      · exact ⟨r, rfl⟩
  have hb : ∀ s ∈ r, InRect x0 x1 y0 y1 s.a ∧ InRect x0 x1 y0 y1 s.b := by
    have hr' := hr
    unfold nodedEdges at hr'
    split at hr'
    · rw [← Option.some.inj hr']; simp
    · have h := splitSegments_box st sr tree ht ⟨x0, x1, y0, y1⟩ fuel _ r (stringSegments_lt shape paths contours)
        (stringSegments_ends (P := fun p => (⟨x0, x1, y0, y1⟩ : Box).Has p ∧ InRange p)
          fun c hc p hp => ⟨(hin c hc p hp).2, (hin c hc p hp).1⟩) hr'
      exact fun s hs => h.boxed s hs
  obtain ⟨-, h2, -, -, -⟩ := C58_slice_shapes x order ho rule st sr tree ht sc hsc fuel hE shape paths contours hf r hr
    (hn.imp_right fun h => h r hr) shapes h
  intro c hc p hp
  obtain ⟨i, hi, rfl⟩ := List.mem_iff_getElem.1 hp
  have hz : ∃ q, (c[i], q) ∈ polyEdges c := by
    cases c with
    | nil => simp at hi
    | cons a l =>
      have hz : i < ((a :: l).zip (l ++ [a])).length := by rw [List.length_zip]; simp at hi ⊢; omega
      refine ⟨(l ++ [a])[i]'(by simp at hi ⊢; omega), ?_⟩
      have hm := List.getElem_mem hz
      rw [List.getElem_zip] at hm
      exact hm
  obtain ⟨q, hq⟩ := hz
  rcases (h2 c hc).along _ hq with h | h <;> obtain ⟨s, hs, hse⟩ := List.mem_map.1 h
  · rw [← (Prod.mk.inj hse).1]; exact (hb s hs).1
  · have : s.b = c[i] := (Prod.mk.inj hse).2
    rw [← this]; exact (hb s hs).2

/-! ### floating point -/

variable {P T : Type}

theorem Close.near {d : ℚ} {p q : QPt} (h : Close d p q) : Near d p q := h

/-- Rounded lines are close to the given ones. -/
theorem Adapter.Faithful.line {a : Adapter P T} {val : P → QPt} {s : ℚ} {c : QPt} {ein eout : ℚ} {paths : List (List P)}
    (hF : a.Faithful val s c ein eout paths.flatten) {d : ℚ} {Q : QPt} {E : Pt × Pt} (hE : E ∈ userLines (a.round paths) [])
    (h : Within d Q E.1 E.2) : ∃ path ∈ paths, ∃ e ∈ path.zip path.tail,
      WithinQ (d + ein) Q (rescale s c (val e.1)) (rescale s c (val e.2)) := by
  unfold userLines at hE
  rw [List.flatMap_nil, List.append_nil] at hE
  obtain ⟨r, hr, hE⟩ := List.mem_flatMap.1 hE
  obtain ⟨path, hp, rfl⟩ := List.mem_map.1 hr
  rw [← List.map_tail, List.zip_map] at hE
  obtain ⟨e, he, rfl⟩ := List.mem_map.1 hE
  have m := List.of_mem_zip (show (e.1, e.2) ∈ _ from he)
  refine ⟨path, hp, e, he, (within_q.1 h).trans ?_ ?_⟩
  · exact hF.toInt _ (List.mem_flatten.2 ⟨path, hp, m.1⟩)
  · exact hF.toInt _ (List.mem_flatten.2 ⟨path, hp, List.mem_of_mem_tail m.2⟩)

theorem Adapter.Faithful.sub {a : Adapter P T} {val : P → QPt} {s : ℚ} {c : QPt} {ein eout : ℚ} {l l' : List P}
    (hF : a.Faithful val s c ein eout l) (h : ∀ p ∈ l', p ∈ l) : a.Faithful val s c ein eout l' :=
  ⟨hF.pos, hF.ein0, hF.eout0, fun p hp => hF.toInt p (h p hp), hF.toFloat⟩

theorem inRange_rect {p : Pt} : InRange p ↔ InRect (-2 ^ 30 + 1) (2 ^ 30 - 1) (-2 ^ 30 + 1) (2 ^ 30 - 1) p := by
  unfold InRange InRect; omega

/-- A point on an edge with integer ends converted back: a point of the integer edge is close. -/
theorem Adapter.Faithful.on {a : Adapter P T} {val : P → QPt} {s : ℚ} {c : QPt} {ein eout : ℚ} {l : List P}
    (hF : a.Faithful val s c ein eout l) {u v : Pt} (hu : InRange u) (hv : InRange v) {q : QPt}
    (hq : WithinQ 0 q (val (a.toFloat u)) (val (a.toFloat v))) : ∃ Q', onSeg Q' u v ∧ Close eout (rescale s c q) Q' := by
  have hw : WithinQ (0 + eout) (rescale s c q) u.q v.q :=
    ((withinQ_scaled hF.pos c).2 (by rw [zero_div]; exact hq)).trans (hF.toFloat _ hu) (hF.toFloat _ hv)
  rw [zero_add] at hw
  obtain ⟨t, t0, t1, d1, d2⟩ := hw
  exact ⟨⟨u.x + t * (v.x - u.x), u.y + t * (v.y - u.y)⟩, ⟨t, t0, t1, rfl, rfl⟩, d1, d2⟩

theorem Close.within {d e : ℚ} {q p : QPt} {a b : Pt} (h : Close d q p) (hw : Within e p a b) : Within (e + d) q a b := by
  obtain ⟨o, o1, o2, o3⟩ := hw
  obtain ⟨h1, h2⟩ := h
  refine ⟨o, o1, ?_, ?_⟩
  · have := abs_sub_le q.x p.x o.x; linarith
  · have := abs_sub_le q.y p.y o.y; linarith

section
variable (e : FloatEnv P T) (k : StrConfig) (hk : k.tree.Ok) (hks : k.scan.Ok) (shape string : Resource P) (rule : FillRule)
  (a : Adapter P T) (hadapt : a = e.adapterOf (shape.paths ++ string.paths).flatten)
  (val : P → QPt) (s : ℚ) (c : QPt) (ein eout : ℚ) (hF : a.Faithful val s c ein eout (shape.paths ++ string.paths).flatten)
  (hin : ∀ p ∈ (shape.paths ++ string.paths).flatten, InRange (a.toInt p))
  (hns : ∀ path ∈ shape.paths, NotClosedExplicitly (path.map a.toInt))
  (hf : FragOk k.st k.sr (stringSegments (a.round shape.paths) (a.round string.paths) []))
  (hn : k.st = .list ∨ ∀ r, nodedEdges k.st k.sr k.tree k.fuel (stringSegments (a.round shape.paths) (a.round string.paths) []) =
    some r → 2 < r.length)
include hk hks hadapt hF hin hns hf hn

omit hk hks hadapt hF hns hf hn in
theorem float_range : ∀ c ∈ a.round shape.paths ++ a.round string.paths ++ [], ∀ p ∈ c,
    InRange p ∧ InRect (-2 ^ 30 + 1) (2 ^ 30 - 1) (-2 ^ 30 + 1) (2 ^ 30 - 1) p := by
  rw [List.append_nil, ← round_append]
  intro c' hc' p hp
  obtain ⟨path, h3, rfl⟩ := List.mem_map.1 hc'
  obtain ⟨p, h4, rfl⟩ := List.mem_map.1 hp
  have := hin p (List.mem_flatten.2 ⟨path, h3, h4⟩)
  exact ⟨this, inRange_rect.1 this⟩

omit hk hks hadapt hF hin hf hn in
theorem float_notClosed : ∀ c ∈ a.round shape.paths, NotClosedExplicitly c := by
  intro c' hc'
  obtain ⟨path, h3, rfl⟩ := List.mem_map.1 hc'
  exact hns path h3

/-- C70 (clipping): every point of a returned line is close to a given line, and, unless it is close to an edge of the
shape, inside the given shape (outside if `invert` is on). -/
theorem C70_clip (sortE : List End → List End) (hE : EndSort sortE) (clip : ClipRule) (out : List (List P))
    (h : floatClip e k sortE string shape rule clip = some out) :
    ∀ line ∈ out, ∀ g ∈ line.zip line.tail, ∀ q : QPt, WithinQ 0 q (val g.1) (val g.2) →
      (∃ path ∈ string.paths, ∃ d ∈ path.zip path.tail,
        WithinQ ((drift k.sr k.fuel + ein + eout) / s) q (val d.1) (val d.2)) ∧
      ∀ d', (drift k.sr k.fuel + ein + eout) / s < d' →
        (∀ path ∈ shape.paths, ∀ d ∈ cycleEdges path, ¬ WithinQ d' q (val d.1) (val d.2)) →
        rule.inside (polysWindQ (shape.paths.map fun p => p.map val) q) = !clip.invert := by
  have h0 := (C54_strings e k ⟨sortE, id, ⟨fun _ _ _ => none⟩, fun c => (c, false)⟩ (fun _ => true) shape string rule clip false
    ⟨e.zero, false, false⟩).1
  dsimp only at h0
  rw [h0, ← hadapt] at h
  obtain ⟨lines, hs, rfl⟩ := Option.map_eq_some_iff.1 h
  have hrange := float_range (shape := shape) (string := string) (a := a) hin
  have hin' : ∀ c ∈ a.round shape.paths ++ a.round string.paths ++ [], ∀ p ∈ c, InRange p := fun c hc p hp => (hrange c hc p hp).1
  have hns' := float_notClosed (a := a) (shape := shape) hns
  have hC := C64_clip clip rule hk hks hE hf hns' hin' hn hs
  have hR : ∀ l ∈ lines, ∀ p ∈ l, InRange p := by
    obtain ⟨r, hr⟩ := clip_noded hs
    obtain ⟨o, ho, hr'⟩ := C44_clip clip rule k.st k.sr k.tree hk k.scan hks k.fuel sortE hE _ _ _ hf _ _ _ _ hrange r hr
      (hn.imp_right fun h => h r hr)
    obtain rfl := Option.some.inj (hs.symm.trans ho)
    exact fun l hl p hp => inRange_rect.2 (hr' l hl p hp)
  have hD := drift_nonneg k.fuel k.sr
  have he0 := hF.ein0
  have he1 := hF.eout0
  intro line hline g hg q hq
  obtain ⟨l, hl, rfl⟩ := List.mem_map.1 hline
  rw [← List.map_tail, List.zip_map] at hg
  obtain ⟨E, hE1, rfl⟩ := List.mem_map.1 hg
  have m := List.of_mem_zip (show (E.1, E.2) ∈ _ from hE1)
  obtain ⟨Q', hon, hcl⟩ := hF.on (hR l hl _ m.1) (hR l hl _ (List.mem_of_mem_tail m.2)) hq
  obtain ⟨⟨L, hL, hw⟩, hins⟩ := hC l hl E hE1 Q' hon
  constructor
  · obtain ⟨path, hp, d, hd, hw⟩ := (hF.sub (l' := string.paths.flatten) fun p hp => by
      simp only [List.flatten_append, List.mem_append]; exact Or.inr hp).line hL (hcl.within hw)
    exact ⟨path, hp, d, hd, (withinQ_scaled hF.pos c).1 (hw.mono (by linarith))⟩
  · intro d' hd' hfar
    have hs0 := hF.pos
    have hd1 : drift k.sr k.fuel + ein + eout < d' * s := (div_lt_iff₀ hs0).1 hd'
    have hfs := hF.sub (l' := shape.paths.flatten) fun p hp => by
      simp only [List.flatten_append, List.mem_append]; exact Or.inl hp
    have far : ∀ b, b ≤ d' * s - ein → ∀ E ∈ (a.round shape.paths).flatMap polyEdges, ¬ Within b (rescale s c q) E.1 E.2 := by
      intro b hb E hE hw
      obtain ⟨path, hp, d, hd, hw⟩ := hfs.edge hE hw
      refine hfar path hp d hd ((withinQ_scaled hF.pos c).1 (hw.mono ?_) |>.mono (le_of_eq (mul_div_cancel_right₀ d' hs0.ne')))
      linarith
    have h1 := hins (d' * s - ein - eout) (by linarith) (by
      intro E hE hw
      exact far _ (by linarith) E hE (hcl.within hw))
    rw [← near_wind hcl.near (d := d' * s - ein) (by linarith) (far _ (le_refl _)), hfs.wind ?_] at h1
    · exact h1
    · intro path hp d hd hw
      refine hfar path hp d hd (hw.mono ?_)
      rw [div_le_iff₀ hs0]; linarith

/-- C70 (slicing): every point of an edge of the returned pieces is close to an edge of the shape or to a line; around
every other point the pieces together wind once if it is inside the given shape, else not at all. -/
theorem C70_slice (x : Externals) (order : List Pt → Bool) (ho : OrderOk order) (hE : EndSort x.sortE) (f : ContourFilter T)
    (hclean : f.cleanResult = false) (hmin : a.sqrToInt f.minArea = 0) (out : List (List (List P)))
    (h : floatSlice e k x order shape string rule false f = some out) :
    (∀ piece ∈ out, ∀ contour ∈ piece, ∀ g ∈ cycleEdges contour, ∀ q : QPt, WithinQ 0 q (val g.1) (val g.2) →
      (∃ path ∈ shape.paths, ∃ d ∈ cycleEdges path, WithinQ ((drift k.sr k.fuel + ein + eout) / s) q (val d.1) (val d.2)) ∨
      ∃ path ∈ string.paths, ∃ d ∈ path.zip path.tail,
        WithinQ ((drift k.sr k.fuel + ein + eout) / s) q (val d.1) (val d.2)) ∧
    ∀ q : QPt, (∀ path ∈ shape.paths, ∀ d ∈ cycleEdges path,
        ¬ WithinQ ((drift k.sr k.fuel + ein + eout) / s) q (val d.1) (val d.2)) →
      (∀ path ∈ string.paths, ∀ d ∈ path.zip path.tail,
        ¬ WithinQ ((drift k.sr k.fuel + ein + eout) / s) q (val d.1) (val d.2)) →
      polysWindQ (out.flatten.map fun contour => contour.map val) q =
        if rule.inside (polysWindQ (shape.paths.map fun p => p.map val) q) then 1 else 0 := by
  have h0 := (C54_strings e k x order shape string rule ⟨false, false⟩ false f).2
  rw [h0, ← hadapt, hmin, hclean] at h
  obtain ⟨shapes, hs, hout⟩ := Option.map_eq_some_iff.1 h
  rw [if_neg (by simp)] at hout
  have hrange := float_range (shape := shape) (string := string) (a := a) hin
  have hin' : ∀ c ∈ a.round shape.paths ++ a.round string.paths ++ [], ∀ p ∈ c, InRange p := fun c hc p hp => (hrange c hc p hp).1
  have hns' := float_notClosed (a := a) (shape := shape) hns
  have hC := C64_slice x order ho rule k.st k.sr k.tree hk k.scan hks k.fuel hE _ _ _ hf hns' hin' hn shapes hs
  have hR : ∀ l ∈ shapes.flatten, ∀ p ∈ l, InRange p := fun l hl p hp => inRange_rect.2
    (C44_slice x order ho rule k.st k.sr k.tree hk k.scan hks k.fuel hE _ _ _ hf _ _ _ _ hrange hn shapes hs l hl p hp)
  have hD := drift_nonneg k.fuel k.sr
  have he0 := hF.ein0
  have he1 := hF.eout0
  have hs0 := hF.pos
  have hfs := hF.sub (l' := shape.paths.flatten) fun p hp => by
    simp only [List.flatten_append, List.mem_append]; exact Or.inl hp
  have hfl := hF.sub (l' := string.paths.flatten) fun p hp => by
    simp only [List.flatten_append, List.mem_append]; exact Or.inr hp
  -- points close to edges of the integer result
  have near : ∀ co ∈ shapes.flatten, ∀ E ∈ cycleEdges co, ∀ q Q', onSeg Q' E.1 E.2 → Close eout (rescale s c q) Q' →
      (∃ path ∈ shape.paths, ∃ d ∈ cycleEdges path, WithinQ ((drift k.sr k.fuel + ein + eout) / s) q (val d.1) (val d.2)) ∨
      ∃ path ∈ string.paths, ∃ d ∈ path.zip path.tail,
        WithinQ ((drift k.sr k.fuel + ein + eout) / s) q (val d.1) (val d.2) := by
    intro co hco E hE1 q Q' hon hcl
    obtain ⟨L, hL, hw⟩ := hC.2 co hco E (by rw [polyEdges_cycle]; exact hE1) Q' hon
    rcases List.mem_append.1 hL with hL | hL
    · obtain ⟨path, hp, d, hd, hw⟩ := hfs.edge hL (hcl.within hw)
      exact Or.inl ⟨path, hp, d, hd, (withinQ_scaled hF.pos c).1 (hw.mono (by linarith))⟩
    · obtain ⟨path, hp, d, hd, hw⟩ := hfl.line hL (hcl.within hw)
      exact Or.inr ⟨path, hp, d, hd, (withinQ_scaled hF.pos c).1 (hw.mono (by linarith))⟩
  have hof : out.flatten = shapes.flatten.map fun co => co.map a.toFloat := by
    rw [← hout]; unfold Adapter.shapes; rw [List.map_flatten]
  constructor
  · intro piece hp contour hco g hg q hq
    have : contour ∈ out.flatten := List.mem_flatten.2 ⟨piece, hp, hco⟩
    rw [hof] at this
    obtain ⟨co, hcoo, rfl⟩ := List.mem_map.1 this
    rw [cycleEdges_map] at hg
    obtain ⟨E, hE1, rfl⟩ := List.mem_map.1 hg
    obtain ⟨m1, m2⟩ := cycleEdges_mem hE1
    obtain ⟨Q', hon, hcl⟩ := hF.on (hR co hcoo _ m1) (hR co hcoo _ m2) hq
    exact near co hcoo E hE1 q Q' hon hcl
  · intro q hq hq'
    have far : ∀ E ∈ (a.round shape.paths).flatMap polyEdges, ¬ Within (drift k.sr k.fuel) (rescale s c q) E.1 E.2 := by
      intro E hE hw
      obtain ⟨path, hp, d, hd, hw⟩ := hfs.edge hE hw
      exact hq path hp d hd ((withinQ_scaled hF.pos c).1 (hw.mono (by linarith)))
    have h1 := hC.1 _ far
    rw [hfs.wind ?_] at h1
    · rw [← h1, hof, List.map_map, polysWind_q]
      unfold polysWindQ
      rw [List.map_map, List.map_map]
      congr 1
      refine List.map_congr_left fun co hco => ?_
      simp only [Function.comp]
      rw [← polyWindQ_scaled hF.pos c (List.map val _), List.map_map, List.map_map]
      refine polyWindQ_moved hF.eout0 Pt.q _ co (fun p hp => hF.toFloat p (hR co hco p hp)) _ ?_
      intro E hE1 hw
      obtain ⟨t, t0, t1, d1, d2⟩ := hw
      rcases near co hco E hE1 q ⟨E.1.x + t * (E.2.x - E.1.x), E.1.y + t * (E.2.y - E.1.y)⟩ ⟨t, t0, t1, rfl, rfl⟩ ⟨d1, d2⟩ with
        ⟨path, hp, d, hd, hw⟩ | ⟨path, hp, d, hd, hw⟩
      · exact hq path hp d hd hw
      · exact hq' path hp d hd hw
    · intro path hp d hd hw
      exact hq path hp d hd (hw.mono (by rw [div_le_div_iff_of_pos_right hs0]; linarith))

end

/-! ### an example -/

def exStrings : StrConfig := ⟨.list, ⟨0, 1⟩, bruteTree CountStr, listScanOracle, 5⟩

def exQLine : List QPt := [⟨-1, 5⟩, ⟨12, 16/3⟩, ⟨7, -4/3⟩]

theorem exQLine_round : exUnits.round [exQLine] = [[⟨-1024, 5120⟩, ⟨12288, 5461⟩, ⟨7168, -1365⟩]] := by decide +kernel

def exQClipped : List (List Pt) := [[⟨73, 5148⟩, ⟨10240, 5409⟩], [⟨10240, 2731⟩, ⟨8402, 280⟩]]

def exQPieces : List (List (List Pt)) :=
  [[[⟨8402, 280⟩, ⟨10240, 2731⟩, ⟨10240, 5409⟩, ⟨73, 5148⟩, ⟨0, 0⟩]],
    [[⟨10240, 5409⟩, ⟨10240, 10240⟩, ⟨146, 10240⟩, ⟨73, 5148⟩]], [[⟨8402, 280⟩, ⟨10240, 341⟩, ⟨10240, 2731⟩]]]

/-- A quadrangle with fractional coordinates, and a line that crosses it in points that have to be rounded: the hypotheses
of `C70_clip`, `C70_slice` and `C44_slice` are met. -/
theorem exQLine_runs : exUnits.Faithful id 1024 ⟨0, 0⟩ (1 / 2) 0 ([exQ1] ++ [exQLine]).flatten ∧
    (∀ p ∈ ([exQ1] ++ [exQLine]).flatten, InRange (exUnits.toInt p)) ∧
    (∀ path ∈ [exQ1], NotClosedExplicitly (path.map exUnits.toInt)) ∧
    floatClip exQEnv exStrings exRaw.sortE (.single exQLine) (.single exQ1) .nonZero ⟨false, true⟩ =
      some (exQClipped.map fun p => p.map exUnits.toFloat) ∧
    floatSlice exQEnv exStrings exRaw exOrder (.single exQ1) (.single exQLine) .nonZero false ⟨(), false, false⟩ =
      some (exUnits.shapes exQPieces) := by
  have h := C54_strings exQEnv exStrings exRaw exOrder (.single exQ1) (.single exQLine) .nonZero ⟨false, true⟩ false
    ⟨(), false, false⟩
  refine ⟨exUnits_faithful _, by unfold InRange; decide +kernel, by decide +kernel, ?_, ?_⟩
  · rw [h.1]
    change (clipLines ⟨false, true⟩ .nonZero .list ⟨0, 1⟩ (bruteTree CountStr) listScanOracle 5 exRaw.sortE
      (stringSegments (exUnits.round [exQ1]) (exUnits.round [exQLine]) [])).map _ = _
    rw [exQ_round.1, exQLine_round, show clipLines ⟨false, true⟩ .nonZero .list ⟨0, 1⟩ (bruteTree CountStr) listScanOracle 5
      exRaw.sortE (stringSegments [[⟨0, 0⟩, ⟨10240, 341⟩, ⟨10240, 10240⟩, ⟨146, 10240⟩]]
        [[⟨-1024, 5120⟩, ⟨12288, 5461⟩, ⟨7168, -1365⟩]] []) = some exQClipped by decide +kernel]
    rfl
  · rw [h.2]
    change ((stringGraph .nonZero .list ⟨0, 1⟩ (bruteTree CountStr) listScanOracle 5 exRaw.sortE
      (stringSegments (exUnits.round [exQ1]) (exUnits.round [exQLine]) [])).bind (sliceShapes exRaw exOrder false 0)).map _ = _
    rw [exQ_round.1, exQLine_round, show (stringGraph .nonZero .list ⟨0, 1⟩ (bruteTree CountStr) listScanOracle 5
      exRaw.sortE (stringSegments [[⟨0, 0⟩, ⟨10240, 341⟩, ⟨10240, 10240⟩, ⟨146, 10240⟩]]
        [[⟨-1024, 5120⟩, ⟨12288, 5461⟩, ⟨7168, -1365⟩]] [])).bind (sliceShapes exRaw exOrder false 0) = some exQPieces by
          decide +kernel]
    rfl

end IOverlay
