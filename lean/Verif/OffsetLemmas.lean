/-
Offset edges are boolean edges of a subject with the `Positive` fill rule: the graph, fills and extraction of
mesh/boolean.rs reduced to those of core/*.rs. C49, C52.
-/
import Verif.Offset
import Verif.Run

namespace IOverlay
open WindingCount

/-- The boolean edge of an offset edge: its count as subject count. -/
def Seg.toBool (s : Seg CountOff) : Seg CountBool := ⟨s.a, s.b, ⟨s.c.subj, 0⟩⟩

theorem segSum_toBool (g : Pt → Pt → Int) (l : List (Seg CountOff)) :
    segSum CountBool.subj g (l.map Seg.toBool) = segSum CountOff.subj g l := by
  unfold segSum; rw [List.map_map]; rfl

theorem segSum_toBool_clip (g : Pt → Pt → Int) (l : List (Seg CountOff)) :
    segSum CountBool.clip g (l.map Seg.toBool) = 0 := by
  induction l with
  | nil => rfl
  | cons s l ih => rw [List.map_cons, segSum_cons, ih]; simp [Seg.toBool]

theorem segsWind_toBool (l : List (Seg CountOff)) (q : QPt) :
    segsWind CountBool.subj (l.map Seg.toBool) q = segsWind CountOff.subj l q := by
  unfold segsWind; rw [List.map_map]; rfl

theorem segsWind_toBool_clip (l : List (Seg CountOff)) (q : QPt) :
    segsWind CountBool.clip (l.map Seg.toBool) q = 0 := by
  induction l with
  | nil => rfl
  | cons s l ih => rw [List.map_cons, segsWind_cons, ih]; simp [Seg.toBool]

theorem isComp_off : IsComp CountOff.subj :=
  ⟨fun _ _ => rfl, fun _ => rfl, rfl, fun x h => by
    simpa only [WindingCount.isNotEmpty, bne_eq_false_iff_eq] using h⟩

/-- Property of offset edge lists kept by the loops. -/
def OffOk (l : List (Seg CountOff)) : Prop :=
  Closed CountOff.subj l ∧ ∀ s ∈ l, isNotEmpty s.c = true

theorem OffOk.toBool {l : List (Seg CountOff)} (h : OffOk l) : BoolOk (l.map Seg.toBool) := by
  refine ⟨fun f => ?_, fun f => segSum_toBool_clip _ _, ?_⟩
  · rw [segSum_toBool]; exact h.1 f
  · intro s hs
    obtain ⟨t, ht, rfl⟩ := List.mem_map.1 hs
    have := h.2 t ht
    simp only [isNotEmpty, bne_iff_ne, ne_eq] at this
    simp [isNotEmpty, Seg.toBool, this]

theorem OffOk.apply {l : List (Seg CountOff)} (h : OffOk l) (marks : List Mark) : OffOk (applyMarks marks l) :=
  ⟨applyMarks_closed isComp_off _ _ h.1,
    applyMarks_nonempty (by intro c hc; simpa [isNotEmpty, invert] using hc) _ _ h.2⟩

theorem OffOk.start {l : List (Seg CountOff)} (h : OffOk l) : OffOk (mergeIfNeeded (sortSegs l)) :=
  ⟨fun f => by rw [start_sum isComp_off]; exact h.1 f, start_nonempty h.2⟩

theorem offOk_small_noded (l : List (Seg CountOff)) (hs : l.Pairwise Seg.lt) (hl : ∀ s ∈ l, s.a < s.b)
    (h : OffOk l) (hlen : l.length ≤ 2) : Noded l := by
  have := h.toBool.small (by rw [List.pairwise_map]; exact hs) (by
    intro s hs
    obtain ⟨t, ht, rfl⟩ := List.mem_map.1 hs
    exact hl t ht) (by simpa using hlen)
  rw [List.map_eq_nil_iff.1 this]; exact List.Pairwise.nil

theorem planar_toBool {l : List (Seg CountOff)} (h : Planar l) : Planar (l.map Seg.toBool) where
  lt := by
    intro s hs
    obtain ⟨t, ht, rfl⟩ := List.mem_map.1 hs
    exact h.lt t ht
  sorted := by rw [List.pairwise_map]; exact h.sorted
  noded := by
    unfold Noded
    rw [List.pairwise_map]; exact h.noded

/-- The edges left by the splitting phase. -/
theorem offset_planar {st : Strategy} {sr : SnapRadius} {tree : TreeOracle CountOff} (ht : tree.Ok)
    {fuel : Nat} {segs : List (Seg CountOff)} (hl : ∀ s ∈ segs, s.a < s.b) (hok : OffOk segs)
    (hf : FragOk st sr segs) {r : List (Seg CountOff)} (he : splitSegments st sr tree fuel segs = some r) :
    Planar r ∧ OffOk r := by
  obtain ⟨h1, h2, h3, h4⟩ := splitSegments_spec st sr tree ht OffOk (fun m l hl => hl.apply m)
    (Or.inr offOk_small_noded) fuel _ r hl hf hok.start he
  exact ⟨⟨h3, h2, h1⟩, h4⟩

/-! ### bold edges -/

theorem mergeLoop_all {C : Type} [WindingCount C] {Q : C → Prop} (hadd : ∀ c d, Q c → Q d → Q (add c d))
    (prev : Seg C) (l : List (Seg C)) (h : ∀ s ∈ prev :: l, Q s.c) : ∀ s ∈ mergeLoop prev l, Q s.c := by
  induction l generalizing prev with
  | nil =>
    intro s hs; rw [mergeLoop] at hs
    split at hs
    · simp only [List.mem_singleton] at hs; subst hs; exact h _ (by simp)
    · simp at hs
  | cons u l ih =>
    intro s hs; rw [mergeLoop] at hs
    split at hs
    · refine ih _ ?_ s hs
      intro t ht
      rcases List.mem_cons.1 ht with rfl | ht
      · exact hadd _ _ (h prev (by simp)) (h u (by simp))
      · exact h t (by simp [ht])
    · have ih' := ih u fun t ht => h t (List.mem_cons_of_mem _ ht)
      split at hs
      · rcases List.mem_cons.1 hs with rfl | hs
        · exact h _ (by simp)
        · exact ih' s hs
      · exact ih' s hs

theorem mergeIfNeeded_all {C : Type} [WindingCount C] {Q : C → Prop} (hadd : ∀ c d, Q c → Q d → Q (add c d))
    (l : List (Seg C)) (h : ∀ s ∈ l, Q s.c) : ∀ s ∈ mergeIfNeeded l, Q s.c := by
  have key : ∀ (l : List (Seg C)) (prev : Seg C), (∀ s ∈ prev :: l, Q s.c) → ∀ s ∈ mergeScan prev l, Q s.c := by
    intro l
    induction l with
    | nil => intro prev h; simpa [mergeScan] using h
    | cons u l ih =>
      intro prev h s hs
      rw [mergeScan] at hs
      split at hs
      · exact mergeLoop_all hadd _ _ h s hs
      · rcases List.mem_cons.1 hs with rfl | hs
        · exact h s (by simp)
        · exact ih u (fun s hs => h s (List.mem_cons_of_mem _ hs)) s hs
  cases l with
  | nil => intro s hs; simp [mergeIfNeeded] at hs
  | cons p l => exact key l p h

theorem applyMarks_all {C : Type} [WindingCount C] {Q : C → Prop} (hadd : ∀ c d, Q c → Q d → Q (add c d))
    (hinv : ∀ c, Q c → Q (invert c)) (marks : List Mark) (segs : List (Seg C)) (h : ∀ s ∈ segs, Q s.c) :
    ∀ e ∈ applyMarks marks segs, Q e.c := by
  apply mergeIfNeeded_all hadd
  intro e he
  rw [(sortSegs_perm _).mem_iff, mem_splitAll] at he
  obtain ⟨i, s, h1, h2⟩ := he
  have hs := h s (List.mem_of_getElem? h1)
  unfold splitSeg at h2
  split at h2
  · simp at h2; subst h2; exact hs
  · have cv : ∀ (u v : Pt) (c : C), Q c → Q (createValidate u v c).c := by
      intro u v c hc; unfold createValidate; split
      · exact hc
      · exact hinv c hc
    rename_i pts _
    have key : ∀ (l : List Pt) (p q : Pt), ∀ e ∈ chainSegs s.c q p l, Q e.c := by
      intro l
      induction l with
      | nil => intro p q e he; simp [chainSegs] at he; subst he; exact cv _ _ _ hs
      | cons m rest ih =>
        intro p q e he
        rcases List.mem_cons.1 he with rfl | he
        · exact cv _ _ _ hs
        · exact ih m q e he
    exact key _ _ _ e h2

theorem offset_bold {st : Strategy} {sr : SnapRadius} {tree : TreeOracle CountOff} (ht : tree.Ok)
    {fuel : Nat} {segs : List (Seg CountOff)} (hl : ∀ s ∈ segs, s.a < s.b) (hok : OffOk segs)
    (hf : FragOk st sr segs) (hb : ∀ s ∈ segs, s.c.bold = true) {r : List (Seg CountOff)}
    (he : splitSegments st sr tree fuel segs = some r) : ∀ s ∈ r, s.c.bold = true := by
  have hadd : ∀ c d : CountOff, c.bold = true → d.bold = true → (add c d).bold = true := by
    intro c d hc hd; show (c.bold || d.bold) = true; rw [hc]; rfl
  obtain ⟨-, -, -, h4⟩ := splitSegments_spec st sr tree ht (fun l => OffOk l ∧ ∀ s ∈ l, s.c.bold = true)
    (fun m l hl => ⟨hl.1.apply m, applyMarks_all (Q := fun c : CountOff => c.bold = true) hadd (fun _ h => h) m l hl.2⟩)
    (Or.inr fun l h1 h2 h3 h4 => offOk_small_noded l h1 h2 h3.1 h4) fuel _ r hl hf
    ⟨hok.start, mergeIfNeeded_all (Q := fun c : CountOff => c.bold = true) hadd _
      fun s hs => hb s ((sortSegs_perm segs).mem_iff.1 hs)⟩ he
  exact h4.2

/-! ### fills -/

theorem addAndFillOff_eq (this bot : CountOff) : addAndFillOff this bot =
    (⟨bot.subj + this.subj, false⟩, mkFill (decide (bot.subj + this.subj > 0)) (decide (bot.subj > 0)) this.bold false) := by
  unfold addAndFillOff mkFill
  dsimp only
  congr 1
  generalize decide (bot.subj + this.subj > 0) = u
  generalize decide (bot.subj > 0) = v
  generalize this.bold = w
  revert u v w; decide

theorem addAndFillOff_additive : Additive (fun _ : Unit => CountOff.subj) addAndFillOff := by
  intro k this bot
  rw [addAndFillOff_eq]

/-- The flags the sweep stores for an offset edge. -/
noncomputable def fillOfOff (segs : List (Seg CountOff)) (s : Seg CountOff) : Fill :=
  mkFill (decide (botW CountOff.subj segs s + s.c.subj > 0)) (decide (botW CountOff.subj segs s > 0)) s.c.bold false

theorem fillSweep_off {segs : List (Seg CountOff)} (hp : Planar segs) (hs : Closed CountOff.subj segs)
    (sc : ScanOracle CountOff) (hsc : sc.Ok) : fillSweep sc addAndFillOff segs = segs.map (fillOfOff segs) := by
  apply List.ext_getElem?
  intro i
  rw [List.getElem?_map]
  rcases h : segs[i]? with _ | s
  · rw [List.getElem?_eq_none_iff] at h
    have : (fillSweep sc addAndFillOff segs)[i]? = none := by
      rw [List.getElem?_eq_none_iff, fillSweep_length]; exact h
    rw [this]; rfl
  · obtain ⟨v, hv, bot, rfl, hb⟩ := fillSweep_spec (fun _ : Unit => CountOff.subj) addAndFillOff_additive hp
      (fun _ => hs) sc hsc (fun _ => rfl) i s h
    have hb : bot.subj = botW CountOff.subj segs s := hb ()
    rw [hv, addAndFillOff_eq, hb]; rfl

theorem botW_toBool (segs : List (Seg CountOff)) (s : Seg CountOff) :
    botW CountBool.subj (segs.map Seg.toBool) s.toBool = botW CountOff.subj segs s := by
  unfold botW wsum
  rw [List.map_map]; rfl

theorem botW_toBool_clip (segs : List (Seg CountOff)) (s : Seg CountOff) :
    botW CountBool.clip (segs.map Seg.toBool) s.toBool = 0 := by
  unfold botW wsum
  rw [List.map_map]
  have : ∀ l : List (Seg CountOff), (l.map fun _ => (0:Int)).sum = 0 := by
    intro l; induction l <;> simp_all
  rw [← this segs]
  congr 1
  refine List.map_congr_left fun s _ => ?_
  simp [Seg.toBool]

/-- The two bits of a fill that concern the subject. -/
def subjBits (f : Fill) : Fill := f &&& 3#8

theorem subjBits_mkFill (a b c d : Bool) : subjBits (mkFill a b c d) = mkFill a b false false := by
  revert a b c d; decide

theorem maskFilter_subjBits (f : Fill) : maskFilter .subject (subjBits f) = maskFilter .subject f := by
  revert f; decide

theorem isFillTop_subjBits (f : Fill) : isFillTop .subject (subjBits f) = (f &&& SUBJ_TOP == SUBJ_TOP) := by
  revert f; decide

theorem fillOf_toBool (segs : List (Seg CountOff)) (s : Seg CountOff) :
    fillOf .positive (segs.map Seg.toBool) s.toBool = subjBits (fillOfOff segs s) := by
  unfold fillOf fillOfOff
  rw [subjBits_mkFill, botW_toBool, botW_toBool_clip]
  rfl

/-- The same graph with only the subject bits. -/
def Graph.masked (g : Graph) : Graph := { g with links := g.links.map fun l => { l with fill := subjBits l.fill } }

theorem masked_get (g : Graph) (i : Nat) :
    g.masked.links[i]? = (g.links[i]?).map fun l => { l with fill := subjBits l.fill } := by
  unfold Graph.masked; rw [List.getElem?_map]

theorem masked_length (g : Graph) : g.masked.links.length = g.links.length := by
  unfold Graph.masked; rw [List.length_map]

theorem masked_ok {g : Graph} {V : List Pt} (h : GraphOk g V) : GraphOk g.masked V := by
  have hm : ∀ {l : Link}, l ∈ g.masked.links → ∃ l' ∈ g.links, l = { l' with fill := subjBits l'.fill } := by
    intro l hl
    obtain ⟨l', h1, h2⟩ := List.mem_map.1 hl
    exact ⟨l', h1, h2.symm⟩
  refine ⟨h.sorted, h.nodes, ?_, ?_, ?_, ?_, ?_⟩
  · intro l hl; obtain ⟨l', h1, rfl⟩ := hm hl; exact h.lt l' h1
  · intro l hl; obtain ⟨l', h1, rfl⟩ := hm hl; exact h.aId l' h1
  · intro l hl; obtain ⟨l', h1, rfl⟩ := hm hl; exact h.bId l' h1
  · intro v hv
    obtain ⟨l, h1, h2⟩ := h.occ v hv
    exact ⟨_, List.mem_map_of_mem h1, h2⟩
  · intro k nd hk
    obtain ⟨A, B, h1, h2, h3, h4, h5⟩ := h.idx k nd hk
    refine ⟨A, B, h1, h2, h3, ?_, ?_⟩
    · intro i
      rw [h4, masked_get]
      constructor
      · rintro ⟨l, e, e'⟩; exact ⟨{ l with fill := subjBits l.fill }, by rw [e]; rfl, e'⟩
      · rintro ⟨l, e, e'⟩
        obtain ⟨l', q1, rfl⟩ := Option.map_eq_some_iff.1 e
        exact ⟨l', q1, e'⟩
    · intro i
      rw [h5, masked_get]
      constructor
      · rintro ⟨l, e, e'⟩; exact ⟨{ l with fill := subjBits l.fill }, by rw [e]; rfl, e'⟩
      · rintro ⟨l, e, e'⟩
        obtain ⟨l', q1, rfl⟩ := Option.map_eq_some_iff.1 e
        exact ⟨l', q1, e'⟩

/-! ### the walk does not look at fills -/

theorem addVectors_masked (g : Graph) (node : Nat) : ∀ (is : List Nat) (s : NearestVector),
    addVectors g.masked node is s = addVectors g node is s := by
  intro is
  induction is with
  | nil => intro s; rfl
  | cons i is ih =>
    intro s
    rw [addVectors, addVectors, masked_get]
    cases g.links[i]? with
    | none => rfl
    | some l => exact ih _

theorem findNearest_masked (g : Graph) (target node : Nat) (cw : Bool) (indices : List Nat) (vis : List Bool) :
    findNearest g.masked target node cw indices vis = findNearest g target node cw indices vis := by
  unfold findNearest
  rcases indices.filter fun i => !isVisited vis i with _ | ⟨x, _ | ⟨y, rest⟩⟩
  · rfl
  · rfl
  · dsimp only
    rw [masked_get, masked_get]
    cases g.links[target]? with
    | none => rfl
    | some t =>
      cases g.links[x]? with
      | none => rfl
      | some lx =>
        simp only [Option.map_some, Option.bind_some]
        rw [addVectors_masked]; rfl

theorem nextLink_masked (g : Graph) (link node : Nat) (cw : Bool) (vis : List Bool) :
    nextLink g.masked link node cw vis = nextLink g link node cw vis := by
  unfold nextLink
  show (g.nodes[node]?).bind _ = _
  cases g.nodes[node]? with
  | none => rfl
  | some nd =>
    cases nd with
    | bridge i j => rfl
    | cross is => exact findNearest_masked ..

theorem walk_masked (g : Graph) (cw : Bool) (last : Nat) : ∀ (fuel node link : Nat) (vis : List Bool) (c : List Pt),
    walk g.masked cw last fuel node link vis c = walk g cw last fuel node link vis c := by
  intro fuel
  induction fuel with
  | zero => intro node link vis c; rw [walk, walk]
  | succ fuel ih =>
    intro node link vis c
    rw [walk, walk, nextLink_masked]
    split
    · rfl
    · cases nextLink g link node cw vis with
      | none => rfl
      | some i =>
        rw [Option.bind_some, Option.bind_some, masked_get]
        cases g.links[i]? with
        | none => rfl
        | some l =>
          simp only [Option.map_some, Option.bind_some, ih]

theorem getContour_masked (g : Graph) (fuel : Nat) (s : StartPath) (cw : Bool) (vis : List Bool) :
    getContour g.masked fuel s cw vis = getContour g fuel s cw vis := walk_masked ..

theorem leftTopIndices_masked (g : Graph) (li : Nat) (vis : List Bool) : ∀ (is : List Nat) (top : Nat) (l : Link),
    leftTopIndices g.masked li vis is top { l with fill := subjBits l.fill } = leftTopIndices g li vis is top l := by
  intro is
  induction is with
  | nil => intro top l; rfl
  | cons i is ih =>
    intro top l
    rw [leftTopIndices, leftTopIndices, masked_get]
    split
    · exact ih _ _
    · cases g.links[i]? with
      | none => rfl
      | some m =>
        simp only [Option.map_some, Option.bind_some, ih]
        rfl

theorem findLeftTop_masked (g : Graph) (li : Nat) (vis : List Bool) :
    findLeftTop g.masked li vis = findLeftTop g li vis := by
  unfold findLeftTop
  rw [masked_get]
  cases g.links[li]? with
  | none => rfl
  | some l =>
    simp only [Option.map_some, Option.bind_some]
    show (g.nodes[l.aId]?).bind _ = _
    cases g.nodes[l.aId]? with
    | none => rfl
    | some nd =>
      cases nd with
      | bridge i j =>
        simp only [Option.bind_some]
        unfold leftTopBridge
        rw [masked_get, masked_get]
        cases g.links[i]? with
        | none => rfl
        | some l0 =>
          cases g.links[j]? with
          | none => rfl
          | some l1 => rfl
      | cross is => exact leftTopIndices_masked ..

/-! ### the walk with the flag `bold` -/

/-- Link `i` is bold. -/
def boldAt (g : Graph) (i : Nat) : Bool := ((g.links[i]?).map Link.isBold).getD false

section
variable {g : Graph} {V : List Pt} (hg : GraphOk g V)
include hg

theorem walkOff_spec (clockwise : Bool) (last : Nat) {q : Pt} (hq : V[last]? = some q) :
    ∀ (fuel node link : Nat) (vis : List Bool) (contour : List Pt) (bold : Bool) (p : Pt), V[node]? = some p →
    isVisited vis link = true → inc g link node = true →
    (∀ n, dpar g vis n = xor (decide (n = node)) (decide (n = last))) → unv g vis ≤ fuel →
    ∃ trail pts vis', walkOff g clockwise last fuel node link vis contour bold =
        some (contour ++ pts, vis', bold || trail.any (boldAt g)) ∧
      walk g clockwise last fuel node link vis contour = some (contour ++ pts, vis') ∧
      Path g.links trail pts p q := by
  intro fuel
  induction fuel with
  | zero =>
    intro node link vis contour bold p hp hv hi hd hf
    have hnl : node = last := by
      by_contra hne
      have := hd node
      simp only [hne, decide_true, decide_false, Bool.xor_false] at this
      obtain ⟨i, h1, h2, h3⟩ := dpar_true this
      have := unv_visit h1 h2
      omega
    subst hnl
    rw [hp] at hq
    obtain rfl := Option.some.inj hq
    refine ⟨[], [], vis, ?_, ?_, Path.nil p⟩
    · rw [walkOff, if_pos rfl]; simp
    · rw [walk, if_pos rfl]; simp
  | succ fuel ih =>
    intro node link vis contour bold p hp hv hi hd hf
    by_cases hnl : node = last
    · subst hnl
      rw [hp] at hq
      obtain rfl := Option.some.inj hq
      refine ⟨[], [], vis, ?_, ?_, Path.nil p⟩
      · rw [walkOff, if_pos rfl]; simp
      · rw [walk, if_pos rfl]; simp
    · have hn : node < g.nodes.length := by
        rw [hg.nodes]; exact (List.getElem?_eq_some_iff.1 hp).1
      have hodd : dpar g vis node = true := by rw [hd node]; simp [hnl]
      obtain ⟨i, n1, n2, n3⟩ := nextLink_spec hg (clockwise := clockwise) hn hodd hi hv
      obtain ⟨l, hl, hln⟩ := inc_get n2
      have hmem := List.mem_of_getElem? hl
      have hne := ends_ne hg hmem
      have hbi : boldAt g i = l.isBold := by unfold boldAt; rw [hl]; rfl
      rw [walk, if_neg hnl, walkOff, if_neg hnl]
      simp only [n1, Option.bind_some, hl]
      have key : ∀ (node' : Nat) (p' : Pt), V[node']? = some p' →
          (∀ n, inc g i n = (decide (n = node) || decide (n = node'))) → node ≠ node' →
          ((l.a = p ∧ l.b = p') ∨ (l.b = p ∧ l.a = p')) →
          ∃ trail pts vis', walkOff g clockwise last fuel node' i (visit vis i) (contour ++ [p]) (bold || l.isBold) =
              some (contour ++ pts, vis', bold || trail.any (boldAt g)) ∧
            walk g clockwise last fuel node' i (visit vis i) (contour ++ [p]) = some (contour ++ pts, vis') ∧
            Path g.links trail pts p q := by
        intro node' p' hp' hinc hnn hj
        have hu := unv_visit (inc_lt n2) n3
        obtain ⟨trail, pts, vis', e1, e2, e8⟩ :=
          ih node' i (visit vis i) (contour ++ [p]) (bold || l.isBold) p' hp' (by rw [isVisited_visit]; simp)
            (by rw [hinc]; simp) (by
              intro n
              rw [dpar_visit (inc_lt n2) n3, hinc, hd n]
              by_cases c1 : n = node
              · subst c1; simp [hnn, hnl]
              · simp [c1]) (by omega)
        refine ⟨i :: trail, p :: pts, vis', ?_, ?_, Path.cons hl hj e8⟩
        · rw [e1, List.any_cons, hbi, Bool.or_assoc]; simp
        · rw [e2]; simp
      by_cases ha : l.aId = node
      · rw [if_pos ha, if_pos ha]
        have hpa : l.a = p := by
          have := hg.aId l hmem
          rw [ha, hp] at this; exact (Option.some.inj this).symm
        rw [hpa]
        refine key l.bId l.b (hg.bId l hmem) ?_ (by rw [← ha]; exact hne) (Or.inl ⟨hpa, rfl⟩)
        intro n; unfold inc; rw [hl]; simp [← ha, eq_comm]
      · rw [if_neg ha, if_neg ha]
        have hb : l.bId = node := hln.resolve_left ha
        have hpb : l.b = p := by
          have := hg.bId l hmem
          rw [hb, hp] at this; exact (Option.some.inj this).symm
        rw [hpb]
        refine key l.aId l.a (hg.aId l hmem) ?_ (Ne.symm ha) (Or.inr ⟨hpb, rfl⟩)
        intro n; unfold inc; rw [hl]; simp [← hb, eq_comm, Bool.or_comm]

/-- One contour with its flag. -/
theorem getFillPath_spec {vis : List Bool} (hd : ∀ n, dpar g vis n = false) {lt : Nat} {l : Link}
    (hl : g.links[lt]? = some l) (hv : isVisited vis lt = false) (direction clockwise : Bool) :
    ∃ trail raw vis', getFillPath g g.links.length (StartPath.new direction l lt) clockwise l.isBold vis =
        some (raw, vis', trail.any (boldAt g)) ∧
      getContour g g.links.length (StartPath.new direction l lt) clockwise vis = some (raw, vis') ∧
      ClosedTrail g.links trail raw ∧ trail ≠ [] := by
  have hmem := List.mem_of_getElem? hl
  have hne := ends_ne hg hmem
  have hlt := (List.getElem?_eq_some_iff.1 hl).1
  have hu := unv_visit hlt hv
  have hle : unv g (visit vis lt) ≤ g.links.length := by
    unfold unv
    exact (List.countP_le_length).trans (by simp)
  have hinc : ∀ n, inc g lt n = (decide (n = l.aId) || decide (n = l.bId)) := by
    intro n; unfold inc; rw [hl]; simp [eq_comm]
  have hbi : boldAt g lt = l.isBold := by unfold boldAt; rw [hl]; rfl
  have main : ∀ (node last : Nat) (p q : Pt), V[node]? = some p → V[last]? = some q → node ≠ last →
      (∀ n, inc g lt n = (decide (n = node) || decide (n = last))) →
      ((l.a = q ∧ l.b = p) ∨ (l.b = q ∧ l.a = p)) →
      ∃ trail raw vis', walkOff g clockwise last g.links.length node lt (visit vis lt) [q] l.isBold =
          some (raw, vis', trail.any (boldAt g)) ∧
        walk g clockwise last g.links.length node lt (visit vis lt) [q] = some (raw, vis') ∧
        ClosedTrail g.links trail raw ∧ trail ≠ [] := by
    intro node last p q hp hq hnl hin hj
    obtain ⟨trail, pts, vis', e1, e2, e8⟩ :=
      walkOff_spec hg clockwise last hq g.links.length node lt (visit vis lt) [q] l.isBold p hp
        (by rw [isVisited_visit]; simp) (by rw [hin]; simp) (by
          intro n
          rw [dpar_visit hlt hv, hin, hd n]
          by_cases c1 : n = node
          · subst c1; simp [hnl]
          · simp [c1]) hle
    refine ⟨lt :: trail, q :: pts, vis', ?_, e2, Path.closed (Path.cons hl hj e8), by simp⟩
    rw [e1, List.any_cons, hbi]; rfl
  unfold getContour getFillPath StartPath.new
  cases direction
  · simp only [Bool.false_eq_true, if_false]
    exact main l.bId l.aId l.b l.a (hg.bId l hmem) (hg.aId l hmem) (Ne.symm hne)
      (by intro n; rw [hinc, Bool.or_comm]) (Or.inl ⟨rfl, rfl⟩)
  · simp only [if_true]
    exact main l.aId l.bId l.a l.b (hg.aId l hmem) (hg.bId l hmem) hne hinc (Or.inr ⟨rfl, rfl⟩)

end

/-- A contour has a bold edge. -/
def boldContour (g : Graph) (c : List Pt) : Bool :=
  (polyEdges c).any fun e => g.links.any fun l => l.isBold && (decide (e = (l.a, l.b)) || decide (e = (l.b, l.a)))

/-- Cleaning that discards contours without a bold edge. -/
def boldClean (g : Graph) (clean : List Pt → List Pt × Bool) (c : List Pt) : List Pt × Bool :=
  if boldContour g c then clean c else ([], true)

/-- Links are determined by their ends. -/
def UniqueLinks (g : Graph) : Prop := ∀ l ∈ g.links, ∀ m ∈ g.links, l.a = m.a → l.b = m.b → l = m

theorem bold_trail {g : Graph} (hu : UniqueLinks g) (hlt : ∀ l ∈ g.links, l.a < l.b) {trail : List Nat} {raw : List Pt}
    (h : ClosedTrail g.links trail raw) : trail.any (boldAt g) = boldContour g raw := by
  unfold ClosedTrail at h
  unfold boldContour
  generalize polyEdges raw = es at h ⊢
  induction h with
  | nil => rfl
  | @cons i e trail es h1 _ ih =>
    rw [List.any_cons, List.any_cons, ih]
    congr 1
    obtain ⟨l, hl, he⟩ := h1
    have hm := List.mem_of_getElem? hl
    have hb : boldAt g i = l.isBold := by unfold boldAt; rw [hl]; rfl
    rw [hb, Bool.eq_iff_iff, List.any_eq_true]
    constructor
    · intro hb
      refine ⟨l, hm, ?_⟩
      rw [hb, Bool.true_and, Bool.or_eq_true, decide_eq_true_iff, decide_eq_true_iff]
      exact he
    · rintro ⟨m, h1, h2⟩
      rw [Bool.and_eq_true, Bool.or_eq_true, decide_eq_true_iff, decide_eq_true_iff] at h2
      have : m = l := by
        rcases he with he | he <;> rcases h2.2 with h3 | h3 <;> rw [he] at h3 <;> simp only [Prod.mk.injEq] at h3
        · exact hu m h1 l hm h3.1.symm h3.2.symm
        · have a1 := hlt l hm
          have a2 := hlt m h1
          rw [h3.1, h3.2] at a1
          exact absurd a1 (Pt.lt_asymm a2)
        · have a1 := hlt l hm
          have a2 := hlt m h1
          rw [← h3.1, ← h3.2] at a2
          exact absurd a1 (Pt.lt_asymm a2)
        · exact hu m h1 l hm h3.2.symm h3.1.symm
      rw [← this]; exact h2.1

theorem dpar_masked (g : Graph) (vis : List Bool) (n : Nat) : dpar g.masked vis n = dpar g vis n := by
  unfold dpar
  rw [masked_length]
  refine par_congr fun i _ => ?_
  unfold inc
  rw [masked_get]
  cases g.links[i]? <;> rfl

/-- `clean'` is `clean` for contours with a bold link and discards the others. -/
def BoldOnly (g : Graph) (clean clean' : List Pt → List Pt × Bool) : Prop :=
  ∀ trail raw, ClosedTrail g.links trail raw → trail ≠ [] →
    (trail.any (boldAt g) = true ∧ clean' raw = clean raw) ∨ (trail.any (boldAt g) = false ∧ clean' raw = ([], true))

theorem boldOnly_boldClean {g : Graph} (hu : UniqueLinks g) (hlt : ∀ l ∈ g.links, l.a < l.b)
    (clean : List Pt → List Pt × Bool) : BoldOnly g clean (boldClean g clean) := by
  intro trail raw h _
  rw [bold_trail hu hlt h]
  unfold boldClean
  cases boldContour g raw
  · exact Or.inr ⟨rfl, rfl⟩
  · exact Or.inl ⟨rfl, rfl⟩

theorem boldOnly_self {g : Graph} (hb : ∀ l ∈ g.links, l.isBold = true) (clean : List Pt → List Pt × Bool) :
    BoldOnly g clean clean := by
  intro trail raw h hne
  refine Or.inl ⟨?_, rfl⟩
  cases trail with
  | nil => exact absurd rfl hne
  | cons i trail =>
    unfold ClosedTrail at h
    generalize polyEdges raw = es at h
    cases h with
    | cons h1 _ =>
      obtain ⟨l, hl, -⟩ := h1
      have : boldAt g i = true := by
        unfold boldAt; rw [hl]; exact hb l (List.mem_of_getElem? hl)
      rw [List.any_cons, this]; rfl

/-- The extraction of offset shapes is the extraction of the subject with weak contours discarded. -/
theorem extractOffLoop_eq {g : Graph} {V : List Pt} (hg : GraphOk g V) (cw : Bool)
    {clean clean' : List Pt → List Pt × Bool} (hc : BoldOnly g clean clean') (minArea : Nat) : ∀ (fuel li : Nat) (vis : List Bool) (e : Extracted),
    vis.length = g.links.length → (∀ n, dpar g vis n = false) →
    extractOffLoop g cw clean minArea fuel li vis e =
      extractLoop g.masked .subject cw clean' minArea fuel li vis e := by
  intro fuel
  induction fuel with
  | zero => intro li vis e _ _; rfl
  | succ fuel ih =>
    intro li vis e hlen hd
    rw [extractOffLoop, extractLoop]
    by_cases c1 : li < vis.length
    · rw [if_pos c1, if_pos c1]
      by_cases c2 : isVisited vis li = true
      · rw [if_pos c2, if_pos c2]; exact ih _ _ _ hlen hd
      · rw [if_neg c2, if_neg c2]
        have hv : isVisited vis li = false := by simpa using c2
        obtain ⟨lt, l, f1, f2, f3⟩ := findLeftTop_spec hg hd (by omega) hv
        rw [findLeftTop_masked, f1, Option.bind_some, Option.bind_some, masked_get, f2, Option.map_some, Option.bind_some,
          Option.bind_some]
        dsimp only
        rw [isFillTop_subjBits, masked_length, getContour_masked]
        generalize (l.fill &&& SUBJ_TOP == SUBJ_TOP) = hole
        have hsp : StartPath.new (hole == cw) ⟨l.a, l.aId, l.b, l.bId, subjBits l.fill⟩ lt =
          StartPath.new (hole == cw) l lt := rfl
        rw [hsp]
        obtain ⟨trail, raw, vis', g1, g2, g3, g4⟩ := getFillPath_spec hg hd f2 f3 (hole == cw) (hole == cw)
        obtain ⟨trail2, pts, vis2, q1, q2, -, -, -, q6, -⟩ := getContour_spec hg hd f2 f3 (hole == cw) (hole == cw)
        rw [g1, g2, Option.bind_some, Option.bind_some]
        rw [g2] at q1
        obtain ⟨-, rfl⟩ := Prod.mk.injEq .. ▸ (Option.some.inj q1)
        dsimp only
        have hl' : vis'.length = g.links.length := by omega
        rcases hc trail raw g3 g4 with ⟨hb, hcl⟩ | ⟨hb, hcl⟩
        rotate_left
        · have : validate clean' minArea raw = (false, true, []) := by
            unfold validate
            rw [hcl]; rfl
          rw [this, hb]
          simp only [Bool.not_false, if_true]
          exact ih _ _ _ hl' q6
        · have : validate clean' minArea raw = validate clean minArea raw := by
            unfold validate
            rw [hcl]
          rw [this, hb]
          simp only [Bool.not_true, Bool.false_eq_true, if_false]
          split
          · exact ih _ _ _ hl' q6
          · congr 1
            funext e'
            exact ih _ _ _ hl' q6
    · rw [if_neg c1, if_neg c1]

/-! ### the whole operation -/

/-- Graph and extraction of offset edges as those of a boolean subject with the `Positive` rule, once the splitting
phase has finished. -/
theorem offset_graph {k : OffConfig} {x : Externals} (ht : k.tree.Ok) (hsc : k.scan.Ok) (hE : EndSort x.sortE)
    {segs : List (Seg CountOff)} (hl : ∀ s ∈ segs, s.a < s.b) (hok : OffOk segs)
    (hf : FragOk k.st k.sr segs) {r : List (Seg CountOff)} (h1 : nodedEdges k.st k.sr k.tree k.fuel segs = some r) :
    ∃ (g : Graph) (V : List Pt), offsetGraph k x segs = some g ∧ Planar r ∧ OffOk r ∧
      g.links.map (fun l => (l.a, l.b, l.fill)) = r.map (fun s => (s.a, s.b, fillOfOff r s)) ∧
      RunOk .positive .subject (r.map Seg.toBool) g.masked V (g.masked.links.map fun l => maskFilter .subject l.fill) ∧
      UniqueLinks g ∧ (∀ l ∈ g.links, l.a < l.b) ∧
      ∀ cw minArea clean', BoldOnly g x.clean clean' →
        extractOffContours g cw x.clean minArea = extractContours g.masked .subject cw clean' minArea
          (g.masked.links.map fun l => maskFilter .subject l.fill) ∧
        extractOffset x g cw minArea = extract { x with clean := clean' } g.masked .subject cw minArea
          (g.masked.links.map fun l => maskFilter .subject l.fill) := by
  have main : Planar r ∧ OffOk r ∧
      offsetGraph k x segs = Graph.new x.sortE (r.map fun s => ⟨s.a, 0, s.b, 0, fillOfOff r s⟩) := by
    have enil : Planar ([] : List (Seg CountOff)) := ⟨by simp, List.Pairwise.nil, List.Pairwise.nil⟩
    unfold offsetGraph
    unfold nodedEdges at h1
    split at h1
    · rename_i he
      cases h1
      rw [if_pos he]
      exact ⟨enil, ⟨fun _ => rfl, by simp⟩, rfl⟩
    · rename_i he
      obtain ⟨p1, p2⟩ := offset_planar ht hl hok hf h1
      refine ⟨p1, p2, ?_⟩
      rw [if_neg he, h1, Option.bind_some]
      split
      · rename_i hr
        rw [List.isEmpty_iff.1 hr]; rfl
      · rw [fillSweep_off p1 p2.1 _ hsc, buildLinks_map]
        simp
  obtain ⟨hp, hr, h2⟩ := main
  have hlk : LinksOk (r.map fun s => (⟨s.a, 0, s.b, 0, fillOfOff r s⟩ : Link)) := by
    constructor
    · intro l hl
      obtain ⟨s, hs, rfl⟩ := List.mem_map.1 hl
      exact hp.lt s hs
    · rw [List.pairwise_map]
      refine hp.sorted.imp ?_
      intro s t hst hlt
      rcases hst with h | ⟨h, -⟩
      · exact Pt.lt_asymm h hlt
      · rw [h] at hlt; exact Pt.lt_irrefl _ hlt
  obtain ⟨g, V, q1, q2, q3⟩ := Graph.new_spec hE hlk
  rw [List.map_map] at q3
  have hb := hr.toBool
  have hrun : RunOk .positive .subject (r.map Seg.toBool) g.masked V
      (g.masked.links.map fun l => maskFilter .subject l.fill) := by
    refine ⟨⟨planar_toBool hp, hb.1, hb.2.1⟩, masked_ok q2, fun _ => true, maskFilter .subject, ?_, rfl, ?_⟩
    · rw [List.filter_eq_self.2 (by simp)]
      have := congrArg (List.map fun t : Pt × Pt × Fill => (t.1, t.2.1, subjBits t.2.2)) q3
      rw [List.map_map, List.map_map] at this
      unfold Graph.masked
      rw [List.map_map, List.map_map]
      refine this.trans (List.map_congr_left fun s _ => ?_)
      simp only [Function.comp_apply, fillOf_toBool]
      rfl
    · intro s hs
      rw [Bool.true_and, ← isIncluded_fillOf]
      have : ∀ f, (!maskFilter .subject f) = isIncluded .subject f := by decide
      exact this _
  have huniq : UniqueLinks g := by
    intro l hl m hm ea eb
    have hpl := hrun.planar
    by_contra hne
    obtain ⟨i, hi⟩ := List.mem_iff_getElem?.1 hl
    obtain ⟨j, hj⟩ := List.mem_iff_getElem?.1 hm
    have hij : i ≠ j := by
      rintro rfl
      rw [hi] at hj
      exact hne (Option.some.inj hj)
    have hs := hpl.sorted
    rw [List.pairwise_map, List.pairwise_iff_getElem] at hs
    obtain ⟨hi1, hi2⟩ := List.getElem?_eq_some_iff.1 hi
    obtain ⟨hj1, hj2⟩ := List.getElem?_eq_some_iff.1 hj
    have e1 : ∀ (k : Nat) (hk : k < g.links.length), (g.masked.links[k]'(by rw [masked_length]; exact hk)).seg =
        ⟨g.links[k].a, g.links[k].b, ()⟩ := by
      intro k hk
      unfold Graph.masked
      simp only [List.getElem_map]
      rfl
    rcases Nat.lt_or_gt_of_ne hij with h | h
    · have := hs i j (by rw [masked_length]; exact hi1) (by rw [masked_length]; exact hj1) h
      rw [e1 i hi1, e1 j hj1, hi2, hj2] at this
      rcases this with h | ⟨-, h⟩
      · rw [show (⟨l.a, l.b, ()⟩ : Seg Unit).a = m.a from ea] at h; exact Pt.lt_irrefl _ h
      · rw [show (⟨l.a, l.b, ()⟩ : Seg Unit).b = m.b from eb] at h; exact Pt.lt_irrefl _ h
    · have := hs j i (by rw [masked_length]; exact hj1) (by rw [masked_length]; exact hi1) h
      rw [e1 i hi1, e1 j hj1, hi2, hj2] at this
      rcases this with h | ⟨-, h⟩
      · rw [show (⟨l.a, l.b, ()⟩ : Seg Unit).a = m.a from ea] at h; exact Pt.lt_irrefl _ h
      · rw [show (⟨l.a, l.b, ()⟩ : Seg Unit).b = m.b from eb] at h; exact Pt.lt_irrefl _ h
  have hvis : (g.links.map fun l => maskFilter .subject l.fill) =
      g.masked.links.map fun l => maskFilter .subject l.fill := by
    unfold Graph.masked
    rw [List.map_map]
    exact List.map_congr_left fun l _ => (maskFilter_subjBits l.fill).symm
  have hloop : ∀ cw minArea clean', BoldOnly g x.clean clean' →
      extractOffContours g cw x.clean minArea = extractContours g.masked .subject cw clean' minArea
        (g.masked.links.map fun l => maskFilter .subject l.fill) := by
    intro cw minArea clean' hc
    unfold extractOffContours extractContours
    dsimp only
    rw [hvis]
    exact extractOffLoop_eq q2 cw hc minArea _ _ _ _ (by simp [masked_length]) (by
      intro n; rw [← dpar_masked]; exact hrun.dpar n)
  refine ⟨g, V, h2.trans q1, hp, hr, q3, hrun, huniq, q2.lt, fun cw minArea clean' hc => ⟨hloop cw minArea clean' hc, ?_⟩⟩
  unfold extractOffset extract
  rw [hloop cw minArea clean' hc]

/-- Graph and extraction of offset edges as those of a boolean subject with the `Positive` rule. -/
theorem offset_run {k : OffConfig} {x : Externals} (ht : k.tree.Ok) (hsc : k.scan.Ok) (hE : EndSort x.sortE)
    {cw : Bool} {minArea : Nat} {segs : List (Seg CountOff)} (hl : ∀ s ∈ segs, s.a < s.b) (hok : OffOk segs)
    (hf : FragOk k.st k.sr segs) {shapes : List (List (List Pt))}
    (h : offsetShapes k x cw minArea segs = some shapes) :
    ∃ (r : List (Seg CountOff)) (g : Graph) (V : List Pt),
      nodedEdges k.st k.sr k.tree k.fuel segs = some r ∧ Planar r ∧ OffOk r ∧
      g.links.map (fun l => (l.a, l.b, l.fill)) = r.map (fun s => (s.a, s.b, fillOfOff r s)) ∧
      RunOk .positive .subject (r.map Seg.toBool) g.masked V (g.masked.links.map fun l => maskFilter .subject l.fill) ∧
      UniqueLinks g ∧ (∀ l ∈ g.links, l.a < l.b) ∧
      ∀ clean', BoldOnly g x.clean clean' → extract { x with clean := clean' } g.masked .subject cw minArea
        (g.masked.links.map fun l => maskFilter .subject l.fill) = some shapes := by
  unfold offsetShapes at h
  obtain ⟨g, hgr, h⟩ := Option.bind_eq_some_iff.1 h
  have main : ∃ r, nodedEdges k.st k.sr k.tree k.fuel segs = some r := by
    unfold offsetGraph at hgr
    unfold nodedEdges
    split at hgr
    · rename_i he; exact ⟨[], by rw [if_pos he]⟩
    · rename_i he
      obtain ⟨r, h1, -⟩ := Option.bind_eq_some_iff.1 hgr
      exact ⟨r, by rw [if_neg he, h1]⟩
  obtain ⟨r, h1⟩ := main
  obtain ⟨g', V, q1, q2, q3, q4, q5, q6, q7, q8⟩ := offset_graph ht hsc hE hl hok hf h1
  rw [hgr] at q1
  obtain rfl := Option.some.inj q1
  refine ⟨r, g, V, h1, q2, q3, q4, q5, q6, q7, fun clean' hc => ?_⟩
  rw [← (q8 cw minArea clean' hc).2]; exact h

end IOverlay
