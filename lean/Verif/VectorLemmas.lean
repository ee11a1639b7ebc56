/-
The vector extraction walks the same contours as `extract`. C46.
-/
import Verif.Vector
import Verif.Keys

namespace IOverlay

/-! ### one path -/

theorem toPath_append (p q : List VectorEdge) : toPath (p ++ q) = toPath p ++ toPath q := by simp [toPath]

theorem VectorEdge.new_a (f : Fill) (a b : Pt) : (VectorEdge.new f a b).a = a := rfl
theorem VectorEdge.new_b (f : Fill) (a b : Pt) : (VectorEdge.new f a b).b = b := rfl

/-- The walk over edges visits the points of the walk over points. -/
theorem walk_vectorWalk (g : Graph) (clockwise : Bool) (last : Nat) : ∀ (fuel node link : Nat) (vis : List Bool)
    (path : List VectorEdge), walk g clockwise last fuel node link vis (toPath path) =
      (vectorWalk g clockwise last fuel node link vis path).map fun r => (toPath r.1, r.2) := by
  intro fuel
  induction fuel with
  | zero =>
    intro node link vis path
    rw [walk, vectorWalk]
    split <;> rfl
  | succ fuel ih =>
    intro node link vis path
    rw [walk, vectorWalk]
    split
    · rfl
    · cases nextLink g link node clockwise vis with
      | none => rfl
      | some i =>
        simp only [Option.bind_some]
        cases g.links[i]? with
        | none => rfl
        | some l =>
          simp only [Option.bind_some]
          split
          · rw [← ih, toPath_append]; rfl
          · rw [← ih, toPath_append]; rfl

theorem getContour_vector (g : Graph) (fuel : Nat) (hole : Bool) (l : Link) (id : Nat) (cw : Bool) (vis : List Bool) :
    getContour g fuel (StartPath.new hole l id) cw vis =
      (getVectorPath g fuel (StartVector.new hole l id) cw vis).map fun r => (toPath r.1, r.2) := by
  unfold getContour getVectorPath
  rw [← walk_vectorWalk]
  cases hole <;> rfl

/-- A chain of edges from `p` to `q`. -/
def VChain : List VectorEdge → Pt → Pt → Prop
  | [], p, q => p = q
  | e :: es, p, q => e.a = p ∧ VChain es e.b q

theorem VChain.edges : ∀ {es : List VectorEdge} {p q : Pt}, VChain es p q →
    (toPath es).zip ((toPath es).tail ++ [q]) = es.map fun e => (e.a, e.b) := by
  intro es
  induction es with
  | nil => intro p q _; rfl
  | cons e es ih =>
    rintro p q ⟨rfl, h⟩
    have := ih h
    cases es with
    | nil =>
      have : e.b = q := h
      subst this; rfl
    | cons f es =>
      obtain ⟨h1, h2⟩ := h
      simp only [toPath, List.map_cons, List.tail_cons, List.cons_append, List.zip_cons_cons] at this ⊢
      rw [this, h1]

/-- The edge comes from a link with this visited state, seen from one of its ends. -/
def FromLink (g : Graph) (vis : List Bool) (e : VectorEdge) : Prop :=
  ∃ i l, g.links[i]? = some l ∧ isVisited vis i = false ∧
    (e = VectorEdge.new l.fill l.a l.b ∨ e = VectorEdge.new l.fill l.b l.a)

section
variable {g : Graph} {V : List Pt} (hg : GraphOk g V)
include hg

theorem vectorWalk_chain (clockwise : Bool) (last : Nat) {q : Pt} (hq : V[last]? = some q) :
    ∀ (fuel node link : Nat) (vis : List Bool) (path : List VectorEdge) (p : Pt) (r : List VectorEdge × List Bool),
    V[node]? = some p → isVisited vis link = true → inc g link node = true →
    (∀ n, dpar g vis n = xor (decide (n = node)) (decide (n = last))) →
    vectorWalk g clockwise last fuel node link vis path = some r →
    ∃ es, r.1 = path ++ es ∧ VChain es p q ∧ ∀ e ∈ es, FromLink g vis e := by
  intro fuel
  induction fuel with
  | zero =>
    intro node link vis path p r hp _ _ _ h
    rw [vectorWalk] at h
    split at h
    · rename_i hn
      subst hn
      rw [hp] at hq
      obtain rfl := Option.some.inj hq
      obtain rfl := Option.some.inj h
      exact ⟨[], by simp, rfl, by simp⟩
    · simp at h
  | succ fuel ih =>
    intro node link vis path p r hp hv hi hd h
    rw [vectorWalk] at h
    by_cases hnl : node = last
    · rw [if_pos hnl] at h
      subst hnl
      rw [hp] at hq
      obtain rfl := Option.some.inj hq
      obtain rfl := Option.some.inj h
      exact ⟨[], by simp, rfl, by simp⟩
    · rw [if_neg hnl] at h
      have hn : node < g.nodes.length := by
        rw [hg.nodes]; exact (List.getElem?_eq_some_iff.1 hp).1
      have hodd : dpar g vis node = true := by rw [hd node]; simp [hnl]
      obtain ⟨i, n1, n2, n3⟩ := nextLink_spec hg (clockwise := clockwise) hn hodd hi hv
      obtain ⟨l, hl, hln⟩ := inc_get n2
      have hmem := List.mem_of_getElem? hl
      have hne := ends_ne hg hmem
      simp only [n1, Option.bind_some, hl] at h
      have key : ∀ (node' : Nat) (p' : Pt) (e : VectorEdge), V[node']? = some p' →
          (∀ n, inc g i n = (decide (n = node) || decide (n = node'))) → node ≠ node' →
          e.a = p → e.b = p' → (e = VectorEdge.new l.fill l.a l.b ∨ e = VectorEdge.new l.fill l.b l.a) →
          vectorWalk g clockwise last fuel node' i (visit vis i) (path ++ [e]) = some r →
          ∃ es, r.1 = path ++ es ∧ VChain es p q ∧ ∀ e ∈ es, FromLink g vis e := by
        intro node' p' e hp' hinc hnn ea eb ee h
        obtain ⟨es, h1, h2, h3⟩ := ih node' i (visit vis i) (path ++ [e]) p' r hp' (by rw [isVisited_visit]; simp)
            (by rw [hinc]; simp) (by
              intro n
              rw [dpar_visit (inc_lt n2) n3, hinc, hd n]
              by_cases c1 : n = node
              · subst c1; simp [hnn, hnl]
              · simp [c1]) h
        refine ⟨e :: es, by rw [h1]; simp, ⟨ea, by rw [eb]; exact h2⟩, ?_⟩
        intro f hf
        rcases List.mem_cons.1 hf with rfl | hf
        · exact ⟨i, l, hl, n3, ee⟩
        · obtain ⟨j, m, j1, j2, j3⟩ := h3 f hf
          rw [isVisited_visit] at j2
          exact ⟨j, m, j1, (Bool.or_eq_false_iff.1 j2).2, j3⟩
      by_cases ha : l.aId = node
      · rw [if_pos ha] at h
        have hpa : l.a = p := by
          have := hg.aId l hmem
          rw [ha, hp] at this; exact (Option.some.inj this).symm
        refine key l.bId l.b _ (hg.bId l hmem) ?_ (by rw [← ha]; exact hne) hpa rfl (Or.inl rfl) h
        intro n; unfold inc; rw [hl]; simp [← ha, eq_comm]
      · rw [if_neg ha] at h
        have hb : l.bId = node := hln.resolve_left ha
        have hpb : l.b = p := by
          have := hg.bId l hmem
          rw [hb, hp] at this; exact (Option.some.inj this).symm
        refine key l.aId l.a _ (hg.aId l hmem) ?_ (Ne.symm ha) hpb rfl (Or.inr rfl) h
        intro n; unfold inc; rw [hl]; simp [← hb, eq_comm, Bool.or_comm]

/-- A path is closed and consists of links not visited before. -/
theorem getVectorPath_chain {vis : List Bool} (hd : ∀ n, dpar g vis n = false) {lt : Nat} {l : Link}
    (hl : g.links[lt]? = some l) (hv : isVisited vis lt = false) (hole cw : Bool) {r : List VectorEdge × List Bool}
    (h : getVectorPath g g.links.length (StartVector.new hole l lt) cw vis = some r) :
    polyEdges (toPath r.1) = r.1.map (fun e => (e.a, e.b)) ∧ ∀ e ∈ r.1, FromLink g vis e := by
  have hmem := List.mem_of_getElem? hl
  have hne := ends_ne hg hmem
  have hlt := (List.getElem?_eq_some_iff.1 hl).1
  have hinc : ∀ n, inc g lt n = (decide (n = l.aId) || decide (n = l.bId)) := by
    intro n; unfold inc; rw [hl]; simp [eq_comm]
  have main : ∀ (node last : Nat) (p q : Pt) (e : VectorEdge), V[node]? = some p → V[last]? = some q → node ≠ last →
      (∀ n, inc g lt n = (decide (n = node) || decide (n = last))) → e.a = q → e.b = p →
      (e = VectorEdge.new l.fill l.a l.b ∨ e = VectorEdge.new l.fill l.b l.a) →
      vectorWalk g cw last g.links.length node lt (visit vis lt) [e] = some r →
      polyEdges (toPath r.1) = r.1.map (fun e => (e.a, e.b)) ∧ ∀ e ∈ r.1, FromLink g vis e := by
    intro node last p q e hp hq hnl hin ea eb ee h
    obtain ⟨es, h1, h2, h3⟩ := vectorWalk_chain hg cw last hq g.links.length node lt (visit vis lt) [e] p r hp
        (by rw [isVisited_visit]; simp) (by rw [hin]; simp) (by
          intro n
          rw [dpar_visit hlt hv, hin, hd n]
          by_cases c1 : n = node
          · subst c1; simp [hnl]
          · simp [c1]) h
    rw [h1]
    constructor
    · have hc : VChain (e :: es) q q := ⟨ea, by rw [eb]; exact h2⟩
      have := hc.edges
      rw [List.singleton_append, ← this]
      simp only [toPath, List.map_cons, ea]
      rfl
    · intro f hf
      rcases List.mem_append.1 hf with hf | hf
      · rw [List.mem_singleton.1 hf]
        exact ⟨lt, l, hl, hv, ee⟩
      · obtain ⟨j, m, j1, j2, j3⟩ := h3 f hf
        rw [isVisited_visit] at j2
        exact ⟨j, m, j1, (Bool.or_eq_false_iff.1 j2).2, j3⟩
  unfold getVectorPath StartVector.new at h
  cases hole
  · simp only [Bool.false_eq_true, if_false] at h
    exact main l.bId l.aId l.b l.a _ (hg.bId l hmem) (hg.aId l hmem) (Ne.symm hne)
      (by intro n; rw [hinc, Bool.or_comm]) rfl rfl (Or.inl rfl) h
  · simp only [if_true] at h
    exact main l.aId l.bId l.a l.b _ (hg.aId l hmem) (hg.bId l hmem) hne hinc rfl rfl (Or.inr rfl) h

end

/-! ### the main loop -/

/-- Contours are returned as walked. -/
def noClean (c : List Pt) : List Pt × Bool := (c, false)

theorem noClean_ok : CleanOk noClean := fun _ _ => rfl

/-- Number of unvisited links starting (at their left end) in `p`. -/
def rightDeg (g : Graph) (vis : List Bool) (p : Pt) : Nat :=
  (List.range g.links.length).countP fun i => !isVisited vis i && (match g.links[i]? with
    | some l => decide (l.a = p)
    | none => false)

theorem extractLoop_skip (g : Graph) (rule : OverlayRule) (cw : Bool) (clean : List Pt → List Pt × Bool) (minArea : Nat)
    (vis : List Bool) (e : Extracted) (fuel : Nat) : ∀ (k li : Nat), (∀ i, li ≤ i → i < li + k → isVisited vis i = true) →
    li + k ≤ vis.length →
    extractLoop g rule cw clean minArea (fuel + k) li vis e = extractLoop g rule cw clean minArea fuel (li + k) vis e := by
  intro k
  induction k with
  | zero => intro li _ _; rfl
  | succ k ih =>
    intro li h hl
    rw [← Nat.add_assoc, extractLoop, if_pos (by omega), if_pos (h li (le_refl _) (by omega)), ih (li + 1)
      (fun i h1 h2 => h i (by omega) (by omega)) (by omega)]
    congr 1
    omega

/-- Skipped links: at most one, sharing its left end with exactly one other unvisited link, still ahead. -/
def Skipped (g : Graph) (vis : List Bool) (li : Nat) : Prop :=
  ∀ i l, i < li → g.links[i]? = some l → isVisited vis i = false →
    ∃ j m, li ≤ j ∧ g.links[j]? = some m ∧ isVisited vis j = false ∧ m.a = l.a ∧ rightDeg g vis l.a = 2

theorem rightDeg_mono (g : Graph) {vis vis' : List Bool} (h : ∀ i, isVisited vis i = true → isVisited vis' i = true) (p : Pt) :
    rightDeg g vis' p ≤ rightDeg g vis p := by
  unfold rightDeg
  refine List.countP_mono_left fun i _ hi => ?_
  rw [Bool.and_eq_true] at hi ⊢
  refine ⟨?_, hi.2⟩
  cases hv : isVisited vis i
  · rfl
  · rw [h i hv] at hi; simp at hi

theorem rightDeg_lt {g : Graph} {vis vis' : List Bool} (h : ∀ i, isVisited vis i = true → isVisited vis' i = true)
    {i : Nat} {l : Link} (hl : g.links[i]? = some l) (h1 : isVisited vis i = false) (h2 : isVisited vis' i = true) :
    rightDeg g vis' l.a < rightDeg g vis l.a := by
  have hi := (List.getElem?_eq_some_iff.1 hl).1
  obtain ⟨l1, l2, e⟩ := List.append_of_mem (List.mem_range.2 hi)
  have m : ∀ L : List Nat, L.countP (fun i => !isVisited vis' i && (match g.links[i]? with
    | some m => decide (m.a = l.a)
    | none => false)) ≤ L.countP (fun i => !isVisited vis i && (match g.links[i]? with
    | some m => decide (m.a = l.a)
    | none => false)) := by
    intro L
    refine List.countP_mono_left fun i _ hi => ?_
    rw [Bool.and_eq_true] at hi ⊢
    refine ⟨?_, hi.2⟩
    cases hv : isVisited vis i
    · rfl
    · rw [h i hv] at hi; simp at hi
  unfold rightDeg
  rw [e, List.countP_append, List.countP_append, List.countP_cons, List.countP_cons, hl, h1, h2]
  have a1 := m l1
  have a2 := m l2
  simp only [Bool.not_true, Bool.false_and, Bool.false_eq_true, if_false, Bool.not_false, Bool.true_and,
    decide_true, if_true]
  omega

theorem rightDeg_two {g : Graph} {vis : List Bool} {p : Pt} (h : rightDeg g vis p = 2) :
    ∃ i j, i ≠ j ∧ ∀ k, (k = i ∨ k = j) ↔ ∃ l, g.links[k]? = some l ∧ isVisited vis k = false ∧ l.a = p := by
  unfold rightDeg at h
  rw [List.countP_eq_length_filter] at h
  obtain ⟨i, j, e⟩ := List.length_eq_two.1 h
  have hnd : ([i, j] : List Nat).Nodup := by rw [← e]; exact List.nodup_range.filter _
  refine ⟨i, j, by simpa using hnd, fun k => ?_⟩
  have : k ∈ [i, j] ↔ k = i ∨ k = j := by simp
  rw [← this, ← e, List.mem_filter, List.mem_range]
  constructor
  · rintro ⟨h1, h2⟩
    rw [List.getElem?_eq_getElem h1] at h2
    refine ⟨_, List.getElem?_eq_getElem h1, ?_⟩
    simpa using h2
  · rintro ⟨l, h1, h2, h3⟩
    refine ⟨(List.getElem?_eq_some_iff.1 h1).1, ?_⟩
    rw [h1, h2]; simpa using h3

theorem rightDeg_pos {g : Graph} {vis : List Bool} {i : Nat} {l : Link} (h1 : g.links[i]? = some l)
    (h2 : isVisited vis i = false) : 0 < rightDeg g vis l.a := by
  unfold rightDeg
  rw [List.countP_pos_iff]
  exact ⟨i, List.mem_range.2 (List.getElem?_eq_some_iff.1 h1).1, by rw [h1, h2]; simp⟩

section
variable {g : Graph} {V : List Pt} (hg : GraphOk g V) (hpl : Planar (g.links.map Link.seg))
include hg hpl

omit hpl in
/-- Around a point with no unvisited links to its left. -/
theorem rightDeg_even {vis : List Bool} (hd : ∀ n, dpar g vis n = false) {l : Link} (hl : l ∈ g.links)
    (hprev : ∀ i f, g.links[i]? = some f → f.a < l.a → isVisited vis i = true) : rightDeg g vis l.a % 2 = 0 := by
  have h := hd l.aId
  unfold dpar at h
  rw [par_eq_countP, decide_eq_false_iff_not] at h
  have e : rightDeg g vis l.a = (List.range g.links.length).countP fun i => !isVisited vis i && inc g i l.aId := by
    unfold rightDeg
    refine List.countP_congr fun i hi => ?_
    rw [List.mem_range] at hi
    have hi' : g.links[i]? = some g.links[i] := List.getElem?_eq_getElem hi
    have hm := List.getElem_mem hi
    unfold inc
    rw [hi']
    simp only [Bool.and_eq_true, Bool.not_eq_true', decide_eq_true_eq, Bool.or_eq_true]
    have hd' : V.Nodup := hg.sorted.imp fun {a b} h => Pt.ne_of_lt h
    have key : ∀ {k : Nat} {v : Pt}, V[k]? = some v → (v = l.a ↔ k = l.aId) := by
      intro k v hk
      have h1 := hg.aId l hl
      constructor
      · rintro rfl
        exact (List.getElem?_inj (List.getElem?_eq_some_iff.1 hk).1 hd').1 (hk.trans h1.symm)
      · rintro rfl
        rw [hk] at h1; exact Option.some.inj h1
    refine and_congr_right fun hv => ?_
    rw [key (hg.aId _ hm)]
    constructor
    · exact Or.inl
    · rintro (h | h)
      · exact h
      · exfalso
        have hb : g.links[i].b = l.a := (key (hg.bId _ hm)).2 h
        have := hprev i _ hi' (by rw [← hb]; exact hg.lt _ hm)
        rw [hv] at this; simp at this
  rw [e]
  omega

/-- With at most four result edges to the right of any point the vector extraction finds the contours of
`extract`. -/
theorem vectorLoop_extract (rule : OverlayRule) : ∀ (fv li : Nat) (vis : List Bool) (v : VectorPaths) (le fe : Nat)
    (e : Extracted), vis.length = g.links.length → (∀ n, dpar g vis n = false) →
    (∀ p, rightDeg g vis p ≤ 4) → Skipped g vis li → (∀ i < le, isVisited vis i = true) → le ≤ li → li ≤ g.links.length →
    g.links.length - li < fv → (g.links.length - le) + unv g vis < fe →
    ∃ v' e' pss phs, vectorLoop g rule fv li vis v = some v' ∧
      extractLoop g rule true noClean 0 fe le vis e = some e' ∧
      v'.shapes = v.shapes ++ pss.map (fun p => [p]) ∧ v'.holes = v.holes ++ phs ∧
      e'.shapes = e.shapes ++ pss.map toPath ∧ e'.holes = e.holes ++ phs.map toPath ∧
      ∀ p ∈ pss ++ phs, polyEdges (toPath p) = p.map (fun e => (e.a, e.b)) ∧ ∀ e ∈ p, FromLink g vis e := by
  intro fv
  induction fv with
  | zero => intro li vis v le fe e _ _ _ _ _ _ _ h; omega
  | succ fv ih =>
    intro li vis v le fe e hlen hd h4 hsk hle hlli hli hfv hfe
    rw [vectorLoop]
    by_cases c1 : li < vis.length
    · rw [if_pos c1]
      by_cases c2 : isVisited vis li = true
      · rw [if_pos c2]
        refine ih (li + 1) vis v le fe e hlen hd h4 ?_ hle (by omega) (by omega) (by omega) hfe
        intro i l hi hl hv
        rcases Nat.lt_succ_iff_lt_or_eq.1 hi with h | rfl
        · obtain ⟨j, m, j1, j2, j3, j4⟩ := hsk i l h hl hv
          refine ⟨j, m, ?_, j2, j3, j4⟩
          rcases Nat.eq_or_lt_of_le j1 with h | h
          · rw [← h, c2] at j3; simp at j3
          · exact h
        · rw [c2] at hv; simp at hv
      · rw [if_neg c2]
        have hv : isVisited vis li = false := by simpa using c2
        have hli' : li < g.links.length := by omega
        have hm : g.links[li]? = some g.links[li] := List.getElem?_eq_getElem hli'
        generalize g.links[li] = m at hm
        have hmem := List.mem_of_getElem? hm
        -- nothing unvisited further left
        have hprev : ∀ i f, g.links[i]? = some f → f.a < m.a → isVisited vis i = true := by
          intro i f hf hlt
          by_contra hn
          have hn : isVisited vis i = false := by simpa using hn
          obtain ⟨j, k, j1, j2, -, j4, -⟩ := hsk i f (links_sorted hpl hf hm hlt) hf hn
          have := links_sorted hpl j2 hm (by rw [j4]; exact hlt)
          omega
        have hle_a : ∀ {i j : Nat} {f k : Link}, g.links[i]? = some f → g.links[j]? = some k → i ≤ j → ¬ k.a < f.a := by
          intro i j f k hi hj hij hlt
          have := links_sorted hpl hj hi hlt
          omega
        have hskip_a : ∀ i f, i < li → g.links[i]? = some f → isVisited vis i = false →
            f.a = m.a ∧ rightDeg g vis m.a = 2 := by
          intro i f hi hf hvi
          obtain ⟨j, k, j1, j2, -, j4, j5⟩ := hsk i f hi hf hvi
          have h1 := hle_a hm j2 j1
          have h2 : f.a = m.a := by
            rw [j4] at h1
            rcases Pt.lt_tri f.a m.a with h | h | h
            · exact absurd h h1
            · exact h
            · exact absurd h (hle_a hf hm (by omega))
          exact ⟨h2, by rw [← h2]; exact j5⟩
        -- the first unvisited link
        obtain ⟨u, u1, u2, u3, u4⟩ : ∃ u, le ≤ u ∧ u ≤ li ∧ isVisited vis u = false ∧ ∀ i < u, isVisited vis i = true := by
          classical
          have hex : ∃ u, isVisited vis u = false := ⟨li, hv⟩
          refine ⟨Nat.find hex, ?_, Nat.find_min' hex hv, Nat.find_spec hex, ?_⟩
          · by_contra hn
            have := hle (Nat.find hex) (by omega)
            rw [Nat.find_spec hex] at this; simp at this
          · intro i hi
            have := Nat.find_min hex hi
            simpa using this
        have hul : u < g.links.length := by omega
        have hmu : g.links[u]? = some g.links[u] := List.getElem?_eq_getElem hul
        generalize g.links[u] = mu at hmu
        have hua : mu.a = m.a := by
          rcases Nat.eq_or_lt_of_le u2 with h | h
          · subst h; rw [hm] at hmu; rw [Option.some.inj hmu]
          · exact (hskip_a u mu h hmu u3).1
        -- the start link
        obtain ⟨lt, l, f1, f2, f3⟩ := findLeftTop_spec hg hd hli' hv
        obtain ⟨-, t2, t3⟩ := findLeftTop_top hg hpl hd hm hv hprev f1 f2
        have fu : findLeftTop g u vis = some lt := by
          obtain ⟨lt', l', g1, g2, g3⟩ := findLeftTop_spec hg hd hul u3
          obtain ⟨-, s2, s3⟩ := findLeftTop_top hg hpl hd hmu u3 (by rw [hua]; exact hprev) g1 g2
          rw [g1]
          by_contra hn
          have hne : lt ≠ lt' := fun h => hn (by rw [h])
          have k1 := t3 lt' l' g2 g3 (s2.trans hua) (Ne.symm hne)
          have k2 := s3 lt l f2 f3 (t2.trans hua.symm) hne
          rw [hua] at k2
          have : area2 m.a l.b l'.b = - area2 m.a l'.b l.b := by unfold area2; ring
          omega
        rw [f1, Option.bind_some, f2, Option.bind_some]
        simp only
        obtain ⟨trail, pts, vis', g1, g2, g3, g4, g5, g6, g7, g8, -⟩ :=
          getContour_spec hg hd f2 f3 (isFillTop rule l.fill) (isFillTop rule l.fill)
        have hgv := getContour_vector g g.links.length (isFillTop rule l.fill) l lt (isFillTop rule l.fill) vis
        rw [g1] at hgv
        obtain ⟨r, r1, r2⟩ := Option.map_eq_some_iff.1 hgv.symm
        obtain ⟨r3, r4⟩ := getVectorPath_chain hg hd f2 f3 _ _ r1
        simp only [Prod.mk.injEq] at r2
        rw [r1, Option.bind_some]
        -- the links left
        have hmono : ∀ i, isVisited vis i = true → isVisited vis' i = true := by
          intro i hi; rw [g5, hi]; rfl
        have hlt' : isVisited vis' lt = true := by rw [g5]; simp
        have hdec := rightDeg_lt hmono f2 f3 hlt'
        rw [t2] at hdec
        have ev := rightDeg_even hg hd hmem hprev
        have ev' := rightDeg_even hg g6 hmem fun i f hf hlt => hmono i (hprev i f hf hlt)
        have hnew : Skipped g vis' (li + 1) := by
          intro i f hi hf hvi
          have hvi' : isVisited vis i = false := by
            cases h : isVisited vis i
            · rfl
            · rw [hmono i h] at hvi; simp at hvi
          have hpos := rightDeg_pos hf hvi
          rcases Nat.lt_succ_iff_lt_or_eq.1 hi with h | rfl
          · obtain ⟨k1, k2⟩ := hskip_a i f h hf hvi'
            rw [k1] at hpos
            omega
          · rw [hm] at hf
            obtain rfl := Option.some.inj hf
            by_cases hA : ∃ i' f', i' < i ∧ g.links[i']? = some f' ∧ isVisited vis i' = false
            · obtain ⟨i', f', a1, a2, a3⟩ := hA
              have := (hskip_a i' f' a1 a2 a3).2
              omega
            · have h2 : rightDeg g vis' m.a = 2 := by
                have := h4 m.a
                omega
              obtain ⟨x, y, hxy, hk⟩ := rightDeg_two h2
              have hi2 := (hk i).2 ⟨m, hm, hvi, rfl⟩
              obtain ⟨j, hj, hji⟩ : ∃ j, (j = x ∨ j = y) ∧ j ≠ i := by
                rcases hi2 with h | h
                · exact ⟨y, Or.inr rfl, by rw [h]; exact Ne.symm hxy⟩
                · exact ⟨x, Or.inl rfl, by rw [h]; exact hxy⟩
              obtain ⟨k, k1, k2, k3⟩ := (hk j).1 hj
              refine ⟨j, k, ?_, k1, k2, k3, h2⟩
              by_contra hc
              refine hA ⟨j, k, by omega, k1, ?_⟩
              cases h : isVisited vis j
              · rfl
              · rw [hmono j h] at k2; simp at k2
        -- the step of `extract`
        obtain ⟨fe', rfl⟩ : ∃ f, fe = (f + 1) + (u - le) := ⟨fe - 1 - (u - le), by omega⟩
        have hstep : extractLoop g rule true noClean 0 (fe' + 1 + (u - le)) le vis e =
            extractLoop g rule true noClean 0 (fe' + 1) u vis e := by
          rw [extractLoop_skip g rule true noClean 0 vis e (fe' + 1) (u - le) le
            (fun i _ h2 => u4 i (by omega)) (by omega)]
          congr 1
          omega
        have hct : ClosedTrail g.links (lt :: trail) (toPath r.1) := by rw [r2.1]; exact g8.closed
        have hval := validate_trail hpl noClean_ok g3 (by simp) hct
        obtain ⟨e1, p1, p2, p3, -⟩ := push_spec e true (isFillTop rule l.fill) false (c := toPath r.1)
          (by have := validate_len hval; exact this)
        have hpush : extractLoop g rule true noClean 0 (fe' + 1) u vis e =
            extractLoop g rule true noClean 0 fe' u vis' e1 := by
          rw [extractLoop, if_pos (by omega), if_neg (by rw [u3]; simp), fu, Option.bind_some, f2, Option.bind_some]
          simp only [beq_true]
          rw [g1, Option.bind_some]
          simp only
          rw [← r2.1]
          rw [if_neg (by rw [hval]; simp)]
          have hv1 : (validate noClean 0 (toPath r.1)).2.1 = false := by
            unfold validate noClean
            simp only
            split <;> simp
          rw [hv1, validate_snd]
          show (e.push true (isFillTop rule l.fill) false (toPath r.1)).bind _ = _
          rw [p1, Option.bind_some]
        rw [hstep, hpush]
        have := ih (li + 1) vis' (if isFillTop rule l.fill then { v with holes := v.holes ++ [r.1] }
          else { v with shapes := v.shapes ++ [[r.1]] }) u fe' e1 (by omega) g6
          (fun p => (rightDeg_mono g hmono p).trans (h4 p)) hnew (fun i hi => hmono i (u4 i hi)) (by omega) (by omega)
          (by omega) (by omega)
        obtain ⟨v', e', pss, phs, q1, q2, q3, q4, q5, q6, q7⟩ := this
        rw [r2.2]
        have hback : ∀ p : List VectorEdge, (∀ e ∈ p, FromLink g vis' e) → ∀ e ∈ p, FromLink g vis e := by
          intro p hp e he
          obtain ⟨i, l', i1, i2, i3⟩ := hp e he
          refine ⟨i, l', i1, ?_, i3⟩
          cases h : isVisited vis i
          · rfl
          · rw [hmono i h] at i2; simp at i2
        cases hh : isFillTop rule l.fill
        · rw [hh] at q1 q3 q4 p2 p3
          simp only [Bool.false_eq_true, if_false] at q1 q3 q4 p2 p3 ⊢
          refine ⟨v', e', r.1 :: pss, phs, q1, q2, by rw [q3]; simp, q4, ?_, ?_, ?_⟩
          · rw [q5, p2]; simp
          · rw [q6, p3]; simp
          · intro p hp
            rw [List.cons_append] at hp
            rcases List.mem_cons.1 hp with rfl | hp
            · exact ⟨r3, r4⟩
            · exact ⟨(q7 p hp).1, hback p (q7 p hp).2⟩
        · rw [hh] at q1 q3 q4 p2 p3
          simp only [if_true] at q1 q3 q4 p2 p3 ⊢
          refine ⟨v', e', pss, r.1 :: phs, q1, q2, q3, by rw [q4]; simp, ?_, ?_, ?_⟩
          · rw [q5, p2]; simp
          · rw [q6, p3]; simp
          · intro p hp
            rcases List.mem_append.1 hp with hp | hp
            · exact ⟨(q7 p (List.mem_append_left _ hp)).1, hback p (q7 p (List.mem_append_left _ hp)).2⟩
            · rcases List.mem_cons.1 hp with rfl | hp
              · exact ⟨r3, r4⟩
              · exact ⟨(q7 p (List.mem_append_right _ hp)).1, hback p (q7 p (List.mem_append_right _ hp)).2⟩
    · rw [if_neg c1]
      have hall : ∀ i, i < vis.length → isVisited vis i = true := by
        intro i hi
        by_contra hn
        have hn : isVisited vis i = false := by simpa using hn
        obtain ⟨j, m, j1, j2, -⟩ := hsk i g.links[i] (by omega) (List.getElem?_eq_getElem (by omega)) hn
        have := (List.getElem?_eq_some_iff.1 j2).1
        omega
      obtain ⟨fe', rfl⟩ : ∃ f, fe = (f + 1) + (vis.length - le) := ⟨fe - 1 - (vis.length - le), by omega⟩
      have hstep := extractLoop_skip g rule true noClean 0 vis e (fe' + 1) (vis.length - le) le
        (fun i _ h2 => hall i (by omega)) (by omega)
      refine ⟨v, e, [], [], rfl, ?_, by simp, by simp, by simp, by simp, by simp⟩
      rw [hstep, extractLoop, if_neg (by omega)]

end

end IOverlay
