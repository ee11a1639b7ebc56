/-
The walk of the extraction: closed trails, termination. C21, C22.
-/
import Verif.Extract
import Verif.GraphLemmas
import Verif.Parity

namespace IOverlay

/-! ### parity of unvisited degrees -/

/-- The link `i` has an end at the node `n`. -/
def inc (g : Graph) (i n : Nat) : Bool :=
  match g.links[i]? with
  | some l => decide (l.aId = n) || decide (l.bId = n)
  | none => false

/-- Parity of the number of unvisited links at a node. -/
def dpar (g : Graph) (vis : List Bool) (n : Nat) : Bool :=
  par (fun i => !isVisited vis i && inc g i n) (List.range g.links.length)

/-- Number of unvisited links. -/
def unv (g : Graph) (vis : List Bool) : Nat :=
  (List.range g.links.length).countP fun i => !isVisited vis i

theorem isVisited_visit (vis : List Bool) (i j : Nat) :
    isVisited (visit vis i) j = (decide (j = i) || isVisited vis j) := by
  unfold isVisited visit
  rw [List.getD_eq_getElem?_getD, List.getD_eq_getElem?_getD, List.getElem?_set]
  by_cases h : i = j
  · subst h
    by_cases hl : i < vis.length
    · simp [hl]
    · simp [hl]
  · simp [h, Ne.symm h]

theorem visit_length (vis : List Bool) (i : Nat) : (visit vis i).length = vis.length := by simp [visit]

theorem unvisited_lt {vis : List Bool} {i : Nat} (h : isVisited vis i = false) : i < vis.length := by
  unfold isVisited at h
  by_contra hc
  rw [List.getD_eq_getElem?_getD, List.getElem?_eq_none (by omega)] at h
  simp at h

theorem par_one_diff {α : Type} {p p' : α → Bool} {l : List α} (hd : l.Nodup) {x : α} (hx : x ∈ l)
    (h : ∀ y ∈ l, y ≠ x → p y = p' y) : par p l = xor (xor (p x) (p' x)) (par p' l) := by
  induction l with
  | nil => simp at hx
  | cons z l ih =>
    obtain ⟨h1, h2⟩ := List.nodup_cons.1 hd
    rw [par_cons, par_cons]
    by_cases hz : z = x
    · subst hz
      have : par p l = par p' l := par_congr fun y hy => h y (List.mem_cons_of_mem _ hy) (by
        rintro rfl; exact h1 hy)
      rw [this]; cases p z <;> cases p' z <;> simp
    · have hx' : x ∈ l := by
        rcases List.mem_cons.1 hx with h | h
        · exact absurd h.symm hz
        · exact h
      rw [ih h2 hx' fun y hy => h y (List.mem_cons_of_mem _ hy), h z (by simp) hz]
      cases p' z <;> cases p x <;> cases p' x <;> simp

theorem par_true {α : Type} {p : α → Bool} {l : List α} (h : par p l = true) : ∃ x ∈ l, p x = true := by
  induction l with
  | nil => simp at h
  | cons x l ih =>
    rw [par_cons] at h
    by_cases hx : p x = true
    · exact ⟨x, by simp, hx⟩
    · have : p x = false := by simpa using hx
      rw [this] at h
      obtain ⟨y, hy, h⟩ := ih (by simpa using h)
      exact ⟨y, List.mem_cons_of_mem _ hy, h⟩

theorem dpar_visit {g : Graph} {vis : List Bool} {i : Nat} (hi : i < g.links.length)
    (h : isVisited vis i = false) (n : Nat) :
    dpar g (visit vis i) n = xor (inc g i n) (dpar g vis n) := by
  unfold dpar
  rw [par_one_diff List.nodup_range (List.mem_range.2 hi) (p := fun j => !isVisited (visit vis i) j && inc g j n)
    (p' := fun j => !isVisited vis j && inc g j n)]
  · simp [isVisited_visit, h]
  · intro j _ hj
    simp [isVisited_visit, hj]

theorem dpar_true {g : Graph} {vis : List Bool} {n : Nat} (h : dpar g vis n = true) :
    ∃ i, i < g.links.length ∧ isVisited vis i = false ∧ inc g i n = true := by
  obtain ⟨i, h1, h2⟩ := par_true h
  rw [List.mem_range] at h1
  simp at h2
  exact ⟨i, h1, h2.1, h2.2⟩

theorem countP_visit (vis : List Bool) (i : Nat) (l : List Nat) (hd : l.Nodup) (hi : i ∈ l)
    (h : isVisited vis i = false) :
    l.countP (fun j => !isVisited (visit vis i) j) + 1 = l.countP (fun j => !isVisited vis j) := by
  induction l with
  | nil => simp at hi
  | cons z l ih =>
    obtain ⟨h1, h2⟩ := List.nodup_cons.1 hd
    rw [List.countP_cons, List.countP_cons]
    by_cases hz : z = i
    · subst hz
      have : l.countP (fun j => !isVisited (visit vis z) j) = l.countP (fun j => !isVisited vis j) := by
        apply List.countP_congr
        intro j hj
        have : j ≠ z := by rintro rfl; exact h1 hj
        simp [isVisited_visit, this]
      rw [this]; simp [isVisited_visit, h]
    · have hi' : i ∈ l := by
        rcases List.mem_cons.1 hi with h | h
        · exact absurd h.symm hz
        · exact h
      have := ih h2 hi'
      simp only [isVisited_visit, hz, decide_false, Bool.false_or] at this ⊢
      omega

theorem unv_visit {g : Graph} {vis : List Bool} {i : Nat} (hi : i < g.links.length)
    (h : isVisited vis i = false) : unv g (visit vis i) + 1 = unv g vis :=
  countP_visit vis i _ List.nodup_range (List.mem_range.2 hi) h

theorem inc_lt {g : Graph} {i n : Nat} (h : inc g i n = true) : i < g.links.length := by
  unfold inc at h
  split at h
  · rename_i l hl; exact (List.getElem?_eq_some_iff.1 hl).1
  · simp at h

theorem inc_get {g : Graph} {i n : Nat} (h : inc g i n = true) :
    ∃ l, g.links[i]? = some l ∧ (l.aId = n ∨ l.bId = n) := by
  unfold inc at h
  split at h
  · rename_i l hl; exact ⟨l, hl, by simpa using h⟩
  · simp at h

theorem inc_of {g : Graph} {i n : Nat} {l : Link} (h : g.links[i]? = some l) (hn : l.aId = n ∨ l.bId = n) :
    inc g i n = true := by
  unfold inc; rw [h]; simpa using hn

/-! ### paths -/

/-- `trail` leads from the point `p` to the point `q` through `links`; `pts` are the points at which
its links start. -/
inductive Path (links : List Link) : List Nat → List Pt → Pt → Pt → Prop
  | nil (p : Pt) : Path links [] [] p p
  | cons {i : Nat} {l : Link} {p p' q : Pt} {trail : List Nat} {pts : List Pt} :
      links[i]? = some l → ((l.a = p ∧ l.b = p') ∨ (l.b = p ∧ l.a = p')) → Path links trail pts p' q →
      Path links (i :: trail) (p :: pts) p q

/-- The links of `trail` are, in order, the edges of the closed polygon through `pts`. -/
def ClosedTrail (links : List Link) (trail : List Nat) (pts : List Pt) : Prop :=
  List.Forall₂ (fun i e => ∃ l, links[i]? = some l ∧ (e = (l.a, l.b) ∨ e = (l.b, l.a))) trail (polyEdges pts)

theorem Path.forall₂ {links : List Link} {trail : List Nat} {pts : List Pt} {p q : Pt}
    (h : Path links trail pts p q) :
    List.Forall₂ (fun i e => ∃ l, links[i]? = some l ∧ (e = (l.a, l.b) ∨ e = (l.b, l.a))) trail
      (pts.zip (pts.tail ++ [q])) := by
  induction h with
  | nil p => exact List.Forall₂.nil
  | @cons i l p p' q trail pts h1 h2 h3 ih =>
    cases h3 with
    | nil _ =>
      refine List.Forall₂.cons ⟨l, h1, ?_⟩ List.Forall₂.nil
      rcases h2 with ⟨rfl, rfl⟩ | ⟨rfl, rfl⟩
      · exact Or.inl rfl
      · exact Or.inr rfl
    | @cons i' l' _ p'' _ trail' pts' h1' h2' h3' =>
      simp only [List.tail_cons, List.cons_append, List.zip_cons_cons] at ih ⊢
      refine List.Forall₂.cons ⟨l, h1, ?_⟩ ih
      rcases h2 with ⟨rfl, rfl⟩ | ⟨rfl, rfl⟩
      · exact Or.inl rfl
      · exact Or.inr rfl

theorem Path.closed {links : List Link} {trail : List Nat} {pts : List Pt} {p : Pt}
    (h : Path links trail (p :: pts) p p) : ClosedTrail links trail (p :: pts) := h.forall₂

/-! ### choice of the next link -/

section walk
variable {g : Graph} {V : List Pt} (hg : GraphOk g V)
include hg

theorem mem_indices {k : Nat} {nd : Node} (hk : g.nodes[k]? = some nd) (i : Nat) :
    i ∈ nd.indices ↔ inc g i k = true := by
  obtain ⟨A, B, rfl, -, -, mA, mB⟩ := hg.idx k nd hk
  rw [Node.indices_new, List.mem_append, mA, mB]
  constructor
  · rintro (⟨l, h1, h2⟩ | ⟨l, h1, h2⟩)
    · exact inc_of h1 (Or.inl h2)
    · exact inc_of h1 (Or.inr h2)
  · intro h
    obtain ⟨l, h1, h2 | h2⟩ := inc_get h
    · exact Or.inl ⟨l, h1, h2⟩
    · exact Or.inr ⟨l, h1, h2⟩

omit hg in
theorem addVectors_spec (node : Nat) : ∀ (is : List Nat) (s : NearestVector), (∀ i ∈ is, i < g.links.length) →
    ∃ s', addVectors g node is s = some s' ∧ (s'.bestId = s.bestId ∨ s'.bestId ∈ is) := by
  intro is
  induction is with
  | nil => intro s _; exact ⟨s, rfl, Or.inl rfl⟩
  | cons i is ih =>
    intro s h
    obtain ⟨l, hl⟩ : ∃ l, g.links[i]? = some l := ⟨_, List.getElem?_eq_getElem (h i (by simp))⟩
    obtain ⟨s', h1, h2⟩ := ih (s.add (l.other node) i) fun j hj => h j (List.mem_cons_of_mem _ hj)
    refine ⟨s', by rw [addVectors, hl]; exact h1, ?_⟩
    rcases h2 with h2 | h2
    · have : (s.add (l.other node) i).bestId = s.bestId ∨ (s.add (l.other node) i).bestId = i := by
        unfold NearestVector.add
        simp only
        split
        · split
          · exact Or.inr rfl
          · exact Or.inl rfl
        · split
          · exact Or.inr rfl
          · exact Or.inl rfl
      rcases this with h | h
      · exact Or.inl (h2.trans h)
      · right; rw [h2, h]; simp
    · exact Or.inr (List.mem_cons_of_mem _ h2)

omit hg in
theorem findNearest_spec {target node : Nat} {clockwise : Bool} {indices : List Nat} {vis : List Bool}
    (ht : target < g.links.length) (hi : ∀ i ∈ indices, i < g.links.length)
    (hne : ∃ i ∈ indices, isVisited vis i = false) :
    ∃ i, findNearest g target node clockwise indices vis = some i ∧ i ∈ indices ∧ isVisited vis i = false := by
  unfold findNearest
  have hm : ∀ i, i ∈ (indices.filter fun i => !isVisited vis i) ↔ i ∈ indices ∧ isVisited vis i = false := by
    intro i; rw [List.mem_filter]; simp
  rcases hf : indices.filter (fun i => !isVisited vis i) with _ | ⟨x, rest⟩
  · obtain ⟨i, h1, h2⟩ := hne
    have := (hm i).2 ⟨h1, h2⟩
    rw [hf] at this; simp at this
  · rw [hf] at hm
    rcases rest with _ | ⟨y, rest⟩
    · exact ⟨x, rfl, (hm x).1 (by simp)⟩
    · obtain ⟨t, htt⟩ : ∃ l, g.links[target]? = some l := ⟨_, List.getElem?_eq_getElem ht⟩
      obtain ⟨lx, hlx⟩ : ∃ l, g.links[x]? = some l :=
        ⟨_, List.getElem?_eq_getElem (hi x ((hm x).1 (by simp)).1)⟩
      simp only [htt, hlx, Option.bind_some]
      obtain ⟨s', h1, h2⟩ := addVectors_spec (g := g) node (y :: rest)
        (NearestVector.new (if t.aId = node then (t.a, t.b) else (t.b, t.a)).1
          (if t.aId = node then (t.a, t.b) else (t.b, t.a)).2 (lx.other node) x clockwise)
        (fun i h => hi i ((hm i).1 (List.mem_cons_of_mem _ h)).1)
      rw [h1]
      refine ⟨s'.bestId, rfl, (hm _).1 ?_⟩
      rcases h2 with h2 | h2
      · have : (NearestVector.new (if t.aId = node then (t.a, t.b) else (t.b, t.a)).1
          (if t.aId = node then (t.a, t.b) else (t.b, t.a)).2 (lx.other node) x clockwise).bestId = x := by
          unfold NearestVector.new; simp only; split <;> rfl
        rw [h2, this]; simp
      · exact List.mem_cons_of_mem _ h2

theorem nextLink_spec {link node : Nat} {clockwise : Bool} {vis : List Bool} (hn : node < g.nodes.length)
    (hd : dpar g vis node = true) (hl : inc g link node = true) (hv : isVisited vis link = true) :
    ∃ i, nextLink g link node clockwise vis = some i ∧ inc g i node = true ∧ isVisited vis i = false := by
  obtain ⟨nd, hnd⟩ : ∃ nd, g.nodes[node]? = some nd := ⟨_, List.getElem?_eq_getElem hn⟩
  have hm := mem_indices hg hnd
  obtain ⟨k, -, k2, k3⟩ := dpar_true hd
  unfold nextLink
  rw [hnd, Option.bind_some]
  cases nd with
  | bridge i j =>
    have e : ∀ x, x ∈ (Node.bridge i j).indices ↔ x = i ∨ x = j := by
      intro x; simp [Node.indices]
    have hk := (e k).1 ((hm k).2 k3)
    have hlk := (e link).1 ((hm link).2 hl)
    have hne : k ≠ link := by rintro rfl; rw [hv] at k2; simp at k2
    refine ⟨_, rfl, ?_⟩
    by_cases hil : i = link
    · simp only [if_pos hil]
      have : k = j := hk.resolve_left fun h => hne (h.trans hil)
      rw [← this]; exact ⟨k3, k2⟩
    · simp only [if_neg hil]
      have hj : link = j := hlk.resolve_left fun h => hil h.symm
      have : k = i := hk.resolve_right fun h => hne (h.trans hj.symm)
      rw [← this]; exact ⟨k3, k2⟩
  | cross indices =>
    obtain ⟨i, h1, h2, h3⟩ := findNearest_spec (g := g) (target := link) (node := node) (clockwise := clockwise)
      (indices := indices) (vis := vis) (inc_lt hl) (fun i hi => inc_lt ((hm i).1 hi)) ⟨k, (hm k).2 k3, k2⟩
    exact ⟨i, h1, (hm i).1 h2, h3⟩

theorem ends_ne {l : Link} (hl : l ∈ g.links) : l.aId ≠ l.bId := by
  intro h
  have h1 := hg.aId l hl
  have h2 := hg.bId l hl
  rw [h, h2] at h1
  exact Pt.ne_of_lt (hg.lt l hl) (Option.some.inj h1).symm

theorem id_lt {l : Link} (hl : l ∈ g.links) : l.aId < g.nodes.length ∧ l.bId < g.nodes.length := by
  rw [hg.nodes]
  exact ⟨(List.getElem?_eq_some_iff.1 (hg.aId l hl)).1, (List.getElem?_eq_some_iff.1 (hg.bId l hl)).1⟩

/-- The walk: it returns to the last node along unvisited links, each used once. -/
theorem walk_spec (clockwise : Bool) (last : Nat) {q : Pt} (hq : V[last]? = some q) :
    ∀ (fuel node link : Nat) (vis : List Bool) (contour : List Pt) (p : Pt), V[node]? = some p →
    isVisited vis link = true → inc g link node = true →
    (∀ n, dpar g vis n = xor (decide (n = node)) (decide (n = last))) → unv g vis ≤ fuel →
    ∃ trail pts vis', walk g clockwise last fuel node link vis contour = some (contour ++ pts, vis') ∧
      vis'.length = vis.length ∧ trail.Nodup ∧ (∀ i ∈ trail, isVisited vis i = false) ∧
      (∀ i, isVisited vis' i = (isVisited vis i || decide (i ∈ trail))) ∧ (∀ n, dpar g vis' n = false) ∧
      unv g vis' + trail.length = unv g vis ∧ Path g.links trail pts p q := by
  intro fuel
  induction fuel with
  | zero =>
    intro node link vis contour p hp hv hi hd hf
    have hnl : node = last := by
      by_contra hne
      have := hd node
      simp only [hne, decide_true, decide_false, Bool.xor_false] at this
      obtain ⟨i, h1, h2, h3⟩ := dpar_true this
      have := unv_visit h1 h2
      omega
    subst hnl
    rw [hp] at hq
    obtain rfl := Option.some.inj hq
    refine ⟨[], [], vis, ?_, rfl, List.nodup_nil, by simp, by simp, ?_, by simp, Path.nil p⟩
    · rw [walk, if_pos rfl]; simp
    · intro n; rw [hd n]; simp
  | succ fuel ih =>
    intro node link vis contour p hp hv hi hd hf
    by_cases hnl : node = last
    · subst hnl
      rw [hp] at hq
      obtain rfl := Option.some.inj hq
      refine ⟨[], [], vis, ?_, rfl, List.nodup_nil, by simp, by simp, ?_, by simp, Path.nil p⟩
      · rw [walk, if_pos rfl]; simp
      · intro n; rw [hd n]; simp
    · have hn : node < g.nodes.length := by
        rw [hg.nodes]; exact (List.getElem?_eq_some_iff.1 hp).1
      have hodd : dpar g vis node = true := by rw [hd node]; simp [hnl]
      obtain ⟨i, n1, n2, n3⟩ := nextLink_spec hg (clockwise := clockwise) hn hodd hi hv
      obtain ⟨l, hl, hln⟩ := inc_get n2
      have hmem := List.mem_of_getElem? hl
      have hne := ends_ne hg hmem
      rw [walk, if_neg hnl]
      simp only [n1, Option.bind_some, hl]
      -- common continuation
      have key : ∀ (node' : Nat) (p' : Pt), V[node']? = some p' →
          (∀ n, inc g i n = (decide (n = node) || decide (n = node'))) → node ≠ node' →
          ((l.a = p ∧ l.b = p') ∨ (l.b = p ∧ l.a = p')) →
          ∃ trail pts vis', walk g clockwise last fuel node' i (visit vis i) (contour ++ [p]) =
              some (contour ++ pts, vis') ∧
            vis'.length = vis.length ∧ trail.Nodup ∧ (∀ i ∈ trail, isVisited vis i = false) ∧
            (∀ i, isVisited vis' i = (isVisited vis i || decide (i ∈ trail))) ∧ (∀ n, dpar g vis' n = false) ∧
            unv g vis' + trail.length = unv g vis ∧ Path g.links trail pts p q := by
        intro node' p' hp' hinc hnn hj
        have hu := unv_visit (inc_lt n2) n3
        obtain ⟨trail, pts, vis', e1, e2, e3, e4, e5, e6, e7, e8⟩ :=
          ih node' i (visit vis i) (contour ++ [p]) p' hp' (by rw [isVisited_visit]; simp)
            (by rw [hinc]; simp) (by
              intro n
              rw [dpar_visit (inc_lt n2) n3, hinc, hd n]
              by_cases c1 : n = node
              · subst c1; simp [hnn, hnl]
              · simp [c1]) (by omega)
        refine ⟨i :: trail, p :: pts, vis', ?_, ?_, ?_, ?_, ?_, e6, ?_, Path.cons hl hj e8⟩
        · rw [e1]; simp
        · rw [e2, visit_length]
        · refine List.nodup_cons.2 ⟨fun h => ?_, e3⟩
          have := e4 i h
          rw [isVisited_visit] at this
          simp at this
        · intro j hj'
          rcases List.mem_cons.1 hj' with rfl | hj'
          · exact n3
          · have := e4 j hj'
            rw [isVisited_visit] at this
            simp at this
            exact this.2
        · intro j
          rw [e5, isVisited_visit]
          by_cases c : j = i
          · subst c; simp
          · simp [c]
        · rw [List.length_cons]; omega
      by_cases ha : l.aId = node
      · rw [if_pos ha]
        have hpa : l.a = p := by
          have := hg.aId l hmem
          rw [ha, hp] at this; exact (Option.some.inj this).symm
        rw [hpa]
        refine key l.bId l.b (hg.bId l hmem) ?_ (by rw [← ha]; exact hne) (Or.inl ⟨hpa, rfl⟩)
        intro n; unfold inc; rw [hl]; simp [← ha, eq_comm]
      · rw [if_neg ha]
        have hb : l.bId = node := hln.resolve_left ha
        have hpb : l.b = p := by
          have := hg.bId l hmem
          rw [hb, hp] at this; exact (Option.some.inj this).symm
        rw [hpb]
        refine key l.aId l.a (hg.aId l hmem) ?_ (Ne.symm ha) (Or.inr ⟨hpb, rfl⟩)
        intro n; unfold inc; rw [hl]; simp [← hb, eq_comm, Bool.or_comm]

/-- One contour, from an unvisited start link. -/
theorem getContour_spec {vis : List Bool} (hd : ∀ n, dpar g vis n = false) {lt : Nat} {l : Link}
    (hl : g.links[lt]? = some l) (hv : isVisited vis lt = false) (direction clockwise : Bool) :
    ∃ trail pts vis', getContour g g.links.length (StartPath.new direction l lt) clockwise vis =
        some ((if direction then l.b else l.a) :: pts, vis') ∧
      vis'.length = vis.length ∧ (lt :: trail).Nodup ∧ (∀ i ∈ lt :: trail, isVisited vis i = false) ∧
      (∀ i, isVisited vis' i = (isVisited vis i || decide (i ∈ lt :: trail))) ∧ (∀ n, dpar g vis' n = false) ∧
      unv g vis' < unv g vis ∧
      Path g.links (lt :: trail) ((if direction then l.b else l.a) :: pts) (if direction then l.b else l.a)
        (if direction then l.b else l.a) ∧
      Path g.links trail pts (if direction then l.a else l.b) (if direction then l.b else l.a) := by
  have hmem := List.mem_of_getElem? hl
  have hne := ends_ne hg hmem
  have hlt := (List.getElem?_eq_some_iff.1 hl).1
  have hu := unv_visit hlt hv
  have hle : unv g (visit vis lt) ≤ g.links.length := by
    unfold unv
    exact (List.countP_le_length).trans (by simp)
  have hinc : ∀ n, inc g lt n = (decide (n = l.aId) || decide (n = l.bId)) := by
    intro n; unfold inc; rw [hl]; simp [eq_comm]
  have main : ∀ (node last : Nat) (p q : Pt), V[node]? = some p → V[last]? = some q → node ≠ last →
      (∀ n, inc g lt n = (decide (n = node) || decide (n = last))) →
      ((l.a = q ∧ l.b = p) ∨ (l.b = q ∧ l.a = p)) →
      ∃ trail pts vis', walk g clockwise last g.links.length node lt (visit vis lt) [q] = some (q :: pts, vis') ∧
      vis'.length = vis.length ∧ (lt :: trail).Nodup ∧ (∀ i ∈ lt :: trail, isVisited vis i = false) ∧
      (∀ i, isVisited vis' i = (isVisited vis i || decide (i ∈ lt :: trail))) ∧ (∀ n, dpar g vis' n = false) ∧
      unv g vis' < unv g vis ∧
      Path g.links (lt :: trail) (q :: pts) q q ∧ Path g.links trail pts p q := by
    intro node last p q hp hq hnl hin hj
    obtain ⟨trail, pts, vis', e1, e2, e3, e4, e5, e6, e7, e8⟩ :=
      walk_spec hg clockwise last hq g.links.length node lt (visit vis lt) [q] p hp
        (by rw [isVisited_visit]; simp) (by rw [hin]; simp) (by
          intro n
          rw [dpar_visit hlt hv, hin, hd n]
          by_cases c1 : n = node
          · subst c1; simp [hnl]
          · simp [c1]) hle
    refine ⟨trail, pts, vis', e1, by rw [e2, visit_length], ?_, ?_, ?_, e6, by omega, Path.cons hl hj e8, e8⟩
    · refine List.nodup_cons.2 ⟨fun h => ?_, e3⟩
      have := e4 lt h
      rw [isVisited_visit] at this
      simp at this
    · intro j hj'
      rcases List.mem_cons.1 hj' with rfl | hj'
      · exact hv
      · have := e4 j hj'
        rw [isVisited_visit] at this
        simp at this
        exact this.2
    · intro j
      rw [e5, isVisited_visit]
      by_cases c : j = lt
      · subst c; simp
      · simp [c]
  unfold getContour StartPath.new
  cases direction
  · simp only [Bool.false_eq_true, if_false]
    exact main l.bId l.aId l.b l.a (hg.bId l hmem) (hg.aId l hmem) (Ne.symm hne)
      (by intro n; rw [hinc, Bool.or_comm]) (Or.inl ⟨rfl, rfl⟩)
  · simp only [if_true]
    exact main l.aId l.bId l.a l.b (hg.aId l hmem) (hg.bId l hmem) hne hinc (Or.inr ⟨rfl, rfl⟩)

/-- The start link is unvisited. -/
theorem findLeftTop_spec {vis : List Bool} (hd : ∀ n, dpar g vis n = false) {li : Nat} (hli : li < g.links.length)
    (hv : isVisited vis li = false) :
    ∃ lt l, findLeftTop g li vis = some lt ∧ g.links[lt]? = some l ∧ isVisited vis lt = false := by
  obtain ⟨top, htop⟩ : ∃ l, g.links[li]? = some l := ⟨_, List.getElem?_eq_getElem hli⟩
  have hmem := List.mem_of_getElem? htop
  obtain ⟨nd, hnd⟩ : ∃ nd, g.nodes[top.aId]? = some nd := ⟨_, List.getElem?_eq_getElem (id_lt hg hmem).1⟩
  have hm := mem_indices hg hnd
  have hit : inc g li top.aId = true := inc_of htop (Or.inl rfl)
  unfold findLeftTop
  rw [htop, Option.bind_some, hnd, Option.bind_some]
  cases nd with
  | bridge i j =>
    have e : ∀ x, x ∈ (Node.bridge i j).indices ↔ x = i ∨ x = j := by
      intro x; simp [Node.indices]
    have h2 : dpar g (visit vis li) top.aId = true := by
      rw [dpar_visit hli hv, hd, hit]; rfl
    obtain ⟨k, k1, k2, k3⟩ := dpar_true h2
    rw [isVisited_visit] at k2
    simp at k2
    have hk := (e k).1 ((hm k).2 k3)
    have hl := (e li).1 ((hm li).2 hit)
    have both : isVisited vis i = false ∧ isVisited vis j = false ∧ i < g.links.length ∧ j < g.links.length := by
      rcases hk with rfl | rfl <;> rcases hl with rfl | rfl
      · exact absurd rfl k2.1
      · exact ⟨k2.2, hv, k1, hli⟩
      · exact ⟨hv, k2.2, hli, k1⟩
      · exact absurd rfl k2.1
    obtain ⟨v1, v2, l1, l2⟩ := both
    simp only [leftTopBridge, List.getElem?_eq_getElem l1, List.getElem?_eq_getElem l2, Option.bind_some]
    by_cases c : isClockwise g.links[i].a g.links[i].b g.links[j].b = true
    · exact ⟨i, g.links[i], by rw [if_pos c], List.getElem?_eq_getElem l1, v1⟩
    · exact ⟨j, g.links[j], by rw [if_neg c], List.getElem?_eq_getElem l2, v2⟩
  | cross indices =>
    have hr : ∀ i ∈ indices, i < g.links.length := fun i hi => inc_lt ((hm i).1 hi)
    have main : ∀ (is : List Nat) (t : Nat) (tl : Link), (∀ i ∈ is, i < g.links.length) →
        g.links[t]? = some tl → isVisited vis t = false →
        ∃ lt l, leftTopIndices g li vis is t tl = some lt ∧ g.links[lt]? = some l ∧ isVisited vis lt = false := by
      intro is
      induction is with
      | nil => intro t tl _ h1 h2; exact ⟨t, tl, rfl, h1, h2⟩
      | cons i is ih =>
        intro t tl h0 h1 h2
        have h0' : ∀ i ∈ is, i < g.links.length := fun j hj => h0 j (List.mem_cons_of_mem _ hj)
        rw [leftTopIndices]
        split
        · exact ih t tl h0' h1 h2
        · have hi := h0 i (by simp)
          rw [List.getElem?_eq_getElem hi, Option.bind_some]
          split
          · exact ih t tl h0' h1 h2
          · split
            · exact ih t tl h0' h1 h2
            · rename_i hvi
              exact ih i _ h0' (List.getElem?_eq_getElem hi) (by simpa using hvi)
    exact main indices li top hr htop hv

end walk

end IOverlay
