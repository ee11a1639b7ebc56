/-
Lemmas about the walks of the slice operation.
-/
import Verif.Slice
import Verif.StringLemmas
import Verif.ExtractLemmas

namespace IOverlay

/-! ### directed sides -/

/-- The filled sides of an edge, each as a directed step with the filled side on its left. -/
def sideSteps (a b : Pt) (f : Fill) : List (Pt × Pt) :=
  (if f &&& SUBJ_TOP == SUBJ_TOP then [(a, b)] else []) ++
    (if f &&& SUBJ_BOTTOM == SUBJ_BOTTOM then [(b, a)] else [])

/-- Steps with the filled side on the left, turned around if `d` is `false`. -/
def turn (d : Bool) (e : Pt × Pt) : Pt × Pt := if d then e else e.swap

theorem turn_turn (d : Bool) (e : Pt × Pt) : turn d (turn d e) = e := by
  unfold turn; cases d <;> simp

/-- The filled sides of all links. -/
def allSides (links : List Link) (fills : List Fill) : List (Pt × Pt) :=
  (links.zip fills).flatMap fun x => sideSteps x.1.a x.1.b x.2

/-- Only the two subject bits are used. -/
def Small (f : Fill) : Prop := f &&& SUBJ_BOTH = f

instance (f : Fill) : Decidable (Small f) := by unfold Small; infer_instance

theorem small_visit (f m : Fill) (h : Small f) : Small (f &&& m) := by
  unfold Small at *
  rw [BitVec.and_assoc, BitVec.and_comm m, ← BitVec.and_assoc, h]

theorem move_bits : ∀ f : Fill, Small f →
    ((f = SUBJ_BOTH ∨ (f ≠ 0#8 ∧ (f &&& SUBJ_TOP != 0#8) = true)) ↔ (f &&& SUBJ_TOP == SUBJ_TOP) = true) ∧
    ((f = SUBJ_BOTH ∨ (f ≠ 0#8 ∧ (f &&& SUBJ_TOP != 0#8) = false)) ↔ (f &&& SUBJ_BOTTOM == SUBJ_BOTTOM) = true) ∧
    (f &&& ~~~SUBJ_TOP) &&& SUBJ_TOP = 0#8 ∧ (f &&& ~~~SUBJ_TOP) &&& SUBJ_BOTTOM = f &&& SUBJ_BOTTOM ∧
    (f &&& ~~~SUBJ_BOTTOM) &&& SUBJ_BOTTOM = 0#8 ∧ (f &&& ~~~SUBJ_BOTTOM) &&& SUBJ_TOP = f &&& SUBJ_TOP ∧
    (f ≠ 0#8 → (f &&& SUBJ_TOP == SUBJ_TOP) = false → (f &&& SUBJ_BOTTOM == SUBJ_BOTTOM) = true) := by
  decide +kernel

theorem sides_top {a b : Pt} {f : Fill} (hf : Small f) (h : (f &&& SUBJ_TOP == SUBJ_TOP) = true) :
    (sideSteps a b f).Perm ((a, b) :: sideSteps a b (f &&& ~~~SUBJ_TOP)) := by
  obtain ⟨-, -, h1, h2, -⟩ := move_bits f hf
  have z : (0#8 == SUBJ_TOP) = false := by decide
  unfold sideSteps
  simp only [h, h1, h2, z, if_true, Bool.false_eq_true, if_false]
  exact List.Perm.refl _

theorem sides_bottom {a b : Pt} {f : Fill} (hf : Small f) (h : (f &&& SUBJ_BOTTOM == SUBJ_BOTTOM) = true) :
    (sideSteps a b f).Perm ((b, a) :: sideSteps a b (f &&& ~~~SUBJ_BOTTOM)) := by
  obtain ⟨-, -, -, -, h1, h2, -⟩ := move_bits f hf
  have z : (0#8 == SUBJ_BOTTOM) = false := by decide
  unfold sideSteps
  simp only [h, h1, h2, z, if_true, Bool.false_eq_true, if_false, List.append_nil]
  exact List.perm_append_comm

/-- The step made by leaving `node` along the link. -/
def Link.step (l : Link) (node : Nat) : Pt × Pt := if l.aId = node then (l.a, l.b) else (l.b, l.a)

theorem possible_iff {l : Link} (hl : l.a < l.b) {f : Fill} (hf : Small f) (node : Nat) (d : Bool) :
    l.isMovePossible f node d = true ↔
      (f &&& l.moveMask node d == l.moveMask node d) = true := by
  obtain ⟨h1, h2, -⟩ := move_bits f hf
  have hd : decide (l.a < l.b) = true := by simpa using hl
  unfold Link.isMovePossible Link.moveMask
  simp only [hd]
  by_cases h : l.aId = node <;> cases d <;>
    simp only [h, decide_true, decide_false, beq_self_eq_true, if_true, if_false, Bool.false_eq_true,
      show (false == true) = false from rfl]
  all_goals first
    | rw [← h1]
    | rw [← h2]
  all_goals
    by_cases hb : f = SUBJ_BOTH
    · simp [hb]
    · by_cases hz : f = 0#8
      · simp [hz]
      · simp only [hb, hz, if_false]
        cases (f &&& SUBJ_TOP != 0#8) <;> simp [hz]

theorem visitFill_spec {l : Link} (hl : l.a < l.b) {f : Fill} (hf : Small f) (node : Nat) (d : Bool)
    (h : l.isMovePossible f node d = true) :
    (sideSteps l.a l.b f).Perm (turn d (l.step node) :: sideSteps l.a l.b (l.visitFill f node d)) := by
  rw [possible_iff hl hf] at h
  have hd : decide (l.a < l.b) = true := by simpa using hl
  unfold Link.visitFill
  unfold Link.moveMask at h ⊢
  unfold Link.step turn
  simp only [hd] at h ⊢
  by_cases hn : l.aId = node <;> cases d <;>
    simp only [hn, decide_true, decide_false, beq_self_eq_true, if_true, if_false, Bool.false_eq_true,
      show (false == true) = false from rfl, Prod.swap] at h ⊢
  · exact sides_bottom hf h
  · exact sides_top hf h
  · exact sides_top hf h
  · exact sides_bottom hf h

theorem possible_of_side {l : Link} (hl : l.a < l.b) (hne : l.aId ≠ l.bId) {f : Fill} (hf : Small f) {node : Nat} {d : Bool}
    {e : Pt × Pt} (he : turn d e ∈ sideSteps l.a l.b f) {p : Pt} (h1 : e.1 = p)
    (ha : l.a = p → l.aId = node) (hb : l.b = p → l.bId = node) :
    l.isMovePossible f node d = true ∧ (l.aId = node ∨ l.bId = node) := by
  rw [possible_iff hl hf]
  have hd : decide (l.a < l.b) = true := by simpa using hl
  have hm : ((f &&& SUBJ_TOP == SUBJ_TOP) = true ∧ turn d e = (l.a, l.b)) ∨
      ((f &&& SUBJ_BOTTOM == SUBJ_BOTTOM) = true ∧ turn d e = (l.b, l.a)) := by
    unfold sideSteps at he
    rw [List.mem_append] at he
    rcases he with he | he
    · split at he
      · left; exact ⟨by assumption, by simpa using he⟩
      · simp at he
    · split at he
      · right; exact ⟨by assumption, by simpa using he⟩
      · simp at he
  unfold Link.moveMask
  simp only [hd]
  obtain ⟨e1, e2⟩ := e
  simp only at h1
  subst h1
  rcases hm with ⟨h, ht⟩ | ⟨h, ht⟩ <;> cases d <;> simp only [turn, if_true, Bool.false_eq_true, if_false, Prod.swap,
    Prod.mk.injEq] at ht <;> obtain ⟨rfl, rfl⟩ := ht
  · have := hb rfl
    have hn : l.aId ≠ node := fun h => hne (h.trans this.symm)
    simp only [hn, decide_false, Bool.false_eq_true, if_false, show (false == true) = false from rfl]
    exact ⟨h, Or.inr this⟩
  · have := ha rfl
    simp only [this, decide_true, if_true, beq_self_eq_true]
    exact ⟨h, Or.inl trivial⟩
  · have := ha rfl
    simp only [this, decide_true, if_true, show (false == true) = false from rfl, Bool.false_eq_true, if_false]
    exact ⟨h, Or.inl trivial⟩
  · have := hb rfl
    have hn : l.aId ≠ node := fun h => hne (h.trans this.symm)
    simp only [hn, decide_false, Bool.false_eq_true, if_false, beq_self_eq_true, if_true]
    exact ⟨h, Or.inr this⟩

/-! ### choosing the next link -/

theorem dropWhile_cons {α : Type} {p : α → Bool} {l : List α} {x : α} {r : List α}
    (h : l.dropWhile p = x :: r) : p x = false ∧ x ∈ l ∧ ∀ y ∈ r, y ∈ l := by
  have hs := List.dropWhile_suffix (p := p) (l := l)
  rw [h] at hs
  refine ⟨?_, hs.subset (by simp), fun y hy => hs.subset (List.mem_cons_of_mem _ hy)⟩
  have := List.head?_dropWhile_not p l
  rw [h] at this
  simpa using this

theorem sliceNearest_spec {g : Graph} {target node : Nat} {d : Bool} {indices : List Nat} {fills : List Fill}
    (ht : target < g.links.length) (hi : ∀ i ∈ indices, i < g.links.length) (htm : target ∈ indices)
    (hex : ∃ i ∈ indices, canMove g node d fills i = true) :
    ∃ i, sliceNearest g target node d indices fills = some i ∧ i ∈ indices ∧ canMove g node d fills i = true := by
  unfold sliceNearest
  simp only
  rcases h1 : indices.dropWhile (fun i => !(i != target && canMove g node d fills i)) with _ | ⟨x, r⟩
  · dsimp only
    have h1 : ∀ i ∈ indices, (!(i != target && canMove g node d fills i)) = true := fun i hm => (by
      have := List.takeWhile_append_dropWhile (p := fun i => !(i != target && canMove g node d fills i)) (l := indices)
      rw [h1, List.append_nil] at this
      rw [← this] at hm
      exact List.all_eq_true.1 List.all_takeWhile i hm)
    obtain ⟨i, hm, hc⟩ := hex
    have := h1 i hm
    have e : i = target := by
      by_contra hne
      simp [hc, hne] at this
    subst e
    exact ⟨i, by rw [if_pos hc], hm, hc⟩
  · dsimp only
    obtain ⟨p1, p2, p3⟩ := dropWhile_cons h1
    have cx : canMove g node d fills x = true := by
      simp only [Bool.not_eq_false', Bool.and_eq_true] at p1; exact p1.2
    rcases h2 : r.dropWhile (fun i => !(i != target && canMove g node d fills i)) with _ | ⟨y, rest⟩
    · exact ⟨x, rfl, p2, cx⟩
    · dsimp only
      obtain ⟨q1, q2, q3⟩ := dropWhile_cons h2
      have cy : canMove g node d fills y = true := by
        simp only [Bool.not_eq_false', Bool.and_eq_true] at q1; exact q1.2
      obtain ⟨t, htg⟩ : ∃ t, g.links[target]? = some t := ⟨_, List.getElem?_eq_getElem ht⟩
      obtain ⟨lx, hlx⟩ : ∃ t, g.links[x]? = some t := ⟨_, List.getElem?_eq_getElem (hi x p2)⟩
      rw [htg, Option.bind_some, hlx, Option.bind_some]
      have hmem : ∀ i ∈ y :: rest.filter (canMove g node d fills), i ∈ indices ∧ canMove g node d fills i = true := by
        intro i h
        rcases List.mem_cons.1 h with rfl | h
        · exact ⟨p3 _ q2, cy⟩
        · rw [List.mem_filter] at h
          exact ⟨p3 _ (q3 _ h.1), h.2⟩
      obtain ⟨s', a1, a2⟩ := addVectors_spec (g := g) node (y :: rest.filter (canMove g node d fills))
        (NearestVector.new (if t.aId = node then (t.a, t.b) else (t.b, t.a)).1
          (if t.aId = node then (t.a, t.b) else (t.b, t.a)).2 (lx.other node) x d)
        (fun i h => hi i (hmem i h).1)
      rw [a1]
      refine ⟨s'.bestId, rfl, ?_⟩
      rcases a2 with a2 | a2
      · have : (NearestVector.new (if t.aId = node then (t.a, t.b) else (t.b, t.a)).1
          (if t.aId = node then (t.a, t.b) else (t.b, t.a)).2 (lx.other node) x d).bestId = x := by
          unfold NearestVector.new; simp only; split <;> rfl
        rw [a2, this]; exact ⟨p2, cx⟩
      · exact hmem _ a2

/-! ### the walk -/

/-- Number of steps leaving / entering a point. -/
def outDeg (L : List (Pt × Pt)) (p : Pt) : Nat := L.countP fun e => decide (e.1 = p)
def inDeg (L : List (Pt × Pt)) (p : Pt) : Nat := L.countP fun e => decide (e.2 = p)

theorem outDeg_cons (e : Pt × Pt) (L : List (Pt × Pt)) (p : Pt) :
    outDeg (e :: L) p = outDeg L p + if e.1 = p then 1 else 0 := by
  unfold outDeg; rw [List.countP_cons]; simp

theorem inDeg_cons (e : Pt × Pt) (L : List (Pt × Pt)) (p : Pt) :
    inDeg (e :: L) p = inDeg L p + if e.2 = p then 1 else 0 := by
  unfold inDeg; rw [List.countP_cons]; simp

theorem outDeg_perm {L M : List (Pt × Pt)} (h : L.Perm M) (p : Pt) : outDeg L p = outDeg M p := h.countP_eq _
theorem inDeg_perm {L M : List (Pt × Pt)} (h : L.Perm M) (p : Pt) : inDeg L p = inDeg M p := h.countP_eq _

theorem outDeg_swap (L : List (Pt × Pt)) (p : Pt) : outDeg (L.map Prod.swap) p = inDeg L p := by
  unfold outDeg inDeg; rw [List.countP_map]; rfl
theorem inDeg_swap (L : List (Pt × Pt)) (p : Pt) : inDeg (L.map Prod.swap) p = outDeg L p := by
  unfold outDeg inDeg; rw [List.countP_map]; rfl

/-- As many steps leave every point as enter it. -/
def EvenSteps (L : List (Pt × Pt)) : Prop := ∀ p, outDeg L p = inDeg L p

theorem turn_map_true (L : List (Pt × Pt)) : L.map (turn true) = L := by
  have : turn true = id := by funext e; rfl
  rw [this, List.map_id]
theorem turn_map_false (L : List (Pt × Pt)) : L.map (turn false) = L.map Prod.swap := by
  have : turn false = Prod.swap := by funext e; rfl
  rw [this]

theorem EvenSteps.turn {L : List (Pt × Pt)} (h : EvenSteps L) (d : Bool) : EvenSteps (L.map (turn d)) := by
  intro p
  cases d
  · rw [turn_map_false, outDeg_swap, inDeg_swap]; exact (h p).symm
  · rw [turn_map_true]; exact h p

/-- What stays true of the fills during extraction. -/
structure FillsOk (g : Graph) (fills : List Fill) : Prop where
  len : fills.length = g.links.length
  small : ∀ f ∈ fills, Small f

theorem FillsOk.set {g : Graph} {fills : List Fill} (h : FillsOk g fills) {i : Nat} {f f' : Fill}
    (_hf : fills[i]? = some f) (hs : Small f') : FillsOk g (fills.set i f') where
  len := by rw [List.length_set]; exact h.len
  small := by
    intro x hx
    rcases List.mem_or_eq_of_mem_set hx with hx | rfl
    · exact h.small x hx
    · exact hs

theorem zip_set_right {α β : Type} : ∀ (l : List α) (m : List β) (i : Nat) (b : β) (a : α), l[i]? = some a →
    l.zip (m.set i b) = (l.zip m).set i (a, b) := by
  intro l
  induction l with
  | nil => intro m i b a h; simp at h
  | cons x l ih =>
    intro m i b a h
    cases m with
    | nil => simp
    | cons y m =>
      cases i with
      | zero => simp at h; subst h; rfl
      | succ i => simp only [List.set_cons_succ, List.zip_cons_cons]; rw [ih m i b a (by simpa using h)]

theorem allSides_set {g : Graph} {fills : List Fill} {i : Nat} {l : Link} {f f' : Fill}
    (hl : g.links[i]? = some l) (hf : fills[i]? = some f) {e : Pt × Pt}
    (hp : (sideSteps l.a l.b f).Perm (e :: sideSteps l.a l.b f')) :
    (allSides g.links fills).Perm (e :: allSides g.links (fills.set i f')) := by
  unfold allSides
  rw [zip_set_right _ _ _ _ _ hl]
  refine flatMap_set (fun x : Link × Fill => sideSteps x.1.a x.1.b x.2) _ _ (l, f) _ _ ?_ hp
  rw [List.getElem?_zip_eq_some]
  exact ⟨hl, hf⟩

theorem GraphOk.id_ne {g : Graph} {V : List Pt} (hg : GraphOk g V) {l : Link} (hl : l ∈ g.links) : l.aId ≠ l.bId := by
  intro h
  have ha := hg.aId l hl
  have hb := hg.bId l hl
  rw [h, hb] at ha
  have := hg.lt l hl
  rw [Option.some.inj ha] at this
  exact Pt.lt_irrefl _ this

theorem GraphOk.id_of_pt {g : Graph} {V : List Pt} (hg : GraphOk g V) {i j : Nat} {p : Pt}
    (hi : V[i]? = some p) (hj : V[j]? = some p) : i = j := by
  have hs := hg.sorted
  obtain ⟨h1, e1⟩ := List.getElem?_eq_some_iff.1 hi
  obtain ⟨h2, e2⟩ := List.getElem?_eq_some_iff.1 hj
  rcases Nat.lt_trichotomy i j with h | h | h
  · have := List.pairwise_iff_getElem.1 hs i j h1 h2 h
    rw [e1, e2] at this; exact absurd this (Pt.lt_irrefl _)
  · exact h
  · have := List.pairwise_iff_getElem.1 hs j i h2 h1 h
    rw [e1, e2] at this; exact absurd this (Pt.lt_irrefl _)

theorem mem_node {g : Graph} {V : List Pt} (hg : GraphOk g V) {k : Nat} {p : Pt} (hk : V[k]? = some p) {i : Nat} {l : Link}
    (hl : g.links[i]? = some l) (h : l.aId = k ∨ l.bId = k) : i ∈ (g.nodes[k]?).elim [] Node.indices := by
  have hlen : k < g.nodes.length := by
    rw [hg.nodes]; exact (List.getElem?_eq_some_iff.1 hk).1
  obtain ⟨nd, hnd⟩ : ∃ nd, g.nodes[k]? = some nd := ⟨_, List.getElem?_eq_getElem hlen⟩
  obtain ⟨A, B, rfl, -, -, mA, mB⟩ := hg.idx k nd hnd
  rw [hnd]
  simp only [Option.elim]
  rw [Node.indices_new, List.mem_append, mA, mB]
  rcases h with h | h
  · exact Or.inl ⟨l, hl, h⟩
  · exact Or.inr ⟨l, hl, h⟩

/-- Fills that were empty stay empty. -/
def Spent (fills fills' : List Fill) : Prop :=
  fills'.length = fills.length ∧ ∀ j : Nat, fills[j]? = some 0#8 → fills'[j]? = some 0#8

theorem Spent.refl (fills : List Fill) : Spent fills fills := ⟨rfl, fun _ h => h⟩

theorem Spent.trans {l m n : List Fill} (h : Spent l m) (h' : Spent m n) : Spent l n :=
  ⟨h'.1.trans h.1, fun j hj => h'.2 j (h.2 j hj)⟩

theorem Spent.set {fills : List Fill} {i : Nat} {f : Fill} (hf : fills[i]? = some f) (m : Fill) :
    Spent fills (fills.set i (f &&& m)) := by
  refine ⟨by simp, fun j hj => ?_⟩
  rw [List.getElem?_set]
  by_cases h : i = j
  · subst h
    rw [hf] at hj
    obtain rfl := Option.some.inj hj
    have := (List.getElem?_eq_some_iff.1 hf).1
    simp [this]
  · rw [if_neg h]; exact hj

theorem sliceWalk_spec {g : Graph} {V : List Pt} (hg : GraphOk g V) (d : Bool) (last : Nat) (pl : Pt)
    (hlast : V[last]? = some pl) : ∀ (fuel node link : Nat) (p : Pt) (fills : List Fill) (path : List Pt),
    FillsOk g fills → V[node]? = some p → (∃ l, g.links[link]? = some l ∧ (l.aId = node ∨ l.bId = node)) →
    (∀ q, outDeg ((allSides g.links fills).map (turn d)) q + (if q = pl then 1 else 0) =
      inDeg ((allSides g.links fills).map (turn d)) q + (if q = p then 1 else 0)) →
    (allSides g.links fills).length ≤ fuel → path ≠ [] →
    ∃ path' fills', sliceWalk g d last fuel node link fills path = some (path', fills') ∧ FillsOk g fills' ∧
      Spent fills fills' ∧ (∃ t, path' = path ++ t) ∧
      (pathSteps (path ++ [p]) ++ (allSides g.links fills).map (turn d)).Perm
        (pathSteps (path' ++ [pl]) ++ (allSides g.links fills').map (turn d)) := by
  intro fuel
  induction fuel with
  | zero =>
    intro node link p fills path hF hv hl hbal hlen hpath
    rw [sliceWalk]
    by_cases hn : node = last
    · subst hn
      rw [hlast] at hv
      obtain rfl := Option.some.inj hv
      rw [if_pos rfl]
      exact ⟨path, fills, rfl, hF, Spent.refl _, ⟨[], by simp⟩, List.Perm.refl _⟩
    · have hz : allSides g.links fills = [] := List.length_eq_zero_iff.1 (by omega)
      have hpne : p ≠ pl := by
        intro h; subst h; exact hn (hg.id_of_pt hv hlast)
      have := hbal p
      rw [hz] at this
      simp [outDeg, inDeg, hpne] at this
  | succ fuel ih =>
    intro node link p fills path hF hv hl hbal hlen hpath
    rw [sliceWalk]
    by_cases hn : node = last
    · subst hn
      rw [hlast] at hv
      obtain rfl := Option.some.inj hv
      rw [if_pos rfl]
      exact ⟨path, fills, rfl, hF, Spent.refl _, ⟨[], by simp⟩, List.Perm.refl _⟩
    · rw [if_neg hn]
      have hpne : p ≠ pl := by
        intro h; subst h; exact hn (hg.id_of_pt hv hlast)
      -- a step leaves `p`
      have hpos : 0 < outDeg ((allSides g.links fills).map (turn d)) p := by
        have := hbal p
        rw [if_neg hpne, if_pos rfl] at this; omega
      obtain ⟨e, he, hep⟩ := List.countP_pos_iff.1 hpos
      have hep' : e.1 = p := by simpa using hep
      obtain ⟨e', he', rfl⟩ := List.mem_map.1 he
      obtain ⟨⟨l, f⟩, hx, hes⟩ := List.mem_flatMap.1 he'
      obtain ⟨i, hix⟩ := List.getElem?_of_mem hx
      rw [List.getElem?_zip_eq_some] at hix
      obtain ⟨hli, hfi⟩ := hix
      simp only at hli hfi hes
      have ml := List.mem_of_getElem? hli
      have hsm : ∀ {j : Nat} {f : Fill}, fills[j]? = some f → Small f := fun h => hF.small _ (List.mem_of_getElem? h)
      obtain ⟨hposs, hinc⟩ := possible_of_side (hg.lt l ml) (hg.id_ne ml) (hsm hfi) (node := node) (d := d) (e := turn d e')
        (by rw [turn_turn]; exact hes) hep'
        (fun h => hg.id_of_pt (by rw [← h]; exact hg.aId l ml) hv)
        (fun h => hg.id_of_pt (by rw [← h]; exact hg.bId l ml) hv)
      obtain ⟨lt, hlt, hlt'⟩ := hl
      obtain ⟨j, hj1, hj2, hj3⟩ := sliceNearest_spec (g := g) (target := link) (node := node) (d := d)
        (indices := (g.nodes[node]?).elim [] Node.indices) (fills := fills)
        (List.getElem?_eq_some_iff.1 hlt).1
        (fun i hi => by
          obtain ⟨l, h1, -⟩ := node_mem hg node i hi
          exact (List.getElem?_eq_some_iff.1 h1).1)
        (mem_node hg hv hlt hlt')
        ⟨i, mem_node hg hv hli hinc, by unfold canMove; rw [hli, hfi]; exact hposs⟩
      rw [hj1, Option.bind_some]
      obtain ⟨m, hmj, hminc⟩ := node_mem hg node j hj2
      have hfj' : ∃ f, fills[j]? = some f := by
        have := (List.getElem?_eq_some_iff.1 hmj).1
        exact ⟨_, List.getElem?_eq_getElem (by rw [hF.len]; exact this)⟩
      obtain ⟨fj, hfj⟩ := hfj'
      rw [hmj, Option.bind_some, hfj, Option.bind_some]
      have mm := List.mem_of_getElem? hmj
      have hmp : m.isMovePossible fj node d = true := by
        unfold canMove at hj3; rw [hmj, hfj] at hj3; exact hj3
      have hperm := allSides_set hmj hfj (visitFill_spec (hg.lt m mm) (hsm hfj) node d hmp)
      have hF' : FillsOk g (fills.set j (m.visitFill fj node d)) := hF.set hfj (small_visit _ _ (hsm hfj))
      have hpt : ((allSides g.links fills).map (turn d)).Perm (m.step node ::
          (allSides g.links (fills.set j (m.visitFill fj node d))).map (turn d)) := by
        have := hperm.map (turn d)
        rw [List.map_cons, turn_turn] at this; exact this
      have hlen' := hperm.length_eq
      rw [List.length_cons] at hlen'
      have hstep1 : (m.step node).1 = p := by
        unfold Link.step
        by_cases h : m.aId = node
        · rw [if_pos h]
          have := hg.aId m mm
          rw [h, hv] at this; exact (Option.some.inj this).symm
        · rw [if_neg h]
          have hb := hminc.resolve_left h
          have := hg.bId m mm
          rw [hb, hv] at this; exact (Option.some.inj this).symm
      have hbal' : ∀ q, outDeg ((allSides g.links (fills.set j (m.visitFill fj node d))).map (turn d)) q + (if q = pl then 1 else 0) =
          inDeg ((allSides g.links (fills.set j (m.visitFill fj node d))).map (turn d)) q +
            (if q = (m.step node).2 then 1 else 0) := by
        intro q
        have := hbal q
        rw [outDeg_perm hpt, inDeg_perm hpt, outDeg_cons, inDeg_cons, hstep1] at this
        simp only [eq_comm (b := q)] at this
        simp only [eq_comm (b := (m.step node).2)]
        simp only [eq_comm (a := q)] at this ⊢
        omega
      have hgoal : ∀ (node' : Nat), V[node']? = some (m.step node).2 → (m.aId = node' ∨ m.bId = node') →
          ∃ path' fills', sliceWalk g d last fuel node' j (fills.set j (m.visitFill fj node d)) (path ++ [p]) = some (path', fills') ∧ FillsOk g fills' ∧
            Spent fills fills' ∧ (∃ t, path' = path ++ t) ∧
            (pathSteps (path ++ [p]) ++ (allSides g.links fills).map (turn d)).Perm
              (pathSteps (path' ++ [pl]) ++ (allSides g.links fills').map (turn d)) := by
        intro node' hv' hinc'
        obtain ⟨path', fills', a1, a2, a3, ⟨t, a4⟩, a5⟩ := ih node' j (m.step node).2 _ (path ++ [p]) hF' hv'
          ⟨m, hmj, hinc'⟩ hbal' (by omega) (by simp)
        refine ⟨path', fills', a1, a2, (Spent.set hfj _).trans a3, ⟨p :: t, by rw [a4]; simp⟩, ?_⟩
        refine List.Perm.trans ?_ a5
        have hst : m.step node = (p, (m.step node).2) := by rw [← hstep1]
        rw [pathSteps_append (path := path ++ [p]) (a := p) (by simp), List.append_assoc, ← hst]
        exact List.Perm.append_left _ hpt
      by_cases h : m.aId = node
      · simp only [if_pos h]
        have e : m.a = p := by have := hstep1; unfold Link.step at this; rw [if_pos h] at this; exact this
        rw [e]
        refine hgoal m.bId ?_ (Or.inr rfl)
        unfold Link.step; rw [if_pos h]; exact hg.bId m mm
      · simp only [if_neg h]
        have e : m.b = p := by have := hstep1; unfold Link.step at this; rw [if_neg h] at this; exact this
        rw [e]
        refine hgoal m.aId ?_ (Or.inl rfl)
        unfold Link.step; rw [if_neg h]; exact hg.aId m mm

theorem polyEdges_eq_pathSteps {path : List Pt} {p : Pt} (h : path.head? = some p) :
    polyEdges path = pathSteps (path ++ [p]) := by
  cases path with
  | nil => simp at h
  | cons q ps =>
    simp only [List.head?_cons, Option.some.injEq] at h
    subst h
    unfold polyEdges pathSteps
    simp only [List.cons_append, List.tail_cons]
    have : ∀ (l : List Pt) (a b : Pt), (a :: l).zip (l ++ [b]) = ((a :: l) ++ [b]).zip (l ++ [b]) := by
      intro l
      induction l with
      | nil => intro a b; rfl
      | cons c l ih => intro a b; simp only [List.cons_append, List.zip_cons_cons]; rw [ih c b]; rfl
    rw [this]
    rfl

theorem even_polyEdges (path : List Pt) : EvenSteps (polyEdges path) := by
  cases path with
  | nil => intro p; rfl
  | cons q ps =>
    intro p
    unfold polyEdges outDeg inDeg
    have h1 : ((q :: ps).zip (ps ++ [q])).countP (fun e => decide (e.1 = p)) =
        (q :: ps).countP fun x => decide (x = p) := by
      have : (fun e : Pt × Pt => decide (e.1 = p)) = (fun x => decide (x = p)) ∘ Prod.fst := rfl
      rw [this, ← List.countP_map, List.map_fst_zip (by simp)]
    have h2 : ((q :: ps).zip (ps ++ [q])).countP (fun e => decide (e.2 = p)) =
        (ps ++ [q]).countP fun x => decide (x = p) := by
      have : (fun e : Pt × Pt => decide (e.2 = p)) = (fun x => decide (x = p)) ∘ Prod.snd := rfl
      rw [this, ← List.countP_map, List.map_snd_zip (by simp)]
    rw [h1, h2]
    exact (List.perm_append_singleton q ps).symm.countP_eq _

theorem EvenSteps.of_append {L M : List (Pt × Pt)} (h : EvenSteps (L ++ M)) (hL : EvenSteps L) : EvenSteps M := by
  intro p
  have h1 := h p
  have h2 := hL p
  unfold outDeg inDeg at *
  rw [List.countP_append, List.countP_append] at h1
  omega

theorem EvenSteps.perm {L M : List (Pt × Pt)} (h : EvenSteps L) (hp : L.Perm M) : EvenSteps M := fun p => by
  rw [← outDeg_perm hp, ← inDeg_perm hp]; exact h p

theorem turn_map_turn (d : Bool) (L : List (Pt × Pt)) : (L.map (turn d)).map (turn d) = L := by
  rw [List.map_map]
  have : turn d ∘ turn d = id := by funext e; exact turn_turn d e
  rw [this, List.map_id]

theorem slicePath_spec {g : Graph} {V : List Pt} (hg : GraphOk g V) {fills : List Fill} (hF : FillsOk g fills)
    {i : Nat} {f : Fill} (hf : fills[i]? = some f) (hz : f ≠ 0#8)
    (hE : EvenSteps (allSides g.links fills)) (hlen : (allSides g.links fills).length ≤ 2 * g.links.length) :
    ∃ path fills', slicePath g (2 * g.links.length) i (f &&& SUBJ_TOP == SUBJ_TOP) fills = some (path, fills') ∧
      FillsOk g fills' ∧ Spent fills fills' ∧ path ≠ [] ∧
      (allSides g.links fills).Perm
        ((polyEdges path).map (turn (f &&& SUBJ_TOP == SUBJ_TOP)) ++ allSides g.links fills') := by
  have hi : i < g.links.length := by rw [← hF.len]; exact (List.getElem?_eq_some_iff.1 hf).1
  obtain ⟨l, hl⟩ : ∃ l, g.links[i]? = some l := ⟨_, List.getElem?_eq_getElem hi⟩
  have ml := List.mem_of_getElem? hl
  have hsm := hF.small f (List.mem_of_getElem? hf)
  generalize hd : (f &&& SUBJ_TOP == SUBJ_TOP) = d
  have hposs : l.isMovePossible f l.aId d = true := by
    rw [possible_iff (hg.lt l ml) hsm]
    have hdl : decide (l.a < l.b) = true := by simpa using hg.lt l ml
    unfold Link.moveMask
    simp only [hdl, decide_true, if_true]
    cases d
    · simp only [show (false == true) = false from rfl, Bool.false_eq_true, if_false]
      exact (move_bits f hsm).2.2.2.2.2.2 hz hd
    · simp only [beq_self_eq_true, if_true]; exact hd
  have hperm := allSides_set hl hf (visitFill_spec (hg.lt l ml) hsm l.aId d hposs)
  have hstep : l.step l.aId = (l.a, l.b) := by unfold Link.step; rw [if_pos rfl]
  rw [hstep] at hperm
  have hpt : ((allSides g.links fills).map (turn d)).Perm ((l.a, l.b) ::
      (allSides g.links (fills.set i (l.visitFill f l.aId d))).map (turn d)) := by
    have := hperm.map (turn d)
    rw [List.map_cons, turn_turn] at this; exact this
  have hll := hperm.length_eq
  rw [List.length_cons] at hll
  obtain ⟨path, fills', a1, a2, a3, ⟨t, a4⟩, a5⟩ := sliceWalk_spec hg d l.aId l.a (hg.aId l ml) (2 * g.links.length) l.bId i l.b
    (fills.set i (l.visitFill f l.aId d)) [l.a] (hF.set hf (small_visit _ _ hsm)) (hg.bId l ml)
    ⟨l, hl, Or.inr rfl⟩ (by
      intro q
      have := hE.turn d q
      rw [outDeg_perm hpt, inDeg_perm hpt, outDeg_cons, inDeg_cons] at this
      simp only [eq_comm (a := q)] at this ⊢
      exact this) (by omega) (by simp)
  refine ⟨path, fills', ?_, a2, (Spent.set hf _).trans a3, by rw [a4]; simp, ?_⟩
  · unfold slicePath
    rw [hl, Option.bind_some, hf, Option.bind_some]; exact a1
  · have hh : path.head? = some l.a := by rw [a4]; rfl
    rw [← polyEdges_eq_pathSteps hh] at a5
    have : pathSteps ([l.a] ++ [l.b]) = [(l.a, l.b)] := rfl
    rw [this] at a5
    have := (hpt.trans a5).map (turn d)
    rw [turn_map_turn, List.map_append, turn_map_turn] at this
    exact this

theorem sideSteps_zero (a b : Pt) : sideSteps a b 0#8 = [] := by
  have z1 : (0#8 &&& SUBJ_TOP == SUBJ_TOP) = false := by decide
  have z2 : (0#8 &&& SUBJ_BOTTOM == SUBJ_BOTTOM) = false := by decide
  unfold sideSteps; rw [z1, z2]; rfl

theorem sideSteps_length (a b : Pt) (f : Fill) : (sideSteps a b f).length ≤ 2 := by
  unfold sideSteps
  split <;> split <;> simp

theorem allSides_length (links : List Link) (fills : List Fill) : (allSides links fills).length ≤ 2 * links.length := by
  unfold allSides
  induction links generalizing fills with
  | nil => simp
  | cons l links ih =>
    cases fills with
    | nil => simp
    | cons f fills =>
      rw [List.zip_cons_cons, List.flatMap_cons, List.length_append, List.length_cons]
      have h1 := sideSteps_length l.a l.b f
      have h2 := ih fills
      dsimp only
      omega

/-- The steps of a list of walks, each turned so that the filled side is on the left. -/
def walkSides (walks : List (Bool × List Pt)) : List (Pt × Pt) :=
  walks.flatMap fun w => (polyEdges w.2).map (turn w.1)

theorem sliceLoop_spec {g : Graph} {V : List Pt} (hg : GraphOk g V) : ∀ (fuel i : Nat) (fills : List Fill)
    (walks : List (Bool × List Pt)), FillsOk g fills → EvenSteps (allSides g.links fills) →
    (∀ j : Nat, j < i → j < fills.length → fills[j]? = some 0#8) →
    (fills.length - i) + (allSides g.links fills).length < fuel →
    ∃ walks', sliceLoop g fuel i fills walks = some walks' ∧
      (∀ w ∈ walks', w ∈ walks ∨ w.2 ≠ []) ∧
      (walkSides walks ++ allSides g.links fills).Perm (walkSides walks') := by
  intro fuel
  induction fuel with
  | zero => intro _ _ _ _ _ _ h; omega
  | succ fuel ih =>
    intro i fills walks hF hE hdone hfuel
    rw [sliceLoop]
    rcases hf : fills[i]? with _ | f
    · refine ⟨walks, rfl, fun w h => Or.inl h, ?_⟩
      have hi := List.getElem?_eq_none_iff.1 hf
      have : allSides g.links fills = [] := by
        unfold allSides
        rw [List.flatMap_eq_nil_iff]
        rintro ⟨l, f⟩ hx
        obtain ⟨j, hj⟩ := List.getElem?_of_mem hx
        rw [List.getElem?_zip_eq_some] at hj
        have hj2 := hj.2
        have hlt := (List.getElem?_eq_some_iff.1 hj2).1
        rw [hdone j (by omega) hlt] at hj2
        simp only at hj2 ⊢
        rw [← Option.some.inj hj2]; exact sideSteps_zero _ _
      rw [this, List.append_nil]
    · dsimp only
      have hi := (List.getElem?_eq_some_iff.1 hf).1
      by_cases hz : f = 0#8
      · rw [if_pos hz]
        refine ih (i + 1) fills walks hF hE (fun j h1 h2 => ?_) (by omega)
        by_cases h : j = i
        · rw [h, hf, hz]
        · exact hdone j (by omega) h2
      · rw [if_neg hz]
        obtain ⟨path, fills', a1, a2, a3, a4, a5⟩ := slicePath_spec hg hF hf hz hE (allSides_length _ _)
        rw [a1, Option.bind_some]
        have hpl := a5.length_eq
        rw [List.length_append, List.length_map] at hpl
        have hpe : 0 < (polyEdges path).length := by
          cases path with
          | nil => exact absurd rfl a4
          | cons p ps => unfold polyEdges; simp
        have hE' : EvenSteps (allSides g.links fills') :=
          (hE.perm a5).of_append ((even_polyEdges path).turn _)
        obtain ⟨walks', b1, b2, b3⟩ := ih i fills' (walks ++ [(f &&& SUBJ_TOP == SUBJ_TOP, path)]) a2 hE'
          (fun j h1 h2 => a3.2 j (hdone j h1 (by rw [← a3.1]; exact h2))) (by rw [a3.1]; omega)
        refine ⟨walks', b1, ?_, ?_⟩
        · intro w hw
          rcases b2 w hw with h | h
          · rcases List.mem_append.1 h with h | h
            · exact Or.inl h
            · rw [List.mem_singleton] at h
              right; rw [h]; exact a4
          · exact Or.inr h
        · refine List.Perm.trans ?_ b3
          unfold walkSides
          rw [List.flatMap_append, List.flatMap_singleton, List.append_assoc]
          exact List.Perm.append_left _ a5

end IOverlay
