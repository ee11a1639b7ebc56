/-
The walks of the slice operation run around the faces of the cut shape. C31, C58.
-/
import Verif.Faces
import Verif.Tours

namespace IOverlay

/-! ### choice of the next edge -/

/-- Adding the vector the search starts from changes nothing. -/
theorem add_start {c a : Pt} {cw : Bool} {seen : List (Pt × Nat)} {s : NearestVector} (h : NearestOk c a cw seen s) (id : Nat) :
    s.add a id = s := by
  have hm := h.more
  unfold NearestVector.add
  simp only [h.hc, h.hva, h.hrot]
  have z : (a.sub c).cross (a.sub c) = 0 := by unfold Vec.cross; ring
  have e : decide ((a.sub c).cross (a.sub c) * rotOf cw ≥ 0) = true := by rw [z]; simp
  rw [e]
  by_cases c1 : s.abMore180 = true
  · rw [if_pos c1]
    rw [c1] at hm
    have := of_decide_eq_true hm.symm
    rw [if_neg (by omega)]
  · rw [if_neg c1, if_neg c1]

theorem nearest_fold {c a : Pt} {cw : Bool} (ha : a.sub c ≠ ⟨0, 0⟩) : ∀ (cs seen : List (Pt × Nat)) (s : NearestVector),
    (∀ e ∈ seen, e.1.sub c ≠ ⟨0, 0⟩ ∧ ¬ (a.sub c).sameDirection (e.1.sub c)) →
    (∀ e ∈ cs, e.1 = a ∨ (e.1.sub c ≠ ⟨0, 0⟩ ∧ ¬ (a.sub c).sameDirection (e.1.sub c))) →
    NearestOk c a cw seen s →
    NearestOk c a cw (seen ++ cs.filter fun e => decide (e.1 ≠ a)) (cs.foldl (fun s e => s.add e.1 e.2) s) := by
  intro cs
  induction cs with
  | nil => intro seen s _ _ h; simpa using h
  | cons e cs ih =>
    intro seen s h1 h2 h
    rw [List.foldl_cons]
    by_cases c1 : e.1 = a
    · rw [c1, add_start h]
      have := ih seen s h1 (fun x hx => h2 x (List.mem_cons_of_mem _ hx)) h
      rw [List.filter_cons_of_neg (by simp [c1])]
      exact this
    · have he := (h2 e (by simp)).resolve_left c1
      have := ih (seen ++ [e]) (s.add e.1 e.2) (by
        intro x hx
        rcases List.mem_append.1 hx with hx | hx
        · exact h1 x hx
        · rw [List.mem_singleton.1 hx]; exact he) (fun x hx => h2 x (List.mem_cons_of_mem _ hx))
        (nearestOk_add ha h1 h e.1 e.2 he)
      rw [List.filter_cons_of_pos (by simp [c1])]
      simpa using this

section
variable {g : Graph} {V : List Pt} (hg : GraphOk g V) (hpl : Planar (g.links.map Link.seg))
  {E : List Edge} (hpE : Planar E) (hEl : ∀ l ∈ g.links, l.edge ∈ E)
include hg hpl hpE hEl

theorem sw_self {l : Link} (hl : l ∈ g.links) {node : Nat} {p : Pt} (hn : V[node]? = some p)
    (h : l.aId = node ∨ l.bId = node) {m : Link} (hm : m ∈ g.links) (h' : m.aId = node ∨ m.bId = node) (cw : Bool) :
    sw cw p l.edge m.edge ≤ sw cw p l.edge l.edge := by
  have b1 := hpE.ang_bounds (hEl l hl) ((node_at hg hn hl).1 h)
  have b2 := hpE.ang_bounds (hEl m hm) ((node_at hg hn hm).1 h')
  have hpi := Real.pi_pos
  unfold sw angleStep
  cases cw <;> simp only [if_true, if_false, Bool.false_eq_true, lt_irrefl] <;> split <;> linarith

/-- The search finds the first edge in rotation order, if it can be used. -/
theorem sliceNearest_first {target node j : Nat} {d : Bool} {fills : List Fill} {p : Pt} (hn : V[node]? = some p)
    {t m : Link} (ht : g.links[target]? = some t) (hinc : t.aId = node ∨ t.bId = node)
    (hm : g.links[j]? = some m) (hminc : m.aId = node ∨ m.bId = node) (hcan : canMove g node d fills j = true)
    (hfirst : ∀ i l, g.links[i]? = some l → (l.aId = node ∨ l.bId = node) → i ≠ j →
      sw d p t.edge m.edge < sw d p t.edge l.edge) :
    sliceNearest g target node d ((g.nodes[node]?).elim [] Node.indices) fills = some j := by
  have htm := List.mem_of_getElem? ht
  have hmm := List.mem_of_getElem? hm
  have hj := mem_node hg hn hm hminc
  have hidx := node_mem hg node
  generalize (g.nodes[node]?).elim [] Node.indices = indices at hj hidx
  unfold sliceNearest
  simp only
  have nil : ∀ l : List Nat, (l.dropWhile fun i => !(i != target && canMove g node d fills i)) = [] → ∀ i ∈ l,
      i ≠ target → canMove g node d fills i = false := by
    intro l h i hi hne
    have := List.takeWhile_append_dropWhile (p := fun i => !(i != target && canMove g node d fills i)) (l := l)
    rw [h, List.append_nil] at this
    rw [← this] at hi
    have := List.all_eq_true.1 List.all_takeWhile i hi
    by_contra hc
    simp [hne, hc] at this
  have split : ∀ (l : List Nat) (x : Nat) (r : List Nat), (l.dropWhile fun i => !(i != target && canMove g node d fills i)) = x :: r →
      (x ≠ target ∧ canMove g node d fills x = true) ∧ (∀ i ∈ x :: r, i ∈ l) ∧
      ∀ i ∈ l, i ≠ target → canMove g node d fills i = true → i ∈ x :: r := by
    intro l x r h
    obtain ⟨p1, p2, p3⟩ := dropWhile_cons h
    refine ⟨by simpa using p1, ?_, ?_⟩
    · intro i hi
      rcases List.mem_cons.1 hi with rfl | hi
      · exact p2
      · exact p3 i hi
    · intro i hi hne hc
      have := List.takeWhile_append_dropWhile (p := fun i => !(i != target && canMove g node d fills i)) (l := l)
      rw [h] at this
      rw [← this] at hi
      rcases List.mem_append.1 hi with hi | hi
      · have := List.all_eq_true.1 List.all_takeWhile i hi
        simp [hne, hc] at this
      · exact hi
  rcases h1 : indices.dropWhile (fun i => !(i != target && canMove g node d fills i)) with _ | ⟨x, r⟩
  · dsimp only
    have : j = target := by
      by_contra hne
      rw [nil _ h1 j hj hne] at hcan
      simp at hcan
    rw [← this, if_pos hcan]
  · dsimp only
    obtain ⟨⟨xt, xc⟩, xs, xm⟩ := split _ _ _ h1
    obtain ⟨lx, hlx, hlxi⟩ := hidx x (xs x (by simp))
    have hjt : j ≠ target := by
      rintro rfl
      rw [ht] at hm
      obtain rfl := Option.some.inj hm
      have h1 := hfirst x lx hlx hlxi xt
      have h2 := sw_self hg hpl hpE hEl htm hn hinc (List.mem_of_getElem? hlx) hlxi d
      linarith
    have hjx := xm j hj hjt hcan
    rcases h2 : r.dropWhile (fun i => !(i != target && canMove g node d fills i)) with _ | ⟨y, rest⟩
    · dsimp only
      rcases List.mem_cons.1 hjx with h | h
      · rw [h]
      · rw [nil _ h2 j h hjt] at hcan
        simp at hcan
    · dsimp only
      obtain ⟨⟨yt, yc⟩, ys, ym⟩ := split _ _ _ h2
      rw [ht, hlx]
      simp only [Option.bind_some]
      have hca : (if t.aId = node then (t.a, t.b) else (t.b, t.a)) = (p, t.other node) := by
        rcases link_ends hg hpl htm hn hinc with ⟨h1, h2, h3⟩ | ⟨h1, h2, h3⟩
        · rw [if_pos h3, h1, h2]
        · rw [if_neg h3, h1, h2]
      rw [hca]
      have hmem : ∀ i ∈ y :: rest.filter (canMove g node d fills), i ∈ indices ∧ canMove g node d fills i = true := by
        intro i h
        rcases List.mem_cons.1 h with rfl | h
        · exact ⟨xs _ (List.mem_cons_of_mem _ (ys _ (by simp))), yc⟩
        · rw [List.mem_filter] at h
          exact ⟨xs _ (List.mem_cons_of_mem _ (ys _ (List.mem_cons_of_mem _ h.1))), h.2⟩
      obtain ⟨s', a1, -⟩ := addVectors_spec (g := g) node (y :: rest.filter (canMove g node d fills))
        (NearestVector.new p (t.other node) (lx.other node) x d)
        (fun i h => by
          obtain ⟨l, hl, -⟩ := hidx i (hmem i h).1
          exact (List.getElem?_eq_some_iff.1 hl).1)
      dsimp only
      rw [a1, Option.map_some]
      obtain ⟨cs, c1, c2, c3⟩ := addVectors_eq node _ _ _ a1
      have hcs : ∀ e ∈ cs, ∃ l, g.links[e.2]? = some l ∧ e.1 = l.other node ∧ (l.aId = node ∨ l.bId = node) := by
        intro e he
        obtain ⟨l, q1, q2⟩ := c2 e he
        obtain ⟨l', q3, q4⟩ := hidx e.2 (hmem e.2 (by rw [← c1]; exact List.mem_map_of_mem he)).1
        rw [q1] at q3
        obtain rfl := Option.some.inj q3
        exact ⟨l, q1, q2, q4⟩
      have hok : ∀ {i : Nat} {l : Link}, g.links[i]? = some l → (l.aId = node ∨ l.bId = node) → i ≠ target →
          (l.other node).sub p ≠ ⟨0, 0⟩ ∧ ¬ ((t.other node).sub p).sameDirection ((l.other node).sub p) := by
        intro i l hl hli hne
        refine ⟨sub_ne_zero (other_ne hg hpl (List.mem_of_getElem? hl) hn hli), fun hs => hne ?_⟩
        exact (link_directions hg hpl ht hl hn hinc hli hs).symm
      have ha : (t.other node).sub p ≠ ⟨0, 0⟩ := sub_ne_zero (other_ne hg hpl htm hn hinc)
      have hstart : NearestOk p (t.other node) d [(lx.other node, x)] (NearestVector.new p (t.other node) (lx.other node) x d) := by
        have := nearest_spec (c := p) (a := t.other node) (cw := d) (cands := [(lx.other node, x)])
          (other_ne hg hpl htm hn hinc) (by
            intro e he
            rw [List.mem_singleton.1 he]
            exact ⟨other_ne hg hpl (List.mem_of_getElem? hlx) hn hlxi, (hok hlx hlxi xt).2⟩) rfl
        exact this
      have hN := nearest_fold ha cs [(lx.other node, x)] _ (by
          intro e he
          rw [List.mem_singleton.1 he]
          exact hok hlx hlxi xt) (by
          intro e he
          obtain ⟨l, q1, q2, q3⟩ := hcs e he
          by_cases c : e.2 = target
          · left
            rw [c, ht] at q1
            obtain rfl := Option.some.inj q1
            exact q2
          · right
            rw [q2]
            exact hok q1 q3 c) hstart
      rw [← c3] at hN
      obtain ⟨e, b1, b2, b3⟩ := hN.best
      have hbest : ∃ l, g.links[e.2]? = some l ∧ e.1 = l.other node ∧ (l.aId = node ∨ l.bId = node) := by
        rcases List.mem_append.1 b1 with h | h
        · rw [List.mem_singleton.1 h]; exact ⟨lx, hlx, rfl, hlxi⟩
        · exact hcs e (List.mem_filter.1 h).1
      obtain ⟨l, l1, l2, l3⟩ := hbest
      rw [b2] at l1
      by_contra hne
      have hne' : s'.bestId ≠ j := fun h => hne (by rw [h])
      have hlt := hfirst _ l l1 l3 hne'
      have hjm : (m.other node, j) ∈ [(lx.other node, x)] ++ cs.filter fun e => decide (e.1 ≠ t.other node) := by
        rcases List.mem_cons.1 hjx with h | h
        · rw [h, hlx] at hm
          obtain rfl := Option.some.inj hm
          rw [h]; simp
        · have hjy := ym j h hjt hcan
          have : j ∈ cs.map (·.2) := by
            rw [c1]
            rcases List.mem_cons.1 hjy with h | h
            · rw [h]; simp
            · exact List.mem_cons_of_mem _ (List.mem_filter.2 ⟨h, hcan⟩)
          obtain ⟨e', e1, e2⟩ := List.mem_map.1 this
          obtain ⟨l', q1, q2, q3⟩ := hcs e' e1
          rw [e2, hm] at q1
          obtain rfl := Option.some.inj q1
          have e3 : e' = (m.other node, j) := by rw [← q2, ← e2]
          refine List.mem_append_right _ (List.mem_filter.2 ⟨by rw [← e3]; exact e1, ?_⟩)
          rw [decide_eq_true_eq]
          intro h
          refine hjt (link_directions hg hpl ht hm hn hinc hminc ?_).symm
          have h' : m.other node = t.other node := h
          rw [h']
          exact ⟨1, one_pos, by simp, by simp⟩
      have := hN.least (sw d p t.edge l.edge) (by
        rw [b3, l2]
        exact sweep_sw hg hpl hpE hEl hn htm (List.mem_of_getElem? l1) hinc l3 d) _ hjm (sw d p t.edge m.edge)
        (sweep_sw hg hpl hpE hEl hn htm hmm hinc hminc d)
      linarith

end

/-! ### the walks -/

/-- Around every vertex except `q` the sides of a filled sector are both present or both missing. -/
def Matched (d : Bool) (E : List Edge) (S : List (Pt × Pt)) (q : Pt) : Prop :=
  ∀ e f, FaceStep d E e f → e.2 ≠ q → (e ∈ S ↔ f ∈ S)

/-- The sides not used yet, as steps of a walk with direction `d`. -/
def sidesOf (g : Graph) (d : Bool) (fills : List Fill) : List (Pt × Pt) := (allSides g.links fills).map (turn d)

/-- A side belongs to a link. -/
theorem side_link {g : Graph} {d : Bool} {fills : List Fill} {e : Pt × Pt} (he : e ∈ sidesOf g d fills) :
    ∃ (i : Nat) (l : Link) (f : Fill), g.links[i]? = some l ∧ fills[i]? = some f ∧ turn d e ∈ sideSteps l.a l.b f ∧
      (e = (l.a, l.b) ∨ e = (l.b, l.a)) := by
  obtain ⟨e', he', rfl⟩ := List.mem_map.1 he
  obtain ⟨⟨l, f⟩, hx, hes⟩ := List.mem_flatMap.1 he'
  obtain ⟨i, hix⟩ := List.getElem?_of_mem hx
  rw [List.getElem?_zip_eq_some] at hix
  refine ⟨i, l, f, hix.1, hix.2, by rw [turn_turn]; exact hes, ?_⟩
  have : e' = (l.a, l.b) ∨ e' = (l.b, l.a) := by
    unfold sideSteps at hes
    simp only [List.mem_append] at hes
    rcases hes with h | h <;> split at h <;> simp at h
    · exact Or.inl h
    · exact Or.inr h
  rcases this with rfl | rfl <;> cases d <;> simp [turn]

section
variable {g : Graph} {V : List Pt} (hg : GraphOk g V) (hpl : Planar (g.links.map Link.seg))
  {E : List Edge} (hpE : Planar E) (hk : Keyed E) (hEl : ∀ l ∈ g.links, l.edge ∈ E)
include hg hpl hpE hk hEl

omit hpl hpE hk hEl in
theorem dartOf_link {l : Link} (hl : l ∈ g.links) {e : Pt × Pt} (h : e = (l.a, l.b) ∨ e = (l.b, l.a)) :
    (dartOf e).s = l.edge := by
  have hlt := hg.lt l hl
  have hd : dartOf (l.a, l.b) = ⟨l.edge, true⟩ := dartOf_ab (s := l.edge) rfl hlt
  rcases h with rfl | rfl
  · rw [hd]
  · have := (dartOf_swap (e := (l.a, l.b)) (Pt.ne_of_lt hlt)).1
    rw [hd] at this
    exact this

theorem sliceWalk_faces (d : Bool) (last : Nat) {q : Pt} (hq : V[last]? = some q) :
    ∀ (fuel node link : Nat) (fills : List Fill) (path : List Pt) (p : Pt) (e0 : Pt × Pt) (t : Link)
      (path' : List Pt) (fills' : List Fill), FillsOk g fills → V[node]? = some p → g.links[link]? = some t →
    (t.aId = node ∨ t.bId = node) → (dartOf e0).s = t.edge → e0.2 = p → (sidesOf g d fills).Nodup →
    e0 ∉ sidesOf g d fills →
    (∀ e f, FaceStep d E e f → e.2 ≠ q → e ≠ e0 → (e ∈ sidesOf g d fills ↔ f ∈ sidesOf g d fills)) →
    (p ≠ q → ∀ f, FaceStep d E e0 f → f ∈ sidesOf g d fills) →
    sliceWalk g d last fuel node link fills path = some (path', fills') →
    ∃ T, path' = path ++ T ∧ FaceChain d E (e0 :: pathSteps (T ++ [q])) ∧ (T ++ [q]).head? = some p ∧ q ∉ T ∧
      Matched d E (sidesOf g d fills') q ∧ FillsOk g fills' ∧
      (sidesOf g d fills).Perm (pathSteps (T ++ [q]) ++ sidesOf g d fills') := by
  intro fuel
  have stop : ∀ (fills : List Fill) (path : List Pt) (p : Pt) (e0 : Pt × Pt) (path' : List Pt) (fills' : List Fill),
      FillsOk g fills → e0.2 = p → p = q →
      (∀ e f, FaceStep d E e f → e.2 ≠ q → e ≠ e0 → (e ∈ sidesOf g d fills ↔ f ∈ sidesOf g d fills)) →
      some (path, fills) = some (path', fills') →
      ∃ T, path' = path ++ T ∧ FaceChain d E (e0 :: pathSteps (T ++ [q])) ∧ (T ++ [q]).head? = some p ∧ q ∉ T ∧
        Matched d E (sidesOf g d fills') q ∧ FillsOk g fills' ∧
        (sidesOf g d fills).Perm (pathSteps (T ++ [q]) ++ sidesOf g d fills') := by
    intro fills path p e0 path' fills' hF hp hpq hm he
    have he := Option.some.inj he
    simp only [Prod.mk.injEq] at he
    obtain ⟨rfl, rfl⟩ := he
    refine ⟨[], by simp, ?_, by simp [hpq], by simp, ?_, hF, List.Perm.refl _⟩
    · unfold FaceChain; simp [pathSteps]
    · intro e f hf hne
      refine hm e f hf hne ?_
      rintro rfl
      exact hne (hp.trans hpq)
  induction fuel with
  | zero =>
    intro node link fills path p e0 t path' fills' hF hv hl hli he0 hep hnd hn0 hmt hsucc hw
    rw [sliceWalk] at hw
    by_cases hn : node = last
    · subst hn
      rw [if_pos rfl] at hw
      exact stop fills path p e0 path' fills' hF hep (Option.some.inj (hv.symm.trans hq)) hmt hw
    · rw [if_neg hn] at hw; simp at hw
  | succ fuel ih =>
    intro node link fills path p e0 t path' fills' hF hv hl hli he0 hep hnd hn0 hmt hsucc hw
    rw [sliceWalk] at hw
    by_cases hn : node = last
    · subst hn
      rw [if_pos rfl] at hw
      exact stop fills path p e0 path' fills' hF hep (Option.some.inj (hv.symm.trans hq)) hmt hw
    · rw [if_neg hn] at hw
      have hpq : p ≠ q := by
        rintro rfl
        exact hn (hg.id_of_pt hv hq)
      have htm := List.mem_of_getElem? hl
      -- the next step around the face
      obtain ⟨f, hf⟩ := FaceStep.exists hpE hk d (e := e0) (by rw [he0]; exact hEl t htm)
      have hfS := hsucc hpq f hf
      obtain ⟨j, m, fj, hmj, hfj, hside, hends⟩ := side_link hfS
      have mm := List.mem_of_getElem? hmj
      have hsm : ∀ {j : Nat} {f : Fill}, fills[j]? = some f → Small f := fun h => hF.small _ (List.mem_of_getElem? h)
      have hf1 : f.1 = p := by rw [← hf.2.2.1, hep]
      obtain ⟨hposs, hminc⟩ := possible_of_side (hg.lt m mm) (hg.id_ne mm) (hsm hfj) (node := node) (d := d) (e := f)
        hside hf1
        (fun h => hg.id_of_pt (by rw [← h]; exact hg.aId m mm) hv)
        (fun h => hg.id_of_pt (by rw [← h]; exact hg.bId m mm) hv)
      have hdf : (dartOf f).s = m.edge := dartOf_link hg mm hends
      have hcan : canMove g node d fills j = true := by unfold canMove; rw [hmj, hfj]; exact hposs
      have hnear := sliceNearest_first hg hpl hpE hEl (target := link) (j := j) (d := d) (fills := fills) hv hl hli hmj hminc hcan (by
        intro i l hi hil hne
        have him := List.mem_of_getElem? hi
        have h1 := hf.2.2.2 l.edge (hEl l him) (by rw [hep]; exact (node_at hg hv him).1 hil) (by
          rw [hdf]
          intro h
          exact hne (link_inj hpl hi hmj (edge_inj h)))
        rw [he0, hdf, hep] at h1
        exact h1)
      rw [hnear] at hw
      simp only [Option.bind_some, hmj, hfj] at hw
      have hstep : m.step node = f := by
        have hne := hg.id_ne mm
        unfold Link.step
        rcases hends with h | h
        · have : m.aId = node := hg.id_of_pt (p := p) (by rw [← hf1, h]; exact hg.aId m mm) hv
          rw [if_pos this, h]
        · have : m.bId = node := hg.id_of_pt (p := p) (by rw [← hf1, h]; exact hg.bId m mm) hv
          rw [if_neg (by rw [← this]; exact hne), h]
      have hperm := allSides_set hmj hfj (visitFill_spec (hg.lt m mm) (hsm hfj) node d hposs)
      have hF' : FillsOk g (fills.set j (m.visitFill fj node d)) := hF.set hfj (small_visit _ _ (hsm hfj))
      have hpt : (sidesOf g d fills).Perm (f :: sidesOf g d (fills.set j (m.visitFill fj node d))) := by
        have := hperm.map (turn d)
        rw [List.map_cons, turn_turn, hstep] at this; exact this
      have hnd' := hpt.nodup_iff.1 hnd
      have hfn := (List.nodup_cons.1 hnd').1
      have hmem : ∀ e, e ≠ f → (e ∈ sidesOf g d fills ↔ e ∈ sidesOf g d (fills.set j (m.visitFill fj node d))) := by
        intro e he
        rw [hpt.mem_iff, List.mem_cons]
        simp [he]
      have hfne : f.1 ≠ f.2 := step_ne hpE hf.2.1
      have hfe0 : f ≠ e0 := by
        rintro rfl
        exact hn0 hfS
      have hgoal : ∀ (node' : Nat), V[node']? = some f.2 → (m.aId = node' ∨ m.bId = node') →
          sliceWalk g d last fuel node' j (fills.set j (m.visitFill fj node d)) (path ++ [p]) = some (path', fills') →
          ∃ T, path' = path ++ T ∧ FaceChain d E (e0 :: pathSteps (T ++ [q])) ∧ (T ++ [q]).head? = some p ∧ q ∉ T ∧
            Matched d E (sidesOf g d fills') q ∧ FillsOk g fills' ∧
            (sidesOf g d fills).Perm (pathSteps (T ++ [q]) ++ sidesOf g d fills') := by
        intro node' hv' hinc' hw
        obtain ⟨T, t1, t2, t3, t4, t5, t6, t7⟩ := ih node' j (fills.set j (m.visitFill fj node d)) (path ++ [p]) f.2 f m path' fills'
          hF' hv' hmj hinc' hdf rfl (List.nodup_cons.1 hnd').2 hfn (by
            intro e f' hs hne hef
            by_cases c : e = e0
            · subst c
              have := hf.unique hpE hs
              subst this
              constructor
              · intro h; exact absurd ((hmem e (fun h => hef h)).2 h) hn0
              · intro h; exact absurd h hfn
            · rw [← hmem e hef, hmt e f' hs hne c]
              refine hmem f' ?_
              rintro rfl
              exact c (hs.unique_left hpE hf)) (by
            intro hne f' hs
            have h1 := (hmt f f' hs hne hfe0).1 hfS
            refine (hmem f' ?_).1 h1
            rintro rfl
            exact hfne hs.2.2.1.symm) hw
        have hT : pathSteps (p :: (T ++ [q])) = f :: pathSteps (T ++ [q]) := by
          rcases T with _ | ⟨x, T⟩
          · simp only [List.nil_append, List.head?_cons, Option.some.injEq] at t3
            simp only [List.nil_append]
            rw [t3, ← hf1]; rfl
          · simp only [List.cons_append, List.head?_cons, Option.some.injEq] at t3
            simp only [List.cons_append]
            rw [t3, ← hf1]; rfl
        refine ⟨p :: T, by rw [t1]; simp, ?_, by simp, ?_, t5, t6, ?_⟩
        · rw [List.cons_append, hT]
          unfold FaceChain at t2 ⊢
          rw [List.isChain_cons_cons]
          exact ⟨hf, t2⟩
        · rw [List.mem_cons]; push Not; exact ⟨Ne.symm hpq, t4⟩
        · rw [List.cons_append, hT]
          exact hpt.trans (List.Perm.cons _ t7)
      by_cases h : m.aId = node
      · rw [if_pos h] at hw
        have e : (m.a, m.b) = f := by rw [← hstep]; unfold Link.step; rw [if_pos h]
        refine hgoal m.bId ?_ (Or.inr rfl) ?_
        · rw [← e]; exact hg.bId m mm
        · rw [← hf1, ← e]; exact hw
      · rw [if_neg h] at hw
        have e : (m.b, m.a) = f := by rw [← hstep]; unfold Link.step; rw [if_neg h]
        refine hgoal m.aId ?_ (Or.inl rfl) ?_
        · rw [← e]; exact hg.aId m mm
        · rw [← hf1, ← e]; exact hw

/-- One walk: a closed walk around faces that passes its start only once. -/
theorem slicePath_faces {fills : List Fill} (hF : FillsOk g fills) {fuel i : Nat} {f : Fill} (hf : fills[i]? = some f)
    (hz : f ≠ 0#8) {l : Link} (hl : g.links[i]? = some l) {d : Bool} (hd : (f &&& SUBJ_TOP == SUBJ_TOP) = d)
    (hnd : (sidesOf g d fills).Nodup) (hmt : Matched d E (sidesOf g d fills) l.a) {path : List Pt} {fills' : List Fill}
    (h : slicePath g fuel i d fills = some (path, fills')) :
    path.head? = some l.a ∧ FaceChain d E (polyEdges path) ∧ (∀ e ∈ polyEdges path, (dartOf e).s ∈ E) ∧
      Matched d E (sidesOf g d fills') l.a ∧ FillsOk g fills' ∧
      (sidesOf g d fills).Perm (polyEdges path ++ sidesOf g d fills') := by
  have ml := List.mem_of_getElem? hl
  have hsm := hF.small f (List.mem_of_getElem? hf)
  have hposs : l.isMovePossible f l.aId d = true := by
    rw [possible_iff (hg.lt l ml) hsm]
    have hdl : decide (l.a < l.b) = true := by simpa using hg.lt l ml
    unfold Link.moveMask
    simp only [hdl, decide_true, if_true]
    cases d
    · simp only [show (false == true) = false from rfl, Bool.false_eq_true, if_false]
      exact (move_bits f hsm).2.2.2.2.2.2 hz hd
    · simp only [beq_self_eq_true, if_true]; exact hd
  have hperm := allSides_set hl hf (visitFill_spec (hg.lt l ml) hsm l.aId d hposs)
  have hstep : l.step l.aId = (l.a, l.b) := by unfold Link.step; rw [if_pos rfl]
  rw [hstep] at hperm
  have hpt : (sidesOf g d fills).Perm ((l.a, l.b) :: sidesOf g d (fills.set i (l.visitFill f l.aId d))) := by
    have := hperm.map (turn d)
    rw [List.map_cons, turn_turn] at this; exact this
  have hnd' := hpt.nodup_iff.1 hnd
  have hfn := (List.nodup_cons.1 hnd').1
  have hlt := hg.lt l ml
  have hmem : ∀ e, e ≠ (l.a, l.b) → (e ∈ sidesOf g d fills ↔ e ∈ sidesOf g d (fills.set i (l.visitFill f l.aId d))) := by
    intro e he
    rw [hpt.mem_iff, List.mem_cons]
    simp [he]
  unfold slicePath at h
  rw [hl, Option.bind_some, hf, Option.bind_some] at h
  have hdl : (dartOf (l.a, l.b)).s = l.edge := dartOf_link hg ml (Or.inl rfl)
  obtain ⟨T, t1, t2, t3, t4, t5, t6, t7⟩ := sliceWalk_faces hg hpl hpE hk hEl d l.aId (hg.aId l ml) fuel l.bId i (fills.set i (l.visitFill f l.aId d)) [l.a] l.b
    (l.a, l.b) l path fills' (hF.set hf (small_visit _ _ hsm)) (hg.bId l ml) hl (Or.inr rfl) hdl rfl (List.nodup_cons.1 hnd').2 hfn (by
      intro e f' hs hne hef
      rw [← hmem e hef, hmt e f' hs hne]
      refine hmem f' ?_
      rintro rfl
      exact hne hs.2.2.1) (by
      intro hne f' hs
      have h1 := (hmt _ f' hs hne).1 (hpt.mem_iff.2 (by simp))
      refine (hmem f' ?_).1 h1
      rintro rfl
      exact Pt.ne_of_lt hlt hs.2.2.1.symm) h
  have hh : path.head? = some l.a := by rw [t1]; rfl
  have hpe : polyEdges path = (l.a, l.b) :: pathSteps (T ++ [l.a]) := by
    rw [polyEdges_eq_pathSteps hh, t1]
    rcases T with _ | ⟨x, T⟩
    · simp at t3
      exact absurd t3 (Pt.ne_of_lt hlt)
    · simp only [List.cons_append, List.head?_cons, Option.some.injEq] at t3
      simp only [List.cons_append, List.nil_append]
      rw [t3]; rfl
  have hp2 : (sidesOf g d fills).Perm (polyEdges path ++ sidesOf g d fills') := by
    rw [hpe]; exact hpt.trans (List.Perm.cons _ t7)
  refine ⟨hh, by rw [hpe]; exact t2, ?_, t5, t6, hp2⟩
  intro e he
  have : e ∈ sidesOf g d fills := hp2.mem_iff.2 (List.mem_append_left _ he)
  obtain ⟨i, m, -, h1, -, -, h2⟩ := side_link this
  rw [dartOf_link hg (List.mem_of_getElem? h1) h2]
  exact hEl m (List.mem_of_getElem? h1)

omit hg hpl hk hEl in
theorem Matched.flip {fills : List Fill} {q : Pt} (h : Matched true E (allSides g.links fills) q) (d : Bool) :
    Matched d E (sidesOf g d fills) q := by
  cases d
  · intro e f hf hne
    have h1 := h f.swap e.swap (hf.rev hpE) (by
      show f.1 ≠ q
      rw [← hf.2.2.1]; exact hne)
    unfold sidesOf
    rw [turn_map_false]
    have e1 : ∀ x : Pt × Pt, x ∈ (allSides g.links fills).map Prod.swap ↔ x.swap ∈ allSides g.links fills := by
      intro x
      rw [List.mem_map]
      constructor
      · rintro ⟨y, hy, rfl⟩; simpa using hy
      · intro hx; exact ⟨_, hx, by simp⟩
    rw [e1, e1]; exact h1.symm
  · unfold sidesOf
    rw [turn_map_true]; exact h

omit hg hpl hk hEl in
theorem Matched.unflip {fills : List Fill} {q : Pt} {d : Bool} (h : Matched d E (sidesOf g d fills) q) :
    Matched true E (allSides g.links fills) q := by
  cases d
  · intro e f hf hne
    have h1 := h f.swap e.swap (hf.rev hpE) (by
      show f.1 ≠ q
      rw [← hf.2.2.1]; exact hne)
    unfold sidesOf at h1
    rw [turn_map_false] at h1
    have e1 : ∀ x : Pt × Pt, x.swap ∈ (allSides g.links fills).map Prod.swap ↔ x ∈ allSides g.links fills := by
      intro x
      rw [List.mem_map]
      constructor
      · rintro ⟨y, hy, h⟩
        rw [← Prod.swap_injective h]; exact hy
      · intro hx; exact ⟨_, hx, rfl⟩
    rw [e1, e1] at h1; exact h1.symm
  · unfold sidesOf at h
    rw [turn_map_true] at h; exact h

omit hg hpl hpE hk hEl in
theorem sidesOf_nodup {fills : List Fill} {d : Bool} : (sidesOf g d fills).Nodup ↔ (allSides g.links fills).Nodup := by
  unfold sidesOf
  constructor
  · exact List.Nodup.of_map _
  · intro h
    refine h.map ?_
    intro a b hab
    have := congrArg (turn d) hab
    rwa [turn_turn, turn_turn] at this

omit hg hpE hk hEl in
theorem links_ordered {i j : Nat} {l m : Link} (hl : g.links[i]? = some l) (hm : g.links[j]? = some m) (hij : i ≤ j) :
    ¬ m.a < l.a := by
  rcases Nat.lt_or_eq_of_le hij with h | rfl
  · have hs := hpl.sorted
    rw [List.pairwise_map] at hs
    obtain ⟨i1, e1⟩ := List.getElem?_eq_some_iff.1 hl
    obtain ⟨j1, e2⟩ := List.getElem?_eq_some_iff.1 hm
    have := List.pairwise_iff_getElem.1 hs i j i1 j1 h
    rw [e1, e2] at this
    rcases this with h' | ⟨h', -⟩
    · exact Pt.lt_asymm h'
    · have h'' : l.a = m.a := h'
      rw [h'']; exact Pt.lt_irrefl _
  · rw [hl] at hm
    rw [Option.some.inj hm]; exact Pt.lt_irrefl _

/-- All walks run around faces. -/
theorem sliceLoop_faces : ∀ (fuel i : Nat) (fills : List Fill) (walks walks' : List (Bool × List Pt)), FillsOk g fills →
    (allSides g.links fills).Nodup → (∀ j : Nat, j < i → j < fills.length → fills[j]? = some 0#8) →
    (∀ l, g.links[i]? = some l → Matched true E (allSides g.links fills) l.a) →
    sliceLoop g fuel i fills walks = some walks' →
    ∃ ws, walks' = walks ++ ws ∧ ∀ w ∈ ws, FaceChain w.1 E (polyEdges w.2) ∧ (polyEdges w.2).Nodup ∧
      ∀ e ∈ polyEdges w.2, (dartOf e).s ∈ E ∧ turn w.1 e ∈ allSides g.links fills := by
  intro fuel
  induction fuel with
  | zero => intro i fills walks walks' _ _ _ _ h; simp [sliceLoop] at h
  | succ fuel ih =>
    intro i fills walks walks' hF hnd hdone hmt h
    rw [sliceLoop] at h
    rcases hf : fills[i]? with _ | f
    · rw [hf] at h
      exact ⟨[], by simp [(Option.some.inj h)], by simp⟩
    · rw [hf] at h
      dsimp only at h
      have hi := (List.getElem?_eq_some_iff.1 hf).1
      obtain ⟨l, hl⟩ : ∃ l, g.links[i]? = some l := ⟨_, List.getElem?_eq_getElem (by rw [← hF.len]; exact hi)⟩
      by_cases hz : f = 0#8
      · rw [if_pos hz] at h
        have hdone' : ∀ j : Nat, j < i + 1 → j < fills.length → fills[j]? = some 0#8 := by
          intro j h1 h2
          by_cases hj : j = i
          · rw [hj, hf, hz]
          · exact hdone j (by omega) h2
        refine ih (i + 1) fills walks walks' hF hnd hdone' ?_ h
        intro l' hl' e f' hs hne
        by_cases hq : e.2 = l.a
        · have key : ∀ x ∈ allSides g.links fills, x.1 ≠ l.a ∧ x.2 ≠ l.a := by
            intro x hx
            obtain ⟨j, m, fj, j1, j2, j3, j4⟩ := side_link (g := g) (d := true) (fills := fills) (by
              unfold sidesOf; rw [turn_map_true]; exact hx)
            have hji : i + 1 ≤ j := by
              by_contra hc
              rw [hdone' j (by omega) (List.getElem?_eq_some_iff.1 j2).1] at j2
              rw [← Option.some.inj j2, sideSteps_zero] at j3
              simp at j3
            have o1 := links_ordered hpl hl' j1 hji
            have o2 := links_ordered hpl hl hl' (by omega)
            have mlt := hg.lt m (List.mem_of_getElem? j1)
            have hll : l.a ≠ l'.a := fun h => hne (hq.trans h)
            have hlt : l.a < l'.a := by
              rcases Pt.lt_tri l.a l'.a with h | h | h
              · exact h
              · exact absurd h hll
              · exact absurd h o2
            have hma : l.a < m.a := by
              rcases Pt.lt_tri l'.a m.a with h | h | h
              · exact Pt.lt_trans hlt h
              · rw [← h]; exact hlt
              · exact absurd h o1
            have hmb := Pt.lt_trans hma mlt
            rcases j4 with rfl | rfl
            · exact ⟨(Pt.ne_of_lt hma).symm, (Pt.ne_of_lt hmb).symm⟩
            · exact ⟨(Pt.ne_of_lt hmb).symm, (Pt.ne_of_lt hma).symm⟩
          constructor
          · intro h; exact absurd hq (key e h).2
          · intro h; exact absurd (hs.2.2.1.symm.trans hq) (key f' h).1
        · exact hmt l hl e f' hs hq
      · rw [if_neg hz] at h
        obtain ⟨r, h1, h2⟩ := Option.bind_eq_some_iff.1 h
        obtain ⟨path, fills'⟩ := r
        generalize hd : (f &&& SUBJ_TOP == SUBJ_TOP) = d at h1 h2
        have hmd := Matched.flip hpE (hmt l hl) d
        obtain ⟨a1, a2, a3, a4, a5, a6⟩ := slicePath_faces hg hpl hpE hk hEl hF hf hz hl hd (sidesOf_nodup.2 hnd) hmd h1
        have hnd2 := a6.nodup_iff.1 (sidesOf_nodup.2 hnd)
        have hsub : ∀ e ∈ allSides g.links fills', e ∈ allSides g.links fills := by
          intro e he
          have h1 : turn d e ∈ sidesOf g d fills' := List.mem_map_of_mem he
          have h2 := a6.mem_iff.2 (List.mem_append_right _ h1)
          obtain ⟨y, y1, y2⟩ := List.mem_map.1 h2
          have := congrArg (turn d) y2
          rw [turn_turn, turn_turn] at this
          rw [← this]; exact y1
        have hsp : Spent fills fills' := by
          -- a used up edge has no sides
          refine ⟨by rw [a5.len, hF.len], fun j hj => ?_⟩
          have hjl := (List.getElem?_eq_some_iff.1 hj).1
          obtain ⟨fj, hfj⟩ : ∃ fj, fills'[j]? = some fj := ⟨_, List.getElem?_eq_getElem (by rw [a5.len, ← hF.len]; exact hjl)⟩
          obtain ⟨m, hm⟩ : ∃ m, g.links[j]? = some m := ⟨_, List.getElem?_eq_getElem (by rw [← hF.len]; exact hjl)⟩
          by_contra hne
          have hfz : fj ≠ 0#8 := by
            rintro rfl; exact hne hfj
          have hsm := a5.small fj (List.mem_of_getElem? hfj)
          obtain ⟨x, hx, hxe⟩ : ∃ x ∈ sideSteps m.a m.b fj, x = (m.a, m.b) ∨ x = (m.b, m.a) := by
            unfold sideSteps
            by_cases hb : (fj &&& SUBJ_TOP == SUBJ_TOP) = true
            · exact ⟨(m.a, m.b), by simp [hb], Or.inl rfl⟩
            · have := (move_bits fj hsm).2.2.2.2.2.2 hfz (by simpa using hb)
              exact ⟨(m.b, m.a), by simp [this], Or.inr rfl⟩
          have hx' : x ∈ allSides g.links fills' := by
            unfold allSides
            rw [List.mem_flatMap]
            refine ⟨(m, fj), ?_, hx⟩
            refine List.mem_of_getElem? (i := j) ?_
            rw [List.getElem?_zip_eq_some]; exact ⟨hm, hfj⟩
          have hx2 := hsub x hx'
          obtain ⟨j', m', f', y1, y2, y3, y4⟩ := side_link (g := g) (d := true) (fills := fills) (e := x) (by
            unfold sidesOf; rw [turn_map_true]; exact hx2)
          have hmm : m.edge = m'.edge := by
            rw [← dartOf_link hg (List.mem_of_getElem? hm) hxe, dartOf_link hg (List.mem_of_getElem? y1) y4]
          have hjj := link_inj hpl hm y1 (edge_inj hmm)
          rw [← hjj, hj] at y2
          rw [← Option.some.inj y2, sideSteps_zero] at y3
          simp at y3
        obtain ⟨ws, w1, w2⟩ := ih i fills' (walks ++ [(d, path)]) walks' a5 (sidesOf_nodup.1 (List.nodup_append.1 hnd2).2.1)
          (fun j h1 h2 => hsp.2 j (hdone j h1 (by rw [← hsp.1]; exact h2))) (by
            intro l' hl'
            rw [hl] at hl'
            rw [← Option.some.inj hl']
            exact Matched.unflip hpE a4) h2
        refine ⟨(d, path) :: ws, by rw [w1]; simp, ?_⟩
        intro w hw
        rcases List.mem_cons.1 hw with rfl | hw
        · refine ⟨a2, (List.nodup_append.1 hnd2).1, fun e he => ⟨a3 e he, ?_⟩⟩
          have h1 := a6.mem_iff.2 (List.mem_append_left _ he)
          obtain ⟨y, y1, y2⟩ := List.mem_map.1 h1
          simp only
          rw [← y2, turn_turn]; exact y1
        · obtain ⟨b1, b2, b3⟩ := w2 w hw
          exact ⟨b1, b2, fun e he => ⟨(b3 e he).1, hsub _ (b3 e he).2⟩⟩

end
end IOverlay
