/-
Correctness of the node construction: C20.
-/
import Verif.Graph

namespace IOverlay
variable {C : Type}

def EndsSorted (l : List End) : Prop := l.Pairwise fun e f => ¬ f.2 < e.2

/-- The indices of the ends at the point `v`. -/
def at' (l : List End) (v : Pt) : List Nat := (l.filter fun e => e.2 == v).map Prod.fst

theorem run_spec {l : List End} (hs : EndsSorted l) {c : Pt} (hh : ∀ e, l.head? = some e → e.2 = c) :
    l.takeWhile (fun e => e.2 == c) = l.filter (fun e => e.2 == c) ∧
    l.drop (l.takeWhile (fun e => e.2 == c)).length = l.filter (fun e => e.2 != c) ∧
    (∀ e ∈ l, e.2 = c ∨ c < e.2) := by
  induction l with
  | nil => simp
  | cons x l ih =>
    obtain ⟨h1, h2⟩ := List.pairwise_cons.1 hs
    have hx : x.2 = c := hh x rfl
    by_cases hnext : ∀ e, l.head? = some e → e.2 = c
    · obtain ⟨e1, e2, e3⟩ := ih h2 hnext
      refine ⟨?_, ?_, ?_⟩
      · simp [hx, e1]
      · simp [hx, e2]
      · intro e he
        rcases List.mem_cons.1 he with rfl | he
        · exact Or.inl hx
        · exact e3 e he
    · have hgt : ∀ e ∈ l, c < e.2 := by
        rcases l with _ | ⟨y, l⟩
        · simp at hnext
        · have hy : y.2 ≠ c := by simpa using hnext
          have hyc : c < y.2 := by
            have := h1 y (by simp)
            rw [hx] at this
            exact Pt.lt_of_not_lt_ne this hy
          intro e he
          rcases List.mem_cons.1 he with rfl | he
          · exact hyc
          · have := (List.pairwise_cons.1 h2).1 e he
            rcases Pt.lt_tri c e.2 with h | h | h
            · exact h
            · rw [h] at hyc; exact absurd hyc this
            · exact absurd (Pt.lt_trans h hyc) this
      have f1 : l.filter (fun e => e.2 == c) = [] := by
        rw [List.filter_eq_nil_iff]; intro e he; simpa using (Pt.ne_of_lt (hgt e he)).symm
      have f2 : l.filter (fun e => e.2 != c) = l := by
        rw [List.filter_eq_self]; intro e he; simpa using (Pt.ne_of_lt (hgt e he)).symm
      have f3 : l.takeWhile (fun e => e.2 == c) = [] := by
        rcases l with _ | ⟨y, l⟩
        · rfl
        · have := (Pt.ne_of_lt (hgt y (by simp))).symm
          simp [this]
      refine ⟨by simp [hx, f1, f3], by simp [hx, f2, f3], ?_⟩
      intro e he
      rcases List.mem_cons.1 he with rfl | he
      · exact Or.inl hx
      · exact Or.inr (hgt e he)

theorem filter_none {l : List End} {m : Pt} (h : ∀ e ∈ l, m < e.2) :
    l.filter (fun e => e.2 == m) = [] ∧ l.filter (fun e => e.2 != m) = l := by
  constructor
  · rw [List.filter_eq_nil_iff]; intro e he; simpa using (Pt.ne_of_lt (h e he)).symm
  · rw [List.filter_eq_self]; intro e he; simpa using (Pt.ne_of_lt (h e he)).symm

/-- State invariant of the loop. -/
structure NodesInv (a b : Pt) (as bs : List End) : Prop where
  sa : EndsSorted as
  sb : EndsSorted bs
  ha : ∀ e, as.head? = some e → e.2 = a
  hb : ∀ e, bs.head? = some e → e.2 = b
  up : ∀ e ∈ as, ∃ f ∈ bs, e.2 < f.2

theorem head_rest {l : List End} (_hs : EndsSorted l) {c m : Pt} (hh : ∀ e, l.head? = some e → e.2 = c)
    (_hm : ∀ e ∈ l, e.2 = m ∨ m < e.2) (e : End)
    (he : (l.filter fun e => e.2 != m).head? = some e) :
    e.2 = (if (l.filter fun e => e.2 == m).isEmpty then c
      else (((l.filter fun e => e.2 != m).head?).map Prod.snd).getD c) := by
  split
  · rename_i h
    have : l.filter (fun e => e.2 != m) = l := by
      rw [List.filter_eq_self]
      intro f hf
      have h' := List.isEmpty_iff.1 h
      rw [List.filter_eq_nil_iff] at h'
      have := h' f hf
      simpa using this
    rw [this] at he
    exact hh e he
  · rw [he]; rfl

theorem nodesLoop_spec : ∀ (fuel : Nat) (a b : Pt) (as bs : List End), NodesInv a b as bs →
    as.length + bs.length < fuel →
    ∃ V : List Pt, V.Pairwise (· < ·) ∧ nodesLoop fuel a b as bs = some (V.map fun v => (at' as v, at' bs v)) ∧
      ∀ v, v ∈ V ↔ ((∃ e ∈ as, e.2 = v) ∨ ∃ e ∈ bs, e.2 = v) := by
  intro fuel
  induction fuel with
  | zero => intro _ _ _ _ _ h; omega
  | succ fuel ih =>
    intro a b as bs inv hf
    by_cases hemp : as = [] ∧ bs = []
    · obtain ⟨rfl, rfl⟩ := hemp
      exact ⟨[], List.Pairwise.nil, by simp [nodesLoop], by simp⟩
    have hbs : bs ≠ [] := by
      rintro rfl
      rcases as with _ | ⟨x, as⟩
      · exact hemp ⟨rfl, rfl⟩
      · obtain ⟨f, hf, _⟩ := inv.up x (by simp); simp at hf
    obtain ⟨ra1, ra2, ra3⟩ := run_spec inv.sa inv.ha
    obtain ⟨rb1, rb2, rb3⟩ := run_spec inv.sb inv.hb
    -- the selected point
    obtain ⟨m, hma, hmb, hcnt, hpos⟩ : ∃ m : Pt, (∀ e ∈ as, e.2 = m ∨ m < e.2) ∧ (∀ e ∈ bs, e.2 = m ∨ m < e.2) ∧
        (if a = b then (as.takeWhile (fun e => e.2 == a), bs.takeWhile fun e => e.2 == b)
         else if !(as.takeWhile (fun e => e.2 == a)).isEmpty && decide (a < b)
           then (as.takeWhile (fun e => e.2 == a), [])
         else ([], bs.takeWhile fun e => e.2 == b)) =
          (as.filter (fun e => e.2 == m), bs.filter (fun e => e.2 == m)) ∧
        ((∃ e ∈ as, e.2 = m) ∨ ∃ e ∈ bs, e.2 = m) := by
      have hbm : ∃ e ∈ bs, e.2 = b := by
        rcases bs with _ | ⟨y, bs⟩
        · exact absurd rfl hbs
        · exact ⟨y, by simp, inv.hb y rfl⟩
      by_cases hab : a = b
      · subst hab
        exact ⟨a, ra3, rb3, by rw [if_pos rfl, ra1, rb1], Or.inr hbm⟩
      · rcases as with _ | ⟨x, as⟩
        · refine ⟨b, by simp, rb3, ?_, Or.inr hbm⟩
          rw [if_neg hab, rb1]; simp
        · have hx : x.2 = a := inv.ha x rfl
          have hne : ((x :: as).takeWhile (fun e => e.2 == a)).isEmpty = false := by simp [hx]
          by_cases hlt : a < b
          · refine ⟨a, ra3, ?_, ?_, Or.inl ⟨x, by simp, hx⟩⟩
            · intro e he
              rcases rb3 e he with h | h
              · exact Or.inr (by rw [h]; exact hlt)
              · exact Or.inr (Pt.lt_trans hlt h)
            · have hall : ∀ e ∈ bs, a < e.2 := by
                intro e he
                rcases rb3 e he with h | h
                · rw [h]; exact hlt
                · exact Pt.lt_trans hlt h
              rw [if_neg hab, if_pos (by rw [hne]; simpa using hlt), ra1, (filter_none hall).1]
          · have hba := Pt.lt_of_not_lt_ne hlt hab
            have hall : ∀ e ∈ x :: as, b < e.2 := by
              intro e he
              rcases ra3 e he with h | h
              · rw [h]; exact hba
              · exact Pt.lt_trans hba h
            refine ⟨b, fun e he => Or.inr (hall e he), rb3, ?_, Or.inr hbm⟩
            rw [if_neg hab, if_neg (by simp [hlt]), rb1, (filter_none hall).1]
    -- lengths to drop
    have da : as.drop (as.filter fun e => e.2 == m).length = as.filter (fun e => e.2 != m) := by
      by_cases hmem : ∃ e ∈ as, e.2 = m
      · have hh : ∀ e, as.head? = some e → e.2 = m := by
          rcases as with _ | ⟨x, as⟩
          · simp
          · intro e he
            have : x = e := by simpa using he
            subst this
            rcases hma x (by simp) with h | h
            · exact h
            · obtain ⟨e', he', h'⟩ := hmem
              rcases List.mem_cons.1 he' with rfl | he'
              · exact h'
              · rw [← h'] at h
                exact absurd h ((List.pairwise_cons.1 inv.sa).1 e' he')
        obtain ⟨q1, q2, -⟩ := run_spec inv.sa hh
        rw [← q1]; exact q2
      · have : ∀ e ∈ as, m < e.2 := fun e he => (hma e he).resolve_left fun h => hmem ⟨e, he, h⟩
        rw [(filter_none this).1, (filter_none this).2]; rfl
    have db : bs.drop (bs.filter fun e => e.2 == m).length = bs.filter (fun e => e.2 != m) := by
      by_cases hmem : ∃ e ∈ bs, e.2 = m
      · have hh : ∀ e, bs.head? = some e → e.2 = m := by
          rcases bs with _ | ⟨x, bs⟩
          · simp
          · intro e he
            have : x = e := by simpa using he
            subst this
            rcases hmb x (by simp) with h | h
            · exact h
            · obtain ⟨e', he', h'⟩ := hmem
              rcases List.mem_cons.1 he' with rfl | he'
              · exact h'
              · rw [← h'] at h
                exact absurd h ((List.pairwise_cons.1 inv.sb).1 e' he')
        obtain ⟨q1, q2, -⟩ := run_spec inv.sb hh
        rw [← q1]; exact q2
      · have : ∀ e ∈ bs, m < e.2 := fun e he => (hmb e he).resolve_left fun h => hmem ⟨e, he, h⟩
        rw [(filter_none this).1, (filter_none this).2]; rfl
    set as' := as.filter fun e => e.2 != m with has'
    set bs' := bs.filter fun e => e.2 != m with hbs'
    have gta : ∀ e ∈ as', m < e.2 := by
      intro e he
      rw [has', List.mem_filter] at he
      exact (hma e he.1).resolve_left (by simpa using he.2)
    have gtb : ∀ e ∈ bs', m < e.2 := by
      intro e he
      rw [hbs', List.mem_filter] at he
      exact (hmb e he.1).resolve_left (by simpa using he.2)
    have hlen : as'.length + bs'.length < fuel := by
      have q1 : (as.filter fun e => e.2 == m).length + as'.length = as.length := by
        have := congrArg List.length da
        rw [List.length_drop] at this
        have := List.length_filter_le (fun e : End => e.2 == m) as
        omega
      have q2 : (bs.filter fun e => e.2 == m).length + bs'.length = bs.length := by
        have := congrArg List.length db
        rw [List.length_drop] at this
        have := List.length_filter_le (fun e : End => e.2 == m) bs
        omega
      have : 0 < (as.filter fun e => e.2 == m).length + (bs.filter fun e => e.2 == m).length := by
        rcases hpos with ⟨e, he, h⟩ | ⟨e, he, h⟩
        · have : 0 < (as.filter fun e => e.2 == m).length :=
            List.length_pos_of_mem (List.mem_filter.2 ⟨he, by simpa using h⟩)
          omega
        · have : 0 < (bs.filter fun e => e.2 == m).length :=
            List.length_pos_of_mem (List.mem_filter.2 ⟨he, by simpa using h⟩)
          omega
      omega
    have inv' : NodesInv
        (if (as.filter fun e => e.2 == m).isEmpty then a else ((as'.head?).map Prod.snd).getD a)
        (if (bs.filter fun e => e.2 == m).isEmpty then b else ((bs'.head?).map Prod.snd).getD b) as' bs' := by
      refine ⟨inv.sa.filter _, inv.sb.filter _, head_rest inv.sa inv.ha hma, head_rest inv.sb inv.hb hmb, ?_⟩
      intro e he
      have he' := he
      rw [has', List.mem_filter] at he
      obtain ⟨f, hf, hlt⟩ := inv.up e he.1
      refine ⟨f, ?_, hlt⟩
      rw [hbs', List.mem_filter]
      refine ⟨hf, ?_⟩
      have := Pt.lt_trans (gta e he') hlt
      simpa using (Pt.ne_of_lt this).symm
    obtain ⟨V, hV, hloop, hmem⟩ := ih _ _ as' bs' inv' hlen
    have hVm : ∀ v ∈ V, m < v := by
      intro v hv
      rcases (hmem v).1 hv with ⟨e, he, rfl⟩ | ⟨e, he, rfl⟩
      · exact gta e he
      · exact gtb e he
    refine ⟨m :: V, List.pairwise_cons.2 ⟨hVm, hV⟩, ?_, ?_⟩
    · rw [nodesLoop]
      have hne : (as.isEmpty && bs.isEmpty) = false := by
        rcases bs with _ | ⟨y, bs⟩
        · exact absurd rfl hbs
        · simp
      simp only [hne, Bool.false_eq_true, if_false, hcnt, da, db, hloop, Option.map_some, List.map_cons]
      congr 2
      refine List.map_congr_left fun v hv => ?_
      have hvm : ∀ e : End, (e.2 != m && e.2 == v) = (e.2 == v) := by
        intro e
        by_cases h : e.2 = v
        · have : e.2 ≠ m := by rw [h]; exact (Pt.ne_of_lt (hVm v hv)).symm
          simp [h, h ▸ this]
        · simp [h]
      unfold at'
      rw [has', hbs', List.filter_filter, List.filter_filter]
      simp only [Bool.and_comm, hvm]
    · intro v
      rw [List.mem_cons, hmem]
      constructor
      · rintro (rfl | ⟨e, he, h⟩ | ⟨e, he, h⟩)
        · exact hpos
        · exact Or.inl ⟨e, (List.mem_filter.1 he).1, h⟩
        · exact Or.inr ⟨e, (List.mem_filter.1 he).1, h⟩
      · intro h
        by_cases hv : v = m
        · exact Or.inl hv
        · right
          rcases h with ⟨e, he, h⟩ | ⟨e, he, h⟩
          · exact Or.inl ⟨e, List.mem_filter.2 ⟨he, by simpa [h] using hv⟩, h⟩
          · exact Or.inr ⟨e, List.mem_filter.2 ⟨he, by simpa [h] using hv⟩, h⟩

/-! ### ids -/

theorem foldl_modify_get (f : Link → Link) (hf : ∀ l, f (f l) = f l) (is : List Nat) (ls : List Link) (i : Nat) :
    (is.foldl (fun ls i => ls.modify i f) ls)[i]? = if i ∈ is then ls[i]?.map f else ls[i]? := by
  induction is generalizing ls with
  | nil => simp
  | cons j is ih =>
    rw [List.foldl_cons, ih, List.getElem?_modify]
    by_cases hj : j = i
    · subst hj
      by_cases hm : j ∈ is
      · rw [if_pos hm, if_pos (by simp)]
        cases ls[j]? <;> simp [hf]
      · rw [if_neg hm, if_pos (by simp)]
        cases ls[j]? <;> simp
    · by_cases hm : i ∈ is
      · rw [if_pos hm, if_pos (by simp [hm])]
        cases ls[i]? <;> simp [hj]
      · rw [if_neg hm, if_neg (by simp [hm, Ne.symm hj])]
        cases ls[i]? <;> simp [hj]

theorem assignIds_spec : ∀ (gs : List (List Nat × List Nat)) (k : Nat) (ls : List Link) (i : Nat) (l : Link),
    ls[i]? = some l → ∃ l', (assignIds k gs ls)[i]? = some l' ∧ l'.a = l.a ∧ l'.b = l.b ∧ l'.fill = l.fill ∧
      ((l'.aId = l.aId ∧ ∀ g ∈ gs, i ∉ g.1) ∨ ∃ j g, gs[j]? = some g ∧ i ∈ g.1 ∧ l'.aId = k + j) ∧
      ((l'.bId = l.bId ∧ ∀ g ∈ gs, i ∉ g.2) ∨ ∃ j g, gs[j]? = some g ∧ i ∈ g.2 ∧ l'.bId = k + j) := by
  intro gs
  induction gs with
  | nil => intro k ls i l h; exact ⟨l, h, rfl, rfl, rfl, Or.inl ⟨rfl, by simp⟩, Or.inl ⟨rfl, by simp⟩⟩
  | cons g gs ih =>
    obtain ⟨ga, gb⟩ := g
    intro k ls i l h
    rw [assignIds]
    set ls2 := gb.foldl (fun ls i => ls.modify i fun l => { l with bId := k })
      (ga.foldl (fun ls i => ls.modify i fun l => { l with aId := k }) ls) with h2
    have e : ls2[i]? = some ⟨l.a, if i ∈ ga then k else l.aId, l.b, if i ∈ gb then k else l.bId, l.fill⟩ := by
      rw [h2, foldl_modify_get _ (by intro l; rfl), foldl_modify_get _ (by intro l; rfl), h]
      by_cases c1 : i ∈ ga <;> by_cases c2 : i ∈ gb <;> simp [c1, c2]
    obtain ⟨l', e1, e2, e3, e4, e5, e6⟩ := ih (k + 1) ls2 i _ e
    refine ⟨l', e1, e2, e3, e4, ?_, ?_⟩
    · rcases e5 with ⟨q1, q2⟩ | ⟨j, g, q1, q2, q3⟩
      · by_cases c : i ∈ ga
        · refine Or.inr ⟨0, (ga, gb), rfl, c, ?_⟩
          simp only [if_pos c] at q1; omega
        · left
          simp only [if_neg c] at q1
          refine ⟨q1, ?_⟩
          intro g hg
          rcases List.mem_cons.1 hg with rfl | hg
          · exact c
          · exact q2 g hg
      · exact Or.inr ⟨j + 1, g, by simpa using q1, q2, by omega⟩
    · rcases e6 with ⟨q1, q2⟩ | ⟨j, g, q1, q2, q3⟩
      · by_cases c : i ∈ gb
        · refine Or.inr ⟨0, (ga, gb), rfl, c, ?_⟩
          simp only [if_pos c] at q1; omega
        · left
          simp only [if_neg c] at q1
          refine ⟨q1, ?_⟩
          intro g hg
          rcases List.mem_cons.1 hg with rfl | hg
          · exact c
          · exact q2 g hg
      · exact Or.inr ⟨j + 1, g, by simpa using q1, q2, by omega⟩

theorem assignIds_length : ∀ (gs : List (List Nat × List Nat)) (k : Nat) (ls : List Link),
    (assignIds k gs ls).length = ls.length := by
  intro gs
  induction gs with
  | nil => intro k ls; rfl
  | cons g gs ih =>
    obtain ⟨ga, gb⟩ := g
    intro k ls
    rw [assignIds, ih]
    have : ∀ (f : Link → Link) (is : List Nat) (ls : List Link),
        (is.foldl (fun ls i => ls.modify i f) ls).length = ls.length := by
      intro f is
      induction is with
      | nil => intro ls; rfl
      | cons j is ih => intro ls; rw [List.foldl_cons, ih]; simp
    rw [this, this]

theorem Node.indices_new (l : List Nat) : (Node.new l).indices = l := by
  unfold Node.new
  split
  · rfl
  · rfl

/-! ### the graph -/

/-- What a connected graph guarantees: a strictly increasing list of points, one per node, such that
every link end carries the id of its point and every node lists the link ends at its point. -/
structure GraphOk (g : Graph) (V : List Pt) : Prop where
  sorted : V.Pairwise (· < ·)
  nodes : g.nodes.length = V.length
  lt : ∀ l ∈ g.links, l.a < l.b
  aId : ∀ l ∈ g.links, V[l.aId]? = some l.a
  bId : ∀ l ∈ g.links, V[l.bId]? = some l.b
  occ : ∀ v ∈ V, ∃ l ∈ g.links, l.a = v ∨ l.b = v
  idx : ∀ (k : Nat) (nd : Node), g.nodes[k]? = some nd → ∃ A B : List Nat, nd = Node.new (A ++ B) ∧ A.Nodup ∧ B.Nodup ∧
    (∀ i, i ∈ A ↔ ∃ l, g.links[i]? = some l ∧ l.aId = k) ∧
    (∀ i, i ∈ B ↔ ∃ l, g.links[i]? = some l ∧ l.bId = k)

theorem at'_nodup {l : List End} (h : (l.map Prod.fst).Nodup) (v : Pt) : (at' l v).Nodup := by
  unfold at'
  exact h.sublist (List.filter_sublist.map _)

theorem mem_at' {l : List End} {v : Pt} {i : Nat} : i ∈ at' l v ↔ (i, v) ∈ l := by
  unfold at'
  rw [List.mem_map]
  constructor
  · rintro ⟨⟨j, w⟩, h, rfl⟩
    rw [List.mem_filter] at h
    have : w = v := by simpa using h.2
    rw [← this]; exact h.1
  · intro h
    exact ⟨(i, v), List.mem_filter.2 ⟨h, by simp⟩, rfl⟩

/-- Links as given to the graph: left end before right end, sorted by left end. -/
structure LinksOk (links : List Link) : Prop where
  lt : ∀ l ∈ links, l.a < l.b
  sorted : links.Pairwise fun l m => ¬ m.a < l.a

/-- Construction of the graph: it always succeeds, keeps the links (points and fill) in order and
connects them. -/
theorem Graph.new_spec {sortE : List End → List End} (hE : EndSort sortE) {links : List Link}
    (hl : LinksOk links) : ∃ g V, Graph.new sortE links = some g ∧ GraphOk g V ∧
      g.links.map (fun l => (l.a, l.b, l.fill)) = links.map (fun l => (l.a, l.b, l.fill)) := by
  rcases links with _ | ⟨l0, rest⟩
  · exact ⟨⟨[], []⟩, [], rfl, ⟨List.Pairwise.nil, rfl, by simp, by simp, by simp, by simp, by simp⟩, rfl⟩
  · set links := l0 :: rest with hlinks
    set as : List End := links.zipIdx.map fun x => (x.2, x.1.a) with has
    set bs0 : List End := links.zipIdx.map fun x => (x.2, x.1.b) with hbs0
    have hb := hE.perm bs0
    set bs := sortE bs0 with hbs
    have memA : ∀ i v, (i, v) ∈ as ↔ ∃ l, links[i]? = some l ∧ l.a = v := by
      intro i v
      rw [has, List.mem_map]
      constructor
      · rintro ⟨⟨l, j⟩, h, e⟩
        simp only [Prod.mk.injEq] at e
        rw [List.mem_zipIdx_iff_getElem?] at h
        exact ⟨l, by rw [← e.1]; exact h, e.2⟩
      · rintro ⟨l, h, e⟩
        exact ⟨(l, i), by rw [List.mem_zipIdx_iff_getElem?]; exact h, by simp [e]⟩
    have memB : ∀ i v, (i, v) ∈ bs ↔ ∃ l, links[i]? = some l ∧ l.b = v := by
      intro i v
      rw [hb.mem_iff, hbs0, List.mem_map]
      constructor
      · rintro ⟨⟨l, j⟩, h, e⟩
        simp only [Prod.mk.injEq] at e
        rw [List.mem_zipIdx_iff_getElem?] at h
        exact ⟨l, by rw [← e.1]; exact h, e.2⟩
      · rintro ⟨l, h, e⟩
        exact ⟨(l, i), by rw [List.mem_zipIdx_iff_getElem?]; exact h, by simp [e]⟩
    have idxNodup : (links.zipIdx.map Prod.snd).Nodup := by
      rw [List.zipIdx_map_snd]; exact List.nodup_range'
    have ndA : (as.map Prod.fst).Nodup := by
      rw [has, List.map_map]; exact idxNodup
    have ndB : (bs.map Prod.fst).Nodup := by
      refine (hb.map Prod.fst).nodup_iff.2 ?_
      rw [hbs0, List.map_map]; exact idxNodup
    have sa : EndsSorted as := by
      unfold EndsSorted
      rw [has, List.pairwise_map]
      have : (links.zipIdx.map Prod.fst).Pairwise fun l m => ¬ m.a < l.a := by
        rw [List.zipIdx_map_fst]; exact hl.sorted
      rw [List.pairwise_map] at this
      exact this
    have hinv : NodesInv l0.a ((bs.head?.map Prod.snd).getD l0.b) as bs := by
      refine ⟨sa, hE.sorted _, ?_, ?_, ?_⟩
      · intro e he
        rw [has, hlinks] at he
        simp at he
        rw [← he]
      · intro e he; rw [he]; rfl
      · rintro ⟨i, v⟩ he
        obtain ⟨l, h1, rfl⟩ := (memA i v).1 he
        exact ⟨(i, l.b), (memB i l.b).2 ⟨l, h1, rfl⟩, hl.lt l (List.mem_of_getElem? h1)⟩
    obtain ⟨V, hV, hloop, hmem⟩ := nodesLoop_spec (as.length + bs.length + 1) _ _ as bs hinv (by omega)
    set gs := V.map fun v => (at' as v, at' bs v) with hgs
    have hsub : ∀ (i : Nat) (l' : Link), (assignIds 0 gs links)[i]? = some l' → ∃ l, links[i]? = some l ∧ l'.a = l.a ∧
        l'.b = l.b ∧ l'.fill = l.fill ∧ V[l'.aId]? = some l.a ∧ V[l'.bId]? = some l.b := by
      intro i l' h
      have hi : i < links.length := by
        have := (List.getElem?_eq_some_iff.1 h).1
        rwa [assignIds_length] at this
      obtain ⟨l, hil⟩ : ∃ l, links[i]? = some l := ⟨links[i], List.getElem?_eq_getElem hi⟩
      obtain ⟨l'', q0, q1, q2, q3, q4, q5⟩ := assignIds_spec gs 0 links i l hil
      rw [h] at q0
      obtain rfl := Option.some.inj q0
      refine ⟨l, hil, q1, q2, q3, ?_, ?_⟩
      · rcases q4 with ⟨_, h4⟩ | ⟨j, g, g1, g2, g3⟩
        · exfalso
          have hv : l.a ∈ V := (hmem l.a).2 (Or.inl ⟨(i, l.a), (memA _ _).2 ⟨l, hil, rfl⟩, rfl⟩)
          refine h4 (at' as l.a, at' bs l.a) (List.mem_map.2 ⟨l.a, hv, rfl⟩) ?_
          exact mem_at'.2 ((memA _ _).2 ⟨l, hil, rfl⟩)
        · rw [hgs, List.getElem?_map] at g1
          obtain ⟨v, v1, rfl⟩ := Option.map_eq_some_iff.1 g1
          obtain ⟨m, m1, m2⟩ := (memA _ _).1 (mem_at'.1 g2)
          rw [hil] at m1
          obtain rfl := Option.some.inj m1
          rw [g3, Nat.zero_add, v1, m2]
      · rcases q5 with ⟨_, h4⟩ | ⟨j, g, g1, g2, g3⟩
        · exfalso
          have hv : l.b ∈ V := (hmem l.b).2 (Or.inr ⟨(i, l.b), (memB _ _).2 ⟨l, hil, rfl⟩, rfl⟩)
          refine h4 (at' as l.b, at' bs l.b) (List.mem_map.2 ⟨l.b, hv, rfl⟩) ?_
          exact mem_at'.2 ((memB _ _).2 ⟨l, hil, rfl⟩)
        · rw [hgs, List.getElem?_map] at g1
          obtain ⟨v, v1, rfl⟩ := Option.map_eq_some_iff.1 g1
          obtain ⟨m, m1, m2⟩ := (memB _ _).1 (mem_at'.1 g2)
          rw [hil] at m1
          obtain rfl := Option.some.inj m1
          rw [g3, Nat.zero_add, v1, m2]
    have hsub' : ∀ (i : Nat) (l : Link), links[i]? = some l → ∃ l', (assignIds 0 gs links)[i]? = some l' ∧
        l'.a = l.a ∧ l'.b = l.b ∧ l'.fill = l.fill ∧ V[l'.aId]? = some l.a ∧ V[l'.bId]? = some l.b := by
      intro i l h
      obtain ⟨l', q0, _⟩ := assignIds_spec gs 0 links i l h
      obtain ⟨l2, r0, r1⟩ := hsub i l' q0
      rw [h] at r0
      obtain rfl := Option.some.inj r0
      exact ⟨l', q0, r1⟩
    have Vinj : ∀ (i j : Nat) (v : Pt), V[i]? = some v → V[j]? = some v → i = j := by
      intro i j v hi hj
      have hnd : V.Nodup := hV.imp fun {a b} h => Pt.ne_of_lt h
      exact (List.getElem?_inj (List.getElem?_eq_some_iff.1 hi).1 hnd).1 (hi.trans hj.symm)
    refine ⟨⟨assignIds 0 gs links, gs.map fun g => Node.new (g.1 ++ g.2)⟩, V, ?_, ?_, ?_⟩
    · change (nodesLoop (as.length + bs.length + 1) l0.a _ as bs).map _ = _
      rw [hloop]; rfl
    · refine ⟨hV, by simp [hgs], ?_, ?_, ?_, ?_, ?_⟩
      · intro l' h
        obtain ⟨i, hi⟩ := List.getElem?_of_mem h
        obtain ⟨l, q0, q1, q2, _⟩ := hsub i l' hi
        rw [q1, q2]; exact hl.lt l (List.mem_of_getElem? q0)
      · intro l' h
        obtain ⟨i, hi⟩ := List.getElem?_of_mem h
        obtain ⟨l, q0, q1, q2, q3, q4, q5⟩ := hsub i l' hi
        rw [q1]; exact q4
      · intro l' h
        obtain ⟨i, hi⟩ := List.getElem?_of_mem h
        obtain ⟨l, q0, q1, q2, q3, q4, q5⟩ := hsub i l' hi
        rw [q2]; exact q5
      · intro v hv
        rcases (hmem v).1 hv with ⟨⟨i, w⟩, he, rfl⟩ | ⟨⟨i, w⟩, he, rfl⟩
        · obtain ⟨l, h1, h2⟩ := (memA _ _).1 he
          obtain ⟨l', q0, q1, _⟩ := hsub' i l h1
          exact ⟨l', List.mem_of_getElem? q0, Or.inl (q1.trans h2)⟩
        · obtain ⟨l, h1, h2⟩ := (memB _ _).1 he
          obtain ⟨l', q0, q1, q2, _⟩ := hsub' i l h1
          exact ⟨l', List.mem_of_getElem? q0, Or.inr (q2.trans h2)⟩
      · intro k nd hk
        rw [List.getElem?_map, hgs, List.getElem?_map] at hk
        obtain ⟨g, hk1, rfl⟩ := Option.map_eq_some_iff.1 hk
        obtain ⟨v, hv, rfl⟩ := Option.map_eq_some_iff.1 hk1
        refine ⟨at' as v, at' bs v, rfl, at'_nodup ndA v, at'_nodup ndB v, ?_, ?_⟩
        · intro i
          rw [mem_at', memA]
          constructor
          · rintro ⟨l, h1, h2⟩
            obtain ⟨l', q0, q1, q2, q3, q4, q5⟩ := hsub' i l h1
            exact ⟨l', q0, Vinj _ _ _ q4 (by rw [hv, h2])⟩
          · rintro ⟨l', h1, h2⟩
            obtain ⟨l, q0, q1, q2, q3, q4, q5⟩ := hsub i l' h1
            rw [h2, hv] at q4
            exact ⟨l, q0, (Option.some.inj q4).symm⟩
        · intro i
          rw [mem_at', memB]
          constructor
          · rintro ⟨l, h1, h2⟩
            obtain ⟨l', q0, q1, q2, q3, q4, q5⟩ := hsub' i l h1
            exact ⟨l', q0, Vinj _ _ _ q5 (by rw [hv, h2])⟩
          · rintro ⟨l', h1, h2⟩
            obtain ⟨l, q0, q1, q2, q3, q4, q5⟩ := hsub i l' h1
            rw [h2, hv] at q5
            exact ⟨l, q0, (Option.some.inj q5).symm⟩
    · apply List.ext_getElem?
      intro i
      rw [List.getElem?_map, List.getElem?_map]
      change ((assignIds 0 gs links)[i]?).map _ = _
      rcases hq : links[i]? with _ | l
      · have : (assignIds 0 gs links)[i]? = none := by
          rw [List.getElem?_eq_none_iff] at hq ⊢
          rwa [assignIds_length]
        rw [this]
      · obtain ⟨l', q0, q1, q2, q3, _⟩ := hsub' i l hq
        rw [q0]; simp [q1, q2, q3]

end IOverlay
