/-
Shifting the input: the graph, the walk and the binding of holes commute with adding a vector to all points.
-/
import Verif.Shift
import Verif.Laws

namespace IOverlay
open WindingCount
variable {C : Type}

/-- All points of a contour moved by a vector. -/
def movedPath (v : Pt) (c : List Pt) : List Pt := c.map fun p => p.shift v

/-- The link, moved. -/
def Link.shift (v : Pt) (l : Link) : Link := ⟨l.a.shift v, l.aId, l.b.shift v, l.bId, l.fill⟩
/-- The graph, moved. -/
def Graph.shift (v : Pt) (g : Graph) : Graph := ⟨g.links.map (Link.shift v), g.nodes⟩
/-- The end, moved. -/
def endShift (v : Pt) (e : End) : End := (e.1, e.2.shift v)
/-- The collected contours, moved. -/
def Extracted.shift (v : Pt) (e : Extracted) : Extracted :=
  ⟨e.shapes.map (movedPath v), e.holes.map (movedPath v), e.anchors.map fun a => (a.1, a.2.1.shift v, a.2.2.shift v), e.sorted⟩

/-- External parts that do with moved points what others do with the given points: they see relative positions only. -/
structure MovesWith (v : Pt) (x x' : Externals) : Prop where
  sortE : ∀ l, x'.sortE (l.map (endShift v)) = (x.sortE l).map (endShift v)
  sortI : ∀ l, x'.sortI (l.map (·.shift v)) = (x.sortI l).map (·.shift v)
  lookup : ∀ es t key, x'.bind.lookup (es.map (·.shift v)) (t + v.x) (key.shift v) = x.bind.lookup es t key
  clean : ∀ c, x'.clean (movedPath v c) = (movedPath v (x.clean c).1, (x.clean c).2)

variable (v : Pt)

@[simp] theorem isClockwise_shift (p q r : Pt) : isClockwise (p.shift v) (q.shift v) (r.shift v) = isClockwise p q r := by
  unfold isClockwise; simp

@[simp] theorem sub_shift (p q : Pt) : (p.shift v).sub (q.shift v) = p.sub q := by
  unfold Pt.sub; simp

@[simp] theorem cmp_shift (p q : Pt) : (p.shift v).cmp (q.shift v) = p.cmp q := by
  unfold Pt.cmp; simp

/-! ### the graph -/

@[simp] theorem endShift_snd (e : End) : (endShift v e).2 = e.2.shift v := rfl
@[simp] theorem endShift_fst (e : End) : (endShift v e).1 = e.1 := rfl

theorem takeWhile_end (a : Pt) (l : List End) :
    (l.map (endShift v)).takeWhile (fun e => e.2 == a.shift v) = (l.takeWhile fun e => e.2 == a).map (endShift v) := by
  rw [List.takeWhile_map]
  congr 2
  funext e
  simp [Function.comp, beq_eq_decide]

theorem nodesLoop_shift : ∀ (n : Nat) (a b : Pt) (as bs : List End),
    nodesLoop n (a.shift v) (b.shift v) (as.map (endShift v)) (bs.map (endShift v)) = nodesLoop n a b as bs := by
  intro n
  induction n with
  | zero => intros; rfl
  | succ n ih =>
    intro a b as bs
    unfold nodesLoop
    simp only [List.isEmpty_map, takeWhile_end, shift_inj, shift_lt]
    split
    · rfl
    · generalize as.takeWhile (fun e => e.2 == a) = na
      generalize bs.takeWhile (fun e => e.2 == b) = nb
      have hcnt : (if a = b then (na.map (endShift v), nb.map (endShift v))
          else if (!na.isEmpty && decide (a < b)) = true then (na.map (endShift v), []) else ([], nb.map (endShift v))) =
          (((if a = b then (na, nb) else if (!na.isEmpty && decide (a < b)) = true then (na, []) else ([], nb)).1.map (endShift v)),
          ((if a = b then (na, nb) else if (!na.isEmpty && decide (a < b)) = true then (na, []) else ([], nb)).2.map (endShift v))) := by
        split_ifs <;> rfl
      rw [hcnt]
      generalize (if a = b then (na, nb) else if (!na.isEmpty && decide (a < b)) = true then (na, []) else ([], nb)) = cd
      obtain ⟨c, d⟩ := cd
      have hd : ∀ (o : Option End) (p : Pt),
          ((o.map (endShift v)).map Prod.snd).getD (p.shift v) = ((o.map Prod.snd).getD p).shift v := by
        intro o p; cases o <;> rfl
      have hi : ∀ (q : Prop) [Decidable q] (p p' : Pt), (if q then p.shift v else p'.shift v) = (if q then p else p').shift v := by
        intro q _ p p'; split <;> rfl
      simp only [List.isEmpty_map, List.length_map, ← List.map_drop, List.head?_map, hd, hi, ih, List.map_map]
      congr 1

theorem assignIds_shift (gs : List (List Nat × List Nat)) : ∀ (k : Nat) (ls : List Link),
    assignIds k gs (ls.map (Link.shift v)) = (assignIds k gs ls).map (Link.shift v) := by
  have hf : ∀ (f : Link → Link), (∀ l, f (l.shift v) = (f l).shift v) → ∀ (is : List Nat) (ls : List Link),
      is.foldl (fun ls i => ls.modify i f) (ls.map (Link.shift v)) =
        (is.foldl (fun ls i => ls.modify i f) ls).map (Link.shift v) := by
    intro f h is
    induction is with
    | nil => intro ls; rfl
    | cons i is ih =>
      intro ls
      rw [List.foldl_cons, List.foldl_cons, ← ih]
      congr 1
      apply List.ext_getElem?
      intro j
      simp only [List.getElem?_modify, List.getElem?_map, Option.map_map]
      cases ls[j]? with
      | none => rfl
      | some l =>
        simp only [Option.map_some]
        split <;> simp [h]
  induction gs with
  | nil => intro k ls; rfl
  | cons g gs ih =>
    intro k ls
    obtain ⟨ga, gb⟩ := g
    unfold assignIds
    simp only
    rw [hf (fun l => { l with aId := k }) (fun l => rfl), hf (fun l => { l with bId := k }) (fun l => rfl), ih]

theorem graphNew_shift {sortE sortE' : List End → List End} (hE : ∀ l, sortE' (l.map (endShift v)) = (sortE l).map (endShift v))
    (links : List Link) :
    Graph.new sortE' (links.map (Link.shift v)) = (Graph.new sortE links).map (Graph.shift v) := by
  unfold Graph.new
  cases links with
  | nil => rfl
  | cons l0 ls =>
    rw [List.map_cons]
    simp only
    rw [← List.map_cons (f := Link.shift v)]
    generalize hL : l0 :: ls = L
    have e1 : ((L.map (Link.shift v)).zipIdx.map fun x => ((x.2, x.1.a) : End)) =
        (L.zipIdx.map fun x => ((x.2, x.1.a) : End)).map (endShift v) := by
      rw [List.zipIdx_map]; simp [Function.comp_def, endShift, Link.shift]
    have e2 : ((L.map (Link.shift v)).zipIdx.map fun x => ((x.2, x.1.b) : End)) =
        (L.zipIdx.map fun x => ((x.2, x.1.b) : End)).map (endShift v) := by
      rw [List.zipIdx_map]; simp [Function.comp_def, endShift, Link.shift]
    rw [e1, e2, hE]
    generalize sortE (L.zipIdx.map fun x => ((x.2, x.1.b) : End)) = bs
    have hd : (((bs.map (endShift v)).head?.map Prod.snd).getD (l0.shift v).b) =
        ((bs.head?.map Prod.snd).getD l0.b).shift v := by
      rw [List.head?_map]; cases bs.head? <;> rfl
    rw [hd]
    have : (l0.shift v).a = l0.a.shift v := rfl
    rw [this]
    simp only [List.length_map, nodesLoop_shift, Option.map_map]
    congr 1
    funext gs
    simp [Graph.shift, Function.comp, assignIds_shift]

/-! ### the walk -/

theorem links_shift (g : Graph) (i : Nat) : (g.shift v).links[i]? = (g.links[i]?).map (Link.shift v) := by
  simp [Graph.shift]

@[simp] theorem other_shift (l : Link) (n : Nat) : (l.shift v).other n = (l.other n).shift v := by
  unfold Link.other Link.shift
  simp only
  split <;> rfl

@[simp] theorem isDirect_shift (l : Link) : (l.shift v).isDirect = l.isDirect := by
  unfold Link.isDirect Link.shift; simp

def NearestVector.shift (s : NearestVector) : NearestVector := { s with c := s.c.shift v }

theorem nvNew_shift (c a b : Pt) (i : Nat) (cw : Bool) :
    NearestVector.new (c.shift v) (a.shift v) (b.shift v) i cw = (NearestVector.new c a b i cw).shift v := by
  unfold NearestVector.new NearestVector.shift
  simp only [sub_shift]
  split <;> rfl

theorem nvAdd_shift (s : NearestVector) (p : Pt) (i : Nat) : (s.shift v).add (p.shift v) i = (s.add p i).shift v := by
  unfold NearestVector.add
  simp only [NearestVector.shift, sub_shift]
  split_ifs <;> rfl

theorem addVectors_shift (g : Graph) (node : Nat) (is : List Nat) : ∀ s : NearestVector,
    addVectors (g.shift v) node is (s.shift v) = (addVectors g node is s).map (NearestVector.shift v) := by
  induction is with
  | nil => intro s; rfl
  | cons i is ih =>
    intro s
    unfold addVectors
    rw [links_shift]
    cases g.links[i]? with
    | none => rfl
    | some l => simp only [Option.map_some, Option.bind_some, other_shift, nvAdd_shift, ih]

theorem findNearest_shift (g : Graph) (target node : Nat) (cw : Bool) (is : List Nat) (vis : List Bool) :
    findNearest (g.shift v) target node cw is vis = findNearest g target node cw is vis := by
  unfold findNearest
  split
  · rfl
  · rfl
  · rename_i x rest _ _
    rw [links_shift]
    cases g.links[target]? with
    | none => rfl
    | some t =>
      simp only [Option.map_some, Option.bind_some]
      rw [links_shift]
      cases g.links[x]? with
      | none => rfl
      | some lx =>
        simp only [Option.map_some, Option.bind_some, other_shift]
        have e1 : (t.shift v).aId = t.aId := rfl
        have e2 : (if (t.shift v).aId = node then ((t.shift v).a, (t.shift v).b) else ((t.shift v).b, (t.shift v).a)) =
            ((if t.aId = node then (t.a, t.b) else (t.b, t.a)).1.shift v, (if t.aId = node then (t.a, t.b) else (t.b, t.a)).2.shift v) := by
          rw [e1]; split <;> rfl
        rw [e2, nvNew_shift, addVectors_shift, Option.map_map]
        rfl

theorem nextLink_shift (g : Graph) (link node : Nat) (cw : Bool) (vis : List Bool) :
    nextLink (g.shift v) link node cw vis = nextLink g link node cw vis := by
  unfold nextLink
  have : (g.shift v).nodes = g.nodes := rfl
  rw [this]
  cases g.nodes[node]? with
  | none => rfl
  | some nd => cases nd <;> simp [findNearest_shift]

theorem walk_shift (g : Graph) (cw : Bool) (last : Nat) : ∀ (fuel node link : Nat) (vis : List Bool) (c : List Pt),
    walk (g.shift v) cw last fuel node link vis (movedPath v c) =
      (walk g cw last fuel node link vis c).map fun r => (movedPath v r.1, r.2) := by
  intro fuel
  induction fuel with
  | zero =>
    intro node link vis c
    unfold walk
    split <;> rfl
  | succ n ih =>
    intro node link vis c
    unfold walk
    split
    · rfl
    · simp only [nextLink_shift]
      cases nextLink g link node cw vis with
      | none => rfl
      | some l' =>
        simp only [Option.bind_some, links_shift]
        cases g.links[l']? with
        | none => rfl
        | some l =>
          have e : ∀ p : Pt, movedPath v c ++ [p.shift v] = movedPath v (c ++ [p]) := by
            intro p; simp [movedPath]
          simp only [Option.map_some, Option.bind_some, Link.shift, e, ih]
          split <;> rfl

theorem getContour_shift (g : Graph) (fuel : Nat) (d : Bool) (l : Link) (i : Nat) (cw : Bool) (vis : List Bool) :
    getContour (g.shift v) fuel (StartPath.new d (l.shift v) i) cw vis =
      (getContour g fuel (StartPath.new d l i) cw vis).map fun r => (movedPath v r.1, r.2) := by
  unfold getContour
  rw [← walk_shift]
  cases d <;> rfl

theorem leftTopIndices_shift (g : Graph) (li : Nat) (vis : List Bool) (is : List Nat) : ∀ (top : Nat) (t : Link),
    leftTopIndices (g.shift v) li vis is top (t.shift v) = leftTopIndices g li vis is top t := by
  induction is with
  | nil => intros; rfl
  | cons i is ih =>
    intro top t
    unfold leftTopIndices
    rw [ih, links_shift]
    split
    · rfl
    · cases g.links[i]? with
      | none => rfl
      | some l =>
        simp only [Option.map_some, Option.bind_some, isDirect_shift, ih]
        simp only [Link.shift, isClockwise_shift]

theorem findLeftTop_shift (g : Graph) (li : Nat) (vis : List Bool) : findLeftTop (g.shift v) li vis = findLeftTop g li vis := by
  unfold findLeftTop
  rw [links_shift]
  cases g.links[li]? with
  | none => rfl
  | some t =>
    simp only [Option.map_some, Option.bind_some]
    have e : (g.shift v).nodes[(t.shift v).aId]? = g.nodes[t.aId]? := rfl
    rw [e]
    cases g.nodes[t.aId]? with
    | none => rfl
    | some nd =>
      cases nd with
      | bridge i j =>
        simp only [Option.bind_some]
        unfold leftTopBridge
        rw [links_shift]
        cases g.links[i]? with
        | none => rfl
        | some l0 =>
          simp only [Option.map_some, Option.bind_some]
          rw [links_shift]
          cases g.links[j]? with
          | none => rfl
          | some l1 => simp [Link.shift]
      | cross l => simp [leftTopIndices_shift]

/-! ### the contours -/

theorem doubleArea_shift (c : List Pt) : doubleArea (movedPath v c) = doubleArea c := by
  cases c with
  | nil => rfl
  | cons p ps =>
    unfold doubleArea movedPath
    rw [List.map_cons]
    simp only
    have e : (p.shift v :: ps.map fun p => p.shift v).zip ((ps.map fun p => p.shift v) ++ [p.shift v]) =
        ((p :: ps).zip (ps ++ [p])).map fun e => (e.1.shift v, e.2.shift v) := by
      have := List.zip_map (f := fun p : Pt => p.shift v) (g := fun p : Pt => p.shift v) (l₁ := p :: ps) (l₂ := ps ++ [p])
      simp only [List.map_append, List.map_cons, List.map_nil] at this
      exact this
    rw [e, List.map_map]
    have tele : ∀ (q : Pt) (l : List Pt),
        (((q :: l).zip (l ++ [p])).map ((fun e : Pt × Pt => e.1.x * e.2.y - e.1.y * e.2.x) ∘ fun e => (e.1.shift v, e.2.shift v))).sum =
        (((q :: l).zip (l ++ [p])).map fun e : Pt × Pt => e.1.x * e.2.y - e.1.y * e.2.x).sum +
          v.x * (p.y - q.y) - v.y * (p.x - q.x) := by
      intro q l
      induction l generalizing q with
      | nil => simp [Function.comp]; ring
      | cons r l ih =>
        rw [List.cons_append, List.zip_cons_cons, List.map_cons, List.map_cons, List.sum_cons, List.sum_cons, ih r]
        simp only [Function.comp, shift_x, shift_y]
        ring
    rw [tele]; ring

theorem validate_shift {clean clean' : List Pt → List Pt × Bool}
    (hc : ∀ c, clean' (movedPath v c) = (movedPath v (clean c).1, (clean c).2)) (m : Nat) (c : List Pt) :
    validate clean' m (movedPath v c) = ((validate clean m c).1, (validate clean m c).2.1, movedPath v (validate clean m c).2.2) := by
  unfold validate
  simp only [hc, doubleArea_shift]
  have : (movedPath v (clean c).1).length = (clean c).1.length := by simp [movedPath]
  rw [this]
  split_ifs <;> rfl

theorem movedPath_get (c : List Pt) (i : Nat) : (movedPath v c)[i]? = (c[i]?).map fun p => p.shift v := by
  simp [movedPath]

@[simp] theorem movedPath_length (c : List Pt) : (movedPath v c).length = c.length := by simp [movedPath]

theorem isUnderSegment_shift (s o : Pt × Pt) :
    isUnderSegment (s.1.shift v, s.2.shift v) (o.1.shift v, o.2.shift v) = isUnderSegment s o := by
  unfold isUnderSegment
  simp

theorem minIndex_shift (c : List Pt) : minIndex (movedPath v c) = (minIndex c).map fun m => (m.1, m.2.shift v) := by
  unfold minIndex movedPath
  cases c with
  | nil => rfl
  | cons p ps =>
    rw [List.map_cons]
    simp only [Option.map_some]
    congr 1
    generalize (1 : Nat) = n
    have : ∀ (l : List Pt) (n : Nat) (m : Nat × Pt),
        ((l.map fun p => p.shift v).zipIdx n).foldl (fun m x => if x.1 < m.2 then (x.2, x.1) else m) (m.1, m.2.shift v) =
          (((l.zipIdx n).foldl (fun m x => if x.1 < m.2 then (x.2, x.1) else m) m).1,
            ((l.zipIdx n).foldl (fun m x => if x.1 < m.2 then (x.2, x.1) else m) m).2.shift v) := by
      intro l
      induction l with
      | nil => intros; rfl
      | cons q l ih =>
        intro n m
        rw [List.map_cons, List.zipIdx_cons, List.zipIdx_cons, List.foldl_cons, List.foldl_cons]
        simp only [shift_lt]
        rw [← ih]
        split <;> rfl
    exact this ps n (0, p)

theorem leftBottom_shift (c : List Pt) :
    leftBottomSegment (movedPath v c) = (leftBottomSegment c).map fun e => (e.1.shift v, e.2.shift v) := by
  unfold leftBottomSegment
  rw [minIndex_shift]
  cases minIndex c with
  | none => rfl
  | some m =>
    simp only [Option.map_some, Option.bind_some, movedPath_length, movedPath_get]
    cases c[(m.1 + 1) % c.length]? with
    | none => rfl
    | some b0 =>
      simp only [Option.map_some, Option.bind_some]
      cases c[(m.1 + c.length - 1) % c.length]? with
      | none => rfl
      | some b1 =>
        have := isUnderSegment_shift v (m.2, b0) (m.2, b1)
        simp only at this
        simp only [Option.map_some, Option.bind_some, this]
        split <;> rfl

theorem holeSegment_shift (cw : Bool) (c : List Pt) :
    holeSegment cw (movedPath v c) = (holeSegment cw c).map fun e => (e.1.shift v, e.2.shift v) := by
  unfold holeSegment
  simp only [movedPath_length, movedPath_get]
  split
  · cases c[1]? <;> cases c[2]? <;> rfl
  · cases c[0]? <;> cases c[c.length - 1]? <;> rfl

theorem push_shift (e : Extracted) (cw hole modif : Bool) (c : List Pt) :
    (e.shift v).push cw hole modif (movedPath v c) = (e.push cw hole modif c).map (Extracted.shift v) := by
  unfold Extracted.push
  split
  · rw [holeSegment_shift, leftBottom_shift]
    cases holeSegment cw c with
    | none => rfl
    | some s =>
      cases leftBottomSegment c with
      | none => rfl
      | some m =>
        simp only [Option.map_some, Option.bind_some]
        have : ((m.1.shift v, m.2.shift v) != (s.1.shift v, s.2.shift v)) = (m != s) := by
          rw [Bool.eq_iff_iff]
          simp [Prod.ext_iff]
        rw [this]
        split <;> simp [Extracted.shift]
  · simp [Extracted.shift]

theorem extractLoop_shift (g : Graph) (r : OverlayRule) (cw : Bool) {clean clean' : List Pt → List Pt × Bool}
    (hc : ∀ c, clean' (movedPath v c) = (movedPath v (clean c).1, (clean c).2)) (m : Nat) :
    ∀ (fuel li : Nat) (vis : List Bool) (e : Extracted),
      extractLoop (g.shift v) r cw clean' m fuel li vis (e.shift v) =
        (extractLoop g r cw clean m fuel li vis e).map (Extracted.shift v) := by
  intro fuel
  induction fuel with
  | zero => intros; rfl
  | succ n ih =>
    intro li vis e
    unfold extractLoop
    split
    · split
      · exact ih _ _ _
      · rw [findLeftTop_shift]
        cases findLeftTop g li vis with
        | none => rfl
        | some lt =>
          simp only [Option.bind_some]
          rw [links_shift]
          cases g.links[lt]? with
          | none => rfl
          | some l =>
            have e1 : (g.shift v).links.length = g.links.length := by simp [Graph.shift]
            have e2 : (l.shift v).fill = l.fill := rfl
            simp only [Option.map_some, Option.bind_some, e1, e2, getContour_shift]
            cases getContour g g.links.length (StartPath.new (isFillTop r l.fill == cw) l lt) (isFillTop r l.fill == cw) vis with
            | none => rfl
            | some w =>
              simp only [Option.map_some, Option.bind_some, validate_shift v hc]
              split
              · exact ih _ _ _
              · rw [push_shift]
                cases e.push cw (isFillTop r l.fill) (validate clean m w.1).2.1 (validate clean m w.1).2.2 with
                | none => rfl
                | some e' => exact ih _ _ _
    · rfl

/-! ### the binder -/

theorem insertBy_shift {cmp : IdSeg → IdSeg → Ordering} (h : ∀ s t : IdSeg, cmp (s.shift v) (t.shift v) = cmp s t) (s : IdSeg)
    (l : List IdSeg) : insertBy cmp (s.shift v) (l.map (·.shift v)) = (insertBy cmp s l).map (·.shift v) := by
  induction l with
  | nil => rfl
  | cons t l ih =>
    rw [List.map_cons]
    unfold insertBy
    rw [h, ih]
    split <;> rfl

theorem stableSort_shift {cmp : IdSeg → IdSeg → Ordering} (h : ∀ s t : IdSeg, cmp (s.shift v) (t.shift v) = cmp s t)
    (l : List IdSeg) : stableSort cmp (l.map (·.shift v)) = (stableSort cmp l).map (·.shift v) := by
  unfold stableSort
  induction l with
  | nil => rfl
  | cons s l ih => rw [List.map_cons, List.foldr_cons, List.foldr_cons, ih, insertBy_shift v h]

theorem cmpByAngle_shift (s t : IdSeg) : cmpByAngle (s.shift v) (t.shift v) = cmpByAngle s t := by
  unfold cmpByAngle; simp

theorem cmpByAThenAngle_shift (s t : IdSeg) : cmpByAThenAngle (s.shift v) (t.shift v) = cmpByAThenAngle s t := by
  unfold cmpByAThenAngle; simp [cmpByAngle_shift]

theorem splitBy_map {α β : Type} (f : α → β) (R : α → α → Bool) (S : β → β → Bool) (h : ∀ a b, S (f a) (f b) = R a b)
    (l : List α) : (l.map f).splitBy S = (l.splitBy R).map (List.map f) := by
  have key : ∀ (l : List α) (a : α) (g : List α) (gs : List (List α)),
      List.splitBy.loop S (l.map f) (f a) (g.map f) (gs.map (List.map f)) =
        (List.splitBy.loop R l a g gs).map (List.map f) := by
    intro l
    induction l with
    | nil => intro a g gs; simp [List.splitBy.loop]
    | cons b l ih =>
      intro a g gs
      rw [List.map_cons]
      unfold List.splitBy.loop
      rw [h]
      split
      · exact ih b (a :: g) gs
      · have := ih b [] ((a :: g).reverse :: gs)
        simpa using this
  cases l with
  | nil => rfl
  | cons a l => exact key l a [] []

theorem addSortByAngle_shift (l : List IdSeg) : addSortByAngle (l.map (·.shift v)) = (addSortByAngle l).map (·.shift v) := by
  unfold addSortByAngle
  rw [splitBy_map (fun s : IdSeg => s.shift v) (fun s t => decide (s.a = t.a)) (fun s t => decide (s.a = t.a))
    (fun s t => by simp), List.flatMap_map, List.map_flatMap]
  congr 1
  funext g
  exact stableSort_shift v (cmpByAngle_shift v) g

theorem polyEdges_moved (c : List Pt) : polyEdges (movedPath v c) = (polyEdges c).map fun e => (e.1.shift v, e.2.shift v) := by
  cases c with
  | nil => rfl
  | cons p ps =>
    have := List.zip_map (f := fun p : Pt => p.shift v) (g := fun p : Pt => p.shift v) (l₁ := p :: ps) (l₂ := ps ++ [p])
    simp only [List.map_append, List.map_cons, List.map_nil] at this
    have e : Prod.map (fun p : Pt => p.shift v) (fun p : Pt => p.shift v) = fun e : Pt × Pt => (e.1.shift v, e.2.shift v) := rfl
    rw [e] at this
    simpa [polyEdges, movedPath] using this

theorem idSegments_shift (id : CIdx) (x0 x1 : Int) (cw : Bool) (c : List Pt) :
    idSegments id (x0 + v.x) (x1 + v.x) cw (movedPath v c) = (idSegments id x0 x1 cw c).map (·.shift v) := by
  unfold idSegments
  have : (if cw then movedPath v c else (movedPath v c).reverse) = movedPath v (if cw then c else c.reverse) := by
    split <;> simp [movedPath]
  rw [this, polyEdges_moved, List.filterMap_map, List.map_filterMap]
  congr 1
  funext e
  simp only [Function.comp, shift_x]
  have h : (e.2.x + v.x < e.1.x + v.x ∧ x0 + v.x < e.1.x + v.x ∧ e.2.x + v.x ≤ x1 + v.x) ↔
      (e.2.x < e.1.x ∧ x0 < e.1.x ∧ e.2.x ≤ x1) := by omega
  simp only [h]
  split <;> rfl

theorem floorSegments_shift (shapes : List (List (List Pt))) (holes : List (List Pt)) (x0 x1 : Int) (cw : Bool) :
    floorSegments (shapes.map (List.map (movedPath v))) (holes.map (movedPath v)) (x0 + v.x) (x1 + v.x) cw =
      (floorSegments shapes holes x0 x1 cw).map (·.shift v) := by
  unfold floorSegments
  rw [List.map_append, List.zipIdx_map, List.zipIdx_map, List.flatMap_map, List.flatMap_map, List.map_flatMap, List.map_flatMap]
  congr 1
  · congr 1
    funext s
    rw [← idSegments_shift]
    obtain ⟨s, i⟩ := s
    cases s <;> rfl
  · congr 1
    funext s
    rw [← idSegments_shift]
    rfl

theorem bindInsert_shift (anchor : IdSeg) (segs : List IdSeg) : ∀ scan : List IdSeg,
    bindInsert (anchor.shift v) (segs.map (·.shift v)) (scan.map (·.shift v)) =
      ((bindInsert anchor segs scan).1.map (·.shift v), (bindInsert anchor segs scan).2.map (·.shift v)) := by
  induction segs with
  | nil => intro scan; rfl
  | cons s segs ih =>
    intro scan
    rw [List.map_cons]
    unfold bindInsert
    rw [cmpByAThenAngle_shift]
    split
    · rfl
    · rw [← ih]
      congr 1
      have : ((anchor.shift v).a.x < (s.shift v).b.x) ↔ anchor.a.x < s.b.x := by simp
      simp only [this]
      split <;> simp

variable {v} {x x' : Externals}

theorem bindLoop_shift {o o' : BindOracle}
    (ho : ∀ es t key, o'.lookup (es.map (·.shift v)) (t + v.x) (key.shift v) = o.lookup es t key) (n : Nat)
    (anchors : List IdSeg) : ∀ (segs scan : List IdSeg) (parents : List Nat),
    bindLoop o' n (anchors.map (·.shift v)) (segs.map (·.shift v)) (scan.map (·.shift v)) parents =
      bindLoop o n anchors segs scan parents := by
  induction anchors with
  | nil => intros; rfl
  | cons a as ih =>
    intro segs scan parents
    rw [List.map_cons]
    unfold bindLoop
    simp only [bindInsert_shift]
    have : (a.shift v).a.x = a.a.x + v.x := rfl
    rw [this, ho]
    cases o.lookup (bindInsert a segs scan).2 a.a.x a with
    | none => rfl
    | some t => simp only [Option.bind_some, ih, seg_shift_c]

theorem pushHoles_shift (l : List (List Pt × Nat)) : ∀ shapes : List (List (List Pt)),
    pushHoles (shapes.map (List.map (movedPath v))) (l.map fun h => (movedPath v h.1, h.2)) =
      (pushHoles shapes l).map (List.map (List.map (movedPath v))) := by
  induction l with
  | nil => intro shapes; rfl
  | cons h l ih =>
    intro shapes
    obtain ⟨h, p⟩ := h
    rw [List.map_cons]
    unfold pushHoles
    rw [List.getElem?_map]
    cases shapes[p]? with
    | none => rfl
    | some s =>
      simp only [Option.map_some, Option.bind_some]
      rw [← ih]
      congr 1
      rw [List.map_set]
      simp

theorem joinSortedHoles_shift (hx : MovesWith v x x') (shapes : List (List (List Pt))) (holes : List (List Pt))
    (anchors : List IdSeg) (cw : Bool) :
    joinSortedHoles x'.bind x'.sortI (shapes.map (List.map (movedPath v))) (holes.map (movedPath v))
        (anchors.map (·.shift v)) cw =
      (joinSortedHoles x.bind x.sortI shapes holes anchors cw).map (List.map (List.map (movedPath v))) := by
  unfold joinSortedHoles
  simp only [List.isEmpty_map]
  split
  · rfl
  · have key : scanJoin x'.bind x'.sortI (shapes.map (List.map (movedPath v))) (holes.map (movedPath v))
          (addSortByAngle (anchors.map (·.shift v))) cw =
        (scanJoin x.bind x.sortI shapes holes (addSortByAngle anchors) cw).map (List.map (List.map (movedPath v))) := by
      rw [addSortByAngle_shift]
      generalize addSortByAngle anchors = as
      unfold scanJoin bindSolve
      rw [List.head?_map, List.getLast?_map]
      cases as.head? with
      | none => rfl
      | some f =>
        cases as.getLast? with
        | none => rfl
        | some la =>
          simp only [Option.map_some, Option.bind_some, List.length_map]
          have e1 : (f.shift v).a.x = f.a.x + v.x := rfl
          have e2 : (la.shift v).a.x = la.a.x + v.x := rfl
          rw [e1, e2, floorSegments_shift, hx.sortI]
          have := bindLoop_shift (o := x.bind) (o' := x'.bind) hx.lookup shapes.length as
            (x.sortI (floorSegments shapes holes f.a.x la.a.x cw)) [] (List.replicate as.length 0)
          rw [List.map_nil] at this
          rw [this]
          cases bindLoop x.bind shapes.length as (x.sortI (floorSegments shapes holes f.a.x la.a.x cw)) []
            (List.replicate as.length 0) with
          | none => rfl
          | some ps =>
            simp only [Option.bind_some]
            split
            · rw [← pushHoles_shift]
              congr 1
              rw [List.zip_map_left]
              rfl
            · rfl
    rcases shapes with _ | ⟨s, _ | ⟨t, shapes⟩⟩
    · exact key
    · simp
    · exact key

/-- Extraction from the moved graph is the extraction, moved. -/
theorem extract_shift (hx : MovesWith v x x') (g : Graph) (r : OverlayRule) (cw : Bool) (m : Nat) (vis : List Bool) :
    extract x' (g.shift v) r cw m vis = (extract x g r cw m vis).map (List.map (List.map (movedPath v))) := by
  unfold extract extractContours
  have := extractLoop_shift v g r cw hx.clean m (2 * vis.length + 1) 0 vis Extracted.empty
  have e0 : Extracted.empty.shift v = Extracted.empty := rfl
  rw [e0] at this
  rw [this]
  cases extractLoop g r cw x.clean m (2 * vis.length + 1) 0 vis Extracted.empty with
  | none => rfl
  | some e =>
    simp only [Option.map_some, Option.bind_some]
    rw [← joinSortedHoles_shift hx]
    have e1 : (e.shift v).sorted = e.sorted := rfl
    have e2 : (e.shift v).holes = e.holes.map (movedPath v) := rfl
    have e3 : ((e.shift v).shapes.map fun c => [c]) = (e.shapes.map fun c => [c]).map (List.map (movedPath v)) := by
      simp [Extracted.shift, Function.comp_def]
    have e4 : ((e.shift v).anchors.map fun a => (⟨a.2.1, a.2.2, ⟨true, a.1⟩⟩ : IdSeg)) =
        (e.anchors.map fun a => (⟨a.2.1, a.2.2, ⟨true, a.1⟩⟩ : IdSeg)).map (·.shift v) := by
      simp [Extracted.shift, Function.comp_def, Seg.shift]
    rw [e1, e2, e3, e4, stableSort_shift v (fun s t => by simp)]
    congr 1
    split <;> rfl

end IOverlay
