/-
The overlay graph: links, nodes and their construction (core/link.rs, core/graph.rs, core/node.rs).
-/
import Verif.Rules

namespace IOverlay
variable {C : Type}

/-- `OverlayLink` with its two `IdPoint`s, core/link.rs:13-18, geom/id_point.rs:4-8. -/
structure Link where
  a : Pt
  aId : Nat
  b : Pt
  bId : Nat
  fill : Fill
deriving DecidableEq, Repr

/-- `OverlayLink::other(node_id).point`, core/link.rs:26-29 (every use in the code takes only the
point). -/
def Link.other (l : Link) (node : Nat) : Pt := if l.aId = node then l.b else l.a

/-- `OverlayLink::is_direct`, core/link.rs:31-34. -/
def Link.isDirect (l : Link) : Bool := decide (l.a < l.b)

/-- `OverlayLinkBuilder::build_links`, core/link.rs:122-141: one link per included edge, in order, with
node ids still 0. `build_all_links` (core/link.rs:143-154) is the case `inc = fun _ => true`. -/
def buildLinks (inc : Fill → Bool) (segs : List (Seg C)) (fills : List Fill) : List Link :=
  (segs.zip fills).filterMap fun x => if inc x.2 then some ⟨x.1.a, 0, x.1.b, 0, x.2⟩ else none

/-- `OverlayNode`, core/node.rs:1-5. -/
inductive Node where
  | bridge (i j : Nat)
  | cross (l : List Nat)
deriving DecidableEq, Repr

/-- `OverlayNode::new`, core/node.rs:7-16. -/
def Node.new : List Nat → Node
  | [i, j] => .bridge i j
  | l => .cross l

/-- The link indices stored in a node. -/
def Node.indices : Node → List Nat
  | .bridge i j => [i, j]
  | .cross l => l

/-- `End { index, point }`, geom/end.rs:4-8, as a pair. -/
abbrev End := Nat × Pt

/-- The loop of `build_nodes_and_connect_links`, core/graph.rs:54-95. `a`, `b` are the current points,
`as` the links from `ai` on (index and left end), `bs` the sorted right ends from `bi` on; `next_a_cnt`
and `next_b_cnt` (the `size` functions, core/graph.rs:105-127) are the lengths of the runs of equal
points at the front. The result lists for each node the indices pushed for left ends and for right
ends. `none`: the loop did not finish within the given number of steps. -/
def nodesLoop : Nat → Pt → Pt → List End → List End → Option (List (List Nat × List Nat))
  | 0, _, _, _, _ => none
  | fuel + 1, a, b, as, bs =>
    if as.isEmpty && bs.isEmpty then some []
    else
      let na := as.takeWhile fun e => e.2 == a
      let nb := bs.takeWhile fun e => e.2 == b
      let cnt : List End × List End :=
        if a = b then (na, nb)
        else if !na.isEmpty && decide (a < b) then (na, [])
        else ([], nb)
      let as' := as.drop cnt.1.length
      let bs' := bs.drop cnt.2.length
      let a' := if cnt.1.isEmpty then a else (as'.head?.map Prod.snd).getD a
      let b' := if cnt.2.isEmpty then b else (bs'.head?.map Prod.snd).getD b
      (nodesLoop fuel a' b' as' bs').map fun r => (cnt.1.map Prod.fst, cnt.2.map Prod.fst) :: r

/-- The writes `links[ai].a.id = node_id` and `links[e.index].b.id = node_id`, core/graph.rs:68, 83. -/
def assignIds : Nat → List (List Nat × List Nat) → List Link → List Link
  | _, [], ls => ls
  | k, (ga, gb) :: gs, ls =>
    let ls1 := ga.foldl (fun ls i => ls.modify i fun l => { l with aId := k }) ls
    let ls2 := gb.foldl (fun ls i => ls.modify i fun l => { l with bId := k }) ls1
    assignIds (k + 1) gs ls2

/-- `OverlayGraph`, core/graph.rs:19-23 (the solver is a parameter of the functions using it). -/
structure Graph where
  links : List Link
  nodes : List Node
deriving DecidableEq, Repr

/-- A sort of the right ends (`smart_bin_sort_by` with the point order, core/graph.rs:43; unstable
when parallel). -/
structure EndSort (sortE : List End → List End) : Prop where
  perm : ∀ l, (sortE l).Perm l
  sorted : ∀ l, (sortE l).Pairwise fun e f => ¬ f.2 < e.2

/-- `OverlayGraph::new` with `build_nodes_and_connect_links`, core/graph.rs:27-98. -/
def Graph.new (sortE : List End → List End) (links : List Link) : Option Graph :=
  match links with
  | [] => some ⟨[], []⟩
  | l0 :: _ =>
    let as : List End := links.zipIdx.map fun x => (x.2, x.1.a)
    let bs : List End := sortE (links.zipIdx.map fun x => (x.2, x.1.b))
    let b := (bs.head?.map Prod.snd).getD l0.b
    (nodesLoop (as.length + bs.length + 1) l0.a b as bs).map fun gs =>
      ⟨assignIds 0 gs links, gs.map fun g => Node.new (g.1 ++ g.2)⟩

/-- Insertion by point (helper of `insertionEndSort`). -/
def insertEndPt (x : End) : List End → List End
  | [] => [x]
  | y :: r => if y.2 < x.2 then y :: insertEndPt x r else x :: y :: r

/-- A concrete `EndSort`. -/
def insertionEndSort (l : List End) : List End := l.foldr insertEndPt []

theorem insertEndPt_perm (x : End) (l : List End) : (insertEndPt x l).Perm (x :: l) := by
  induction l with
  | nil => exact List.Perm.refl _
  | cons y r ih =>
    unfold insertEndPt; split
    · exact (ih.cons y).trans (List.Perm.swap x y r)
    · exact List.Perm.refl _

theorem insertionEndSort_ok : EndSort insertionEndSort where
  perm := by
    intro l
    induction l with
    | nil => exact List.Perm.refl _
    | cons x l ih => exact (insertEndPt_perm x _).trans (ih.cons x)
  sorted := by
    intro l
    induction l with
    | nil => exact List.Pairwise.nil
    | cons x l ih =>
      change (insertEndPt x (insertionEndSort l)).Pairwise _
      generalize insertionEndSort l = m at ih
      induction m with
      | nil => simp [insertEndPt]
      | cons y r ihr =>
        obtain ⟨h1, h2⟩ := List.pairwise_cons.1 ih
        unfold insertEndPt; split
        · rename_i hlt
          refine List.pairwise_cons.2 ⟨fun z hz => ?_, ihr h2⟩
          rcases List.mem_cons.1 ((insertEndPt_perm x r).mem_iff.1 hz) with rfl | hz
          · exact Pt.lt_asymm hlt
          · exact h1 z hz
        · rename_i hlt
          refine List.pairwise_cons.2 ⟨fun z hz => ?_, ih⟩
          rcases List.mem_cons.1 hz with rfl | hz
          · exact hlt
          · intro hzx
            have := h1 z hz
            rcases Pt.lt_tri z.2 y.2 with h | h | h
            · exact this h
            · rw [h] at hzx; exact hlt hzx
            · exact hlt (Pt.lt_trans h hzx)

end IOverlay
