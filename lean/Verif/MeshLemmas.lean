/-
The edges registered for strokes and outlines form closed circuits. C48.
-/
import Verif.MeshSpec
import Verif.OffsetLemmas

namespace IOverlay
variable {T P : Type}

/-- The sum of a function of directed edges over offset edges, when it changes sign with the direction. -/
theorem boldAB_sum {g : Pt → Pt → Int} (hg : ∀ u v, g v u = - g u v) (p q : Pt) :
    (boldAB p q).c.subj * g (boldAB p q).a (boldAB p q).b = g p q := by
  unfold boldAB
  split
  · simp
  · rw [hg p q]; ring

theorem weakAB_sum {g : Pt → Pt → Int} (hg : ∀ u v, g v u = - g u v) (p q : Pt) :
    (weakAB p q).c.subj * g (weakAB p q).a (weakAB p q).b = g p q := by
  unfold weakAB
  split
  · simp
  · rw [hg p q]; ring

/-- A function of directed edges that changes sign with the direction. -/
def Anti (g : Pt → Pt → Int) : Prop := ∀ u v, g v u = - g u v

theorem Anti.self {g : Pt → Pt → Int} (hg : Anti g) (u : Pt) : g u u = 0 := by have := hg u u; omega

theorem anti_potential (f : Pt → Int) : Anti fun a b => f a - f b := fun _ _ => by ring

theorem anti_wind (q : QPt) : Anti fun a b => edgeWind a b q := fun u v => edgeWind_swap u v q

/-- The steps of the way from `p` through `ps` to `q`. -/
def waySteps (p : Pt) : List Pt → Pt → List (Pt × Pt)
  | [], q => [(p, q)]
  | m :: ps, q => (p, m) :: waySteps m ps q

theorem waySteps_append (p : Pt) (ps qs : List Pt) (q r : Pt) :
    waySteps p (ps ++ q :: qs) r = waySteps p ps q ++ waySteps q qs r := by
  induction ps generalizing p with
  | nil => rfl
  | cons m ps ih => rw [List.cons_append, waySteps, ih]; rfl

theorem polyEdges_way (p : Pt) (ps : List Pt) : polyEdges (p :: ps) = waySteps p ps p := by
  have : ∀ (l : List Pt) (m z : Pt), (m :: l).zip (l ++ [z]) = waySteps m l z := by
    intro l
    induction l with
    | nil => intro m z; rfl
    | cons a l ih => intro m z; rw [List.cons_append, List.zip_cons_cons, ih]; rfl
  exact this ps p p

theorem EdgesOf.nil (ds : List (Pt × Pt)) : EdgesOf ds [] := by intro e he; cases he

theorem EdgesOf.append {ds : List (Pt × Pt)} {l m : List (Seg CountOff)} (h : EdgesOf ds l) (h' : EdgesOf ds m) :
    EdgesOf ds (l ++ m) := by
  intro e he
  rcases List.mem_append.1 he with he | he
  · exact h e he
  · exact h' e he

theorem EdgesOf.mono {ds ds' : List (Pt × Pt)} {l : List (Seg CountOff)} (h : EdgesOf ds l) (hd : ∀ d ∈ ds, d ∈ ds') :
    EdgesOf ds' l := by
  intro e he
  obtain ⟨d, h1, h2⟩ := h e he
  exact ⟨d, hd d h1, h2⟩

theorem EdgesOf.of_perm {ds : List (Pt × Pt)} {l m : List (Seg CountOff)} (h : EdgesOf ds l) (hm : ∀ e ∈ m, e ∈ l) :
    EdgesOf ds m := fun e he => h e (hm e he)

theorem joins_bold (p q : Pt) : Joins (boldAB p q) p q := by
  unfold boldAB; split
  · exact Or.inl ⟨rfl, rfl⟩
  · exact Or.inr ⟨rfl, rfl⟩

theorem joins_weak (p q : Pt) : Joins (weakAB p q) p q := by
  unfold weakAB; split
  · exact Or.inl ⟨rfl, rfl⟩
  · exact Or.inr ⟨rfl, rfl⟩

theorem Joins.swap {e : Seg CountOff} {p q : Pt} (h : Joins e p q) : Joins e q p := h.symm

/-- Edges that are those of the way from `p` through `ps` to `q`: their sums are, and each joins two consecutive points. -/
structure Way (p : Pt) (ps : List Pt) (q : Pt) (l : List (Seg CountOff)) : Prop where
  sum : ∀ g, Anti g → segSum CountOff.subj g l = pathSum g q p ps
  edges : EdgesOf (waySteps p ps q) l

theorem pathSum_append (g : Pt → Pt → Int) (q r : Pt) (ps qs : List Pt) (p : Pt) :
    pathSum g r p (ps ++ q :: qs) = pathSum g q p ps + pathSum g r q qs := by
  induction ps generalizing p with
  | nil => rfl
  | cons m ps ih => rw [List.cons_append, pathSum, pathSum, ih]; ring

theorem pathSum_reverse {g : Pt → Pt → Int} (hg : Anti g) (ps : List Pt) (p q : Pt) :
    pathSum g p q ps.reverse = - pathSum g q p ps := by
  induction ps generalizing p with
  | nil => exact hg p q
  | cons m ps ih => rw [List.reverse_cons, pathSum_append, ih, pathSum, pathSum, hg p m]; ring

theorem Way.append {p q r : Pt} {ps qs : List Pt} {l m : List (Seg CountOff)} (h : Way p ps q l) (h' : Way q qs r m) :
    Way p (ps ++ q :: qs) r (l ++ m) := by
  constructor
  · intro g hg; rw [segSum_append, h.sum g hg, h'.sum g hg, pathSum_append]
  · rw [waySteps_append]
    exact (h.edges.mono fun d hd => List.mem_append_left _ hd).append (h'.edges.mono fun d hd => List.mem_append_right _ hd)

theorem way_bold (p q : Pt) : Way p [] q [boldAB p q] := by
  constructor
  · intro g hg
    rw [segSum_cons, segSum_nil, boldAB_sum hg]
    simp [pathSum]
  · intro e he
    rw [List.mem_singleton.1 he]
    exact ⟨_, List.mem_singleton.2 rfl, joins_bold p q⟩

theorem way_weak (p q : Pt) : Way p [] q [weakAB p q] := by
  constructor
  · intro g hg
    rw [segSum_cons, segSum_nil, weakAB_sum hg]
    simp [pathSum]
  · intro e he
    rw [List.mem_singleton.1 he]
    exact ⟨_, List.mem_singleton.2 rfl, joins_weak p q⟩

theorem way_nil (p : Pt) : Way p [] p [] := by
  refine ⟨fun g hg => ?_, EdgesOf.nil _⟩
  rw [segSum_nil, pathSum, hg.self]

theorem way_bold_ne (p q : Pt) : Way p [] q (if q ≠ p then [boldAB p q] else []) := by
  split
  · exact way_bold p q
  · rename_i h
    rw [ne_eq, not_not] at h
    rw [h]; exact way_nil p

theorem way_bold_ne' (p q : Pt) : Way p [] q (if p ≠ q then [boldAB p q] else []) := by
  split
  · exact way_bold p q
  · rename_i h
    rw [ne_eq, not_not] at h
    rw [h]; exact way_nil q

theorem way_bevel (ia ib : Pt) : Way ib [] ia (bevelEdge ia ib) := way_bold_ne ib ia

theorem way_cap (ps : List Pt) (a b : Pt) : Way a ps b ((capLoop a ps).1 ++ [boldAB (capLoop a ps).2 b]) := by
  induction ps generalizing a with
  | nil => exact way_bold a b
  | cons m rest ih =>
    rw [capLoop]
    exact (way_bold a m).append (ih m)

theorem Way.reverse {p q : Pt} {ps : List Pt} {l m : List (Seg CountOff)} (h : Way p ps q l)
    (hm : ∀ g, Anti g → segSum CountOff.subj g m = - segSum CountOff.subj g l)
    (he : ∀ e ∈ m, ∃ f ∈ l, Joins e f.a f.b) : Way q ps.reverse p m := by
  have hs : ∀ (ps : List Pt) (p : Pt), ∀ d ∈ waySteps p ps q, (d.2, d.1) ∈ waySteps q ps.reverse p := by
    intro ps
    induction ps with
    | nil => intro p d hd; rw [waySteps, List.mem_singleton] at hd; subst hd; exact List.mem_singleton.2 rfl
    | cons m ps ih =>
      intro p d hd
      rw [List.reverse_cons, waySteps_append]
      rcases List.mem_cons.1 hd with rfl | hd
      · exact List.mem_append_right _ (List.mem_singleton.2 rfl)
      · exact List.mem_append_left _ (ih m d hd)
  refine ⟨fun g hg => by rw [hm g hg, h.sum g hg, pathSum_reverse hg], fun e hem => ?_⟩
  obtain ⟨f, hf, h1⟩ := he e hem
  obtain ⟨d, hd, h2⟩ := h.edges f hf
  refine ⟨_, hs ps p d hd, ?_⟩
  unfold Joins at h1 h2 ⊢
  rcases h1 with ⟨a1, a2⟩ | ⟨a1, a2⟩ <;> rcases h2 with ⟨b1, b2⟩ | ⟨b1, b2⟩ <;> simp [a1, a2, b1, b2]

theorem way_arc (ps : List Pt) (a b : Pt) : Way a ps b
    ((arcLoop boldAB a ps).1 ++ (if (arcLoop boldAB a ps).2 ≠ b then [boldAB (arcLoop boldAB a ps).2 b] else [])) := by
  induction ps generalizing a with
  | nil => rw [arcLoop, List.nil_append]; exact way_bold_ne' a b
  | cons m rest ih =>
    rw [arcLoop]
    split
    · dsimp only
      exact (way_bold a m).append (ih m)
    · rename_i h
      rw [ne_eq, not_not] at h
      subst h
      have := (way_nil a).append (ih a)
      simpa using this

theorem way_arc_rev (ps : List Pt) (a b : Pt) : Way b ps.reverse a
    ((arcLoop (fun a b => boldAB b a) a ps).1 ++
      (if (arcLoop (fun a b => boldAB b a) a ps).2 ≠ b then
        [boldAB b (arcLoop (fun a b => boldAB b a) a ps).2] else [])) := by
  have key : ∀ (ps : List Pt) (a : Pt), (arcLoop (fun a b => boldAB b a) a ps).2 = (arcLoop boldAB a ps).2 ∧
      (∀ g, Anti g → segSum CountOff.subj g (arcLoop (fun a b => boldAB b a) a ps).1 =
        - segSum CountOff.subj g (arcLoop boldAB a ps).1) ∧
      ∀ e ∈ (arcLoop (fun a b => boldAB b a) a ps).1, ∃ f ∈ (arcLoop boldAB a ps).1, Joins e f.a f.b := by
    intro ps
    induction ps with
    | nil => intro a; exact ⟨rfl, fun g _ => by simp [arcLoop, segSum_nil], by simp [arcLoop]⟩
    | cons m rest ih =>
      intro a
      rw [arcLoop, arcLoop]
      split
      · obtain ⟨h1, h2, h3⟩ := ih m
        refine ⟨h1, fun g hg => ?_, fun e he => ?_⟩
        · dsimp only
          rw [segSum_cons, segSum_cons, boldAB_sum hg, boldAB_sum hg, h2 g hg, hg a m]; ring
        · dsimp only at he ⊢
          rcases List.mem_cons.1 he with rfl | he
          · refine ⟨_, List.mem_cons_self, ?_⟩
            have h1 := joins_bold m a
            have h2 := joins_bold a m
            unfold Joins at h1 h2 ⊢
            rcases h1 with ⟨a1, a2⟩ | ⟨a1, a2⟩ <;> rcases h2 with ⟨b1, b2⟩ | ⟨b1, b2⟩ <;> simp [a1, a2, b1, b2]
          · obtain ⟨f, f1, f2⟩ := h3 e he
            exact ⟨f, List.mem_cons_of_mem _ f1, f2⟩
      · exact ih a
  obtain ⟨h1, h2, h3⟩ := key ps a
  rw [h1]
  refine (way_arc ps a b).reverse (fun g hg => ?_) ?_
  · rw [segSum_append, segSum_append, h2 g hg]
    split
    · rw [segSum_cons, segSum_nil, segSum_cons, segSum_nil, boldAB_sum hg, boldAB_sum hg,
        hg (arcLoop boldAB a ps).2 b]; ring
    · rw [segSum_nil]; ring
  · intro e he
    rcases List.mem_append.1 he with he | he
    · obtain ⟨f, f1, f2⟩ := h3 e he
      exact ⟨f, List.mem_append_left _ f1, f2⟩
    · split at he
      · rename_i hne
        rw [List.mem_singleton.1 he, if_pos hne]
        refine ⟨_, List.mem_append_right _ (List.mem_singleton.2 rfl), ?_⟩
        have h1 := joins_bold b (arcLoop boldAB a ps).2
        have h2 := joins_bold (arcLoop boldAB a ps).2 b
        unfold Joins at h1 h2 ⊢
        rcases h1 with ⟨a1, a2⟩ | ⟨a1, a2⟩ <;> rcases h2 with ⟨b1, b2⟩ | ⟨b1, b2⟩ <;> simp [a1, a2, b1, b2]
      · cases he

section
variable (o : FloatOps T P)

/-- A join of a stroke: the edges of two ways, from the new section's top start through `top` to the old one's top
end, and from the old bottom end through `bot` to the new bottom start. -/
structure JoinWay (s0 s1 : Section P) (top bot : List Pt) (l : List (Seg CountOff)) : Prop where
  sum : ∀ g, Anti g → segSum CountOff.subj g l = pathSum g (o.toInt s0.bTop) (o.toInt s1.aTop) top +
    pathSum g (o.toInt s1.aBot) (o.toInt s0.bBot) bot
  edges : EdgesOf (waySteps (o.toInt s1.aTop) top (o.toInt s0.bTop) ++ waySteps (o.toInt s0.bBot) bot (o.toInt s1.aBot)) l

theorem JoinWay.topBot {s0 s1 : Section P} {top bot : List Pt} {l m : List (Seg CountOff)}
    (h : Way (o.toInt s1.aTop) top (o.toInt s0.bTop) l) (h' : Way (o.toInt s0.bBot) bot (o.toInt s1.aBot) m) :
    JoinWay o s0 s1 top bot (l ++ m) := by
  refine ⟨fun g hg => by rw [segSum_append, h.sum g hg, h'.sum g hg], ?_⟩
  exact (h.edges.mono fun d hd => List.mem_append_left _ hd).append (h'.edges.mono fun d hd => List.mem_append_right _ hd)

theorem JoinWay.botTop {s0 s1 : Section P} {top bot : List Pt} {l m : List (Seg CountOff)}
    (h : Way (o.toInt s0.bBot) bot (o.toInt s1.aBot) l) (h' : Way (o.toInt s1.aTop) top (o.toInt s0.bTop) m) :
    JoinWay o s0 s1 top bot (l ++ m) := by
  refine ⟨fun g hg => by rw [segSum_append, h.sum g hg, h'.sum g hg]; ring, ?_⟩
  exact (h.edges.mono fun d hd => List.mem_append_right _ hd).append (h'.edges.mono fun d hd => List.mem_append_left _ hd)

theorem way_joinTop (s0 s1 : Section P) : Way (o.toInt s1.aTop) [] (o.toInt s0.bTop) (o.joinTop s0 s1) := way_bevel _ _
theorem way_joinBot (s0 s1 : Section P) : Way (o.toInt s0.bBot) [] (o.toInt s1.aBot) (o.joinBot s0 s1) := way_bevel _ _

/-- The edges of a sharp miter. -/
theorem way_sharp (pa pb va vb a1 b1 : P) : Way (o.toInt pa) (o.miterPoints false pa pb a1 b1 (o.miterTip pa pb va vb))
    (o.toInt pb)
    (match o.sharp pa pb va vb with
      | .ab a b => [boldAB a b]
      | .acb a c b => [boldAB a c, boldAB c b]
      | .degenerate => []) := by
  unfold FloatOps.sharp FloatOps.miterPoints FloatOps.miterTip FloatOps.ahead
  dsimp only
  generalize (if o.lt (o.abs (o.add (o.y va) (o.y vb))) (o.abs (o.add (o.x va) (o.x vb))) = true then
      o.div (o.sub (o.x pb) (o.x pa)) (o.add (o.x va) (o.x vb))
      else o.div (o.sub (o.y pb) (o.y pa)) (o.add (o.y va) (o.y vb))) = k
  generalize o.toInt (o.fromXY (o.add (o.x pa) (o.mul k (o.x va))) (o.add (o.y pa) (o.mul k (o.y va)))) = ic
  by_cases h : o.toInt pa = o.toInt pb
  · rw [if_pos h, if_pos h, h]; exact way_nil _
  · rw [if_neg h, if_neg h, if_neg (by simp)]
    by_cases h2 : o.toInt pa = ic ∨ o.toInt pb = ic
    · rw [if_pos h2, if_pos h2]; exact way_bold _ _
    · rw [if_neg h2, if_neg h2]; exact (way_bold _ ic).append (way_bold ic _)

theorem way_sharp_rev (pa pb va vb a1 b1 : P) :
    Way (o.toInt pb) (o.miterPoints false pa pb a1 b1 (o.miterTip pa pb va vb)).reverse (o.toInt pa)
    (match o.sharp pa pb va vb with
      | .ab a b => [boldAB b a]
      | .acb a c b => [boldAB c a, boldAB b c]
      | .degenerate => []) := by
  have hj : ∀ p q, Joins (boldAB q p) (boldAB p q).a (boldAB p q).b := by
    intro p q
    have h1 := joins_bold q p
    have h2 := joins_bold p q
    unfold Joins at h1 h2 ⊢
    rcases h1 with ⟨a1, a2⟩ | ⟨a1, a2⟩ <;> rcases h2 with ⟨b1, b2⟩ | ⟨b1, b2⟩ <;> simp [a1, a2, b1, b2]
  refine (way_sharp o pa pb va vb a1 b1).reverse (fun g hg => ?_) ?_ <;> cases o.sharp pa pb va vb with
  | degenerate => simp [segSum_nil]
  | ab a b =>
    first
      | (simp only [segSum_cons, segSum_nil, boldAB_sum hg]; rw [hg a b]; ring)
      | (intro e he; rw [List.mem_singleton.1 he]; exact ⟨_, List.mem_singleton.2 rfl, hj a b⟩)
  | acb a c b =>
    first
      | (simp only [segSum_cons, segSum_nil, boldAB_sum hg]; rw [hg a c, hg c b]; ring)
      | (intro e he
         simp only [List.mem_cons, List.not_mem_nil, or_false] at he
         rcases he with rfl | rfl
         · exact ⟨boldAB a c, by simp, hj a c⟩
         · exact ⟨boldAB c b, by simp, hj c b⟩)

theorem way_three_rev (ia iac ibc ib : Pt) : Way ib [ibc, iac] ia
    ((if ia ≠ iac then [boldAB iac ia] else []) ++ (if iac ≠ ibc then [boldAB ibc iac] else []) ++
      (if ibc ≠ ib then [boldAB ib ibc] else [])) := by
  have h := ((way_bold_ne ib ibc).append (way_bold_ne ibc iac)).append (way_bold_ne iac ia)
  refine ⟨fun g hg => ?_, h.edges.of_perm ?_⟩
  · rw [segSum_append, segSum_append, (way_bold_ne iac ia).sum g hg, (way_bold_ne ibc iac).sum g hg,
      (way_bold_ne ib ibc).sum g hg]
    simp only [pathSum]
    ring
  · intro e he
    simp only [List.mem_append] at he ⊢
    tauto

theorem way_three (ia iac ibc ib : Pt) : Way ia [iac, ibc] ib
    ((if ia ≠ iac then [boldAB ia iac] else []) ++ (if iac ≠ ibc then [boldAB iac ibc] else []) ++
      (if ibc ≠ ib then [boldAB ibc ib] else [])) :=
  ((way_bold_ne' ia iac).append (way_bold_ne' iac ibc)).append (way_bold_ne' ibc ib)

theorem arcPoints_arc (cs sn radius : T) (center : P) (n : Nat) (v : P) :
    o.arcPoints cs sn radius center n v = (List.range n).map fun i => o.arcPoint (cs, sn) center v radius (i + 1) := by
  induction n generalizing v with
  | zero => rfl
  | succ n ih =>
    rw [FloatOps.arcPoints, ih, List.range_succ_eq_map, List.map_cons, List.map_map]
    rfl

theorem outerSide_nil (s0 s1 : Section P) : OuterSide o s0 s1 [] [] := by unfold OuterSide; split <;> rfl

theorem outerSide_top {s0 s1 : Section P} (ht : o.lt o.zero (o.cross s0.dir s1.dir) = false) (top : List Pt) :
    OuterSide o s0 s1 top [] := by unfold OuterSide; rw [ht]; rfl

theorem outerSide_bot {s0 s1 : Section P} (ht : o.lt o.zero (o.cross s0.dir s1.dir) = true) (bot : List Pt) :
    OuterSide o s0 s1 [] bot := by unfold OuterSide; rw [ht]; rfl

theorem miterJoin_way (limitDot maxLength : T) (e : Bool) (s0 s1 : Section P) :
    ∃ top bot, OuterSide o s0 s1 top bot ∧ (Join.miter limitDot maxLength e).Extra o s0 s1 top bot ∧
      JoinWay o s0 s1 top bot (o.miterJoin limitDot maxLength s0 s1) := by
  unfold FloatOps.miterJoin Join.Extra
  dsimp only
  split
  · exact ⟨[], [], outerSide_nil o s0 s1, ⟨rfl, rfl⟩, .topBot o (way_joinTop o s0 s1) (way_joinBot o s0 s1)⟩
  · generalize ht : o.lt o.zero (o.cross s0.dir s1.dir) = turn
    generalize o.lt (o.dot s0.dir s1.dir) limitDot = limited
    cases turn
    · simp only [Bool.false_eq_true, if_false]
      refine ⟨_, [], outerSide_top o ht _, ⟨rfl, rfl⟩, ?_⟩
      cases limited
      · simp only [Bool.false_eq_true, if_false]
        exact .botTop o (way_joinBot o s0 s1) (way_sharp_rev o _ _ _ _ _ _)
      · simp only [if_true]
        unfold FloatOps.miterPoints
        split
        · rename_i h
          rw [← List.append_nil (o.joinBot s0 s1)]
          refine .botTop o (way_joinBot o s0 s1) ?_
          rw [h]; exact way_nil _
        · rw [List.append_assoc, List.append_assoc]
          refine .botTop o (way_joinBot o s0 s1) ?_
          rw [← List.append_assoc]
          exact way_three_rev _ _ _ _
    · simp only [if_true]
      refine ⟨[], _, outerSide_bot o ht _, ⟨rfl, rfl⟩, ?_⟩
      cases limited
      · simp only [Bool.false_eq_true, if_false]
        exact .topBot o (way_joinTop o s0 s1) (way_sharp_rev o _ _ _ _ _ _)
      · simp only [if_true]
        unfold FloatOps.miterPoints
        split
        · rename_i h
          rw [← List.append_nil (o.joinTop s0 s1)]
          refine .topBot o (way_joinTop o s0 s1) ?_
          rw [h]; exact way_nil _
        · rw [List.append_assoc, List.append_assoc]
          refine .topBot o (way_joinTop o s0 s1) ?_
          rw [← List.append_assoc]
          exact way_three_rev _ _ _ _

theorem roundJoin_way (limitDot radius : T) (e : Bool) (s0 s1 : Section P) :
    ∃ top bot, OuterSide o s0 s1 top bot ∧ (Join.round limitDot radius e).Extra o s0 s1 top bot ∧
      JoinWay o s0 s1 top bot (o.roundJoin limitDot radius s0 s1) := by
  unfold FloatOps.roundJoin Join.Extra
  dsimp only
  split
  · exact ⟨[], [], outerSide_nil o s0 s1, ⟨rfl, rfl⟩, .topBot o (way_joinTop o s0 s1) (way_joinBot o s0 s1)⟩
  · rw [List.append_assoc]
    generalize ht : o.lt o.zero (o.cross s0.dir s1.dir) = turn
    rw [arcPoints_arc]
    cases turn
    · exact ⟨_, [], outerSide_top o ht _, ⟨rfl, rfl⟩, .botTop o (way_joinBot o s0 s1) (way_arc_rev _ _ _)⟩
    · exact ⟨[], _, outerSide_bot o ht _, ⟨rfl, rfl⟩, .topBot o (way_joinTop o s0 s1) (way_arc_rev _ _ _)⟩

theorem addJoin_way (j : Join T) (s0 s1 : Section P) :
    ∃ top bot, OuterSide o s0 s1 top bot ∧ j.Extra o s0 s1 top bot ∧
      JoinWay o s0 s1 top bot (o.addJoin j s0 s1) := by
  cases j with
  | bevel => exact ⟨[], [], outerSide_nil o s0 s1, ⟨rfl, rfl⟩, .topBot o (way_joinTop o s0 s1) (way_joinBot o s0 s1)⟩
  | miter l m e => exact miterJoin_way o l m e s0 s1
  | round l r e => exact roundJoin_way o l r e s0 s1

theorem addSection_way (s : Section P) {g : Pt → Pt → Int} (hg : Anti g) :
    segSum CountOff.subj g (o.addSection s) =
      g (o.toInt s.bTop) (o.toInt s.aTop) + g (o.toInt s.aBot) (o.toInt s.bBot) := by
  unfold FloatOps.addSection
  rw [segSum_cons, segSum_cons, segSum_nil, boldAB_sum hg, boldAB_sum hg]
  ring

theorem addToStart_way (cap : CapPoints P) (s : Section P) :
    Way (o.toInt s.aTop) ((cap.getD []).map fun p =>
      o.toInt (o.vAdd (o.rotate (o.neg (o.x s.dir)) (o.neg (o.y s.dir)) p) s.a)) (o.toInt s.aBot)
      (o.addToStart cap s) := way_cap _ _ _

theorem addToEnd_way (cap : CapPoints P) (s : Section P) :
    Way (o.toInt s.bBot) ((cap.getD []).map fun p =>
      o.toInt (o.vAdd (o.rotate (o.x s.dir) (o.y s.dir) p) s.b)) (o.toInt s.bTop) (o.addToEnd cap s) := way_cap _ _ _

/-! ### pieces -/

/-- Sum over the edges of a polygon. -/
def polySum (g : Pt → Pt → Int) (c : List Pt) : Int :=
  match c with
  | [] => 0
  | p :: ps => pathSum g p p ps

theorem polyWind_eq_sum (c : List Pt) (q : QPt) : polyWind c q = polySum (fun a b => edgeWind a b q) c := by
  cases c with
  | nil => rfl
  | cons p ps =>
    rw [polyWind_eq_path]
    show pathWind q (p :: (ps ++ [p])) = pathSum (fun a b => edgeWind a b q) p p ps
    generalize h : p = z
    rw [show pathSum (fun a b => edgeWind a b q) z z ps = pathSum (fun a b => edgeWind a b q) z p ps by rw [h]]
    nth_rw 1 [← h]
    clear h
    induction ps generalizing p with
    | nil => simp [pathWind, pathSum]
    | cons m ps ih => rw [List.cons_append, pathWind, ih, pathSum]

theorem polySum_anti_potential (f : Pt → Int) (c : List Pt) : polySum (fun a b => f a - f b) c = 0 := by
  cases c with
  | nil => rfl
  | cons p ps =>
    show pathSum (fun a b => f a - f b) p p ps = 0
    rw [pathSum_potential]; ring

/-- Edges that are those of closed polygons: their sums are, and each is an edge of one of the polygons. -/
structure Circuits (cs : List (List Pt)) (l : List (Seg CountOff)) : Prop where
  sum : ∀ g, Anti g → segSum CountOff.subj g l = (cs.map (polySum g)).sum
  edges : EdgesOf (cs.flatMap polyEdges) l

theorem Circuits.nil : Circuits [] [] := ⟨fun _ _ => rfl, EdgesOf.nil _⟩

theorem Circuits.closed {cs : List (List Pt)} {l : List (Seg CountOff)} (h : Circuits cs l) :
    Closed CountOff.subj l := by
  intro f
  rw [h.sum _ (anti_potential f)]
  clear h
  induction cs with
  | nil => rfl
  | cons c cs ih => rw [List.map_cons, List.sum_cons, polySum_anti_potential]; simpa using ih

theorem Circuits.wind {cs : List (List Pt)} {l : List (Seg CountOff)} (h : Circuits cs l) (q : QPt) :
    segsWind CountOff.subj l q = polysWind cs q := by
  rw [segsWind_eq_segSum, h.sum _ (anti_wind q)]
  unfold polysWind
  congr 1
  exact List.map_congr_left fun c _ => (polyWind_eq_sum c q).symm

theorem Circuits.append {cs ds : List (List Pt)} {l m : List (Seg CountOff)} (h : Circuits cs l) (h' : Circuits ds m) :
    Circuits (cs ++ ds) (l ++ m) := by
  refine ⟨fun g hg => ?_, ?_⟩
  · rw [segSum_append, h.sum g hg, h'.sum g hg, List.map_append, List.sum_append]
  · rw [List.flatMap_append]
    exact (h.edges.mono fun d hd => List.mem_append_left _ hd).append (h'.edges.mono fun d hd => List.mem_append_right _ hd)

theorem quad_sum {g : Pt → Pt → Int} (s : Section P) : polySum g (o.quad s) =
    g (o.toInt s.aBot) (o.toInt s.bBot) + (g (o.toInt s.bBot) (o.toInt s.bTop) + (g (o.toInt s.bTop) (o.toInt s.aTop) +
      g (o.toInt s.aTop) (o.toInt s.aBot))) := rfl

theorem joint_sum {g : Pt → Pt → Int} (s0 s1 : Section P) (top bot : List Pt) : polySum g (o.joint s0 s1 top bot) =
    pathSum g (o.toInt s1.aBot) (o.toInt s0.bBot) bot + g (o.toInt s1.aBot) (o.toInt s1.aTop) +
      pathSum g (o.toInt s0.bTop) (o.toInt s1.aTop) top + g (o.toInt s0.bTop) (o.toInt s0.bBot) := by
  unfold FloatOps.joint polySum
  dsimp only [List.cons_append]
  rw [List.append_assoc, List.cons_append, List.cons_append, pathSum_append, pathSum, pathSum_append, pathSum]
  ring

theorem quad_edges (s : Section P) : EdgesOf (polyEdges (o.quad s)) (o.addSection s) := by
  intro e he
  unfold FloatOps.quad
  rw [polyEdges_way]
  simp only [FloatOps.addSection, List.mem_cons, List.not_mem_nil, or_false] at he
  rcases he with rfl | rfl
  · exact ⟨(o.toInt s.bTop, o.toInt s.aTop), by simp [waySteps], joins_bold _ _⟩
  · exact ⟨(o.toInt s.aBot, o.toInt s.bBot), by simp [waySteps], joins_bold _ _⟩

theorem joint_edges {s0 s1 : Section P} {top bot : List Pt} {l : List (Seg CountOff)} (h : JoinWay o s0 s1 top bot l) :
    EdgesOf (polyEdges (o.joint s0 s1 top bot)) l := by
  refine h.edges.mono fun d hd => ?_
  unfold FloatOps.joint
  dsimp only [List.cons_append]
  rw [polyEdges_way, List.append_assoc, List.cons_append, List.cons_append, waySteps_append, waySteps, waySteps_append]
  simp only [List.mem_append, List.mem_cons] at hd ⊢
  tauto

/-- Consecutive sections of a path. -/
def FloatOps.sections (radius : T) (s0 : Section P) (ip0 : Pt) : List P → List (Section P)
  | [] => [s0]
  | p :: rest =>
    if o.toInt p = ip0 then sections radius s0 ip0 rest
    else s0 :: sections radius (o.section radius s0.b p) (o.toInt p) rest

theorem sections_head (radius : T) (s0 : Section P) (ip0 : Pt) (l : List P) :
    ∃ t, o.sections radius s0 ip0 l = s0 :: t := by
  induction l with
  | nil => exact ⟨[], rfl⟩
  | cons p rest ih =>
    rw [FloatOps.sections]
    split
    · exact ih
    · exact ⟨_, rfl⟩

theorem sectionLoop_last (radius : T) (j : Join T) : ∀ (l : List P) (s0 : Section P) (ip0 : Pt),
    (o.sections radius s0 ip0 l).getLast? = some (o.sectionLoop radius j s0 ip0 l).2 := by
  intro l
  induction l with
  | nil => intro s0 ip0; rfl
  | cons p rest ih =>
    intro s0 ip0
    rw [FloatOps.sections, FloatOps.sectionLoop]
    split
    · exact ih s0 ip0
    · dsimp only
      rw [List.getLast?_cons, ih]
      simp

/-- The edges of the sections and joins are those of the pieces, up to the two open ends. -/
theorem sectionLoop_pieces (radius : T) (j : Join T) : ∀ (l : List P) (s0 : Section P) (ip0 : Pt),
    ∃ cs, Pieces o j (o.sections radius s0 ip0 l) cs ∧ (∀ g, Anti g →
      segSum CountOff.subj g (o.addSection s0 ++ (o.sectionLoop radius j s0 ip0 l).1) =
        (cs.map (polySum g)).sum - g (o.toInt s0.aTop) (o.toInt s0.aBot) -
          g (o.toInt (o.sectionLoop radius j s0 ip0 l).2.bBot) (o.toInt (o.sectionLoop radius j s0 ip0 l).2.bTop)) ∧
      EdgesOf (cs.flatMap polyEdges) (o.addSection s0 ++ (o.sectionLoop radius j s0 ip0 l).1) := by
  intro l
  induction l with
  | nil =>
    intro s0 ip0
    refine ⟨[o.quad s0], .one s0, fun g hg => ?_, ?_⟩
    · rw [FloatOps.sectionLoop, List.append_nil, addSection_way o s0 hg, List.map_cons, List.map_nil, List.sum_cons,
        List.sum_nil, quad_sum]
      ring
    · rw [FloatOps.sectionLoop, List.append_nil, List.flatMap_cons, List.flatMap_nil, List.append_nil]
      exact quad_edges o s0
  | cons p rest ih =>
    intro s0 ip0
    rw [FloatOps.sections, FloatOps.sectionLoop]
    split
    · exact ih s0 ip0
    · dsimp only
      obtain ⟨cs, h1, h2, h3⟩ := ih (o.section radius s0.b p) (o.toInt p)
      obtain ⟨top, bot, j1, j2, j3⟩ := addJoin_way o j s0 (o.section radius s0.b p)
      obtain ⟨t, ht⟩ := sections_head o radius (o.section radius s0.b p) (o.toInt p) rest
      refine ⟨o.quad s0 :: o.joint s0 (o.section radius s0.b p) top bot :: cs, ?_, fun g hg => ?_, ?_⟩
      · rw [ht] at h1 ⊢
        exact .cons j1 j2 h1
      · have h2 := h2 g hg
        rw [segSum_append, List.append_assoc, segSum_append, h2, j3.sum g hg, addSection_way o s0 hg,
          List.map_cons, List.map_cons, List.sum_cons, List.sum_cons, quad_sum, joint_sum,
          hg (o.toInt s0.bTop) (o.toInt s0.bBot), hg (o.toInt (o.section radius s0.b p).aTop)]
        ring
      · rw [List.append_assoc, List.flatMap_cons, List.flatMap_cons]
        exact ((quad_edges o s0).mono fun d hd => List.mem_append_left _ hd).append
          (((joint_edges o j3).mono fun d hd => List.mem_append_right _ (List.mem_append_left _ hd)).append
            (h3.mono fun d hd => List.mem_append_right _ (List.mem_append_right _ hd)))

theorem capPiece_sum {g : Pt → Pt → Int} (p q : Pt) (ps : List Pt) :
    polySum g (p :: ps ++ [q]) = pathSum g q p ps + g q p := by
  show pathSum g p p (ps ++ [q]) = _
  rw [pathSum_append]; rfl

theorem capPiece_edges {p q : Pt} {ps : List Pt} {l : List (Seg CountOff)} (h : Way p ps q l) :
    EdgesOf (polyEdges (p :: ps ++ [q])) l := by
  refine h.edges.mono fun d hd => ?_
  rw [List.cons_append, polyEdges_way, waySteps_append]
  exact List.mem_append_left _ hd

theorem dedupFrom_skip (ip : Pt) (l : List P) : o.dedupFrom ip l =
    match o.skipEqual ip l with | [] => [] | p :: rest => p :: o.dedupFrom (o.toInt p) rest := by
  induction l with
  | nil => rfl
  | cons p rest ih =>
    rw [FloatOps.dedupFrom, FloatOps.skipEqual]
    split
    · exact ih
    · rfl

theorem sections_eq (radius : T) (l : List P) (s0 : Section P) (ip0 : Pt) :
    o.sections radius s0 ip0 l = s0 :: o.sectionsFrom radius s0.b (o.dedupFrom ip0 l) := by
  induction l generalizing s0 ip0 with
  | nil => rfl
  | cons p rest ih =>
    rw [FloatOps.sections, FloatOps.dedupFrom]
    split
    · exact ih s0 ip0
    · rw [ih]; rfl

/-- An open path is a circuit of its pieces. -/
theorem openSegments_circuits {radius : T} {j : Join T} {c0 c1 : CapPoints P} {path : List P}
    {segs : List (Seg CountOff)} (h : o.openSegments radius j c0 c1 path = some segs) :
    ∃ p0 rest, path = p0 :: rest ∧ rest ≠ [] ∧
      ((o.sectionsFrom radius p0 (o.dedupFrom (o.toInt p0) rest) = [] ∧ segs = []) ∨
      ∃ s0 sn cs, (o.sectionsFrom radius p0 (o.dedupFrom (o.toInt p0) rest)).head? = some s0 ∧
        (o.sectionsFrom radius p0 (o.dedupFrom (o.toInt p0) rest)).getLast? = some sn ∧
        Pieces o j (o.sectionsFrom radius p0 (o.dedupFrom (o.toInt p0) rest)) cs ∧
        Circuits (o.startPiece c0 s0 :: cs ++ [o.endPiece c1 sn]) segs) := by
  unfold FloatOps.openSegments at h
  split at h
  · cases h
  · cases h
  · rename_i p0 rest0 hne
    refine ⟨p0, rest0, rfl, by rintro rfl; exact hne rfl, ?_⟩
    rw [dedupFrom_skip]
    split at h
    · rename_i e
      cases h; exact Or.inl ⟨by rw [e]; rfl, rfl⟩
    · cases h
      rename_i p rest e
      right
      rw [e]
      have es : o.sectionsFrom radius p0 (p :: o.dedupFrom (o.toInt p) rest) =
          o.sections radius (o.section radius p0 p) (o.toInt p) rest := by rw [sections_eq]; rfl
      obtain ⟨cs, h1, h2, h3⟩ := sectionLoop_pieces o radius j rest (o.section radius p0 p) (o.toInt p)
      refine ⟨o.section radius p0 p, _, cs, rfl, by rw [es]; exact sectionLoop_last o radius j _ _ _, by rw [es]; exact h1,
        fun g hg => ?_, ?_⟩
      · rw [segSum_append, List.append_assoc, segSum_append, (addToStart_way o c0 _).sum g hg, h2 g hg,
          (addToEnd_way o c1 _).sum g hg, List.cons_append, List.map_cons, List.sum_cons, List.map_append, List.sum_append,
          List.map_cons, List.map_nil, List.sum_cons, List.sum_nil]
        unfold FloatOps.startPiece FloatOps.endPiece
        rw [capPiece_sum, capPiece_sum, hg (o.toInt (o.section radius p0 p).aTop),
          hg (o.toInt (o.sectionLoop radius j (o.section radius p0 p) (o.toInt p) rest).2.bBot)]
        ring
      · rw [List.append_assoc (o.addToStart _ _), List.cons_append, List.flatMap_cons, List.flatMap_append]
        refine (((capPiece_edges (addToStart_way o c0 _)).mono fun d hd => List.mem_append_left _ hd).append
          (h3.mono fun d hd => List.mem_append_right _ (List.mem_append_left _ hd))).append
          ((capPiece_edges (addToEnd_way o c1 _)).mono fun d hd => List.mem_append_right _ (List.mem_append_right _ ?_))
        rw [List.flatMap_cons, List.flatMap_nil, List.append_nil]
        exact hd

/-- A closed path is a circuit of its pieces. -/
theorem closedSegments_circuits (radius : T) (j : Join T) (path : List P) :
    (o.closedSections radius path = [] ∧ o.closedSegments radius j path = []) ∨
      ∃ s0 sn cs top bot, (o.closedSections radius path).head? = some s0 ∧
        (o.closedSections radius path).getLast? = some sn ∧ Pieces o j (o.closedSections radius path) cs ∧
        OuterSide o sn s0 top bot ∧ j.Extra o sn s0 top bot ∧
        Circuits (cs ++ [o.joint sn s0 top bot]) (o.closedSegments radius j path) := by
  unfold FloatOps.closedSegments
  split
  · exact Or.inl ⟨rfl, rfl⟩
  · left
    refine ⟨?_, rfl⟩
    simp [FloatOps.closedSections, FloatOps.dedupFrom, FloatOps.sectionsFrom]
  · rename_i p0 p1 rest0
    dsimp only
    have hlast : (p0 :: p1 :: rest0).getLast? = some ((p1 :: rest0).getLast (by simp)) := by
      rw [List.getLast?_cons_cons, List.getLast?_eq_getLast_of_ne_nil (by simp)]
    unfold FloatOps.closedSections
    rw [hlast]
    dsimp only
    rw [dedupFrom_skip]
    split
    · rename_i e
      rw [e]; exact Or.inl ⟨rfl, rfl⟩
    · rename_i p rest e
      right
      rw [e]
      have es : ∀ l : P, o.sectionsFrom radius l (p :: o.dedupFrom (o.toInt p) rest) =
          o.sections radius (o.section radius l p) (o.toInt p) rest := by intro l; rw [sections_eq]; rfl
      dsimp only
      rw [es]
      generalize hs : o.section radius ((p1 :: rest0).getLast (by simp)) p = s0
      obtain ⟨cs, h1, h2, h3⟩ := sectionLoop_pieces o radius j rest s0 (o.toInt p)
      obtain ⟨top, bot, j1, j2, j3⟩ := addJoin_way o j (o.sectionLoop radius j s0 (o.toInt p) rest).2 s0
      refine ⟨s0, _, cs, top, bot, ?_, sectionLoop_last o radius j _ _ _, h1, j1, j2, fun g hg => ?_, ?_⟩
      · obtain ⟨t, ht⟩ := sections_head o radius s0 (o.toInt p) rest
        rw [ht]; rfl
      · rw [segSum_append, h2 g hg, j3.sum g hg, List.map_append, List.sum_append, List.map_cons, List.map_nil,
          List.sum_cons, List.sum_nil, joint_sum, hg (o.toInt s0.aTop),
          hg (o.toInt (o.sectionLoop radius j s0 (o.toInt p) rest).2.bBot)]
        ring
      · rw [List.flatMap_append, List.flatMap_cons, List.flatMap_nil, List.append_nil]
        exact (h3.mono fun d hd => List.mem_append_left _ hd).append
          ((joint_edges o j3).mono fun d hd => List.mem_append_right _ hd)

/-! ### outlines -/

theorem way_joinWeak (s0 s1 : OSection P) : Way (o.toInt s0.bTop) [] (o.toInt s1.aTop) (o.joinWeak s0 s1) := by
  unfold FloatOps.joinWeak
  dsimp only
  split
  · exact way_weak _ _
  · rename_i h
    rw [ne_eq, not_not] at h
    rw [h]; exact way_nil _

theorem oAddJoin_way (j : Join T) (s0 s1 : OSection P) : ∃ ps, j.OExtra o s0 s1 ps ∧
    Way (o.toInt s0.bTop) ps (o.toInt s1.aTop) (o.oAddJoin j s0 s1) := by
  cases j with
  | bevel => exact ⟨[], rfl, way_joinWeak o s0 s1⟩
  | miter l m e =>
    unfold FloatOps.oAddJoin
    dsimp only
    unfold FloatOps.oMiterJoin
    dsimp only
    split
    · rename_i h
      exact ⟨[], by rw [Join.OExtra, if_pos h], way_joinWeak o s0 s1⟩
    · rename_i hn
      split
      · rename_i h
        exact ⟨[], by rw [Join.OExtra, if_neg hn, if_pos h], way_joinWeak o s0 s1⟩
      · rename_i h
        refine ⟨_, by rw [Join.OExtra, if_neg hn, if_neg h], ?_⟩
        have hne : o.toInt s0.bTop ≠ o.toInt s1.aTop := by
          intro e
          rw [e] at h
          simp [sqrDist] at h
        split
        · rename_i hl
          unfold FloatOps.miterPoints
          rw [if_neg hne, if_pos hl]
          exact way_three _ _ _ _
        · rename_i hl
          rw [Bool.not_eq_true] at hl
          rw [hl]
          exact way_sharp o _ _ _ _ _ _
  | round l r e =>
    unfold FloatOps.oAddJoin
    dsimp only
    unfold FloatOps.oRoundJoin
    dsimp only
    split
    · rename_i h
      exact ⟨[], by rw [Join.OExtra, if_pos h], way_joinWeak o s0 s1⟩
    · rename_i hn
      split
      · rename_i h
        exact ⟨[], by rw [Join.OExtra, if_neg hn, if_pos h], way_joinWeak o s0 s1⟩
      · rename_i h
        refine ⟨_, by rw [Join.OExtra, if_neg hn, if_neg h], ?_⟩
        rw [arcPoints_arc]
        exact way_arc _ _ _

/-- Consecutive sections of a contour. -/
def FloatOps.oSections (radius : T) (s0 : OSection P) (ip0 : Pt) : List P → List (OSection P)
  | [] => [s0]
  | p :: rest =>
    if o.toInt p = ip0 then oSections radius s0 ip0 rest
    else s0 :: oSections radius (o.oSection radius s0.b p) (o.toInt p) rest

theorem oAddSection_way (s : OSection P) : Way (o.toInt s.aTop) [] (o.toInt s.bTop) (o.oAddSection s) := way_bold _ _

theorem oSections_head (radius : T) (s0 : OSection P) (ip0 : Pt) (l : List P) :
    ∃ t, o.oSections radius s0 ip0 l = s0 :: t := by
  induction l with
  | nil => exact ⟨[], rfl⟩
  | cons p rest ih =>
    rw [FloatOps.oSections]
    split
    · exact ih
    · exact ⟨_, rfl⟩

theorem oLoop_way (radius : T) (j : Join T) (z : OSection P) : ∀ (l : List P) (s0 : OSection P) (ip0 : Pt),
    ∃ c, Shifted o j z (o.oSections radius s0 ip0 l) (o.toInt s0.aTop :: c) ∧
      Way (o.toInt s0.aTop) c (o.toInt z.aTop)
        (o.oAddSection s0 ++ (o.oLoop radius j s0 ip0 l).1 ++ o.oAddJoin j (o.oLoop radius j s0 ip0 l).2 z) := by
  intro l
  induction l with
  | nil =>
    intro s0 ip0
    obtain ⟨ps, h1, h2⟩ := oAddJoin_way o j s0 z
    refine ⟨o.toInt s0.bTop :: ps, .one s0 h1, ?_⟩
    rw [FloatOps.oLoop, List.append_nil]
    exact (oAddSection_way o s0).append h2
  | cons p rest ih =>
    intro s0 ip0
    rw [FloatOps.oSections, FloatOps.oLoop]
    split
    · exact ih s0 ip0
    · dsimp only
      obtain ⟨c, h1, h2⟩ := ih (o.oSection radius s0.b p) (o.toInt p)
      obtain ⟨ps, h3, h4⟩ := oAddJoin_way o j s0 (o.oSection radius s0.b p)
      refine ⟨o.toInt s0.bTop :: ps ++ o.toInt (o.oSection radius s0.b p).aTop :: c, ?_, ?_⟩
      · obtain ⟨t, ht⟩ := oSections_head o radius (o.oSection radius s0.b p) (o.toInt p) rest
        rw [ht] at h1 ⊢
        exact .cons s0 _ h3 h1
      · have := (oAddSection_way o s0).append (h4.append h2)
        rw [List.nil_append] at this
        simpa only [List.append_assoc, List.cons_append] using this

theorem oSections_eq (radius : T) (l : List P) (s0 : OSection P) (ip0 : Pt) :
    o.oSections radius s0 ip0 l = s0 :: o.oSectionsFrom radius s0.b (o.dedupFrom ip0 l) := by
  induction l generalizing s0 ip0 with
  | nil => rfl
  | cons p rest ih =>
    rw [FloatOps.oSections, FloatOps.dedupFrom]
    split
    · exact ih s0 ip0
    · rw [ih]; rfl

/-- The edges of an outline are those of one closed contour. -/
theorem outlineSegments_circuits (radius : T) (j : Join T) (path : List P) :
    (o.oClosedSections radius path = [] ∧ o.outlineSegments radius j path = []) ∨
    ∃ s0 c, (o.oClosedSections radius path).head? = some s0 ∧ Shifted o j s0 (o.oClosedSections radius path) c ∧
      Circuits [c] (o.outlineSegments radius j path) := by
  unfold FloatOps.outlineSegments
  split
  · exact Or.inl ⟨rfl, rfl⟩
  · left
    refine ⟨?_, rfl⟩
    simp [FloatOps.oClosedSections, FloatOps.dedupFrom, FloatOps.oSectionsFrom]
  · rename_i p0 p1 rest0
    dsimp only
    have hlast : (p0 :: p1 :: rest0).getLast? = some ((p1 :: rest0).getLast (by simp)) := by
      rw [List.getLast?_cons_cons, List.getLast?_eq_getLast_of_ne_nil (by simp)]
    unfold FloatOps.oClosedSections
    rw [hlast]
    dsimp only
    rw [dedupFrom_skip]
    split
    · rename_i e
      rw [e]; exact Or.inl ⟨rfl, rfl⟩
    · rename_i p rest e
      right
      rw [e]
      have es : ∀ l : P, o.oSectionsFrom radius l (p :: o.dedupFrom (o.toInt p) rest) =
          o.oSections radius (o.oSection radius l p) (o.toInt p) rest := by intro l; rw [oSections_eq]; rfl
      dsimp only
      rw [es]
      generalize hs : o.oSection radius ((p1 :: rest0).getLast (by simp)) p = s0
      obtain ⟨c, h1, h2⟩ := oLoop_way o radius j s0 rest s0 (o.toInt p)
      refine ⟨s0, _, ?_, h1, fun g hg => ?_, ?_⟩
      · obtain ⟨t, ht⟩ := oSections_head o radius s0 (o.toInt p) rest
        rw [ht]; rfl
      · rw [h2.sum g hg]
        simp [polySum]
      · rw [List.flatMap_cons, List.flatMap_nil, List.append_nil, polyEdges_way]
        exact h2.edges

end

end IOverlay
