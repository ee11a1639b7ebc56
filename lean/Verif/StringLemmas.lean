/-
Lemmas about the clipping walk.
-/
import Verif.Strings
import Verif.GraphLemmas
import Mathlib.Data.List.Perm.Basic

namespace IOverlay

/-! ### directed pieces and steps -/

/-- The directed pieces recorded in a link: left to right (`CLIP_BACK`) and right to left
(`CLIP_FORWARD`). -/
def Link.pieces (l : Link) : List (Pt × Pt) :=
  (if l.fill &&& CLIP_BACK == CLIP_BACK then [(l.a, l.b)] else []) ++
    (if l.fill &&& CLIP_FORWARD == CLIP_FORWARD then [(l.b, l.a)] else [])

/-- The steps of a polyline. -/
def pathSteps (path : List Pt) : List (Pt × Pt) := path.zip path.tail

/-- The steps in the direction in which the polyline is returned. -/
def dirSteps (isOut : Bool) (path : List Pt) : List (Pt × Pt) :=
  if isOut then pathSteps path else (pathSteps path).map Prod.swap

theorem pathSteps_append {path : List Pt} {a : Pt} (h : path.getLast? = some a) (b : Pt) :
    pathSteps (path ++ [b]) = pathSteps path ++ [(a, b)] := by
  unfold pathSteps
  induction path with
  | nil => simp at h
  | cons p ps ih =>
    cases ps with
    | nil =>
      simp at h; subst h; rfl
    | cons p' ps =>
      have := ih (by rw [List.getLast?_cons_cons] at h; exact h)
      simp only [List.cons_append, List.tail_cons, List.zip_cons_cons] at this ⊢
      rw [this]

theorem dirSteps_append (isOut : Bool) {path : List Pt} {a : Pt} (h : path.getLast? = some a) (b : Pt) :
    dirSteps isOut (path ++ [b]) = dirSteps isOut path ++ [if isOut then (a, b) else (b, a)] := by
  unfold dirSteps
  cases isOut
  · simp [pathSteps_append h]
  · simp [pathSteps_append h]

theorem pathSteps_reverse (path : List Pt) : (pathSteps path.reverse).Perm ((pathSteps path).map Prod.swap) := by
  induction path with
  | nil => exact List.Perm.refl _
  | cons p ps ih =>
    rw [List.reverse_cons]
    cases ps with
    | nil => exact List.Perm.refl _
    | cons p' ps =>
      have hl : (p' :: ps).reverse.getLast? = some p' := by simp
      rw [pathSteps_append hl]
      have : pathSteps (p :: p' :: ps) = (p, p') :: pathSteps (p' :: ps) := rfl
      rw [this, List.map_cons]
      exact (List.perm_append_singleton _ _).trans (List.Perm.cons _ ih)

/-! ### removal of one piece -/

theorem flatMap_set {α β : Type} (f : α → List β) : ∀ (l : List α) (i : Nat) (x x' : α) (p : β), l[i]? = some x →
    (f x).Perm (p :: f x') → (l.flatMap f).Perm (p :: (l.set i x').flatMap f) := by
  intro l
  induction l with
  | nil => intro i x x' p h; simp at h
  | cons y l ih =>
    intro i x x' p h hp
    cases i with
    | zero =>
      simp at h; subst h
      simp only [List.flatMap_cons, List.set_cons_zero]
      exact hp.append_right _
    | succ i =>
      simp only [List.flatMap_cons, List.set_cons_succ]
      refine (List.Perm.append_left _ (ih i x x' p (by simpa using h) hp)).trans ?_
      exact List.perm_middle

theorem bits_back (f : Fill) : (f &&& ~~~CLIP_BACK) &&& CLIP_BACK = 0#8 ∧
    (f &&& ~~~CLIP_BACK) &&& CLIP_FORWARD = f &&& CLIP_FORWARD := by revert f; decide +kernel
theorem bits_forward (f : Fill) : (f &&& ~~~CLIP_FORWARD) &&& CLIP_FORWARD = 0#8 ∧
    (f &&& ~~~CLIP_FORWARD) &&& CLIP_BACK = f &&& CLIP_BACK := by revert f; decide +kernel

theorem visitIfPossible_spec {l l' : Link} {fwd : Bool} (h : l.visitIfPossible fwd = some l') :
    l'.a = l.a ∧ l'.aId = l.aId ∧ l'.b = l.b ∧ l'.bId = l.bId ∧
      l.pieces.Perm ((if fwd then (l.b, l.a) else (l.a, l.b)) :: l'.pieces) := by
  have z1 : (0#8 == CLIP_BACK) = false := by decide
  have z2 : (0#8 == CLIP_FORWARD) = false := by decide
  unfold Link.visitIfPossible at h
  cases fwd
  · simp only [Bool.false_eq_true, if_false] at h
    split at h
    · rename_i hb
      obtain rfl := Option.some.inj h
      refine ⟨rfl, rfl, rfl, rfl, ?_⟩
      have := bits_back l.fill
      unfold Link.pieces
      simp only [this.1, this.2, hb, z1, if_true, Bool.false_eq_true, if_false]
      exact List.Perm.refl _
    · simp at h
  · simp only [if_true] at h
    split at h
    · rename_i hb
      obtain rfl := Option.some.inj h
      refine ⟨rfl, rfl, rfl, rfl, ?_⟩
      have := bits_forward l.fill
      unfold Link.pieces
      simp only [this.1, this.2, hb, z2, if_true, Bool.false_eq_true, if_false, List.append_nil]
      exact List.perm_append_comm
    · simp at h

theorem visitClip_spec {l : Link} (h : (l.fill &&& CLIP_ALL == 0#8) = false) :
    l.visitClip.1.a = l.a ∧ l.visitClip.1.aId = l.aId ∧ l.visitClip.1.b = l.b ∧ l.visitClip.1.bId = l.bId ∧
      l.pieces.Perm ((if l.visitClip.2 then (l.a, l.b) else (l.b, l.a)) :: l.visitClip.1.pieces) := by
  have z1 : (0#8 == CLIP_BACK) = false := by decide
  unfold Link.visitClip
  split
  · rename_i hb
    refine ⟨rfl, rfl, rfl, rfl, ?_⟩
    have := bits_back l.fill
    unfold Link.pieces
    simp only [this.1, this.2, hb, z1, if_true, Bool.false_eq_true, if_false]
    exact List.Perm.refl _
  · rename_i hb
    refine ⟨rfl, rfl, rfl, rfl, ?_⟩
    have key : ∀ f : Fill, (f &&& CLIP_ALL == 0#8) = false → ¬ (f &&& CLIP_BACK == CLIP_BACK) = true →
      (f &&& CLIP_FORWARD == CLIP_FORWARD) = true := by decide +kernel
    have hf := key l.fill h hb
    have hb' : (l.fill &&& CLIP_BACK == CLIP_BACK) = false := by simpa using hb
    have z2 : (0#8 &&& CLIP_BACK == CLIP_BACK) = false := by decide
    have z3 : (0#8 &&& CLIP_FORWARD == CLIP_FORWARD) = false := by decide
    unfold Link.pieces
    simp only [hf, hb', z2, z3, if_true, Bool.false_eq_true, if_false]
    exact List.Perm.refl _

theorem pieces_nil {l : Link} (h : (l.fill &&& CLIP_ALL == 0#8) = true) : l.pieces = [] := by
  have key : ∀ f : Fill, (f &&& CLIP_ALL == 0#8) = true → (f &&& CLIP_BACK == CLIP_BACK) = false ∧
      (f &&& CLIP_FORWARD == CLIP_FORWARD) = false := by decide +kernel
  obtain ⟨h1, h2⟩ := key _ h
  unfold Link.pieces
  rw [h1, h2]; rfl

theorem pieces_length (l : Link) : l.pieces.length ≤ 2 := by
  unfold Link.pieces
  split <;> split <;> simp

/-! ### the walk -/

/-- The links during the walk: those of the graph with some direction flags removed. -/
structure ClipInv (g : Graph) (links : List Link) : Prop where
  same : links.map (fun l => (l.a, l.aId, l.b, l.bId)) = g.links.map (fun l => (l.a, l.aId, l.b, l.bId))

theorem ClipInv.get {g : Graph} {links : List Link} (h : ClipInv g links) {i : Nat} {l : Link} (hl : links[i]? = some l) :
    ∃ m, g.links[i]? = some m ∧ l.a = m.a ∧ l.aId = m.aId ∧ l.b = m.b ∧ l.bId = m.bId := by
  have := congrArg (·[i]?) h.same
  simp only [List.getElem?_map, hl, Option.map_some] at this
  rcases hg : g.links[i]? with _ | m
  · rw [hg] at this; simp at this
  · rw [hg] at this
    simp only [Option.map_some, Option.some.injEq, Prod.mk.injEq] at this
    exact ⟨m, rfl, this⟩

theorem ClipInv.set {g : Graph} {links : List Link} (h : ClipInv g links) {i : Nat} {l l' : Link}
    (hl : links[i]? = some l) (ha : l'.a = l.a) (hai : l'.aId = l.aId) (hb : l'.b = l.b) (hbi : l'.bId = l.bId) :
    ClipInv g (links.set i l') := by
  constructor
  rw [← h.same, List.map_set]
  apply List.ext_getElem?
  intro j
  rw [List.getElem?_set]
  by_cases hij : i = j
  · subst hij
    have hi := (List.getElem?_eq_some_iff.1 hl).1
    rw [List.getElem?_map, hl]
    simp [hi, ha, hai, hb, hbi]
  · simp [hij]

/-- Links without recorded pieces stay so. -/
def Fewer (links links' : List Link) : Prop :=
  links'.length = links.length ∧ ∀ (j : Nat) (l l' : Link), links[j]? = some l → links'[j]? = some l' →
    l.pieces = [] → l'.pieces = []

theorem Fewer.refl (links : List Link) : Fewer links links :=
  ⟨rfl, fun j l l' h h' hn => by rw [h] at h'; rw [← Option.some.inj h']; exact hn⟩

theorem Fewer.trans {l m n : List Link} (h : Fewer l m) (h' : Fewer m n) : Fewer l n := by
  refine ⟨h'.1.trans h.1, fun j x z hx hz hn => ?_⟩
  have hj := (List.getElem?_eq_some_iff.1 hx).1
  obtain ⟨y, hy⟩ : ∃ y, m[j]? = some y := ⟨_, List.getElem?_eq_getElem (by rw [h.1]; exact hj)⟩
  exact h'.2 j y z hy hz (h.2 j x y hx hy hn)

theorem Fewer.set {links : List Link} {i : Nat} {l l' : Link} (hl : links[i]? = some l) {p : Pt × Pt}
    (hp : l.pieces.Perm (p :: l'.pieces)) : Fewer links (links.set i l') := by
  refine ⟨by simp, fun j x y hx hy hn => ?_⟩
  rw [List.getElem?_set] at hy
  by_cases hij : i = j
  · subst hij
    rw [hl] at hx
    obtain rfl := Option.some.inj hx
    rw [hn] at hp
    exact absurd hp.length_eq (by simp)
  · rw [if_neg hij, hx] at hy
    rw [← Option.some.inj hy]; exact hn

theorem findNextPoint_spec {g : Graph} {V : List Pt} (hg : GraphOk g V) {aId : Nat} {a : Pt} {isOut : Bool}
    (hv : V[aId]? = some a) : ∀ (is : List Nat) (links links' : List Link) (b : Nat × Pt), ClipInv g links →
    (∀ i ∈ is, ∃ l, g.links[i]? = some l ∧ (l.aId = aId ∨ l.bId = aId)) →
    findNextPoint aId a isOut is links = some (links', b) →
    ClipInv g links' ∧ Fewer links links' ∧ V[b.1]? = some b.2 ∧
      (links.flatMap Link.pieces).Perm ((if isOut then (a, b.2) else (b.2, a)) :: links'.flatMap Link.pieces) := by
  intro is
  induction is with
  | nil => intro links links' b _ _ h; simp [findNextPoint] at h
  | cons i is ih =>
    intro links links' b hI hmem h
    rw [findNextPoint] at h
    rcases hl : links[i]? with _ | l
    · rw [hl] at h
      exact ih links links' b hI (fun j hj => hmem j (List.mem_cons_of_mem _ hj)) h
    · rw [hl] at h
      simp only at h
      rcases hvp : l.visitIfPossible (isOut == decide ((l.otherEnd aId).2 < a)) with _ | l'
      · rw [hvp] at h
        exact ih links links' b hI (fun j hj => hmem j (List.mem_cons_of_mem _ hj)) h
      · rw [hvp] at h
        simp only [Option.some.injEq, Prod.mk.injEq] at h
        obtain ⟨rfl, rfl⟩ := h
        obtain ⟨h1, h2, h3, h4, h5⟩ := visitIfPossible_spec hvp
        obtain ⟨m, q1, q2, q3, q4, q5⟩ := hI.get hl
        obtain ⟨m', q1', q6⟩ := hmem i (by simp)
        rw [q1] at q1'
        obtain rfl := Option.some.inj q1'
        have mm := List.mem_of_getElem? q1
        have lt := hg.lt m mm
        have va := hg.aId m mm
        have vb := hg.bId m mm
        refine ⟨hI.set hl h1 h2 h3 h4, Fewer.set hl h5, ?_, ?_⟩
        · unfold Link.otherEnd
          split
          · rw [q5, q4]; exact vb
          · rw [q3, q2]; exact va
        · refine flatMap_set _ _ _ _ _ _ hl ?_
          refine h5.trans (List.Perm.of_eq ?_)
          congr 1
          unfold Link.otherEnd
          by_cases hc : l.aId = aId
          · rw [if_pos hc]
            have e : m.a = a := by
              rw [← q3, hc, hv] at va; exact (Option.some.inj va).symm
            have n1 : ¬ l.b < a := by rw [q4, ← e]; exact Pt.lt_asymm lt
            simp only [n1, decide_false]
            rw [q2, q4, e]
            cases isOut <;> simp
          · rw [if_neg hc]
            have hb : m.bId = aId := by
              rcases q6 with h | h
              · rw [← q3] at h; exact absurd h hc
              · exact h
            have e : m.b = a := by
              rw [hb, hv] at vb; exact (Option.some.inj vb).symm
            have n1 : l.a < a := by rw [q2, ← e]; exact lt
            simp only [n1, decide_true]
            rw [q2, q4, e]
            cases isOut <;> simp

theorem node_mem {g : Graph} {V : List Pt} (hg : GraphOk g V) (k : Nat) :
    ∀ i ∈ (g.nodes[k]?).elim [] Node.indices, ∃ l, g.links[i]? = some l ∧ (l.aId = k ∨ l.bId = k) := by
  intro i hi
  rcases hn : g.nodes[k]? with _ | nd
  · rw [hn] at hi; simp at hi
  · rw [hn] at hi
    obtain ⟨A, B, rfl, -, -, mA, mB⟩ := hg.idx k nd hn
    simp only [Option.elim] at hi
    rw [Node.indices_new, List.mem_append, mA, mB] at hi
    rcases hi with ⟨l, h1, h2⟩ | ⟨l, h1, h2⟩
    · exact ⟨l, h1, Or.inl h2⟩
    · exact ⟨l, h1, Or.inr h2⟩

theorem clipWalk_spec {g : Graph} {V : List Pt} (hg : GraphOk g V) (isOut : Bool) : ∀ (fuel aId : Nat) (a : Pt)
    (links : List Link) (path : List Pt), ClipInv g links → V[aId]? = some a → path.getLast? = some a →
    (links.flatMap Link.pieces).length < fuel →
    ∃ links' path', clipWalk g.nodes isOut fuel aId a links path = some (links', path') ∧ ClipInv g links' ∧
      Fewer links links' ∧ (∃ t, path' = path ++ t) ∧
      (dirSteps isOut path ++ links.flatMap Link.pieces).Perm (dirSteps isOut path' ++ links'.flatMap Link.pieces) := by
  intro fuel
  induction fuel with
  | zero => intro _ _ _ _ _ _ _ h; omega
  | succ fuel ih =>
    intro aId a links path hI hv hlast hf
    rw [clipWalk]
    rcases hn : findNextPoint aId a isOut ((g.nodes[aId]?).elim [] Node.indices) links with _ | ⟨links', b⟩
    · exact ⟨links, path, rfl, hI, Fewer.refl _, ⟨[], by simp⟩, List.Perm.refl _⟩
    · obtain ⟨h1, h2, h3, h4⟩ := findNextPoint_spec hg hv _ _ _ _ hI (node_mem hg aId) hn
      have hlen := h4.length_eq
      rw [List.length_cons] at hlen
      obtain ⟨links'', path', e1, e2, e3, ⟨t, e4⟩, e5⟩ := ih b.1 b.2 links' (path ++ [b.2]) h1 h3 (by simp) (by omega)
      refine ⟨links'', path', e1, e2, h2.trans e3, ⟨b.2 :: t, by rw [e4]; simp⟩, ?_⟩
      refine List.Perm.trans ?_ e5
      rw [dirSteps_append isOut hlast, List.append_assoc]
      exact List.Perm.append_left _ h4

theorem clipLoop_spec {g : Graph} {V : List Pt} (hg : GraphOk g V) : ∀ (fuel i : Nat) (links : List Link)
    (paths : List (List Pt)), ClipInv g links →
    (∀ j l, links[j]? = some l → j < i → l.pieces = []) →
    (links.length - i) + (links.flatMap Link.pieces).length < fuel →
    ∃ paths', clipLoop g.nodes fuel i links paths = some paths' ∧
      (∀ p ∈ paths', p ∈ paths ∨ 2 ≤ p.length) ∧
      (paths.flatMap pathSteps ++ links.flatMap Link.pieces).Perm (paths'.flatMap pathSteps) := by
  intro fuel
  induction fuel with
  | zero => intro _ _ _ _ _ h; omega
  | succ fuel ih =>
    intro i links paths hI hdone hf
    rw [clipLoop]
    rcases hl : links[i]? with _ | l
    · refine ⟨paths, rfl, fun p hp => Or.inl hp, ?_⟩
      have hi := List.getElem?_eq_none_iff.1 hl
      have : links.flatMap Link.pieces = [] := by
        rw [List.flatMap_eq_nil_iff]
        intro m hm
        obtain ⟨j, hj⟩ := List.getElem?_of_mem hm
        exact hdone j m hj (by have := (List.getElem?_eq_some_iff.1 hj).1; omega)
      rw [this, List.append_nil]
    · have hi := (List.getElem?_eq_some_iff.1 hl).1
      dsimp only
      by_cases hz : (l.fill &&& CLIP_ALL == 0#8) = true
      · rw [if_pos hz]
        refine ih (i + 1) links paths hI ?_ (by omega)
        intro j m hj hlt
        by_cases hji : j = i
        · subst hji
          rw [hl] at hj
          obtain rfl := Option.some.inj hj
          exact pieces_nil hz
        · exact hdone j m hj (by omega)
      · rw [if_neg hz]
        have hz' : (l.fill &&& CLIP_ALL == 0#8) = false := by simpa using hz
        obtain ⟨v1, v2, v3, v4, v5⟩ := visitClip_spec hz'
        generalize hv : l.visitClip = v at *
        have hI' := hI.set hl v1 v2 v3 v4
        have hp := flatMap_set Link.pieces links i l v.1 _ hl v5
        have hlen := hp.length_eq
        rw [List.length_cons] at hlen
        obtain ⟨m, q1, q2, q3, q4, q5⟩ := hI.get hl
        have mm := List.mem_of_getElem? q1
        have vb : V[l.bId]? = some l.b := by rw [q5, q4]; exact hg.bId m mm
        have hbound : ((links.set i v.1).flatMap Link.pieces).length ≤ 2 * links.length := by
          have : ∀ L : List Link, (L.flatMap Link.pieces).length ≤ 2 * L.length := by
            intro L
            induction L with
            | nil => simp
            | cons x L ihL =>
              rw [List.flatMap_cons, List.length_append, List.length_cons]
              have := pieces_length x
              omega
          have := this (links.set i v.1)
          rwa [List.length_set] at this
        obtain ⟨links', path', e1, e2, e3, ⟨t, e4⟩, e5⟩ := clipWalk_spec hg v.2 (2 * links.length + 1) l.bId l.b
          (links.set i v.1) [l.a, l.b] hI' vb (by simp) (by omega)
        rw [e1, Option.bind_some]
        -- the steps of the returned polyline
        have hst : (pathSteps (if v.2 then path' else path'.reverse)).Perm (dirSteps v.2 path') := by
          unfold dirSteps
          cases v.2
          · simpa using pathSteps_reverse path'
          · exact List.Perm.refl _
        have hd0 : dirSteps v.2 [l.a, l.b] = [if v.2 then (l.a, l.b) else (l.b, l.a)] := by
          unfold dirSteps
          cases v.2 <;> rfl
        have htot : (links.flatMap Link.pieces).Perm
            (pathSteps (if v.2 then path' else path'.reverse) ++ links'.flatMap Link.pieces) := by
          refine hp.trans ?_
          rw [hd0] at e5
          refine List.Perm.trans e5 (List.Perm.append_right _ hst.symm)
        have hlen2 := htot.length_eq
        have hpl : 2 ≤ path'.length := by rw [e4]; simp
        have hsl : 0 < (pathSteps (if v.2 then path' else path'.reverse)).length := by
          rw [hst.length_eq]
          unfold dirSteps pathSteps
          cases v.2 <;> simp [List.length_zip] <;> omega
        have hsl' : links'.length = links.length := by rw [e3.1, List.length_set]
        rw [List.length_append] at hlen2
        obtain ⟨paths', f1, f2, f3⟩ := ih i links' (paths ++ [if v.2 then path' else path'.reverse]) e2 (by
          intro j m hj hlt
          obtain ⟨lj, hlj⟩ : ∃ lj, links[j]? = some lj := ⟨_, List.getElem?_eq_getElem (by omega)⟩
          exact ((Fewer.set hl v5).trans e3).2 j lj m hlj hj (hdone j lj hlj hlt)) (by rw [hsl']; omega)
        refine ⟨paths', f1, ?_, ?_⟩
        · intro p hp
          rcases f2 p hp with h | h
          · rcases List.mem_append.1 h with h | h
            · exact Or.inl h
            · right
              rw [List.mem_singleton] at h
              rw [h]
              split
              · exact hpl
              · rw [List.length_reverse]; exact hpl
          · exact Or.inr h
        · refine List.Perm.trans ?_ f3
          rw [List.flatMap_append, List.flatMap_singleton, List.append_assoc]
          exact List.Perm.append_left _ htot

end IOverlay
