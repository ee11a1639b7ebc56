import Verif.Apply
import Verif.Box
import Verif.SplitLoop

namespace IOverlay

variable {C : Type}

theorem Mark.lt_trans {m n k : Mark} (h : m.lt n) (h' : n.lt k) : m.lt k := by
  unfold Mark.lt at *
  rcases h with h | ⟨h, g⟩ <;> rcases h' with h' | ⟨h', g'⟩
  · left; omega
  · left; omega
  · left; omega
  · right; exact ⟨by omega, Pt.lt_trans g g'⟩

theorem Mark.lt_irrefl (m : Mark) : ¬ m.lt m := by
  unfold Mark.lt
  rintro (h | ⟨-, h⟩)
  · omega
  · exact Pt.lt_irrefl _ h

theorem Mark.eq_of_not_lt {m n : Mark} (h : ¬ m.lt n) (h' : ¬ n.lt m) : m = n := by
  unfold Mark.lt at *
  have hi : m.index = n.index := by omega
  have h1 : ¬ m.point < n.point := fun h1 => h (Or.inr ⟨hi, h1⟩)
  have h2 : ¬ n.point < m.point := fun h2 => h' (Or.inr ⟨hi.symm, h2⟩)
  rw [Pt.lt_def] at h1 h2
  rcases m with ⟨i, x, y⟩
  rcases n with ⟨j, x', y'⟩
  simp only [Mark.mk.injEq, Pt.mk.injEq] at *
  omega

theorem mem_dedupMarks (m : Mark) : ∀ l, m ∈ dedupMarks l ↔ m ∈ l
  | [] => by simp [dedupMarks]
  | [n] => by simp [dedupMarks]
  | n :: k :: rest => by
    rw [dedupMarks]
    have ih := mem_dedupMarks m (k :: rest)
    split
    · rename_i h; rw [ih, h]; simp
    · rw [List.mem_cons, ih, List.mem_cons (a := m) (b := n)]

theorem dedupMarks_strict : ∀ l : List Mark, (l.Pairwise fun m n => ¬ n.lt m) → (dedupMarks l).Pairwise Mark.lt
  | [], _ => List.Pairwise.nil
  | [n], _ => List.pairwise_singleton _ _
  | n :: k :: rest, h => by
    have hp := List.pairwise_cons.1 h
    have ih := dedupMarks_strict (k :: rest) hp.2
    rw [dedupMarks]
    split
    · exact ih
    · rename_i hne
      refine List.pairwise_cons.2 ⟨?_, ih⟩
      have hnk : n.lt k := by
        by_contra hc
        exact hne (Mark.eq_of_not_lt hc (hp.1 k (by simp)))
      intro m hm
      rw [mem_dedupMarks] at hm
      rcases List.mem_cons.1 hm with rfl | hm
      · exact hnk
      · by_contra hc
        have h1 := (List.pairwise_cons.1 hp.2).1 m hm
        have h2 := hp.1 m (by simp [hm])
        have := Mark.eq_of_not_lt hc h2
        subst this
        exact h1 hnk

theorem markSorted_ext {l l' : List Mark} (h : l.Pairwise Mark.lt) (h' : l'.Pairwise Mark.lt)
    (hm : ∀ m, m ∈ l ↔ m ∈ l') : l = l' := by
  have nd : ∀ l : List Mark, l.Pairwise Mark.lt → l.Nodup := fun l h =>
    h.imp (S := fun a b => a ≠ b) fun {a b} hab e => Mark.lt_irrefl a (by rw [← e] at hab; exact hab)
  have hp : l.Perm l' := (List.perm_ext_iff_of_nodup (nd l h) (nd l' h')).2 hm
  exact hp.eq_of_pairwise (fun a b _ _ h1 h2 => absurd (Mark.lt_trans h1 h2) (Mark.lt_irrefl a)) h h'

/-- Marks grouped by index. -/
def grouped (F : Nat → List Pt) (i n : Nat) : List Mark := (List.range' i n).flatMap fun k => (F k).map (Mark.mk k)

theorem grouped_zero (F : Nat → List Pt) (i : Nat) : grouped F i 0 = [] := rfl

theorem grouped_succ (F : Nat → List Pt) (i n : Nat) :
    grouped F i (n + 1) = (F i).map (Mark.mk i) ++ grouped F (i + 1) n := by
  unfold grouped; rw [List.range'_succ, List.flatMap_cons]

theorem mem_grouped {F : Nat → List Pt} {i n : Nat} {m : Mark} :
    m ∈ grouped F i n ↔ i ≤ m.index ∧ m.index < i + n ∧ m.point ∈ F m.index := by
  unfold grouped
  simp only [List.mem_flatMap, List.mem_range'_1, List.mem_map]
  constructor
  · rintro ⟨k, ⟨h1, h2⟩, p, hp, rfl⟩; exact ⟨h1, h2, hp⟩
  · rintro ⟨h1, h2, h3⟩; exact ⟨m.index, ⟨h1, h2⟩, m.point, h3, rfl⟩

theorem grouped_strict (F : Nat → List Pt) (h : ∀ k, (F k).Pairwise (· < ·)) (n : Nat) : ∀ i,
    (grouped F i n).Pairwise Mark.lt := by
  induction n with
  | zero => intro i; exact List.Pairwise.nil
  | succ n ih =>
    intro i
    rw [grouped_succ, List.pairwise_append]
    refine ⟨?_, ih _, ?_⟩
    · rw [List.pairwise_map]
      exact (h i).imp fun hab => Or.inr ⟨rfl, hab⟩
    · intro m hm k hk
      obtain ⟨p, -, rfl⟩ := List.mem_map.1 hm
      have := (mem_grouped.1 hk).1
      left; dsimp only; omega

/-- One sort of all marks and `dedup` gives the groups of each index. -/
theorem dedup_sorted_eq {srt : List Mark → List Mark} (hs : MarkSort srt) (marks : List Mark) (n : Nat)
    (hi : ∀ m ∈ marks, m.index < n) : dedupMarks (srt marks) = grouped (fun i => pointsOf i marks) 0 n := by
  refine markSorted_ext (dedupMarks_strict _ (hs.sorted _)) (grouped_strict _ (fun k => pointsOf_sorted _ _) _ _) ?_
  intro m
  rw [mem_dedupMarks, (hs.perm _).mem_iff, mem_grouped, mem_pointsOf]
  constructor
  · intro h; exact ⟨by omega, by simpa using hi m h, h⟩
  · exact fun h => h.2.2

/-- The marks of edge `i` in the order along the edge. -/
def alongEdge (marks : List Mark) (segs : List (Seg C)) (i : Nat) : List Pt :=
  match segs[i]?, pointsOf i marks with
  | some s, m :: rest => subSort (rest.length + 1) s.a.y s.b (m :: rest)
  | _, _ => []

theorem splitRun {F : Nat → List Pt} {i : Nat} {p : Pt} {l : List Pt} (hF : F i = p :: l) (n : Nat) :
    grouped F i (n + 1) = ⟨i, p⟩ :: (l.map (Mark.mk i) ++ grouped F (i + 1) n) := by
  rw [grouped_succ, hF]; rfl

theorem takeRun (i : Nat) (l : List Pt) (F : Nat → List Pt) (n : Nat) :
    (l.map (Mark.mk i) ++ grouped F (i + 1) n).takeWhile (fun k => k.index == i) = l.map (Mark.mk i) ∧
    (l.map (Mark.mk i) ++ grouped F (i + 1) n).dropWhile (fun k => k.index == i) = grouped F (i + 1) n := by
  induction l with
  | nil =>
    simp only [List.map_nil, List.nil_append]
    have : ∀ l : List Mark, (∀ m ∈ l, i + 1 ≤ m.index) → l.takeWhile (fun k => k.index == i) = [] ∧
        l.dropWhile (fun k => k.index == i) = l := by
      intro l hl
      cases l with
      | nil => simp
      | cons m l =>
        have := hl m (by simp)
        have : (m.index == i) = false := by simp; omega
        simp [List.takeWhile_cons, List.dropWhile_cons, this]
    exact this _ fun m hm => (mem_grouped.1 hm).1
  | cons p l ih =>
    simp only [List.map_cons, List.cons_append, List.takeWhile_cons, List.dropWhile_cons, beq_self_eq_true, if_true]
    exact ⟨by rw [ih.1], ih.2⟩

theorem grouped_skip {F : Nat → List Pt} {i : Nat} (h : F i = []) (n : Nat) : grouped F i (n + 1) = grouped F (i + 1) n := by
  rw [grouped_succ, h]; rfl

theorem map_point (i : Nat) (l : List Pt) : (l.map (Mark.mk i)).map Mark.point = l := by
  rw [List.map_map]; exact List.map_id'' (fun _ => rfl) l

theorem sortGroups_grouped (segs : List (Seg C)) (marks : List Mark) (n : Nat) : ∀ i fuel, i + n = segs.length →
    (grouped (fun i => pointsOf i marks) i n).length < fuel →
    sortGroups segs fuel (grouped (fun i => pointsOf i marks) i n) = some (grouped (alongEdge marks segs) i n) := by
  induction n with
  | zero =>
    intro i fuel _ hf
    rw [grouped_zero] at hf
    obtain ⟨f, rfl⟩ : ∃ f, fuel = f + 1 := ⟨fuel - 1, by simp at hf; omega⟩
    rfl
  | succ n ih =>
    intro i fuel hi hf
    have hlt : i < segs.length := by omega
    have hs : segs[i]? = some segs[i] := List.getElem?_eq_getElem hlt
    cases hp : pointsOf i marks with
    | nil =>
      have ha : alongEdge marks segs i = [] := by unfold alongEdge; rw [hs, hp]
      rw [grouped_skip hp] at hf ⊢
      rw [grouped_skip ha]
      exact ih (i + 1) fuel (by omega) hf
    | cons p l =>
      have ha : alongEdge marks segs i = subSort (l.length + 1) segs[i].a.y segs[i].b (p :: l) := by
        unfold alongEdge; rw [hs, hp]
      rw [splitRun hp] at hf ⊢
      obtain ⟨f, rfl⟩ : ∃ f, fuel = f + 1 := ⟨fuel - 1, by simp at hf; omega⟩
      rw [sortGroups]
      dsimp only
      rw [(takeRun i l _ n).1, (takeRun i l _ n).2, hs]
      dsimp only
      rw [ih (i + 1) f (by omega) (by simp at hf; omega), grouped_succ, ha, Option.map_some, map_point, List.length_map]

/-- What the sorted and filtered marks are. -/
theorem sortAndFilter_eq {srt : List Mark → List Mark} (hs : MarkSort srt) (marks : List Mark) (segs : List (Seg C))
    (hne : marks ≠ []) (hi : ∀ m ∈ marks, m.index < segs.length) :
    sortAndFilter srt segs marks = some (grouped (alongEdge marks segs) 0 segs.length) := by
  unfold sortAndFilter
  rw [dedup_sorted_eq hs marks segs.length hi]
  split
  · rename_i h
    obtain ⟨m, l, rfl⟩ := List.exists_cons_of_ne_nil hne
    have : m ∈ grouped (fun i => pointsOf i (m :: l)) 0 segs.length :=
      mem_grouped.2 ⟨by omega, by simpa using hi m (by simp), (mem_pointsOf _ _ _).2 (by simp)⟩
    rw [h] at this; simp at this
  · exact sortGroups_grouped segs marks _ _ _ (by omega) (by omega)

theorem splitSeg_along [WindingCount C] {marks : List Mark} {segs : List (Seg C)} {i : Nat} {s : Seg C} (h : segs[i]? = some s) :
    splitSeg marks i s = match alongEdge marks segs i with
      | [] => [s]
      | l => chainSegs s.c s.b s.a l := by
  unfold splitSeg alongEdge
  rw [h]
  cases hp : pointsOf i marks with
  | nil => rfl
  | cons m rest =>
    dsimp only
    have hl := (subSort_perm (rest.length + 1) s.a.y s.b (m :: rest)).length_eq
    split
    · rename_i h0; rw [h0] at hl; simp at hl
    · rfl

theorem getLast_index {i : Nat} (l : List Pt) (m : Mark) (hm : m.index = i) :
    ((l.map (Mark.mk i)).getLast?.getD m).index = i := by
  cases h : (l.map (Mark.mk i)).getLast? with
  | none => exact hm
  | some k =>
    have := List.mem_of_getLast? h
    obtain ⟨p, -, rfl⟩ := List.mem_map.1 this
    rfl

/-- The cursor is in step with the remaining marks. -/
def AtCursor (i : Nat) (G : List Mark) (mj : Mark) (ms : List Mark) : Prop :=
  G = mj :: ms ∨ (G = [] ∧ ms = [] ∧ mj.index < i)

theorem AtCursor.head {i : Nat} {G : List Mark} {m : Mark} (hm : m.index < i) :
    AtCursor i G (G.head?.getD m) G.tail := by
  cases G with
  | nil => exact Or.inr ⟨rfl, rfl, hm⟩
  | cons k G => exact Or.inl rfl

theorem cursor_skip {F : Nat → List Pt} {i n : Nat} (h : F i = []) {mj : Mark} {ms : List Mark}
    (hc : AtCursor i (grouped F i (n + 1)) mj ms) : i ≠ mj.index ∧ AtCursor (i + 1) (grouped F (i + 1) n) mj ms := by
  rw [grouped_skip h] at hc
  rcases hc with hc | ⟨h1, h2, h3⟩
  · have : mj ∈ grouped F (i + 1) n := by rw [hc]; simp
    have := (mem_grouped.1 this).1
    exact ⟨by omega, Or.inl hc⟩
  · exact ⟨by omega, Or.inr ⟨h1, h2, by omega⟩⟩

theorem cursor_take {F : Nat → List Pt} {i n : Nat} {p : Pt} {l : List Pt} (h : F i = p :: l) {mj : Mark} {ms : List Mark}
    (hc : AtCursor i (grouped F i (n + 1)) mj ms) :
    mj = ⟨i, p⟩ ∧ (ms.takeWhile fun k => k.index == mj.index) = l.map (Mark.mk i) ∧
    (ms.dropWhile fun k => k.index == mj.index) = grouped F (i + 1) n := by
  rw [splitRun h] at hc
  rcases hc with hc | ⟨h1, -, -⟩
  · obtain ⟨rfl, rfl⟩ := List.cons.inj hc
    exact ⟨rfl, takeRun i l F n⟩
  · simp at h1

theorem emit_eq [WindingCount C] (marks : List Mark) (all : List (Seg C)) : ∀ (segs : List (Seg C)) (i : Nat) (mj : Mark)
    (ms : List Mark), (∀ k, segs[k]? = all[i + k]?) →
    AtCursor i (grouped (alongEdge marks all) i segs.length) mj ms → emit i segs mj ms = splitAll marks i segs := by
  intro segs
  induction segs with
  | nil => intro i mj ms _ _; rfl
  | cons s segs ih =>
    intro i mj ms hk hc
    have h0 : all[i]? = some s := by have := hk 0; simpa using this.symm
    have hk' : ∀ k, segs[k]? = all[i + 1 + k]? := by
      intro k; have := hk (k + 1); rw [List.getElem?_cons_succ] at this; rw [this]; congr 1; omega
    rw [emit, splitAll, splitSeg_along h0]
    rw [List.length_cons] at hc
    cases ha : alongEdge marks all i with
    | nil =>
      obtain ⟨h1, h2⟩ := cursor_skip ha hc
      rw [if_pos h1, ih (i + 1) mj ms hk' h2]
      rfl
    | cons p l =>
      obtain ⟨rfl, h2, h3⟩ := cursor_take ha hc
      rw [if_neg (by simp)]
      dsimp only
      dsimp only at h2 h3
      rw [h2, h3, map_point]
      rw [ih (i + 1) _ _ hk' (AtCursor.head (by rw [getLast_index (i := i) l ⟨i, p⟩ rfl]; omega))]

theorem createValidate_ax [WindingCount C] (p q : Pt) (c : C) : (createValidate p q c).a.x = min p.x q.x := by
  unfold createValidate
  split
  · rename_i h; rw [Pt.lt_def] at h; dsimp only; omega
  · rename_i h; rw [Pt.lt_def] at h; dsimp only; omega

theorem chainXs_eq [WindingCount C] (c : C) (b : Pt) (l : List Pt) : ∀ p,
    chainXs b p l = (chainSegs c b p l).map fun s => s.a.x := by
  induction l with
  | nil => intro p; simp [chainXs, chainSegs, createValidate_ax]
  | cons m l ih => intro p; rw [chainXs, chainSegs, List.map_cons, createValidate_ax, ih]

/-- `init_bins` counts exactly the pieces that are written later. -/
theorem emitX_eq [WindingCount C] : ∀ (segs : List (Seg C)) (i : Nat) (mj : Mark) (ms : List Mark),
    emitX i segs mj ms = (emit i segs mj ms).map fun s => s.a.x := by
  intro segs
  induction segs with
  | nil => intro i mj ms; rfl
  | cons s segs ih =>
    intro i mj ms
    rw [emitX, emit]
    split
    · rw [ih]; rfl
    · dsimp only
      rw [List.map_append, ← chainXs_eq, ih]

/-! ### Bins -/

theorem range_split {k n : Nat} (h : k < n) : List.range n = List.range k ++ k :: List.range' (k + 1) (n - k - 1) := by
  rw [List.range_eq_range', List.range_eq_range']
  have e : n = k + ((n - k - 1) + 1) := by omega
  conv_lhs => rw [e, ← List.range'_append_1, List.range'_succ]
  simp

theorem map_range_set {α : Type} (f f' : Nat → α) {n k : Nat} (h : ∀ b, b ≠ k → f' b = f b) :
    ((List.range n).map f).set k (f' k) = (List.range n).map f' := by
  apply List.ext_getElem?
  intro b
  rw [List.getElem?_set]
  by_cases hb : k = b
  · subst hb
    by_cases hk : k < n
    · simp [hk]
    · simp [hk]
  · rw [if_neg hb]
    by_cases hk : b < n
    · simp [hk, h b (Ne.symm hb)]
    · simp [hk]

/-- How many of the values have the key `b`. -/
def cnt {α : Type} (K : α → Nat) (b : Nat) (l : List α) : Nat := (l.filter fun x => K x == b).length

theorem cnt_cons {α : Type} (K : α → Nat) (b : Nat) (x : α) (l : List α) :
    cnt K b (x :: l) = (if K x = b then 1 else 0) + cnt K b l := by
  unfold cnt
  rw [List.filter_cons]
  by_cases h : K x = b
  · simp [h]; omega
  · simp [h]

theorem countAll_eq (idx : Int → Nat) (n : Nat) : ∀ (xs : List Int) (d : Nat → Nat), (∀ x ∈ xs, idx x < n) →
    countAll idx ((List.range n).map fun b => ⟨0, d b⟩) xs = some ((List.range n).map fun b => ⟨0, d b + cnt idx b xs⟩) := by
  intro xs
  induction xs with
  | nil => intro d _; simp [countAll, cnt]
  | cons x xs ih =>
    intro d hx
    have hk := hx x (by simp)
    rw [countAll, countBin]
    rw [List.getElem?_map, List.getElem?_range hk]
    dsimp only [Option.map_some, Option.bind_some]
    have := map_range_set (fun b => (⟨0, d b⟩ : Bin)) (fun b => (⟨0, d b + if idx x = b then 1 else 0⟩ : Bin)) (n := n) (k := idx x)
      (by intro b hb; simp [Ne.symm hb])
    simp only [if_true] at this
    rw [this, ih _ fun y hy => hx y (by simp [hy])]
    congr 1
    apply List.map_congr_left
    intro b _
    rw [cnt_cons]
    simp only [Bin.mk.injEq, true_and]
    omega

theorem setOffsets_eq (d : Nat → Nat) (z : Nat → Nat) (n : Nat) : ∀ i o,
    setOffsets o ((List.range' i n).map fun b => ⟨z b, d b⟩) =
      (List.range' i n).map fun b => ⟨o + ((List.range' i (b - i)).map d).sum, o + ((List.range' i (b - i)).map d).sum⟩ := by
  induction n with
  | zero => intro i o; rfl
  | succ n ih =>
    intro i o
    rw [List.range'_succ, List.map_cons, setOffsets, List.map_cons, ih]
    congr 1
    · simp
    · apply List.map_congr_left
      intro b hb
      rw [List.mem_range'_1] at hb
      have e : b - i = (b - (i + 1)) + 1 := by omega
      have : ((List.range' i (b - i)).map d).sum = d i + ((List.range' (i + 1) (b - (i + 1))).map d).sum := by
        rw [e, List.range'_succ, List.map_cons, List.sum_cons]
      rw [this]
      simp only [Bin.mk.injEq]
      omega

/-- Start of each bin. -/
def offs (d : Nat → Nat) (b : Nat) : Nat := ((List.range b).map d).sum

theorem initBins_eq (idx : Int → Nat) (hi : Int) (xs : List Int) (h : ∀ x ∈ xs, idx x ≤ idx hi) :
    initBins idx hi xs = some ((List.range (idx hi + 1)).map fun b =>
      ⟨offs (fun b => cnt idx b xs) b, offs (fun b => cnt idx b xs) b⟩) := by
  unfold initBins
  have e : List.replicate (idx hi + 1) (⟨0, 0⟩ : Bin) = (List.range (idx hi + 1)).map fun _ => ⟨0, 0⟩ := by
    rw [List.map_const', List.length_range]
  rw [e, countAll_eq idx _ xs (fun _ => 0) fun x hx => by have := h x hx; omega]
  rw [Option.map_some, List.range_eq_range', setOffsets_eq]
  congr 1
  apply List.map_congr_left
  intro b _
  unfold offs
  simp only [Nat.zero_add, Nat.sub_zero, List.range_eq_range']

theorem length_blocks {α : Type} (B : Nat → List α) (k : Nat) :
    ((List.range k).flatMap B).length = offs (fun b => (B b).length) k := by
  unfold offs; rw [List.length_flatMap]

theorem set_block {α : Type} (pre q js post : List α) (x s : α) :
    (pre ++ ((q ++ x :: js) ++ post)).set (pre.length + q.length) s = pre ++ ((q ++ s :: js) ++ post) := by
  rw [List.set_append_right _ _ (by omega), Nat.add_sub_cancel_left, List.append_assoc,
    List.set_append_right _ _ (by omega), Nat.sub_self]
  simp

theorem offs_congr {d d' : Nat → Nat} {b : Nat} (h : ∀ k < b, d k = d' k) : offs d b = offs d' b := by
  unfold offs
  congr 1
  apply List.map_congr_left
  intro k hk
  exact h k (List.mem_range.1 hk)

/-- All writes stay within the bins and the buffer; afterwards the buffer holds the pieces bin by bin. -/
theorem writeAll_eq (idx : Int → Nat) (n : Nat) (L : Nat → Nat) : ∀ (P : List (Seg C)) (Q J : Nat → List (Seg C)),
    (∀ s ∈ P, idx s.a.x < n) → (∀ b < n, (J b).length = cnt (fun s : Seg C => idx s.a.x) b P) →
    (∀ b < n, L b = (Q b).length + (J b).length) →
    writeAll idx ((List.range n).map (fun b => ⟨offs L b, offs L b + (Q b).length⟩), (List.range n).flatMap fun b => Q b ++ J b) P =
      some ((List.range n).map (fun b => ⟨offs L b, offs L b + L b⟩),
        (List.range n).flatMap fun b => Q b ++ P.filter fun s => idx s.a.x == b) := by
  intro P
  induction P with
  | nil =>
    intro Q J _ hJ hL
    rw [writeAll]
    congr 2
    · apply List.map_congr_left
      intro b hb
      have := hJ b (List.mem_range.1 hb)
      rw [hL b (List.mem_range.1 hb), this]
      rfl
    · unfold List.flatMap
      congr 1
      apply List.map_congr_left
      intro b hb
      have := hJ b (List.mem_range.1 hb)
      have : J b = [] := List.eq_nil_of_length_eq_zero this
      rw [this]; rfl
  | cons s P ih =>
    intro Q J hK hJ hL
    have hk := hK s (by simp)
    have hJk := hJ _ hk
    rw [cnt_cons, if_pos rfl] at hJk
    obtain ⟨x, js, hx⟩ := List.exists_cons_of_length_pos (show 0 < (J (idx s.a.x)).length by omega)
    have hLk := hL _ hk
    rw [writeAll, writeBin]
    dsimp only
    rw [List.getElem?_map, List.getElem?_range hk]
    dsimp only [Option.map_some]
    have hbuf : ((List.range n).flatMap fun b => Q b ++ J b) = ((List.range (idx s.a.x)).flatMap fun b => Q b ++ J b) ++
        ((Q (idx s.a.x) ++ x :: js) ++ (List.range' (idx s.a.x + 1) (n - idx s.a.x - 1)).flatMap fun b => Q b ++ J b) := by
      conv_lhs => rw [range_split hk, List.flatMap_append, List.flatMap_cons, hx]
    have hoff : offs L (idx s.a.x) = ((List.range (idx s.a.x)).flatMap fun b => Q b ++ J b).length := by
      rw [length_blocks]
      apply offs_congr
      intro b hb
      rw [hL b (by omega), List.length_append]
    rw [if_pos (by rw [hbuf, hoff]; simp only [List.length_append, List.length_cons]; omega)]
    rw [Option.bind_some]
    -- the new state
    let Q' : Nat → List (Seg C) := fun b => if b = idx s.a.x then Q b ++ [s] else Q b
    let J' : Nat → List (Seg C) := fun b => if b = idx s.a.x then js else J b
    have e1 : ((List.range n).map (fun b => (⟨offs L b, offs L b + (Q b).length⟩ : Bin))).set (idx s.a.x)
        ⟨offs L (idx s.a.x), offs L (idx s.a.x) + (Q (idx s.a.x)).length + 1⟩ =
        (List.range n).map (fun b => ⟨offs L b, offs L b + (Q' b).length⟩) := by
      have := map_range_set (fun b => (⟨offs L b, offs L b + (Q b).length⟩ : Bin))
        (fun b => (⟨offs L b, offs L b + (Q' b).length⟩ : Bin)) (n := n) (k := idx s.a.x)
        (by intro b hb; simp only [Q', if_neg hb])
      rw [← this]
      simp only [Q', if_true, List.length_append, List.length_singleton, Nat.add_assoc]
    have e2 : ((List.range n).flatMap fun b => Q b ++ J b).set (offs L (idx s.a.x) + (Q (idx s.a.x)).length) s =
        (List.range n).flatMap fun b => Q' b ++ J' b := by
      rw [hbuf, hoff, set_block]
      conv_rhs => rw [range_split hk, List.flatMap_append, List.flatMap_cons]
      have c : ∀ l : List Nat, (∀ b ∈ l, b ≠ idx s.a.x) → l.flatMap (fun b => Q' b ++ J' b) = l.flatMap fun b => Q b ++ J b := by
        intro l hl
        unfold List.flatMap
        congr 1
        apply List.map_congr_left
        intro b hb
        simp only [Q', J', if_neg (hl b hb)]
      rw [c _ fun b hb => by have := List.mem_range.1 hb; omega, c _ fun b hb => by have := List.mem_range'_1.1 hb; omega]
      simp [Q', J']
    rw [e1, e2, ih Q' J' (fun t ht => hK t (by simp [ht]))]
    · congr 2
      unfold List.flatMap
      congr 1
      apply List.map_congr_left
      intro b _
      by_cases hb : b = idx s.a.x
      · subst hb; simp [Q']
      · simp [Q', hb, Ne.symm hb]
    · intro b hb
      have := hJ b hb
      rw [cnt_cons] at this
      by_cases hb' : b = idx s.a.x
      · subst hb'
        rw [hx] at this
        simp only [J', if_true]
        simp at this
        omega
      · simp only [J', if_neg hb']
        rw [if_neg (Ne.symm hb')] at this
        omega
    · intro b hb
      have := hL b hb
      by_cases hb' : b = idx s.a.x
      · subst hb'
        simp only [Q', J', if_true, List.length_append, List.length_singleton]
        rw [hx] at this
        simp at this
        omega
      · simp only [Q', J', if_neg hb']; exact this

theorem sortBins_eq {srt : List (Seg C) → List (Seg C)} (hs : SegSort srt) (F : Nat → List (Seg C)) (off : Nat → Nat) (n : Nat) :
    ∀ (i : Nat) (pre : List (Seg C)), off i = pre.length → (∀ b, off (b + 1) = off b + (F b).length) →
    sortBins srt ((List.range' i n).map fun b => ⟨off b, off b + (F b).length⟩) (pre ++ (List.range' i n).flatMap F) =
      some (pre ++ (List.range' i n).flatMap fun b => srt (F b)) := by
  induction n with
  | zero => intro i pre _ _; simp [sortBins]
  | succ n ih =>
    intro i pre h0 hs'
    have hlen := (hs.perm (F i)).length_eq
    rw [List.range'_succ, List.map_cons, List.flatMap_cons, List.flatMap_cons, sortBins]
    dsimp only
    split
    · rw [if_pos (by simp only [List.length_append]; omega)]
      have e1 : (pre ++ (F i ++ (List.range' (i + 1) n).flatMap F)).take (off i) = pre := by
        rw [h0]; exact List.take_left' rfl
      have e2 : ((pre ++ (F i ++ (List.range' (i + 1) n).flatMap F)).take (off i + (F i).length)).drop (off i) = F i := by
        rw [← List.append_assoc, List.take_left' (by simp [h0]), h0]
        exact List.drop_left' rfl
      have e3 : (pre ++ (F i ++ (List.range' (i + 1) n).flatMap F)).drop (off i + (F i).length) = (List.range' (i + 1) n).flatMap F := by
        rw [← List.append_assoc]; exact List.drop_left' (by simp [h0])
      rw [e1, e2, e3, ih (i + 1) (pre ++ srt (F i)) (by rw [hs', h0, List.length_append, hlen]) hs', List.append_assoc]
    · rename_i hlt
      have hF : F i = [] := List.eq_nil_of_length_eq_zero (by omega)
      have hS : srt (F i) = [] := List.eq_nil_of_length_eq_zero (by rw [hlen, hF]; rfl)
      rw [hS, hF, List.nil_append, List.nil_append]
      exact ih (i + 1) pre (by rw [hs', hF]; simpa using h0) hs'

theorem filter_blocks_perm {α : Type} (K : α → Nat) (n : Nat) : ∀ P : List α, (∀ x ∈ P, K x < n) →
    ((List.range n).flatMap fun b => P.filter fun x => K x == b).Perm P := by
  intro P
  induction P with
  | nil => intro _; simp
  | cons x P ih =>
    intro h
    have hk := h x (by simp)
    have hc := ih fun y hy => h y (by simp [hy])
    rw [range_split hk] at hc ⊢
    rw [List.flatMap_append, List.flatMap_cons] at hc ⊢
    have c : ∀ l : List Nat, (∀ b ∈ l, b ≠ K x) → (l.flatMap fun b => (x :: P).filter fun y => K y == b) =
        l.flatMap fun b => P.filter fun y => K y == b := by
      intro l hl
      unfold List.flatMap
      congr 1
      apply List.map_congr_left
      intro b hb
      have := hl b hb
      simp [Ne.symm this]
    rw [c _ fun b hb => by have := List.mem_range.1 hb; omega, c _ fun b hb => by have := List.mem_range'_1.1 hb; omega]
    have : (x :: P).filter (fun y => K y == K x) = x :: P.filter fun y => K y == K x := by simp
    rw [this, List.cons_append]
    exact (List.perm_middle).trans (hc.cons x)

/-! ### One bin -/

theorem oneBin_perm [WindingCount C] (marks : List Mark) (all : List (Seg C)) (n : Nat) : ∀ (i fuel : Nat) (cur : List (Seg C)),
    i + n = all.length → (grouped (alongEdge marks all) i n).length < fuel →
    (∀ k, i ≤ k → k < all.length → cur[k]? = all[k]?) →
    ∃ l, oneBin fuel (grouped (alongEdge marks all) i n) cur = some l ∧
      (l ++ all.drop i).Perm (cur ++ splitAll marks i (all.drop i)) := by
  induction n with
  | zero =>
    intro i fuel cur hi hf hcur
    obtain ⟨f, rfl⟩ : ∃ f, fuel = f + 1 := ⟨fuel - 1, by simp [grouped_zero] at hf; omega⟩
    refine ⟨cur, rfl, ?_⟩
    rw [List.drop_eq_nil_of_le (by omega)]
    simp [splitAll]
  | succ n ih =>
    intro i fuel cur hi hf hcur
    have hlt : i < all.length := by omega
    have hs : all[i]? = some all[i] := List.getElem?_eq_getElem hlt
    have hdrop : all.drop i = all[i] :: all.drop (i + 1) := List.drop_eq_getElem_cons hlt
    rw [hdrop, splitAll, splitSeg_along hs]
    cases ha : alongEdge marks all i with
    | nil =>
      rw [grouped_skip ha] at hf ⊢
      obtain ⟨l, h1, h2⟩ := ih (i + 1) fuel cur (by omega) hf fun k h1 h2 => hcur k (by omega) h2
      refine ⟨l, h1, ?_⟩
      dsimp only
      rw [List.singleton_append]
      exact List.perm_middle.trans ((h2.cons _).trans List.perm_middle.symm)
    | cons p l =>
      rw [splitRun ha] at hf ⊢
      obtain ⟨f, rfl⟩ : ∃ f, fuel = f + 1 := ⟨fuel - 1, by simp at hf; omega⟩
      rw [oneBin]
      dsimp only
      rw [(takeRun i l _ n).1, (takeRun i l _ n).2, hcur i (by omega) hlt, hs, map_point]
      dsimp only
      cases hch : chainSegs all[i].c all[i].b all[i].a (p :: l) with
      | nil => rw [chainSegs] at hch; simp at hch
      | cons first more =>
        dsimp only
        have hi' : i < cur.length := by
          have := hcur i (by omega) hlt
          rw [hs] at this
          exact (List.getElem?_eq_some_iff.1 this).1
        have hci : cur[i] = all[i] := by
          have := hcur i (by omega) hlt
          rw [hs, List.getElem?_eq_getElem hi'] at this
          exact Option.some.inj this
        obtain ⟨r, h1, h2⟩ := ih (i + 1) f (cur.set i first ++ more) (by omega) (by simp at hf; omega) (by
          intro k hk1 hk2
          have h3 := hcur k (by omega) hk2
          have hkl : k < cur.length := by
            rw [List.getElem?_eq_getElem hk2] at h3
            exact (List.getElem?_eq_some_iff.1 h3).1
          rw [List.getElem?_append_left (by simpa using hkl), List.getElem?_set_ne (by omega)]
          exact h3)
        refine ⟨r, h1, ?_⟩
        refine List.perm_middle.trans ?_
        refine (h2.cons _).trans ?_
        have hset : (all[i] :: cur.set i first).Perm (first :: cur) := by
          rw [List.set_eq_take_append_cons_drop, if_pos hi']
          conv_rhs => rw [← List.take_append_drop i cur, List.drop_eq_getElem_cons hi', hci]
          refine (List.perm_middle.cons _).trans ?_
          refine (List.Perm.swap _ _ _).trans ?_
          exact List.perm_middle.symm.cons _
        rw [show all[i] :: (cur.set i first ++ more ++ splitAll marks (i + 1) (List.drop (i + 1) all)) =
          (all[i] :: cur.set i first) ++ (more ++ splitAll marks (i + 1) (List.drop (i + 1) all)) by simp]
        refine (hset.append_right _).trans ?_
        rw [List.cons_append, List.cons_append]
        exact List.perm_middle.symm

open WindingCount

theorem length_chainSegs [WindingCount C] (c : C) (b : Pt) (l : List Pt) : ∀ p, (chainSegs c b p l).length = l.length + 1 := by
  induction l with
  | nil => intro p; rfl
  | cons m l ih => intro p; rw [chainSegs, List.length_cons, ih, List.length_cons]

theorem length_splitAll [WindingCount C] (marks : List Mark) (all : List (Seg C)) : ∀ (segs : List (Seg C)) (i : Nat),
    (∀ k, segs[k]? = all[i + k]?) →
    (splitAll marks i segs).length = segs.length + (grouped (alongEdge marks all) i segs.length).length := by
  intro segs
  induction segs with
  | nil => intro i _; rfl
  | cons s segs ih =>
    intro i hk
    have h0 : all[i]? = some s := by have := hk 0; simpa using this.symm
    have hk' : ∀ k, segs[k]? = all[i + 1 + k]? := by
      intro k; have := hk (k + 1); rw [List.getElem?_cons_succ] at this; rw [this]; congr 1; omega
    rw [splitAll, List.length_append, ih (i + 1) hk', List.length_cons, grouped_succ, splitSeg_along h0]
    cases ha : alongEdge marks all i with
    | nil => simp; omega
    | cons p l =>
      dsimp only
      rw [length_chainSegs]
      simp only [List.length_cons, List.length_append, List.length_map]
      omega

theorem splitAll_ends [WindingCount C] (marks : List Mark) (segs : List (Seg C)) (P : Pt → Prop)
    (hs : ∀ s ∈ segs, P s.a ∧ P s.b) (hm : ∀ m ∈ marks, P m.point) : ∀ e ∈ splitAll marks 0 segs, P e.a ∧ P e.b := by
  intro e he
  obtain ⟨i, s, h4, h5⟩ := (mem_splitAll _ _ _ _).1 he
  have hs' := hs s (List.mem_of_getElem? h4)
  unfold splitSeg at h5
  split at h5
  · rw [List.mem_singleton] at h5; subst h5; exact hs'
  · rename_i m rest hpt
    refine chainSegs_ends s.c s.b s.a _ P hs'.1 hs'.2 ?_ e h5
    intro q hq
    have := (subSort_perm _ _ _ _).mem_iff.1 hq
    rw [← hpt, mem_pointsOf] at this
    exact hm _ this

theorem splitAll_nonempty [WindingCount C] (hinv : ∀ c : C, isNotEmpty c = true → isNotEmpty (invert c) = true)
    (marks : List Mark) (segs : List (Seg C)) (hs : ∀ s ∈ segs, isNotEmpty s.c = true) :
    ∀ e ∈ splitAll marks 0 segs, isNotEmpty e.c = true := by
  intro e he
  obtain ⟨i, s, h4, h5⟩ := (mem_splitAll _ _ _ _).1 he
  have hs' := hs s (List.mem_of_getElem? h4)
  unfold splitSeg at h5
  split at h5
  · rw [List.mem_singleton] at h5; subst h5; exact hs'
  · exact chainSegs_nonempty hinv s.c hs' s.b s.a _ e h5

theorem foldl_max_ge {α : Type} (f : α → Int) (l : List α) : ∀ m : Int, m ≤ l.foldl (fun m x => max m (f x)) m ∧
    ∀ x ∈ l, f x ≤ l.foldl (fun m x => max m (f x)) m := by
  induction l with
  | nil => intro m; simp
  | cons x l ih =>
    intro m
    rw [List.foldl_cons]
    obtain ⟨h1, h2⟩ := ih (max m (f x))
    refine ⟨by omega, ?_⟩
    intro y hy
    rcases List.mem_cons.1 hy with rfl | hy
    · omega
    · exact h2 y hy

theorem mem_along {marks : List Mark} {segs : List (Seg C)} {i : Nat} {p : Pt} (hi : i < segs.length) :
    p ∈ alongEdge marks segs i ↔ (⟨i, p⟩ : Mark) ∈ marks := by
  rw [← mem_pointsOf]
  unfold alongEdge
  rw [List.getElem?_eq_getElem hi]
  cases hp : pointsOf i marks with
  | nil => simp
  | cons m rest => dsimp only; exact (subSort_perm _ _ _ _).mem_iff

theorem replicate_blocks {α : Type} (d : Nat → Nat) (x : α) (n : Nat) :
    List.replicate (offs d n) x = (List.range n).flatMap fun b => List.replicate (d b) x := by
  induction n with
  | zero => rfl
  | succ n ih =>
    have : offs d (n + 1) = offs d n + d n := by
      unfold offs; rw [List.range_succ, List.map_append, List.sum_append]; simp
    rw [this, List.range_succ, List.flatMap_append, ← ih, List.replicate_add]
    simp

/-- The implementation of `apply` accesses nothing out of bounds and computes `applyMarks`. -/
theorem applyImpl_eq [LawfulCount C] (hinv : ∀ c : C, isNotEmpty c = true → isNotEmpty (invert c) = true)
    {x : ApplyExt C} (hx : x.Ok) {marks : List Mark} {segs : List (Seg C)} (hne : marks ≠ [])
    (hs : segs.Pairwise Seg.lt) (hl : ∀ s ∈ segs, s.a < s.b) (hc : ∀ s ∈ segs, isNotEmpty s.c = true)
    (hi : ∀ m ∈ marks, m.index < segs.length) (hm : ∀ m ∈ marks, ∀ s ∈ segs.head?, s.a.x ≤ m.point.x) :
    applyImpl x marks segs = some (applyMarks marks segs) := by
  unfold applyImpl
  rw [sortAndFilter_eq hx.sortM marks segs hne hi]
  obtain ⟨mk, hmk⟩ := List.exists_mem_of_ne_nil _ hne
  have hmem : ∀ m : Mark, m ∈ grouped (alongEdge marks segs) 0 segs.length ↔ m ∈ marks := by
    intro m
    rw [mem_grouped]
    constructor
    · rintro ⟨-, h1, h2⟩
      exact (mem_along (by simpa using h1)).1 h2
    · intro h
      exact ⟨by omega, by simpa using hi m h, (mem_along (hi m h)).2 h⟩
  cases hG : grouped (alongEdge marks segs) 0 segs.length with
  | nil => rw [← hmem, hG] at hmk; simp at hmk
  | cons m0 ms =>
    cases segs with
    | nil => have := hi mk hmk; simp at this
    | cons s0 rest =>
      have hone : (oneBin ((m0 :: ms).length + 1) (m0 :: ms) (s0 :: rest)).map (fun l => mergeIfNeeded (x.sortS l)) =
          some (applyMarks marks (s0 :: rest)) := by
        obtain ⟨l, h1, h2⟩ := oneBin_perm marks (s0 :: rest) (s0 :: rest).length 0 ((m0 :: ms).length + 1) (s0 :: rest)
          (by omega) (by rw [hG]; omega) (fun _ _ _ => rfl)
        rw [hG] at h1
        rw [h1, Option.map_some]
        rw [List.drop_zero] at h2
        have h3 : l.Perm (splitAll marks 0 (s0 :: rest)) := by
          have := List.perm_append_comm.trans h2
          exact (List.perm_append_left_iff _).1 this
        congr 1
        refine mergeIfNeeded_perm ((hx.sortS.perm l).trans (h3.trans (sortSegs_perm _).symm)) (hx.sortS.sorted l) (sortSegs_sorted _) ?_
        intro s hs'
        exact splitAll_nonempty hinv marks _ hc s (h3.mem_iff.1 ((hx.sortS.perm l).mem_iff.1 hs'))
      dsimp only
      split
      · exact hone
      · split
        · exact hone
        · rename_i idx hlay
          generalize hhi : rest.foldl (fun m s => max m s.b.x) ((m0 :: ms).foldl (fun m k => max m k.point.x) s0.b.x) = hiX at hlay ⊢
          have hmono := hx.layout _ _ _ _ hlay
          -- bounds
          have b1 := foldl_max_ge (fun k : Mark => k.point.x) (m0 :: ms) s0.b.x
          have b2 := foldl_max_ge (fun s : Seg C => s.b.x) rest ((m0 :: ms).foldl (fun m k => max m k.point.x) s0.b.x)
          rw [hhi] at b2
          have hsb : ∀ s ∈ s0 :: rest, s.b.x ≤ hiX := by
            intro s hs'
            rcases List.mem_cons.1 hs' with rfl | hs'
            · omega
            · exact b2.2 s hs'
          have hmb : ∀ m ∈ marks, m.point.x ≤ hiX := by
            intro m hm'
            rw [← hmem, hG] at hm'
            have := b1.2 m hm'
            omega
          have hlo : ∀ s ∈ s0 :: rest, s0.a.x ≤ s.a.x := by
            intro s hs'
            rcases List.mem_cons.1 hs' with rfl | hs'
            · omega
            · have := (List.pairwise_cons.1 hs).1 s hs'
              unfold Seg.lt at this
              rcases this with h | ⟨h, -⟩
              · rw [Pt.lt_def] at h; omega
              · rw [h]
          have hP : ∀ e ∈ splitAll marks 0 (s0 :: rest), s0.a.x ≤ e.a.x ∧ e.a.x ≤ hiX := by
            intro e he
            refine (splitAll_ends marks (s0 :: rest) (fun p => s0.a.x ≤ p.x ∧ p.x ≤ hiX) ?_ ?_ e he).1
            · intro s hs'
              have h1 := hlo s hs'
              have h2 := hsb s hs'
              have h3 := hl s hs'
              rw [Pt.lt_def] at h3
              omega
            · intro m hm'
              exact ⟨hm m hm' s0 (by simp), hmb m hm'⟩
          have hemit : emit 0 (s0 :: rest) m0 ms = splitAll marks 0 (s0 :: rest) :=
            emit_eq marks (s0 :: rest) (s0 :: rest) 0 m0 ms (fun k => by simp) (Or.inl hG)
          have hlen : (splitAll marks 0 (s0 :: rest)).length = (s0 :: rest).length + (m0 :: ms).length := by
            rw [length_splitAll marks (s0 :: rest) (s0 :: rest) 0 (fun k => by simp), hG]
          rw [emitX_eq, hemit]
          have hne' := splitAll_nonempty hinv marks (s0 :: rest) hc
          unfold applyMarks
          generalize splitAll marks 0 (s0 :: rest) = P at hP hemit hlen hne' ⊢
          rw [← hlen]
          have hK : ∀ e ∈ P, idx e.a.x < idx hiX + 1 := by
            intro e he
            have := hP e he
            have := hmono e.a.x hiX this.1 this.2 (by omega)
            omega
          rw [initBins_eq _ _ _ (by
            intro y hy
            obtain ⟨e, he, rfl⟩ := List.mem_map.1 hy
            have := hK e he
            omega)]
          rw [Option.bind_some]
          have hcnt : ∀ b, cnt idx b (P.map fun s => s.a.x) = cnt (fun s : Seg C => idx s.a.x) b P := by
            intro b; unfold cnt; rw [List.filter_map, List.length_map]; rfl
          simp only [hcnt]
          have htot : P.length = offs (fun b => cnt (fun s : Seg C => idx s.a.x) b P) (idx hiX + 1) := by
            have := (filter_blocks_perm (fun s : Seg C => idx s.a.x) (idx hiX + 1) P hK).length_eq
            rw [length_blocks] at this
            exact this.symm
          rw [htot, replicate_blocks]
          have hw := writeAll_eq idx (idx hiX + 1) (fun b => cnt (fun s : Seg C => idx s.a.x) b P) P (fun _ => [])
            (fun b => List.replicate (cnt (fun s : Seg C => idx s.a.x) b P) ⟨⟨0, 0⟩, ⟨0, 0⟩, WindingCount.zero⟩)
            hK (by intro b _; simp) (by intro b _; simp)
          simp only [List.nil_append, List.length_nil, Nat.add_zero] at hw
          rw [hw, Option.bind_some]
          have hb := sortBins_eq hx.sortS (fun b => P.filter fun s => idx s.a.x == b)
            (offs fun b => cnt (fun s : Seg C => idx s.a.x) b P) (idx hiX + 1) 0 [] (by simp [offs]) (by
              intro b
              unfold offs
              rw [List.range_succ, List.map_append, List.sum_append]
              simp [cnt])
          simp only [List.nil_append] at hb
          rw [List.range_eq_range']
          have hb' : sortBins x.sortS ((List.range' 0 (idx hiX + 1)).map fun b =>
              (⟨offs (fun b => cnt (fun s : Seg C => idx s.a.x) b P) b, offs (fun b => cnt (fun s : Seg C => idx s.a.x) b P) b +
                cnt (fun s : Seg C => idx s.a.x) b P⟩ : Bin)) ((List.range' 0 (idx hiX + 1)).flatMap fun b => P.filter fun s => idx s.a.x == b) =
              some ((List.range' 0 (idx hiX + 1)).flatMap fun b => x.sortS (P.filter fun s => idx s.a.x == b)) := hb
          rw [hb', Option.map_some]
          congr 1
          have hperm : ((List.range' 0 (idx hiX + 1)).flatMap fun b => x.sortS (P.filter fun s => idx s.a.x == b)).Perm P := by
            refine List.Perm.trans ?_ (filter_blocks_perm (fun s : Seg C => idx s.a.x) (idx hiX + 1) P hK)
            rw [List.range_eq_range']
            exact List.Perm.flatMap_left _ fun b _ => hx.sortS.perm _
          have hkey : ∀ b, ∀ e ∈ x.sortS (P.filter fun s => idx s.a.x == b), e ∈ P ∧ idx e.a.x = b := by
            intro b e he
            have := (hx.sortS.perm _).mem_iff.1 he
            rw [List.mem_filter] at this
            exact ⟨this.1, by simpa using this.2⟩
          have hsorted : SortedSegs ((List.range' 0 (idx hiX + 1)).flatMap fun b => x.sortS (P.filter fun s => idx s.a.x == b)) := by
            unfold SortedSegs
            rw [List.pairwise_flatMap]
            refine ⟨fun b _ => hx.sortS.sorted _, ?_⟩
            refine (List.pairwise_lt_range' (s := 0) (n := idx hiX + 1)).imp ?_
            intro b b' hbb e he e' he'
            obtain ⟨p1, k1⟩ := hkey b e he
            obtain ⟨p2, k2⟩ := hkey b' e' he'
            have hlt : e.a.x < e'.a.x := by
              by_contra hcon
              have := hmono e'.a.x e.a.x (hP e' p2).1 (by omega) (hP e p1).2
              omega
            refine Seg.le_iff.2 (Or.inl (Or.inl ?_))
            rw [Pt.lt_def]; omega
          exact mergeIfNeeded_perm (hperm.trans (sortSegs_perm _).symm) hsorted (sortSegs_sorted _) fun s h => hne' s (hperm.mem_iff.1 h)

end IOverlay
