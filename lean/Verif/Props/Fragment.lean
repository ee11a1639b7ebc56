/-
Properties C35 (parallel and serial splitting agree) and C36 (fragments cover their edge).
-/
import Verif.FragCover
import Verif.Props.CrossPoint

namespace IOverlay

variable {C : Type}

/-! ### C36 -/

theorem range'_mem {n k b : Nat} (h1 : n ≤ b) (h2 : b < n + k) : b ∈ List.range' n k := by
  rw [List.mem_range']
  exact ⟨b - n, by omega, by omega⟩

theorem Grid.index_lt_size (g : Grid) {x : Int} (h : x ≤ g.maxX) : g.index x < g.size :=
  Nat.lt_succ_of_le (g.index_mono h)

/-- A rational coordinate of an edge lies in one of the columns of the edge. -/
theorem column_of (g : Grid) (s : XSeg) (hl : s.a < s.b) (hm : g.minX ≤ s.a.x) {q : QPt} (hq : onSeg q s.a s.b) :
    ∃ b, g.index s.a.x ≤ b ∧ b ≤ lastColumn g s ∧ (g.pos b : ℚ) ≤ q.x ∧ q.x ≤ g.pos (b + 1) := by
  rw [Pt.lt_def] at hl
  have hx : s.a.x ≤ s.b.x := by omega
  obtain ⟨q1, q2, -, -⟩ := onSeg_bounds hq
  rw [min_eq_left hx] at q1
  rw [max_eq_right hx] at q2
  obtain ⟨a1, a2⟩ := g.index_pos hm
  have key : ∀ n, g.pos (g.index s.a.x + n) ≤ q.x ∨ ∃ b, g.index s.a.x ≤ b ∧ b < g.index s.a.x + n ∧
      (g.pos b : ℚ) ≤ q.x ∧ q.x ≤ g.pos (b + 1) := by
    intro n
    induction n with
    | zero =>
      left
      have : (g.pos (g.index s.a.x) : ℚ) ≤ s.a.x := by exact_mod_cast a1
      simpa using this.trans q1
    | succ n ih =>
      rcases ih with h | ⟨b, h1, h2, h3⟩
      · rcases le_total (g.pos (g.index s.a.x + n + 1) : ℚ) q.x with h' | h'
        · left; exact h'
        · right; exact ⟨g.index s.a.x + n, by omega, by omega, h, h'⟩
      · right; exact ⟨b, h1, by omega, h3⟩
  have hlast : s.b.x ≤ g.pos (lastColumn g s + 1) := by
    unfold lastColumn
    by_cases hx' : s.a.x = s.b.x
    · have := g.pos_mono (show g.index s.a.x + 1 ≤ max (g.index s.a.x) (g.index (s.b.x - 1)) + 1 by omega)
      omega
    · obtain ⟨b1, b2⟩ := g.index_pos (show g.minX ≤ s.b.x - 1 by omega)
      have := g.pos_mono (show g.index (s.b.x - 1) + 1 ≤ max (g.index s.a.x) (g.index (s.b.x - 1)) + 1 by omega)
      omega
  have hle : g.index s.a.x ≤ lastColumn g s := le_max_left _ _
  rcases key (lastColumn g s - g.index s.a.x) with h | ⟨b, h1, h2, h3⟩
  · refine ⟨lastColumn g s, hle, le_refl _, ?_, ?_⟩
    · rw [show g.index s.a.x + (lastColumn g s - g.index s.a.x) = lastColumn g s by omega] at h; exact h
    · have : (s.b.x : ℚ) ≤ g.pos (lastColumn g s + 1) := by exact_mod_cast hlast
      linarith
  · exact ⟨b, h1, by omega, h3⟩

/-- C36: the rectangles an edge is cut into contain every point of the edge; each lies between the two borders of
the column it is filed under, that column is one of the grid's, and each carries the edge and its number. -/
theorem C36_fragments_cover (g : Grid) (index : Nat) (s : XSeg) (hl : s.a < s.b) (h0 : g.minX ≤ s.a.x)
    (h1 : s.b.x ≤ g.maxX) :
    (∀ q, onSeg q s.a s.b → ∃ f ∈ addSegment g index s, f.2.rect.Has q) ∧
    ∀ f ∈ addSegment g index s, g.minX + f.1 * 2 ^ g.power ≤ f.2.rect.minX ∧
      f.2.rect.maxX ≤ g.minX + (f.1 + 1) * 2 ^ g.power ∧ f.1 < g.size ∧ f.2.index = index ∧ f.2.seg = s := by
  obtain ⟨e1, e2⟩ := addSegment_spec g index s hl h0
  have mem : ∀ b, b ∈ (addSegment g index s).map Prod.fst → ∃ f ∈ addSegment g index s, f.1 = b := by
    intro b hb
    obtain ⟨f, hf, rfl⟩ := List.mem_map.1 hb
    exact ⟨f, hf, rfl⟩
  constructor
  · intro q hq
    obtain ⟨b, b1, b2, b3, b4⟩ := column_of g s hl h0 hq
    have hb : b ∈ (addSegment g index s).map Prod.fst := by
      rw [e1]; exact range'_mem b1 (by omega)
    obtain ⟨f, hf, rfl⟩ := mem b hb
    exact ⟨f, hf, (e2 f hf).2.2.2.2 q hq b3 b4⟩
  · intro f hf
    obtain ⟨i1, i2, c1, c2, -⟩ := e2 f hf
    have hb : f.1 ∈ (addSegment g index s).map Prod.fst := List.mem_map_of_mem hf
    rw [e1, List.mem_range'] at hb
    obtain ⟨k, k1, k2⟩ := hb
    have hx : s.a.x ≤ s.b.x := by rw [Pt.lt_def] at hl; omega
    have hcol : lastColumn g s < g.size :=
      max_lt (g.index_lt_size (by omega)) (g.index_lt_size (by omega))
    have hle : g.index s.a.x ≤ lastColumn g s := le_max_left _ _
    refine ⟨?_, ?_, by omega, i1, i2⟩
    · unfold Grid.pos at c1; omega
    · unfold Grid.pos at c2; push_cast at c2; omega

/-- C36, arithmetic: with extents below `2^31` none of the `u64` computations overflows, and the heights fit into
`i32`: the shifted height, `w * k` for every offset `w` used, and the products of the `while` loop. -/
theorem C36_no_overflow (width height w : Nat) (hw0 : 0 < width) (hh0 : 0 < height) (hw : width < 2 ^ 31)
    (hh : height < 2 ^ 31) (hle : w ≤ width) :
    let p := 63 - (width * height).log2
    let k := height * 2 ^ p / width
    let hMin := w * k / 2 ^ p
    let hMax := raiseTo width height w (height + 1) hMin
    (width * height).log2 ≤ 63 ∧ height * 2 ^ p < 2 ^ 64 ∧ w * k < 2 ^ 64 ∧ hMin ≤ hMax ∧ hMax ≤ height ∧
    hMax * width < 2 ^ 64 ∧ height * w < 2 ^ 64 ∧ (hMin : ℚ) ≤ height * w / width ∧
    (height * w / width : ℚ) ≤ hMax := by
  intro p k hMin hMax
  have hprod : width * height < 2 ^ 62 := by
    calc width * height < 2 ^ 31 * 2 ^ 31 := Nat.mul_lt_mul'' hw hh
      _ = 2 ^ 62 := by norm_num
  have hne : width * height ≠ 0 := (Nat.mul_pos hw0 hh0).ne'
  have hlog : (width * height).log2 < 62 := (Nat.log2_lt hne).2 hprod
  have hpos : height * 2 ^ p < 2 ^ 64 := by
    have h1 : height ≤ width * height := Nat.le_mul_of_pos_left _ hw0
    have h2 : width * height < 2 ^ ((width * height).log2 + 1) := Nat.lt_log2_self
    calc height * 2 ^ p < 2 ^ ((width * height).log2 + 1) * 2 ^ p :=
          Nat.mul_lt_mul_of_pos_right (lt_of_le_of_lt h1 h2) (by positivity)
      _ = 2 ^ 64 := by rw [← pow_add]; congr 1; omega
  have hk : width * k ≤ height * 2 ^ p := Nat.mul_div_le _ _
  have hwk : w * k ≤ height * 2 ^ p := le_trans (Nat.mul_le_mul_right _ hle) hk
  have hmin : hMin * width ≤ height * w := by
    have h1 : hMin * 2 ^ p ≤ w * k := Nat.div_mul_le_self _ _
    have h3 : hMin * width * 2 ^ p ≤ height * w * 2 ^ p := by
      calc hMin * width * 2 ^ p = hMin * 2 ^ p * width := by ring
        _ ≤ w * k * width := Nat.mul_le_mul_right _ h1
        _ = w * (width * k) := by ring
        _ ≤ w * (height * 2 ^ p) := Nat.mul_le_mul_left _ hk
        _ = height * w * 2 ^ p := by ring
    exact Nat.le_of_mul_le_mul_right h3 (by positivity)
  have hbound : ∀ fuel h, h ≤ height → raiseTo width height w fuel h ≤ height := by
    intro fuel
    induction fuel with
    | zero => intro h hh; exact hh
    | succ n ih =>
      intro h hh
      rw [raiseTo]
      split
      · rename_i hlt
        have : h * width < height * width := lt_of_lt_of_le hlt (Nat.mul_le_mul_left _ hle)
        exact ih _ (Nat.lt_of_mul_lt_mul_right this)
      · exact hh
  have hminle : hMin ≤ height := by
    have : hMin * width ≤ height * width := le_trans hmin (Nat.mul_le_mul_left _ hle)
    exact Nat.le_of_mul_le_mul_right this hw0
  obtain ⟨m1, m2⟩ := raiseTo_spec width height w (height + 1) hMin (by
    have : height * w ≤ height * width := Nat.mul_le_mul_left _ hle
    have : height * width ≤ (hMin + (height + 1)) * width :=
      Nat.mul_le_mul_right _ (le_trans (Nat.le_succ _) (Nat.le_add_left _ _))
    omega)
  have hmax := hbound (height + 1) hMin hminle
  have hwq : (0:ℚ) < width := by exact_mod_cast hw0
  have b1 : hMax * width ≤ height * width := Nat.mul_le_mul_right _ hmax
  have b2 : height * w ≤ height * width := Nat.mul_le_mul_left _ hle
  have b3 : height * width < 2 ^ 64 := by rw [Nat.mul_comm]; exact lt_trans hprod (by norm_num)
  refine ⟨by omega, hpos, lt_of_le_of_lt hwk hpos, m2, hmax, lt_of_le_of_lt b1 b3, lt_of_le_of_lt b2 b3, ?_, ?_⟩
  · rw [le_div_iff₀ hwq]; exact_mod_cast hmin
  · rw [div_le_iff₀ hwq]; exact_mod_cast m1

/-- A slanted edge over a grid with columns of width 8: four rectangles. -/
example : (addSegment ⟨-5, 100, 3⟩ 7 ⟨⟨0, 0⟩, ⟨20, 7⟩⟩).map (fun f => (f.1, f.2.rect)) =
    [(0, ⟨0, 3, 0, 2⟩), (1, ⟨3, 11, 1, 4⟩), (2, ⟨11, 19, 3, 7⟩), (3, ⟨19, 20, 6, 7⟩)] := by
  decide +kernel

/-! ### C35 -/

/-- A task of the parallel map: the group as it was handed over, or the pairs still to be examined with the marks
collected and the flag so far; `parallel_split`, split/solver_fragment.rs:92-103, and `bin_split`, 119-151. -/
inductive Task where
  | waiting (fs : List Fragment)
  | running (todo : List (Fragment × Fragment)) (marks : List Mark) (anyRound : Bool)
deriving DecidableEq, Repr

/-- One step of a task: start (length test and sort), or examine one pair. -/
def Task.step (radius : Int) : Task → Option Task
  | .waiting fs => some (.running (binWork fs) [] false)
  | .running [] _ _ => none
  | .running (w :: rest) marks anyRound =>
    let r := crossOrdered radius w.1 w.2
    some (.running rest (marks ++ r.1) (anyRound || r.2))

/-- One step of the whole computation: any task that is not finished makes a step. Tasks own their group and
their marks, they share nothing. -/
inductive ParStep (radius : Int) : List Task → List Task → Prop
  | one (pre post : List Task) (t t' : Task) (h : t.step radius = some t') :
      ParStep radius (pre ++ t :: post) (pre ++ t' :: post)

/-- Executions of any length, in any order of the steps. -/
inductive ParRun (radius : Int) : List Task → List Task → Prop
  | refl (ts : List Task) : ParRun radius ts ts
  | step {ts us vs : List Task} : ParStep radius ts us → ParRun radius us vs → ParRun radius ts vs

/-- All tasks are finished. -/
def AllDone (ts : List Task) : Prop := ∀ t ∈ ts, ∃ m b, t = .running [] m b

/-- The result of a finished task, split/solver_fragment.rs:98-101. -/
def Task.result : Task → List Mark × Bool
  | .waiting _ => ([], false)
  | .running _ m b => (m, b)

/-- What `parallel_split` does with the results, split/solver_fragment.rs:105-128, starting with no marks (the
buffer is cleared before every round). -/
def collectResults (rs : List (List Mark × Bool)) : List Mark × Bool :=
  let isAny := rs.foldl (fun b r => b || r.2) false
  let size : Nat := rs.foldl (fun n r => n + r.1.length) 0
  if size = 0 then ([], false) else (rs.foldl (fun m r => m ++ r.1) [], isAny)

/-- The remaining outcome of a task. -/
def Task.outcome (radius : Int) : Task → List Mark × Bool
  | .waiting fs => binSplit radius fs
  | .running todo m b => (m ++ todo.flatMap fun w => (crossOrdered radius w.1 w.2).1,
      b || todo.any fun w => (crossOrdered radius w.1 w.2).2)

theorem Task.step_outcome {radius : Int} {t t' : Task} (h : t.step radius = some t') :
    t'.outcome radius = t.outcome radius := by
  cases t with
  | waiting fs => 
    simp only [Task.step, Option.some.injEq] at h
    subst h
    simp [Task.outcome, binSplit]
  | running todo m b =>
    cases todo with
    | nil => simp [Task.step] at h
    | cons w rest =>
      simp only [Task.step, Option.some.injEq] at h
      subst h
      simp [Task.outcome, List.append_assoc, Bool.or_assoc]

theorem ParRun.outcome {radius : Int} {ts us : List Task} (h : ParRun radius ts us) :
    us.map (Task.outcome radius) = ts.map (Task.outcome radius) := by
  induction h with
  | refl => rfl
  | step h _ ih =>
    rw [ih]
    cases h with
    | one pre post t t' h => simp [Task.step_outcome h]

theorem crossFragments_flag {radius : Int} {fi fj : Fragment} (h : (crossFragments radius fi fj).2 = true) :
    (crossFragments radius fi fj).1 ≠ [] := by
  unfold crossFragments at h ⊢
  split
  · rename_i hc; rw [hc] at h; simp at h
  · rename_i r hc
    rw [hc] at h
    dsimp only at h ⊢
    split
    · rename_i ht
      rw [ht] at h
      dsimp only at h
      split
      · rename_i hz; rw [if_pos hz] at h; simp at h
      · rename_i hz
        rw [if_neg hz] at h
        split
        · rename_i hz; rw [if_pos hz] at h; simp at h
        · revert hz
          generalize (collinear fi.seg fj.seg).targetA = a
          generalize (collinear fi.seg fj.seg).targetB = b
          generalize (collinear fi.seg fj.seg).otherA = c
          generalize (collinear fi.seg fj.seg).otherB = d
          cases a <;> cases b <;> cases c <;> cases d <;> simp
    · rename_i t ht
      rcases hr : r.type with _ | _ | _ | _
      all_goals rw [hr] at h; dsimp only at h ⊢; split <;> first | (rename_i hz; rw [if_pos hz] at h; simp at h) | simp
      all_goals exact absurd hr ht

theorem crossOrdered_flag {radius : Int} {fi fj : Fragment} (h : (crossOrdered radius fi fj).2 = true) :
    (crossOrdered radius fi fj).1 ≠ [] := by
  unfold crossOrdered at h ⊢
  split at h <;> simp only [*, if_true] <;> exact crossFragments_flag h

theorem binSplit_flag {radius : Int} {fs : List Fragment} (h : (binSplit radius fs).2 = true) :
    (binSplit radius fs).1 ≠ [] := by
  unfold binSplit at h ⊢
  dsimp only at h ⊢
  rw [List.any_eq_true] at h
  obtain ⟨w, hw, h⟩ := h
  obtain ⟨m, hm⟩ := List.exists_mem_of_ne_nil _ (crossOrdered_flag h)
  exact List.ne_nil_of_mem (List.mem_flatMap.2 ⟨w, hw, hm⟩)

theorem serialSplit_eq (radius : Int) (gs : List (List Fragment)) :
    serialSplit radius gs = (gs.flatMap fun fs => (binSplit radius fs).1, gs.any fun fs => (binSplit radius fs).2) := by
  have key : ∀ (gs : List (List Fragment)) (st : List Mark × Bool),
      gs.foldl (fun st fs => if fs.isEmpty then st else let r := binSplit radius fs; (st.1 ++ r.1, st.2 || r.2)) st =
      (st.1 ++ gs.flatMap fun fs => (binSplit radius fs).1, st.2 || gs.any fun fs => (binSplit radius fs).2) := by
    intro gs
    induction gs with
    | nil => intro st; simp
    | cons fs gs ih =>
      intro st
      rw [List.foldl_cons, ih]
      cases fs with
      | nil => simp [binSplit, binWork]
      | cons f fs => simp [List.append_assoc, Bool.or_assoc]
  unfold serialSplit
  rw [key]; simp

theorem collectResults_eq (rs : List (List Mark × Bool)) (h : ∀ r ∈ rs, r.2 = true → r.1 ≠ []) :
    collectResults rs = (rs.flatMap (·.1), rs.any (·.2)) := by
  have k1 : ∀ (rs : List (List Mark × Bool)) (b : Bool), rs.foldl (fun b r => b || r.2) b = (b || rs.any (·.2)) := by
    intro rs
    induction rs with
    | nil => simp
    | cons r rs ih => intro b; rw [List.foldl_cons, ih]; simp [Bool.or_assoc]
  have k2 : ∀ (rs : List (List Mark × Bool)) (m : List Mark), rs.foldl (fun m r => m ++ r.1) m = m ++ rs.flatMap (·.1) := by
    intro rs
    induction rs with
    | nil => simp
    | cons r rs ih => intro m; rw [List.foldl_cons, ih]; simp [List.append_assoc]
  have k3 : ∀ (rs : List (List Mark × Bool)) (n : Nat), rs.foldl (fun n r => n + r.1.length) n = n + (rs.flatMap (·.1)).length := by
    intro rs
    induction rs with
    | nil => simp
    | cons r rs ih => intro n; rw [List.foldl_cons, ih]; simp [Nat.add_assoc]
  unfold collectResults
  rw [k1, k2, k3]
  simp only [Nat.zero_add, Bool.false_or, List.nil_append, List.length_eq_zero_iff]
  split
  · rename_i hz
    refine Prod.ext hz.symm ?_
    cases ha : rs.any (·.2) with
    | false => rfl
    | true =>
      rw [List.any_eq_true] at ha
      obtain ⟨r, hr, hb⟩ := ha
      rw [List.flatMap_eq_nil_iff] at hz
      exact absurd (hz r hr) (h r hr hb)
  · rfl

/-- C35: whatever the order in which the tasks of the parallel map make their steps, once all are finished the
marks, in the same order, and the flag are those of the serial computation. -/
theorem C35_parallel_serial (radius : Int) (gs : List (List Fragment)) (ts : List Task)
    (hrun : ParRun radius (gs.map Task.waiting) ts) (hdone : AllDone ts) :
    collectResults (ts.map Task.result) = serialSplit radius gs := by
  have e : ts.map Task.result = gs.map (binSplit radius) := by
    have h := hrun.outcome
    rw [List.map_map] at h
    rw [show (Task.outcome radius ∘ Task.waiting) = binSplit radius from rfl] at h
    rw [← h]
    refine List.map_congr_left ?_
    intro t ht
    obtain ⟨m, b, rfl⟩ := hdone t ht
    simp [Task.result, Task.outcome]
  rw [e, collectResults_eq, serialSplit_eq]
  · simp [List.flatMap_map, List.any_map, Function.comp_def]
  · intro r hr
    obtain ⟨fs, -, rfl⟩ := List.mem_map.1 hr
    exact binSplit_flag

/-- Steps left in a task. -/
def Task.left : Task → Nat
  | .waiting fs => (binWork fs).length + 1
  | .running todo _ _ => todo.length

/-- C35, progress: as long as a task is unfinished some step is possible, and every schedule is finite: the number
of steps of an execution is the number of steps left at its start minus that at its end. -/
theorem C35_terminates (radius : Int) (ts : List Task) :
    (¬ AllDone ts → ∃ us, ParStep radius ts us) ∧
    ∀ us, ParStep radius ts us → (us.map Task.left).sum + 1 = (ts.map Task.left).sum := by
  constructor
  · intro h
    unfold AllDone at h
    push Not at h
    obtain ⟨t, ht, hn⟩ := h
    obtain ⟨pre, post, rfl⟩ := List.append_of_mem ht
    cases t with
    | waiting fs => exact ⟨_, .one pre post _ _ rfl⟩
    | running todo m b =>
      cases todo with
      | nil => exact absurd rfl (hn m b)
      | cons w rest => exact ⟨_, .one pre post _ _ rfl⟩
  · intro us h
    cases h with
    | one pre post t t' h =>
      have : t'.left + 1 = t.left := by
        cases t with
        | waiting fs =>
          simp only [Task.step, Option.some.injEq] at h
          subst h; rfl
        | running todo m b =>
          cases todo with
          | nil => simp [Task.step] at h
          | cons w rest =>
            simp only [Task.step, Option.some.injEq] at h
            subst h; rfl
      simp only [List.map_append, List.map_cons, List.sum_append, List.sum_cons]
      omega

/-- The steps of a schedule: at each moment the task with the given number makes a step, if it can. -/
def runSchedule (radius : Int) : List Nat → List Task → List Task
  | [], ts => ts
  | i :: rest, ts =>
    match ts[i]? with
    | none => runSchedule radius rest ts
    | some t =>
      match t.step radius with
      | none => runSchedule radius rest ts
      | some t' => runSchedule radius rest (ts.set i t')

theorem runSchedule_run (radius : Int) : ∀ (l : List Nat) (ts : List Task), ParRun radius ts (runSchedule radius l ts) := by
  intro l
  induction l with
  | nil => intro ts; exact .refl ts
  | cons i rest ih =>
    intro ts
    rw [runSchedule]
    split
    · exact ih ts
    · rename_i t ht
      split
      · exact ih ts
      · rename_i t' ht'
        refine .step ?_ (ih _)
        obtain ⟨hi, e⟩ := List.getElem?_eq_some_iff.1 ht
        have e1 : ts = ts.take i ++ t :: ts.drop (i + 1) := by
          rw [← e, List.getElem_cons_drop, List.take_append_drop]
        have e2 : ts.set i t' = ts.take i ++ t' :: ts.drop (i + 1) := by
          rw [List.set_eq_take_append_cons_drop, if_pos hi]
        rw [e2]
        conv_lhs => rw [e1]
        exact .one _ _ _ _ ht'

/-- Edges crossing in two columns of a grid. -/
def exFragSegs : List (Seg CountBool) :=
  [⟨⟨0, 0⟩, ⟨8, 8⟩, ⟨1, 0⟩⟩, ⟨⟨0, 8⟩, ⟨8, 0⟩, ⟨0, 1⟩⟩, ⟨⟨9, 0⟩, ⟨16, 9⟩, ⟨1, 0⟩⟩, ⟨⟨9, 9⟩, ⟨16, 0⟩, ⟨0, 1⟩⟩]

/-- C35 is not vacuous: an interleaved schedule finishes both tasks, and there are marks and a rounded crossing. -/
example : ParRun 1 ((groups ⟨0, 16, 3⟩ exFragSegs).map Task.waiting)
    (runSchedule 1 [1, 0, 0, 1, 2] ((groups ⟨0, 16, 3⟩ exFragSegs).map Task.waiting)) := runSchedule_run _ _ _


end IOverlay
