/-
A simple loop made of steps of a walk around faces winds around every point at most once, and the inner side of
the walk is inside the loop everywhere or outside everywhere. C58.
-/
import Verif.SliceFaces
import Verif.OrientRun
import Verif.Props.Divide

namespace IOverlay

theorem edge_fst_inj {c : List Pt} (hc : c.Nodup) {e f : Pt × Pt} (he : e ∈ polyEdges c) (hf : f ∈ polyEdges c)
    (h : e.1 = f.1) : e = f :=
  List.inj_on_of_nodup_map (f := fun e : Pt × Pt => e.1) (by rw [polyEdges_fst]; exact hc) he hf h

theorem edge_snd_inj {c : List Pt} (hc : c.Nodup) {e f : Pt × Pt} (he : e ∈ polyEdges c) (hf : f ∈ polyEdges c)
    (h : e.2 = f.2) : e = f :=
  List.inj_on_of_nodup_map (f := fun e : Pt × Pt => e.2) ((polyEdges_snd c).nodup_iff.2 hc) he hf h

theorem loop_nodup {c : List Pt} (hc : c.Nodup) : (polyEdges c).Nodup :=
  List.Nodup.of_map (fun e : Pt × Pt => e.1) (by rw [polyEdges_fst]; exact hc)

theorem loop_swap {c : List Pt} (hc : c.Nodup) (hl : 3 ≤ c.length) {e : Pt × Pt} (he : e ∈ polyEdges c) :
    e.swap ∉ polyEdges c := by
  intro hs
  have ha : e.1 ∈ c := by
    have := List.mem_map_of_mem (f := fun e : Pt × Pt => e.1) he
    rwa [polyEdges_fst] at this
  obtain ⟨l, r, hlr⟩ := List.append_of_mem ha
  have hperm : (polyEdges c).Perm (polyEdges (e.1 :: r ++ l)) := by rw [hlr]; exact polyEdges_shift _ _
  have hc' : (e.1 :: r ++ l).Nodup := by
    rw [hlr] at hc
    exact (List.perm_append_comm (l₁ := l)).nodup_iff.1 hc
  have hl' : 3 ≤ (e.1 :: r ++ l).length := by rw [hlr] at hl; simp at hl ⊢; omega
  rw [hperm.mem_iff] at he hs
  rw [List.cons_append] at *
  rcases hx : r ++ l with _ | ⟨x, _ | ⟨y, z⟩⟩
  · rw [hx] at hl'; simp at hl'
  · rw [hx] at hl'; simp at hl'
  · rw [hx] at hc' he hs
    have h1 : (e.1, x) ∈ polyEdges (e.1 :: x :: y :: z) := by simp [polyEdges]
    have h2 : (x, y) ∈ polyEdges (e.1 :: x :: y :: z) := by simp [polyEdges]
    have e1 := edge_fst_inj hc' he h1 rfl
    have e2 := edge_fst_inj hc' hs h2 (by show e.2 = x; rw [e1])
    have : e.1 = y := congrArg Prod.snd e2
    rw [this] at hc'
    simp at hc'

theorem polyEdges_sum (c : List Pt) (f : Pt → Int) : ((polyEdges c).map fun e => f e.1 - f e.2).sum = 0 := by
  have h1 : ((polyEdges c).map fun e => f e.1).sum = (c.map f).sum := by
    have : (polyEdges c).map (fun e => f e.1) = ((polyEdges c).map (·.1)).map f := by rw [List.map_map]; rfl
    rw [this, polyEdges_fst]
  have h2 : ((polyEdges c).map fun e => f e.2).sum = (c.map f).sum := by
    have : (polyEdges c).map (fun e => f e.2) = ((polyEdges c).map (·.2)).map f := by rw [List.map_map]; rfl
    rw [this]
    exact ((polyEdges_snd c).map f).sum_eq
  have : ∀ L : List (Pt × Pt), (L.map fun e => f e.1 - f e.2).sum = (L.map fun e => f e.1).sum - (L.map fun e => f e.2).sum := by
    intro L
    induction L with
    | nil => rfl
    | cons x L ih => simp only [List.map_cons, List.sum_cons, ih]; ring
  rw [this, h1, h2]; ring

/-- Among marked edges, the topmost of those at the leftmost vertex. -/
theorem exists_topmost {C : Type} {E : List (Seg C)} (hp : Planar E) (U : Seg C → Prop) (hne : ∃ s ∈ E, U s) :
    ∃ T, (T ∈ E ∧ U T) ∧ (∀ f ∈ E, U f → ¬ f.a < T.a) ∧
      ∀ f ∈ E, U f → f.a = T.a → f ≠ T → 0 < area2 T.a T.b f.b := by
  have key : ∀ L : List (Seg C), (∀ s ∈ L, s ∈ E) → (∃ s ∈ L, U s) →
      ∃ T, (T ∈ L ∧ U T) ∧ (∀ f ∈ L, U f → ¬ f.a < T.a) ∧
        ∀ f ∈ L, U f → f.a = T.a → f ≠ T → 0 < area2 T.a T.b f.b := by
    intro L
    induction L with
    | nil => intro _ h; simp at h
    | cons x L ih =>
      intro hL hex
      by_cases hx : U x
      · by_cases hr : ∃ s ∈ L, U s
        · obtain ⟨T, ⟨hT, hUT⟩, h1, h2⟩ := ih (fun s hs => hL s (List.mem_cons_of_mem _ hs)) hr
          have hTE := hL T (List.mem_cons_of_mem _ hT)
          have hxE := hL x List.mem_cons_self
          by_cases hb : x = T ∨ T.a < x.a ∨ (x.a = T.a ∧ 0 < area2 T.a T.b x.b)
          · refine ⟨T, ⟨List.mem_cons_of_mem _ hT, hUT⟩, ?_, ?_⟩
            · intro f hf hUf
              rcases List.mem_cons.1 hf with rfl | hf
              · rcases hb with rfl | hb | ⟨hb, -⟩
                · exact Pt.lt_irrefl _
                · intro h; exact Pt.lt_irrefl _ (Pt.lt_trans h hb)
                · rw [hb]; exact Pt.lt_irrefl _
              · exact h1 f hf hUf
            · intro f hf hUf ha hn
              rcases List.mem_cons.1 hf with rfl | hf
              · rcases hb with rfl | hb | ⟨-, hb⟩
                · exact absurd rfl hn
                · rw [ha] at hb; exact absurd hb (Pt.lt_irrefl _)
                · exact hb
              · exact h2 f hf hUf ha hn
          · push Not at hb
            obtain ⟨b1, b2, b3⟩ := hb
            refine ⟨x, ⟨List.mem_cons_self, hx⟩, ?_, ?_⟩
            · intro f hf hUf hlt
              rcases List.mem_cons.1 hf with rfl | hf
              · exact Pt.lt_irrefl _ hlt
              · rcases Pt.lt_tri x.a T.a with h | h | h
                · exact h1 f hf hUf (Pt.lt_trans hlt h)
                · rw [h] at hlt; exact h1 f hf hUf hlt
                · exact b2 h
            · intro f hf hUf ha hn
              rcases List.mem_cons.1 hf with rfl | hf
              · exact absurd rfl hn
              · have hfE := hL f (List.mem_cons_of_mem _ hf)
                rcases Pt.lt_tri x.a T.a with h | h | h
                · rw [← ha] at h; exact absurd h (h1 f hf hUf)
                · have h3 : 0 < area2 x.a x.b T.b := by
                    have h4 := hp.fan_ne hxE hTE b1 h
                    have h5 := b3 h
                    have h6 : area2 T.a T.b x.b < 0 := by omega
                    rw [h, fan_swap]; omega
                  by_cases hfT : f = T
                  · rw [hfT]; exact h3
                  · have h4 := h2 f hf hUf (ha.trans h) hfT
                    have lx := hp.lt x hxE
                    have lT := hp.lt T hTE
                    have lf := hp.lt f hfE
                    rw [← h] at h4 lT
                    rw [ha] at lf
                    exact fan_trans lf lT lx h4 h3
                · exact absurd h b2
        · refine ⟨x, ⟨List.mem_cons_self, hx⟩, ?_, ?_⟩
          · intro f hf hUf
            rcases List.mem_cons.1 hf with rfl | hf
            · exact Pt.lt_irrefl _
            · exact absurd ⟨f, hf, hUf⟩ hr
          · intro f hf hUf _ hn
            rcases List.mem_cons.1 hf with rfl | hf
            · exact absurd rfl hn
            · exact absurd ⟨f, hf, hUf⟩ hr
      · have hr : ∃ s ∈ L, U s := by
          obtain ⟨s, hs, hU⟩ := hex
          rcases List.mem_cons.1 hs with rfl | hs
          · exact absurd hU hx
          · exact ⟨s, hs, hU⟩
        obtain ⟨T, ⟨hT, hUT⟩, h1, h2⟩ := ih (fun s hs => hL s (List.mem_cons_of_mem _ hs)) hr
        refine ⟨T, ⟨List.mem_cons_of_mem _ hT, hUT⟩, ?_, ?_⟩
        · intro f hf hUf
          rcases List.mem_cons.1 hf with rfl | hf
          · exact absurd hUf hx
          · exact h1 f hf hUf
        · intro f hf hUf
          rcases List.mem_cons.1 hf with rfl | hf
          · exact absurd hUf hx
          · exact h2 f hf hUf
  exact key E (fun _ h => h) hne

section
variable {E : List Edge} (hp : Planar E) (hk : Keyed E)
include hp hk

theorem stepFlow_wind {L : List (Pt × Pt)} (hL : ∀ e ∈ L, (dartOf e).s ∈ E) (q : QPt) :
    segsWind (stepFlow L) E q = stepsWind L q := by
  have e := wsum_trav hp hk (fun s => edgeWind s.a s.b q) (L.map dartOf) (by
    intro d hd
    obtain ⟨e, he, rfl⟩ := List.mem_map.1 hd
    exact hL e he)
  change segsWind (stepFlow L) E q = _ at e
  rw [e, List.map_map]
  unfold stepsWind
  congr 1
  refine List.map_congr_left fun e _ => ?_
  simp only [Function.comp]
  unfold dartOf Dart.sign
  split
  · simp
  · simp only [Bool.false_eq_true, if_false]
    rw [edgeWind_swap]; ring

theorem loop_closed {c : List Pt} (hE : ∀ e ∈ polyEdges c, (dartOf e).s ∈ E) : Closed (stepFlow (polyEdges c)) E :=
  stepFlow_closed hp hk hE (polyEdges_sum c)

/-- Flow through the steps of a simple loop. -/
theorem loop_flux {c : List Pt} (hc : c.Nodup) (hl : 3 ≤ c.length) (hE : ∀ e ∈ polyEdges c, (dartOf e).s ∈ E) {e : Pt × Pt}
    (he : e ∈ polyEdges c) : flux (stepFlow (polyEdges c)) (dartOf e) = 1 := by
  rw [stepFlow_flux hp hk hE (hE e he), List.count_eq_one_of_mem (loop_nodup hc) he, List.count_eq_zero.2 (loop_swap hc hl he)]
  rfl

omit hp in
/-- Only the edges of the loop carry flow. -/
theorem loop_supp {c : List Pt} {s : Edge} (hs : s ∈ E) (h : stepFlow (polyEdges c) s.c ≠ 0) :
    ∃ e ∈ polyEdges c, (dartOf e).s = s := by
  by_contra hn
  push Not at hn
  apply h
  unfold stepFlow
  rw [onKeys_eq hk _ hs]
  refine trav_zero ?_
  intro hm
  obtain ⟨d, hd, h1⟩ := List.mem_map.1 hm
  obtain ⟨e, he, rfl⟩ := List.mem_map.1 hd
  exact hn e he h1

/-- A simple loop whose inner sides all have the same winding number `m`: it winds around every point at most once,
and the inner side is inside (`m ≠ 0`) or outside (`m = 0`). -/
theorem loop_winds {cw : Bool} {c : List Pt} (hc : c.Nodup) (hl : 3 ≤ c.length) (hE : ∀ e ∈ polyEdges c, (dartOf e).s ∈ E)
    {m : Int} (hm : ∀ e ∈ polyEdges c, hug cw (stepFlow (polyEdges c)) E (dartOf e) = m) :
    (m = side cw ∧ WindsOnce (side cw) c) ∨ (m = 0 ∧ WindsOnce (- side cw) c) := by
  classical
  have hcl := loop_closed hp hk hE
  have hside : side cw = 1 ∨ side cw = -1 := by unfold side; cases cw <;> simp
  have hfar : ∀ e ∈ polyEdges c, far cw (stepFlow (polyEdges c)) E (dartOf e) = m - side cw := by
    intro e he
    have := hug_far cw (stepFlow (polyEdges c)) E (dartOf e)
    rw [loop_flux hp hk hc hl hE he, hm e he] at this
    omega
  -- the values above and below an edge
  have hval : ∀ e ∈ polyEdges c,
      (botW (stepFlow (polyEdges c)) E (dartOf e).s = m ∧
        botW (stepFlow (polyEdges c)) E (dartOf e).s + stepFlow (polyEdges c) (dartOf e).s.c = m - side cw) ∨
      (botW (stepFlow (polyEdges c)) E (dartOf e).s = m - side cw ∧
        botW (stepFlow (polyEdges c)) E (dartOf e).s + stepFlow (polyEdges c) (dartOf e).s.c = m) := by
    intro e he
    have h1 := hm e he
    have h2 := hfar e he
    unfold hug at h1
    unfold far at h2
    by_cases h : (dartOf e).fwd = cw
    · rw [if_pos h] at h1 h2
      right; exact ⟨by omega, h1⟩
    · rw [if_neg h] at h1 h2
      left; exact ⟨by omega, h2⟩
  have hw : ∀ q, polyWind c q = segsWind (stepFlow (polyEdges c)) E q := fun q => (stepFlow_wind hp hk hE q).symm
  -- the topmost edge at the leftmost vertex
  obtain ⟨T, hT, hTz⟩ : ∃ e ∈ polyEdges c, botW (stepFlow (polyEdges c)) E (dartOf e).s + stepFlow (polyEdges c) (dartOf e).s.c = 0 := by
    have hne : ∃ s ∈ E, ∃ e ∈ polyEdges c, (dartOf e).s = s := by
      obtain ⟨e, he⟩ : ∃ e, e ∈ polyEdges c := by
        have : (polyEdges c).length = c.length := by
          have := congrArg List.length (polyEdges_fst c); simpa using this
        have hpos : 0 < (polyEdges c).length := by omega
        exact ⟨_, List.getElem_mem hpos⟩
      exact ⟨_, hE e he, e, he, rfl⟩
    obtain ⟨T, hT, h1, h2⟩ := exists_topmost hp (fun s => ∃ e ∈ polyEdges c, (dartOf e).s = s) hne
    obtain ⟨hTE, e, he, rfl⟩ := hT
    refine ⟨e, he, hp.top_zero hcl (U := fun s => ∃ e ∈ polyEdges c, (dartOf e).s = s) ?_ hTE h1 h2⟩
    intro h hh hn
    by_contra hne
    exact hn (loop_supp hk hh hne)
  have hin : ∃ q, polyWind c q = botW (stepFlow (polyEdges c)) E (dartOf T).s := by
    obtain ⟨z, hz⟩ := bot_value hp hk hcl (hE T hT)
    exact ⟨z, by rw [hw]; exact hz⟩
  have hall : ∀ q, polyWind c q = 0 ∨ polyWind c q = m ∨ polyWind c q = m - side cw := by
    intro q
    rw [hw]
    rcases hp.wind_cases hcl q with h | ⟨s, hs, h0, h⟩
    · exact Or.inl h
    · obtain ⟨e, he, rfl⟩ := loop_supp hk hs h0
      rcases hval e he with ⟨-, h'⟩ | ⟨-, h'⟩
      · right; right; rw [h, h']
      · right; left; rw [h, h']
  rcases hval T hT with ⟨h1, h2⟩ | ⟨h1, h2⟩
  · left
    rw [hTz] at h2
    have hms : m = side cw := by omega
    refine ⟨hms, ?_, ?_⟩
    · intro q
      rcases hall q with h | h | h <;> omega
    · obtain ⟨q, hq⟩ := hin
      exact ⟨q, by omega⟩
  · right
    rw [hTz] at h2
    refine ⟨h2.symm, ?_, ?_⟩
    · intro q
      rcases hall q with h | h | h <;> omega
    · obtain ⟨q, hq⟩ := hin
      exact ⟨q, by omega⟩

end
end IOverlay
