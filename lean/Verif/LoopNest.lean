/-
Contours made of steps around faces are nested with every simple polygon drawn along the same edges. C58.
-/
import Verif.LoopWind

namespace IOverlay

theorem pathSteps_chain : ∀ l : List Pt, (pathSteps l).IsChain fun e f => e.2 = f.1
  | [] => by simp [pathSteps]
  | [_] => by simp [pathSteps]
  | [_, _] => by simp [pathSteps]
  | a :: b :: c :: l => by
    have h := pathSteps_chain (b :: c :: l)
    have e : ∀ x y (z : List Pt), pathSteps (x :: y :: z) = (x, y) :: pathSteps (y :: z) := fun _ _ _ => rfl
    rw [e, e, List.isChain_cons_cons]
    rw [e] at h
    exact ⟨rfl, h⟩

theorem polyEdges_chain (c : List Pt) : (polyEdges c).IsChain fun e f => e.2 = f.1 := by
  cases c with
  | nil => simp [polyEdges]
  | cons p c => rw [polyEdges_eq_pathSteps (p := p) rfl]; exact pathSteps_chain _

section
variable {E : List Edge} (hp : Planar E) (hk : Keyed E)
include hp hk

/-- Some point close to an edge, on its left side. -/
theorem top_value {φ : Pt × Pt → Int} (hc : Closed φ E) {s : Edge} (hs : s ∈ E) :
    ∃ q, segsWind φ E q = botW φ E s + φ s.c := by
  have hm : inSeg ⟨((s.a.x:ℚ) + s.b.x) / 2, ((s.a.y:ℚ) + s.b.y) / 2⟩ s.a s.b :=
    ⟨1/2, by norm_num, by norm_num, by simp; ring, by simp; ring⟩
  obtain ⟨ε, e0, he⟩ := hp.near hc hs hm
  exact ⟨_, (he (ε/2) (by linarith) (by linarith)).2⟩

omit hk in
/-- What flows into a vertex of a simple loop flows out again, if nothing flows elsewhere. -/
theorem loop_step_flux {c : List Pt} (hc : c.Nodup) (hl : 3 ≤ c.length) (hE : ∀ e ∈ polyEdges c, (dartOf e).s ∈ E)
    {ψ : Pt × Pt → Int} (hψ : Closed ψ E) (hs : ∀ s ∈ E, (∀ e ∈ polyEdges c, (dartOf e).s ≠ s) → ψ s.c = 0)
    {e f : Pt × Pt} (he : e ∈ polyEdges c) (hf : f ∈ polyEdges c) (hef : e.2 = f.1) :
    flux ψ (dartOf e) = flux ψ (dartOf f) := by
  have hz := hp.outw_closed hψ e.2
  have hne : (dartOf e).s ≠ (dartOf f).s := by
    intro h
    rcases dartOf_seg h with h | h
    · subst h; exact step_ne hp (hE e he) hef.symm
    · rw [h] at he; exact loop_swap hc hl hf he
  have hsum : wsum ψ (outw e.2) E = wsum ψ (fun s => outw e.2 (dartOf e).s * ind (s = (dartOf e).s)) E +
      wsum ψ (fun s => outw e.2 (dartOf f).s * ind (s = (dartOf f).s)) E := by
    unfold wsum
    rw [← List.sum_map_add]
    congr 1
    refine List.map_congr_left fun s hsE => ?_
    beta_reduce
    by_cases h1 : s = (dartOf e).s
    · rw [h1, ind_true rfl, ind_false hne]; ring
    · by_cases h2 : s = (dartOf f).s
      · rw [h2, ind_true rfl, ind_false hne.symm]; ring
      · rw [ind_false h1, ind_false h2]
        by_cases hat : s.at e.2
        · have : ψ s.c = 0 := by
            refine hs s hsE fun g hg hgs => ?_
            have : e.2 = g.1 ∨ e.2 = g.2 := by
              rw [← hgs] at hat
              rcases dartOf_cases g with h | h
              · rcases hat with h' | h'
                · left; rw [← h']; exact (congrArg Prod.fst h).symm
                · right; rw [← h']; exact (congrArg Prod.snd h).symm
              · rcases hat with h' | h'
                · right; rw [← h']; exact (congrArg Prod.snd h).symm
                · left; rw [← h']; exact (congrArg Prod.fst h).symm
            rcases this with h | h
            · rw [edge_fst_inj hc hg hf (by rw [← h, hef])] at hgs
              exact h2 hgs.symm
            · rw [edge_snd_inj hc hg he h.symm] at hgs
              exact h1 hgs.symm
          rw [this]; ring
        · rw [outw_zero hat]; ring
  rw [hz, wsum_mul, wsum_mul, wsum_single ψ hp.nodup (hE e he), wsum_single ψ hp.nodup (hE f hf)] at hsum
  have w1 := wsum_dart ψ e.2 (fun _ => 1) (dartOf e)
  have w2 := wsum_dart ψ e.2 (fun _ => 1) (dartOf f)
  rw [dartOf_start, dartOf_finish, ind_false (step_ne hp (hE e he)), ind_true rfl] at w1
  rw [dartOf_start, dartOf_finish, ind_true hef.symm, ind_false (by rw [hef]; exact (step_ne hp (hE f hf)).symm)] at w2
  linarith

/-- A closed flow on a simple loop only is a multiple of the flow of the loop. -/
theorem loop_multiple {c : List Pt} (hc : c.Nodup) (hl : 3 ≤ c.length) (hE : ∀ e ∈ polyEdges c, (dartOf e).s ∈ E)
    {ψ : Pt × Pt → Int} (hψ : Closed ψ E) (hs : ∀ s ∈ E, (∀ e ∈ polyEdges c, (dartOf e).s ≠ s) → ψ s.c = 0) :
    ∃ α : Int, ∀ q, segsWind ψ E q = α * polyWind c q := by
  obtain ⟨α, hα⟩ : ∃ α, ∀ e ∈ polyEdges c, flux ψ (dartOf e) = α := by
    rcases hD : polyEdges c with _ | ⟨x, D⟩
    · exact ⟨0, by simp⟩
    · refine ⟨flux ψ (dartOf x), ?_⟩
      refine steps_induct _ ?_ ?_
      · intro d hd; simp at hd; rw [hd]
      · intro pre e f post hD' _ he
        rw [← he]
        have hch := polyEdges_chain c
        rw [← hD] at hD'
        exact (loop_step_flux hp hc hl hE hψ hs (by rw [hD']; simp) (by rw [hD']; simp) (chain_at hch hD')).symm
  refine ⟨α, fun q => ?_⟩
  have h1 : polyWind c q = segsWind (stepFlow (polyEdges c)) E q := (stepFlow_wind hp hk hE q).symm
  rw [h1]
  unfold segsWind
  rw [← List.sum_map_mul_left]
  congr 1
  refine List.map_congr_left fun s hsE => ?_
  by_cases h : ∃ e ∈ polyEdges c, (dartOf e).s = s
  · obtain ⟨e, he, rfl⟩ := h
    have a1 := hα e he
    have a2 := loop_flux hp hk hc hl hE he
    unfold flux at a1 a2
    have sq := (dartOf e).sign_sq
    have : ψ (dartOf e).s.c = α * stepFlow (polyEdges c) (dartOf e).s.c := by
      have b1 : ψ (dartOf e).s.c = (dartOf e).sign * α := by rw [← a1, ← mul_assoc, sq, one_mul]
      have b2 : stepFlow (polyEdges c) (dartOf e).s.c = (dartOf e).sign := by
        have := congrArg (fun z => (dartOf e).sign * z) a2
        simp only [← mul_assoc, sq, one_mul, mul_one] at this
        exact this
      rw [b1, b2]; ring
    rw [this]; ring
  · push Not at h
    rw [hs s hsE h, stepFlow_zero hp hk hsE h]; ring

/-- A loop of steps on whose inner side every closed flow is constant. -/
structure FaceLoop (cw : Bool) (E : List Edge) (c : List Pt) : Prop where
  simple : c.Nodup
  three : 3 ≤ c.length
  mem : ∀ e ∈ polyEdges c, (dartOf e).s ∈ E
  const : ∀ φ : Pt × Pt → Int, Closed φ E → ∃ m, ∀ e ∈ polyEdges c, hug cw φ E (dartOf e) = m

/-- Such a loop is nested with every simple polygon drawn along the edges. -/
theorem FaceLoop.nested {cw : Bool} {c p : List Pt} (h : FaceLoop cw E c) (hs : p.Nodup) (h3 : 3 ≤ p.length)
    (hE : ∀ e ∈ polyEdges p, (dartOf e).s ∈ E) : Nested c p := by
  have hclp := loop_closed hp hk hE
  have hclc := loop_closed hp hk h.mem
  obtain ⟨n, hn⟩ := h.const _ hclp
  have hwp : ∀ q, segsWind (stepFlow (polyEdges p)) E q = polyWind p q := stepFlow_wind hp hk hE
  have hwc : ∀ q, segsWind (stepFlow (polyEdges c)) E q = polyWind c q := stepFlow_wind hp hk h.mem
  generalize hΨ : (fun b : Bool => if b then stepFlow (polyEdges p) else stepFlow (polyEdges c)) = Ψ
  have hΨt : Ψ true = stepFlow (polyEdges p) := by rw [← hΨ]; rfl
  have hΨf : Ψ false = stepFlow (polyEdges c) := by rw [← hΨ]; rfl
  have hcΨ : ∀ b, Closed (Ψ b) E := by
    intro b
    cases b
    · rw [hΨf]; exact hclc
    · rw [hΨt]; exact hclp
  generalize hG : (fun v : Bool → Int => (v true - n) * v false) = G
  have hG0 : G 0 = 0 := by rw [← hG]; simp
  obtain ⟨α, hα⟩ := loop_multiple hp hk hs h3 hE (onKeys_closed hp hk hcΨ G) (by
    intro s hsE hnp
    rw [onKeys_eq hk _ hsE]
    have z := stepFlow_zero hp hk hsE hnp
    unfold jump bvec cvec
    rw [← hG]
    simp only [Pi.add_apply, hΨt, hΨf, z, add_zero]
    by_cases hfc : stepFlow (polyEdges c) s.c = 0
    · rw [hfc, add_zero, sub_self]
    · obtain ⟨e, he, rfl⟩ := loop_supp hk hsE hfc
      have := hn e he
      unfold hug at this
      rw [z] at this
      simp only [ite_self, add_zero] at this
      rw [this, sub_self, zero_mul, zero_mul, sub_self])
  have key : ∀ q, (polyWind p q - n) * polyWind c q = α * polyWind p q := by
    intro q
    rw [← hα q, onKeys_flow hk, jumps_wind Ψ G hp hcΨ, hG0, sub_zero, ← hG]
    simp only [hΨt, hΨf, hwp, hwc]
  by_cases hn0 : n = 0
  · by_cases ha : α = 0
    · left
      intro q hq
      have := key q
      rw [hn0, ha, zero_mul, sub_zero] at this
      exact (mul_eq_zero.1 this).resolve_right hq
    · right; right
      intro q hq hcz
      have := key q
      rw [hcz, mul_zero] at this
      rcases mul_eq_zero.1 this.symm with h' | h'
      · exact ha h'
      · exact hq h'
  · right; left
    -- the value `n` is taken somewhere
    obtain ⟨e, he⟩ : ∃ e, e ∈ polyEdges c := by
      have h1 : (polyEdges c).length = c.length := by
        have := congrArg List.length (polyEdges_fst c); simpa using this
      have hpos : 0 < (polyEdges c).length := by have := h.three; omega
      exact ⟨_, List.getElem_mem hpos⟩
    obtain ⟨z, hz⟩ : ∃ q, polyWind p q = n := by
      obtain ⟨q1, hq1⟩ := bot_value hp hk hclp (h.mem e he)
      have hn' := hn e he
      unfold hug at hn'
      by_cases hc : (dartOf e).fwd = cw
      · rw [if_pos hc] at hn'
        obtain ⟨q2, hq2⟩ := top_value hp hk hclp (h.mem e he)
        exact ⟨q2, by rw [← hwp, hq2, hn']⟩
      · rw [if_neg hc, add_zero] at hn'
        exact ⟨q1, by rw [← hwp, hq1, hn']⟩
    have ha : α = 0 := by
      have := key z
      rw [hz, sub_self, zero_mul] at this
      exact (mul_eq_zero.1 this.symm).resolve_right hn0
    intro q hq hpz
    have := key q
    rw [ha, hpz, zero_mul, zero_sub] at this
    rcases mul_eq_zero.1 this with h' | h'
    · exact hn0 (by omega)
    · exact hq h'

end
end IOverlay
