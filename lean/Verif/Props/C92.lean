import Verif.Lemmas.Law
import Verif.Lemmas.Race
import Verif.Props.C26

/-!
# C92: `random_assignment` draws independent labels with the normalised weights

C26 says which label belongs to which uniform number.  Here the uniform numbers are random: for a generator whose answers are independent and have the documented laws
(`RandGen`), for every weight class, every state whose weights are non-negative with positive sum, and every `n`, the `n` labels are independent and label `j` has
probability `w_j / sum(w)`.
-/

set_option linter.unusedSectionVars false

namespace Verif
open MeasureTheory ProbabilityTheory Spec
open scoped ENNReal

theorem take_sum_succ (w : List ℝ) (k : ℕ) : (w.take (k + 1)).sum = (w.take k).sum + (w[k]?).getD 0 := by
  rw [List.take_add_one, List.sum_append]
  cases w[k]? <;> simp

theorem take_sum_le {w : List ℝ} (hnn : ∀ x ∈ w, 0 ≤ x) (k : ℕ) : (w.take k).sum ≤ w.sum := by
  conv_rhs => rw [← List.take_append_drop k w, List.sum_append]
  have : 0 ≤ (w.drop k).sum := List.sum_nonneg fun x hx => hnn x (List.mem_of_mem_drop hx)
  linarith

/-- One label. -/
theorem invCdf_law {w : List ℝ} (hnn : ∀ x ∈ w, 0 ≤ x) (hs : 0 < w.sum) (k : ℕ) :
    unifLaw {u | BaseWeight.invCdf (BaseWeight.normalizedCumulative w) u = k} = ENNReal.ofReal (choiceProb w k) := by
  have hiff : ∀ u : ℝ, u < 1 → (BaseWeight.invCdf (BaseWeight.normalizedCumulative w) u = k ↔ IsQuantile w u k) := fun u hu =>
    ⟨fun h => h ▸ invCdf_quantile hnn hs hu, fun h => (invCdf_quantile hnn hs hu).unique hnn hs h⟩
  rcases Nat.lt_or_ge k w.length with hk | hk
  · have h0 : 0 ≤ (w.take k).sum / w.sum := div_nonneg (List.sum_nonneg fun x hx => hnn x (List.mem_of_mem_take hx)) hs.le
    have h1 : (w.take (k + 1)).sum / w.sum ≤ 1 := (div_le_one hs).2 (take_sum_le hnn _)
    have hd : (w.take (k + 1)).sum / w.sum = (w.take k).sum / w.sum + choiceProb w k := by rw [take_sum_succ, choiceProb, add_div]
    have he : unifLaw {u | BaseWeight.invCdf (BaseWeight.normalizedCumulative w) u = k} = unifLaw (Set.Ioc ((w.take k).sum / w.sum) ((w.take (k + 1)).sum / w.sum)) := by
      refine measure_congr ?_
      filter_upwards [unifLaw_Ioo] with u hu
      refine propext ((hiff u hu.2).trans ⟨fun h => ⟨?_, h.above⟩, fun h => ⟨hk, fun _ => h.1, h.2⟩⟩)
      rcases Nat.eq_zero_or_pos k with rfl | h0
      · simpa using hu.1
      · exact h.below h0
    rw [he, unifLaw, Measure.restrict_apply measurableSet_Ioc]
    have h3 : (Set.Ioc ((w.take k).sum / w.sum) ((w.take (k + 1)).sum / w.sum) ∩ Set.Ico 0 1 : Set ℝ) =ᵐ[volume] Set.Ioc ((w.take k).sum / w.sum) ((w.take (k + 1)).sum / w.sum) := by
      have hne : ∀ᵐ x : ℝ ∂volume, x ≠ 1 := by simp [ae_iff]
      filter_upwards [hne] with x hx
      refine propext ⟨fun h => h.1, fun h => ⟨h, h0.trans h.1.le, lt_of_le_of_ne (h.2.trans h1) hx⟩⟩
    rw [measure_congr h3, Real.volume_Ioc, hd]
    congr 1
    ring
  · have : ∀ᵐ u ∂unifLaw, BaseWeight.invCdf (BaseWeight.normalizedCumulative w) u ≠ k := by
      filter_upwards [unifLaw_Ioo] with u hu h
      have := ((hiff u hu.2).1 h).lt
      omega
    rw [ae_iff] at this
    simp only [ne_eq, not_not] at this
    rw [this, choiceProb, List.getElem?_eq_none hk]
    simp

theorem measurable_invCdf (c : List ℝ) : Measurable (BaseWeight.invCdf c) := by
  have : ∀ c : List ℝ, Measurable fun u : ℝ => c.countP (fun x => decide (u > x)) := by
    intro c
    induction c with
    | nil => exact measurable_const
    | cons x c ih =>
      simp only [List.countP_cons]
      refine ih.add (Measurable.ite ?_ measurable_const measurable_const)
      simp only [decide_eq_true_eq]
      exact measurableSet_Ioi
  exact this c

/-- The labels drawn. -/
theorem C92_law (G : RandGen) (C : WeightCore ℝ) (s : C.State × ℕ) (hnn : ∀ x ∈ C.getW s.1, 0 ≤ x) (hs : 0 < (C.getW s.1).sum) {n : ℕ} (ks : Fin n → ℕ) :
    G.P {u | ∃ t, BaseWeight.randomAssignment C (some (n : ℤ)) (G.oracle u) s = (.ok (List.ofFn ks), t)} = ∏ i, ENNReal.ofReal (choiceProb (C.getW s.1) (ks i)) := by
  let g : ℝ → ℕ := BaseWeight.invCdf (BaseWeight.normalizedCumulative (C.getW s.1))
  have hg : Measurable g := measurable_invCdf _
  have hset : {u | ∃ t, BaseWeight.randomAssignment C (some (n : ℤ)) (G.oracle u) s = (.ok (List.ofFn ks), t)} =
      ⋂ i ∈ (Finset.univ : Finset (Fin n)), (fun u : ℕ → G.Seed => g (G.unif (u (s.2 + i)))) ⁻¹' {ks i} := by
    ext u
    have hr : BaseWeight.randomAssignment C (some (n : ℤ)) (G.oracle u) s = (.ok (List.ofFn fun i : Fin n => g (G.unif (u (s.2 + i)))), (s.1, s.2 + n)) := by
      unfold BaseWeight.randomAssignment
      rw [← wp_eq_ok]
      change wp (G.oracle u) (do let us ← M.unifVec (n : ℤ); let s ← M.self; pure (us.map (BaseWeight.invCdf (BaseWeight.normalizedCumulative (C.getW s))))) _ _ s
      rw [wp_bind, wp_unifVec]
      refine ⟨fun h => absurd h (by omega), fun _ => ?_⟩
      rw [wp_bind, wp_self, wp_pure]
      refine ⟨?_, by simp⟩
      rw [List.ofFn_eq_map, List.map_map]
      refine List.ext_getElem? fun i => ?_
      simp only [List.getElem?_map, Int.toNat_natCast]
      rcases Nat.lt_or_ge i n with hi | hi
      · rw [List.getElem?_range hi, List.getElem?_eq_getElem (by simpa using hi)]
        simp only [Option.map_some, List.getElem_finRange]
        rfl
      · rw [List.getElem?_eq_none (by simpa using hi), List.getElem?_eq_none (by simpa using hi)]
        rfl
    simp only [Set.mem_ofPred_eq, hr, Finset.mem_univ, Set.iInter_true, Set.mem_iInter, Set.mem_preimage, Set.mem_singleton_iff, Prod.mk.injEq, Except.ok.injEq,
      List.ofFn_inj]
    constructor
    · rintro ⟨t, h, _⟩ i
      exact congrFun h i
    · intro h
      exact ⟨_, funext h, rfl⟩
  have hind := (G.indep.precomp (g := fun i : Fin n => s.2 + (i : ℕ)) (fun i j h => Fin.ext (by simpa using h))).comp (fun _ => fun x => g (G.unif x))
    (fun _ => hg.comp G.unif_meas)
  have hmul := hind.measure_inter_preimage_eq_mul (S := Finset.univ) (sets := fun i => {ks i}) (fun i _ => measurableSet_singleton _)
  rw [hset]
  refine hmul.trans ?_
  refine Finset.prod_congr rfl fun i _ => ?_
  have hm : Measurable fun x : G.Seed => g (G.unif x) := hg.comp G.unif_meas
  have e1 : G.P (((fun x => g (G.unif x)) ∘ fun u : ℕ → G.Seed => u (s.2 + i)) ⁻¹' {ks i}) = (G.P.map (fun u => u (s.2 + i))) ((fun x => g (G.unif x)) ⁻¹' {ks i}) := by
    rw [Measure.map_apply (f := fun u : ℕ → G.Seed => u (s.2 + i)) (measurable_pi_apply _) (hm (measurableSet_singleton _))]
    rfl
  rw [e1, G.map_seed, ← invCdf_law hnn hs (ks i)]
  have e2 : G.ν ((fun x => g (G.unif x)) ⁻¹' {ks i}) = (G.ν.map G.unif) (g ⁻¹' {ks i}) := by
    rw [Measure.map_apply G.unif_meas (hg (measurableSet_singleton _))]
    rfl
  rw [e2, G.unif_law]
  rfl

/-- For weights with sum one the probability of a label is its weight; in particular no label beyond the weights held is drawn. -/
theorem C92_one (G : RandGen) (C : WeightCore ℝ) (s : C.State × ℕ) (hnn : ∀ x ∈ C.getW s.1, 0 ≤ x) (hs : (C.getW s.1).sum = 1) (k : ℕ) :
    G.P {u | ∃ t, BaseWeight.randomAssignment C (some 1) (G.oracle u) s = (.ok [k], t)} = ENNReal.ofReal (((C.getW s.1)[k]?).getD 0) := by
  have := C92_law G C s hnn (hs ▸ one_pos) (n := 1) ![k]
  simpa [choiceProb, hs] using this

/-! ### The hypotheses are met -/

example : ∃ G : RandGen, G.P {u | ∃ t, BaseWeight.randomAssignment DP.core (some 2) (G.oracle u) (({ alpha := 1, w := [1/2, 1/4], v := [1/2, 1/2], d := [] } : DP ℝ), 0) = (.ok [0, 1], t)} = 
    ENNReal.ofReal (2/3) * ENNReal.ofReal (1/3) := by
  obtain ⟨G⟩ := RandGen.nonempty
  refine ⟨G, ?_⟩
  have := C92_law G DP.core (({ alpha := 1, w := [1/2, 1/4], v := [1/2, 1/2], d := [] } : DP ℝ), 0) (by intro x hx; change x ∈ [(1/2 : ℝ), 1/4] at hx; simp at hx; rcases hx with rfl | rfl <;> norm_num)
    (by change 0 < ([1/2, 1/4] : List ℝ).sum; norm_num) (n := 2) ![0, 1]
  have h2 : ∀ k, choiceProb (DP.core.getW ({ alpha := 1, w := [1/2, 1/4], v := [1/2, 1/2], d := [] } : DP ℝ)) k = (([1/2, 1/4] : List ℝ)[k]?).getD 0 / ([1/2, 1/4] : List ℝ).sum := fun k => rfl
  simp only [Fin.prod_univ_two, h2, Matrix.cons_val_zero, Matrix.cons_val_one, List.ofFn_succ, List.ofFn_zero] at this
  refine this.trans ?_
  norm_num
end Verif
