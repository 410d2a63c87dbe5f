import Verif.Lemmas.VarLaw
import Mathlib.InformationTheory.KullbackLeibler.Basic

/-! # The evidence lower bound and its maximiser -/

set_option linter.unusedSectionVars false

namespace Verif
open MeasureTheory ProbabilityTheory Spec InformationTheory
open scoped ENNReal

section gibbs
variable {X : Type*} [MeasurableSpace X]

/-- Minus the evidence lower bound of `Q`, for the prior `P` and the log-likelihood `f`, which is at most `0`. -/
noncomputable def varCost (P : Measure X) (f : X → ℝ) (Q : Measure X) : ℝ≥0∞ := ∫⁻ x, ENNReal.ofReal (-f x) ∂Q + klDiv Q P

theorem varCost_eq {P : Measure X} [IsProbabilityMeasure P] {f : X → ℝ} (hm : Measurable f) (h0 : ∀ᵐ x ∂P, f x ≤ 0)
    {Q : Measure X} [IsProbabilityMeasure Q] (hi : Integrable f Q) (hk : klDiv Q P ≠ ∞) :
    varCost P f Q = ENNReal.ofReal (-Real.log (∫ x, Real.exp (f x) ∂P)) + klDiv Q (P.tilted f) := by
  obtain ⟨hac, hll⟩ := klDiv_ne_top_iff.1 hk
  have hexp : Integrable (fun x => Real.exp (f x)) P :=
    Integrable.of_bound (Real.measurable_exp.comp hm).aestronglyMeasurable 1 (h0.mono fun x hx => by
      rw [Real.norm_eq_abs, abs_of_pos (Real.exp_pos _)]; exact Real.exp_le_one_iff.2 hx)
  have hZ : ∫ x, Real.exp (f x) ∂P ≤ 1 := by
    have := integral_mono_ae hexp (integrable_const (1 : ℝ)) (h0.mono fun x hx => Real.exp_le_one_iff.2 hx)
    simpa using this
  have hZ0 : 0 < ∫ x, Real.exp (f x) ∂P := integral_exp_pos hexp
  have hlog : 0 ≤ -Real.log (∫ x, Real.exp (f x) ∂P) := neg_nonneg.2 (Real.log_nonpos hZ0.le hZ)
  have hprob := isProbabilityMeasure_tilted hexp
  have hac' : Q ≪ P.tilted f := hac.trans (absolutelyContinuous_tilted hexp)
  have hll' := integrable_llr_tilted_right hac hi hll hexp
  have e := integral_llr_tilted_right hac hi hexp hll
  have n1 := integral_llr_add_sub_measure_univ_nonneg hac hll
  have n2 := integral_llr_add_sub_measure_univ_nonneg hac' hll'
  have hQ : ∀ᵐ x ∂Q, 0 ≤ -f x := Filter.Eventually.mono (hac.ae_le h0) fun x hx => neg_nonneg.2 hx
  have hneg : Integrable (fun x => -f x) Q := hi.neg
  rw [varCost, klDiv_of_ac_of_integrable hac hll, klDiv_of_ac_of_integrable hac' hll', ← ofReal_integral_eq_lintegral_ofReal hneg hQ,
    ← ENNReal.ofReal_add (integral_nonneg_of_ae hQ) n1, ← ENNReal.ofReal_add hlog n2, e]
  congr 1
  rw [integral_neg]
  simp only [probReal_univ]
  ring

theorem varCost_top {P : Measure X} {f : X → ℝ} (hm : Measurable f) (h0 : ∀ᵐ x ∂P, f x ≤ 0) {Q : Measure X} (h : varCost P f Q ≠ ∞) :
    Integrable f Q ∧ klDiv Q P ≠ ∞ := by
  obtain ⟨h1, h2⟩ := ENNReal.add_ne_top.1 h
  refine ⟨?_, h2⟩
  have hQ : ∀ᵐ x ∂Q, f x ≤ 0 := (klDiv_ne_top_iff.1 h2).1.ae_le h0
  refine ⟨hm.aestronglyMeasurable, ?_⟩
  rw [hasFiniteIntegral_iff_norm]
  refine lt_of_le_of_lt (lintegral_mono_ae (hQ.mono fun x hx => ?_)) h1.lt_top
  rw [Real.norm_eq_abs, abs_of_nonpos hx]

/-- Gibbs' variational principle: the posterior is the only maximiser of the evidence lower bound. -/
theorem varCost_min {P P' : Measure X} [IsProbabilityMeasure P] {f : X → ℝ} (hm : Measurable f) (h0 : ∀ᵐ x ∂P, f x ≤ 0) (hP : P.tilted f = P')
    (hi : Integrable f P') :
    varCost P f P' ≠ ∞ ∧ ∀ Q : Measure X, IsProbabilityMeasure Q → varCost P f P' ≤ varCost P f Q ∧ (varCost P f Q = varCost P f P' ↔ Q = P') := by
  have hexp : Integrable (fun x => Real.exp (f x)) P :=
    Integrable.of_bound (Real.measurable_exp.comp hm).aestronglyMeasurable 1 (h0.mono fun x hx => by
      rw [Real.norm_eq_abs, abs_of_pos (Real.exp_pos _)]; exact Real.exp_le_one_iff.2 hx)
  have hprob := isProbabilityMeasure_tilted hexp
  rw [hP] at hprob
  have hac : P' ≪ P := hP ▸ tilted_absolutelyContinuous P f
  have hll : Integrable (llr P' P) P' := by
    have h1 := llr_tilted_left (μ := P) (ν := P) Measure.AbsolutelyContinuous.rfl hexp hm.aemeasurable
    rw [hP] at h1
    refine (integrable_congr ((hac.ae_eq h1).trans ?_)).2 (hi.sub (integrable_const (Real.log (∫ z, Real.exp (f z) ∂P))))
    filter_upwards [hac.ae_eq (llr_self P)] with x hx
    rw [hx]
    simp
  have hk := klDiv_ne_top hac hll
  have e1 := varCost_eq hm h0 hi hk
  rw [hP, klDiv_self, add_zero] at e1
  refine ⟨by rw [e1]; exact ENNReal.ofReal_ne_top, fun Q hQ => ?_⟩
  by_cases ht : varCost P f Q = ∞
  · rw [ht, e1]
    refine ⟨le_top, fun h => absurd h.symm ENNReal.ofReal_ne_top, ?_⟩
    rintro rfl
    rw [ht] at e1
    exact absurd e1.symm ENNReal.ofReal_ne_top
  · obtain ⟨a1, a2⟩ := varCost_top hm h0 ht
    have e2 := varCost_eq hm h0 a1 a2
    rw [hP] at e2
    rw [e1, e2]
    refine ⟨le_self_add, ?_⟩
    rw [← klDiv_eq_zero_iff (μ := Q) (ν := P')]
    constructor
    · intro h
      by_contra hne
      exact absurd h (ENNReal.lt_add_right ENNReal.ofReal_ne_top hne).ne'
    · intro h
      rw [h, add_zero]
end gibbs

section tilt
theorem tilted_map {X Y : Type*} [MeasurableSpace X] [MeasurableSpace Y] {μ : Measure X} {g : X → Y} (hg : Measurable g) {f : Y → ℝ} (hf : Measurable f) :
    (μ.map g).tilted f = (μ.tilted (f ∘ g)).map g := by
  ext s hs
  rw [tilted_apply' _ _ hs, Measure.map_apply hg hs, tilted_apply' _ _ (hg hs), integral_map (f := fun y => Real.exp (f y)) hg.aemeasurable (Real.measurable_exp.comp hf).aestronglyMeasurable,
    setLIntegral_map hs _ hg]
  · rfl
  · exact ((Real.measurable_exp.comp hf).div_const _).ennreal_ofReal

theorem tilted_pi {N : ℕ} {μ : Fin N → Measure ℝ} [∀ j, IsProbabilityMeasure (μ j)] {g : Fin N → ℝ → ℝ} (hg : ∀ j, Measurable (g j))
    (hi : ∀ j, Integrable (fun x => Real.exp (g j x)) (μ j)) :
    (Measure.pi μ).tilted (fun v => ∑ j, g j (v j)) = Measure.pi (fun j => (μ j).tilted (g j)) := by
  have hp : ∀ j, IsProbabilityMeasure ((μ j).tilted (g j)) := fun j => isProbabilityMeasure_tilted (hi j)
  have hp' : ∀ j, IsProbabilityMeasure ((μ j).withDensity (fun x => ENNReal.ofReal (Real.exp (g j x) / ∫ y, Real.exp (g j y) ∂μ j))) := hp
  unfold Measure.tilted
  rw [← pi_withDensity μ (fun j x => ENNReal.ofReal (Real.exp (g j x) / ∫ y, Real.exp (g j y) ∂μ j))
    (fun j => ((Real.measurable_exp.comp (hg j)).div_const _).ennreal_ofReal)]
  congr 1
  funext v
  rw [← ENNReal.ofReal_prod_of_nonneg (fun j _ => div_nonneg (Real.exp_pos _).le (integral_nonneg fun _ => (Real.exp_pos _).le)), Finset.prod_div_distrib, Real.exp_sum]
  simp_rw [Real.exp_sum]
  rw [integral_fintype_prod_eq_prod (𝕜 := ℝ) (f := fun j x => Real.exp (g j x))]

/-- The exponent of a Beta likelihood. -/
noncomputable def betaTilt (m n x : ℝ) : ℝ := m * Real.log x + n * Real.log (1 - x)

theorem measurable_betaTilt (m n : ℝ) : Measurable (betaTilt m n) := by unfold betaTilt; fun_prop

theorem exp_betaTilt {m n x : ℝ} (h : 0 < x ∧ x < 1) : Real.exp (betaTilt m n x) = x ^ m * (1 - x) ^ n := by
  rw [betaTilt, Real.exp_add, Real.rpow_def_of_pos h.1, Real.rpow_def_of_pos (sub_pos.2 h.2), mul_comm m, mul_comm n]

theorem betaPDFReal_tilt {a b m n : ℝ} (ha : 0 < a) (hb : 0 < b) (ha' : 0 < a + m) (hb' : 0 < b + n) (x : ℝ) :
    Real.exp (betaTilt m n x) * betaPDFReal a b x = beta (a + m) (b + n) / beta a b * betaPDFReal (a + m) (b + n) x := by
  by_cases h : 0 < x ∧ x < 1
  · have h1 : 0 < 1 - x := by linarith [h.2]
    have hb1 := (beta_pos ha hb).ne'
    have hb2 := (beta_pos ha' hb').ne'
    rw [exp_betaTilt h, betaPDFReal, betaPDFReal, if_pos h, if_pos h, show a + m - 1 = (a - 1) + m by ring, show b + n - 1 = (b - 1) + n by ring,
      Real.rpow_add h.1, Real.rpow_add h1]
    field_simp
  · rw [betaPDFReal, betaPDFReal, if_neg h, if_neg h, mul_zero, mul_zero]

/-- Conjugacy of a Beta prior for real counts. -/
theorem betaMeasure_tilt {a b m n : ℝ} (ha : 0 < a) (hb : 0 < b) (ha' : 0 < a + m) (hb' : 0 < b + n) :
    Integrable (fun x => Real.exp (betaTilt m n x)) (betaMeasure a b) ∧ (betaMeasure a b).tilted (betaTilt m n) = betaMeasure (a + m) (b + n) := by
  have hc : 0 < beta (a + m) (b + n) / beta a b := div_pos (beta_pos ha' hb') (beta_pos ha hb)
  have hi : Integrable (fun x => Real.exp (betaTilt m n x)) (betaMeasure a b) := by
    rw [integrable_betaMeasure_iff ha hb]
    simp_rw [betaPDFReal_tilt ha hb ha' hb']
    refine Integrable.const_mul ?_ _
    exact integrable_of_integral_eq_one (integral_betaPDFReal ha' hb')
  refine ⟨hi, ?_⟩
  have hZ : ∫ x, Real.exp (betaTilt m n x) ∂betaMeasure a b = beta (a + m) (b + n) / beta a b := by
    rw [integral_betaMeasure ha hb]
    simp_rw [betaPDFReal_tilt ha hb ha' hb']
    rw [integral_const_mul, integral_betaPDFReal ha' hb', mul_one]
  rw [Measure.tilted, hZ]
  unfold betaMeasure
  have hmb : Measurable (betaPDF a b) := (measurable_betaPDFReal a b).ennreal_ofReal
  have hme : Measurable (fun x => ENNReal.ofReal (Real.exp (betaTilt m n x) / (beta (a + m) (b + n) / beta a b))) :=
    ((Real.measurable_exp.comp (measurable_betaTilt m n)).div_const _).ennreal_ofReal
  rw [← withDensity_mul _ hmb hme]
  congr 1
  funext x
  simp only [Pi.mul_apply, betaPDF]
  rw [← ENNReal.ofReal_mul (betaPDFReal_nonneg ha hb x)]
  congr 1
  have := betaPDFReal_tilt ha hb ha' hb' x
  rw [mul_div_assoc', mul_comm, this, mul_div_cancel_left₀ _ hc.ne']

end tilt

section sticks
variable {N : ℕ}

/-- The expected log-likelihood of labels, given the expected numbers `n` of observations in the groups. -/
noncomputable def countLogLik (n : Fin N → ℝ) (w : Fin N → ℝ) : ℝ := ∑ j, n j * Real.log (w j)

/-- `P'` has the largest evidence lower bound, and no other distribution has it. -/
def Optimal {X : Type*} [MeasurableSpace X] (P : Measure X) (f : X → ℝ) (P' : Measure X) : Prop :=
  varCost P f P' ≠ ∞ ∧ ∀ Q : Measure X, IsProbabilityMeasure Q → varCost P f P' ≤ varCost P f Q ∧ (varCost P f Q = varCost P f P' ↔ Q = P')

theorem countLogLik_stick (n : Fin N → ℝ) {v : Fin N → ℝ} (h0 : ∀ j, 0 < v j) (h1 : ∀ j, ∀ l < j, v l < 1) :
    countLogLik n (breakStick v) = ∑ j, betaTilt (n j) (∑ l ∈ Finset.univ.filter (j < ·), n l) (v j) := by
  have e : ∀ j, Real.log (breakStick v j) = Real.log (v j) + ∑ l ∈ Finset.univ.filter (· < j), Real.log (1 - v l) := fun j => by
    have hl : ∀ l ∈ Finset.univ.filter (· < j), (1 - v l) ≠ 0 := fun l hl => (sub_pos.2 (h1 j l (Finset.mem_filter.1 hl).2)).ne'
    rw [breakStick, Real.log_mul (h0 j).ne' (Finset.prod_ne_zero_iff.2 hl), Real.log_prod hl]
  unfold countLogLik betaTilt
  simp_rw [e, mul_add, Finset.sum_add_distrib]
  congr 1
  simp_rw [Finset.mul_sum, Finset.sum_mul, Finset.sum_filter]
  rw [Finset.sum_comm]

theorem measurable_countLogLik (n : Fin N → ℝ) : Measurable (countLogLik n) :=
  Finset.measurable_sum _ fun j _ => (Real.measurable_log.comp (measurable_pi_apply j)).const_mul _

theorem sticks_optimal {μ μ' : Fin N → Measure ℝ} [∀ j, IsProbabilityMeasure (μ j)] {n : Fin N → ℝ} (hn : ∀ j, 0 ≤ n j)
    (h01 : ∀ j, ∀ᵐ x ∂μ j, 0 < x ∧ x ≤ 1) (hlt : ∀ j, ∀ l < j, ∀ᵐ x ∂μ l, x < 1)
    (ht : ∀ j, Integrable (fun x => Real.exp (betaTilt (n j) (∑ l ∈ Finset.univ.filter (j < ·), n l) x)) (μ j) ∧
      (μ j).tilted (betaTilt (n j) (∑ l ∈ Finset.univ.filter (j < ·), n l)) = μ' j)
    (hi : ∀ j, Integrable (fun w => Real.log (w j)) ((Measure.pi μ').map breakStick)) :
    Optimal ((Measure.pi μ).map breakStick) (countLogLik n) ((Measure.pi μ').map breakStick) := by
  have hp : IsProbabilityMeasure ((Measure.pi μ).map breakStick) := Measure.isProbabilityMeasure_map measurable_breakStick.aemeasurable
  have a1 : ∀ᵐ v ∂Measure.pi μ, ∀ j, 0 < v j ∧ v j ≤ 1 := by
    rw [ae_all_iff]
    exact fun j => (Measure.quasiMeasurePreserving_eval μ j).ae (h01 j)
  have a2 : ∀ᵐ v ∂Measure.pi μ, ∀ j, ∀ l < j, v l < 1 := by
    rw [ae_all_iff]
    intro j
    rw [ae_all_iff]
    intro l
    by_cases h : l < j
    · exact ((Measure.quasiMeasurePreserving_eval μ l).ae (hlt j l h)).mono fun v hv _ => hv
    · exact Filter.Eventually.of_forall fun v hv => absurd hv h
  refine varCost_min (measurable_countLogLik n) ?_ ?_ ?_
  · rw [ae_map_iff measurable_breakStick.aemeasurable (measurableSet_le (measurable_countLogLik n) measurable_const)]
    filter_upwards [a1] with v hv
    refine Finset.sum_nonpos fun j _ => mul_nonpos_of_nonneg_of_nonpos (hn j) (Real.log_nonpos ?_ ?_)
    · exact mul_nonneg (hv j).1.le (Finset.prod_nonneg fun l _ => sub_nonneg.2 (hv l).2)
    · exact mul_le_one₀ (hv j).2 (Finset.prod_nonneg fun l _ => sub_nonneg.2 (hv l).2)
        (Finset.prod_le_one (fun l _ => sub_nonneg.2 (hv l).2) fun l _ => by linarith [(hv l).1])
  · rw [tilted_map measurable_breakStick (measurable_countLogLik n)]
    congr 1
    rw [tilted_congr (g := fun v => ∑ j, betaTilt (n j) (∑ l ∈ Finset.univ.filter (j < ·), n l) (v j))]
    · rw [tilted_pi (fun j => measurable_betaTilt _ _) (fun j => (ht j).1)]
      congr 1
      funext j
      exact (ht j).2
    · filter_upwards [a1, a2] with v h1 h2
      exact countLogLik_stick n (fun j => (h1 j).1) h2
  · exact integrable_finsetSum _ fun j _ => (hi j).const_mul _

theorem dirac_one_tilt (m : ℝ) : Integrable (fun x => Real.exp (betaTilt m 0 x)) (Measure.dirac (1 : ℝ)) ∧ (Measure.dirac (1 : ℝ)).tilted (betaTilt m 0) = Measure.dirac 1 := by
  have e : betaTilt m 0 =ᵐ[Measure.dirac (1 : ℝ)] fun _ => 0 := by
    rw [Filter.EventuallyEq, ae_dirac_iff (measurableSet_eq_fun (measurable_betaTilt m 0) measurable_const)]
    simp [betaTilt]
  refine ⟨?_, ?_⟩
  · exact integrable_dirac (by simp)
  · rw [tilted_congr e, tilted_const]

end sticks
end Verif
