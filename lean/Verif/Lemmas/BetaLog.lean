import Verif.Lemmas.ChainLaw
import Verif.Lemmas.RandGenExists
import Mathlib.Analysis.Calculus.ParametricIntegral
import Mathlib.Analysis.SpecialFunctions.Gamma.Deriv

/-!
# Expected logarithms under the Beta law

`E log x = ψ(a) - ψ(a + b)` for `x ~ Beta(a, b)`, where `ψ` is the derivative of `log Γ` on the positive reals.
-/

namespace Verif
open MeasureTheory ProbabilityTheory
open scoped ENNReal

/-- The digamma function: the logarithmic derivative of `Γ`. -/
noncomputable def psi : ℝ → ℝ := logDeriv Real.Gamma

theorem hasDerivAt_logGamma {x : ℝ} (hx : 0 < x) : HasDerivAt (fun t => Real.log (Real.Gamma t)) (psi x) x := by
  refine (Real.differentiableAt_Gamma fun m => ?_).hasDerivAt.log (Real.Gamma_pos_of_pos hx).ne'
  have : (0 : ℝ) ≤ m := Nat.cast_nonneg m
  linarith

theorem rpow_mul_betaPDFReal {a b t : ℝ} (ha : 0 < a) (hb : 0 < b) (ht : 0 < t) (x : ℝ) :
    x ^ (t - a) * betaPDFReal a b x = beta t b / beta a b * betaPDFReal t b x := by
  unfold betaPDFReal
  split
  · rename_i h
    have h1 := (beta_pos ha hb).ne'
    have h2 := (beta_pos ht hb).ne'
    have : x ^ (t - 1) = x ^ (t - a) * x ^ (a - 1) := by rw [← Real.rpow_add h.1]; congr 1; ring
    rw [this]
    field_simp
  · simp

theorem integrable_betaPDFReal {a b : ℝ} (ha : 0 < a) (hb : 0 < b) : Integrable (betaPDFReal a b) := by
  by_contra h
  have := integral_betaPDFReal ha hb
  rw [integral_undef h] at this
  exact zero_ne_one this

theorem integrable_betaMeasure_iff {a b : ℝ} (ha : 0 < a) (hb : 0 < b) (f : ℝ → ℝ) :
    Integrable f (betaMeasure a b) ↔ Integrable (fun x => f x * betaPDFReal a b x) := by
  unfold betaMeasure
  have : (betaPDF a b) = fun x => ((betaPDFReal a b x).toNNReal : ℝ≥0∞) := rfl
  rw [this, integrable_withDensity_iff_integrable_smul (measurable_betaPDFReal a b).real_toNNReal]
  refine integrable_congr (Filter.Eventually.of_forall fun x => ?_)
  change ((betaPDFReal a b x).toNNReal : ℝ) * f x = _
  rw [Real.coe_toNNReal _ (betaPDFReal_nonneg ha hb x), mul_comm]

theorem integrable_rpow_beta {a b t : ℝ} (ha : 0 < a) (hb : 0 < b) (ht : 0 < t) : Integrable (fun x : ℝ => x ^ (t - a)) (betaMeasure a b) := by
  rw [integrable_betaMeasure_iff ha hb]
  simp_rw [rpow_mul_betaPDFReal ha hb ht]
  exact (integrable_betaPDFReal ht hb).const_mul _

theorem integral_rpow_beta {a b t : ℝ} (ha : 0 < a) (hb : 0 < b) (ht : 0 < t) : ∫ x, x ^ (t - a) ∂betaMeasure a b = beta t b / beta a b := by
  rw [integral_betaMeasure ha hb]
  simp_rw [rpow_mul_betaPDFReal ha hb ht]
  rw [integral_const_mul, integral_betaPDFReal ht hb, mul_one]

theorem beta_hasDerivAt {a b : ℝ} (ha : 0 < a) (hb : 0 < b) : HasDerivAt (fun t => beta t b / beta a b) (psi a - psi (a + b)) a := by
  have h1 : HasDerivAt (fun t => Real.exp (Real.log (Real.Gamma t) + Real.log (Real.Gamma b) - Real.log (Real.Gamma (t + b))))
      (Real.exp (Real.log (Real.Gamma a) + Real.log (Real.Gamma b) - Real.log (Real.Gamma (a + b))) * (psi a - psi (a + b))) a := by
    refine HasDerivAt.exp ?_
    refine ((hasDerivAt_logGamma ha).add_const _).sub ?_
    exact HasDerivAt.comp_add_const a b (hasDerivAt_logGamma (add_pos ha hb))
  have e : ∀ t, 0 < t → Real.exp (Real.log (Real.Gamma t) + Real.log (Real.Gamma b) - Real.log (Real.Gamma (t + b))) = beta t b := by
    intro t ht
    rw [Real.exp_sub, Real.exp_add, Real.exp_log (Real.Gamma_pos_of_pos ht), Real.exp_log (Real.Gamma_pos_of_pos hb),
      Real.exp_log (Real.Gamma_pos_of_pos (add_pos ht hb)), beta]
  rw [e a ha] at h1
  have h2 := (h1.congr_of_eventuallyEq (f₁ := fun t => beta t b) ?_).div_const (beta a b)
  · rwa [mul_div_cancel_left₀ _ (beta_pos ha hb).ne'] at h2
  · filter_upwards [Ioi_mem_nhds ha] with t ht
    exact (e t ht).symm

theorem beta_log {a b : ℝ} (ha : 0 < a) (hb : 0 < b) :
    Integrable Real.log (betaMeasure a b) ∧ ∫ x, Real.log x ∂betaMeasure a b = psi a - psi (a + b) := by
  have key := hasDerivAt_integral_of_dominated_loc_of_deriv_le (μ := betaMeasure a b) (𝕜 := ℝ) (x₀ := a) (s := Set.Ioi (a / 2))
    (F := fun t x => x ^ (t - a)) (F' := fun t x => x ^ (t - a) * Real.log x) (bound := fun x => 4 / a * x ^ (a / 4 - a))
    (Ioi_mem_nhds (by linarith)) (Filter.Eventually.of_forall fun t => by fun_prop) (integrable_rpow_beta ha hb ha) (by fun_prop)
    ?_ ((integrable_rpow_beta ha hb (by linarith)).const_mul _) ?_
  · simp only [sub_self, Real.rpow_zero, one_mul] at key
    refine ⟨key.1, ?_⟩
    refine key.2.unique ((beta_hasDerivAt ha hb).congr_of_eventuallyEq ?_)
    filter_upwards [Ioi_mem_nhds ha] with t ht
    exact integral_rpow_beta ha hb ht
  · refine betaMeasure_ae.mono fun x hx t ht => ?_
    have ht' : a / 2 < t := ht
    have hlog := (Real.abs_log_mul_self_rpow_lt x (a / 4) hx.1 hx.2.le (by linarith)).le
    rw [Real.norm_eq_abs, abs_mul, abs_of_pos (Real.rpow_pos_of_pos hx.1 _)]
    have h1 : x ^ (t - a) ≤ x ^ (a / 4 + (a / 4 - a)) := Real.rpow_le_rpow_of_exponent_ge hx.1 hx.2.le (by linarith)
    rw [Real.rpow_add hx.1] at h1
    have h2 : |Real.log x| * x ^ (a / 4) ≤ 4 / a := by
      rw [abs_mul, abs_of_pos (Real.rpow_pos_of_pos hx.1 _)] at hlog
      have : 1 / (a / 4) = 4 / a := by field_simp
      rwa [this] at hlog
    calc x ^ (t - a) * |Real.log x| ≤ (x ^ (a / 4) * x ^ (a / 4 - a)) * |Real.log x| := mul_le_mul_of_nonneg_right h1 (abs_nonneg _)
      _ = (|Real.log x| * x ^ (a / 4)) * x ^ (a / 4 - a) := by ring
      _ ≤ 4 / a * x ^ (a / 4 - a) := mul_le_mul_of_nonneg_right h2 (Real.rpow_pos_of_pos hx.1 _).le
  · refine betaMeasure_ae.mono fun x hx t _ => ?_
    have := (Real.hasStrictDerivAt_const_rpow hx.1 (t - a)).hasDerivAt
    exact HasDerivAt.comp_sub_const t a this

/-- The reflection of a Beta law. -/
theorem betaMeasure_flip {a b : ℝ} : (betaMeasure a b).map (fun x => 1 - x) = betaMeasure b a := by
  have hp : MeasurePreserving (fun x : ℝ => 1 - x) := Measure.measurePreserving_sub_left volume 1
  have e : ∀ x, betaPDF a b x = betaPDF b a (1 - x) := by
    intro x
    unfold betaPDF betaPDFReal
    have : (0 < 1 - x ∧ 1 - x < 1) ↔ (0 < x ∧ x < 1) := by constructor <;> rintro ⟨h1, h2⟩ <;> constructor <;> linarith
    simp only [this, sub_sub_cancel]
    congr 2
    rw [beta, beta, add_comm b a]
    ring
  ext s hs
  rw [Measure.map_apply hp.measurable hs, betaMeasure, betaMeasure, withDensity_apply _ (hp.measurable hs), withDensity_apply _ hs]
  simp_rw [e]
  exact hp.setLIntegral_comp_preimage hs (measurable_betaPDFReal b a).ennreal_ofReal

theorem beta_log_one_sub {a b : ℝ} (ha : 0 < a) (hb : 0 < b) :
    Integrable (fun x => Real.log (1 - x)) (betaMeasure a b) ∧ ∫ x, Real.log (1 - x) ∂betaMeasure a b = psi b - psi (a + b) := by
  have h := beta_log hb ha
  rw [← betaMeasure_flip, add_comm b a] at h
  refine ⟨(integrable_map_measure (by fun_prop) (by fun_prop)).1 h.1, ?_⟩
  rw [← h.2, integral_map (by fun_prop) (by fun_prop)]

theorem psi_strictMono {x y : ℝ} (hx : 0 < x) (h : x < y) : psi x < psi y := by
  have hy : 0 < y - x := sub_pos.2 h
  have hp := isProbabilityMeasureBeta hx hy
  have h1 := beta_log hx hy
  have hid : Integrable (fun t : ℝ => t) (betaMeasure x (y - x)) :=
    Integrable.of_bound (by fun_prop) 1 (betaMeasure_ae.mono fun t ht => by rw [Real.norm_eq_abs, abs_of_pos ht.1]; exact ht.2.le)
  have h2 : ∫ t, Real.log t ∂betaMeasure x (y - x) ≤ ∫ t, (t - 1) ∂betaMeasure x (y - x) :=
    integral_mono_ae h1.1 (hid.sub (integrable_const 1)) (betaMeasure_ae.mono fun t ht => Real.log_le_sub_one_of_pos ht.1)
  rw [integral_sub hid (integrable_const 1), betaMeasure_mean hx hy, h1.2, add_sub_cancel] at h2
  simp only [integral_const, probReal_univ, smul_eq_mul, mul_one] at h2
  have : x / y < 1 := (div_lt_one (hx.trans h)).2 h
  linarith
end Verif
