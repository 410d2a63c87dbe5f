import Verif.Lemmas.BetaLog
import Mathlib.Probability.Distributions.Gamma

/-!
# Mean and expected logarithm of the Gamma law

`E x = a / r` and `E log x = ψ(a) - log r` for `x ~ Gamma(a)` with rate `r`.
-/

namespace Verif
open MeasureTheory ProbabilityTheory
open scoped ENNReal

theorem gammaMeasure_ae {a r : ℝ} : ∀ᵐ x ∂gammaMeasure a r, 0 < x := by
  unfold gammaMeasure
  refine (ae_withDensity_iff (f := gammaPDF a r) (measurable_gammaPDFReal a r).ennreal_ofReal).2 ?_
  have h0 : ∀ᵐ x : ℝ, x ≠ 0 := by simp [ae_iff]
  filter_upwards [h0] with x hx h
  by_contra hneg
  exact h (gammaPDF_of_neg (lt_of_le_of_ne (not_lt.1 hneg) hx))

theorem rpow_mul_gammaPDFReal {a r t : ℝ} (ha : 0 < a) (hr : 0 < r) (ht : 0 < t) {x : ℝ} (hx : x ≠ 0) :
    x ^ (t - a) * gammaPDFReal a r x = Real.Gamma t / Real.Gamma a * r ^ (a - t) * gammaPDFReal t r x := by
  unfold gammaPDFReal
  split
  · rename_i h
    have h0 : 0 < x := lt_of_le_of_ne h (Ne.symm hx)
    have h1 := (Real.Gamma_pos_of_pos ha).ne'
    have h2 := (Real.Gamma_pos_of_pos ht).ne'
    have e1 : x ^ (t - 1) = x ^ (t - a) * x ^ (a - 1) := by rw [← Real.rpow_add h0]; congr 1; ring
    have e2 : r ^ a = r ^ (a - t) * r ^ t := by rw [← Real.rpow_add hr]; congr 1; ring
    rw [e1, e2]
    field_simp
  · simp

theorem integral_gammaPDFReal {a r : ℝ} (ha : 0 < a) (hr : 0 < r) : ∫ x, gammaPDFReal a r x = 1 := by
  rw [integral_eq_lintegral_of_nonneg_ae (Filter.Eventually.of_forall (gammaPDFReal_nonneg ha hr)) (measurable_gammaPDFReal a r).aestronglyMeasurable]
  have := lintegral_gammaPDF_eq_one ha hr
  unfold gammaPDF at this
  rw [this, ENNReal.toReal_one]

theorem integrable_gammaPDFReal {a r : ℝ} (ha : 0 < a) (hr : 0 < r) : Integrable (gammaPDFReal a r) := by
  by_contra h
  have := integral_gammaPDFReal ha hr
  rw [integral_undef h] at this
  exact zero_ne_one this

theorem integrable_gammaMeasure_iff {a r : ℝ} (ha : 0 < a) (hr : 0 < r) (f : ℝ → ℝ) :
    Integrable f (gammaMeasure a r) ↔ Integrable (fun x => f x * gammaPDFReal a r x) := by
  unfold gammaMeasure
  have : (gammaPDF a r) = fun x => ((gammaPDFReal a r x).toNNReal : ℝ≥0∞) := rfl
  rw [this, integrable_withDensity_iff_integrable_smul (measurable_gammaPDFReal a r).real_toNNReal]
  refine integrable_congr (Filter.Eventually.of_forall fun x => ?_)
  change ((gammaPDFReal a r x).toNNReal : ℝ) * f x = _
  rw [Real.coe_toNNReal _ (gammaPDFReal_nonneg ha hr x), mul_comm]

theorem integral_gammaMeasure {a r : ℝ} (ha : 0 < a) (hr : 0 < r) (f : ℝ → ℝ) :
    ∫ x, f x ∂gammaMeasure a r = ∫ x, f x * gammaPDFReal a r x := by
  unfold gammaMeasure
  have : (gammaPDF a r) = fun x => ((gammaPDFReal a r x).toNNReal : ℝ≥0∞) := rfl
  rw [this, integral_withDensity_eq_integral_smul (measurable_gammaPDFReal a r).real_toNNReal]
  refine integral_congr_ae (Filter.Eventually.of_forall fun x => ?_)
  change ((gammaPDFReal a r x).toNNReal : ℝ) * f x = _
  rw [Real.coe_toNNReal _ (gammaPDFReal_nonneg ha hr x), mul_comm]

theorem ae_ne_zero_real : ∀ᵐ x : ℝ, x ≠ 0 := by simp [ae_iff]

theorem integrable_rpow_gamma {a r t : ℝ} (ha : 0 < a) (hr : 0 < r) (ht : 0 < t) : Integrable (fun x : ℝ => x ^ (t - a)) (gammaMeasure a r) := by
  rw [integrable_gammaMeasure_iff ha hr]
  refine ((integrable_gammaPDFReal ht hr).const_mul (Real.Gamma t / Real.Gamma a * r ^ (a - t))).congr ?_
  filter_upwards [ae_ne_zero_real] with x hx
  exact (rpow_mul_gammaPDFReal ha hr ht hx).symm

theorem integral_rpow_gamma {a r t : ℝ} (ha : 0 < a) (hr : 0 < r) (ht : 0 < t) :
    ∫ x, x ^ (t - a) ∂gammaMeasure a r = Real.Gamma t / Real.Gamma a * r ^ (a - t) := by
  rw [integral_gammaMeasure ha hr, integral_congr_ae (g := fun x => Real.Gamma t / Real.Gamma a * r ^ (a - t) * gammaPDFReal t r x),
    integral_const_mul, integral_gammaPDFReal ht hr, mul_one]
  filter_upwards [ae_ne_zero_real] with x hx
  exact rpow_mul_gammaPDFReal ha hr ht hx

theorem gamma_mean {a r : ℝ} (ha : 0 < a) (hr : 0 < r) : Integrable (fun x : ℝ => x) (gammaMeasure a r) ∧ ∫ x, x ∂gammaMeasure a r = a / r := by
  have e : ∀ x : ℝ, x ^ (a + 1 - a) = x := fun x => by rw [add_sub_cancel_left, Real.rpow_one]
  have h1 := integrable_rpow_gamma ha hr (show 0 < a + 1 by linarith)
  have h2 := integral_rpow_gamma ha hr (show 0 < a + 1 by linarith)
  simp only [e] at h1 h2
  refine ⟨h1, h2.trans ?_⟩
  have hg := (Real.Gamma_pos_of_pos ha).ne'
  rw [Real.Gamma_add_one ha.ne', show a - (a + 1) = -1 by ring, Real.rpow_neg_one]
  field_simp

theorem gamma_hasDerivAt {a r : ℝ} (ha : 0 < a) (hr : 0 < r) :
    HasDerivAt (fun t => Real.Gamma t / Real.Gamma a * r ^ (a - t)) (psi a - Real.log r) a := by
  have h1 : HasDerivAt (fun t => Real.exp (Real.log (Real.Gamma t) - Real.log (Real.Gamma a) + (a - t) * Real.log r))
      (Real.exp (Real.log (Real.Gamma a) - Real.log (Real.Gamma a) + (a - a) * Real.log r) * (psi a + (0 - 1) * Real.log r)) a := by
    refine HasDerivAt.exp ?_
    exact ((hasDerivAt_logGamma ha).sub_const _).add (((hasDerivAt_const a a).sub (hasDerivAt_id a)).mul_const _)
  rw [sub_self, sub_self, zero_mul, add_zero, Real.exp_zero, one_mul, zero_sub, neg_one_mul, ← sub_eq_add_neg] at h1
  refine h1.congr_of_eventuallyEq ?_
  filter_upwards [Ioi_mem_nhds ha] with t ht
  rw [Real.exp_add, Real.exp_sub, Real.exp_log (Real.Gamma_pos_of_pos ht), Real.exp_log (Real.Gamma_pos_of_pos ha), Real.rpow_def_of_pos hr,
    mul_comm (Real.log r)]

theorem gamma_log {a r : ℝ} (ha : 0 < a) (hr : 0 < r) :
    Integrable Real.log (gammaMeasure a r) ∧ ∫ x, Real.log x ∂gammaMeasure a r = psi a - Real.log r := by
  have key := hasDerivAt_integral_of_dominated_loc_of_deriv_le (μ := gammaMeasure a r) (𝕜 := ℝ) (x₀ := a) (s := Set.Ioo (a / 2) (a + 1))
    (F := fun t x => x ^ (t - a)) (F' := fun t x => x ^ (t - a) * Real.log x) (bound := fun x => 4 / a * x ^ (a / 4 - a) + x ^ ((a + 2) - a))
    (Ioo_mem_nhds (by linarith) (by linarith)) (Filter.Eventually.of_forall fun t => by fun_prop) (integrable_rpow_gamma ha hr ha) (by fun_prop)
    ?_ (((integrable_rpow_gamma ha hr (by linarith)).const_mul _).add (integrable_rpow_gamma ha hr (by linarith))) ?_
  · simp only [sub_self, Real.rpow_zero, one_mul] at key
    refine ⟨key.1, ?_⟩
    refine key.2.unique ((gamma_hasDerivAt ha hr).congr_of_eventuallyEq ?_)
    filter_upwards [Ioi_mem_nhds ha] with t ht
    exact integral_rpow_gamma ha hr ht
  · refine gammaMeasure_ae.mono fun x hx t ht => ?_
    have ht' : a / 2 < t := ht.1
    have ht2 : t < a + 1 := ht.2
    rw [Real.norm_eq_abs, abs_mul, abs_of_pos (Real.rpow_pos_of_pos hx _)]
    rcases le_total x 1 with hx1 | hx1
    · have hlog := (Real.abs_log_mul_self_rpow_lt x (a / 4) hx hx1 (by linarith)).le
      have h1 : x ^ (t - a) ≤ x ^ (a / 4 + (a / 4 - a)) := Real.rpow_le_rpow_of_exponent_ge hx hx1 (by linarith)
      rw [Real.rpow_add hx] at h1
      have h2 : |Real.log x| * x ^ (a / 4) ≤ 4 / a := by
        rw [abs_mul, abs_of_pos (Real.rpow_pos_of_pos hx _)] at hlog
        have : 1 / (a / 4) = 4 / a := by field_simp
        rwa [this] at hlog
      have h3 := (Real.rpow_pos_of_pos hx (a + 2 - a)).le
      calc x ^ (t - a) * |Real.log x| ≤ (x ^ (a / 4) * x ^ (a / 4 - a)) * |Real.log x| := mul_le_mul_of_nonneg_right h1 (abs_nonneg _)
        _ = (|Real.log x| * x ^ (a / 4)) * x ^ (a / 4 - a) := by ring
        _ ≤ 4 / a * x ^ (a / 4 - a) := mul_le_mul_of_nonneg_right h2 (Real.rpow_pos_of_pos hx _).le
        _ ≤ _ := le_add_of_nonneg_right h3
    · have h1 : x ^ (t - a) ≤ x ^ (1 : ℝ) := Real.rpow_le_rpow_of_exponent_le hx1 (by linarith)
      have h2 : |Real.log x| ≤ x := by
        rw [abs_of_nonneg (Real.log_nonneg hx1)]
        exact (Real.log_le_sub_one_of_pos hx).trans (by linarith)
      have h3 : 0 ≤ 4 / a * x ^ (a / 4 - a) := mul_nonneg (by positivity) (Real.rpow_pos_of_pos hx _).le
      have e : x ^ (a + 2 - a) = x ^ (1 : ℝ) * x := by
        rw [show a + 2 - a = 1 + 1 by ring, Real.rpow_add hx, Real.rpow_one]
      calc x ^ (t - a) * |Real.log x| ≤ x ^ (1 : ℝ) * x := mul_le_mul h1 h2 (abs_nonneg _) (Real.rpow_pos_of_pos hx _).le
        _ ≤ _ := by rw [e]; exact le_add_of_nonneg_left h3
  · refine gammaMeasure_ae.mono fun x hx t _ => ?_
    have := (Real.hasStrictDerivAt_const_rpow hx (t - a)).hasDerivAt
    exact HasDerivAt.comp_sub_const t a this
end Verif
