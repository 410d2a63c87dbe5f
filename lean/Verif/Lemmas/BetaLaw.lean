import Mathlib.Probability.Distributions.Beta

/-! # Moments of the Beta distribution -/

namespace Verif
open MeasureTheory ProbabilityTheory

theorem betaPDFReal_nonneg {c d : ℝ} (hc : 0 < c) (hd : 0 < d) (x : ℝ) : 0 ≤ betaPDFReal c d x := by
  by_cases h : 0 < x ∧ x < 1
  · exact (betaPDFReal_pos h.1 h.2 hc hd).le
  · rw [betaPDFReal, if_neg h]

theorem integral_betaPDFReal {c d : ℝ} (hc : 0 < c) (hd : 0 < d) : ∫ x, betaPDFReal c d x = 1 := by
  rw [integral_eq_lintegral_of_nonneg_ae (Filter.Eventually.of_forall (betaPDFReal_nonneg hc hd)) (measurable_betaPDFReal c d).aestronglyMeasurable]
  have := lintegral_betaPDF_eq_one hc hd
  unfold betaPDF at this
  rw [this]
  rfl

/-- Likelihood times prior density is a constant times the posterior density. -/
theorem betaPDFReal_bayes {c d : ℝ} (hc : 0 < c) (hd : 0 < d) (m n : ℕ) (x : ℝ) :
    x ^ m * (1 - x) ^ n * betaPDFReal c d x = beta (c + m) (d + n) / beta c d * betaPDFReal (c + m) (d + n) x := by
  by_cases h : 0 < x ∧ x < 1
  · have h1 : 0 < 1 - x := by linarith [h.2]
    have hb := (beta_pos hc hd).ne'
    have hb' := (beta_pos (by positivity : 0 < c + m) (by positivity : 0 < d + n)).ne'
    rw [betaPDFReal, betaPDFReal, if_pos h, if_pos h, show c + m - 1 = (c - 1) + m by ring, show d + n - 1 = (d - 1) + n by ring,
      Real.rpow_add h.1, Real.rpow_add h1, Real.rpow_natCast, Real.rpow_natCast]
    field_simp
  · rw [betaPDFReal, betaPDFReal, if_neg h, if_neg h, mul_zero, mul_zero]

/-- The marginal likelihood of `m` successes and `n` failures. -/
theorem integral_beta_moment {c d : ℝ} (hc : 0 < c) (hd : 0 < d) (m n : ℕ) :
    ∫ x, x ^ m * (1 - x) ^ n * betaPDFReal c d x = beta (c + m) (d + n) / beta c d := by
  simp_rw [betaPDFReal_bayes hc hd]
  rw [integral_const_mul, integral_betaPDFReal (by positivity) (by positivity), mul_one]

theorem beta_one {d : ℝ} (hd : 0 < d) : beta 1 d = 1 / d := by
  have := (Real.Gamma_pos_of_pos hd).ne'
  rw [beta, Real.Gamma_one, add_comm, Real.Gamma_add_one hd.ne']
  field_simp
end Verif
