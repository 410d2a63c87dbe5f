import Verif.Lemmas.Predictive
import Mathlib.MeasureTheory.Integral.Pi
import Mathlib.MeasureTheory.Measure.Lebesgue.Basic
import Mathlib.Analysis.SpecialFunctions.Gaussian.GaussianIntegral

/-!
# The normal and Student-t densities integrate to one

In every dimension.  The Student-t density is a mixture of normal densities over a Gamma law of one positive factor of the precision.
-/

namespace Verif.NW
open MeasureTheory ProbabilityTheory Real Matrix
variable {m : ℕ}

theorem gamma_power {a b r t : ℝ} (ha : 0 < a) (hb : 0 ≤ b) (hr : 0 < r) (ht : 0 ≤ t) :
    ∫ x, x ^ b * exp (-t * x) ∂gammaMeasure a r = Gamma (a + b) / Gamma a * (r ^ a / (r + t) ^ (a + b)) := by
  have ha2 : 0 < a + b := by positivity
  have hrt : 0 < r + t := by positivity
  rw [integral_gammaMeasure ha hr]
  have e : (fun x => x ^ b * exp (-t * x) * gammaPDFReal a r x) =ᵐ[volume] fun x =>
      (Gamma (a + b) / Gamma a * (r ^ a / (r + t) ^ (a + b))) * gammaPDFReal (a + b) (r + t) x := by
    filter_upwards [ae_ne_zero_real] with x hx
    unfold gammaPDFReal
    split
    · rename_i h
      have h0 : 0 < x := lt_of_le_of_ne h (Ne.symm hx)
      have h1 := (Real.Gamma_pos_of_pos ha).ne'
      have h2 := (Real.Gamma_pos_of_pos ha2).ne'
      have h3 := (Real.rpow_pos_of_pos hrt (a + b)).ne'
      have e1 : x ^ (a + b - 1) = x ^ b * x ^ (a - 1) := by
        rw [← Real.rpow_add h0]; congr 1; ring
      have e2 : exp (-((r + t) * x)) = exp (-t * x) * exp (-(r * x)) := by rw [← Real.exp_add]; congr 1; ring
      rw [e1, e2]
      field_simp
    · simp
  rw [integral_congr_ae e, integral_const_mul, integral_gammaPDFReal ha2 hrt, mul_one]

theorem measurable_mahalanobis (mu : Fin m → ℝ) (P : Fin m → Fin m → ℝ) : Measurable fun x : Fin m → ℝ => Mix.mahalanobis x mu P := by
  unfold Mix.mahalanobis
  fun_prop

theorem normalPdf_measurable (mu : Fin m → ℝ) (P : Fin m → Fin m → ℝ) : Measurable fun x : Fin m → ℝ => Mix.normalPdf x mu P := by
  have := measurable_mahalanobis mu P
  unfold Mix.normalPdf
  fun_prop

/-- **The normal density integrates to one.** -/
theorem normalPdf_integral {L : Matrix (Fin m) (Fin m) ℝ} (hL : L.det ≠ 0) (mu : Fin m → ℝ) :
    Integrable (fun x => Mix.normalPdf x mu (L * Lᵀ)) ∧ ∫ x, Mix.normalPdf x mu (L * Lᵀ) = 1 := by
  have hD : (L * Lᵀ).det = L.det ^ 2 := by rw [det_mul, det_transpose, sq]
  have hval : ∫ x, Mix.normalPdf x mu (L * Lᵀ) = 1 := by
    rw [← integral_add_right_eq_self _ mu]
    have hb : ∫ x : ℝ, exp (-x ^ 2 / 2) = √(2 * π) := by
      have h := integral_gaussian (1 / 2)
      rw [show π / (1 / 2) = 2 * π by ring] at h
      rw [← h]
      congr 1
      ext x
      congr 1
      ring
    have h1 : ∀ x : Fin m → ℝ, Mix.normalPdf (x + mu) mu (L * Lᵀ) = √(L.det ^ 2 / (2 * π) ^ m) * ∏ i, exp (-(toLin' Lᵀ x i) ^ 2 / 2) := by
      intro x
      unfold Mix.normalPdf
      rw [mahalanobis_eq, ← scale_bilin]
      have : (Matrix.of (L * Lᵀ)).det = L.det ^ 2 := hD
      rw [this, ← Real.exp_sum]
      congr 2
      rw [neg_div, Finset.sum_div, ← Finset.sum_neg_distrib]
      refine Finset.sum_congr rfl fun i _ => ?_
      rw [toLin'_apply, add_sub_cancel_right]
      ring
    simp only [h1]
    rw [integral_const_mul]
    have h2 : ∫ x, ∏ i, exp (-(toLin' Lᵀ x i) ^ 2 / 2) = |L.det|⁻¹ * √(2 * π) ^ m := by
      have hm := Real.map_matrix_volume_pi_eq_smul_volume_pi (M := Lᵀ) (by rwa [det_transpose])
      have hmeas : Measurable fun y : Fin m → ℝ => ∏ i, exp (-(y i) ^ 2 / 2) := by fun_prop
      have h3 := integral_map (μ := volume) (φ := toLin' Lᵀ) (f := fun y : Fin m → ℝ => ∏ i, exp (-(y i) ^ 2 / 2))
        (LinearMap.continuous_of_finiteDimensional (toLin' Lᵀ)).aemeasurable hmeas.aestronglyMeasurable
      rw [← h3, hm, integral_smul_measure, integral_fintype_prod_volume_eq_prod (fun _ (y : ℝ) => exp (-y ^ 2 / 2))]
      simp only [hb, Finset.prod_const, Finset.card_univ, Fintype.card_fin, smul_eq_mul, det_transpose]
      rw [ENNReal.toReal_ofReal (abs_nonneg _), abs_inv]
    rw [h2, Real.sqrt_div (sq_nonneg _), Real.sqrt_sq_eq_abs]
    have e : √((2 * π) ^ m) = √(2 * π) ^ m := by
      rw [Real.sqrt_eq_rpow, Real.sqrt_eq_rpow, ← Real.rpow_natCast, ← Real.rpow_natCast, ← Real.rpow_mul (by positivity), ← Real.rpow_mul (by positivity), mul_comm (m : ℝ)]
    rw [e]
    have n1 : |L.det| ≠ 0 := abs_ne_zero.2 hL
    have n2 : √(2 * π) ^ m ≠ 0 := (pow_pos (Real.sqrt_pos.2 (by positivity)) m).ne'
    field_simp
  exact ⟨by_contra fun h => one_ne_zero (α := ℝ) (by rw [← hval, integral_undef h]), hval⟩

/-- **The Student-t density** is a mixture of normal densities over a Gamma law. -/
theorem students_mixture {P : Fin m → Fin m → ℝ} (hP : 0 < (Matrix.of P).det) (hq : ∀ x mu, 0 ≤ Mix.mahalanobis x mu P) {n : ℝ} (hn : 0 < n) (x mu : Fin m → ℝ) :
    Mix.studentsPdf x mu P n = ∫ u, Mix.normalPdf x mu (fun i j => u * P i j) ∂gammaMeasure (n / 2) (n / 2) := by
  have h1 : (fun u => Mix.normalPdf x mu (fun i j => u * P i j)) =ᵐ[gammaMeasure (n / 2) (n / 2)]
      fun u => √((Matrix.of P).det / (2 * π) ^ m) * (u ^ ((m : ℝ) / 2) * exp (-(Mix.mahalanobis x mu P / 2) * u)) := by
    filter_upwards [gammaMeasure_ae] with u hu
    unfold Mix.normalPdf
    have e1 : (Matrix.of fun i j => u * P i j).det = u ^ m * (Matrix.of P).det := by
      have : (Matrix.of fun i j => u * P i j) = u • Matrix.of P := by ext i j; simp
      rw [this, det_smul, Fintype.card_fin]
    have e2 : Mix.mahalanobis x mu (fun i j => u * P i j) = u * Mix.mahalanobis x mu P := by
      unfold Mix.mahalanobis
      simp only [Finset.mul_sum]
      exact Finset.sum_congr rfl fun i _ => Finset.sum_congr rfl fun j _ => by ring
    have e3 : √(u ^ m) = u ^ ((m : ℝ) / 2) := by
      rw [Real.sqrt_eq_rpow, ← Real.rpow_natCast, ← Real.rpow_mul hu.le]
      congr 1
      ring
    rw [e1, e2, mul_div_assoc, Real.sqrt_mul (by positivity), e3]
    have : -(u * Mix.mahalanobis x mu P) / 2 = -(Mix.mahalanobis x mu P / 2) * u := by ring
    rw [this]
    ring
  have hq' := hq x mu
  rw [integral_congr_ae h1, integral_const_mul, gamma_power (by positivity) (by positivity) (by positivity) (by positivity)]
  unfold Mix.studentsPdf
  have g : n / 2 + (m : ℝ) / 2 = (n + m) / 2 := by ring
  have e4 : n / 2 + Mix.mahalanobis x mu P / 2 = n / 2 * (1 + Mix.mahalanobis x mu P / n) := by field_simp
  have hp : 0 < 1 + Mix.mahalanobis x mu P / n := by positivity
  rw [g, e4, Real.mul_rpow (by positivity) hp.le, neg_div, Real.rpow_neg hp.le]
  have e5 : (n / 2) ^ ((n + m) / 2) = (n / 2) ^ (n / 2) * (n / 2) ^ ((m : ℝ) / 2) := by rw [← Real.rpow_add (by positivity), g]
  have e6 : (n * π) ^ ((m : ℝ) / 2) = (n / 2) ^ ((m : ℝ) / 2) * √((2 * π) ^ m) := by
    have : √((2 * π) ^ m) = (2 * π) ^ ((m : ℝ) / 2) := by
      rw [Real.sqrt_eq_rpow, ← Real.rpow_natCast, ← Real.rpow_mul (by positivity)]
      congr 1
      ring
    rw [this, ← Real.mul_rpow (by positivity) (by positivity)]
    congr 1
    ring
  rw [e5, e6, Real.sqrt_div hP.le]
  have n1 := (Real.rpow_pos_of_pos (show 0 < n / 2 by positivity) (n / 2)).ne'
  have n2 := (Real.rpow_pos_of_pos (show 0 < n / 2 by positivity) ((m : ℝ) / 2)).ne'
  have n3 := (Real.rpow_pos_of_pos hp ((n + m) / 2)).ne'
  have n4 : √((2 * π) ^ m) ≠ 0 := (Real.sqrt_pos.2 (by positivity)).ne'
  have n5 := (Real.Gamma_pos_of_pos (show 0 < n / 2 by positivity)).ne'
  field_simp

theorem studentsPdf_pos {P : Fin m → Fin m → ℝ} (hP : 0 < (Matrix.of P).det) (hq : ∀ x mu, 0 ≤ Mix.mahalanobis x mu P) {n : ℝ} (hn : 0 < n) (x mu : Fin m → ℝ) :
    0 < Mix.studentsPdf x mu P n := by
  unfold Mix.studentsPdf
  have h1 := Real.Gamma_pos_of_pos (show 0 < (n + m) / 2 by positivity)
  have h2 := Real.Gamma_pos_of_pos (show 0 < n / 2 by positivity)
  have h3 := hq x mu
  have h4 : 0 < √((Matrix.of P).det) := Real.sqrt_pos.2 hP
  positivity

theorem mahalanobis_scale (x mu : Fin m → ℝ) (L : Matrix (Fin m) (Fin m) ℝ) : 0 ≤ Mix.mahalanobis x mu (L * Lᵀ) := by
  rw [mahalanobis_eq, ← scale_bilin]
  exact Finset.sum_nonneg fun i _ => mul_self_nonneg _

/-- The joint function of point and factor is measurable. -/
theorem mixture_measurable (mu : Fin m → ℝ) (P : Fin m → Fin m → ℝ) : Measurable fun p : (Fin m → ℝ) × ℝ => Mix.normalPdf p.1 mu (fun i j => p.2 * P i j) := by
  have e : (fun p : (Fin m → ℝ) × ℝ => Mix.normalPdf p.1 mu (fun i j => p.2 * P i j)) =
      fun p => √(p.2 ^ m * (Matrix.of P).det / (2 * π) ^ m) * exp (-(p.2 * Mix.mahalanobis p.1 mu P) / 2) := by
    funext p
    unfold Mix.normalPdf
    have e1 : (Matrix.of fun i j => p.2 * P i j).det = p.2 ^ m * (Matrix.of P).det := by
      have : (Matrix.of fun i j => p.2 * P i j) = p.2 • Matrix.of P := by ext i j; simp
      rw [this, det_smul, Fintype.card_fin]
    have e2 : Mix.mahalanobis p.1 mu (fun i j => p.2 * P i j) = p.2 * Mix.mahalanobis p.1 mu P := by
      unfold Mix.mahalanobis
      simp only [Finset.mul_sum]
      exact Finset.sum_congr rfl fun i _ => Finset.sum_congr rfl fun j _ => by ring
    rw [e1, e2]
  rw [e]
  have h' : Measurable fun p : (Fin m → ℝ) × ℝ => Mix.mahalanobis p.1 mu P := (measurable_mahalanobis mu P).comp measurable_fst
  fun_prop

/-- **The Student-t density integrates to one.** -/
theorem students_integral {L : Matrix (Fin m) (Fin m) ℝ} (hL : L.det ≠ 0) (mu : Fin m → ℝ) {n : ℝ} (hn : 0 < n) :
    Integrable (fun x => Mix.studentsPdf x mu (L * Lᵀ) n) ∧ ∫ x, Mix.studentsPdf x mu (L * Lᵀ) n = 1 := by
  have hD : 0 < (Matrix.of (L * Lᵀ)).det := by
    show 0 < (L * Lᵀ).det
    rw [det_mul, det_transpose]; exact mul_self_pos.2 hL
  have hq : ∀ x mu, 0 ≤ Mix.mahalanobis x mu (L * Lᵀ) := fun x mu => mahalanobis_scale x mu L
  have := isProbabilityMeasure_gammaMeasure (show 0 < n / 2 by positivity) (show 0 < n / 2 by positivity)
  simp only [students_mixture hD hq hn]
  have hu : ∀ u : ℝ, 0 < u → Integrable (fun x => Mix.normalPdf x mu (fun i j => u * (L * Lᵀ) i j)) ∧ ∫ x, Mix.normalPdf x mu (fun i j => u * (L * Lᵀ) i j) = 1 := by
    intro u hu
    have hd : (√u • L).det ≠ 0 := by
      rw [det_smul]
      exact mul_ne_zero (pow_ne_zero _ (Real.sqrt_pos.2 hu).ne') hL
    have e : ((√u • L) * (√u • L)ᵀ : Matrix (Fin m) (Fin m) ℝ) = fun i j => u * (L * Lᵀ) i j := by
      have : ((√u • L) * (√u • L)ᵀ : Matrix (Fin m) (Fin m) ℝ) = u • (L * Lᵀ) := by
        rw [transpose_smul, Matrix.smul_mul, Matrix.mul_smul, smul_smul, Real.mul_self_sqrt hu.le]
      rw [this]
      rfl
    have h := normalPdf_integral hd mu
    rw [e] at h
    exact h
  have hint : Integrable (fun p : (Fin m → ℝ) × ℝ => Mix.normalPdf p.1 mu (fun i j => p.2 * (L * Lᵀ) i j)) (volume.prod (gammaMeasure (n / 2) (n / 2))) := by
    rw [integrable_prod_iff' (mixture_measurable mu (L * Lᵀ)).aestronglyMeasurable]
    refine ⟨by filter_upwards [gammaMeasure_ae] with u h using (hu u h).1, ?_⟩
    refine (integrable_const (1 : ℝ)).congr ?_
    filter_upwards [gammaMeasure_ae] with u h
    rw [← (hu u h).2]
    refine integral_congr_ae (Filter.Eventually.of_forall fun x => ?_)
    show _ = ‖_‖
    rw [Real.norm_of_nonneg]
    unfold Mix.normalPdf
    positivity
  refine ⟨hint.integral_prod_left, ?_⟩
  rw [integral_integral_swap hint]
  have e : (fun u => ∫ x, Mix.normalPdf x mu (fun i j => u * (L * Lᵀ) i j)) =ᵐ[gammaMeasure (n / 2) (n / 2)] fun _ => 1 := by
    filter_upwards [gammaMeasure_ae] with u h using (hu u h).2
  rw [integral_congr_ae e]
  simp

end Verif.NW
