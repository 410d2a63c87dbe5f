import Verif.Lemmas.VarReal
import Mathlib.Probability.Distributions.Gaussian.Real

/-!
# C69: Gaussian and Student-t densities use the determinant of the precision

The code uses the Frobenius norm `‖P‖` of the precision where the determinant belongs.  Over the real numbers, with the real special functions:

* `C69_normal_gap`, `C69_students_gap`, `C69_wishart_gap`: for every dimension, point and precision with positive determinant the Gaussian and the
  Student-t value are the right one times `sqrt (‖P‖ / det P)`, and `e_log_norm_wishart` is the right value plus `log ‖P‖ - log det P`; so they are right
  exactly when `‖P‖ = det P` (`C69_normal_iff`, `C69_students_iff`, `C69_wishart_iff`).
* `C69_one_partial`: with one coordinate they are right; `C69_gaussian_partial` identifies the first with Mathlib's Gaussian density.
* `C69_refuted`: in every dimension from two on, the identity matrix is a precision for which all three are wrong, at every point.
* `C69_scaled_refuted`: no scaled identity matrix other than one special scale per dimension is right.
-/

namespace Verif.Mix
open Real
variable {m : ℕ}

/-- `(x - mu)' P (x - mu)`. -/
def mahalanobis (x mu : Fin m → ℝ) (P : Fin m → Fin m → ℝ) : ℝ := ∑ i, ∑ j, (x i - mu i) * P i j * (x j - mu j)

/-- The density of the normal distribution with mean `mu` and precision `P`. -/
noncomputable def normalPdf (x mu : Fin m → ℝ) (P : Fin m → Fin m → ℝ) : ℝ :=
  √((Matrix.of P).det / (2 * π) ^ m) * exp (-mahalanobis x mu P / 2)

/-- The density of the multivariate Student-t distribution. -/
noncomputable def studentsPdf (x mu : Fin m → ℝ) (P : Fin m → Fin m → ℝ) (nu : ℝ) : ℝ :=
  Gamma ((nu + m) / 2) / Gamma (nu / 2) * (√((Matrix.of P).det) / (nu * π) ^ ((m : ℝ) / 2)) * (1 + mahalanobis x mu P / nu) ^ (-(nu + m) / 2)

/-- The expectation of the logarithm of the determinant of a Wishart matrix with scale matrix `P` and `nu` degrees of freedom. -/
noncomputable def wishartLogDet (P : Fin m → Fin m → ℝ) (nu : ℝ) : ℝ :=
  log ((Matrix.of P).det) + m * log 2 + ∑ i : Fin m, logDeriv Gamma ((nu - (i : ℕ)) / 2)

theorem frob_nonneg (P : Fin m → Fin m → ℝ) : 0 ≤ frob realFun P := Real.sqrt_nonneg _

theorem frob_real_pos {P : Fin m → Fin m → ℝ} (hm : 0 < m) (hd : 0 < (Matrix.of P).det) : 0 < frob realFun P := by
  apply Real.sqrt_pos.2
  rcases lt_or_eq_of_le (Finset.sum_nonneg fun i (_ : i ∈ Finset.univ) => Finset.sum_nonneg fun j (_ : j ∈ Finset.univ) => mul_self_nonneg (P i j)) with h | h
  · exact h
  · exfalso
    have hz : Matrix.of P = 0 := by
      ext i j
      have h1 := (Finset.sum_eq_zero_iff_of_nonneg fun i _ => Finset.sum_nonneg fun j _ => mul_self_nonneg (P i j)).1 h.symm i (Finset.mem_univ _)
      have h2 := (Finset.sum_eq_zero_iff_of_nonneg fun j _ => mul_self_nonneg (P i j)).1 h1 j (Finset.mem_univ _)
      exact mul_self_eq_zero.1 h2
    haveI : Nonempty (Fin m) := ⟨⟨0, hm⟩⟩
    rw [hz, Matrix.det_zero] at hd
    exact lt_irrefl _ hd

/-- **The Gaussian value** is off by the factor `sqrt (‖P‖ / det P)`. -/
theorem C69_normal_gap (x mu : Fin m → ℝ) {P : Fin m → Fin m → ℝ} (hd : 0 < (Matrix.of P).det) :
    normalDensity realFun x mu P = √(frob realFun P / (Matrix.of P).det) * normalPdf x mu P := by
  unfold normalDensity normalPdf mahalanobis
  show √((2 * π) ^ (-(m : ℝ)) * frob realFun P) * exp _ = _
  rw [← mul_assoc, ← Real.sqrt_mul (div_nonneg (frob_nonneg P) hd.le)]
  congr 2
  rw [Real.rpow_neg (by positivity), Real.rpow_natCast]
  field_simp

/-- **The Student-t value** is off by the same factor. -/
theorem C69_students_gap (x mu : Fin m → ℝ) {P : Fin m → Fin m → ℝ} (hd : 0 < (Matrix.of P).det) {nu : ℝ} (hnu : 0 < nu) :
    studentsT realFun x mu P nu = √(frob realFun P / (Matrix.of P).det) * studentsPdf x mu P nu := by
  unfold studentsT studentsPdf mahalanobis
  show exp (log (Gamma ((nu + m) / 2)) - log (Gamma (nu / 2))) * (frob realFun P ^ ((1 : ℝ) / 2) / (nu * π) ^ ((m : ℝ) / 2)) * _ = _
  have h1 : 0 < Gamma ((nu + m) / 2) := Real.Gamma_pos_of_pos (by positivity)
  have h2 : 0 < Gamma (nu / 2) := Real.Gamma_pos_of_pos (by positivity)
  rw [Real.exp_sub, Real.exp_log h1, Real.exp_log h2, ← Real.sqrt_eq_rpow, Real.sqrt_div (frob_nonneg P)]
  have h3 : √((Matrix.of P).det) ≠ 0 := (Real.sqrt_pos.2 hd).ne'
  show _ * (1 + (∑ i, ∑ j, (x i - mu i) * P i j * (x j - mu j)) / nu) ^ (-(nu + m) / 2) = _
  field_simp

theorem wishart_sum (nu : ℝ) : ((List.range m).map (fun i => realFun.digamma ((nu - (i : ℕ)) / 2))).sum = ∑ i : Fin m, logDeriv Gamma ((nu - (i : ℕ)) / 2) := by
  rw [← List.sum_ofFn, ← List.map_coe_finRange_eq_range, List.map_map, List.ofFn_eq_map]
  rfl

/-- **`e_log_norm_wishart`** is off by `log ‖P‖ - log det P`. -/
theorem C69_wishart_gap (hm : 0 < m) {P : Fin m → Fin m → ℝ} (hd : 0 < (Matrix.of P).det) (nu : ℝ) :
    eLogNormWishart realFun P nu = .fin (wishartLogDet P nu + (log (frob realFun P) - log (Matrix.of P).det)) := by
  have hf := frob_real_pos hm hd
  unfold eLogNormWishart wishartLogDet
  rw [wishart_sum]
  have : Fl.log realFun.log (.fin (frob realFun P)) = .fin (log (frob realFun P)) := by
    unfold Fl.log
    simp only []
    rw [if_neg (not_lt.2 hf.le), if_neg hf.ne']
    rfl
  rw [this]
  show Fl.fin _ = Fl.fin _
  congr 1
  show log (frob realFun P) + ((m : ℝ) * log 2 + _) = _
  ring

theorem normalPdf_pos (x mu : Fin m → ℝ) {P : Fin m → Fin m → ℝ} (hd : 0 < (Matrix.of P).det) : 0 < normalPdf x mu P := by
  unfold normalPdf
  exact mul_pos (Real.sqrt_pos.2 (by positivity)) (Real.exp_pos _)

theorem factor_iff {P : Fin m → Fin m → ℝ} (hd : 0 < (Matrix.of P).det) {v : ℝ} (hv : 0 < v) :
    √(frob realFun P / (Matrix.of P).det) * v = v ↔ frob realFun P = (Matrix.of P).det := by
  rw [mul_eq_right₀ hv.ne', Real.sqrt_eq_one, div_eq_one_iff_eq hd.ne']

/-- Right exactly when norm and determinant agree. -/
theorem C69_normal_iff (x mu : Fin m → ℝ) {P : Fin m → Fin m → ℝ} (hd : 0 < (Matrix.of P).det) :
    normalDensity realFun x mu P = normalPdf x mu P ↔ frob realFun P = (Matrix.of P).det := by
  rw [C69_normal_gap x mu hd, factor_iff hd (normalPdf_pos x mu hd)]

theorem mahalanobis_nonneg {P : Fin m → Fin m → ℝ} (hP : (Matrix.of P).PosDef) (x mu : Fin m → ℝ) : 0 ≤ mahalanobis x mu P := by
  have := hP.posSemidef.dotProduct_mulVec_nonneg (fun i => x i - mu i)
  refine this.trans (le_of_eq ?_)
  simp only [dotProduct, Matrix.mulVec, mahalanobis, Matrix.of_apply, Pi.star_apply, star_trivial, Finset.mul_sum, mul_assoc]

theorem C69_students_iff (x mu : Fin m → ℝ) {P : Fin m → Fin m → ℝ} (hP : (Matrix.of P).PosDef) {nu : ℝ} (hnu : 0 < nu) :
    studentsT realFun x mu P nu = studentsPdf x mu P nu ↔ frob realFun P = (Matrix.of P).det := by
  have hd := hP.det_pos
  rw [C69_students_gap x mu hd hnu]
  refine factor_iff hd ?_
  have h1 : 0 < Gamma ((nu + m) / 2) := Real.Gamma_pos_of_pos (by positivity)
  have h2 : 0 < Gamma (nu / 2) := Real.Gamma_pos_of_pos (by positivity)
  have h3 : 0 < 1 + mahalanobis x mu P / nu := by
    have := div_nonneg (mahalanobis_nonneg hP x mu) hnu.le
    linarith
  have h4 : 0 < √((Matrix.of P).det) := Real.sqrt_pos.2 hd
  unfold studentsPdf
  have h5 : 0 < (nu * π) ^ ((m : ℝ) / 2) := Real.rpow_pos_of_pos (by positivity) _
  have h6 := Real.rpow_pos_of_pos h3 (-(nu + m) / 2)
  positivity

theorem C69_wishart_iff (hm : 0 < m) {P : Fin m → Fin m → ℝ} (hd : 0 < (Matrix.of P).det) (nu : ℝ) :
    eLogNormWishart realFun P nu = .fin (wishartLogDet P nu) ↔ frob realFun P = (Matrix.of P).det := by
  rw [C69_wishart_gap hm hd nu, Fl.fin.injEq, add_eq_left, sub_eq_zero]
  exact Real.log_injOn_pos.eq_iff (frob_real_pos hm hd) hd

/-- **One coordinate**: all three are right. What is missing: more coordinates. -/
theorem C69_one_partial (x mu : Fin 1 → ℝ) {P : Fin 1 → Fin 1 → ℝ} (hP : 0 < P 0 0) {nu : ℝ} (hnu : 0 < nu) :
    normalDensity realFun x mu P = normalPdf x mu P ∧ studentsT realFun x mu P nu = studentsPdf x mu P nu ∧
    eLogNormWishart realFun P nu = .fin (wishartLogDet P nu) := by
  have hdet : (Matrix.of P).det = P 0 0 := Matrix.det_fin_one _
  have hd : 0 < (Matrix.of P).det := by rw [hdet]; exact hP
  have he : frob realFun P = (Matrix.of P).det := by
    rw [hdet]
    unfold frob
    show √(∑ i, ∑ j, P i j * P i j) = _
    simp only [Finset.univ_unique, Finset.sum_singleton, Fin.default_eq_zero]
    exact Real.sqrt_mul_self hP.le
  refine ⟨(C69_normal_iff x mu hd).2 he, ?_, (C69_wishart_iff one_pos hd nu).2 he⟩
  rw [C69_students_gap x mu hd hnu, he, div_self hd.ne', Real.sqrt_one, one_mul]

/-- With one coordinate `density_normal` is the Gaussian density with variance `1 / P`, which integrates to one. -/
theorem C69_gaussian_partial (x mu : ℝ) {p : ℝ} (hp : 0 < p) :
    normalDensity realFun (fun _ : Fin 1 => x) (fun _ => mu) (fun _ _ => p) = ProbabilityTheory.gaussianPDFReal mu (Real.toNNReal (1 / p)) x := by
  rw [(C69_one_partial (fun _ => x) (fun _ => mu) (P := fun _ _ => p) hp one_pos).1]
  unfold normalPdf ProbabilityTheory.gaussianPDFReal mahalanobis
  have hdet : (Matrix.of (fun _ _ : Fin 1 => p)).det = p := Matrix.det_fin_one _
  rw [hdet]
  simp only [Finset.univ_unique, Finset.sum_singleton, pow_one]
  rw [← Real.sqrt_inv]
  rw [Real.coe_toNNReal _ (by positivity)]
  congr 2
  · field_simp
  · field_simp

theorem frob_scaled (c : ℝ) (hc : 0 < c) : frob realFun (fun i j : Fin m => if i = j then c else 0) = c * √m := by
  unfold frob
  show √(∑ i, ∑ j, (if i = j then c else 0) * (if i = j then c else 0)) = _
  have : ∀ i : Fin m, ∑ j : Fin m, (if i = j then c else 0) * (if i = j then c else 0) = c ^ 2 := by
    intro i
    rw [Finset.sum_eq_single i]
    · simp [sq]
    · intro j _ hj
      simp [Ne.symm hj]
    · simp
  rw [Finset.sum_congr rfl fun i _ => this i]
  simp only [Finset.sum_const, Finset.card_univ, Fintype.card_fin, nsmul_eq_mul]
  rw [mul_comm, Real.sqrt_mul (sq_nonneg c), Real.sqrt_sq hc.le]

theorem det_scaled (c : ℝ) : (Matrix.of (fun i j : Fin m => if i = j then c else 0)).det = c ^ m := by
  have : Matrix.of (fun i j : Fin m => if i = j then c else 0) = Matrix.diagonal (fun _ => c) := by
    ext i j
    simp [Matrix.diagonal_apply]
  rw [this, Matrix.det_diagonal]
  simp

theorem posDef_scaled {c : ℝ} (hc : 0 < c) : (Matrix.of (fun i j : Fin m => if i = j then c else 0)).PosDef := by
  have : Matrix.of (fun i j : Fin m => if i = j then c else 0) = Matrix.diagonal (fun _ => c) := by
    ext i j
    simp [Matrix.diagonal_apply]
  rw [this]
  exact Matrix.PosDef.diagonal (fun _ => hc)

/-- **Refuted**: with two or more coordinates and a multiple `c` of the identity matrix as precision, every value is wrong unless `√m = c ^ (m - 1)`. -/
theorem C69_scaled_refuted (hm : 2 ≤ m) {c : ℝ} (hc : 0 < c) (hne : √m ≠ c ^ (m - 1)) (x mu : Fin m → ℝ) {nu : ℝ} (hnu : 0 < nu) :
    let P : Fin m → Fin m → ℝ := fun i j => if i = j then c else 0
    (Matrix.of P).PosDef ∧ normalDensity realFun x mu P ≠ normalPdf x mu P ∧ studentsT realFun x mu P nu ≠ studentsPdf x mu P nu ∧
      eLogNormWishart realFun P nu ≠ .fin (wishartLogDet P nu) := by
  intro P
  have hP : (Matrix.of P).PosDef := posDef_scaled hc
  have hno : frob realFun P ≠ (Matrix.of P).det := by
    rw [frob_scaled c hc, det_scaled]
    intro h
    apply hne
    have : c ^ m = c * c ^ (m - 1) := by rw [← pow_succ']; congr 1; omega
    rw [this] at h
    exact mul_left_cancel₀ hc.ne' h
  refine ⟨hP, ?_, ?_, ?_⟩
  · rw [Ne, C69_normal_iff x mu hP.det_pos]; exact hno
  · rw [Ne, C69_students_iff x mu hP hnu]; exact hno
  · rw [Ne, C69_wishart_iff (by omega) hP.det_pos]; exact hno

/-- **Refuted** for the identity matrix, in every dimension from two on and at every point. -/
theorem C69_refuted (hm : 2 ≤ m) (x mu : Fin m → ℝ) {nu : ℝ} (hnu : 0 < nu) :
    let P : Fin m → Fin m → ℝ := fun i j => if i = j then 1 else 0
    (Matrix.of P).PosDef ∧ normalDensity realFun x mu P ≠ normalPdf x mu P ∧ studentsT realFun x mu P nu ≠ studentsPdf x mu P nu ∧
      eLogNormWishart realFun P nu ≠ .fin (wishartLogDet P nu) := by
  refine C69_scaled_refuted hm one_pos ?_ x mu hnu
  rw [one_pow, Ne, Real.sqrt_eq_one]
  have : (1 : ℝ) < m := by exact_mod_cast (by omega : 1 < m)
  exact ne_of_gt this
end Verif.Mix
