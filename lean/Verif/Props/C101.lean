import Verif.Model.Ellipse
import Mathlib.LinearAlgebra.Matrix.Determinant.Basic
import Mathlib.Tactic.NormNum

/-!
# C101: the dashed curve of a group in the pair plot is the 95% contour of its normal law

The claim: for a group whose mean and covariance on the two columns of the panel are `mu` and `sigma` (positive definite), all points of the dashed curve that `gibbs_map_pairplot()` draws have the same
density under the normal law of the group: their squared distance `(x - mu) sigma⁻¹ (x - mu)ᵀ` is the 95% quantile.  **False** unless the two columns are uncorrelated in the group (`C101_iff`): the code
multiplies the unit circle by `L √D Lᵀ` instead of by a square root such as `√D Lᵀ`.  `C101_distance` gives the distance that is drawn, `C101_partial` the case that is right, `C101_refuted` a witness; `C101_area`:
the drawn curve still encloses the area of the contour.
-/

namespace Verif.Mix
open Matrix

/-- The squared distance of `x` from `mu` in the metric of `sigma`: twice the exponent of the normal density. -/
noncomputable def contourDist (sigma : Matrix (Fin 2) (Fin 2) ℝ) (mu x : Fin 2 → ℝ) : ℝ := (x - mu) ⬝ᵥ (sigma⁻¹ *ᵥ (x - mu))

/-- The curve goes through points of the contour only. -/
def OnContour (radius : ℝ) (sigma : Matrix (Fin 2) (Fin 2) ℝ) (mu : Fin 2 → ℝ) (lu d : Matrix (Fin 2) (Fin 2) ℝ) : Prop :=
  ∀ k < 100, contourDist sigma mu (ellipsePoint radius mu lu d (ellipseAngle k)) = radius ^ 2

variable {sigma lu d : Matrix (Fin 2) (Fin 2) ℝ} {mu : Fin 2 → ℝ} {radius : ℝ}

theorem IsLdl.det_eq (h : IsLdl sigma lu d) : sigma.det = d 0 0 * d 1 1 := by
  have hd : d.det = d 0 0 * d 1 1 := by rw [det_fin_two, h.diag.1]; ring
  have hl : lu.det ^ 2 = 1 := by
    rcases h.lower with ⟨l, rfl⟩ | ⟨l, rfl⟩ <;> simp [det_fin_two]
  rw [h.eq, det_mul, det_mul, det_transpose, hd]
  linear_combination (d 0 0 * d 1 1) * hl

theorem IsLdl.pos (h : IsLdl sigma lu d) (hs : 0 < sigma.det) : 0 < d 0 0 ∧ 0 < d 1 1 := by
  rw [h.det_eq] at hs
  rcases h.nonneg with ⟨h0, h1⟩
  constructor
  · rcases h0.lt_or_eq with h | h
    · exact h
    · rw [← h, zero_mul] at hs
      exact absurd hs (lt_irrefl _)
  · rcases h1.lt_or_eq with h | h
    · exact h
    · rw [← h, mul_zero] at hs
      exact absurd hs (lt_irrefl _)

theorem IsLdl.d_eq (h : IsLdl sigma lu d) : d = !![d 0 0, 0; 0, d 1 1] := by
  ext i j
  fin_cases i <;> fin_cases j <;> simp [h.diag]

theorem sqrtEntries_eq (h : IsLdl sigma lu d) : sqrtEntries d = !![√(d 0 0), 0; 0, √(d 1 1)] := by
  ext i j
  fin_cases i <;> fin_cases j <;> simp [sqrtEntries, h.diag]

/-- `sig_sq * sigma⁻¹ * sig_sq = lu * lu.T`, written for the row that is drawn. -/
theorem sigSq_core (h : IsLdl sigma lu d) (hs : 0 < sigma.det) : sigSq lu d * sigma⁻¹ * sigSq lu d = lu * luᵀ := by
  obtain ⟨h0, h1⟩ := h.pos hs
  have hq : sqrtEntries d * sqrtEntries d = d := by
    rw [sqrtEntries_eq h]
    conv_rhs => rw [h.d_eq]
    ext i j
    fin_cases i <;> fin_cases j <;> simp [Matrix.mul_apply, Fin.sum_univ_two, Real.mul_self_sqrt h0.le, Real.mul_self_sqrt h1.le]
  have hlu : IsUnit lu.det := by
    rcases h.lower with ⟨l, rfl⟩ | ⟨l, rfl⟩ <;> simp [det_fin_two]
  have hqu : IsUnit (sqrtEntries d).det := by
    rw [sqrtEntries_eq h, det_fin_two]
    simp [(Real.sqrt_pos.2 h0).ne', (Real.sqrt_pos.2 h1).ne']
  have hlt : IsUnit (luᵀ).det := by rwa [det_transpose]
  have hinv : sigma⁻¹ = luᵀ⁻¹ * ((sqrtEntries d)⁻¹ * (sqrtEntries d)⁻¹) * lu⁻¹ := by
    conv_lhs => rw [h.eq, ← hq]
    simp only [Matrix.mul_inv_rev, Matrix.mul_assoc]
  unfold sigSq
  rw [hinv]
  calc lu * sqrtEntries d * luᵀ * (luᵀ⁻¹ * ((sqrtEntries d)⁻¹ * (sqrtEntries d)⁻¹) * lu⁻¹) * (lu * sqrtEntries d * luᵀ)
      = lu * (sqrtEntries d * ((luᵀ * luᵀ⁻¹) * ((sqrtEntries d)⁻¹ * ((sqrtEntries d)⁻¹ * ((lu⁻¹ * lu) * (sqrtEntries d * luᵀ)))))) := by simp only [Matrix.mul_assoc]
    _ = lu * luᵀ := by
      rw [mul_nonsing_inv _ hlt, nonsing_inv_mul _ hlu, Matrix.one_mul, Matrix.one_mul, nonsing_inv_mul_cancel_left _ _ hqu, mul_nonsing_inv_cancel_left _ _ hqu]

theorem sigSq_transpose (h : IsLdl sigma lu d) : (sigSq lu d)ᵀ = sigSq lu d := by
  have : (sqrtEntries d)ᵀ = sqrtEntries d := by
    rw [sqrtEntries_eq h]
    ext i j
    fin_cases i <;> fin_cases j <;> simp
  unfold sigSq
  rw [transpose_mul, transpose_mul, transpose_transpose, this, Matrix.mul_assoc]

/-- **The distance that is drawn**: the radius times the length of the direction in the metric of `lu lu.T`, instead of the radius. -/
theorem C101_distance (h : IsLdl sigma lu d) (hs : 0 < sigma.det) (t : ℝ) :
    contourDist sigma mu (ellipsePoint radius mu lu d t) = radius ^ 2 * (![Real.cos t, Real.sin t] ⬝ᵥ ((lu * luᵀ) *ᵥ ![Real.cos t, Real.sin t])) := by
  unfold contourDist ellipsePoint
  rw [add_sub_cancel_right, ← sigSq_core h hs, smul_vecMul, mulVec_smul, smul_dotProduct, dotProduct_smul, ← Matrix.dotProduct_mulVec]
  have : Matrix.vecMul ![Real.cos t, Real.sin t] (sigSq lu d) = sigSq lu d *ᵥ ![Real.cos t, Real.sin t] := by
    rw [← sigSq_transpose h, vecMul_transpose, sigSq_transpose h]
  rw [this, mulVec_mulVec, mulVec_mulVec, smul_eq_mul, smul_eq_mul, Matrix.mul_assoc]
  ring

/-- The multiplier below the diagonal, in both forms of the decomposition. -/
theorem IsLdl.offdiag (h : IsLdl sigma lu d) : ∃ l, sigma 0 1 = l * d 0 0 ∧ (lu = !![1, 0; l, 1] ∨ lu = !![l, 1; 1, 0]) := by
  rcases h.lower with ⟨l, hl⟩ | ⟨l, hl⟩
  · refine ⟨l, ?_, .inl hl⟩
    rw [h.eq, h.d_eq, hl]
    simp [Matrix.mul_apply, Fin.sum_univ_two]
    ring
  · refine ⟨l, ?_, .inr hl⟩
    rw [h.eq, h.d_eq, hl]
    simp [Matrix.mul_apply, Fin.sum_univ_two]

/-- **Uncorrelated columns**: the whole drawn curve is the contour. What is missing is the claim for correlated columns, see `C101_iff`. -/
theorem C101_partial (h : IsLdl sigma lu d) (hs : 0 < sigma.det) (h01 : sigma 0 1 = 0) (t : ℝ) : contourDist sigma mu (ellipsePoint radius mu lu d t) = radius ^ 2 := by
  obtain ⟨l, hl, hlu⟩ := h.offdiag
  have hl0 : l = 0 := by
    rw [h01] at hl
    exact (mul_eq_zero.1 hl.symm).resolve_right (h.pos hs).1.ne'
  subst hl0
  rw [C101_distance h hs]
  have : ![Real.cos t, Real.sin t] ⬝ᵥ ((lu * luᵀ) *ᵥ ![Real.cos t, Real.sin t]) = 1 := by
    rcases hlu with rfl | rfl
    all_goals
      simp [Matrix.mul_apply, mulVec, dotProduct, Fin.sum_univ_two]
      nlinarith [Real.sin_sq_add_cos_sq t]
  rw [this, mul_one]

theorem ellipseAngle_one : 0 < Real.sin (ellipseAngle 1) ∧ 0 < Real.cos (ellipseAngle 1) := by
  have hpi := Real.pi_pos
  constructor
  · exact Real.sin_pos_of_pos_of_lt_pi (by unfold ellipseAngle; positivity) (by unfold ellipseAngle; push_cast; linarith)
  · exact Real.cos_pos_of_mem_Ioo ⟨by unfold ellipseAngle; push_cast; linarith, by unfold ellipseAngle; push_cast; linarith⟩

theorem ellipseAngle_last : Real.sin (ellipseAngle 98) = -Real.sin (ellipseAngle 1) ∧ Real.cos (ellipseAngle 98) = Real.cos (ellipseAngle 1) := by
  have : ellipseAngle 98 = 2 * Real.pi - ellipseAngle 1 := by
    unfold ellipseAngle
    push_cast
    ring
  rw [this]
  exact ⟨Real.sin_two_pi_sub _, Real.cos_two_pi_sub _⟩

/-- **When the curve is the contour**: iff the two columns are uncorrelated in the group. -/
theorem C101_iff (h : IsLdl sigma lu d) (hs : 0 < sigma.det) (hr : radius ≠ 0) : OnContour radius sigma mu lu d ↔ sigma 0 1 = 0 := by
  refine ⟨fun hall => ?_, fun h01 k _ => C101_partial h hs h01 _⟩
  have h1 := hall 1 (by norm_num)
  have h98 := hall 98 (by norm_num)
  rw [C101_distance h hs] at h1 h98
  have hr2 : radius ^ 2 ≠ 0 := pow_ne_zero 2 hr
  have e1 := mul_left_cancel₀ hr2 (h1.trans (mul_one _).symm)
  have e98 := mul_left_cancel₀ hr2 (h98.trans (mul_one _).symm)
  obtain ⟨hs1, hc1⟩ := ellipseAngle_one
  rw [ellipseAngle_last.1, ellipseAngle_last.2] at e98
  have hsc := Real.sin_sq_add_cos_sq (ellipseAngle 1)
  obtain ⟨l, hl, hlu⟩ := h.offdiag
  have : l * (Real.sin (ellipseAngle 1) * Real.cos (ellipseAngle 1)) = 0 := by
    rcases hlu with rfl | rfl
    all_goals
      simp [Matrix.mul_apply, mulVec, dotProduct, Fin.sum_univ_two] at e1 e98
      linarith
  rw [hl, (mul_eq_zero.1 this).resolve_right (mul_pos hs1 hc1).ne', zero_mul]

/-- **The area** of the drawn ellipse is that of the contour: both are images of the circle, with determinants of the same square. -/
theorem C101_area (h : IsLdl sigma lu d) : (sigSq lu d).det = √sigma.det := by
  have hl : lu.det ^ 2 = 1 := by
    rcases h.lower with ⟨l, rfl⟩ | ⟨l, rfl⟩ <;> simp [det_fin_two]
  rw [h.det_eq, Real.sqrt_mul h.nonneg.1]
  unfold sigSq
  have hq : (sqrtEntries d).det = √(d 0 0) * √(d 1 1) := by
    rw [sqrtEntries_eq h, det_fin_two]
    simp
  rw [det_mul, det_mul, det_transpose, hq]
  linear_combination (√(d 0 0) * √(d 1 1)) * hl

theorem alphaRadius_pos : 0 < alphaRadius := Real.sqrt_pos.2 (by nlinarith [Real.log_neg (x := 0.05) (by norm_num) (by norm_num)])

/-- The decomposition exists for every covariance, so that the hypotheses are met: here for two unit variances with covariance `1/2`. -/
theorem halfLdl : IsLdl !![1, 1/2; 1/2, 1] !![1, 0; 1/2, 1] !![1, 0; 0, 3/4] where
  eq := by
    ext i j
    fin_cases i <;> fin_cases j <;> norm_num [Matrix.mul_apply, Fin.sum_univ_two]
  diag := by simp
  nonneg := by norm_num
  lower := .inl ⟨1/2, rfl⟩

/-- **Refutation**: unit variances with covariance `1/2`. -/
theorem C101_refuted (mu : Fin 2 → ℝ) : ¬ OnContour alphaRadius !![1, 1/2; 1/2, 1] mu !![1, 0; 1/2, 1] !![1, 0; 0, 3/4] := by
  rw [C101_iff halfLdl (by norm_num [det_fin_two]) alphaRadius_pos.ne']
  norm_num

/-- Every positive definite covariance has such a decomposition. -/
theorem exists_ldl {a b c : ℝ} (ha : 0 < a) (hdet : 0 < a * c - b * b) : IsLdl !![a, b; b, c] !![1, 0; b / a, 1] !![a, 0; 0, c - b * b / a] where
  eq := by
    ext i j
    fin_cases i <;> fin_cases j <;> simp [Matrix.mul_apply, Fin.sum_univ_two] <;> field_simp
    ring
  diag := by simp
  nonneg := by
    refine ⟨ha.le, ?_⟩
    have : c - b * b / a = (a * c - b * b) / a := by field_simp
    simp only [of_apply, cons_val', cons_val_one, cons_val_fin_one]
    rw [this]
    exact (div_pos hdet ha).le
  lower := .inl ⟨_, rfl⟩

/-! ### The hypotheses are met -/

/-- Different variances without covariance: the curve is right. -/
example (mu : Fin 2 → ℝ) : OnContour alphaRadius !![4, 0; 0, 1] mu !![1, 0; 0 / 4, 1] !![4, 0; 0, 1 - 0 * 0 / 4] :=
  (C101_iff (exists_ldl (by norm_num) (by norm_num)) (by norm_num [det_fin_two]) alphaRadius_pos.ne').2 (by simp)

end Verif.Mix
