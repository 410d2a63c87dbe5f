import Verif.Lemmas.Normalised
import Mathlib.Probability.Distributions.Gaussian.Multivariate

/-!
# The marginals of a normal law

The law with the normal density of mean `mu` and covariance `S` is the law of `mu + A z` for standard normal `z` and `A Aᵀ = S`; its image on some of the
coordinates is the law with the normal density of the selected means and the selected block of `S`.
-/

namespace Verif.NW
open MeasureTheory ProbabilityTheory Real Matrix
variable {m c : ℕ}

/-- The law with the density of the normal distribution of mean `mu` and covariance `S`. -/
noncomputable def normalLaw (mu : Fin m → ℝ) (S : Matrix (Fin m) (Fin m) ℝ) : Measure (Fin m → ℝ) :=
  volume.withDensity fun x => ENNReal.ofReal (Mix.normalPdf x mu (S⁻¹ : Matrix (Fin m) (Fin m) ℝ))

theorem normalPdf_nonneg (x mu : Fin m → ℝ) (P : Fin m → Fin m → ℝ) : 0 ≤ Mix.normalPdf x mu P := by
  unfold Mix.normalPdf
  positivity

theorem gaussianPDFReal_std (t : ℝ) : gaussianPDFReal 0 1 t = (√(2 * π))⁻¹ * exp (-t ^ 2 / 2) := by
  simp [gaussianPDFReal]

/-- Standardised: `Lᵀ (x - mu)` is standard normal. -/
theorem normalLaw_standard {L : Matrix (Fin m) (Fin m) ℝ} (hL : L.det ≠ 0) (mu : Fin m → ℝ) :
    (volume.withDensity fun x => ENNReal.ofReal (Mix.normalPdf x mu (L * Lᵀ))).map (fun x => Lᵀ *ᵥ (x - mu)) = Measure.pi fun _ => gaussianReal 0 1 := by
  have hmeas : Measurable fun x : Fin m → ℝ => Lᵀ *ᵥ (x - mu) :=
    ((LinearMap.continuous_of_finiteDimensional (toLin' Lᵀ)).comp (continuous_id.sub continuous_const)).measurable
  refine (Measure.pi_eq fun s hs => ?_).symm
  have hB : MeasurableSet (Set.univ.pi s) := MeasurableSet.univ_pi hs
  rw [Measure.map_apply hmeas hB, withDensity_apply _ (hmeas hB), ← ofReal_integral_eq_lintegral_ofReal (normalPdf_integral hL mu).1.integrableOn
    (ae_of_all _ fun x => normalPdf_nonneg _ _ _)]
  have hD : (L * Lᵀ).det = L.det ^ 2 := by rw [det_mul, det_transpose, sq]
  have h0 : ∫ x in (fun x => Lᵀ *ᵥ (x - mu)) ⁻¹' Set.univ.pi s, Mix.normalPdf x mu (L * Lᵀ) =
      |L.det| * ∫ x, (fun y : Fin m → ℝ => ∏ i, (s i).indicator (gaussianPDFReal 0 1) (y i)) (toLin' Lᵀ x) := by
    rw [← integral_indicator (hmeas hB), ← integral_add_right_eq_self _ mu, ← integral_const_mul]
    congr 1
    ext x
    have e1 : Mix.normalPdf (x + mu) mu (L * Lᵀ) = |L.det| * ∏ i, gaussianPDFReal 0 1 (toLin' Lᵀ x i) := by
      unfold Mix.normalPdf
      rw [mahalanobis_eq, ← scale_bilin]
      have : (Matrix.of (L * Lᵀ)).det = L.det ^ 2 := hD
      rw [this, Real.sqrt_div (sq_nonneg _), Real.sqrt_sq_eq_abs]
      simp only [gaussianPDFReal_std]
      rw [Finset.prod_mul_distrib, ← Real.exp_sum, Finset.prod_const, Finset.card_univ, Fintype.card_fin, div_eq_mul_inv, mul_assoc]
      congr 1
      have e : √((2 * π) ^ m) = √(2 * π) ^ m := by
        rw [Real.sqrt_eq_rpow, Real.sqrt_eq_rpow, ← Real.rpow_natCast, ← Real.rpow_natCast, ← Real.rpow_mul (by positivity), ← Real.rpow_mul (by positivity), mul_comm (m : ℝ)]
      rw [e, inv_pow]
      congr 2
      rw [neg_div, Finset.sum_div, ← Finset.sum_neg_distrib]
      refine Finset.sum_congr rfl fun i _ => ?_
      rw [toLin'_apply, add_sub_cancel_right]
      ring
    by_cases hx : ∀ i, (Lᵀ *ᵥ x) i ∈ s i
    · rw [Set.indicator_of_mem (by simpa using hx), e1]
      congr 1
      refine Finset.prod_congr rfl fun i _ => ?_
      rw [Set.indicator_of_mem]
      exact hx i
    · rw [Set.indicator_of_notMem (by simpa using hx)]
      push Not at hx
      obtain ⟨i, hi⟩ := hx
      have h0 : ∏ i, (s i).indicator (gaussianPDFReal 0 1) (toLin' Lᵀ x i) = 0 := Finset.prod_eq_zero (Finset.mem_univ i) (Set.indicator_of_notMem hi _)
      exact (mul_eq_zero_of_right _ h0).symm
  have hg : Measurable fun y : Fin m → ℝ => ∏ i, (s i).indicator (gaussianPDFReal 0 1) (y i) :=
    Finset.measurable_prod _ fun i _ => ((measurable_gaussianPDFReal 0 1).indicator (hs i)).comp (measurable_pi_apply i)
  rw [h0, ← integral_map (LinearMap.continuous_of_finiteDimensional (toLin' Lᵀ)).aemeasurable hg.aestronglyMeasurable,
    Real.map_matrix_volume_pi_eq_smul_volume_pi (M := Lᵀ) (by rwa [det_transpose]), integral_smul_measure,
    integral_fintype_prod_volume_eq_prod (fun i (y : ℝ) => (s i).indicator (gaussianPDFReal 0 1) y)]
  rw [det_transpose, ENNReal.toReal_ofReal (abs_nonneg _), abs_inv, smul_eq_mul, mul_inv_cancel_left₀ (abs_ne_zero.2 hL), ENNReal.ofReal_prod_of_nonneg]
  · refine Finset.prod_congr rfl fun i _ => ?_
    rw [integral_indicator (hs i), gaussianReal_apply_eq_integral _ one_ne_zero]
  · exact fun i _ => integral_nonneg fun t => Set.indicator_nonneg (fun _ _ => gaussianPDFReal_nonneg _ _ _) _

/-- The law of `b + M z` for standard normal `z`. -/
noncomputable def affineLaw (b : Fin c → ℝ) (M : Matrix (Fin c) (Fin m) ℝ) : Measure (Fin c → ℝ) := (Measure.pi fun _ => gaussianReal 0 1).map fun z => b + M *ᵥ z

theorem affine_measurable (b : Fin c → ℝ) (M : Matrix (Fin c) (Fin m) ℝ) : Measurable fun z : Fin m → ℝ => b + M *ᵥ z :=
  (continuous_const.add (LinearMap.continuous_of_finiteDimensional (toLin' M))).measurable

instance (b : Fin c → ℝ) (M : Matrix (Fin c) (Fin m) ℝ) : IsProbabilityMeasure (affineLaw b M) :=
  Measure.isProbabilityMeasure_map (affine_measurable b M).aemeasurable

theorem charFunDual_real (μ : Measure ℝ) (l : StrongDual ℝ ℝ) : charFunDual μ l = charFun μ (l 1) := by
  rw [charFunDual_apply, charFun_apply_real]
  congr 1
  ext x
  have : l x = l 1 * x := by
    conv_lhs => rw [show x = x • (1 : ℝ) by simp]
    rw [map_smul, smul_eq_mul, mul_comm]
  rw [this, Complex.ofReal_mul]

theorem charFunDual_affine (b : Fin c → ℝ) (M : Matrix (Fin c) (Fin m) ℝ) (l : StrongDual ℝ (Fin c → ℝ)) :
    charFunDual (affineLaw b M) l = Complex.exp (l b * Complex.I) *
      Complex.exp (-((((fun i => l (Pi.single i 1)) ⬝ᵥ ((M * Mᵀ) *ᵥ fun i => l (Pi.single i 1)) : ℝ) : ℂ) / 2)) := by
  have hm : affineLaw b M = ((Measure.pi fun _ => gaussianReal 0 1).map (toLin' M).toContinuousLinearMap).map (fun x => b + x) := by
    unfold affineLaw
    rw [Measure.map_map (by fun_prop) (by fun_prop)]
    rfl
  rw [hm, charFunDual_map_const_add, charFunDual_map, charFunDual_pi, mul_comm]
  congr 1
  have hk : ∀ k, ((l.comp (toLin' M).toContinuousLinearMap).comp (.single ℝ (fun _ : Fin m => ℝ) k)) 1 = ∑ i, l (Pi.single i 1) * M i k := by
    intro k
    have h1 : ((l.comp (toLin' M).toContinuousLinearMap).comp (.single ℝ (fun _ : Fin m => ℝ) k)) 1 = l (M *ᵥ Pi.single k 1) := rfl
    rw [h1, mulVec_single_one]
    conv_lhs => rw [← Finset.univ_sum_single (M.col k)]
    rw [map_sum]
    refine Finset.sum_congr rfl fun i _ => ?_
    rw [show (Pi.single i (M.col k i) : Fin c → ℝ) = M i k • Pi.single i 1 by rw [← Pi.single_smul, smul_eq_mul, mul_one]; rfl, map_smul, smul_eq_mul, mul_comm]
  simp only [charFunDual_real, hk, charFun_gaussianReal]
  rw [← Complex.exp_sum]
  congr 1
  have hq : (fun i => l (Pi.single i 1)) ⬝ᵥ ((M * Mᵀ) *ᵥ fun i => l (Pi.single i 1)) = ∑ k, (∑ i, l (Pi.single i 1) * M i k) ^ 2 := by
    rw [← mulVec_mulVec, dotProduct_mulVec, ← mulVec_transpose]
    unfold dotProduct
    refine Finset.sum_congr rfl fun k _ => ?_
    rw [sq]
    have : ∀ k, (Mᵀ *ᵥ fun i => l (Pi.single i 1)) k = ∑ i, l (Pi.single i 1) * M i k := fun k => by
      unfold mulVec dotProduct
      exact Finset.sum_congr rfl fun i _ => mul_comm _ _
    rw [this]
  rw [hq, Complex.ofReal_sum, Finset.sum_div, ← Finset.sum_neg_distrib]
  refine Finset.sum_congr rfl fun k _ => ?_
  rw [Complex.ofReal_pow]
  simp

/-- The law depends on the mean and the covariance alone. -/
theorem affineLaw_congr {n : ℕ} (b : Fin c → ℝ) {M : Matrix (Fin c) (Fin m) ℝ} {N : Matrix (Fin c) (Fin n) ℝ} (h : M * Mᵀ = N * Nᵀ) :
    affineLaw b M = affineLaw b N := by
  refine Measure.ext_of_charFunDual ?_
  ext l
  rw [charFunDual_affine, charFunDual_affine, h]

theorem normalLaw_factor {S L : Matrix (Fin m) (Fin m) ℝ} (hS : S⁻¹ = L * Lᵀ) (hL : L.det ≠ 0) (mu : Fin m → ℝ) : normalLaw mu S = affineLaw mu (Lᵀ)⁻¹ := by
  have hmeas : Measurable fun x : Fin m → ℝ => Lᵀ *ᵥ (x - mu) :=
    ((LinearMap.continuous_of_finiteDimensional (toLin' Lᵀ)).comp (continuous_id.sub continuous_const)).measurable
  have hu : IsUnit (Lᵀ).det := by rw [det_transpose]; exact hL.isUnit
  unfold affineLaw normalLaw
  rw [hS, ← normalLaw_standard hL mu, Measure.map_map (affine_measurable _ _) hmeas]
  have : ((fun z => mu + (Lᵀ)⁻¹ *ᵥ z) ∘ fun x => Lᵀ *ᵥ (x - mu)) = id := by
    ext x i
    simp [mulVec_mulVec, nonsing_inv_mul _ hu]
  rw [this, Measure.map_id]

open scoped MatrixOrder in
theorem posDef_factor {P : Matrix (Fin m) (Fin m) ℝ} (h : P.PosDef) : ∃ L : Matrix (Fin m) (Fin m) ℝ, P = L * Lᵀ ∧ L.det ≠ 0 := by
  have h0 : (0 : Matrix (Fin m) (Fin m) ℝ) ≤ P := Matrix.nonneg_iff_posSemidef.2 h.posSemidef
  obtain ⟨B, hB⟩ := CStarAlgebra.nonneg_iff_eq_star_mul_self.1 h0
  have e : P = Bᵀ * (Bᵀ)ᵀ := by rw [hB, transpose_transpose, star_eq_conjTranspose, conjTranspose_eq_transpose_of_trivial]
  refine ⟨Bᵀ, e, fun hd => ?_⟩
  have := h.det_pos
  rw [e, det_mul, hd, zero_mul] at this
  exact lt_irrefl _ this

theorem normalLaw_affine {S : Matrix (Fin m) (Fin m) ℝ} (hS : S.PosDef) (mu : Fin m → ℝ) : ∃ A : Matrix (Fin m) (Fin m) ℝ, A * Aᵀ = S ∧ normalLaw mu S = affineLaw mu A := by
  obtain ⟨L, hP, hL⟩ := posDef_factor hS.inv
  refine ⟨(Lᵀ)⁻¹, ?_, normalLaw_factor hP hL mu⟩
  rw [transpose_nonsing_inv, transpose_transpose, ← Matrix.mul_inv_rev, ← hP, nonsing_inv_nonsing_inv _ hS.det_pos.ne'.isUnit]

theorem normalLaw_prob {S : Matrix (Fin m) (Fin m) ℝ} (hS : S.PosDef) (mu : Fin m → ℝ) : IsProbabilityMeasure (normalLaw mu S) := by
  obtain ⟨A, -, h⟩ := normalLaw_affine hS mu
  rw [h]
  infer_instance

/-- **The image of a normal law on some coordinates** is the normal law of the selected means and the selected block of the covariance. -/
theorem normalLaw_select {S : Matrix (Fin m) (Fin m) ℝ} (hS : S.PosDef) (mu : Fin m → ℝ) {l : Fin c → Fin m} (hl : Function.Injective l) :
    (normalLaw mu S).map (fun x i => x (l i)) = normalLaw (fun i => mu (l i)) (S.submatrix l l) := by
  obtain ⟨A, hA, h⟩ := normalLaw_affine hS mu
  obtain ⟨B, hB, h'⟩ := normalLaw_affine (hS.submatrix hl) fun i => mu (l i)
  rw [h, h']
  have e : affineLaw (fun i => mu (l i)) (A.submatrix l id) = (affineLaw mu A).map (fun x i => x (l i)) := by
    unfold affineLaw
    rw [Measure.map_map (by fun_prop) (affine_measurable _ _)]
    rfl
  rw [← e]
  refine affineLaw_congr _ ?_
  rw [hB, ← hA]
  ext i j
  simp [mul_apply]

end Verif.NW
