import Mathlib.Analysis.Matrix.PosDef
import Mathlib.Analysis.SpecialFunctions.Log.Basic
import Mathlib.LinearAlgebra.Matrix.NonsingularInverse
import Mathlib.Analysis.Complex.ExponentialBounds

/-!
# The determinant against the trace

For a positive definite matrix `A` and `c > 0`: `log det A ≤ tr A / c - m + m log c`, with equality only for `A = c • 1`.
-/

set_option linter.unusedSectionVars false

namespace Verif.NW
open Matrix Real
variable {m : ℕ}

theorem log_le_line {x c : ℝ} (hx : 0 < x) (hc : 0 < c) : log x ≤ x / c - 1 + log c := by
  have h := Real.log_le_sub_one_of_pos (div_pos hx hc)
  rw [Real.log_div hx.ne' hc.ne'] at h
  linarith

theorem log_lt_line {x c : ℝ} (hx : 0 < x) (hc : 0 < c) (hne : x ≠ c) : log x < x / c - 1 + log c := by
  have h := Real.log_lt_sub_one_of_pos (div_pos hx hc) (fun h => hne ((div_eq_one_iff_eq hc.ne').1 h))
  rw [Real.log_div hx.ne' hc.ne'] at h
  linarith

theorem posDef_log_det {A : Matrix (Fin m) (Fin m) ℝ} (hA : A.PosDef) : log A.det = ∑ i, log (hA.1.eigenvalues i) := by
  rw [hA.1.det_eq_prod_eigenvalues]
  exact Real.log_prod fun i _ => (hA.eigenvalues_pos i).ne'

theorem posDef_trace {A : Matrix (Fin m) (Fin m) ℝ} (hA : A.PosDef) : A.trace = ∑ i, hA.1.eigenvalues i := hA.1.trace_eq_sum_eigenvalues

theorem sum_line {A : Matrix (Fin m) (Fin m) ℝ} (hA : A.PosDef) (c : ℝ) : ∑ i, (hA.1.eigenvalues i / c - 1 + log c) = A.trace / c - m + m * log c := by
  rw [posDef_trace hA, Finset.sum_add_distrib, Finset.sum_sub_distrib, Finset.sum_div]
  simp

/-- The logarithm of the determinant lies below its tangent at `c • 1`. -/
theorem log_det_le {A : Matrix (Fin m) (Fin m) ℝ} (hA : A.PosDef) {c : ℝ} (hc : 0 < c) : log A.det ≤ A.trace / c - m + m * log c := by
  rw [posDef_log_det hA, ← sum_line hA]
  exact Finset.sum_le_sum fun i _ => log_le_line (hA.eigenvalues_pos i) hc

/-- Equality only at `c • 1`. -/
theorem log_det_lt {A : Matrix (Fin m) (Fin m) ℝ} (hA : A.PosDef) {c : ℝ} (hc : 0 < c) (hne : A ≠ c • 1) : log A.det < A.trace / c - m + m * log c := by
  rw [posDef_log_det hA, ← sum_line hA]
  have h1 : ∃ i, hA.1.eigenvalues i ≠ c := by
    by_contra h
    push Not at h
    apply hne
    have hs := hA.1.spectral_theorem
    have e : (diagonal (RCLike.ofReal ∘ hA.1.eigenvalues) : Matrix (Fin m) (Fin m) ℝ) = c • (1 : Matrix (Fin m) (Fin m) ℝ) := by
      ext i j
      rw [diagonal_apply, Matrix.smul_apply, Matrix.one_apply]
      split_ifs with hij
      · simp [h i]
      · simp
    rw [e, map_smul, map_one] at hs
    exact hs
  obtain ⟨i, hi⟩ := h1
  exact Finset.sum_lt_sum (fun i _ => log_le_line (hA.eigenvalues_pos i) hc) ⟨i, Finset.mem_univ _, log_lt_line (hA.eigenvalues_pos i) hc hi⟩

/-- `Λ` in the coordinates in which `L Lᵀ` is the identity. -/
noncomputable def whiten (L Λ : Matrix (Fin m) (Fin m) ℝ) : Matrix (Fin m) (Fin m) ℝ := L⁻¹ * Λ * (L⁻¹)ᵀ

theorem whiten_posDef {L Λ : Matrix (Fin m) (Fin m) ℝ} (hL : L.det ≠ 0) (hΛ : Λ.PosDef) : (whiten L Λ).PosDef := by
  have hu : IsUnit (L⁻¹)ᵀ.det := by
    rw [det_transpose, det_nonsing_inv]
    simpa using hL
  have h := hΛ.conjTranspose_mul_mul_same (B := (L⁻¹)ᵀ) (by
    rw [Matrix.mulVec_injective_iff_isUnit, Matrix.isUnit_iff_isUnit_det]
    exact hu)
  rw [conjTranspose_eq_transpose_of_trivial, transpose_transpose] at h
  exact h

theorem whiten_det {L Λ : Matrix (Fin m) (Fin m) ℝ} : (whiten L Λ).det = Λ.det / (L * Lᵀ).det := by
  unfold whiten
  rw [det_mul, det_mul, det_transpose, det_mul, det_transpose, det_nonsing_inv, Ring.inverse_eq_inv', div_eq_mul_inv, mul_inv]
  ring

theorem whiten_trace {L Λ : Matrix (Fin m) (Fin m) ℝ} : (whiten L Λ).trace = ((L * Lᵀ)⁻¹ * Λ).trace := by
  unfold whiten
  rw [trace_mul_comm, ← Matrix.mul_assoc, Matrix.mul_inv_rev, transpose_nonsing_inv]

theorem whiten_eq {L Λ : Matrix (Fin m) (Fin m) ℝ} (hL : L.det ≠ 0) {c : ℝ} (h : whiten L Λ = c • 1) : Λ = c • (L * Lᵀ) := by
  have hu : IsUnit L.det := isUnit_iff_ne_zero.2 hL
  have hu' : IsUnit Lᵀ.det := by rw [det_transpose]; exact hu
  have e : L * whiten L Λ * Lᵀ = Λ := by
    unfold whiten
    rw [transpose_nonsing_inv, Matrix.mul_assoc, Matrix.mul_assoc (L⁻¹ * Λ), nonsing_inv_mul _ hu', Matrix.mul_one, ← Matrix.mul_assoc, mul_nonsing_inv _ hu, Matrix.one_mul]
  rw [← e, h, Matrix.mul_smul, Matrix.mul_one, Matrix.smul_mul]

/-- The bound for `Λ` against a positive definite matrix `L Lᵀ`. -/
theorem log_det_against {L Λ : Matrix (Fin m) (Fin m) ℝ} (hL : L.det ≠ 0) (hΛ : Λ.PosDef) {c : ℝ} (hc : 0 < c) :
    log Λ.det ≤ log (L * Lᵀ).det + ((L * Lᵀ)⁻¹ * Λ).trace / c - m + m * log c ∧
    (log Λ.det = log (L * Lᵀ).det + ((L * Lᵀ)⁻¹ * Λ).trace / c - m + m * log c → Λ = c • (L * Lᵀ)) := by
  have hd : (L * Lᵀ).det ≠ 0 := by rw [det_mul, det_transpose]; exact mul_ne_zero hL hL
  have hw := whiten_posDef hL hΛ
  have h1 := log_det_le hw hc
  have hl : log (whiten L Λ).det = log Λ.det - log (L * Lᵀ).det := by rw [whiten_det, Real.log_div hΛ.det_pos.ne' hd]
  refine ⟨by rw [hl, whiten_trace] at h1; linarith, fun he => ?_⟩
  by_contra hne
  have h2 := log_det_lt hw hc (fun h => hne (whiten_eq hL h))
  rw [hl, whiten_trace] at h2
  linarith
end Verif.NW
