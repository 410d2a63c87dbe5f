import Verif.Props.C93
import Verif.Lemmas.Marginal
import Mathlib.Analysis.Matrix.PosDef
import Mathlib.Analysis.Matrix.Order
import Mathlib.MeasureTheory.Measure.Lebesgue.Basic

/-!
# The inverse Wishart density, in every dimension

A symmetric positive definite matrix of size `m + 1` is a block `T` of size `m`, a vector `w` and a positive number `r`: the matrix is
`[[r + w'Tw, (Tw)'], [Tw, T]]`.  In these coordinates the inverse Wishart density is a product of a normal density of `w`, an inverse gamma density of `r` and an inverse
Wishart density of `T`; so its total is one, by induction on the size.
-/

set_option linter.unusedSectionVars false

namespace Verif.IW
open Real MeasureTheory Matrix
open scoped ENNReal
variable {m : ℕ}

/-- The symmetric matrix with first diagonal entry `s`, the rest `v` of its first row and column, and the block `T`. -/
def symBlock (s : ℝ) (v : Fin m → ℝ) (T : Fin m → Fin m → ℝ) : Fin (m + 1) → Fin (m + 1) → ℝ :=
  Fin.cons (Fin.cons s v) (fun i => Fin.cons (v i) (T i))

@[simp] theorem symBlock_00 (s : ℝ) (v : Fin m → ℝ) (T : Fin m → Fin m → ℝ) : symBlock s v T 0 0 = s := rfl
@[simp] theorem symBlock_0s (s : ℝ) (v : Fin m → ℝ) (T : Fin m → Fin m → ℝ) (j : Fin m) : symBlock s v T 0 j.succ = v j := rfl
@[simp] theorem symBlock_s0 (s : ℝ) (v : Fin m → ℝ) (T : Fin m → Fin m → ℝ) (i : Fin m) : symBlock s v T i.succ 0 = v i := rfl
@[simp] theorem symBlock_ss (s : ℝ) (v : Fin m → ℝ) (T : Fin m → Fin m → ℝ) (i j : Fin m) : symBlock s v T i.succ j.succ = T i j := rfl

/-- Every symmetric matrix has this shape. -/
theorem symBlock_of {S : Matrix (Fin (m + 1)) (Fin (m + 1)) ℝ} (hS : S.IsSymm) :
    S = Matrix.of (symBlock (S 0 0) (fun j => S 0 j.succ) (fun i j => S i.succ j.succ)) := by
  ext i j
  refine Fin.cases ?_ (fun i => ?_) i <;> refine Fin.cases ?_ (fun j => ?_) j
  · rfl
  · rfl
  · exact hS.apply 0 i.succ |>.symm ▸ rfl
  · rfl

theorem symBlock_symm {s : ℝ} {v : Fin m → ℝ} {T : Fin m → Fin m → ℝ} (hT : (Matrix.of T).IsSymm) : (Matrix.of (symBlock s v T)).IsSymm := by
  ext i j
  refine Fin.cases ?_ (fun i => ?_) i <;> refine Fin.cases ?_ (fun j => ?_) j
  · rfl
  · rfl
  · rfl
  · exact hT.apply i j

theorem symBlock_block (s : ℝ) (v : Fin m → ℝ) (T : Fin m → Fin m → ℝ) : (Matrix.of (symBlock s v T)).submatrix Fin.succ Fin.succ = Matrix.of T := rfl

/-- The quadratic form in the coordinates `r`, `w`, `T`. -/
theorem symBlock_form {r : ℝ} {w : Fin m → ℝ} {T : Matrix (Fin m) (Fin m) ℝ} (hT : T.IsSymm) (x : Fin (m + 1) → ℝ) :
    x ⬝ᵥ (Matrix.of (symBlock (r + w ⬝ᵥ (T *ᵥ w)) (T *ᵥ w) T) *ᵥ x)
      = r * x 0 ^ 2 + (Fin.tail x + x 0 • w) ⬝ᵥ (T *ᵥ (Fin.tail x + x 0 • w)) := by
  have hs : ∀ a b : Fin m → ℝ, a ⬝ᵥ (T *ᵥ b) = b ⬝ᵥ (T *ᵥ a) := fun a b => by
    rw [dotProduct_mulVec, ← mulVec_transpose, hT.eq, dotProduct_comm]
  have h0 : (Matrix.of (symBlock (r + w ⬝ᵥ (T *ᵥ w)) (T *ᵥ w) T) *ᵥ x) 0 = (r + w ⬝ᵥ (T *ᵥ w)) * x 0 + (T *ᵥ w) ⬝ᵥ Fin.tail x := by
    simp only [mulVec, dotProduct, Fin.sum_univ_succ]; rfl
  have h1 : ∀ i, (Matrix.of (symBlock (r + w ⬝ᵥ (T *ᵥ w)) (T *ᵥ w) T) *ᵥ x) (Fin.succ i) = (T *ᵥ w) i * x 0 + (T *ᵥ Fin.tail x) i := fun i => by
    simp only [mulVec, dotProduct, Fin.sum_univ_succ]; rfl
  have h2 : x ⬝ᵥ (Matrix.of (symBlock (r + w ⬝ᵥ (T *ᵥ w)) (T *ᵥ w) T) *ᵥ x)
      = x 0 * ((r + w ⬝ᵥ (T *ᵥ w)) * x 0 + (T *ᵥ w) ⬝ᵥ Fin.tail x) + (x 0 * (Fin.tail x ⬝ᵥ (T *ᵥ w)) + Fin.tail x ⬝ᵥ (T *ᵥ Fin.tail x)) := by
    conv_lhs => rw [dotProduct, Fin.sum_univ_succ]
    rw [h0]
    congr 1
    simp only [h1, mul_add, Finset.sum_add_distrib]
    congr 1
    simp only [dotProduct, Finset.mul_sum]
    exact Finset.sum_congr rfl fun i _ => by simp only [Fin.tail]; ring
  rw [h2, mulVec_add, mulVec_smul, add_dotProduct, dotProduct_add, dotProduct_add, smul_dotProduct, smul_dotProduct, dotProduct_smul, dotProduct_smul,
    hs w (Fin.tail x), dotProduct_comm (T *ᵥ w)]
  simp only [smul_eq_mul]
  ring

theorem posDef_symm {T : Matrix (Fin m) (Fin m) ℝ} (hT : T.PosDef) : T.IsSymm := by
  have := hT.1
  rwa [IsHermitian, conjTranspose_eq_transpose_of_trivial] at this

/-- Positive definite: the block is, and `r` is positive. -/
theorem symBlock_posDef {r : ℝ} {w : Fin m → ℝ} {T : Matrix (Fin m) (Fin m) ℝ} (hT : T.PosDef) :
    (Matrix.of (symBlock (r + w ⬝ᵥ (T *ᵥ w)) (T *ᵥ w) T)).PosDef ↔ 0 < r := by
  have hs := posDef_symm hT
  constructor
  · intro h
    have h1 := h.dotProduct_mulVec_pos (x := Fin.cons 1 (-w)) (fun e => by simpa using congrFun e 0)
    rw [star_trivial, symBlock_form hs] at h1
    simpa using h1
  · intro hr
    refine PosDef.of_dotProduct_mulVec_pos ?_ fun x hx => ?_
    · rw [IsHermitian, conjTranspose_eq_transpose_of_trivial]
      exact symBlock_symm (T := T) hs
    · rw [star_trivial, symBlock_form hs]
      have hq : 0 ≤ (Fin.tail x + x 0 • w) ⬝ᵥ (T *ᵥ (Fin.tail x + x 0 • w)) := by
        have := hT.posSemidef.dotProduct_mulVec_nonneg (Fin.tail x + x 0 • w)
        rwa [star_trivial] at this
      by_cases h0 : x 0 = 0
      · have ht : Fin.tail x + x 0 • w ≠ 0 := by
          rw [h0, zero_smul, add_zero]
          refine fun e => hx ?_
          funext i
          refine Fin.cases h0 (fun i => congrFun e i) i
        have := hT.dotProduct_mulVec_pos ht
        rw [star_trivial] at this
        have : 0 ≤ r * x 0 ^ 2 := by positivity
        linarith
      · have : 0 < r * x 0 ^ 2 := by positivity
        linarith

theorem symBlock_det {r : ℝ} {w : Fin m → ℝ} {T : Matrix (Fin m) (Fin m) ℝ} (hT : T.IsSymm) :
    (Matrix.of (symBlock (r + w ⬝ᵥ (T *ᵥ w)) (T *ᵥ w) T)).det = r * T.det := by
  set U : Matrix (Fin (m + 1)) (Fin (m + 1)) ℝ := Matrix.of (Fin.cons (Fin.cons 1 w) (fun i => Fin.cons 0 ((1 : Matrix (Fin m) (Fin m) ℝ) i))) with hU
  have hd : U.det = 1 := by
    rw [det_succ_column_zero, Fin.sum_univ_succ]
    have : U.submatrix (Fin.succAbove 0) Fin.succ = 1 := by ext i j; rfl
    rw [this, Finset.sum_eq_zero (fun i _ => by simp [hU])]
    simp [hU]
  have hD : (Matrix.of (symBlock r 0 T)).det = r * T.det := by
    rw [det_succ_column_zero, Fin.sum_univ_succ]
    have : (Matrix.of (symBlock r 0 T)).submatrix (Fin.succAbove 0) Fin.succ = T := by ext i j; rfl
    have h0 : ∀ i : Fin m, (Matrix.of (symBlock r 0 T)) i.succ 0 = 0 := fun i => rfl
    have h1 : (Matrix.of (symBlock r 0 T)) 0 0 = r := rfl
    rw [this, Finset.sum_eq_zero (fun i _ => by rw [h0]; simp), h1]
    simp
  have e : Matrix.of (symBlock (r + w ⬝ᵥ (T *ᵥ w)) (T *ᵥ w) T) = U * Matrix.of (symBlock r 0 T) * Uᵀ := by
    have hUD : ∀ i j, (U * Matrix.of (symBlock r 0 T)) i j = (Matrix.of (Fin.cons (Fin.cons r (T *ᵥ w)) (fun i => Fin.cons 0 (T i))) : Matrix (Fin (m + 1)) (Fin (m + 1)) ℝ) i j := by
      intro i j
      rw [mul_apply, Fin.sum_univ_succ]
      refine Fin.cases ?_ (fun i => ?_) i <;> refine Fin.cases ?_ (fun j => ?_) j
      · show 1 * r + ∑ k : Fin m, w k * (0 : ℝ) = r
        simp
      · show 1 * (0 : ℝ) + ∑ k : Fin m, w k * T k j = ∑ k, T j k * w k
        simp only [mul_zero, zero_add]
        exact Finset.sum_congr rfl fun k _ => by rw [← hT.apply k j, mul_comm]
      · show 0 * r + ∑ k : Fin m, (1 : Matrix (Fin m) (Fin m) ℝ) i k * (0 : ℝ) = 0
        simp
      · show 0 * (0 : ℝ) + ∑ k : Fin m, (1 : Matrix (Fin m) (Fin m) ℝ) i k * T k j = T i j
        rw [zero_mul, zero_add, ← mul_apply, one_mul]
    ext i j
    rw [mul_apply, Fin.sum_univ_succ]
    simp only [hUD, transpose_apply]
    refine Fin.cases ?_ (fun i => ?_) i <;> refine Fin.cases ?_ (fun j => ?_) j
    · show r + w ⬝ᵥ (T *ᵥ w) = r * 1 + ∑ k : Fin m, (T *ᵥ w) k * w k
      rw [mul_one, dotProduct_comm]; rfl
    · show (T *ᵥ w) j = r * 0 + ∑ k : Fin m, (T *ᵥ w) k * (1 : Matrix (Fin m) (Fin m) ℝ) j k
      simp [one_apply]
    · show (T *ᵥ w) i = 0 * 1 + ∑ k : Fin m, T i k * w k
      rw [zero_mul, zero_add]; rfl
    · show T i j = 0 * 0 + ∑ k : Fin m, T i k * (1 : Matrix (Fin m) (Fin m) ℝ) j k
      simp [one_apply]
  rw [e, det_mul, det_mul, det_transpose, hd, hD]
  ring

/-- The inverse, and the trace with another matrix in the same coordinates. -/
theorem symBlock_inv {r : ℝ} (hr : r ≠ 0) {w : Fin m → ℝ} {T : Matrix (Fin m) (Fin m) ℝ} (hT : T.IsSymm) (hd : T.det ≠ 0) :
    (Matrix.of (symBlock (r + w ⬝ᵥ (T *ᵥ w)) (T *ᵥ w) T))⁻¹ = Matrix.of (symBlock (1 / r) (fun i => -(w i / r)) (fun i j => T⁻¹ i j + w i * w j / r)) := by
  refine inv_eq_right_inv ?_
  have hi : T * T⁻¹ = 1 := mul_nonsing_inv _ hd.isUnit
  have hv : ∀ j, ∑ k, (T *ᵥ w) k * T⁻¹ k j = w j := fun j => by
    have : (T *ᵥ w) ᵥ* T⁻¹ = w := by
      rw [← vecMul_transpose, hT.eq, vecMul_vecMul, hi, vecMul_one]
    exact congrFun this j
  have hn : ∀ i j, ∑ k, T i k * T⁻¹ k j = (1 : Matrix (Fin m) (Fin m) ℝ) i j := fun i j => by rw [← hi, mul_apply]
  have hq : w ⬝ᵥ (T *ᵥ w) = ∑ k, (T *ᵥ w) k * w k := dotProduct_comm _ _
  ext i j
  rw [mul_apply, Fin.sum_univ_succ]
  refine Fin.cases ?_ (fun i => ?_) i <;> refine Fin.cases ?_ (fun j => ?_) j
  · show (r + w ⬝ᵥ (T *ᵥ w)) * (1 / r) + ∑ k : Fin m, (T *ᵥ w) k * -(w k / r) = 1
    rw [hq, add_mul, mul_one_div_cancel hr, Finset.sum_mul, add_assoc, ← Finset.sum_add_distrib, Finset.sum_eq_zero (fun k _ => by ring), add_zero]
  · show (r + w ⬝ᵥ (T *ᵥ w)) * -(w j / r) + ∑ k : Fin m, (T *ᵥ w) k * (T⁻¹ k j + w k * w j / r) = 0
    have : ∀ k, (T *ᵥ w) k * (T⁻¹ k j + w k * w j / r) = (T *ᵥ w) k * T⁻¹ k j + (T *ᵥ w) k * w k * (w j / r) := fun k => by ring
    simp only [this]
    rw [Finset.sum_add_distrib, hv, ← Finset.sum_mul, ← hq]
    field_simp
    ring
  · show (T *ᵥ w) i * (1 / r) + ∑ k : Fin m, T i k * -(w k / r) = (1 : Matrix (Fin (m + 1)) (Fin (m + 1)) ℝ) i.succ 0
    rw [one_apply_ne (Fin.succ_ne_zero i)]
    have : ∀ k, T i k * -(w k / r) = -(1 / r) * (T i k * w k) := fun k => by ring
    simp only [this]
    rw [← Finset.mul_sum]
    show (∑ k, T i k * w k) * (1 / r) + _ = 0
    ring
  · show (T *ᵥ w) i * -(w j / r) + ∑ k : Fin m, T i k * (T⁻¹ k j + w k * w j / r) = (1 : Matrix (Fin (m + 1)) (Fin (m + 1)) ℝ) i.succ j.succ
    have : ∀ k, T i k * (T⁻¹ k j + w k * w j / r) = T i k * T⁻¹ k j + T i k * w k * (w j / r) := fun k => by ring
    simp only [this]
    rw [Finset.sum_add_distrib, hn, ← Finset.sum_mul]
    show (∑ k, T i k * w k) * _ + _ = _
    have h1 : (1 : Matrix (Fin (m + 1)) (Fin (m + 1)) ℝ) i.succ j.succ = (1 : Matrix (Fin m) (Fin m) ℝ) i j := by simp [one_apply]
    rw [h1]
    ring

theorem symBlock_trace {r rho : ℝ} (hr : r ≠ 0) {w b : Fin m → ℝ} {T F : Matrix (Fin m) (Fin m) ℝ} (hT : T.IsSymm) (hF : F.IsSymm) (hd : T.det ≠ 0) :
    (Matrix.of (symBlock (rho + b ⬝ᵥ (F *ᵥ b)) (F *ᵥ b) F) * (Matrix.of (symBlock (r + w ⬝ᵥ (T *ᵥ w)) (T *ᵥ w) T))⁻¹).trace
      = rho / r + (w - b) ⬝ᵥ (F *ᵥ (w - b)) / r + (F * T⁻¹).trace := by
  rw [symBlock_inv hr hT hd]
  have hs : ∀ a b : Fin m → ℝ, a ⬝ᵥ (F *ᵥ b) = b ⬝ᵥ (F *ᵥ a) := fun a b => by
    rw [dotProduct_mulVec, ← mulVec_transpose, hF.eq, dotProduct_comm]
  have e : (Matrix.of (symBlock (rho + b ⬝ᵥ (F *ᵥ b)) (F *ᵥ b) F) * Matrix.of (symBlock (1 / r) (fun i => -(w i / r)) (fun i j => T⁻¹ i j + w i * w j / r))).trace
      = ((rho + b ⬝ᵥ (F *ᵥ b)) * (1 / r) + ∑ k, (F *ᵥ b) k * -(w k / r)) + ∑ i, ((F *ᵥ b) i * -(w i / r) + ∑ k, F i k * (T⁻¹ k i + w k * w i / r)) := by
    rw [trace, Fin.sum_univ_succ]
    simp only [diag_apply, mul_apply, Fin.sum_univ_succ]
    rfl
  have h1 : ∑ k, (F *ᵥ b) k * -(w k / r) = -(w ⬝ᵥ (F *ᵥ b)) / r := by
    rw [dotProduct, ← Finset.sum_neg_distrib, Finset.sum_div]
    exact Finset.sum_congr rfl fun k _ => by ring
  have h2 : ∑ i, ∑ k, F i k * (T⁻¹ k i + w k * w i / r) = (F * T⁻¹).trace + w ⬝ᵥ (F *ᵥ w) / r := by
    simp only [mul_add, Finset.sum_add_distrib]
    congr 1
    rw [dotProduct, Finset.sum_div]
    refine Finset.sum_congr rfl fun i _ => ?_
    rw [mulVec, dotProduct, Finset.mul_sum, Finset.sum_div]
    exact Finset.sum_congr rfl fun k _ => by ring
  rw [e, Finset.sum_add_distrib, h1, h2, sub_dotProduct, mulVec_sub, dotProduct_sub, dotProduct_sub, hs b w]
  ring

/-! ### The densities -/

open Mix

theorem quad_dot (P : Matrix (Fin m) (Fin m) ℝ) (x mu : Fin m → ℝ) : quad P x mu = (x - mu) ⬝ᵥ (P *ᵥ (x - mu)) := by
  unfold quad
  rw [dotProduct]
  refine Finset.sum_congr rfl fun i _ => ?_
  rw [mulVec, dotProduct, Finset.mul_sum]
  exact Finset.sum_congr rfl fun j _ => by simp only [Pi.sub_apply]; ring

theorem exp_logNormal (x mu : Fin m → ℝ) {S : Matrix (Fin m) (Fin m) ℝ} (hS : S.PosDef) : exp (logNormal x mu S) = normalPdf x mu (S⁻¹ : Matrix (Fin m) (Fin m) ℝ) := by
  have hd := hS.det_pos
  have hi : (Matrix.of (S⁻¹ : Matrix (Fin m) (Fin m) ℝ)).det = S.det⁻¹ := by
    show (S⁻¹).det = _
    rw [det_nonsing_inv, Ring.inverse_eq_inv']
  have hq : mahalanobis x mu (S⁻¹ : Matrix (Fin m) (Fin m) ℝ) = quad S⁻¹ x mu := by
    unfold mahalanobis quad
    exact Finset.sum_congr rfl fun i _ => Finset.sum_congr rfl fun j _ => by ring
  unfold normalPdf
  rw [hi, hq]
  have h0 : 0 < S.det⁻¹ / (2 * π) ^ m := by positivity
  rw [← Real.exp_log (show 0 < √(S.det⁻¹ / (2 * π) ^ m) from Real.sqrt_pos.2 h0), Real.log_sqrt h0.le, Real.log_div (by positivity) (by positivity), Real.log_inv, Real.log_pow,
    ← Real.exp_add]
  congr 1
  unfold logNormal
  ring

theorem measurable_exp_logNormal (mu : Fin m → ℝ) (S : Matrix (Fin m) (Fin m) ℝ) : Measurable fun x : Fin m → ℝ => ENNReal.ofReal (exp (logNormal x mu S)) := by
  unfold logNormal quad
  fun_prop

/-- The normal density has total one. -/
theorem lintegral_logNormal (mu : Fin m → ℝ) {S : Matrix (Fin m) (Fin m) ℝ} (hS : S.PosDef) : ∫⁻ x, ENNReal.ofReal (exp (logNormal x mu S)) = 1 := by
  have h := (NW.normalLaw_prob hS mu).measure_univ
  unfold NW.normalLaw at h
  rw [withDensity_apply _ MeasurableSet.univ, Measure.restrict_univ] at h
  rw [← h]
  exact lintegral_congr fun x => by rw [exp_logNormal x mu hS]

/-- The logarithm of the inverse gamma density with shape `nu / 2` and scale `psi / 2`. -/
noncomputable def igLog (nu psi v : ℝ) : ℝ := nu / 2 * log (psi / 2) - log (Gamma (nu / 2)) - (nu / 2 + 1) * log v - psi / 2 / v

theorem lintegral_igLog {nu psi : ℝ} (hn : 0 < nu) (hp : 0 < psi) : ∫⁻ v in Set.Ioi (0 : ℝ), ENNReal.ofReal (exp (igLog nu psi v)) = 1 := by
  rw [← invGamma_lintegral (a := nu / 2) (r := psi / 2) (by linarith) (by linarith)]
  refine setLIntegral_congr_fun measurableSet_Ioi fun v hv => ?_
  have hv : 0 < v := hv
  have hG : 0 < Gamma (nu / 2) := Real.Gamma_pos_of_pos (by linarith)
  congr 1
  unfold igLog
  rw [Real.rpow_def_of_pos (by positivity : (0 : ℝ) < psi / 2), Real.rpow_def_of_pos (Real.rpow_pos_of_pos hv _), Real.rpow_def_of_pos hv (-1 - 1),
    Real.log_rpow hv, Real.rpow_neg_one, ← Real.exp_add, ← Real.exp_add]
  conv_rhs => rw [show Gamma (nu / 2) = exp (log (Gamma (nu / 2))) from (Real.exp_log hG).symm]
  rw [← Real.exp_sub, ← Real.exp_add]
  congr 1
  ring

theorem multigammaln_succ (a : ℝ) (m : ℕ) : multigammaln a (m + 1) = m / 2 * log π + log (Gamma a) + multigammaln (a - 1 / 2) m := by
  unfold multigammaln
  rw [Fin.sum_univ_succ]
  have : ∀ i : Fin m, a - ((i.succ : Fin (m + 1)) : ℕ) / 2 = a - 1 / 2 - (i : ℕ) / 2 := fun i => by
    rw [Fin.val_succ]; push_cast; ring
  simp only [this, Fin.val_zero, Nat.cast_zero, zero_div, sub_zero]
  push_cast
  ring

/-- **The inverse Wishart density in the coordinates `T`, `w`, `r`.** -/
theorem logInvWishart_split {r rho : ℝ} (hr : 0 < r) (hrho : 0 < rho) {w b : Fin m → ℝ} {T F : Matrix (Fin m) (Fin m) ℝ} (hT : T.PosDef) (hF : F.PosDef) (nu : ℝ) :
    logInvWishart (Matrix.of (symBlock (r + w ⬝ᵥ (T *ᵥ w)) (T *ᵥ w) T)) nu (Matrix.of (symBlock (rho + b ⬝ᵥ (F *ᵥ b)) (F *ᵥ b) F)) + log T.det
      = logNormal w b (r • F⁻¹) + igLog nu rho r + logInvWishart T (nu - 1) F := by
  have hdT := hT.det_pos
  have hdF := hF.det_pos
  have hsT := posDef_symm hT
  have hsF := posDef_symm hF
  have hdet : (r • F⁻¹).det = r ^ m * F.det⁻¹ := by rw [det_smul, Fintype.card_fin, det_nonsing_inv, Ring.inverse_eq_inv']
  have hinv : (r • F⁻¹)⁻¹ = r⁻¹ • F := by
    refine inv_eq_right_inv ?_
    rw [Matrix.smul_mul, Matrix.mul_smul, nonsing_inv_mul _ hdF.ne'.isUnit, smul_smul, mul_inv_cancel₀ hr.ne', one_smul]
  unfold logInvWishart logNormal igLog
  rw [symBlock_det hsT, symBlock_det hsF, symBlock_trace hr.ne' hsT hsF hdT.ne', multigammaln_succ, hdet, hinv, quad_dot, smul_mulVec, dotProduct_smul, smul_eq_mul,
    Real.log_mul hr.ne' hdT.ne', Real.log_mul hrho.ne' hdF.ne', Real.log_mul (show r ^ m ≠ 0 by positivity) (show F.det⁻¹ ≠ 0 by positivity), Real.log_inv,
    Real.log_pow, Real.log_mul (by norm_num) Real.pi_ne_zero, Real.log_div hrho.ne' (by norm_num), show nu / 2 - 1 / 2 = (nu - 1) / 2 by ring]
  push_cast
  field_simp
  ring

/-! ### Lebesgue measure on symmetric matrices -/

theorem measurable_symBlock : Measurable fun q : ℝ × (Fin m → ℝ) × (Fin m → Fin m → ℝ) => symBlock q.1 q.2.1 q.2.2 := by
  refine measurable_pi_lambda _ fun i => measurable_pi_lambda _ fun j => ?_
  refine Fin.cases ?_ (fun i => ?_) i <;> refine Fin.cases ?_ (fun j => ?_) j
  · exact measurable_fst
  · exact (measurable_pi_apply j).comp (measurable_fst.comp measurable_snd)
  · exact (measurable_pi_apply i).comp (measurable_fst.comp measurable_snd)
  · exact (measurable_pi_apply j).comp ((measurable_pi_apply i).comp (measurable_snd.comp measurable_snd))

/-- Lebesgue measure of the entries on and above the diagonal of a symmetric matrix. -/
noncomputable def symVol : (m : ℕ) → Measure (Fin m → Fin m → ℝ)
  | 0 => Measure.dirac (fun i => i.elim0)
  | m + 1 => ((volume : Measure ℝ).prod ((volume : Measure (Fin m → ℝ)).prod (symVol m))).map fun q => symBlock q.1 q.2.1 q.2.2

instance symVol_sfinite : (m : ℕ) → SFinite (symVol m)
  | 0 => by unfold symVol; infer_instance
  | m + 1 => by
    have := symVol_sfinite m
    unfold symVol
    infer_instance

theorem measurableSet_posDef : MeasurableSet {S : Fin m → Fin m → ℝ | (Matrix.of S).PosDef} := by
  have e : {S : Fin m → Fin m → ℝ | (Matrix.of S).PosDef} = ({S | (Matrix.of S).IsSymm} ∩ ⋂ x : Fin m → ℝ, {S | 0 ≤ x ⬝ᵥ (Matrix.of S *ᵥ x)}) ∩ {S | (Matrix.of S).det ≠ 0} := by
    ext S
    simp only [Set.mem_inter_iff, Set.mem_iInter, Set.mem_ofPred_eq]
    constructor
    · intro h
      exact ⟨⟨posDef_symm h, fun x => by simpa using h.posSemidef.dotProduct_mulVec_nonneg x⟩, h.det_pos.ne'⟩
    · rintro ⟨⟨h1, h2⟩, h3⟩
      have : (Matrix.of S).PosSemidef := PosSemidef.of_dotProduct_mulVec_nonneg (by rwa [IsHermitian, conjTranspose_eq_transpose_of_trivial]) (fun x => by simpa using h2 x)
      exact this.posDef_iff_det_ne_zero.2 h3
  rw [e]
  refine (IsClosed.measurableSet (IsClosed.inter ?_ (isClosed_iInter fun x => ?_))).inter ?_
  · have : {S : Fin m → Fin m → ℝ | (Matrix.of S).IsSymm} = {S | (fun i j => S j i) = S} := by
      ext S
      exact ⟨fun h => funext fun i => funext fun j => congrFun (congrFun h i) j, fun h => by ext i j; exact congrFun (congrFun h i) j⟩
    rw [this]
    exact isClosed_eq (by fun_prop) continuous_id
  · refine isClosed_le continuous_const ?_
    simp only [dotProduct, mulVec, Matrix.of_apply]
    fun_prop
  · exact (measurableSet_eq_fun measurable_det measurable_const).compl

/-- Lebesgue measure on the covariance matrices: symmetric and positive definite. -/
noncomputable def covVol (m : ℕ) : Measure (Fin m → Fin m → ℝ) := (symVol m).restrict {S | (Matrix.of S).PosDef}

instance (m : ℕ) : SFinite (covVol m) := by unfold covVol; infer_instance

theorem lintegral_linear {T : Matrix (Fin m) (Fin m) ℝ} (hd : 0 < T.det) {h : (Fin m → ℝ) → ℝ≥0∞} (hh : Measurable h) :
    ∫⁻ v, h v = ENNReal.ofReal T.det * ∫⁻ w, h (T *ᵥ w) := by
  have hm : Measurable (Matrix.toLin' T) := (LinearMap.continuous_of_finiteDimensional (Matrix.toLin' T)).measurable
  have h1 : ∫⁻ w, h (T *ᵥ w) = ∫⁻ v, h v ∂(Measure.map (Matrix.toLin' T) volume) := (lintegral_map hh hm).symm
  rw [h1, Real.map_matrix_volume_pi_eq_smul_volume_pi hd.ne', lintegral_smul_measure, smul_eq_mul, ← mul_assoc, ← ENNReal.ofReal_mul hd.le, abs_of_pos (inv_pos.2 hd),
    mul_inv_cancel₀ hd.ne', ENNReal.ofReal_one, one_mul]

/-- **The change of variables.** -/
theorem lintegral_covVol_succ {f : (Fin (m + 1) → Fin (m + 1) → ℝ) → ℝ≥0∞} (hf : Measurable f) :
    ∫⁻ S, f S ∂covVol (m + 1)
      = ∫⁻ T, (ENNReal.ofReal (Matrix.of T).det * ∫⁻ w : Fin m → ℝ, (∫⁻ r in Set.Ioi (0 : ℝ), f (symBlock (r + w ⬝ᵥ (Matrix.of T *ᵥ w)) (Matrix.of T *ᵥ w) T))) ∂covVol m := by
  have hg : Measurable ({S : Fin (m + 1) → Fin (m + 1) → ℝ | (Matrix.of S).PosDef}.indicator f) := hf.indicator measurableSet_posDef
  have hg2 := hg.comp (measurable_symBlock (m := m))
  unfold covVol
  rw [← lintegral_indicator measurableSet_posDef, ← lintegral_indicator measurableSet_posDef]
  conv_lhs => rw [symVol]
  rw [lintegral_map hg measurable_symBlock]
  refine (lintegral_prod_symm _ hg2.aemeasurable).trans ?_
  have hi : Measurable fun y : (Fin m → ℝ) × (Fin m → Fin m → ℝ) => ∫⁻ s : ℝ, {S : Fin (m + 1) → Fin (m + 1) → ℝ | (Matrix.of S).PosDef}.indicator f (symBlock s y.1 y.2) :=
    hg2.lintegral_prod_left'
  refine (lintegral_prod_symm _ hi.aemeasurable).trans ?_
  refine lintegral_congr fun T => ?_
  by_cases hT : (Matrix.of T).PosDef
  · rw [Set.indicator_of_mem (by exact hT)]
    have hv : Measurable fun v : Fin m → ℝ => ∫⁻ s : ℝ, {S : Fin (m + 1) → Fin (m + 1) → ℝ | (Matrix.of S).PosDef}.indicator f (symBlock s v T) :=
      hi.comp (measurable_id.prodMk measurable_const)
    refine (lintegral_linear hT.det_pos hv).trans ?_
    congr 1
    refine lintegral_congr fun w => ?_
    rw [← lintegral_indicator measurableSet_Ioi, ← lintegral_add_right_eq_self _ (w ⬝ᵥ (Matrix.of T *ᵥ w))]
    refine lintegral_congr fun r => ?_
    by_cases hr : 0 < r
    · rw [Set.indicator_of_mem (by exact (symBlock_posDef hT).2 hr), Set.indicator_of_mem (by exact hr)]
    · rw [Set.indicator_of_notMem (by exact fun h => hr ((symBlock_posDef hT).1 h)), Set.indicator_of_notMem (by exact hr)]
  · rw [Set.indicator_of_notMem (by exact hT)]
    refine (lintegral_congr fun v => ?_).trans lintegral_zero
    refine (lintegral_congr fun s => ?_).trans lintegral_zero
    refine Set.indicator_of_notMem (fun h => hT ?_) _
    have h : (Matrix.of (symBlock s v T)).PosDef := h
    exact symBlock_block s v T ▸ h.submatrix (Fin.succ_injective m)

theorem measurable_logInvWishart (nu : ℝ) (psi : Matrix (Fin m) (Fin m) ℝ) : Measurable fun S : Fin m → Fin m → ℝ => ENNReal.ofReal (exp (logInvWishart (Matrix.of S) nu psi)) := by
  refine (Real.measurable_exp.comp ?_).ennreal_ofReal
  unfold logInvWishart
  refine ((measurable_const.sub (measurable_const.mul (Real.measurable_log.comp measurable_det)))).sub (Measurable.div_const ?_ 2)
  simp only [Matrix.trace, Matrix.diag, Matrix.mul_apply]
  exact Finset.measurable_fun_sum _ fun i _ => Finset.measurable_fun_sum _ fun j _ => measurable_const.mul (measurable_inv_entry j i)

/-- A positive definite matrix in the coordinates. -/
theorem posDef_coords {S : Matrix (Fin (m + 1)) (Fin (m + 1)) ℝ} (hS : S.PosDef) :
    ∃ (rho : ℝ) (b : Fin m → ℝ) (F : Matrix (Fin m) (Fin m) ℝ), 0 < rho ∧ F.PosDef ∧ S = Matrix.of (symBlock (rho + b ⬝ᵥ (F *ᵥ b)) (F *ᵥ b) F) := by
  set F : Matrix (Fin m) (Fin m) ℝ := S.submatrix Fin.succ Fin.succ
  have hF : F.PosDef := hS.submatrix (Fin.succ_injective m)
  set b := F⁻¹ *ᵥ (fun j => S 0 j.succ)
  have hb : F *ᵥ b = fun j => S 0 j.succ := by
    show F *ᵥ (F⁻¹ *ᵥ _) = _
    rw [mulVec_mulVec, mul_nonsing_inv _ hF.det_pos.ne'.isUnit, one_mulVec]
  have e : S = Matrix.of (symBlock (S 0 0 - b ⬝ᵥ (F *ᵥ b) + b ⬝ᵥ (F *ᵥ b)) (F *ᵥ b) F) := by
    rw [hb, sub_add_cancel]
    exact symBlock_of (posDef_symm hS)
  exact ⟨_, b, F, (symBlock_posDef hF).1 (e ▸ hS), hF, e⟩

/-- The integrand of the coordinates `w` and `r`. -/
noncomputable def wrDens (nu rho : ℝ) (b : Fin m → ℝ) (F : Matrix (Fin m) (Fin m) ℝ) (w : Fin m → ℝ) (r : ℝ) : ℝ≥0∞ :=
  ENNReal.ofReal (exp (igLog nu rho r)) * ENNReal.ofReal (exp (logNormal w b (r • F⁻¹)))

theorem logNormal_swap (x mu : Fin m → ℝ) (S : Matrix (Fin m) (Fin m) ℝ) : logNormal x mu S = logNormal mu x S := by
  unfold logNormal quad
  congr 3
  exact Finset.sum_congr rfl fun i _ => Finset.sum_congr rfl fun j _ => by ring

theorem measurable_wrDens (nu rho : ℝ) (b : Fin m → ℝ) (F : Matrix (Fin m) (Fin m) ℝ) : Measurable (Function.uncurry (wrDens nu rho b F)) := by
  have h1 : Measurable fun r : ℝ => igLog nu rho r := by unfold igLog; fun_prop
  have h2 : Measurable fun q : (Fin m → ℝ) × ℝ => ((q.1, fun i j => q.2 * F⁻¹ i j) : MeanCov m) :=
    measurable_fst.prodMk (measurable_pi_lambda _ fun i => measurable_pi_lambda _ fun j => measurable_snd.mul_const _)
  have h3 : Measurable fun q : (Fin m → ℝ) × ℝ => logNormal q.1 b (q.2 • F⁻¹) := by
    have e : (fun q : (Fin m → ℝ) × ℝ => logNormal q.1 b (q.2 • F⁻¹)) = (fun t : MeanCov m => logNormal b t.1 (Matrix.of t.2)) ∘ fun q => (q.1, fun i j => q.2 * F⁻¹ i j) := by
      funext q
      exact logNormal_swap _ _ _
    rw [e]
    exact (measurable_logNormal b).comp h2
  exact ((Real.measurable_exp.comp (h1.comp measurable_snd)).ennreal_ofReal).mul (Real.measurable_exp.comp h3).ennreal_ofReal

theorem lintegral_wrDens {nu rho : ℝ} (hn : 0 < nu) (hrho : 0 < rho) (b : Fin m → ℝ) {F : Matrix (Fin m) (Fin m) ℝ} (hF : F.PosDef) :
    ∫⁻ w : Fin m → ℝ, (∫⁻ r in Set.Ioi (0 : ℝ), wrDens nu rho b F w r) = 1 := by
  rw [lintegral_lintegral_swap (measurable_wrDens nu rho b F).aemeasurable, ← lintegral_igLog hn hrho]
  refine setLIntegral_congr_fun measurableSet_Ioi fun r hr => ?_
  have hr : 0 < r := hr
  unfold wrDens
  beta_reduce
  rw [lintegral_const_mul' _ _ ENNReal.ofReal_ne_top, lintegral_logNormal b (hF.inv.smul hr), mul_one]

/-- **The inverse Wishart density has total one**, in every dimension. -/
theorem lintegral_invWishart {nu : ℝ} (hn : (m : ℝ) - 1 < nu) {psi : Matrix (Fin m) (Fin m) ℝ} (hp : psi.PosDef) :
    ∫⁻ S, ENNReal.ofReal (exp (logInvWishart (Matrix.of S) nu psi)) ∂covVol m = 1 := by
  induction m generalizing nu with
  | zero =>
    have h1 : ∀ S : Fin 0 → Fin 0 → ℝ, ENNReal.ofReal (exp (logInvWishart (Matrix.of S) nu psi)) = 1 := fun S => by
      unfold logInvWishart multigammaln
      simp
    simp only [h1]
    unfold covVol symVol
    have : {S : Fin 0 → Fin 0 → ℝ | (Matrix.of S).PosDef} = Set.univ := by
      refine Set.eq_univ_of_forall fun S => ?_
      show (Matrix.of S).PosDef
      rw [Subsingleton.elim (Matrix.of S) 1]
      exact PosDef.one
    rw [this]
    simp
  | succ m ih =>
    obtain ⟨rho, b, F, hrho, hF, rfl⟩ := posDef_coords hp
    push_cast at hn
    have hn0 : 0 < nu := by
      have : (0 : ℝ) ≤ m := Nat.cast_nonneg m
      linarith
    rw [lintegral_covVol_succ (measurable_logInvWishart _ _), ← ih (nu := nu - 1) (by linarith) hF]
    unfold covVol
    refine setLIntegral_congr_fun measurableSet_posDef fun T hT => ?_
    have hT : (Matrix.of T).PosDef := hT
    have hk : ∀ (w : Fin m → ℝ) (r : ℝ), 0 < r → ENNReal.ofReal (Matrix.of T).det
        * ENNReal.ofReal (exp (logInvWishart (Matrix.of (symBlock (r + w ⬝ᵥ (Matrix.of T *ᵥ w)) (Matrix.of T *ᵥ w) T)) nu (Matrix.of (symBlock (rho + b ⬝ᵥ (F *ᵥ b)) (F *ᵥ b) F))))
        = ENNReal.ofReal (exp (logInvWishart (Matrix.of T) (nu - 1) F)) * wrDens nu rho b F w r := fun w r hr => by
      unfold wrDens
      rw [← ENNReal.ofReal_mul hT.det_pos.le, ← ENNReal.ofReal_mul (Real.exp_nonneg _), ← ENNReal.ofReal_mul (Real.exp_nonneg _), ← Real.exp_add, ← Real.exp_add]
      congr 1
      have hs := logInvWishart_split hr hrho (w := w) (b := b) hT hF nu
      conv_lhs => rw [← Real.exp_log hT.det_pos]
      rw [← Real.exp_add]
      congr 1
      have : logInvWishart (Matrix.of (symBlock (r + w ⬝ᵥ (Matrix.of T *ᵥ w)) (Matrix.of T *ᵥ w) T)) nu (Matrix.of (symBlock (rho + b ⬝ᵥ (F *ᵥ b)) (F *ᵥ b) F))
        + log (Matrix.of T).det = _ := hs
      linarith
    beta_reduce
    rw [← lintegral_const_mul' _ _ ENNReal.ofReal_ne_top]
    rw [← mul_one (ENNReal.ofReal (exp (logInvWishart (Matrix.of T) (nu - 1) F))), ← lintegral_wrDens hn0 hrho b hF, ← lintegral_const_mul' _ _ ENNReal.ofReal_ne_top]
    refine lintegral_congr fun w => ?_
    rw [← lintegral_const_mul' _ _ ENNReal.ofReal_ne_top, ← lintegral_const_mul' _ _ ENNReal.ofReal_ne_top]
    exact setLIntegral_congr_fun measurableSet_Ioi fun r hr => hk w r hr

end Verif.IW
