import Verif.Lemmas.Race
import Mathlib.MeasureTheory.Measure.Lebesgue.Basic
import Mathlib.MeasureTheory.Constructions.Polish.Basic
import Mathlib.Topology.Algebra.InfiniteSum.ENNReal

/-!
# The slice step leaves the conditional law of a label invariant
-/

namespace Verif
open MeasureTheory
open scoped ENNReal

/-- A sum over vectors of a product is the product of the sums. -/
theorem tsum_pi_prod : ∀ {n : ℕ} (F : Fin n → ℕ → ℝ≥0∞), ∑' d : Fin n → ℕ, ∏ i, F i (d i) = ∏ i, ∑' j, F i j
  | 0, F => by rw [tsum_eq_single (fun i => i.elim0) (fun b h => absurd (funext fun i => i.elim0) h)]; simp
  | n + 1, F => by
    rw [← (Fin.consEquiv (fun _ : Fin (n + 1) => ℕ)).tsum_eq, ENNReal.tsum_prod']
    simp only [Fin.consEquiv_apply, Fin.prod_univ_succ, Fin.cons_zero, Fin.cons_succ]
    simp_rw [ENNReal.tsum_mul_left, tsum_pi_prod (fun i => F i.succ)]
    rw [ENNReal.tsum_mul_right]

/-- Scaling a uniform variable. -/
theorem lintegral_unif_scale {w : ℝ} (hw : 0 ≤ w) (h : ℝ → ℝ≥0∞) (hm : Measurable h) :
    ENNReal.ofReal w * ∫⁻ x, h (w * x) ∂unifLaw = ∫⁻ t, (if 0 ≤ t ∧ t < w then h t else 0) := by
  rcases hw.eq_or_lt with rfl | hw
  · have : ∀ t : ℝ, ¬(0 ≤ t ∧ t < 0) := fun t h => absurd h.1 (not_le.2 h.2)
    simp [this]
  · have h1 := Real.map_volume_mul_left hw.ne'
    have h2 : ∫⁻ x, (if 0 ≤ w * x ∧ w * x < w then h (w * x) else 0) = ∫⁻ t, (if 0 ≤ t ∧ t < w then h t else 0) ∂(volume.map (w * ·)) := by
      rw [lintegral_map _ (by fun_prop)]
      refine Measurable.ite ?_ hm measurable_const
      exact measurableSet_Ico (a := (0 : ℝ)) (b := w)
    rw [h1, lintegral_smul_measure, abs_of_pos (inv_pos.2 hw)] at h2
    have h3 : ∫⁻ x, h (w * x) ∂unifLaw = ∫⁻ x, (if 0 ≤ w * x ∧ w * x < w then h (w * x) else 0) := by
      unfold unifLaw
      rw [← lintegral_indicator measurableSet_Ico]
      refine lintegral_congr fun x => ?_
      have e : x ∈ Set.Ico (0 : ℝ) 1 ↔ 0 ≤ w * x ∧ w * x < w := by
        rw [Set.mem_Ico, mul_nonneg_iff_of_pos_left hw, mul_lt_iff_lt_one_right hw]
      by_cases hx : x ∈ Set.Ico (0 : ℝ) 1
      · rw [Set.indicator_of_mem hx, if_pos (e.1 hx)]
      · rw [Set.indicator_of_notMem hx, if_neg fun h => hx (e.2 h)]
    rw [h3, h2, smul_eq_mul, ← mul_assoc, ← ENNReal.ofReal_mul hw.le, mul_inv_cancel₀ hw.ne', ENNReal.ofReal_one, one_mul]

section
variable (w : ℕ → ℝ) (F : ℕ → ℝ≥0∞)

/-- The mass of the components above the slice level. -/
noncomputable def sliceMass (t : ℝ) : ℝ≥0∞ := ∑' k, if t < w k then F k else 0

/-- The probability of component `j` given the slice level. -/
noncomputable def sliceKernel (t : ℝ) (j : ℕ) : ℝ≥0∞ := (if t < w j then F j else 0) / sliceMass w F t

theorem measurable_sliceMass : Measurable (sliceMass w F) := by
  unfold sliceMass
  exact Measurable.tsum fun k => Measurable.ite measurableSet_Iio measurable_const measurable_const

theorem measurable_sliceKernel (j : ℕ) : Measurable (fun t => sliceKernel w F t j) := by
  unfold sliceKernel
  exact (Measurable.ite measurableSet_Iio measurable_const measurable_const).div (measurable_sliceMass w F)

variable {w F}

theorem sliceMass_ne_top (hF : ∀ j, F j ≠ ∞) {t : ℝ} (ht : {j | t < w j}.Finite) : sliceMass w F t ≠ ∞ := by
  unfold sliceMass
  rw [tsum_eq_sum (f := fun k => if t < w k then F k else 0) (s := ht.toFinset) (fun j hj => if_neg fun h => hj (ht.mem_toFinset.2 h))]
  refine ENNReal.sum_ne_top.2 fun j _ => ?_
  split
  · exact hF j
  · simp

/-- The slice step leaves `w_d F_d` invariant. -/
theorem slice_invariant (hw : ∀ j, 0 ≤ w j) (hF : ∀ j, F j ≠ ∞) (hfin : ∀ t, 0 < t → {j | t < w j}.Finite) (j : ℕ) :
    ∑' d, (ENNReal.ofReal (w d) * F d) * ∫⁻ x, sliceKernel w F (w d * x) j ∂unifLaw = ENNReal.ofReal (w j) * F j := by
  have h1 : ∀ d, (ENNReal.ofReal (w d) * F d) * ∫⁻ x, sliceKernel w F (w d * x) j ∂unifLaw =
      ∫⁻ t, (if 0 ≤ t then (if t < w d then F d else 0) * sliceKernel w F t j else 0) := by
    intro d
    rw [mul_comm (ENNReal.ofReal _), mul_assoc, lintegral_unif_scale (hw d) _ (measurable_sliceKernel w F j), ← lintegral_const_mul]
    · refine lintegral_congr fun t => ?_
      by_cases h0 : 0 ≤ t <;> by_cases h1 : t < w d <;> simp [h0, h1]
    · exact Measurable.ite (measurableSet_Ico (a := (0 : ℝ)) (b := w d)) (measurable_sliceKernel w F j) measurable_const
  simp_rw [h1]
  rw [← lintegral_tsum]
  · have h2 : ∀ᵐ t : ℝ, ∑' d, (if 0 ≤ t then (if t < w d then F d else 0) * sliceKernel w F t j else 0) = Set.indicator (Set.Ico 0 (w j)) (fun _ => F j) t := by
      have h0 : ∀ᵐ t : ℝ, t ≠ 0 := by rw [ae_iff]; simp
      filter_upwards [h0] with t ht
      by_cases hp : 0 ≤ t
      · have hp' : 0 < t := lt_of_le_of_ne hp (Ne.symm ht)
        simp only [hp, if_true]
        rw [ENNReal.tsum_mul_right, sliceKernel]
        change sliceMass w F t * _ = _
        by_cases hj : t < w j
        · rw [Set.indicator_of_mem (show t ∈ Set.Ico 0 (w j) from ⟨hp, hj⟩), if_pos hj]
          by_cases hz : F j = 0
          · simp [hz]
          · refine ENNReal.mul_div_cancel ?_ (sliceMass_ne_top hF (hfin t hp'))
            intro h
            have := ENNReal.tsum_eq_zero.1 h j
            rw [if_pos hj] at this
            exact hz this
        · rw [Set.indicator_of_notMem (fun h => hj h.2), if_neg hj]; simp
      · rw [Set.indicator_of_notMem (fun h => hp h.1)]; simp [hp]
    rw [lintegral_congr_ae h2, lintegral_indicator measurableSet_Ico]
    simp [mul_comm]
  · intro d
    refine (Measurable.ite measurableSet_Ici ?_ measurable_const).aemeasurable
    exact (Measurable.ite measurableSet_Iio measurable_const measurable_const).mul (measurable_sliceKernel w F j)

end

end Verif
