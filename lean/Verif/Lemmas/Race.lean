import Mathlib.MeasureTheory.Constructions.Pi
import Mathlib.MeasureTheory.Measure.Lebesgue.Basic
import Mathlib.Analysis.SpecialFunctions.Integrals.Basic

/-!
# The race of uniform variables behind the Gumbel-max trick
-/

namespace Verif
open MeasureTheory
open scoped ENNReal

/-- The uniform law of `rng.uniform()`. -/
noncomputable def unifLaw : Measure ℝ := volume.restrict (Set.Ico 0 1)

instance : IsProbabilityMeasure unifLaw := ⟨by simp [unifLaw]⟩

theorem unifLaw_Iio {c : ℝ} (_h0 : 0 ≤ c) (h1 : c ≤ 1) : unifLaw (Set.Iio c) = ENNReal.ofReal c := by
  rw [unifLaw, Measure.restrict_apply measurableSet_Iio]
  have : Set.Iio c ∩ Set.Ico 0 1 = Set.Ico 0 c := by
    ext x
    simp only [Set.mem_inter_iff, Set.mem_Iio, Set.mem_Ico]
    constructor
    · rintro ⟨a, b, -⟩; exact ⟨b, a⟩
    · rintro ⟨a, b⟩; exact ⟨b, a, lt_of_lt_of_le b h1⟩
  rw [this, Real.volume_Ico, sub_zero]

theorem unifLaw_Ioo : ∀ᵐ x ∂unifLaw, 0 < x ∧ x < 1 := by
  unfold unifLaw
  have h1 : ∀ᵐ x ∂volume.restrict (Set.Ico (0 : ℝ) 1), x ∈ Set.Ico (0 : ℝ) 1 := ae_restrict_mem measurableSet_Ico
  have h2 : ∀ᵐ x ∂volume.restrict (Set.Ico (0 : ℝ) 1), x ≠ 0 := ae_restrict_of_ae (by
    rw [ae_iff]; simp)
  filter_upwards [h1, h2] with x hx h0
  exact ⟨lt_of_le_of_ne hx.1 (Ne.symm h0), hx.2⟩

theorem lintegral_rpow_unif {c : ℝ} (hc : 0 ≤ c) : ∫⁻ x, ENNReal.ofReal (x ^ c) ∂unifLaw = ENNReal.ofReal (1 / (c + 1)) := by
  have hnn : ∀ᵐ x ∂unifLaw, 0 ≤ x ^ c := by
    filter_upwards [unifLaw_Ioo] with x hx
    exact Real.rpow_nonneg hx.1.le c
  have hint : Integrable (fun x : ℝ => x ^ c) unifLaw := by
    refine Integrable.of_bound (C := 1) (Measurable.aestronglyMeasurable (by fun_prop)) ?_
    filter_upwards [unifLaw_Ioo] with x hx
    rw [Real.norm_eq_abs, abs_of_nonneg (Real.rpow_nonneg hx.1.le c)]
    exact Real.rpow_le_one hx.1.le hx.2.le hc
  rw [← ofReal_integral_eq_lintegral_ofReal hint hnn]
  congr 1
  unfold unifLaw
  rw [integral_Ico_eq_integral_Ioo, ← integral_Ioc_eq_integral_Ioo, ← intervalIntegral.integral_of_le zero_le_one, integral_rpow (.inl (by linarith))]
  rw [Real.one_rpow, Real.zero_rpow (by linarith), sub_zero]

/-- The event that `i` wins the race with rates `p`. -/
def Wins {k : ℕ} (p : Fin k → ℝ) (i : Fin k) (u : Fin k → ℝ) : Prop := ∀ j, j ≠ i → u j < u i ^ (p j / p i)

theorem measurableSet_wins {k : ℕ} (p : Fin k → ℝ) (i : Fin k) : MeasurableSet {u | Wins p i u} := by
  have : {u : Fin k → ℝ | Wins p i u} = ⋂ j, {u | j ≠ i → u j < u i ^ (p j / p i)} := by
    ext u; simp [Wins]
  rw [this]
  refine MeasurableSet.iInter fun j => ?_
  by_cases h : j = i
  · simp [h]
  · simp only [ne_eq, h, not_false_eq_true, forall_const]
    exact measurableSet_lt (measurable_pi_apply j) ((measurable_pi_apply i).pow_const _)

/-- The winner has the probability of its share of the rates. -/
theorem prob_wins : ∀ {k : ℕ} {p : Fin k → ℝ}, (∀ j, 0 ≤ p j) → ∀ {i : Fin k}, 0 < p i →
    Measure.pi (fun _ : Fin k => unifLaw) {u | Wins p i u} = ENNReal.ofReal (p i / ∑ j, p j)
  | 0, _, _, i, _ => i.elim0
  | n + 1, p, hp, i, hi => by
    let c : Fin n → ℝ := fun j => p (i.succAbove j) / p i
    have hc : ∀ j, 0 ≤ c j := fun j => div_nonneg (hp _) hi.le
    have hmp := measurePreserving_piFinSuccAbove (fun _ : Fin (n + 1) => unifLaw) i
    let A : Set (ℝ × (Fin n → ℝ)) := {x | ∀ j, x.2 j < x.1 ^ c j}
    have hA : MeasurableSet A := by
      have : A = ⋂ j, {x : ℝ × (Fin n → ℝ) | x.2 j < x.1 ^ c j} := by ext x; simp [A]
      rw [this]
      exact MeasurableSet.iInter fun j => measurableSet_lt ((measurable_pi_apply j).comp measurable_snd) (measurable_fst.pow_const _)
    have hpre : {u | Wins p i u} = (MeasurableEquiv.piFinSuccAbove (fun _ : Fin (n + 1) => ℝ) i) ⁻¹' A := by
      ext u
      simp only [Set.mem_ofPred_eq, Set.mem_preimage, A, Wins]
      constructor
      · intro h j
        exact h (i.succAbove j) (Fin.succAbove_ne i j)
      · intro h j hj
        obtain ⟨l, rfl⟩ := Fin.exists_succAbove_eq hj
        exact h l
    rw [hpre, hmp.measure_preimage hA.nullMeasurableSet, Measure.prod_apply hA]
    have hx : ∀ᵐ x ∂unifLaw, (Measure.pi fun _ : Fin n => unifLaw) (Prod.mk x ⁻¹' A) = ENNReal.ofReal (x ^ (∑ j, c j)) := by
      filter_upwards [unifLaw_Ioo] with x hx
      have : Prod.mk x ⁻¹' A = Set.univ.pi fun j => Set.Iio (x ^ c j) := by
        ext y; simp [A]
      rw [this, Measure.pi_pi, Real.rpow_sum_of_pos hx.1, ENNReal.ofReal_prod_of_nonneg (fun j _ => Real.rpow_nonneg hx.1.le _)]
      exact Finset.prod_congr rfl fun j _ => unifLaw_Iio (Real.rpow_nonneg hx.1.le _) (Real.rpow_le_one hx.1.le hx.2.le (hc j))
    rw [lintegral_congr_ae hx, lintegral_rpow_unif (Finset.sum_nonneg fun j _ => hc j), Fin.sum_univ_succAbove p i, ← Finset.sum_div]
    congr 1
    have h2 : 0 ≤ ∑ j, p (i.succAbove j) := Finset.sum_nonneg fun j _ => hp _
    field_simp
    rw [add_comm]

/-- Somebody wins. -/
theorem ae_wins {k : ℕ} {p : Fin k → ℝ} (hp : ∀ j, 0 ≤ p j) (hs : 0 < ∑ j, p j) :
    ∀ᵐ u ∂Measure.pi (fun _ : Fin k => unifLaw), ∃ i, 0 < p i ∧ Wins p i u := by
  let A : Fin k → Set (Fin k → ℝ) := fun i => {u | 0 < p i ∧ Wins p i u ∧ ∀ j, 0 < u j ∧ u j < 1}
  have hI : ∀ᵐ u ∂Measure.pi (fun _ : Fin k => unifLaw), ∀ j, 0 < u j ∧ u j < 1 := by
    rw [ae_all_iff]
    intro j
    have := (measurePreserving_eval (fun _ : Fin k => unifLaw) j).quasiMeasurePreserving.ae unifLaw_Ioo
    exact this
  have hmI : MeasurableSet {u : Fin k → ℝ | ∀ j, 0 < u j ∧ u j < 1} := by
    have : {u : Fin k → ℝ | ∀ j, 0 < u j ∧ u j < 1} = Set.univ.pi fun _ => Set.Ioo 0 1 := by ext u; simp
    rw [this]
    exact MeasurableSet.univ_pi fun _ => measurableSet_Ioo
  have hmA : ∀ i, MeasurableSet (A i) := by
    intro i
    by_cases h : 0 < p i
    · have : A i = {u | Wins p i u} ∩ {u | ∀ j, 0 < u j ∧ u j < 1} := by ext u; simp [A, h]
      rw [this]
      exact (measurableSet_wins p i).inter hmI
    · have : A i = ∅ := by ext u; simp [A, h]
      rw [this]; exact MeasurableSet.empty
  have hA : ∀ i, Measure.pi (fun _ : Fin k => unifLaw) (A i) = ENNReal.ofReal (p i / ∑ j, p j) := by
    intro i
    by_cases h : 0 < p i
    · rw [← prob_wins hp h]
      refine measure_congr ?_
      filter_upwards [hI] with u hu
      exact propext ⟨fun hu => hu.2.1, fun hw => ⟨h, hw, hu⟩⟩
    · have h0 : p i = 0 := le_antisymm (not_lt.1 h) (hp i)
      have : A i = ∅ := by ext u; simp [A, h]
      rw [this, h0]; simp
  have hd : Pairwise (Function.onFun Disjoint A) := by
    intro i j hij
    rw [Function.onFun, Set.disjoint_left]
    rintro u ⟨hi, h1, h01⟩ ⟨hj, h2, -⟩
    have e1 := h1 j (Ne.symm hij)
    have e2 := h2 i hij
    have : u j ^ (p i / p j) < (u i ^ (p j / p i)) ^ (p i / p j) := Real.rpow_lt_rpow (h01 j).1.le e1 (div_pos hi hj)
    rw [← Real.rpow_mul (h01 i).1.le, div_mul_div_cancel₀ hi.ne', div_self hj.ne', Real.rpow_one] at this
    exact lt_asymm e2 this
  have hone : Measure.pi (fun _ : Fin k => unifLaw) (⋃ i, A i) = 1 := by
    rw [measure_iUnion hd hmA, tsum_fintype]
    simp_rw [hA]
    rw [← ENNReal.ofReal_sum_of_nonneg (fun i _ => div_nonneg (hp i) hs.le), ← Finset.sum_div, div_self hs.ne', ENNReal.ofReal_one]
  have hae : ∀ᵐ u ∂Measure.pi (fun _ : Fin k => unifLaw), u ∈ ⋃ i, A i := by
    rw [← prob_compl_eq_zero_iff (MeasurableSet.iUnion hmA)] at hone
    exact hone
  filter_upwards [hae] with u hu
  obtain ⟨i, h1, h2, _⟩ := Set.mem_iUnion.1 hu
  exact ⟨i, h1, h2⟩

end Verif
