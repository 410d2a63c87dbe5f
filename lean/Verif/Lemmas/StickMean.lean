import Verif.Lemmas.BetaLog

/-! # Expected weights and expected log weights of independent sticks -/

namespace Verif
open MeasureTheory ProbabilityTheory
open scoped ENNReal

theorem prod_before {α M : Type*} [CommMonoid M] (f : α → M) : ∀ (l : List α) (j : Fin l.length),
    ∏ i ∈ Finset.univ.filter (· < j), f l[i] = ((l.take j).map f).prod
  | [], j => j.elim0
  | a :: l, ⟨0, h⟩ => by
    have : Finset.univ.filter (· < (⟨0, h⟩ : Fin (a :: l).length)) = ∅ := by
      ext i; simp
    rw [this]; simp
  | a :: l, ⟨j + 1, h⟩ => by
    have ih := prod_before f l ⟨j, by simpa using h⟩
    rw [Finset.prod_filter] at ih ⊢
    change ∏ i : Fin (l.length + 1), _ = _
    rw [Fin.prod_univ_succ, if_pos (by simp [Fin.lt_def])]
    simp only [List.take_succ_cons, List.map_cons, List.prod_cons]
    rw [← ih]
    congr 1
    refine Finset.prod_congr rfl fun i _ => ?_
    simp only [Fin.lt_def, Fin.val_succ, Nat.add_lt_add_iff_right]
    rfl

theorem sum_before {α M : Type*} [AddCommMonoid M] (f : α → M) : ∀ (l : List α) (j : Fin l.length),
    ∑ i ∈ Finset.univ.filter (· < j), f l[i] = ((l.take j).map f).sum
  | [], j => j.elim0
  | a :: l, ⟨0, h⟩ => by
    have : Finset.univ.filter (· < (⟨0, h⟩ : Fin (a :: l).length)) = ∅ := by
      ext i; simp
    rw [this]; simp
  | a :: l, ⟨j + 1, h⟩ => by
    have ih := sum_before f l ⟨j, by simpa using h⟩
    rw [Finset.sum_filter] at ih ⊢
    change ∑ i : Fin (l.length + 1), _ = _
    rw [Fin.sum_univ_succ, if_pos (by simp [Fin.lt_def])]
    simp only [List.take_succ_cons, List.map_cons, List.sum_cons]
    rw [← ih]
    congr 1
    refine Finset.sum_congr rfl fun i _ => ?_
    simp only [Fin.lt_def, Fin.val_succ, Nat.add_lt_add_iff_right]
    rfl

section
variable {n : ℕ} (μ : Fin n → Measure ℝ) [∀ j, IsProbabilityMeasure (μ j)]

/-- The expected weight: the mean of the stick times the means of what the earlier sticks leave over. -/
theorem stick_mean (j : Fin n) : ∫ w, w j ∂((Measure.pi μ).map breakStick) = (∫ x, x ∂μ j) * ∏ l ∈ Finset.univ.filter (· < j), ∫ x, (1 - x) ∂μ l := by
  rw [integral_map measurable_breakStick.aemeasurable (measurable_pi_apply j).aestronglyMeasurable]
  have e : ∀ v : Fin n → ℝ, breakStick v j = ∏ i, (if i = j then (fun x : ℝ => x) else if i < j then (fun x => 1 - x) else fun _ => 1) (v i) := by
    intro v
    rw [breakStick, ← Finset.mul_prod_erase _ _ (Finset.mem_univ j), if_pos rfl, Finset.prod_filter]
    congr 1
    rw [← Finset.mul_prod_erase _ _ (Finset.mem_univ j), if_neg (lt_irrefl j), one_mul]
    refine Finset.prod_congr rfl fun i hi => ?_
    rw [if_neg (Finset.ne_of_mem_erase hi)]
    split <;> rfl
  simp_rw [e]
  rw [integral_fintype_prod_eq_prod (f := fun i x => (if i = j then (fun x : ℝ => x) else if i < j then (fun x => 1 - x) else fun _ => 1) x)]
  rw [← Finset.mul_prod_erase _ _ (Finset.mem_univ j), if_pos rfl, Finset.prod_filter]
  congr 1
  rw [← Finset.mul_prod_erase _ _ (Finset.mem_univ j), if_neg (lt_irrefl j), one_mul]
  refine Finset.prod_congr rfl fun i hi => ?_
  rw [if_neg (Finset.ne_of_mem_erase hi)]
  split
  · rfl
  · simp

/-- The expected log weight. -/
theorem stick_log (j : Fin n) (h1 : ∀ᵐ x ∂μ j, 0 < x) (h2 : ∀ l < j, ∀ᵐ x ∂μ l, x < 1) (i1 : Integrable Real.log (μ j))
    (i2 : ∀ l < j, Integrable (fun x => Real.log (1 - x)) (μ l)) :
    Integrable (fun w : Fin n → ℝ => Real.log (w j)) ((Measure.pi μ).map breakStick) ∧
    ∫ w, Real.log (w j) ∂((Measure.pi μ).map breakStick) = (∫ x, Real.log x ∂μ j) + ∑ l ∈ Finset.univ.filter (· < j), ∫ x, Real.log (1 - x) ∂μ l := by
  have hp : ∀ l, MeasurePreserving (Function.eval l) (Measure.pi μ) (μ l) := fun l => measurePreserving_eval μ l
  have ml : AEStronglyMeasurable (fun w : Fin n → ℝ => Real.log (w j)) ((Measure.pi μ).map breakStick) := (Real.measurable_log.comp (measurable_pi_apply j)).aestronglyMeasurable
  have e : ∀ᵐ v ∂Measure.pi μ, Real.log (breakStick v j) = Real.log (v j) + ∑ l ∈ Finset.univ.filter (· < j), Real.log (1 - v l) := by
    have a1 : ∀ᵐ v ∂Measure.pi μ, 0 < v j := (hp j).quasiMeasurePreserving.ae h1
    have a2 : ∀ᵐ v ∂Measure.pi μ, ∀ l, l < j → v l < 1 := by
      rw [ae_all_iff]
      intro l
      by_cases hl : l < j
      · exact ((hp l).quasiMeasurePreserving.ae (h2 l hl)).mono fun v hv _ => hv
      · exact Filter.Eventually.of_forall fun v hv => absurd hv hl
    filter_upwards [a1, a2] with v hv1 hv2
    have hne : ∀ l ∈ Finset.univ.filter (· < j), (1 - v l) ≠ 0 := fun l hl => (sub_pos.2 (hv2 l (Finset.mem_filter.1 hl).2)).ne'
    rw [breakStick, Real.log_mul hv1.ne' (Finset.prod_ne_zero_iff.2 hne), Real.log_prod hne]
  have j1 : Integrable (fun v : Fin n → ℝ => Real.log (v j)) (Measure.pi μ) := (hp j).integrable_comp_of_integrable i1
  have j2 : ∀ l ∈ Finset.univ.filter (· < j), Integrable (fun v : Fin n → ℝ => Real.log (1 - v l)) (Measure.pi μ) := fun l hl =>
    (hp l).integrable_comp_of_integrable (g := fun x => Real.log (1 - x)) (i2 l (Finset.mem_filter.1 hl).2)
  constructor
  · rw [integrable_map_measure ml measurable_breakStick.aemeasurable]
    exact (j1.add (integrable_finsetSum _ j2)).congr (e.mono fun v hv => hv.symm)
  · rw [integral_map measurable_breakStick.aemeasurable ml, integral_congr_ae e, integral_add j1 (integrable_finsetSum _ j2), integral_finsetSum _ j2]
    have c : ∀ (l : Fin n) (f : ℝ → ℝ), AEStronglyMeasurable f (μ l) → ∫ v : Fin n → ℝ, f (v l) ∂Measure.pi μ = ∫ x, f x ∂μ l := by
      intro l f hf
      conv_rhs => rw [← (hp l).map_eq]
      rw [integral_map (hp l).aemeasurable (by rw [(hp l).map_eq]; exact hf)]
    rw [c j Real.log i1.aestronglyMeasurable]
    congr 1
    exact Finset.sum_congr rfl fun l hl => c l (fun x => Real.log (1 - x)) (i2 l (Finset.mem_filter.1 hl).2).aestronglyMeasurable
end

theorem betaMeasure_one_sub {a b : ℝ} (ha : 0 < a) (hb : 0 < b) : ∫ x, (1 - x) ∂betaMeasure a b = b / (a + b) := by
  have := betaMeasure_mean hb ha
  rw [← betaMeasure_flip, integral_map (by fun_prop) (by fun_prop), add_comm b a] at this
  exact this
end Verif
