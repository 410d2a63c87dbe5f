import Verif.Lemmas.InfProd

/-! # A function that does not depend on any single coordinate is constant -/

namespace Verif
open MeasureTheory
open scoped ENNReal

variable {X ι : Type} [MeasurableSpace X] {ν : ι → Measure X} [∀ j, IsProbabilityMeasure (ν j)]

/-- Almost everywhere equal, for every `j`, to a function that does not depend on coordinate `j`. -/
def CoordFree (ν : ι → Measure X) [∀ j, IsProbabilityMeasure (ν j)] {β : Type} [MeasurableSpace β] (H : (ι → X) → β) : Prop :=
  ∀ j, ∃ Hj : (ι → X) → β, Measurable Hj ∧ (∀ x x', (∀ i, i ≠ j → x i = x' i) → Hj x = Hj x') ∧ Hj =ᵐ[Measure.infinitePi ν] H

theorem coordFree_box {K : (ι → X) → ℝ≥0∞} (hf : CoordFree ν K) (s : Finset ι) (t : ι → Set X) (ht : ∀ i, MeasurableSet (t i)) :
    ∫⁻ x in Set.pi (s : Set ι) t, K x ∂(Measure.infinitePi ν) = (∏ i ∈ s, ν i (t i)) * ∫⁻ x, K x ∂(Measure.infinitePi ν) := by
  classical
  have hm : ∀ s : Finset ι, MeasurableSet (Set.pi (s : Set ι) t) := fun s => MeasurableSet.pi (Finset.countable_toSet s) fun j _ => ht j
  induction s using Finset.induction_on with
  | empty => simp
  | insert j s hj ih =>
    rw [Finset.prod_insert hj, mul_assoc, ← ih]
    obtain ⟨Kj, hKm, hKj, hae⟩ := hf j
    have h1 : ∀ s : Finset ι, ∫⁻ x in Set.pi (s : Set ι) t, K x ∂(Measure.infinitePi ν) = ∫⁻ x, (Set.pi (s : Set ι) t).indicator Kj x ∂(Measure.infinitePi ν) := by
      intro s
      rw [lintegral_indicator (hm s)]
      exact lintegral_congr_ae (ae_restrict_of_ae (hae.mono fun x hx => hx.symm))
    rw [h1, h1]
    rw [← lintegral_mixSeq (fun i => i = j) ν ν ν (fun _ _ => rfl) (fun _ _ => rfl) (hKm.indicator (hm _))]
    have h2 : ∀ x x', (Set.pi ((insert j s : Finset ι) : Set ι) t).indicator Kj (mixSeq (fun i => i = j) x x') = (t j).indicator (fun _ => (Set.pi (s : Set ι) t).indicator Kj x') (x j) := by
      intro x x'
      have hK : Kj (mixSeq (fun i => i = j) x x') = Kj x' := hKj _ _ fun i hi => by simp [mixSeq, hi]
      have hiff : mixSeq (fun i => i = j) x x' ∈ Set.pi ((insert j s : Finset ι) : Set ι) t ↔ x j ∈ t j ∧ x' ∈ Set.pi (s : Set ι) t := by
        simp only [Set.mem_pi, Finset.mem_coe, Finset.mem_insert]
        constructor
        · intro h
          refine ⟨by simpa [mixSeq] using h j (.inl rfl), fun i hi => ?_⟩
          have hne : i ≠ j := fun e => hj (e ▸ hi)
          simpa [mixSeq, hne] using h i (.inr hi)
        · rintro ⟨h1, h2⟩ i (rfl | hi)
          · simpa [mixSeq] using h1
          · have hne : i ≠ j := fun e => hj (e ▸ hi)
            simpa [mixSeq, hne] using h2 i hi
      by_cases hx : x j ∈ t j
      · rw [Set.indicator_of_mem hx]
        by_cases hx' : x' ∈ Set.pi (s : Set ι) t
        · rw [Set.indicator_of_mem (hiff.2 ⟨hx, hx'⟩), Set.indicator_of_mem hx', hK]
        · rw [Set.indicator_of_notMem fun h => hx' (hiff.1 h).2, Set.indicator_of_notMem hx']
      · rw [Set.indicator_of_notMem hx, Set.indicator_of_notMem fun h => hx (hiff.1 h).1]
    simp_rw [h2]
    have h3 : ∀ x : ι → X, ∫⁻ x', (t j).indicator (fun _ => (Set.pi (s : Set ι) t).indicator Kj x') (x j) ∂(Measure.infinitePi ν) =
        (t j).indicator (fun _ => ∫⁻ x', (Set.pi (s : Set ι) t).indicator Kj x' ∂(Measure.infinitePi ν)) (x j) := by
      intro x
      by_cases hx : x j ∈ t j
      · simp only [Set.indicator_of_mem hx]
      · simp only [Set.indicator_of_notMem hx, lintegral_zero]
    simp_rw [h3]
    rw [← lintegral_map (f := (t j).indicator fun _ => ∫⁻ x', (Set.pi (s : Set ι) t).indicator Kj x' ∂(Measure.infinitePi ν)) (measurable_const.indicator (ht j)) (measurable_pi_apply j),
      Measure.infinitePi_map_eval, lintegral_indicator_const (ht j), mul_comm]

theorem coordFree_const {K : (ι → X) → ℝ≥0∞} (hm : Measurable K) (hf : CoordFree ν K) (h0 : ∫⁻ x, K x ∂(Measure.infinitePi ν) ≠ 0) (ht : ∫⁻ x, K x ∂(Measure.infinitePi ν) ≠ ∞) :
    ∀ᵐ x ∂(Measure.infinitePi ν), K x = ∫⁻ x, K x ∂(Measure.infinitePi ν) := by
  set c := ∫⁻ x, K x ∂(Measure.infinitePi ν) with hc
  have h1 : c⁻¹ • (Measure.infinitePi ν).withDensity K = Measure.infinitePi ν := by
    refine Measure.eq_infinitePi _ fun s t hst => ?_
    rw [Measure.smul_apply, withDensity_apply _ (MeasurableSet.pi (Finset.countable_toSet s) fun j _ => hst j), coordFree_box hf s t hst, ← hc, smul_eq_mul, mul_comm _ c, ← mul_assoc,
      ENNReal.inv_mul_cancel h0 ht, one_mul]
  have h2 : (Measure.infinitePi ν).withDensity K = (Measure.infinitePi ν).withDensity fun _ => c := by
    rw [withDensity_const]
    calc (Measure.infinitePi ν).withDensity K = c • (c⁻¹ • (Measure.infinitePi ν).withDensity K) := by rw [smul_smul, ENNReal.mul_inv_cancel h0 ht, one_smul]
      _ = c • Measure.infinitePi ν := by rw [h1]
  exact (withDensity_eq_iff hm.aemeasurable aemeasurable_const ht).1 h2

/-- **A bounded function that does not depend on any single coordinate is constant.** -/
theorem coordFree_real {H : (ι → X) → ℝ} {C : ℝ} (hm : Measurable H) (hb : ∀ x, |H x| ≤ C) (hf : CoordFree ν H) : ∃ c, ∀ᵐ x ∂(Measure.infinitePi ν), H x = c := by
  have hpos : ∀ x, 0 < H x + (C + 1) := fun x => by linarith [(abs_le.1 (hb x)).1]
  let K : (ι → X) → ℝ≥0∞ := fun x => ENNReal.ofReal (H x + (C + 1))
  have hKm : Measurable K := (hm.add_const _).ennreal_ofReal
  have hKf : CoordFree ν K := fun j => by
    obtain ⟨Hj, h1, h2, h3⟩ := hf j
    exact ⟨fun x => ENNReal.ofReal (Hj x + (C + 1)), (h1.add_const _).ennreal_ofReal, fun x x' h => by simp only [h2 x x' h], h3.mono fun x hx => by simp only [K, hx]⟩
  have h0 : ∫⁻ x, K x ∂(Measure.infinitePi ν) ≠ 0 := by
    rw [Ne, lintegral_eq_zero_iff hKm]
    intro h
    obtain ⟨x, hx⟩ := h.exists
    exact (ENNReal.ofReal_pos.2 (hpos x)).ne' hx
  have ht : ∫⁻ x, K x ∂(Measure.infinitePi ν) ≠ ∞ := by
    refine ne_top_of_le_ne_top (b := ∫⁻ _, ENNReal.ofReal (C + (C + 1)) ∂(Measure.infinitePi ν)) (by simp) (lintegral_mono fun x => ?_)
    exact ENNReal.ofReal_le_ofReal (by linarith [(abs_le.1 (hb x)).2])
  refine ⟨(∫⁻ x, K x ∂(Measure.infinitePi ν)).toReal - (C + 1), (coordFree_const hKm hKf h0 ht).mono fun x hx => ?_⟩
  rw [← hx, ENNReal.toReal_ofReal (hpos x).le]
  ring

end Verif
