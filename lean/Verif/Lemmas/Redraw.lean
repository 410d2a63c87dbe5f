import Verif.Lemmas.Law

/-! # Products of measures: densities, and redrawing some coordinates -/

namespace Verif
open MeasureTheory ProbabilityTheory
open scoped ENNReal

variable {X : Type*} [MeasurableSpace X]

theorem pi_withDensity' {n : ℕ} (μ : Fin n → Measure X) [∀ i, IsProbabilityMeasure (μ i)] (f : Fin n → X → ℝ≥0∞) (hf : ∀ i, Measurable (f i))
    [∀ i, SigmaFinite ((μ i).withDensity (f i))] :
    (Measure.pi μ).withDensity (fun x => ∏ i, f i (x i)) = Measure.pi (fun i => (μ i).withDensity (f i)) := by
  symm
  refine Measure.pi_eq fun s hs => ?_
  have hms : MeasurableSet (Set.univ.pi s) := MeasurableSet.univ_pi hs
  rw [withDensity_apply _ hms, ← lintegral_indicator hms]
  have : (Set.univ.pi s).indicator (fun x : Fin n → X => ∏ i, f i (x i)) = fun x => ∏ i, (s i).indicator (f i) (x i) := by
    funext x
    by_cases h : x ∈ Set.univ.pi s
    · rw [Set.indicator_of_mem h]
      exact Finset.prod_congr rfl fun i _ => (Set.indicator_of_mem (h i (Set.mem_univ i)) _).symm
    · rw [Set.indicator_of_notMem h]
      simp only [Set.mem_pi, Set.mem_univ, forall_true_left, not_forall] at h
      obtain ⟨i, hi⟩ := h
      exact (Finset.prod_eq_zero (Finset.mem_univ i) (Set.indicator_of_notMem hi _)).symm
  rw [this, lintegral_prod_eq_prod_lintegral_of_indepFun Finset.univ (fun i (x : Fin n → X) => (s i).indicator (f i) (x i))]
  · refine Finset.prod_congr rfl fun i _ => ?_
    rw [withDensity_apply _ (hs i), ← lintegral_indicator (hs i)]
    have hi := (hf i).indicator (hs i)
    conv_rhs => rw [← (measurePreserving_eval μ i).map_eq]
    rw [lintegral_map hi (measurable_pi_apply i)]
  · exact iIndepFun_pi (μ := μ) (X := fun i => (s i).indicator (f i)) (fun i => ((hf i).indicator (hs i)).aemeasurable)
  · exact fun i => ((hf i).indicator (hs i)).comp (measurable_pi_apply i)

/-- Independent draws from a stream, at chosen positions. -/
theorem stream_box {S : Type*} [MeasurableSpace S] (Q : Measure S) [IsProbabilityMeasure Q] {N : ℕ} (O : Fin N → Prop) [DecidablePred O] (e : Fin N → ℕ)
    (he : ∀ i j, O i → O j → e i = e j → i = j) (t : Fin N → Set S) (ht : ∀ j, MeasurableSet (t j)) :
    Measure.infinitePi (fun _ : ℕ => Q) {x | ∀ j, O j → x (e j) ∈ t j} = ∏ j, if O j then Q (t j) else 1 := by
  have hev : ∀ i : ℕ, (Measure.infinitePi (fun _ : ℕ => Q)).map (fun x => x i) = Q := fun i => Measure.infinitePi_map_eval _ i
  have hind : iIndepFun (fun (i : ℕ) (x : ℕ → S) => x i) (Measure.infinitePi (fun _ : ℕ => Q)) := by
    rw [iIndepFun_iff_map_fun_eq_infinitePi_map (fun i => measurable_pi_apply i)]
    simp_rw [hev]
    exact Measure.map_id
  let e' : Fin N → ℕ := fun j => if O j then e j else (Finset.univ.sup e) + 1 + j
  have hle : ∀ j, e j ≤ Finset.univ.sup e := fun j => Finset.le_sup (f := e) (Finset.mem_univ j)
  have he' : Function.Injective e' := by
    intro i j h
    simp only [e'] at h
    by_cases hi : O i <;> by_cases hj : O j
    · rw [if_pos hi, if_pos hj] at h
      exact he i j hi hj h
    · rw [if_pos hi, if_neg hj] at h
      have := hle i
      omega
    · rw [if_neg hi, if_pos hj] at h
      have := hle j
      omega
    · rw [if_neg hi, if_neg hj] at h
      exact Fin.ext (by omega)
  have h1 := (hind.precomp he').measure_inter_preimage_eq_mul (Finset.univ.filter O) (sets := t) (fun j _ => ht j)
  have hs : {x : ℕ → S | ∀ j, O j → x (e j) ∈ t j} = ⋂ j ∈ Finset.univ.filter O, (fun x : ℕ → S => x (e' j)) ⁻¹' t j := by
    ext x
    simp only [Set.mem_ofPred_eq, Finset.mem_filter, Finset.mem_univ, true_and, Set.mem_iInter, Set.mem_preimage]
    refine forall_congr' fun j => forall_congr' fun hj => ?_
    simp only [e', if_pos hj]
  rw [hs]
  refine h1.trans ?_
  rw [Finset.prod_filter]
  refine Finset.prod_congr rfl fun j _ => ?_
  split
  · rw [← hev (e' j), Measure.map_apply (measurable_pi_apply _) (ht j)]
    simp only [hev]
  · rfl

/-- Redrawing some coordinates of a product from their own (normalised) laws keeps the product. -/
theorem redraw {S : Type*} [MeasurableSpace S] (Q : Measure S) [IsProbabilityMeasure Q] {N : ℕ} (ν : Fin N → Measure X) [∀ j, IsFiniteMeasure (ν j)]
    (O : Fin N → Prop) [DecidablePred O] (e : Fin N → ℕ) (he : ∀ i j, O i → O j → e i = e j → i = j) (F : Fin N → S → X) (hF : ∀ j, Measurable (F j))
    (hν : ∀ j, O j → ν j = ν j Set.univ • Q.map (F j)) :
    ((Measure.pi ν).prod (Measure.infinitePi (fun _ : ℕ => Q))).map (fun z j => if O j then F j (z.2 (e j)) else z.1 j) = Measure.pi ν := by
  have hm : Measurable (fun (z : (Fin N → X) × (ℕ → S)) (j : Fin N) => if O j then F j (z.2 (e j)) else z.1 j) := by
    refine measurable_pi_lambda _ fun j => ?_
    split
    · exact (hF j).comp ((measurable_pi_apply _).comp measurable_snd)
    · exact (measurable_pi_apply _).comp measurable_fst
  symm
  refine Measure.pi_eq fun B hB => ?_
  rw [Measure.map_apply hm (MeasurableSet.univ_pi hB)]
  have hs : (fun (z : (Fin N → X) × (ℕ → S)) (j : Fin N) => if O j then F j (z.2 (e j)) else z.1 j) ⁻¹' (Set.univ.pi B) =
      (Set.univ.pi fun j => if O j then Set.univ else B j) ×ˢ {x | ∀ j, O j → x (e j) ∈ F j ⁻¹' B j} := by
    ext z
    simp only [Set.mem_preimage, Set.mem_pi, Set.mem_univ, forall_true_left, Set.mem_prod, Set.mem_ofPred_eq]
    constructor
    · intro h
      refine ⟨fun j => ?_, fun j hj => ?_⟩
      · have := h j
        by_cases hj : O j
        · simp [hj]
        · simpa [hj] using this
      · have := h j
        simpa [hj] using this
    · rintro ⟨h1, h2⟩ j
      by_cases hj : O j
      · simpa [hj] using h2 j hj
      · simpa [hj] using h1 j
  rw [hs, Measure.prod_prod, Measure.pi_pi, stream_box Q O e he _ (fun j => hF j (hB j)), ← Finset.prod_mul_distrib]
  refine Finset.prod_congr rfl fun j _ => ?_
  by_cases hj : O j
  · rw [if_pos hj, if_pos hj]
    conv_rhs => rw [hν j hj]
    rw [Measure.smul_apply, Measure.map_apply (hF j) (hB j), smul_eq_mul]
  · rw [if_neg hj, if_neg hj, mul_one]

theorem lintegral_redraw {S : Type*} [MeasurableSpace S] (Q : Measure S) [IsProbabilityMeasure Q] {N : ℕ} (ν : Fin N → Measure X) [∀ j, IsFiniteMeasure (ν j)]
    (O : Fin N → Prop) [DecidablePred O] (e : Fin N → ℕ) (he : ∀ i j, O i → O j → e i = e j → i = j) (F : Fin N → S → X) (hF : ∀ j, Measurable (F j))
    (hν : ∀ j, O j → ν j = ν j Set.univ • Q.map (F j)) {h : (Fin N → X) → ℝ≥0∞} (hh : Measurable h) :
    ∫⁻ θ, ∫⁻ x, h (fun j => if O j then F j (x (e j)) else θ j) ∂(Measure.infinitePi (fun _ : ℕ => Q)) ∂(Measure.pi ν) = ∫⁻ θ, h θ ∂(Measure.pi ν) := by
  have hm : Measurable (fun (z : (Fin N → X) × (ℕ → S)) (j : Fin N) => if O j then F j (z.2 (e j)) else z.1 j) := by
    refine measurable_pi_lambda _ fun j => ?_
    split
    · exact (hF j).comp ((measurable_pi_apply _).comp measurable_snd)
    · exact (measurable_pi_apply _).comp measurable_fst
  rw [← lintegral_prod (fun z : (Fin N → X) × (ℕ → S) => h (fun j => if O j then F j (z.2 (e j)) else z.1 j)) (hh.comp hm).aemeasurable]
  conv_rhs => rw [← redraw Q ν O e he F hF hν]
  rw [lintegral_map hh hm]

/-- A posterior law gives no mass to the points without likelihood. -/
theorem posterior_ae_ne_zero {μ : Measure X} {L : X → ℝ≥0∞} (hL : Measurable L) : ∀ᵐ x ∂(posterior μ L), L x ≠ 0 := by
  have hs : MeasurableSet {x | L x = 0} := hL (MeasurableSet.singleton 0)
  rw [ae_iff]
  simp only [ne_eq, not_not]
  unfold posterior
  rw [Measure.smul_apply, withDensity_apply _ hs, smul_eq_mul]
  rw [setLIntegral_congr_fun (g := fun _ => 0) hs (fun x hx => hx)]
  simp

/-- If the posterior is a probability, the prior reweighted is the posterior times its total mass. -/
theorem posterior_smul {μ : Measure X} {L : X → ℝ≥0∞} [hp : IsProbabilityMeasure (posterior μ L)] :
    μ.withDensity L = (∫⁻ x, L x ∂μ) • posterior μ L ∧ ∫⁻ x, L x ∂μ ≠ 0 ∧ ∫⁻ x, L x ∂μ ≠ ∞ := by
  have h := measure_univ (μ := posterior μ L)
  unfold posterior at h ⊢
  rw [Measure.smul_apply, withDensity_apply _ MeasurableSet.univ, Measure.restrict_univ, smul_eq_mul] at h
  have h0 : ∫⁻ x, L x ∂μ ≠ 0 := by
    intro h0
    rw [h0, mul_zero] at h
    exact zero_ne_one h
  have ht : ∫⁻ x, L x ∂μ ≠ ∞ := by
    intro ht
    rw [ht, ENNReal.inv_top, zero_mul] at h
    exact zero_ne_one h
  refine ⟨?_, h0, ht⟩
  rw [smul_smul, ENNReal.mul_inv_cancel h0 ht, one_smul]

end Verif
