import Verif.Props.C104

/-! # The Gibbs step of a mixture with finitely many components as two reversible kernels -/

namespace Verif.Mix.FinMix
open MeasureTheory ProbabilityTheory GM Spec
open scoped ENNReal

set_option linter.unusedSectionVars false

variable {N m n : ℕ} [NeZero N] {Atom : Type} [MeasurableSpace Atom] {C0 : WeightCore ℝ}

/-- Labels, atoms and weights. -/
abbrev Config (N n : ℕ) (Atom : Type) : Type := (Fin n → Fin N) × FParams N Atom

/-! ### Redrawing the weights and the atoms of the occupied components -/

/-- The new configuration for the labels `d`. -/
def redrawn (d : Fin n → Fin N) (z : FParams N Atom) (q : FParams N Atom) : Config N n Atom := (d, (mixSeq (occupied d) q.1 z.1, q.2))

theorem measurable_redrawn (d : Fin n → Fin N) : Measurable (fun x : FParams N Atom × FParams N Atom => redrawn d x.1 x.2) := by
  unfold redrawn
  exact measurable_const.prodMk (((measurable_mixSeq _).comp ((measurable_fst.comp measurable_snd).prodMk (measurable_fst.comp measurable_fst))).prodMk (measurable_snd.comp measurable_snd))

theorem measurable_redrawn_right (d : Fin n → Fin N) (z : FParams N Atom) : Measurable (redrawn d z) := (measurable_redrawn d).comp measurable_prodMk_left

/-- The law of the atoms and weights given the labels. -/
noncomputable def condLaw (A : AtomGen m Atom) (p : NIW ℝ m) (f : FinPrior N) (y : Fin n → Fin m → ℝ) (d : Fin n → Fin N) : Measure (FParams N Atom) :=
  (Measure.infinitePi (atomF A y p d [])).prod (f.post (List.ofFn (nat d)))

instance (A : AtomGen m Atom) (p : NIW ℝ m) (f : FinPrior N) (y : Fin n → Fin m → ℝ) (d : Fin n → Fin N) : IsProbabilityMeasure (condLaw A p f y d) := by unfold condLaw; infer_instance

/-- The kernel of the redraw. -/
noncomputable def redrawKer (A : AtomGen m Atom) (p : NIW ℝ m) (f : FinPrior N) (y : Fin n → Fin m → ℝ) : Kernel (Config N n Atom) (Config N n Atom) where
  toFun := fun x => (condLaw A p f y x.1).map (redrawn x.1 x.2)
  measurable' := by
    refine Measure.measurable_of_measurable_coe _ fun s hs => ?_
    refine measurable_from_prod_countable_right fun d => ?_
    have h : ∀ z : FParams N Atom, (condLaw A p f y d).map (redrawn d z) s = condLaw A p f y d (Prod.mk z ⁻¹' ((fun x : FParams N Atom × FParams N Atom => redrawn d x.1 x.2) ⁻¹' s)) := fun z => by
      rw [Measure.map_apply (measurable_redrawn_right d z) hs]
      rfl
    show Measurable fun z => (condLaw A p f y d).map (redrawn d z) s
    simp_rw [h]
    exact measurable_measure_prodMk_left (measurable_redrawn d hs)

variable {A : AtomGen m Atom} {lp : (Fin m → ℝ) → Atom → WithBot ℝ} {p : NIW ℝ m} {f : FinPrior N} {y : Fin n → Fin m → ℝ}

instance : IsMarkovKernel (redrawKer A p f y) :=
  ⟨fun x => Measure.isProbabilityMeasure_map ((measurable_redrawn x.1).comp measurable_prodMk_left).aemeasurable⟩

theorem lintegral_redraw' (x : Config N n Atom) {φ : Config N n Atom → ℝ≥0∞} (hφ : Measurable φ) : ∫⁻ q, φ q ∂(redrawKer A p f y x) = ∫⁻ q, φ (redrawn x.1 x.2 q) ∂(condLaw A p f y x.1) :=
  lintegral_map hφ ((measurable_redrawn x.1).comp measurable_prodMk_left)

/-- The redraw does not look at the atoms of the occupied components nor at the weights. -/
theorem redrawKer_congr {d : Fin n → Fin N} {z z' : FParams N Atom} (h : ∀ j, ¬ occupied d j → z.1 j = z'.1 j) : redrawKer A p f y (d, z) = redrawKer A p f y (d, z') := by
  show (condLaw A p f y d).map (redrawn d z) = (condLaw A p f y d).map (redrawn d z')
  congr 1
  funext q
  unfold redrawn
  congr 2
  funext j
  unfold mixSeq
  split
  · rfl
  · rename_i hj; exact h j hj

omit [MeasurableSpace Atom] in
theorem redrawn_off (d : Fin n → Fin N) (z q : FParams N Atom) (j : Fin N) (hj : ¬ occupied d j) : (redrawn d z q).2.1 j = z.1 j := by
  exact if_neg hj

theorem redrawKer_redrawn (d : Fin n → Fin N) (z q : FParams N Atom) : redrawKer A p f y (redrawn d z q) = redrawKer A p f y (d, z) :=
  redrawKer_congr (z := (redrawn d z q).2) fun j hj => redrawn_off d z q j hj

/-- Redrawing keeps the law given the labels. -/
theorem condLaw_redraw (d : Fin n → Fin N) {φ : Config N n Atom → ℝ≥0∞} (hφ : Measurable φ) :
    ∫⁻ z, ∫⁻ q, φ (redrawn d z q) ∂(condLaw A p f y d) ∂(condLaw A p f y d) = ∫⁻ z, φ (d, z) ∂(condLaw A p f y d) := by
  have hφd : Measurable (fun z : FParams N Atom => φ (d, z)) := hφ.comp measurable_prodMk_left
  have hm2 : Measurable (fun x : FParams N Atom × FParams N Atom => φ (redrawn d x.1 x.2)) := hφ.comp (measurable_redrawn d)
  have hm3 : ∀ z : FParams N Atom, Measurable (fun q : FParams N Atom => φ (redrawn d z q)) := fun z => hm2.comp measurable_prodMk_left
  set Q := Measure.infinitePi (atomF A y p d []) with hQ
  set R := f.post (List.ofFn (nat d)) with hR
  have hc : condLaw A p f y d = Q.prod R := rfl
  rw [hc]
  have e1 : ∀ z : FParams N Atom, ∫⁻ q, φ (redrawn d z q) ∂(Q.prod R) = ∫⁻ v, ∫⁻ θ, φ (d, (mixSeq (occupied d) θ z.1, v)) ∂Q ∂R := fun z => lintegral_prod_symm _ (hm3 z).aemeasurable
  have m4 : Measurable (fun x : ((Fin N → Atom) × (Fin N → ℝ)) × (Fin N → Atom) => φ (d, (mixSeq (occupied d) x.2 x.1.1, x.1.2))) :=
    hφd.comp (((measurable_mixSeq _).comp (measurable_snd.prodMk (measurable_fst.comp measurable_fst))).prodMk (measurable_snd.comp measurable_fst))
  have m5 : Measurable (fun x : (Fin N → Atom) × (Fin N → ℝ) => ∫⁻ θ, φ (d, (mixSeq (occupied d) θ x.1, x.2)) ∂Q) := m4.lintegral_prod_right'
  have m6 : Measurable (fun θ' : Fin N → Atom => ∫⁻ v, ∫⁻ θ, φ (d, (mixSeq (occupied d) θ θ', v)) ∂Q ∂R) := m5.lintegral_prod_right'
  simp_rw [e1]
  rw [lintegral_prod (fun z : FParams N Atom => ∫⁻ v, ∫⁻ θ, φ (d, (mixSeq (occupied d) θ z.1, v)) ∂Q ∂R) (m6.comp measurable_fst).aemeasurable]
  simp only [lintegral_const, measure_univ, mul_one]
  rw [lintegral_prod_symm _ hφd.aemeasurable]
  refine (lintegral_lintegral_swap (f := fun θ' v => ∫⁻ θ, φ (d, (mixSeq (occupied d) θ θ', v)) ∂Q) m5.aemeasurable).trans ?_
  refine lintegral_congr fun v => ?_
  have m7 : Measurable (fun x : (Fin N → Atom) × (Fin N → Atom) => φ (d, (mixSeq (occupied d) x.2 x.1, v))) :=
    hφd.comp (((measurable_mixSeq _).comp (measurable_snd.prodMk measurable_fst)).prodMk measurable_const)
  refine (lintegral_lintegral_swap (f := fun θ' θ => φ (d, (mixSeq (occupied d) θ θ', v))) m7.aemeasurable).trans ?_
  exact lintegral_mixSeq (occupied d) (atomF A y p d []) (atomF A y p d []) (atomF A y p d []) (fun _ _ => rfl) (fun _ _ => rfl) (h := fun θ => φ (d, (θ, v)))
    (hφd.comp (measurable_id.prodMk measurable_const))

/-! ### Redrawing the labels -/

section
variable (hlp : ∀ i, Measurable (obsDens lp (y i)))
include hlp

theorem measurable_labelMass : Measurable (fun x : Config N n Atom => ∑ δ, labelKer lp y x.1 δ x.2) :=
  measurable_from_prod_countable_right fun d => Finset.measurable_sum _ fun δ _ => measurable_labelKer d δ hlp

theorem measurable_labelSum : Measurable (fun x : Config N n Atom => Measure.sum fun δ => labelKer lp y x.1 δ x.2 • Measure.dirac ((δ, x.2) : Config N n Atom)) := by
  refine Measure.measurable_of_measurable_coe _ fun s hs => ?_
  refine measurable_from_prod_countable_right fun d => ?_
  have h : ∀ z : FParams N Atom, (Measure.sum fun δ => labelKer lp y d δ z • Measure.dirac ((δ, z) : Config N n Atom)) s = ∑ δ, labelKer lp y d δ z * (Prod.mk δ ⁻¹' s).indicator 1 z := fun z => by
    rw [Measure.sum_apply _ hs, tsum_fintype]
    refine Finset.sum_congr rfl fun δ _ => ?_
    rw [Measure.smul_apply, Measure.dirac_apply' _ hs, smul_eq_mul]
    rfl
  show Measurable fun z => (Measure.sum fun δ => labelKer lp y d δ z • Measure.dirac ((δ, z) : Config N n Atom)) s
  simp_rw [h]
  exact Finset.measurable_sum _ fun δ _ => (measurable_labelKer d δ hlp).mul (measurable_one.indicator (measurable_prodMk_left hs))

open Classical in
/-- The kernel of the label step; where the label probabilities do not sum to one it stays. -/
noncomputable def labelsKer : Kernel (Config N n Atom) (Config N n Atom) where
  toFun := fun x => if ∑ δ, labelKer lp y x.1 δ x.2 = 1 then Measure.sum fun δ => labelKer lp y x.1 δ x.2 • Measure.dirac (δ, x.2) else Measure.dirac x
  measurable' := Measurable.ite (measurable_labelMass hlp (measurableSet_singleton 1)) (measurable_labelSum hlp) Measure.measurable_dirac

theorem labelsKer_good {x : Config N n Atom} (h : ∑ δ, labelKer lp y x.1 δ x.2 = 1) : labelsKer hlp x = Measure.sum fun δ => labelKer lp y x.1 δ x.2 • Measure.dirac ((δ, x.2) : Config N n Atom) := if_pos h

instance labelsKer_markov : IsMarkovKernel (labelsKer (N := N) (n := n) hlp) := by
  refine ⟨fun x => ?_⟩
  by_cases h : ∑ δ, labelKer lp y x.1 δ x.2 = 1
  · rw [labelsKer_good hlp h]
    refine ⟨?_⟩
    rw [Measure.sum_apply _ MeasurableSet.univ, tsum_fintype]
    simpa using h
  · rw [show labelsKer hlp x = Measure.dirac x from if_neg h]
    infer_instance

theorem lintegral_labels {x : Config N n Atom} (h : ∑ δ, labelKer lp y x.1 δ x.2 = 1) {φ : Config N n Atom → ℝ≥0∞} (hφ : Measurable φ) :
    ∫⁻ q, φ q ∂(labelsKer hlp x) = labelStep lp y (fun δ z => φ (δ, z)) x.1 x.2 := by
  rw [labelsKer_good hlp h, lintegral_sum_measure, tsum_fintype]
  unfold labelStep
  refine Finset.sum_congr rfl fun δ _ => ?_
  rw [lintegral_smul_measure, lintegral_dirac' _ hφ, smul_eq_mul, mul_comm]

end

/-! ### The posterior law -/

theorem lintegral_posterior {F : Config N n Atom → ℝ≥0∞} : ∫⁻ x, F x ∂(posteriorPairs A lp p f y) = ∑ d, ∫⁻ z, F (d, z) ∂(finPosterior A lp p f y d) := by
  unfold posteriorPairs
  rw [lintegral_sum_measure, tsum_fintype]
  exact Finset.sum_congr rfl fun d _ => (measurableEmbedding_prodMk_left d).lintegral_map _

theorem lintegral_posterior_prior (hlp : ∀ i, Measurable (obsDens lp (y i))) {F : Config N n Atom → ℝ≥0∞} (hF : Measurable F) :
    ∫⁻ x, F x ∂(posteriorPairs A lp p f y) = (∑ e : Fin n → Fin N, finJoint A lp p f y e Set.univ)⁻¹ * ∫⁻ z, ∑ d, pointMass lp y d z * F (d, z) ∂(paramPrior A p f) := by
  have hd : ∀ d, Measurable (fun z => F (d, z)) := fun d => hF.comp measurable_prodMk_left
  have hm : ∀ d, Measurable (fun z => pointMass lp y d z * F (d, z)) := fun d => (measurable_pointMass hlp d).mul (hd d)
  rw [lintegral_posterior, lintegral_finsetSum _ fun d _ => hm d, Finset.mul_sum]
  refine Finset.sum_congr rfl fun d _ => ?_
  unfold finPosterior finJoint
  rw [lintegral_smul_measure, lintegral_withDensity_eq_lintegral_mul _ (measurable_pointMass hlp d) (hd d)]
  rfl

theorem posterior_ae {Q : Config N n Atom → Prop} (h : ∀ᵐ z ∂(paramPrior A p f), ∀ d, Q (d, z)) : ∀ᵐ x ∂(posteriorPairs A lp p f y), Q x := by
  unfold posteriorPairs
  rw [Measure.ae_sum_iff]
  intro d
  rw [(measurableEmbedding_prodMk_left d).ae_map_iff]
  unfold finPosterior finJoint
  refine Measure.ae_smul_measure ?_ _
  exact (withDensity_absolutelyContinuous _ _).ae_le (h.mono fun z hz => hz d)

theorem posterior_ae_conv (hlp : ∀ i, Measurable (obsDens lp (y i))) (hcj : Conjugate A lp p) (hden : ∀ i a, lp (y i) a ≠ ⊥) {Q : Config N n Atom → Prop}
    (h : ∀ᵐ x ∂(posteriorPairs A lp p f y), Q x) (d : Fin n → Fin N) : ∀ᵐ z ∂(paramPrior A p f), Q (d, z) := by
  unfold posteriorPairs at h
  rw [Measure.ae_sum_iff] at h
  have h1 := h d
  rw [(measurableEmbedding_prodMk_left d).ae_map_iff] at h1
  unfold finPosterior at h1
  have h1' : ∀ᵐ z ∂(finJoint A lp p f y d), Q (d, z) := (Measure.absolutelyContinuous_smul (μ := finJoint A lp p f y d) (ENNReal.inv_ne_zero.2 (finJoint_total (f := f) hlp hcj).2)).ae_le h1
  unfold finJoint at h1'
  rw [ae_withDensity_iff (measurable_pointMass hlp d)] at h1'
  filter_upwards [h1', prior_good] with z h2 h3
  refine h2 (Finset.prod_ne_zero_iff.2 fun i _ => mul_ne_zero (ENNReal.ofReal_pos.2 (h3.1 _)).ne' ?_)
  exact (ENNReal.ofReal_pos.2 (botExp_pos (hden i _))).ne'

theorem posterior_prob (hlp : ∀ i, Measurable (obsDens lp (y i))) (hcj : Conjugate A lp p) : IsProbabilityMeasure (posteriorPairs A lp p f y) := by
  refine ⟨?_⟩
  rw [← lintegral_one, lintegral_posterior]
  simp only [lintegral_one]
  exact C104_total hlp hcj

/-! ### Reversibility -/

theorem redraw_reversible (hlp : ∀ i, Measurable (obsDens lp (y i))) (hcj : Conjugate A lp p) : (redrawKer A p f y).IsReversible (posteriorPairs A lp p f y) := by
  have key : ∀ S T : Set (Config N n Atom), MeasurableSet S → MeasurableSet T →
      ∫⁻ x in S, redrawKer A p f y x T ∂(posteriorPairs A lp p f y) = ∫⁻ x, redrawKer A p f y x S * redrawKer A p f y x T ∂(posteriorPairs A lp p f y) := by
    intro S T hS hT
    have hmT : Measurable fun x => redrawKer A p f y x T := Kernel.measurable_coe _ hT
    rw [← lintegral_indicator hS, lintegral_posterior, lintegral_posterior]
    refine Finset.sum_congr rfl fun d _ => ?_
    obtain ⟨c, -, -, hc⟩ := finJoint_eq (f := f) hlp hcj d
    unfold finPosterior
    rw [lintegral_smul_measure, lintegral_smul_measure, hc, lintegral_smul_measure, lintegral_smul_measure]
    congr 2
    have h1 := condLaw_redraw (A := A) (p := p) (f := f) (y := y) d (φ := S.indicator fun x => redrawKer A p f y x T) (hmT.indicator hS)
    refine (h1.symm.trans (lintegral_congr fun z => ?_) : _)
    have h2 : ∀ q, S.indicator (fun x => redrawKer A p f y x T) (redrawn d z q) = S.indicator 1 (redrawn d z q) * redrawKer A p f y (d, z) T := by
      intro q
      by_cases hq : redrawn d z q ∈ S
      · rw [Set.indicator_of_mem hq, Set.indicator_of_mem hq, redrawKer_redrawn, Pi.one_apply, one_mul]
      · rw [Set.indicator_of_notMem hq, Set.indicator_of_notMem hq, zero_mul]
    simp_rw [h2]
    have h3 : Measurable (fun q => S.indicator (1 : Config N n Atom → ℝ≥0∞) (redrawn d z q)) := (measurable_one.indicator hS).comp (measurable_redrawn_right d z)
    rw [lintegral_mul_const _ h3, ← lintegral_redraw' (A := A) (p := p) (f := f) (y := y) (d, z) (φ := S.indicator 1) (measurable_one.indicator hS), lintegral_indicator_one hS]
  intro S T hS hT
  rw [key S T hS hT, key T S hT hS]
  exact lintegral_congr fun x => mul_comm _ _

/-! ### Detailed balance of the label step -/

omit [MeasurableSpace Atom] in
theorem labelKer_symm (lp : (Fin m → ℝ) → Atom → WithBot ℝ) (y : Fin n → Fin m → ℝ) (d δ : Fin n → Fin N) {z : FParams N Atom} (hz : ∀ j, 0 ≤ z.2 j) :
    pointMass lp y d z * labelKer lp y d δ z = pointMass lp y δ z * labelKer lp y δ d z := by
  unfold pointMass labelKer labelKernel
  rw [← Finset.prod_mul_distrib, ← Finset.prod_mul_distrib]
  refine Finset.prod_congr rfl fun i _ => ?_
  have h := slice_symm (w := wseq z.2) (F := dens lp (aseq (NeZero.pos N) z.1) (y i)) (fun j => by unfold wseq; split; exacts [hz _, le_rfl]) (d i) (δ i)
  simp only [wseq_fin, dens, aseq_fin] at h ⊢
  exact h

/-- Every label has positive probability. -/
theorem sliceKernel_pos {w : Fin N → ℝ} {F : ℕ → ℝ≥0∞} (hw : ∀ j, 0 < w j) (hF : ∀ j, F j ≠ ∞) (d j : Fin N) (hj : F j ≠ 0) :
    ∫⁻ x, sliceKernel (wseq w) F (w d * x) j ∂unifLaw ≠ 0 := by
  have hm : Measurable (fun x => sliceKernel (wseq w) F (w d * x) j) := (measurable_sliceKernel (wseq w) F j).comp (measurable_const_mul _)
  rw [Ne, lintegral_eq_zero_iff hm]
  intro h
  have hpos : 0 < min 1 (w j / w d) := lt_min one_pos (div_pos (hw j) (hw d))
  have hset : unifLaw (Set.Ioo 0 (min 1 (w j / w d))) = 0 := by
    refine measure_mono_null (fun x hx => ?_) h
    have h1 : w d * x < w j := by
      have := lt_of_lt_of_le hx.2 (min_le_right _ _)
      rwa [lt_div_iff₀ (hw d), mul_comm] at this
    show sliceKernel (wseq w) F (w d * x) j ≠ 0
    unfold sliceKernel
    rw [wseq_fin, if_pos h1]
    exact ENNReal.div_ne_zero.2 ⟨hj, sliceMass_ne_top hF (finite_wseq w _ (mul_pos (hw d) hx.1).le)⟩
  have hsub : Set.Ioo 0 (min 1 (w j / w d)) ⊆ Set.Ico (0 : ℝ) 1 := fun x hx => ⟨hx.1.le, lt_of_lt_of_le hx.2 (min_le_left _ _)⟩
  unfold unifLaw at hset
  rw [Measure.restrict_apply measurableSet_Ioo, Set.inter_eq_left.2 hsub, Real.volume_Ioo, ENNReal.ofReal_eq_zero] at hset
  linarith

omit [MeasurableSpace Atom] in
theorem labelKer_ne_zero (hden : ∀ i a, lp (y i) a ≠ ⊥) (d δ : Fin n → Fin N) {z : FParams N Atom} (hpos : ∀ j, 0 < z.2 j) : labelKer lp y d δ z ≠ 0 := by
  unfold labelKer labelKernel
  refine Finset.prod_ne_zero_iff.2 fun i _ => ?_
  exact sliceKernel_pos hpos (fun j => ENNReal.ofReal_ne_top) (d i) (δ i) (ENNReal.ofReal_pos.2 (botExp_pos (hden i _))).ne'

theorem labelMass_one (hlp : ∀ i, Measurable (obsDens lp (y i))) (hden : ∀ i a, lp (y i) a ≠ ⊥) (d : Fin n → Fin N) {z : FParams N Atom} (hz : (∀ j, 0 < z.2 j) ∧ ∑ j, z.2 j = 1) :
    ∑ δ, labelKer lp y d δ z = 1 := sum_labelKer_one hlp d hz.1 fun i => hden i _

theorem labels_reversible (hlp : ∀ i, Measurable (obsDens lp (y i))) (hden : ∀ i a, lp (y i) a ≠ ⊥) : (labelsKer hlp).IsReversible (posteriorPairs A lp p f y) := by
  have key : ∀ S T : Set (Config N n Atom), MeasurableSet S → MeasurableSet T → ∫⁻ x in S, labelsKer hlp x T ∂(posteriorPairs A lp p f y) =
      (∑ e : Fin n → Fin N, finJoint A lp p f y e Set.univ)⁻¹ * ∫⁻ z, ∑ d, ∑ δ, pointMass lp y d z * labelKer lp y d δ z * ((Prod.mk d ⁻¹' S).indicator 1 z * (Prod.mk δ ⁻¹' T).indicator 1 z) ∂(paramPrior A p f) := by
    intro S T hS hT
    rw [← lintegral_indicator hS, lintegral_posterior_prior hlp ((Kernel.measurable_coe _ hT).indicator hS)]
    congr 1
    refine lintegral_congr_ae ?_
    filter_upwards [prior_good] with z hz
    refine Finset.sum_congr rfl fun d _ => ?_
    have h1 : S.indicator (fun x => labelsKer hlp x T) (d, z) = (Prod.mk d ⁻¹' S).indicator 1 z * labelsKer hlp (d, z) T := by
      by_cases hd : (d, z) ∈ S
      · rw [Set.indicator_of_mem hd, Set.indicator_of_mem (show z ∈ Prod.mk d ⁻¹' S from hd), Pi.one_apply, one_mul]
      · rw [Set.indicator_of_notMem hd, Set.indicator_of_notMem (show z ∉ Prod.mk d ⁻¹' S from hd), zero_mul]
    have h2 := lintegral_labels hlp (x := (d, z)) (labelMass_one hlp hden d hz) (φ := T.indicator 1) (measurable_one.indicator hT)
    rw [lintegral_indicator_one hT] at h2
    rw [h1, h2]
    unfold labelStep
    rw [Finset.mul_sum, Finset.mul_sum]
    refine Finset.sum_congr rfl fun δ _ => ?_
    show _ * (_ * ((Prod.mk δ ⁻¹' T).indicator 1 z * _)) = _
    ring
  intro S T hS hT
  rw [key S T hS hT, key T S hT hS]
  congr 1
  refine lintegral_congr_ae ?_
  filter_upwards [prior_good] with z hz
  rw [Finset.sum_comm]
  refine Finset.sum_congr rfl fun δ _ => Finset.sum_congr rfl fun d _ => ?_
  rw [labelKer_symm lp y d δ fun j => (hz.1 j).le]
  ring

/-! ### The two kernels have only constant fixed points in common -/

theorem act_redraw_congr {g : Config N n Atom → ℝ} {d : Fin n → Fin N} {z z' : FParams N Atom} (h : ∀ j, ¬ occupied d j → z.1 j = z'.1 j) : Alt.act (redrawKer A p f y) g (d, z) = Alt.act (redrawKer A p f y) g (d, z') := by
  unfold Alt.act
  rw [redrawKer_congr h]

theorem redraw_idem {C : ℝ} {g : Config N n Atom → ℝ} (hg : Alt.Bd C g) : Alt.act (redrawKer A p f y) (Alt.act (redrawKer A p f y) g) = Alt.act (redrawKer A p f y) g := by
  funext x
  have h1 : Alt.act (redrawKer A p f y) (Alt.act (redrawKer A p f y) g) x = ∫ q, Alt.act (redrawKer A p f y) g (redrawn x.1 x.2 q) ∂(condLaw A p f y x.1) :=
    integral_map (measurable_redrawn_right x.1 x.2).aemeasurable (hg.act.meas.aestronglyMeasurable)
  have h2 : ∀ q, Alt.act (redrawKer A p f y) g (redrawn x.1 x.2 q) = Alt.act (redrawKer A p f y) g x := fun q => by
    unfold Alt.act
    rw [redrawKer_redrawn]
  rw [h1]
  simp_rw [h2]
  simp

theorem gibbs_irreducible (hlp : ∀ i, Measurable (obsDens lp (y i))) (hcj : Conjugate A lp p) (hden : ∀ i a, lp (y i) a ≠ ⊥) (hn : 0 < n) {C : ℝ} {g : Config N n Atom → ℝ} (hg : Alt.Bd C g)
    (h : ∀ᵐ x ∂(posteriorPairs A lp p f y), ∀ᵐ q ∂(labelsKer hlp x), Alt.act (redrawKer A p f y) g q = Alt.act (labelsKer hlp) (Alt.act (redrawKer A p f y) g) x) :
    ∃ c, ∀ᵐ x ∂(posteriorPairs A lp p f y), Alt.act (redrawKer A p f y) g x = c := by
  set H := Alt.act (redrawKer A p f y) g with hH
  have hHb : Alt.Bd C H := hg.act
  have h1 : ∀ᵐ z ∂(paramPrior A p f), ∀ δ : Fin n → Fin N, H (δ, z) = H (fun _ => 0, z) := by
    filter_upwards [posterior_ae_conv hlp hcj hden h (fun _ => 0), prior_good] with z hz hgood
    rw [labelsKer_good hlp (labelMass_one hlp hden _ hgood), Measure.ae_sum_iff] at hz
    have h2 : ∀ δ : Fin n → Fin N, H (δ, z) = Alt.act (labelsKer hlp) H (fun _ => 0, z) := by
      intro δ
      have h3 : ∀ᵐ q ∂(Measure.dirac ((δ, z) : Config N n Atom)), H q = Alt.act (labelsKer hlp) H (fun _ => 0, z) := (Measure.absolutelyContinuous_smul (μ := Measure.dirac ((δ, z) : Config N n Atom)) (labelKer_ne_zero hden (fun _ => 0) δ hgood.1)).ae_le (hz δ)
      rw [ae_dirac_iff (measurableSet_eq_fun hHb.meas measurable_const)] at h3
      exact h3
    intro δ
    rw [h2 δ, h2 fun _ => 0]
  have hmem : ∀ j i : Fin N, occupied (fun _ : Fin n => j) i ↔ i = j := fun j i => ⟨fun ⟨_, h⟩ => h.symm, fun h => ⟨⟨0, hn⟩, h.symm⟩⟩
  have hv : ∀ (j : Fin N) (θ : Fin N → Atom) (v v' : Fin N → ℝ), H (fun _ => j, (θ, v)) = H (fun _ => j, (θ, v')) := fun j θ v v' => act_redraw_congr fun _ _ => rfl
  have hmeas : ∀ j : Fin N, Measurable (fun θ : Fin N → Atom => H (fun _ => j, (θ, fun _ => 0))) := fun j => hHb.meas.comp (measurable_const.prodMk (measurable_id.prodMk measurable_const))
  have hfst : (paramPrior A p f).map Prod.fst = Measure.infinitePi (fun _ : Fin N => A.law p) := by
    rw [paramPrior_eq, Measure.map_fst_prod, measure_univ, one_smul]
  have hfree : CoordFree (fun _ : Fin N => A.law p) (fun θ : Fin N → Atom => H (fun _ => 0, (θ, fun _ => 0))) := by
    intro j
    refine ⟨fun θ => H (fun _ => j, (θ, fun _ => 0)), hmeas j, fun x x' hx => ?_, ?_⟩
    · exact act_redraw_congr fun i hi => hx i fun e => hi ((hmem j i).2 e)
    · have h3 : ∀ᵐ θ ∂(paramPrior A p f).map Prod.fst, H (fun _ => j, (θ, fun _ => 0)) = H (fun _ => 0, (θ, fun _ => 0)) := by
        rw [ae_map_iff measurable_fst.aemeasurable (measurableSet_eq_fun (hmeas j) (hmeas 0))]
        filter_upwards [h1] with z hz
        rw [hv j z.1 _ z.2, hv 0 z.1 _ z.2]
        exact hz fun _ => j
      rw [hfst] at h3
      exact h3
  obtain ⟨c, hc⟩ := coordFree_real (hmeas 0) (fun θ => hHb.bd _) hfree
  refine ⟨c, posterior_ae ?_⟩
  rw [← hfst, ae_map_iff measurable_fst.aemeasurable (measurableSet_eq_fun (hmeas 0) measurable_const)] at hc
  filter_upwards [h1, hc] with z hz hz' d
  rw [hz d, ← hz', hv 0 z.1 z.2]

/-- **The Gibbs iterates converge**, in mean square under the posterior law. -/
theorem gibbs_converges (hlp : ∀ i, Measurable (obsDens lp (y i))) (hcj : Conjugate A lp p) (hden : ∀ i a, lp (y i) a ≠ ⊥) (hn : 0 < n) {C : ℝ} {g : Config N n Atom → ℝ} (hg : Alt.Bd C g) :
    Filter.Tendsto (fun k => ∫ x, (((fun g => Alt.act (redrawKer A p f y) (Alt.act (labelsKer hlp) g))^[k] g) x - ∫ z, g z ∂(posteriorPairs A lp p f y)) ^ 2 ∂(posteriorPairs A lp p f y)) Filter.atTop (nhds 0) := by
  have := posterior_prob (f := f) hlp hcj
  exact Alt.alt_converges (redraw_reversible hlp hcj) (labels_reversible hlp hden) (fun hf => redraw_idem hf) (fun hg h => gibbs_irreducible hlp hcj hden hn hg h) hg

end Verif.Mix.FinMix
