import Verif.Lemmas.FinErgodic

/-! # The means along the Gibbs iterations of a mixture with finitely many components converge -/

namespace Verif.Mix.FinMix
open MeasureTheory ProbabilityTheory GM Spec Filter
open scoped ENNReal Topology

set_option linter.unusedSectionVars false

variable {N m n : ℕ} [NeZero N] {Atom : Type} [MeasurableSpace Atom] {C0 : WeightCore ℝ}
  {A : AtomGen m Atom} {lp : (Fin m → ℝ) → Atom → WithBot ℝ} {p : NIW ℝ m} {f : FinPrior N} {y : Fin n → Fin m → ℝ}

/-! ### The step in terms of the two kernels -/

/-- Redraw the parameters, then the labels. -/
noncomputable def stepAct (A : AtomGen m Atom) (p : NIW ℝ m) (f : FinPrior N) (hlp : ∀ i, Measurable (obsDens lp (y i))) (g : Config N n Atom → ℝ) : Config N n Atom → ℝ :=
  Alt.act (redrawKer A p f y) (Alt.act (labelsKer hlp) g)

theorem stepKernel_eq (hlp : ∀ i, Measurable (obsDens lp (y i))) (hden : ∀ i a, lp (y i) a ≠ ⊥) {ψ : Config N n Atom → ℝ≥0∞} (hψ : Measurable ψ) (d : Fin n → Fin N) (z : FParams N Atom) :
    stepKernel A lp p f y (fun d z => ψ (d, z)) d z = ∫⁻ q, ∫⁻ r, ψ r ∂(labelsKer hlp q) ∂(redrawKer A p f y (d, z)) := by
  have hm : Measurable fun q => ∫⁻ r, ψ r ∂(labelsKer hlp q) := hψ.lintegral_kernel
  have hm2 : Measurable fun q => ∫⁻ r, ψ r ∂(labelsKer hlp (redrawn d z q)) := hm.comp (measurable_redrawn_right d z)
  rw [lintegral_redraw' (d, z) hm]
  unfold condLaw stepKernel
  rw [lintegral_prod_symm _ hm2.aemeasurable]
  refine lintegral_congr_ae ?_
  filter_upwards [f.post_good d] with v hv
  refine lintegral_congr fun θ => ?_
  exact (lintegral_labels hlp (x := redrawn d z (θ, v)) (labelMass_one hlp hden d hv) hψ).symm

theorem stepAct_facts (hlp : ∀ i, Measurable (obsDens lp (y i))) {C : ℝ} {g : Config N n Atom → ℝ} (hg : Alt.Bd C g) (h0 : ∀ x, 0 ≤ g x) : Alt.Bd C (stepAct A p f hlp g) ∧ ∀ x, 0 ≤ stepAct A p f hlp g x :=
  ⟨hg.act.act, fun x => act_nonneg (act_nonneg h0) x⟩

theorem stepKernel_real (hlp : ∀ i, Measurable (obsDens lp (y i))) (hden : ∀ i a, lp (y i) a ≠ ⊥) {C : ℝ} {g : Config N n Atom → ℝ} (hg : Alt.Bd C g) (h0 : ∀ x, 0 ≤ g x) :
    stepKernel A lp p f y (fun d z => ENNReal.ofReal (g (d, z))) = fun d z => ENNReal.ofReal (stepAct A p f hlp g (d, z)) := by
  funext d z
  rw [stepKernel_eq hlp hden (ψ := fun x => ENNReal.ofReal (g x)) hg.meas.ennreal_ofReal]
  unfold stepAct
  rw [ofReal_act hg.act (act_nonneg h0)]
  exact lintegral_congr fun q => (ofReal_act hg h0 q).symm

theorem iterate_facts (hlp : ∀ i, Measurable (obsDens lp (y i))) {C : ℝ} {g : Config N n Atom → ℝ} (hg : Alt.Bd C g) (h0 : ∀ x, 0 ≤ g x) (k : ℕ) :
    Alt.Bd C ((stepAct A p f hlp)^[k] g) ∧ ∀ x, 0 ≤ (stepAct A p f hlp)^[k] g x := by
  induction k with
  | zero => exact ⟨hg, h0⟩
  | succ k ih => rw [Function.iterate_succ_apply']; exact stepAct_facts hlp ih.1 ih.2

theorem iterate_real (hlp : ∀ i, Measurable (obsDens lp (y i))) (hden : ∀ i a, lp (y i) a ≠ ⊥) {C : ℝ} {g : Config N n Atom → ℝ} (hg : Alt.Bd C g) (h0 : ∀ x, 0 ≤ g x) (k : ℕ) :
    (stepKernel A lp p f y)^[k] (fun d z => ENNReal.ofReal (g (d, z))) = fun d z => ENNReal.ofReal ((stepAct A p f hlp)^[k] g (d, z)) := by
  induction k with
  | zero => rfl
  | succ k ih =>
    rw [Function.iterate_succ_apply', Function.iterate_succ_apply', ih]
    exact stepKernel_real hlp hden (iterate_facts hlp hg h0 k).1 (iterate_facts hlp hg h0 k).2

/-- The means along the iterates converge to the posterior mean, under every starting law with a density with respect to the posterior law. -/
theorem iterate_converges (hlp : ∀ i, Measurable (obsDens lp (y i))) (hcj : Conjugate A lp p) (hden : ∀ i a, lp (y i) a ≠ ⊥) (hn : 0 < n) {c : ℝ≥0∞} (hc : c ≠ ∞)
    {φ : (Fin n → Fin N) → FParams N Atom → ℝ≥0∞} (hφ : ∀ δ, Measurable (φ δ)) (hφc : ∀ d z, φ d z ≤ c) {μ : Measure (Config N n Atom)} [IsProbabilityMeasure μ] (hμ : μ ≪ posteriorPairs A lp p f y) :
    Tendsto (fun k => ∫⁻ x, (stepKernel A lp p f y)^[k] φ x.1 x.2 ∂μ) atTop (𝓝 (postMean A lp p f y φ)) := by
  have := posterior_prob (f := f) hlp hcj
  set g : Config N n Atom → ℝ := fun x => (φ x.1 x.2).toReal with hg
  have hfin : ∀ d z, φ d z ≠ ∞ := fun d z => ((hφc d z).trans_lt hc.lt_top).ne
  have hφg : φ = fun d z => ENNReal.ofReal (g (d, z)) := by
    funext d z
    exact (ENNReal.ofReal_toReal (hfin d z)).symm
  have hgm : Measurable g := measurable_from_prod_countable_right fun d => (hφ d).ennreal_toReal
  have h0 : ∀ x, 0 ≤ g x := fun x => ENNReal.toReal_nonneg
  have hgb : Alt.Bd c.toReal g := ⟨hgm, fun x => by rw [abs_of_nonneg (h0 x)]; exact ENNReal.toReal_mono hc (hφc _ _)⟩
  set M := ∫ z, g z ∂(posteriorPairs A lp p f y) with hM
  have hit := iterate_facts (A := A) (p := p) (f := f) hlp hgb h0
  have hconv : Tendsto (fun k => ∫ x, ((stepAct A p f hlp)^[k] g x - M) ^ 2 ∂(posteriorPairs A lp p f y)) atTop (𝓝 0) := gibbs_converges hlp hcj hden hn hgb
  have h1 := mean_tendsto_zero (fun k => (hit k).1.sub (Alt.Bd.const M)) hconv hμ
  have h2 : ∀ k, ∫ x, ((stepAct A p f hlp)^[k] g x - M) ∂μ = ∫ x, (stepAct A p f hlp)^[k] g x ∂μ - M := fun k => by
    rw [integral_sub ((hit k).1.integrable μ) (integrable_const M)]
    simp
  simp_rw [h2] at h1
  have h3 : Tendsto (fun k => ∫ x, (stepAct A p f hlp)^[k] g x ∂μ) atTop (𝓝 M) := by
    have := h1.add_const M
    simpa using this
  have h4 := (ENNReal.continuous_ofReal.tendsto M).comp h3
  have h5 : ENNReal.ofReal M = postMean A lp p f y φ := by
    rw [hM, ofReal_integral_eq_lintegral_ofReal (hgb.integrable _) (ae_of_all _ h0), lintegral_posterior]
    unfold postMean
    rw [hφg]
  rw [← h5]
  refine h4.congr fun k => ?_
  show ENNReal.ofReal (∫ x, (stepAct A p f hlp)^[k] g x ∂μ) = _
  rw [ofReal_integral_eq_lintegral_ofReal ((hit k).1.integrable _) (ae_of_all _ (hit k).2), hφg, iterate_real hlp hden hgb h0 k]

/-! ### Fresh states -/

/-- The law given the labels has a density with respect to the posterior law. -/
theorem condLaw_ac (hlp : ∀ i, Measurable (obsDens lp (y i))) (hcj : Conjugate A lp p) (d : Fin n → Fin N) : (condLaw A p f y d).map (Prod.mk d) ≪ posteriorPairs A lp p f y := by
  obtain ⟨c, hc0, -, hc⟩ := finJoint_eq (f := f) hlp hcj d
  have h1 : condLaw A p f y d ≪ finPosterior A lp p f y d := by
    unfold finPosterior
    rw [hc]
    exact (Measure.absolutelyContinuous_smul hc0).trans (Measure.absolutelyContinuous_smul (ENNReal.inv_ne_zero.2 (finJoint_total (f := f) hlp hcj).2))
  refine (h1.map measurable_prodMk_left).trans ?_
  unfold posteriorPairs
  exact (Measure.le_sum (fun d => (finPosterior A lp p f y d).map (Prod.mk d)) d).absolutelyContinuous

/-- A step from a state that stores no atom of an empty component: the unused atoms are drawn from the prior. -/
theorem heldMean_fresh (hlp : ∀ i, Measurable (obsDens lp (y i))) {Inv : C0.State → Prop} {φ : (Fin n → Fin N) → FParams N Atom → ℝ≥0∞} (hφ : ∀ δ, Measurable (φ δ))
    {s : GM C0.inheritTail m Atom × ℕ} {d : Fin n → Fin N} (h : FinHolds y p Inv s.1 d) (hfresh : ∀ j : Fin N, ¬ occupied d j → s.1.theta.lookup (j : ℕ) = none) :
    heldMean A p (stepKernel A lp p f y φ) s = ∫⁻ x, stepKernel A lp p f y φ x.1 x.2 ∂((condLaw A p f y d).map (Prod.mk d)) := by
  have hatom : atomF A y p d s.1.theta = atomF A y p d [] := by
    funext j
    unfold atomF atomNew
    by_cases hj : (j : ℕ) ∈ List.ofFn (nat d)
    · rw [if_pos hj, if_pos hj]
    · rw [if_neg hj, if_neg hj, hfresh j fun h => hj ((mem_nat_iff d j).2 h)]
      rfl
  have hls : Measurable (fun x : Config N n Atom => labelStep lp y φ x.1 x.2) := measurable_from_prod_countable_right fun d => measurable_labelStep hlp hφ d
  have hsk : Measurable (fun x : Config N n Atom => stepKernel A lp p f y φ x.1 x.2) := measurable_from_prod_countable_right fun d => measurable_stepKernel hlp hφ d
  have hsk' : ∀ z, stepKernel A lp p f y φ d z = ∫⁻ q, labelStep lp y φ (redrawn d z q).1 (redrawn d z q).2 ∂(condLaw A p f y d) := by
    intro z
    have : Measurable (fun q => labelStep lp y φ (redrawn d z q).1 (redrawn d z q).2) := hls.comp (measurable_redrawn_right d z)
    unfold condLaw
    rw [lintegral_prod_symm _ this.aemeasurable]
    rfl
  rw [heldMean_stepKernel hlp hφ h, hatom, lintegral_map hsk measurable_prodMk_left]
  simp_rw [hsk']
  rw [condLaw_redraw d (φ := fun x => labelStep lp y φ x.1 x.2) hls]
  unfold condLaw
  rw [lintegral_prod_symm _ (measurable_labelStep hlp hφ d).aemeasurable]

end Verif.Mix.FinMix
