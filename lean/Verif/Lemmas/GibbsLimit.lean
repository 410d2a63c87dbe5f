import Verif.Lemmas.GibbsErgodic
import Mathlib.MeasureTheory.Function.ConvergenceInMeasure

/-! # The means along the Gibbs iterations of a stick-breaking mixture converge -/

namespace Verif.Mix
open MeasureTheory ProbabilityTheory GM Spec Filter
open scoped ENNReal Topology

variable {m n : ℕ} {Atom : Type} [MeasurableSpace Atom] {C0 : WeightCore ℝ}
  {A : AtomGen m Atom} {lp : (Fin m → ℝ) → Atom → WithBot ℝ} {p : NIW ℝ m} {f : StickParams} {y : Fin n → Fin m → ℝ}

/-! ### Mean square and absolute convergence -/

section
variable {X : Type*} [MeasurableSpace X] {π : Measure X} [IsProbabilityMeasure π]

theorem sq_mean_le {C : ℝ} {g : X → ℝ} (hg : Alt.Bd C g) : (∫ x, |g x| ∂π) ^ 2 ≤ ∫ x, g x ^ 2 ∂π := by
  have ha : Alt.Bd C (fun x => |g x|) := ⟨hg.meas.abs, fun x => by rw [abs_abs]; exact hg.bd x⟩
  have h := Alt.int_sq_sub ha (Alt.Bd.const (X := X) (∫ x, |g x| ∂π)) π
  have h0 : 0 ≤ ∫ x, (|g x| - ∫ x, |g x| ∂π) ^ 2 ∂π := integral_nonneg fun x => sq_nonneg _
  simp only [sq_abs, integral_mul_const, integral_const, probReal_univ, one_smul] at h
  nlinarith

/-- Bounded functions that converge to zero in mean square under `π` converge to zero in mean under every law that has a density with respect to `π`. -/
theorem mean_tendsto_zero {C : ℝ} {h : ℕ → X → ℝ} (hb : ∀ k, Alt.Bd C (h k)) (hsq : Tendsto (fun k => ∫ x, h k x ^ 2 ∂π) atTop (𝓝 0)) {μ : Measure X} [IsFiniteMeasure μ] (hμ : μ ≪ π) :
    Tendsto (fun k => ∫ x, h k x ∂μ) atTop (𝓝 0) := by
  have h1 : Tendsto (fun k => ∫ x, |h k x| ∂π) atTop (𝓝 0) := by
    have h2 : Tendsto (fun k => Real.sqrt (∫ x, h k x ^ 2 ∂π)) atTop (𝓝 0) := by
      have := (Real.continuous_sqrt.tendsto 0).comp hsq
      rwa [Real.sqrt_zero] at this
    exact squeeze_zero (fun k => integral_nonneg fun x => abs_nonneg _) (fun k => Real.le_sqrt_of_sq_le (sq_mean_le (hb k))) h2
  have h3 : TendstoInMeasure π h atTop (fun _ => 0) := by
    refine tendstoInMeasure_of_tendsto_eLpNorm (p := 1) one_ne_zero (fun k => (hb k).meas.aestronglyMeasurable) aestronglyMeasurable_const ?_
    have e : ∀ k, eLpNorm (h k - fun _ => 0) 1 π = ENNReal.ofReal (∫ x, |h k x| ∂π) := by
      intro k
      rw [show (h k - fun _ => (0 : ℝ)) = h k from by funext x; simp, eLpNorm_one_eq_lintegral_enorm, ofReal_integral_eq_lintegral_ofReal ((hb k).integrable π).abs (ae_of_all _ fun x => abs_nonneg _)]
      refine lintegral_congr fun x => ?_
      rw [← Real.enorm_eq_ofReal_abs]
    simp_rw [e]
    have := (ENNReal.continuous_ofReal.tendsto 0).comp h1
    rwa [ENNReal.ofReal_zero] at this
  refine tendsto_of_subseq_tendsto fun ns hns => ?_
  obtain ⟨ms, hms, hae⟩ := (h3.comp hns).exists_seq_tendsto_ae
  refine ⟨ms, ?_⟩
  have h4 : ∀ᵐ x ∂μ, Tendsto (fun i => h (ns (ms i)) x) atTop (𝓝 0) := hμ.ae_le hae
  have h5 := tendsto_integral_of_dominated_convergence (μ := μ) (F := fun i x => h (ns (ms i)) x) (f := fun _ => (0 : ℝ)) (fun _ => C) (fun i => (hb _).meas.aestronglyMeasurable) (integrable_const C)
    (fun i => ae_of_all _ fun x => (hb _).bd x) h4
  simpa using h5

end

/-! ### The step in terms of the two kernels -/

/-- Redraw the parameters, then the labels. -/
noncomputable def stepAct (A : AtomGen m Atom) (p : NIW ℝ m) (f : StickParams) (hlp : ∀ i, Measurable (obsDens lp (y i))) (g : Config n Atom → ℝ) : Config n Atom → ℝ :=
  Alt.act (redrawKer A p f y) (Alt.act (labelsKer hlp) g)

theorem post_good (hex : f.Exhausts) (d : Fin n → ℕ) : ∀ᵐ v ∂(Measure.infinitePi (f.post (List.ofFn d))), (∀ j, 0 < stickSeq v j) ∧ HasSum (stickSeq v) 1 := by
  have : ∀ᵐ v ∂(Measure.infinitePi f.prior), (∀ j, 0 < stickSeq v j) ∧ HasSum (stickSeq v) 1 := by
    filter_upwards [prior_unit f, hex] with v h1 h2
    exact ⟨fun j => mul_pos (h1 j).1 (Finset.prod_pos fun l _ => by linarith [(h1 l).2]), h2⟩
  exact (post_ac f (List.ofFn d)).ae_le this

theorem stepKernel_eq (hlp : ∀ i, Measurable (obsDens lp (y i))) (hex : f.Exhausts) (hden : ∀ i a, lp (y i) a ≠ ⊥) {ψ : Config n Atom → ℝ≥0∞} (hψ : Measurable ψ) (d : Fin n → ℕ) (z : Params Atom) :
    stepKernel A lp p f y (fun d z => ψ (d, z)) d z = ∫⁻ q, ∫⁻ r, ψ r ∂(labelsKer hlp q) ∂(redrawKer A p f y (d, z)) := by
  have hm : Measurable fun q => ∫⁻ r, ψ r ∂(labelsKer hlp q) := hψ.lintegral_kernel
  have hm2 : Measurable fun q => ∫⁻ r, ψ r ∂(labelsKer hlp (redrawn d z q)) := hm.comp (measurable_redrawn_right d z)
  rw [lintegral_redraw' (d, z) hm]
  unfold condLaw stepKernel
  rw [lintegral_prod_symm _ hm2.aemeasurable]
  refine lintegral_congr_ae ?_
  filter_upwards [post_good hex d] with v hv
  refine lintegral_congr fun θ => ?_
  exact (lintegral_labels hlp (x := redrawn d z (θ, v)) (labelMass_one hlp hden d hv) hψ).symm

theorem act_nonneg {X : Type*} [MeasurableSpace X] {κ : Kernel X X} {g : X → ℝ} (hg : ∀ x, 0 ≤ g x) (x : X) : 0 ≤ Alt.act κ g x := integral_nonneg fun y => hg y

theorem ofReal_act {X : Type*} [MeasurableSpace X] {κ : Kernel X X} [IsMarkovKernel κ] {C : ℝ} {g : X → ℝ} (hg : Alt.Bd C g) (h0 : ∀ x, 0 ≤ g x) (x : X) :
    ENNReal.ofReal (Alt.act κ g x) = ∫⁻ y, ENNReal.ofReal (g y) ∂κ x := ofReal_integral_eq_lintegral_ofReal (hg.integrable _) (ae_of_all _ h0)

theorem stepAct_facts (hlp : ∀ i, Measurable (obsDens lp (y i))) {C : ℝ} {g : Config n Atom → ℝ} (hg : Alt.Bd C g) (h0 : ∀ x, 0 ≤ g x) : Alt.Bd C (stepAct A p f hlp g) ∧ ∀ x, 0 ≤ stepAct A p f hlp g x :=
  ⟨hg.act.act, fun x => act_nonneg (act_nonneg h0) x⟩

theorem stepKernel_real (hlp : ∀ i, Measurable (obsDens lp (y i))) (hex : f.Exhausts) (hden : ∀ i a, lp (y i) a ≠ ⊥) {C : ℝ} {g : Config n Atom → ℝ} (hg : Alt.Bd C g) (h0 : ∀ x, 0 ≤ g x) :
    stepKernel A lp p f y (fun d z => ENNReal.ofReal (g (d, z))) = fun d z => ENNReal.ofReal (stepAct A p f hlp g (d, z)) := by
  funext d z
  rw [stepKernel_eq hlp hex hden (ψ := fun x => ENNReal.ofReal (g x)) hg.meas.ennreal_ofReal]
  unfold stepAct
  rw [ofReal_act hg.act (act_nonneg h0)]
  exact lintegral_congr fun q => (ofReal_act hg h0 q).symm

theorem iterate_facts (hlp : ∀ i, Measurable (obsDens lp (y i))) {C : ℝ} {g : Config n Atom → ℝ} (hg : Alt.Bd C g) (h0 : ∀ x, 0 ≤ g x) (k : ℕ) :
    Alt.Bd C ((stepAct A p f hlp)^[k] g) ∧ ∀ x, 0 ≤ (stepAct A p f hlp)^[k] g x := by
  induction k with
  | zero => exact ⟨hg, h0⟩
  | succ k ih => rw [Function.iterate_succ_apply']; exact stepAct_facts hlp ih.1 ih.2

theorem iterate_real (hlp : ∀ i, Measurable (obsDens lp (y i))) (hex : f.Exhausts) (hden : ∀ i a, lp (y i) a ≠ ⊥) {C : ℝ} {g : Config n Atom → ℝ} (hg : Alt.Bd C g) (h0 : ∀ x, 0 ≤ g x) (k : ℕ) :
    (stepKernel A lp p f y)^[k] (fun d z => ENNReal.ofReal (g (d, z))) = fun d z => ENNReal.ofReal ((stepAct A p f hlp)^[k] g (d, z)) := by
  induction k with
  | zero => rfl
  | succ k ih =>
    rw [Function.iterate_succ_apply', Function.iterate_succ_apply', ih]
    exact stepKernel_real hlp hex hden (iterate_facts hlp hg h0 k).1 (iterate_facts hlp hg h0 k).2

/-- The means along the iterates converge to the posterior mean, under every starting law with a density with respect to the posterior law. -/
theorem iterate_converges (hlp : ∀ i, Measurable (obsDens lp (y i))) (hex : f.Exhausts) (hcj : Conjugate A lp p) (hden : ∀ i a, lp (y i) a ≠ ⊥) (hn : 0 < n) {c : ℝ≥0∞} (hc : c ≠ ∞)
    {φ : (Fin n → ℕ) → Params Atom → ℝ≥0∞} (hφ : ∀ δ, Measurable (φ δ)) (hφc : ∀ d z, φ d z ≤ c) {μ : Measure (Config n Atom)} [IsProbabilityMeasure μ] (hμ : μ ≪ posteriorPairs A lp p f y) :
    Tendsto (fun k => ∫⁻ x, (stepKernel A lp p f y)^[k] φ x.1 x.2 ∂μ) atTop (𝓝 (postMean A lp p f y φ)) := by
  have := posterior_prob (f := f) hlp hex hcj
  set g : Config n Atom → ℝ := fun x => (φ x.1 x.2).toReal with hg
  have hfin : ∀ d z, φ d z ≠ ∞ := fun d z => ((hφc d z).trans_lt hc.lt_top).ne
  have hφg : φ = fun d z => ENNReal.ofReal (g (d, z)) := by
    funext d z
    exact (ENNReal.ofReal_toReal (hfin d z)).symm
  have hgm : Measurable g := measurable_from_prod_countable_right fun d => (hφ d).ennreal_toReal
  have h0 : ∀ x, 0 ≤ g x := fun x => ENNReal.toReal_nonneg
  have hgb : Alt.Bd c.toReal g := ⟨hgm, fun x => by rw [abs_of_nonneg (h0 x)]; exact ENNReal.toReal_mono hc (hφc _ _)⟩
  set M := ∫ z, g z ∂(posteriorPairs A lp p f y) with hM
  have hit := iterate_facts (A := A) (p := p) (f := f) hlp hgb h0
  have hconv : Tendsto (fun k => ∫ x, ((stepAct A p f hlp)^[k] g x - M) ^ 2 ∂(posteriorPairs A lp p f y)) atTop (𝓝 0) := gibbs_converges hlp hex hcj hden hn hgb
  have h1 := mean_tendsto_zero (fun k => (hit k).1.sub (Alt.Bd.const M)) hconv hμ
  have h2 : ∀ k, ∫ x, ((stepAct A p f hlp)^[k] g x - M) ∂μ = ∫ x, (stepAct A p f hlp)^[k] g x ∂μ - M := fun k => by
    rw [integral_sub ((hit k).1.integrable μ) (integrable_const M)]
    simp
  simp_rw [h2] at h1
  have h3 : Tendsto (fun k => ∫ x, (stepAct A p f hlp)^[k] g x ∂μ) atTop (𝓝 M) := by
    have := h1.add_const M
    simpa using this
  have h4 := (ENNReal.continuous_ofReal.tendsto M).comp h3
  have h5 : ENNReal.ofReal M = postMean A lp p f y φ := by
    rw [hM, ofReal_integral_eq_lintegral_ofReal (hgb.integrable _) (ae_of_all _ h0), lintegral_posterior]
    unfold postMean
    rw [hφg]
  rw [← h5]
  refine h4.congr fun k => ?_
  show ENNReal.ofReal (∫ x, (stepAct A p f hlp)^[k] g x ∂μ) = _
  rw [ofReal_integral_eq_lintegral_ofReal ((hit k).1.integrable _) (ae_of_all _ (hit k).2), hφg, iterate_real hlp hex hden hgb h0 k]

/-! ### Fresh states -/

/-- The law given the labels has a density with respect to the posterior law. -/
theorem condLaw_ac (hlp : ∀ i, Measurable (obsDens lp (y i))) (hex : f.Exhausts) (hcj : Conjugate A lp p) (d : Fin n → ℕ) : (condLaw A p f y d).map (Prod.mk d) ≪ posteriorPairs A lp p f y := by
  obtain ⟨c, hc0, -, -, hc⟩ := stickJoint_eq (f := f) hlp hcj d
  have h1 : condLaw A p f y d ≪ stickPosterior A lp p f y d := by
    unfold stickPosterior
    rw [hc]
    exact (Measure.absolutelyContinuous_smul (mul_ne_zero hc0 (atomMass_facts hcj d).1)).trans (Measure.absolutelyContinuous_smul (ENNReal.inv_ne_zero.2 (stickJoint_total (f := f) hlp hex hcj).2))
  refine (h1.map measurable_prodMk_left).trans ?_
  unfold posteriorPairs
  exact (Measure.le_sum (fun d => (stickPosterior A lp p f y d).map (Prod.mk d)) d).absolutelyContinuous

/-- A step from a state that stores no atom of an empty component: the unused atoms are drawn from the prior. -/
theorem heldMean_fresh (hlp : ∀ i, Measurable (obsDens lp (y i))) {getV : C0.State → List ℝ} {Inv : C0.State → Prop} {φ : (Fin n → ℕ) → Params Atom → ℝ≥0∞} (hφ : ∀ δ, Measurable (φ δ))
    {s : GM C0.inheritTail m Atom × ℕ} {d : Fin n → ℕ} (h : StickHolds y p Inv s.1 d) (hfresh : ∀ j, j ∉ List.ofFn d → s.1.theta.lookup j = none) :
    heldMean A p f getV (stepKernel A lp p f y φ) s = ∫⁻ x, stepKernel A lp p f y φ x.1 x.2 ∂((condLaw A p f y d).map (Prod.mk d)) := by
  have hatom : atomNew A y p d s.1.theta = atomNew A y p d [] := by
    funext j
    unfold atomNew
    by_cases hj : j ∈ List.ofFn d
    · rw [if_pos hj, if_pos hj]
    · rw [if_neg hj, if_neg hj, hfresh j hj]
      rfl
  have hls : Measurable (fun x : Config n Atom => labelStep lp y φ x.1 x.2) := measurable_from_prod_countable_right fun d => measurable_labelStep hlp hφ d
  have hsk : Measurable (fun x : Config n Atom => stepKernel A lp p f y φ x.1 x.2) := measurable_from_prod_countable_right fun d => measurable_stepKernel hlp hφ d
  have hsk' : ∀ z, stepKernel A lp p f y φ d z = ∫⁻ q, labelStep lp y φ (redrawn d z q).1 (redrawn d z q).2 ∂(condLaw A p f y d) := by
    intro z
    have : Measurable (fun q => labelStep lp y φ (redrawn d z q).1 (redrawn d z q).2) := hls.comp (measurable_redrawn_right d z)
    unfold condLaw
    rw [lintegral_prod_symm _ this.aemeasurable]
    rfl
  rw [heldMean_stepKernel hlp hφ h, hatom, lintegral_map hsk measurable_prodMk_left]
  simp_rw [hsk']
  rw [condLaw_redraw d (φ := fun x => labelStep lp y φ x.1 x.2) hls]
  unfold condLaw
  rw [lintegral_prod_symm _ (measurable_labelStep hlp hφ d).aemeasurable]

end Verif.Mix
