import Verif.Lemmas.GeoGibbs
import Verif.Props.C133

/-!
# C139: a Gibbs iteration of a mixture with geometric weights does not keep the posterior law of the labels

C95 and C104 show that whole Gibbs iterations leave the posterior law invariant, for the processes with the `tail` of the base class and for finitely many weights.  **For `GeometricProcess` this
fails**, for every data set with at least two rows, all parameters `a, b > 0` of the weights and every admissible prior of the atoms: if the labels of an object without stored atoms are drawn from
their posterior law, then after one iteration of `fit_gibbs` the probability that all labels are 0 is strictly larger than its posterior probability (`C139_refuted`; for any conjugate prior of the
atoms `C139_conjugate_refuted`).  C107 shows this for the label update with a given success probability `p > 1/2` and given atoms; here `p` and the atoms are drawn by the iteration itself.

The posterior law of the labels is proper (`C139_total`).  As in C95 the shift `eps` of the slice variables is taken to be zero.
-/

namespace Verif.Mix
open MeasureTheory ProbabilityTheory GM Spec
open scoped ENNReal

set_option linter.unusedSectionVars false

variable {m n : ℕ} {Atom : Type} [MeasurableSpace Atom]

/-! ### The posterior law of the labels -/

/-- The probability density of labels and data: success probability `Beta(a, b)`, independent atoms from their prior. -/
noncomputable def geoMass (A : AtomGen m Atom) (lp : (Fin m → ℝ) → Atom → WithBot ℝ) (q : NIW ℝ m) (a b : ℝ) (y : Fin n → Fin m → ℝ) (d : Fin n → ℕ) : ℝ≥0∞ :=
  ∫⁻ p, ∫⁻ θ, labelMass lp (geoSeq p) θ y d ∂(Measure.infinitePi (fun _ : ℕ => A.law q)) ∂(betaMeasure a b)

/-- The posterior law of the labels. -/
noncomputable def geoLabels (A : AtomGen m Atom) (lp : (Fin m → ℝ) → Atom → WithBot ℝ) (q : NIW ℝ m) (a b : ℝ) (y : Fin n → Fin m → ℝ) (d : Fin n → ℕ) : ℝ≥0∞ :=
  geoMass A lp q a b y d / ∑' e : Fin n → ℕ, geoMass A lp q a b y e

/-- The probability that a Gibbs iteration from the state `s` returns with the labels `d'`: over the generator of the weights, the draws of the atoms, the slice variables and the Gumbel noise. -/
noncomputable def geoStepProb (nz : ℝ → ℝ) (W : World ℝ m Atom) (A : AtomGen m Atom) (G : RandGen) (s : GM Geo.cls m Atom × ℕ) (d' : Fin n → ℕ) : ℝ≥0∞ :=
  ∫⁻ u, ∫⁻ X, ∫⁻ U, streamLaw {g | (gibbsStep (withNoise (withSlices (withAtoms W A X) (fun _ => 0) U) (fun i => nz (g i))) (G.oracle u) s).1 = .ok () ∧
      (gibbsStep (withNoise (withSlices (withAtoms W A X) (fun _ => 0) U) (fun i => nz (g i))) (G.oracle u) s).2.1.d = List.ofFn d'}
    ∂streamLaw ∂(Measure.infinitePi (fun _ : ℕ => A.ν)) ∂G.P

section
variable {lp : (Fin m → ℝ) → Atom → WithBot ℝ} {A : AtomGen m Atom} {q : NIW ℝ m} {a b : ℝ} {y : Fin n → Fin m → ℝ}

/-- The law of the success probability given the labels. -/
noncomputable def geoPost (a b : ℝ) (d : Fin n → ℕ) : Measure ℝ := betaMeasure (a + n) (b + ∑ i, (d i : ℝ))

theorem geoPost_prob (ha : 0 < a) (hb : 0 < b) (d : Fin n → ℕ) : IsProbabilityMeasure (geoPost a b d) := isProbabilityMeasureBeta (by positivity) (by positivity)

theorem prod_geoSeq {p : ℝ} (hp : 0 < p ∧ p < 1) (d : Fin n → ℕ) : ∏ i, ENNReal.ofReal (geoSeq p (d i)) = ENNReal.ofReal p ^ n * ENNReal.ofReal (1 - p) ^ (∑ i, d i) := by
  have h1 : ∀ i, ENNReal.ofReal (geoSeq p (d i)) = ENNReal.ofReal p * ENNReal.ofReal (1 - p) ^ d i := fun i => by
    rw [geoSeq, ENNReal.ofReal_mul hp.1.le, ENNReal.ofReal_pow (by linarith [hp.2])]
  simp_rw [h1, Finset.prod_mul_distrib, Finset.prod_pow_eq_pow_sum]
  simp

variable (hlp : ∀ i, Measurable (obsDens lp (y i)))
include hlp

theorem measurable_weightsIn (d : Fin n → ℕ) : Measurable (fun z : (ℕ → Atom) × ℝ => labelMass lp (geoSeq z.2) z.1 y d) := by
  unfold labelMass
  refine Finset.measurable_prod _ fun i _ => Measurable.mul ?_ ((hlp i).comp ((measurable_pi_apply _).comp measurable_fst))
  unfold geoSeq
  exact (measurable_snd.mul ((measurable_const.sub measurable_snd).pow_const _)).ennreal_ofReal

/-- Bayes' rule for the success probability and the atoms. -/
theorem geo_bayes (ha : 0 < a) (hb : 0 < b) (hcj : Conjugate A lp q) (d : Fin n → ℕ) : ∃ c : ℝ≥0∞, c ≠ 0 ∧ c ≠ ∞ ∧
    ∀ F : (ℕ → Atom) × ℝ → ℝ≥0∞, Measurable F → ∫⁻ p, ∫⁻ θ, labelMass lp (geoSeq p) θ y d * F (θ, p) ∂(Measure.infinitePi (fun _ : ℕ => A.law q)) ∂(betaMeasure a b) =
      c * atomMass A lp q y d * ∫⁻ p, ∫⁻ θ, F (θ, p) ∂(Measure.infinitePi (atomNew A y q d [])) ∂(geoPost a b d) := by
  have hpos : 0 < beta (a + n) (b + ((∑ i, d i : ℕ) : ℝ)) / beta a b := div_pos (beta_pos (by positivity) (by positivity)) (beta_pos ha hb)
  refine ⟨ENNReal.ofReal (beta (a + n) (b + ((∑ i, d i : ℕ) : ℝ)) / beta a b), (ENNReal.ofReal_pos.2 hpos).ne', ENNReal.ofReal_ne_top, fun F hF => ?_⟩
  have hm1 : Measurable (fun θ : ℕ → Atom => ∏ i, obsDens lp (y i) (θ (d i))) := Finset.measurable_prod _ fun i _ => (hlp i).comp (measurable_pi_apply _)
  have hin : ∀ p : ℝ, ∫⁻ θ, labelMass lp (geoSeq p) θ y d * F (θ, p) ∂(Measure.infinitePi (fun _ : ℕ => A.law q)) =
      (∏ i, ENNReal.ofReal (geoSeq p (d i))) * (atomMass A lp q y d * ∫⁻ θ, F (θ, p) ∂(Measure.infinitePi (atomNew A y q d []))) := by
    intro p
    have hFp : Measurable (fun θ => F (θ, p)) := hF.comp (measurable_id.prodMk measurable_const)
    have h1 := atoms_conjugate (A := A) hlp hcj d
    have h2 : ∫⁻ θ, F (θ, p) ∂((Measure.infinitePi (fun _ : ℕ => A.law q)).withDensity (fun θ => ∏ i, obsDens lp (y i) (θ (d i)))) =
        ∫⁻ θ, (∏ i, obsDens lp (y i) (θ (d i))) * F (θ, p) ∂(Measure.infinitePi (fun _ : ℕ => A.law q)) := by
      rw [lintegral_withDensity_eq_lintegral_mul _ hm1 hFp]
      rfl
    rw [h1, lintegral_smul_measure, smul_eq_mul] at h2
    rw [h2, ← lintegral_const_mul' _ _ (ENNReal.prod_ne_top fun _ _ => ENNReal.ofReal_ne_top)]
    refine lintegral_congr fun θ => ?_
    rw [labelMass, Finset.prod_mul_distrib, mul_assoc]
    rfl
  simp_rw [hin]
  have hH : Measurable (fun p : ℝ => atomMass A lp q y d * ∫⁻ θ, F (θ, p) ∂(Measure.infinitePi (atomNew A y q d []))) :=
    (hF.comp measurable_swap).lintegral_prod_right'.const_mul _
  have hb1 := betaMeasure_bayes ha hb n (∑ i, d i)
  have hm2 : Measurable (fun x : ℝ => ENNReal.ofReal x ^ n * ENNReal.ofReal (1 - x) ^ (∑ i, d i)) := by fun_prop
  have h3 : ∫⁻ p, (∏ i, ENNReal.ofReal (geoSeq p (d i))) * (atomMass A lp q y d * ∫⁻ θ, F (θ, p) ∂(Measure.infinitePi (atomNew A y q d []))) ∂(betaMeasure a b) =
      ∫⁻ p, (atomMass A lp q y d * ∫⁻ θ, F (θ, p) ∂(Measure.infinitePi (atomNew A y q d [])))
        ∂((betaMeasure a b).withDensity (fun x => ENNReal.ofReal x ^ n * ENNReal.ofReal (1 - x) ^ (∑ i, d i))) := by
    rw [lintegral_withDensity_eq_lintegral_mul _ hm2 hH]
    refine lintegral_congr_ae (betaMeasure_ae.mono fun p hp => ?_)
    simp only [Pi.mul_apply]
    rw [prod_geoSeq hp]
  rw [h3, hb1, lintegral_smul_measure, smul_eq_mul, lintegral_const_mul' _ _ (atomMass_facts hcj d).2, mul_assoc]
  unfold geoPost
  push_cast
  rfl

theorem geo_bayes' (ha : 0 < a) (hb : 0 < b) (hcj : Conjugate A lp q) (d : Fin n → ℕ) {F : (ℕ → Atom) × ℝ → ℝ≥0∞} (hF : Measurable F) :
    ∫⁻ p, ∫⁻ θ, labelMass lp (geoSeq p) θ y d * F (θ, p) ∂(Measure.infinitePi (fun _ : ℕ => A.law q)) ∂(betaMeasure a b) =
      geoMass A lp q a b y d * ∫⁻ p, ∫⁻ θ, F (θ, p) ∂(Measure.infinitePi (atomNew A y q d [])) ∂(geoPost a b d) := by
  obtain ⟨c, -, -, hc⟩ := geo_bayes hlp ha hb hcj d
  have h1 := hc (fun _ => 1) measurable_const
  have := geoPost_prob ha hb d
  simp only [mul_one, lintegral_const, measure_univ] at h1
  rw [hc F hF, geoMass, h1]

theorem geoMass_facts (ha : 0 < a) (hb : 0 < b) (hcj : Conjugate A lp q) (d : Fin n → ℕ) : geoMass A lp q a b y d ≠ 0 ∧ geoMass A lp q a b y d ≠ ∞ := by
  obtain ⟨c, h0, ht, hc⟩ := geo_bayes hlp ha hb hcj d
  have h1 := hc (fun _ => 1) measurable_const
  have := geoPost_prob ha hb d
  simp only [mul_one, lintegral_const, measure_univ] at h1
  have hm := atomMass_facts (y := y) hcj d
  rw [geoMass, h1]
  exact ⟨mul_ne_zero h0 hm.1, ENNReal.mul_ne_top ht hm.2⟩

/-- The normalising constant is finite and positive. -/
theorem geoMass_total (ha : 0 < a) (hb : 0 < b) (hcj : Conjugate A lp q) : ∑' d : Fin n → ℕ, geoMass A lp q a b y d ≠ 0 ∧ ∑' d : Fin n → ℕ, geoMass A lp q a b y d ≠ ∞ := by
  have hpr := isProbabilityMeasureBeta ha hb
  have hle : ∀ d : Fin n → ℕ, geoMass A lp q a b y d ≤ (∫⁻ p, ∏ i, ENNReal.ofReal (geoSeq p (d i)) ∂(betaMeasure a b)) * ∑ e : Fin n → Fin n, atomMass A lp q y (fun i => (e i : ℕ)) := by
    intro d
    have hm1 : Measurable (fun θ : ℕ → Atom => ∏ i, obsDens lp (y i) (θ (d i))) := Finset.measurable_prod _ fun i _ => (hlp i).comp (measurable_pi_apply _)
    have h1 : ∫⁻ θ, (∏ i, obsDens lp (y i) (θ (d i))) ∂(Measure.infinitePi (fun _ : ℕ => A.law q)) = atomMass A lp q y d := by
      have h2 := congrArg (fun μ => μ Set.univ) (atoms_conjugate (A := A) hlp hcj d)
      simpa only [withDensity_apply _ MeasurableSet.univ, Measure.restrict_univ, Measure.smul_apply, measure_univ, smul_eq_mul, mul_one] using h2
    have h3 : ∀ p : ℝ, ∫⁻ θ, labelMass lp (geoSeq p) θ y d ∂(Measure.infinitePi (fun _ : ℕ => A.law q)) = (∏ i, ENNReal.ofReal (geoSeq p (d i))) * atomMass A lp q y d := by
      intro p
      rw [← h1, ← lintegral_const_mul _ hm1]
      refine lintegral_congr fun θ => ?_
      rw [labelMass, Finset.prod_mul_distrib]
      rfl
    unfold geoMass
    simp_rw [h3]
    rw [lintegral_mul_const' _ _ (atomMass_facts hcj d).2]
    exact mul_le_mul_right (atomMass_le d) _
  have hsum : ∑' d : Fin n → ℕ, (∫⁻ p, ∏ i, ENNReal.ofReal (geoSeq p (d i)) ∂(betaMeasure a b)) = 1 := by
    rw [← lintegral_tsum fun d => ?_]
    · have hae : ∀ᵐ p ∂(betaMeasure a b), ∑' d : Fin n → ℕ, ∏ i, ENNReal.ofReal (geoSeq p (d i)) = 1 := by
        filter_upwards [betaMeasure_ae] with p hp
        rw [tsum_pi_prod (fun (_ : Fin n) j => ENNReal.ofReal (geoSeq p j))]
        refine Finset.prod_eq_one fun i _ => ?_
        rw [← ENNReal.ofReal_tsum_of_nonneg (fun j => (geoSeq_pos hp j).le) (geoSeq_sum hp).summable, (geoSeq_sum hp).tsum_eq, ENNReal.ofReal_one]
      rw [lintegral_congr_ae hae, lintegral_const, measure_univ, mul_one]
    · refine (Finset.measurable_prod _ fun i _ => ?_).aemeasurable
      unfold geoSeq
      fun_prop
  constructor
  · intro h0
    exact (geoMass_facts hlp ha hb hcj (fun _ => 0)).1 (ENNReal.tsum_eq_zero.1 h0 _)
  · refine ne_top_of_le_ne_top (b := ∑' d : Fin n → ℕ, (∫⁻ p, ∏ i, ENNReal.ofReal (geoSeq p (d i)) ∂(betaMeasure a b)) * ∑ e : Fin n → Fin n, atomMass A lp q y (fun i => (e i : ℕ))) ?_ (ENNReal.tsum_le_tsum hle)
    rw [ENNReal.tsum_mul_right, hsum, one_mul]
    exact ENNReal.sum_ne_top.2 fun e _ => (atomMass_facts hcj _).2

/-- The posterior law of the labels is a probability. -/
theorem C139_total (ha : 0 < a) (hb : 0 < b) (hcj : Conjugate A lp q) : ∑' d : Fin n → ℕ, geoLabels A lp q a b y d = 1 := by
  obtain ⟨h1, h2⟩ := geoMass_total (n := n) hlp ha hb hcj
  unfold geoLabels
  simp_rw [div_eq_mul_inv]
  rw [ENNReal.tsum_mul_right, ENNReal.mul_inv_cancel h1 h2]

/-! ### One iteration -/

/-- A lower bound of the probability that the code gives the labels `0, ..., 0`: the exact probability, and one if all labels are 0 and the slice levels are in the box. -/
noncomputable def geoLow (lp : (Fin m → ℝ) → Atom → WithBot ℝ) (y : Fin n → Fin m → ℝ) (d : Fin n → ℕ) (r : ℕ) (U : ℕ → ℝ) (z : (ℕ → Atom) × ℝ) : ℝ≥0∞ :=
  open Classical in
  max (sliceKer lp y d (fun _ => 0) r U (z.1, fun _ => z.2)) (if d = (fun _ => 0) ∧ U ∈ lossBox n r z.2 then 1 else 0)

theorem measurable_geoLow (d : Fin n → ℕ) (r : ℕ) : Measurable (fun x : ((ℕ → Atom) × ℝ) × (ℕ → ℝ) => geoLow lp y d r x.2 x.1) := by
  classical
  have h1 : Measurable (fun x : ((ℕ → Atom) × ℝ) × (ℕ → ℝ) => (x.2, ((x.1.1, fun _ => x.1.2) : Params Atom))) :=
    measurable_snd.prodMk ((measurable_fst.comp measurable_fst).prodMk (measurable_pi_lambda _ fun _ => measurable_snd.comp measurable_fst))
  have h2 : MeasurableSet {x : ((ℕ → Atom) × ℝ) × (ℕ → ℝ) | d = (fun _ => 0) ∧ x.2 ∈ lossBox n r x.1.2} := by
    by_cases hd : d = fun _ => 0
    · have e : {x : ((ℕ → Atom) × ℝ) × (ℕ → ℝ) | d = (fun _ => 0) ∧ x.2 ∈ lossBox n r x.1.2} =
          ⋂ i : Fin n, ({x | (1 - x.1.2) ^ 2 / x.1.2 < x.2 (r + i)} ∩ {x | x.2 (r + i) < 1 - x.1.2}) := by
        ext x
        simp only [hd, true_and, lossBox, Set.mem_ofPred_eq, Set.mem_iInter, Set.mem_inter_iff]
      rw [e]
      refine MeasurableSet.iInter fun i => MeasurableSet.inter (measurableSet_lt ?_ ?_) (measurableSet_lt ?_ ?_)
      · exact ((measurable_const.sub (measurable_snd.comp measurable_fst)).pow_const 2).div (measurable_snd.comp measurable_fst)
      · exact (measurable_pi_apply _).comp measurable_snd
      · exact (measurable_pi_apply _).comp measurable_snd
      · exact measurable_const.sub (measurable_snd.comp measurable_fst)
    · simp [hd]
  unfold geoLow
  exact ((measurable_sliceKer d _ hlp r).comp h1).max (Measurable.ite h2 measurable_const measurable_const)

/-- The exact probability of the labels `0, ..., 0` is invariant. -/
theorem geo_exact (ha : 0 < a) (hb : 0 < b) (hcj : Conjugate A lp q) :
    ∑' d : Fin n → ℕ, geoMass A lp q a b y d * ∫⁻ p, ∫⁻ θ, labelKer lp y d (fun _ => 0) (θ, fun _ => p) ∂(Measure.infinitePi (atomNew A y q d [])) ∂(geoPost a b d) = geoMass A lp q a b y (fun _ => 0) := by
  have hmk : ∀ d : Fin n → ℕ, Measurable (fun z : (ℕ → Atom) × ℝ => labelKer lp y d (fun _ => 0) (z.1, fun _ => z.2)) := fun d =>
    (measurable_labelKer d _ hlp).comp (measurable_fst.prodMk (measurable_pi_lambda _ fun _ => measurable_snd))
  have hmm : ∀ d : Fin n → ℕ, Measurable (fun z : (ℕ → Atom) × ℝ => labelMass lp (geoSeq z.2) z.1 y d * labelKer lp y d (fun _ => 0) (z.1, fun _ => z.2)) := fun d =>
    (measurable_weightsIn hlp d).mul (hmk d)
  simp_rw [← geo_bayes' hlp ha hb hcj _ (hmk _)]
  have hm1 : ∀ d : Fin n → ℕ, AEMeasurable (fun p : ℝ => ∫⁻ θ, labelMass lp (geoSeq p) θ y d * labelKer lp y d (fun _ => 0) (θ, fun _ => p) ∂(Measure.infinitePi (fun _ : ℕ => A.law q))) (betaMeasure a b) :=
    fun d => ((hmm d).comp measurable_swap).lintegral_prod_right'.aemeasurable
  rw [← lintegral_tsum hm1]
  unfold geoMass
  refine lintegral_congr_ae (betaMeasure_ae.mono fun p hp => ?_)
  simp only
  have hm2 : ∀ d : Fin n → ℕ, AEMeasurable (fun θ => labelMass lp (geoSeq p) θ y d * labelKer lp y d (fun _ => 0) (θ, fun _ => p)) (Measure.infinitePi (fun _ : ℕ => A.law q)) :=
    fun d => ((hmm d).comp (measurable_id.prodMk measurable_const)).aemeasurable
  rw [← lintegral_tsum hm2]
  refine lintegral_congr fun θ => ?_
  have h := tsum_labelKer (lp := lp) (y := y) (δ := fun _ => 0) (z := (θ, fun _ => p)) (fun j => by rw [stickSeq_const]; exact (geoSeq_pos hp j).le) (by rw [stickSeq_const]; exact geoSeq_sum hp)
  unfold stickMass at h
  simp only [stickSeq_const] at h
  exact h

/-- The bound is larger for `1/2 < p`. -/
theorem geoLow_lt {p : ℝ} (hp : 1 / 2 < p ∧ p < 1) (hn : 0 < n) (hden : ∀ x a, lp x a ≠ ⊥) (r : ℕ) (θ : ℕ → Atom) :
    labelKer lp y (fun _ => 0) (fun _ => 0) (θ, fun _ => p) < ∫⁻ U, geoLow lp y (fun _ => 0) r U (θ, p) ∂streamLaw := by
  have hp' : 0 < p ∧ p < 1 := ⟨by linarith [hp.1], hp.2⟩
  rw [← lintegral_sliceKer (fun _ => 0) (fun _ => 0) r (θ, fun _ => p)]
  have hbox : streamLaw (lossBox n r p) ≠ 0 := by
    refine stream_box r n (by have := hp'.1; positivity) ?_ (by linarith [hp'.1])
    rw [div_lt_iff₀ hp'.1, sq]
    exact mul_lt_mul_of_pos_left (by linarith [hp.1]) (by linarith [hp.2])
  have hle : ∀ᵐ U ∂streamLaw, sliceKer lp y (fun _ => 0) (fun _ => 0) r U (θ, fun _ => p) ≤ 1 := by
    filter_upwards [stream_unit] with U hU
    rw [← tsum_sliceKer (lp := lp) (y := y) (fun _ => 0) (q := r) hU (z := (θ, fun _ => p)) (by rw [stickSeq_const]; exact geoSeq_sum hp') (fun i => by rw [stickSeq_const]; exact geoSeq_pos hp' _) (fun i => hden _ _)]
    exact ENNReal.le_tsum _
  refine lintegral_strict_mono_of_ae_le_of_ae_lt_on (s := lossBox n r p) ((measurable_geoLow hlp _ r).comp (measurable_const.prodMk measurable_id)).aemeasurable ?_
    (Filter.Eventually.of_forall fun U => le_max_left _ _) hbox ?_
  · refine ne_top_of_le_ne_top ENNReal.one_ne_top ((lintegral_mono_ae hle).trans ?_)
    rw [lintegral_one, measure_univ]
  · filter_upwards [stream_unit] with U hU hUE
    refine lt_of_lt_of_le (sliceKer_box hp' hn (fun i => hden _ _) hU hUE) ?_
    unfold geoLow
    rw [if_pos ⟨rfl, hUE⟩]
    exact le_max_right _ _

omit hlp in
theorem betaMeasure_half {a b : ℝ} (ha : 0 < a) (hb : 0 < b) : betaMeasure a b (Set.Ioo (1 / 2) 1) ≠ 0 := by
  unfold betaMeasure
  rw [withDensity_apply _ measurableSet_Ioo]
  refine (setLIntegral_pos_iff (ENNReal.measurable_ofReal.comp (measurable_betaPDFReal a b))).2 ?_ |>.ne'
  rw [Set.inter_eq_right.2]
  · rw [Real.volume_Ioo]
    norm_num
  · intro x hx
    rw [Function.mem_support]
    refine (ENNReal.ofReal_pos.2 (betaPDFReal_pos (by linarith [hx.1]) hx.2 ha hb)).ne'

omit hlp in
/-- The law of the success probability that an iteration draws. -/
theorem geoDraw_law (ha : 0 < a) (hb : 0 < b) (d : Fin n → ℕ) (G : RandGen) (pos : ℕ) : Measurable (fun u => geoDraw a b d (G.oracle u) pos) ∧ G.P.map (fun u => geoDraw a b d (G.oracle u) pos) = geoPost a b d := by
  have h1 : Measurable (fun u => geoDraw a b d (G.oracle u) pos) := (G.measurable_beta _ _).comp (measurable_pi_apply pos)
  refine ⟨h1, ?_⟩
  unfold geoPost
  rw [← G.beta_law _ _ (by positivity) (by positivity), ← G.map_seed pos, Measure.map_map (G.measurable_beta _ _) (measurable_pi_apply pos)]
  rfl

/-- The probability of the labels `0, ..., 0` after an iteration is at least the mean of the bound. -/
theorem geoStep_ge {nz : ℝ → ℝ} (hnz : IsGumbel nz) {W : World ℝ m Atom} (hW : W.logpdf = lp) (heps : W.eps = 0) (hn : 2 ≤ n) (ha : 0 < a) (hb : 0 < b) (hden : ∀ x a, lp x a ≠ ⊥) (G : RandGen)
    {s : GM Geo.cls m Atom × ℕ} {d : Fin n → ℕ} (h : GeoHolds y q a b s.1 d) (hθ : s.1.theta = []) :
    ∫⁻ p, ∫⁻ θ, ∫⁻ U, geoLow lp y d (s.2 + (npUnique (List.ofFn d)).length) U (θ, p) ∂streamLaw ∂(Measure.infinitePi (atomNew A y q d [])) ∂(geoPost a b d) ≤ geoStepProb nz W A G s (fun _ : Fin n => 0) := by
  obtain ⟨hgm, hgl⟩ := geoDraw_law (n := n) ha hb d G s.1.wst.2
  obtain ⟨ham, hal⟩ := lazyAtoms_law A y q d s.1.theta s.2
  set r := s.2 + (npUnique (List.ofFn d)).length with hr
  have hm2 : Measurable (fun z : (ℕ → Atom) × ℝ => ∫⁻ U, geoLow lp y d r U z ∂streamLaw) := (measurable_geoLow hlp d r).lintegral_prod_right'
  have hm1 : Measurable (fun p : ℝ => ∫⁻ θ, ∫⁻ U, geoLow lp y d r U (θ, p) ∂streamLaw ∂(Measure.infinitePi (atomNew A y q d []))) := (hm2.comp measurable_swap).lintegral_prod_right'
  rw [← hgl, lintegral_map hm1 hgm]
  have hae : ∀ᵐ u ∂G.P, 0 < geoDraw a b d (G.oracle u) s.1.wst.2 ∧ geoDraw a b d (G.oracle u) s.1.wst.2 < 1 := by
    have h1 : ∀ᵐ p ∂(G.P.map (fun u => geoDraw a b d (G.oracle u) s.1.wst.2)), 0 < p ∧ p < 1 := by rw [hgl]; exact betaMeasure_ae
    exact ae_of_ae_map hgm.aemeasurable h1
  unfold geoStepProb
  refine lintegral_mono_ae ?_
  filter_upwards [hae] with u hp
  have hm3 : Measurable (fun θ : ℕ → Atom => ∫⁻ U, geoLow lp y d r U (θ, geoDraw a b d (G.oracle u) s.1.wst.2) ∂streamLaw) := hm2.comp (measurable_id.prodMk measurable_const)
  rw [← show Measure.infinitePi (atomNew A y q d s.1.theta) = Measure.infinitePi (atomNew A y q d []) by rw [hθ], ← hal, lintegral_map hm3 ham]
  refine lintegral_mono fun X => lintegral_mono_ae ?_
  filter_upwards [stream_unit] with U hU
  obtain ⟨s2, hs2, hsh, hstep⟩ := geo_front (W := W) (A := A) (ω := G.oracle u) ha hb (by omega) h X
  simp only [hstep]
  unfold geoLow
  rw [hr, ← hs2]
  refine max_le (geo_more hnz (W := withAtoms W A X) hW heps hp hn hsh (fun i => lt_topLabel ((mem_ofFn_iff d _).2 ⟨i, rfl⟩)) (fun i => hden _ _) hU) ?_
  split
  · rename_i hc
    obtain ⟨rfl, hU2⟩ := hc
    have ht : topLabel (List.ofFn fun _ : Fin n => 0) = 1 := by
      have h1 := topLabel_mem (d := List.ofFn fun _ : Fin n => 0) (by
        intro hc
        have := congrArg List.length hc
        simp at this
        omega)
      have h2 : 0 < topLabel (List.ofFn fun _ : Fin n => 0) := by unfold topLabel; omega
      obtain ⟨i, hi⟩ := (mem_ofFn_iff _ _).1 h1
      omega
    rw [ht] at hsh ⊢
    exact (geo_stuck hnz (W := withAtoms W A X) (fuel := fun _ => 0) hW heps hp hn hsh (fun i => hden _ _) hU hU2).ge
  · exact zero_le

/-- **After one iteration the probability that all labels are 0 is larger than its posterior probability**, for any conjugate prior of the atoms with positive densities. -/
theorem C139_conjugate_refuted {nz : ℝ → ℝ} (hnz : IsGumbel nz) (hcj : Conjugate A lp q) (W : (Fin n → ℕ) → World ℝ m Atom) (hW : ∀ d, (W d).logpdf = lp) (heps : ∀ d, (W d).eps = 0) (hn : 2 ≤ n)
    (ha : 0 < a) (hb : 0 < b) (hden : ∀ x a, lp x a ≠ ⊥) (G : RandGen) (S : (Fin n → ℕ) → GM Geo.cls m Atom × ℕ) (hS : ∀ d, GeoHolds y q a b (S d).1 d ∧ (S d).1.theta = []) :
    geoLabels A lp q a b y (fun _ => 0) < ∑' d, geoLabels A lp q a b y d * geoStepProb nz (W d) A G (S d) (fun _ : Fin n => 0) := by
  have key : geoMass A lp q a b y (fun _ => 0) < ∑' d, geoMass A lp q a b y d * geoStepProb nz (W d) A G (S d) (fun _ : Fin n => 0) := by
    have hex := geo_exact hlp ha hb hcj
    conv_lhs => rw [← hex]
    refine lt_of_lt_of_le (ENNReal.tsum_lt_tsum (i := fun _ => 0) (by rw [hex]; exact (geoMass_facts hlp ha hb hcj _).2) (fun d => ?_) ?_)
      (ENNReal.tsum_le_tsum fun d => mul_le_mul_right (geoStep_ge hlp hnz (hW d) (heps d) hn ha hb hden G (hS d).1 (hS d).2) _)
    · refine mul_le_mul_right (lintegral_mono fun p => lintegral_mono fun θ => ?_) _
      rw [← lintegral_sliceKer d (fun _ => 0) ((S d).2 + (npUnique (List.ofFn d)).length)]
      exact lintegral_mono fun U => le_max_left _ _
    · obtain ⟨h0, ht⟩ := geoMass_facts (a := a) (b := b) hlp ha hb hcj (fun _ => 0)
      refine (ENNReal.mul_lt_mul_iff_right h0 ht).2 ?_
      have hpr := geoPost_prob ha hb (fun _ : Fin n => 0)
      set r := (S fun _ => 0).2 + (npUnique (List.ofFn fun _ : Fin n => 0)).length
      have hm2 : Measurable (fun z : (ℕ → Atom) × ℝ => ∫⁻ U, geoLow lp y (fun _ => 0) r U z ∂streamLaw) := (measurable_geoLow hlp _ r).lintegral_prod_right'
      have hm1 : Measurable (fun p : ℝ => ∫⁻ θ, ∫⁻ U, geoLow lp y (fun _ => 0) r U (θ, p) ∂streamLaw ∂(Measure.infinitePi (atomNew A y q (fun _ => 0) []))) := (hm2.comp measurable_swap).lintegral_prod_right'
      have hle : ∀ p : ℝ, 0 < p ∧ p < 1 → ∀ θ : ℕ → Atom, labelKer lp y (fun _ => 0) (fun _ => 0) (θ, fun _ => p) ≤ 1 := by
        intro p hp θ
        rw [← tsum_labelKer_one hlp (fun _ => 0) (z := (θ, fun _ => p)) (by rw [stickSeq_const]; exact geoSeq_sum hp) (fun i => by rw [stickSeq_const]; exact geoSeq_pos hp _) (fun i => hden _ _)]
        exact ENNReal.le_tsum _
      refine lintegral_strict_mono_of_ae_le_of_ae_lt_on (s := Set.Ioo (1 / 2) 1) hm1.aemeasurable ?_ (Filter.Eventually.of_forall fun p => lintegral_mono fun θ => ?_)
        (betaMeasure_half (by positivity) (by positivity)) (Filter.Eventually.of_forall fun p hp => ?_)
      · have h1 : ∀ᵐ p ∂(geoPost a b fun _ : Fin n => 0), ∫⁻ θ, labelKer lp y (fun _ => 0) (fun _ => 0) (θ, fun _ => p) ∂(Measure.infinitePi (atomNew A y q (fun _ => 0) [])) ≤ 1 := by
          filter_upwards [show ∀ᵐ p ∂(geoPost a b fun _ : Fin n => 0), 0 < p ∧ p < 1 from betaMeasure_ae] with p hp
          refine (lintegral_mono fun θ => hle p hp θ).trans ?_
          rw [lintegral_one, measure_univ]
        refine ne_top_of_le_ne_top ENNReal.one_ne_top ((lintegral_mono_ae h1).trans ?_)
        rw [lintegral_one, measure_univ]
      · rw [← lintegral_sliceKer (fun _ => 0) (fun _ => 0) r]
        exact lintegral_mono fun U => le_max_left _ _
      · refine lintegral_strict_mono (IsProbabilityMeasure.ne_zero _) (hm2.comp (measurable_id.prodMk measurable_const)).aemeasurable ?_ (Filter.Eventually.of_forall fun θ => ?_)
        · refine ne_top_of_le_ne_top ENNReal.one_ne_top ((lintegral_mono fun θ => hle p ⟨by linarith [hp.1], hp.2⟩ θ).trans ?_)
          rw [lintegral_one, measure_univ]
        · exact geoLow_lt hlp hp (by omega) hden r θ
  obtain ⟨h1, h2⟩ := geoMass_total (n := n) (y := y) (a := a) (b := b) hlp ha hb hcj
  unfold geoLabels
  simp_rw [div_eq_mul_inv, mul_right_comm]
  rw [ENNReal.tsum_mul_right]
  exact (ENNReal.mul_lt_mul_iff_left (ENNReal.inv_ne_zero.2 h2) (ENNReal.inv_ne_top.2 h1)).2 key

end

/-! ### Normal observations -/

/-- **Normal observations with any number of columns**: after one iteration the probability that all labels are 0 is larger than its posterior probability. -/
theorem C139_refuted {q : NIW ℝ m} (hq : Admissible q) (y : Fin n → Fin m → ℝ) {nz : ℝ → ℝ} (hnz : IsGumbel nz) {W : World ℝ m (MeanCov m)} (heps : W.eps = 0) (hW : W.logpdf = normalLog) (hn : 2 ≤ n)
    {a b : ℝ} (ha : 0 < a) (hb : 0 < b) (G : RandGen) (S : (Fin n → ℕ) → GM Geo.cls m (MeanCov m) × ℕ) (hS : ∀ d, GeoHolds y q a b (S d).1 d ∧ (S d).1.theta = []) :
    geoLabels (AtomGen.ofLaw niwAtoms) normalLog q a b y (fun _ => 0) <
      ∑' d, geoLabels (AtomGen.ofLaw niwAtoms) normalLog q a b y d * geoStepProb nz W (AtomGen.ofLaw niwAtoms) G (S d) (fun _ : Fin n => 0) :=
  C139_conjugate_refuted (measurable_obs y) hnz (niw_conjugate hq) (fun _ => W) (fun _ => hW) (fun _ => heps) hn ha hb (fun _ _ => WithBot.coe_ne_bot) G S hS

/-- So the iterations of a mixture with geometric weights do not leave the posterior law of the labels invariant. -/
theorem C139_not_invariant {q : NIW ℝ m} (hq : Admissible q) (y : Fin n → Fin m → ℝ) {nz : ℝ → ℝ} (hnz : IsGumbel nz) {W : World ℝ m (MeanCov m)} (heps : W.eps = 0) (hW : W.logpdf = normalLog) (hn : 2 ≤ n)
    {a b : ℝ} (ha : 0 < a) (hb : 0 < b) (G : RandGen) (S : (Fin n → ℕ) → GM Geo.cls m (MeanCov m) × ℕ) (hS : ∀ d, GeoHolds y q a b (S d).1 d ∧ (S d).1.theta = []) :
    ¬ ∀ δ : Fin n → ℕ, ∑' d, geoLabels (AtomGen.ofLaw niwAtoms) normalLog q a b y d * geoStepProb nz W (AtomGen.ofLaw niwAtoms) G (S d) δ = geoLabels (AtomGen.ofLaw niwAtoms) normalLog q a b y δ :=
  fun h => (C139_refuted hq y hnz heps hW hn ha hb G S hS).ne' (h _)

/-! ### The hypotheses are met -/

/-- A mixture with geometric weights in the plane that stores no atoms. -/
noncomputable def geoPlane (y : Fin n → Fin 2 → ℝ) (a b : ℝ) (d : Fin n → ℕ) : GM Geo.cls 2 (MeanCov 2) × ℕ :=
  ({ totalIter := 5, burnIn := 0, subsample := 1, nAttr := none, muPrior := some ![0, 0], lam := 1, psiPrior := some fun i j => (1 : Matrix (Fin 2) (Fin 2) ℝ) i j, nuPrior := some 2,
     y := List.ofFn y, d := List.ofFn d, theta := [], thetaDefault := true, u := [], affinity := [], mapParams := none, mapLL := ⊥, saved := [], nGroups := [],
     nAtoms := [], totalSaved := 0, gibbsFitted := false,
     wst := (Geo.init a b (1 / 2), 0) }, 0)

/-- Four observations in the plane, `GeometricProcess(a=1, b=1)`. -/
example {nz : ℝ → ℝ} (hnz : IsGumbel nz) {W : World ℝ 2 (MeanCov 2)} (heps : W.eps = 0) (hW : W.logpdf = normalLog) (G : RandGen) (y : Fin 4 → Fin 2 → ℝ) :
    geoLabels (AtomGen.ofLaw niwAtoms) normalLog ⟨![0, 0], 1, fun i j => (1 : Matrix (Fin 2) (Fin 2) ℝ) i j, 2⟩ 1 1 y (fun _ => 0) <
      ∑' d, geoLabels (AtomGen.ofLaw niwAtoms) normalLog ⟨![0, 0], 1, fun i j => (1 : Matrix (Fin 2) (Fin 2) ℝ) i j, 2⟩ 1 1 y d *
        geoStepProb nz W (AtomGen.ofLaw niwAtoms) G (geoPlane y 1 1 d) (fun _ : Fin 4 => 0) :=
  C139_refuted admissible_plane y hnz heps hW (by norm_num) one_pos one_pos G _ fun _ => ⟨⟨rfl, rfl, rfl, rfl, rfl, rfl⟩, rfl⟩

end Verif.Mix
