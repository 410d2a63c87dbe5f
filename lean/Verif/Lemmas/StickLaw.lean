import Verif.Lemmas.StickRun
import Verif.Lemmas.InfProd
import Verif.Lemmas.BetaCross
import Verif.Props.C94

/-! # The mean of a Gibbs step of a stick-breaking mixture -/

namespace Verif
open MeasureTheory ProbabilityTheory
open scoped ENNReal

/-- The mean of a function of a discrete variable whose probabilities sum to one. -/
theorem lintegral_discrete {Ω D : Type*} [MeasurableSpace Ω] [Countable D] (P : Measure Ω) [IsProbabilityMeasure P] (r : Ω → D) (hsum : ∑' δ, P {x | r x = δ} = 1) (H : D → ℝ≥0∞) :
    ∫⁻ x, H (r x) ∂P = ∑' δ, H δ * P {x | r x = δ} := by
  classical
  have hnull : ∀ δ, NullMeasurableSet {x | r x = δ} P := by
    intro δ
    have h1 : P {x | r x = δ}ᶜ ≤ ∑' δ', (if δ' = δ then 0 else P {x | r x = δ'}) := by
      refine le_trans (measure_mono (t := ⋃ δ', if δ' = δ then ∅ else {x | r x = δ'}) fun x hx => ?_) ((measure_iUnion_le _).trans (ENNReal.tsum_le_tsum fun δ' => ?_))
      · refine Set.mem_iUnion.2 ⟨r x, ?_⟩
        have hx' : ¬ r x = δ := hx
        rw [if_neg hx']
        rfl
      · split <;> simp
    have h2 : P {x | r x = δ} + P {x | r x = δ}ᶜ ≤ 1 := by
      refine (add_le_add_right h1 _).trans ?_
      exact ((ENNReal.tsum_eq_add_tsum_ite (f := fun δ => P {x | r x = δ}) δ).symm.trans hsum).le
    have h3 : P (toMeasurable P {x | r x = δ}) + P (toMeasurable P {x | r x = δ}ᶜ) ≤ 1 := by rwa [measure_toMeasurable, measure_toMeasurable]
    set A := toMeasurable P {x | r x = δ}
    set B := toMeasurable P {x | r x = δ}ᶜ
    have hA : {x | r x = δ} ⊆ A := subset_toMeasurable _ _
    have hB : {x | r x = δ}ᶜ ⊆ B := subset_toMeasurable _ _
    have hAm : MeasurableSet A := measurableSet_toMeasurable _ _
    have hBm : MeasurableSet B := measurableSet_toMeasurable _ _
    have hAB : P (A ∩ B) = 0 := by
      have hu : A ∪ B = Set.univ := by
        ext x
        simp only [Set.mem_union, Set.mem_univ, iff_true]
        by_cases hx : r x = δ
        · exact .inl (hA hx)
        · exact .inr (hB hx)
      have h4 := measure_union_add_inter A hBm (μ := P)
      rw [hu, measure_univ] at h4
      have h5 : 1 + P (A ∩ B) ≤ 1 + 0 := by rw [h4, add_zero]; exact h3
      exact nonpos_iff_eq_zero.1 ((ENNReal.add_le_add_iff_left ENNReal.one_ne_top).1 h5)
    refine ⟨A, hAm, ?_⟩
    refine Filter.EventuallyEq.symm ?_
    rw [ae_eq_set]
    refine ⟨measure_mono_null (fun x hx => ?_) hAB, ?_⟩
    · exact ⟨hx.1, hB hx.2⟩
    · rw [Set.sdiff_eq_empty.2 hA]; exact measure_empty
  have hcov : (⋃ δ, {x | r x = δ}) = Set.univ := by
    ext x
    simp
  rw [← setLIntegral_univ, ← hcov, lintegral_iUnion₀ hnull (fun i j hij => Disjoint.aedisjoint (Set.disjoint_left.2 fun x hi hj => hij (hi.symm.trans hj)))]
  refine tsum_congr fun δ => ?_
  rw [← setLIntegral_const]
  refine lintegral_congr_ae ?_
  filter_upwards [ae_restrict_mem₀ (hnull δ)] with x hx
  rw [show r x = δ from hx]

/-- As `lintegral_stopped`, with the mean written as a sum over the values of the stopping time. -/
theorem lintegral_stopped_sum {X : Type*} [MeasurableSpace X] (μ μ' : ℕ → Measure X) [∀ j, IsProbabilityMeasure (μ j)] [∀ j, IsProbabilityMeasure (μ' j)] {k0 : ℕ} (hμ : ∀ j, k0 ≤ j → μ j = μ' j)
    {E : ℕ → Set (ℕ → X)} (hE : ∀ k, MeasurableSet (E k)) (hk0 : ∀ k, k < k0 → E k = ∅) (hloc : ∀ k x x', (∀ j < k, x j = x' j) → (x ∈ E k ↔ x' ∈ E k))
    (hdis : ∀ x i j, x ∈ E i → x ∈ E j → i = j) (hcov : ∀ᵐ x ∂(Measure.infinitePi μ), ∃ k, x ∈ E k) {h : (ℕ → X) → ℝ≥0∞} (hh : Measurable h) :
    ∫⁻ x, ∑' k, (E k).indicator (fun x => ∫⁻ x', h (mixSeq (· < k) x x') ∂(Measure.infinitePi μ')) x ∂(Measure.infinitePi μ) = ∫⁻ x, h x ∂(Measure.infinitePi μ) := by
  classical
  let T : (ℕ → X) → ℕ := fun x => if hx : ∃ k, x ∈ E k then hx.choose else 0
  have hT : ∀ k x, x ∈ E k → T x = k := fun k x hx => by
    have hex : ∃ k, x ∈ E k := ⟨k, hx⟩
    simp only [T, dif_pos hex]
    exact hdis x _ _ hex.choose_spec hx
  rw [← lintegral_stopped μ μ' hμ hE hk0 hloc hdis hcov hT hh]
  refine lintegral_congr_ae ?_
  filter_upwards [hcov] with x ⟨k, hk⟩
  rw [tsum_eq_single k (fun k' hk' => Set.indicator_of_notMem (fun hx => hk' (hdis x _ _ hx hk)) _), Set.indicator_of_mem hk, hT k x hk]

end Verif

namespace Verif.Mix
open MeasureTheory ProbabilityTheory GM Spec
open scoped ENNReal

/-! ### Laws of sticks -/

/-- The prior law of a stick. -/
noncomputable def StickParams.prior (f : StickParams) (j : ℕ) : Measure ℝ := betaMeasure (f.a j) (f.b j)

/-- The law of a stick given the labels. -/
noncomputable def StickParams.post (f : StickParams) (d : List ℕ) (j : ℕ) : Measure ℝ := betaMeasure (f.a j + nEq (labels d) j) (f.b j + nGt (labels d) j)

instance (f : StickParams) (j : ℕ) : IsProbabilityMeasure (f.prior j) := isProbabilityMeasureBeta (f.ha j) (f.hb j)

instance (f : StickParams) (d : List ℕ) (j : ℕ) : IsProbabilityMeasure (f.post d j) :=
  isProbabilityMeasureBeta (by have := f.ha j; positivity) (by have := f.hb j; positivity)

/-- The sticks exhaust the unit. -/
def StickParams.Exhausts (f : StickParams) : Prop := ∀ᵐ v ∂(Measure.infinitePi f.prior), HasSum (stickSeq v) 1

theorem post_of_top (f : StickParams) {d : List ℕ} {j : ℕ} (h : topLabel d ≤ j) : f.post d j = f.prior j := by
  have h1 : nEq (labels d) j = 0 := by
    unfold nEq labels
    rw [List.countP_eq_zero]
    intro x hx
    obtain ⟨i, hi, rfl⟩ := List.mem_map.1 hx
    have := lt_topLabel hi
    simp only [decide_eq_true_eq]
    omega
  have h2 : nGt (labels d) j = 0 := by
    unfold nGt labels
    rw [List.countP_eq_zero]
    intro x hx
    obtain ⟨i, hi, rfl⟩ := List.mem_map.1 hx
    have := lt_topLabel hi
    simp only [decide_eq_true_eq]
    omega
  unfold StickParams.post StickParams.prior
  rw [h1, h2]
  simp

/-- The factor of stick `j` in the likelihood of the labels. -/
noncomputable def stickLik (d : List ℕ) (j : ℕ) (x : ℝ) : ℝ≥0∞ := ENNReal.ofReal x ^ nEq (labels d) j * ENNReal.ofReal (1 - x) ^ nGt (labels d) j

theorem measurable_stickLik (d : List ℕ) (j : ℕ) : Measurable (stickLik d j) := by unfold stickLik; fun_prop

/-- Conjugacy for all sticks. -/
theorem sticks_conjugate (f : StickParams) (d : List ℕ) : ∃ c : ℝ≥0∞, c ≠ 0 ∧ c ≠ ∞ ∧
    (Measure.infinitePi f.prior).withDensity (fun v => ∏ j ∈ Finset.range (topLabel d), stickLik d j (v j)) = c • Measure.infinitePi (f.post d) := by
  have hpos : ∀ j, 0 < beta (f.a j + nEq (labels d) j) (f.b j + nGt (labels d) j) / beta (f.a j) (f.b j) := fun j => by
    have h1 := f.ha j
    have h2 := f.hb j
    exact div_pos (beta_pos (by positivity) (by positivity)) (beta_pos h1 h2)
  refine ⟨∏ j ∈ Finset.range (topLabel d), ENNReal.ofReal (beta (f.a j + nEq (labels d) j) (f.b j + nGt (labels d) j) / beta (f.a j) (f.b j)), ?_, ?_, ?_⟩
  · exact Finset.prod_ne_zero_iff.2 fun j _ => (ENNReal.ofReal_pos.2 (hpos j)).ne'
  · exact ENNReal.prod_ne_top fun j _ => ENNReal.ofReal_ne_top
  · exact infinitePi_withDensity f.prior (f.post d) (Finset.range (topLabel d)) (measurable_stickLik d) (fun j _ => betaMeasure_bayes (f.ha j) (f.hb j) _ _)
      (fun j _ => ⟨(ENNReal.ofReal_pos.2 (hpos j)).ne', ENNReal.ofReal_ne_top⟩) (fun j hj => (post_of_top f (by simpa using hj)).symm)

theorem post_ac (f : StickParams) (d : List ℕ) : Measure.infinitePi (f.post d) ≪ Measure.infinitePi f.prior := by
  obtain ⟨c, hc0, -, h⟩ := sticks_conjugate f d
  have h1 : c • Measure.infinitePi (f.post d) ≪ Measure.infinitePi f.prior := by rw [← h]; exact withDensity_absolutelyContinuous _ _
  exact (Measure.absolutelyContinuous_smul hc0).trans h1

theorem prior_unit (f : StickParams) : ∀ᵐ v ∂(Measure.infinitePi f.prior), ∀ j, v j ∈ Set.Ioo (0 : ℝ) 1 := by
  rw [ae_all_iff]
  intro j
  have h : ∀ᵐ x ∂(f.prior j), x ∈ Set.Ioo (0 : ℝ) 1 := betaMeasure_ae
  rw [← Measure.infinitePi_map_eval f.prior j] at h
  exact ae_of_ae_map (measurable_pi_apply j).aemeasurable h

/-- The generator's sticks have the posterior law. -/
theorem stickDraw_law (f : StickParams) (d : List ℕ) (G : RandGen) (pos : ℕ) : Measurable (fun u => stickDraw f d (G.oracle u) pos) ∧
    G.P.map (fun u => stickDraw f d (G.oracle u) pos) = Measure.infinitePi (f.post d) := by
  have hm : ∀ j, Measurable (G.beta (f.a j + nEq (labels d) j) (f.b j + nGt (labels d) j)) := fun j => G.measurable_beta _ _
  refine ⟨measurable_pi_lambda _ fun j => (hm j).comp (measurable_pi_apply _), ?_⟩
  have h := stream_seq G.ν (fun _ => True) (fun j => pos + j) (fun i j _ _ h => by simpa using h) (fun j => G.beta (f.a j + nEq (labels d) j) (f.b j + nGt (labels d) j)) hm (fun _ => 0)
    (f.post d) (fun j _ => (G.beta_law _ _ (by have := f.ha j; positivity) (by have := f.hb j; positivity)).symm) (fun j hj => absurd trivial hj)
  simp only [if_true] at h
  exact h

variable {m n : ℕ} {Atom : Type} [MeasurableSpace Atom]

/-- Infinitely many atoms and sticks. -/
abbrev Params (Atom : Type) : Type := (ℕ → Atom) × (ℕ → ℝ)

theorem measurable_stickSeq (j : ℕ) : Measurable (fun v : ℕ → ℝ => stickSeq v j) := by
  unfold stickSeq
  refine (measurable_pi_apply j).mul (Finset.measurable_prod _ fun l _ => ?_)
  exact measurable_const.sub (measurable_pi_apply l)

section kernel
variable (lp : (Fin m → ℝ) → Atom → WithBot ℝ) (y : Fin n → Fin m → ℝ) (d δ : Fin n → ℕ)

/-- The probability of the labels `δ` for given slice variables. -/
noncomputable def sliceKer (q : ℕ) (U : ℕ → ℝ) (z : Params Atom) : ℝ≥0∞ :=
  ∏ i, sliceKernel (stickSeq z.2) (dens lp z.1 (y i)) (stickSeq z.2 (d i) * U (q + i)) (δ i)

/-- The probability of the labels `δ`. -/
noncomputable def labelKer (z : Params Atom) : ℝ≥0∞ := ∏ i, ∫⁻ x, sliceKernel (stickSeq z.2) (dens lp z.1 (y i)) (stickSeq z.2 (d i) * x) (δ i) ∂unifLaw

/-- Weights times densities. -/
noncomputable def stickMass (z : Params Atom) : ℝ≥0∞ := ∏ i, ENNReal.ofReal (stickSeq z.2 (d i)) * obsDens lp (y i) (z.1 (d i))

variable {lp y} (hlp : ∀ i, Measurable (obsDens lp (y i)))
include hlp

theorem measurable_factor (i : Fin n) (a b : ℕ) :
    Measurable fun q : Params Atom × ℝ => sliceKernel (stickSeq q.1.2) (dens lp q.1.1 (y i)) (stickSeq q.1.2 a * q.2) b := by
  have hterm : ∀ k : ℕ, Measurable fun q : Params Atom × ℝ => if stickSeq q.1.2 a * q.2 < stickSeq q.1.2 k then dens lp q.1.1 (y i) k else 0 := by
    intro k
    refine Measurable.ite (measurableSet_lt ?_ ?_) ?_ measurable_const
    · exact ((measurable_stickSeq a).comp (measurable_snd.comp measurable_fst)).mul measurable_snd
    · exact (measurable_stickSeq k).comp (measurable_snd.comp measurable_fst)
    · exact (hlp i).comp ((measurable_pi_apply k).comp (measurable_fst.comp measurable_fst))
  unfold sliceKernel sliceMass
  exact (hterm b).div (Measurable.tsum hterm)

theorem measurable_sliceKer (q : ℕ) : Measurable fun x : (ℕ → ℝ) × Params Atom => sliceKer lp y d δ q x.1 x.2 := by
  unfold sliceKer
  refine Finset.measurable_prod _ fun i _ => ?_
  exact (measurable_factor hlp i (d i) (δ i)).comp (measurable_snd.prodMk ((measurable_pi_apply _).comp measurable_fst))

theorem measurable_sliceKer_left (q : ℕ) (z : Params Atom) : Measurable fun U : ℕ → ℝ => sliceKer lp y d δ q U z := by
  have hpair : Measurable (fun U : ℕ → ℝ => (U, z)) := measurable_id.prodMk measurable_const
  have h := (measurable_sliceKer d δ hlp q).comp hpair
  rwa [Function.comp_def] at h

theorem measurable_labelKer : Measurable (labelKer lp y d δ) := by
  unfold labelKer
  exact Finset.measurable_prod _ fun i _ => (measurable_factor hlp i (d i) (δ i)).lintegral_prod_right'

theorem measurable_stickMass : Measurable (stickMass lp y d) := by
  unfold stickMass
  refine Finset.measurable_prod _ fun i _ => ?_
  exact (((measurable_stickSeq _).comp measurable_snd).ennreal_ofReal).mul ((hlp i).comp ((measurable_pi_apply _).comp measurable_fst))

omit hlp [MeasurableSpace Atom] in
theorem lintegral_sliceKer (q : ℕ) (z : Params Atom) : ∫⁻ U, sliceKer lp y d δ q U z ∂streamLaw = labelKer lp y d δ z := by
  have hm : ∀ i : Fin n, Measurable (fun x => sliceKernel (stickSeq z.2) (dens lp z.1 (y i)) (stickSeq z.2 (d i) * x) (δ i)) := fun i =>
    (measurable_sliceKernel _ _ (δ i)).comp (measurable_const_mul _)
  have hind : iIndepFun (fun (i : Fin n) (U : ℕ → ℝ) => sliceKernel (stickSeq z.2) (dens lp z.1 (y i)) (stickSeq z.2 (d i) * U (q + i)) (δ i)) streamLaw :=
    (streamLaw_indep.precomp (g := fun i : Fin n => q + i) (fun a b h => Fin.ext (by simpa using h))).comp _ hm
  unfold sliceKer labelKer
  rw [lintegral_prod_eq_prod_lintegral_of_indepFun Finset.univ _ hind fun i => (hm i).comp (measurable_pi_apply _)]
  refine Finset.prod_congr rfl fun i _ => ?_
  rw [← Measure.infinitePi_map_eval (fun _ : ℕ => unifLaw) (q + i), lintegral_map (hm i) (measurable_pi_apply _)]
  rfl

omit hlp [MeasurableSpace Atom]

/-- The label step keeps the conditional law of the labels. -/
theorem tsum_labelKer {z : Params Atom} (hz : ∀ j, 0 ≤ stickSeq z.2 j) (hsum : HasSum (stickSeq z.2) 1) : ∑' d, stickMass lp y d z * labelKer lp y d δ z = stickMass lp y δ z := by
  have h1 : ∀ d, stickMass lp y d z * labelKer lp y d δ z = ∏ i, (ENNReal.ofReal (stickSeq z.2 (d i)) * dens lp z.1 (y i) (d i)) *
      ∫⁻ x, sliceKernel (stickSeq z.2) (dens lp z.1 (y i)) (stickSeq z.2 (d i) * x) (δ i) ∂unifLaw := fun d => by
    rw [stickMass, labelKer, ← Finset.prod_mul_distrib]
    rfl
  simp_rw [h1]
  rw [tsum_pi_prod (fun i j => (ENNReal.ofReal (stickSeq z.2 j) * dens lp z.1 (y i) j) * ∫⁻ x, sliceKernel (stickSeq z.2) (dens lp z.1 (y i)) (stickSeq z.2 j * x) (δ i) ∂unifLaw)]
  refine Finset.prod_congr rfl fun i _ => ?_
  exact slice_invariant hz (fun j => ENNReal.ofReal_ne_top) (finite_above hsum) (δ i)

/-- The probabilities of the labels sum to one. -/
theorem tsum_sliceKer {q : ℕ} {U : ℕ → ℝ} (hU : ∀ p, 0 < U p ∧ U p < 1) {z : Params Atom} (hsum : HasSum (stickSeq z.2) 1) (hpos : ∀ i, 0 < stickSeq z.2 (d i))
    (hden : ∀ i, lp (y i) (z.1 (d i)) ≠ ⊥) : ∑' δ, sliceKer lp y d δ q U z = 1 := by
  unfold sliceKer
  rw [tsum_pi_prod (fun i j => sliceKernel (stickSeq z.2) (dens lp z.1 (y i)) (stickSeq z.2 (d i) * U (q + i)) j)]
  refine Finset.prod_eq_one fun i _ => ?_
  unfold sliceKernel
  simp_rw [div_eq_mul_inv]
  rw [ENNReal.tsum_mul_right]
  have hlt : stickSeq z.2 (d i) * U (q + i) < stickSeq z.2 (d i) := by
    have := mul_lt_mul_of_pos_left (hU (q + i)).2 (hpos i)
    rwa [mul_one] at this
  refine ENNReal.mul_inv_cancel (fun h0 => ?_) (sliceMass_ne_top (fun j => ENNReal.ofReal_ne_top) (finite_above hsum _ (mul_pos (hpos i) (hU _).1)))
  have := ENNReal.tsum_eq_zero.1 h0 (d i)
  rw [if_pos hlt] at this
  exact (ENNReal.ofReal_pos.2 (botExp_pos (hden i))).ne' this

/-- Components that do not reach the slice levels do not matter. -/
theorem sliceKer_congr {q T : ℕ} {U : ℕ → ℝ} {z z' : Params Atom} (hv : ∀ j, 0 ≤ z.2 j ∧ z.2 j ≤ 1) (hv' : ∀ j, 0 ≤ z'.2 j ∧ z'.2 j ≤ 1) (hdT : ∀ i, d i < T) (hT : Covers (stickSeq z.2) d U q T)
    (h1 : ∀ j < T, z'.1 j = z.1 j) (h2 : ∀ j < T, z'.2 j = z.2 j) : sliceKer lp y d δ q U z' = sliceKer lp y d δ q U z := by
  have hw : ∀ j < T, stickSeq z'.2 j = stickSeq z.2 j := fun j hj => by
    unfold stickSeq
    rw [h2 j hj]
    congr 1
    exact Finset.prod_congr rfl fun l hl => by rw [h2 l ((Finset.mem_range.1 hl).trans hj)]
  have hT' : Covers (stickSeq z'.2) d U q T := fun i => by
    rw [Finset.sum_congr rfl fun j hj => hw j (Finset.mem_range.1 hj), hw _ (hdT i)]
    exact hT i
  have hite : ∀ i k, (if stickSeq z'.2 (d i) * U (q + i) < stickSeq z'.2 k then dens lp z'.1 (y i) k else 0) = if stickSeq z.2 (d i) * U (q + i) < stickSeq z.2 k then dens lp z.1 (y i) k else 0 := by
    intro i k
    by_cases hk : k < T
    · rw [hw k hk, hw _ (hdT i)]
      unfold dens
      rw [h1 k hk]
    · rw [if_neg (not_lt.2 (covers_above hv' hT' (not_lt.1 hk) i)), if_neg (not_lt.2 (covers_above hv hT (not_lt.1 hk) i))]
  unfold sliceKer sliceKernel sliceMass
  refine Finset.prod_congr rfl fun i _ => ?_
  rw [hite i (δ i)]
  simp_rw [hite i]

end kernel

/-! ### The mean of a step -/

/-- The stored labels. -/
def labelsOf (n : ℕ) (l : List ℕ) : Fin n → ℕ := fun i => (l[(i : ℕ)]?).getD 0

theorem labelsOf_ofFn (d : Fin n → ℕ) : labelsOf n (List.ofFn d) = d := by
  funext i
  simp [labelsOf]

/-- The stored atoms, and `x` for the others. -/
def extAtoms (th : List (ℕ × Atom)) (x : ℕ → Atom) (j : ℕ) : Atom := (th.lookup j).getD (x j)

/-- The stored sticks, and `v` for the others. -/
def extSticks (vs : List ℝ) (v : ℕ → ℝ) (j : ℕ) : ℝ := (vs[j]?).getD (v j)

variable {C0 : WeightCore ℝ}

/-- The mean of `φ` for the labels, atoms and sticks of an object, when those atoms and sticks that it does not store are drawn from their prior laws. -/
noncomputable def heldMean (A : AtomGen m Atom) (p : NIW ℝ m) (f : StickParams) (getV : C0.State → List ℝ) (φ : (Fin n → ℕ) → Params Atom → ℝ≥0∞) (s : GM C0.inheritTail m Atom × ℕ) : ℝ≥0∞ :=
  ∫⁻ v, ∫⁻ x, φ (labelsOf n s.1.d) (extAtoms s.1.theta x, extSticks (getV s.1.wst.1) v) ∂(Measure.infinitePi (fun _ : ℕ => A.law p)) ∂(Measure.infinitePi f.prior)

/-- The value of `F` in the state after a call; `0` if the call raises. -/
def outcome {S : Type} (F : S → ℝ≥0∞) : Except PyErr Unit × S → ℝ≥0∞
  | (.ok _, s) => F s
  | (.error _, _) => 0

/-- The mean of `F` after a Gibbs step from the state `s`: over the slice variables `U`, the generator of the weights, the draws of the atoms and the Gumbel noise.  The loop of `tail` may run for any
number of rounds. -/
noncomputable def stepMean (nz : ℝ → ℝ) (W : World ℝ m Atom) (A : AtomGen m Atom) (G : RandGen) (F : GM C0.inheritTail m Atom × ℕ → ℝ≥0∞) (s : GM C0.inheritTail m Atom × ℕ) : ℝ≥0∞ :=
  ∫⁻ U, ∫⁻ u, ∫⁻ X, ∫⁻ g, ⨆ k : ℕ, outcome F (gibbsStep (withNoise (withSlices (withAtoms W A X) (fun _ => k) U) (fun i => nz (g i))) (G.oracle u) s)
    ∂streamLaw ∂(Measure.infinitePi (fun _ : ℕ => A.ν)) ∂G.P ∂streamLaw

/-- The law of the atoms that a step uses. -/
noncomputable def atomNew (A : AtomGen m Atom) (y : Fin n → Fin m → ℝ) (p : NIW ℝ m) (d : Fin n → ℕ) (th : List (ℕ × Atom)) (j : ℕ) : Measure Atom :=
  if j ∈ List.ofFn d then A.law (posteriorNIW (rowsWith (List.ofFn y) (List.ofFn d) j) p)
  else match th.lookup j with
    | some a => Measure.dirac a
    | none => A.law p

instance (A : AtomGen m Atom) (y : Fin n → Fin m → ℝ) (p : NIW ℝ m) (d : Fin n → ℕ) (th : List (ℕ × Atom)) (j : ℕ) : IsProbabilityMeasure (atomNew A y p d th j) := by
  unfold atomNew
  split
  · infer_instance
  · cases th.lookup j <;> infer_instance

/-- The label step: mean of `φ` over the new labels. -/
noncomputable def labelStep (lp : (Fin m → ℝ) → Atom → WithBot ℝ) (y : Fin n → Fin m → ℝ) (φ : (Fin n → ℕ) → Params Atom → ℝ≥0∞) (d : Fin n → ℕ) (z : Params Atom) : ℝ≥0∞ :=
  ∑' δ, φ δ z * labelKer lp y d δ z

/-- The stopping time of the loop of `tail` is `k`. -/
def stopEv (d : Fin n → ℕ) (U : ℕ → ℝ) (q N k : ℕ) : Set (ℕ → ℝ) :=
  {v | N ≤ k ∧ Covers (stickSeq v) d U q k ∧ ∀ i, N ≤ i → i < k → ¬ Covers (stickSeq v) d U q i}

theorem measurable_covers (d : Fin n → ℕ) (U : ℕ → ℝ) (q k : ℕ) : MeasurableSet {v : ℕ → ℝ | Covers (stickSeq v) d U q k} := by
  unfold Covers
  have h : {v : ℕ → ℝ | ∀ i : Fin n, 1 - ∑ j ∈ Finset.range k, stickSeq v j ≤ stickSeq v (d i) * U (q + i)} =
      ⋂ i : Fin n, {v : ℕ → ℝ | 1 - ∑ j ∈ Finset.range k, stickSeq v j ≤ stickSeq v (d i) * U (q + i)} := by
    ext v
    simp
  rw [h]
  refine MeasurableSet.iInter fun i => measurableSet_le ?_ ?_
  · exact measurable_const.sub (Finset.measurable_sum _ fun j _ => measurable_stickSeq j)
  · exact (measurable_stickSeq _).mul_const _

theorem measurable_stopEv (d : Fin n → ℕ) (U : ℕ → ℝ) (q N k : ℕ) : MeasurableSet (stopEv d U q N k) := by
  by_cases hN : N ≤ k
  · have h : stopEv d U q N k = {v : ℕ → ℝ | Covers (stickSeq v) d U q k} ∩ ⋂ i : ℕ, ⋂ _ : N ≤ i, ⋂ _ : i < k, {v : ℕ → ℝ | Covers (stickSeq v) d U q i}ᶜ := by
      ext v
      simp only [stopEv, hN, true_and, Set.mem_inter_iff, Set.mem_iInter, Set.mem_compl_iff, Set.mem_ofPred_eq]
    rw [h]
    refine (measurable_covers d U q k).inter (MeasurableSet.iInter fun i => MeasurableSet.iInter fun _ => MeasurableSet.iInter fun _ => (measurable_covers d U q i).compl)
  · have h : stopEv d U q N k = ∅ := by
      ext v
      simp [stopEv, hN]
    rw [h]
    exact MeasurableSet.empty

theorem stickSeq_congr {v v' : ℕ → ℝ} {k : ℕ} (h : ∀ j < k, v j = v' j) {j : ℕ} (hj : j < k) : stickSeq v j = stickSeq v' j := by
  unfold stickSeq
  rw [h j hj]
  congr 1
  exact Finset.prod_congr rfl fun l hl => by rw [h l ((Finset.mem_range.1 hl).trans hj)]

theorem covers_congr {d : Fin n → ℕ} {U : ℕ → ℝ} {q k : ℕ} (hd : ∀ i, d i < k) {v v' : ℕ → ℝ} (h : ∀ j < k, v j = v' j) : Covers (stickSeq v) d U q k ↔ Covers (stickSeq v') d U q k := by
  unfold Covers
  refine forall_congr' fun i => ?_
  rw [Finset.sum_congr rfl fun j hj => stickSeq_congr h (Finset.mem_range.1 hj), stickSeq_congr h (hd i)]

theorem stopEv_congr {d : Fin n → ℕ} {U : ℕ → ℝ} {q N : ℕ} (hd : ∀ i, d i < N) (k : ℕ) (v v' : ℕ → ℝ) (h : ∀ j < k, v j = v' j) : v ∈ stopEv d U q N k ↔ v' ∈ stopEv d U q N k := by
  simp only [stopEv, Set.mem_ofPred_eq]
  by_cases hN : N ≤ k
  · rw [covers_congr (fun i => (hd i).trans_le hN) h]
    refine and_congr_right fun _ => and_congr_right fun _ => forall_congr' fun i => forall_congr' fun h1 => forall_congr' fun h2 => not_congr ?_
    exact covers_congr (fun i' => (hd i').trans_le h1) fun j hj => h j (hj.trans h2)
  · simp [hN]

theorem stopEv_unique {d : Fin n → ℕ} {U : ℕ → ℝ} {q N : ℕ} (v : ℕ → ℝ) (i j : ℕ) (hi : v ∈ stopEv d U q N i) (hj : v ∈ stopEv d U q N j) : i = j := by
  rcases lt_trichotomy i j with h | h | h
  · exact absurd hi.2.1 (hj.2.2 i hi.1 h)
  · exact h
  · exact absurd hj.2.1 (hi.2.2 j hj.1 h)

theorem stopEv_exists {d : Fin n → ℕ} {U : ℕ → ℝ} (hU : ∀ p, 0 < U p ∧ U p < 1) {q N : ℕ} {v : ℕ → ℝ} (hsum : HasSum (stickSeq v) 1) (hpos : ∀ i, 0 < stickSeq v (d i)) :
    ∃ k, v ∈ stopEv d U q N k := by
  classical
  have hex : ∃ k, N ≤ k ∧ Covers (stickSeq v) d U q k := by
    have h1 : ∀ i : Fin n, ∀ᶠ k in Filter.atTop, 1 - ∑ j ∈ Finset.range k, stickSeq v j ≤ stickSeq v (d i) * U (q + i) := by
      intro i
      have hp := mul_pos (hpos i) (hU (q + i)).1
      have := hsum.tendsto_sum_nat.eventually (lt_mem_nhds (show 1 - stickSeq v (d i) * U (q + i) < 1 by linarith))
      filter_upwards [this] with k hk
      linarith
    have h2 := (Filter.eventually_all.2 h1).and (Filter.eventually_ge_atTop N)
    obtain ⟨k, hk⟩ := h2.exists
    exact ⟨k, hk.2, hk.1⟩
  refine ⟨Nat.find hex, (Nat.find_spec hex).1, (Nat.find_spec hex).2, fun i h1 h2 h3 => ?_⟩
  exact Nat.find_min hex h2 ⟨h1, h3⟩

section step
variable {lp : (Fin m → ℝ) → Atom → WithBot ℝ} {f : StickParams} {getV : C0.State → List ℝ} {Inv : C0.State → Prop} {W : World ℝ m Atom} {A : AtomGen m Atom} {y : Fin n → Fin m → ℝ}
  {p : NIW ℝ m} {d : Fin n → ℕ} {s : GM C0.inheritTail m Atom × ℕ} {nz : ℝ → ℝ}

theorem mem_ofFn_iff (d : Fin n → ℕ) (j : ℕ) : j ∈ List.ofFn d ↔ ∃ i, d i = j := List.mem_ofFn' _ _

/-- The law of the atoms that a step uses. -/
theorem lazyAtoms_law (A : AtomGen m Atom) (y : Fin n → Fin m → ℝ) (p : NIW ℝ m) (d : Fin n → ℕ) (th : List (ℕ × Atom)) (pos : ℕ) : Measurable (fun X => lazyAtoms A y p d th pos X) ∧
    (Measure.infinitePi (fun _ : ℕ => A.ν)).map (fun X => lazyAtoms A y p d th pos X) = Measure.infinitePi (atomNew A y p d th) := by
  classical
  have hne : Nonempty A.Seed := by
    by_contra h
    rw [not_nonempty_iff] at h
    have := measure_univ (μ := A.ν)
    rw [Set.eq_empty_of_isEmpty Set.univ, measure_empty] at this
    exact zero_ne_one this
  let a0 : Atom := A.draw p hne.some
  let O : ℕ → Prop := fun j => j ∈ List.ofFn d ∨ th.lookup j = none
  let e : ℕ → ℕ := fun j => if j ∈ List.ofFn d then pos + labelRank (List.ofFn d) j else missPos (missing d th) (pos + (npUnique (List.ofFn d)).length + n) j
  let F : ℕ → A.Seed → Atom := fun j => if j ∈ List.ofFn d then A.draw (posteriorNIW (rowsWith (List.ofFn y) (List.ofFn d) j) p) else A.draw p
  let θ0 : ℕ → Atom := fun j => (th.lookup j).getD a0
  have hform : (fun X => lazyAtoms A y p d th pos X) = fun X j => if O j then F j (X (e j)) else θ0 j := by
    funext X j
    simp only [lazyAtoms, O, e, F, θ0]
    by_cases hj : j ∈ List.ofFn d
    · simp only [hj, if_true, true_or]
    · simp only [hj, if_false, false_or]
      cases th.lookup j <;> simp
  have hF : ∀ j, Measurable (F j) := fun j => by
    simp only [F]
    split <;> exact A.meas _
  have hmiss : ∀ j, j ∉ List.ofFn d → th.lookup j = none → missing d th j = true := fun j h1 h2 => by simp [missing, h1, h2]
  have hrank : ∀ j, j ∈ List.ofFn d → labelRank (List.ofFn d) j < (npUnique (List.ofFn d)).length := fun j hj => by
    rw [← labelRank_eq hj]
    exact List.idxOf_lt_length_iff.2 (mem_npUnique.2 hj)
  have hge : ∀ j, pos + (npUnique (List.ofFn d)).length + n ≤ missPos (missing d th) (pos + (npUnique (List.ofFn d)).length + n) j := fun j => missPos_mono _ _ (Nat.zero_le j)
  have he : ∀ i j, O i → O j → e i = e j → i = j := by
    intro i j hi hj hij
    simp only [e] at hij
    by_cases h1 : i ∈ List.ofFn d <;> by_cases h2 : j ∈ List.ofFn d
    · rw [if_pos h1, if_pos h2] at hij
      rcases lt_trichotomy i j with hlt | he | hlt
      · have := C67_distinct (List.ofFn d) h1 hlt; omega
      · exact he
      · have := C67_distinct (List.ofFn d) h2 hlt; omega
    · rw [if_pos h1, if_neg h2] at hij
      have := hrank i h1
      have := hge j
      omega
    · rw [if_neg h1, if_pos h2] at hij
      have := hrank j h2
      have := hge i
      omega
    · rw [if_neg h1, if_neg h2] at hij
      have m1 := hmiss i h1 (hi.resolve_left h1)
      have m2 := hmiss j h2 (hj.resolve_left h2)
      rcases lt_trichotomy i j with hlt | he | hlt
      · have := missPos_lt _ (pos + (npUnique (List.ofFn d)).length + n) m1 hlt; omega
      · exact he
      · have := missPos_lt _ (pos + (npUnique (List.ofFn d)).length + n) m2 hlt; omega
  rw [hform]
  refine ⟨measurable_pi_lambda _ fun j => ?_, stream_seq A.ν O e he F hF θ0 (atomNew A y p d th) (fun j hj => ?_) (fun j hj => ?_)⟩
  · split
    · exact (hF j).comp (measurable_pi_apply _)
    · exact measurable_const
  · simp only [atomNew, F]
    by_cases h1 : j ∈ List.ofFn d
    · simp only [h1, if_true]; rfl
    · simp only [h1, if_false, hj.resolve_left h1]; rfl
  · simp only [O, not_or] at hj
    simp only [atomNew, θ0, hj.1, if_false]
    cases hlk : th.lookup j with
    | none => exact absurd hlk hj.2
    | some a => rfl

omit [MeasurableSpace Atom] in
/-- The loop runs long enough for some number of rounds. -/
theorem iSup_outcome {ω : Oracle ℝ} {Wk : ℕ → World ℝ m Atom} {W0 : World ℝ m Atom} (hWk : ∀ k, Wk k = { W0 with fuel := k }) {T : ℕ} {r : GM C0.inheritTail m Atom × ℕ}
    (h : ∀ k, T ≤ k → gibbsStep (Wk k) ω s = (.ok (), r)) (F : GM C0.inheritTail m Atom × ℕ → ℝ≥0∞) : ⨆ k : ℕ, outcome F (gibbsStep (Wk k) ω s) = F r := by
  apply le_antisymm
  · refine iSup_le fun k => ?_
    rcases le_total T k with hk | hk
    · rw [h k hk]; rfl
    · cases hr : gibbsStep (Wk k) ω s with
      | mk a b =>
        cases a with
        | error e => exact zero_le
        | ok u =>
          rw [hWk] at hr
          have := gibbsStep_more (W := W0) hk hr
          rw [← hWk, h T le_rfl] at this
          cases this
          rfl
  · refine le_iSup_of_le T ?_
    rw [h T le_rfl]
    rfl

variable (hlp : ∀ i, Measurable (obsDens lp (y i)))
include hlp

theorem lazyAtoms_dens (hcj : Conjugate A lp p) (th : List (ℕ × Atom)) (pos : ℕ) :
    ∀ᵐ X ∂Measure.infinitePi (fun _ : ℕ => A.ν), ∀ i, lp (y i) (lazyAtoms A y p d th pos X (d i)) ≠ ⊥ := by
  rw [ae_all_iff]
  intro i
  have hrows : rowsWith (List.ofFn y) (List.ofFn d) (d i) ≠ [] := by
    intro h0
    unfold rowsWith at h0
    rw [List.filterMap_eq_nil_iff] at h0
    have hmem : (y i, d i) ∈ (List.ofFn y).zip (List.ofFn d) := by
      refine List.mem_iff_getElem.2 ⟨i, by simp, by simp⟩
    have := h0 _ hmem
    simp at this
  have hin : y i ∈ rowsWith (List.ofFn y) (List.ofFn d) (d i) := by
    unfold rowsWith
    refine List.mem_filterMap.2 ⟨(y i, d i), List.mem_iff_getElem.2 ⟨i, by simp, by simp⟩, by simp⟩
  have hall : ∀ x ∈ rowsWith (List.ofFn y) (List.ofFn d) (d i), Measurable (obsDens lp x) := by
    intro x hx
    unfold rowsWith at hx
    obtain ⟨⟨x', j'⟩, h1, h2⟩ := List.mem_filterMap.1 hx
    obtain ⟨i', rfl⟩ := (List.mem_ofFn' _ _).1 (List.of_mem_zip h1).1
    simp only [Option.ite_none_right_eq_some, Option.some.injEq] at h2
    rw [← h2.2]
    exact hlp i'
  have hmeas : ∀ l : List (Fin m → ℝ), (∀ x ∈ l, Measurable (obsDens lp x)) → Measurable (fun a => (l.map (fun x => obsDens lp x a)).prod) := by
    intro l
    induction l with
    | nil => intro _; simp only [List.map_nil, List.prod_nil]; exact measurable_const
    | cons x l ih =>
      intro h
      simp only [List.map_cons, List.prod_cons]
      exact (h x (by simp)).mul (ih fun z hz => h z (by simp [hz]))
  have h1 := posterior_ae_ne_zero (μ := A.law p) (hmeas _ hall)
  rw [← hcj _ hrows] at h1
  have h2 := ae_of_ae_map (A.meas _).aemeasurable h1
  have hev : (Measure.infinitePi (fun _ : ℕ => A.ν)).map (fun X : ℕ → A.Seed => X (pos + labelRank (List.ofFn d) (d i))) = A.ν := Measure.infinitePi_map_eval _ _
  rw [← hev] at h2
  have h3 := ae_of_ae_map (measurable_pi_apply _).aemeasurable h2
  filter_upwards [h3] with X hX hbot
  refine hX (List.prod_eq_zero (List.mem_map.2 ⟨y i, hin, ?_⟩))
  unfold lazyAtoms at hbot
  rw [if_pos ((mem_ofFn_iff d (d i)).2 ⟨i, rfl⟩)] at hbot
  unfold obsDens
  rw [hbot]
  exact ENNReal.ofReal_zero

variable (hnz : IsGumbel nz) (hW : W.logpdf = lp) (hcl : StickClass C0 f getV Inv) (heps : W.eps = 0) (hn : 2 ≤ n)
include hnz hW hcl heps hn

/-- The mean over the Gumbel noise. -/
theorem noise_mean {φ : (Fin n → ℕ) → Params Atom → ℝ≥0∞} (hφ : ∀ δ, Measurable (φ δ)) (h : StickHolds y p Inv s.1 d) {ω : Oracle ℝ} {X : ℕ → A.Seed} {v : ℕ → ℝ}
    (hv' : v = stickDraw f (List.ofFn d) ω s.1.wst.2) (hv : ∀ j, v j ∈ Set.Ioo (0 : ℝ) 1) (hsum : HasSum (stickSeq v) 1) {θ : ℕ → Atom} (hθ : θ = lazyAtoms A y p d s.1.theta s.2 X)
    (hden : ∀ i, lp (y i) (θ (d i)) ≠ ⊥) {U : ℕ → ℝ} (hU : ∀ p, 0 < U p ∧ U p < 1) {q : ℕ} (hq : q = s.2 + (npUnique (List.ofFn d)).length) {k : ℕ} (hk : v ∈ stopEv d U q (topLabel (List.ofFn d)) k) :
    ∫⁻ g, ⨆ k : ℕ, outcome (heldMean A p f getV φ) (gibbsStep (withNoise (withSlices (withAtoms W A X) (fun _ => k) U) (fun i => nz (g i))) ω s) ∂streamLaw =
      ∫⁻ v', ∫⁻ x', ∑' δ, φ δ (mixSeq (fun j => j < k ∨ missing d s.1.theta j = false) θ x', mixSeq (· < k) v v') *
        sliceKer lp y d δ q U (mixSeq (fun j => j < k ∨ missing d s.1.theta j = false) θ x', mixSeq (· < k) v v') ∂(Measure.infinitePi (fun _ : ℕ => A.law p)) ∂(Measure.infinitePi f.prior) := by
  subst hW
  have hv01 : ∀ j, 0 ≤ v j ∧ v j ≤ 1 := fun j => ⟨(hv j).1.le, (hv j).2.le⟩
  have hpos : ∀ j, 0 < stickSeq v j := fun j => mul_pos (hv j).1 (Finset.prod_pos fun l _ => by linarith [(hv l).2])
  obtain ⟨R, hR1, hR2, hR3, hR4, hR5⟩ := stick_run hnz hcl heps hn h X hv' hv01 (fun i => hpos _) hθ hden hU hq hk.1 hk.2.1 hk.2.2
  have hsup : ∀ g : ℕ → ℝ, ⨆ k : ℕ, outcome (heldMean A p f getV φ) (gibbsStep (withNoise (withSlices (withAtoms W A X) (fun _ => k) U) (fun i => nz (g i))) ω s) =
      heldMean A p f getV φ (R fun i => nz (g i)) := fun g =>
    iSup_outcome (W0 := withNoise (withSlices (withAtoms W A X) (fun _ => 0) U) (fun i => nz (g i))) (fun _ => rfl) (fun k' hk' => hR1 k' hk' _) _
  simp_rw [hsup]
  set O : ℕ → Prop := fun j => j < k ∨ missing d s.1.theta j = false with hO
  have hst : ∀ g v' x', (extAtoms (R g).1.theta x', extSticks (getV (R g).1.wst.1) v') = ((mixSeq O θ x', mixSeq (· < k) v v') : Params Atom) := by
    intro g v' x'
    refine Prod.ext ?_ ?_
    · funext j
      show ((R g).1.theta.lookup j).getD (x' j) = if O j then θ j else x' j
      rw [hR3 g j]
      by_cases hj : O j
      · rw [if_pos hj, if_pos hj]; rfl
      · rw [if_neg hj, if_neg hj]; rfl
    · funext j
      show ((getV (R g).1.wst.1)[j]?).getD (v' j) = if j < k then v j else v' j
      rw [hR4 g, List.getElem?_map]
      by_cases hj : j < k
      · rw [List.getElem?_range hj, if_pos hj]; rfl
      · rw [List.getElem?_eq_none (by simpa using hj), if_neg hj]; rfl
  have hH : ∀ g : ℕ → ℝ, heldMean A p f getV φ (R fun i => nz (g i)) =
      (fun δ => ∫⁻ v', ∫⁻ x', φ δ (mixSeq O θ x', mixSeq (· < k) v v') ∂(Measure.infinitePi (fun _ : ℕ => A.law p)) ∂(Measure.infinitePi f.prior)) (labelsOf n (R fun i => nz (g i)).1.d) := by
    intro g
    unfold heldMean
    simp_rw [hst]
  simp_rw [hH]
  have hset : ∀ δ, {g : ℕ → ℝ | labelsOf n (R fun i => nz (g i)).1.d = δ} = {g | (R fun i => nz (g i)).1.d = List.ofFn δ} := by
    intro δ
    ext g
    obtain ⟨δ', hδ'⟩ := hR2 fun i => nz (g i)
    simp only [Set.mem_ofPred_eq]
    rw [hδ'.2.1, labelsOf_ofFn]
    exact ⟨fun e => by rw [e], fun e => by have := congrArg (labelsOf n) e; rwa [labelsOf_ofFn, labelsOf_ofFn] at this⟩
  have hprob : ∀ δ, streamLaw {g : ℕ → ℝ | labelsOf n (R fun i => nz (g i)).1.d = δ} = sliceKer W.logpdf y d δ q U (θ, v) := fun δ => by rw [hset, hR5 δ]; rfl
  rw [lintegral_discrete streamLaw (fun g : ℕ → ℝ => labelsOf n (R fun i => nz (g i)).1.d) (by
    simp_rw [hprob]
    exact tsum_sliceKer d hU (z := (θ, v)) hsum (fun i => hpos _) hden)
    (fun δ => ∫⁻ v', ∫⁻ x', φ δ (mixSeq O θ x', mixSeq (· < k) v v') ∂(Measure.infinitePi (fun _ : ℕ => A.law p)) ∂(Measure.infinitePi f.prior))]
  simp_rw [hprob]
  have hdk : ∀ i, d i < k := fun i => (lt_topLabel ((List.mem_ofFn' _ _).2 ⟨i, rfl⟩)).trans_le hk.1
  have hmp : Measurable (fun z : (ℕ → ℝ) × (ℕ → Atom) => ((mixSeq O θ z.2, mixSeq (· < k) v z.1) : Params Atom)) := by
    refine Measurable.prodMk ?_ ?_
    · exact (measurable_mixSeq O).comp (measurable_const.prodMk measurable_snd)
    · exact (measurable_mixSeq (· < k)).comp (measurable_const.prodMk measurable_fst)
  -- the kernel does not see the new coordinates
  have hR : ∫⁻ v', ∫⁻ x', ∑' δ, φ δ (mixSeq O θ x', mixSeq (· < k) v v') * sliceKer W.logpdf y d δ q U (mixSeq O θ x', mixSeq (· < k) v v') ∂(Measure.infinitePi (fun _ : ℕ => A.law p)) ∂(Measure.infinitePi f.prior) =
      ∫⁻ v', ∫⁻ x', ∑' δ, φ δ (mixSeq O θ x', mixSeq (· < k) v v') * sliceKer W.logpdf y d δ q U (θ, v) ∂(Measure.infinitePi (fun _ : ℕ => A.law p)) ∂(Measure.infinitePi f.prior) := by
    refine lintegral_congr_ae ?_
    filter_upwards [prior_unit f] with v' hv'
    refine lintegral_congr fun x' => tsum_congr fun δ => ?_
    rw [sliceKer_congr d δ (z := (θ, v)) (z' := (mixSeq O θ x', mixSeq (· < k) v v')) hv01 (fun j => ?_) hdk hk.2.1 (fun j hj => ?_) (fun j hj => ?_)]
    · show 0 ≤ mixSeq (· < k) v v' j ∧ mixSeq (· < k) v v' j ≤ 1
      unfold mixSeq
      split
      · exact hv01 j
      · exact ⟨(hv' j).1.le, (hv' j).2.le⟩
    · show mixSeq O θ x' j = θ j
      unfold mixSeq
      rw [if_pos (.inl hj)]
    · show mixSeq (· < k) v v' j = v j
      unfold mixSeq
      rw [if_pos hj]
  rw [hR]
  have hφm : ∀ δ v', Measurable (fun x' : ℕ → Atom => φ δ (mixSeq O θ x', mixSeq (· < k) v v') * sliceKer W.logpdf y d δ q U (θ, v)) := fun δ v' =>
    ((hφ δ).comp (hmp.comp (measurable_const.prodMk measurable_id))).mul_const _
  have hφm' : ∀ δ v', Measurable (fun x' : ℕ → Atom => φ δ (mixSeq O θ x', mixSeq (· < k) v v')) := fun δ v' =>
    ((hφ δ).comp (hmp.comp (measurable_const.prodMk measurable_id)))
  have hφi : ∀ δ, Measurable (fun v' : ℕ → ℝ => ∫⁻ x', φ δ (mixSeq O θ x', mixSeq (· < k) v v') ∂(Measure.infinitePi (fun _ : ℕ => A.law p))) := fun δ =>
    ((hφ δ).comp hmp).lintegral_prod_right'
  simp_rw [lintegral_tsum (fun δ => (hφm δ _).aemeasurable), lintegral_mul_const _ (hφm' _ _)]
  rw [lintegral_tsum (fun δ => ((hφi δ).mul_const _).aemeasurable)]
  refine tsum_congr fun δ => ?_
  rw [lintegral_mul_const _ (hφi δ)]

variable (hex : f.Exhausts) (hcj : Conjugate A lp p) (G : RandGen)
include hex hcj

/-- **The mean of a step.** -/
theorem stepMean_held {φ : (Fin n → ℕ) → Params Atom → ℝ≥0∞} (hφ : ∀ δ, Measurable (φ δ)) (h : StickHolds y p Inv s.1 d) :
    stepMean nz W A G (heldMean A p f getV φ) s = ∫⁻ v, ∫⁻ θ, labelStep lp y φ d (θ, v) ∂(Measure.infinitePi (atomNew A y p d s.1.theta)) ∂(Measure.infinitePi (f.post (List.ofFn d))) := by
  classical
  set q := s.2 + (npUnique (List.ofFn d)).length with hq
  set N := topLabel (List.ofFn d) with hN
  let hU : (ℕ → ℝ) → Params Atom → ℝ≥0∞ := fun U z => ∑' δ, φ δ z * sliceKer lp y d δ q U z
  have hUm : Measurable (fun x : (ℕ → ℝ) × Params Atom => hU x.1 x.2) := by
    refine Measurable.tsum fun δ => ?_
    exact ((hφ δ).comp measurable_snd).mul (measurable_sliceKer d δ hlp q)
  have hUz : ∀ U, Measurable (hU U) := fun U => hUm.comp (measurable_const.prodMk measurable_id)
  obtain ⟨hvm, hvl⟩ := stickDraw_law f (List.ofFn d) G s.1.wst.2
  obtain ⟨ham, hal⟩ := lazyAtoms_law A y p d s.1.theta s.2
  have hdN : ∀ i, d i < N := fun i => lt_topLabel ((List.mem_ofFn' _ _).2 ⟨i, rfl⟩)
  have hgood : ∀ᵐ v ∂(Measure.infinitePi (f.post (List.ofFn d))), (∀ j, v j ∈ Set.Ioo (0 : ℝ) 1) ∧ HasSum (stickSeq v) 1 := by
    have h1 : ∀ᵐ v ∂(Measure.infinitePi f.prior), (∀ j, v j ∈ Set.Ioo (0 : ℝ) 1) ∧ HasSum (stickSeq v) 1 := by
      filter_upwards [prior_unit f, hex] with v h1 h2 using ⟨h1, h2⟩
    exact (post_ac f _).ae_le h1
  have hgoodu : ∀ᵐ u ∂G.P, (∀ j, stickDraw f (List.ofFn d) (G.oracle u) s.1.wst.2 j ∈ Set.Ioo (0 : ℝ) 1) ∧ HasSum (stickSeq (stickDraw f (List.ofFn d) (G.oracle u) s.1.wst.2)) 1 := by
    rw [← hvl] at hgood
    exact ae_of_ae_map hvm.aemeasurable hgood
  have hposv : ∀ v : ℕ → ℝ, (∀ j, v j ∈ Set.Ioo (0 : ℝ) 1) → ∀ j, 0 < stickSeq v j := fun v hv j => mul_pos (hv j).1 (Finset.prod_pos fun l _ => by linarith [(hv l).2])
  have hstop : ∀ U : ℕ → ℝ, (∀ p, 0 < U p ∧ U p < 1) → ∀ v : ℕ → ℝ, (∀ j, v j ∈ Set.Ioo (0 : ℝ) 1) → HasSum (stickSeq v) 1 → ∃ k, v ∈ stopEv d U q N k := fun U hU v hv hs =>
    stopEv_exists hU hs fun i => hposv v hv _
  -- for given slice variables
  have hmain : ∀ U : ℕ → ℝ, (∀ p, 0 < U p ∧ U p < 1) →
      ∫⁻ u, ∫⁻ X, ∫⁻ g, ⨆ k : ℕ, outcome (heldMean A p f getV φ) (gibbsStep (withNoise (withSlices (withAtoms W A X) (fun _ => k) U) (fun i => nz (g i))) (G.oracle u) s)
        ∂streamLaw ∂(Measure.infinitePi (fun _ : ℕ => A.ν)) ∂G.P =
      ∫⁻ v, ∫⁻ θ, hU U (θ, v) ∂(Measure.infinitePi (atomNew A y p d s.1.theta)) ∂(Measure.infinitePi (f.post (List.ofFn d))) := by
    intro U hU01
    let h' : (ℕ → ℝ) → ℝ≥0∞ := fun v => ∫⁻ θ, hU U (θ, v) ∂(Measure.infinitePi (atomNew A y p d s.1.theta))
    have hh' : Measurable h' := (hUz U).lintegral_prod_left'
    let H : (ℕ → ℝ) → ℝ≥0∞ := fun v => ∑' k, (stopEv d U q N k).indicator (fun v => ∫⁻ v', h' (mixSeq (· < k) v v') ∂(Measure.infinitePi f.prior)) v
    have hHm : Measurable H := by
      refine Measurable.tsum fun k => Measurable.indicator ?_ (measurable_stopEv d U q N k)
      exact (hh'.comp (measurable_mixSeq (· < k))).lintegral_prod_right'
    have hu : ∀ᵐ u ∂G.P, ∫⁻ X, ∫⁻ g, ⨆ k : ℕ, outcome (heldMean A p f getV φ) (gibbsStep (withNoise (withSlices (withAtoms W A X) (fun _ => k) U) (fun i => nz (g i))) (G.oracle u) s)
        ∂streamLaw ∂(Measure.infinitePi (fun _ : ℕ => A.ν)) = H (stickDraw f (List.ofFn d) (G.oracle u) s.1.wst.2) := by
      filter_upwards [hgoodu] with u ⟨hv, hsum⟩
      set v := stickDraw f (List.ofFn d) (G.oracle u) s.1.wst.2 with hvdef
      obtain ⟨k, hk⟩ := hstop U hU01 v hv hsum
      have hHk : H v = ∫⁻ v', h' (mixSeq (· < k) v v') ∂(Measure.infinitePi f.prior) := by
        show ∑' k, _ = _
        rw [tsum_eq_single k (fun k' hk' => Set.indicator_of_notMem (fun hx => hk' (stopEv_unique v _ _ hx hk)) _), Set.indicator_of_mem hk]
      rw [hHk]
      let O : ℕ → Prop := fun j => j < k ∨ missing d s.1.theta j = false
      have h1 : ∫⁻ X, ∫⁻ g, ⨆ k : ℕ, outcome (heldMean A p f getV φ) (gibbsStep (withNoise (withSlices (withAtoms W A X) (fun _ => k) U) (fun i => nz (g i))) (G.oracle u) s)
          ∂streamLaw ∂(Measure.infinitePi (fun _ : ℕ => A.ν)) =
          ∫⁻ X, (fun θ => ∫⁻ v', ∫⁻ x', hU U (mixSeq O θ x', mixSeq (· < k) v v') ∂(Measure.infinitePi (fun _ : ℕ => A.law p)) ∂(Measure.infinitePi f.prior)) (lazyAtoms A y p d s.1.theta s.2 X)
            ∂(Measure.infinitePi (fun _ : ℕ => A.ν)) := by
        refine lintegral_congr_ae ?_
        filter_upwards [lazyAtoms_dens (d := d) hlp hcj s.1.theta s.2] with X hX
        exact noise_mean hlp hnz hW hcl heps hn hφ h hvdef hv hsum rfl hX hU01 hq hk
      have hm3 : Measurable (fun z : ((ℕ → Atom) × (ℕ → ℝ)) × (ℕ → Atom) => hU U (mixSeq O z.1.1 z.2, mixSeq (· < k) v z.1.2)) := by
        refine (hUz U).comp (Measurable.prodMk ?_ ?_)
        · exact (measurable_mixSeq O).comp ((measurable_fst.comp measurable_fst).prodMk measurable_snd)
        · exact (measurable_mixSeq (· < k)).comp (measurable_const.prodMk (measurable_snd.comp measurable_fst))
      have hm2 : Measurable (fun z : (ℕ → Atom) × (ℕ → ℝ) => ∫⁻ x', hU U (mixSeq O z.1 x', mixSeq (· < k) v z.2) ∂(Measure.infinitePi (fun _ : ℕ => A.law p))) := hm3.lintegral_prod_right'
      have hm1 : Measurable (fun θ : ℕ → Atom => ∫⁻ v', ∫⁻ x', hU U (mixSeq O θ x', mixSeq (· < k) v v') ∂(Measure.infinitePi (fun _ : ℕ => A.law p)) ∂(Measure.infinitePi f.prior)) := hm2.lintegral_prod_right'
      rw [h1, ← lintegral_map hm1 ham, hal]
      refine (lintegral_lintegral_swap (f := fun θ v' => ∫⁻ x', hU U (mixSeq O θ x', mixSeq (· < k) v v') ∂(Measure.infinitePi (fun _ : ℕ => A.law p))) hm2.aemeasurable).trans ?_
      refine lintegral_congr fun v' => ?_
      refine lintegral_mixSeq O (atomNew A y p d s.1.theta) (fun _ => A.law p) (atomNew A y p d s.1.theta) (fun _ _ => rfl) (fun j hj => ?_) (h := fun θ => hU U (θ, mixSeq (· < k) v v'))
        ((hUz U).comp (measurable_id.prodMk measurable_const))
      have hj2 : missing d s.1.theta j = true := by
        cases hm : missing d s.1.theta j with
        | true => rfl
        | false => exact absurd (.inr hm) hj
      unfold missing at hj2
      simp only [Bool.and_eq_true, decide_eq_true_eq, Option.isNone_iff_eq_none] at hj2
      unfold atomNew
      rw [if_neg hj2.1, hj2.2]
    rw [lintegral_congr_ae hu, ← lintegral_map hHm hvm, hvl]
    exact lintegral_stopped_sum (f.post (List.ofFn d)) f.prior (k0 := N) (fun j hj => post_of_top f hj) (fun k => measurable_stopEv d U q N k)
      (fun k hk => by ext v; simp [stopEv, not_le.2 hk]) (fun k v v' hvv => stopEv_congr hdN k v v' hvv) (fun v i j hi hj => stopEv_unique v i j hi hj)
      (by filter_upwards [hgood] with v ⟨h1, h2⟩ using hstop U hU01 v h1 h2) hh'
  unfold stepMean
  have e1 : ∀ᵐ U ∂streamLaw, ∫⁻ u, ∫⁻ X, ∫⁻ g, ⨆ k : ℕ, outcome (heldMean A p f getV φ) (gibbsStep (withNoise (withSlices (withAtoms W A X) (fun _ => k) U) (fun i => nz (g i))) (G.oracle u) s)
        ∂streamLaw ∂(Measure.infinitePi (fun _ : ℕ => A.ν)) ∂G.P =
      ∫⁻ v, ∫⁻ θ, hU U (θ, v) ∂(Measure.infinitePi (atomNew A y p d s.1.theta)) ∂(Measure.infinitePi (f.post (List.ofFn d))) := by
    filter_upwards [stream_unit] with U hU using hmain U hU
  rw [lintegral_congr_ae e1]
  have hm3 : Measurable (fun z : ((ℕ → ℝ) × (ℕ → ℝ)) × (ℕ → Atom) => hU z.1.1 (z.2, z.1.2)) :=
    hUm.comp ((measurable_fst.comp measurable_fst).prodMk (measurable_snd.prodMk (measurable_snd.comp measurable_fst)))
  have hm2 : Measurable (fun z : (ℕ → ℝ) × (ℕ → ℝ) => ∫⁻ θ, hU z.1 (θ, z.2) ∂(Measure.infinitePi (atomNew A y p d s.1.theta))) := hm3.lintegral_prod_right'
  refine (lintegral_lintegral_swap (f := fun U v => ∫⁻ θ, hU U (θ, v) ∂(Measure.infinitePi (atomNew A y p d s.1.theta))) hm2.aemeasurable).trans ?_
  refine lintegral_congr fun v => ?_
  have hm4 : Measurable (fun z : (ℕ → ℝ) × (ℕ → Atom) => hU z.1 (z.2, v)) := hUm.comp (measurable_fst.prodMk (measurable_snd.prodMk measurable_const))
  refine (lintegral_lintegral_swap (f := fun U θ => hU U (θ, v)) hm4.aemeasurable).trans ?_
  refine lintegral_congr fun θ => ?_
  show ∫⁻ U, ∑' δ, φ δ (θ, v) * sliceKer lp y d δ q U (θ, v) ∂streamLaw = _
  have hm5 : ∀ δ, Measurable (fun U => sliceKer lp y d δ q U (θ, v)) := fun δ => measurable_sliceKer_left d δ hlp q _
  rw [lintegral_tsum (fun δ => ((hm5 δ).const_mul _).aemeasurable)]
  unfold labelStep
  refine tsum_congr fun δ => ?_
  rw [lintegral_const_mul _ (hm5 δ), lintegral_sliceKer]

end step

end Verif.Mix
