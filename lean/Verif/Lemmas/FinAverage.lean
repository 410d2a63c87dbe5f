import Verif.Lemmas.FinLimit

/-! # Averages over the labels of the saved states of a mixture with finitely many components -/

namespace Verif.Mix.FinMix
open MeasureTheory ProbabilityTheory GM Spec Filter
open scoped ENNReal Topology

set_option linter.unusedSectionVars false

variable {N m n : ℕ} [NeZero N] {Atom : Type} [MeasurableSpace Atom] {C0 : WeightCore ℝ}
  {A : AtomGen m Atom} {lp : (Fin m → ℝ) → Atom → WithBot ℝ} {p : NIW ℝ m} {f : FinPrior N} {y : Fin n → Fin m → ℝ}

theorem stepAct_markovOp (hlp : ∀ i, Measurable (obsDens lp (y i))) (hcj : Conjugate A lp p) (hden : ∀ i a, lp (y i) a ≠ ⊥) :
    Alt.MarkovOp (posteriorPairs A lp p f y) (stepAct A p f hlp) := by
  have := posterior_prob (f := f) hlp hcj
  have h1 := act_markovOp (redraw_reversible (f := f) hlp hcj)
  have h2 := act_markovOp (labels_reversible (A := A) (p := p) (f := f) hlp hden)
  refine ⟨fun h => h1.bd (h2.bd h), fun h h' => ?_, fun c _ h => ?_, fun c => ?_, fun h => h1.nonneg (h2.nonneg h), fun h => ?_⟩
  · unfold stepAct
    rw [h2.add h h', h1.add (h2.bd h) (h2.bd h')]
  · unfold stepAct
    rw [h2.smul c h, h1.smul c (h2.bd h)]
  · unfold stepAct
    rw [h2.one, h1.one]
  · unfold stepAct
    rw [h1.mean (h2.bd h), h2.mean h]

/-- Correlations tend to zero. -/
theorem corr_tendsto (hlp : ∀ i, Measurable (obsDens lp (y i))) (hcj : Conjugate A lp p) (hden : ∀ i a, lp (y i) a ≠ ⊥) (hn : 0 < n) {C : ℝ} {h : Config N n Atom → ℝ} (hh : Alt.Bd C h)
    (h0 : ∫ x, h x ∂(posteriorPairs A lp p f y) = 0) {gap : ℕ} (hgap : 0 < gap) : Tendsto (fun k => Alt.corr (posteriorPairs A lp p f y) (stepAct A p f hlp) gap h k) atTop (𝓝 0) := by
  have := posterior_prob (f := f) hlp hcj
  have hop := stepAct_markovOp (f := f) hlp hcj hden
  have h1 : Tendsto (fun k => ∫ x, ((stepAct A p f hlp)^[k] h x - ∫ z, h z ∂(posteriorPairs A lp p f y)) ^ 2 ∂(posteriorPairs A lp p f y)) atTop (𝓝 0) := gibbs_converges hlp hcj hden hn hh
  simp only [h0, sub_zero] at h1
  have h2 : Tendsto (fun k => ∫ x, ((stepAct A p f hlp)^[gap * (k + 1)] h x) ^ 2 ∂(posteriorPairs A lp p f y)) atTop (𝓝 0) :=
    h1.comp (tendsto_atTop_mono (fun k => show k ≤ gap * (k + 1) by nlinarith) tendsto_id)
  have hb : ∀ k, Alt.Bd C ((stepAct A p f hlp)^[gap * (k + 1)] h) := fun k => (hop.iterate _).bd hh
  refine mean_tendsto_zero (π := posteriorPairs A lp p f y) (fun k => hh.mul (hb k)) ?_ Measure.AbsolutelyContinuous.rfl
  refine squeeze_zero (fun k => integral_nonneg fun x => sq_nonneg _) (fun k => ?_) (by simpa using h2.const_mul (C * C))
  have h3 : ∫ x, (h x * (stepAct A p f hlp)^[gap * (k + 1)] h x) ^ 2 ∂(posteriorPairs A lp p f y) ≤ ∫ x, C * C * ((stepAct A p f hlp)^[gap * (k + 1)] h x) ^ 2 ∂(posteriorPairs A lp p f y) := by
    refine integral_mono ((hh.mul (hb k)).sq.integrable _) ((hb k).sq.integrable _ |>.const_mul _) fun x => ?_
    show (h x * (stepAct A p f hlp)^[gap * (k + 1)] h x) ^ 2 ≤ C * C * ((stepAct A p f hlp)^[gap * (k + 1)] h x) ^ 2
    rw [mul_pow]
    exact mul_le_mul_of_nonneg_right ((le_abs_self _).trans (hh.sq.bd x)) (sq_nonneg _)
  rwa [integral_const_mul] at h3

/-! ### The labels of the saved states -/

/-- The mean of `F` of the labels of `T` states: one after `b` steps, then one after every `gap` further steps. -/
noncomputable def kSaved (A : AtomGen m Atom) (lp : (Fin m → ℝ) → Atom → WithBot ℝ) (p : NIW ℝ m) (f : FinPrior N) (y : Fin n → Fin m → ℝ) (gap : ℕ) :
    ℕ → ℕ → (List (Fin n → Fin N) → ℝ≥0∞) → (Fin n → Fin N) → FParams N Atom → ℝ≥0∞
  | 0, _, F => fun _ _ => F []
  | T + 1, b, F => (stepKernel A lp p f y)^[b] (fun d z => kSaved A lp p f y gap T gap (fun l => F (d :: l)) d z)

theorem measurable_iterate (hlp : ∀ i, Measurable (obsDens lp (y i))) {φ : (Fin n → Fin N) → FParams N Atom → ℝ≥0∞} (hφ : ∀ δ, Measurable (φ δ)) (k : ℕ) (δ : Fin n → Fin N) :
    Measurable ((stepKernel A lp p f y)^[k] φ δ) := by
  induction k generalizing δ with
  | zero => exact hφ δ
  | succ k ih => rw [Function.iterate_succ_apply']; exact measurable_stepKernel hlp ih δ

theorem measurable_kSaved (hlp : ∀ i, Measurable (obsDens lp (y i))) (gap T b : ℕ) (F : List (Fin n → Fin N) → ℝ≥0∞) (d : Fin n → Fin N) : Measurable (kSaved A lp p f y gap T b F d) := by
  induction T generalizing b F d with
  | zero => exact measurable_const
  | succ T ih => exact measurable_iterate hlp (fun δ => ih gap _ δ) b d

theorem stepKernel_mono {φ ψ : (Fin n → Fin N) → FParams N Atom → ℝ≥0∞} (h : ∀ d z, φ d z ≤ ψ d z) (d : Fin n → Fin N) (z : FParams N Atom) : stepKernel A lp p f y φ d z ≤ stepKernel A lp p f y ψ d z := by
  unfold stepKernel labelStep
  exact lintegral_mono fun v => lintegral_mono fun θ => Finset.sum_le_sum fun δ _ => mul_le_mul_left (h δ _) _

theorem stepKernel_const_mul {φ : (Fin n → Fin N) → FParams N Atom → ℝ≥0∞} {c : ℝ≥0∞} (hc : c ≠ ∞) :
    stepKernel A lp p f y (fun d z => c * φ d z) = fun d z => c * stepKernel A lp p f y φ d z := by
  funext d z
  unfold stepKernel
  have h1 : ∀ z, labelStep lp y (fun d z => c * φ d z) d z = c * labelStep lp y φ d z := fun z => by
    unfold labelStep
    rw [Finset.mul_sum]
    exact Finset.sum_congr rfl fun δ _ => mul_assoc _ _ _
  simp_rw [h1, lintegral_const_mul' _ _ hc]

theorem iterate_mono {φ ψ : (Fin n → Fin N) → FParams N Atom → ℝ≥0∞} (h : ∀ d z, φ d z ≤ ψ d z) (k : ℕ) (d : Fin n → Fin N) (z : FParams N Atom) :
    (stepKernel A lp p f y)^[k] φ d z ≤ (stepKernel A lp p f y)^[k] ψ d z := by
  induction k generalizing d z with
  | zero => exact h d z
  | succ k ih => rw [Function.iterate_succ_apply', Function.iterate_succ_apply']; exact stepKernel_mono ih d z

theorem iterate_const_mul {φ : (Fin n → Fin N) → FParams N Atom → ℝ≥0∞} {c : ℝ≥0∞} (hc : c ≠ ∞) (k : ℕ) :
    (stepKernel A lp p f y)^[k] (fun d z => c * φ d z) = fun d z => c * (stepKernel A lp p f y)^[k] φ d z := by
  induction k with
  | zero => rfl
  | succ k ih => rw [Function.iterate_succ_apply', ih, stepKernel_const_mul hc]; simp only [Function.iterate_succ_apply']

theorem kSaved_mono (gap T b : ℕ) {F F' : List (Fin n → Fin N) → ℝ≥0∞} (h : ∀ l, l.length = T → F l ≤ F' l) (d : Fin n → Fin N) (z : FParams N Atom) : kSaved A lp p f y gap T b F d z ≤ kSaved A lp p f y gap T b F' d z := by
  induction T generalizing b F F' d z with
  | zero => exact h [] rfl
  | succ T ih => exact iterate_mono (fun d z => ih gap (fun l hl => h (d :: l) (by rw [List.length_cons, hl])) d z) b d z

theorem kSaved_const_mul (gap T b : ℕ) (F : List (Fin n → Fin N) → ℝ≥0∞) {c : ℝ≥0∞} (hc : c ≠ ∞) :
    kSaved A lp p f y gap T b (fun l => c * F l) = fun d z => c * kSaved A lp p f y gap T b F d z := by
  induction T generalizing b F with
  | zero => rfl
  | succ T ih =>
    show (stepKernel A lp p f y)^[b] (fun d z => kSaved A lp p f y gap T gap (fun l => c * F (d :: l)) d z) = _
    have h1 : (fun d z => kSaved A lp p f y gap T gap (fun l => c * F (d :: l)) d z) = fun d z => c * kSaved A lp p f y gap T gap (fun l => F (d :: l)) d z := by
      funext d z
      rw [ih gap (fun l => F (d :: l))]
    rw [h1, iterate_const_mul hc]
    rfl

/-- Second moments along the chain. -/
theorem kSaved_sq (hlp : ∀ i, Measurable (obsDens lp (y i))) (hcj : Conjugate A lp p) (hden : ∀ i a, lp (y i) a ≠ ⊥) (gap T b : ℕ) {C : ℝ} {h : (Fin n → Fin N) → ℝ} (hh : ∀ d, |h d| ≤ C) (a : ℝ)
    (d : Fin n → Fin N) (z : FParams N Atom) :
    kSaved A lp p f y gap T b (fun l => ENNReal.ofReal ((a + (l.map h).sum) ^ 2)) d z =
      ENNReal.ofReal (a ^ 2 + 2 * (a * Alt.mom1 (stepAct A p f hlp) gap (fun x => h x.1) T b (d, z)) + Alt.mom2 (stepAct A p f hlp) gap (fun x => h x.1) T b (d, z)) := by
  have hop := stepAct_markovOp (f := f) hlp hcj hden
  have hb : Alt.Bd C (fun x : Config N n Atom => h x.1) := ⟨measurable_from_prod_countable_right fun d => (measurable_const : Measurable fun _ : FParams N Atom => h d), fun x => hh x.1⟩
  induction T generalizing b a d z with
  | zero => simp [kSaved, Alt.mom1, Alt.mom2]
  | succ T ih =>
    show (stepKernel A lp p f y)^[b] (fun d z => kSaved A lp p f y gap T gap (fun l => ENNReal.ofReal ((a + ((d :: l).map h).sum) ^ 2)) d z) d z = _
    have h1 : (fun d z => kSaved A lp p f y gap T gap (fun l => ENNReal.ofReal ((a + ((d :: l).map h).sum) ^ 2)) d z) = fun d z =>
        ENNReal.ofReal ((fun x : Config N n Atom => (a + h x.1) ^ 2 + 2 * ((a + h x.1) * Alt.mom1 (stepAct A p f hlp) gap (fun x => h x.1) T gap x) + Alt.mom2 (stepAct A p f hlp) gap (fun x => h x.1) T gap x) (d, z)) := by
      funext d z
      rw [← ih gap (a + h d) d z]
      congr 1
      funext l
      rw [List.map_cons, List.sum_cons, add_assoc]
    obtain ⟨D, hD⟩ := Alt.mom_inner_bd (gap := gap) hop hb T gap a
    rw [h1, iterate_real hlp hden hD (fun x => Alt.mom_nonneg hop hb T gap (a + h x.1) x) b]
    exact congrArg ENNReal.ofReal (Alt.mom_step hop hb T b a (d, z))

theorem kSaved_le_one (hlp : ∀ i, Measurable (obsDens lp (y i))) (hden : ∀ i a, lp (y i) a ≠ ⊥) (gap T b : ℕ) {F : List (Fin n → Fin N) → ℝ≥0∞} (hF : ∀ l, F l ≤ 1) (d : Fin n → Fin N)
    (z : FParams N Atom) : kSaved A lp p f y gap T b F d z ≤ 1 := by
  induction T generalizing b F d z with
  | zero => exact hF []
  | succ T ih =>
    refine (iterate_mono (ψ := fun d z => ENNReal.ofReal ((fun _ : Config N n Atom => (1 : ℝ)) (d, z))) (fun d z => (ih gap (fun l => hF (d :: l)) d z).trans (by simp)) b d z).trans ?_
    rw [iterate_real hlp hden (Alt.Bd.const 1) (fun _ => zero_le_one) b]
    have h1 : (stepAct A p f hlp)^[b] (fun _ => (1 : ℝ)) = fun _ => 1 := by
      induction b with
      | zero => rfl
      | succ b ih =>
        rw [Function.iterate_succ_apply', ih]
        unfold stepAct
        rw [Alt.act_const, Alt.act_const]
    rw [h1]
    simp

/-- **Averages along the chain** converge in probability, under every starting law with a density with respect to the posterior law. -/
theorem kSaved_average (hlp : ∀ i, Measurable (obsDens lp (y i))) (hcj : Conjugate A lp p) (hden : ∀ i a, lp (y i) a ≠ ⊥) (hn : 0 < n) {C : ℝ} {g : (Fin n → Fin N) → ℝ} (hg : ∀ d, |g d| ≤ C)
    {gap : ℕ} (hgap : 0 < gap) (b : ℕ) {ε : ℝ} (hε : 0 < ε) {μ : Measure (Config N n Atom)} [IsProbabilityMeasure μ] (hμ : μ ≪ posteriorPairs A lp p f y) :
    Tendsto (fun T => ∫⁻ x, kSaved A lp p f y gap T b (fun l => if ε ≤ |(l.map g).sum / T - ∫ q, g q.1 ∂(posteriorPairs A lp p f y)| then 1 else 0) x.1 x.2 ∂μ) atTop (𝓝 0) := by
  have hprob := posterior_prob (f := f) hlp hcj
  have hop := stepAct_markovOp (f := f) hlp hcj hden
  set M := ∫ q, g q.1 ∂(posteriorPairs A lp p f y) with hM
  have hgb : Alt.Bd C (fun x : Config N n Atom => g x.1) := ⟨measurable_from_prod_countable_right fun d => (measurable_const : Measurable fun _ : FParams N Atom => g d), fun x => hg x.1⟩
  let h : (Fin n → Fin N) → ℝ := fun d => g d - M
  have hh : ∀ d, |h d| ≤ C + |M| := fun d => (abs_sub _ _).trans (add_le_add (hg d) le_rfl)
  have hhb : Alt.Bd (C + |M|) (fun x : Config N n Atom => h x.1) := hgb.sub (Alt.Bd.const M)
  have h0 : ∫ x, h x.1 ∂(posteriorPairs A lp p f y) = 0 := by
    show ∫ x, (g x.1 - M) ∂(posteriorPairs A lp p f y) = 0
    rw [integral_sub (hgb.integrable _) (integrable_const _)]
    simp [hM]
  have hsmall := Alt.mom2_small hop hhb (corr_tendsto hlp hcj hden hn hhb h0 hgap) b
  let q : ℕ → Config N n Atom → ℝ≥0∞ := fun T x => kSaved A lp p f y gap T b (fun l => if ε ≤ |(l.map g).sum / T - M| then 1 else 0) x.1 x.2
  have hq1 : ∀ T x, q T x ≤ 1 := fun T x => kSaved_le_one hlp hden gap T b (fun l => by split <;> simp) _ _
  have hqm : ∀ T, Measurable (q T) := fun T => measurable_from_prod_countable_right fun d => measurable_kSaved hlp gap T b _ d
  have hqb : ∀ T, Alt.Bd 1 (fun x => (q T x).toReal) := fun T => ⟨(hqm T).ennreal_toReal, fun x => by
    rw [abs_of_nonneg ENNReal.toReal_nonneg]
    exact ENNReal.toReal_mono ENNReal.one_ne_top (hq1 T x)⟩
  have hqle : ∀ T : ℕ, 0 < T → ∀ x, (q T x).toReal ≤ (ε ^ 2)⁻¹ * ((T : ℝ) ^ 2)⁻¹ * Alt.mom2 (stepAct A p f hlp) gap (fun x => h x.1) T b x := by
    intro T hT x
    have hT' : (0 : ℝ) < T := Nat.cast_pos.2 hT
    have e1 : q T x ≤ kSaved A lp p f y gap T b (fun l => ENNReal.ofReal ((ε ^ 2)⁻¹ * ((T : ℝ) ^ 2)⁻¹) * ENNReal.ofReal ((0 + (l.map h).sum) ^ 2)) x.1 x.2 := by
      refine kSaved_mono gap T b (fun l hl => ?_) _ _
      rw [← ENNReal.ofReal_mul (by positivity), zero_add]
      split
      · rename_i hle
        have e2 : (l.map h).sum = (l.map g).sum - T * M := by
          rw [← hl]
          clear hl hle
          induction l with
          | nil => simp
          | cons d l ih => simp only [List.map_cons, List.sum_cons, ih, List.length_cons]; show g d - M + _ = _; push_cast; ring
        have e3 : (l.map h).sum = T * ((l.map g).sum / T - M) := by rw [e2]; field_simp
        rw [← ENNReal.ofReal_one]
        refine ENNReal.ofReal_le_ofReal ?_
        rw [e3, mul_pow]
        have e4 : ε ^ 2 ≤ ((l.map g).sum / T - M) ^ 2 := by
          rw [← sq_abs ((l.map g).sum / T - M)]
          exact pow_le_pow_left₀ hε.le hle 2
        have e5 : (ε ^ 2)⁻¹ * ((T : ℝ) ^ 2)⁻¹ * ((T : ℝ) ^ 2 * ((l.map g).sum / T - M) ^ 2) = ((l.map g).sum / T - M) ^ 2 / ε ^ 2 := by field_simp
        rw [e5, le_div_iff₀ (by positivity), one_mul]
        exact e4
      · exact zero_le
    rw [kSaved_const_mul gap T b _ ENNReal.ofReal_ne_top] at e1
    beta_reduce at e1
    rw [kSaved_sq hlp hcj hden gap T b hh 0] at e1
    simp only [ne_eq, OfNat.ofNat_ne_zero, not_false_eq_true, zero_pow, zero_mul, mul_zero, add_zero, zero_add] at e1
    rw [← ENNReal.ofReal_mul (by positivity)] at e1
    have e6 : 0 ≤ Alt.mom2 (stepAct A p f hlp) gap (fun x => h x.1) T b x := by
      have := Alt.mom_nonneg (gap := gap) hop hhb T b 0 x
      simpa using this
    exact ENNReal.toReal_le_of_le_ofReal (by positivity) e1
  have hsq : Tendsto (fun T => ∫ x, (q T x).toReal ^ 2 ∂(posteriorPairs A lp p f y)) atTop (𝓝 0) := by
    have hs2 : Tendsto (fun T : ℕ => (ε ^ 2)⁻¹ * ((∫ x, Alt.mom2 (stepAct A p f hlp) gap (fun x => h x.1) T b x ∂(posteriorPairs A lp p f y)) / (T : ℝ) ^ 2)) atTop (𝓝 0) := by
      simpa using hsmall.const_mul (ε ^ 2)⁻¹
    refine squeeze_zero' (Eventually.of_forall fun T => integral_nonneg fun x => sq_nonneg _) ?_ hs2
    filter_upwards [eventually_gt_atTop 0] with T hT
    obtain ⟨D, hD⟩ := Alt.mom2_bd (gap := gap) hop hhb T b
    have e7 : ∫ x, (q T x).toReal ^ 2 ∂(posteriorPairs A lp p f y) ≤ ∫ x, (ε ^ 2)⁻¹ * ((T : ℝ) ^ 2)⁻¹ * Alt.mom2 (stepAct A p f hlp) gap (fun x => h x.1) T b x ∂(posteriorPairs A lp p f y) := by
      refine integral_mono ((hqb T).sq.integrable _) ((hD.integrable _).const_mul _) fun x => ?_
      refine le_trans ?_ (hqle T hT x)
      have h1 : (q T x).toReal ≤ 1 := (le_abs_self _).trans ((hqb T).bd x)
      have h2 : 0 ≤ (q T x).toReal := ENNReal.toReal_nonneg
      show (q T x).toReal ^ 2 ≤ (q T x).toReal
      nlinarith
    rw [integral_const_mul] at e7
    refine e7.trans (le_of_eq ?_)
    rw [div_eq_mul_inv]
    ring
  have hfin := mean_tendsto_zero hqb hsq hμ
  have := (ENNReal.continuous_ofReal.tendsto 0).comp hfin
  rw [ENNReal.ofReal_zero] at this
  refine this.congr fun T => ?_
  show ENNReal.ofReal (∫ x, (q T x).toReal ∂μ) = ∫⁻ x, q T x ∂μ
  rw [ofReal_integral_eq_lintegral_ofReal ((hqb T).integrable μ) (ae_of_all _ fun x => ENNReal.toReal_nonneg)]
  exact lintegral_congr fun x => ENNReal.ofReal_toReal ((hq1 T x).trans_lt ENNReal.one_lt_top).ne

end Verif.Mix.FinMix
