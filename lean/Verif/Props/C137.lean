import Verif.Lemmas.FinDensity
import Verif.Props.C135

/-!
# C137: gibbs_eap_density of a mixture with finitely many components converges to the posterior predictive density

Mixtures with `N` components and weights from `DirichletDistribution` or `EqualWeighting`, normal observations with any number of columns, started cold.  For every point `x`, **the probability that
`gibbs_eap_density([x])` raises or differs from the posterior predictive density at `x` by `ε` or more tends to zero** as the number of saved states grows, whatever the burn-in, the gap between saved
states and the labels at the start (`C137_dirichletDistribution`, `C137_equal`; for any conjugate prior of the atoms: `C137_density`).

The posterior predictive density is in closed form (`predictive`): the probability of the data with `x` appended, summed over all labels of `n + 1` observations, divided by that of the data
(`C137_predictive`), and its integral is one (`C137_integral`).  It does not mention the atoms and the weights, which the density of the fitted object consists of.

The density of a state is not bounded as a function of its atoms, so the averages of C106 do not apply; the proof cuts it off (`Lemmas/ErgodicSum.lean`).

As in C105 the shift `eps` of the slice variables is taken to be zero.
-/

namespace Verif.Mix
open MeasureTheory ProbabilityTheory GM Spec Filter
open scoped ENNReal Topology

set_option linter.unusedSectionVars false

variable {N m n : ℕ} [NeZero N] {Atom : Type} [MeasurableSpace Atom] {C0 : WeightCore ℝ}

/-- The data with one more row. -/
def append (y : Fin n → Fin m → ℝ) (x : Fin m → ℝ) : Fin (n + 1) → Fin m → ℝ := Fin.snoc (α := fun _ => Fin m → ℝ) y x

namespace FinMix

/-- The probability of the event that `gibbs_eap_density([x])` raises or is not within `ε` of `v`, after `T` saved states. -/
noncomputable def densityMiss (nz : ℝ → ℝ) (W : World ℝ m Atom) (A : AtomGen m Atom) (G : RandGen) (gap burn : ℕ) (x : Fin m → ℝ) (v ε : ℝ) (s : GM C0.inheritTail m Atom × ℕ) (T : ℕ) : ℝ≥0∞ :=
  open Classical in
  savedRuns nz W A G gap T (burn + 1)
    (fun l => if ∃ r, eapDensity W { s.1 with saved := l, gibbsFitted := true } (some (.rows [x])) .none none none = .ok [r] ∧ |r - v| < ε then 0 else 1) s

/-- The mixture density at `x`. -/
noncomputable def mixDens (lp : (Fin m → ℝ) → Atom → WithBot ℝ) (x : Fin m → ℝ) (c : Config N n Atom) : ℝ≥0∞ := ∑ j, ENNReal.ofReal (c.2.2 j) * obsDens lp x (c.2.1 j)

section
variable {lp : (Fin m → ℝ) → Atom → WithBot ℝ} {f : FinPrior N} {drawW : List ℕ → Oracle ℝ → ℕ → Fin N → ℝ} {Inv : C0.State → Prop} {W : World ℝ m Atom} {A : AtomGen m Atom} {y : Fin n → Fin m → ℝ}
  {p : NIW ℝ m} {nz : ℝ → ℝ} {x : Fin m → ℝ}

theorem measurable_mixDens (hx : Measurable (obsDens lp x)) : Measurable (mixDens (N := N) (n := n) lp x) :=
  Finset.measurable_sum _ fun j _ => ((measurable_pi_apply j).comp (measurable_snd.comp measurable_snd)).ennreal_ofReal.mul (hx.comp ((measurable_pi_apply j).comp (measurable_fst.comp measurable_snd)))

theorem mixDens_ne_top (c : Config N n Atom) : mixDens lp x c ≠ ∞ :=
  (ENNReal.sum_lt_top.2 fun _ _ => ENNReal.mul_lt_top ENNReal.ofReal_lt_top ENNReal.ofReal_lt_top).ne

theorem append_meas (hlp : ∀ i, Measurable (obsDens lp (y i))) (hx : Measurable (obsDens lp x)) (i : Fin (n + 1)) : Measurable (obsDens lp (append y x i)) := by
  refine Fin.lastCases ?_ (fun i => ?_) i
  · unfold append; rw [Fin.snoc_last]; exact hx
  · unfold append; rw [Fin.snoc_castSucc]; exact hlp i

theorem pointMass_append (d : Fin n → Fin N) (z : FParams N Atom) :
    pointMass lp y d z * mixDens lp x (d, z) = ∑ j, pointMass lp (append y x) (Fin.snoc (α := fun _ => Fin N) d j) z := by
  unfold mixDens
  rw [Finset.mul_sum]
  refine Finset.sum_congr rfl fun j _ => ?_
  unfold pointMass append
  rw [Fin.prod_univ_castSucc]
  simp only [Fin.snoc_castSucc, Fin.snoc_last]

theorem sum_snoc {M : Type*} [AddCommMonoid M] (F : (Fin (n + 1) → Fin N) → M) : ∑ d : Fin n → Fin N, ∑ j, F (Fin.snoc (α := fun _ => Fin N) d j) = ∑ e, F e := by
  rw [Finset.sum_comm, ← Fintype.sum_prod_type']
  exact Fintype.sum_equiv (Fin.snocEquiv fun _ => Fin N) _ _ fun _ => rfl

/-- **The posterior mean of the mixture density** is the ratio of the probabilities of the data with and without `x`. -/
theorem mean_mixDens (hlp : ∀ i, Measurable (obsDens lp (y i))) (hx : Measurable (obsDens lp x)) :
    ∫⁻ c, mixDens lp x c ∂(posteriorPairs A lp p f y) = (∑ e : Fin (n + 1) → Fin N, finJoint A lp p f (append y x) e Set.univ) / ∑ d : Fin n → Fin N, finJoint A lp p f y d Set.univ := by
  rw [lintegral_posterior_prior hlp (measurable_mixDens hx)]
  have e1 : ∀ z : FParams N Atom, ∑ d : Fin n → Fin N, pointMass lp y d z * mixDens lp x (d, z) = ∑ e, pointMass lp (append y x) e z := fun z => by
    rw [← sum_snoc fun e => pointMass lp (append y x) e z]
    exact Finset.sum_congr rfl fun d _ => pointMass_append d z
  simp_rw [e1]
  rw [lintegral_finsetSum _ fun e _ => measurable_pointMass (append_meas hlp hx) e, ENNReal.div_eq_inv_mul]
  congr 1
  refine Finset.sum_congr rfl fun e _ => ?_
  unfold finJoint
  rw [withDensity_apply _ MeasurableSet.univ, Measure.restrict_univ]

theorem full_complete {q : RunParams ℝ Atom} (h : FullRun N q) : Complete q := by
  obtain ⟨h1, w, -, h2⟩ := h
  refine ⟨fun j hj => ?_, ?_⟩
  · rw [h2, List.length_ofFn] at hj
    obtain ⟨a, ha⟩ := h1 j hj
    rw [ha]; rfl
  · rw [h2]
    intro hc
    have := congrArg List.length hc
    rw [List.length_ofFn] at this
    exact NeZero.ne N this

theorem stateDensity_full (hpdf : ∀ a, W.pdf .none x a = botExp (lp x a)) {s : GM C0.inheritTail m Atom} (h : FullRun N (runParams s)) (x0 : Fin N → Atom) :
    stateDensity W .none x (runParams s) = (mixDens lp x (stateConfig (n := n) x0 s)).toReal := by
  obtain ⟨h1, w, hw, h2⟩ := h
  have h2' : C0.getW s.wst.1 = List.ofFn w := h2
  unfold stateDensity mixDens stateConfig
  rw [h2, List.length_ofFn, h2', vec_ofFn]
  simp only []
  unfold obsDens
  rw [ENNReal.toReal_sum fun j _ => (ENNReal.mul_lt_top ENNReal.ofReal_lt_top ENNReal.ofReal_lt_top).ne, ← List.sum_toFinset _ List.nodup_range, List.toFinset_range,
    Finset.sum_range]
  refine Finset.sum_congr rfl fun j _ => ?_
  obtain ⟨a, ha⟩ := h1 j j.2
  have ha' : s.theta.lookup (j : ℕ) = some a := ha
  have e : (List.ofFn w)[(j : ℕ)]? = some (w j) := by simp
  unfold weighted extF
  rw [ha, e, ha']
  simp only [Option.getD_some]
  rw [← ENNReal.ofReal_mul (hw j).le, ENNReal.toReal_ofReal (mul_nonneg (hw j).le (botExp_nonneg _)), hpdf]

variable (hlp : ∀ i, Measurable (obsDens lp (y i))) (hx : Measurable (obsDens lp x))
variable (hnz : IsGumbel nz) (hW : W.logpdf = lp) (hpdf : ∀ a, W.pdf .none x a = botExp (lp x a)) (hcl : FinClass C0 f drawW Inv) (heps : W.eps = 0) (hn : 2 ≤ n) (hcj : Conjugate A lp p) (G : RandGen)
  (hden : ∀ i a, lp (y i) a ≠ ⊥)
include hlp hx hnz hW hpdf hcl heps hn hcj hden

/-- **The density converges** in probability to the posterior predictive density. -/
theorem C137_density {s : GM C0.inheritTail m Atom × ℕ} {d : Fin n → Fin N} (h : FinHolds y p Inv s.1 d) (hfresh : FreshAtoms s.1) {gap : ℕ} (hgap : 0 < gap) (burn : ℕ) {ε : ℝ} (hε : 0 < ε) :
    Tendsto (densityMiss nz W A G gap burn x
      ((∑ e : Fin (n + 1) → Fin N, finJoint A lp p f (append y x) e Set.univ) / ∑ d : Fin n → Fin N, finJoint A lp p f y d Set.univ).toReal ε s) atTop (𝓝 0) := by
  have hm := measurable_mixDens (N := N) (n := n) hx
  have hfin : ∫⁻ c, mixDens lp x c ∂(posteriorPairs A lp p f y) ≠ ∞ := by
    rw [mean_mixDens hlp hx]
    exact ENNReal.div_ne_top (finJoint_total (f := f) (append_meas hlp hx) hcj).2 (finJoint_total (f := f) hlp hcj).1
  have hint : Integrable (fun c => (mixDens lp x c).toReal) (posteriorPairs A lp p f y) := integrable_toReal_of_lintegral_ne_top hm.aemeasurable hfin
  have hM : ∫ c, (mixDens lp x c).toReal ∂(posteriorPairs A lp p f y) =
      ((∑ e : Fin (n + 1) → Fin N, finJoint A lp p f (append y x) e Set.univ) / ∑ d : Fin n → Fin N, finJoint A lp p f y d Set.univ).toReal := by
    rw [integral_toReal hm.aemeasurable (ae_of_all _ fun c => (mixDens_ne_top c).lt_top), mean_mixDens hlp hx]
  refine savedRuns_average hlp hnz hW hcl heps hn hcj G hden h hfresh hgap burn (g := fun c => (mixDens lp x c).toReal) hm.ennreal_toReal (fun _ => ENNReal.toReal_nonneg) hint
    (obs := stateDensity W .none x) (fun s δ x0 _ hf => stateDensity_full hpdf hf x0) hε (fun T l hl hq => ?_)
  have e := eap_eq W { s.1 with saved := l, gibbsFitted := true } rfl (fun q hq' => full_complete (hq q hq')) (some (.rows [x])) (xs := [x]) rfl (dim := .none) (by simp) none
  have e' : eapDensity W { s.1 with saved := l, gibbsFitted := true } (some (.rows [x])) .none none none = .ok [(l.map (stateDensity W .none x)).sum / (T : ℝ)] := by
    rw [e, ← hl]
    rfl
  rw [hM]
  by_cases hc : ε ≤ |(l.map (stateDensity W .none x)).sum / T - ((∑ e : Fin (n + 1) → Fin N, finJoint A lp p f (append y x) e Set.univ) / ∑ d : Fin n → Fin N, finJoint A lp p f y d Set.univ).toReal|
  · rw [if_pos hc, if_neg]
    rintro ⟨r, hr, hr'⟩
    rw [e'] at hr
    simp only [Except.ok.injEq, List.cons.injEq, and_true] at hr
    rw [← hr] at hr'
    exact absurd hr' (not_lt.2 hc)
  · rw [if_neg hc, if_pos ⟨_, e', not_le.1 hc⟩]

end

end FinMix

/-! ### Normal observations -/

/-- The posterior predictive density at `x`: the labels have prior probabilities `prior` for every number of observations. -/
noncomputable def predictive (prior : ∀ {k : ℕ}, (Fin k → Fin N) → ℝ) (p : NIW ℝ m) (y : Fin n → Fin m → ℝ) (x : Fin m → ℝ) : ℝ :=
  (∑ e : Fin (n + 1) → Fin N, labelWeight prior p (append y x) e) / ∑ d : Fin n → Fin N, labelWeight prior p y d

theorem measurable_pair_normal : Measurable (fun q : (Fin m → ℝ) × MeanCov m => ENNReal.ofReal (Real.exp (logNormal q.1 q.2.1 (Matrix.of q.2.2)))) := by
  unfold logNormal quad
  have h1 : Measurable (fun q : (Fin m → ℝ) × MeanCov m => Real.log (Matrix.of q.2.2).det) := Real.measurable_log.comp (measurable_det.comp (measurable_snd.comp measurable_snd))
  have h2 : Measurable (fun q : (Fin m → ℝ) × MeanCov m => ∑ i, ∑ j, (Matrix.of q.2.2)⁻¹ i j * ((q.1 i - q.2.1 i) * (q.1 j - q.2.1 j))) := by
    refine Finset.measurable_fun_sum _ fun i _ => Finset.measurable_fun_sum _ fun j _ => ?_
    refine ((measurable_inv_entry i j).comp (measurable_snd.comp measurable_snd)).mul ?_
    fun_prop
  exact (Real.measurable_exp.comp ((((measurable_const.add h1).add h2).neg).div_const 2)).ennreal_ofReal

/-- The covariances of the atoms are positive definite. -/
theorem niwAtoms_posDef {p : NIW ℝ m} (hp : Admissible p) : ∀ᵐ a ∂(niwAtoms p), (Matrix.of a.2).PosDef := by
  rw [niwAtoms, if_pos hp]
  refine (withDensity_absolutelyContinuous _ _).ae_le ?_
  have h : ∀ᵐ S ∂IW.covVol m, (Matrix.of S).PosDef := ae_restrict_mem IW.measurableSet_posDef
  exact Measure.quasiMeasurePreserving_snd.ae h

section
variable {p : NIW ℝ m} (hp : Admissible p) (y : Fin n → Fin m → ℝ) (x : Fin m → ℝ)
include hp

theorem C137_joint {f : FinMix.FinPrior N} {prior : (Fin n → Fin N) → ℝ} (hpos : ∀ d, 0 < prior d) (hprior : ∀ d : Fin n → Fin N, ∫⁻ w, ∏ i, ENNReal.ofReal (w (d i)) ∂f.prior = ENNReal.ofReal (prior d)) :
    ∑ d : Fin n → Fin N, FinMix.finJoint (AtomGen.ofLaw niwAtoms) normalLog p f y d Set.univ = ENNReal.ofReal (∑ d, labelWeight prior p y d) := by
  rw [ENNReal.ofReal_sum_of_nonneg fun e _ => (labelWeight_pos hpos p y e).le]
  refine Finset.sum_congr rfl fun d _ => ?_
  rw [FinMix.finJoint_univ (measurable_obs y) (niw_conjugate hp), hprior, Finset.prod_congr rfl fun j hj => blockMass_evidence hp y ?_,
    ← ENNReal.ofReal_prod_of_nonneg fun c _ => (Real.exp_pos _).le, ← ENNReal.ofReal_mul (hpos d).le]
  · rfl
  · obtain ⟨i, -, hi⟩ := Finset.mem_image.1 hj
    exact ⟨i, Finset.mem_filter.2 ⟨Finset.mem_univ _, hi⟩⟩

/-- **The posterior mean of the mixture density** at `x` is `predictive`. -/
theorem C137_predictive {f : FinMix.FinPrior N} {prior : ∀ {k : ℕ}, (Fin k → Fin N) → ℝ} (hpos : ∀ {k : ℕ} (d : Fin k → Fin N), 0 < prior d)
    (hprior : ∀ {k : ℕ} (d : Fin k → Fin N), ∫⁻ w, ∏ i, ENNReal.ofReal (w (d i)) ∂f.prior = ENNReal.ofReal (prior d)) :
    ∫⁻ c : FinMix.Config N n (MeanCov m), ∑ j, ENNReal.ofReal (c.2.2 j * Real.exp (logNormal x (c.2.1 j).1 (Matrix.of (c.2.1 j).2))) ∂(FinMix.posteriorPairs (AtomGen.ofLaw niwAtoms) normalLog p f y) =
      ENNReal.ofReal (predictive prior p y x) := by
  have h1 := FinMix.mean_mixDens (A := AtomGen.ofLaw niwAtoms) (p := p) (f := f) (lp := normalLog) (measurable_obs y) (measurable_obs (n := 1) (fun _ => x) 0)
  rw [C137_joint hp (append y x) hpos hprior, C137_joint hp y hpos hprior, ← ENNReal.ofReal_div_of_pos (labelWeight_sum_pos hpos p y)] at h1
  refine Eq.trans (lintegral_congr fun c => Finset.sum_congr rfl fun j _ => ?_) h1
  exact ENNReal.ofReal_mul' (Real.exp_pos _).le

/-- **It is a density**: its integral is one. -/
theorem C137_integral {f : FinMix.FinPrior N} {prior : ∀ {k : ℕ}, (Fin k → Fin N) → ℝ} (hpos : ∀ {k : ℕ} (d : Fin k → Fin N), 0 < prior d)
    (hprior : ∀ {k : ℕ} (d : Fin k → Fin N), ∫⁻ w, ∏ i, ENNReal.ofReal (w (d i)) ∂f.prior = ENNReal.ofReal (prior d)) : ∫⁻ x, ENNReal.ofReal (predictive prior p y x) = 1 := by
  have hprob := FinMix.posterior_prob (f := f) (measurable_obs y) (niw_conjugate hp)
  simp_rw [← C137_predictive hp y _ hpos hprior]
  have hm : Measurable (fun q : (Fin m → ℝ) × FinMix.Config N n (MeanCov m) => ∑ j, ENNReal.ofReal (q.2.2.2 j * Real.exp (logNormal q.1 (q.2.2.1 j).1 (Matrix.of (q.2.2.1 j).2)))) := by
    refine Finset.measurable_sum _ fun j _ => ?_
    have e : (fun q : (Fin m → ℝ) × FinMix.Config N n (MeanCov m) => ENNReal.ofReal (q.2.2.2 j * Real.exp (logNormal q.1 (q.2.2.1 j).1 (Matrix.of (q.2.2.1 j).2)))) =
        fun q => ENNReal.ofReal (q.2.2.2 j) * ENNReal.ofReal (Real.exp (logNormal q.1 (q.2.2.1 j).1 (Matrix.of (q.2.2.1 j).2))) := funext fun q => ENNReal.ofReal_mul' (Real.exp_pos _).le
    rw [e]
    refine Measurable.mul ?_ (measurable_pair_normal.comp (measurable_fst.prodMk ((measurable_pi_apply j).comp (measurable_fst.comp (measurable_snd.comp measurable_snd)))))
    exact ((measurable_pi_apply j).comp (measurable_snd.comp (measurable_snd.comp measurable_snd))).ennreal_ofReal
  rw [lintegral_lintegral_swap hm.aemeasurable]
  have hae : ∀ᵐ c ∂(FinMix.posteriorPairs (N := N) (AtomGen.ofLaw niwAtoms) normalLog p f y), (∀ j, (Matrix.of (c.2.1 j).2).PosDef) ∧ (∀ j, 0 < c.2.2 j) ∧ ∑ j, c.2.2 j = 1 := by
    refine FinMix.posterior_ae ?_
    have h1 : ∀ᵐ θ ∂(Measure.pi fun _ : Fin N => (AtomGen.ofLaw niwAtoms).law p), ∀ j, (Matrix.of (θ j).2).PosDef := by
      rw [ae_all_iff]
      intro j
      have := niwAtoms_posDef hp
      rw [← AtomGen.ofLaw_law niwAtoms p] at this
      exact (Measure.quasiMeasurePreserving_eval (μ := fun _ : Fin N => (AtomGen.ofLaw niwAtoms).law p) j).ae this
    have h2 := Measure.quasiMeasurePreserving_fst (μ := Measure.pi fun _ : Fin N => (AtomGen.ofLaw niwAtoms).law p) (ν := f.prior) |>.ae h1
    have h3 := Measure.quasiMeasurePreserving_snd (μ := Measure.pi fun _ : Fin N => (AtomGen.ofLaw niwAtoms).law p) (ν := f.prior) |>.ae f.good
    unfold FinMix.paramPrior
    filter_upwards [h2, h3] with z hz1 hz2 d
    exact ⟨hz1, hz2⟩
  have hone : ∀ᵐ c ∂(FinMix.posteriorPairs (N := N) (AtomGen.ofLaw niwAtoms) normalLog p f y),
      ∫⁻ x, ∑ j, ENNReal.ofReal (c.2.2 j * Real.exp (logNormal x (c.2.1 j).1 (Matrix.of (c.2.1 j).2))) = 1 := by
    filter_upwards [hae] with c hc
    obtain ⟨h1, h2, h3⟩ := hc
    simp_rw [fun (x : Fin m → ℝ) j => ENNReal.ofReal_mul (q := Real.exp (logNormal x (c.2.1 j).1 (Matrix.of (c.2.1 j).2))) (h2 j).le]
    rw [lintegral_finsetSum _ fun j _ => (IW.measurable_exp_logNormal _ _).const_mul _]
    simp_rw [lintegral_const_mul' _ _ ENNReal.ofReal_ne_top, IW.lintegral_logNormal _ (h1 _), mul_one]
    rw [← ENNReal.ofReal_sum_of_nonneg fun j _ => (h2 j).le, h3, ENNReal.ofReal_one]
  rw [lintegral_congr_ae hone, lintegral_const, measure_univ, mul_one]

omit hp in
theorem C137_predictive_pos (p : NIW ℝ m) {prior : ∀ {k : ℕ}, (Fin k → Fin N) → ℝ} (hpos : ∀ {k : ℕ} (d : Fin k → Fin N), 0 < prior d) : 0 < predictive prior p y x :=
  div_pos (labelWeight_sum_pos hpos p (append y x)) (labelWeight_sum_pos hpos p y)

variable {nz : ℝ → ℝ} (hnz : IsGumbel nz) {W : World ℝ m (MeanCov m)} (heps : W.eps = 0) (hW : W.logpdf = normalLog) (hpdf : ∀ x a, W.pdf .none x a = Real.exp (logNormal x a.1 (Matrix.of a.2)))
  (hn : 2 ≤ n) (G : RandGen) {gap : ℕ} (hgap : 0 < gap) (burn : ℕ) {ε : ℝ} (hε : 0 < ε)
include hnz heps hW hpdf hn hgap hε

/-- **Dirichlet weights.** -/
theorem C137_dirichletDistribution {alpha : List ℝ} (hN : alpha.length = N) (ha : ∀ x ∈ alpha, 0 < x) {s : GM (DirDist.cls : WeightClass ℝ) m (MeanCov m) × ℕ}
    {d : Fin n → Fin N} (h : FinMix.FinHolds (C0 := DirDist.core) y p (fun s => s.alpha = alpha) s.1 d) (hfresh : FreshAtoms s.1) :
    Tendsto (FinMix.densityMiss (C0 := DirDist.core) nz W (AtomGen.ofLaw niwAtoms) G gap burn x (predictive (dirLabels hN) p y x) ε s) atTop (𝓝 0) := by
  have h1 := FinMix.C137_density (C0 := DirDist.core) (measurable_obs y) (measurable_obs (n := 1) (fun _ => x) 0) hnz hW (hpdf x) (FinMix.dir_class hN ha) heps hn (niw_conjugate hp) G
    (fun _ _ => WithBot.coe_ne_bot) h hfresh hgap burn hε
  rw [C137_joint (f := FinMix.dirPrior alpha hN ha) hp (append y x) (dirLabels_pos hN ha) (C135_prior_dirichletDistribution hN ha),
    C137_joint (f := FinMix.dirPrior alpha hN ha) hp y (dirLabels_pos hN ha) (C135_prior_dirichletDistribution hN ha),
    ← ENNReal.ofReal_div_of_pos (labelWeight_sum_pos (dirLabels_pos hN ha) p y), ENNReal.toReal_ofReal (div_pos (labelWeight_sum_pos (dirLabels_pos hN ha) p (append y x)) (labelWeight_sum_pos (dirLabels_pos hN ha) p y)).le] at h1
  exact h1

/-- **Equal weights.** -/
theorem C137_equal {s : GM (Equal.cls : WeightClass ℝ) m (MeanCov m) × ℕ} {d : Fin n → Fin N} (h : FinMix.FinHolds (C0 := Equal.core) y p (fun s => s.n = (N : ℤ)) s.1 d) (hfresh : FreshAtoms s.1) :
    Tendsto (FinMix.densityMiss (C0 := Equal.core) nz W (AtomGen.ofLaw niwAtoms) G gap burn x (predictive (equalLabels N) p y x) ε s) atTop (𝓝 0) := by
  have h1 := FinMix.C137_density (C0 := Equal.core) (measurable_obs y) (measurable_obs (n := 1) (fun _ => x) 0) hnz hW (hpdf x) (FinMix.equal_class N) heps hn (niw_conjugate hp) G
    (fun _ _ => WithBot.coe_ne_bot) h hfresh hgap burn hε
  rw [C137_joint (f := FinMix.equalPrior N) hp (append y x) equalLabels_pos C135_prior_equal, C137_joint (f := FinMix.equalPrior N) hp y equalLabels_pos C135_prior_equal,
    ← ENNReal.ofReal_div_of_pos (labelWeight_sum_pos equalLabels_pos p y), ENNReal.toReal_ofReal (div_pos (labelWeight_sum_pos equalLabels_pos p (append y x)) (labelWeight_sum_pos equalLabels_pos p y)).le] at h1
  exact h1

end

/-! ### The hypotheses are met -/

/-- Three components with parameter 1/2, four points in the plane. -/
example {nz : ℝ → ℝ} (hnz : IsGumbel nz) {W : World ℝ 2 (MeanCov 2)} (heps : W.eps = 0) (hW : W.logpdf = normalLog) (hpdf : ∀ x a, W.pdf .none x a = Real.exp (logNormal x a.1 (Matrix.of a.2)))
    (G : RandGen) (y : Fin 4 → Fin 2 → ℝ) (x : Fin 2 → ℝ) (ha : ∀ x ∈ [1 / 2, 1 / 2, 1 / 2], (0 : ℝ) < x) :
    Tendsto (FinMix.densityMiss (C0 := DirDist.core) nz W (AtomGen.ofLaw niwAtoms) G 2 10 x (predictive (N := 3) (dirLabels (alpha := [1 / 2, 1 / 2, 1 / 2]) rfl) ⟨![0, 0], 1, fun i j => (1 : Matrix (Fin 2) (Fin 2) ℝ) i j, 2⟩ y x) (1 / 100)
      (dirPlane y [1 / 2, 1 / 2, 1 / 2] fun _ => (0 : Fin 3))) atTop (𝓝 0) :=
  C137_dirichletDistribution admissible_plane y x hnz heps hW hpdf (by norm_num) G two_pos 10 (by norm_num) rfl ha (d := fun _ => 0) ⟨rfl, rfl, rfl, rfl, rfl⟩ (fun _ _ => rfl)

end Verif.Mix
