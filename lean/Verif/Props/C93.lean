import Verif.Model.NormalInvW
import Verif.Props.C51
import Verif.Props.C67
import Mathlib.MeasureTheory.Measure.WithDensity
import Mathlib.MeasureTheory.Integral.Bochner.Basic
import Mathlib.Topology.Instances.Matrix
import Mathlib.Probability.Distributions.Gaussian.Real
import Mathlib.MeasureTheory.Integral.Gamma

/-!
# C93: the atoms are drawn from their posterior distribution

`posterior_norm_invw_params` is Bayes' rule: for every dimension, all non-empty data, every prior with positive `lambda` and every mean and covariance with positive
determinant, the likelihood of the data times the normal-inverse-Wishart density of the prior is the normal-inverse-Wishart density with the returned parameters, times a
number that depends on the data and the prior only (`C93_bayes`, `C93_density`; the number is `evidence`).  `C93_step`: so the atoms of a Gibbs step are drawn from their
conditional law given data and labels; `C93_joint`: the same for `_theta_log_likelihood`.  As measures (`C93_measure`): the prior reweighted with the
likelihood and normalised is the law with the returned parameters, whatever the reference measure, as soon as the latter is a probability.
-/

set_option linter.unusedSectionVars false

namespace Verif.Mix
open Real MeasureTheory
open scoped ENNReal
variable {m : ℕ}

/-- The logarithm of the density of the data given the prior, mean and covariance integrated out. -/
noncomputable def evidence (ys : List (Fin m → ℝ)) (p : NIW ℝ m) : ℝ :=
  multigammaln ((p.nu + ys.length) / 2) m - multigammaln (p.nu / 2) m + p.nu / 2 * log (Matrix.of p.psi).det
    - (p.nu + ys.length) / 2 * log (Matrix.of (posteriorNIW ys p).psi).det + m / 2 * (log p.lam - log (p.lam + ys.length)) - ys.length * m / 2 * log π

theorem quad_eq_trace (P : Matrix (Fin m) (Fin m) ℝ) (x mu : Fin m → ℝ) :
    quad P x mu = (Matrix.of (fun i j => (x i - mu i) * (x j - mu j)) * P).trace := by
  unfold quad
  simp only [Matrix.trace, Matrix.diag, Matrix.mul_apply, Matrix.of_apply]
  rw [Finset.sum_comm]
  exact Finset.sum_congr rfl fun i _ => Finset.sum_congr rfl fun j _ => by ring

theorem sum_quad (P : Matrix (Fin m) (Fin m) ℝ) (ys : List (Fin m → ℝ)) (mu : Fin m → ℝ) :
    (ys.map (fun y => quad P y mu)).sum = ∑ i, ∑ j, P i j * (ys.map (fun y => (y i - mu i) * (y j - mu j))).sum := by
  induction ys with
  | nil => simp
  | cons y ys ih =>
    rw [List.map_cons, List.sum_cons, ih]
    simp only [List.map_cons, List.sum_cons, quad, mul_add, Finset.sum_add_distrib]

/-- Completing the square. -/
theorem complete_square {ys : List (Fin m → ℝ)} (h : ys ≠ []) {p : NIW ℝ m} (hp : 0 < p.lam) (P : Matrix (Fin m) (Fin m) ℝ) (mu : Fin m → ℝ) :
    (ys.map (fun y => quad P y mu)).sum + p.lam * quad P mu p.mu + (Matrix.of p.psi * P).trace
      = (posteriorNIW ys p).lam * quad P mu (posteriorNIW ys p).mu + (Matrix.of (posteriorNIW ys p).psi * P).trace := by
  have ht : ∀ q : Fin m → Fin m → ℝ, (Matrix.of q * P).trace = ∑ i, ∑ j, P i j * q j i := fun q => by
    simp only [Matrix.trace, Matrix.diag, Matrix.mul_apply, Matrix.of_apply]
    rw [Finset.sum_comm]
    exact Finset.sum_congr rfl fun i _ => Finset.sum_congr rfl fun j _ => by ring
  rw [sum_quad, ht, ht]
  unfold quad
  simp only [Finset.mul_sum, ← Finset.sum_add_distrib]
  refine Finset.sum_congr rfl fun i _ => Finset.sum_congr rfl fun j _ => ?_
  rw [covSum_eq, posteriorNIW_mu h, posteriorNIW_mu h, posteriorNIW_psi h hp]
  show _ = (p.lam + ys.length) * _ + _
  have hl : p.lam + (ys.length : ℝ) ≠ 0 := by positivity
  have e : prodSum ys j i = prodSum ys i j := by
    unfold prodSum
    simp only [mul_comm]
  rw [e]
  field_simp
  ring

theorem inv_scaled {c : ℝ} (hc : 0 < c) (s : Matrix (Fin m) (Fin m) ℝ) : (c⁻¹ • s)⁻¹ = c • s⁻¹ := by
  by_cases h : IsUnit s.det
  · refine Matrix.inv_eq_left_inv ?_
    rw [Matrix.smul_mul, Matrix.mul_smul, Matrix.nonsing_inv_mul _ h, smul_smul, mul_inv_cancel₀ hc.ne', one_smul]
  · rw [Matrix.nonsing_inv_apply_not_isUnit s h, smul_zero, Matrix.nonsing_inv_apply_not_isUnit]
    intro h1
    apply h
    rw [Matrix.det_smul, isUnit_iff_ne_zero] at h1
    exact isUnit_iff_ne_zero.2 (mul_ne_zero_iff.1 h1).2

/-- The prior log-density of a mean and a covariance, written out. -/
theorem logNIW_eq (mu : Fin m → ℝ) {sigma : Matrix (Fin m) (Fin m) ℝ} (hs : 0 < sigma.det) {p : NIW ℝ m} (hp : 0 < p.lam) :
    logNIW mu sigma p = p.nu / 2 * log (Matrix.of p.psi).det - p.nu * m / 2 * log 2 - multigammaln (p.nu / 2) m - (p.nu + m + 2) / 2 * log sigma.det
      - m / 2 * log (2 * π) + m / 2 * log p.lam - (p.lam * quad sigma⁻¹ mu p.mu + (Matrix.of p.psi * sigma⁻¹).trace) / 2 := by
  unfold logNIW logInvWishart logNormal
  rw [inv_scaled hp, Matrix.det_smul, Real.log_mul (by positivity) hs.ne', Real.log_pow, Real.log_inv, Fintype.card_fin]
  have : quad (p.lam • sigma⁻¹) mu p.mu = p.lam * quad sigma⁻¹ mu p.mu := by
    unfold quad
    simp only [Finset.mul_sum, Matrix.smul_apply, smul_eq_mul, mul_assoc]
  rw [this]
  ring

theorem sum_logNormal (ys : List (Fin m → ℝ)) (mu : Fin m → ℝ) (sigma : Matrix (Fin m) (Fin m) ℝ) :
    (ys.map (fun y => logNormal y mu sigma)).sum
      = -(ys.length * (m * log (2 * π)) + ys.length * log sigma.det + (ys.map (fun y => quad sigma⁻¹ y mu)).sum) / 2 := by
  induction ys with
  | nil => simp
  | cons y ys ih =>
    rw [List.map_cons, List.sum_cons, ih, List.map_cons, List.sum_cons, List.length_cons]
    unfold logNormal
    push_cast
    ring

/-- **Bayes' rule**: likelihood plus prior is evidence plus the log-density with the returned parameters. -/
theorem C93_bayes {ys : List (Fin m → ℝ)} (h : ys ≠ []) {p : NIW ℝ m} (hp : 0 < p.lam) (mu : Fin m → ℝ) {sigma : Matrix (Fin m) (Fin m) ℝ} (hs : 0 < sigma.det) :
    (ys.map (fun y => logNormal y mu sigma)).sum + logNIW mu sigma p = evidence ys p + logNIW mu sigma (posteriorNIW ys p) := by
  have hq : 0 < (posteriorNIW ys p).lam := by
    show 0 < p.lam + (ys.length : ℝ)
    positivity
  have hc := complete_square h hp sigma⁻¹ mu
  rw [sum_logNormal, logNIW_eq mu hs hp, logNIW_eq mu hs hq]
  unfold evidence
  have e1 : (posteriorNIW ys p).nu = p.nu + ys.length := rfl
  have e2 : (posteriorNIW ys p).lam = p.lam + ys.length := rfl
  rw [e2] at hc
  rw [e1, e2, Real.log_mul (by norm_num) Real.pi_pos.ne']
  linear_combination (-1 / 2 : ℝ) * hc

/-- The likelihood of the data. -/
noncomputable def likelihood (ys : List (Fin m → ℝ)) (mu : Fin m → ℝ) (sigma : Matrix (Fin m) (Fin m) ℝ) : ℝ := (ys.map (fun y => exp (logNormal y mu sigma))).prod

/-- **Bayes' rule** for densities. -/
theorem C93_density {ys : List (Fin m → ℝ)} (h : ys ≠ []) {p : NIW ℝ m} (hp : 0 < p.lam) (mu : Fin m → ℝ) {sigma : Matrix (Fin m) (Fin m) ℝ} (hs : 0 < sigma.det) :
    likelihood ys mu sigma * exp (logNIW mu sigma p) = exp (evidence ys p) * exp (logNIW mu sigma (posteriorNIW ys p)) := by
  have e : likelihood ys mu sigma = exp (ys.map (fun y => logNormal y mu sigma)).sum := by
    unfold likelihood
    clear h
    induction ys with
    | nil => simp
    | cons y ys ih => simp only [List.map_cons, List.prod_cons, List.sum_cons, Real.exp_add, ih]
  rw [e, ← Real.exp_add, ← Real.exp_add, C93_bayes h hp mu hs]

theorem rowsWith_ne {y : List (Fin m → ℝ)} {d : List ℕ} (hl : d.length = y.length) {j : ℕ} (hj : j ∈ d) : rowsWith y d j ≠ [] := by
  obtain ⟨i, hi, rfl⟩ := List.getElem_of_mem hj
  have : y[i] ∈ rowsWith y d d[i] := by
    unfold rowsWith
    rw [List.mem_filterMap]
    exact ⟨(y[i], d[i]), List.mem_iff_getElem.2 ⟨i, by simp; omega, by simp⟩, by simp⟩
  exact List.ne_nil_of_mem this

/-- **The Gibbs step draws from the posterior**: in a step that returns, the atom of every occupied component is drawn with parameters whose density is
proportional to prior times likelihood of the observations of that component. -/
theorem C93_step {C : WeightClass ℝ} {Atom : Type} {ω : Oracle ℝ} (W : World ℝ m Atom) (s t : GM C m Atom × ℕ) (h : GM.gibbsStep W ω s = (.ok (), t))
    (hp : 0 < (GM.prior s.1).lam) (j : ℕ) (hj : j ∈ s.1.d) (hl : s.1.d.length = s.1.y.length) :
    ∃ (pos : ℕ) (q : NIW ℝ m) (c : ℝ), t.1.theta.lookup j = some (W.atom pos q) ∧ 0 < c ∧ ∀ (mu : Fin m → ℝ) (sigma : Matrix (Fin m) (Fin m) ℝ), 0 < sigma.det →
      likelihood (rowsWith s.1.y s.1.d j) mu sigma * exp (logNIW mu sigma (GM.prior s.1)) = c * exp (logNIW mu sigma q) :=
  ⟨_, _, _, (C67_step W s t h).1 j hj, Real.exp_pos _, fun mu _ hs => C93_density (rowsWith_ne hl hj) hp mu hs⟩

/-- The log-likelihood of the observations, component by component. -/
noncomputable def groupLogLik (y : List (Fin m → ℝ)) (d : List ℕ) (theta : List (ℕ × ((Fin m → ℝ) × Matrix (Fin m) (Fin m) ℝ))) (js : List ℕ) : ℝ :=
  (js.map (fun j => match theta.lookup j with
    | none => 0
    | some a => ((rowsWith y d j).map (fun x => logNormal x a.1 a.2)).sum)).sum

/-- **`_theta_log_likelihood`** plus the log-likelihood of the observations: the evidence of every occupied component plus the posterior log-density of its atom. -/
theorem C93_joint {y : List (Fin m → ℝ)} {d : List ℕ} {theta : List (ℕ × ((Fin m → ℝ) × Matrix (Fin m) (Fin m) ℝ))} {p : NIW ℝ m} (hp : 0 < p.lam)
    (hdet : ∀ j a, theta.lookup j = some a → 0 < a.2.det) (hl : d.length = y.length) {js : List ℕ} (hj : ∀ j ∈ js, j ∈ d) {r : ℝ} (h : thetaLogLik p theta js = .ok r) :
    groupLogLik y d theta js + r = (js.map (fun j => match theta.lookup j with
      | none => 0
      | some a => evidence (rowsWith y d j) p + logNIW a.1 a.2 (posteriorNIW (rowsWith y d j) p))).sum := by
  induction js generalizing r with
  | nil =>
    obtain rfl : (0 : ℝ) = r := by simpa [thetaLogLik] using h
    simp [groupLogLik]
  | cons j js ih =>
    unfold thetaLogLik at h
    split at h
    · exact absurd h (by simp)
    · rename_i a ha
      split at h
      · exact absurd h (by simp)
      · rename_i r' hr'
        obtain rfl : logNIW a.1 a.2 p + r' = r := by simpa using h
        have e := ih (fun j h => hj j (by simp [h])) hr'
        have hb := C93_bayes (rowsWith_ne hl (hj j (by simp))) hp a.1 (hdet j a ha)
        rw [List.map_cons, List.sum_cons, ← e]
        unfold groupLogLik
        rw [List.map_cons, List.sum_cons]
        simp only [ha]
        linarith

/-! ### Measures -/

/-- Mean and covariance matrix. -/
abbrev MeanCov (m : ℕ) : Type := (Fin m → ℝ) × (Fin m → Fin m → ℝ)

theorem measurable_det : Measurable (fun s : Fin m → Fin m → ℝ => (Matrix.of s).det) := by
  have h : Continuous (fun s : Fin m → Fin m → ℝ => (Matrix.of s).det) :=
    Continuous.matrix_det (continuous_matrix fun i j => (continuous_apply j).comp (continuous_apply i))
  exact h.measurable

theorem measurable_inv_entry (i j : Fin m) : Measurable (fun s : Fin m → Fin m → ℝ => (Matrix.of s)⁻¹ i j) := by
  have h : Continuous (fun s : Fin m → Fin m → ℝ => (Matrix.of s).adjugate i j) :=
    (Continuous.matrix_adjugate (A := fun s : Fin m → Fin m → ℝ => Matrix.of s)
      (continuous_matrix fun i j => (continuous_apply j).comp (continuous_apply i))).matrix_elem i j
  have e : (fun s : Fin m → Fin m → ℝ => (Matrix.of s)⁻¹ i j) = fun s => ((Matrix.of s).det)⁻¹ * (Matrix.of s).adjugate i j := by
    funext s
    rw [Matrix.inv_def, Matrix.smul_apply, Ring.inverse_eq_inv', smul_eq_mul]
  rw [e]
  exact measurable_det.inv.mul h.measurable

theorem measurable_quad {f g : MeanCov m → Fin m → ℝ} (hf : Measurable f) (hg : Measurable g) :
    Measurable (fun t : MeanCov m => quad (Matrix.of t.2)⁻¹ (f t) (g t)) := by
  unfold quad
  refine Finset.measurable_fun_sum _ fun i _ => Finset.measurable_fun_sum _ fun j _ => ?_
  refine ((measurable_inv_entry i j).comp measurable_snd).mul ?_
  exact ((((measurable_pi_apply i).comp hf).sub ((measurable_pi_apply i).comp hg))).mul
    (((measurable_pi_apply j).comp hf).sub ((measurable_pi_apply j).comp hg))

theorem measurable_logNormal (y : Fin m → ℝ) : Measurable (fun t : MeanCov m => logNormal y t.1 (Matrix.of t.2)) := by
  unfold logNormal
  have h1 : Measurable (fun t : MeanCov m => log (Matrix.of t.2).det) := Real.measurable_log.comp (measurable_det.comp measurable_snd)
  have h2 := measurable_quad (m := m) (f := fun _ => y) (g := fun t => t.1) measurable_const measurable_fst
  exact (((measurable_const.add h1).add h2).neg).div_const 2

theorem measurable_likelihood (ys : List (Fin m → ℝ)) : Measurable (fun t : MeanCov m => likelihood ys t.1 (Matrix.of t.2)) := by
  unfold likelihood
  induction ys with
  | nil => simp
  | cons y ys ih =>
    simp only [List.map_cons, List.prod_cons]
    exact (Real.measurable_exp.comp (measurable_logNormal y)).mul ih

theorem measurable_logNIW (p : NIW ℝ m) : Measurable (fun t : MeanCov m => logNIW t.1 (Matrix.of t.2) p) := by
  unfold logNIW
  have h1 : Measurable (fun t : MeanCov m => log (Matrix.of t.2).det) := Real.measurable_log.comp (measurable_det.comp measurable_snd)
  refine Measurable.add ?_ ?_
  · unfold logInvWishart
    refine ((measurable_const.sub (measurable_const.mul h1))).sub (Measurable.div_const ?_ 2)
    simp only [Matrix.trace, Matrix.diag, Matrix.mul_apply]
    exact Finset.measurable_fun_sum _ fun i _ => Finset.measurable_fun_sum _ fun j _ => measurable_const.mul ((measurable_inv_entry j i).comp measurable_snd)
  · have e : ∀ t : MeanCov m, p.lam⁻¹ • Matrix.of t.2 = Matrix.of (p.lam⁻¹ • t.2) := fun t => rfl
    simp only [e]
    have hm : Measurable (fun t : MeanCov m => ((t.1, p.lam⁻¹ • t.2) : MeanCov m)) := measurable_fst.prodMk ((measurable_const_smul p.lam⁻¹).comp measurable_snd)
    unfold logNormal
    have h3 : Measurable (fun t : MeanCov m => log (Matrix.of (p.lam⁻¹ • t.2)).det) := h1.comp hm
    have h2 := (measurable_quad (m := m) (f := fun t => t.1) (g := fun _ => p.mu) measurable_fst measurable_const).comp hm
    exact (((measurable_const.add h3).add h2).neg).div_const 2

/-- The normal-inverse-Wishart law, as a density with respect to `ref`. -/
noncomputable def niwLaw (ref : Measure (MeanCov m)) (p : NIW ℝ m) : Measure (MeanCov m) :=
  ref.withDensity fun t => ENNReal.ofReal (exp (logNIW t.1 (Matrix.of t.2) p))

/-- **The posterior law**: the prior reweighted with the likelihood of the data is the law with the returned parameters, up to a constant. -/
theorem C93_measure {ref : Measure (MeanCov m)} (hr : ∀ᵐ t ∂ref, 0 < (Matrix.of t.2).det) {ys : List (Fin m → ℝ)} (h : ys ≠ []) {p : NIW ℝ m} (hp : 0 < p.lam) :
    (niwLaw ref p).withDensity (fun t => ENNReal.ofReal (likelihood ys t.1 (Matrix.of t.2)))
      = ENNReal.ofReal (exp (evidence ys p)) • niwLaw ref (posteriorNIW ys p) := by
  have m1 : ∀ q : NIW ℝ m, Measurable fun t : MeanCov m => ENNReal.ofReal (exp (logNIW t.1 (Matrix.of t.2) q)) :=
    fun q => (Real.measurable_exp.comp (measurable_logNIW q)).ennreal_ofReal
  unfold niwLaw
  rw [← withDensity_mul _ (m1 p) (measurable_likelihood ys).ennreal_ofReal, ← withDensity_smul _ (m1 _)]
  refine withDensity_congr_ae (hr.mono fun t ht => ?_)
  simp only [Pi.mul_apply, Pi.smul_apply, smul_eq_mul]
  rw [← ENNReal.ofReal_mul (Real.exp_nonneg _), ← ENNReal.ofReal_mul (Real.exp_nonneg _), ← C93_density h hp _ ht, mul_comm]

/-- **The posterior law, normalised**: if the returned parameters give a probability, it is the conditional law of mean and covariance given the data, and the data have the
density `exp evidence`. -/
theorem C93_posterior {ref : Measure (MeanCov m)} (hr : ∀ᵐ t ∂ref, 0 < (Matrix.of t.2).det) {ys : List (Fin m → ℝ)} (h : ys ≠ []) {p : NIW ℝ m} (hp : 0 < p.lam)
    [IsProbabilityMeasure (niwLaw ref (posteriorNIW ys p))] :
    ∫⁻ t, ENNReal.ofReal (likelihood ys t.1 (Matrix.of t.2)) ∂(niwLaw ref p) = ENNReal.ofReal (exp (evidence ys p)) ∧
    (∫⁻ t, ENNReal.ofReal (likelihood ys t.1 (Matrix.of t.2)) ∂(niwLaw ref p))⁻¹ •
      (niwLaw ref p).withDensity (fun t => ENNReal.ofReal (likelihood ys t.1 (Matrix.of t.2))) = niwLaw ref (posteriorNIW ys p) := by
  have hm := C93_measure hr h hp
  have h1 : ∫⁻ t, ENNReal.ofReal (likelihood ys t.1 (Matrix.of t.2)) ∂(niwLaw ref p) = ENNReal.ofReal (exp (evidence ys p)) := by
    have := congrArg (fun μ : Measure (MeanCov m) => μ Set.univ) hm
    simpa [withDensity_apply] using this
  refine ⟨h1, ?_⟩
  rw [h1, hm, smul_smul, ENNReal.inv_mul_cancel (by simp [Real.exp_pos]) ENNReal.ofReal_ne_top, one_smul]

/-! ### One coordinate: the laws are probabilities -/

/-- Lebesgue measure on mean and variance. -/
noncomputable def meanVar : Measure (MeanCov 1) :=
  (volume.prod (volume.restrict (Set.Ioi (0 : ℝ)))).map (fun q : ℝ × ℝ => ((fun _ => q.1, fun _ _ => q.2) : MeanCov 1))

theorem measurable_meanVar : Measurable (fun q : ℝ × ℝ => ((fun _ => q.1, fun _ _ => q.2) : MeanCov 1)) :=
  (measurable_pi_lambda _ fun _ => measurable_fst).prodMk (measurable_pi_lambda _ fun _ => measurable_pi_lambda _ fun _ => measurable_snd)

theorem logNormal_one (x mu : Fin 1 → ℝ) {v : ℝ} (hv : 0 < v) :
    exp (logNormal x mu (Matrix.of fun _ _ => v)) = ProbabilityTheory.gaussianPDFReal (mu 0) v.toNNReal (x 0) := by
  unfold logNormal quad ProbabilityTheory.gaussianPDFReal
  have hd : (Matrix.of fun _ _ => v : Matrix (Fin 1) (Fin 1) ℝ).det = v := by simp
  have hi : (Matrix.of fun _ _ => v : Matrix (Fin 1) (Fin 1) ℝ)⁻¹ 0 0 = v⁻¹ := by
    rw [Matrix.inv_def]; simp
  rw [hd]
  simp only [Finset.univ_unique, Fin.default_eq_zero, Finset.sum_singleton, hi, Real.coe_toNNReal v hv.le]
  rw [← Real.exp_log (show 0 < (√(2 * π * v))⁻¹ by positivity), ← Real.exp_add]
  congr 1
  rw [Real.log_inv, Real.log_sqrt (by positivity), Real.log_mul (by positivity) hv.ne']
  field_simp
  push_cast
  ring

theorem logInvWishart_one {v nu psi : ℝ} (hv : 0 < v) (hn : 0 < nu) (hp : 0 < psi) :
    exp (logInvWishart (Matrix.of fun _ _ => v : Matrix (Fin 1) (Fin 1) ℝ) nu (Matrix.of fun _ _ => psi))
      = (psi / 2) ^ (nu / 2) / Gamma (nu / 2) * (v ^ (-1 - 1 : ℝ) * ((v ^ (-1 : ℝ)) ^ (nu / 2 - 1) * exp (-(psi / 2 * v ^ (-1 : ℝ))))) := by
  have hd : ∀ v : ℝ, (Matrix.of fun _ _ => v : Matrix (Fin 1) (Fin 1) ℝ).det = v := fun v => by simp
  have hi : (Matrix.of fun _ _ => v : Matrix (Fin 1) (Fin 1) ℝ)⁻¹ 0 0 = v⁻¹ := by
    rw [Matrix.inv_def]; simp
  have ht : ((Matrix.of fun _ _ => psi : Matrix (Fin 1) (Fin 1) ℝ) * (Matrix.of fun _ _ => v)⁻¹).trace = psi * v⁻¹ := by
    simp only [Matrix.trace, Matrix.diag, Matrix.mul_apply, Finset.univ_unique, Fin.default_eq_zero, Finset.sum_singleton, hi]
    rfl
  have hG : 0 < Gamma (nu / 2) := Real.Gamma_pos_of_pos (by linarith)
  unfold logInvWishart multigammaln
  rw [hd, hd, ht]
  rw [Real.rpow_def_of_pos (by positivity : (0 : ℝ) < psi / 2), Real.rpow_def_of_pos (Real.rpow_pos_of_pos hv _), Real.rpow_def_of_pos hv (-1 - 1),
    Real.log_rpow hv, Real.rpow_neg_one, ← Real.exp_add, ← Real.exp_add]
  have hs : ∑ i : Fin 1, log (Gamma (nu / 2 - ((i : ℕ) : ℝ) / 2)) = log (Gamma (nu / 2)) := by simp
  rw [hs, show Gamma (nu / 2) = exp (log (Gamma (nu / 2))) from (Real.exp_log hG).symm, Real.log_exp]
  rw [← Real.exp_sub, ← Real.exp_add]
  congr 1
  rw [Real.log_div hp.ne' (by norm_num)]
  simp
  ring

theorem invGamma_lintegral {a r : ℝ} (ha : 0 < a) (hr : 0 < r) :
    ∫⁻ v in Set.Ioi (0 : ℝ), ENNReal.ofReal (r ^ a / Gamma a * (v ^ (-1 - 1 : ℝ) * ((v ^ (-1 : ℝ)) ^ (a - 1) * exp (-(r * v ^ (-1 : ℝ)))))) = 1 := by
  have hG : 0 < Gamma a := Real.Gamma_pos_of_pos ha
  have h1 := Real.integral_rpow_mul_exp_neg_mul_Ioi ha hr
  have h2 := MeasureTheory.integral_comp_rpow_Ioi (fun t : ℝ => t ^ (a - 1) * exp (-(r * t))) (p := -1) (by norm_num)
  rw [h1] at h2
  simp only [abs_neg, abs_one, one_mul, smul_eq_mul] at h2
  have h3 : ∫ v in Set.Ioi (0 : ℝ), r ^ a / Gamma a * (v ^ (-1 - 1 : ℝ) * ((v ^ (-1 : ℝ)) ^ (a - 1) * exp (-(r * v ^ (-1 : ℝ))))) = 1 := by
    rw [integral_const_mul, h2, one_div, Real.inv_rpow hr.le]
    have := (Real.rpow_pos_of_pos hr a).ne'
    field_simp
  rw [← ofReal_integral_eq_lintegral_ofReal (Integrable.of_integral_ne_zero (by rw [h3]; norm_num)), h3, ENNReal.ofReal_one]
  refine (ae_restrict_mem measurableSet_Ioi).mono fun v hv => ?_
  have hv : 0 < v := hv
  show (0 : ℝ) ≤ _
  positivity

/-- With one coordinate the prior and posterior laws are probabilities. -/
theorem C93_one {p : NIW ℝ 1} (hl : 0 < p.lam) (hn : 0 < p.nu) (hp : 0 < p.psi 0 0) : IsProbabilityMeasure (niwLaw meanVar p) := by
  constructor
  have m1 : Measurable fun t : MeanCov 1 => ENNReal.ofReal (exp (logNIW t.1 (Matrix.of t.2) p)) :=
    (Real.measurable_exp.comp (measurable_logNIW p)).ennreal_ofReal
  have hpsi : Matrix.of p.psi = Matrix.of fun _ _ => p.psi 0 0 := by
    ext i j
    rw [Subsingleton.elim i 0, Subsingleton.elim j 0]
    rfl
  unfold niwLaw meanVar
  rw [withDensity_apply _ MeasurableSet.univ, Measure.restrict_univ, lintegral_map m1 measurable_meanVar]
  refine (lintegral_prod_symm _ (m1.comp measurable_meanVar).aemeasurable).trans ?_
  rw [← invGamma_lintegral (a := p.nu / 2) (r := p.psi 0 0 / 2) (by linarith) (by linarith)]
  refine lintegral_congr_ae ((ae_restrict_mem measurableSet_Ioi).mono fun v hv => ?_)
  have hv : 0 < v := hv
  have hvl : 0 < p.lam⁻¹ * v := by positivity
  beta_reduce
  have e : ∀ x : ℝ, ENNReal.ofReal (exp (logNIW (fun _ => x) (Matrix.of fun _ _ => v) p))
      = ENNReal.ofReal (exp (logInvWishart (Matrix.of fun _ _ => v : Matrix (Fin 1) (Fin 1) ℝ) p.nu (Matrix.of p.psi)))
        * ProbabilityTheory.gaussianPDF (p.mu 0) (p.lam⁻¹ * v).toNNReal x := fun x => by
    unfold logNIW ProbabilityTheory.gaussianPDF
    rw [Real.exp_add, ENNReal.ofReal_mul (Real.exp_nonneg _)]
    congr 2
    exact logNormal_one (fun _ => x) p.mu hvl
  refine (lintegral_congr e).trans ?_
  rw [lintegral_const_mul _ (ProbabilityTheory.measurable_gaussianPDF _ _), ProbabilityTheory.lintegral_gaussianPDF_eq_one _ (by simpa using hvl), mul_one,
    hpsi, logInvWishart_one hv hn hp]

theorem meanVar_pos : ∀ᵐ t ∂meanVar, 0 < (Matrix.of t.2).det := by
  unfold meanVar
  have hs : MeasurableSet {t : MeanCov 1 | 0 < (Matrix.of t.2).det} := measurableSet_lt measurable_const (measurable_det.comp measurable_snd)
  rw [ae_map_iff measurable_meanVar.aemeasurable hs]
  refine Measure.ae_prod_mem_iff_ae_ae_mem ?_ |>.2 ?_
  · exact measurable_meanVar hs
  · refine Filter.Eventually.of_forall fun x => (ae_restrict_mem measurableSet_Ioi).mono fun v hv => ?_
    show 0 < (Matrix.of fun _ _ => v : Matrix (Fin 1) (Fin 1) ℝ).det
    simpa using hv

/-! ### The hypotheses are met -/

/-- Three observations in the plane. -/
example (mu : Fin 2 → ℝ) : let p : NIW ℝ 2 := ⟨![0, 0], 1, ![![1, 0], ![0, 1]], 3⟩
    likelihood [![1, 2], ![3, 4], ![0, 1]] mu 1 * exp (logNIW mu 1 p) = exp (evidence [![1, 2], ![3, 4], ![0, 1]] p) * exp (logNIW mu 1 (posteriorNIW [![1, 2], ![3, 4], ![0, 1]] p)) := by
  intro p
  exact C93_density (by simp) (by norm_num [p]) mu (by simp)

/-- With one coordinate the posterior is the conditional law, for all data. -/
example {ys : List (Fin 1 → ℝ)} (h : ys ≠ []) {p : NIW ℝ 1} (hl : 0 < p.lam) (hn : 0 < p.nu) (hp : 0 < p.psi 0 0) :
    (∫⁻ t, ENNReal.ofReal (likelihood ys t.1 (Matrix.of t.2)) ∂(niwLaw meanVar p))⁻¹ •
      (niwLaw meanVar p).withDensity (fun t => ENNReal.ofReal (likelihood ys t.1 (Matrix.of t.2))) = niwLaw meanVar (posteriorNIW ys p) := by
  have hc : 0 < (posteriorNIW ys p).psi 0 0 := by
    have hs : 0 ≤ (ys.map (fun y => (y 0 - meanVec ys 0) * (y 0 - meanVec ys 0))).sum :=
      List.sum_nonneg (by simp only [List.mem_map]; rintro _ ⟨y, _, rfl⟩; exact mul_self_nonneg _)
    show 0 < p.psi 0 0 + (ys.length : ℝ) * (_ / (ys.length : ℝ)) + (p.lam * ys.length) / (p.lam + ys.length) * ((meanVec ys 0 - p.mu 0) * (meanVec ys 0 - p.mu 0))
    have := mul_self_nonneg (meanVec ys 0 - p.mu 0)
    positivity
  have := C93_one (p := posteriorNIW ys p) (show 0 < p.lam + (ys.length : ℝ) by positivity) (show 0 < p.nu + (ys.length : ℝ) by positivity) hc
  exact (C93_posterior meanVar_pos h hl).2

end Verif.Mix
