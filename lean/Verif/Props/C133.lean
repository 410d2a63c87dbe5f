import Verif.Lemmas.InvWishart
import Verif.Props.C98
import Verif.Props.C106

/-!
# C133: Gibbs fits target the posterior in every dimension

The normal-inverse-Wishart density, for a positive `lambda`, more than `m - 1` degrees of freedom and a positive definite scale matrix, is a probability density on the means and
the symmetric positive definite matrices of size `m` (`C133_prob`).  So `posterior_norm_invw_params` returns the conditional law of mean and covariance given the rows, whatever the
number of columns (`C133_posterior`), and the statements about fits whose hypothesis was one column hold for any number of columns: the law of the state after `k` iterations tends to the
posterior (`C133_dirichletProcess`, `C133_pitmanYor`, `C133_dirichletDistribution`, `C133_equal`), and the affinities of the saved iterations tend to the posterior probabilities
of sharing a component (`C133_affinity_dirichletProcess` and so on).  The default degrees of freedom are enough (`C133_default`); but if the rows lie in a hyperplane, the default scale
matrix is singular, and so is the one that every posterior is drawn with (`C133_flat_refuted`).
-/

set_option linter.unusedSectionVars false

namespace Verif.Mix
open Real MeasureTheory Matrix Filter
open scoped ENNReal Topology
variable {m n N : ℕ}

/-- The parameters for which the normal-inverse-Wishart distribution exists. -/
def Admissible (p : NIW ℝ m) : Prop := 0 < p.lam ∧ (m : ℝ) - 1 < p.nu ∧ (Matrix.of p.psi).PosDef

/-- Lebesgue measure on means and covariance matrices. -/
noncomputable def meanCovVol (m : ℕ) : Measure (MeanCov m) := volume.prod (IW.covVol m)

/-- **The normal-inverse-Wishart law is a probability**, in every dimension. -/
theorem C133_prob {p : NIW ℝ m} (hp : Admissible p) : IsProbabilityMeasure (niwLaw (meanCovVol m) p) := by
  obtain ⟨hl, hn, hpsi⟩ := hp
  constructor
  have m1 : Measurable fun t : MeanCov m => ENNReal.ofReal (exp (logNIW t.1 (Matrix.of t.2) p)) :=
    (Real.measurable_exp.comp (measurable_logNIW p)).ennreal_ofReal
  unfold niwLaw meanCovVol
  rw [withDensity_apply _ MeasurableSet.univ, Measure.restrict_univ]
  refine (lintegral_prod_symm _ m1.aemeasurable).trans ?_
  rw [← IW.lintegral_invWishart hn hpsi]
  unfold IW.covVol
  refine setLIntegral_congr_fun IW.measurableSet_posDef fun S hS => ?_
  have hS : (Matrix.of S).PosDef := hS
  have e : ∀ x : Fin m → ℝ, ENNReal.ofReal (exp (logNIW x (Matrix.of S) p))
      = ENNReal.ofReal (exp (logInvWishart (Matrix.of S) p.nu (Matrix.of p.psi))) * ENNReal.ofReal (exp (logNormal x p.mu (p.lam⁻¹ • Matrix.of S))) := fun x => by
    unfold logNIW
    rw [Real.exp_add, ENNReal.ofReal_mul (Real.exp_nonneg _)]
  refine (lintegral_congr e).trans ?_
  rw [lintegral_const_mul' _ _ ENNReal.ofReal_ne_top, IW.lintegral_logNormal p.mu (hS.smul (inv_pos.2 hl)), mul_one]

theorem meanCovVol_pos : ∀ᵐ t ∂meanCovVol m, 0 < (Matrix.of t.2).det := by
  have h : ∀ᵐ S ∂IW.covVol m, 0 < (Matrix.of S).det := (ae_restrict_mem IW.measurableSet_posDef).mono fun S hS => by
    have hS : (Matrix.of S).PosDef := hS
    exact hS.det_pos
  exact Measure.quasiMeasurePreserving_snd.ae h

theorem scatter_posSemidef (ys : List (Fin m → ℝ)) (c : Fin m → ℝ) : (Matrix.of fun i j => (ys.map (fun y => (y i - c i) * (y j - c j))).sum).PosSemidef := by
  induction ys with
  | nil => exact Matrix.PosSemidef.zero
  | cons y ys ih =>
    have h := (posSemidef_vecMulVec_self_star (y - c)).add ih
    have e : (Matrix.of fun i j => ((y :: ys).map (fun y => (y i - c i) * (y j - c j))).sum)
        = vecMulVec (y - c) (star (y - c)) + Matrix.of fun i j => (ys.map (fun y => (y i - c i) * (y j - c j))).sum := by
      ext i j
      simp only [Matrix.of_apply, List.map_cons, List.sum_cons, Matrix.add_apply, vecMulVec_apply, Pi.sub_apply, star_trivial]
    rw [e]
    exact h

/-- The posterior parameters are admissible if the prior ones are. -/
theorem Admissible.posterior {p : NIW ℝ m} (hp : Admissible p) (ys : List (Fin m → ℝ)) : Admissible (posteriorNIW ys p) := by
  obtain ⟨hl, hn, hpsi⟩ := hp
  have hlen : (0 : ℝ) ≤ ys.length := Nat.cast_nonneg _
  refine ⟨show 0 < p.lam + (ys.length : ℝ) by positivity, show (m : ℝ) - 1 < p.nu + (ys.length : ℝ) by linarith, ?_⟩
  have h1 : (Matrix.of (covBias ys)).PosSemidef := by
    have := (scatter_posSemidef ys (meanVec ys)).smul (inv_nonneg.2 hlen)
    convert this using 1
    ext i j
    show covBias ys i j = (ys.length : ℝ)⁻¹ * _
    unfold covBias
    rw [div_eq_mul_inv, mul_comm]
    rfl
  have h2 := (posSemidef_vecMulVec_self_star (meanVec ys - p.mu)).smul (show 0 ≤ (p.lam * ys.length) / (p.lam + ys.length) by positivity)
  exact (hpsi.add_posSemidef (h1.smul hlen)).add_posSemidef h2

/-- **`posterior_norm_invw_params` is Bayes' rule**: for any number of columns, the law with the returned parameters is the conditional law of mean and covariance given the rows, and
`exp evidence` is the density of the rows. -/
theorem C133_posterior {ys : List (Fin m → ℝ)} (h : ys ≠ []) {p : NIW ℝ m} (hp : Admissible p) :
    ∫⁻ t, ENNReal.ofReal (likelihood ys t.1 (Matrix.of t.2)) ∂(niwLaw (meanCovVol m) p) = ENNReal.ofReal (exp (evidence ys p)) ∧
    (∫⁻ t, ENNReal.ofReal (likelihood ys t.1 (Matrix.of t.2)) ∂(niwLaw (meanCovVol m) p))⁻¹ •
      (niwLaw (meanCovVol m) p).withDensity (fun t => ENNReal.ofReal (likelihood ys t.1 (Matrix.of t.2))) = niwLaw (meanCovVol m) (posteriorNIW ys p) := by
  have := C133_prob (hp.posterior ys)
  exact C93_posterior meanCovVol_pos h hp.1

open Classical in
/-- The normal-inverse-Wishart law of mean and covariance, for admissible parameters. -/
noncomputable def niwAtoms (q : NIW ℝ m) : Measure (MeanCov m) := if Admissible q then niwLaw (meanCovVol m) q else Measure.dirac 0

instance (q : NIW ℝ m) : IsProbabilityMeasure (niwAtoms q) := by
  unfold niwAtoms
  split
  · rename_i h
    exact C133_prob h
  · infer_instance

/-- Normal observations and the atoms of the code are conjugate, for any number of columns. -/
theorem niw_conjugate {p : NIW ℝ m} (hp : Admissible p) : Conjugate (AtomGen.ofLaw niwAtoms) normalLog p := by
  intro rows hrows
  rw [AtomGen.ofLaw_law, AtomGen.ofLaw_law, niwAtoms, niwAtoms, if_pos (hp.posterior rows), if_pos hp, ← (C133_posterior hrows hp).2]
  unfold posterior
  simp_rw [likelihood_prod]

theorem measurable_obs (y : Fin n → Fin m → ℝ) (i : Fin n) : Measurable (obsDens normalLog (y i)) := (Real.measurable_exp.comp (measurable_logNormal (y i))).ennreal_ofReal

/-! ### The law of the state tends to the posterior -/

section
variable {nz : ℝ → ℝ} (hnz : IsGumbel nz) {W : World ℝ m (MeanCov m)} (heps : W.eps = 0) (hW : W.logpdf = normalLog) {p : NIW ℝ m} (hp : Admissible p) (hn : 2 ≤ n) (G : RandGen)
  (y : Fin n → Fin m → ℝ) {c : ℝ≥0∞} (hc : c ≠ ∞)

section
variable {φ : (Fin n → ℕ) → Params (MeanCov m) → ℝ≥0∞} (hφ : ∀ δ, Measurable (φ δ)) (hφc : ∀ δ z, φ δ z ≤ c)
include hnz heps hW hp hn hc hφ hφc

/-- Dirichlet process mixture of normal observations. -/
theorem C133_dirichletProcess {alpha : ℝ} (ha : 0 < alpha) {s : GM (DP.cls : WeightClass ℝ) m (MeanCov m) × ℕ} {d : Fin n → ℕ}
    (h : StickHolds (C0 := DP.core) y p (fun s => s.alpha = alpha) s.1 d) (hfresh : FreshAtoms s.1) :
    Tendsto (fun k => runMean (C0 := DP.core) nz W (AtomGen.ofLaw niwAtoms) G k (heldMean (AtomGen.ofLaw niwAtoms) p (dpSticks alpha ha) DP.v φ) s) atTop
      (𝓝 (postMean (AtomGen.ofLaw niwAtoms) normalLog p (dpSticks alpha ha) y φ)) :=
  C97_fresh (C0 := DP.core) (measurable_obs y) hnz hW (dp_stickClass ha) heps hn (dpSticks_exhausts ha) (niw_conjugate hp) (fun _ _ => WithBot.coe_ne_bot) G h hfresh hc hφ hφc

/-- Pitman-Yor process mixture of normal observations. -/
theorem C133_pitmanYor {pyd alpha : ℝ} (h0 : 0 ≤ pyd) (h1 : pyd < 1) (ha : 0 < alpha) {s : GM (PY.cls : WeightClass ℝ) m (MeanCov m) × ℕ} {d : Fin n → ℕ}
    (h : StickHolds (C0 := PY.core) y p (fun s => s.pyd = pyd ∧ s.alpha = alpha) s.1 d) (hfresh : FreshAtoms s.1) :
    Tendsto (fun k => runMean (C0 := PY.core) nz W (AtomGen.ofLaw niwAtoms) G k (heldMean (AtomGen.ofLaw niwAtoms) p (pySticks pyd alpha h0 h1 ha) PY.v φ) s) atTop
      (𝓝 (postMean (AtomGen.ofLaw niwAtoms) normalLog p (pySticks pyd alpha h0 h1 ha) y φ)) :=
  C97_fresh (C0 := PY.core) (measurable_obs y) hnz hW (py_stickClass h0 h1 ha) heps hn (pySticks_exhausts h0 h1 ha) (niw_conjugate hp) (fun _ _ => WithBot.coe_ne_bot) G h hfresh hc hφ hφc

end

section
variable [NeZero N] {φ : (Fin n → Fin N) → FinMix.FParams N (MeanCov m) → ℝ≥0∞} (hφ : ∀ δ, Measurable (φ δ)) (hφc : ∀ δ z, φ δ z ≤ c)
include hnz heps hW hp hn hc hφ hφc

/-- Mixture of normal observations with Dirichlet weights. -/
theorem C133_dirichletDistribution {alpha : List ℝ} (hN : alpha.length = N) (ha : ∀ x ∈ alpha, 0 < x) {s : GM (DirDist.cls : WeightClass ℝ) m (MeanCov m) × ℕ} {d : Fin n → Fin N}
    (h : FinMix.FinHolds (C0 := DirDist.core) y p (fun s => s.alpha = alpha) s.1 d) (hfresh : FreshAtoms s.1) :
    Tendsto (fun k => runMean (C0 := DirDist.core) nz W (AtomGen.ofLaw niwAtoms) G k (FinMix.heldMean (AtomGen.ofLaw niwAtoms) p φ) s) atTop
      (𝓝 (FinMix.postMean (AtomGen.ofLaw niwAtoms) normalLog p (FinMix.dirPrior alpha hN ha) y φ)) :=
  FinMix.C105_fresh (C0 := DirDist.core) (measurable_obs y) hnz hW (FinMix.dir_class hN ha) heps hn (niw_conjugate hp) (fun _ _ => WithBot.coe_ne_bot) G h hfresh hc hφ hφc

/-- Mixture of normal observations with equal weights. -/
theorem C133_equal {s : GM (Equal.cls : WeightClass ℝ) m (MeanCov m) × ℕ} {d : Fin n → Fin N} (h : FinMix.FinHolds (C0 := Equal.core) y p (fun s => s.n = (N : ℤ)) s.1 d)
    (hfresh : FreshAtoms s.1) :
    Tendsto (fun k => runMean (C0 := Equal.core) nz W (AtomGen.ofLaw niwAtoms) G k (FinMix.heldMean (AtomGen.ofLaw niwAtoms) p φ) s) atTop
      (𝓝 (FinMix.postMean (AtomGen.ofLaw niwAtoms) normalLog p (FinMix.equalPrior N) y φ)) :=
  FinMix.C105_fresh (C0 := Equal.core) (measurable_obs y) hnz hW (FinMix.equal_class N) heps hn (niw_conjugate hp) (fun _ _ => WithBot.coe_ne_bot) G h hfresh hc hφ hφc

end

/-! ### The affinities of the saved iterations tend to the posterior probabilities -/

section
variable [NeZero N] (i i' : Fin n) {gap : ℕ} (hgap : 0 < gap) (burn : ℕ) {ε : ℝ} (hε : 0 < ε)
include hnz heps hW hp hn hgap hε

/-- Dirichlet process mixture of normal observations. -/
theorem C133_affinity_dirichletProcess {alpha : ℝ} (ha : 0 < alpha) {s : GM (DP.cls : WeightClass ℝ) m (MeanCov m) × ℕ} {d : Fin n → ℕ}
    (h : StickHolds (C0 := DP.core) y p (fun s => s.alpha = alpha) s.1 d) (hfresh : FreshAtoms s.1) :
    Tendsto (fun T : ℕ => savedMean (C0 := DP.core) nz W (AtomGen.ofLaw niwAtoms) G gap T (burn + 1)
      (fun l : List (Fin n → ℕ) => if ε ≤ |(l.countP (fun δ => δ i = δ i') : ℝ) / T
        - ∑' δ, if δ i = δ i' then (stickPosterior (AtomGen.ofLaw niwAtoms) normalLog p (dpSticks alpha ha) y δ).real Set.univ else 0| then 1 else 0) s)
      atTop (𝓝 0) :=
  C98_affinity (C0 := DP.core) (measurable_obs y) hnz hW (dp_stickClass ha) heps hn (dpSticks_exhausts ha) (niw_conjugate hp) G (fun _ _ => WithBot.coe_ne_bot) h hfresh i i' hgap burn hε

/-- Pitman-Yor process mixture of normal observations. -/
theorem C133_affinity_pitmanYor {pyd alpha : ℝ} (h0 : 0 ≤ pyd) (h1 : pyd < 1) (ha : 0 < alpha) {s : GM (PY.cls : WeightClass ℝ) m (MeanCov m) × ℕ} {d : Fin n → ℕ}
    (h : StickHolds (C0 := PY.core) y p (fun s => s.pyd = pyd ∧ s.alpha = alpha) s.1 d) (hfresh : FreshAtoms s.1) :
    Tendsto (fun T : ℕ => savedMean (C0 := PY.core) nz W (AtomGen.ofLaw niwAtoms) G gap T (burn + 1)
      (fun l : List (Fin n → ℕ) => if ε ≤ |(l.countP (fun δ => δ i = δ i') : ℝ) / T
        - ∑' δ, if δ i = δ i' then (stickPosterior (AtomGen.ofLaw niwAtoms) normalLog p (pySticks pyd alpha h0 h1 ha) y δ).real Set.univ else 0| then 1 else 0) s)
      atTop (𝓝 0) :=
  C98_affinity (C0 := PY.core) (measurable_obs y) hnz hW (py_stickClass h0 h1 ha) heps hn (pySticks_exhausts h0 h1 ha) (niw_conjugate hp) G (fun _ _ => WithBot.coe_ne_bot) h hfresh i i' hgap burn hε

/-- Mixture of normal observations with Dirichlet weights. -/
theorem C133_affinity_dirichletDistribution {alpha : List ℝ} (hN : alpha.length = N) (ha : ∀ x ∈ alpha, 0 < x) {s : GM (DirDist.cls : WeightClass ℝ) m (MeanCov m) × ℕ}
    {d : Fin n → Fin N} (h : FinMix.FinHolds (C0 := DirDist.core) y p (fun s => s.alpha = alpha) s.1 d) (hfresh : FreshAtoms s.1) :
    Tendsto (fun T : ℕ => FinMix.savedMean (C0 := DirDist.core) nz W (AtomGen.ofLaw niwAtoms) G gap T (burn + 1)
      (fun l : List (Fin n → Fin N) => if ε ≤ |(l.countP (fun δ => δ i = δ i') : ℝ) / T
        - ∑ δ, if δ i = δ i' then (FinMix.finPosterior (AtomGen.ofLaw niwAtoms) normalLog p (FinMix.dirPrior alpha hN ha) y δ).real Set.univ else 0| then 1 else 0) s)
      atTop (𝓝 0) :=
  FinMix.C106_affinity (C0 := DirDist.core) (measurable_obs y) hnz hW (FinMix.dir_class hN ha) heps hn (niw_conjugate hp) G (fun _ _ => WithBot.coe_ne_bot) h hfresh i i' hgap burn hε

/-- Mixture of normal observations with equal weights. -/
theorem C133_affinity_equal {s : GM (Equal.cls : WeightClass ℝ) m (MeanCov m) × ℕ} {d : Fin n → Fin N} (h : FinMix.FinHolds (C0 := Equal.core) y p (fun s => s.n = (N : ℤ)) s.1 d)
    (hfresh : FreshAtoms s.1) :
    Tendsto (fun T : ℕ => FinMix.savedMean (C0 := Equal.core) nz W (AtomGen.ofLaw niwAtoms) G gap T (burn + 1)
      (fun l : List (Fin n → Fin N) => if ε ≤ |(l.countP (fun δ => δ i = δ i') : ℝ) / T
        - ∑ δ, if δ i = δ i' then (FinMix.finPosterior (AtomGen.ofLaw niwAtoms) normalLog p (FinMix.equalPrior N) y δ).real Set.univ else 0| then 1 else 0) s)
      atTop (𝓝 0) :=
  FinMix.C106_affinity (C0 := Equal.core) (measurable_obs y) hnz hW (FinMix.equal_class N) heps hn (niw_conjugate hp) G (fun _ _ => WithBot.coe_ne_bot) h hfresh i i' hgap burn hε

end
end

/-! ### The default prior -/

section
variable {C : WeightClass ℝ} {Atom : Type} {ω : Oracle ℝ}

/-- **The default degrees of freedom are enough**: with a positive `lambda_prior`, and scale and degrees of freedom left out, the prior is admissible as soon as the covariance matrix of the rows is
positive definite. -/
theorem C133_default {ys : List (Fin m → ℝ)} (hys : (Matrix.of (GM.cov ys)).PosDef) {s t : GM C m Atom × ℕ} (hpsi : s.1.psiPrior = none) (hnu : s.1.nuPrior = none)
    (hl : 0 < s.1.lam) (h : GM.initCommon (.rows ys) ω s = (.ok (), t)) : Admissible (GM.prior t.1) := by
  cases h
  refine ⟨hl, ?_, ?_⟩
  · show (m : ℝ) - 1 < ((some (s.1.nuPrior.getD (m : ℝ))).getD 0)
    rw [hnu]
    show (m : ℝ) - 1 < m
    linarith
  · show (Matrix.of ((some (s.1.psiPrior.getD (GM.cov ys))).getD fun _ _ => 0)).PosDef
    rw [hpsi]
    exact hys

theorem dot_meanVec {ys : List (Fin m → ℝ)} (hne : ys ≠ []) {x : Fin m → ℝ} {c : ℝ} (hx : ∀ y ∈ ys, y ⬝ᵥ x = c) : (meanVec ys) ⬝ᵥ x = c := by
  have hpos : (ys.length : ℝ) ≠ 0 := by
    have := List.length_pos_iff.2 hne
    positivity
  have h1 : ∀ l : List (Fin m → ℝ), (∀ y ∈ l, y ⬝ᵥ x = c) → (fun i => (l.map (fun y => y i)).sum) ⬝ᵥ x = l.length * c := fun l hl => by
    induction l with
    | nil => simp [dotProduct]
    | cons y l ih =>
      have e : (fun i => ((y :: l).map (fun y => y i)).sum) = y + fun i => (l.map (fun y => y i)).sum := by
        funext i
        simp
      rw [e, add_dotProduct, ih (fun z hz => hl z (List.mem_cons_of_mem _ hz)), hl y List.mem_cons_self, List.length_cons]
      push_cast
      ring
  have e : meanVec ys = (ys.length : ℝ)⁻¹ • fun i => (ys.map (fun y => y i)).sum := by
    funext i
    show (ys.map (fun y => y i)).sum / (ys.length : ℝ) = (ys.length : ℝ)⁻¹ * (ys.map (fun y => y i)).sum
    rw [div_eq_mul_inv, mul_comm]
  rw [e, smul_dotProduct, h1 ys hx, smul_eq_mul]
  field_simp

theorem scatter_flat {ys : List (Fin m → ℝ)} {x : Fin m → ℝ} {c : ℝ} (hx : ∀ y ∈ ys, y ⬝ᵥ x = c) {mu : Fin m → ℝ} (hmu : mu ⬝ᵥ x = c) (i : Fin m) :
    ∑ j, (ys.map (fun y => (y i - mu i) * (y j - mu j))).sum * x j = 0 := by
  induction ys with
  | nil => simp
  | cons y ys ih =>
    simp only [List.map_cons, List.sum_cons, add_mul, Finset.sum_add_distrib]
    rw [ih fun z hz => hx z (List.mem_cons_of_mem _ hz), add_zero]
    have h1 : ∑ j, (y i - mu i) * (y j - mu j) * x j = (y i - mu i) * (y ⬝ᵥ x - mu ⬝ᵥ x) := by
      simp only [dotProduct, ← Finset.sum_sub_distrib, Finset.mul_sum]
      exact Finset.sum_congr rfl fun j _ => by ring
    rw [h1, hx y List.mem_cons_self, hmu, sub_self, mul_zero]

/-- **Rows in a hyperplane**: if some combination of the columns is constant, the default prior is not admissible, and the scale matrix that the posterior of any of the rows is drawn with is
singular. -/
theorem C133_flat_refuted {ys : List (Fin m → ℝ)} (hne : ys ≠ []) {x : Fin m → ℝ} (hx0 : x ≠ 0) {c : ℝ} (hx : ∀ y ∈ ys, y ⬝ᵥ x = c) {s t : GM C m Atom × ℕ} (hmu : s.1.muPrior = none)
    (hpsi : s.1.psiPrior = none) (h : GM.initCommon (.rows ys) ω s = (.ok (), t)) :
    ¬ Admissible (GM.prior t.1) ∧ ∀ rows : List (Fin m → ℝ), rows ≠ [] → rows ⊆ ys → (Matrix.of (posteriorNIW rows (GM.prior t.1)).psi).det = 0 := by
  cases h
  set q : NIW ℝ m := GM.prior (C := C) (Atom := Atom) { s.1 with y := ys, muPrior := some (s.1.muPrior.getD (meanVec ys)), psiPrior := some (s.1.psiPrior.getD (GM.cov ys)), nuPrior := some (s.1.nuPrior.getD (m : ℝ)) } with hq
  have hqm : q.mu = meanVec ys := by
    show (some (s.1.muPrior.getD (meanVec ys))).getD (fun _ => 0) = _
    rw [hmu]; rfl
  have hqp : q.psi = GM.cov ys := by
    show (some (s.1.psiPrior.getD (GM.cov ys))).getD (fun _ _ => 0) = _
    rw [hpsi]; rfl
  have hk : ∀ i, ∑ j, q.psi i j * x j = 0 := fun i => by
    rw [hqp]
    have h1 := scatter_flat hx (dot_meanVec hne hx) i
    have h2 : ∑ j, GM.cov ys i j * x j = (∑ j, (ys.map (fun y => (y i - meanVec ys i) * (y j - meanVec ys j))).sum * x j) / ((ys.length : ℝ) - 1) := by
      rw [Finset.sum_div]
      exact Finset.sum_congr rfl fun j _ => by unfold GM.cov; ring
    rw [h2, h1, zero_div]
  refine ⟨fun hp => ?_, fun rows hr hsub => ?_⟩
  · have h1 := hp.2.2.dotProduct_mulVec_pos hx0
    have h2 : Matrix.of q.psi *ᵥ x = 0 := funext hk
    rw [show Matrix.of (GM.prior _).psi *ᵥ x = 0 from h2] at h1
    simp at h1
  · refine exists_mulVec_eq_zero_iff.1 ⟨x, hx0, funext fun i => ?_⟩
    have hxr : ∀ y ∈ rows, y ⬝ᵥ x = c := fun y hy => hx y (hsub hy)
    have hm1 := dot_meanVec hr hxr
    have hm2 := dot_meanVec hne hx
    have h1 := scatter_flat hxr hm1 i
    have h2 : ∑ j, covBias rows i j * x j = 0 := by
      have : ∑ j, covBias rows i j * x j = (∑ j, (rows.map (fun y => (y i - meanVec rows i) * (y j - meanVec rows j))).sum * x j) / (rows.length : ℝ) := by
        rw [Finset.sum_div]
        exact Finset.sum_congr rfl fun j _ => by unfold covBias; ring
      rw [this, h1, zero_div]
    have h3 : ∑ j, (meanVec rows i - q.mu i) * (meanVec rows j - q.mu j) * x j = 0 := by
      have : ∑ j, (meanVec rows i - q.mu i) * (meanVec rows j - q.mu j) * x j = (meanVec rows i - q.mu i) * (meanVec rows ⬝ᵥ x - q.mu ⬝ᵥ x) := by
        simp only [dotProduct, ← Finset.sum_sub_distrib, Finset.mul_sum]
        exact Finset.sum_congr rfl fun j _ => by ring
      rw [this, hm1, hqm, hm2, sub_self, mul_zero]
    show ∑ j, (q.psi i j + (rows.length : ℝ) * covBias rows i j + (q.lam * rows.length) / (q.lam + rows.length) * ((meanVec rows i - q.mu i) * (meanVec rows j - q.mu j))) * x j = 0
    simp only [add_mul, Finset.sum_add_distrib, mul_assoc, ← Finset.mul_sum]
    simp only [mul_assoc] at h3
    rw [hk, h2]
    rw [← Finset.mul_sum] at h3
    rcases mul_eq_zero.1 h3 with h | h <;> rw [h] <;> ring

end

/-! ### The hypotheses are met -/

/-- An admissible prior in the plane. -/
theorem admissible_plane : Admissible (⟨![0, 0], 1, fun i j => (1 : Matrix (Fin 2) (Fin 2) ℝ) i j, 2⟩ : NIW ℝ 2) :=
  ⟨one_pos, by norm_num, Matrix.PosDef.one⟩

/-- A Dirichlet process mixture of observations in the plane, with labels `d`, no sticks and no atoms. -/
noncomputable def dpPlane (y : Fin n → Fin 2 → ℝ) (alpha : ℝ) (d : Fin n → ℕ) : GM (DP.cls : WeightClass ℝ) 2 (MeanCov 2) × ℕ :=
  ({ totalIter := 5, burnIn := 0, subsample := 1, nAttr := some n, muPrior := some ![0, 0], lam := 1, psiPrior := some fun i j => (1 : Matrix (Fin 2) (Fin 2) ℝ) i j, nuPrior := some 2,
     y := List.ofFn y, d := List.ofFn d, theta := [], thetaDefault := true, u := [], affinity := [], mapParams := none, mapLL := ⊥, saved := [], nGroups := [],
     nAtoms := [], totalSaved := 0, gibbsFitted := false,
     wst := (({ alpha := alpha, v := (List.range (topLabel (List.ofFn d))).map fun _ => 0, w := (List.range (topLabel (List.ofFn d))).map (stickSeq fun _ => 0), d := GM.labels (List.ofFn d) } : DP ℝ), 0) }, 0)

example {nz : ℝ → ℝ} (hnz : IsGumbel nz) {W : World ℝ 2 (MeanCov 2)} (heps : W.eps = 0) (hW : W.logpdf = normalLog) (G : RandGen) (y : Fin 3 → Fin 2 → ℝ) :
    Tendsto (fun T : ℕ => savedMean (C0 := DP.core) nz W (AtomGen.ofLaw niwAtoms) G 2 T 11
      (fun l : List (Fin 3 → ℕ) => if 1 / 100 ≤ |(l.countP (fun δ => δ 0 = δ 1) : ℝ) / T - ∑' δ : Fin 3 → ℕ, if δ 0 = δ 1 then
        (stickPosterior (AtomGen.ofLaw niwAtoms) normalLog ⟨![0, 0], 1, fun i j => (1 : Matrix (Fin 2) (Fin 2) ℝ) i j, 2⟩ (dpSticks 2 two_pos) y δ).real Set.univ else 0| then 1 else 0)
        (dpPlane y 2 fun i => i)) atTop (𝓝 0) :=
  C133_affinity_dirichletProcess hnz heps hW admissible_plane (by norm_num) G y 0 1 two_pos 10 (by norm_num) two_pos ⟨rfl, rfl, rfl, rfl, rfl⟩ (fun _ _ => rfl)

/-- Two equal columns. -/
example : let s : GM (DP.cls : WeightClass ℝ) 2 (MeanCov 2) × ℕ := ({ (dpPlane ![![0, 0], ![1, 1], ![5, 5]] 2 fun i => i).1 with muPrior := none, psiPrior := none }, 0)
    ∀ ω : Oracle ℝ, ¬ Admissible (GM.prior (GM.initCommon (.rows [![0, 0], ![1, 1], ![5, 5]]) ω s).2.1) := by
  intro s ω
  refine (C133_flat_refuted (C := DP.cls) (Atom := MeanCov 2) (ω := ω) (s := s) (ys := [![0, 0], ![1, 1], ![5, 5]]) (by simp) (x := ![1, -1]) (fun e => by simpa using congrFun e 0) (c := 0) ?_ rfl rfl rfl).1
  intro y hy
  simp only [List.mem_cons, List.not_mem_nil, or_false] at hy
  rcases hy with rfl | rfl | rfl <;> simp

end Verif.Mix
