import Verif.Props.C97
import Verif.Lemmas.FinLimit

/-!
# C105: Gibbs iterations of a mixture with finitely many components converge to the posterior law

Mixtures with `N` components and weights from `DirichletDistribution` or `EqualWeighting`, a prior on the atoms that is conjugate to the density of the observations, a density that vanishes nowhere
(normal observations).  C104 says that the posterior law of labels, atoms and weights is kept by a Gibbs iteration; here: **whatever the labels at the start, the law of the state after `k` iterations
converges to the posterior law as `k` grows** (`C105_fresh`): the mean of every bounded measurable function of labels, atoms and weights tends to its posterior mean.  In particular the probability of
every set of label vectors tends to its posterior probability (`C105_labels`), and so does the probability that two observations share a component (`C105_affinity`).

The state at the start holds the data and labels, stores no atom of an empty component, and is arbitrary otherwise (weights, atoms of the occupied components, slice variables, saved states).  A cold
start of `fit_gibbs` produces such a state (`C97_cold`, for every class of weights).  `C105_start` is for random states at the start, whose law has a density with respect to the posterior law.

As in C104 the shift `eps` of the slice variables is taken to be zero.
-/

namespace Verif.Mix.FinMix
open MeasureTheory ProbabilityTheory GM Spec Filter
open scoped ENNReal Topology

set_option linter.unusedSectionVars false

variable {N m n : ℕ} [NeZero N] {Atom : Type} [MeasurableSpace Atom] {C0 : WeightCore ℝ}

/-- The random state `S` holds labels, atoms and weights with the law `μ`, when the atoms that it does not store are drawn from the prior. -/
def StartsWith (A : AtomGen m Atom) (p : NIW ℝ m) {Ω : Type} [MeasurableSpace Ω] (P : Measure Ω) (S : Ω → GM C0.inheritTail m Atom × ℕ)
    (μ : Measure ((Fin n → Fin N) × FParams N Atom)) : Prop :=
  ∀ φ : (Fin n → Fin N) → FParams N Atom → ℝ≥0∞, (∀ δ, Measurable (φ δ)) → ∫⁻ x, heldMean A p φ (S x) ∂P = ∫⁻ q, φ q.1 q.2 ∂μ

section
variable {lp : (Fin m → ℝ) → Atom → WithBot ℝ} {f : FinPrior N} {drawW : List ℕ → Oracle ℝ → ℕ → Fin N → ℝ} {Inv : C0.State → Prop} {W : World ℝ m Atom} {A : AtomGen m Atom} {y : Fin n → Fin m → ℝ}
  {p : NIW ℝ m} {nz : ℝ → ℝ} (hlp : ∀ i, Measurable (obsDens lp (y i)))
variable (hnz : IsGumbel nz) (hW : W.logpdf = lp) (hcl : FinClass C0 f drawW Inv) (heps : W.eps = 0) (hn : 2 ≤ n) (hcj : Conjugate A lp p) (hden : ∀ i a, lp (y i) a ≠ ⊥) (G : RandGen)
include hlp hnz hW hcl heps hn hcj hden

/-- **Convergence** from a given state. -/
theorem C105_fresh {s : GM C0.inheritTail m Atom × ℕ} {d : Fin n → Fin N} (h : FinHolds y p Inv s.1 d) (hfresh : FreshAtoms s.1) {c : ℝ≥0∞} (hc : c ≠ ∞) {φ : (Fin n → Fin N) → FParams N Atom → ℝ≥0∞}
    (hφ : ∀ δ, Measurable (φ δ)) (hφc : ∀ δ z, φ δ z ≤ c) :
    Tendsto (fun k => runMean nz W A G k (heldMean A p φ) s) atTop (𝓝 (postMean A lp p f y φ)) := by
  have hprob : IsProbabilityMeasure ((condLaw A p f y d).map (Prod.mk d)) := Measure.isProbabilityMeasure_map measurable_prodMk_left.aemeasurable
  have h1 := iterate_converges (f := f) hlp hcj hden (by omega) hc hφ hφc (condLaw_ac hlp hcj d)
  rw [← tendsto_add_atTop_iff_nat 1] at h1 ⊢
  refine h1.congr fun k => ?_
  have hk : ∀ k δ, Measurable ((stepKernel A lp p f y)^[k] φ δ) := by
    intro k
    induction k with
    | zero => exact hφ
    | succ k ih => rw [Function.iterate_succ_apply']; exact fun δ => measurable_stepKernel hlp ih δ
  rw [runMean_kernel hlp hnz hW hcl heps hn hcj G (k + 1) hφ h]
  simp only [Function.iterate_succ_apply']
  refine (heldMean_fresh hlp (hk k) h fun j hj => hfresh j ?_).symm
  rw [h.2.1]
  exact fun h' => hj ((mem_nat_iff d j).1 h')

/-- **Convergence** from a random state whose law has a density with respect to the posterior law. -/
theorem C105_start {Ω : Type} [MeasurableSpace Ω] {P : Measure Ω} {S : Ω → GM C0.inheritTail m Atom × ℕ} (hS : ∀ x, ∃ d : Fin n → Fin N, FinHolds y p Inv (S x).1 d) {μ : Measure ((Fin n → Fin N) × FParams N Atom)}
    [IsProbabilityMeasure μ] (hμ : μ ≪ posteriorPairs A lp p f y) (hlaw : StartsWith A p P S μ) {c : ℝ≥0∞} (hc : c ≠ ∞) {φ : (Fin n → Fin N) → FParams N Atom → ℝ≥0∞}
    (hφ : ∀ δ, Measurable (φ δ)) (hφc : ∀ δ z, φ δ z ≤ c) :
    Tendsto (fun k => ∫⁻ x, runMean nz W A G k (heldMean A p φ) (S x) ∂P) atTop (𝓝 (postMean A lp p f y φ)) := by
  have h1 := iterate_converges (f := f) hlp hcj hden (by omega) hc hφ hφc hμ
  have hk : ∀ k δ, Measurable ((stepKernel A lp p f y)^[k] φ δ) := by
    intro k
    induction k with
    | zero => exact hφ
    | succ k ih => rw [Function.iterate_succ_apply']; exact fun δ => measurable_stepKernel hlp ih δ
  refine h1.congr fun k => ?_
  rw [← hlaw _ (hk k)]
  refine lintegral_congr fun x => ?_
  obtain ⟨d, hd⟩ := hS x
  exact (runMean_kernel hlp hnz hW hcl heps hn hcj G k hφ hd).symm

open Classical in
/-- The probability that the labels lie in `B` tends to its posterior probability. -/
theorem C105_labels {s : GM C0.inheritTail m Atom × ℕ} {d : Fin n → Fin N} (h : FinHolds y p Inv s.1 d) (hfresh : FreshAtoms s.1) (B : Set (Fin n → Fin N)) :
    Tendsto (fun k => runMean nz W A G k (fun s => if labelsF N n s.1.d ∈ B then 1 else 0) s) atTop (𝓝 (∑ δ, if δ ∈ B then finPosterior A lp p f y δ Set.univ else 0)) := by
  have h1 := C105_fresh hlp hnz hW hcl heps hn hcj hden G h hfresh ENNReal.one_ne_top (φ := fun δ _ => if δ ∈ B then 1 else 0) (fun _ => measurable_const) (fun δ _ => by split <;> simp)
  have h2 : heldMean (N := N) (C0 := C0) A p (fun δ _ => if δ ∈ B then 1 else 0) = fun s => if labelsF N n s.1.d ∈ B then 1 else 0 := by
    funext s
    unfold heldMean
    simp only [lintegral_const, measure_univ, mul_one]
  have h3 : postMean A lp p f y (fun δ _ => if δ ∈ B then 1 else 0) = ∑ δ, if δ ∈ B then finPosterior A lp p f y δ Set.univ else 0 := by
    unfold postMean
    simp only [lintegral_const, ite_mul, one_mul, zero_mul]
  rw [h2, h3] at h1
  exact h1

/-- The probability that two observations share a component tends to its posterior probability. -/
theorem C105_affinity {s : GM C0.inheritTail m Atom × ℕ} {d : Fin n → Fin N} (h : FinHolds y p Inv s.1 d) (hfresh : FreshAtoms s.1) (i i' : Fin n) :
    Tendsto (fun k => runMean nz W A G k (fun s => if labelsF N n s.1.d i = labelsF N n s.1.d i' then 1 else 0) s) atTop
      (𝓝 (∑ δ : Fin n → Fin N, if δ i = δ i' then finPosterior A lp p f y δ Set.univ else 0)) := by
  classical
  have h1 := C105_labels hlp hnz hW hcl heps hn hcj hden G h hfresh {δ | δ i = δ i'}
  simp only [Set.mem_ofPred_eq] at h1
  convert h1

end

/-! ### The case of the code: normal observations with one coordinate -/

section
variable {nz : ℝ → ℝ} (hnz : IsGumbel nz) {W : World ℝ 1 (MeanCov 1)} (heps : W.eps = 0) (hW : W.logpdf = normalLog) {p : NIW ℝ 1} (hl : 0 < p.lam) (hnu : 0 < p.nu) (hp : 0 < p.psi 0 0)
  (hn : 2 ≤ n) (G : RandGen) (y : Fin n → Fin 1 → ℝ) {c : ℝ≥0∞} (hc : c ≠ ∞) {φ : (Fin n → Fin N) → FParams N (MeanCov 1) → ℝ≥0∞} (hφ : ∀ δ, Measurable (φ δ)) (hφc : ∀ δ z, φ δ z ≤ c)
include hnz heps hW hl hnu hp hn hc hφ hφc

/-- Mixture of normal observations with Dirichlet weights. -/
theorem C105_dirichletDistribution {alpha : List ℝ} (hN : alpha.length = N) (ha : ∀ x ∈ alpha, 0 < x) {s : GM (DirDist.cls : WeightClass ℝ) 1 (MeanCov 1) × ℕ} {d : Fin n → Fin N}
    (h : FinHolds (C0 := DirDist.core) y p (fun s => s.alpha = alpha) s.1 d) (hfresh : FreshAtoms s.1) :
    Tendsto (fun k => runMean (C0 := DirDist.core) nz W (AtomGen.ofLaw atomLaw) G k (heldMean (AtomGen.ofLaw atomLaw) p φ) s) atTop
      (𝓝 (postMean (AtomGen.ofLaw atomLaw) normalLog p (dirPrior alpha hN ha) y φ)) :=
  C105_fresh (C0 := DirDist.core) (measurable_obsNormal y) hnz hW (dir_class hN ha) heps hn (normal_conjugate hl hnu hp) (fun _ _ => WithBot.coe_ne_bot) G h hfresh hc hφ hφc

/-- Mixture of normal observations with equal weights. -/
theorem C105_equal {s : GM (Equal.cls : WeightClass ℝ) 1 (MeanCov 1) × ℕ} {d : Fin n → Fin N} (h : FinHolds (C0 := Equal.core) y p (fun s => s.n = (N : ℤ)) s.1 d) (hfresh : FreshAtoms s.1) :
    Tendsto (fun k => runMean (C0 := Equal.core) nz W (AtomGen.ofLaw atomLaw) G k (heldMean (AtomGen.ofLaw atomLaw) p φ) s) atTop
      (𝓝 (postMean (AtomGen.ofLaw atomLaw) normalLog p (equalPrior N) y φ)) :=
  C105_fresh (C0 := Equal.core) (measurable_obsNormal y) hnz hW (equal_class N) heps hn (normal_conjugate hl hnu hp) (fun _ _ => WithBot.coe_ne_bot) G h hfresh hc hφ hφc

end

/-! ### States that meet the hypotheses -/

/-- A mixture with Dirichlet weights and labels `d` that stores no atoms. -/
noncomputable def dirFresh (y : Fin n → Fin 1 → ℝ) (alpha : List ℝ) (d : Fin n → Fin N) : GM (DirDist.cls : WeightClass ℝ) 1 (MeanCov 1) × ℕ :=
  ({ (dirState y alpha (d, (fun _ => (fun _ => 0, fun _ _ => 1), fun _ => 0))).1 with theta := [] }, 0)

example (y : Fin 2 → Fin 1 → ℝ) (d : Fin 2 → Fin 3) :
    FinHolds (C0 := DirDist.core) y ⟨fun _ => 0, 1, fun _ _ => 1, 1⟩ (fun s => s.alpha = [1, 2, 3]) (dirFresh y [1, 2, 3] d).1 d ∧ FreshAtoms (dirFresh y [1, 2, 3] d).1 :=
  ⟨⟨rfl, rfl, rfl, rfl, rfl⟩, fun _ _ => rfl⟩

end Verif.Mix.FinMix
