import Verif.Lemmas.GibbsLimit
import Verif.Lemmas.GibbsBook
import Verif.Lemmas.GibbsDemo

/-!
# C97: Gibbs iterations of a Dirichlet process mixture converge to the posterior law

A mixture whose weights are given by stick breaking (`DirichletProcess`, `PitmanYorProcess`), a prior on the atoms that is conjugate to the density of the observations, a density that vanishes
nowhere (normal observations).  C95 says that the posterior law of labels, atoms and sticks is kept by a Gibbs iteration; here: **whatever the labels at the start, the law of the state after `k`
iterations converges to the posterior law as `k` grows** (`C97_fresh`): the mean of every bounded measurable function of labels, atoms and sticks tends to its posterior mean.  In particular the
probability of every set of label vectors tends to its posterior probability (`C97_labels`), and so does the probability that two observations share a component (`C97_affinity`).

The state at the start holds the data and labels, stores no atom of an empty component, and is arbitrary otherwise (sticks, atoms of the occupied components, slice variables, saved states).  A cold
start of `fit_gibbs` produces such a state (`C97_cold`).  `C97_start` is for random states at the start, whose law has a density with respect to the posterior law.

The proof splits the iteration into two kernels that are reversible with respect to the posterior law: atoms of the occupied components and sticks are redrawn (an idempotent kernel), then the labels.
The means along the iterates converge in mean square; that the limit is constant needs a zero-one law (`Lemmas/TailTrivial`) because the atoms of empty components are not redrawn.

As in C86, C94 and C95 the shift `eps` of the slice variables is taken to be zero.
-/

namespace Verif.Mix
open MeasureTheory ProbabilityTheory GM Spec Filter
open scoped ENNReal Topology

variable {m n : ℕ} {Atom : Type} [MeasurableSpace Atom] {C0 : WeightCore ℝ}

/-- The random state `S` holds labels, atoms and sticks with the law `μ`, when the atoms and sticks that it does not store are drawn from their priors. -/
def StartsWith (A : AtomGen m Atom) (p : NIW ℝ m) (f : StickParams) (getV : C0.State → List ℝ) {Ω : Type} [MeasurableSpace Ω] (P : Measure Ω) (S : Ω → GM C0.inheritTail m Atom × ℕ)
    (μ : Measure ((Fin n → ℕ) × Params Atom)) : Prop :=
  ∀ φ : (Fin n → ℕ) → Params Atom → ℝ≥0∞, (∀ δ, Measurable (φ δ)) → ∫⁻ x, heldMean A p f getV φ (S x) ∂P = ∫⁻ q, φ q.1 q.2 ∂μ

/-- The state stores no atom of an empty component. -/
def FreshAtoms {K : Type} {C : WeightClass K} {Atom : Type} (s : GM C m Atom) : Prop := ∀ j, j ∉ s.d → s.theta.lookup j = none

section
variable {lp : (Fin m → ℝ) → Atom → WithBot ℝ} {f : StickParams} {getV : C0.State → List ℝ} {Inv : C0.State → Prop} {W : World ℝ m Atom} {A : AtomGen m Atom} {y : Fin n → Fin m → ℝ}
  {p : NIW ℝ m} {nz : ℝ → ℝ} (hlp : ∀ i, Measurable (obsDens lp (y i)))
variable (hnz : IsGumbel nz) (hW : W.logpdf = lp) (hcl : StickClass C0 f getV Inv) (heps : W.eps = 0) (hn : 2 ≤ n) (hex : f.Exhausts) (hcj : Conjugate A lp p) (hden : ∀ i a, lp (y i) a ≠ ⊥) (G : RandGen)
include hlp hnz hW hcl heps hn hex hcj hden

/-- **Convergence** from a given state. -/
theorem C97_fresh {s : GM C0.inheritTail m Atom × ℕ} {d : Fin n → ℕ} (h : StickHolds y p Inv s.1 d) (hfresh : FreshAtoms s.1) {c : ℝ≥0∞} (hc : c ≠ ∞) {φ : (Fin n → ℕ) → Params Atom → ℝ≥0∞}
    (hφ : ∀ δ, Measurable (φ δ)) (hφc : ∀ δ z, φ δ z ≤ c) :
    Tendsto (fun k => runMean nz W A G k (heldMean A p f getV φ) s) atTop (𝓝 (postMean A lp p f y φ)) := by
  have hprob : IsProbabilityMeasure ((condLaw A p f y d).map (Prod.mk d)) := Measure.isProbabilityMeasure_map measurable_prodMk_left.aemeasurable
  have h1 := iterate_converges hlp hex hcj hden (by omega) hc hφ hφc (condLaw_ac hlp hex hcj d)
  rw [← tendsto_add_atTop_iff_nat 1] at h1 ⊢
  refine h1.congr fun k => ?_
  have hk : ∀ k δ, Measurable ((stepKernel A lp p f y)^[k] φ δ) := by
    intro k
    induction k with
    | zero => exact hφ
    | succ k ih => rw [Function.iterate_succ_apply']; exact fun δ => measurable_stepKernel hlp ih δ
  rw [runMean_kernel hlp hnz hW hcl heps hn hex hcj G (k + 1) hφ h]
  simp only [Function.iterate_succ_apply']
  refine (heldMean_fresh hlp (hk k) h fun j hj => hfresh j ?_).symm
  rw [h.2.1]
  exact hj

/-- **Convergence** from a random state whose law has a density with respect to the posterior law. -/
theorem C97_start {Ω : Type} [MeasurableSpace Ω] {P : Measure Ω} {S : Ω → GM C0.inheritTail m Atom × ℕ} (hS : ∀ x, ∃ d : Fin n → ℕ, StickHolds y p Inv (S x).1 d) {μ : Measure ((Fin n → ℕ) × Params Atom)}
    [IsProbabilityMeasure μ] (hμ : μ ≪ posteriorPairs A lp p f y) (hlaw : StartsWith A p f getV P S μ) {c : ℝ≥0∞} (hc : c ≠ ∞) {φ : (Fin n → ℕ) → Params Atom → ℝ≥0∞}
    (hφ : ∀ δ, Measurable (φ δ)) (hφc : ∀ δ z, φ δ z ≤ c) :
    Tendsto (fun k => ∫⁻ x, runMean nz W A G k (heldMean A p f getV φ) (S x) ∂P) atTop (𝓝 (postMean A lp p f y φ)) := by
  have h1 := iterate_converges hlp hex hcj hden (by omega) hc hφ hφc hμ
  have hk : ∀ k δ, Measurable ((stepKernel A lp p f y)^[k] φ δ) := by
    intro k
    induction k with
    | zero => exact hφ
    | succ k ih => rw [Function.iterate_succ_apply']; exact fun δ => measurable_stepKernel hlp ih δ
  refine h1.congr fun k => ?_
  rw [← hlaw _ (hk k)]
  refine lintegral_congr fun x => ?_
  obtain ⟨d, hd⟩ := hS x
  exact (runMean_kernel hlp hnz hW hcl heps hn hex hcj G k hφ hd).symm

open Classical in
/-- The probability that the labels lie in `B` tends to its posterior probability. -/
theorem C97_labels {s : GM C0.inheritTail m Atom × ℕ} {d : Fin n → ℕ} (h : StickHolds y p Inv s.1 d) (hfresh : FreshAtoms s.1) (B : Set (Fin n → ℕ)) :
    Tendsto (fun k => runMean nz W A G k (fun s => if labelsOf n s.1.d ∈ B then 1 else 0) s) atTop (𝓝 (∑' δ, if δ ∈ B then stickPosterior A lp p f y δ Set.univ else 0)) := by
  have h1 := C97_fresh hlp hnz hW hcl heps hn hex hcj hden G h hfresh ENNReal.one_ne_top (φ := fun δ _ => if δ ∈ B then 1 else 0) (fun _ => measurable_const) (fun δ _ => by split <;> simp)
  have h2 : heldMean (C0 := C0) A p f getV (fun δ _ => if δ ∈ B then 1 else 0) = fun s => if labelsOf n s.1.d ∈ B then 1 else 0 := by
    funext s
    unfold heldMean
    simp only [lintegral_const, measure_univ, mul_one]
  have h3 : postMean A lp p f y (fun δ _ => if δ ∈ B then 1 else 0) = ∑' δ, if δ ∈ B then stickPosterior A lp p f y δ Set.univ else 0 := by
    unfold postMean
    simp only [lintegral_const, ite_mul, one_mul, zero_mul]
  rw [h2, h3] at h1
  exact h1

/-- The probability that two observations share a component tends to its posterior probability. -/
theorem C97_affinity {s : GM C0.inheritTail m Atom × ℕ} {d : Fin n → ℕ} (h : StickHolds y p Inv s.1 d) (hfresh : FreshAtoms s.1) (i i' : Fin n) :
    Tendsto (fun k => runMean nz W A G k (fun s => if labelsOf n s.1.d i = labelsOf n s.1.d i' then 1 else 0) s) atTop
      (𝓝 (∑' δ : Fin n → ℕ, if δ i = δ i' then stickPosterior A lp p f y δ Set.univ else 0)) := by
  classical
  have h1 := C97_labels hlp hnz hW hcl heps hn hex hcj hden G h hfresh {δ | δ i = δ i'}
  simp only [Set.mem_ofPred_eq] at h1
  convert h1

end

/-! ### A cold start stores no atom of an empty component -/

section
variable {K : Type} [Field K] [LinearOrder K] [IsStrictOrderedRing K] {C : WeightClass K} {Atom : Type} {ω : Oracle K} (W : World K m Atom)

theorem getAtom_fresh {d : List ℕ} {j : ℕ} (hj : j ∈ d) : KeepsR ω (fun s : GM C m Atom => s.d = d ∧ FreshAtoms s) (getAtom W j) (fun _ => True) := by
  unfold getAtom
  refine KeepsR.bind KeepsR.self fun s _ => ?_
  split
  · exact KeepsR.pure trivial
  · refine KeepsR.ite (fun _ => ?_) (fun _ => KeepsR.raise _)
    refine KeepsR.bind (keeps_draw1 _) fun a _ => ?_
    refine KeepsR.bind (KeepsR.assign fun s h => ⟨h.1, fun i hi => ?_⟩) fun _ _ => KeepsR.pure trivial
    show (setAtom s.theta j a).lookup i = none
    rw [lookup_setAtom, if_neg]
    · exact h.2 i hi
    · rintro rfl
      exact hi (by rw [show ({ s with theta := setAtom s.theta i a } : GM C m Atom).d = s.d from rfl, h.1]; exact hj)

theorem yLogLik_fresh {d : List ℕ} (js : List ℕ) (hjs : ∀ j ∈ js, j ∈ d) (acc : WithBot K) : KeepsR ω (fun s : GM C m Atom => s.d = d ∧ FreshAtoms s) (yLogLik W js acc) (fun _ => True) := by
  induction js generalizing acc with
  | nil => exact KeepsR.pure trivial
  | cons j js ih =>
    unfold yLogLik
    exact KeepsR.bind KeepsR.self fun s _ => KeepsR.bind (KeepsR.lift _) fun rows _ => KeepsR.bind (getAtom_fresh W (hjs j List.mem_cons_self)) fun a _ => ih (fun i hi => hjs i (List.mem_cons_of_mem _ hi)) _

theorem updateMap_fresh (d : List ℕ) : KeepsR ω (fun s : GM C m Atom => s.d = d ∧ FreshAtoms s) (updateMap W) (fun _ => True) := by
  unfold updateMap runLogLik
  refine KeepsR.bind (R := fun _ => True) ?_ fun ll _ => KeepsR.assign fun s h => ?_
  · refine KeepsR.bind KeepsR.self fun s hs => KeepsR.bind (yLogLik_fresh W _ (fun j hj => ?_) _) fun _ _ => ?_
    · rw [← hs.1]; exact mem_npUnique.1 hj
    · exact KeepsR.bind (keeps_callW (fun s t h => h) _) fun _ _ => KeepsR.pure trivial
  · split
    · exact h
    · split <;> exact h

theorem initLabels_empty (g : PySize) (meth : InitMethod) : KeepsR ω (fun s : GM C m Atom => s.theta = []) (initLabels W g meth) (fun _ => True) := by
  unfold initLabels
  split
  · exact KeepsR.bind KeepsR.self fun _ _ => KeepsR.bind (keeps_draw1 _) fun _ _ => KeepsR.bind (KeepsR.lift _) fun _ _ => KeepsR.pure trivial
  · exact KeepsR.bind KeepsR.self fun _ _ => keeps_callW (fun s t h => h) _
  · exact KeepsR.bind KeepsR.self fun _ _ => KeepsR.bind (keeps_draw1 _) fun _ _ => (KeepsR.lift _).true_of
  · exact KeepsR.raise _

theorem initWeights_empty (g : PySize) : KeepsR ω (fun s : GM C m Atom => s.theta = []) (initWeights W g) (fun _ => True) := by
  unfold initWeights
  refine KeepsR.bind KeepsR.self fun _ _ => ?_
  split
  · exact KeepsR.bind (KeepsR.lift _) fun _ _ => KeepsR.bind (keeps_callW (fun s t h => h) _) fun _ _ => KeepsR.pure trivial
  · exact KeepsR.bind (keeps_callW (fun s t h => h) _) fun _ _ => KeepsR.pure trivial

/-- After the initialisation of a cold start (`fit_gibbs` with `warm_start=False`), whatever the state before, the object stores no atom of an empty component. -/
theorem C97_cold (g : PySize) (meth : InitMethod) (s t : GM C m Atom × ℕ) (h : (do initGibbs W g meth; updateMap W : M K (GM C m Atom) Unit) ω s = (.ok (), t)) : FreshAtoms t.1 := by
  have h1 : wp ω (do initGibbs W g meth; updateMap W : M K (GM C m Atom) Unit) (fun _ t => FreshAtoms t.1) (fun _ _ => True) s := by
    refine (wp_bind _ _).2 (wp_mono (Q' := fun _ t => t.1.theta = []) (E' := fun _ _ => True) ?_ (fun _ t ht => ?_) fun _ _ h => h)
    · unfold initGibbs
      refine (wp_bind _ _).2 ((wp_assign _).2 ?_)
      refine wp_mono (KeepsR.wp (I := fun s : GM C m Atom => s.theta = []) (R := fun _ => True) ?_ rfl) (fun _ t h => h.1) fun _ _ _ => trivial
      exact KeepsR.bind KeepsR.self fun _ _ => KeepsR.bind (keeps_draws _ _) fun _ _ => KeepsR.bind (KeepsR.assign fun _ h => h) fun _ _ =>
        KeepsR.bind (initWeights_empty W g) fun _ _ => KeepsR.bind (initLabels_empty W g meth) fun _ _ => KeepsR.assign fun _ h => h
    · refine wp_mono (KeepsR.wp (updateMap_fresh W t.1.d) ⟨rfl, fun j _ => ?_⟩) (fun _ t h => h.1.2) fun _ _ _ => trivial
      rw [ht]
      rfl
  exact wp_of_ok h h1

end

/-! ### The case of the code: normal observations with one coordinate -/

section
variable {nz : ℝ → ℝ} (hnz : IsGumbel nz) {W : World ℝ 1 (MeanCov 1)} (heps : W.eps = 0) (hW : W.logpdf = normalLog) {p : NIW ℝ 1} (hl : 0 < p.lam) (hnu : 0 < p.nu) (hp : 0 < p.psi 0 0)
  (hn : 2 ≤ n) (G : RandGen) (y : Fin n → Fin 1 → ℝ) {c : ℝ≥0∞} (hc : c ≠ ∞) {φ : (Fin n → ℕ) → Params (MeanCov 1) → ℝ≥0∞} (hφ : ∀ δ, Measurable (φ δ)) (hφc : ∀ δ z, φ δ z ≤ c)
include hnz heps hW hl hnu hp hn hc hφ hφc

/-- Dirichlet process mixture of normal observations. -/
theorem C97_dirichletProcess {alpha : ℝ} (ha : 0 < alpha) {s : GM (DP.cls : WeightClass ℝ) 1 (MeanCov 1) × ℕ} {d : Fin n → ℕ} (h : StickHolds (C0 := DP.core) y p (fun s => s.alpha = alpha) s.1 d) (hfresh : FreshAtoms s.1) :
    Tendsto (fun k => runMean (C0 := DP.core) nz W (AtomGen.ofLaw atomLaw) G k (heldMean (AtomGen.ofLaw atomLaw) p (dpSticks alpha ha) DP.v φ) s) atTop
      (𝓝 (postMean (AtomGen.ofLaw atomLaw) normalLog p (dpSticks alpha ha) y φ)) :=
  C97_fresh (C0 := DP.core) (measurable_obsNormal y) hnz hW (dp_stickClass ha) heps hn (dpSticks_exhausts ha) (normal_conjugate hl hnu hp) (fun _ _ => WithBot.coe_ne_bot) G h hfresh hc hφ hφc

/-- Pitman-Yor process mixture of normal observations; the law of the sticks is the one that `PitmanYorProcess` uses. -/
theorem C97_pitmanYor {pyd alpha : ℝ} (h0 : 0 ≤ pyd) (h1 : pyd < 1) (ha : 0 < alpha) {s : GM (PY.cls : WeightClass ℝ) 1 (MeanCov 1) × ℕ} {d : Fin n → ℕ}
    (h : StickHolds (C0 := PY.core) y p (fun s => s.pyd = pyd ∧ s.alpha = alpha) s.1 d) (hfresh : FreshAtoms s.1) :
    Tendsto (fun k => runMean (C0 := PY.core) nz W (AtomGen.ofLaw atomLaw) G k (heldMean (AtomGen.ofLaw atomLaw) p (pySticks pyd alpha h0 h1 ha) PY.v φ) s) atTop
      (𝓝 (postMean (AtomGen.ofLaw atomLaw) normalLog p (pySticks pyd alpha h0 h1 ha) y φ)) :=
  C97_fresh (C0 := PY.core) (measurable_obsNormal y) hnz hW (py_stickClass h0 h1 ha) heps hn (pySticks_exhausts h0 h1 ha) (normal_conjugate hl hnu hp) (fun _ _ => WithBot.coe_ne_bot) G h hfresh hc hφ hφc

end

/-! ### States that meet the hypotheses -/

/-- A Dirichlet process mixture with labels `d`, no sticks and no atoms. -/
noncomputable def dpFresh (y : Fin n → Fin 1 → ℝ) (alpha : ℝ) (d : Fin n → ℕ) : GM (DP.cls : WeightClass ℝ) 1 (MeanCov 1) × ℕ :=
  ({ (dpState y alpha (d, (fun _ => (fun _ => 0, fun _ _ => 1), fun _ => 0))).1 with theta := [] }, 0)

example (y : Fin 2 → Fin 1 → ℝ) (d : Fin 2 → ℕ) : StickHolds (C0 := DP.core) y ⟨fun _ => 0, 1, fun _ _ => 1, 1⟩ (fun s => s.alpha = 2) (dpFresh y 2 d).1 d ∧ FreshAtoms (dpFresh y 2 d).1 :=
  ⟨⟨rfl, rfl, rfl, rfl, rfl⟩, fun _ _ => rfl⟩

/-! The initialisation of a cold start returns and stores the atoms of the two occupied components. -/
example : let s := (initCommon (rows1 [0, 1, 5, 6]) demo (eqObj 2 6 1 2, 0)).2
    returns (do initGibbs world .none .kmeans; updateMap world : M ℚ (GM (Equal.cls : WeightClass ℚ) 1 ℚ) Unit) demo s = true ∧
    ((do initGibbs world .none .kmeans; updateMap world : M ℚ (GM (Equal.cls : WeightClass ℚ) 1 ℚ) Unit) demo s).2.1.theta.length = 2 := by decide +kernel

end Verif.Mix
