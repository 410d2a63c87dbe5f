import Verif.Lemmas.FinClasses

/-!
# C104: Gibbs iterations of a mixture with finitely many components leave the posterior law invariant

Mixtures with `N` components: weights from `DirichletDistribution`, or the fixed weights `1/N` of `EqualWeighting`, with a prior on the atoms that is conjugate to the density of the observations.
The posterior law of labels, atoms and weights given the data (`finPosterior`) is the prior times the likelihood, normalised; it is a probability (`C104_total`).  For `DirichletDistribution` it is
the posterior law of C94 (`C104_same`).

The object draws a missing atom when it is asked for.  So a law of states *is the posterior law* (`HasPosterior`) if it becomes the posterior law when the atoms that are not stored are drawn from the
prior; C94 asks for states that store the atoms of all components, which is not the state after a cold start.  If the state of the object has the posterior law, then so has the state after any number
of Gibbs iterations (`C104_step`, `C104_run`), and the labels have their posterior probabilities (`C104_labels`).  An iteration returns with probability one from every state (`C104_returns`).
`C104_start`: a state that stores the atoms of the occupied components has the posterior law, if labels, atoms and weights are drawn from it.

As in C94 and C95 the shift `eps` of the slice variables is taken to be zero.
-/

namespace Verif.Mix.FinMix
open MeasureTheory ProbabilityTheory GM Spec
open scoped ENNReal

set_option linter.unusedSectionVars false

variable {N m n : ℕ} [NeZero N] {Atom : Type} [MeasurableSpace Atom] {C0 : WeightCore ℝ}

/-! ### The posterior law -/

/-- The posterior law of labels, atoms and weights: the part with labels `d`. -/
noncomputable def finPosterior (A : AtomGen m Atom) (lp : (Fin m → ℝ) → Atom → WithBot ℝ) (p : NIW ℝ m) (f : FinPrior N) (y : Fin n → Fin m → ℝ) (d : Fin n → Fin N) : Measure (FParams N Atom) :=
  (∑ e : Fin n → Fin N, finJoint A lp p f y e Set.univ)⁻¹ • finJoint A lp p f y d

/-- The posterior mean of `φ`. -/
noncomputable def postMean (A : AtomGen m Atom) (lp : (Fin m → ℝ) → Atom → WithBot ℝ) (p : NIW ℝ m) (f : FinPrior N) (y : Fin n → Fin m → ℝ) (φ : (Fin n → Fin N) → FParams N Atom → ℝ≥0∞) : ℝ≥0∞ :=
  ∑ d, ∫⁻ z, φ d z ∂(finPosterior A lp p f y d)

/-- A random state has the posterior law, when the atoms that it does not store are drawn from the prior. -/
def HasPosterior (A : AtomGen m Atom) (lp : (Fin m → ℝ) → Atom → WithBot ℝ) (p : NIW ℝ m) (f : FinPrior N) (y : Fin n → Fin m → ℝ) {Ω : Type} [MeasurableSpace Ω]
    (P : Measure Ω) (S : Ω → GM C0.inheritTail m Atom × ℕ) : Prop :=
  ∀ φ : (Fin n → Fin N) → FParams N Atom → ℝ≥0∞, (∀ δ, Measurable (φ δ)) → ∫⁻ x, heldMean A p φ (S x) ∂P = postMean A lp p f y φ

section
variable {lp : (Fin m → ℝ) → Atom → WithBot ℝ} {f : FinPrior N} {drawW : List ℕ → Oracle ℝ → ℕ → Fin N → ℝ} {Inv : C0.State → Prop} {W : World ℝ m Atom} {A : AtomGen m Atom} {y : Fin n → Fin m → ℝ}
  {p : NIW ℝ m} {nz : ℝ → ℝ} (hlp : ∀ i, Measurable (obsDens lp (y i)))
include hlp

/-- The posterior law is a probability. -/
theorem C104_total (hcj : Conjugate A lp p) : ∑ d : Fin n → Fin N, finPosterior A lp p f y d Set.univ = 1 := by
  obtain ⟨h1, h2⟩ := finJoint_total (f := f) hlp hcj
  unfold finPosterior
  simp only [Measure.smul_apply, smul_eq_mul]
  rw [← Finset.mul_sum, ENNReal.inv_mul_cancel h1 h2]

theorem postMean_invariant (hcj : Conjugate A lp p) {φ : (Fin n → Fin N) → FParams N Atom → ℝ≥0∞} (hφ : ∀ δ, Measurable (φ δ)) :
    postMean A lp p f y (stepKernel A lp p f y φ) = postMean A lp p f y φ := by
  unfold postMean finPosterior
  simp only [lintegral_smul_measure, smul_eq_mul]
  rw [← Finset.mul_sum, ← Finset.mul_sum, stepKernel_invariant hlp hcj hφ]

variable (hnz : IsGumbel nz) (hW : W.logpdf = lp) (hcl : FinClass C0 f drawW Inv) (heps : W.eps = 0) (hn : 2 ≤ n) (hcj : Conjugate A lp p) (G : RandGen)
include hnz hW hcl heps hn hcj

/-- A step leads from states that hold the data and labels to such states. -/
theorem stepMean_congr {F F' : GM C0.inheritTail m Atom × ℕ → ℝ≥0∞} (hF : ∀ s (δ : Fin n → Fin N), FinHolds y p Inv s.1 δ → F s = F' s) {s : GM C0.inheritTail m Atom × ℕ} {d : Fin n → Fin N} (h : FinHolds y p Inv s.1 d) :
    stepMean nz W A G F s = stepMean nz W A G F' s := by
  subst hW
  unfold stepMean
  refine lintegral_congr_ae ?_
  filter_upwards [stream_unit] with U hU
  refine lintegral_congr_ae ?_
  have hdN : ∀ j ∈ List.ofFn (nat d), j < N := fun j hj => by
    obtain ⟨i, rfl⟩ := (List.mem_ofFn' _ _).1 hj
    exact (d i).2
  obtain ⟨hvm, hvl⟩ := hcl.law G (List.ofFn (nat d)) s.1.wst.2 hdN
  have hgoodu : ∀ᵐ u ∂G.P, (∀ j, 0 < drawW (List.ofFn (nat d)) (G.oracle u) s.1.wst.2 j) ∧ ∑ j, drawW (List.ofFn (nat d)) (G.oracle u) s.1.wst.2 j = 1 := by
    have hgood := f.post_good d
    rw [← hvl] at hgood
    exact ae_of_ae_map hvm.aemeasurable hgood
  filter_upwards [hgoodu] with u ⟨hv, hsum⟩
  refine lintegral_congr_ae ?_
  filter_upwards [lazyAtoms_dens (d := nat d) hlp hcj s.1.theta s.2] with X hX
  refine lintegral_congr fun g => ?_
  obtain ⟨R, hR1, hR2, -⟩ := fin_run hnz hcl (G.oracle_legal u) heps hn h (fun i => (d i).2) X rfl hv hsum rfl hX hU rfl
  have hsup : ∀ F : GM C0.inheritTail m Atom × ℕ → ℝ≥0∞, ⨆ k : ℕ, outcome F (gibbsStep (withNoise (withSlices (withAtoms W A X) (fun _ => k) U) (fun i => nz (g i))) (G.oracle u) s) = F (R fun i => nz (g i)) := fun F =>
    iSup_outcome (W0 := withNoise (withSlices (withAtoms W A X) (fun _ => 0) U) (fun i => nz (g i))) (fun _ => rfl) (fun k' hk' => hR1 k' hk' _) _
  rw [hsup, hsup]
  obtain ⟨δ, hδ⟩ := hR2 fun i => nz (g i)
  exact hF _ δ hδ

/-- One iteration, started from a given state: atoms, weights and labels of the posterior kernel. -/
theorem stepMean_kernel {φ : (Fin n → Fin N) → FParams N Atom → ℝ≥0∞} (hφ : ∀ δ, Measurable (φ δ)) {s : GM C0.inheritTail m Atom × ℕ} {d : Fin n → Fin N} (h : FinHolds y p Inv s.1 d) :
    stepMean nz W A G (heldMean A p φ) s = heldMean A p (stepKernel A lp p f y φ) s := by
  rw [heldMean_stepKernel hlp hφ h]
  exact stepMean_held hlp hnz hW hcl heps hn hcj G hφ h

theorem runMean_kernel (k : ℕ) : ∀ {φ : (Fin n → Fin N) → FParams N Atom → ℝ≥0∞}, (∀ δ, Measurable (φ δ)) → ∀ {s : GM C0.inheritTail m Atom × ℕ} {d : Fin n → Fin N}, FinHolds y p Inv s.1 d →
    runMean nz W A G k (heldMean A p φ) s = heldMean A p ((stepKernel A lp p f y)^[k] φ) s := by
  induction k with
  | zero => intro φ _ s d _; rfl
  | succ k ih =>
    intro φ hφ s d h
    have hk : ∀ k δ, Measurable ((stepKernel A lp p f y)^[k] φ δ) := by
      intro k
      induction k with
      | zero => exact hφ
      | succ k ih => rw [Function.iterate_succ_apply']; exact fun δ => measurable_stepKernel hlp ih δ
    show stepMean nz W A G (runMean nz W A G k (heldMean A p φ)) s = _
    rw [stepMean_congr hlp hnz hW hcl heps hn hcj G (F' := heldMean A p ((stepKernel A lp p f y)^[k] φ)) (fun s δ hs => ih hφ hs) h,
      stepMean_kernel hlp hnz hW hcl heps hn hcj G (hk k) h, Function.iterate_succ_apply']

variable {Ω : Type} [MeasurableSpace Ω] {P : Measure Ω} {S : Ω → GM C0.inheritTail m Atom × ℕ} (hS : ∀ x, ∃ d : Fin n → Fin N, FinHolds y p Inv (S x).1 d) (hpost : HasPosterior A lp p f y P S)
include hS hpost

/-- **Invariance**: the state after a Gibbs iteration has the posterior law. -/
theorem C104_step {φ : (Fin n → Fin N) → FParams N Atom → ℝ≥0∞} (hφ : ∀ δ, Measurable (φ δ)) :
    ∫⁻ x, stepMean nz W A G (heldMean A p φ) (S x) ∂P = postMean A lp p f y φ := by
  rw [← postMean_invariant hlp hcj hφ, ← hpost _ fun δ => measurable_stepKernel hlp hφ δ]
  refine lintegral_congr fun x => ?_
  obtain ⟨d, hd⟩ := hS x
  exact stepMean_kernel hlp hnz hW hcl heps hn hcj G hφ hd

/-- **Invariance** under any number of iterations. -/
theorem C104_run (k : ℕ) {φ : (Fin n → Fin N) → FParams N Atom → ℝ≥0∞} (hφ : ∀ δ, Measurable (φ δ)) :
    ∫⁻ x, runMean nz W A G k (heldMean A p φ) (S x) ∂P = postMean A lp p f y φ := by
  have hk : (∀ δ, Measurable ((stepKernel A lp p f y)^[k] φ δ)) ∧ postMean A lp p f y ((stepKernel A lp p f y)^[k] φ) = postMean A lp p f y φ := by
    induction k with
    | zero => exact ⟨hφ, rfl⟩
    | succ k ih =>
      rw [Function.iterate_succ_apply']
      exact ⟨fun δ => measurable_stepKernel hlp ih.1 δ, (postMean_invariant hlp hcj ih.1).trans ih.2⟩
  rw [← hk.2, ← hpost _ hk.1]
  refine lintegral_congr fun x => ?_
  obtain ⟨d, hd⟩ := hS x
  exact runMean_kernel hlp hnz hW hcl heps hn hcj G k hφ hd

/-- The labels after any number of iterations have their posterior probabilities. -/
theorem C104_labels (k : ℕ) (δ : Fin n → Fin N) :
    ∫⁻ x, runMean nz W A G k (fun s => if labelsF N n s.1.d = δ then 1 else 0) (S x) ∂P = finPosterior A lp p f y δ Set.univ := by
  have h1 := C104_run hlp hnz hW hcl heps hn hcj G hS hpost k (φ := fun d _ => if d = δ then 1 else 0) fun _ => measurable_const
  have h2 : heldMean (C0 := C0) A p (fun d _ => if d = δ then 1 else 0) = fun s => if labelsF N n s.1.d = δ then 1 else 0 := by
    funext s
    unfold heldMean
    simp only [lintegral_const, measure_univ, mul_one]
  rw [h2] at h1
  rw [h1]
  unfold postMean
  simp only [lintegral_const]
  rw [Finset.sum_eq_single δ (fun d _ hd => by rw [if_neg hd, zero_mul]) fun h => absurd (Finset.mem_univ _) h, if_pos rfl, one_mul]

omit hS hpost

/-- From every state that holds the data and labels an iteration returns with probability one. -/
theorem C104_returns {s : GM C0.inheritTail m Atom × ℕ} {d : Fin n → Fin N} (h : FinHolds y p Inv s.1 d) : stepMean nz W A G (fun _ => 1) s = 1 := by
  have h1 := stepMean_held hlp hnz hW hcl heps hn hcj G (φ := fun _ _ => 1) (fun _ => measurable_const) h
  have h2 : heldMean (C0 := C0) (N := N) (n := n) A p (fun _ _ => 1) = fun _ => 1 := by
    funext s
    unfold heldMean
    simp only [lintegral_const, measure_univ, mul_one]
  rw [h2] at h1
  rw [h1]
  obtain ⟨ham, hal⟩ := atoms_law A y p d s.1.theta s.2
  have hθ : ∀ᵐ θ ∂(Measure.infinitePi (atomF A y p d s.1.theta)), ∀ i, obsDens lp (y i) (θ (d i)) ≠ 0 := by
    rw [← hal, ae_map_iff ham.aemeasurable]
    · filter_upwards [lazyAtoms_dens (d := nat d) hlp hcj s.1.theta s.2] with X hX i
      exact (ENNReal.ofReal_pos.2 (botExp_pos (hX i))).ne'
    · rw [Set.ofPred_forall]
      exact MeasurableSet.iInter fun i => (((hlp i).comp (measurable_pi_apply _)) (measurableSet_singleton 0)).compl
  have h3 : ∀ᵐ w ∂(f.post (List.ofFn (nat d))), ∫⁻ θ, labelStep lp y (fun _ _ => 1) d (θ, w) ∂(Measure.infinitePi (atomF A y p d s.1.theta)) = 1 := by
    filter_upwards [f.post_good d] with w hw
    have h4 : ∀ᵐ θ ∂(Measure.infinitePi (atomF A y p d s.1.theta)), labelStep lp y (fun _ _ => 1) d (θ, w) = 1 := by
      filter_upwards [hθ] with θ hθ
      have hden : ∀ i, lp (y i) (θ (d i)) ≠ ⊥ := fun i hbot => hθ i (by unfold obsDens; rw [hbot]; exact ENNReal.ofReal_zero)
      unfold labelStep
      simp only [one_mul]
      exact sum_labelKer_one hlp d (z := (θ, w)) hw.1 hden
    rw [lintegral_congr_ae h4, lintegral_const, measure_univ, mul_one]
  rw [lintegral_congr_ae h3, lintegral_const, measure_univ, mul_one]

end

/-! ### States with the posterior law -/

/-- The posterior law as a law of pairs. -/
noncomputable def posteriorPairs (A : AtomGen m Atom) (lp : (Fin m → ℝ) → Atom → WithBot ℝ) (p : NIW ℝ m) (f : FinPrior N) (y : Fin n → Fin m → ℝ) : Measure ((Fin n → Fin N) × FParams N Atom) :=
  Measure.sum fun d => (finPosterior A lp p f y d).map (Prod.mk d)

/-- Labels, atoms and weights are drawn from the posterior law; the object stores the weights and the atoms of the components in `D d`, among them those with observations.  Then its state has the
posterior law. -/
theorem C104_start {A : AtomGen m Atom} {lp : (Fin m → ℝ) → Atom → WithBot ℝ} {p : NIW ℝ m} {f : FinPrior N} {y : Fin n → Fin m → ℝ} (hlp : ∀ i, Measurable (obsDens lp (y i)))
    (hcj : Conjugate A lp p) (S : (Fin n → Fin N) × FParams N Atom → GM C0.inheritTail m Atom × ℕ) (D : (Fin n → Fin N) → Fin N → Prop) [∀ d, DecidablePred (D d)] (hD : ∀ d i, D d (d i))
    (hd : ∀ x, (S x).1.d = List.ofFn (nat x.1)) (hth : ∀ x (j : Fin N), (S x).1.theta.lookup (j : ℕ) = if D x.1 j then some (x.2.1 j) else none)
    (hw : ∀ x, C0.getW (S x).1.wst.1 = List.ofFn x.2.2) : HasPosterior A lp p f y (posteriorPairs A lp p f y) S := by
  intro φ hφ
  unfold posteriorPairs postMean
  rw [lintegral_sum_measure, tsum_fintype]
  refine Finset.sum_congr rfl fun d _ => ?_
  rw [(measurableEmbedding_prodMk_left d).lintegral_map]
  have hst : ∀ z, heldMean A p φ (S (d, z)) = ∫⁻ x', φ d (mixSeq (D d) z.1 x', z.2) ∂(Measure.infinitePi (fun _ : Fin N => A.law p)) := by
    intro z
    unfold heldMean
    rw [hd, labelsF_ofFn, hw, vec_ofFn]
    refine lintegral_congr fun x' => ?_
    congr 2
    funext j
    unfold extF mixSeq
    rw [hth]
    show (if D d j then some (z.1 j) else none).getD (x' j) = _
    by_cases hj : D d j
    · rw [if_pos hj, if_pos hj]; rfl
    · rw [if_neg hj, if_neg hj]; rfl
  simp_rw [hst]
  obtain ⟨c, -, -, hc⟩ := finJoint_eq (f := f) hlp hcj d
  unfold finPosterior
  rw [hc]
  simp only [lintegral_smul_measure]
  congr 2
  have m3 : Measurable (fun q : FParams N Atom × (Fin N → Atom) => φ d (mixSeq (D d) q.1.1 q.2, q.1.2)) :=
    (hφ d).comp (((measurable_mixSeq (D d)).comp ((measurable_fst.comp measurable_fst).prodMk measurable_snd)).prodMk (measurable_snd.comp measurable_fst))
  have m2 : Measurable (fun z : FParams N Atom => ∫⁻ x', φ d (mixSeq (D d) z.1 x', z.2) ∂(Measure.infinitePi (fun _ : Fin N => A.law p))) := m3.lintegral_prod_right'
  rw [lintegral_prod_symm _ m2.aemeasurable, lintegral_prod_symm _ (hφ d).aemeasurable]
  refine lintegral_congr fun w => ?_
  refine lintegral_mixSeq (D d) (atomF A y p d []) (fun _ => A.law p) (atomF A y p d []) (fun _ _ => rfl) (fun j hj => ?_) (h := fun θ => φ d (θ, w)) ((hφ d).comp (measurable_id.prodMk measurable_const))
  unfold atomF atomNew
  rw [if_neg]
  · rfl
  · rw [mem_nat_iff]
    rintro ⟨i, rfl⟩
    exact hj (hD d i)

/-- For Dirichlet weights this is the posterior law of C94. -/
theorem C104_same (A : AtomGen m Atom) (lp : (Fin m → ℝ) → Atom → WithBot ℝ) (p : NIW ℝ m) {alpha : List ℝ} (hN : alpha.length = N) (ha : ∀ x ∈ alpha, 0 < x) (y : Fin n → Fin m → ℝ)
    (d : Fin n → Fin N) : finPosterior A lp p (dirPrior alpha hN ha) y d = gibbsPosterior A lp p alpha y d := rfl

/-! ### The case of the code: normal observations with one coordinate -/

section
variable {nz : ℝ → ℝ} (hnz : IsGumbel nz) {W : World ℝ 1 (MeanCov 1)} (heps : W.eps = 0) (hW : W.logpdf = normalLog) {p : NIW ℝ 1} (hl : 0 < p.lam) (hnu : 0 < p.nu) (hp : 0 < p.psi 0 0)
  (hn : 2 ≤ n) (G : RandGen) (y : Fin n → Fin 1 → ℝ) {Ω : Type} [MeasurableSpace Ω] {P : Measure Ω}
include hnz heps hW hl hnu hp hn

/-- Mixture of normal observations with Dirichlet weights. -/
theorem C104_dirichletDistribution {alpha : List ℝ} (hN : alpha.length = N) (ha : ∀ x ∈ alpha, 0 < x) {S : Ω → GM (DirDist.cls : WeightClass ℝ) 1 (MeanCov 1) × ℕ}
    (hS : ∀ x, ∃ d : Fin n → Fin N, FinHolds (C0 := DirDist.core) y p (fun s => s.alpha = alpha) (S x).1 d)
    (hpost : HasPosterior (C0 := DirDist.core) (AtomGen.ofLaw atomLaw) normalLog p (dirPrior alpha hN ha) y P S) (k : ℕ) {φ : (Fin n → Fin N) → FParams N (MeanCov 1) → ℝ≥0∞} (hφ : ∀ δ, Measurable (φ δ)) :
    ∫⁻ x, runMean (C0 := DirDist.core) nz W (AtomGen.ofLaw atomLaw) G k (heldMean (AtomGen.ofLaw atomLaw) p φ) (S x) ∂P =
      postMean (AtomGen.ofLaw atomLaw) normalLog p (dirPrior alpha hN ha) y φ :=
  C104_run (C0 := DirDist.core) (measurable_obsNormal y) hnz hW (dir_class hN ha) heps hn (normal_conjugate hl hnu hp) G hS hpost k hφ

/-- Mixture of normal observations with equal weights. -/
theorem C104_equal {S : Ω → GM (Equal.cls : WeightClass ℝ) 1 (MeanCov 1) × ℕ} (hS : ∀ x, ∃ d : Fin n → Fin N, FinHolds (C0 := Equal.core) y p (fun s => s.n = (N : ℤ)) (S x).1 d)
    (hpost : HasPosterior (C0 := Equal.core) (AtomGen.ofLaw atomLaw) normalLog p (equalPrior N) y P S) (k : ℕ) {φ : (Fin n → Fin N) → FParams N (MeanCov 1) → ℝ≥0∞} (hφ : ∀ δ, Measurable (φ δ)) :
    ∫⁻ x, runMean (C0 := Equal.core) nz W (AtomGen.ofLaw atomLaw) G k (heldMean (AtomGen.ofLaw atomLaw) p φ) (S x) ∂P =
      postMean (AtomGen.ofLaw atomLaw) normalLog p (equalPrior N) y φ :=
  C104_run (C0 := Equal.core) (measurable_obsNormal y) hnz hW (equal_class N) heps hn (normal_conjugate hl hnu hp) G hS hpost k hφ

end

/-! ### A state that meets the hypotheses -/

/-- A mixture with labels `x.1`, weights `x.2.2` and the atoms of `x.2` up to the largest label. -/
noncomputable def dirState (y : Fin n → Fin 1 → ℝ) (alpha : List ℝ) (x : (Fin n → Fin N) × FParams N (MeanCov 1)) : GM (DirDist.cls : WeightClass ℝ) 1 (MeanCov 1) × ℕ :=
  ({ totalIter := 5, burnIn := 0, subsample := 1, nAttr := some n, muPrior := some (fun _ => 0), lam := 1, psiPrior := some (fun _ _ => 1), nuPrior := some 1, y := List.ofFn y, d := List.ofFn (nat x.1),
     theta := (List.range (topLabel (List.ofFn (nat x.1)))).map (fun j => (j, x.2.1 (Fin.ofNat N j))), thetaDefault := true, u := [], affinity := [], mapParams := none, mapLL := ⊥, saved := [], nGroups := [],
     nAtoms := [], totalSaved := 0, gibbsFitted := false,
     wst := (({ n := N, alpha := alpha, w := List.ofFn x.2.2, d := labels (List.ofFn (nat x.1)) } : DirDist ℝ), 0) }, 0)

example (y : Fin 2 → Fin 1 → ℝ) (ha : ∀ x ∈ [1, 2, 3], (0 : ℝ) < x) : ∃ p : NIW ℝ 1, 0 < p.lam ∧ 0 < p.nu ∧ 0 < p.psi 0 0 ∧
    (∀ x : (Fin 2 → Fin 3) × FParams 3 (MeanCov 1), FinHolds (C0 := DirDist.core) y p (fun s => s.alpha = [1, 2, 3]) (dirState y [1, 2, 3] x).1 x.1) ∧
    HasPosterior (C0 := DirDist.core) (AtomGen.ofLaw atomLaw) normalLog p (dirPrior [1, 2, 3] rfl ha) y (posteriorPairs (AtomGen.ofLaw atomLaw) normalLog p (dirPrior [1, 2, 3] rfl ha) y) (dirState y [1, 2, 3]) := by
  refine ⟨⟨fun _ => 0, 1, fun _ _ => 1, 1⟩, one_pos, one_pos, one_pos, fun x => ⟨rfl, rfl, rfl, ?_, rfl⟩, ?_⟩
  · rfl
  · refine C104_start (C0 := DirDist.core) (measurable_obsNormal y) (normal_conjugate one_pos one_pos one_pos) (dirState y [1, 2, 3]) (fun d j => (j : ℕ) < topLabel (List.ofFn (nat d)))
      (fun d i => lt_topLabel ((List.mem_ofFn' _ _).2 ⟨i, rfl⟩)) (fun x => rfl) (fun x j => ?_) (fun x => rfl)
    refine (lookup_range_map _ _ _).trans ?_
    rw [Fin.ofNat_eq_cast, Fin.cast_val_eq_self]

end Verif.Mix.FinMix
