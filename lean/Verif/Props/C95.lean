import Verif.Lemmas.StickClasses

/-!
# C95: Gibbs iterations of a Dirichlet process mixture leave the posterior law invariant

Infinitely many components: a mixture whose weights are given by stick breaking (`DirichletProcess`, `PitmanYorProcess`), with a prior on the atoms that is conjugate to the density of the
observations.  The posterior law of labels, atoms and sticks given the data (`stickPosterior`) is the prior times the likelihood, normalised; it is a probability (`C95_total`).

The object stores finitely many atoms and sticks: it draws a missing atom when it is asked for, and the loop of `tail` appends sticks until the weights cover all slice levels.  So a law of states
*is the posterior law* (`HasPosterior`) if it becomes the posterior law when the atoms and sticks that are not stored are drawn from their priors.  If the state of the object has the posterior
law, then so has the state after any number of Gibbs iterations (`C95_step`, `C95_run`), and the labels have their posterior probabilities (`C95_labels`).  An iteration returns with probability
one from every state (`C95_returns`): the loop of `tail` terminates.  `C95_start`: a state that stores the atoms and sticks up to the largest label has the posterior law, if the labels, atoms and
sticks are drawn from it.

As in C86 and C94 the shift `eps` of the slice variables is taken to be zero.
-/

namespace Verif.Mix
open MeasureTheory ProbabilityTheory GM Spec
open scoped ENNReal

variable {m n : ℕ} {Atom : Type} [MeasurableSpace Atom] {C0 : WeightCore ℝ}

/-! ### The posterior law -/

/-- The posterior law of labels, atoms and sticks: the part with labels `d`. -/
noncomputable def stickPosterior (A : AtomGen m Atom) (lp : (Fin m → ℝ) → Atom → WithBot ℝ) (p : NIW ℝ m) (f : StickParams) (y : Fin n → Fin m → ℝ) (d : Fin n → ℕ) : Measure (Params Atom) :=
  (∑' e : Fin n → ℕ, stickJoint A lp p f y e Set.univ)⁻¹ • stickJoint A lp p f y d

/-- The posterior mean of `φ`. -/
noncomputable def postMean (A : AtomGen m Atom) (lp : (Fin m → ℝ) → Atom → WithBot ℝ) (p : NIW ℝ m) (f : StickParams) (y : Fin n → Fin m → ℝ) (φ : (Fin n → ℕ) → Params Atom → ℝ≥0∞) : ℝ≥0∞ :=
  ∑' d, ∫⁻ z, φ d z ∂(stickPosterior A lp p f y d)

/-- A random state has the posterior law, when the atoms and sticks that it does not store are drawn from their priors. -/
def HasPosterior (A : AtomGen m Atom) (lp : (Fin m → ℝ) → Atom → WithBot ℝ) (p : NIW ℝ m) (f : StickParams) (getV : C0.State → List ℝ) (y : Fin n → Fin m → ℝ) {Ω : Type} [MeasurableSpace Ω]
    (P : Measure Ω) (S : Ω → GM C0.inheritTail m Atom × ℕ) : Prop :=
  ∀ φ : (Fin n → ℕ) → Params Atom → ℝ≥0∞, (∀ δ, Measurable (φ δ)) → ∫⁻ x, heldMean A p f getV φ (S x) ∂P = postMean A lp p f y φ

/-- The mean of `F` after `k` Gibbs iterations from `s`. -/
noncomputable def runMean (nz : ℝ → ℝ) (W : World ℝ m Atom) (A : AtomGen m Atom) (G : RandGen) : ℕ → (GM C0.inheritTail m Atom × ℕ → ℝ≥0∞) → GM C0.inheritTail m Atom × ℕ → ℝ≥0∞
  | 0, F, s => F s
  | k + 1, F, s => stepMean nz W A G (runMean nz W A G k F) s

section
variable {lp : (Fin m → ℝ) → Atom → WithBot ℝ} {f : StickParams} {getV : C0.State → List ℝ} {Inv : C0.State → Prop} {W : World ℝ m Atom} {A : AtomGen m Atom} {y : Fin n → Fin m → ℝ}
  {p : NIW ℝ m} {nz : ℝ → ℝ} (hlp : ∀ i, Measurable (obsDens lp (y i)))
include hlp

/-- The posterior law is a probability. -/
theorem C95_total (hex : f.Exhausts) (hcj : Conjugate A lp p) : ∑' d : Fin n → ℕ, stickPosterior A lp p f y d Set.univ = 1 := by
  obtain ⟨h1, h2⟩ := stickJoint_total (f := f) hlp hex hcj
  unfold stickPosterior
  simp only [Measure.smul_apply, smul_eq_mul]
  rw [ENNReal.tsum_mul_left, ENNReal.inv_mul_cancel h1 h2]

theorem postMean_invariant (hex : f.Exhausts) (hcj : Conjugate A lp p) {φ : (Fin n → ℕ) → Params Atom → ℝ≥0∞} (hφ : ∀ δ, Measurable (φ δ)) :
    postMean A lp p f y (stepKernel A lp p f y φ) = postMean A lp p f y φ := by
  unfold postMean stickPosterior
  simp only [lintegral_smul_measure, smul_eq_mul]
  rw [ENNReal.tsum_mul_left, ENNReal.tsum_mul_left, stepKernel_invariant hlp hex hcj hφ]

variable (hnz : IsGumbel nz) (hW : W.logpdf = lp) (hcl : StickClass C0 f getV Inv) (heps : W.eps = 0) (hn : 2 ≤ n) (hex : f.Exhausts) (hcj : Conjugate A lp p) (G : RandGen)
include hnz hW hcl heps hn hex hcj

/-- A step leads from states that hold the data and labels to such states. -/
theorem stepMean_congr {F F' : GM C0.inheritTail m Atom × ℕ → ℝ≥0∞} (hF : ∀ s δ, StickHolds y p Inv s.1 δ → F s = F' s) {s : GM C0.inheritTail m Atom × ℕ} {d : Fin n → ℕ} (h : StickHolds y p Inv s.1 d) :
    stepMean nz W A G F s = stepMean nz W A G F' s := by
  subst hW
  unfold stepMean
  refine lintegral_congr_ae ?_
  filter_upwards [stream_unit] with U hU
  refine lintegral_congr_ae ?_
  obtain ⟨hvm, hvl⟩ := stickDraw_law f (List.ofFn d) G s.1.wst.2
  have hgoodu : ∀ᵐ u ∂G.P, (∀ j, stickDraw f (List.ofFn d) (G.oracle u) s.1.wst.2 j ∈ Set.Ioo (0 : ℝ) 1) ∧ HasSum (stickSeq (stickDraw f (List.ofFn d) (G.oracle u) s.1.wst.2)) 1 := by
    have h1 : ∀ᵐ v ∂(Measure.infinitePi f.prior), (∀ j, v j ∈ Set.Ioo (0 : ℝ) 1) ∧ HasSum (stickSeq v) 1 := by
      filter_upwards [prior_unit f, hex] with v h1 h2 using ⟨h1, h2⟩
    have h2 := (post_ac f (List.ofFn d)).ae_le h1
    rw [← hvl] at h2
    exact ae_of_ae_map hvm.aemeasurable h2
  filter_upwards [hgoodu] with u ⟨hv, hsum⟩
  refine lintegral_congr_ae ?_
  filter_upwards [lazyAtoms_dens (d := d) hlp hcj s.1.theta s.2] with X hX
  refine lintegral_congr fun g => ?_
  have hpos : ∀ j, 0 < stickSeq (stickDraw f (List.ofFn d) (G.oracle u) s.1.wst.2) j := fun j => mul_pos (hv j).1 (Finset.prod_pos fun l _ => by linarith [(hv l).2])
  obtain ⟨k, hk⟩ := stopEv_exists (d := d) (q := s.2 + (npUnique (List.ofFn d)).length) (N := topLabel (List.ofFn d)) hU hsum fun i => hpos _
  obtain ⟨R, hR1, hR2, -⟩ := stick_run hnz hcl heps hn h X rfl (fun j => ⟨(hv j).1.le, (hv j).2.le⟩) (fun i => hpos _) rfl hX hU rfl hk.1 hk.2.1 hk.2.2
  have hsup : ∀ F : GM C0.inheritTail m Atom × ℕ → ℝ≥0∞, ⨆ k : ℕ, outcome F (gibbsStep (withNoise (withSlices (withAtoms W A X) (fun _ => k) U) (fun i => nz (g i))) (G.oracle u) s) = F (R fun i => nz (g i)) := fun F =>
    iSup_outcome (W0 := withNoise (withSlices (withAtoms W A X) (fun _ => 0) U) (fun i => nz (g i))) (fun _ => rfl) (fun k' hk' => hR1 k' hk' _) _
  rw [hsup, hsup]
  obtain ⟨δ, hδ⟩ := hR2 fun i => nz (g i)
  exact hF _ δ hδ

/-- One iteration, started from a given state: atoms, sticks and labels of the posterior kernel. -/
theorem stepMean_kernel {φ : (Fin n → ℕ) → Params Atom → ℝ≥0∞} (hφ : ∀ δ, Measurable (φ δ)) {s : GM C0.inheritTail m Atom × ℕ} {d : Fin n → ℕ} (h : StickHolds y p Inv s.1 d) :
    stepMean nz W A G (heldMean A p f getV φ) s = heldMean A p f getV (stepKernel A lp p f y φ) s := by
  rw [heldMean_stepKernel hlp hφ h]
  exact stepMean_held hlp hnz hW hcl heps hn hex hcj G hφ h

theorem runMean_kernel (k : ℕ) : ∀ {φ : (Fin n → ℕ) → Params Atom → ℝ≥0∞}, (∀ δ, Measurable (φ δ)) → ∀ {s : GM C0.inheritTail m Atom × ℕ} {d : Fin n → ℕ}, StickHolds y p Inv s.1 d →
    runMean nz W A G k (heldMean A p f getV φ) s = heldMean A p f getV ((stepKernel A lp p f y)^[k] φ) s := by
  induction k with
  | zero => intro φ _ s d _; rfl
  | succ k ih =>
    intro φ hφ s d h
    have hk : ∀ k δ, Measurable ((stepKernel A lp p f y)^[k] φ δ) := by
      intro k
      induction k with
      | zero => exact hφ
      | succ k ih => rw [Function.iterate_succ_apply']; exact fun δ => measurable_stepKernel hlp ih δ
    show stepMean nz W A G (runMean nz W A G k (heldMean A p f getV φ)) s = _
    rw [stepMean_congr hlp hnz hW hcl heps hn hex hcj G (F' := heldMean A p f getV ((stepKernel A lp p f y)^[k] φ)) (fun s δ hs => ih hφ hs) h,
      stepMean_kernel hlp hnz hW hcl heps hn hex hcj G (hk k) h, Function.iterate_succ_apply']

variable {Ω : Type} [MeasurableSpace Ω] {P : Measure Ω} {S : Ω → GM C0.inheritTail m Atom × ℕ} (hS : ∀ x, ∃ d : Fin n → ℕ, StickHolds y p Inv (S x).1 d) (hpost : HasPosterior A lp p f getV y P S)
include hS hpost

/-- **Invariance**: the state after a Gibbs iteration has the posterior law. -/
theorem C95_step {φ : (Fin n → ℕ) → Params Atom → ℝ≥0∞} (hφ : ∀ δ, Measurable (φ δ)) :
    ∫⁻ x, stepMean nz W A G (heldMean A p f getV φ) (S x) ∂P = postMean A lp p f y φ := by
  rw [← postMean_invariant hlp hex hcj hφ, ← hpost _ fun δ => measurable_stepKernel hlp hφ δ]
  refine lintegral_congr fun x => ?_
  obtain ⟨d, hd⟩ := hS x
  exact stepMean_kernel hlp hnz hW hcl heps hn hex hcj G hφ hd

/-- **Invariance** under any number of iterations. -/
theorem C95_run (k : ℕ) {φ : (Fin n → ℕ) → Params Atom → ℝ≥0∞} (hφ : ∀ δ, Measurable (φ δ)) :
    ∫⁻ x, runMean nz W A G k (heldMean A p f getV φ) (S x) ∂P = postMean A lp p f y φ := by
  have hk : (∀ δ, Measurable ((stepKernel A lp p f y)^[k] φ δ)) ∧ postMean A lp p f y ((stepKernel A lp p f y)^[k] φ) = postMean A lp p f y φ := by
    induction k with
    | zero => exact ⟨hφ, rfl⟩
    | succ k ih =>
      rw [Function.iterate_succ_apply']
      exact ⟨fun δ => measurable_stepKernel hlp ih.1 δ, (postMean_invariant hlp hex hcj ih.1).trans ih.2⟩
  rw [← hk.2, ← hpost _ hk.1]
  refine lintegral_congr fun x => ?_
  obtain ⟨d, hd⟩ := hS x
  exact runMean_kernel hlp hnz hW hcl heps hn hex hcj G k hφ hd

/-- The labels after any number of iterations have their posterior probabilities. -/
theorem C95_labels (k : ℕ) (δ : Fin n → ℕ) :
    ∫⁻ x, runMean nz W A G k (fun s => if labelsOf n s.1.d = δ then 1 else 0) (S x) ∂P = stickPosterior A lp p f y δ Set.univ := by
  have h1 := C95_run hlp hnz hW hcl heps hn hex hcj G hS hpost k (φ := fun d _ => if d = δ then 1 else 0) fun _ => measurable_const
  have h2 : heldMean (C0 := C0) A p f getV (fun d _ => if d = δ then 1 else 0) = fun s => if labelsOf n s.1.d = δ then 1 else 0 := by
    funext s
    unfold heldMean
    simp only [lintegral_const, measure_univ, mul_one]
  rw [h2] at h1
  rw [h1]
  unfold postMean
  simp only [lintegral_const]
  rw [tsum_eq_single δ fun d hd => by rw [if_neg hd, zero_mul], if_pos rfl, one_mul]

omit hS hpost

/-- From every state that holds the data and labels an iteration returns with probability one. -/
theorem C95_returns {s : GM C0.inheritTail m Atom × ℕ} {d : Fin n → ℕ} (h : StickHolds y p Inv s.1 d) : stepMean nz W A G (fun _ => 1) s = 1 := by
  have h1 := stepMean_held hlp hnz hW hcl heps hn hex hcj G (φ := fun _ _ => 1) (fun _ => measurable_const) h
  have h2 : heldMean (C0 := C0) (n := n) A p f getV (fun _ _ => 1) = fun _ => 1 := by
    funext s
    unfold heldMean
    simp only [lintegral_const, measure_univ, mul_one]
  rw [h2] at h1
  rw [h1]
  obtain ⟨ham, hal⟩ := lazyAtoms_law A y p d s.1.theta s.2
  have hθ : ∀ᵐ θ ∂(Measure.infinitePi (atomNew A y p d s.1.theta)), ∀ i, obsDens lp (y i) (θ (d i)) ≠ 0 := by
    rw [← hal, ae_map_iff ham.aemeasurable]
    · filter_upwards [lazyAtoms_dens (d := d) hlp hcj s.1.theta s.2] with X hX i
      exact (ENNReal.ofReal_pos.2 (botExp_pos (hX i))).ne'
    · rw [Set.ofPred_forall]
      exact MeasurableSet.iInter fun i => (((hlp i).comp (measurable_pi_apply _)) (measurableSet_singleton 0)).compl
  have hv : ∀ᵐ v ∂(Measure.infinitePi (f.post (List.ofFn d))), (∀ j, v j ∈ Set.Ioo (0 : ℝ) 1) ∧ HasSum (stickSeq v) 1 := by
    have h1 : ∀ᵐ v ∂(Measure.infinitePi f.prior), (∀ j, v j ∈ Set.Ioo (0 : ℝ) 1) ∧ HasSum (stickSeq v) 1 := by
      filter_upwards [prior_unit f, hex] with v h1 h2 using ⟨h1, h2⟩
    exact (post_ac f (List.ofFn d)).ae_le h1
  have h3 : ∀ᵐ v ∂(Measure.infinitePi (f.post (List.ofFn d))), ∫⁻ θ, labelStep lp y (fun _ _ => 1) d (θ, v) ∂(Measure.infinitePi (atomNew A y p d s.1.theta)) = 1 := by
    filter_upwards [hv] with v ⟨hv, hsum⟩
    have h4 : ∀ᵐ θ ∂(Measure.infinitePi (atomNew A y p d s.1.theta)), labelStep lp y (fun _ _ => 1) d (θ, v) = 1 := by
      filter_upwards [hθ] with θ hθ
      have hden : ∀ i, lp (y i) (θ (d i)) ≠ ⊥ := fun i hbot => hθ i (by unfold obsDens; rw [hbot]; exact ENNReal.ofReal_zero)
      have hpos : ∀ j, 0 < stickSeq v j := fun j => mul_pos (hv j).1 (Finset.prod_pos fun l _ => by linarith [(hv l).2])
      unfold labelStep
      simp only [one_mul]
      exact tsum_labelKer_one hlp d (z := (θ, v)) hsum (fun i => hpos _) hden
    rw [lintegral_congr_ae h4, lintegral_const, measure_univ, mul_one]
  rw [lintegral_congr_ae h3, lintegral_const, measure_univ, mul_one]

end

/-! ### States with the posterior law -/

/-- The posterior law as a law of pairs. -/
noncomputable def posteriorPairs (A : AtomGen m Atom) (lp : (Fin m → ℝ) → Atom → WithBot ℝ) (p : NIW ℝ m) (f : StickParams) (y : Fin n → Fin m → ℝ) : Measure ((Fin n → ℕ) × Params Atom) :=
  Measure.sum fun d => (stickPosterior A lp p f y d).map (Prod.mk d)

/-- Labels, atoms and sticks are drawn from the posterior law; the object stores the atoms of the components in `D d`, among them those with observations, and the sticks below `K d`, among them
those up to the largest label.  Then its state has the posterior law. -/
theorem C95_start {A : AtomGen m Atom} {lp : (Fin m → ℝ) → Atom → WithBot ℝ} {p : NIW ℝ m} {f : StickParams} {getV : C0.State → List ℝ} {y : Fin n → Fin m → ℝ} (hlp : ∀ i, Measurable (obsDens lp (y i)))
    (hcj : Conjugate A lp p) (hn : 0 < n) (S : (Fin n → ℕ) × Params Atom → GM C0.inheritTail m Atom × ℕ) (D : (Fin n → ℕ) → ℕ → Prop) [∀ d, DecidablePred (D d)] (hD : ∀ d i, D d (d i)) (K : (Fin n → ℕ) → ℕ)
    (hK : ∀ d i, d i < K d) (hd : ∀ x, (S x).1.d = List.ofFn x.1) (hth : ∀ x j, (S x).1.theta.lookup j = if D x.1 j then some (x.2.1 j) else none)
    (hv : ∀ x, getV (S x).1.wst.1 = (List.range (K x.1)).map x.2.2) : HasPosterior A lp p f getV y (posteriorPairs A lp p f y) S := by
  intro φ hφ
  unfold posteriorPairs postMean
  rw [lintegral_sum_measure]
  refine tsum_congr fun d => ?_
  rw [(measurableEmbedding_prodMk_left d).lintegral_map]
  have hst : ∀ z, heldMean A p f getV φ (S (d, z)) = ∫⁻ v', ∫⁻ x', φ d (mixSeq (D d) z.1 x', mixSeq (· < K d) z.2 v') ∂(Measure.infinitePi (fun _ : ℕ => A.law p)) ∂(Measure.infinitePi f.prior) := by
    intro z
    unfold heldMean
    rw [hd, labelsOf_ofFn]
    refine lintegral_congr fun v' => lintegral_congr fun x' => ?_
    congr 2
    · funext j
      unfold extAtoms mixSeq
      rw [hth]
      show (if D d j then some (z.1 j) else none).getD (x' j) = _
      by_cases hj : D d j
      · rw [if_pos hj, if_pos hj]; rfl
      · rw [if_neg hj, if_neg hj]; rfl
    · funext j
      unfold extSticks mixSeq
      rw [hv]
      show ((List.map z.2 (List.range (K d)))[j]?).getD (v' j) = _
      by_cases hj : j < K d
      · rw [List.getElem?_map, List.getElem?_range hj, if_pos hj]; rfl
      · rw [List.getElem?_eq_none (by simpa using hj), if_neg hj]; rfl
  simp_rw [hst]
  obtain ⟨c, -, -, -, hc⟩ := stickJoint_eq (f := f) hlp hcj d
  unfold stickPosterior
  rw [hc]
  simp only [lintegral_smul_measure]
  congr 2
  have m4 : Measurable (fun q : (((ℕ → ℝ) × (ℕ → Atom)) × (ℕ → ℝ)) × (ℕ → Atom) => φ d (mixSeq (D d) q.1.1.2 q.2, mixSeq (· < K d) q.1.1.1 q.1.2)) :=
    (hφ d).comp (((measurable_mixSeq (D d)).comp (((measurable_snd.comp measurable_fst).comp measurable_fst).prodMk measurable_snd)).prodMk
      ((measurable_mixSeq (· < K d)).comp (((measurable_fst.comp measurable_fst).comp measurable_fst).prodMk (measurable_snd.comp measurable_fst))))
  have m3 : Measurable (fun q : ((ℕ → ℝ) × (ℕ → Atom)) × (ℕ → ℝ) => ∫⁻ x', φ d (mixSeq (D d) q.1.2 x', mixSeq (· < K d) q.1.1 q.2) ∂(Measure.infinitePi (fun _ : ℕ => A.law p))) := m4.lintegral_prod_right'
  have m2 : Measurable (fun q : (ℕ → ℝ) × (ℕ → Atom) => ∫⁻ v', ∫⁻ x', φ d (mixSeq (D d) q.2 x', mixSeq (· < K d) q.1 v') ∂(Measure.infinitePi (fun _ : ℕ => A.law p)) ∂(Measure.infinitePi f.prior)) := m3.lintegral_prod_right'
  have m2' : Measurable (fun z : Params Atom => ∫⁻ v', ∫⁻ x', φ d (mixSeq (D d) z.1 x', mixSeq (· < K d) z.2 v') ∂(Measure.infinitePi (fun _ : ℕ => A.law p)) ∂(Measure.infinitePi f.prior)) := m2.comp measurable_swap
  rw [lintegral_prod_symm _ m2'.aemeasurable, lintegral_prod_symm _ (hφ d).aemeasurable]
  have hΦ : Measurable (fun v => ∫⁻ θ, φ d (θ, v) ∂(Measure.infinitePi (atomNew A y p d []))) := (hφ d).lintegral_prod_left'
  rw [← lintegral_mixSeq (· < K d) (f.post (List.ofFn d)) f.prior (f.post (List.ofFn d)) (fun _ _ => rfl) (fun j hj => post_of_top f ?_) hΦ]
  · refine lintegral_congr fun v => ?_
    have m3' : Measurable (fun q : (ℕ → Atom) × (ℕ → ℝ) => ∫⁻ x', φ d (mixSeq (D d) q.1 x', mixSeq (· < K d) v q.2) ∂(Measure.infinitePi (fun _ : ℕ => A.law p))) :=
      m3.comp ((measurable_const.prodMk measurable_fst).prodMk measurable_snd)
    refine (lintegral_lintegral_swap (f := fun θ v' => ∫⁻ x', φ d (mixSeq (D d) θ x', mixSeq (· < K d) v v') ∂(Measure.infinitePi (fun _ : ℕ => A.law p))) m3'.aemeasurable).trans ?_
    refine lintegral_congr fun v' => ?_
    refine lintegral_mixSeq (D d) (atomNew A y p d []) (fun _ => A.law p) (atomNew A y p d []) (fun _ _ => rfl) (fun j hj => ?_) (h := fun θ => φ d (θ, mixSeq (· < K d) v v')) ((hφ d).comp (measurable_id.prodMk measurable_const))
    unfold atomNew
    rw [if_neg]
    · rfl
    · rw [mem_ofFn_iff]
      rintro ⟨i, rfl⟩
      exact hj (hD d i)
  · have hj' : K d ≤ j := not_lt.1 hj
    have := topLabel_mem (d := List.ofFn d) (by intro h; have := congrArg List.length h; simp at this; omega)
    obtain ⟨i, hi⟩ := (mem_ofFn_iff d _).1 this
    have := hK d i
    omega

/-! ### The case of the code: normal observations with one coordinate -/

section
variable {nz : ℝ → ℝ} (hnz : IsGumbel nz) {W : World ℝ 1 (MeanCov 1)} (heps : W.eps = 0) (hW : W.logpdf = normalLog) {p : NIW ℝ 1} (hl : 0 < p.lam) (hnu : 0 < p.nu) (hp : 0 < p.psi 0 0)
  (hn : 2 ≤ n) (G : RandGen) (y : Fin n → Fin 1 → ℝ) {Ω : Type} [MeasurableSpace Ω] {P : Measure Ω}
include hnz heps hW hl hnu hp hn

omit hnz heps hW hl hnu hp hn in
theorem measurable_obsNormal (i : Fin n) : Measurable (obsDens normalLog (y i)) := (Real.measurable_exp.comp (measurable_logNormal (y i))).ennreal_ofReal

/-- Dirichlet process mixture of normal observations. -/
theorem C95_dirichletProcess {alpha : ℝ} (ha : 0 < alpha) {S : Ω → GM (DP.cls : WeightClass ℝ) 1 (MeanCov 1) × ℕ} (hS : ∀ x, ∃ d : Fin n → ℕ, StickHolds (C0 := DP.core) y p (fun s => s.alpha = alpha) (S x).1 d)
    (hpost : HasPosterior (C0 := DP.core) (AtomGen.ofLaw atomLaw) normalLog p (dpSticks alpha ha) DP.v y P S) (k : ℕ) {φ : (Fin n → ℕ) → Params (MeanCov 1) → ℝ≥0∞} (hφ : ∀ δ, Measurable (φ δ)) :
    ∫⁻ x, runMean (C0 := DP.core) nz W (AtomGen.ofLaw atomLaw) G k (heldMean (AtomGen.ofLaw atomLaw) p (dpSticks alpha ha) DP.v φ) (S x) ∂P =
      postMean (AtomGen.ofLaw atomLaw) normalLog p (dpSticks alpha ha) y φ :=
  C95_run (C0 := DP.core) (measurable_obsNormal y) hnz hW (dp_stickClass ha) heps hn (dpSticks_exhausts ha) (normal_conjugate hl hnu hp) G hS hpost k hφ

/-- Pitman-Yor process mixture of normal observations; the law of the sticks is the one that `PitmanYorProcess` uses. -/
theorem C95_pitmanYor {pyd alpha : ℝ} (h0 : 0 ≤ pyd) (h1 : pyd < 1) (ha : 0 < alpha) {S : Ω → GM (PY.cls : WeightClass ℝ) 1 (MeanCov 1) × ℕ}
    (hS : ∀ x, ∃ d : Fin n → ℕ, StickHolds (C0 := PY.core) y p (fun s => s.pyd = pyd ∧ s.alpha = alpha) (S x).1 d)
    (hpost : HasPosterior (C0 := PY.core) (AtomGen.ofLaw atomLaw) normalLog p (pySticks pyd alpha h0 h1 ha) PY.v y P S) (k : ℕ) {φ : (Fin n → ℕ) → Params (MeanCov 1) → ℝ≥0∞} (hφ : ∀ δ, Measurable (φ δ)) :
    ∫⁻ x, runMean (C0 := PY.core) nz W (AtomGen.ofLaw atomLaw) G k (heldMean (AtomGen.ofLaw atomLaw) p (pySticks pyd alpha h0 h1 ha) PY.v φ) (S x) ∂P =
      postMean (AtomGen.ofLaw atomLaw) normalLog p (pySticks pyd alpha h0 h1 ha) y φ :=
  C95_run (C0 := PY.core) (measurable_obsNormal y) hnz hW (py_stickClass h0 h1 ha) heps hn (pySticks_exhausts h0 h1 ha) (normal_conjugate hl hnu hp) G hS hpost k hφ

end

/-! ### A state that meets the hypotheses -/

/-- A Dirichlet process mixture with labels `x.1`, the atoms and sticks of `x.2` up to the largest label. -/
noncomputable def dpState (y : Fin n → Fin 1 → ℝ) (alpha : ℝ) (x : (Fin n → ℕ) × Params (MeanCov 1)) : GM (DP.cls : WeightClass ℝ) 1 (MeanCov 1) × ℕ :=
  ({ totalIter := 5, burnIn := 0, subsample := 1, nAttr := some n, muPrior := some (fun _ => 0), lam := 1, psiPrior := some (fun _ _ => 1), nuPrior := some 1, y := List.ofFn y, d := List.ofFn x.1,
     theta := (List.range (topLabel (List.ofFn x.1))).map (fun j => (j, x.2.1 j)), thetaDefault := true, u := [], affinity := [], mapParams := none, mapLL := ⊥, saved := [], nGroups := [],
     nAtoms := [], totalSaved := 0, gibbsFitted := false,
     wst := (({ alpha := alpha, v := (List.range (topLabel (List.ofFn x.1))).map x.2.2, w := (List.range (topLabel (List.ofFn x.1))).map (stickSeq x.2.2), d := labels (List.ofFn x.1) } : DP ℝ), 0) }, 0)

theorem lookup_range_map {β : Type} (g : ℕ → β) (k j : ℕ) : ((List.range k).map (fun i => (i, g i))).lookup j = if j < k then some (g j) else none := by
  induction k with
  | zero => simp
  | succ k ih =>
    rw [List.range_succ, List.map_append, List.lookup_append, ih]
    by_cases h1 : j < k
    · simp [h1, Nat.lt_succ_of_lt h1]
    · by_cases h2 : j = k
      · subst h2; simp
      · have : ¬ j < k + 1 := by omega
        have h3 : (j == k) = false := by simpa using h2
        simp [h1, this, List.lookup, h3]

example (y : Fin 2 → Fin 1 → ℝ) : ∃ p : NIW ℝ 1, 0 < p.lam ∧ 0 < p.nu ∧ 0 < p.psi 0 0 ∧
    (∀ x, StickHolds (C0 := DP.core) y p (fun s => s.alpha = 2) (dpState y 2 x).1 x.1) ∧
    HasPosterior (C0 := DP.core) (AtomGen.ofLaw atomLaw) normalLog p (dpSticks 2 two_pos) DP.v y (posteriorPairs (AtomGen.ofLaw atomLaw) normalLog p (dpSticks 2 two_pos) y) (dpState y 2) := by
  refine ⟨⟨fun _ => 0, 1, fun _ _ => 1, 1⟩, one_pos, one_pos, one_pos, fun x => ⟨rfl, rfl, rfl, ?_, rfl⟩, ?_⟩
  · rfl
  · exact C95_start (C0 := DP.core) (measurable_obsNormal y) (normal_conjugate one_pos one_pos one_pos) two_pos (dpState y 2) (fun d j => j < topLabel (List.ofFn d))
      (fun d i => lt_topLabel ((List.mem_ofFn' _ _).2 ⟨i, rfl⟩)) (fun d => topLabel (List.ofFn d)) (fun d i => lt_topLabel ((List.mem_ofFn' _ _).2 ⟨i, rfl⟩)) (fun x => rfl)
      (fun x j => lookup_range_map _ _ _) (fun x => rfl)

end Verif.Mix
