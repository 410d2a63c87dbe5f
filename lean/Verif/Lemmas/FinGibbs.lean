import Verif.Lemmas.FinLaw

/-! # The joint law of a mixture with finitely many components and the kernel of a Gibbs step -/

namespace Verif.Mix.FinMix
open MeasureTheory ProbabilityTheory GM Spec
open scoped ENNReal

set_option linter.unusedSectionVars false

variable {N m n : ℕ} [NeZero N] {Atom : Type} [MeasurableSpace Atom] {C0 : WeightCore ℝ}

/-- The prior law of atoms and weights. -/
noncomputable def paramPrior (A : AtomGen m Atom) (p : NIW ℝ m) (f : FinPrior N) : Measure (FParams N Atom) := (Measure.pi (fun _ : Fin N => A.law p)).prod f.prior

/-- The joint law of labels `d`, atoms and weights, times the likelihood of the data. -/
noncomputable def finJoint (A : AtomGen m Atom) (lp : (Fin m → ℝ) → Atom → WithBot ℝ) (p : NIW ℝ m) (f : FinPrior N) (y : Fin n → Fin m → ℝ) (d : Fin n → Fin N) : Measure (FParams N Atom) :=
  (paramPrior A p f).withDensity (pointMass lp y d)

instance (A : AtomGen m Atom) (p : NIW ℝ m) (f : FinPrior N) : IsProbabilityMeasure (paramPrior A p f) := by unfold paramPrior; infer_instance

theorem paramPrior_eq (A : AtomGen m Atom) (p : NIW ℝ m) (f : FinPrior N) : paramPrior A p f = (Measure.infinitePi (fun _ : Fin N => A.law p)).prod f.prior := by
  unfold paramPrior
  rw [Measure.infinitePi_eq_pi]

/-- A component has observations. -/
def occupied (d : Fin n → Fin N) (j : Fin N) : Prop := ∃ i, d i = j

instance (d : Fin n → Fin N) : DecidablePred (occupied d) := fun j => by unfold occupied; infer_instance

/-- The transition kernel of a step, applied to `φ`. -/
noncomputable def stepKernel (A : AtomGen m Atom) (lp : (Fin m → ℝ) → Atom → WithBot ℝ) (p : NIW ℝ m) (f : FinPrior N) (y : Fin n → Fin m → ℝ) (φ : (Fin n → Fin N) → FParams N Atom → ℝ≥0∞) (d : Fin n → Fin N)
    (z : FParams N Atom) : ℝ≥0∞ :=
  ∫⁻ w, ∫⁻ θ, labelStep lp y φ d (mixSeq (occupied d) θ z.1, w) ∂(Measure.infinitePi (atomF A y p d [])) ∂(f.post (List.ofFn (nat d)))

theorem mem_nat_iff (d : Fin n → Fin N) (j : Fin N) : (j : ℕ) ∈ List.ofFn (nat d) ↔ occupied d j := by
  rw [mem_ofFn_iff]
  exact exists_congr fun i => ⟨fun h => Fin.ext h, fun h => congrArg Fin.val h⟩

section
variable {A : AtomGen m Atom} {lp : (Fin m → ℝ) → Atom → WithBot ℝ} {p : NIW ℝ m} {f : FinPrior N} {y : Fin n → Fin m → ℝ} (hlp : ∀ i, Measurable (obsDens lp (y i)))
include hlp

/-- The mass of the data given labels. -/
noncomputable def atomMass (A : AtomGen m Atom) (lp : (Fin m → ℝ) → Atom → WithBot ℝ) (p : NIW ℝ m) (y : Fin n → Fin m → ℝ) (d : Fin n → Fin N) : ℝ≥0∞ :=
  ∏ j ∈ Finset.univ.image d, ∫⁻ a, (∏ i, if nat d i = (j : ℕ) then obsDens lp (y i) a else 1) ∂(A.law p)

omit hlp in
theorem atomMass_facts (hcj : Conjugate A lp p) (d : Fin n → Fin N) : atomMass A lp p y d ≠ 0 ∧ atomMass A lp p y d ≠ ∞ := by
  have h : ∀ j ∈ Finset.univ.image d, (∫⁻ a, (∏ i, if nat d i = (j : ℕ) then obsDens lp (y i) a else 1) ∂(A.law p)) ≠ 0 ∧
      (∫⁻ a, (∏ i, if nat d i = (j : ℕ) then obsDens lp (y i) a else 1) ∂(A.law p)) ≠ ∞ := by
    intro j hj
    obtain ⟨i, -, hi⟩ := Finset.mem_image.1 hj
    obtain ⟨c, h1, h2, rfl, -⟩ := occ_posterior (y := y) hcj (nat d) (j := j) ⟨i, congrArg Fin.val hi⟩
    exact ⟨h1, h2⟩
  exact ⟨Finset.prod_ne_zero_iff.2 fun j hj => (h j hj).1, ENNReal.prod_ne_top fun j hj => (h j hj).2⟩

theorem atoms_conjugate (hcj : Conjugate A lp p) (d : Fin n → Fin N) :
    (Measure.infinitePi (fun _ : Fin N => A.law p)).withDensity (fun θ => ∏ i, obsDens lp (y i) (θ (d i))) = atomMass A lp p y d • Measure.infinitePi (atomF A y p d []) := by
  have hprod : ∀ θ : Fin N → Atom, ∏ i, obsDens lp (y i) (θ (d i)) = ∏ j ∈ Finset.univ.image d, ∏ i, if nat d i = (j : ℕ) then obsDens lp (y i) (θ j) else 1 := fun θ => by
    rw [Finset.prod_comm]
    refine Finset.prod_congr rfl fun i _ => ?_
    have : ∀ j : Fin N, (nat d i = (j : ℕ)) ↔ (d i = j) := fun j => ⟨fun h => Fin.ext h, fun h => congrArg Fin.val h⟩
    simp_rw [this]
    rw [Finset.prod_ite_eq, if_pos (Finset.mem_image_of_mem d (Finset.mem_univ i))]
  simp_rw [hprod]
  refine infinitePi_withDensity (fun _ => A.law p) (atomF A y p d []) (Finset.univ.image d) (g := fun j a => ∏ i, if nat d i = (j : ℕ) then obsDens lp (y i) a else 1)
    (fun j => occLik_measurable hlp (nat d) j) (fun j hj => ?_) (fun j hj => ?_) (fun j hj => ?_)
  · obtain ⟨i, -, hi⟩ := Finset.mem_image.1 hj
    obtain ⟨c, -, -, rfl, h⟩ := occ_posterior (y := y) hcj (nat d) (j := j) ⟨i, congrArg Fin.val hi⟩
    rw [h]
    unfold atomF atomNew
    rw [if_pos ((mem_nat_iff d j).2 ⟨i, hi⟩)]
  · obtain ⟨i, -, hi⟩ := Finset.mem_image.1 hj
    obtain ⟨c, h1, h2, rfl, -⟩ := occ_posterior (y := y) hcj (nat d) (j := j) ⟨i, congrArg Fin.val hi⟩
    exact ⟨h1, h2⟩
  · unfold atomF atomNew
    rw [if_neg fun h => hj ?_]
    · rfl
    · obtain ⟨i, hi⟩ := (mem_nat_iff d j).1 h
      exact Finset.mem_image.2 ⟨i, Finset.mem_univ i, hi⟩

/-- Atoms and weights are independent given the labels. -/
theorem finJoint_eq (hcj : Conjugate A lp p) (d : Fin n → Fin N) : ∃ c : ℝ≥0∞, c ≠ 0 ∧ c ≠ ∞ ∧
    finJoint A lp p f y d = c • (Measure.infinitePi (atomF A y p d [])).prod (f.post (List.ofFn (nat d))) := by
  obtain ⟨c, hc0, hct, hc⟩ := f.conj d
  refine ⟨c * atomMass A lp p y d, mul_ne_zero hc0 (atomMass_facts hcj d).1, ENNReal.mul_ne_top hct (atomMass_facts hcj d).2, ?_⟩
  have hm1 : Measurable (fun θ : Fin N → Atom => ∏ i, obsDens lp (y i) (θ (d i))) := Finset.measurable_prod _ fun i _ => (hlp i).comp (measurable_pi_apply _)
  have hm2 : Measurable (fun w : Fin N → ℝ => ∏ i, ENNReal.ofReal (w (d i))) := Finset.measurable_prod _ fun i _ => (measurable_pi_apply _).ennreal_ofReal
  have h := prod_withDensity (μ := Measure.infinitePi (fun _ : Fin N => A.law p)) (ν := f.prior) hm1 hm2
  rw [hc, atoms_conjugate hlp hcj] at h
  unfold finJoint
  rw [paramPrior_eq]
  have e : pointMass lp y d = fun z : FParams N Atom => (∏ i, obsDens lp (y i) (z.1 (d i))) * ∏ i, ENNReal.ofReal (z.2 (d i)) := by
    funext z
    rw [pointMass, Finset.prod_mul_distrib, mul_comm]
  rw [e, ← h]
  rw [Measure.prod_smul_left, Measure.prod_smul_right, smul_smul, mul_comm]

theorem measurable_labelStep {φ : (Fin n → Fin N) → FParams N Atom → ℝ≥0∞} (hφ : ∀ δ, Measurable (φ δ)) (d : Fin n → Fin N) : Measurable (labelStep lp y φ d) := by
  unfold labelStep
  exact Finset.measurable_sum _ fun δ _ => (hφ δ).mul (measurable_labelKer d δ hlp)

theorem measurable_stepKernel {φ : (Fin n → Fin N) → FParams N Atom → ℝ≥0∞} (hφ : ∀ δ, Measurable (φ δ)) (d : Fin n → Fin N) : Measurable (stepKernel A lp p f y φ d) := by
  have h3 : Measurable (fun x : (FParams N Atom × (Fin N → ℝ)) × (Fin N → Atom) => labelStep lp y φ d (mixSeq (occupied d) x.2 x.1.1.1, x.1.2)) := by
    refine (measurable_labelStep hlp hφ d).comp (Measurable.prodMk ?_ (measurable_snd.comp measurable_fst))
    exact (measurable_mixSeq _).comp (measurable_snd.prodMk (measurable_fst.comp (measurable_fst.comp measurable_fst)))
  exact (h3.lintegral_prod_right' (ν := Measure.infinitePi (atomF A y p d []))).lintegral_prod_right'

/-- Redrawing the atoms of the occupied components and keeping independent other atoms. -/
theorem stepKernel_mean {φ : (Fin n → Fin N) → FParams N Atom → ℝ≥0∞} (hφ : ∀ δ, Measurable (φ δ)) (d : Fin n → Fin N) (ν' ν : Fin N → Measure Atom) [∀ j, IsProbabilityMeasure (ν' j)]
    [∀ j, IsProbabilityMeasure (ν j)] (hin : ∀ j, occupied d j → ν j = atomF A y p d [] j) (hout : ∀ j, ¬ occupied d j → ν j = ν' j) (w : Fin N → ℝ) :
    ∫⁻ x, stepKernel A lp p f y φ d (x, w) ∂(Measure.infinitePi ν') = ∫⁻ v, ∫⁻ θ, labelStep lp y φ d (θ, v) ∂(Measure.infinitePi ν) ∂(f.post (List.ofFn (nat d))) := by
  have hL := measurable_labelStep hlp hφ d
  have h3 : Measurable (fun x : ((Fin N → Atom) × (Fin N → ℝ)) × (Fin N → Atom) => labelStep lp y φ d (mixSeq (occupied d) x.2 x.1.1, x.1.2)) :=
    hL.comp (((measurable_mixSeq _).comp (measurable_snd.prodMk (measurable_fst.comp measurable_fst))).prodMk (measurable_snd.comp measurable_fst))
  have h2 : Measurable (fun x : (Fin N → Atom) × (Fin N → ℝ) => ∫⁻ θ, labelStep lp y φ d (mixSeq (occupied d) θ x.1, x.2) ∂(Measure.infinitePi (atomF A y p d []))) := h3.lintegral_prod_right'
  unfold stepKernel
  refine (lintegral_lintegral_swap (f := fun x v => ∫⁻ θ, labelStep lp y φ d (mixSeq (occupied d) θ x, v) ∂(Measure.infinitePi (atomF A y p d []))) h2.aemeasurable).trans ?_
  refine lintegral_congr fun v => ?_
  have h4 : Measurable (fun x : (Fin N → Atom) × (Fin N → Atom) => labelStep lp y φ d (mixSeq (occupied d) x.2 x.1, v)) :=
    hL.comp (((measurable_mixSeq _).comp (measurable_snd.prodMk measurable_fst)).prodMk measurable_const)
  refine (lintegral_lintegral_swap (f := fun x θ => labelStep lp y φ d (mixSeq (occupied d) θ x, v)) h4.aemeasurable).trans ?_
  exact lintegral_mixSeq (occupied d) (atomF A y p d []) ν' ν hin hout (h := fun θ => labelStep lp y φ d (θ, v)) (hL.comp (measurable_id.prodMk measurable_const))

/-- A step in terms of the kernel. -/
theorem heldMean_stepKernel {Inv : C0.State → Prop} {φ : (Fin n → Fin N) → FParams N Atom → ℝ≥0∞} (hφ : ∀ δ, Measurable (φ δ)) {s : GM C0.inheritTail m Atom × ℕ} {d : Fin n → Fin N}
    (h : FinHolds y p Inv s.1 d) :
    heldMean A p (stepKernel A lp p f y φ) s = ∫⁻ v, ∫⁻ θ, labelStep lp y φ d (θ, v) ∂(Measure.infinitePi (atomF A y p d s.1.theta)) ∂(f.post (List.ofFn (nat d))) := by
  classical
  unfold heldMean
  rw [h.2.1, labelsF_ofFn]
  let ν0 : ℕ → Measure Atom := fun j => match s.1.theta.lookup j with
    | some a => Measure.dirac a
    | none => A.law p
  let ν' : Fin N → Measure Atom := fun j => ν0 j
  have hν0 : ∀ j, IsProbabilityMeasure (ν0 j) := fun j => by
    show IsProbabilityMeasure (match s.1.theta.lookup j with | some a => Measure.dirac a | none => A.law p)
    cases s.1.theta.lookup j <;> infer_instance
  have hν' : ∀ j, IsProbabilityMeasure (ν' j) := fun j => hν0 j
  obtain ⟨a0⟩ : Nonempty Atom := by
    by_contra h0
    rw [not_nonempty_iff] at h0
    have := measure_univ (μ := A.law p)
    rw [Set.eq_empty_of_isEmpty Set.univ, measure_empty] at this
    exact zero_ne_one this
  have hext : (fun x : ℕ → Atom => extF s.1.theta (fun j : Fin N => x j)) = fun x (j : Fin N) => if s.1.theta.lookup (j : ℕ) = none then id (x (j : ℕ)) else (s.1.theta.lookup (j : ℕ)).getD a0 := by
    funext x j
    unfold extF
    cases s.1.theta.lookup (j : ℕ) <;> simp
  have hem : Measurable (fun x : Fin N → Atom => extF s.1.theta x) := by
    refine measurable_pi_lambda _ fun j => ?_
    unfold extF
    cases s.1.theta.lookup (j : ℕ)
    · exact measurable_pi_apply j
    · exact measurable_const
  have hrm : Measurable (fun (x : ℕ → Atom) (j : Fin N) => x j) := measurable_pi_lambda _ fun j => measurable_pi_apply _
  have hmap : (Measure.infinitePi (fun _ : Fin N => A.law p)).map (fun x => extF s.1.theta x) = Measure.infinitePi ν' := by
    rw [← infinitePi_coords (fun _ : ℕ => A.law p) (fun j : Fin N => (j : ℕ)) (fun a b h => Fin.ext h), Measure.map_map hem hrm]
    rw [show (fun x : Fin N → Atom => extF s.1.theta x) ∘ (fun (x : ℕ → Atom) (j : Fin N) => x j) = fun x (j : Fin N) => if s.1.theta.lookup (j : ℕ) = none then id (x (j : ℕ)) else (s.1.theta.lookup (j : ℕ)).getD a0 from hext]
    refine stream_seq (A.law p) (fun j : Fin N => s.1.theta.lookup (j : ℕ) = none) (fun j => (j : ℕ)) (fun i j _ _ h => Fin.ext h) (fun _ => id) (fun _ => measurable_id) _ ν' (fun j hj => ?_) (fun j hj => ?_)
    · simp only [ν', ν0, hj, Measure.map_id]
    · cases hl : s.1.theta.lookup (j : ℕ) with
      | none => exact absurd hl hj
      | some a => simp only [ν', ν0, hl]; rfl
  have hmk : Measurable (fun x : Fin N → Atom => stepKernel A lp p f y φ d (x, vec N (C0.getW s.1.wst.1))) := (measurable_stepKernel hlp hφ d).comp (measurable_id.prodMk measurable_const)
  rw [← lintegral_map (f := fun x => stepKernel A lp p f y φ d (x, vec N (C0.getW s.1.wst.1))) hmk hem, hmap]
  refine stepKernel_mean hlp hφ d ν' (atomF A y p d s.1.theta) (fun j hj => ?_) (fun j hj => ?_) _
  · have := (mem_nat_iff d j).2 hj
    unfold atomF atomNew
    rw [if_pos this, if_pos this]
  · have : (j : ℕ) ∉ List.ofFn (nat d) := fun h => hj ((mem_nat_iff d j).1 h)
    unfold atomF atomNew
    rw [if_neg this]
    rfl

omit hlp in
/-- Almost surely under the prior: positive weights that sum to one. -/
theorem prior_good : ∀ᵐ z ∂(paramPrior A p f), (∀ j, 0 < z.2 j) ∧ ∑ j, z.2 j = 1 := Measure.quasiMeasurePreserving_snd.ae f.good

/-- **The kernel keeps the joint law.** -/
theorem stepKernel_invariant (hcj : Conjugate A lp p) {φ : (Fin n → Fin N) → FParams N Atom → ℝ≥0∞} (hφ : ∀ δ, Measurable (φ δ)) :
    ∑ d, ∫⁻ z, stepKernel A lp p f y φ d z ∂(finJoint A lp p f y d) = ∑ d, ∫⁻ z, φ d z ∂(finJoint A lp p f y d) := by
  have h1 : ∀ d, ∫⁻ z, stepKernel A lp p f y φ d z ∂(finJoint A lp p f y d) = ∫⁻ z, labelStep lp y φ d z * pointMass lp y d z ∂(paramPrior A p f) := by
    intro d
    have hL := measurable_labelStep hlp hφ d
    have h2 : ∫⁻ z, labelStep lp y φ d z * pointMass lp y d z ∂(paramPrior A p f) = ∫⁻ z, labelStep lp y φ d z ∂(finJoint A lp p f y d) := by
      unfold finJoint
      rw [lintegral_withDensity_eq_lintegral_mul _ (measurable_pointMass hlp d) hL]
      exact lintegral_congr fun z => mul_comm _ _
    rw [h2]
    obtain ⟨c, -, -, hc⟩ := finJoint_eq (f := f) hlp hcj d
    rw [hc, lintegral_smul_measure, lintegral_smul_measure]
    congr 1
    rw [lintegral_prod_symm _ (measurable_stepKernel hlp hφ d).aemeasurable, lintegral_prod_symm _ hL.aemeasurable]
    simp_rw [stepKernel_mean hlp hφ d (atomF A y p d []) (atomF A y p d []) (fun _ _ => rfl) (fun _ _ => rfl)]
    rw [lintegral_const, measure_univ, mul_one]
  simp_rw [h1]
  have hm : ∀ d, Measurable (fun z => labelStep lp y φ d z * pointMass lp y d z) := fun d => (measurable_labelStep hlp hφ d).mul (measurable_pointMass hlp d)
  rw [← lintegral_finsetSum _ fun d _ => hm d]
  have h3 : ∀ d, ∫⁻ z, φ d z ∂(finJoint A lp p f y d) = ∫⁻ z, φ d z * pointMass lp y d z ∂(paramPrior A p f) := by
    intro d
    unfold finJoint
    rw [lintegral_withDensity_eq_lintegral_mul _ (measurable_pointMass hlp d) (hφ d)]
    exact lintegral_congr fun z => mul_comm _ _
  simp_rw [h3]
  have hm2 : ∀ d, Measurable (fun z => φ d z * pointMass lp y d z) := fun d => (hφ d).mul (measurable_pointMass hlp d)
  rw [← lintegral_finsetSum _ fun d _ => hm2 d]
  refine lintegral_congr_ae ?_
  filter_upwards [prior_good] with z hz
  unfold labelStep
  simp_rw [Finset.sum_mul]
  rw [Finset.sum_comm]
  refine Finset.sum_congr rfl fun δ _ => ?_
  rw [← sum_labelKernel (lp := lp) (y := y) (NeZero.pos N) δ (z := z) (fun j => (hz.1 j).le), Finset.mul_sum]
  refine Finset.sum_congr rfl fun d _ => ?_
  unfold labelKer
  ring

/-- The probabilities of the labels sum to one. -/
theorem sum_labelKer_one (d : Fin n → Fin N) {z : FParams N Atom} (hpos : ∀ j, 0 < z.2 j) (hden : ∀ i, lp (y i) (z.1 (d i)) ≠ ⊥) : ∑ δ, labelKer lp y d δ z = 1 := by
  have h0 : ∀ δ, labelKer lp y d δ z = ∫⁻ U, sliceKer lp y d δ 0 U z ∂streamLaw := fun δ => (lintegral_sliceKer d δ 0 z).symm
  simp_rw [h0]
  have hm : ∀ δ, Measurable (fun U => sliceKer lp y d δ 0 U z) := fun δ => measurable_sliceKer_left d δ hlp 0 z
  rw [← lintegral_finsetSum _ fun δ _ => hm δ]
  have h6 : ∀ᵐ U ∂streamLaw, ∑ δ, sliceKer lp y d δ 0 U z = 1 := stream_unit.mono fun U hU => sum_sliceKer d hU hpos hden
  exact (lintegral_congr_ae h6).trans (by rw [lintegral_const, measure_univ, mul_one])

/-- The normalising constant is finite and positive. -/
theorem finJoint_total (hcj : Conjugate A lp p) : ∑ d : Fin n → Fin N, finJoint A lp p f y d Set.univ ≠ 0 ∧ ∑ d : Fin n → Fin N, finJoint A lp p f y d Set.univ ≠ ∞ := by
  have h1 : ∀ d, finJoint A lp p f y d Set.univ ≠ 0 ∧ finJoint A lp p f y d Set.univ ≠ ∞ := fun d => by
    obtain ⟨c, h1, h2, hc⟩ := finJoint_eq (f := f) hlp hcj d
    rw [hc, Measure.smul_apply, measure_univ, smul_eq_mul, mul_one]
    exact ⟨h1, h2⟩
  exact ⟨fun h => (h1 (fun _ => 0)).1 (Finset.sum_eq_zero_iff.1 h _ (Finset.mem_univ _)), ENNReal.sum_ne_top.2 fun d _ => (h1 d).2⟩

end

end Verif.Mix.FinMix
