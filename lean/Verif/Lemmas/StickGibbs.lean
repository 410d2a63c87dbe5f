import Verif.Lemmas.StickLaw

/-! # The joint law of a stick-breaking mixture and the kernel of a Gibbs step -/

namespace Verif.Mix
open MeasureTheory ProbabilityTheory GM Spec
open scoped ENNReal

variable {m n : ℕ} {Atom : Type} [MeasurableSpace Atom] {C0 : WeightCore ℝ}

/-! ### The mass of a configuration as a product over components -/

theorem rows_prod (g : (Fin m → ℝ) → ℝ≥0∞) : ∀ {n : ℕ} (y : Fin n → Fin m → ℝ) (d : Fin n → ℕ) (j : ℕ),
    ((rowsWith (List.ofFn y) (List.ofFn d) j).map g).prod = ∏ i, if d i = j then g (y i) else 1
  | 0, y, d, j => by simp [rowsWith]
  | n + 1, y, d, j => by
    have ih := rows_prod g (fun i => y i.succ) (fun i => d i.succ) j
    unfold rowsWith at ih ⊢
    rw [Fin.prod_univ_succ, ← ih, List.ofFn_succ, List.ofFn_succ, List.zip_cons_cons, List.filterMap_cons]
    by_cases h : d 0 = j
    · simp [h]
    · simp [h]

theorem pow_nEq (x : ℝ≥0∞) (j : ℕ) : ∀ {n : ℕ} (d : Fin n → ℕ), (∏ i, if d i = j then x else 1) = x ^ nEq (labels (List.ofFn d)) j
  | 0, d => by simp [nEq, labels]
  | n + 1, d => by
    have ih := pow_nEq x j (fun i => d i.succ)
    unfold nEq labels at ih ⊢
    rw [Fin.prod_univ_succ, ih, List.ofFn_succ, List.map_cons, List.countP_cons]
    by_cases h : d 0 = j
    · simp [h, pow_succ, mul_comm]
    · simp [h]

theorem pow_nGt (x : ℝ≥0∞) (j : ℕ) : ∀ {n : ℕ} (d : Fin n → ℕ), (∏ i, if j < d i then x else 1) = x ^ nGt (labels (List.ofFn d)) j
  | 0, d => by simp [nGt, labels]
  | n + 1, d => by
    have ih := pow_nGt x j (fun i => d i.succ)
    unfold nGt labels at ih ⊢
    rw [Fin.prod_univ_succ, ih, List.ofFn_succ, List.map_cons, List.countP_cons]
    by_cases h : j < d 0
    · simp [h, pow_succ, mul_comm]
    · simp [h]

theorem ofReal_stickSeq {v : ℕ → ℝ} (hv : ∀ j, 0 ≤ v j ∧ v j ≤ 1) {k N : ℕ} (hk : k < N) :
    ENNReal.ofReal (stickSeq v k) = ∏ j ∈ Finset.range N, (if k = j then ENNReal.ofReal (v j) else 1) * (if j < k then ENNReal.ofReal (1 - v j) else 1) := by
  rw [Finset.prod_mul_distrib, Finset.prod_ite_eq, if_pos (Finset.mem_range.2 hk)]
  unfold stickSeq
  rw [ENNReal.ofReal_mul (hv k).1, ENNReal.ofReal_prod_of_nonneg fun l _ => by linarith [(hv l).2]]
  congr 1
  rw [← Finset.prod_filter]
  refine Finset.prod_congr ?_ fun _ _ => rfl
  ext l
  simp only [Finset.mem_range, Finset.mem_filter]
  omega

theorem prod_stickSeq {v : ℕ → ℝ} (hv : ∀ j, 0 ≤ v j ∧ v j ≤ 1) (d : Fin n → ℕ) :
    ∏ i, ENNReal.ofReal (stickSeq v (d i)) = ∏ j ∈ Finset.range (topLabel (List.ofFn d)), stickLik (List.ofFn d) j (v j) := by
  have h1 : ∀ i, ENNReal.ofReal (stickSeq v (d i)) = ∏ j ∈ Finset.range (topLabel (List.ofFn d)),
      (if d i = j then ENNReal.ofReal (v j) else 1) * (if j < d i then ENNReal.ofReal (1 - v j) else 1) := fun i =>
    ofReal_stickSeq hv (lt_topLabel ((List.mem_ofFn' _ _).2 ⟨i, rfl⟩))
  rw [Finset.prod_congr rfl fun i _ => h1 i, Finset.prod_comm]
  refine Finset.prod_congr rfl fun j _ => ?_
  rw [Finset.prod_mul_distrib, pow_nEq, pow_nGt]
  rfl

/-! ### The joint law -/

/-- The prior law of atoms and sticks. -/
noncomputable def stickPrior (A : AtomGen m Atom) (p : NIW ℝ m) (f : StickParams) : Measure (Params Atom) := (Measure.infinitePi (fun _ : ℕ => A.law p)).prod (Measure.infinitePi f.prior)

/-- The joint law of labels `d`, atoms and sticks, times the likelihood of the data. -/
noncomputable def stickJoint (A : AtomGen m Atom) (lp : (Fin m → ℝ) → Atom → WithBot ℝ) (p : NIW ℝ m) (f : StickParams) (y : Fin n → Fin m → ℝ) (d : Fin n → ℕ) : Measure (Params Atom) :=
  (stickPrior A p f).withDensity (stickMass lp y d)

instance (A : AtomGen m Atom) (p : NIW ℝ m) (f : StickParams) : IsProbabilityMeasure (stickPrior A p f) := by unfold stickPrior; infer_instance

/-- The transition kernel of a step, applied to `φ`. -/
noncomputable def stepKernel (A : AtomGen m Atom) (lp : (Fin m → ℝ) → Atom → WithBot ℝ) (p : NIW ℝ m) (f : StickParams) (y : Fin n → Fin m → ℝ) (φ : (Fin n → ℕ) → Params Atom → ℝ≥0∞) (d : Fin n → ℕ) (z : Params Atom) : ℝ≥0∞ :=
  ∫⁻ v, ∫⁻ θ, labelStep lp y φ d (mixSeq (fun j => j ∈ List.ofFn d) θ z.1, v) ∂(Measure.infinitePi (atomNew A y p d [])) ∂(Measure.infinitePi (f.post (List.ofFn d)))

section
variable {A : AtomGen m Atom} {lp : (Fin m → ℝ) → Atom → WithBot ℝ} {p : NIW ℝ m} {f : StickParams} {y : Fin n → Fin m → ℝ} (hlp : ∀ i, Measurable (obsDens lp (y i)))
include hlp

/-- The likelihood of the atom of component `j`. -/
theorem occLik_measurable (d : Fin n → ℕ) (j : ℕ) : Measurable (fun a => ∏ i, if d i = j then obsDens lp (y i) a else 1) := by
  refine Finset.measurable_prod _ fun i _ => ?_
  split
  · exact hlp i
  · exact measurable_const

omit hlp in
theorem occ_posterior (hcj : Conjugate A lp p) (d : Fin n → ℕ) {j : ℕ} (hj : ∃ i, d i = j) : ∃ c : ℝ≥0∞, c ≠ 0 ∧ c ≠ ∞ ∧ c = ∫⁻ a, (∏ i, if d i = j then obsDens lp (y i) a else 1) ∂(A.law p) ∧
    (A.law p).withDensity (fun a => ∏ i, if d i = j then obsDens lp (y i) a else 1) = c • A.law (posteriorNIW (rowsWith (List.ofFn y) (List.ofFn d) j) p) := by
  have hne : rowsWith (List.ofFn y) (List.ofFn d) j ≠ [] := by
    obtain ⟨i, hi⟩ := hj
    intro hc
    have h1 := rows_prod (fun _ => 0) y d j
    rw [hc, Finset.prod_eq_zero (Finset.mem_univ i) (by simp [hi])] at h1
    simp at h1
  have h1 := hcj _ hne
  simp_rw [rows_prod] at h1
  have hpr : IsProbabilityMeasure (posterior (A.law p) (fun a => ∏ i, if d i = j then obsDens lp (y i) a else 1)) := by rw [← h1]; infer_instance
  obtain ⟨h2, h3, h4⟩ := posterior_smul (μ := A.law p) (L := fun a => ∏ i, if d i = j then obsDens lp (y i) a else 1)
  exact ⟨_, h3, h4, rfl, by rw [h1]; exact h2⟩

/-- The mass of the data given labels. -/
noncomputable def atomMass (A : AtomGen m Atom) (lp : (Fin m → ℝ) → Atom → WithBot ℝ) (p : NIW ℝ m) (y : Fin n → Fin m → ℝ) (d : Fin n → ℕ) : ℝ≥0∞ :=
  ∏ j ∈ Finset.univ.image d, ∫⁻ a, (∏ i, if d i = j then obsDens lp (y i) a else 1) ∂(A.law p)

omit hlp in
theorem atomMass_facts (hcj : Conjugate A lp p) (d : Fin n → ℕ) : atomMass A lp p y d ≠ 0 ∧ atomMass A lp p y d ≠ ∞ := by
  have h : ∀ j ∈ Finset.univ.image d, (∫⁻ a, (∏ i, if d i = j then obsDens lp (y i) a else 1) ∂(A.law p)) ≠ 0 ∧ (∫⁻ a, (∏ i, if d i = j then obsDens lp (y i) a else 1) ∂(A.law p)) ≠ ∞ := by
    intro j hj
    obtain ⟨c, h1, h2, rfl, -⟩ := occ_posterior (y := y) hcj d (j := j) (by simpa using hj)
    exact ⟨h1, h2⟩
  exact ⟨Finset.prod_ne_zero_iff.2 fun j hj => (h j hj).1, ENNReal.prod_ne_top fun j hj => (h j hj).2⟩

omit hlp [MeasurableSpace Atom] in
theorem prod_dens (d : Fin n → ℕ) (θ : ℕ → Atom) : ∏ i, obsDens lp (y i) (θ (d i)) = ∏ j ∈ Finset.univ.image d, ∏ i, if d i = j then obsDens lp (y i) (θ j) else 1 := by
  rw [Finset.prod_comm]
  refine Finset.prod_congr rfl fun i _ => ?_
  rw [Finset.prod_ite_eq, if_pos (Finset.mem_image_of_mem d (Finset.mem_univ i))]

theorem atoms_conjugate (hcj : Conjugate A lp p) (d : Fin n → ℕ) :
    (Measure.infinitePi (fun _ : ℕ => A.law p)).withDensity (fun θ => ∏ i, obsDens lp (y i) (θ (d i))) = atomMass A lp p y d • Measure.infinitePi (atomNew A y p d []) := by
  simp_rw [prod_dens]
  refine infinitePi_withDensity (fun _ => A.law p) (atomNew A y p d []) (Finset.univ.image d) (g := fun j a => ∏ i, if d i = j then obsDens lp (y i) a else 1) (occLik_measurable hlp d) (fun j hj => ?_) (fun j hj => ?_)
    (fun j hj => ?_)
  · obtain ⟨c, -, -, rfl, h⟩ := occ_posterior (y := y) hcj d (j := j) (by simpa using hj)
    rw [h]
    unfold atomNew
    rw [if_pos (by rw [mem_ofFn_iff]; simpa using hj)]
  · obtain ⟨c, h1, h2, rfl, -⟩ := occ_posterior (y := y) hcj d (j := j) (by simpa using hj)
    exact ⟨h1, h2⟩
  · unfold atomNew
    rw [if_neg (by rw [mem_ofFn_iff]; simpa using hj)]
    rfl

/-- Atoms and sticks are independent given the labels. -/
theorem stickJoint_eq (hcj : Conjugate A lp p) (d : Fin n → ℕ) : ∃ c : ℝ≥0∞, c ≠ 0 ∧ c ≠ ∞ ∧ c = ∫⁻ v, ∏ i, ENNReal.ofReal (stickSeq v (d i)) ∂(Measure.infinitePi f.prior) ∧
    stickJoint A lp p f y d = (c * atomMass A lp p y d) • (Measure.infinitePi (atomNew A y p d [])).prod (Measure.infinitePi (f.post (List.ofFn d))) := by
  obtain ⟨c, hc0, hct, hc⟩ := sticks_conjugate f (List.ofFn d)
  have hae : (fun v : ℕ → ℝ => ∏ i, ENNReal.ofReal (stickSeq v (d i))) =ᵐ[Measure.infinitePi f.prior] fun v => ∏ j ∈ Finset.range (topLabel (List.ofFn d)), stickLik (List.ofFn d) j (v j) := by
    filter_upwards [prior_unit f] with v hv
    exact prod_stickSeq (fun j => ⟨(hv j).1.le, (hv j).2.le⟩) d
  rw [← withDensity_congr_ae hae] at hc
  refine ⟨c, hc0, hct, ?_, ?_⟩
  · have := congrArg (fun μ => μ Set.univ) hc
    simp only [withDensity_apply _ MeasurableSet.univ, Measure.restrict_univ, Measure.smul_apply, measure_univ, smul_eq_mul, mul_one] at this
    exact this.symm
  · have hm1 : Measurable (fun θ : ℕ → Atom => ∏ i, obsDens lp (y i) (θ (d i))) := Finset.measurable_prod _ fun i _ => (hlp i).comp (measurable_pi_apply _)
    have hm2 : Measurable (fun v : ℕ → ℝ => ∏ i, ENNReal.ofReal (stickSeq v (d i))) := Finset.measurable_prod _ fun i _ => (measurable_stickSeq _).ennreal_ofReal
    have h := prod_withDensity (μ := Measure.infinitePi (fun _ : ℕ => A.law p)) (ν := Measure.infinitePi f.prior) hm1 hm2
    rw [hc, atoms_conjugate hlp hcj] at h
    unfold stickJoint stickPrior
    have e : stickMass lp y d = fun z : Params Atom => (∏ i, obsDens lp (y i) (z.1 (d i))) * ∏ i, ENNReal.ofReal (stickSeq z.2 (d i)) := by
      funext z
      rw [stickMass, Finset.prod_mul_distrib, mul_comm]
    rw [e, ← h]
    rw [Measure.prod_smul_left, Measure.prod_smul_right, smul_smul, mul_comm]

theorem measurable_labelStep {φ : (Fin n → ℕ) → Params Atom → ℝ≥0∞} (hφ : ∀ δ, Measurable (φ δ)) (d : Fin n → ℕ) : Measurable (labelStep lp y φ d) := by
  unfold labelStep
  exact Measurable.tsum fun δ => (hφ δ).mul (measurable_labelKer d δ hlp)

theorem measurable_stepKernel {φ : (Fin n → ℕ) → Params Atom → ℝ≥0∞} (hφ : ∀ δ, Measurable (φ δ)) (d : Fin n → ℕ) : Measurable (stepKernel A lp p f y φ d) := by
  have h3 : Measurable (fun x : (Params Atom × (ℕ → ℝ)) × (ℕ → Atom) => labelStep lp y φ d (mixSeq (fun j => j ∈ List.ofFn d) x.2 x.1.1.1, x.1.2)) := by
    refine (measurable_labelStep hlp hφ d).comp (Measurable.prodMk ?_ (measurable_snd.comp measurable_fst))
    exact (measurable_mixSeq _).comp (measurable_snd.prodMk (measurable_fst.comp (measurable_fst.comp measurable_fst)))
  exact (h3.lintegral_prod_right' (ν := Measure.infinitePi (atomNew A y p d []))).lintegral_prod_right'

/-- Redrawing the atoms of the occupied components and keeping independent other atoms. -/
theorem stepKernel_mean {φ : (Fin n → ℕ) → Params Atom → ℝ≥0∞} (hφ : ∀ δ, Measurable (φ δ)) (d : Fin n → ℕ) (ν' ν : ℕ → Measure Atom) [∀ j, IsProbabilityMeasure (ν' j)] [∀ j, IsProbabilityMeasure (ν j)]
    (hin : ∀ j, j ∈ List.ofFn d → ν j = atomNew A y p d [] j) (hout : ∀ j, j ∉ List.ofFn d → ν j = ν' j) (w : ℕ → ℝ) :
    ∫⁻ x, stepKernel A lp p f y φ d (x, w) ∂(Measure.infinitePi ν') = ∫⁻ v, ∫⁻ θ, labelStep lp y φ d (θ, v) ∂(Measure.infinitePi ν) ∂(Measure.infinitePi (f.post (List.ofFn d))) := by
  have hL := measurable_labelStep hlp hφ d
  have h3 : Measurable (fun x : ((ℕ → Atom) × (ℕ → ℝ)) × (ℕ → Atom) => labelStep lp y φ d (mixSeq (fun j => j ∈ List.ofFn d) x.2 x.1.1, x.1.2)) :=
    hL.comp (((measurable_mixSeq _).comp (measurable_snd.prodMk (measurable_fst.comp measurable_fst))).prodMk (measurable_snd.comp measurable_fst))
  have h2 : Measurable (fun x : (ℕ → Atom) × (ℕ → ℝ) => ∫⁻ θ, labelStep lp y φ d (mixSeq (fun j => j ∈ List.ofFn d) θ x.1, x.2) ∂(Measure.infinitePi (atomNew A y p d []))) := h3.lintegral_prod_right'
  unfold stepKernel
  refine (lintegral_lintegral_swap (f := fun x v => ∫⁻ θ, labelStep lp y φ d (mixSeq (fun j => j ∈ List.ofFn d) θ x, v) ∂(Measure.infinitePi (atomNew A y p d []))) h2.aemeasurable).trans ?_
  refine lintegral_congr fun v => ?_
  have h4 : Measurable (fun x : (ℕ → Atom) × (ℕ → Atom) => labelStep lp y φ d (mixSeq (fun j => j ∈ List.ofFn d) x.2 x.1, v)) :=
    hL.comp (((measurable_mixSeq _).comp (measurable_snd.prodMk measurable_fst)).prodMk measurable_const)
  refine (lintegral_lintegral_swap (f := fun x θ => labelStep lp y φ d (mixSeq (fun j => j ∈ List.ofFn d) θ x, v)) h4.aemeasurable).trans ?_
  exact lintegral_mixSeq (fun j => j ∈ List.ofFn d) (atomNew A y p d []) ν' ν hin hout (h := fun θ => labelStep lp y φ d (θ, v)) (hL.comp (measurable_id.prodMk measurable_const))

/-- A step in terms of the kernel. -/
theorem heldMean_stepKernel {getV : C0.State → List ℝ} {Inv : C0.State → Prop} {φ : (Fin n → ℕ) → Params Atom → ℝ≥0∞} (hφ : ∀ δ, Measurable (φ δ)) {s : GM C0.inheritTail m Atom × ℕ} {d : Fin n → ℕ}
    (h : StickHolds y p Inv s.1 d) :
    heldMean A p f getV (stepKernel A lp p f y φ) s = ∫⁻ v, ∫⁻ θ, labelStep lp y φ d (θ, v) ∂(Measure.infinitePi (atomNew A y p d s.1.theta)) ∂(Measure.infinitePi (f.post (List.ofFn d))) := by
  classical
  unfold heldMean
  rw [h.2.1, labelsOf_ofFn]
  let ν' : ℕ → Measure Atom := fun j => match s.1.theta.lookup j with
    | some a => Measure.dirac a
    | none => A.law p
  have hν' : ∀ j, IsProbabilityMeasure (ν' j) := fun j => by
    show IsProbabilityMeasure (match s.1.theta.lookup j with | some a => Measure.dirac a | none => A.law p)
    cases s.1.theta.lookup j <;> infer_instance
  obtain ⟨a0⟩ : Nonempty Atom := by
    by_contra h0
    rw [not_nonempty_iff] at h0
    have := measure_univ (μ := A.law p)
    rw [Set.eq_empty_of_isEmpty Set.univ, measure_empty] at this
    exact zero_ne_one this
  have hext : (fun x : ℕ → Atom => extAtoms s.1.theta x) = fun x j => if s.1.theta.lookup j = none then id (x j) else (s.1.theta.lookup j).getD a0 := by
    funext x j
    unfold extAtoms
    cases s.1.theta.lookup j <;> simp
  have hmap : (Measure.infinitePi (fun _ : ℕ => A.law p)).map (fun x => extAtoms s.1.theta x) = Measure.infinitePi ν' := by
    rw [hext]
    refine stream_seq (A.law p) (fun j => s.1.theta.lookup j = none) (fun j => j) (fun i j _ _ h => h) (fun _ => id) (fun _ => measurable_id) _ ν' (fun j hj => ?_) (fun j hj => ?_)
    · simp only [ν', hj, Measure.map_id]
    · cases hl : s.1.theta.lookup j with
      | none => exact absurd hl hj
      | some a => simp only [ν', hl]; rfl
  have hem : Measurable (fun x : ℕ → Atom => extAtoms s.1.theta x) := by
    refine measurable_pi_lambda _ fun j => ?_
    unfold extAtoms
    cases s.1.theta.lookup j
    · exact measurable_pi_apply j
    · exact measurable_const
  have hK : ∀ v, ∫⁻ x, stepKernel A lp p f y φ d (extAtoms s.1.theta x, extSticks (getV s.1.wst.1) v) ∂(Measure.infinitePi (fun _ : ℕ => A.law p)) =
      ∫⁻ v, ∫⁻ θ, labelStep lp y φ d (θ, v) ∂(Measure.infinitePi (atomNew A y p d s.1.theta)) ∂(Measure.infinitePi (f.post (List.ofFn d))) := by
    intro v
    have hmk : Measurable (fun x : ℕ → Atom => stepKernel A lp p f y φ d (x, extSticks (getV s.1.wst.1) v)) := (measurable_stepKernel hlp hφ d).comp (measurable_id.prodMk measurable_const)
    rw [← lintegral_map (f := fun x => stepKernel A lp p f y φ d (x, extSticks (getV s.1.wst.1) v)) hmk hem, hmap]
    refine stepKernel_mean hlp hφ d ν' (atomNew A y p d s.1.theta) (fun j hj => ?_) (fun j hj => ?_) _
    · unfold atomNew
      rw [if_pos hj, if_pos hj]
    · unfold atomNew
      rw [if_neg hj]
      rfl
  simp_rw [hK]
  rw [lintegral_const, measure_univ, mul_one]

/-- **The kernel keeps the joint law.** -/
theorem stepKernel_invariant (hex : f.Exhausts) (hcj : Conjugate A lp p) {φ : (Fin n → ℕ) → Params Atom → ℝ≥0∞} (hφ : ∀ δ, Measurable (φ δ)) :
    ∑' d, ∫⁻ z, stepKernel A lp p f y φ d z ∂(stickJoint A lp p f y d) = ∑' d, ∫⁻ z, φ d z ∂(stickJoint A lp p f y d) := by
  have h1 : ∀ d, ∫⁻ z, stepKernel A lp p f y φ d z ∂(stickJoint A lp p f y d) = ∫⁻ z, labelStep lp y φ d z * stickMass lp y d z ∂(stickPrior A p f) := by
    intro d
    have hL := measurable_labelStep hlp hφ d
    have h2 : ∫⁻ z, labelStep lp y φ d z * stickMass lp y d z ∂(stickPrior A p f) = ∫⁻ z, labelStep lp y φ d z ∂(stickJoint A lp p f y d) := by
      unfold stickJoint
      rw [lintegral_withDensity_eq_lintegral_mul _ (measurable_stickMass d hlp) hL]
      exact lintegral_congr fun z => mul_comm _ _
    rw [h2]
    obtain ⟨c, -, -, -, hc⟩ := stickJoint_eq (f := f) hlp hcj d
    rw [hc, lintegral_smul_measure, lintegral_smul_measure]
    congr 1
    rw [lintegral_prod_symm _ (measurable_stepKernel hlp hφ d).aemeasurable, lintegral_prod_symm _ hL.aemeasurable]
    simp_rw [stepKernel_mean hlp hφ d (atomNew A y p d []) (atomNew A y p d []) (fun _ _ => rfl) (fun _ _ => rfl)]
    rw [lintegral_const, measure_univ, mul_one]
  simp_rw [h1]
  have hm : ∀ d, Measurable (fun z => labelStep lp y φ d z * stickMass lp y d z) := fun d => (measurable_labelStep hlp hφ d).mul (measurable_stickMass d hlp)
  rw [← lintegral_tsum fun d => (hm d).aemeasurable]
  have h3 : ∀ d, ∫⁻ z, φ d z ∂(stickJoint A lp p f y d) = ∫⁻ z, φ d z * stickMass lp y d z ∂(stickPrior A p f) := by
    intro d
    unfold stickJoint
    rw [lintegral_withDensity_eq_lintegral_mul _ (measurable_stickMass d hlp) (hφ d)]
    exact lintegral_congr fun z => mul_comm _ _
  simp_rw [h3]
  have hm2 : ∀ d, Measurable (fun z => φ d z * stickMass lp y d z) := fun d => (hφ d).mul (measurable_stickMass d hlp)
  rw [← lintegral_tsum fun d => (hm2 d).aemeasurable]
  have hae : ∀ᵐ z ∂(stickPrior A p f), (∀ j, z.2 j ∈ Set.Ioo (0 : ℝ) 1) ∧ HasSum (stickSeq z.2) 1 := by
    have : ∀ᵐ v ∂(Measure.infinitePi f.prior), (∀ j, v j ∈ Set.Ioo (0 : ℝ) 1) ∧ HasSum (stickSeq v) 1 := by
      filter_upwards [prior_unit f, hex] with v h1 h2 using ⟨h1, h2⟩
    exact Measure.quasiMeasurePreserving_snd.ae this
  refine lintegral_congr_ae ?_
  filter_upwards [hae] with z ⟨hz, hs⟩
  unfold labelStep
  simp_rw [← ENNReal.tsum_mul_right]
  rw [ENNReal.tsum_comm]
  refine tsum_congr fun δ => ?_
  rw [← tsum_labelKer (lp := lp) (y := y) δ (z := z) (fun j => stickSeq_nonneg (fun j => ⟨(hz j).1.le, (hz j).2.le⟩) j) hs, ← ENNReal.tsum_mul_left]
  refine tsum_congr fun d => ?_
  ring

/-- The probabilities of the labels sum to one. -/
theorem tsum_labelKer_one (d : Fin n → ℕ) {z : Params Atom} (hsum : HasSum (stickSeq z.2) 1) (hpos : ∀ i, 0 < stickSeq z.2 (d i)) (hden : ∀ i, lp (y i) (z.1 (d i)) ≠ ⊥) : ∑' δ, labelKer lp y d δ z = 1 := by
  obtain ⟨q⟩ : Nonempty ℕ := ⟨0⟩
  have h0 : ∀ δ, labelKer lp y d δ z = ∫⁻ U, sliceKer lp y d δ q U z ∂streamLaw := fun δ => (lintegral_sliceKer d δ q z).symm
  simp_rw [h0]
  have hm : ∀ δ, Measurable (fun U => sliceKer lp y d δ q U z) := fun δ => measurable_sliceKer_left d δ hlp q z
  rw [← lintegral_tsum fun δ => (hm δ).aemeasurable]
  have h6 : ∀ᵐ U ∂streamLaw, ∑' δ, sliceKer lp y d δ q U z = 1 := stream_unit.mono fun U hU => tsum_sliceKer d hU hsum hpos hden
  exact (lintegral_congr_ae h6).trans (by rw [lintegral_const, measure_univ, mul_one])

/-! ### The normalising constant -/

omit hlp in
/-- The mass of the data depends on the partition of the observations only. -/
theorem atomMass_relabel (d : Fin n → ℕ) (e : Fin n → Fin n) (he : ∀ i, d (e i) = d i) (he' : ∀ i i', d i = d i' → e i = e i') : atomMass A lp p y d = atomMass A lp p y (fun i => (e i : ℕ)) := by
  have hiff : ∀ i k : Fin n, d i = d (e k) ↔ (e i : ℕ) = (e k : ℕ) := fun i k => by
    rw [he k]
    constructor
    · intro h; rw [he' i k h]
    · intro h; rw [← he i, Fin.ext h, he k]
  unfold atomMass
  have him : Finset.univ.image d = (Finset.univ.image e).image d := by
    ext j
    simp only [Finset.mem_image, Finset.mem_univ, true_and]
    constructor
    · rintro ⟨i, rfl⟩; exact ⟨e i, ⟨i, rfl⟩, he i⟩
    · rintro ⟨_, ⟨i, rfl⟩, h⟩; exact ⟨e i, h⟩
  have him' : Finset.univ.image (fun i => (e i : ℕ)) = (Finset.univ.image e).image (fun k : Fin n => (k : ℕ)) := by
    rw [Finset.image_image]
    rfl
  have hi1 : Set.InjOn d (Finset.univ.image e : Finset (Fin n)) := by
    intro a ha b hb h
    obtain ⟨a, -, rfl⟩ := Finset.mem_image.1 (Finset.mem_coe.1 ha)
    obtain ⟨b, -, rfl⟩ := Finset.mem_image.1 (Finset.mem_coe.1 hb)
    rw [he a, he b] at h
    exact he' a b h
  have hi2 : Set.InjOn (fun k : Fin n => (k : ℕ)) (Finset.univ.image e : Finset (Fin n)) := fun a _ b _ h => Fin.ext h
  rw [him, him', Finset.prod_image hi1, Finset.prod_image hi2]
  refine Finset.prod_congr rfl fun k hk => ?_
  obtain ⟨k, -, rfl⟩ := Finset.mem_image.1 hk
  simp_rw [hiff]

omit hlp in
theorem atomMass_le (d : Fin n → ℕ) : atomMass A lp p y d ≤ ∑ e : Fin n → Fin n, atomMass A lp p y (fun i => (e i : ℕ)) := by
  classical
  have hne : ∀ i, (Finset.univ.filter (fun k => d k = d i)).Nonempty := fun i => ⟨i, by simp⟩
  let e : Fin n → Fin n := fun i => (Finset.univ.filter (fun k => d k = d i)).min' (hne i)
  have he : ∀ i, d (e i) = d i := fun i => by
    have := Finset.min'_mem _ (hne i)
    exact (Finset.mem_filter.1 this).2
  rw [atomMass_relabel d e he fun i i' h => by simp only [e, h]]
  exact Finset.single_le_sum (f := fun e : Fin n → Fin n => atomMass A lp p y (fun i => (e i : ℕ))) (fun _ _ => zero_le) (Finset.mem_univ e)

/-- The normalising constant is finite and positive. -/
theorem stickJoint_total (hex : f.Exhausts) (hcj : Conjugate A lp p) : ∑' d : Fin n → ℕ, stickJoint A lp p f y d Set.univ ≠ 0 ∧ ∑' d : Fin n → ℕ, stickJoint A lp p f y d Set.univ ≠ ∞ := by
  have h1 : ∀ d, stickJoint A lp p f y d Set.univ = (∫⁻ v, ∏ i, ENNReal.ofReal (stickSeq v (d i)) ∂(Measure.infinitePi f.prior)) * atomMass A lp p y d := by
    intro d
    obtain ⟨c, -, -, rfl, hc⟩ := stickJoint_eq (f := f) hlp hcj d
    rw [hc, Measure.smul_apply, measure_univ, smul_eq_mul, mul_one]
  constructor
  · intro h0
    have := ENNReal.tsum_eq_zero.1 h0 (fun _ => 0)
    obtain ⟨c, hc0, -, -, hc⟩ := stickJoint_eq (f := f) hlp hcj (fun _ => 0)
    rw [hc, Measure.smul_apply, measure_univ, smul_eq_mul, mul_one] at this
    exact mul_ne_zero hc0 (atomMass_facts hcj _).1 this
  · have hsum : ∑' d : Fin n → ℕ, (∫⁻ v, ∏ i, ENNReal.ofReal (stickSeq v (d i)) ∂(Measure.infinitePi f.prior)) = 1 := by
      rw [← lintegral_tsum fun d => (Finset.measurable_prod _ fun i _ => (measurable_stickSeq _).ennreal_ofReal).aemeasurable]
      have hae : ∀ᵐ v ∂(Measure.infinitePi f.prior), ∑' d : Fin n → ℕ, ∏ i, ENNReal.ofReal (stickSeq v (d i)) = 1 := by
        filter_upwards [prior_unit f, hex] with v hv hs
        rw [tsum_pi_prod (fun (_ : Fin n) j => ENNReal.ofReal (stickSeq v j))]
        refine Finset.prod_eq_one fun i _ => ?_
        rw [← ENNReal.ofReal_tsum_of_nonneg (fun j => stickSeq_nonneg (fun j => ⟨(hv j).1.le, (hv j).2.le⟩) j) hs.summable, hs.tsum_eq, ENNReal.ofReal_one]
      rw [lintegral_congr_ae hae, lintegral_const, measure_univ, mul_one]
    refine ne_top_of_le_ne_top (b := ∑' d : Fin n → ℕ, (∫⁻ v, ∏ i, ENNReal.ofReal (stickSeq v (d i)) ∂(Measure.infinitePi f.prior)) * ∑ e : Fin n → Fin n, atomMass A lp p y (fun i => (e i : ℕ))) ?_ ?_
    · rw [ENNReal.tsum_mul_right, hsum, one_mul]
      exact ENNReal.sum_ne_top.2 fun e _ => (atomMass_facts hcj _).2
    · refine ENNReal.tsum_le_tsum fun d => ?_
      rw [h1 d]
      exact mul_le_mul_right (atomMass_le d) _

end

end Verif.Mix
