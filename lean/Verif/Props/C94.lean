import Verif.Lemmas.GibbsKernel
import Verif.Props.C93

/-!
# C94: a Gibbs step leaves the posterior law invariant

A mixture whose weights have a Dirichlet law (`DirichletDistribution`, `N` components), with a prior on the atoms that is conjugate to the density of the observations.  The posterior law of atoms,
weights and labels given the data is prior times likelihood, normalised (`gibbsPosterior`).  If the state of the object is drawn from it and a Gibbs step is made - atoms of the occupied
components, weights, slice variables, labels - then the new state has the same law, and the step returns (`C94_step`, `C94_returns`).  Atoms of unoccupied components are kept by the code; this is
still correct, since their conditional law is the prior they were drawn from.  `C94_normal` is the case of the code with one coordinate: normal densities, atoms from the normal-inverse-Wishart law.

As in C86 the shift `eps` of the slice variables is taken to be zero: with it, the label step does not keep the conditional law (`C86_refuted`).
-/

namespace Verif.Mix
open MeasureTheory ProbabilityTheory GM
open scoped ENNReal

variable {m : ℕ} {Atom : Type} [MeasurableSpace Atom] {N n : ℕ}

/-- The law of the atoms drawn with the parameters `q`. -/
noncomputable def AtomGen.law (A : AtomGen m Atom) (q : NIW ℝ m) : Measure Atom := A.ν.map (A.draw q)

instance (A : AtomGen m Atom) (q : NIW ℝ m) : IsProbabilityMeasure (A.law q) := Measure.isProbabilityMeasure_map (A.meas q).aemeasurable

/-- Conjugacy: the atoms drawn with the updated parameters have the posterior law given the observations. -/
def Conjugate (A : AtomGen m Atom) (lp : (Fin m → ℝ) → Atom → WithBot ℝ) (p : NIW ℝ m) : Prop :=
  ∀ rows : List (Fin m → ℝ), rows ≠ [] → A.law (posteriorNIW rows p) = posterior (A.law p) (fun a => (rows.map (fun x => obsDens lp x a)).prod)

/-- The Dirichlet law of `N` weights. -/
noncomputable def weightPrior (N : ℕ) (alpha : List ℝ) : Measure (Fin N → ℝ) := (Measure.pi (fun j : Fin N => dirichletStick alpha j)).map breakStick

/-- Prior times likelihood, as a measure on atoms and weights for every label vector `d`. -/
noncomputable def gibbsJoint (A : AtomGen m Atom) (lp : (Fin m → ℝ) → Atom → WithBot ℝ) (p : NIW ℝ m) (alpha : List ℝ) (y : Fin n → Fin m → ℝ) (d : Fin n → Fin N) :
    Measure ((Fin N → Atom) × (Fin N → ℝ)) :=
  ((Measure.pi (fun _ : Fin N => A.law p)).prod (weightPrior N alpha)).withDensity (fun z => ∏ i, ENNReal.ofReal (z.2 (d i)) * ENNReal.ofReal (botExp (lp (y i) (z.1 (d i)))))

/-- The posterior law of atoms, weights and labels given the data. -/
noncomputable def gibbsPosterior (A : AtomGen m Atom) (lp : (Fin m → ℝ) → Atom → WithBot ℝ) (p : NIW ℝ m) (alpha : List ℝ) (y : Fin n → Fin m → ℝ) (d : Fin n → Fin N) :
    Measure ((Fin N → Atom) × (Fin N → ℝ)) :=
  (∑ d : Fin n → Fin N, gibbsJoint A lp p alpha y d Set.univ)⁻¹ • gibbsJoint A lp p alpha y d

/-- The probability that a Gibbs step from the state `s` returns and leads to the labels `d'` and to atoms and weights in `B`: over the draws of the atoms, of the weights, of the slice variables and
of the Gumbel noise. -/
noncomputable def gibbsLaw (nz : ℝ → ℝ) (W : World ℝ m Atom) (A : AtomGen m Atom) (G : RandGen) (fuel : (ℕ → ℝ) → ℕ) (y : Fin n → Fin m → ℝ) (p : NIW ℝ m) (alpha : List ℝ)
    (s : GM (DirDist.cls : WeightClass ℝ) m Atom × ℕ) (d' : Fin n → Fin N) (B : Set ((Fin N → Atom) × (Fin N → ℝ))) : ℝ≥0∞ :=
  ∫⁻ X, ∫⁻ u, ∫⁻ U, streamLaw (reaches nz (withSlices (withAtoms W A X) fuel U) y p alpha (G.oracle u) s d' B) ∂streamLaw ∂G.P ∂(Measure.infinitePi (fun _ : ℕ => A.ν))

/-! ### Regrouping the likelihood -/

/-- The observations of component `j`. -/
def groupRows (y : Fin n → Fin m → ℝ) (d : Fin n → Fin N) (j : Fin N) : List (Fin m → ℝ) := rowsWith (List.ofFn y) (List.ofFn (fun i => (d i : ℕ))) j

omit [MeasurableSpace Atom] in
theorem groupRows_prod (g : (Fin m → ℝ) → ℝ≥0∞) : ∀ {n : ℕ} (y : Fin n → Fin m → ℝ) (d : Fin n → Fin N) (j : Fin N), ((groupRows y d j).map g).prod = ∏ i, if d i = j then g (y i) else 1
  | 0, y, d, j => by simp [groupRows, rowsWith]
  | n + 1, y, d, j => by
    have ih := groupRows_prod g (fun i => y i.succ) (fun i => d i.succ) j
    unfold groupRows rowsWith at ih ⊢
    rw [Fin.prod_univ_succ, ← ih, List.ofFn_succ, List.ofFn_succ, List.zip_cons_cons, List.filterMap_cons]
    by_cases h : d 0 = j
    · simp [h]
    · have h' : (d 0 : ℕ) ≠ j := fun e => h (Fin.ext e)
      simp [h, h']

omit [MeasurableSpace Atom] in
theorem groupRows_ne_nil (y : Fin n → Fin m → ℝ) {d : Fin n → Fin N} {j : Fin N} (h : ∃ i, d i = j) : groupRows y d j ≠ [] := by
  obtain ⟨i, hi⟩ := h
  intro hc
  have h1 := groupRows_prod (fun _ => 0) y d j
  rw [hc, Finset.prod_eq_zero (Finset.mem_univ i) (by simp [hi])] at h1
  simp at h1

/-- The likelihood of the atom of component `j`. -/
noncomputable def groupLik (lp : (Fin m → ℝ) → Atom → WithBot ℝ) (y : Fin n → Fin m → ℝ) (d : Fin n → Fin N) (j : Fin N) (a : Atom) : ℝ≥0∞ :=
  ((groupRows y d j).map (fun x => obsDens lp x a)).prod

omit [MeasurableSpace Atom] in
theorem groupLik_eq (lp : (Fin m → ℝ) → Atom → WithBot ℝ) (y : Fin n → Fin m → ℝ) (d : Fin n → Fin N) (j : Fin N) (a : Atom) :
    groupLik lp y d j a = ∏ i, if d i = j then obsDens lp (y i) a else 1 := groupRows_prod _ y d j

omit [MeasurableSpace Atom] in
theorem groupLik_one (lp : (Fin m → ℝ) → Atom → WithBot ℝ) (y : Fin n → Fin m → ℝ) {d : Fin n → Fin N} {j : Fin N} (h : ¬ ∃ i, d i = j) (a : Atom) : groupLik lp y d j a = 1 := by
  rw [groupLik_eq]
  exact Finset.prod_eq_one fun i _ => if_neg fun e => h ⟨i, e⟩

omit [MeasurableSpace Atom] in
theorem labelLik_ofFn : ∀ {n : ℕ} (d : Fin n → Fin N) (w : Fin N → ℝ), labelLik (labels (List.ofFn (fun i => (d i : ℕ)))) w = ∏ i, ENNReal.ofReal (w (d i))
  | 0, d, w => by simp [labelLik, labels]
  | n + 1, d, w => by
    have ih := labelLik_ofFn (fun i => d i.succ) w
    unfold labelLik labels at ih ⊢
    rw [Fin.prod_univ_succ, ← ih, List.ofFn_succ, List.map_cons, List.map_cons, List.prod_cons]
    simp

omit [MeasurableSpace Atom] in
theorem pointMass_split (lp : (Fin m → ℝ) → Atom → WithBot ℝ) (y : Fin n → Fin m → ℝ) (d : Fin n → Fin N) (z : (Fin N → Atom) × (Fin N → ℝ)) :
    pointMass lp y d z = (∏ j, groupLik lp y d j (z.1 j)) * labelLik (labels (List.ofFn (fun i => (d i : ℕ)))) z.2 := by
  rw [labelLik_ofFn, pointMass, Finset.prod_mul_distrib, mul_comm]
  congr 1
  simp only [groupLik_eq]
  rw [Finset.prod_comm]
  refine Finset.prod_congr rfl fun i _ => ?_
  rw [Finset.prod_ite_eq]
  simp

section
variable {A : AtomGen m Atom} {lp : (Fin m → ℝ) → Atom → WithBot ℝ} {p : NIW ℝ m} {alpha : List ℝ} {y : Fin n → Fin m → ℝ} (hlp : ∀ i, Measurable (obsDens lp (y i)))
include hlp

theorem measurable_groupLik (d : Fin n → Fin N) (j : Fin N) : Measurable (groupLik lp y d j) := by
  have : groupLik lp y d j = fun a => ∏ i, if d i = j then obsDens lp (y i) a else 1 := funext fun a => groupLik_eq lp y d j a
  rw [this]
  refine Finset.measurable_prod _ fun i _ => ?_
  split
  · exact hlp i
  · exact measurable_const

omit hlp in
theorem group_posterior (hc : Conjugate A lp p) {d : Fin n → Fin N} {j : Fin N} (h : ∃ i, d i = j) :
    A.law (posteriorNIW (groupRows y d j) p) = posterior (A.law p) (groupLik lp y d j) := hc _ (groupRows_ne_nil y h)

/-- The atoms' part of the joint law. -/
noncomputable def groupLaw (A : AtomGen m Atom) (lp : (Fin m → ℝ) → Atom → WithBot ℝ) (p : NIW ℝ m) (y : Fin n → Fin m → ℝ) (d : Fin n → Fin N) (j : Fin N) : Measure Atom :=
  (A.law p).withDensity (groupLik lp y d j)

omit hlp in
theorem groupLaw_facts (hc : Conjugate A lp p) (d : Fin n → Fin N) (j : Fin N) : groupLaw A lp p y d j Set.univ ≠ 0 ∧ groupLaw A lp p y d j Set.univ ≠ ∞ ∧
    ((∃ i, d i = j) → groupLaw A lp p y d j = groupLaw A lp p y d j Set.univ • A.law (posteriorNIW (groupRows y d j) p)) := by
  have hu : groupLaw A lp p y d j Set.univ = ∫⁻ a, groupLik lp y d j a ∂A.law p := by
    rw [groupLaw, withDensity_apply _ MeasurableSet.univ, Measure.restrict_univ]
  by_cases h : ∃ i, d i = j
  · have hpr : IsProbabilityMeasure (posterior (A.law p) (groupLik lp y d j)) := by rw [← group_posterior hc h]; infer_instance
    obtain ⟨h1, h2, h3⟩ := posterior_smul (μ := A.law p) (L := groupLik lp y d j)
    rw [hu]
    refine ⟨h2, h3, fun _ => ?_⟩
    rw [group_posterior hc h]
    exact h1
  · have : groupLik lp y d j = fun _ => 1 := funext fun a => groupLik_one lp y h a
    rw [hu, this]
    simp only [lintegral_const, measure_univ, mul_one]
    exact ⟨one_ne_zero, ENNReal.one_ne_top, fun h' => absurd h' h⟩

omit hlp in
theorem weightPrior_prob (ha : ∀ x ∈ alpha, 0 < x) (hN : alpha.length = N) : IsProbabilityMeasure (weightPrior N alpha) := by
  subst hN
  have := dirichletStick_prob ha
  exact Measure.isProbabilityMeasure_map measurable_breakStick.aemeasurable

/-- The joint law is a product. -/
theorem gibbsJoint_eq (hc : Conjugate A lp p) (ha : ∀ x ∈ alpha, 0 < x) (hN : alpha.length = N) (d : Fin n → Fin N) :
    gibbsJoint A lp p alpha y d = (Measure.pi (groupLaw A lp p y d)).prod ((weightPrior N alpha).withDensity (labelLik (labels (List.ofFn (fun i => (d i : ℕ)))))) := by
  have hf : ∀ j, IsFiniteMeasure (groupLaw A lp p y d j) := fun j => ⟨lt_top_iff_ne_top.2 (groupLaw_facts hc d j).2.1⟩
  have hw := weightPrior_prob ha hN
  have hff : ∀ j, SigmaFinite ((A.law p).withDensity (groupLik lp y d j)) := fun j => by
    have := hf j
    unfold groupLaw at this
    infer_instance
  have h1 := pi_withDensity' (fun _ : Fin N => A.law p) (groupLik lp y d) (measurable_groupLik hlp d)
  have : (fun j => (A.law p).withDensity (groupLik lp y d j)) = groupLaw A lp p y d := rfl
  rw [this] at h1
  have hm : Measurable (fun θ : Fin N → Atom => ∏ j, groupLik lp y d j (θ j)) := Finset.measurable_prod _ fun j _ => (measurable_groupLik hlp d j).comp (measurable_pi_apply j)
  rw [← h1, prod_withDensity hm (measurable_labelLik _)]
  unfold gibbsJoint
  congr 1
  funext z
  exact pointMass_split lp y d z

omit hlp in
/-- The new weights have the posterior law given the labels. -/
theorem newWeights_law (G : RandGen) (ha : ∀ x ∈ alpha, 0 < x) (h0 : 0 < N) (hN : alpha.length = N) (d : Fin n → Fin N) (k : ℕ) :
    Measurable (fun u => newWeights alpha d k (G.oracle u)) ∧
      G.P.map (fun u => newWeights alpha d k (G.oracle u)) = posterior (weightPrior N alpha) (labelLik (labels (List.ofFn (fun i => (d i : ℕ))))) := by
  have hne : alpha ≠ [] := by
    rintro rfl
    simp at hN
    omega
  have hd : LabelsBelow (labels (List.ofFn (fun i => (d i : ℕ)))) alpha.length := by rw [hN]; exact labelsBelow_ofFn d
  refine ⟨?_, ?_⟩
  · have key : ∀ (l : List ℝ) (N' : ℕ), l.length = N' → Measurable (fun u : ℕ → G.Seed => vec N' (G.dirichlet l (u k))) := by
      rintro l _ rfl
      exact (G.dirichlet_meas l).comp (measurable_pi_apply k)
    exact key _ N (by rw [dirichletPosterior_length, hN])
  · have h1 := DirDist.law G hne ha (s := ((⟨0, alpha, [], labels (List.ofFn (fun i => (d i : ℕ)))⟩ : DirDist ℝ), k)) rfl .none hd hN
    rw [weightPrior, dirichlet_conjugate hne ha hN (labelsBelow_ofFn d), ← h1]
    unfold RandGen.lawOf
    congr 1
    funext u
    obtain ⟨t, hr, -⟩ := DirDist.random_draw (ω := G.oracle u) ha (s := ((⟨0, alpha, [], labels (List.ofFn (fun i => (d i : ℕ)))⟩ : DirDist ℝ), k)) rfl .none hd
    rw [hr]
    rfl

theorem newAtoms_dens (hc : Conjugate A lp p) (d : Fin n → Fin N) (θ : Fin N → Atom) (pos : ℕ) :
    ∀ᵐ X ∂Measure.infinitePi (fun _ : ℕ => A.ν), ∀ i, obsDens lp (y i) (newAtoms A y p d θ pos X (d i)) ≠ 0 := by
  rw [ae_all_iff]
  intro i
  have h1 := posterior_ae_ne_zero (μ := A.law p) (measurable_groupLik hlp d (d i))
  rw [← group_posterior hc ⟨i, rfl⟩] at h1
  have h2 := ae_of_ae_map (A.meas _).aemeasurable h1
  have hev : (Measure.infinitePi (fun _ : ℕ => A.ν)).map (fun X : ℕ → A.Seed => X (pos + labelRank (List.ofFn (fun i => (d i : ℕ))) (d i))) = A.ν := Measure.infinitePi_map_eval _ _
  rw [← hev] at h2
  have h3 := ae_of_ae_map (measurable_pi_apply _).aemeasurable h2
  filter_upwards [h3] with X hX
  rw [groupLik_eq] at hX
  have := Finset.prod_ne_zero_iff.1 hX i (Finset.mem_univ i)
  rw [if_pos rfl] at this
  unfold newAtoms
  rw [if_pos ⟨i, rfl⟩]
  exact this

variable {nz : ℝ → ℝ} (hnz : IsGumbel nz) {W : World ℝ m Atom} (heps : W.eps = 0) (hW : W.logpdf = lp) (hc : Conjugate A lp p) (ha : ∀ x ∈ alpha, 0 < x) (h0 : 0 < N) (hN : alpha.length = N)
  (hn : 2 ≤ n) (G : RandGen) (fuel : (ℕ → ℝ) → ℕ) {B : Set ((Fin N → Atom) × (Fin N → ℝ))}
include hnz heps hW hc ha hN hn

theorem gibbsLaw_eq {s : GM (DirDist.cls : WeightClass ℝ) m Atom × ℕ} {d : Fin n → Fin N} {θ : Fin N → Atom} {w : Fin N → ℝ} (h : Holds y p alpha s.1 d θ w) (d' : Fin n → Fin N) :
    gibbsLaw nz W A G fuel y p alpha s d' B = ∫⁻ X, ∫⁻ u, B.indicator (labelKernel lp h0 y d d') (newAtoms A y p d θ s.2 X, newWeights alpha d s.1.wst.2 (G.oracle u)) ∂G.P
      ∂(Measure.infinitePi (fun _ : ℕ => A.ν)) := by
  subst hW
  unfold gibbsLaw
  refine lintegral_congr_ae ?_
  filter_upwards [newAtoms_dens hlp hc d θ s.2] with X hX
  obtain ⟨hm, hl⟩ := newWeights_law G ha h0 hN d s.1.wst.2
  have h1 := posterior_ae_ne_zero (μ := weightPrior N alpha) (measurable_labelLik (N := N) (labels (List.ofFn (fun i => (d i : ℕ)))))
  rw [← hl] at h1
  have h2 := ae_of_ae_map hm.aemeasurable h1
  refine lintegral_congr_ae ?_
  filter_upwards [h2] with u hu
  refine reaches_law hnz heps ha h0 hN hn (G.oracle_legal u) h X fuel ?_ d'
  rw [pointMass]
  rw [labelLik_ofFn] at hu
  exact Finset.prod_ne_zero_iff.2 fun i hi => mul_ne_zero (Finset.prod_ne_zero_iff.1 hu i hi) (hX i)

/-- Redrawing atoms and weights keeps the joint law. -/
theorem gibbsJoint_step (hB : MeasurableSet B) (d d' : Fin n → Fin N) (S : (Fin N → Atom) × (Fin N → ℝ) → GM (DirDist.cls : WeightClass ℝ) m Atom × ℕ)
    (hS : ∀ z, Holds y p alpha (S z).1 d z.1 z.2) :
    ∫⁻ z, gibbsLaw nz W A G fuel y p alpha (S z) d' B ∂(gibbsJoint A lp p alpha y d) = ∫⁻ z, B.indicator (labelKernel lp h0 y d d') z ∂(gibbsJoint A lp p alpha y d) := by
  classical
  have hh : Measurable (B.indicator (labelKernel lp h0 y d d')) := (measurable_labelKernel hlp h0 d d').indicator hB
  have hf : ∀ j, IsFiniteMeasure (groupLaw A lp p y d j) := fun j => ⟨lt_top_iff_ne_top.2 (groupLaw_facts hc d j).2.1⟩
  have hwp := weightPrior_prob ha hN
  set D := posterior (weightPrior N alpha) (labelLik (labels (List.ofFn (fun i => (d i : ℕ))))) with hD
  have hDp : IsProbabilityMeasure D := by
    rw [hD, ← (newWeights_law G ha h0 hN d 0).2]
    exact Measure.isProbabilityMeasure_map (newWeights_law G ha h0 hN d 0).1.aemeasurable
  obtain ⟨hD1, -, hD3⟩ := posterior_smul (μ := weightPrior N alpha) (L := labelLik (labels (List.ofFn (fun i => (d i : ℕ))))) (hp := hDp)
  rw [← hD] at hD1
  set c := ∫⁻ w, labelLik (labels (List.ofFn (fun i => (d i : ℕ)))) w ∂(weightPrior N alpha)
  let h1 : (Fin N → Atom) → ℝ≥0∞ := fun θ => ∫⁻ w, B.indicator (labelKernel lp h0 y d d') (θ, w) ∂D
  have hh1 : Measurable h1 := hh.lintegral_prod_right'
  let F : Fin N → A.Seed → Atom := fun j => A.draw (posteriorNIW (groupRows y d j) p)
  let O : Fin N → Prop := fun j => ∃ i, d i = j
  let k : (Fin N → Atom) → ℝ≥0∞ := fun θ => ∫⁻ X, h1 (fun j => if O j then F j (X j) else θ j) ∂(Measure.infinitePi (fun _ : ℕ => A.ν))
  have hk : Measurable k := by
    have hm : Measurable (fun (z : (Fin N → Atom) × (ℕ → A.Seed)) (j : Fin N) => if O j then F j (z.2 j) else z.1 j) := by
      refine measurable_pi_lambda _ fun j => ?_
      split
      · exact (A.meas _).comp ((measurable_pi_apply _).comp measurable_snd)
      · exact (measurable_pi_apply _).comp measurable_fst
    exact (hh1.comp hm).lintegral_prod_right'
  have hstep : ∀ z, gibbsLaw nz W A G fuel y p alpha (S z) d' B = k z.1 := by
    intro z
    rw [gibbsLaw_eq hlp hnz heps hW hc ha h0 hN hn G fuel (hS z) d']
    have e1 : ∀ X, ∫⁻ u, B.indicator (labelKernel lp h0 y d d') (newAtoms A y p d z.1 (S z).2 X, newWeights alpha d (S z).1.wst.2 (G.oracle u)) ∂G.P = h1 (newAtoms A y p d z.1 (S z).2 X) := by
      intro X
      obtain ⟨hm, hl⟩ := newWeights_law G ha h0 hN d (S z).1.wst.2
      show _ = ∫⁻ w, B.indicator (labelKernel lp h0 y d d') (newAtoms A y p d z.1 (S z).2 X, w) ∂D
      rw [hD, ← hl]
      exact (lintegral_map (f := fun w => B.indicator (labelKernel lp h0 y d d') (newAtoms A y p d z.1 (S z).2 X, w)) (hh.comp (measurable_const.prodMk measurable_id)) hm).symm
    simp_rw [e1]
    refine (lintegral_positions A.ν O (fun j => (S z).2 + labelRank (List.ofFn (fun i => (d i : ℕ))) j) (fun j => (j : ℕ)) ?_ (fun i j _ _ h => Fin.ext h) F (fun j => A.meas _) z.1 hh1)
    rintro i j ⟨a, rfl⟩ ⟨b, rfl⟩ h
    have hmem : ∀ a : Fin n, ((d a : Fin N) : ℕ) ∈ List.ofFn (fun i => (d i : ℕ)) := fun a => (List.mem_ofFn' _ _).2 ⟨a, rfl⟩
    rcases lt_trichotomy (d a : ℕ) (d b) with hlt | he | hlt
    · have := C67_distinct (List.ofFn (fun i => (d i : ℕ))) (hmem a) hlt
      omega
    · exact Fin.ext he
    · have := C67_distinct (List.ofFn (fun i => (d i : ℕ))) (hmem b) hlt
      omega
  simp_rw [hstep]
  have hfin : IsFiniteMeasure (c • D) := ⟨by rw [Measure.smul_apply, measure_univ, smul_eq_mul, mul_one]; exact lt_top_iff_ne_top.2 hD3⟩
  rw [gibbsJoint_eq hlp hc ha hN d, hD1, lintegral_prod (fun z : (Fin N → Atom) × (Fin N → ℝ) => k z.1) (hk.comp measurable_fst).aemeasurable, lintegral_prod _ hh.aemeasurable]
  simp only [lintegral_const, Measure.smul_apply, measure_univ, smul_eq_mul, mul_one, lintegral_smul_measure]
  rw [lintegral_mul_const _ hk, lintegral_const_mul _ hh1, mul_comm]
  congr 1
  refine lintegral_redraw A.ν (groupLaw A lp p y d) O (fun j => (j : ℕ)) (fun i j _ _ h => Fin.ext h) F (fun j => A.meas _) (fun j hj => ?_) hh1
  exact (groupLaw_facts hc d j).2.2 hj

/-- **Invariance**: for every family of states that hold the labels `d`, the atoms `z.1` and the weights `z.2`. -/
theorem C94_joint (hB : MeasurableSet B) (S : (Fin n → Fin N) → (Fin N → Atom) × (Fin N → ℝ) → GM (DirDist.cls : WeightClass ℝ) m Atom × ℕ)
    (hS : ∀ d z, Holds y p alpha (S d z).1 d z.1 z.2) (d' : Fin n → Fin N) :
    ∑ d, ∫⁻ z, gibbsLaw nz W A G fuel y p alpha (S d z) d' B ∂(gibbsJoint A lp p alpha y d) = gibbsJoint A lp p alpha y d' B := by
  have h0 : 0 < N := lt_of_le_of_lt (Nat.zero_le _) (d' ⟨0, by omega⟩).2
  have hwp := weightPrior_prob ha hN
  have h1 : ∀ d, ∫⁻ z, gibbsLaw nz W A G fuel y p alpha (S d z) d' B ∂(gibbsJoint A lp p alpha y d) =
      ∫⁻ z, B.indicator (fun z => pointMass lp y d z * labelKernel lp h0 y d d' z) z ∂((Measure.pi (fun _ : Fin N => A.law p)).prod (weightPrior N alpha)) := by
    intro d
    rw [gibbsJoint_step hlp hnz heps hW hc ha h0 hN hn G fuel hB d d' (S d) (hS d)]
    refine (lintegral_withDensity_eq_lintegral_mul _ (measurable_pointMass hlp d) ((measurable_labelKernel hlp h0 d d').indicator hB)).trans ?_
    refine lintegral_congr fun z => ?_
    rw [Set.indicator_mul_right B (pointMass lp y d)]
    rfl
  simp_rw [h1]
  refine (lintegral_finsetSum _ fun d _ => ((measurable_pointMass hlp d).mul (measurable_labelKernel hlp h0 d d')).indicator hB).symm.trans ?_
  unfold gibbsJoint
  rw [withDensity_apply _ hB, ← lintegral_indicator hB]
  have hae : ∀ᵐ z ∂(Measure.pi (fun _ : Fin N => A.law p)).prod (weightPrior N alpha), ∀ j, 0 ≤ z.2 j := by
    have : ∀ᵐ w ∂weightPrior N alpha, ∀ j, 0 ≤ w j := by
      subst hN
      have hne : alpha ≠ [] := by rintro rfl; simp at h0
      filter_upwards [dirichletLaw_ae hne ha] with w hw using hw.1
    exact Measure.quasiMeasurePreserving_snd.ae this
  refine lintegral_congr_ae ?_
  filter_upwards [hae] with z hz
  by_cases hzB : z ∈ B
  · simp only [Set.indicator_of_mem hzB]
    exact sum_labelKernel h0 d' hz
  · simp only [Set.indicator_of_notMem hzB, Finset.sum_const_zero]

/-- **Invariance of the posterior law under a Gibbs step.** -/
theorem C94_step (hB : MeasurableSet B) (S : (Fin n → Fin N) → (Fin N → Atom) × (Fin N → ℝ) → GM (DirDist.cls : WeightClass ℝ) m Atom × ℕ)
    (hS : ∀ d z, Holds y p alpha (S d z).1 d z.1 z.2) (d' : Fin n → Fin N) :
    ∑ d, ∫⁻ z, gibbsLaw nz W A G fuel y p alpha (S d z) d' B ∂(gibbsPosterior A lp p alpha y d) = gibbsPosterior A lp p alpha y d' B := by
  unfold gibbsPosterior
  simp only [lintegral_smul_measure, Measure.smul_apply, smul_eq_mul]
  rw [← Finset.mul_sum, C94_joint hlp hnz heps hW hc ha hN hn G fuel hB S hS d']

omit hnz heps hW hn in
/-- The posterior law is a probability. -/
theorem C94_total (h0 : 0 < N) : ∑ d : Fin n → Fin N, gibbsPosterior A lp p alpha y d Set.univ = 1 := by
  have hwp := weightPrior_prob ha hN
  have hd : ∀ d : Fin n → Fin N, gibbsJoint A lp p alpha y d Set.univ ≠ 0 ∧ gibbsJoint A lp p alpha y d Set.univ ≠ ∞ := by
    intro d
    have hf : ∀ j, IsFiniteMeasure (groupLaw A lp p y d j) := fun j => ⟨lt_top_iff_ne_top.2 (groupLaw_facts hc d j).2.1⟩
    obtain ⟨G⟩ : Nonempty RandGen := RandGen.nonempty
    have hDp : IsProbabilityMeasure (posterior (weightPrior N alpha) (labelLik (labels (List.ofFn (fun i => (d i : ℕ)))))) := by
      rw [← (newWeights_law G ha h0 hN d 0).2]
      exact Measure.isProbabilityMeasure_map (newWeights_law G ha h0 hN d 0).1.aemeasurable
    obtain ⟨hD1, hD2, hD3⟩ := posterior_smul (μ := weightPrior N alpha) (L := labelLik (labels (List.ofFn (fun i => (d i : ℕ))))) (hp := hDp)
    have hs : SFinite ((weightPrior N alpha).withDensity (labelLik (labels (List.ofFn (fun i => (d i : ℕ)))))) := inferInstance
    rw [gibbsJoint_eq hlp hc ha hN d, ← Set.univ_prod_univ, Measure.prod_prod, Measure.pi_univ, hD1, Measure.smul_apply, measure_univ, smul_eq_mul, mul_one]
    refine ⟨mul_ne_zero (Finset.prod_ne_zero_iff.2 fun j _ => (groupLaw_facts hc d j).1) hD2, ENNReal.mul_ne_top (ENNReal.prod_ne_top fun j _ => (groupLaw_facts hc d j).2.1) hD3⟩
  unfold gibbsPosterior
  simp only [Measure.smul_apply, smul_eq_mul]
  rw [← Finset.mul_sum]
  refine ENNReal.inv_mul_cancel (fun h => ?_) (ENNReal.sum_ne_top.2 fun d _ => (hd d).2)
  exact (hd (fun _ => ⟨0, h0⟩)).1 (Finset.sum_eq_zero_iff.1 h _ (Finset.mem_univ _))

/-- Started from the posterior law, the step returns with probability one. -/
theorem C94_returns (h0 : 0 < N) (S : (Fin n → Fin N) → (Fin N → Atom) × (Fin N → ℝ) → GM (DirDist.cls : WeightClass ℝ) m Atom × ℕ)
    (hS : ∀ d z, Holds y p alpha (S d z).1 d z.1 z.2) :
    ∑ d' : Fin n → Fin N, ∑ d, ∫⁻ z, gibbsLaw nz W A G fuel y p alpha (S d z) d' Set.univ ∂(gibbsPosterior A lp p alpha y d) = 1 := by
  rw [← C94_total (n := n) hlp hc ha hN h0]
  exact Finset.sum_congr rfl fun d' _ => C94_step hlp hnz heps hW hc ha hN hn G fuel MeasurableSet.univ S hS d'

end

/-! ### Normal observations with one coordinate -/

/-- A generator of atoms with given laws. -/
noncomputable def AtomGen.ofLaw (L : NIW ℝ m → Measure Atom) [∀ q, IsProbabilityMeasure (L q)] : AtomGen m Atom where
  Seed := NIW ℝ m → Atom
  ν := Measure.infinitePi L
  draw := fun q s => s q
  meas := fun q => measurable_pi_apply q

theorem AtomGen.ofLaw_law (L : NIW ℝ m → Measure Atom) [∀ q, IsProbabilityMeasure (L q)] (q : NIW ℝ m) : (AtomGen.ofLaw L).law q = L q := Measure.infinitePi_map_eval L q

open Classical in
/-- The normal-inverse-Wishart law of mean and variance, for admissible parameters. -/
noncomputable def atomLaw (q : NIW ℝ 1) : Measure (MeanCov 1) := if 0 < q.lam ∧ 0 < q.nu ∧ 0 < q.psi 0 0 then niwLaw meanVar q else Measure.dirac 0

instance (q : NIW ℝ 1) : IsProbabilityMeasure (atomLaw q) := by
  unfold atomLaw
  split
  · rename_i h
    exact C93_one h.1 h.2.1 h.2.2
  · infer_instance

/-- `multivariate_normal.logpdf(x, mu, sigma)`. -/
noncomputable def normalLog (x : Fin m → ℝ) (a : MeanCov m) : WithBot ℝ := (logNormal x a.1 (Matrix.of a.2) : ℝ)

omit [MeasurableSpace Atom] in
theorem posterior_admissible {p : NIW ℝ 1} (hl : 0 < p.lam) (hnu : 0 < p.nu) (hp : 0 < p.psi 0 0) (ys : List (Fin 1 → ℝ)) :
    0 < (posteriorNIW ys p).lam ∧ 0 < (posteriorNIW ys p).nu ∧ 0 < (posteriorNIW ys p).psi 0 0 := by
  refine ⟨show 0 < p.lam + (ys.length : ℝ) by positivity, show 0 < p.nu + (ys.length : ℝ) by positivity, ?_⟩
  have hs : 0 ≤ (ys.map (fun y => (y 0 - meanVec ys 0) * (y 0 - meanVec ys 0))).sum :=
    List.sum_nonneg (by simp only [List.mem_map]; rintro _ ⟨y, _, rfl⟩; exact mul_self_nonneg _)
  show 0 < p.psi 0 0 + (ys.length : ℝ) * (_ / (ys.length : ℝ)) + (p.lam * ys.length) / (p.lam + ys.length) * ((meanVec ys 0 - p.mu 0) * (meanVec ys 0 - p.mu 0))
  have := mul_self_nonneg (meanVec ys 0 - p.mu 0)
  positivity

omit [MeasurableSpace Atom] in
theorem obsDens_normal (x : Fin m → ℝ) (a : MeanCov m) : obsDens normalLog x a = ENNReal.ofReal (Real.exp (logNormal x a.1 (Matrix.of a.2))) := rfl

omit [MeasurableSpace Atom] in
theorem likelihood_prod (ys : List (Fin m → ℝ)) (a : MeanCov m) : (ys.map (fun x => obsDens normalLog x a)).prod = ENNReal.ofReal (likelihood ys a.1 (Matrix.of a.2)) := by
  unfold likelihood
  induction ys with
  | nil => simp
  | cons y ys ih =>
    rw [List.map_cons, List.prod_cons, ih, List.map_cons, List.prod_cons, obsDens_normal, ENNReal.ofReal_mul (Real.exp_nonneg _)]

/-- Normal observations and the atoms of the code are conjugate (C93). -/
theorem normal_conjugate {p : NIW ℝ 1} (hl : 0 < p.lam) (hnu : 0 < p.nu) (hp : 0 < p.psi 0 0) : Conjugate (AtomGen.ofLaw atomLaw) normalLog p := by
  intro rows hrows
  have h1 := posterior_admissible hl hnu hp rows
  have hpr : IsProbabilityMeasure (niwLaw meanVar (posteriorNIW rows p)) := C93_one h1.1 h1.2.1 h1.2.2
  rw [AtomGen.ofLaw_law, AtomGen.ofLaw_law, atomLaw, atomLaw, if_pos h1, if_pos ⟨hl, hnu, hp⟩, ← (C93_posterior meanVar_pos hrows hl).2]
  unfold posterior
  simp_rw [likelihood_prod]

/-- The case of the code: normal observations with one coordinate, atoms from the normal-inverse-Wishart law. -/
theorem C94_normal {nz : ℝ → ℝ} (hnz : IsGumbel nz) {W : World ℝ 1 (MeanCov 1)} (heps : W.eps = 0) (hW : W.logpdf = normalLog) {p : NIW ℝ 1} (hl : 0 < p.lam) (hnu : 0 < p.nu)
    (hp : 0 < p.psi 0 0) {alpha : List ℝ} (ha : ∀ x ∈ alpha, 0 < x) (hN : alpha.length = N) (hn : 2 ≤ n) (G : RandGen) (fuel : (ℕ → ℝ) → ℕ) (y : Fin n → Fin 1 → ℝ)
    {B : Set ((Fin N → MeanCov 1) × (Fin N → ℝ))} (hB : MeasurableSet B)
    (S : (Fin n → Fin N) → (Fin N → MeanCov 1) × (Fin N → ℝ) → GM (DirDist.cls : WeightClass ℝ) 1 (MeanCov 1) × ℕ) (hS : ∀ d z, Holds y p alpha (S d z).1 d z.1 z.2) (d' : Fin n → Fin N) :
    ∑ d, ∫⁻ z, gibbsLaw nz W (AtomGen.ofLaw atomLaw) G fuel y p alpha (S d z) d' B ∂(gibbsPosterior (AtomGen.ofLaw atomLaw) normalLog p alpha y d) =
      gibbsPosterior (AtomGen.ofLaw atomLaw) normalLog p alpha y d' B :=
  C94_step (fun i => (Real.measurable_exp.comp (measurable_logNormal (y i))).ennreal_ofReal) hnz heps hW (normal_conjugate hl hnu hp) ha hN hn G fuel hB S hS d'

/-! ### The hypotheses are met -/

/-- A state that holds given labels, atoms and weights. -/
noncomputable def holdsState (y : Fin n → Fin m → ℝ) (p : NIW ℝ m) (alpha : List ℝ) (d : Fin n → Fin N) (z : (Fin N → Atom) × (Fin N → ℝ)) : GM (DirDist.cls : WeightClass ℝ) m Atom :=
  { totalIter := 5, burnIn := 0, subsample := 1, nAttr := some N, muPrior := some p.mu, lam := p.lam, psiPrior := some p.psi, nuPrior := some p.nu,
    y := List.ofFn y, d := List.ofFn (fun i => (d i : ℕ)), theta := (List.finRange N).map (fun j : Fin N => ((j : ℕ), z.1 j)), thetaDefault := true, u := [], affinity := [],
    mapParams := none, mapLL := ⊥, saved := [], nGroups := [], nAtoms := [], totalSaved := 0, gibbsFitted := false,
    wst := (({ n := N, alpha := alpha, w := List.ofFn z.2, d := [] } : DirDist ℝ), 0) }

omit [MeasurableSpace Atom] in
theorem lookup_finRange (θ : Fin N → Atom) (l : List (Fin N)) (j : Fin N) (hj : j ∈ l) : (l.map (fun j : Fin N => ((j : ℕ), θ j))).lookup (j : ℕ) = some (θ j) := by
  induction l with
  | nil => cases hj
  | cons i l ih =>
    rw [List.map_cons, List.lookup_cons]
    by_cases h : i = j
    · subst h; simp
    · have : ((j : ℕ) == (i : ℕ)) = false := by
        rw [beq_eq_false_iff_ne]
        exact fun e => h (Fin.ext e.symm)
      rw [this]
      exact ih ((List.mem_cons.1 hj).resolve_left fun e => h e.symm)

omit [MeasurableSpace Atom] in
/-- Every value of labels, atoms and weights is held by some state. -/
theorem holdsState_holds (y : Fin n → Fin m → ℝ) (p : NIW ℝ m) (alpha : List ℝ) (d : Fin n → Fin N) (z : (Fin N → Atom) × (Fin N → ℝ)) : Holds y p alpha (holdsState y p alpha d z) d z.1 z.2 :=
  ⟨rfl, rfl, fun j => lookup_finRange z.1 _ j (List.mem_finRange j), rfl, rfl, rfl⟩

/-- Three observations, two components; any surrounding without the shift. -/
example (W : World ℝ 1 (MeanCov 1)) : ∃ (nz : ℝ → ℝ) (G : RandGen), IsGumbel nz ∧ ∀ (fuel : (ℕ → ℝ) → ℕ) (d' : Fin 3 → Fin 2) (B : Set ((Fin 2 → MeanCov 1) × (Fin 2 → ℝ))), MeasurableSet B →
    let p : NIW ℝ 1 := ⟨![0], 1, ![![1]], 1⟩
    let y : Fin 3 → Fin 1 → ℝ := ![![0], ![1], ![5]]
    ∑ d : Fin 3 → Fin 2, ∫⁻ z, gibbsLaw nz { W with eps := 0, logpdf := normalLog } (AtomGen.ofLaw atomLaw) G fuel y p [1, 2] (holdsState y p [1, 2] d z, 0) d' B
        ∂(gibbsPosterior (AtomGen.ofLaw atomLaw) normalLog p [1, 2] y d) = gibbsPosterior (AtomGen.ofLaw atomLaw) normalLog p [1, 2] y d' B := by
  obtain ⟨G⟩ := RandGen.nonempty
  have hg : IsGumbel (fun u => -Real.log (-Real.log u)) := fun _ _ _ => rfl
  refine ⟨_, G, hg, fun fuel d' B hB => ?_⟩
  intro p y
  have ha : ∀ x ∈ [(1 : ℝ), 2], 0 < x := by
    intro x hx
    simp only [List.mem_cons, List.not_mem_nil, or_false] at hx
    rcases hx with rfl | rfl <;> norm_num
  exact C94_normal (p := p) (alpha := [1, 2]) hg rfl rfl (by norm_num [p]) (by norm_num [p]) (by simp [p]) ha rfl (by norm_num) G fuel y hB
    (fun d z => (holdsState y p [1, 2] d z, 0)) (fun d z => holdsState_holds y p [1, 2] d z) d'

end Verif.Mix
