import Verif.Props.C104
import Verif.Lemmas.VarLaw
import Verif.Lemmas.PartitionPost

/-!
# The law of labels of mixtures with finitely many components, weights and atoms integrated out
-/

set_option linter.unusedSectionVars false

namespace Verif.Mix.FinMix
open MeasureTheory ProbabilityTheory GM Spec
open scoped ENNReal

variable {N m n : ℕ} [NeZero N] {Atom : Type} [MeasurableSpace Atom]

/-- The number of observations of component `j`. -/
def count (d : Fin n → Fin N) (j : Fin N) : ℕ := (Finset.univ.filter (fun i => d i = j)).card

/-- The Dirichlet-multinomial probability of labels. -/
noncomputable def dirMultinomial (a : Fin N → ℝ) (d : Fin n → Fin N) : ℝ := (∏ j, ∏ i ∈ Finset.range (count d j), (a j + i)) / ∏ i ∈ Finset.range n, ((∑ j, a j) + i)

theorem count_last (d : Fin (n + 1) → Fin N) (j : Fin N) : count d j = count (fun i : Fin n => d i.castSucc) j + if d (Fin.last n) = j then 1 else 0 := by
  unfold count
  rw [Finset.card_filter, Finset.card_filter, Fin.sum_univ_castSucc]

theorem sum_count (d : Fin n → Fin N) : ∑ j, count d j = n := by
  have := Finset.card_eq_sum_card_fiberwise (f := d) (s := Finset.univ) (t := Finset.univ) (fun _ _ => Finset.mem_coe.2 (Finset.mem_univ _))
  simpa [count] using this.symm

theorem dirMultinomial_step (a : Fin N → ℝ) (d : Fin (n + 1) → Fin N) :
    dirMultinomial a d = dirMultinomial a (fun i : Fin n => d i.castSucc) * ((a (d (Fin.last n)) + count (fun i : Fin n => d i.castSucc) (d (Fin.last n))) / ((∑ j, a j) + n)) := by
  unfold dirMultinomial
  rw [Finset.prod_range_succ]
  have h : ∏ j, ∏ i ∈ Finset.range (count d j), (a j + i) = (∏ j, ∏ i ∈ Finset.range (count (fun i : Fin n => d i.castSucc) j), (a j + i)) *
      (a (d (Fin.last n)) + count (fun i : Fin n => d i.castSucc) (d (Fin.last n))) := by
    have h1 : ∀ j, ∏ i ∈ Finset.range (count d j), (a j + i) = (∏ i ∈ Finset.range (count (fun i : Fin n => d i.castSucc) j), (a j + i)) *
        (if d (Fin.last n) = j then a j + count (fun i : Fin n => d i.castSucc) j else 1) := fun j => by
      rw [count_last]
      split
      · rw [Finset.prod_range_succ]
      · rw [add_zero, mul_one]
    rw [Finset.prod_congr rfl fun j _ => h1 j, Finset.prod_mul_distrib, Finset.prod_ite_eq, if_pos (Finset.mem_univ _)]
  rw [h, mul_div_mul_comm]

theorem dirMultinomial_pos {a : Fin N → ℝ} (ha : ∀ j, 0 < a j) (d : Fin n → Fin N) : 0 < dirMultinomial a d :=
  div_pos (Finset.prod_pos fun j _ => Finset.prod_pos fun i _ => by have := ha j; positivity)
    (Finset.prod_pos fun i _ => by
      have : 0 < ∑ j, a j := Finset.sum_pos (fun j _ => ha j) ⟨0, Finset.mem_univ _⟩
      positivity)

theorem nEq_count : ∀ {n : ℕ} (d : Fin n → ℕ) (j : ℕ), nEq (labels (List.ofFn d)) j = (Finset.univ.filter (fun i => d i = j)).card
  | 0, d, j => by simp [nEq, labels]
  | n + 1, d, j => by
    have ih := nEq_count (fun i : Fin n => d i.succ) j
    rw [Finset.card_filter, Fin.sum_univ_succ, ← Finset.card_filter, ← ih]
    unfold nEq labels
    rw [List.ofFn_succ, List.map_cons, List.countP_cons, add_comm]
    congr 1
    simp

/-- The parameters of the Dirichlet law given the labels. -/
theorem posterior_ofFn {alpha : List ℝ} (hN : alpha.length = N) (d : Fin n → Fin N) :
    dirichletPosterior alpha (labels (List.ofFn fun i => (d i : ℕ))) = List.ofFn fun j : Fin N => alpha.get (j.cast hN.symm) + count d j := by
  apply List.ext_getElem
  · simp [dirichletPosterior, hN]
  · intro j h1 h2
    simp only [dirichletPosterior, List.getElem_mapIdx, List.getElem_ofFn, nEq_count]
    have hj : j < N := by simpa using h2
    congr 2
    unfold count
    congr 1
    ext i
    simp [Fin.ext_iff]

/-- The mean of a weight. -/
theorem weight_mean {l : List ℝ} (hl : l.length = N) (hpos : ∀ x ∈ l, 0 < x) (j : Fin N) : ∫⁻ w, ENNReal.ofReal (w j) ∂weightPrior N l = ENNReal.ofReal (l.get (j.cast hl.symm) / l.sum) := by
  have hg := weightPrior_good hl hpos
  have hpr := weightPrior_prob hpos hl
  have hint : Integrable (fun w : Fin N → ℝ => w j) (weightPrior N l) := by
    refine Integrable.of_bound (C := 1) (measurable_pi_apply j).aestronglyMeasurable ?_
    filter_upwards [hg] with w hw
    rw [Real.norm_eq_abs, abs_of_pos (hw.1 j), ← hw.2]
    exact Finset.single_le_sum (f := w) (fun i _ => (hw.1 i).le) (Finset.mem_univ j)
  rw [← ofReal_integral_eq_lintegral_ofReal hint (by filter_upwards [hg] with w hw using (hw.1 j).le)]
  congr 1
  subst hl
  exact dirichletLaw_mean hpos j

/-- The probability of labels, Dirichlet weights integrated out. -/
theorem dir_labels {alpha : List ℝ} (hN : alpha.length = N) (ha : ∀ x ∈ alpha, 0 < x) : ∀ {n : ℕ} (d : Fin n → Fin N),
    ∫⁻ w, ∏ i, ENNReal.ofReal (w (d i)) ∂weightPrior N alpha = ENNReal.ofReal (dirMultinomial (fun j => alpha.get (j.cast hN.symm)) d)
  | 0, d => by
    have := weightPrior_prob ha hN
    simp [dirMultinomial, count]
  | n + 1, d => by
    set d' : Fin n → Fin N := fun i => d i.castSucc with hd'
    have ih := dir_labels hN ha d'
    obtain ⟨c, -, -, hc⟩ := (dirPrior alpha hN ha).conj d'
    have hp := (dirPrior alpha hN ha).post_prob (List.ofFn fun i => (d' i : ℕ))
    have hcv : c = ∫⁻ w, ∏ i, ENNReal.ofReal (w (d' i)) ∂weightPrior N alpha := by
      have := congrArg (fun μ => μ Set.univ) hc
      simp only [withDensity_apply _ MeasurableSet.univ, Measure.restrict_univ, Measure.smul_apply, measure_univ, smul_eq_mul, mul_one] at this
      exact this.symm
    have hm : Measurable (fun w : Fin N → ℝ => ∏ i, ENNReal.ofReal (w (d' i))) := Finset.measurable_prod _ fun i _ => (measurable_pi_apply _).ennreal_ofReal
    have hsplit : ∫⁻ w, ∏ i, ENNReal.ofReal (w (d i)) ∂weightPrior N alpha = ∫⁻ w, ENNReal.ofReal (w (d (Fin.last n))) ∂((weightPrior N alpha).withDensity fun w => ∏ i, ENNReal.ofReal (w (d' i))) := by
      rw [lintegral_withDensity_eq_lintegral_mul _ hm (measurable_pi_apply _).ennreal_ofReal]
      refine lintegral_congr fun w => ?_
      rw [Fin.prod_univ_castSucc]
      rfl
    have hc' : (weightPrior N alpha).withDensity (fun w => ∏ i, ENNReal.ofReal (w (d' i))) = c • weightPrior N (dirichletPosterior alpha (labels (List.ofFn fun i => (d' i : ℕ)))) := hc
    have hlen : (List.ofFn fun j : Fin N => alpha.get (j.cast hN.symm) + (count d' j : ℝ)).length = N := by simp
    have hpos : ∀ x ∈ List.ofFn fun j : Fin N => alpha.get (j.cast hN.symm) + (count d' j : ℝ), 0 < x := by
      intro x hx
      obtain ⟨j, rfl⟩ := List.mem_ofFn.1 hx
      have := ha _ (List.get_mem alpha (j.cast hN.symm))
      positivity
    rw [hsplit, hc', lintegral_smul_measure, hcv, ih, posterior_ofFn hN, weight_mean hlen hpos, smul_eq_mul, ← ENNReal.ofReal_mul (dirMultinomial_pos (fun j => ha _ (List.get_mem alpha _)) d').le,
      dirMultinomial_step]
    congr 3
    · simp [hd']
    · rw [List.sum_ofFn, Finset.sum_add_distrib, ← Nat.cast_sum, sum_count]

/-- The probability of labels with equal weights. -/
theorem equal_labels (d : Fin n → Fin N) : ∫⁻ w, ∏ i, ENNReal.ofReal (w (d i)) ∂(equalPrior N).prior = ENNReal.ofReal ((1 / N) ^ n) := by
  show ∫⁻ w, ∏ i, ENNReal.ofReal (w (d i)) ∂(Measure.dirac fun _ => 1 / (N : ℝ)) = _
  rw [lintegral_dirac' _ (Finset.measurable_prod _ fun i _ => (measurable_pi_apply _).ennreal_ofReal), Finset.prod_const, Finset.card_univ, Fintype.card_fin, ENNReal.ofReal_pow (by positivity)]

section
variable {A : AtomGen m Atom} {lp : (Fin m → ℝ) → Atom → WithBot ℝ} {p : NIW ℝ m} {f : FinPrior N} {y : Fin n → Fin m → ℝ} (hlp : ∀ i, Measurable (obsDens lp (y i))) (hcj : Conjugate A lp p)
include hlp hcj

/-- The joint mass of labels and data. -/
theorem finJoint_univ (d : Fin n → Fin N) : finJoint A lp p f y d Set.univ =
    (∫⁻ w, ∏ i, ENNReal.ofReal (w (d i)) ∂f.prior) * ∏ j ∈ Finset.univ.image d, blockMass A lp p y (Finset.univ.filter fun i => d i = j) := by
  have hm1 : Measurable (fun θ : Fin N → Atom => ∏ i, obsDens lp (y i) (θ (d i))) := Finset.measurable_prod _ fun i _ => (hlp i).comp (measurable_pi_apply _)
  have hm2 : Measurable (fun w : Fin N → ℝ => ∏ i, ENNReal.ofReal (w (d i))) := Finset.measurable_prod _ fun i _ => (measurable_pi_apply _).ennreal_ofReal
  unfold finJoint
  rw [withDensity_apply _ MeasurableSet.univ, Measure.restrict_univ, paramPrior_eq]
  have e : pointMass lp y d = fun z : FParams N Atom => (∏ i, obsDens lp (y i) (z.1 (d i))) * ∏ i, ENNReal.ofReal (z.2 (d i)) := by
    funext z
    rw [pointMass, Finset.prod_mul_distrib, mul_comm]
  rw [e, lintegral_prod_mul hm1.aemeasurable hm2.aemeasurable, mul_comm]
  congr 1
  have h := congrArg (fun μ => μ Set.univ) (atoms_conjugate hlp hcj d)
  simp only [withDensity_apply _ MeasurableSet.univ, Measure.restrict_univ, Measure.smul_apply, measure_univ, smul_eq_mul, mul_one] at h
  rw [h]
  unfold atomMass blockMass
  refine Finset.prod_congr rfl fun j _ => lintegral_congr fun a => ?_
  rw [Finset.prod_ite, Finset.prod_const_one, mul_one]
  refine Finset.prod_congr ?_ fun i _ => rfl
  ext i
  simp [nat, Fin.ext_iff]

end

end Verif.Mix.FinMix
