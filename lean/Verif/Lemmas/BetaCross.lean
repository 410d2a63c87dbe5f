import Verif.Lemmas.VarLaw

/-! # Expected log-densities of Beta and Dirichlet distributions -/

set_option linter.unusedSectionVars false

namespace Verif
open MeasureTheory ProbabilityTheory Spec
open scoped ENNReal

/-- `E log f(x)` for the density `f` of `Beta(c, d)` and `x ~ Beta(a, b)`, in closed form. -/
noncomputable def betaCross (p r : ℝ × ℝ) : ℝ :=
  (r.1 - 1) * (psi p.1 - psi (p.1 + p.2)) + (r.2 - 1) * (psi p.2 - psi (p.1 + p.2)) + Real.log (Real.Gamma (r.1 + r.2))
    - (Real.log (Real.Gamma r.1) + Real.log (Real.Gamma r.2))

theorem beta_cross {p r : ℝ × ℝ} (hp : 0 < p.1 ∧ 0 < p.2) (hr : 0 < r.1 ∧ 0 < r.2) :
    Integrable (fun x => Real.log (betaPDFReal r.1 r.2 x)) (betaMeasure p.1 p.2) ∧ ∫ x, Real.log (betaPDFReal r.1 r.2 x) ∂betaMeasure p.1 p.2 = betaCross p r := by
  have hpr := isProbabilityMeasureBeta hp.1 hp.2
  have g1 := Real.Gamma_pos_of_pos hr.1
  have g2 := Real.Gamma_pos_of_pos hr.2
  have g3 := Real.Gamma_pos_of_pos (add_pos hr.1 hr.2)
  have e : ∀ᵐ x ∂betaMeasure p.1 p.2, Real.log (betaPDFReal r.1 r.2 x) = (r.1 - 1) * Real.log x + (r.2 - 1) * Real.log (1 - x)
      + (Real.log (Real.Gamma (r.1 + r.2)) - (Real.log (Real.Gamma r.1) + Real.log (Real.Gamma r.2))) := by
    refine betaMeasure_ae.mono fun x hx => ?_
    have h1 : 0 < 1 - x := sub_pos.2 hx.2
    have hb := beta_pos hr.1 hr.2
    rw [betaPDFReal, if_pos hx, Real.log_mul (mul_pos (one_div_pos.2 hb) (Real.rpow_pos_of_pos hx.1 _)).ne' (Real.rpow_pos_of_pos h1 _).ne',
      Real.log_mul (one_div_pos.2 hb).ne' (Real.rpow_pos_of_pos hx.1 _).ne', Real.log_rpow hx.1, Real.log_rpow h1, one_div, Real.log_inv, beta,
      Real.log_div (mul_pos g1 g2).ne' g3.ne', Real.log_mul g1.ne' g2.ne']
    ring
  have i1 := beta_log hp.1 hp.2
  have i2 := beta_log_one_sub hp.1 hp.2
  have i3 : Integrable (fun x => (r.1 - 1) * Real.log x + (r.2 - 1) * Real.log (1 - x)) (betaMeasure p.1 p.2) :=
    (i1.1.const_mul (r.1 - 1)).add (i2.1.const_mul (r.2 - 1))
  refine ⟨(i3.add (integrable_const _)).congr (e.mono fun x hx => hx.symm), ?_⟩
  rw [integral_congr_ae e, integral_add i3 (integrable_const _), integral_add (i1.1.const_mul _) (i2.1.const_mul _), integral_const_mul, integral_const_mul, i1.2, i2.2]
  simp only [integral_const, probReal_univ, smul_eq_mul, one_mul, betaCross]
  ring

/-- Gibbs' inequality for Beta laws. -/
theorem betaCross_le {p r : ℝ × ℝ} (hp : 0 < p.1 ∧ 0 < p.2) (hr : 0 < r.1 ∧ 0 < r.2) : betaCross p r ≤ betaCross p p := by
  have hpr := isProbabilityMeasureBeta hp.1 hp.2
  have c1 := beta_cross hp hr
  have c2 := beta_cross hp hp
  have hq : (fun x => betaPDFReal r.1 r.2 x / betaPDFReal p.1 p.2 x * betaPDFReal p.1 p.2 x) = betaPDFReal r.1 r.2 := by
    funext x
    by_cases h : 0 < x ∧ x < 1
    · rw [div_mul_cancel₀ _ (betaPDFReal_pos h.1 h.2 hp.1 hp.2).ne']
    · rw [betaPDFReal, if_neg h]; simp
  have i3 : Integrable (fun x => betaPDFReal r.1 r.2 x / betaPDFReal p.1 p.2 x) (betaMeasure p.1 p.2) := by
    rw [integrable_betaMeasure_iff hp.1 hp.2, hq]
    exact integrable_betaPDFReal hr.1 hr.2
  have v3 : ∫ x, betaPDFReal r.1 r.2 x / betaPDFReal p.1 p.2 x ∂betaMeasure p.1 p.2 = 1 := by
    rw [integral_betaMeasure hp.1 hp.2, hq]
    exact integral_betaPDFReal hr.1 hr.2
  have : ∫ x, (Real.log (betaPDFReal r.1 r.2 x) - Real.log (betaPDFReal p.1 p.2 x)) ∂betaMeasure p.1 p.2 ≤
      ∫ x, (betaPDFReal r.1 r.2 x / betaPDFReal p.1 p.2 x - 1) ∂betaMeasure p.1 p.2 := by
    refine integral_mono_ae (c1.1.sub c2.1) (i3.sub (integrable_const 1)) (betaMeasure_ae.mono fun x hx => ?_)
    have h1 := betaPDFReal_pos hx.1 hx.2 hp.1 hp.2
    have h2 := betaPDFReal_pos hx.1 hx.2 hr.1 hr.2
    change Real.log _ - Real.log _ ≤ _
    rw [← Real.log_div h2.ne' h1.ne']
    exact Real.log_le_sub_one_of_pos (div_pos h2 h1)
  rw [integral_sub c1.1 c2.1, c1.2, c2.2, integral_sub i3 (integrable_const 1), v3] at this
  simp only [integral_const, probReal_univ, smul_eq_mul, mul_one, sub_self] at this
  linarith

/-- The density of independent sticks with the given Beta parameters. -/
noncomputable def stickDensity {N : ℕ} (f : Fin N → ℝ × ℝ) (v : Fin N → ℝ) : ℝ := ∏ j, betaPDFReal (f j).1 (f j).2 (v j)

theorem stick_cross {N : ℕ} {f g : Fin N → ℝ × ℝ} (hf : ∀ j, 0 < (f j).1 ∧ 0 < (f j).2) (hg : ∀ j, 0 < (g j).1 ∧ 0 < (g j).2) :
    Integrable (fun v => Real.log (stickDensity g v)) (betaSticks f) ∧ ∫ v, Real.log (stickDensity g v) ∂betaSticks f = ∑ j, betaCross (f j) (g j) := by
  have := isProb_beta hf
  have hp : ∀ l, MeasurePreserving (Function.eval l) (betaSticks f) (betaMeasure (f l).1 (f l).2) :=
    fun l => measurePreserving_eval (fun j => betaMeasure (f j).1 (f j).2) l
  have e : ∀ᵐ v ∂betaSticks f, Real.log (stickDensity g v) = ∑ j, Real.log (betaPDFReal (g j).1 (g j).2 (v j)) := by
    have a1 : ∀ᵐ v ∂betaSticks f, ∀ l, 0 < v l ∧ v l < 1 := by
      rw [ae_all_iff]
      exact fun l => (hp l).quasiMeasurePreserving.ae betaMeasure_ae
    filter_upwards [a1] with v hv
    rw [stickDensity, Real.log_prod fun j _ => (betaPDFReal_pos (hv j).1 (hv j).2 (hg j).1 (hg j).2).ne']
  have i : ∀ j ∈ Finset.univ, Integrable (fun v : Fin N → ℝ => Real.log (betaPDFReal (g j).1 (g j).2 (v j))) (betaSticks f) := fun j _ =>
    (hp j).integrable_comp_of_integrable (g := fun x => Real.log (betaPDFReal (g j).1 (g j).2 x)) (beta_cross (hf j) (hg j)).1
  refine ⟨(integrable_finsetSum _ i).congr (e.mono fun v hv => hv.symm), ?_⟩
  rw [integral_congr_ae e, integral_finsetSum _ i]
  refine Finset.sum_congr rfl fun j _ => ?_
  rw [← (beta_cross (hf j) (hg j)).2]
  conv_rhs => rw [← (hp j).map_eq]
  rw [integral_map (hp j).aemeasurable (by rw [(hp j).map_eq]; exact (beta_cross (hf j) (hg j)).1.aestronglyMeasurable)]

/-- `stickDensity` is the density of the sticks with respect to the uniform law on the unit cube. -/
theorem betaSticks_density {N : ℕ} {f : Fin N → ℝ × ℝ} (hf : ∀ j, 0 < (f j).1 ∧ 0 < (f j).2) :
    betaSticks f = (Measure.pi fun _ => volume.restrict (Set.Ioo (0 : ℝ) 1)).withDensity (fun v => ENNReal.ofReal (stickDensity f v)) := by
  have := isProb_beta hf
  have hu : IsProbabilityMeasure (volume.restrict (Set.Ioo (0 : ℝ) 1)) := ⟨by simp⟩
  have hb : ∀ j, (volume.restrict (Set.Ioo (0 : ℝ) 1)).withDensity (betaPDF (f j).1 (f j).2) = betaMeasure (f j).1 (f j).2 := by
    intro j
    rw [betaMeasure, ← restrict_withDensity measurableSet_Ioo]
    exact Measure.restrict_eq_self_of_ae_mem betaMeasure_ae
  have hs : ∀ j, SigmaFinite ((volume.restrict (Set.Ioo (0 : ℝ) 1)).withDensity (betaPDF (f j).1 (f j).2)) := fun j => by rw [hb]; infer_instance
  have h := pi_withDensity (fun _ : Fin N => (volume.restrict (Set.Ioo (0 : ℝ) 1))) (fun j => betaPDF (f j).1 (f j).2)
    (fun j => (measurable_betaPDFReal _ _).ennreal_ofReal)
  simp_rw [hb] at h
  rw [betaSticks, ← h]
  congr 1
  funext v
  rw [stickDensity, ENNReal.ofReal_prod_of_nonneg fun j _ => betaPDFReal_nonneg (hf j).1 (hf j).2 _]
  rfl

/-- The density of the Dirichlet distribution. -/
noncomputable def dirichletDensity {N : ℕ} (f : Fin N → ℝ) (w : Fin N → ℝ) : ℝ := Real.Gamma (∑ j, f j) / (∏ j, Real.Gamma (f j)) * ∏ j, w j ^ (f j - 1)

theorem dirichletLaw_pos {l : List ℝ} (h : ∀ x ∈ l, 0 < x) : ∀ᵐ w ∂dirichletLaw l, ∀ j, 0 < w j := by
  have := dirichletStick_prob h
  unfold dirichletLaw
  have hms : MeasurableSet {w : Fin l.length → ℝ | ∀ j, 0 < w j} := by
    have : {w : Fin l.length → ℝ | ∀ j, 0 < w j} = ⋂ j, {w | 0 < w j} := by ext w; simp
    rw [this]
    exact MeasurableSet.iInter fun j => measurableSet_lt measurable_const (measurable_pi_apply j)
  rw [ae_map_iff measurable_breakStick.aemeasurable hms]
  have a1 : ∀ᵐ v ∂Measure.pi (fun j : Fin l.length => dirichletStick l j), ∀ j : Fin l.length, 0 < v j ∧ ((j : ℕ) + 1 ≠ l.length → v j < 1) := by
    rw [ae_all_iff]
    intro j
    refine (Measure.quasiMeasurePreserving_eval (fun j : Fin l.length => dirichletStick l j) j).ae (p := fun x => 0 < x ∧ ((j : ℕ) + 1 ≠ l.length → x < 1)) ?_
    unfold dirichletStick
    split
    · rename_i he
      have : MeasurableSet {x : ℝ | 0 < x ∧ ((j : ℕ) + 1 ≠ l.length → x < 1)} := by simp only [he, ne_eq, not_true, false_imp_iff, and_true]; exact measurableSet_Ioi
      rw [ae_dirac_iff this]
      exact ⟨one_pos, fun hn => absurd he hn⟩
    · exact betaMeasure_ae.mono fun x hx => ⟨hx.1, fun _ => hx.2⟩
  filter_upwards [a1] with v hv j
  refine mul_pos (hv j).1 (Finset.prod_pos fun i hi => sub_pos.2 ((hv i).2 ?_))
  have h1 : (i : ℕ) < j := (Finset.mem_filter.1 hi).2
  have h2 := j.2
  omega

theorem dirichlet_cross {l : List ℝ} (h : ∀ x ∈ l, 0 < x) {f : Fin l.length → ℝ} (hf : ∀ j, 0 < f j) (hs : 0 < ∑ j, f j) :
    Integrable (fun w => Real.log (dirichletDensity f w)) (dirichletLaw l) ∧ ∫ w, Real.log (dirichletDensity f w) ∂dirichletLaw l =
      Real.log (Real.Gamma (∑ j, f j)) - ∑ j, Real.log (Real.Gamma (f j)) + ∑ j, (f j - 1) * (psi l[j] - psi l.sum) := by
  have hpr := dirichletStick_prob h
  have hp : IsProbabilityMeasure (dirichletLaw l) := by unfold dirichletLaw; exact Measure.isProbabilityMeasure_map measurable_breakStick.aemeasurable
  have e : ∀ᵐ w ∂dirichletLaw l, Real.log (dirichletDensity f w) =
      (Real.log (Real.Gamma (∑ j, f j)) - ∑ j, Real.log (Real.Gamma (f j))) + ∑ j, (f j - 1) * Real.log (w j) := by
    filter_upwards [dirichletLaw_pos h] with w hw
    have g0 := Real.Gamma_pos_of_pos hs
    have g1 : ∀ j ∈ Finset.univ, Real.Gamma (f j) ≠ 0 := fun j _ => (Real.Gamma_pos_of_pos (hf j)).ne'
    have g2 : ∀ j ∈ Finset.univ, w j ^ (f j - 1) ≠ 0 := fun j _ => (Real.rpow_pos_of_pos (hw j) _).ne'
    rw [dirichletDensity, Real.log_mul (div_ne_zero g0.ne' (Finset.prod_ne_zero_iff.2 g1)) (Finset.prod_ne_zero_iff.2 g2),
      Real.log_div g0.ne' (Finset.prod_ne_zero_iff.2 g1), Real.log_prod g1, Real.log_prod g2]
    congr 1
    exact Finset.sum_congr rfl fun j _ => Real.log_rpow (hw j) _
  have i : ∀ j ∈ Finset.univ, Integrable (fun w : Fin l.length → ℝ => (f j - 1) * Real.log (w j)) (dirichletLaw l) := fun j _ => (dirichletLaw_log h j).1.const_mul _
  refine ⟨((integrable_const _).add (integrable_finsetSum _ i)).congr (e.mono fun v hv => hv.symm), ?_⟩
  rw [integral_congr_ae e, integral_add (integrable_const _) (integrable_finsetSum _ i), integral_finsetSum _ i]
  simp only [integral_const, probReal_univ, smul_eq_mul, one_mul, integral_const_mul]
  congr 1
  exact Finset.sum_congr rfl fun j _ => by rw [(dirichletLaw_log h j).2]
end Verif
