import Verif.Lemmas.StickGibbs
import Verif.Lemmas.PYSpec
import Mathlib.Analysis.PSeries

/-! # The stick-breaking classes: Dirichlet process, Pitman-Yor process -/

namespace Verif.Mix
open MeasureTheory ProbabilityTheory GM Spec
open scoped ENNReal

/-- If the means of the sticks have an infinite sum, the sticks exhaust the unit. -/
theorem StickParams.exhausts (f : StickParams) (h : ¬ Summable (fun j => f.a j / (f.a j + f.b j))) : f.Exhausts := by
  have hr : ∀ j, 0 ≤ f.a j / (f.a j + f.b j) := fun j => by have := f.ha j; have := f.hb j; positivity
  have hmean : ∀ k, ∫⁻ v, ENNReal.ofReal (∏ l ∈ Finset.range k, (1 - v l)) ∂(Measure.infinitePi f.prior) ≤ ENNReal.ofReal (Real.exp (-∑ j ∈ Finset.range k, f.a j / (f.a j + f.b j))) := by
    intro k
    have h1 : ∫⁻ v, ENNReal.ofReal (∏ l ∈ Finset.range k, (1 - v l)) ∂(Measure.infinitePi f.prior) = ∫⁻ v, ∏ l ∈ Finset.range k, ENNReal.ofReal (1 - v l) ∂(Measure.infinitePi f.prior) := by
      refine lintegral_congr_ae ?_
      filter_upwards [prior_unit f] with v hv
      exact ENNReal.ofReal_prod_of_nonneg fun l _ => by linarith [(hv l).2]
    rw [h1, lintegral_infinitePi_prod f.prior (Finset.range k) (g := fun _ x => ENNReal.ofReal (1 - x)) fun j => (measurable_const.sub measurable_id).ennreal_ofReal]
    have h2 : ∀ j, ∫⁻ x, ENNReal.ofReal (1 - x) ∂(f.prior j) = ENNReal.ofReal (1 - f.a j / (f.a j + f.b j)) := by
      intro j
      have hae : ∀ᵐ x ∂(f.prior j), x ∈ Set.Ioo (0 : ℝ) 1 := betaMeasure_ae
      have hint : Integrable (fun x : ℝ => x) (f.prior j) := by
        refine Integrable.of_bound (C := 1) measurable_id.aestronglyMeasurable ?_
        filter_upwards [hae] with x hx
        rw [Real.norm_eq_abs, abs_of_pos hx.1]
        exact hx.2.le
      have hint' : Integrable (fun x : ℝ => 1 - x) (f.prior j) := (integrable_const 1).sub hint
      rw [← ofReal_integral_eq_lintegral_ofReal hint' (by filter_upwards [hae] with x hx; simp only [Pi.zero_apply]; linarith [hx.2])]
      rw [integral_sub (integrable_const 1) hint]
      congr 1
      rw [integral_const, probReal_univ, one_smul]
      congr 1
      exact betaMeasure_mean (f.ha j) (f.hb j)
    simp_rw [h2]
    have h3 : ∀ j, 0 ≤ 1 - f.a j / (f.a j + f.b j) := fun j => by
      have := f.ha j
      have := f.hb j
      rw [sub_nonneg, div_le_one (by linarith)]
      linarith
    rw [← ENNReal.ofReal_prod_of_nonneg fun j _ => h3 j]
    refine ENNReal.ofReal_le_ofReal ?_
    rw [← Finset.sum_neg_distrib, Real.exp_sum]
    refine Finset.prod_le_prod (fun j _ => h3 j) fun j _ => ?_
    have := Real.add_one_le_exp (-(f.a j / (f.a j + f.b j)))
    linarith
  have hdiv : Filter.Tendsto (fun k => ∑ j ∈ Finset.range k, f.a j / (f.a j + f.b j)) Filter.atTop Filter.atTop := (not_summable_iff_tendsto_nat_atTop_of_nonneg hr).1 h
  have hlim0 : Filter.Tendsto (fun k => ENNReal.ofReal (Real.exp (-∑ j ∈ Finset.range k, f.a j / (f.a j + f.b j)))) Filter.atTop (nhds 0) := by
    have := ENNReal.tendsto_ofReal (Real.tendsto_exp_neg_atTop_nhds_zero.comp hdiv)
    rwa [ENNReal.ofReal_zero] at this
  have hinf : ∫⁻ v, ⨅ k, ENNReal.ofReal (∏ l ∈ Finset.range k, (1 - v l)) ∂(Measure.infinitePi f.prior) = 0 := by
    refine le_antisymm (ge_of_tendsto' hlim0 fun k => (lintegral_mono fun v => iInf_le _ k).trans (hmean k)) zero_le
  have hm : Measurable (fun v : ℕ → ℝ => ⨅ k, ENNReal.ofReal (∏ l ∈ Finset.range k, (1 - v l))) := by
    refine Measurable.iInf fun k => Measurable.ennreal_ofReal (Finset.measurable_prod _ fun l _ => ?_)
    exact measurable_const.sub (measurable_pi_apply l)
  rw [lintegral_eq_zero_iff hm] at hinf
  unfold StickParams.Exhausts
  filter_upwards [hinf, prior_unit f] with v h0 hv
  have hv01 : ∀ j, 0 ≤ v j ∧ v j ≤ 1 := fun j => ⟨(hv j).1.le, (hv j).2.le⟩
  have hp0 : ∀ k, 0 ≤ ∏ l ∈ Finset.range k, (1 - v l) := fun k => Finset.prod_nonneg fun l _ => by linarith [(hv l).2]
  have hanti : Antitone (fun k => ∏ l ∈ Finset.range k, (1 - v l)) := by
    refine antitone_nat_of_succ_le fun k => ?_
    rw [Finset.prod_range_succ]
    exact mul_le_of_le_one_right (hp0 k) (by linarith [(hv k).1])
  have hto : Filter.Tendsto (fun k => ∏ l ∈ Finset.range k, (1 - v l)) Filter.atTop (nhds 0) := by
    rw [Metric.tendsto_atTop]
    intro ε hε
    have h1 : (⨅ k, ENNReal.ofReal (∏ l ∈ Finset.range k, (1 - v l))) < ENNReal.ofReal ε := by
      rw [show (⨅ k, ENNReal.ofReal (∏ l ∈ Finset.range k, (1 - v l))) = 0 from h0]
      exact ENNReal.ofReal_pos.2 hε
    obtain ⟨N, hN⟩ := iInf_lt_iff.1 h1
    rw [ENNReal.ofReal_lt_ofReal_iff hε] at hN
    refine ⟨N, fun k hk => ?_⟩
    rw [Real.dist_eq, sub_zero, abs_of_nonneg (hp0 k)]
    exact (hanti hk).trans_lt hN
  rw [hasSum_iff_tendsto_nat_of_nonneg fun j => stickSeq_nonneg hv01 j]
  simp_rw [sum_stickSeq]
  have := hto.const_sub 1
  rwa [sub_zero] at this

theorem betaValues_range (ω : Oracle ℝ) (pos N : ℕ) (g : ℕ → ℝ × ℝ) : M.betaValues ω pos ((List.range N).map g) = (List.range N).map (fun j => ω.beta (pos + j) (g j).1 (g j).2) := by
  unfold M.betaValues
  apply List.ext_getElem <;> simp

theorem nEq_top {d : List ℕ} {j : ℕ} (h : topLabel d ≤ j) : nEq (labels d) j = 0 := by
  unfold nEq labels
  rw [List.countP_eq_zero]
  intro x hx
  obtain ⟨i, hi, rfl⟩ := List.mem_map.1 hx
  have := lt_topLabel hi
  simp only [decide_eq_true_eq]
  omega

theorem nGt_top {d : List ℕ} {j : ℕ} (h : topLabel d ≤ j) : nGt (labels d) j = 0 := by
  unfold nGt labels
  rw [List.countP_eq_zero]
  intro x hx
  obtain ⟨i, hi, rfl⟩ := List.mem_map.1 hx
  have := lt_topLabel hi
  simp only [decide_eq_true_eq]
  omega

theorem nonNegLabels_labels (d : List ℕ) : NonNegLabels (labels d) := by
  intro x hx
  obtain ⟨i, -, rfl⟩ := List.mem_map.1 hx
  exact Int.natCast_nonneg i

theorem isMaxLabel_top {d : List ℕ} (h : d ≠ []) : IsMaxLabel (labels d) ((topLabel d : ℤ) - 1) := by
  have hm := topLabel_mem h
  have hpos : 1 ≤ topLabel d := by unfold topLabel; omega
  refine ⟨List.mem_map.2 ⟨_, hm, by omega⟩, fun x hx => ?_⟩
  obtain ⟨i, hi, rfl⟩ := List.mem_map.1 hx
  have := lt_topLabel hi
  omega

/-! ### Dirichlet process -/

/-- The sticks of a Dirichlet process: Beta(1, alpha). -/
noncomputable def dpSticks (alpha : ℝ) (h : 0 < alpha) : StickParams := ⟨fun _ => 1, fun _ => alpha, fun _ => one_pos, fun _ => h⟩

theorem dpSticks_exhausts {alpha : ℝ} (h : 0 < alpha) : (dpSticks alpha h).Exhausts := by
  refine StickParams.exhausts _ fun hs => ?_
  have h1 := hs.tendsto_atTop_zero
  have h2 : (0 : ℝ) = 1 / (1 + alpha) := tendsto_nhds_unique h1 tendsto_const_nhds |>.trans rfl
  have : 0 < 1 / (1 + alpha) := by positivity
  linarith

theorem dp_stickClass {alpha : ℝ} (h : 0 < alpha) : StickClass (DP.core : WeightCore ℝ) (dpSticks alpha h) DP.v (fun s => s.alpha = alpha) := by
  refine ⟨fun ω t d hd ht => ?_⟩
  have ha : 0 < t.1.alpha := by rw [ht]; exact h
  set v := stickDraw (dpSticks alpha h) d ω t.2 with hv
  have hval : M.betaValues ω t.2 ((List.range (topLabel d)).map (DP.post t.1.alpha (labels d))) = (List.range (topLabel d)).map v := by
    rw [betaValues_range]
    refine List.map_congr_left fun j _ => ?_
    simp only [hv, stickDraw, DP.post, dpSticks, ht]
  refine ⟨fun k => ({ t.1 with d := labels d, v := (List.range k).map v, w := (List.range k).map (stickSeq v) }, t.2 + k), ?_, ⟨rfl, fun k hk _ => ⟨⟨some ((List.range (k + 1)).map (stickSeq v)), ?_⟩, rfl⟩⟩, fun k _ => ⟨rfl, ht⟩⟩
  · have := DP.random_spec ω { t.1 with d := labels d } t.2 .none (topLabel d) ha (nonNegLabels_labels d) (.inr ⟨rfl, isMaxLabel_top hd⟩)
    simp only [hval, stickWeights_seq] at this
    exact this
  · have hb : ω.beta (t.2 + k) 1 ({ t.1 with d := labels d } : DP ℝ).alpha = v k := by
      simp only [hv, stickDraw, dpSticks, nEq_top hk, nGt_top hk, ht, Nat.cast_zero, add_zero]
    exact dp_core_complete (dp_complete_seq { t.1 with d := labels d } ha hb)

/-! ### Pitman-Yor process -/

/-- The sticks of `PitmanYorProcess`: Beta(1 - pyd, alpha + j * pyd), `j` from 0. -/
noncomputable def pySticks (pyd alpha : ℝ) (h0 : 0 ≤ pyd) (h1 : pyd < 1) (ha : 0 < alpha) : StickParams :=
  ⟨fun _ => 1 - pyd, fun j => alpha + j * pyd, fun _ => by linarith, fun j => by positivity⟩

theorem pySticks_exhausts {pyd alpha : ℝ} (h0 : 0 ≤ pyd) (h1 : pyd < 1) (ha : 0 < alpha) : (pySticks pyd alpha h0 h1 ha).Exhausts := by
  refine StickParams.exhausts _ fun hs => ?_
  have hle : ∀ j : ℕ, (1 - pyd) / (1 + alpha) * (1 / ((j : ℝ) + 1)) ≤ (1 - pyd) / (1 - pyd + (alpha + j * pyd)) := by
    intro j
    rw [div_mul_div_comm, mul_one]
    refine div_le_div_of_nonneg_left (by linarith) (by have : 0 ≤ (j : ℝ) * pyd := by positivity
                                                       linarith) ?_
    have hj : (0 : ℝ) ≤ j := Nat.cast_nonneg j
    nlinarith [mul_nonneg hj h0, mul_nonneg hj ha.le, mul_nonneg hj (sub_nonneg.2 h1.le)]
  have h2 : Summable (fun j : ℕ => (1 - pyd) / (1 + alpha) * (1 / ((j : ℝ) + 1))) :=
    Summable.of_nonneg_of_le (fun j => by have : 0 < 1 - pyd := by linarith
                                          positivity) hle hs
  have h3 : Summable (fun j : ℕ => (1 : ℝ) / ((j : ℝ) + 1)) := by
    have hc : (1 - pyd) / (1 + alpha) ≠ 0 := (div_pos (by linarith) (by linarith)).ne'
    exact (summable_mul_left_iff hc).1 h2
  have h4 : Summable (fun j : ℕ => (1 : ℝ) / (j : ℝ)) := by
    rw [← summable_nat_add_iff 1]
    refine h3.congr fun j => ?_
    push_cast
    rfl
  exact Real.not_summable_natCast_inv (by simpa using h4)

theorem py_stickClass {pyd alpha : ℝ} (h0 : 0 ≤ pyd) (h1 : pyd < 1) (ha : 0 < alpha) :
    StickClass (PY.core : WeightCore ℝ) (pySticks pyd alpha h0 h1 ha) PY.v (fun s => s.pyd = pyd ∧ s.alpha = alpha) := by
  refine ⟨fun ω t d hd ht => ?_⟩
  have h0' : 0 ≤ t.1.pyd := by rw [ht.1]; exact h0
  have h1' : t.1.pyd < 1 := by rw [ht.1]; exact h1
  have ha' : 0 < t.1.alpha := by rw [ht.2]; exact ha
  set v := stickDraw (pySticks pyd alpha h0 h1 ha) d ω t.2 with hv
  refine ⟨fun k => ({ t.1 with d := labels d, v := (List.range k).map v, w := (List.range k).map (stickSeq v) }, t.2 + k), ?_, ⟨rfl, fun k hk _ => ⟨⟨some ((List.range (k + 1)).map (stickSeq v)), ?_⟩, rfl⟩⟩, fun k _ => ⟨rfl, ht⟩⟩
  · have := PY.random_spec (ω := ω) { t.1 with d := labels d } t.2 (size := .none) (N := topLabel d) h0' h1' ha' (nonNegLabels_labels d) (.inr ⟨rfl, isMaxLabel_top hd⟩)
    have hval : M.betaValues ω t.2 ((List.range (topLabel d)).map (PY.post { t.1 with d := labels d })) = (List.range (topLabel d)).map v := by
      rw [betaValues_range]
      refine List.map_congr_left fun j _ => ?_
      simp only [hv, stickDraw, PY.post, pySticks, ht.1, ht.2]
    show PY.random .none ω ({ t.1 with d := labels d }, t.2) = _
    unfold wp at this
    split at this
    · rename_i r s' hr
      obtain ⟨e1, e2, e3, e4⟩ := this
      rw [hr, e2, e3, hval, stickWeights_seq]
      refine Prod.ext rfl (Prod.ext ?_ e4)
      rw [e1, e3, hval, stickWeights_seq]
    · exact this.elim
  · have := PY.complete_spec (ω := ω) ({ t.1 with d := labels d, v := (List.range k).map v, w := (List.range k).map (stickSeq v) } : PY ℝ) (t.2 + k) (size := .int ((k : ℤ) + 1)) (n := k + 1) rfl h0' h1' ha'
      (stickWeights_seq v k).symm
    have hl : k + 1 - ((List.range k).map v).length = 1 := by simp
    simp only [hl, List.range_one, List.map_cons, List.map_nil, M.betaValues, List.mapIdx_cons, List.mapIdx_nil, add_zero] at this
    have hb : ω.beta (t.2 + k) (1 - t.1.pyd) (t.1.alpha + ((((List.range k).map v).length : ℕ) : ℝ) * t.1.pyd) = v k := by
      simp only [hv, stickDraw, pySticks, nEq_top hk, nGt_top hk, ht.1, ht.2, Nat.cast_zero, add_zero, List.length_map, List.length_range]
    have hv1 : (List.range k).map v ++ [v k] = (List.range (k + 1)).map v := by rw [List.range_succ]; simp
    rw [hb, hv1] at this
    show (PY.core : WeightCore ℝ).complete (.int ((k : ℤ) + 1)) ω _ = _
    unfold wp at this
    split at this
    · rename_i r s' hr
      obtain ⟨e1, e2, e3, e4⟩ := this
      simp only [PY.core, M.bind_apply, hr, M.pure_apply]
      rw [e2, e3, stickWeights_seq]
      refine Prod.ext rfl (Prod.ext ?_ (by rw [e4]; rfl))
      show s'.1 = _
      rw [e1, e3, stickWeights_seq]
    · exact this.elim

end Verif.Mix
