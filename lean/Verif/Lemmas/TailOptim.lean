import Verif.Lemmas.TailLaw

/-!
# `BetaInBeta`: sticks whose `p` depends on earlier draws

The next stick is `Beta(1 + c p, alpha + c (1 - p))` with `c = x / (1 - x)`.  Here `p` is any measurable function of the seeds before that of the stick: a value drawn
long ago ("static"), or the answer of an optimiser to the sticks so far ("max_likelihood", "inverse_sampling").
-/

set_option linter.unusedSectionVars false

namespace Verif
open MeasureTheory ProbabilityTheory Filter Spec Mix
open scoped ENNReal Topology

variable {G : RandGen}

/-- Near 0 the densities of all these Beta laws have one bound. -/
theorem betaMeasure_Iio_bound {c alpha : ℝ} (hc : 0 ≤ c) (ha : 0 < alpha) : ∃ C : ℝ, 0 ≤ C ∧ ∀ p : ℝ, 0 ≤ p → p ≤ 1 → ∀ ε : ℝ, ε ≤ 1 / 2 →
    betaMeasure (1 + c * p) (alpha + c * (1 - p)) (Set.Iio ε) ≤ (ENNReal.ofReal C • (volume.restrict (Set.Ioo (0 : ℝ) 1))) (Set.Iio ε) := by
  have hpos : ∀ p ∈ Set.Icc (0 : ℝ) 1, 0 < 1 + c * p ∧ 0 < alpha + c * (1 - p) := by
    intro p hp
    have h1 := mul_nonneg hc hp.1
    have h2 := mul_nonneg hc (by linarith [hp.2] : 0 ≤ 1 - p)
    constructor <;> linarith
  have hG : ContinuousOn Real.Gamma (Set.Ioi 0) := fun t ht =>
    (Real.differentiableAt_Gamma fun m => by have : (0 : ℝ) ≤ m := Nat.cast_nonneg m; have : (0 : ℝ) < t := ht; intro e; linarith).continuousAt.continuousWithinAt
  have hcont : ContinuousOn (fun p : ℝ => 1 / beta (1 + c * p) (alpha + c * (1 - p))) (Set.Icc 0 1) := by
    have h1 : ContinuousOn (fun p : ℝ => Real.Gamma (1 + c * p)) (Set.Icc 0 1) := hG.comp (by fun_prop) fun p hp => (hpos p hp).1
    have h2 : ContinuousOn (fun p : ℝ => Real.Gamma (alpha + c * (1 - p))) (Set.Icc 0 1) := hG.comp (by fun_prop) fun p hp => (hpos p hp).2
    have h3 : ContinuousOn (fun p : ℝ => Real.Gamma (1 + c * p + (alpha + c * (1 - p)))) (Set.Icc 0 1) :=
      hG.comp (by fun_prop) fun p hp => add_pos (hpos p hp).1 (hpos p hp).2
    unfold beta
    refine ContinuousOn.div continuousOn_const ((h1.mul h2).div h3 fun p hp => (Real.Gamma_pos_of_pos (add_pos (hpos p hp).1 (hpos p hp).2)).ne') fun p hp => ?_
    exact (div_pos (mul_pos (Real.Gamma_pos_of_pos (hpos p hp).1) (Real.Gamma_pos_of_pos (hpos p hp).2)) (Real.Gamma_pos_of_pos (add_pos (hpos p hp).1 (hpos p hp).2))).ne'
  obtain ⟨p0, hp0, hmax⟩ := isCompact_Icc.exists_isMaxOn ⟨0, by simp⟩ hcont
  have hB : ∀ p ∈ Set.Icc (0 : ℝ) 1, 0 < 1 / beta (1 + c * p) (alpha + c * (1 - p)) := fun p hp => one_div_pos.2 (beta_pos (hpos p hp).1 (hpos p hp).2)
  refine ⟨1 / beta (1 + c * p0) (alpha + c * (1 - p0)) * 2, by have := hB p0 hp0; positivity, fun p hp hp1 ε hε => ?_⟩
  have hpI : p ∈ Set.Icc (0 : ℝ) 1 := ⟨hp, hp1⟩
  have hle : 1 / beta (1 + c * p) (alpha + c * (1 - p)) ≤ 1 / beta (1 + c * p0) (alpha + c * (1 - p0)) := hmax hpI
  rw [betaMeasure, withDensity_apply _ measurableSet_Iio, Measure.smul_apply, Measure.restrict_apply measurableSet_Iio, smul_eq_mul]
  calc ∫⁻ z in Set.Iio ε, betaPDF (1 + c * p) (alpha + c * (1 - p)) z
      ≤ ∫⁻ z in Set.Iio ε, (Set.Ioo (0 : ℝ) 1).indicator (fun _ => ENNReal.ofReal (1 / beta (1 + c * p0) (alpha + c * (1 - p0)) * 2)) z := by
        refine setLIntegral_mono' measurableSet_Iio fun z hz => ?_
        by_cases h : z ∈ Set.Ioo (0 : ℝ) 1
        · rw [Set.indicator_of_mem h, betaPDF_of_pos_lt_one h.1 h.2]
          refine ENNReal.ofReal_le_ofReal ?_
          have hz2 : (1 : ℝ) / 2 ≤ 1 - z := by have : z < ε := hz; linarith
          have e1 : z ^ (1 + c * p - 1) ≤ 1 := Real.rpow_le_one h.1.le h.2.le (by have := mul_nonneg hc hp; linarith)
          have e2 : (1 - z) ^ (alpha + c * (1 - p) - 1) ≤ 2 := by
            rcases le_or_gt 1 (alpha + c * (1 - p)) with hb | hb
            · exact (Real.rpow_le_one (by linarith) (by linarith [h.1]) (by linarith)).trans one_le_two
            · have hb0 := (hpos p hpI).2
              calc (1 - z) ^ (alpha + c * (1 - p) - 1) ≤ (1 - z) ^ (-1 : ℝ) := Real.rpow_le_rpow_of_exponent_ge (by linarith) (by linarith [h.1]) (by linarith)
                _ = (1 - z)⁻¹ := Real.rpow_neg_one _
                _ ≤ (1 / 2)⁻¹ := inv_anti₀ (by norm_num) hz2
                _ = 2 := by norm_num
          have k1 := Real.rpow_nonneg h.1.le (1 + c * p - 1)
          have k2 := Real.rpow_nonneg (by linarith : (0 : ℝ) ≤ 1 - z) (alpha + c * (1 - p) - 1)
          have k3 := hB p hpI
          calc 1 / beta (1 + c * p) (alpha + c * (1 - p)) * z ^ (1 + c * p - 1) * (1 - z) ^ (alpha + c * (1 - p) - 1)
              ≤ 1 / beta (1 + c * p) (alpha + c * (1 - p)) * 1 * 2 := mul_le_mul (mul_le_mul_of_nonneg_left e1 k3.le) e2 k2 (by linarith)
            _ ≤ _ := by linarith
        · rw [Set.indicator_of_notMem h]
          refine le_of_eq ?_
          rcases le_or_gt z 0 with h0 | h0
          · exact betaPDF_eq_zero_of_nonpos h0
          · exact betaPDF_eq_zero_of_one_le (not_lt.1 fun h1 => h ⟨h0, h1⟩)
    _ = ENNReal.ofReal (1 / beta (1 + c * p0) (alpha + c * (1 - p0)) * 2) * volume (Set.Iio ε ∩ Set.Ioo (0 : ℝ) 1) := by
        rw [lintegral_indicator measurableSet_Ioo, lintegral_const, Measure.restrict_restrict measurableSet_Ioo, Measure.restrict_apply_univ, Set.inter_comm]

/-- Sticks whose `p` depends on earlier seeds only use up the mass. -/
theorem BIB.usesUp_adapted {c alpha : ℝ} (hc : 0 ≤ c) (ha : 0 < alpha) {p : ℕ → (ℕ → G.Seed) → ℝ} {q : ℕ → ℕ} (hm : ∀ i, Measurable (p i)) (hb : ∀ i, G.Before (q i) (p i))
    (hp : ∀ i u, 0 ≤ p i u ∧ p i u ≤ 1) : ∀ᵐ u ∂G.P, ¬ Tendsto (fun i => (G.oracle u).beta (q i) (1 + c * p i u) (alpha + c * (1 - p i u))) atTop (𝓝 0) := by
  obtain ⟨C, hC, hbound⟩ := betaMeasure_Iio_bound hc ha
  have hfin : IsFiniteMeasure (ENNReal.ofReal C • (volume.restrict (Set.Ioo (0 : ℝ) 1))) := by
    refine ⟨?_⟩
    rw [Measure.smul_apply, Measure.restrict_apply_univ, Real.volume_Ioo, smul_eq_mul]
    exact ENNReal.mul_lt_top ENNReal.ofReal_lt_top ENNReal.ofReal_lt_top
  refine ae_not_tendsto (ENNReal.ofReal C • (volume.restrict (Set.Ioo (0 : ℝ) 1))) ?_ ?_
  · rw [Measure.smul_apply, Measure.restrict_apply measurableSet_Iic, show Set.Iic (0 : ℝ) ∩ Set.Ioo 0 1 = ∅ from ?_, measure_empty, smul_zero]
    ext z
    simp only [Set.mem_inter_iff, Set.mem_Iic, Set.mem_Ioo, Set.mem_empty_iff_false, iff_false, not_and]
    intro h h'
    linarith
  · filter_upwards [Ioo_mem_nhdsGT (show (0 : ℝ) < 1 / 2 by norm_num)] with ε hε k
    have hg : Measurable (fun z : ℝ × G.Seed => G.beta (1 + c * z.1) (alpha + c * (1 - z.1)) z.2) := by
      have h : Measurable (fun z : ℝ × G.Seed => ((1 + c * z.1, alpha + c * (1 - z.1)), z.2)) := by fun_prop
      exact G.beta_meas.comp h
    have h1 : G.P {u | (G.oracle u).beta (q k) (1 + c * p k u) (alpha + c * (1 - p k u)) < ε} =
        ∫⁻ u, (fun (r : ℝ) (s : G.Seed) => {z : ℝ × G.Seed | G.beta (1 + c * z.1) (alpha + c * (1 - z.1)) z.2 < ε}.indicator (fun _ => (1 : ℝ≥0∞)) (r, s)) (p k u) (u (q k)) ∂G.P := by
      rw [← lintegral_indicator_one₀]
      · rfl
      · exact (hg.comp ((hm k).prodMk (measurable_pi_apply (q k))) measurableSet_Iio).nullMeasurableSet
    have h2 : Measurable (Function.uncurry (fun (r : ℝ) (s : G.Seed) => {z : ℝ × G.Seed | G.beta (1 + c * z.1) (alpha + c * (1 - z.1)) z.2 < ε}.indicator (fun _ => (1 : ℝ≥0∞)) (r, s))) :=
      measurable_const.indicator (hg measurableSet_Iio)
    rw [h1, G.lintegral_before le_rfl (hm k) (hb k) h2]
    calc _ ≤ ∫⁻ _u, (ENNReal.ofReal C • (volume.restrict (Set.Ioo (0 : ℝ) 1))) (Set.Iio ε) ∂G.P := by
          refine lintegral_mono fun u => ?_
          obtain ⟨h0, h1⟩ := hp k u
          have hpar : 0 < 1 + c * p k u ∧ 0 < alpha + c * (1 - p k u) := by
            have e1 := mul_nonneg hc h0
            have e2 := mul_nonneg hc (by linarith : 0 ≤ 1 - p k u)
            constructor <;> linarith
          have := hbound (p k u) h0 h1 ε hε.2.le
          rw [← G.beta_law _ _ hpar.1 hpar.2, Measure.map_apply (G.measurable_beta _ _) measurableSet_Iio] at this
          refine le_trans (le_of_eq ?_) this
          rw [← lintegral_indicator_one (G.measurable_beta _ _ measurableSet_Iio)]
          rfl
      _ = _ := by rw [lintegral_const, measure_univ, mul_one]

namespace BIB

/-! ### A `p` that was drawn earlier -/

theorem usesUp_drawn {x alpha a b : ℝ} (hx : 0 ≤ x ∧ x < 1) (ha : 0 < alpha) :
    ∀ᵐ u ∂G.P, ∀ q0 q, UsesUp (fun i => nextStick (G.oracle u) x alpha ((G.oracle u).beta q0 a b) none (q + 1 * i)) := by
  rw [ae_all_iff]
  intro q0
  rw [ae_all_iff]
  intro q
  have hc : 0 ≤ x / (1 - x) := div_nonneg hx.1 (by linarith [hx.2])
  have h := usesUp_adapted (G := G) hc ha (p := fun _ u => (G.oracle u).beta q0 a b) (q := fun i => q + (i + (q0 + 1)))
    (fun i => (G.measurable_beta a b).comp (measurable_pi_apply q0)) (fun i u u' h => congrArg (G.beta a b) (h q0 (by omega)))
    (fun i u => ⟨(G.oracle_legal u).beta_nonneg _ _ _, (G.oracle_legal u).beta_le_one _ _ _⟩)
  filter_upwards [h] with u hu
  refine usesUp_of_not_tendsto (fun i => ⟨(G.oracle_legal u).beta_nonneg _ _ _, (G.oracle_legal u).beta_le_one _ _ _⟩) fun ht => hu ?_
  have := ht.comp (tendsto_add_atTop_nat (q0 + 1))
  refine this.congr fun i => ?_
  simp [nextStick]

section
variable {ω : Oracle ℝ}

/-- With `p_method = "static"` and `0 < x < 1`, `p` is that of the constructor or one of the draws from its prior. -/
def PStatic (ω : Oracle ℝ) (x a b p : ℝ) (s : BIB ℝ) : Prop := (s.x = x ∧ s.a = a ∧ s.b = b ∧ s.pMethod = .static) ∧ (s.p = p ∨ ∃ q, s.p = ω.beta q a b)

variable {x a b p : ℝ}

theorem drawPriorP_static : KeepsR ω (PStatic ω x a b p) drawPriorP (fun _ => True) := by
  intro s hs
  show wp ω drawPriorP _ _ s
  unfold drawPriorP
  wp_simp
  refine ⟨fun _ => hs, fun _ _ => ⟨⟨hs.1, .inr ⟨s.2, ?_⟩⟩, trivial⟩⟩
  rw [hs.1.2.1, hs.1.2.2.1]

theorem randomP_static (hx : x ≠ 1) : KeepsR ω (PStatic ω x a b p) randomP (fun _ => True) := by
  unfold randomP
  refine KeepsR.bind KeepsR.self fun s hs => ?_
  rw [if_neg (by rw [hs.1.1]; exact hx), hs.1.2.2.2]
  keeps_step
  · keeps_step
  · keeps_step
    · exact drawPriorP_static

theorem complete_static (hx : x ≠ 1) (n : PySize) : KeepsR ω (PStatic ω x a b p) (complete n) (fun _ => True) := by
  have hrandomP := randomP_static (ω := ω) (a := a) (b := b) (p := p) hx
  unfold complete newSticks
  repeat' first | use_h hrandomP | hyp_step

theorem random_static (hx : x ≠ 1) (n : PySize) : KeepsR ω (PStatic ω x a b p) (random n) (fun _ => True) := by
  have hrandomP := randomP_static (ω := ω) (a := a) (b := b) (p := p) hx
  have hcomplete := complete_static (ω := ω) (a := a) (b := b) (p := p) hx
  unfold random randomFitted fittedSticks
  repeat' first | exact KeepsR.whenM fun _ => hrandomP | use_h hcomplete | hyp_step

theorem static_stable (hx : x ≠ 1) : (core : WeightCore ℝ).Stable ω (PStatic ω x a b p) where
  setD := fun _ _ h => h
  random := fun n => (random_static hx n).keeps
  complete := fun n => (KeepsR.bind (R' := fun _ => True) (complete_static hx n) fun _ _ => KeepsR.pure trivial).keeps

end

/-! ### A `p` that an optimiser computes from the sticks -/

/-- One turn of the loop of `tail`, for an object with the parameters `s`: sticks, `p` and stream position. -/
noncomputable def turn (ω : Oracle ℝ) (s : BIB ℝ) (z : List ℝ × ℝ × ℕ) : List ℝ × ℝ × ℕ :=
  let n := nextP ω s z.1 z.2.1 z.2.2
  (z.1 ++ [ω.beta n.2 (priorPar s n.1).1 (priorPar s n.1).2], n.1, n.2 + 1)

/-- The stick that turn `i` appends. -/
noncomputable def turnStick (ω : Oracle ℝ) (s : BIB ℝ) (z : List ℝ × ℝ × ℕ) (i : ℕ) : ℝ :=
  let y := (turn ω s)^[i] z
  let n := nextP ω s y.1 y.2.1 y.2.2
  ω.beta n.2 (priorPar s n.1).1 (priorPar s n.1).2

theorem turn_samePar {ω : Oracle ℝ} {s t : BIB ℝ} (h : SamePar s t) : turn ω t = turn ω s := by
  funext z
  unfold turn
  simp only [nextP_samePar h, priorPar, h.x, h.alpha]

theorem turnStick_samePar {ω : Oracle ℝ} {s t : BIB ℝ} (h : SamePar s t) (z : List ℝ × ℝ × ℕ) (i : ℕ) : turnStick ω t z i = turnStick ω s z i := by
  unfold turnStick
  simp only [turn_samePar h, nextP_samePar h, priorPar, h.x, h.alpha]

theorem feeds_turn {ω : Oracle ℝ} (hω : ω.Legal) (s : BIB ℝ) : Feeds (core (K := ℝ)) v ω
    (fun t => Valid t.1 ∧ (0 < t.1.x ∧ t.1.x < 1) ∧ t.1.d ≠ [] ∧ SamePar s t.1 ∧ t.1.w = stickWeights t.1.v ∧ t.1.v ≠ [])
    (fun t i => turnStick ω s (t.1.v, t.1.p, t.2) i) where
  stick := fun s h => h.2.2.2.2.1
  next := by
    rintro t ⟨hval, hx, hd, hs, h4, h5⟩
    have hl : t.1.w.length = t.1.v.length := by rw [h4, stickWeights_length]
    refine (wp_bind (complete _) _).2 ?_
    have hp := nextP_mem hω t.1 t.1.v ⟨hval.p0, hval.p1⟩ t.2
    have := complete_lt (ω := ω) (s := t) h5 hx.2 (randomP_next hval hx hd) (priorPar_pos hval hx.2 hp)
    rw [← hl] at this
    refine wp_mono this ?_ (fun _ _ h => h)
    rintro _ t' ⟨hq, ht⟩
    have hz : (t'.1.v, t'.1.p, t'.2) = turn ω s (t.1.v, t.1.p, t.2) := by
      rw [hq, ht, ← turn_samePar hs]
      rfl
    refine ⟨⟨?_, ?_, ?_, ?_, ?_, ?_⟩, ?_, fun i => ?_⟩
    · rw [ht]; exact { hval with p0 := hp.1, p1 := hp.2 }
    · rw [ht]; exact hx
    · rw [ht]; exact hd
    · rw [ht]; exact ⟨hs.x, hs.alpha, hs.a, hs.b, hs.m, hs.d⟩
    · rw [ht]
    · rw [ht]; simp
    · rw [ht, ← turnStick_samePar hs]; rfl
    · show turnStick ω s (t'.1.v, t'.1.p, t'.2) i = turnStick ω s (t.1.v, t.1.p, t.2) (i + 1)
      rw [hz]
      rfl

/-- The answer of the optimiser is a measurable function of the sticks, the parameters, the value to fall back to and the seed. -/
def OptimMeasurable (G : RandGen) : Prop := ∀ n k, Measurable (fun z : ((Fin n → ℝ) × (Fin k → ℝ)) × ℝ × G.Seed =>
  (G.optim (List.ofFn z.1.1) (List.ofFn z.1.2) z.2.2).getD z.2.1)

/-- The number of stream positions of one draw of `p`. -/
def pDraws (s : BIB ℝ) : ℕ := if s.pMethod = .inverseSampling then 2 else 1

theorem nextP_measurable (hG : OptimMeasurable G) {s : BIB ℝ} (hm : s.pMethod = .maxLikelihood ∨ s.pMethod = .inverseSampling) {n : ℕ}
    {g : (ℕ → G.Seed) → Fin n → ℝ} {h : (ℕ → G.Seed) → ℝ} {q : ℕ} (hg : Measurable g) (hh : Measurable h) (hgb : G.Before q g) (hhb : G.Before q h) :
    ∃ r : (ℕ → G.Seed) → ℝ, Measurable r ∧ G.Before (q + pDraws s) r ∧ ∀ u, nextP (G.oracle u) s (List.ofFn (g u)) (h u) q = (r u, q + pDraws s) := by
  rcases hm with hm | hm
  · refine ⟨fun u => (G.optim (List.ofFn (g u)) (List.ofFn ![s.x, s.alpha, s.a, s.b, h u]) (u q)).getD (h u), ?_, ?_, ?_⟩
    · refine (hG n 5).comp (f := fun u => ((g u, ![s.x, s.alpha, s.a, s.b, h u]), h u, u q)) ?_
      refine (hg.prodMk (measurable_pi_lambda _ fun i => ?_)).prodMk (hh.prodMk (measurable_pi_apply q))
      fin_cases i <;> first | exact measurable_const | exact hh
    · intro u u' e
      have e' : ∀ k < q, u k = u' k := fun k hk => e k (by omega)
      have hd : pDraws s = 1 := by unfold pDraws; rw [hm]; rfl
      simp only [hgb u u' e', hhb u u' e', e q (by omega)]
    · intro u
      have hd : pDraws s = 1 := by unfold pDraws; rw [hm]; rfl
      unfold nextP
      rw [hm, hd]
      simp [RandGen.oracle, seedOracle]
  · refine ⟨fun u => (G.optim (List.ofFn (g u)) (List.ofFn ![s.x, s.alpha, s.a, s.b, G.unif (u q)]) (u (q + 1))).getD (h u), ?_, ?_, ?_⟩
    · refine (hG n 5).comp (f := fun u => ((g u, ![s.x, s.alpha, s.a, s.b, G.unif (u q)]), h u, u (q + 1))) ?_
      refine (hg.prodMk (measurable_pi_lambda _ fun i => ?_)).prodMk (hh.prodMk (measurable_pi_apply (q + 1)))
      fin_cases i <;> first | exact measurable_const | exact G.unif_meas.comp (measurable_pi_apply q)
    · intro u u' e
      have e' : ∀ k < q, u k = u' k := fun k hk => e k (by omega)
      have hd : pDraws s = 2 := by unfold pDraws; rw [hm]; rfl
      simp only [hgb u u' e', hhb u u' e', e q (by omega), e (q + 1) (by omega)]
    · intro u
      have hd : pDraws s = 2 := by unfold pDraws; rw [hm]; rfl
      unfold nextP
      rw [hm, hd]
      simp [RandGen.oracle, seedOracle]

theorem turn_measurable (hG : OptimMeasurable G) {s : BIB ℝ} (hm : s.pMethod = .maxLikelihood ∨ s.pMethod = .inverseSampling) {n : ℕ} {g0 : (ℕ → G.Seed) → Fin n → ℝ}
    {h0 : (ℕ → G.Seed) → ℝ} {q0 : ℕ} (hg0 : Measurable g0) (hh0 : Measurable h0) (hgb0 : G.Before q0 g0) (hhb0 : G.Before q0 h0) :
    ∀ i, ∃ (g : (ℕ → G.Seed) → Fin (n + i) → ℝ) (h : (ℕ → G.Seed) → ℝ), Measurable g ∧ Measurable h ∧ G.Before (q0 + (pDraws s + 1) * i) g ∧
      G.Before (q0 + (pDraws s + 1) * i) h ∧ ∀ u, (turn (G.oracle u) s)^[i] (List.ofFn (g0 u), h0 u, q0) = (List.ofFn (g u), h u, q0 + (pDraws s + 1) * i) := by
  intro i
  induction i with
  | zero => exact ⟨g0, h0, hg0, hh0, by simpa using hgb0, by simpa using hhb0, fun u => by simp⟩
  | succ i ih =>
    obtain ⟨g, h, hg, hh, hgb, hhb, e⟩ := ih
    obtain ⟨r, hr, hrb, hn⟩ := nextP_measurable hG hm hg hh hgb hhb
    have hlt : ∀ k, k < q0 + (pDraws s + 1) * i → k < q0 + (pDraws s + 1) * (i + 1) := fun k hk => by rw [Nat.mul_succ]; omega
    have hle : q0 + (pDraws s + 1) * i + pDraws s + 1 = q0 + (pDraws s + 1) * (i + 1) := by rw [Nat.mul_succ]; omega
    let y : (ℕ → G.Seed) → ℝ := fun u => G.beta (priorPar s (r u)).1 (priorPar s (r u)).2 (u (q0 + (pDraws s + 1) * i + pDraws s))
    have hy : Measurable y := by
      have h : Measurable (fun u : ℕ → G.Seed => (((priorPar s (r u)).1, (priorPar s (r u)).2), u (q0 + (pDraws s + 1) * i + pDraws s))) := by
        unfold priorPar
        fun_prop
      exact G.beta_meas.comp h
    have hrb' : G.Before (q0 + (pDraws s + 1) * (i + 1)) r := fun u u' e => hrb u u' fun k hk => e k (by omega)
    refine ⟨fun u => Fin.snoc (α := fun _ => ℝ) (g u) (y u), r, ?_, hr, ?_, hrb', ?_⟩
    · refine measurable_pi_lambda _ fun j => ?_
      refine Fin.lastCases ?_ (fun j => ?_) j
      · simpa using hy
      · simp only [Fin.snoc_castSucc]
        exact (measurable_pi_apply j).comp hg
    · intro u u' e
      have h1 := hgb u u' fun k hk => e k (hlt k hk)
      have h2 : y u = y u' := by
        simp only [y, hrb' u u' e, e (q0 + (pDraws s + 1) * i + pDraws s) (by omega)]
      simp only [h1, h2]
    · intro u
      rw [Function.iterate_succ_apply', e u]
      unfold turn
      simp only [hn u, hle]
      refine Prod.ext ?_ rfl
      show _ = List.ofFn (n := n + i + 1) _
      rw [List.ofFn_succ']
      simp [y, RandGen.oracle, seedOracle]

theorem turn_usesUp (hG : OptimMeasurable G) {s : BIB ℝ} (hm : s.pMethod = .maxLikelihood ∨ s.pMethod = .inverseSampling) (hx : 0 ≤ s.x ∧ s.x < 1) (ha : 0 < s.alpha)
    {n : ℕ} {g0 : (ℕ → G.Seed) → Fin n → ℝ} {h0 : (ℕ → G.Seed) → ℝ} {q0 : ℕ} (hg0 : Measurable g0) (hh0 : Measurable h0) (hgb0 : G.Before q0 g0) (hhb0 : G.Before q0 h0)
    (hp : ∀ u, 0 ≤ h0 u ∧ h0 u ≤ 1) : ∀ᵐ u ∂G.P, UsesUp (fun i => turnStick (G.oracle u) s (List.ofFn (g0 u), h0 u, q0) i) := by
  have hc : 0 ≤ s.x / (1 - s.x) := div_nonneg hx.1 (by linarith [hx.2])
  choose g h hg hh hgb hhb e using turn_measurable hG hm hg0 hh0 hgb0 hhb0
  choose r hr hrb hn using fun i => nextP_measurable hG hm (hg i) (hh i) (hgb i) (hhb i)
  have hmem : ∀ i u, 0 ≤ h i u ∧ h i u ≤ 1 := by
    intro i
    induction i with
    | zero => intro u; have := e 0 u; simp only [Function.iterate_zero, id_eq, Prod.mk.injEq] at this; rw [← this.2.1]; exact hp u
    | succ i ih =>
      intro u
      have h1 := e (i + 1) u
      rw [Function.iterate_succ_apply', e i u] at h1
      have h2 := congrArg (fun z => z.2.1) h1
      simp only [turn] at h2
      rw [← h2]
      exact nextP_mem (G.oracle_legal u) s _ (ih u) _
  have h1 := usesUp_adapted (G := G) hc ha (p := r) (q := fun i => q0 + (pDraws s + 1) * i + pDraws s) hr hrb (fun i u => by
    have := nextP_mem (G.oracle_legal u) s (List.ofFn (g i u)) (hmem i u) (q0 + (pDraws s + 1) * i)
    rwa [hn i u] at this)
  filter_upwards [h1] with u hu
  refine usesUp_of_not_tendsto (fun i => ⟨(G.oracle_legal u).beta_nonneg _ _ _, (G.oracle_legal u).beta_le_one _ _ _⟩) fun ht => hu (ht.congr fun i => ?_)
  unfold turnStick
  simp only [e i u, hn i u, priorPar]

/-- From given sticks. -/
theorem turn_usesUp_held (hG : OptimMeasurable G) {s : BIB ℝ} (hm : s.pMethod = .maxLikelihood ∨ s.pMethod = .inverseSampling) (hx : 0 ≤ s.x ∧ s.x < 1) (ha : 0 < s.alpha)
    (v0 : List ℝ) {p0 : ℝ} (hp : 0 ≤ p0 ∧ p0 ≤ 1) (q0 : ℕ) : ∀ᵐ u ∂G.P, UsesUp (fun i => turnStick (G.oracle u) s (v0, p0, q0) i) := by
  have h := turn_usesUp hG hm hx ha (g0 := fun _ => v0.get) (h0 := fun _ => p0) (q0 := q0) measurable_const measurable_const (fun _ _ _ => rfl) (fun _ _ _ => rfl) fun _ => hp
  simpa only [List.ofFn_get] using h

/-- After the first draw of an object without weights: `random(1)` on labels. -/
theorem turn_usesUp_first (hG : OptimMeasurable G) {s : BIB ℝ × ℕ} (hval : Valid s.1) (hm : s.1.pMethod = .maxLikelihood ∨ s.1.pMethod = .inverseSampling)
    (hx : 0 < s.1.x ∧ s.1.x < 1) (hd : s.1.d ≠ []) : ∀ᵐ u ∂G.P, ∀ r t, random (.int 1) (G.oracle u) s = (.ok r, t) →
      UsesUp (fun i => turnStick (G.oracle u) s.1 (t.1.v, t.1.p, t.2) i) := by
  obtain ⟨r1, hr1, hb1, e1⟩ := nextP_measurable hG hm (n := 0) (g := fun _ => Fin.elim0) (h := fun _ => s.1.p) (q := s.2) measurable_const measurable_const (fun _ _ _ => rfl)
    (fun _ _ _ => rfl)
  simp only [List.ofFn_zero] at e1
  let y : (ℕ → G.Seed) → ℝ := fun u => G.beta (postPar s.1 (r1 u) 0).1 (postPar s.1 (r1 u) 0).2 (u (s.2 + pDraws s.1))
  have hy : Measurable y := by
    have h : Measurable (fun u : ℕ → G.Seed => (((postPar s.1 (r1 u) 0).1, (postPar s.1 (r1 u) 0).2), u (s.2 + pDraws s.1))) := by
      unfold postPar
      fun_prop
    exact G.beta_meas.comp h
  have hyb : G.Before (s.2 + pDraws s.1 + 1) y := by
    intro u u' e
    simp only [y, hb1 u u' fun k hk => e k (by omega), e (s.2 + pDraws s.1) (by omega)]
  obtain ⟨r2, hr2, hb2, e2⟩ := nextP_measurable hG hm (n := 1) (g := fun u _ => y u) (h := r1) (q := s.2 + pDraws s.1 + 1) (measurable_pi_lambda _ fun _ => hy) hr1
    (fun u u' e => funext fun _ => hyb u u' e) (fun u u' e => hb1 u u' fun k hk => e k (by omega))
  have hr1m : ∀ u, 0 ≤ r1 u ∧ r1 u ≤ 1 := fun u => by
    have := nextP_mem (G.oracle_legal u) s.1 [] ⟨hval.p0, hval.p1⟩ s.2
    rwa [e1 u] at this
  have hr2m : ∀ u, 0 ≤ r2 u ∧ r2 u ≤ 1 := fun u => by
    have := nextP_mem (G.oracle_legal u) s.1 (List.ofFn fun _ : Fin 1 => y u) (hr1m u) (s.2 + pDraws s.1 + 1)
    rwa [e2 u] at this
  have hmain := turn_usesUp hG hm ⟨hx.1.le, hx.2⟩ hval.alpha (g0 := fun u (_ : Fin 1) => y u) (h0 := r2) (q0 := s.2 + pDraws s.1 + 1 + pDraws s.1) (measurable_pi_lambda _ fun _ => hy) hr2
    (fun u u' e => funext fun _ => hyb u u' fun k hk => e k (by omega)) hb2 hr2m
  obtain ⟨N, hN⟩ : ∃ N : ℕ, IsMaxLabel s.1.d ((N : ℤ) - 1) := by
    cases hb : Py.maxInt s.1.d with
    | ok k =>
      have hk := maxInt_eq_ok_iff.1 hb
      have := hval.labels k hk.1
      exact ⟨(k + 1).toNat, by rw [show (((k + 1).toNat : ℕ) : ℤ) - 1 = k by omega]; exact hk⟩
    | error e =>
      cases h' : s.1.d with
      | nil => exact absurd h' hd
      | cons y ys => rw [h'] at hb; simp [Py.maxInt] at hb
  have hN1 : min 1 N = 1 := by
    have := hval.labels _ hN.1
    omega
  filter_upwards [hmain] with u hu r t hr
  obtain ⟨r', t', v1, v2, k1, -, k3, k4, k5, k6, k7⟩ := random_next (G.oracle_legal u) hval hx hd (size := .int 1) (n := 1) (.inl ⟨rfl, le_rfl⟩) hN
  rw [hr] at k1
  cases k1
  rw [hN1, e1 u] at k4 k5 k6 k7
  have hv2 : v2 = [] := List.length_eq_zero_iff.1 k6.length
  have hv1 : v1 = [y u] := by
    have h0 := k4.draw 0 (by omega)
    match v1, k4.length, h0 with
    | [z], _, h0 => simpa [y, RandGen.oracle, seedOracle] using h0
  subst hv1 hv2
  have e2' := e2 u
  rw [show List.ofFn (fun _ : Fin 1 => y u) = [y u] by simp] at e2'
  dsimp only at k5 k7
  rw [e2'] at k5 k7
  rw [k3, k5, k7]
  simpa using hu

end BIB

end Verif
