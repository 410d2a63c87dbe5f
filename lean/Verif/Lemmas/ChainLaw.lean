import Verif.Lemmas.Law
import Mathlib.RingTheory.Polynomial.Bernstein

/-! # The Beta-Binomial step leaves the Beta law unchanged -/

namespace Verif
open MeasureTheory ProbabilityTheory Spec
open scoped ENNReal

theorem integral_betaMeasure {a b : ℝ} (ha : 0 < a) (hb : 0 < b) (f : ℝ → ℝ) : ∫ x, f x ∂betaMeasure a b = ∫ x, f x * betaPDFReal a b x := by
  unfold betaMeasure
  have : (betaPDF a b) = fun x => ((betaPDFReal a b x).toNNReal : ℝ≥0∞) := rfl
  rw [this, integral_withDensity_eq_integral_smul (measurable_betaPDFReal a b).real_toNNReal]
  refine integral_congr_ae (Filter.Eventually.of_forall fun x => ?_)
  change ((betaPDFReal a b x).toNNReal : ℝ) * f x = _
  rw [Real.coe_toNNReal _ (betaPDFReal_nonneg ha hb x), mul_comm]

theorem beta_succ {a b : ℝ} (ha : 0 < a) (hb : 0 < b) : beta (a + 1) b / beta a b = a / (a + b) := by
  have h1 := (Real.Gamma_pos_of_pos ha).ne'
  have h2 := (Real.Gamma_pos_of_pos hb).ne'
  have h3 := (Real.Gamma_pos_of_pos (add_pos ha hb)).ne'
  have h4 := (add_pos ha hb).ne'
  rw [beta, beta, Real.Gamma_add_one ha.ne', show a + 1 + b = (a + b) + 1 by ring, Real.Gamma_add_one h4]
  field_simp

/-- The mean of the Beta law. -/
theorem betaMeasure_mean {a b : ℝ} (ha : 0 < a) (hb : 0 < b) : ∫ x, x ∂betaMeasure a b = a / (a + b) := by
  rw [integral_betaMeasure ha hb]
  have := integral_beta_moment ha hb 1 0
  simp only [pow_one, pow_zero, mul_one, Nat.cast_one, Nat.cast_zero, add_zero] at this
  rw [this, beta_succ ha hb]

namespace RandGen
variable (G : RandGen)

theorem beta_unit (a b : ℝ) (s : G.Seed) : 0 ≤ G.beta a b s ∧ G.beta a b s ≤ 1 :=
  ⟨(G.oracle_legal fun _ => s).beta_nonneg 0 a b, (G.oracle_legal fun _ => s).beta_le_one 0 a b⟩

theorem binom_range {n : ℕ} (p : ℝ) (s : G.Seed) : ∃ k ≤ n, G.binom n p s = k := by
  have h1 := (G.oracle_legal fun _ => s).binom_nonneg 0 n p (by omega)
  have h2 := (G.oracle_legal fun _ => s).binom_le 0 n p (by omega)
  change 0 ≤ G.binom n p s at h1
  change G.binom n p s ≤ n at h2
  exact ⟨(G.binom n p s).toNat, by omega, by omega⟩

theorem beta_mean {a b : ℝ} (ha : 0 < a) (hb : 0 < b) : ∫ s, G.beta a b s ∂G.ν = a / (a + b) := by
  rw [← betaMeasure_mean ha hb, ← G.beta_law a b ha hb, integral_map (G.measurable_beta a b).aemeasurable (by fun_prop)]

theorem lintegral_binom {n : ℕ} {p : ℝ} (h0 : 0 ≤ p) (h1 : p ≤ 1) (F : ℤ → ℝ≥0∞) :
    ∫⁻ s, F (G.binom n p s) ∂G.ν = ∑ k ∈ Finset.range (n + 1), ENNReal.ofReal (n.choose k * p ^ k * (1 - p) ^ (n - k)) * F k := by
  have hm : ∀ k : ℕ, MeasurableSet {s | G.binom n p s = (k : ℤ)} := fun k => (G.measurable_binom n p) (measurableSet_singleton (k : ℤ))
  have e : ∀ s, F (G.binom n p s) = ∑ k ∈ Finset.range (n + 1), {s | G.binom n p s = (k : ℤ)}.indicator (fun _ => F k) s := by
    intro s
    obtain ⟨k, hk, h⟩ := G.binom_range p s
    rw [Finset.sum_eq_single k]
    · rw [Set.indicator_of_mem (show s ∈ {s | G.binom n p s = (k : ℤ)} from h), h]
    · intro l _ hl
      refine Set.indicator_of_notMem (fun h' => hl ?_) _
      have : G.binom n p s = l := h'
      omega
    · intro h'; simp at h'; omega
  simp_rw [e]
  rw [lintegral_finsetSum _ (fun k _ => measurable_const.indicator (hm k))]
  refine Finset.sum_congr rfl fun k _ => ?_
  rw [lintegral_indicator (hm k), lintegral_const, Measure.restrict_apply_univ, ← G.binom_law n k p h0 h1, Measure.real, ENNReal.ofReal_toReal (measure_ne_top _ _), mul_comm]

theorem integral_binom {n : ℕ} {p : ℝ} (h0 : 0 ≤ p) (h1 : p ≤ 1) (F : ℤ → ℝ) :
    ∫ s, F (G.binom n p s) ∂G.ν = ∑ k ∈ Finset.range (n + 1), n.choose k * p ^ k * (1 - p) ^ (n - k) * F k := by
  have hm : ∀ k : ℕ, MeasurableSet {s | G.binom n p s = (k : ℤ)} := fun k => (G.measurable_binom n p) (measurableSet_singleton (k : ℤ))
  have e : ∀ s, F (G.binom n p s) = ∑ k ∈ Finset.range (n + 1), {s | G.binom n p s = (k : ℤ)}.indicator (fun _ => F k) s := by
    intro s
    obtain ⟨k, hk, h⟩ := G.binom_range p s
    rw [Finset.sum_eq_single k]
    · rw [Set.indicator_of_mem (show s ∈ {s | G.binom n p s = (k : ℤ)} from h), h]
    · intro l _ hl
      refine Set.indicator_of_notMem (fun h' => hl ?_) _
      have : G.binom n p s = l := h'
      omega
    · intro h'; simp at h'; omega
  simp_rw [e]
  rw [integral_finsetSum _ (fun k _ => (integrable_const _).indicator (hm k))]
  refine Finset.sum_congr rfl fun k _ => ?_
  rw [integral_indicator (hm k), setIntegral_const, smul_eq_mul, G.binom_law n k p h0 h1]

/-- The mean of the binomial law. -/
theorem binom_mean {n : ℕ} {p : ℝ} (h0 : 0 ≤ p) (h1 : p ≤ 1) : ∫ s, (G.binom n p s : ℝ) ∂G.ν = n * p := by
  rw [G.integral_binom h0 h1 (fun z => (z : ℝ))]
  have h := congrArg (Polynomial.eval p) (bernsteinPolynomial.sum_smul ℝ n)
  simp only [Polynomial.eval_finset_sum, Polynomial.eval_smul, Polynomial.eval_X, nsmul_eq_mul, bernsteinPolynomial] at h
  simp only [Polynomial.eval_mul, Polynomial.eval_natCast, Polynomial.eval_pow, Polynomial.eval_X, Polynomial.eval_sub, Polynomial.eval_one] at h
  rw [← h]
  refine Finset.sum_congr rfl fun k _ => ?_
  simp
  ring

/-- One step of the Beta-Binomial chain: if `H` has the law `Beta(a, b)`, then so has a stick drawn from `Beta(a + z, b + n - z)` with `z ~ Binomial(n, H)`. -/
theorem law_step {a b : ℝ} (ha : 0 < a) (hb : 0 < b) {n i j : ℕ} (hij : i < j) {H : (ℕ → G.Seed) → ℝ} (hm : Measurable H) (hbf : G.Before i H)
    (hl : G.P.map H = betaMeasure a b) (h01 : ∀ u, 0 ≤ H u ∧ H u ≤ 1) :
    G.P.map (fun u => G.beta (a + (G.binom n (H u) (u i) : ℝ)) (b + n - (G.binom n (H u) (u i) : ℝ)) (u j)) = betaMeasure a b := by
  have hZ : Measurable (fun u => G.binom n (H u) (u i)) := (G.binom_meas n).comp (hm.prodMk (measurable_pi_apply i))
  have hZb : G.Before (i + 1) (fun u => G.binom n (H u) (u i)) := fun u u' h => by
    dsimp only
    rw [hbf u u' fun k hk => h k (by omega), h i (by omega)]
  have hF : Measurable (fun x : ℤ × G.Seed => G.beta (a + (x.1 : ℝ)) (b + n - (x.1 : ℝ)) x.2) := by
    have h1 : Measurable (fun z : ℤ => (z : ℝ)) := measurable_from_top
    exact G.beta_meas.comp (((measurable_const.add (h1.comp measurable_fst)).prodMk (measurable_const.sub (h1.comp measurable_fst))).prodMk measurable_snd)
  have hV : Measurable (fun u : ℕ → G.Seed => G.beta (a + (G.binom n (H u) (u i) : ℝ)) (b + n - (G.binom n (H u) (u i) : ℝ)) (u j)) :=
    hF.comp (hZ.prodMk (measurable_pi_apply j))
  ext B hB
  rw [Measure.map_apply hV hB, ← lintegral_indicator_one (hV hB)]
  have e1 : ∫⁻ u, (((fun u : ℕ → G.Seed => G.beta (a + (G.binom n (H u) (u i) : ℝ)) (b + n - (G.binom n (H u) (u i) : ℝ)) (u j)) ⁻¹' B).indicator 1 u : ℝ≥0∞) ∂G.P
      = ∫⁻ u, ∫⁻ s, B.indicator (1 : ℝ → ℝ≥0∞) (G.beta (a + (G.binom n (H u) (u i) : ℝ)) (b + n - (G.binom n (H u) (u i) : ℝ)) s) ∂G.ν ∂G.P := by
    rw [← G.lintegral_before (Nat.succ_le_of_lt hij) hZ hZb (f := fun z s => B.indicator (1 : ℝ → ℝ≥0∞) (G.beta (a + (z : ℝ)) (b + n - (z : ℝ)) s))
      ((measurable_one.indicator hB).comp hF)]
    rfl
  have e2 : ∀ u, ∫⁻ s, B.indicator (1 : ℝ → ℝ≥0∞) (G.beta (a + (G.binom n (H u) (u i) : ℝ)) (b + n - (G.binom n (H u) (u i) : ℝ)) s) ∂G.ν =
      betaMeasure (a + (G.binom n (H u) (u i) : ℝ)) (b + n - (G.binom n (H u) (u i) : ℝ)) B := by
    intro u
    obtain ⟨k, hk, h⟩ := G.binom_range (n := n) (H u) (u i)
    have hk' : (k : ℝ) ≤ n := by exact_mod_cast hk
    rw [h, Int.cast_natCast, ← G.beta_law (a + k) (b + n - k) (by positivity) (by linarith), Measure.map_apply (G.measurable_beta _ _) hB,
      ← lintegral_indicator_one ((G.measurable_beta _ _) hB)]
    rfl
  rw [e1]
  simp_rw [e2]
  rw [G.lintegral_before le_rfl hm hbf (f := fun x s => betaMeasure (a + (G.binom n x s : ℝ)) (b + n - (G.binom n x s : ℝ)) B)
    ((measurable_from_top (f := fun z : ℤ => betaMeasure (a + (z : ℝ)) (b + n - (z : ℝ)) B)).comp (G.binom_meas n))]
  have e3 : ∀ u, ∫⁻ s, betaMeasure (a + (G.binom n (H u) s : ℝ)) (b + n - (G.binom n (H u) s : ℝ)) B ∂G.ν =
      ∑ k ∈ Finset.range (n + 1), ENNReal.ofReal (n.choose k * H u ^ k * (1 - H u) ^ (n - k)) * betaMeasure (a + k) (b + n - k) B := by
    intro u
    rw [G.lintegral_binom (h01 u).1 (h01 u).2 (fun z => betaMeasure (a + (z : ℝ)) (b + n - (z : ℝ)) B)]
    simp
  simp_rw [e3]
  have e4 : ∫⁻ u, ∑ k ∈ Finset.range (n + 1), ENNReal.ofReal (n.choose k * H u ^ k * (1 - H u) ^ (n - k)) * betaMeasure (a + k) (b + n - k) B ∂G.P =
      ∫⁻ x, ∑ k ∈ Finset.range (n + 1), ENNReal.ofReal (n.choose k * x ^ k * (1 - x) ^ (n - k)) * betaMeasure (a + k) (b + n - k) B ∂betaMeasure a b := by
    rw [← hl, lintegral_map _ hm]
    fun_prop
  rw [e4, lintegral_finsetSum _ (fun k _ => by fun_prop)]
  have e5 : ∀ k ∈ Finset.range (n + 1), ∫⁻ x, ENNReal.ofReal (n.choose k * x ^ k * (1 - x) ^ (n - k)) * betaMeasure (a + k) (b + n - k) B ∂betaMeasure a b =
      ∫⁻ x in B, ENNReal.ofReal (n.choose k * x ^ k * (1 - x) ^ (n - k)) ∂betaMeasure a b := by
    intro k hk
    have hk' : k ≤ n := by simp at hk; omega
    have hw := betaMeasure_bayes ha hb k (n - k)
    have hnk : b + ((n - k : ℕ) : ℝ) = b + n - k := by push_cast [hk']; ring
    rw [hnk] at hw
    have hae : (fun x : ℝ => ENNReal.ofReal (n.choose k * x ^ k * (1 - x) ^ (n - k))) =ᵐ[betaMeasure a b]
        fun x => (n.choose k : ℝ≥0∞) * (ENNReal.ofReal x ^ k * ENNReal.ofReal (1 - x) ^ (n - k)) := by
      filter_upwards [betaMeasure_ae] with x hx
      have hx1 : 0 ≤ 1 - x := by linarith [hx.2]
      rw [mul_assoc, ENNReal.ofReal_mul (by positivity), ENNReal.ofReal_mul (pow_nonneg hx.1.le _), ENNReal.ofReal_pow hx.1.le, ENNReal.ofReal_pow hx1, ENNReal.ofReal_natCast]
    rw [lintegral_mul_const _ (by fun_prop), lintegral_congr_ae hae, lintegral_congr_ae (ae_restrict_of_ae hae), lintegral_const_mul _ (by fun_prop),
      lintegral_const_mul _ (by fun_prop), ← withDensity_apply _ hB, hw, Measure.smul_apply, smul_eq_mul, mul_assoc]
    congr 2
    have h1 := congrArg (fun μ : Measure ℝ => μ Set.univ) hw
    simp only [withDensity_apply _ MeasurableSet.univ, Measure.restrict_univ, Measure.smul_apply, smul_eq_mul] at h1
    have hk'' : (k : ℝ) ≤ n := by exact_mod_cast hk'
    have := isProbabilityMeasureBeta (show 0 < a + (k : ℝ) by positivity) (show 0 < b + (n : ℝ) - k by linarith)
    rw [h1, measure_univ, mul_one]
  rw [Finset.sum_congr rfl e5, ← lintegral_finsetSum _ (fun k _ => by fun_prop)]
  have hone : ∀ᵐ x ∂betaMeasure a b, ∑ k ∈ Finset.range (n + 1), ENNReal.ofReal (n.choose k * x ^ k * (1 - x) ^ (n - k)) = 1 := by
    filter_upwards [betaMeasure_ae] with x hx
    have hx1 : 0 ≤ 1 - x := by linarith [hx.2]
    rw [← ENNReal.ofReal_sum_of_nonneg (fun k _ => by have := hx.1; positivity), ← ENNReal.ofReal_one]
    congr 1
    have := add_pow x (1 - x) n
    rw [show x + (1 - x) = 1 by ring, one_pow] at this
    exact (Finset.sum_congr rfl fun k _ => by ring).trans this.symm
  rw [lintegral_congr_ae (ae_restrict_of_ae hone), setLIntegral_one]

end RandGen
end Verif
