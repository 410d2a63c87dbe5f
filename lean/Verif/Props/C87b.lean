import Verif.Props.C87

/-!
# C87, the geometric process summed over the groups

`C87_geometric_total`: with two or more groups the mean weights reported by `GeometricProcess` add up to more than the expected total of the weights under the fitted law.
-/

set_option linter.unusedSectionVars false

namespace Verif
open MeasureTheory ProbabilityTheory

/-- The moments of what is left over. -/
theorem beta_rest {a b : ℝ} (ha : 0 < a) (hb : 0 < b) (k : ℕ) : (b / (a + b)) ^ k ≤ beta a (b + k) / beta a b ∧ (2 ≤ k → (b / (a + b)) ^ k < beta a (b + k) / beta a b) := by
  have step : ∀ k : ℕ, beta a (b + (k + 1 : ℕ)) / beta a b = beta a (b + k) / beta a b * ((b + k) / (a + b + k)) := by
    intro k
    have h1 : 0 < b + k := by positivity
    have h2 : 0 < a + b + k := by positivity
    have g1 := Real.Gamma_pos_of_pos h2
    have g2 := Real.Gamma_pos_of_pos (add_pos ha hb)
    have g3 := Real.Gamma_pos_of_pos ha
    have g4 := Real.Gamma_pos_of_pos hb
    unfold beta
    rw [show a + (b + ((k + 1 : ℕ) : ℝ)) = (a + b + k) + 1 by push_cast; ring, show b + ((k + 1 : ℕ) : ℝ) = (b + k) + 1 by push_cast; ring, Real.Gamma_add_one h1.ne',
      Real.Gamma_add_one h2.ne', show a + (b + (k : ℝ)) = a + b + k by ring]
    field_simp
  have le : ∀ k : ℕ, b / (a + b) ≤ (b + k) / (a + b + k) := by
    intro k
    rw [div_le_div_iff₀ (by positivity) (by positivity)]
    have : (0 : ℝ) ≤ a * k := by positivity
    nlinarith
  have b0 : beta a (b + (0 : ℕ)) / beta a b = 1 := by
    have : beta a b ≠ 0 := (beta_pos ha hb).ne'
    simp [this]
  have r0 : 0 < b / (a + b) := div_pos hb (by linarith)
  have main : ∀ k : ℕ, (b / (a + b)) ^ k ≤ beta a (b + k) / beta a b := by
    intro k
    induction k with
    | zero => rw [b0, pow_zero]
    | succ k ih =>
      rw [step, pow_succ]
      exact mul_le_mul ih (le k) r0.le ((pow_pos r0 k).le.trans ih)
  refine ⟨main k, fun hk => ?_⟩
  obtain ⟨k, rfl⟩ : ∃ n, k = n + 2 := ⟨k - 2, by omega⟩
  rw [show k + 2 = (k + 1) + 1 from rfl, step, pow_succ]
  refine mul_lt_mul' (main _) ?_ r0.le ((pow_pos r0 _).trans_le (main _))
  rw [div_lt_div_iff₀ (by positivity) (by positivity)]
  have : (0 : ℝ) < a * ((k + 1 : ℕ) : ℝ) := by positivity
  nlinarith

/-- **The total**: what `GeometricProcess` reports for its `k` groups adds up to `1 - (1 - m)^k`, with the mean `m` of the fitted Beta law; the expected total is smaller from two groups on. -/
theorem C87_geometric_total {a b : ℝ} (ha : 0 < a) (hb : 0 < b) {q : List (List ℝ)} (hq : NonNegMatrix q) {v : GVar ℝ} (h : Geo.fitVariational a b q = .ok v) :
    0 < v.a ∧ 0 < v.b ∧ ∑ j ∈ Finset.range q.length, Geo.meanWj v j = 1 - (v.b / (v.a + v.b)) ^ q.length ∧
    (2 ≤ q.length → ∫ p, ∑ j ∈ Finset.range q.length, p * (1 - p) ^ j ∂betaMeasure v.a v.b < ∑ j ∈ Finset.range q.length, Geo.meanWj v j) := by
  obtain ⟨h1, h2, h3⟩ := Geo.fit_pos ha hb hq h
  have geo : ∀ (x : ℝ) (n : ℕ), ∑ j ∈ Finset.range n, x * (1 - x) ^ j = 1 - (1 - x) ^ n := by
    intro x n
    induction n with
    | zero => simp
    | succ n ih => rw [Finset.sum_range_succ, ih]; ring
  have e : 1 - v.a / (v.a + v.b) = v.b / (v.a + v.b) := by
    have : v.a + v.b ≠ 0 := by linarith
    field_simp
    ring
  have hs : ∑ j ∈ Finset.range q.length, Geo.meanWj v j = 1 - (v.b / (v.a + v.b)) ^ q.length := by
    rw [← e, ← geo]
    refine Finset.sum_congr rfl fun j hj => ?_
    unfold Geo.meanWj
    rw [h3, if_neg (by have := Finset.mem_range.1 hj; omega)]
  refine ⟨h1, h2, hs, fun hk => ?_⟩
  rw [hs]
  have hp : IsProbabilityMeasure (betaMeasure v.a v.b) := isProbabilityMeasureBeta h1 h2
  have hm : ∫ p, (1 - p) ^ q.length ∂betaMeasure v.a v.b = beta v.a (v.b + q.length) / beta v.a v.b := by
    have := integral_beta_moment h1 h2 0 q.length
    simp only [pow_zero, one_mul, Nat.cast_zero, add_zero] at this
    rw [integral_betaMeasure h1 h2, this]
  have lt := (beta_rest h1 h2 q.length).2 hk
  have hi : Integrable (fun p : ℝ => (1 - p) ^ q.length) (betaMeasure v.a v.b) := by
    by_contra hni
    rw [integral_undef hni] at hm
    have : 0 < beta v.a (v.b + q.length) / beta v.a v.b := lt.trans' (pow_pos (div_pos h2 (by linarith)) _)
    linarith
  simp only [geo]
  rw [integral_sub (integrable_const _) hi, integral_const, probReal_univ, one_smul, hm]
  linarith

/-- Two groups: `3/4` against an expected `7/10`. -/
example : ∃ v : GVar ℝ, Geo.fitVariational 1 1 [[1 / 2, 1 / 2], [1 / 2, 1 / 2]] = .ok v ∧
    ∫ p, ∑ j ∈ Finset.range 2, p * (1 - p) ^ j ∂betaMeasure v.a v.b < ∑ j ∈ Finset.range 2, Geo.meanWj v j := by
  refine ⟨_, rfl, ?_⟩
  exact (C87_geometric_total (a := 1) (b := 1) one_pos one_pos (q := [[1 / 2, 1 / 2], [1 / 2, 1 / 2]]) (by
    intro r hr x hx
    simp only [List.mem_cons, List.not_mem_nil, or_false, or_self] at hr
    subst hr
    simp only [List.mem_cons, List.not_mem_nil, or_false, or_self] at hx
    subst hx
    norm_num) rfl).2.2.2 le_rfl
end Verif
