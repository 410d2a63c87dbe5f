import Verif.Lemmas.AltKernel
import Mathlib.Analysis.Asymptotics.SpecificAsymptotics

/-!
# Averages along a Markov chain

The second moment of a sum along a stationary chain whose correlations tend to zero grows slower than the square of the number of terms.  The sum has one term after `b` steps, and then one after
every `gap` further steps.
-/

namespace Verif.Alt
open MeasureTheory ProbabilityTheory Filter
open scoped Topology

variable {X : Type*} [MeasurableSpace X] {π : Measure X} [IsProbabilityMeasure π]

/-- A Markov operator on bounded functions that keeps the mean under `π`. -/
structure MarkovOp (π : Measure X) (U : (X → ℝ) → X → ℝ) : Prop where
  bd : ∀ {C : ℝ} {f : X → ℝ}, Bd C f → Bd C (U f)
  add : ∀ {C D : ℝ} {f g : X → ℝ}, Bd C f → Bd D g → U (fun x => f x + g x) = fun x => U f x + U g x
  smul : ∀ {C : ℝ} (c : ℝ) {f : X → ℝ}, Bd C f → U (fun x => c * f x) = fun x => c * U f x
  one : ∀ c : ℝ, U (fun _ => c) = fun _ => c
  nonneg : ∀ {f : X → ℝ}, (∀ x, 0 ≤ f x) → ∀ x, 0 ≤ U f x
  mean : ∀ {C : ℝ} {f : X → ℝ}, Bd C f → ∫ x, U f x ∂π = ∫ x, f x ∂π

omit [IsProbabilityMeasure π] in
theorem MarkovOp.iterate {U : (X → ℝ) → X → ℝ} (hU : MarkovOp π U) (b : ℕ) : MarkovOp π (U^[b]) := by
  induction b with
  | zero => exact ⟨fun h => h, fun _ _ => rfl, fun _ _ _ => rfl, fun _ => rfl, fun h => h, fun _ => rfl⟩
  | succ b ih =>
    refine ⟨fun h => ?_, fun h h' => ?_, fun c _ h => ?_, fun c => ?_, fun h => ?_, fun h => ?_⟩
    · rw [Function.iterate_succ_apply']; exact hU.bd (ih.bd h)
    · simp only [Function.iterate_succ_apply']
      rw [ih.add h h', hU.add (ih.bd h) (ih.bd h')]
    · simp only [Function.iterate_succ_apply']
      rw [ih.smul c h, hU.smul c (ih.bd h)]
    · rw [Function.iterate_succ_apply', ih.one, hU.one]
    · rw [Function.iterate_succ_apply']; exact hU.nonneg (ih.nonneg h)
    · simp only [Function.iterate_succ_apply']
      rw [hU.mean (ih.bd h), ih.mean h]

theorem Bd.add {C D : ℝ} {f g : X → ℝ} (hf : Bd C f) (hg : Bd D g) : Bd (C + D) (fun x => f x + g x) :=
  ⟨hf.meas.add hg.meas, fun x => (abs_add_le _ _).trans (add_le_add (hf.bd x) (hg.bd x))⟩

theorem Bd.smul {C : ℝ} (c : ℝ) {f : X → ℝ} (hf : Bd C f) : Bd (|c| * C) (fun x => c * f x) :=
  ⟨hf.meas.const_mul c, fun x => by rw [abs_mul]; exact mul_le_mul_of_nonneg_left (hf.bd x) (abs_nonneg c)⟩

section
variable (U : (X → ℝ) → X → ℝ) (gap : ℕ) (h : X → ℝ)

/-- The mean of the sum of `T` terms. -/
noncomputable def mom1 : ℕ → ℕ → X → ℝ
  | 0, _ => fun _ => 0
  | T + 1, b => U^[b] (fun x => h x + mom1 T gap x)

/-- The mean of its square. -/
noncomputable def mom2 : ℕ → ℕ → X → ℝ
  | 0, _ => fun _ => 0
  | T + 1, b => U^[b] (fun x => h x ^ 2 + 2 * (h x * mom1 U gap h T gap x) + mom2 T gap x)

variable {U gap h} (hU : MarkovOp π U) {C : ℝ} (hh : Bd C h)
include hU hh

omit [IsProbabilityMeasure π] in
theorem mom1_bd (T b : ℕ) : ∃ D, Bd D (mom1 U gap h T b) := by
  induction T generalizing b with
  | zero => exact ⟨_, Bd.const 0⟩
  | succ T ih =>
    obtain ⟨D, hD⟩ := ih gap
    exact ⟨_, (hU.iterate b).bd (hh.add hD)⟩

omit [IsProbabilityMeasure π] hU in
theorem mom2_inner (T : ℕ) {D E : ℝ} (h1 : Bd D (mom1 U gap h T gap)) (h2 : Bd E (mom2 U gap h T gap)) :
    Bd (C * C + |2| * (C * D) + E) (fun x => h x ^ 2 + 2 * (h x * mom1 U gap h T gap x) + mom2 U gap h T gap x) := by
  have := (hh.sq.add ((hh.mul h1).smul 2)).add h2
  exact this

omit [IsProbabilityMeasure π] in
theorem mom2_bd (T b : ℕ) : ∃ D, Bd D (mom2 U gap h T b) := by
  induction T generalizing b with
  | zero => exact ⟨_, Bd.const 0⟩
  | succ T ih =>
    obtain ⟨D, hD⟩ := mom1_bd (gap := gap) hU hh T gap
    obtain ⟨E, hE⟩ := ih gap
    exact ⟨_, (hU.iterate b).bd (mom2_inner hh T hD hE)⟩

omit [IsProbabilityMeasure π] in
/-- The square of the sum, started from `a`. -/
theorem mom_step (T b : ℕ) (a : ℝ) (x : X) : U^[b] (fun x => (a + h x) ^ 2 + 2 * ((a + h x) * mom1 U gap h T gap x) + mom2 U gap h T gap x) x =
    a ^ 2 + 2 * (a * mom1 U gap h (T + 1) b x) + mom2 U gap h (T + 1) b x := by
  obtain ⟨D, hD⟩ := mom1_bd (gap := gap) hU hh T gap
  obtain ⟨E, hE⟩ := mom2_bd (gap := gap) hU hh T gap
  have e : (fun x => (a + h x) ^ 2 + 2 * ((a + h x) * mom1 U gap h T gap x) + mom2 U gap h T gap x) =
      fun x => (a ^ 2 + 2 * a * (h x + mom1 U gap h T gap x)) + (h x ^ 2 + 2 * (h x * mom1 U gap h T gap x) + mom2 U gap h T gap x) := by
    funext x
    ring
  have b1 : Bd _ (fun x => h x + mom1 U gap h T gap x) := hh.add hD
  have b2 : Bd _ (fun x => 2 * a * (h x + mom1 U gap h T gap x)) := b1.smul (2 * a)
  have b3 : Bd _ (fun x => a ^ 2 + 2 * a * (h x + mom1 U gap h T gap x)) := (Bd.const (a ^ 2)).add b2
  rw [e, (hU.iterate b).add b3 (mom2_inner hh T hD hE), (hU.iterate b).add (Bd.const (a ^ 2)) b2, (hU.iterate b).smul _ b1, (hU.iterate b).one]
  show a ^ 2 + 2 * a * mom1 U gap h (T + 1) b x + mom2 U gap h (T + 1) b x = _
  ring

omit [IsProbabilityMeasure π] in
theorem mom_inner_bd (T b : ℕ) (a : ℝ) : ∃ D, Bd D (fun x => (a + h x) ^ 2 + 2 * ((a + h x) * mom1 U gap h T b x) + mom2 U gap h T b x) := by
  obtain ⟨D, hD⟩ := mom1_bd (gap := gap) hU hh T b
  obtain ⟨E, hE⟩ := mom2_bd (gap := gap) hU hh T b
  have b0 : Bd _ (fun x => a + h x) := (Bd.const a).add hh
  exact ⟨_, (b0.sq.add ((b0.mul hD).smul 2)).add hE⟩

omit [IsProbabilityMeasure π] in
theorem mom_nonneg (T b : ℕ) (a : ℝ) (x : X) : 0 ≤ a ^ 2 + 2 * (a * mom1 U gap h T b x) + mom2 U gap h T b x := by
  induction T generalizing b a x with
  | zero => simp only [mom1, mom2, mul_zero, add_zero]; positivity
  | succ T ih =>
    rw [← mom_step hU hh]
    exact (hU.iterate b).nonneg (fun x => ih gap (a + h x) x) x

/-! ### Growth of the second moment -/

omit [IsProbabilityMeasure π] hh in
theorem iterate_sum (b T : ℕ) {f : ℕ → X → ℝ} (hf : ∀ k, Bd C (f k)) : U^[b] (fun x => ∑ k ∈ Finset.range T, f k x) = fun x => ∑ k ∈ Finset.range T, U^[b] (f k) x := by
  induction T with
  | zero => simp only [Finset.range_zero, Finset.sum_empty]; exact (hU.iterate b).one 0
  | succ T ih =>
    have hb : ∀ T, ∃ D, Bd D (fun x => ∑ k ∈ Finset.range T, f k x) := by
      intro T
      induction T with
      | zero => simp only [Finset.range_zero, Finset.sum_empty]; exact ⟨_, Bd.const 0⟩
      | succ T ih =>
        obtain ⟨D, hD⟩ := ih
        simp only [Finset.sum_range_succ]
        exact ⟨_, hD.add (hf T)⟩
    obtain ⟨D, hD⟩ := hb T
    simp only [Finset.sum_range_succ]
    rw [(hU.iterate b).add hD (hf T), ih]

omit [IsProbabilityMeasure π] in
theorem mom1_sum (T : ℕ) : mom1 U gap h T gap = fun x => ∑ k ∈ Finset.range T, U^[gap * (k + 1)] h x := by
  induction T with
  | zero => rfl
  | succ T ih =>
    have hb : ∀ k, Bd C (U^[gap * (k + 1)] h) := fun k => (hU.iterate _).bd hh
    obtain ⟨D, hD⟩ := mom1_bd (gap := gap) hU hh T gap
    unfold mom1
    rw [(hU.iterate gap).add hh hD, ih, iterate_sum hU gap T hb]
    funext x
    rw [Finset.sum_range_succ', add_comm]
    congr 1
    · refine Finset.sum_congr rfl fun k _ => ?_
      rw [← Function.iterate_add_apply]
      ring_nf
    · rw [zero_add, mul_one]

/-- The correlation of two terms at distance `k + 1`. -/
noncomputable def corr (π : Measure X) (U : (X → ℝ) → X → ℝ) (gap : ℕ) (h : X → ℝ) (k : ℕ) : ℝ := ∫ x, h x * U^[gap * (k + 1)] h x ∂π

theorem mom2_le (T b : ℕ) : ∫ x, mom2 U gap h T b x ∂π ≤ T * (C * C) + 2 * T * ∑ k ∈ Finset.range T, |corr π U gap h k| := by
  induction T generalizing b with
  | zero => simp [mom2]
  | succ T ih =>
    obtain ⟨D, hD⟩ := mom1_bd (gap := gap) hU hh T gap
    obtain ⟨E, hE⟩ := mom2_bd (gap := gap) hU hh T gap
    have b1 : Bd _ (fun x => h x * mom1 U gap h T gap x) := hh.mul hD
    have b2 : Bd _ (fun x => 2 * (h x * mom1 U gap h T gap x)) := b1.smul 2
    have i3 : Integrable (fun x => h x ^ 2 + 2 * (h x * mom1 U gap h T gap x)) π := (hh.sq.add b2).integrable π
    have e1 : ∫ x, mom2 U gap h (T + 1) b x ∂π = ∫ x, h x ^ 2 ∂π + 2 * ∫ x, h x * mom1 U gap h T gap x ∂π + ∫ x, mom2 U gap h T gap x ∂π := by
      show ∫ x, U^[b] (fun x => h x ^ 2 + 2 * (h x * mom1 U gap h T gap x) + mom2 U gap h T gap x) x ∂π = _
      rw [(hU.iterate b).mean (mom2_inner hh T hD hE), integral_add i3 (hE.integrable π), integral_add (hh.sq.integrable π) (b2.integrable π), integral_const_mul]
    have e2 : ∫ x, h x * mom1 U gap h T gap x ∂π = ∑ k ∈ Finset.range T, corr π U gap h k := by
      rw [mom1_sum hU hh]
      simp only [Finset.mul_sum]
      exact integral_finsetSum _ fun k _ => (hh.mul ((hU.iterate (gap * (k + 1))).bd hh)).integrable π
    have e3 : ∫ x, h x ^ 2 ∂π ≤ C * C := by
      have : ∫ x, h x ^ 2 ∂π ≤ ∫ _, C * C ∂π := integral_mono (hh.sq.integrable π) (integrable_const _) fun x => (le_abs_self _).trans (hh.sq.bd x)
      simpa using this
    have e4 : ∑ k ∈ Finset.range T, corr π U gap h k ≤ ∑ k ∈ Finset.range T, |corr π U gap h k| := Finset.sum_le_sum fun k _ => le_abs_self _
    have e5 : ∑ k ∈ Finset.range T, |corr π U gap h k| ≤ ∑ k ∈ Finset.range (T + 1), |corr π U gap h k| := by
      rw [Finset.sum_range_succ]
      linarith [abs_nonneg (corr π U gap h T)]
    have e6 := ih gap
    rw [e1, e2]
    push_cast
    have h0 : (0 : ℝ) ≤ T := Nat.cast_nonneg T
    nlinarith [mul_le_mul_of_nonneg_left e5 h0]

/-- The second moment is of smaller order than `T ^ 2`. -/
theorem mom2_small (hc : Tendsto (fun k => corr π U gap h k) atTop (𝓝 0)) (b : ℕ) : Tendsto (fun T : ℕ => (∫ x, mom2 U gap h T b x ∂π) / (T : ℝ) ^ 2) atTop (𝓝 0) := by
  have h1 : Tendsto (fun T : ℕ => (T : ℝ)⁻¹ • ∑ k ∈ Finset.range T, |corr π U gap h k|) atTop (𝓝 0) := by
    have := hc.abs
    rw [abs_zero] at this
    exact Filter.Tendsto.cesaro_smul this
  have h2 : Tendsto (fun T : ℕ => (C * C) * (T : ℝ)⁻¹ + 2 * ((T : ℝ)⁻¹ • ∑ k ∈ Finset.range T, |corr π U gap h k|)) atTop (𝓝 0) := by
    have h3 : Tendsto (fun T : ℕ => (T : ℝ)⁻¹) atTop (𝓝 0) := tendsto_inv_atTop_nhds_zero_nat
    have := (h3.const_mul (C * C)).add (h1.const_mul 2)
    simpa using this
  refine squeeze_zero (fun T => div_nonneg (integral_nonneg fun x => ?_) (by positivity)) (fun T => ?_) h2
  · have := mom_nonneg (gap := gap) hU hh T b 0 x
    simpa using this
  · rcases Nat.eq_zero_or_pos T with rfl | hT
    · simp [mom2]
    · have hT' : (0 : ℝ) < T := Nat.cast_pos.2 hT
      rw [div_le_iff₀ (by positivity)]
      refine (mom2_le hU hh T b).trans (le_of_eq ?_)
      rw [smul_eq_mul]
      field_simp

end

end Verif.Alt
