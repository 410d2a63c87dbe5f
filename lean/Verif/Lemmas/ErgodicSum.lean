import Verif.Lemmas.ErgodicMean
import Verif.Lemmas.GibbsLimit
import Mathlib.Probability.Kernel.MeasurableLIntegral

/-!
# Averages of unbounded functions along a Markov chain

`accMean` is the mean of a function of the sum of the values of `g` along a chain.  If the correlations of bounded functions tend to zero, then the averages of every integrable `g ≥ 0` converge in
probability to its mean (`acc_average`).
-/

namespace Verif.Alt
open MeasureTheory ProbabilityTheory Filter
open scoped Topology ENNReal

set_option linter.unusedSectionVars false

variable {X : Type*} [MeasurableSpace X]

/-- A step of the chain, for functions with values in `[0, ∞]`. -/
noncomputable def kop (κ : Kernel X X) (ψ : X → ℝ≥0∞) (x : X) : ℝ≥0∞ := ∫⁻ r, ψ r ∂κ x

/-- The mean of `F` of `a` plus the sum of `T` values of `g`: one after `b` steps, then one after every `gap` further steps. -/
noncomputable def accMean (κ : Kernel X X) (gap : ℕ) (g : X → ℝ) (F : ℝ → ℝ≥0∞) : ℕ → ℕ → ℝ → X → ℝ≥0∞
  | 0, _ => fun a _ => F a
  | T + 1, b => fun a => (kop κ)^[b] (fun x => accMean κ gap g F T gap (a + g x) x)

/-- The mean of the sum of `T` values of `r`. -/
noncomputable def sumMean (κ : Kernel X X) (gap : ℕ) (r : X → ℝ≥0∞) : ℕ → ℕ → X → ℝ≥0∞
  | 0, _ => fun _ => 0
  | T + 1, b => (kop κ)^[b] (fun x => r x + sumMean κ gap r T gap x)

section
variable {κ : Kernel X X}

theorem measurable_kop {ψ : X → ℝ≥0∞} (h : Measurable ψ) : Measurable (kop κ ψ) := h.lintegral_kernel

theorem measurable_kop_iterate {ψ : X → ℝ≥0∞} (h : Measurable ψ) (b : ℕ) : Measurable ((kop κ)^[b] ψ) := by
  induction b with
  | zero => exact h
  | succ b ih => rw [Function.iterate_succ_apply']; exact measurable_kop ih

theorem kop_mono {φ ψ : X → ℝ≥0∞} (h : ∀ x, φ x ≤ ψ x) (b : ℕ) (x : X) : (kop κ)^[b] φ x ≤ (kop κ)^[b] ψ x := by
  induction b generalizing x with
  | zero => exact h x
  | succ b ih => rw [Function.iterate_succ_apply', Function.iterate_succ_apply']; exact lintegral_mono ih

theorem kop_add {φ ψ : X → ℝ≥0∞} (h : Measurable φ) (b : ℕ) : (kop κ)^[b] (fun x => φ x + ψ x) = fun x => (kop κ)^[b] φ x + (kop κ)^[b] ψ x := by
  induction b with
  | zero => rfl
  | succ b ih =>
    simp only [Function.iterate_succ_apply']
    rw [ih]
    funext x
    exact lintegral_add_left (measurable_kop_iterate h b) _

theorem kop_const_mul {ψ : X → ℝ≥0∞} {c : ℝ≥0∞} (hc : c ≠ ∞) (b : ℕ) : (kop κ)^[b] (fun x => c * ψ x) = fun x => c * (kop κ)^[b] ψ x := by
  induction b with
  | zero => rfl
  | succ b ih =>
    simp only [Function.iterate_succ_apply']
    rw [ih]
    funext x
    exact lintegral_const_mul' _ _ hc

theorem kop_const [IsMarkovKernel κ] (c : ℝ≥0∞) (b : ℕ) : (kop κ)^[b] (fun _ => c) = fun _ => c := by
  induction b with
  | zero => rfl
  | succ b ih =>
    rw [Function.iterate_succ_apply', ih]
    funext x
    simp [kop]

theorem measurable_kop_param {Ψ : ℝ × X → ℝ≥0∞} [IsMarkovKernel κ] (h : Measurable Ψ) (b : ℕ) : Measurable (fun q : ℝ × X => (kop κ)^[b] (fun x => Ψ (q.1, x)) q.2) := by
  induction b with
  | zero => exact h
  | succ b ih =>
    simp only [Function.iterate_succ_apply']
    have h1 : Measurable (fun t : (ℝ × X) × X => (kop κ)^[b] (fun x => Ψ (t.1.1, x)) t.2) := ih.comp ((measurable_fst.comp measurable_fst).prodMk measurable_snd)
    exact h1.lintegral_kernel_prod_right' (κ := κ.comap Prod.snd measurable_snd)

theorem measurable_accMean [IsMarkovKernel κ] {gap : ℕ} {g : X → ℝ} (hg : Measurable g) {F : ℝ → ℝ≥0∞} (hF : Measurable F) (T b : ℕ) : Measurable (fun q : ℝ × X => accMean κ gap g F T b q.1 q.2) := by
  induction T generalizing b with
  | zero => exact hF.comp measurable_fst
  | succ T ih =>
    exact measurable_kop_param (Ψ := fun q => accMean κ gap g F T gap (q.1 + g q.2) q.2) ((ih gap).comp ((measurable_fst.add (hg.comp measurable_snd)).prodMk measurable_snd)) b

theorem accMean_le_one [IsMarkovKernel κ] {gap : ℕ} {g : X → ℝ} {F : ℝ → ℝ≥0∞} (hF : ∀ a, F a ≤ 1) (T b : ℕ) (a : ℝ) (x : X) : accMean κ gap g F T b a x ≤ 1 := by
  induction T generalizing b a x with
  | zero => exact hF a
  | succ T ih =>
    refine (kop_mono (ψ := fun _ => 1) (fun x => ih gap (a + g x) x) b x).trans ?_
    rw [kop_const]

theorem measurable_sumMean {gap : ℕ} {r : X → ℝ≥0∞} (hr : Measurable r) (T b : ℕ) : Measurable (sumMean κ gap r T b) := by
  induction T generalizing b with
  | zero => exact measurable_const
  | succ T ih => exact measurable_kop_iterate (hr.add (ih gap)) b

theorem kop_iterate_mean {π : Measure X} (hinv : ∀ ψ : X → ℝ≥0∞, Measurable ψ → ∫⁻ x, kop κ ψ x ∂π = ∫⁻ x, ψ x ∂π) {ψ : X → ℝ≥0∞} (h : Measurable ψ) (b : ℕ) : ∫⁻ x, (kop κ)^[b] ψ x ∂π = ∫⁻ x, ψ x ∂π := by
  induction b with
  | zero => rfl
  | succ b ih =>
    rw [← ih]
    simp only [Function.iterate_succ_apply']
    exact hinv _ (measurable_kop_iterate h b)

theorem sumMean_mean {π : Measure X} (hinv : ∀ ψ : X → ℝ≥0∞, Measurable ψ → ∫⁻ x, kop κ ψ x ∂π = ∫⁻ x, ψ x ∂π) {gap : ℕ} {r : X → ℝ≥0∞} (hr : Measurable r) (T b : ℕ) :
    ∫⁻ x, sumMean κ gap r T b x ∂π = T * ∫⁻ x, r x ∂π := by
  induction T generalizing b with
  | zero => simp [sumMean]
  | succ T ih =>
    show ∫⁻ x, (kop κ)^[b] (fun x => r x + sumMean κ gap r T gap x) x ∂π = _
    rw [kop_iterate_mean hinv (ψ := fun x => r x + sumMean κ gap r T gap x) (hr.add (measurable_sumMean hr T gap)), lintegral_add_left hr, ih]
    push_cast
    ring

end

section
variable {κ : Kernel X X} [IsMarkovKernel κ] {π : Measure X} [IsProbabilityMeasure π] {U : (X → ℝ) → X → ℝ} (hU : MarkovOp π U)
  (hreal : ∀ {C : ℝ} {f : X → ℝ}, Bd C f → (∀ x, 0 ≤ f x) → kop κ (fun x => ENNReal.ofReal (f x)) = fun x => ENNReal.ofReal (U f x))
include hU hreal

theorem kop_real {C : ℝ} {f : X → ℝ} (hf : Bd C f) (h0 : ∀ x, 0 ≤ f x) (b : ℕ) : (kop κ)^[b] (fun x => ENNReal.ofReal (f x)) = fun x => ENNReal.ofReal (U^[b] f x) := by
  induction b with
  | zero => rfl
  | succ b ih =>
    simp only [Function.iterate_succ_apply']
    rw [ih, hreal ((hU.iterate b).bd hf) ((hU.iterate b).nonneg h0)]

/-- If `F` is bounded by the square of the part `h` of the sum plus the part `r`, then its mean is bounded by the moments. -/
theorem accMean_le {C : ℝ} {g h r : X → ℝ} (hh : Bd C h) (hr0 : ∀ x, 0 ≤ r x) {c0 : ℝ} (hg : ∀ x, g x = h x + r x + c0) {c c' : ℝ} (hc : 0 ≤ c) {gap : ℕ} {F : ℝ → ℝ≥0∞}
    (T b : ℕ) (e a1 a2 : ℝ) (ha2 : 0 ≤ a2) (hF : ∀ s1 s2, 0 ≤ s2 → F (s1 + s2 + e + T * c0) ≤ ENNReal.ofReal (c * s1 ^ 2) + ENNReal.ofReal c' * ENNReal.ofReal s2) (x : X) :
    accMean κ gap g F T b (a1 + a2 + e) x ≤ ENNReal.ofReal (c * (a1 ^ 2 + 2 * (a1 * mom1 U gap h T b x) + mom2 U gap h T b x)) +
      ENNReal.ofReal c' * (ENNReal.ofReal a2 + sumMean κ gap (fun x => ENNReal.ofReal (r x)) T b x) := by
  induction T generalizing b e a1 a2 x with
  | zero =>
    have := hF a1 a2 ha2
    simp only [Nat.cast_zero, zero_mul, add_zero] at this
    simpa [accMean, mom1, mom2, sumMean] using this
  | succ T ih =>
    have h1 : ∀ x, accMean κ gap g F T gap (a1 + a2 + e + g x) x ≤ ENNReal.ofReal (c * ((a1 + h x) ^ 2 + 2 * ((a1 + h x) * mom1 U gap h T gap x) + mom2 U gap h T gap x)) +
        ENNReal.ofReal c' * (ENNReal.ofReal a2 + (ENNReal.ofReal (r x) + sumMean κ gap (fun x => ENNReal.ofReal (r x)) T gap x)) := by
      intro x
      have h2 := ih gap (e + c0) (a1 + h x) (a2 + r x) (add_nonneg ha2 (hr0 x)) (fun s1 s2 hs => by
        have := hF s1 s2 hs
        push_cast at this
        rwa [show s1 + s2 + (e + c0) + T * c0 = s1 + s2 + e + (T + 1) * c0 by ring]) x
      rw [show a1 + h x + (a2 + r x) + (e + c0) = a1 + a2 + e + g x by rw [hg]; ring, ENNReal.ofReal_add ha2 (hr0 x), add_assoc (ENNReal.ofReal a2)] at h2
      exact h2
    obtain ⟨D, hD⟩ := mom_inner_bd (gap := gap) hU hh T gap a1
    have hD' := hD.smul c
    have hn0 : ∀ x, 0 ≤ (fun x => c * ((a1 + h x) ^ 2 + 2 * ((a1 + h x) * mom1 U gap h T gap x) + mom2 U gap h T gap x)) x := fun x => mul_nonneg hc (mom_nonneg hU hh T gap (a1 + h x) x)
    refine (kop_mono h1 b x).trans (le_of_eq ?_)
    rw [kop_add hD'.meas.ennreal_ofReal, kop_real hU hreal hD' hn0, kop_const_mul ENNReal.ofReal_ne_top, kop_add measurable_const, kop_const, (hU.iterate b).smul c hD]
    beta_reduce
    rw [mom_step hU hh]
    rfl

/-- **Averages of an integrable function** converge in probability to its mean, under every starting law with a density. -/
theorem acc_average (hinv : ∀ ψ : X → ℝ≥0∞, Measurable ψ → ∫⁻ x, kop κ ψ x ∂π = ∫⁻ x, ψ x ∂π) {gap : ℕ}
    (hcorr : ∀ {C : ℝ} {h : X → ℝ}, Bd C h → ∫ x, h x ∂π = 0 → Tendsto (fun k => corr π U gap h k) atTop (𝓝 0)) {g : X → ℝ} (hg : Measurable g) (hg0 : ∀ x, 0 ≤ g x) (hgi : Integrable g π) (b : ℕ)
    {ε : ℝ} (hε : 0 < ε) {μ : Measure X} [IsProbabilityMeasure μ] (hμ : μ ≪ π) :
    Tendsto (fun T : ℕ => ∫⁻ x, accMean κ gap g (fun S => if ε ≤ |S / T - ∫ q, g q ∂π| then 1 else 0) T b 0 x ∂μ) atTop (𝓝 0) := by
  set M := ∫ q, g q ∂π with hM
  let F : ℕ → ℝ → ℝ≥0∞ := fun T S => if ε ≤ |S / T - M| then 1 else 0
  have hFm : ∀ T, Measurable (F T) := fun T => Measurable.ite (measurableSet_le measurable_const ((measurable_id.div_const _).sub_const _).abs) measurable_const measurable_const
  let q : ℕ → X → ℝ≥0∞ := fun T x => accMean κ gap g (F T) T b 0 x
  have hq1 : ∀ T x, q T x ≤ 1 := fun T x => accMean_le_one (fun a => by show (if _ then _ else _) ≤ _; split <;> simp) T b 0 x
  have hqm : ∀ T, Measurable (q T) := fun T => (measurable_accMean hg (hFm T) T b).comp measurable_prodMk_left
  have hqb : ∀ T, Bd 1 (fun x => (q T x).toReal) := fun T => ⟨(hqm T).ennreal_toReal, fun x => by
    rw [abs_of_nonneg ENNReal.toReal_nonneg]
    exact ENNReal.toReal_mono ENNReal.one_ne_top (hq1 T x)⟩
  -- truncation
  have htail : Tendsto (fun L : ℕ => ∫ x, (g x - min (g x) L) ∂π) atTop (𝓝 0) := by
    have h1 : ∀ x, Tendsto (fun L : ℕ => g x - min (g x) L) atTop (𝓝 0) := by
      intro x
      refine tendsto_const_nhds.congr' ?_
      filter_upwards [eventually_ge_atTop ⌈g x⌉₊] with L hL
      rw [min_eq_left ((Nat.le_ceil _).trans (Nat.cast_le.2 hL)), sub_self]
    have h2 := tendsto_integral_of_dominated_convergence (μ := π) (F := fun (L : ℕ) x => g x - min (g x) L) (f := fun _ => 0) g (fun L => (hg.sub (hg.min measurable_const)).aestronglyMeasurable) hgi
      (fun L => ae_of_all _ fun x => by
        have : min (g x) (L : ℝ) ≤ g x := min_le_left _ _
        have h0 : 0 ≤ min (g x) (L : ℝ) := le_min (hg0 x) (Nat.cast_nonneg _)
        rw [Real.norm_eq_abs, abs_of_nonneg (sub_nonneg.2 this)]
        linarith) (ae_of_all _ h1)
    simpa using h2
  have hqlim : Tendsto (fun T => ∫⁻ x, q T x ∂π) atTop (𝓝 0) := by
    rw [ENNReal.tendsto_nhds_zero]
    intro δ hδ
    by_cases hδt : δ = ∞
    · exact Eventually.of_forall fun T => hδt ▸ le_top
    obtain ⟨δ', hδ', rfl⟩ : ∃ δ' : ℝ, 0 < δ' ∧ δ = ENNReal.ofReal δ' := ⟨δ.toReal, ENNReal.toReal_pos hδ.ne' hδt, (ENNReal.ofReal_toReal hδt).symm⟩
    obtain ⟨L, hL⟩ := (htail.eventually (gt_mem_nhds (show (0 : ℝ) < min (ε / 3) (δ' * ε / 6) by positivity))).exists
    let r : X → ℝ := fun x => g x - min (g x) L
    let ML := ∫ x, min (g x) (L : ℝ) ∂π
    let h : X → ℝ := fun x => min (g x) L - ML
    have hmb : Bd L (fun x => min (g x) (L : ℝ)) := ⟨hg.min measurable_const, fun x => by
      rw [abs_of_nonneg (le_min (hg0 x) (Nat.cast_nonneg _))]
      exact min_le_right _ _⟩
    have hh : Bd (L + |ML|) h := hmb.sub (Bd.const ML)
    have hr : Measurable r := hg.sub (hg.min measurable_const)
    have hr0 : ∀ x, 0 ≤ r x := fun x => sub_nonneg.2 (min_le_left _ _)
    have hri : Integrable r π := hgi.sub (hmb.integrable π)
    have hrM : ∫ x, r x ∂π = M - ML := integral_sub hgi (hmb.integrable π)
    have hh0 : ∫ x, h x ∂π = 0 := by
      show ∫ x, (min (g x) (L : ℝ) - ML) ∂π = 0
      rw [integral_sub (hmb.integrable π) (integrable_const _)]
      simp [ML]
    have hr1 : ∫ x, r x ∂π < ε / 3 := hL.trans_le (min_le_left _ _)
    have hr2 : ∫ x, r x ∂π < δ' * ε / 6 := hL.trans_le (min_le_right _ _)
    have hsmall := mom2_small hU hh (hcorr hh hh0) b
    have hsmall' : Tendsto (fun T : ℕ => 9 / ε ^ 2 * ((∫ x, mom2 U gap h T b x ∂π) / (T : ℝ) ^ 2)) atTop (𝓝 0) := by simpa using hsmall.const_mul (9 / ε ^ 2)
    filter_upwards [hsmall'.eventually (gt_mem_nhds (show (0 : ℝ) < δ' / 2 by positivity)), eventually_gt_atTop 0] with T hT hT0
    have hT' : (0 : ℝ) < T := Nat.cast_pos.2 hT0
    have hle : ∀ x, q T x ≤ ENNReal.ofReal (9 / (ε ^ 2 * T ^ 2) * mom2 U gap h T b x) + ENNReal.ofReal (3 / (ε * T)) * sumMean κ gap (fun x => ENNReal.ofReal (r x)) T b x := by
      intro x
      have h1 := accMean_le hU hreal hh hr0 (g := g) (c0 := ML) (fun x => by show g x = min (g x) L - ML + (g x - min (g x) L) + ML; ring) (c := 9 / (ε ^ 2 * T ^ 2)) (c' := 3 / (ε * T)) (by positivity)
        (gap := gap) (F := F T) T b 0 0 0 le_rfl (fun s1 s2 hs => by
          show (if ε ≤ |(s1 + s2 + 0 + T * ML) / T - M| then (1 : ℝ≥0∞) else 0) ≤ _
          split
          · rename_i hc
            rw [← ENNReal.ofReal_mul (by positivity), ← ENNReal.ofReal_add (by positivity) (by positivity), ← ENNReal.ofReal_one]
            refine ENNReal.ofReal_le_ofReal ?_
            have e1 : (s1 + s2 + 0 + T * ML) / T - M = s1 / T + s2 / T - ∫ x, r x ∂π := by rw [hrM]; field_simp; ring
            rw [e1] at hc
            have e0 : 0 ≤ ∫ x, r x ∂π := integral_nonneg hr0
            have e2 : |s1 / T + s2 / T - ∫ x, r x ∂π| ≤ |s1 / T| + s2 / T + ε / 3 := by
              refine (abs_sub _ _).trans ?_
              have := abs_add_le (s1 / T) (s2 / T)
              rw [abs_of_nonneg (div_nonneg hs hT'.le)] at this
              rw [abs_of_nonneg e0]
              linarith
            have e3 : 9 / (ε ^ 2 * T ^ 2) * s1 ^ 2 = (3 * |s1 / T| / ε) ^ 2 := by
              rw [div_pow, mul_pow, sq_abs, div_pow]; generalize s1 = z at *; field_simp; ring
            have e4 : 3 / (ε * T) * s2 = 3 * (s2 / T) / ε := by field_simp
            rw [e3, e4]
            have e5 : 0 ≤ s2 / T := div_nonneg hs hT'.le
            rcases le_or_gt (ε / 3) |s1 / T| with h3 | h3
            · have : 1 ≤ 3 * |s1 / T| / ε := by rw [le_div_iff₀ hε]; linarith
              have h5 : 0 ≤ 3 * (s2 / T) / ε := by positivity
              nlinarith
            · have : 1 ≤ 3 * (s2 / T) / ε := by rw [le_div_iff₀ hε]; linarith
              nlinarith [sq_nonneg (3 * |s1 / T| / ε)]
          · exact zero_le) x
      simpa using h1
    refine (lintegral_mono hle).trans ?_
    obtain ⟨D, hD⟩ := mom2_bd (gap := gap) hU hh T b
    have hm0 : ∀ x, 0 ≤ mom2 U gap h T b x := fun x => by
      have := mom_nonneg (gap := gap) hU hh T b 0 x
      simpa using this
    rw [lintegral_add_left (hD.meas.const_mul _).ennreal_ofReal, lintegral_const_mul' _ _ ENNReal.ofReal_ne_top, sumMean_mean hinv hr.ennreal_ofReal,
      ← ofReal_integral_eq_lintegral_ofReal ((hD.integrable π).const_mul _) (ae_of_all _ fun x => mul_nonneg (by positivity) (hm0 x)),
      ← ofReal_integral_eq_lintegral_ofReal hri (ae_of_all _ hr0), ← ENNReal.ofReal_natCast, ← ENNReal.ofReal_mul (Nat.cast_nonneg _), ← ENNReal.ofReal_mul (by positivity),
      ← ENNReal.ofReal_add (integral_nonneg fun x => mul_nonneg (by positivity) (hm0 x)) (mul_nonneg (by positivity) (mul_nonneg (Nat.cast_nonneg _) (integral_nonneg hr0)))]
    refine ENNReal.ofReal_le_ofReal ?_
    rw [integral_const_mul]
    have e1 : 9 / (ε ^ 2 * (T : ℝ) ^ 2) * ∫ x, mom2 U gap h T b x ∂π = 9 / ε ^ 2 * ((∫ x, mom2 U gap h T b x ∂π) / (T : ℝ) ^ 2) := by
      generalize (∫ x, mom2 U gap h T b x ∂π) = z
      field_simp
    have e2 : 3 / (ε * T) * (T * ∫ x, r x ∂π) = 3 / ε * ∫ x, r x ∂π := by
      generalize (∫ x, r x ∂π) = z
      field_simp
    have e3 : 3 / ε * ∫ x, r x ∂π ≤ δ' / 2 := by
      rw [div_mul_eq_mul_div, div_le_iff₀ hε]
      linarith
    rw [e1, e2]
    linarith
  have hlimr : Tendsto (fun T => ∫ x, (q T x).toReal ∂π) atTop (𝓝 0) := by
    have h1 := (ENNReal.tendsto_toReal ENNReal.zero_ne_top).comp hqlim
    refine h1.congr fun T => ?_
    exact (integral_toReal (hqm T).aemeasurable (ae_of_all _ fun x => (hq1 T x).trans_lt ENNReal.one_lt_top)).symm
  have hsq : Tendsto (fun T => ∫ x, (q T x).toReal ^ 2 ∂π) atTop (𝓝 0) := by
    refine squeeze_zero (fun T => integral_nonneg fun x => sq_nonneg _) (fun T => ?_) hlimr
    refine integral_mono ((hqb T).sq.integrable _) ((hqb T).integrable _) fun x => ?_
    have h1 : (q T x).toReal ≤ 1 := (le_abs_self _).trans ((hqb T).bd x)
    have h2 : 0 ≤ (q T x).toReal := ENNReal.toReal_nonneg
    show (q T x).toReal ^ 2 ≤ (q T x).toReal
    nlinarith
  have hfin := Mix.mean_tendsto_zero hqb hsq hμ
  have := (ENNReal.continuous_ofReal.tendsto 0).comp hfin
  rw [ENNReal.ofReal_zero] at this
  refine this.congr fun T => ?_
  show ENNReal.ofReal (∫ x, (q T x).toReal ∂μ) = ∫⁻ x, q T x ∂μ
  rw [ofReal_integral_eq_lintegral_ofReal ((hqb T).integrable μ) (ae_of_all _ fun x => ENNReal.toReal_nonneg)]
  exact lintegral_congr fun x => ENNReal.ofReal_toReal ((hq1 T x).trans_lt ENNReal.one_lt_top).ne

end

end Verif.Alt
