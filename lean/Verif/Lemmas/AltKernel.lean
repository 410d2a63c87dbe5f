import Mathlib.Probability.Kernel.Invariance
import Mathlib.Probability.Kernel.Composition.IntegralCompProd
import Mathlib.MeasureTheory.Function.L2Space
import Mathlib.MeasureTheory.Function.LpSpace.Complete

/-!
# Alternating two reversible kernels

A Markov kernel `κ` that is reversible and idempotent, followed by a reversible Markov kernel `η`.  If the only functions that both leave fixed are the constants, then the means of a bounded function
along the iterates of the composed kernel converge in mean square to its mean under the invariant law.
-/

namespace Verif.Alt
open MeasureTheory ProbabilityTheory Filter
open scoped ENNReal Topology

variable {X : Type*} [MeasurableSpace X] {π : Measure X} [IsProbabilityMeasure π]

/-- A measurable function bounded by `C`. -/
structure Bd (C : ℝ) (f : X → ℝ) : Prop where
  meas : Measurable f
  bd : ∀ x, |f x| ≤ C

theorem Bd.sub {C D : ℝ} {f g : X → ℝ} (hf : Bd C f) (hg : Bd D g) : Bd (C + D) (fun x => f x - g x) :=
  ⟨hf.meas.sub hg.meas, fun x => (abs_sub _ _).trans (add_le_add (hf.bd x) (hg.bd x))⟩

theorem Bd.mul {C D : ℝ} {f g : X → ℝ} (hf : Bd C f) (hg : Bd D g) : Bd (C * D) (fun x => f x * g x) :=
  ⟨hf.meas.mul hg.meas, fun x => by
    rw [abs_mul]
    exact mul_le_mul (hf.bd x) (hg.bd x) (abs_nonneg _) ((abs_nonneg _).trans (hf.bd x))⟩

theorem Bd.sq {C : ℝ} {f : X → ℝ} (hf : Bd C f) : Bd (C * C) (fun x => f x ^ 2) := by
  have := hf.mul hf
  simpa only [pow_two] using this

theorem Bd.const (c : ℝ) : Bd |c| (fun _ : X => c) := ⟨measurable_const, fun _ => le_rfl⟩

theorem Bd.integrable {C : ℝ} {f : X → ℝ} (hf : Bd C f) (μ : Measure X) [IsFiniteMeasure μ] : Integrable f μ :=
  Integrable.of_bound hf.meas.aestronglyMeasurable C (Eventually.of_forall hf.bd)

theorem Bd.memLp {C : ℝ} {f : X → ℝ} (hf : Bd C f) (μ : Measure X) [IsFiniteMeasure μ] (q : ℝ≥0∞) : MemLp f q μ :=
  MemLp.of_bound hf.meas.aestronglyMeasurable C (Eventually.of_forall hf.bd)

theorem int_sq_sub {C D : ℝ} {f g : X → ℝ} (hf : Bd C f) (hg : Bd D g) (μ : Measure X) [IsFiniteMeasure μ] :
    ∫ x, (f x - g x) ^ 2 ∂μ = ∫ x, f x ^ 2 ∂μ - 2 * ∫ x, f x * g x ∂μ + ∫ x, g x ^ 2 ∂μ := by
  have i1 := hf.sq.integrable μ
  have i2 := hg.sq.integrable μ
  have i3 := ((hf.mul hg).integrable μ).const_mul 2
  have i4 : Integrable (fun x => f x ^ 2 - 2 * (f x * g x)) μ := i1.sub i3
  have e : (fun x => (f x - g x) ^ 2) = fun x => (f x ^ 2 - 2 * (f x * g x)) + g x ^ 2 := by funext x; ring
  rw [e, integral_add i4 i2, integral_sub i1 i3, integral_const_mul]

/-! ### The operator of a kernel -/

/-- The mean of `f` after a step. -/
noncomputable def act (κ : Kernel X X) (f : X → ℝ) : X → ℝ := fun x => ∫ y, f y ∂κ x

section
variable {κ : Kernel X X} [IsMarkovKernel κ] {C D : ℝ} {f g : X → ℝ}

theorem Bd.act (hf : Bd C f) : Bd C (act κ f) := by
  refine ⟨(hf.meas.stronglyMeasurable.integral_kernel).measurable, fun x => ?_⟩
  have := norm_integral_le_of_norm_le_const (μ := κ x) (f := f) (C := C) (Eventually.of_forall fun y => by rw [Real.norm_eq_abs]; exact hf.bd y)
  simpa [Alt.act] using this

theorem act_sub (hf : Bd C f) (hg : Bd D g) : Alt.act κ (fun x => f x - g x) = fun x => Alt.act κ f x - Alt.act κ g x :=
  funext fun x => integral_sub (hf.integrable (κ x)) (hg.integrable (κ x))

theorem act_const (c : ℝ) : Alt.act κ (fun _ => c) = fun _ => c := by
  funext x
  simp [Alt.act]

omit [IsProbabilityMeasure π] in
theorem reversible_swap [IsFiniteMeasure π] (h : κ.IsReversible π) : (π ⊗ₘ κ).map Prod.swap = π ⊗ₘ κ := by
  refine Measure.ext_prod fun {s t} hs ht => ?_
  rw [Measure.map_apply measurable_swap (hs.prod ht), Set.preimage_swap_prod, Measure.compProd_apply_prod ht hs, Measure.compProd_apply_prod hs ht]
  exact h ht hs

theorem act_symm (h : κ.IsReversible π) (hf : Bd C f) (hg : Bd D g) : ∫ x, f x * Alt.act κ g x ∂π = ∫ x, Alt.act κ f x * g x ∂π := by
  have hb : ∀ {f g : X → ℝ} {C D : ℝ}, Bd C f → Bd D g → Integrable (fun z : X × X => f z.1 * g z.2) (π ⊗ₘ κ) := by
    intro f g C D hf hg
    exact Bd.integrable (C := C * D) (f := fun z : X × X => f z.1 * g z.2) ⟨(hf.meas.comp measurable_fst).mul (hg.meas.comp measurable_snd), fun z => by
      rw [abs_mul]
      exact mul_le_mul (hf.bd _) (hg.bd _) (abs_nonneg _) ((abs_nonneg _).trans (hf.bd z.1))⟩ _
  have h1 : ∀ {f g : X → ℝ} {C D : ℝ}, Bd C f → Bd D g → ∫ z, f z.1 * g z.2 ∂(π ⊗ₘ κ) = ∫ x, f x * Alt.act κ g x ∂π := by
    intro f g C D hf hg
    rw [Measure.integral_compProd (hb hf hg)]
    exact integral_congr_ae (Eventually.of_forall fun x => integral_const_mul (f x) g)
  rw [← h1 hf hg, ← reversible_swap h, integral_map measurable_swap.aemeasurable]
  · have : (fun z : X × X => f z.swap.1 * g z.swap.2) = fun z => g z.1 * f z.2 := by
      funext z
      exact mul_comm _ _
    rw [this, h1 hg hf]
    exact integral_congr_ae (Eventually.of_forall fun x => mul_comm _ _)
  · rw [reversible_swap h]
    exact (hb hf hg).aestronglyMeasurable

theorem integral_act (h : κ.IsReversible π) (hf : Bd C f) : ∫ x, Alt.act κ f x ∂π = ∫ x, f x ∂π := by
  have h1 := act_symm h (Bd.const (X := X) 1) hf
  rw [act_const] at h1
  simpa using h1

/-- The variance of `f` after a step. -/
theorem act_sq_le (hf : Bd C f) (x : X) : Alt.act κ f x ^ 2 ≤ Alt.act κ (fun y => f y ^ 2) x := by
  have h1 : 0 ≤ ∫ y, (f y - Alt.act κ f x) ^ 2 ∂κ x := integral_nonneg fun y => sq_nonneg _
  have h2 : ∫ y, (f y - Alt.act κ f x) ^ 2 ∂κ x = Alt.act κ (fun y => f y ^ 2) x - Alt.act κ f x ^ 2 := by
    rw [int_sq_sub hf (Bd.const _), integral_mul_const]
    simp only [integral_const, probReal_univ, smul_eq_mul, one_mul]
    show Alt.act κ (fun y => f y ^ 2) x - 2 * (Alt.act κ f x * Alt.act κ f x) + _ = _
    ring
  linarith

theorem var_zero (hf : Bd C f) {x : X} (h : Alt.act κ (fun y => f y ^ 2) x - Alt.act κ f x ^ 2 = 0) : ∀ᵐ y ∂κ x, f y = Alt.act κ f x := by
  have h2 : ∫ y, (f y - Alt.act κ f x) ^ 2 ∂κ x = Alt.act κ (fun y => f y ^ 2) x - Alt.act κ f x ^ 2 := by
    rw [int_sq_sub hf (Bd.const _), integral_mul_const]
    simp only [integral_const, probReal_univ, smul_eq_mul, one_mul]
    show Alt.act κ (fun y => f y ^ 2) x - 2 * (Alt.act κ f x * Alt.act κ f x) + _ = _
    ring
  rw [h, integral_eq_zero_iff_of_nonneg (fun y => sq_nonneg _) ((hf.sub (Bd.const _)).sq.integrable _)] at h2
  filter_upwards [h2] with y hy
  have : (f y - Alt.act κ f x) ^ 2 = 0 := hy
  have := pow_eq_zero_iff (two_ne_zero) |>.1 this
  linarith

theorem act_contr (h : κ.IsReversible π) (hf : Bd C f) : ∫ x, Alt.act κ f x ^ 2 ∂π ≤ ∫ x, f x ^ 2 ∂π := by
  rw [← integral_act h hf.sq]
  exact integral_mono (hf.act.sq.integrable _) (hf.sq.act.integrable _) fun x => act_sq_le hf x

end

/-! ### Iterates of a symmetric contraction -/

/-- A symmetric contraction on bounded functions. -/
structure SymContr (π : Measure X) (T : (X → ℝ) → X → ℝ) : Prop where
  bd : ∀ {C : ℝ} {f : X → ℝ}, Bd C f → Bd C (T f)
  sub : ∀ {C D : ℝ} {f g : X → ℝ}, Bd C f → Bd D g → T (fun x => f x - g x) = fun x => T f x - T g x
  symm : ∀ {C D : ℝ} {f g : X → ℝ}, Bd C f → Bd D g → ∫ x, f x * T g x ∂π = ∫ x, T f x * g x ∂π
  contr : ∀ {C : ℝ} {f : X → ℝ}, Bd C f → ∫ x, T f x ^ 2 ∂π ≤ ∫ x, f x ^ 2 ∂π

omit [IsProbabilityMeasure π] in
theorem SymContr.iter {T : (X → ℝ) → X → ℝ} (hT : SymContr π T) {C : ℝ} {f : X → ℝ} (hf : Bd C f) : ∀ k : ℕ, Bd C (T^[k] f)
  | 0 => hf
  | k + 1 => by rw [Function.iterate_succ_apply']; exact hT.bd (hT.iter hf k)

omit [IsProbabilityMeasure π] in
theorem SymContr.shift {T : (X → ℝ) → X → ℝ} (hT : SymContr π T) {C : ℝ} {f : X → ℝ} (hf : Bd C f) : ∀ k l : ℕ, ∫ x, (T^[k] f) x * (T^[k + 2 * l] f) x ∂π = ∫ x, (T^[k + l] f) x ^ 2 ∂π := by
  intro k l
  induction l generalizing k with
  | zero => simp [pow_two]
  | succ l ih =>
    have h1 : T^[k + 2 * (l + 1)] f = T (T^[k + 1 + 2 * l] f) := by
      rw [show k + 2 * (l + 1) = (k + 1 + 2 * l) + 1 by ring, Function.iterate_succ_apply']
    have h2 : T (T^[k] f) = T^[k + 1] f := (Function.iterate_succ_apply' _ _ _).symm
    rw [h1, hT.symm (hT.iter hf k) (hT.iter hf _), h2, ih (k + 1)]
    congr 3
    ring_nf

theorem cauchyL2 {C : ℝ} {F : ℕ → X → ℝ} (hF : ∀ k, Bd C (F k)) (hC : ∀ ε > 0, ∃ N, ∀ k ≥ N, ∀ l ≥ N, ∫ x, (F k x - F l x) ^ 2 ∂π < ε) :
    ∃ g, Bd C g ∧ Tendsto (fun k => ∫ x, (F k x - g x) ^ 2 ∂π) atTop (𝓝 0) := by
  have hnorm : ∀ {h : X → ℝ} (hh : MemLp h 2 π), ‖hh.toLp h‖ ^ 2 = ∫ x, h x ^ 2 ∂π := by
    intro h hh
    rw [← real_inner_self_eq_norm_sq, L2.inner_def]
    refine integral_congr_ae ?_
    filter_upwards [hh.coeFn_toLp] with x hx
    rw [hx]
    simp [pow_two]
  let L : ℕ → Lp ℝ 2 π := fun k => ((hF k).memLp π 2).toLp (F k)
  have hd : ∀ k l, ‖L k - L l‖ ^ 2 = ∫ x, (F k x - F l x) ^ 2 ∂π := by
    intro k l
    have : L k - L l = (((hF k).sub (hF l)).memLp π 2).toLp _ := (MemLp.toLp_sub _ _).symm
    rw [this, hnorm]
  have hcs : CauchySeq L := by
    rw [Metric.cauchySeq_iff]
    intro ε hε
    obtain ⟨N, hN⟩ := hC (ε ^ 2) (by positivity)
    refine ⟨N, fun k hk l hl => ?_⟩
    rw [dist_eq_norm]
    have := hN k hk l hl
    rw [← hd] at this
    exact lt_of_pow_lt_pow_left₀ 2 hε.le this
  obtain ⟨G, hG⟩ := cauchySeq_tendsto_of_complete hcs
  have hC0 : 0 ≤ C := by
    obtain ⟨x⟩ : Nonempty X := by
      by_contra h0
      rw [not_nonempty_iff] at h0
      have := measure_univ (μ := π)
      rw [Set.eq_empty_of_isEmpty Set.univ, measure_empty] at this
      exact zero_ne_one this
    exact (abs_nonneg _).trans ((hF 0).bd x)
  obtain ⟨G', hG'm, hG'⟩ : ∃ G', Measurable G' ∧ G =ᵐ[π] G' := (Lp.stronglyMeasurable G).aestronglyMeasurable.aemeasurable.imp fun _ h => h
  refine ⟨fun x => max (-C) (min C (G' x)), ⟨measurable_const.max (measurable_const.min hG'm), fun x => ?_⟩, ?_⟩
  · rw [abs_le]
    exact ⟨le_max_left _ _, max_le (by linarith) (min_le_left _ _)⟩
  · have hg : Bd C (fun x => max (-C) (min C (G' x))) := ⟨measurable_const.max (measurable_const.min hG'm), fun x => by
      rw [abs_le]
      exact ⟨le_max_left _ _, max_le (by linarith) (min_le_left _ _)⟩⟩
    have hlim : Tendsto (fun k => ‖L k - G‖ ^ 2) atTop (𝓝 0) := by
      have := (tendsto_iff_norm_sub_tendsto_zero.1 hG).pow 2
      simpa using this
    refine squeeze_zero (fun k => integral_nonneg fun x => sq_nonneg _) (fun k => ?_) hlim
    have hGm : MemLp G' 2 π := (memLp_congr_ae hG').1 (Lp.memLp G)
    have hLG : L k - G = (((hF k).memLp π 2).sub hGm).toLp (F k - G') := by
      rw [MemLp.toLp_sub ((hF k).memLp π 2) hGm]
      congr 1
      refine Lp.ext ?_
      filter_upwards [hG', hGm.coeFn_toLp] with x h1 h2
      rw [h1, h2]
    rw [hLG, hnorm]
    refine integral_mono_ae (((hF k).sub hg).sq.integrable _) ((((hF k).memLp π 2).sub hGm).integrable_sq) (Eventually.of_forall fun x => ?_)
    have hb := abs_le.1 ((hF k).bd x)
    show (F k x - max (-C) (min C (G' x))) ^ 2 ≤ (F k x - G' x) ^ 2
    rw [sq_le_sq]
    rcases le_total C (G' x) with h1 | h1
    · rw [min_eq_left h1, max_eq_right (by linarith), abs_le]
      constructor <;> rcases abs_cases (F k x - G' x) with ⟨h, _⟩ | ⟨h, _⟩ <;> rw [h] <;> linarith
    · rw [min_eq_right h1]
      rcases le_total (-C) (G' x) with h2 | h2
      · rw [max_eq_right h2]
      · rw [max_eq_left h2, abs_le]
        constructor <;> rcases abs_cases (F k x - G' x) with ⟨h, _⟩ | ⟨h, _⟩ <;> rw [h] <;> linarith

theorem sq_split {C D E : ℝ} {f g h : X → ℝ} (hf : Bd C f) (hg : Bd D g) (hh : Bd E h) :
    ∫ x, (f x - h x) ^ 2 ∂π ≤ 2 * ∫ x, (f x - g x) ^ 2 ∂π + 2 * ∫ x, (g x - h x) ^ 2 ∂π := by
  rw [← integral_const_mul, ← integral_const_mul, ← integral_add (((hf.sub hg).sq.integrable _).const_mul _) (((hg.sub hh).sq.integrable _).const_mul _)]
  refine integral_mono ((hf.sub hh).sq.integrable _) ((((hf.sub hg).sq.integrable _).const_mul _).add (((hg.sub hh).sq.integrable _).const_mul _)) fun x => ?_
  show (f x - h x) ^ 2 ≤ 2 * (f x - g x) ^ 2 + 2 * (g x - h x) ^ 2
  nlinarith [sq_nonneg ((f x - g x) - (g x - h x))]

/-- The even iterates converge to a fixed point of the square. -/
theorem SymContr.limit {T : (X → ℝ) → X → ℝ} (hT : SymContr π T) {C : ℝ} {f : X → ℝ} (hf : Bd C f) :
    ∃ g, Bd C g ∧ Tendsto (fun k => ∫ x, ((T^[2 * k] f) x - g x) ^ 2 ∂π) atTop (𝓝 0) ∧ ∫ x, (T (T g) x - g x) ^ 2 ∂π = 0 := by
  let b : ℕ → ℝ := fun k => ∫ x, (T^[k] f) x ^ 2 ∂π
  have hb0 : ∀ k, 0 ≤ b k := fun k => integral_nonneg fun x => sq_nonneg _
  have hanti : Antitone b := antitone_nat_of_succ_le fun k => by
    show ∫ x, (T^[k + 1] f) x ^ 2 ∂π ≤ ∫ x, (T^[k] f) x ^ 2 ∂π
    rw [Function.iterate_succ_apply']
    exact hT.contr (hT.iter hf k)
  obtain ⟨L, hL⟩ : ∃ L, Tendsto b atTop (𝓝 L) := ⟨_, tendsto_atTop_ciInf hanti ⟨0, by rintro _ ⟨k, rfl⟩; exact hb0 k⟩⟩
  have hdist : ∀ k l, k ≤ l → ∫ x, ((T^[2 * k] f) x - (T^[2 * l] f) x) ^ 2 ∂π = b (2 * k) - 2 * b (k + l) + b (2 * l) := by
    intro k l hkl
    rw [int_sq_sub (hT.iter hf (2 * k)) (hT.iter hf (2 * l))]
    obtain ⟨j, rfl⟩ := Nat.exists_eq_add_of_le hkl
    have := hT.shift hf (2 * k) j
    rw [show 2 * k + 2 * j = 2 * (k + j) by ring] at this
    rw [this, show 2 * k + j = k + (k + j) by ring]
  have hC : ∀ ε > 0, ∃ N, ∀ k ≥ N, ∀ l ≥ N, ∫ x, ((T^[2 * k] f) x - (T^[2 * l] f) x) ^ 2 ∂π < ε := by
    intro ε hε
    obtain ⟨N, hN⟩ := (Metric.tendsto_atTop.1 hL) (ε / 4) (by positivity)
    have key : ∀ k ≥ N, ∀ l ≥ N, k ≤ l → ∫ x, ((T^[2 * k] f) x - (T^[2 * l] f) x) ^ 2 ∂π < ε := by
      intro k hk l hl hkl
      rw [hdist k l hkl]
      have h1 := abs_lt.1 (Real.dist_eq _ _ ▸ hN (2 * k) (by omega))
      have h2 := abs_lt.1 (Real.dist_eq _ _ ▸ hN (2 * l) (by omega))
      have h3 := abs_lt.1 (Real.dist_eq _ _ ▸ hN (k + l) (by omega))
      linarith [h1.2, h2.2, h3.1]
    refine ⟨N, fun k hk l hl => ?_⟩
    rcases le_total k l with h | h
    · exact key k hk l hl h
    · have := key l hl k hk h
      have e : (fun x => ((T^[2 * k] f) x - (T^[2 * l] f) x) ^ 2) = fun x => ((T^[2 * l] f) x - (T^[2 * k] f) x) ^ 2 := by funext x; ring
      rwa [e]
  obtain ⟨g, hg, hlim⟩ := cauchyL2 (F := fun k => T^[2 * k] f) (fun k => hT.iter hf (2 * k)) hC
  refine ⟨g, hg, hlim, ?_⟩
  have hTT : ∀ k, ∫ x, (T (T g) x - (T^[2 * (k + 1)] f) x) ^ 2 ∂π ≤ ∫ x, ((T^[2 * k] f) x - g x) ^ 2 ∂π := by
    intro k
    have e1 : T^[2 * (k + 1)] f = T (T (T^[2 * k] f)) := by
      rw [show 2 * (k + 1) = (2 * k + 1) + 1 by ring, Function.iterate_succ_apply', Function.iterate_succ_apply']
    have e2 := hT.sub hg (hT.iter hf (2 * k))
    have e3 := hT.sub (hT.bd hg) (hT.bd (hT.iter hf (2 * k)))
    have e4 : (fun x => T (T g) x - (T^[2 * (k + 1)] f) x) = T (T (fun x => g x - (T^[2 * k] f) x)) := by rw [e2, e3, e1]
    have e5 : ∫ x, (T (T g) x - (T^[2 * (k + 1)] f) x) ^ 2 ∂π = ∫ x, T (T (fun x => g x - (T^[2 * k] f) x)) x ^ 2 ∂π := by rw [← e4]
    have hd := hg.sub (hT.iter hf (2 * k))
    rw [e5]
    refine (hT.contr (hT.bd hd)).trans ((hT.contr hd).trans (le_of_eq ?_))
    congr 1
    funext x
    ring
  have hle : ∀ k, ∫ x, (T (T g) x - g x) ^ 2 ∂π ≤ 2 * ∫ x, ((T^[2 * k] f) x - g x) ^ 2 ∂π + 2 * ∫ x, ((T^[2 * (k + 1)] f) x - g x) ^ 2 ∂π := fun k => by
    have := sq_split (π := π) (hT.bd (hT.bd hg)) (hT.iter hf (2 * (k + 1))) hg
    have := hTT k
    linarith
  have hlim2 : Tendsto (fun k => 2 * ∫ x, ((T^[2 * k] f) x - g x) ^ 2 ∂π + 2 * ∫ x, ((T^[2 * (k + 1)] f) x - g x) ^ 2 ∂π) atTop (𝓝 0) := by
    have := (hlim.const_mul 2).add ((hlim.comp (tendsto_add_atTop_nat 1)).const_mul 2)
    simpa using this
  exact le_antisymm (ge_of_tendsto' hlim2 hle) (integral_nonneg fun x => sq_nonneg _)

/-! ### Alternating two kernels -/

section
variable {κ η : Kernel X X} [IsMarkovKernel κ] [IsMarkovKernel η]

theorem symContr_alt (hκ : κ.IsReversible π) (hη : η.IsReversible π) : SymContr π (fun f => act κ (act η (act κ f))) where
  bd := fun hf => hf.act.act.act
  sub := fun hf hg => by
    rw [act_sub hf hg, act_sub hf.act hg.act, act_sub hf.act.act hg.act.act]
  symm := fun hf hg => by
    rw [act_symm hκ hf hg.act.act, act_symm hη hf.act hg.act, act_symm hκ hf.act.act hg]
  contr := fun hf => (act_contr hκ hf.act.act).trans ((act_contr hη hf.act).trans (act_contr hκ hf))

/-- **Convergence**: the iterates of a bounded function converge in mean square to its mean. -/
theorem alt_converges (hκ : κ.IsReversible π) (hη : η.IsReversible π) (hid : ∀ {C : ℝ} {f : X → ℝ}, Bd C f → act κ (act κ f) = act κ f)
    (hirr : ∀ {C : ℝ} {g : X → ℝ}, Bd C g → (∀ᵐ x ∂π, ∀ᵐ y ∂η x, act κ g y = act η (act κ g) x) → ∃ c, ∀ᵐ x ∂π, act κ g x = c) {C : ℝ} {f : X → ℝ} (hf : Bd C f) :
    Tendsto (fun k => ∫ x, (((fun f => act κ (act η f))^[k] f) x - ∫ z, f z ∂π) ^ 2 ∂π) atTop (𝓝 0) := by
  set T : (X → ℝ) → X → ℝ := fun f => act κ (act η (act κ f)) with hTdef
  have hT : SymContr π T := symContr_alt hκ hη
  set f' := act κ (act η f) with hf'
  have hf'b : Bd C f' := hf.act.act
  have hiter : ∀ k, (fun f => act κ (act η f))^[k + 1] f = T^[k] f' ∧ act κ (T^[k] f') = T^[k] f' := by
    intro k
    induction k with
    | zero => exact ⟨rfl, hid hf.act⟩
    | succ k ih =>
      have hb := hT.iter hf'b k
      refine ⟨?_, ?_⟩
      · rw [Function.iterate_succ_apply', ih.1, Function.iterate_succ_apply' T]
        show act κ (act η (T^[k] f')) = act κ (act η (act κ (T^[k] f')))
        rw [ih.2]
      · rw [Function.iterate_succ_apply' T]
        exact hid hb.act.act
  obtain ⟨g, hg, hlim, hfix⟩ := hT.limit hf'b
  have hTTg : ∫ x, T (T g) x ^ 2 ∂π = ∫ x, g x ^ 2 ∂π := by
    rw [integral_eq_zero_iff_of_nonneg (fun x => sq_nonneg _) (((hT.bd (hT.bd hg)).sub hg).sq.integrable _)] at hfix
    refine integral_congr_ae ?_
    filter_upwards [hfix] with x hx
    have h1 : (T (T g) x - g x) ^ 2 = 0 := hx
    have h2 := (pow_eq_zero_iff two_ne_zero).1 h1
    rw [sub_eq_zero.1 h2]
  have h1 : ∫ x, T (T g) x ^ 2 ∂π ≤ ∫ x, T g x ^ 2 ∂π := hT.contr (hT.bd hg)
  have h2 : ∫ x, T g x ^ 2 ∂π ≤ ∫ x, act η (act κ g) x ^ 2 ∂π := act_contr hκ hg.act.act
  have h3 : ∫ x, act η (act κ g) x ^ 2 ∂π ≤ ∫ x, act κ g x ^ 2 ∂π := act_contr hη hg.act
  have h4 : ∫ x, act κ g x ^ 2 ∂π ≤ ∫ x, g x ^ 2 ∂π := act_contr hκ hg
  have hvar : ∫ x, (act η (fun y => act κ g y ^ 2) x - act η (act κ g) x ^ 2) ∂π = 0 := by
    rw [integral_sub (hg.act.sq.act.integrable _) (hg.act.act.sq.integrable _), integral_act hη hg.act.sq]
    linarith
  rw [integral_eq_zero_iff_of_nonneg (fun x => sub_nonneg.2 (act_sq_le hg.act x)) ((hg.act.sq.act.integrable _).sub (hg.act.act.sq.integrable _))] at hvar
  obtain ⟨c, hc⟩ := hirr hg (by filter_upwards [hvar] with x hx using var_zero hg.act hx)
  have hproj : ∫ x, (g x - act κ g x) ^ 2 ∂π = 0 := by
    have h5 : ∫ x, g x * act κ g x ∂π = ∫ x, act κ g x ^ 2 ∂π := by
      have h6 := act_symm hκ hg (hg.act (κ := κ))
      rw [hid hg] at h6
      rw [h6]
      exact integral_congr_ae (Eventually.of_forall fun x => (pow_two _).symm)
    rw [int_sq_sub hg hg.act, h5]
    linarith
  have hgc : ∀ᵐ x ∂π, g x = c := by
    rw [integral_eq_zero_iff_of_nonneg (fun x => sq_nonneg _) ((hg.sub hg.act).sq.integrable _)] at hproj
    filter_upwards [hproj, hc] with x hx hx'
    have h5 : (g x - act κ g x) ^ 2 = 0 := hx
    have h6 := (pow_eq_zero_iff two_ne_zero).1 h5
    rw [sub_eq_zero.1 h6, hx']
  have hlim' : Tendsto (fun k => ∫ x, ((T^[2 * k] f') x - c) ^ 2 ∂π) atTop (𝓝 0) := by
    refine hlim.congr fun k => integral_congr_ae ?_
    filter_upwards [hgc] with x hx
    rw [hx]
  have hint : ∀ k, ∫ x, (T^[k] f') x ∂π = ∫ z, f z ∂π := by
    intro k
    induction k with
    | zero => exact (integral_act hκ hf.act).trans (integral_act hη hf)
    | succ k ih =>
      rw [Function.iterate_succ_apply']
      have hb := hT.iter hf'b k
      exact ((integral_act hκ hb.act.act).trans ((integral_act hη hb.act).trans (integral_act hκ hb))).trans ih
  have hcm : c = ∫ z, f z ∂π := by
    have hsq : ∀ k, (∫ z, f z ∂π - c) ^ 2 ≤ ∫ x, ((T^[2 * k] f') x - c) ^ 2 ∂π := by
      intro k
      have hb := (hT.iter hf'b (2 * k)).sub (Bd.const (X := X) c)
      have h5 : ∫ x, ((T^[2 * k] f') x - c) ∂π = ∫ z, f z ∂π - c := by
        rw [integral_sub ((hT.iter hf'b (2 * k)).integrable _) (integrable_const _), hint]
        simp
      rw [← h5]
      have h6 := act_sq_le (κ := Kernel.const X π) hb (Classical.choice (by
        by_contra h0
        rw [not_nonempty_iff] at h0
        have := measure_univ (μ := π)
        rw [Set.eq_empty_of_isEmpty Set.univ, measure_empty] at this
        exact zero_ne_one this))
      simpa [act] using h6
    have h0 : (∫ z, f z ∂π - c) ^ 2 ≤ 0 := ge_of_tendsto' hlim' hsq
    have h7 := (pow_eq_zero_iff two_ne_zero).1 (le_antisymm h0 (sq_nonneg _))
    linarith
  rw [← hcm]
  have hodd : ∀ k, ∫ x, ((T^[2 * k + 1] f') x - c) ^ 2 ∂π ≤ ∫ x, ((T^[2 * k] f') x - c) ^ 2 ∂π := by
    intro k
    rw [Function.iterate_succ_apply']
    have hb := hT.iter hf'b (2 * k)
    have e := hT.sub hb (Bd.const (X := X) c)
    have e2 : T (fun _ => c) = fun _ => c := by
      show act κ (act η (act κ _)) = _
      rw [act_const, act_const, act_const]
    rw [e2] at e
    have h5 := hT.contr (hb.sub (Bd.const (X := X) c))
    rw [e] at h5
    exact h5
  have hall : Tendsto (fun k => ∫ x, ((T^[k] f') x - c) ^ 2 ∂π) atTop (𝓝 0) := by
    rw [Metric.tendsto_atTop] at hlim' ⊢
    intro ε hε
    obtain ⟨N, hN⟩ := hlim' ε hε
    refine ⟨2 * N, fun k hk => ?_⟩
    have hnn : ∀ k, 0 ≤ ∫ x, ((T^[k] f') x - c) ^ 2 ∂π := fun k => integral_nonneg fun x => sq_nonneg _
    rcases Nat.even_or_odd' k with ⟨j, rfl | rfl⟩
    · exact hN j (by omega)
    · have := hN j (by omega)
      rw [Real.dist_0_eq_abs, abs_of_nonneg (hnn _)] at this ⊢
      exact (hodd j).trans_lt this
  rw [← tendsto_add_atTop_iff_nat 1]
  refine hall.congr fun k => ?_
  rw [(hiter k).1]

end

end Verif.Alt
