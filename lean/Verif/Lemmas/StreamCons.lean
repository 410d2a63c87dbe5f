import Verif.Lemmas.InfProd
import Verif.Lemmas.Stream
import Verif.Lemmas.SliceLaw

/-!
# The first numbers of a stream and the rest
-/

set_option linter.unusedSectionVars false

namespace Verif
open MeasureTheory ProbabilityTheory Set
open scoped ENNReal

/-- A number in front of a stream. -/
def scons (x : ℝ) (u : ℕ → ℝ) : ℕ → ℝ
  | 0 => x
  | i + 1 => u i

theorem measurable_scons : Measurable fun z : ℝ × (ℕ → ℝ) => scons z.1 z.2 := by
  refine measurable_pi_lambda _ fun i => ?_
  cases i with
  | zero => exact measurable_fst
  | succ i => exact (measurable_pi_apply i).comp measurable_snd

/-- The first number and the rest of a stream are independent, and the rest is a stream. -/
theorem map_scons : (unifLaw.prod streamLaw).map (fun z : ℝ × (ℕ → ℝ) => scons z.1 z.2) = streamLaw := by
  classical
  refine Measure.eq_infinitePi _ fun s t ht => ?_
  set N := s.sup id with hN
  set t' : ℕ → Set ℝ := fun i => if i ∈ s then t i else univ with ht'
  have hm' : ∀ i, MeasurableSet (t' i) := fun i => by by_cases h : i ∈ s <;> simp [ht', h, ht]
  have hsub : ∀ i ∈ s, i < N + 1 := fun i hi => Nat.lt_succ_of_le (Finset.le_sup (f := id) hi)
  have h1 : Set.pi (s : Set ℕ) t = Set.pi (Finset.range (N + 1) : Set ℕ) t' := by
    ext u
    simp only [Set.mem_pi, Finset.mem_coe, Finset.mem_range, ht']
    constructor
    · intro h i _
      by_cases hi : i ∈ s
      · simpa [hi] using h i hi
      · simp [hi]
    · intro h i hi
      simpa [hi] using h i (hsub i hi)
  have h2 : ∏ i ∈ s, unifLaw (t i) = ∏ i ∈ Finset.range (N + 1), unifLaw (t' i) := by
    rw [← Finset.prod_subset (s₁ := s) (fun i hi => Finset.mem_range.2 (hsub i hi)) (fun i _ hi => by simp [ht', hi])]
    exact Finset.prod_congr rfl fun i hi => by simp [ht', hi]
  rw [h1, h2, Finset.prod_range_succ', Measure.map_apply measurable_scons (MeasurableSet.pi (Finset.countable_toSet _) fun i _ => hm' i)]
  have h3 : (fun z : ℝ × (ℕ → ℝ) => scons z.1 z.2) ⁻¹' (Set.pi (Finset.range (N + 1) : Set ℕ) t') = t' 0 ×ˢ Set.pi (Finset.range N : Set ℕ) (fun i => t' (i + 1)) := by
    ext ⟨x, u⟩
    simp only [Set.mem_preimage, Set.mem_pi, Finset.mem_coe, Finset.mem_range, Set.mem_prod]
    constructor
    · intro h
      exact ⟨h 0 (by omega), fun i hi => h (i + 1) (by omega)⟩
    · rintro ⟨h0, h⟩ i hi
      cases i with
      | zero => exact h0
      | succ i => exact h i (by omega)
  rw [h3, Measure.prod_prod, streamLaw, Measure.infinitePi_pi _ (fun i _ => hm' (i + 1)), mul_comm]

/-- Taking the first number out. -/
theorem stream_first {E : Set (ℕ → ℝ)} (hE : MeasurableSet E) : streamLaw E = ∫⁻ x, streamLaw {u | scons x u ∈ E} ∂unifLaw := by
  conv_lhs => rw [← map_scons]
  rw [Measure.map_apply measurable_scons hE, Measure.prod_apply (measurable_scons hE)]
  rfl

/-- Taking the first two numbers out. -/
theorem stream_two {E : Set (ℕ → ℝ)} (hE : MeasurableSet E) :
    streamLaw E = ∫⁻ x, ∫⁻ y, streamLaw {u | scons x (scons y u) ∈ E} ∂unifLaw ∂unifLaw := by
  rw [stream_first hE]
  refine lintegral_congr fun x => ?_
  exact stream_first (E := {u | scons x u ∈ E}) ((measurable_scons.comp (measurable_const.prodMk measurable_id)) hE)

/-- A stream read from a later position on. -/
theorem stream_shift (k : ℕ) : streamLaw.map (fun u i => u (k + i)) = streamLaw := by
  classical
  have h := stream_seq (ι := ℕ) (X := ℝ) unifLaw (fun _ => True) (fun i => k + i) (fun i j _ _ h => by simpa using h) (fun _ x => x) (fun _ => measurable_id) (fun _ => 0) (fun _ => unifLaw)
    (fun _ _ => Measure.map_id.symm) (fun _ h => absurd trivial h)
  unfold streamLaw
  simpa using h

theorem unifLaw_Iic {c : ℝ} (h0 : 0 ≤ c) (h1 : c ≤ 1) : unifLaw (Iic c) = ENNReal.ofReal c := by
  rw [← unifLaw_Iio h0 h1]
  refine measure_congr ?_
  have : unifLaw ≪ volume := Measure.absolutelyContinuous_of_le Measure.restrict_le_self
  exact this.ae_le (Iio_ae_eq_Iic (a := c)).symm

/-- `rng.uniform(a, b)` is `a + (b - a) * rng.random()`. -/
theorem lintegral_unif_affine {a b : ℝ} (hab : a < b) (g : ℝ → ℝ≥0∞) (hg : Measurable g) :
    ENNReal.ofReal (b - a) * ∫⁻ x, g (a + (b - a) * x) ∂unifLaw = ∫⁻ t in Ico a b, g t := by
  rw [lintegral_unif_scale (sub_nonneg.2 hab.le) (fun t => g (a + t)) (hg.comp (measurable_const.add measurable_id)),
    ← lintegral_indicator measurableSet_Ico, ← lintegral_add_left_eq_self ((Ico a b).indicator g) a]
  refine lintegral_congr fun t => ?_
  by_cases h : 0 ≤ t ∧ t < b - a
  · rw [if_pos h, indicator_of_mem (by constructor <;> linarith [h.1, h.2])]
  · rw [if_neg h, indicator_of_notMem fun h' => h (by have := h'.1; have := h'.2; constructor <;> linarith)]

/-- A function that is constant on an interval. -/
theorem lintegral_band {a b : ℝ} {g : ℝ → ℝ≥0∞} {c : ℝ≥0∞} (h : ∀ x, a < x → x < b → g x = c) : ∫⁻ x in Ico a b, g x = c * ENNReal.ofReal (b - a) := by
  rw [← Measure.restrict_congr_set Ioo_ae_eq_Ico, setLIntegral_congr_fun measurableSet_Ioo (g := fun _ => c) fun x hx => h x hx.1 hx.2]
  simp
end Verif
