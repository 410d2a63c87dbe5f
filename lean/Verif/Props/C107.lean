import Verif.Lemmas.GeoSlice

/-!
# C107: the slice and label update of a mixture with geometric weights

C86 for `GeometricProcess`, which has its own `tail`: given the success probability `p` and the atoms, the slice and label update should keep the conditional law of the labels.  `tail` rounds the
number of weights down (C25), so the weight of the first missing component can be as large as `p (1 - p)^N` while the slice level is only known to be above `(1 - p)^(N + 1)`.  For `p ≤ 1/2` nothing
is lost and the law is kept (`C107_partial`).  **For every `p > 1/2` the law is not kept** (`C107_refuted`): components above the slice level are missing, labels move down too often, and the
probability that all labels are 0 grows strictly.

As in C86 this is for the update without the shift `eps` of the slice variables; C86 shows what the shift does.
-/

namespace Verif.Mix
open MeasureTheory ProbabilityTheory GM
open scoped ENNReal

variable {m n : ℕ} {Atom : Type} {nz : ℝ → ℝ} (hnz : IsGumbel nz)
include hnz

/-- For `p ≤ 1/2` the slice and label update leaves the conditional law of the labels invariant.  `S d` is a state of the object with labels `d`, in which `k0 d` weights have been drawn. -/
theorem C107_partial (lp : (Fin m → ℝ) → Atom → WithBot ℝ) {p : ℝ} (hp : 0 < p ∧ p ≤ 1 / 2) {θ : ℕ → Atom} (hn : 2 ≤ n) (y : Fin n → Fin m → ℝ) (W : (Fin n → ℕ) → World ℝ m Atom)
    (hlp : ∀ d, (W d).logpdf = lp) (heps : ∀ d, (W d).eps = 0) (ω : (Fin n → ℕ) → Oracle ℝ) (S : (Fin n → ℕ) → GM Geo.cls m Atom × ℕ) (fuel : (Fin n → ℕ) → (ℕ → ℝ) → ℕ) (k0 : (Fin n → ℕ) → ℕ)
    (hS : ∀ d, GeoShows (W d) (ω d) p θ y (k0 d) (S d) ∧ ∀ i, d i < k0 d) (d' : Fin n → ℕ) :
    ∑' d, labelMass lp (geoSeq p) θ y d * stepProb nz (W d) (fuel d) (ω d) (S d) (stickWeights (List.replicate (k0 d) p)) (List.ofFn d) (List.ofFn d') = labelMass lp (geoSeq p) θ y d' := by
  have hp' : 0 < p ∧ p < 1 := ⟨hp.1, by linarith [hp.2]⟩
  refine C86_partial hnz lp (fun j => (geoSeq_pos hp' j).le) (finite_above (geoSeq_sum hp')) hn y W hlp heps ω S _ fuel (fun d _ => ⟨(hS d).1.1, fun i => ?_, ?_⟩) d'
  · rw [geo_weights, List.getElem?_map, List.getElem?_range ((hS d).2 i)]; rfl
  filter_upwards [stream_unit] with U hU
  obtain ⟨u, N, s1, s2, hu, hule, h1, h2, hs1, hsu, hsw, hs2⟩ := geo_slice (heps d) hp' hn (hS d).1 (hS d).2 (fuel := fuel d) hU
  refine ⟨s1, hs1, max (k0 d) N, s2, hsw, hs2, fun j hj v hv => ?_⟩
  rw [hsu] at hv
  refine le_trans ?_ (hule v hv)
  have hj' : N ≤ j := (le_max_right _ _).trans hj
  calc geoSeq p j ≤ (1 - p) * (1 - p) ^ N := by
        unfold geoSeq
        exact mul_le_mul (by linarith [hp.2]) (pow_le_pow_of_le_one (by linarith [hp'.2]) (by linarith [hp.1]) hj') (pow_nonneg (by linarith [hp'.2]) _) (by linarith [hp'.2])
    _ ≤ u := by rw [← pow_succ']; exact h2.le

omit hnz

/-- The first `k` members of a sequence. -/
noncomputable def truncSeq (w : ℕ → ℝ) (k j : ℕ) : ℝ := if j < k then w j else 0

theorem sliceMass_trunc (w : ℕ → ℝ) (F : ℕ → ℝ≥0∞) (k : ℕ) {t : ℝ} (ht : 0 ≤ t) : sliceMass (truncSeq w k) F t ≤ sliceMass w F t := by
  refine ENNReal.tsum_le_tsum fun j => ?_
  unfold truncSeq
  by_cases hj : j < k
  · rw [if_pos hj]
  · rw [if_neg hj, if_neg (not_lt.2 ht)]
    simp

theorem sliceKernel_trunc (w : ℕ → ℝ) (F : ℕ → ℝ≥0∞) {k : ℕ} (hk : 0 < k) {t : ℝ} (ht : 0 ≤ t) : sliceKernel w F t 0 ≤ sliceKernel (truncSeq w k) F t 0 := by
  unfold sliceKernel
  rw [show truncSeq w k 0 = w 0 from if_pos hk]
  exact ENNReal.div_le_div_left (sliceMass_trunc w F k ht) _

theorem sliceKernel_one {w : ℕ → ℝ} {F : ℕ → ℝ≥0∞} (h0 : F 0 ≠ 0) (hF : F 0 ≠ ∞) {t : ℝ} (ht : 0 ≤ t) (ht0 : t < w 0) : sliceKernel (truncSeq w 1) F t 0 = 1 := by
  have : sliceMass (truncSeq w 1) F t = F 0 := by
    unfold sliceMass
    rw [tsum_eq_single 0 fun j hj => ?_, truncSeq, if_pos one_pos, if_pos ht0]
    rw [if_neg]
    rw [truncSeq, if_neg (by omega)]
    exact not_lt.2 ht
  unfold sliceKernel
  rw [this, truncSeq, if_pos one_pos, if_pos ht0, ENNReal.div_self h0 hF]

theorem sliceKernel_lt {w : ℕ → ℝ} {F : ℕ → ℝ≥0∞} (hF : F 0 ≠ ∞) (h1 : F 1 ≠ 0) {t : ℝ} (ht0 : t < w 0) (ht1 : t < w 1) : sliceKernel w F t 0 < 1 := by
  have : F 0 < sliceMass w F t := by
    have h2 : F 0 + F 1 ≤ sliceMass w F t := by
      have := ENNReal.sum_le_tsum (f := fun k => if t < w k then F k else 0) (Finset.range 2)
      rw [Finset.sum_range_succ, Finset.sum_range_one, if_pos ht0, if_pos ht1] at this
      exact this
    exact (ENNReal.lt_add_right hF h1).trans_le h2
  unfold sliceKernel
  rw [if_pos ht0]
  exact ENNReal.div_lt_of_lt_mul (by rwa [one_mul])

/-- Slice levels in an interval have positive probability. -/
theorem stream_box (q n : ℕ) {a b : ℝ} (ha : 0 ≤ a) (hab : a < b) (hb : b ≤ 1) : streamLaw {U : ℕ → ℝ | ∀ i : Fin n, U (q + i) ∈ Set.Ioo a b} ≠ 0 := by
  have e : {U : ℕ → ℝ | ∀ i : Fin n, U (q + i) ∈ Set.Ioo a b} = Set.pi (((Finset.range n).image (q + ·) : Finset ℕ) : Set ℕ) fun _ => Set.Ioo a b := by
    ext U
    simp only [Set.mem_ofPred_eq, Set.mem_pi, Finset.coe_image, Set.mem_image, Finset.mem_coe, Finset.mem_range]
    constructor
    · rintro h _ ⟨i, hi, rfl⟩
      exact h ⟨i, hi⟩
    · intro h i
      exact h _ ⟨i, i.2, rfl⟩
  rw [e]
  unfold streamLaw
  rw [Measure.infinitePi_pi _ fun _ _ => measurableSet_Ioo]
  refine Finset.prod_ne_zero_iff.2 fun i _ => ?_
  unfold unifLaw
  rw [Measure.restrict_apply measurableSet_Ioo, Set.inter_eq_left.2, Real.volume_Ioo]
  · exact (ENNReal.ofReal_pos.2 (by linarith)).ne'
  · exact fun x hx => ⟨ha.trans hx.1.le, hx.2.trans_le hb⟩

include hnz

/-- **For every `p > 1/2` the update does not leave the law of the labels invariant**: the probability that all labels are 0 grows, for every data set and all atoms, if components 0 and 1 have
positive density.  `S d` is a state of the object with labels `d`, in which `k0 d` weights have been drawn (`max(d) + 1` in the code; all that matters is that there is one if all labels are 0). -/
theorem C107_refuted (lp : (Fin m → ℝ) → Atom → WithBot ℝ) {p : ℝ} (hp : 1 / 2 < p ∧ p < 1) {θ : ℕ → Atom} (hn : 2 ≤ n) (y : Fin n → Fin m → ℝ) (W : (Fin n → ℕ) → World ℝ m Atom)
    (hlp : ∀ d, (W d).logpdf = lp) (heps : ∀ d, (W d).eps = 0) (ω : (Fin n → ℕ) → Oracle ℝ) (S : (Fin n → ℕ) → GM Geo.cls m Atom × ℕ) (fuel : (Fin n → ℕ) → (ℕ → ℝ) → ℕ) (k0 : (Fin n → ℕ) → ℕ)
    (hS : ∀ d, GeoShows (W d) (ω d) p θ y (k0 d) (S d) ∧ ∀ i, d i < k0 d) (hk0 : k0 (fun _ => 0) = 1) (hden : ∀ i, lp (y i) (θ 0) ≠ ⊥ ∧ lp (y i) (θ 1) ≠ ⊥) :
    labelMass lp (geoSeq p) θ y (fun _ => 0) <
      ∑' d, labelMass lp (geoSeq p) θ y d * stepProb nz (W d) (fuel d) (ω d) (S d) (stickWeights (List.replicate (k0 d) p)) (List.ofFn d) (List.ofFn fun _ : Fin n => 0) := by
  have hp' : 0 < p ∧ p < 1 := ⟨by linarith [hp.1], hp.2⟩
  have hF : ∀ i, dens lp θ (y i) 0 ≠ 0 ∧ dens lp θ (y i) 1 ≠ 0 := fun i =>
    ⟨(ENNReal.ofReal_pos.2 (botExp_pos (hden i).1)).ne', (ENNReal.ofReal_pos.2 (botExp_pos (hden i).2)).ne'⟩
  -- the transition probabilities with all components above the slice level
  set full : (Fin n → ℕ) → ℕ → (ℕ → ℝ) → ℝ≥0∞ := fun d q U => ∏ i, sliceKernel (geoSeq p) (dens lp θ (y i)) (geoSeq p (d i) * U (q + i)) 0 with hfull
  have hm : ∀ (d : Fin n → ℕ) (i : Fin n), Measurable (fun x => sliceKernel (geoSeq p) (dens lp θ (y i)) (geoSeq p (d i) * x) 0) := fun d i =>
    (measurable_sliceKernel _ _ 0).comp (measurable_const_mul _)
  have hfm : ∀ d q, Measurable (full d q) := fun d q => Finset.measurable_prod _ fun i _ => (hm d i).comp (measurable_pi_apply _)
  have hprod : ∀ d q, ∫⁻ U, full d q U ∂streamLaw = ∏ i, ∫⁻ x, sliceKernel (geoSeq p) (dens lp θ (y i)) (geoSeq p (d i) * x) 0 ∂unifLaw := by
    intro d q
    have hind : iIndepFun (fun (i : Fin n) (U : ℕ → ℝ) => sliceKernel (geoSeq p) (dens lp θ (y i)) (geoSeq p (d i) * U (q + i)) 0) streamLaw :=
      (streamLaw_indep.precomp (g := fun i : Fin n => q + i) (fun a b h => Fin.ext (by simpa using h))).comp _ (hm d)
    rw [hfull]
    simp only
    rw [lintegral_prod_eq_prod_lintegral_of_indepFun Finset.univ _ hind fun i => (hm d i).comp (measurable_pi_apply _)]
    refine Finset.prod_congr rfl fun i _ => ?_
    rw [← Measure.infinitePi_map_eval (fun _ : ℕ => unifLaw) (q + i), lintegral_map (hm d i) (measurable_pi_apply _)]
    rfl
  have hinv : ∑' d, labelMass lp (geoSeq p) θ y d * ∫⁻ U, full d (S d).2 U ∂streamLaw = labelMass lp (geoSeq p) θ y fun _ => 0 := by
    simp_rw [hprod, labelMass, ← Finset.prod_mul_distrib]
    rw [tsum_pi_prod (fun i j => (ENNReal.ofReal (geoSeq p j) * dens lp θ (y i) j) * ∫⁻ x, sliceKernel (geoSeq p) (dens lp θ (y i)) (geoSeq p j * x) 0 ∂unifLaw)]
    refine Finset.prod_congr rfl fun i _ => ?_
    exact slice_invariant (fun j => (geoSeq_pos hp' j).le) (fun j => ENNReal.ofReal_ne_top) (finite_above (geoSeq_sum hp')) 0
  -- the transition probabilities of the code
  have hlaw : ∀ d, labelMass lp (geoSeq p) θ y d ≠ 0 → ∀ U : ℕ → ℝ, (∀ q, 0 < U q ∧ U q < 1) → ∃ u N, u ∈ slices (geoSeq p) d (S d).2 U ∧ u ≤ (1 - p) ^ N ∧ 
      streamLaw {g | (assignStep (withNoise (withSlices (W d) (fuel d) U) (fun p => nz (g p))) (List.ofFn d) (stickWeights (List.replicate (k0 d) p)) (ω d) (S d)).1 = .ok () ∧
        (assignStep (withNoise (withSlices (W d) (fuel d) U) (fun p => nz (g p))) (List.ofFn d) (stickWeights (List.replicate (k0 d) p)) (ω d) (S d)).2.1.d = List.ofFn fun _ : Fin n => 0} =
        ∏ i, sliceKernel (truncSeq (geoSeq p) (max (k0 d) N)) (dens lp θ (y i)) (geoSeq p (d i) * U ((S d).2 + i)) 0 := by
    intro d h0 U hU
    obtain ⟨u, N, s1, s2, hu, hule, h1, h2, hs1, hsu, hsw, hs2⟩ := geo_slice (heps d) hp' hn (hS d).1 (hS d).2 (fuel := fuel d) hU
    refine ⟨u, N, hu, h1, ?_⟩
    have hd : ∀ i, d i < max (k0 d) N := fun i => lt_of_lt_of_le ((hS d).2 i) (le_max_left _ _)
    have ht : ∀ i, truncSeq (geoSeq p) (max (k0 d) N) (d i) = geoSeq p (d i) := fun i => if_pos (hd i)
    have hy := (hS d).1.1
    have hyl : (S d).1.y.length = n := by rw [hy]; simp
    have hyi : ∀ i : Fin n, (S d).1.y[i]'(by rw [hyl]; exact i.2) = y i := fun i => by simp [hy]
    have key := step_law hnz (W := W d) (heps d) (w := truncSeq (geoSeq p) (max (k0 d) N)) (θ := θ) (w0 := stickWeights (List.replicate (k0 d) p)) (s := S d) (s1 := s1) (fuel := fuel d) (U := U) (ω := ω d)
      hyl hn hU (d := d) (d' := fun _ => 0) (fun i => by rw [ht, geo_weights, List.getElem?_map, List.getElem?_range ((hS d).2 i)]; rfl) (fun i => by rw [ht]; exact geoSeq_pos hp' _) (fun i hb => ?_) hs1
      ⟨max (k0 d) N, s2, ?_, hs2, fun j hj v hv => ?_⟩
    · rw [key]
      refine Finset.prod_congr rfl fun i _ => ?_
      rw [ht, hyi, hlp]
    · refine right_ne_zero_of_mul (Finset.prod_ne_zero_iff.1 h0 i (Finset.mem_univ i)) ?_
      unfold dens
      rw [← hyi i, ← hlp d, hb]
      exact ENNReal.ofReal_zero
    · refine hsw.trans (List.map_congr_left fun j hj => ?_)
      exact (if_pos (List.mem_range.1 hj)).symm
    · rw [truncSeq, if_neg (not_lt.2 hj)]
      rw [hsu] at hv
      obtain ⟨i, hi, rfl⟩ := List.mem_iff_getElem.1 hv
      have hi' : i < n := by simpa [slices] using hi
      have h1 : (slices (geoSeq p) d (S d).2 U)[i] = geoSeq p (d ⟨i, hi'⟩) * U ((S d).2 + i) := by simp [slices]
      rw [h1]
      exact mul_nonneg (geoSeq_pos hp' _).le (hU _).1.le
  have hle : ∀ d, labelMass lp (geoSeq p) θ y d ≠ 0 → ∀ᵐ U ∂streamLaw, full d (S d).2 U ≤
      streamLaw {g | (assignStep (withNoise (withSlices (W d) (fuel d) U) (fun p => nz (g p))) (List.ofFn d) (stickWeights (List.replicate (k0 d) p)) (ω d) (S d)).1 = .ok () ∧
        (assignStep (withNoise (withSlices (W d) (fuel d) U) (fun p => nz (g p))) (List.ofFn d) (stickWeights (List.replicate (k0 d) p)) (ω d) (S d)).2.1.d = List.ofFn fun _ : Fin n => 0} := by
    intro d h0
    filter_upwards [stream_unit] with U hU
    obtain ⟨u, N, -, -, h⟩ := hlaw d h0 U hU
    rw [h]
    refine Finset.prod_le_prod' fun i _ => sliceKernel_trunc _ _ ?_ (mul_nonneg (geoSeq_pos hp' _).le (hU _).1.le)
    exact lt_of_lt_of_le (lt_of_le_of_lt (Nat.zero_le _) ((hS d).2 i)) (le_max_left _ _)
  have hmass0 : labelMass lp (geoSeq p) θ y (fun _ => 0) ≠ 0 :=
    Finset.prod_ne_zero_iff.2 fun i _ => mul_ne_zero (ENNReal.ofReal_pos.2 (geoSeq_pos hp' 0)).ne' (hF i).1
  have hmassT : labelMass lp (geoSeq p) θ y (fun _ => 0) ≠ ∞ := ENNReal.prod_ne_top fun i _ => ENNReal.mul_ne_top ENNReal.ofReal_ne_top ENNReal.ofReal_ne_top
  conv_lhs => rw [← hinv]
  refine ENNReal.tsum_lt_tsum (i := fun _ => 0) (by rw [hinv]; exact hmassT) (fun d => ?_) ?_
  · by_cases h0 : labelMass lp (geoSeq p) θ y d = 0
    · rw [h0, zero_mul, zero_mul]
    · exact mul_le_mul_right (lintegral_mono_ae (hle d h0)) _
  · refine (ENNReal.mul_lt_mul_iff_right hmass0 hmassT).2 ?_
    set q := (S fun _ => 0).2
    set E : Set (ℕ → ℝ) := {U | ∀ i : Fin n, U (q + i) ∈ Set.Ioo ((1 - p) ^ 2 / p) (1 - p)} with hE
    have hEm : MeasurableSet E := by
      have : E = ⋂ i : Fin n, (fun U : ℕ → ℝ => U (q + i)) ⁻¹' Set.Ioo ((1 - p) ^ 2 / p) (1 - p) := by
        ext U; simp [hE]
      rw [this]
      exact MeasurableSet.iInter fun i => measurable_pi_apply _ measurableSet_Ioo
    have hE0 : streamLaw E ≠ 0 := by
      refine stream_box q n (by have := hp'.1; positivity) ?_ (by linarith [hp'.1])
      rw [div_lt_iff₀ hp'.1, sq]
      exact mul_lt_mul_of_pos_left (by linarith [hp.1]) (by linarith [hp.2])
    have hEf : ∀ U, (∀ q, 0 < U q ∧ U q < 1) → U ∈ E → full (fun _ => 0) q U < 1 ∧
        streamLaw {g | (assignStep (withNoise (withSlices (W fun _ => 0) (fuel fun _ => 0) U) (fun p => nz (g p))) (List.ofFn fun _ : Fin n => 0) (stickWeights (List.replicate (k0 fun _ => 0) p)) (ω fun _ => 0) (S fun _ => 0)).1 = .ok () ∧
        (assignStep (withNoise (withSlices (W fun _ => 0) (fuel fun _ => 0) U) (fun p => nz (g p))) (List.ofFn fun _ : Fin n => 0) (stickWeights (List.replicate (k0 fun _ => 0) p)) (ω fun _ => 0) (S fun _ => 0)).2.1.d = List.ofFn fun _ : Fin n => 0} = 1 := by
      intro U hU hUE
      have hg0 : geoSeq p 0 = p := by simp [geoSeq]
      have hg1 : geoSeq p 1 = p * (1 - p) := by simp [geoSeq]
      have hlt0 : ∀ i : Fin n, geoSeq p 0 * U (q + i) < geoSeq p 0 := fun i => by
        have := mul_lt_mul_of_pos_left (hU (q + i)).2 (geoSeq_pos hp' 0)
        rwa [mul_one] at this
      have hlt1 : ∀ i : Fin n, geoSeq p 0 * U (q + i) < geoSeq p 1 := fun i => by
        rw [hg0, hg1]
        exact mul_lt_mul_of_pos_left (hUE i).2 hp'.1
      have hnn : ∀ i : Fin n, 0 ≤ geoSeq p 0 * U (q + i) := fun i => mul_nonneg (geoSeq_pos hp' _).le (hU _).1.le
      refine ⟨?_, ?_⟩
      · have h1 : ∀ i : Fin n, sliceKernel (geoSeq p) (dens lp θ (y i)) (geoSeq p 0 * U (q + i)) 0 < 1 := fun i =>
          sliceKernel_lt ENNReal.ofReal_ne_top (hF i).2 (hlt0 i) (hlt1 i)
        have i0 : Fin n := ⟨0, by omega⟩
        calc full (fun _ => 0) q U ≤ sliceKernel (geoSeq p) (dens lp θ (y i0)) (geoSeq p 0 * U (q + i0)) 0 := by
              rw [hfull]
              simp only
              rw [← Finset.mul_prod_erase _ _ (Finset.mem_univ i0)]
              exact mul_le_of_le_one_right' (Finset.prod_le_one' fun i _ => (h1 i).le)
          _ < 1 := h1 i0
      · obtain ⟨u, N, hu, h1, h2⟩ := hlaw (fun _ => 0) hmass0 U hU
        rw [h2]
        obtain ⟨i, hi, rfl⟩ := List.mem_iff_getElem.1 hu
        have hi' : i < n := by simpa [slices] using hi
        have h3 : (slices (geoSeq p) (fun _ : Fin n => 0) q U)[i] = geoSeq p 0 * U (q + i) := by simp [slices]
        rw [h3, hg0] at h1
        have h4 : (1 - p) ^ 2 < p * U (q + i) := by
          have := (hUE ⟨i, hi'⟩).1
          rwa [div_lt_iff₀ hp'.1, mul_comm] at this
        have hN : N < 2 := by
          by_contra hN
          have : (1 - p) ^ N ≤ (1 - p) ^ 2 := pow_le_pow_of_le_one (by linarith [hp.2]) (by linarith [hp'.1]) (not_lt.1 hN)
          linarith
        have hk : max (k0 fun _ : Fin n => 0) N = 1 := by rw [hk0]; omega
        rw [hk]
        exact Finset.prod_eq_one fun i _ => sliceKernel_one (hF i).1 ENNReal.ofReal_ne_top (hnn i) (hlt0 i)
    calc ∫⁻ U, full (fun _ => 0) q U ∂streamLaw < ∫⁻ U, max (full (fun _ => 0) q U) (E.indicator 1 U) ∂streamLaw := by
          refine lintegral_strict_mono_of_ae_le_of_ae_lt_on (s := E) ((hfm _ _).max (measurable_one.indicator hEm)).aemeasurable ?_ (Filter.Eventually.of_forall fun U => le_max_left _ _) hE0 ?_
          · have h1 : ∫⁻ U, full (fun _ => 0) q U ∂streamLaw ≤ ∫⁻ _, 1 ∂streamLaw := lintegral_mono_ae ((hle _ hmass0).mono fun U h => h.trans prob_le_one)
            rw [lintegral_one, measure_univ] at h1
            exact ne_top_of_le_ne_top ENNReal.one_ne_top h1
          · filter_upwards [stream_unit] with U hU hUE
            rw [Set.indicator_of_mem hUE]
            exact lt_of_lt_of_le (hEf U hU hUE).1 (le_max_right _ _)
      _ ≤ stepProb nz (W fun _ => 0) (fuel fun _ => 0) (ω fun _ => 0) (S fun _ => 0) (stickWeights (List.replicate (k0 fun _ => 0) p)) (List.ofFn fun _ : Fin n => 0) (List.ofFn fun _ : Fin n => 0) := by
          refine lintegral_mono_ae ?_
          filter_upwards [stream_unit, hle _ hmass0] with U hU h
          refine max_le h ?_
          by_cases hUE : U ∈ E
          · rw [(hEf U hU hUE).2]
            exact Set.indicator_le_self _ _ _
          · rw [Set.indicator_of_notMem hUE]
            exact zero_le

omit hnz in
/-- States that meet the hypotheses: all atoms equal, and `max(d) + 1` weights. -/
example {W : World ℝ 1 ℝ} (hW : ∀ p q, W.atom p q = 0) (ω : Oracle ℝ) (d : Fin 2 → ℕ) : let k := max (d 0) (d 1) + 1
    let s : GM Geo.cls 1 ℝ :=
      { totalIter := 5, burnIn := 0, subsample := 1, nAttr := none, muPrior := none, lam := 1, psiPrior := none, nuPrior := none,
        y := List.ofFn (fun _ : Fin 2 => fun _ => 0), d := List.ofFn d, theta := [], thetaDefault := true, u := [], affinity := [],
        mapParams := none, mapLL := ⊥, saved := [], nGroups := [], nAtoms := [], totalSaved := 0, gibbsFitted := false,
        wst := (({ a := 1, b := 1, p := 2 / 3, v := List.replicate k (2 / 3), w := stickWeights (List.replicate k (2 / 3)), d := [] } : Geo ℝ), 7) }
    GeoShows W ω (2 / 3) (fun _ => 0) (fun _ : Fin 2 => fun _ => 0) k (s, 0) ∧ ∀ i, d i < k := by
  refine ⟨⟨rfl, rfl, rfl, rfl, fun us ws k => getAtoms_const hW _ _ rfl (fun k b hb => ?_)⟩, fun i => ?_⟩
  · simp at hb
  · fin_cases i <;> simp

end Verif.Mix
