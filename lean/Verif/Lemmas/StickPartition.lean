import Verif.Lemmas.StickClasses
import Verif.Lemmas.StreamCons

/-!
# The law of the partition that labels drawn from stick-breaking weights induce

`Place S` are the ways of giving distinct component numbers to the blocks in `S`.  `blockProb f sz S` is the probability that labels drawn from the weights
with stick parameters `f` have the blocks `S` of sizes `sz`.  Taking the first stick out gives a recursion in `S` and `f` (`blockProb_rec`).
-/

set_option linter.unusedSectionVars false

namespace Verif.Mix
open MeasureTheory ProbabilityTheory
open scoped ENNReal

/-! ### The first stick and the rest -/

/-- The sticks after the first. -/
def StickParams.tail (f : StickParams) : StickParams := ⟨fun j => f.a (j + 1), fun j => f.b (j + 1), fun j => f.ha (j + 1), fun j => f.hb (j + 1)⟩

theorem map_scons_sticks (f : StickParams) : ((f.prior 0).prod (Measure.infinitePi f.tail.prior)).map (fun z : ℝ × (ℕ → ℝ) => scons z.1 z.2) = Measure.infinitePi f.prior := by
  classical
  refine Measure.eq_infinitePi _ fun s t ht => ?_
  set N := s.sup id with hN
  set t' : ℕ → Set ℝ := fun i => if i ∈ s then t i else Set.univ with ht'
  have hm' : ∀ i, MeasurableSet (t' i) := fun i => by by_cases h : i ∈ s <;> simp [ht', h, ht]
  have hsub : ∀ i ∈ s, i < N + 1 := fun i hi => Nat.lt_succ_of_le (Finset.le_sup (f := id) hi)
  have h1 : Set.pi (s : Set ℕ) t = Set.pi (Finset.range (N + 1) : Set ℕ) t' := by
    ext u
    simp only [Set.mem_pi, Finset.mem_coe, Finset.mem_range, ht']
    constructor
    · intro h i _
      by_cases hi : i ∈ s
      · simpa [hi] using h i hi
      · simp [hi]
    · intro h i hi
      simpa [hi] using h i (hsub i hi)
  have h2 : ∏ i ∈ s, f.prior i (t i) = ∏ i ∈ Finset.range (N + 1), f.prior i (t' i) := by
    rw [← Finset.prod_subset (s₁ := s) (fun i hi => Finset.mem_range.2 (hsub i hi)) (fun i _ hi => by simp [ht', hi])]
    exact Finset.prod_congr rfl fun i hi => by simp [ht', hi]
  rw [h1, h2, Finset.prod_range_succ', Measure.map_apply measurable_scons (MeasurableSet.pi (Finset.countable_toSet _) fun i _ => hm' i)]
  have h3 : (fun z : ℝ × (ℕ → ℝ) => scons z.1 z.2) ⁻¹' (Set.pi (Finset.range (N + 1) : Set ℕ) t') = t' 0 ×ˢ Set.pi (Finset.range N : Set ℕ) (fun i => t' (i + 1)) := by
    ext ⟨x, u⟩
    simp only [Set.mem_preimage, Set.mem_pi, Finset.mem_coe, Finset.mem_range, Set.mem_prod]
    constructor
    · intro h
      exact ⟨h 0 (by omega), fun i hi => h (i + 1) (by omega)⟩
    · rintro ⟨h0, h⟩ i hi
      cases i with
      | zero => exact h0
      | succ i => exact h i (by omega)
  rw [h3, Measure.prod_prod, Measure.infinitePi_pi _ (fun i _ => hm' (i + 1)), mul_comm]
  rfl

theorem stickSeq_scons_zero (x : ℝ) (v : ℕ → ℝ) : stickSeq (scons x v) 0 = x := by simp [stickSeq, scons]

theorem stickSeq_scons_succ (x : ℝ) (v : ℕ → ℝ) (j : ℕ) : stickSeq (scons x v) (j + 1) = (1 - x) * stickSeq v j := by
  unfold stickSeq
  rw [Finset.prod_range_succ']
  simp only [scons]
  ring

/-- A mixed moment of a beta law. -/
theorem beta_moment {a b : ℝ} (ha : 0 < a) (hb : 0 < b) (k l : ℕ) :
    ∫⁻ x, ENNReal.ofReal x ^ k * ENNReal.ofReal (1 - x) ^ l ∂betaMeasure a b = ENNReal.ofReal (beta (a + k) (b + l) / beta a b) := by
  have h := congrArg (fun μ => μ Set.univ) (betaMeasure_bayes ha hb k l)
  have : IsProbabilityMeasure (betaMeasure (a + k) (b + l)) := isProbabilityMeasureBeta (by positivity) (by positivity)
  simpa [withDensity_apply _ MeasurableSet.univ] using h

/-! ### Placing blocks -/

section
variable {B : Type} [DecidableEq B]

/-- Distinct component numbers for the blocks in `S`; zero elsewhere. -/
abbrev Place (S : Finset B) : Type := {j : B → ℕ // Set.InjOn j S ∧ ∀ c ∉ S, j c = 0}

/-- Zero outside `R`, one more than `j` inside. -/
def lift (R : Finset B) (j : B → ℕ) : B → ℕ := fun c => if c ∈ R then j c + 1 else 0

/-- The blocks that are not placed on component zero, if `o` is. -/
def without (S : Finset B) : Option S → Finset B
  | none => S
  | some c => S.erase c

theorem lift_place (S : Finset B) (o : Option S) (j : Place (without S o)) : Set.InjOn (lift (without S o) j.1) S ∧ ∀ c ∉ S, lift (without S o) j.1 c = 0 := by
  cases o with
  | none =>
    refine ⟨fun a ha b hb h => ?_, fun c hc => if_neg hc⟩
    have ha' : a ∈ S := ha
    have hb' : b ∈ S := hb
    simp only [lift, without, ha', hb', if_true] at h
    exact j.2.1 ha hb (by simpa using h)
  | some c0 =>
    refine ⟨fun a ha b hb h => ?_, fun c hc => if_neg fun h => hc (Finset.mem_of_mem_erase h)⟩
    by_cases h1 : a ∈ S.erase (c0 : B) <;> by_cases h2 : b ∈ S.erase (c0 : B)
    · simp only [lift, without, h1, h2, if_true] at h
      exact j.2.1 h1 h2 (by simpa using h)
    · simp only [lift, without, h1, h2, if_true, if_false] at h; omega
    · simp only [lift, without, h1, h2, if_true, if_false] at h; omega
    · have e1 : a = c0 := by by_contra hn; exact h1 (Finset.mem_erase.2 ⟨hn, ha⟩)
      have e2 : b = c0 := by by_contra hn; exact h2 (Finset.mem_erase.2 ⟨hn, hb⟩)
      rw [e1, e2]

theorem place_bijective (S : Finset B) : Function.Bijective (fun x : (o : Option S) × Place (without S o) => (⟨lift (without S x.1) x.2.1, lift_place S x.1 x.2⟩ : Place S)) := by
  constructor
  · rintro ⟨o, j⟩ ⟨o', j'⟩ h
    have h' : lift (without S o) j.1 = lift (without S o') j'.1 := congrArg Subtype.val h
    have hmem : ∀ c, c ∈ without S o ↔ c ∈ without S o' := fun c => by
      have := congrFun h' c
      unfold lift at this
      by_cases h1 : c ∈ without S o <;> by_cases h2 : c ∈ without S o' <;> simp_all
    have ho : o = o' := by
      cases o with
      | none =>
        cases o' with
        | none => rfl
        | some c => exact absurd ((hmem c).1 c.2) (by simp [without])
      | some c =>
        cases o' with
        | none => exact absurd ((hmem c).2 c.2) (by simp [without])
        | some c' =>
          congr 1
          by_contra hn
          have h1 : (c' : B) ∈ without S (some c) := Finset.mem_erase.2 ⟨fun h => hn (Subtype.ext h.symm), c'.2⟩
          exact absurd ((hmem c').1 h1) (by simp [without])
    subst ho
    congr 1
    refine Subtype.ext (funext fun c => ?_)
    by_cases hc : c ∈ without S o
    · have := congrFun h' c
      simpa [lift, hc] using this
    · rw [j.2.2 c hc, j'.2.2 c hc]
  · rintro ⟨j, hj, hj0⟩
    by_cases h : ∃ c0 ∈ S, j c0 = 0
    · obtain ⟨c0, hc0, h0⟩ := h
      have hpos : ∀ c ∈ S.erase c0, j c ≠ 0 := fun c hc h => (Finset.mem_erase.1 hc).1 (hj (Finset.mem_of_mem_erase hc) hc0 (h.trans h0.symm))
      refine ⟨⟨some ⟨c0, hc0⟩, ⟨fun c => j c - 1, fun a ha b hb h => ?_, fun c hc => ?_⟩⟩, Subtype.ext (funext fun c => ?_)⟩
      · have := hpos a ha
        have := hpos b hb
        simp only at h
        exact hj (Finset.mem_of_mem_erase ha) (Finset.mem_of_mem_erase hb) (by omega)
      · simp only
        by_cases hS : c ∈ S
        · have : c = c0 := by by_contra hn; exact hc (Finset.mem_erase.2 ⟨hn, hS⟩)
          rw [this, h0]
        · rw [hj0 c hS]
      · show lift (S.erase c0) _ c = j c
        unfold lift
        split
        · rename_i hc
          have := hpos c hc
          show j c - 1 + 1 = j c
          omega
        · rename_i hc
          by_cases hS : c ∈ S
          · have : c = c0 := by by_contra hn; exact hc (Finset.mem_erase.2 ⟨hn, hS⟩)
            rw [this, h0]
          · rw [hj0 c hS]
    · push Not at h
      refine ⟨⟨none, ⟨fun c => j c - 1, fun a ha b hb h' => ?_, fun c hc => ?_⟩⟩, Subtype.ext (funext fun c => ?_)⟩
      · have := h a ha
        have := h b hb
        simp only at h'
        exact hj ha hb (by omega)
      · simp only
        rw [hj0 c hc]
      · show lift S _ c = j c
        unfold lift
        split
        · rename_i hc
          have := h c hc
          show j c - 1 + 1 = j c
          omega
        · rename_i hc
          rw [hj0 c hc]

/-- The probability of labels that put block `c` on component `j c`. -/
noncomputable def placeProb (f : StickParams) (sz : B → ℕ) (S : Finset B) (j : B → ℕ) : ℝ≥0∞ :=
  ∫⁻ v, ∏ c ∈ S, ENNReal.ofReal (stickSeq v (j c)) ^ sz c ∂(Measure.infinitePi f.prior)

/-- The probability that labels drawn from the weights have the blocks `S` of sizes `sz`. -/
noncomputable def blockProb (f : StickParams) (sz : B → ℕ) (S : Finset B) : ℝ≥0∞ := ∑' j : Place S, placeProb f sz S j.1

/-- The mixed moment of the first stick. -/
noncomputable def firstMoment (f : StickParams) (k l : ℕ) : ℝ≥0∞ := ENNReal.ofReal (beta (f.a 0 + k) (f.b 0 + l) / beta (f.a 0) (f.b 0))

theorem placeProb_lift (f : StickParams) (sz : B → ℕ) {S R : Finset B} (hR : R ⊆ S) (j : B → ℕ) :
    placeProb f sz S (lift R j) = firstMoment f (∑ c ∈ S \ R, sz c) (∑ c ∈ R, sz c) * placeProb f.tail sz R j := by
  unfold placeProb firstMoment
  rw [← beta_moment (f.ha 0) (f.hb 0)]
  have hm : ∀ (T : Finset B) (i : B → ℕ), Measurable fun v : ℕ → ℝ => ∏ c ∈ T, ENNReal.ofReal (stickSeq v (i c)) ^ sz c := fun T i =>
    Finset.measurable_prod _ fun c _ => (measurable_stickSeq _).ennreal_ofReal.pow_const _
  rw [← map_scons_sticks f, lintegral_map (hm _ _) measurable_scons]
  have hae : ∀ᵐ z ∂((f.prior 0).prod (Measure.infinitePi f.tail.prior)), ∏ c ∈ S, ENNReal.ofReal (stickSeq (scons z.1 z.2) (lift R j c)) ^ sz c =
      (ENNReal.ofReal z.1 ^ (∑ c ∈ S \ R, sz c) * ENNReal.ofReal (1 - z.1) ^ (∑ c ∈ R, sz c)) * ∏ c ∈ R, ENNReal.ofReal (stickSeq z.2 (j c)) ^ sz c := by
    have h01 : ∀ᵐ x ∂(f.prior 0), x ∈ Set.Ioo (0 : ℝ) 1 := betaMeasure_ae
    have : ∀ᵐ z ∂((f.prior 0).prod (Measure.infinitePi f.tail.prior)), z.1 ∈ Set.Ioo (0 : ℝ) 1 := Measure.quasiMeasurePreserving_fst.ae h01
    filter_upwards [this] with z hz
    rw [← Finset.prod_sdiff hR, ← Finset.prod_pow_eq_pow_sum, ← Finset.prod_pow_eq_pow_sum, mul_assoc, ← Finset.prod_mul_distrib]
    congr 1
    · refine Finset.prod_congr rfl fun c hc => ?_
      rw [lift, if_neg (Finset.mem_sdiff.1 hc).2, stickSeq_scons_zero]
    · refine Finset.prod_congr rfl fun c hc => ?_
      rw [lift, if_pos hc, stickSeq_scons_succ, ENNReal.ofReal_mul (by linarith [hz.2]), mul_pow]
  rw [lintegral_congr_ae hae]
  exact lintegral_prod_mul (μ := f.prior 0) (ν := Measure.infinitePi f.tail.prior) (f := fun x => ENNReal.ofReal x ^ (∑ c ∈ S \ R, sz c) * ENNReal.ofReal (1 - x) ^ (∑ c ∈ R, sz c))
    (g := fun v => ∏ c ∈ R, ENNReal.ofReal (stickSeq v (j c)) ^ sz c) (by fun_prop) (hm _ _).aemeasurable

/-- **Taking the first stick out**: either it holds no block, or it holds one of them. -/
theorem blockProb_rec (f : StickParams) (sz : B → ℕ) (S : Finset B) :
    blockProb f sz S = firstMoment f 0 (∑ c ∈ S, sz c) * blockProb f.tail sz S + ∑ c ∈ S, firstMoment f (sz c) (∑ c ∈ S.erase c, sz c) * blockProb f.tail sz (S.erase c) := by
  have e := (Equiv.ofBijective _ (place_bijective S)).tsum_eq (fun j : Place S => placeProb f sz S j.1)
  unfold blockProb
  rw [← e, ENNReal.tsum_sigma', tsum_fintype, Fintype.sum_option]
  congr 1
  · rw [← ENNReal.tsum_mul_left]
    refine tsum_congr fun j => ?_
    have := placeProb_lift f sz (Finset.Subset.refl S) j.1
    rw [Finset.sdiff_self, Finset.sum_empty] at this
    exact this
  · rw [← Finset.sum_coe_sort S]
    refine Finset.sum_congr rfl fun c _ => ?_
    rw [← ENNReal.tsum_mul_left]
    refine tsum_congr fun j => ?_
    have := placeProb_lift f sz (Finset.erase_subset (c : B) S) j.1
    rw [Finset.sdiff_erase_self c.2, Finset.sum_singleton] at this
    exact this

/-- No blocks. -/
theorem blockProb_empty (f : StickParams) (sz : B → ℕ) : blockProb f sz ∅ = 1 := by
  unfold blockProb
  have : Unique (Place (∅ : Finset B)) := ⟨⟨⟨fun _ => 0, by simp, by simp⟩⟩, fun j => Subtype.ext (funext fun c => j.2.2 c (by simp))⟩
  rw [tsum_eq_single (default : Place (∅ : Finset B)) fun j hj => absurd (Unique.eq_default j) hj]
  simp [placeProb]

/-- The probability is at most one. -/
theorem blockProb_le_one (f : StickParams) (hex : f.Exhausts) {sz : B → ℕ} {S : Finset B} (hsz : ∀ c ∈ S, 1 ≤ sz c) : blockProb f sz S ≤ 1 := by
  obtain ⟨e⟩ : Nonempty (Fin S.card ≃ S) := ⟨S.equivFin.symm⟩
  have hsum : ∑' d : Fin S.card → ℕ, (∫⁻ v, ∏ i, ENNReal.ofReal (stickSeq v (d i)) ∂(Measure.infinitePi f.prior)) = 1 := by
    rw [← lintegral_tsum fun d => (Finset.measurable_prod _ fun i _ => (measurable_stickSeq _).ennreal_ofReal).aemeasurable]
    have hae : ∀ᵐ v ∂(Measure.infinitePi f.prior), ∑' d : Fin S.card → ℕ, ∏ i, ENNReal.ofReal (stickSeq v (d i)) = 1 := by
      filter_upwards [prior_unit f, hex] with v hv hs
      rw [tsum_pi_prod (fun (_ : Fin S.card) j => ENNReal.ofReal (stickSeq v j))]
      refine Finset.prod_eq_one fun i _ => ?_
      rw [← ENNReal.ofReal_tsum_of_nonneg (fun j => stickSeq_nonneg (fun j => ⟨(hv j).1.le, (hv j).2.le⟩) j) hs.summable, hs.tsum_eq, ENNReal.ofReal_one]
    rw [lintegral_congr_ae hae, lintegral_const, measure_univ, mul_one]
  rw [← hsum]
  have hinj : Function.Injective (fun (j : Place S) (i : Fin S.card) => j.1 (e i)) := by
    intro j j' h
    refine Subtype.ext (funext fun c => ?_)
    by_cases hc : c ∈ S
    · have := congrFun h (e.symm ⟨c, hc⟩)
      simpa using this
    · rw [j.2.2 c hc, j'.2.2 c hc]
  refine le_trans ?_ (ENNReal.tsum_comp_le_tsum_of_injective hinj _)
  refine ENNReal.tsum_le_tsum fun j => ?_
  refine lintegral_mono_ae ?_
  filter_upwards [prior_unit f, hex] with v hv hs
  have h0 : ∀ j, 0 ≤ stickSeq v j := fun j => stickSeq_nonneg (fun j => ⟨(hv j).1.le, (hv j).2.le⟩) j
  have h1 : ∀ j, ENNReal.ofReal (stickSeq v j) ≤ 1 := fun j => by
    rw [← ENNReal.ofReal_one]
    exact ENNReal.ofReal_le_ofReal (le_hasSum hs j fun i _ => h0 i)
  calc ∏ c ∈ S, ENNReal.ofReal (stickSeq v (j.1 c)) ^ sz c ≤ ∏ c ∈ S, ENNReal.ofReal (stickSeq v (j.1 c)) :=
        Finset.prod_le_prod' fun c hc => by
          calc _ ≤ ENNReal.ofReal (stickSeq v (j.1 c)) ^ 1 := pow_le_pow_right_of_le_one' (h1 _) (hsz c hc)
            _ = _ := pow_one _
    _ = ∏ c : S, ENNReal.ofReal (stickSeq v (j.1 c)) := (Finset.prod_coe_sort S fun c => ENNReal.ofReal (stickSeq v (j.1 c))).symm
    _ = _ := (Equiv.prod_comp e fun c : S => ENNReal.ofReal (stickSeq v (j.1 c))).symm
    _ ≤ _ := le_rfl

end

end Verif.Mix
