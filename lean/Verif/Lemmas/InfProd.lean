import Verif.Lemmas.Law
import Verif.Lemmas.Redraw

/-! # Infinite products of probability measures: densities, positions of a stream, and exchanging some coordinates -/

namespace Verif
open MeasureTheory ProbabilityTheory
open scoped ENNReal

variable {X ι : Type*} [MeasurableSpace X]

/-- The integral of a product of functions of single coordinates. -/
theorem lintegral_infinitePi_prod (μ : ι → Measure X) [∀ j, IsProbabilityMeasure (μ j)] (s : Finset ι) {g : ι → X → ℝ≥0∞} (hg : ∀ j, Measurable (g j)) :
    ∫⁻ x, ∏ j ∈ s, g j (x j) ∂(Measure.infinitePi μ) = ∏ j ∈ s, ∫⁻ x, g j x ∂μ j := by
  rw [lintegral_prod_eq_prod_lintegral_of_indepFun s (fun j (x : ι → X) => g j (x j)) (iIndepFun_infinitePi (X := g) hg) fun j => (hg j).comp (measurable_pi_apply j)]
  refine Finset.prod_congr rfl fun j _ => ?_
  conv_rhs => rw [← Measure.infinitePi_map_eval μ j]
  rw [lintegral_map (hg j) (measurable_pi_apply j)]

/-- Reweighting finitely many coordinates. -/
theorem infinitePi_withDensity (μ ν : ι → Measure X) [∀ j, IsProbabilityMeasure (μ j)] [∀ j, IsProbabilityMeasure (ν j)] (s : Finset ι) {g : ι → X → ℝ≥0∞} (hg : ∀ j, Measurable (g j))
    {c : ι → ℝ≥0∞} (hin : ∀ j ∈ s, (μ j).withDensity (g j) = c j • ν j) (hc : ∀ j ∈ s, c j ≠ 0 ∧ c j ≠ ∞) (hout : ∀ j, j ∉ s → μ j = ν j) :
    (Measure.infinitePi μ).withDensity (fun x => ∏ j ∈ s, g j (x j)) = (∏ j ∈ s, c j) • Measure.infinitePi ν := by
  classical
  have h0 : ∏ j ∈ s, c j ≠ 0 := Finset.prod_ne_zero_iff.2 fun j hj => (hc j hj).1
  have ht : ∏ j ∈ s, c j ≠ ∞ := ENNReal.prod_ne_top fun j hj => (hc j hj).2
  have key : (∏ j ∈ s, c j)⁻¹ • (Measure.infinitePi μ).withDensity (fun x => ∏ j ∈ s, g j (x j)) = Measure.infinitePi ν := by
    refine Measure.eq_infinitePi _ fun r t hmt => ?_
    have hms : MeasurableSet (Set.pi (r : Set ι) t) := MeasurableSet.pi (Finset.countable_toSet r) fun j _ => hmt j
    rw [Measure.smul_apply, withDensity_apply _ hms, ← lintegral_indicator hms, smul_eq_mul]
    let g' : ι → X → ℝ≥0∞ := fun j x => (if j ∈ r then (t j).indicator (fun _ => 1) x else 1) * (if j ∈ s then g j x else 1)
    have hg' : ∀ j, Measurable (g' j) := fun j => by
      refine Measurable.mul ?_ ?_
      · split
        · exact measurable_const.indicator (hmt j)
        · exact measurable_const
      · split
        · exact hg j
        · exact measurable_const
    have e : (Set.pi (r : Set ι) t).indicator (fun x : ι → X => ∏ j ∈ s, g j (x j)) = fun x => ∏ j ∈ r ∪ s, g' j (x j) := by
      funext x
      simp only [g']
      rw [Finset.prod_mul_distrib, Finset.prod_ite_mem, Finset.prod_ite_mem, Finset.inter_eq_right.2 Finset.subset_union_left, Finset.inter_eq_right.2 Finset.subset_union_right]
      by_cases h : x ∈ Set.pi (r : Set ι) t
      · rw [Set.indicator_of_mem h, Finset.prod_eq_one (s := r) (fun j hj => Set.indicator_of_mem (h j hj) _), one_mul]
      · rw [Set.indicator_of_notMem h]
        simp only [Set.mem_pi, not_forall] at h
        obtain ⟨j, hj, hjt⟩ := h
        rw [Finset.prod_eq_zero (s := r) (i := j) hj (Set.indicator_of_notMem hjt _), zero_mul]
    rw [e, lintegral_infinitePi_prod μ (r ∪ s) hg']
    have hterm : ∀ j, ∫⁻ x, g' j x ∂μ j = (if j ∈ s then c j else 1) * (if j ∈ r then ν j (t j) else 1) := by
      intro j
      simp only [g']
      by_cases hs : j ∈ s <;> by_cases hr : j ∈ r
      · simp only [if_pos hs, if_pos hr]
        have : (fun x => (t j).indicator (fun _ => (1 : ℝ≥0∞)) x * g j x) = (t j).indicator (g j) := by
          funext x
          by_cases hx : x ∈ t j <;> simp [hx]
        rw [this, lintegral_indicator (hmt j), ← withDensity_apply _ (hmt j), hin j hs, Measure.smul_apply, smul_eq_mul]
      · simp only [if_pos hs, if_neg hr, one_mul, mul_one]
        have := congrArg (fun m => m Set.univ) (hin j hs)
        simpa using this
      · simp only [if_neg hs, if_pos hr, one_mul, mul_one]
        rw [hout j hs, lintegral_indicator (hmt j), setLIntegral_one]
      · simp [hs, hr]
    simp_rw [hterm]
    rw [Finset.prod_mul_distrib, Finset.prod_ite_mem, Finset.prod_ite_mem, Finset.inter_eq_right.2 Finset.subset_union_left, Finset.inter_eq_right.2 Finset.subset_union_right, ← mul_assoc,
      ENNReal.inv_mul_cancel h0 ht, one_mul]
  rw [← key, smul_smul, ENNReal.mul_inv_cancel h0 ht, one_smul]

/-- A stream read at different positions is a product; the other coordinates are constant. -/
theorem stream_seq {S : Type*} [MeasurableSpace S] (Q : Measure S) [IsProbabilityMeasure Q] (O : ι → Prop) [DecidablePred O] (e : ι → ℕ)
    (he : ∀ i j, O i → O j → e i = e j → i = j) (F : ι → S → X) (hF : ∀ j, Measurable (F j)) (θ : ι → X) (ν : ι → Measure X) [∀ j, IsProbabilityMeasure (ν j)]
    (hin : ∀ j, O j → ν j = Q.map (F j)) (hout : ∀ j, ¬ O j → ν j = Measure.dirac (θ j)) :
    (Measure.infinitePi (fun _ : ℕ => Q)).map (fun x j => if O j then F j (x (e j)) else θ j) = Measure.infinitePi ν := by
  classical
  have hm : Measurable (fun (x : ℕ → S) (j : ι) => if O j then F j (x (e j)) else θ j) := by
    refine measurable_pi_lambda _ fun j => ?_
    split
    · exact (hF j).comp (measurable_pi_apply _)
    · exact measurable_const
  refine Measure.eq_infinitePi _ fun r t hmt => ?_
  have hms : MeasurableSet (Set.pi (r : Set ι) t) := MeasurableSet.pi (Finset.countable_toSet r) fun j _ => hmt j
  rw [Measure.map_apply hm hms]
  by_cases hθ : ∀ j ∈ r, ¬ O j → θ j ∈ t j
  · have hind : iIndepFun (fun (j : {j // O j}) (x : ℕ → S) => F j (x (e j))) (Measure.infinitePi (fun _ : ℕ => Q)) :=
      ((iIndepFun_infinitePi (P := fun _ : ℕ => Q) (X := fun _ x => x) (fun _ => measurable_id)).precomp (g := fun j : {j // O j} => e j)
        (fun i j h => Subtype.ext (he i j i.2 j.2 h))).comp (fun j => F j) fun j => hF j
    have h1 := hind.measure_inter_preimage_eq_mul (r.subtype O) (sets := fun j => t j) (fun j _ => hmt j)
    have hs : (fun (x : ℕ → S) (j : ι) => if O j then F j (x (e j)) else θ j) ⁻¹' (Set.pi (r : Set ι) t) =
        ⋂ j ∈ r.subtype O, (fun x : ℕ → S => F j (x (e j))) ⁻¹' t j := by
      ext x
      simp only [Set.mem_preimage, Set.mem_pi, Set.mem_iInter, Finset.mem_subtype, Finset.mem_coe]
      constructor
      · rintro h ⟨j, hj⟩ hr
        simpa [hj] using h j hr
      · intro h j hr
        by_cases hj : O j
        · simpa [hj] using h ⟨j, hj⟩ hr
        · simpa [hj] using hθ j hr hj
    rw [hs, h1]
    have h2 : ∀ j : {j // O j}, Measure.infinitePi (fun _ : ℕ => Q) ((fun x : ℕ → S => F j (x (e j))) ⁻¹' t j) = ν j (t j) := fun j => by
      rw [hin j j.2, Measure.map_apply (hF j) (hmt j), ← Measure.infinitePi_map_eval (fun _ : ℕ => Q) (e j), Measure.map_apply (measurable_pi_apply _) (hF j (hmt j))]
      simp only [Measure.infinitePi_map_eval]
      rfl
    simp_rw [h2]
    rw [Finset.prod_subtype_eq_prod_filter (fun j => ν j (t j)), Finset.prod_filter]
    refine Finset.prod_congr rfl fun j hr => ?_
    split
    · rfl
    · rename_i hj
      rw [hout j hj, Measure.dirac_apply' _ (hmt j), Set.indicator_of_mem (hθ j hr hj)]
      rfl
  · push Not at hθ
    obtain ⟨j, hr, hj, hjt⟩ := hθ
    have hs : (fun (x : ℕ → S) (j : ι) => if O j then F j (x (e j)) else θ j) ⁻¹' (Set.pi (r : Set ι) t) = ∅ := by
      ext x
      simp only [Set.mem_preimage, Set.mem_pi, Set.mem_empty_iff_false, iff_false, not_forall]
      exact ⟨j, hr, by simpa [hj] using hjt⟩
    rw [hs, measure_empty]
    symm
    refine Finset.prod_eq_zero hr ?_
    rw [hout j hj, Measure.dirac_apply' _ (hmt j), Set.indicator_of_notMem hjt]

/-- Taking some coordinates from one sequence and the others from another one. -/
def mixSeq (O : ι → Prop) [DecidablePred O] (x x' : ι → X) (j : ι) : X := if O j then x j else x' j

theorem measurable_mixSeq (O : ι → Prop) [DecidablePred O] : Measurable (fun z : (ι → X) × (ι → X) => mixSeq O z.1 z.2) := by
  refine measurable_pi_lambda _ fun j => ?_
  unfold mixSeq
  split
  · exact (measurable_pi_apply _).comp measurable_fst
  · exact (measurable_pi_apply _).comp measurable_snd

theorem map_mixSeq (O : ι → Prop) [DecidablePred O] (μ μ' ν : ι → Measure X) [∀ j, IsProbabilityMeasure (μ j)] [∀ j, IsProbabilityMeasure (μ' j)] [∀ j, IsProbabilityMeasure (ν j)]
    (hin : ∀ j, O j → ν j = μ j) (hout : ∀ j, ¬ O j → ν j = μ' j) :
    ((Measure.infinitePi μ).prod (Measure.infinitePi μ')).map (fun z => mixSeq O z.1 z.2) = Measure.infinitePi ν := by
  classical
  refine Measure.eq_infinitePi _ fun r t hmt => ?_
  have hms : MeasurableSet (Set.pi (r : Set ι) t) := MeasurableSet.pi (Finset.countable_toSet r) fun j _ => hmt j
  rw [Measure.map_apply (measurable_mixSeq O) hms]
  have hs : (fun z : (ι → X) × (ι → X) => mixSeq O z.1 z.2) ⁻¹' (Set.pi (r : Set ι) t) = (Set.pi (r.filter O : Finset ι) t) ×ˢ (Set.pi (r.filter (¬ O ·) : Finset ι) t) := by
    ext z
    simp only [Set.mem_preimage, Set.mem_pi, Set.mem_prod, Finset.mem_coe, Finset.mem_filter, mixSeq]
    constructor
    · intro h
      exact ⟨fun j hj => by simpa [hj.2] using h j hj.1, fun j hj => by simpa [hj.2] using h j hj.1⟩
    · rintro ⟨h1, h2⟩ j hr
      by_cases hj : O j
      · simpa [hj] using h1 j ⟨hr, hj⟩
      · simpa [hj] using h2 j ⟨hr, hj⟩
  rw [hs, Measure.prod_prod, Measure.infinitePi_pi _ (fun j _ => hmt j), Measure.infinitePi_pi _ (fun j _ => hmt j), ← Finset.prod_filter_mul_prod_filter_not r O]
  congr 1
  · exact Finset.prod_congr rfl fun j hj => by rw [hin j (Finset.mem_filter.1 hj).2]
  · exact Finset.prod_congr rfl fun j hj => by rw [hout j (Finset.mem_filter.1 hj).2]

theorem lintegral_mixSeq (O : ι → Prop) [DecidablePred O] (μ μ' ν : ι → Measure X) [∀ j, IsProbabilityMeasure (μ j)] [∀ j, IsProbabilityMeasure (μ' j)] [∀ j, IsProbabilityMeasure (ν j)]
    (hin : ∀ j, O j → ν j = μ j) (hout : ∀ j, ¬ O j → ν j = μ' j) {h : (ι → X) → ℝ≥0∞} (hh : Measurable h) :
    ∫⁻ x, ∫⁻ x', h (mixSeq O x x') ∂(Measure.infinitePi μ') ∂(Measure.infinitePi μ) = ∫⁻ x, h x ∂(Measure.infinitePi ν) := by
  rw [← map_mixSeq O μ μ' ν hin hout, lintegral_map hh (measurable_mixSeq O)]
  exact (lintegral_prod (fun z : (ι → X) × (ι → X) => h (mixSeq O z.1 z.2)) (hh.comp (measurable_mixSeq O)).aemeasurable).symm

/-- Redrawing the coordinates from a stopping time on.  `E k` is the event that the time is `k`; it depends on the coordinates below `k` only. -/
theorem lintegral_stopped (μ μ' : ℕ → Measure X) [∀ j, IsProbabilityMeasure (μ j)] [∀ j, IsProbabilityMeasure (μ' j)] {k0 : ℕ} (hμ : ∀ j, k0 ≤ j → μ j = μ' j)
    {E : ℕ → Set (ℕ → X)} (hE : ∀ k, MeasurableSet (E k)) (hk0 : ∀ k, k < k0 → E k = ∅) (hloc : ∀ k x x', (∀ j < k, x j = x' j) → (x ∈ E k ↔ x' ∈ E k))
    (hdis : ∀ x i j, x ∈ E i → x ∈ E j → i = j) (hcov : ∀ᵐ x ∂(Measure.infinitePi μ), ∃ k, x ∈ E k) {T : (ℕ → X) → ℕ} (hT : ∀ k x, x ∈ E k → T x = k)
    {h : (ℕ → X) → ℝ≥0∞} (hh : Measurable h) :
    ∫⁻ x, ∫⁻ x', h (mixSeq (· < T x) x x') ∂(Measure.infinitePi μ') ∂(Measure.infinitePi μ) = ∫⁻ x, h x ∂(Measure.infinitePi μ) := by
  classical
  have split : ∀ f : (ℕ → X) → ℝ≥0∞, ∫⁻ x, f x ∂(Measure.infinitePi μ) = ∑' k, ∫⁻ x in E k, f x ∂(Measure.infinitePi μ) := by
    intro f
    rw [← lintegral_iUnion hE (fun i j hij => Set.disjoint_left.2 fun x hi hj => hij (hdis x i j hi hj)), ← setLIntegral_univ]
    refine setLIntegral_congr ?_
    filter_upwards [hcov] with x hx
    refine propext ⟨fun _ => Set.mem_iUnion.2 hx, fun _ => trivial⟩
  rw [split, split]
  refine tsum_congr fun k => ?_
  by_cases hk : k < k0
  · rw [hk0 k hk]; simp
  · rw [← lintegral_indicator (hE k), ← lintegral_indicator (hE k)]
    rw [← lintegral_mixSeq (· < k) μ μ' μ (fun _ _ => rfl) (fun j hj => hμ j (by omega)) (hh.indicator (hE k))]
    refine lintegral_congr fun x => ?_
    by_cases hx : x ∈ E k
    · rw [Set.indicator_of_mem hx]
      refine lintegral_congr fun x' => ?_
      have hx' : mixSeq (· < k) x x' ∈ E k := (hloc k x _ fun j hj => by simp [mixSeq, hj]).1 hx
      rw [Set.indicator_of_mem hx', hT k x hx]
    · rw [Set.indicator_of_notMem hx]
      have : ∀ x', (E k).indicator h (mixSeq (· < k) x x') = 0 := fun x' => by
        refine Set.indicator_of_notMem (fun hc => hx ?_) _
        exact (hloc k _ _ fun j hj => by simp [mixSeq, hj]).1 hc
      simp [this]

end Verif
