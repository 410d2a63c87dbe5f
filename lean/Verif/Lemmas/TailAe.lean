import Verif.Lemmas.StickClasses
import Verif.Lemmas.UrnPath
import Verif.Props.C23

/-! # `tail` returns with probability one: general lemmas -/

namespace Verif
open MeasureTheory ProbabilityTheory Filter Spec
open scoped ENNReal Topology

/-- The sticks use up the whole mass. -/
def UsesUp (y : ℕ → ℝ) : Prop := Tendsto (fun k => ∏ i ∈ Finset.range k, (1 - y i)) atTop (𝓝 0)

theorem usesUp_of_not_tendsto {y : ℕ → ℝ} (hy : ∀ i, 0 ≤ y i ∧ y i ≤ 1) (h : ¬ Tendsto y atTop (𝓝 0)) : UsesUp y := by
  have hns : ¬ Summable y := fun hs => h hs.tendsto_atTop_zero
  have hinf : Tendsto (fun k => ∑ i ∈ Finset.range k, y i) atTop atTop := (not_summable_iff_tendsto_nat_atTop_of_nonneg fun i => (hy i).1).1 hns
  refine squeeze_zero (fun k => Finset.prod_nonneg fun i _ => by linarith [(hy i).2]) (g := fun k => Real.exp (-(∑ i ∈ Finset.range k, y i))) (fun k => ?_)
    (Real.tendsto_exp_neg_atTop_nhds_zero.comp hinf)
  rw [← Finset.sum_neg_distrib, Real.exp_sum]
  refine Finset.prod_le_prod (fun i _ => by linarith [(hy i).2]) fun i _ => ?_
  linarith [Real.add_one_le_exp (-(y i))]

section
variable {C : WeightCore ℝ} {V : C.State → List ℝ} {ω : Oracle ℝ}

/-- In states with `J` the loop of `tail` appends the sticks `Y s 0, Y s 1, ...`, one in each turn, as long as it goes on. -/
structure Feeds (C : WeightCore ℝ) (V : C.State → List ℝ) (ω : Oracle ℝ) (J : C.State × ℕ → Prop) (Y : C.State × ℕ → ℕ → ℝ) : Prop where
  stick : ∀ s, J s → C.getW s.1 = stickWeights (V s.1)
  next : ∀ s, J s → wp ω (C.complete (.int ((C.getW s.1).length + 1))) (fun _ t => J t ∧ V t.1 = V s.1 ++ [Y s 0] ∧ ∀ i, Y t i = Y s (i + 1)) (fun _ _ => False) s

variable {J : C.State × ℕ → Prop} {Y : C.State × ℕ → ℕ → ℝ}

theorem Feeds.loop (h : Feeds C V ω J Y) {x : ℝ} : ∀ n fuel s, n ≤ fuel → J s →
    leftOver (V s.1) * ∏ i ∈ Finset.range n, (1 - Y s i) ≤ 1 - x → wp ω (BaseWeight.tailLoop C x fuel) (fun _ _ => True) (fun _ _ => False) s := by
  intro n
  induction n with
  | zero =>
    intro fuel s _ hJ hl
    rw [Finset.prod_range_zero, mul_one] at hl
    have hx : ¬ (C.getW s.1).sum < x := not_lt.2 (by rw [h.stick s hJ, stickWeights_sum]; linarith)
    cases fuel <;> (unfold BaseWeight.tailLoop; rw [wp_bind, wp_self, if_neg hx]; trivial)
  | succ n ih =>
    intro fuel s hf hJ hl
    obtain ⟨f, rfl⟩ : ∃ f, fuel = f + 1 := ⟨fuel - 1, by omega⟩
    unfold BaseWeight.tailLoop
    rw [wp_bind, wp_self, wp_ite]
    refine ⟨fun hlt => ?_, fun _ => trivial⟩
    rw [wp_bind]
    refine wp_mono (h.next s hJ) (fun _ t ht => ih f t (by omega) ht.1 ?_) fun _ _ h => h
    rw [ht.2.1, leftOver_append, leftOver_cons, leftOver_nil, mul_one, mul_assoc]
    rw [Finset.prod_range_succ'] at hl
    rw [mul_comm (1 - Y s 0)]
    simpa only [ht.2.2] using hl

theorem Feeds.tail (h : Feeds C V ω J Y) {x : ℝ} (hx : 0 ≤ x ∧ x < 1) {s : C.State × ℕ}
    (h0 : C.getW s.1 = [] → wp ω (C.random (.int 1)) (fun _ t => J t ∧ Unit01 (V t.1) ∧ UsesUp (Y t)) (fun _ _ => False) s)
    (hs : C.getW s.1 ≠ [] → J s ∧ Unit01 (V s.1) ∧ UsesUp (Y s)) : ∃ F, ∀ fuel ≥ F, ∃ r t, C.inheritTail.tail fuel x ω s = (.ok r, t) := by
  have hl : ∀ t : C.State × ℕ, Unit01 (V t.1) → UsesUp (Y t) → ∃ n, leftOver (V t.1) * ∏ i ∈ Finset.range n, (1 - Y t i) ≤ 1 - x := by
    intro t ht hy
    obtain ⟨n, hn⟩ := ((tendsto_order.1 hy).2 (1 - x) (by linarith [hx.2])).exists
    refine ⟨n, ?_⟩
    have h1 := leftOver_nonneg ht
    have h2 := leftOver_le_one ht
    have h3 : (0 : ℝ) < 1 - x := by linarith [hx.2]
    rcases le_or_gt 0 (∏ i ∈ Finset.range n, (1 - Y t i)) with h4 | h4 <;> nlinarith
  suffices ∃ F, ∀ fuel ≥ F, wp ω (BaseWeight.tail C fuel x) (fun _ _ => True) (fun _ _ => False) s by
    obtain ⟨F, hF⟩ := this
    refine ⟨F, fun fuel hf => ?_⟩
    obtain ⟨r, t, h, _⟩ := wp_total (hF fuel hf)
    exact ⟨r, t, h⟩
  by_cases hnil : C.getW s.1 = []
  · obtain ⟨r, t, hr, ht1, ht2, ht3⟩ := wp_total (h0 hnil)
    obtain ⟨n, hn⟩ := hl t ht2 ht3
    refine ⟨n, fun fuel hf => ?_⟩
    unfold BaseWeight.tail
    rw [if_neg (by push Not; exact ⟨hx.2, hx.1⟩), wp_bind, wp_self, if_pos (by rw [hnil]; rfl), wp_bind]
    unfold wp
    rw [hr]
    exact h.loop n fuel t hf ht1 hn
  · obtain ⟨ht1, ht2, ht3⟩ := hs hnil
    obtain ⟨n, hn⟩ := hl s ht2 ht3
    refine ⟨n, fun fuel hf => ?_⟩
    unfold BaseWeight.tail
    rw [if_neg (by push Not; exact ⟨hx.2, hx.1⟩), wp_bind, wp_self, if_neg (fun h => hnil (List.length_eq_zero_iff.1 h))]
    exact h.loop n fuel s hf ht1 hn

end

/-! ### Sticks with bounded laws -/

theorem measure_Iio_tendsto (m : Measure ℝ) [IsFiniteMeasure m] (hm : m (Set.Iic 0) = 0) : Tendsto (fun ε => m (Set.Iio ε)) (𝓝[>] 0) (𝓝 0) := by
  have h := tendsto_measure_biInter_gt (μ := m) (s := fun ε : ℝ => Set.Iio ε) (a := 0) (fun r _ => measurableSet_Iio.nullMeasurableSet) (fun i j _ hij => Set.Iio_subset_Iio hij)
    ⟨1, one_pos, measure_ne_top _ _⟩
  have : (⋂ r > (0 : ℝ), Set.Iio r) = Set.Iic 0 := by
    ext z
    simp only [Set.mem_iInter, Set.mem_Iio, Set.mem_Iic]
    exact ⟨fun h => le_of_forall_gt_imp_ge_of_dense fun r hr => (h r hr).le, fun h r hr => lt_of_le_of_lt h hr⟩
  rw [this, hm] at h
  exact h

/-- If all sticks put at most the mass `m` below small levels, and `m` has no mass at 0, the sticks do not tend to 0. -/
theorem ae_not_tendsto {Ω : Type*} [MeasurableSpace Ω] {μ : Measure Ω} {y : ℕ → Ω → ℝ} (m : Measure ℝ) [IsFiniteMeasure m] (hm : m (Set.Iic 0) = 0)
    (hy : ∀ᶠ ε in 𝓝[>] (0 : ℝ), ∀ k, μ {u | y k u < ε} ≤ m (Set.Iio ε)) : ∀ᵐ u ∂μ, ¬ Tendsto (fun k => y k u) atTop (𝓝 0) := by
  rw [ae_iff]
  simp only [not_not]
  have hb : ∀ᶠ ε in 𝓝[>] (0 : ℝ), μ {u | Tendsto (fun k => y k u) atTop (𝓝 0)} ≤ m (Set.Iio ε) := by
    filter_upwards [hy, self_mem_nhdsWithin] with ε hε hpos
    have hsub : {u | Tendsto (fun k => y k u) atTop (𝓝 0)} ⊆ ⋃ N : ℕ, {u | ∀ k ≥ N, y k u < ε} := by
      intro u hu
      obtain ⟨N, hN⟩ := eventually_atTop.1 ((tendsto_order.1 hu).2 ε hpos)
      exact Set.mem_iUnion.2 ⟨N, hN⟩
    refine (measure_mono hsub).trans ?_
    have hmono : Monotone (fun N : ℕ => {u | ∀ k ≥ N, y k u < ε}) := fun N N' hNN' u hu k hk => hu k (le_trans hNN' hk)
    rw [hmono.measure_iUnion]
    exact iSup_le fun N => (measure_mono (fun u (hu : ∀ k ≥ N, y k u < ε) => hu N le_rfl)).trans (hε N)
  exact le_antisymm (ge_of_tendsto (measure_Iio_tendsto m hm) hb) zero_le

theorem betaMeasure_Iic_zero (a b : ℝ) : betaMeasure a b (Set.Iic 0) = 0 := by
  have h := betaMeasure_ae (a := a) (b := b)
  rw [ae_iff] at h
  refine measure_mono_null ?_ h
  intro z hz hz'
  exact not_lt.2 hz hz'.1

end Verif
