import Verif.RandGen
import Mathlib.Probability.Kernel.Representation
import Mathlib.Probability.Kernel.WithDensity
import Mathlib.Analysis.SpecialFunctions.Gamma.Deriv

/-! # A generator with the documented laws exists -/

namespace Verif
open MeasureTheory ProbabilityTheory unitInterval

theorem measurable_betaPDF_pos : Measurable (fun x : (ℝ × ℝ) × ℝ => if 0 < x.1.1 ∧ 0 < x.1.2 then betaPDF x.1.1 x.1.2 x.2 else 0) := by
  let g : ℝ → ℝ := (Set.Ioi (0 : ℝ)).piecewise Real.Gamma 0
  have hg : Measurable g := by
    refine ContinuousOn.measurable_piecewise (fun x hx => ?_) continuousOn_const measurableSet_Ioi
    refine (Real.differentiableAt_Gamma fun m hm => ?_).continuousAt.continuousWithinAt
    have : (0 : ℝ) < x := hx
    rw [hm] at this
    have h0 : (0 : ℝ) ≤ m := by positivity
    linarith
  have hgp : ∀ {x : ℝ}, 0 < x → g x = Real.Gamma x := fun {x} hx => Set.piecewise_eq_of_mem _ _ _ hx
  have h : (fun x : (ℝ × ℝ) × ℝ => if 0 < x.1.1 ∧ 0 < x.1.2 then betaPDF x.1.1 x.1.2 x.2 else 0) =
      fun x => if (0 < x.1.1 ∧ 0 < x.1.2) ∧ (0 < x.2 ∧ x.2 < 1) then
        ENNReal.ofReal ((1 / (g x.1.1 * g x.1.2 / g (x.1.1 + x.1.2))) * x.2 ^ (x.1.1 - 1) * (1 - x.2) ^ (x.1.2 - 1)) else 0 := by
    funext x
    by_cases h1 : 0 < x.1.1 ∧ 0 < x.1.2
    · by_cases h2 : 0 < x.2 ∧ x.2 < 1
      · rw [if_pos h1, if_pos ⟨h1, h2⟩, betaPDF_eq, if_pos h2, hgp h1.1, hgp h1.2, hgp (add_pos h1.1 h1.2), beta]
      · rw [if_pos h1, if_neg (fun h => h2 h.2), betaPDF_eq, if_neg h2, ENNReal.ofReal_zero]
    · rw [if_neg h1, if_neg (fun h => h1 h.1)]
  rw [h]
  refine Measurable.ite ?_ ?_ measurable_const
  · refine MeasurableSet.inter (MeasurableSet.inter ?_ ?_) (MeasurableSet.inter ?_ ?_)
    · exact measurableSet_lt measurable_const (measurable_fst.comp measurable_fst)
    · exact measurableSet_lt measurable_const (measurable_snd.comp measurable_fst)
    · exact measurableSet_lt measurable_const measurable_snd
    · exact measurableSet_lt measurable_snd measurable_const
  · refine ENNReal.measurable_ofReal.comp (Measurable.mul (Measurable.mul ?_ ?_) ?_)
    · exact measurable_const.div (((hg.comp (by fun_prop)).mul (hg.comp (by fun_prop))).div (hg.comp (by fun_prop)))
    · exact Measurable.pow (by fun_prop) (by fun_prop)
    · exact Measurable.pow (by fun_prop) (by fun_prop)

theorem betaMeasure_ae {a b : ℝ} : ∀ᵐ x ∂betaMeasure a b, 0 < x ∧ x < 1 := by
  have hms : MeasurableSet {x : ℝ | ¬ (0 < x ∧ x < 1)} := (measurableSet_Ioo (a := (0 : ℝ)) (b := 1)).compl
  change betaMeasure a b {x : ℝ | ¬ (0 < x ∧ x < 1)} = 0
  rw [betaMeasure, withDensity_apply _ hms]
  refine setLIntegral_eq_zero hms fun x (hx : ¬ (0 < x ∧ x < 1)) => ?_
  rw [betaPDF_eq, if_neg hx, ENNReal.ofReal_zero]; rfl

theorem exists_beta : ∃ f : ℝ → ℝ → I → ℝ, Measurable (fun x : (ℝ × ℝ) × I => f x.1.1 x.1.2 x.2) ∧ (∀ a b s, 0 ≤ f a b s ∧ f a b s ≤ 1) ∧
    ∀ a b, 0 < a → 0 < b → volume.map (f a b) = betaMeasure a b := by
  let κ0 : Kernel (ℝ × ℝ) ℝ := Kernel.withDensity (Kernel.const _ volume) (fun q x => if 0 < q.1 ∧ 0 < q.2 then betaPDF q.1 q.2 x else 0)
  have hs : MeasurableSet {q : ℝ × ℝ | 0 < q.1 ∧ 0 < q.2} :=
    (measurableSet_lt measurable_const measurable_fst).inter (measurableSet_lt measurable_const measurable_snd)
  classical
  let κ : Kernel (ℝ × ℝ) ℝ := Kernel.piecewise hs κ0 (Kernel.const _ (Measure.dirac 0))
  have hk : ∀ a b, 0 < a → 0 < b → κ (a, b) = betaMeasure a b := by
    intro a b ha hb
    rw [Kernel.piecewise_apply, if_pos (show (a, b) ∈ {q : ℝ × ℝ | 0 < q.1 ∧ 0 < q.2} from ⟨ha, hb⟩), Kernel.withDensity_apply _ measurable_betaPDF_pos]
    simp only [Kernel.const_apply, ha, hb, and_self, if_true]
    rfl
  have hM : IsMarkovKernel κ := by
    refine ⟨fun q => ?_⟩
    by_cases h : 0 < q.1 ∧ 0 < q.2
    · rw [show q = (q.1, q.2) from rfl, hk _ _ h.1 h.2]
      exact isProbabilityMeasureBeta h.1 h.2
    · rw [Kernel.piecewise_apply, if_neg (show q ∉ {q : ℝ × ℝ | 0 < q.1 ∧ 0 < q.2} from h), Kernel.const_apply]
      infer_instance
  obtain ⟨f, hf, hl⟩ := Kernel.exists_measurable_map_eq_unitInterval κ
  refine ⟨fun a b s => max 0 (min 1 (f (a, b) s)), ?_, fun a b s => ⟨le_max_left _ _, max_le zero_le_one (min_le_left _ _)⟩, fun a b ha hb => ?_⟩
  · exact measurable_const.max (measurable_const.min hf)
  · have hm : Measurable (f (a, b)) := hf.comp (measurable_const.prodMk measurable_id)
    have : (fun s => max 0 (min 1 (f (a, b) s))) = (fun x : ℝ => max 0 (min 1 x)) ∘ f (a, b) := rfl
    change Measure.map (fun s => max 0 (min 1 (f (a, b) s))) _ = _
    rw [this, ← Measure.map_map (g := fun x : ℝ => max 0 (min 1 x)) (measurable_const.max (measurable_const.min measurable_id)) hm, hl, hk a b ha hb]
    have hae : (fun x : ℝ => max 0 (min 1 x)) =ᵐ[betaMeasure a b] id := by
      have hz : betaMeasure a b {x : ℝ | ¬ (0 < x ∧ x < 1)} = 0 := by
        have hms : MeasurableSet {x : ℝ | ¬ (0 < x ∧ x < 1)} := (measurableSet_Ioo (a := (0 : ℝ)) (b := 1)).compl
        rw [betaMeasure, withDensity_apply _ hms]
        refine setLIntegral_eq_zero hms fun x (hx : ¬ (0 < x ∧ x < 1)) => ?_
        rw [betaPDF_eq, if_neg hx, ENNReal.ofReal_zero]; rfl
      filter_upwards [show ∀ᵐ x ∂betaMeasure a b, 0 < x ∧ x < 1 from hz] with x hx
      rw [min_eq_right hx.2.le, max_eq_right hx.1.le]; rfl
    rw [Measure.map_congr hae, Measure.map_id]

theorem exists_pick {X : Type*} [MeasurableSpace X] (w : X → ℕ → ℝ) (n : ℕ) (hm : ∀ k, Measurable (fun x => w x k)) (h0 : ∀ x k, 0 ≤ w x k)
    (hn : ∀ x k, n ≤ k → w x k = 0) (h1 : ∀ x, ∑ k ∈ Finset.range n, w x k = 1) :
    ∃ f : X → I → ℕ, Measurable (Function.uncurry f) ∧ (∀ x s, 0 < w x (f x s)) ∧ ∀ x k, volume.real {s | f x s = k} = w x k := by
  classical
  have hsum : ∀ x, ∑ k ∈ Finset.range n, ENNReal.ofReal (w x k) = 1 := by
    intro x
    rw [← ENNReal.ofReal_sum_of_nonneg (fun k _ => h0 x k), h1, ENNReal.ofReal_one]
  let κ : Kernel X ℕ := ⟨fun x => ∑ k ∈ Finset.range n, ENNReal.ofReal (w x k) • Measure.dirac k, by
    refine Measure.measurable_of_measurable_coe _ fun s hs => ?_
    simp only [Measure.coe_finsetSum, Finset.sum_apply, Measure.smul_apply, smul_eq_mul]
    exact Finset.measurable_sum _ fun k _ => (ENNReal.measurable_ofReal.comp (hm k)).mul measurable_const⟩
  have hκ : ∀ x s, κ x s = ∑ k ∈ Finset.range n, ENNReal.ofReal (w x k) * (Measure.dirac k s) := by
    intro x s
    change (∑ k ∈ Finset.range n, ENNReal.ofReal (w x k) • Measure.dirac k) s = _
    simp only [Measure.coe_finsetSum, Finset.sum_apply, Measure.smul_apply, smul_eq_mul]
  have hM : IsMarkovKernel κ := by
    refine ⟨fun x => ⟨?_⟩⟩
    rw [hκ]
    simp [hsum]
  have hsing : ∀ x k, κ x {k} = ENNReal.ofReal (w x k) := by
    intro x k
    rw [hκ]
    by_cases hk : k < n
    · rw [Finset.sum_eq_single k]
      · simp
      · intro j _ hj; simp [hj]
      · intro h; exact absurd (Finset.mem_range.2 hk) h
    · rw [hn x k (by omega), ENNReal.ofReal_zero]
      refine Finset.sum_eq_zero fun j hj => ?_
      have := Finset.mem_range.1 hj
      have : j ≠ k := by omega
      simp [this]
  obtain ⟨f, hf, hl⟩ := Kernel.exists_measurable_map_eq_unitInterval κ
  have hex : ∀ x, ∃ k, 0 < w x k := by
    intro x
    by_contra hne
    push Not at hne
    have : ∑ k ∈ Finset.range n, w x k ≤ 0 := Finset.sum_nonpos fun k _ => hne k
    rw [h1] at this
    linarith
  let g : X → ℕ := fun x => Nat.find (hex x)
  have hg : Measurable g := by
    refine measurable_find _ fun k => ?_
    exact measurableSet_lt measurable_const (hm k)
  let F : X → I → ℕ := fun x s => if 0 < w x (f x s) then f x s else g x
  have hws : Measurable (fun p : X × I => w p.1 (f p.1 p.2)) := by
    have : Measurable (fun q : X × ℕ => w q.1 q.2) := measurable_from_prod_countable_left fun k => hm k
    exact this.comp (measurable_fst.prodMk hf)
  refine ⟨F, ?_, fun x s => ?_, fun x k => ?_⟩
  · exact Measurable.ite (measurableSet_lt measurable_const hws) hf (hg.comp measurable_fst)
  · change 0 < w x (if 0 < w x (f x s) then f x s else g x)
    split
    · assumption
    · exact Nat.find_spec (hex x)
  · have hfm : Measurable (f x) := hf.comp (measurable_const.prodMk measurable_id)
    have hlaw : ∀ k, volume {s | f x s = k} = ENNReal.ofReal (w x k) := by
      intro k
      rw [← hsing, ← hl, Measure.map_apply hfm (MeasurableSet.singleton k)]
      rfl
    have hae : ∀ᵐ s, 0 < w x (f x s) := by
      have : {s : I | ¬ 0 < w x (f x s)} ⊆ ⋃ k ∈ {k | w x k = 0}, {s | f x s = k} := by
        intro s hs
        have : w x (f x s) = 0 := le_antisymm (not_lt.1 hs) (h0 x _)
        exact Set.mem_biUnion (x := f x s) this rfl
      refine measure_mono_null this ((measure_biUnion_null_iff (Set.to_countable _)).2 fun k hk => ?_)
      rw [hlaw, show w x k = 0 from hk, ENNReal.ofReal_zero]
    have : volume {s | F x s = k} = volume {s | f x s = k} := by
      refine measure_congr ?_
      filter_upwards [hae] with s hs
      exact congrArg (· = k) (if_pos hs)
    rw [Measure.real, this, hlaw, ENNReal.toReal_ofReal (h0 x k)]

theorem choiceProb_nonneg {p : List ℝ} (h : ∀ x ∈ p, 0 ≤ x) (k : ℕ) : 0 ≤ choiceProb p k := by
  unfold choiceProb
  refine div_nonneg ?_ (List.sum_nonneg h)
  rcases hk : p[k]? with _ | x
  · exact le_rfl
  · exact h x (List.mem_of_getElem? hk)

theorem choiceProb_sum {p : List ℝ} (h : 0 < p.sum) : ∑ k ∈ Finset.range p.length, choiceProb p k = 1 := by
  unfold choiceProb
  rw [← Finset.sum_div, div_eq_one_iff_eq h.ne']
  have : ∀ l : List ℝ, ∑ k ∈ Finset.range l.length, (l[k]?).getD 0 = l.sum := by
    intro l
    induction l with
    | nil => rfl
    | cons x l ih =>
      rw [List.length_cons, Finset.sum_range_succ', List.sum_cons, ← ih, add_comm]
      rfl
  exact this p

/-- `rng.choice` for all lists of weights. -/
theorem exists_choice : ∃ f : List ℝ → I → ℕ, (∀ p, Measurable (f p)) ∧ (∀ p, (∀ x ∈ p, 0 ≤ x) → 0 < p.sum → ∀ s, 0 < choiceProb p (f p s)) ∧
    ∀ p k, (∀ x ∈ p, 0 ≤ x) → 0 < p.sum → volume.real {s | f p s = k} = choiceProb p k := by
  have : ∀ p : List ℝ, ∃ f : I → ℕ, Measurable f ∧ ((∀ x ∈ p, 0 ≤ x) → 0 < p.sum → (∀ s, 0 < choiceProb p (f s)) ∧ ∀ k, volume.real {s | f s = k} = choiceProb p k) := by
    intro p
    by_cases h : (∀ x ∈ p, 0 ≤ x) ∧ 0 < p.sum
    · obtain ⟨f, h1, h2, h3⟩ := exists_pick (X := Unit) (fun _ => choiceProb p) p.length (fun _ => measurable_const) (fun _ => choiceProb_nonneg h.1)
        (fun _ k hk => by rw [choiceProb, List.getElem?_eq_none hk]; simp) (fun _ => choiceProb_sum h.2)
      exact ⟨f (), h1.comp (measurable_const.prodMk measurable_id), fun _ _ => ⟨h2 (), h3 ()⟩⟩
    · exact ⟨fun _ => 0, measurable_const, fun h1 h2 => absurd ⟨h1, h2⟩ h⟩
  choose f h1 h2 using this
  exact ⟨f, h1, fun p hp hs => (h2 p hp hs).1, fun p k hp hs => (h2 p hp hs).2 k⟩

theorem expWeight_nonneg (x : Option ℝ) : 0 ≤ expWeight x := by
  cases x
  · exact le_rfl
  · exact (Real.exp_pos _).le

theorem expWeights_pos {l : List (Option ℝ)} (h : ∃ x ∈ l, x ≠ none) : 0 < (l.map expWeight).sum := by
  obtain ⟨x, hx, hn⟩ := h
  obtain ⟨y, rfl⟩ := Option.ne_none_iff_exists'.1 hn
  have h1 : 0 < expWeight (some y) := Real.exp_pos y
  refine lt_of_lt_of_le h1 (List.single_le_sum (fun z hz => ?_) _ (List.mem_map_of_mem hx))
  obtain ⟨o, -, rfl⟩ := List.mem_map.1 hz
  exact expWeight_nonneg o

/-- The Binomial probabilities; all mass on `0` for an illegal `p`. -/
noncomputable def binomProb (n : ℕ) (p : ℝ) (k : ℕ) : ℝ := if 0 ≤ p ∧ p ≤ 1 then n.choose k * p ^ k * (1 - p) ^ (n - k) else if k = 0 then 1 else 0

theorem exists_binom (n : ℕ) : ∃ f : ℝ → I → ℕ, Measurable (Function.uncurry f) ∧ (∀ p s, 0 < binomProb n p (f p s)) ∧
    ∀ p k, volume.real {s | f p s = k} = binomProb n p k := by
  refine exists_pick _ (n + 1) (fun k => ?_) (fun p k => ?_) (fun p k hk => ?_) (fun p => ?_)
  · unfold binomProb
    exact Measurable.ite ((measurableSet_le measurable_const measurable_id).inter (measurableSet_le measurable_id measurable_const)) (by fun_prop) measurable_const
  · unfold binomProb
    split
    · rename_i h
      have : 0 ≤ 1 - p := by linarith [h.2]
      have := h.1
      positivity
    · split <;> norm_num
  · unfold binomProb
    rw [Nat.choose_eq_zero_of_lt (by omega), if_neg (show k ≠ 0 by omega)]
    simp
  · unfold binomProb
    by_cases h : 0 ≤ p ∧ p ≤ 1
    · simp only [h, and_self, if_true]
      have := add_pow p (1 - p) n
      rw [add_sub_cancel, one_pow] at this
      refine Eq.trans ?_ this.symm
      exact Finset.sum_congr rfl fun k _ => by ring
    · simp only [h, if_false]
      rw [Finset.sum_eq_single 0 (fun k _ hk => by simp [hk]) (fun h => absurd (Finset.mem_range.2 (by omega)) h)]
      simp

theorem breakStick_sum {n : ℕ} (v : Fin n → ℝ) : ∑ j, breakStick v j = 1 - ∏ j, (1 - v j) := by
  rw [Finset.prod_one_sub_ordered]
  simp [breakStick]

theorem measurable_breakStick {n : ℕ} : Measurable (breakStick (N := n)) := by
  refine measurable_pi_lambda _ fun j => ?_
  unfold breakStick
  fun_prop

theorem dirichletStick_prob {l : List ℝ} (h : ∀ x ∈ l, 0 < x) (j : Fin l.length) : IsProbabilityMeasure (dirichletStick l j) := by
  unfold dirichletStick
  split
  · infer_instance
  · rename_i hj
    have hj' := j.2
    refine isProbabilityMeasureBeta ?_ ?_
    · rw [List.getElem?_eq_getElem j.2]
      exact h _ (List.getElem_mem _)
    · have hne : l.drop ((j : ℕ) + 1) ≠ [] := by
        intro he
        have := congrArg List.length he
        simp at this
        omega
      exact List.sum_pos _ (fun x hx => h x (List.mem_of_mem_drop hx)) hne

theorem dirichletStick_ae (l : List ℝ) (j : ℕ) : ∀ᵐ x ∂dirichletStick l j, 0 ≤ x ∧ x ≤ 1 := by
  unfold dirichletStick
  split
  · rw [ae_dirac_iff (measurableSet_Icc (a := (0 : ℝ)) (b := 1))]
    exact ⟨zero_le_one, le_rfl⟩
  · exact betaMeasure_ae.mono fun x h => ⟨h.1.le, h.2.le⟩

theorem dirichletStick_last {l : List ℝ} {j : ℕ} (h : j + 1 = l.length) : ∀ᵐ x ∂dirichletStick l j, x = 1 := by
  rw [dirichletStick, if_pos h]
  exact (ae_dirac_iff (p := fun x : ℝ => x = 1) (measurableSet_singleton (1 : ℝ))).2 rfl

/-- A vector of weights. -/
def IsWeights {n : ℕ} (w : Fin n → ℝ) : Prop := (∀ j, 0 ≤ w j) ∧ ∑ j, w j = 1

theorem measurableSet_isWeights {n : ℕ} : MeasurableSet {w : Fin n → ℝ | IsWeights w} := by
  have : {w : Fin n → ℝ | IsWeights w} = (⋂ j, {w | 0 ≤ w j}) ∩ {w | ∑ j, w j = 1} := by ext w; simp [IsWeights]
  rw [this]
  refine (MeasurableSet.iInter fun j => ?_).inter ?_
  · exact measurableSet_le measurable_const (measurable_pi_apply j)
  · exact measurableSet_eq_fun (by fun_prop) measurable_const

theorem dirichletLaw_ae {l : List ℝ} (hl : l ≠ []) (h : ∀ x ∈ l, 0 < x) : ∀ᵐ w ∂dirichletLaw l, IsWeights w := by
  have := dirichletStick_prob h
  have hpos := List.length_pos_of_ne_nil hl
  unfold dirichletLaw
  rw [ae_map_iff measurable_breakStick.aemeasurable measurableSet_isWeights]
  have h1 : ∀ᵐ v ∂Measure.pi (fun j : Fin l.length => dirichletStick l j), ∀ j, 0 ≤ v j ∧ v j ≤ 1 := by
    rw [ae_all_iff]
    exact fun j => (Measure.quasiMeasurePreserving_eval (fun j : Fin l.length => dirichletStick l j) j).ae (dirichletStick_ae l j)
  have h2 : ∀ᵐ v ∂Measure.pi (fun j : Fin l.length => dirichletStick l j), v ⟨l.length - 1, by omega⟩ = 1 :=
    (Measure.quasiMeasurePreserving_eval (fun j : Fin l.length => dirichletStick l j) ⟨l.length - 1, by omega⟩).ae
      (dirichletStick_last (by change l.length - 1 + 1 = l.length; omega))
  filter_upwards [h1, h2] with v hv hv1
  refine ⟨fun j => mul_nonneg (hv j).1 (Finset.prod_nonneg fun i _ => sub_nonneg.2 (hv i).2), ?_⟩
  rw [breakStick_sum, Finset.prod_eq_zero (Finset.mem_univ (⟨l.length - 1, by omega⟩ : Fin l.length)) (by rw [hv1, sub_self]), sub_zero]

theorem exists_dirichlet : ∃ f : List ℝ → I → List ℝ, (∀ l, Measurable (fun s => vec l.length (f l s))) ∧ (∀ l s, (f l s).length = l.length) ∧
    (∀ l s, ∀ x ∈ f l s, 0 ≤ x) ∧ (∀ l s, l ≠ [] → (f l s).sum = 1) ∧ ∀ l, l ≠ [] → (∀ x ∈ l, 0 < x) → volume.map (fun s => vec l.length (f l s)) = dirichletLaw l := by
  classical
  have : ∀ l : List ℝ, ∃ f : I → Fin l.length → ℝ, Measurable f ∧ (l ≠ [] → ∀ s, IsWeights (f s)) ∧ (l ≠ [] → (∀ x ∈ l, 0 < x) → volume.map f = dirichletLaw l) := by
    intro l
    by_cases hl : l = []
    · exact ⟨fun _ _ => 0, measurable_const, fun h => absurd hl h, fun h => absurd hl h⟩
    have hpos := List.length_pos_of_ne_nil hl
    let e : Fin l.length → ℝ := fun j => if (j : ℕ) = 0 then 1 else 0
    have he : IsWeights e := by
      refine ⟨fun j => by unfold e; split <;> norm_num, ?_⟩
      rw [Finset.sum_eq_single (⟨0, hpos⟩ : Fin l.length)]
      · simp [e]
      · intro j _ hj
        exact if_neg fun h => hj (Fin.ext h)
      · intro h; exact absurd (Finset.mem_univ _) h
    by_cases h : ∀ x ∈ l, 0 < x
    · have hp := dirichletStick_prob h
      have hprob : IsProbabilityMeasure (dirichletLaw l) := Measure.isProbabilityMeasure_map measurable_breakStick.aemeasurable
      obtain ⟨f, hf, hm⟩ := (dirichletLaw l).exists_measurable_map_eq
      have hae : ∀ᵐ s, IsWeights (f s) := by
        have := dirichletLaw_ae hl h
        rw [← hm, ae_map_iff hf.aemeasurable measurableSet_isWeights] at this
        exact this
      refine ⟨fun s => if IsWeights (f s) then f s else e, ?_, fun _ s => ?_, fun _ _ => ?_⟩
      · exact Measurable.ite (hf measurableSet_isWeights) hf measurable_const
      · dsimp only
        split
        · assumption
        · exact he
      · rw [← hm]
        refine Measure.map_congr ?_
        filter_upwards [hae] with s hs
        rw [if_pos hs]
    · exact ⟨fun _ => e, measurable_const, fun _ _ => he, fun _ h' => absurd h' h⟩
  choose f h1 h2 h3 using this
  have hv : ∀ l s, vec l.length (List.ofFn (f l s)) = f l s := by
    intro l s
    funext j
    simp [vec]
  refine ⟨fun l s => List.ofFn (f l s), fun l => ?_, fun l s => by simp, fun l s x hx => ?_, fun l s hl => ?_, fun l hl h => ?_⟩
  · simp only [hv]; exact h1 l
  · obtain ⟨j, rfl⟩ := List.mem_ofFn.1 hx
    by_cases hl : l = []
    · subst hl; exact j.elim0
    · exact (h2 l hl s).1 j
  · rw [List.sum_ofFn]; exact (h2 l hl s).2
  · simp only [hv]; exact h3 l hl h

theorem RandGen.nonempty : Nonempty RandGen := by
  obtain ⟨fb, b1, b2, b3⟩ := exists_beta
  choose fn n1 n2 n3 using exists_binom
  obtain ⟨fc, c1, c2, c3⟩ := exists_choice
  obtain ⟨fd, d1, d2, d3, d4, d5⟩ := exists_dirichlet
  classical
  have hexp : ∀ l : List (Option ℝ), ∀ x ∈ l.map expWeight, 0 ≤ x := by
    intro l x hx
    obtain ⟨o, -, rfl⟩ := List.mem_map.1 hx
    exact expWeight_nonneg o
  refine ⟨{ Seed := I, ν := volume, beta := fb, binom := fun n p s => (fn n.toNat p s : ℤ), unif := fun s => if (s : ℝ) < 1 then s else 0,
            dirichlet := fd, dirichlet_meas := d1, dirichlet_law := d5, choice := fc,
            gumbel := fun l => if ∃ x ∈ l, x ≠ none then fc (l.map expWeight) else fun _ => 0, optim := fun _ _ _ => none,
            beta_meas := b1, beta_law := b3, binom_meas := ?_, binom_law := ?_, unif_meas := ?_, unif_law := ?_, choice_meas := c1, choice_law := c3,
            gumbel_meas := ?_, gumbel_law := ?_, legal := ?_ }⟩
  · exact fun n => (measurable_from_top (f := fun k : ℕ => (k : ℤ))).comp (n1 n.toNat)
  · intro n k p h0 h1
    have := n3 n p k
    rw [binomProb, if_pos ⟨h0, h1⟩] at this
    rw [← this]
    simp
  · exact Measurable.ite (measurableSet_lt measurable_subtype_coe measurable_const) measurable_subtype_coe measurable_const
  · have hae : (fun s : I => if (s : ℝ) < 1 then (s : ℝ) else 0) =ᵐ[volume] (fun s : I => (s : ℝ)) := by
      have : ∀ᵐ s : I, s ≠ 1 := by
        refine (compl_mem_ae_iff).2 ?_
        exact measure_singleton _
      filter_upwards [this] with s hs
      rw [if_pos]
      exact lt_of_le_of_ne s.2.2 (fun h => hs (Subtype.ext h))
    rw [Measure.map_congr hae]
    have : Measure.map (fun s : I => (s : ℝ)) volume = volume.restrict (Set.Icc 0 1) := by
      exact map_comap_subtype_coe measurableSet_Icc _
    rw [this, Measure.restrict_congr_set Ico_ae_eq_Icc]
  · intro l
    split
    · exact c1 _
    · exact measurable_const
  · intro l k h
    rw [if_pos h]
    exact c3 _ k (hexp l) (expWeights_pos h)
  · intro u
    refine ⟨fun i a b => (b2 a b _).1, fun i a b => (b2 a b _).2, fun i n p _ => Int.natCast_nonneg _, fun i n p hn => ?_, fun i n hn => ?_, fun i n hn => ?_, fun i => ?_,
      fun i => ?_, fun i l => d2 _ _, fun i l => d3 _ _, fun i l => d4 _ _, fun i p hp hs => ?_, fun i l hl => ?_, fun i l hl => ?_, nofun⟩
    · by_contra hc
      have := n2 n.toNat p (u i)
      have hlt : n.toNat < fn n.toNat p (u i) := by
        have : n < (fn n.toNat p (u i) : ℤ) := not_le.1 hc
        omega
      rw [binomProb, Nat.choose_eq_zero_of_lt hlt, if_neg (show fn n.toNat p (u i) ≠ 0 by omega)] at this
      simp at this
    · by_contra hc
      have := n2 n.toNat 0 (u i)
      have hc' : fn n.toNat 0 (u i) ≠ 0 := fun h => hc (by change ((fn n.toNat 0 (u i) : ℕ) : ℤ) = 0; rw [h]; rfl)
      rw [binomProb, if_pos ⟨le_rfl, zero_le_one⟩, zero_pow hc'] at this
      simp at this
    · by_contra hc
      have := n2 n.toNat 1 (u i)
      have hc' : fn n.toNat 1 (u i) ≠ n.toNat := fun h => hc (by change ((fn n.toNat 1 (u i) : ℕ) : ℤ) = n; rw [h]; omega)
      rw [binomProb, if_pos ⟨zero_le_one, le_rfl⟩, sub_self] at this
      rcases lt_or_gt_of_ne hc' with h | h
      · rw [zero_pow (by omega)] at this; simp at this
      · rw [Nat.choose_eq_zero_of_lt h] at this; simp at this
    · change 0 ≤ (if ((u i : I) : ℝ) < 1 then ((u i : I) : ℝ) else 0)
      split
      · exact (u i).2.1
      · exact le_rfl
    · change (if ((u i : I) : ℝ) < 1 then ((u i : I) : ℝ) else 0) < 1
      split
      · assumption
      · exact zero_lt_one
    · have h := c2 p hp hs (u i)
      have hd : 0 < (p[fc p (u i)]?).getD 0 := by
        by_contra hneg
        have := div_nonpos_of_nonpos_of_nonneg (not_lt.1 hneg) hs.le
        exact absurd h (not_lt.2 this)
      rcases hx : p[fc p (u i)]? with _ | x
      · rw [hx] at hd; simp at hd
      · rw [hx] at hd; exact ⟨x, hx, hd⟩
    · change (if ∃ x ∈ l, x ≠ none then fc (l.map expWeight) else fun _ => 0) (u i) < l.length
      split
      · rename_i h
        have hh := c2 _ (hexp l) (expWeights_pos h) (u i)
        by_contra hc
        rw [choiceProb, List.getElem?_eq_none (by rw [List.length_map]; omega)] at hh
        simp at hh
      · exact List.length_pos_of_ne_nil hl
    · change ∃ y, l[(if ∃ x ∈ l, x ≠ none then fc (l.map expWeight) else fun _ => 0) (u i)]? = some (some y)
      rw [if_pos hl]
      have hh := c2 _ (hexp l) (expWeights_pos hl) (u i)
      rw [choiceProb, List.getElem?_map] at hh
      rcases hx : l[fc (l.map expWeight) (u i)]? with _ | o
      · rw [hx] at hh; simp at hh
      · rcases o with _ | y
        · rw [hx] at hh; simp [expWeight] at hh
        · exact ⟨y, rfl⟩

end Verif
