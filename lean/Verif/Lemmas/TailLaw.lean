import Verif.Lemmas.TailFeeds

/-! # The sticks that the loop of `tail` appends use up the mass with probability one -/

set_option linter.unusedSectionVars false

namespace Verif
open MeasureTheory ProbabilityTheory Filter Spec Mix
open scoped ENNReal Topology

variable {G : RandGen}

theorem usesUp_of_ge {y y' : ℕ → ℝ} (hy : ∀ i, 0 ≤ y i ∧ y i ≤ 1) (hy' : ∀ i, 0 ≤ y' i) {m : ℝ} (hm : 0 < m) (h : ∀ i, m * y' i ≤ y i) (hn : ¬ Tendsto y' atTop (𝓝 0)) : UsesUp y := by
  refine usesUp_of_not_tendsto hy fun ht => hn ?_
  have h1 : Tendsto (fun i => m⁻¹ * y i) atTop (𝓝 0) := by simpa using ht.const_mul m⁻¹
  refine squeeze_zero hy' (fun i => ?_) h1
  rw [inv_mul_eq_div, le_div_iff₀ hm, mul_comm]
  exact h i

/-! ### Independent sticks -/

theorem usesUp_sticks (f : StickParams) (hf : f.Exhausts) : ∀ᵐ u ∂G.P, ∀ q, UsesUp (fun i => (G.oracle u).beta (q + i) (f.a i) (f.b i)) := by
  rw [ae_all_iff]
  intro q
  obtain ⟨hm, hl⟩ := stickDraw_law f [] G q
  have hp : f.post [] = f.prior := funext fun j => by simp [StickParams.post, StickParams.prior, nEq, nGt, GM.labels]
  rw [hp] at hl
  have h : ∀ᵐ v ∂(G.P.map (fun u => stickDraw f [] (G.oracle u) q)), HasSum (stickSeq v) 1 := by rw [hl]; exact hf
  filter_upwards [ae_of_ae_map hm.aemeasurable h] with u hu
  have h1 := hu.tendsto_sum_nat
  simp_rw [sum_stickSeq] at h1
  have h2 : Tendsto (fun k => 1 - (1 - ∏ l ∈ Finset.range k, (1 - stickDraw f [] (G.oracle u) q l))) atTop (𝓝 (1 - 1)) := h1.const_sub 1
  simp only [sub_sub_cancel, sub_self] at h2
  have e : (fun i => (G.oracle u).beta (q + i) (f.a i) (f.b i)) = stickDraw f [] (G.oracle u) q := by
    funext i
    simp [stickDraw, nEq, nGt, GM.labels]
  rw [e]
  exact h2

/-- Sticks with one law each turn, at every `c`-th position. -/
theorem usesUp_const {a b : ℝ} (ha : 0 < a) (hb : 0 < b) (c : ℕ) : ∀ᵐ u ∂G.P, ∀ q, UsesUp (fun i => (G.oracle u).beta (q + c * i) a b) := by
  rw [ae_all_iff]
  intro q
  have : IsProbabilityMeasure (betaMeasure a b) := isProbabilityMeasureBeta ha hb
  have h := ae_not_tendsto (μ := G.P) (y := fun i u => G.beta a b (u (q + c * i))) (betaMeasure a b) (betaMeasure_Iic_zero a b) (Eventually.of_forall fun ε k => by
    rw [← G.beta_law a b ha hb, Measure.map_apply (G.measurable_beta a b) measurableSet_Iio]
    exact (RandGen.prob_seed (G := G) (q + c * k) (G.measurable_beta a b measurableSet_Iio)).le)
  filter_upwards [h] with u hu
  exact usesUp_of_not_tendsto (fun i => ⟨(G.oracle_legal u).beta_nonneg _ _ _, (G.oracle_legal u).beta_le_one _ _ _⟩) hu

/-! ### Beta-in-Beta -/

theorem BIB.usesUp {x alpha p : ℝ} {o : Option (ℝ × ℝ)} (hx : 0 ≤ x ∧ x < 1) (ha : 0 < alpha) (hp : 0 ≤ p ∧ p ≤ 1) :
    ∀ᵐ u ∂G.P, ∀ q, UsesUp (fun i => nextStick (G.oracle u) x alpha p o (q + o.elim 1 (fun _ => 2) * i)) := by
  have hc : 0 ≤ x / (1 - x) := div_nonneg hx.1 (by linarith [hx.2])
  have hpos : ∀ r : ℝ, 0 ≤ r ∧ r ≤ 1 → 0 < 1 + x / (1 - x) * r ∧ 0 < alpha + x / (1 - x) * (1 - r) := by
    intro r hr
    have h1 := mul_nonneg hc hr.1
    have h2 := mul_nonneg hc (by linarith [hr.2] : 0 ≤ 1 - r)
    constructor <;> linarith
  cases o with
  | none => exact usesUp_const (hpos p hp).1 (hpos p hp).2 1
  | some ab =>
    rw [ae_all_iff]
    intro q
    let g : G.Seed × G.Seed → ℝ := fun s => G.beta (1 + x / (1 - x) * G.beta ab.1 ab.2 s.1) (alpha + x / (1 - x) * (1 - G.beta ab.1 ab.2 s.1)) s.2
    have hb : Measurable (fun s : G.Seed × G.Seed => G.beta ab.1 ab.2 s.1) := (G.measurable_beta _ _).comp measurable_fst
    have hg : Measurable g := by
      have h : Measurable (fun s : G.Seed × G.Seed => ((1 + x / (1 - x) * G.beta ab.1 ab.2 s.1, alpha + x / (1 - x) * (1 - G.beta ab.1 ab.2 s.1)), s.2)) :=
        ((measurable_const.add (hb.const_mul _)).prodMk (measurable_const.add ((measurable_const.sub hb).const_mul _))).prodMk measurable_snd
      have := G.beta_meas.comp h
      rwa [Function.comp_def] at this
    obtain ⟨u0⟩ := G.nonempty_seed
    have hunit : ∀ s, 0 ≤ G.beta ab.1 ab.2 s ∧ G.beta ab.1 ab.2 s ≤ 1 := fun s =>
      ⟨(G.oracle_legal (fun _ => s)).beta_nonneg 0 _ _, (G.oracle_legal (fun _ => s)).beta_le_one 0 _ _⟩
    have hz : (G.ν.prod G.ν).map g (Set.Iic 0) = 0 := by
      rw [Measure.map_apply hg measurableSet_Iic, Measure.measure_prod_null (hg measurableSet_Iic)]
      refine Eventually.of_forall fun s => ?_
      have h := betaMeasure_Iic_zero (1 + x / (1 - x) * G.beta ab.1 ab.2 s) (alpha + x / (1 - x) * (1 - G.beta ab.1 ab.2 s))
      rw [← G.beta_law _ _ (hpos _ (hunit s)).1 (hpos _ (hunit s)).2, Measure.map_apply (G.measurable_beta _ _) measurableSet_Iic] at h
      exact h
    have hlaw : ∀ i, G.P.map (fun u : ℕ → G.Seed => (u i, u (i + 1))) = G.ν.prod G.ν := by
      intro i
      rw [(indepFun_iff_map_prod_eq_prod_map_map (measurable_pi_apply i).aemeasurable (measurable_pi_apply (i + 1)).aemeasurable).1 (G.indep.indepFun (by omega)), G.map_seed, G.map_seed]
    have : IsProbabilityMeasure ((G.ν.prod G.ν).map g) := Measure.isProbabilityMeasure_map hg.aemeasurable
    have h := ae_not_tendsto (μ := G.P) (y := fun i u => g (u (q + 2 * i), u (q + 2 * i + 1))) ((G.ν.prod G.ν).map g) hz (Eventually.of_forall fun ε k => by
      have hm : Measurable (fun u : ℕ → G.Seed => (u (q + 2 * k), u (q + 2 * k + 1))) := (measurable_pi_apply _).prodMk (measurable_pi_apply _)
      rw [← hlaw (q + 2 * k), Measure.map_map hg hm, Measure.map_apply (hg.comp hm) measurableSet_Iio]
      exact le_rfl)
    filter_upwards [h] with u hu
    exact usesUp_of_not_tendsto (fun i => ⟨(G.oracle_legal u).beta_nonneg _ _ _, (G.oracle_legal u).beta_le_one _ _ _⟩) hu

/-! ### Beta-Binomial -/

theorem BBin.chainStick_eq {ω : Oracle ℝ} (hω : ω.Legal) {n : ℤ} (hn : 0 ≤ n) (alpha : ℝ) : ∀ (i q : ℕ) (x : ℝ), ∃ z ∈ Finset.range (n.toNat + 1),
    chainStick ω n alpha i q x = ω.beta (q + 1 + 2 * i) (1 + (z : ℝ)) (alpha + (n : ℝ) - (z : ℝ))
  | 0, q, x => by
    have h1 := hω.binom_nonneg q n x hn
    have h2 := hω.binom_le q n x hn
    refine ⟨(ω.binom q n x).toNat, by rw [Finset.mem_range]; omega, ?_⟩
    have e : (((ω.binom q n x).toNat : ℕ) : ℝ) = ((ω.binom q n x : ℤ) : ℝ) := by
      rw [← Int.cast_natCast, Int.toNat_of_nonneg h1]
    rw [chainStick, e]
  | i + 1, q, x => by
    obtain ⟨z, h1, h2⟩ := chainStick_eq hω hn alpha i (q + 2) (ω.beta (q + 1) (1 + ((ω.binom q n x : ℤ) : ℝ)) (alpha + (n : ℝ) - ((ω.binom q n x : ℤ) : ℝ)))
    refine ⟨z, h1, ?_⟩
    rw [chainStick, h2, show q + 2 + 1 + 2 * i = q + 1 + 2 * (i + 1) by ring]

theorem BBin.usesUp {n : ℤ} (hn : 0 ≤ n) {alpha : ℝ} (ha : 0 < alpha) : ∀ᵐ u ∂G.P, ∀ q x, UsesUp (fun i => chainStick (G.oracle u) n alpha i q x) := by
  rw [ae_all_iff]
  intro q
  have hpar : ∀ z ∈ Finset.range (n.toNat + 1), 0 < 1 + (z : ℝ) ∧ 0 < alpha + (n : ℝ) - (z : ℝ) := by
    intro z hz
    have h1 : (z : ℤ) ≤ n := by rw [Finset.mem_range] at hz; omega
    have h2 : (z : ℝ) ≤ (n : ℝ) := by exact_mod_cast h1
    have h3 : (0 : ℝ) ≤ z := Nat.cast_nonneg z
    constructor <;> linarith
  let m : Measure ℝ := ∑ z ∈ Finset.range (n.toNat + 1), betaMeasure (1 + (z : ℝ)) (alpha + (n : ℝ) - (z : ℝ))
  have hfin : IsFiniteMeasure m := ⟨by
    rw [Measure.finsetSum_apply]
    refine ENNReal.sum_lt_top.2 fun z hz => ?_
    have : IsProbabilityMeasure (betaMeasure (1 + (z : ℝ)) (alpha + (n : ℝ) - (z : ℝ))) := isProbabilityMeasureBeta (hpar z hz).1 (hpar z hz).2
    exact measure_lt_top _ _⟩
  have hne : (Finset.range (n.toNat + 1)).Nonempty := ⟨0, by simp⟩
  let y : ℕ → (ℕ → G.Seed) → ℝ := fun i u => (Finset.range (n.toNat + 1)).inf' hne (fun z => G.beta (1 + (z : ℝ)) (alpha + (n : ℝ) - (z : ℝ)) (u (q + 1 + 2 * i)))
  have h := ae_not_tendsto (μ := G.P) (y := y) m (by
      rw [Measure.finsetSum_apply]
      exact Finset.sum_eq_zero fun z _ => betaMeasure_Iic_zero _ _) (Eventually.of_forall fun ε k => by
    have hsub : {u | y k u < ε} ⊆ ⋃ z ∈ Finset.range (n.toNat + 1), {u : ℕ → G.Seed | u (q + 1 + 2 * k) ∈ G.beta (1 + (z : ℝ)) (alpha + (n : ℝ) - (z : ℝ)) ⁻¹' Set.Iio ε} := by
      intro u hu
      obtain ⟨z, hz, hlt⟩ := (Finset.inf'_lt_iff hne).1 (show y k u < ε from hu)
      exact Set.mem_biUnion hz hlt
    refine (measure_mono hsub).trans ((measure_biUnion_finset_le _ _).trans ?_)
    rw [Measure.finsetSum_apply]
    refine Finset.sum_le_sum fun z hz => ?_
    rw [RandGen.prob_seed _ (G.measurable_beta _ _ measurableSet_Iio), ← G.beta_law _ _ (hpar z hz).1 (hpar z hz).2, Measure.map_apply (G.measurable_beta _ _) measurableSet_Iio])
  filter_upwards [h] with u hu x
  have hL := G.oracle_legal u
  have hb : ∀ i a b, 0 ≤ G.beta a b (u i) ∧ G.beta a b (u i) ≤ 1 := fun i a b => ⟨hL.beta_nonneg i a b, hL.beta_le_one i a b⟩
  refine usesUp_of_ge (y' := fun i => y i u) (m := 1) (fun i => ?_) (fun i => ?_) one_pos (fun i => ?_) hu
  · obtain ⟨z, -, hz⟩ := BBin.chainStick_eq hL hn alpha i q x
    rw [hz]
    exact ⟨hL.beta_nonneg _ _ _, hL.beta_le_one _ _ _⟩
  · exact Finset.le_inf' hne _ fun z _ => (hb _ _ _).1
  · obtain ⟨z, hz, he⟩ := BBin.chainStick_eq hL hn alpha i q x
    rw [one_mul, he]
    exact Finset.inf'_le _ hz

/-! ### Sticks at positions that depend on other draws -/

theorem ae_src {ι : Type} [Countable ι] {X : ℕ → (ℕ → G.Seed) → ι} {S : ι → Finset ℕ} (hX : ∀ k x, MeasurableSet {u | X k u = x}) (hS : ∀ k x, G.On (S x) (fun u => X k u = x))
    (e : ι → Option ℕ) (he : ∀ x n, e x = some n → n ∉ S x) {alpha : ℝ} (ha : 0 < alpha) :
    ∀ᵐ u ∂G.P, ¬ Tendsto (fun k => (e (X k u)).elim 1 (fun n => G.beta 1 alpha (u n))) atTop (𝓝 0) := by
  have : IsProbabilityMeasure (betaMeasure 1 alpha) := isProbabilityMeasureBeta one_pos ha
  refine ae_not_tendsto (μ := G.P) (y := fun k u => (e (X k u)).elim 1 (fun n => G.beta 1 alpha (u n))) (betaMeasure 1 alpha) (betaMeasure_Iic_zero _ _) ?_
  have h1 : ∀ᶠ ε in 𝓝[>] (0 : ℝ), ε < 1 := eventually_nhdsWithin_of_eventually_nhds (eventually_lt_nhds one_pos)
  filter_upwards [h1] with ε hε k
  let C : Set (Fin 1 → G.Seed) := {s | G.beta 1 alpha (s 0) < ε}
  have hC : MeasurableSet C := ((G.measurable_beta 1 alpha).comp (measurable_pi_apply 0)) measurableSet_Iio
  have hp := (RandGen.prob_path (G := G) (hX k) (hS k) {x | e x ≠ none} (m := 1) (e := fun x _ => (e x).getD 0) (fun x _ i j _ => Subsingleton.elim i j) (fun x hx i => by
    obtain ⟨n, hn⟩ := Option.ne_none_iff_exists'.1 hx
    rw [hn]
    exact he x n hn) hC).2
  have hsub : {u | (e (X k u)).elim 1 (fun n => G.beta 1 alpha (u n)) < ε} ⊆ {u | X k u ∈ {x | e x ≠ none} ∧ (fun _ : Fin 1 => u ((e (X k u)).getD 0)) ∈ C} := by
    intro u hu
    rw [Set.mem_ofPred_eq] at hu ⊢
    cases h : e (X k u) with
    | none => rw [h] at hu; exact absurd hu (not_lt.2 hε.le)
    | some n =>
      rw [h] at hu
      exact ⟨by rw [Set.mem_ofPred_eq, h]; simp, hu⟩
  refine (measure_mono hsub).trans ?_
  rw [hp]
  refine (mul_le_of_le_one_left zero_le prob_le_one).trans ?_
  rw [← G.beta_law 1 alpha one_pos ha, Measure.map_apply (G.measurable_beta 1 alpha) measurableSet_Iio]
  have h0 : (Measure.pi (fun _ : Fin 1 => G.ν)).map (fun s => s 0) = G.ν := (measurePreserving_eval (fun _ : Fin 1 => G.ν) 0).map_eq
  conv_rhs => rw [← h0, Measure.map_apply (measurable_pi_apply 0) (G.measurable_beta 1 alpha measurableSet_Iio)]
  exact le_rfl

/-! ### Beta-Bernoulli -/

namespace BBer

/-- Which of the next sticks are new. -/
noncomputable def berPath (ω : Oracle ℝ) (p : ℝ) : ℕ → ℕ → List Bool
  | 0, _ => []
  | k + 1, q => decide (ω.binom q 1 p = 1) :: berPath ω p k (berPos ω p q)

/-- The position after a stick. -/
def bNext (b : Bool) (q : ℕ) : ℕ := if b then q + 2 else q + 1

/-- The positions of the Bernoulli variables. -/
def bPos : List Bool → ℕ → List ℕ
  | [], _ => []
  | b :: bs, q => q :: bPos bs (bNext b q)

/-- The position of the last new stick. -/
def bLast : List Bool → ℕ → Option ℕ → Option ℕ
  | [], _, o => o
  | b :: bs, q, o => bLast bs (bNext b q) (if b then some (q + 1) else o)

theorem lt_bNext (b : Bool) (q : ℕ) : q < bNext b q := by unfold bNext; split <;> omega

theorem le_bPos : ∀ (bs : List Bool) (q : ℕ), ∀ x ∈ bPos bs q, q ≤ x
  | [], _, x, h => nomatch h
  | b :: bs, q, x, h => by
    rcases List.mem_cons.1 h with rfl | h
    · exact le_rfl
    · exact (lt_bNext b q).le.trans (le_bPos bs _ x h)

theorem bLast_notMem : ∀ (bs : List Bool) (q : ℕ) (o : Option ℕ), (∀ e, o = some e → e < q) → ∀ e, bLast bs q o = some e → e ∉ bPos bs q ∧ (o = some e ∨ q < e)
  | [], q, o, h, e, he => ⟨by simp [bPos], .inl he⟩
  | b :: bs, q, o, h, e, he => by
    have ho : ∀ e, (if b then some (q + 1) else o) = some e → e < bNext b q := by
      intro e he
      unfold bNext
      cases b with
      | true => simp at he ⊢; omega
      | false => simp at he ⊢; have := h e he; omega
    obtain ⟨h1, h2⟩ := bLast_notMem bs (bNext b q) (if b then some (q + 1) else o) ho e he
    have h3 : o = some e ∨ q < e := by
      rcases h2 with h2 | h2
      · cases b with
        | true => simp at h2; omega
        | false => simp at h2; exact .inl h2
      · exact .inr ((lt_bNext b q).trans h2)
    refine ⟨?_, h3⟩
    rw [bPos, List.mem_cons, not_or]
    refine ⟨?_, h1⟩
    rcases h3 with h3 | h3
    · have := h e h3; omega
    · omega

theorem berPos_eq (ω : Oracle ℝ) (p : ℝ) (q : ℕ) : berPos ω p q = bNext (decide (ω.binom q 1 p = 1)) q := by
  unfold berPos bNext
  simp

theorem berStick_eq (ω : Oracle ℝ) (p alpha x : ℝ) : ∀ (i q : ℕ) (o : Option ℕ), berStick ω p alpha i q (o.elim x (fun e => ω.beta e 1 alpha)) =
    (bLast (berPath ω p (i + 1) q) q o).elim x (fun e => ω.beta e 1 alpha)
  | 0, q, o => by
    rw [berStick, berPath, berPath, bLast, bLast, berNext]
    by_cases h : ω.binom q 1 p = 1 <;> simp [h]
  | i + 1, q, o => by
    rw [berStick, berPath, bLast, ← berPos_eq, ← berStick_eq ω p alpha x i, berNext]
    by_cases h : ω.binom q 1 p = 1 <;> simp [h]

theorem berPath_on {p : ℝ} : ∀ (bs : List Bool) (k q : ℕ), G.On (bPos bs q).toFinset (fun u => berPath (G.oracle u) p k q = bs)
  | [], 0, q => fun u u' _ => by simp [berPath]
  | [], k + 1, q => fun u u' _ => by simp [berPath]
  | b :: bs, 0, q => fun u u' _ => by simp [berPath]
  | b :: bs, k + 1, q => fun u u' h => by
    have hq : u q = u' q := h q (by simp [bPos])
    have e : ∀ u : ℕ → G.Seed, (G.oracle u).binom q 1 p = G.binom 1 p (u q) := fun _ => rfl
    simp only [berPath, berPos_eq, List.cons.injEq, e, hq, eq_iff_iff]
    refine and_congr_right fun hj => ?_
    rw [hj]
    have := berPath_on (p := p) bs k (bNext b q) u u' fun k hk => h k (by simp only [bPos, List.mem_toFinset, List.mem_cons] at hk ⊢; exact .inr hk)
    exact iff_of_eq this

theorem berPath_meas {p : ℝ} : ∀ (bs : List Bool) (k q : ℕ), MeasurableSet {u : ℕ → G.Seed | berPath (G.oracle u) p k q = bs}
  | [], 0, q => by simp [berPath]
  | [], k + 1, q => by simp [berPath]
  | b :: bs, 0, q => by simp [berPath]
  | b :: bs, k + 1, q => by
    have : {u : ℕ → G.Seed | berPath (G.oracle u) p (k + 1) q = b :: bs} = {u | u q ∈ {s | decide (G.binom 1 p s = 1) = b} ∧ berPath (G.oracle u) p k (bNext b q) = bs} := by
      ext u
      have e : (G.oracle u).binom q 1 p = G.binom 1 p (u q) := rfl
      simp only [berPath, berPos_eq, List.cons.injEq, e, Set.mem_ofPred_eq]
      refine and_congr_right fun hj => ?_
      rw [hj]
    rw [this]
    have hb : MeasurableSet {s | decide (G.binom 1 p s = 1) = b} := by
      have : {s | decide (G.binom 1 p s = 1) = b} = G.binom 1 p ⁻¹' {z | decide (z = 1) = b} := rfl
      rw [this]
      exact G.measurable_binom 1 p (MeasurableSet.of_discrete)
    have h1 : MeasurableSet {u : ℕ → G.Seed | u q ∈ {s | decide (G.binom 1 p s = 1) = b}} := (measurable_pi_apply q) hb
    exact MeasurableSet.inter h1 (berPath_meas bs k _)

theorem usesUp {p alpha : ℝ} (ha : 0 < alpha) : ∀ᵐ u ∂G.P, ∀ q x, 0 < x → x ≤ 1 → UsesUp (fun i => berStick (G.oracle u) p alpha i q x) := by
  rw [ae_all_iff]
  intro q
  filter_upwards [ae_src (G := G) (X := fun k u => berPath (G.oracle u) p (k + 1) q) (fun k x => berPath_meas x _ _) (fun k x => berPath_on x _ _) (fun bs => bLast bs q none)
    (fun bs n hn hm => (bLast_notMem bs q none nofun n hn).1 (List.mem_toFinset.1 hm)) ha] with u hu x hx hx1
  have hL := G.oracle_legal u
  have hb : ∀ i, 0 ≤ G.beta 1 alpha (u i) ∧ G.beta 1 alpha (u i) ≤ 1 := fun i => ⟨hL.beta_nonneg i 1 alpha, hL.beta_le_one i 1 alpha⟩
  have he : ∀ i, berStick (G.oracle u) p alpha i q x = (bLast (berPath (G.oracle u) p (i + 1) q) q none).elim x (fun e => G.beta 1 alpha (u e)) := fun i =>
    berStick_eq (G.oracle u) p alpha x i q none
  refine usesUp_of_ge (fun i => ?_) (fun i => ?_) hx (fun i => ?_) hu
  · rw [he]
    cases bLast (berPath (G.oracle u) p (i + 1) q) q none with
    | none => exact ⟨hx.le, hx1⟩
    | some e => exact hb e
  · cases bLast (berPath (G.oracle u) p (i + 1) q) q none with
    | none => exact zero_le_one
    | some e => exact (hb e).1
  · rw [he]
    cases bLast (berPath (G.oracle u) p (i + 1) q) q none with
    | none => simp
    | some e =>
      show x * G.beta 1 alpha (u e) ≤ G.beta 1 alpha (u e)
      nlinarith [(hb e).1]

end BBer

/-! ### Beta-in-Dirichlet -/

namespace BID
open Crp

/-- Where the last of the chosen sticks comes from: an inner stick that was held (`none`) or a Beta draw. -/
def urnSrc : List ℕ → List ℕ → List (Option ℕ) → ℕ → Option ℕ
  | [], _, _, _ => none
  | [j], _, src, q => (src[j]?).getD (some (q + 1))
  | j :: k :: js, c, src, q => urnSrc (k :: js) (seat c j) (if j < c.length then src else src ++ [some (q + 1)]) (nextPos c q j)

theorem urnSrc_notMem : ∀ (js c : List ℕ) (src : List (Option ℕ)) (q : ℕ), (∀ e, some e ∈ src → e < q) → ∀ e, urnSrc js c src q = some e → e ∉ choicePos c q js ∧ (some e ∈ src ∨ q < e)
  | [], _, _, _, _, _, h => nomatch h
  | [j], c, src, q, h, e, he => by
    rw [urnSrc] at he
    have h3 : some e ∈ src ∨ q < e := by
      cases hj : src[j]? with
      | none => rw [hj] at he; simp at he; omega
      | some o =>
        rw [hj] at he
        have ho : o = some e := he
        rw [ho] at hj
        exact .inl (List.mem_of_getElem? hj)
    refine ⟨?_, h3⟩
    simp only [choicePos, List.mem_singleton]
    rcases h3 with h3 | h3
    · have := h e h3; omega
    · omega
  | j :: k :: js, c, src, q, h, e, he => by
    rw [urnSrc] at he
    have hq := lt_nextPos c q j
    have hs : ∀ e, some e ∈ (if j < c.length then src else src ++ [some (q + 1)]) → e < nextPos c q j := by
      intro e he
      by_cases hj : j < c.length
      · rw [if_pos hj] at he; have := h e he; omega
      · rw [if_neg hj, List.mem_append, List.mem_singleton, Option.some.injEq] at he
        have hn : nextPos c q j = q + 2 := by unfold nextPos; rw [if_neg hj]
        rcases he with he | he
        · have := h e he; omega
        · omega
    obtain ⟨h1, h2⟩ := urnSrc_notMem (k :: js) _ _ _ hs e he
    have h3 : some e ∈ src ∨ q < e := by
      rcases h2 with h2 | h2
      · by_cases hj : j < c.length
        · rw [if_pos hj] at h2; exact .inl h2
        · rw [if_neg hj, List.mem_append, List.mem_singleton, Option.some.injEq] at h2
          rcases h2 with h2 | h2
          · exact .inl h2
          · right; omega
      · right; omega
    refine ⟨?_, h3⟩
    rw [choicePos, List.mem_cons, not_or]
    refine ⟨?_, h1⟩
    rcases h3 with h3 | h3
    · have := h e h3; omega
    · omega

theorem urnStick_src (ω : Oracle ℝ) (a alpha : ℝ) {m : ℝ} : ∀ (i : ℕ) (c : List ℕ) (vb : List ℝ) (src : List (Option ℕ)) (q : ℕ), vb.length = src.length →
    (∀ (j : ℕ) (x : ℝ), vb[j]? = some x → (src[j]? = some none → m ≤ x ∧ x ≤ 1) ∧ ∀ e, src[j]? = some (some e) → x = ω.beta e 1 alpha) →
    (urnSrc (urnPath ω a c q (i + 1)) c src q = none → m ≤ urnStick ω a alpha i c vb q ∧ urnStick ω a alpha i c vb q ≤ 1) ∧
    ∀ e, urnSrc (urnPath ω a c q (i + 1)) c src q = some e → urnStick ω a alpha i c vb q = ω.beta e 1 alpha
  | 0, c, vb, src, q, hl, h => by
    rw [urnPath, urnPath, urnSrc, urnStick, urnNext]
    generalize ω.choice q (urn c a) = j
    by_cases hj : j < vb.length
    · have h1 := h j vb[j] (List.getElem?_eq_getElem hj)
      have h2 : src[j]? = some src[j] := List.getElem?_eq_getElem (by omega)
      rw [List.getElem?_eq_getElem hj, h2]
      refine ⟨fun h3 => h1.1 ?_, fun e h3 => h1.2 e ?_⟩
      · rw [h2]; exact congrArg some h3
      · rw [h2]; exact congrArg some h3
    · rw [List.getElem?_eq_none (not_lt.1 hj), List.getElem?_eq_none (by omega)]
      refine ⟨nofun, fun e he => ?_⟩
      simp at he
      subst he
      rfl
  | i + 1, c, vb, src, q, hl, h => by
    have ih := urnStick_src ω a alpha (m := m) i (seat c (ω.choice q (urn c a))) (if ω.choice q (urn c a) < c.length then vb else vb ++ [ω.beta (q + 1) 1 alpha])
      (if ω.choice q (urn c a) < c.length then src else src ++ [some (q + 1)]) (nextPos c q (ω.choice q (urn c a))) (by split <;> simp [hl]) (by
        intro j x hx
        by_cases hj : ω.choice q (urn c a) < c.length
        · rw [if_pos hj] at hx ⊢
          exact h j x hx
        · rw [if_neg hj] at hx ⊢
          rcases lt_trichotomy j vb.length with hlt | heq | hgt
          · rw [List.getElem?_append_left hlt] at hx
            rw [List.getElem?_append_left (by omega)]
            exact h j x hx
          · subst heq
            rw [List.getElem?_append_right le_rfl] at hx
            rw [hl, List.getElem?_append_right le_rfl]
            simp at hx ⊢
            exact hx.symm
          · rw [List.getElem?_eq_none (by simp; omega)] at hx
            cases hx)
    rw [urnPath, urnPath, urnSrc, urnStick]
    rw [urnPath] at ih
    exact ih

theorem urnPath_meas' {a : ℝ} (c : List ℕ) (q n : ℕ) (x : List ℕ) : MeasurableSet {u : ℕ → G.Seed | urnPath (G.oracle u) a c q n = x} := by
  by_cases h : x.length = n
  · rw [← h]; exact RandGen.measurableSet_urnPath x c q
  · have : {u : ℕ → G.Seed | urnPath (G.oracle u) a c q n = x} = ∅ := by
      ext u
      simp only [Set.mem_ofPred_eq, Set.mem_empty_iff_false, iff_false]
      rintro rfl
      exact h (urnPath_length _ _ _ _ _)
    rw [this]
    exact MeasurableSet.empty

theorem urnPath_on' {a : ℝ} (c : List ℕ) (q n : ℕ) (x : List ℕ) : G.On (choicePos c q x).toFinset (fun u => urnPath (G.oracle u) a c q n = x) := by
  by_cases h : x.length = n
  · rw [← h]; exact RandGen.urnPath_on x c q
  · have hf : ∀ u : ℕ → G.Seed, ¬ urnPath (G.oracle u) a c q n = x := by
      rintro u rfl
      exact h (urnPath_length _ _ _ _ _)
    intro u u' _
    simp only [hf]

theorem usesUp {a alpha : ℝ} (ha : 0 < alpha) : ∀ᵐ u ∂G.P, ∀ (c : List ℕ) (q : ℕ) (vb : List ℝ), (∀ x ∈ vb, 0 < x ∧ x ≤ 1) → vb.length = c.length →
    UsesUp (fun i => urnStick (G.oracle u) a alpha i c vb q) := by
  rw [ae_all_iff]
  intro c
  rw [ae_all_iff]
  intro q
  have hrep : ∀ e, some e ∉ List.replicate c.length (none : Option ℕ) := fun e h => nomatch List.eq_of_mem_replicate h
  filter_upwards [ae_src (G := G) (X := fun k u => urnPath (G.oracle u) a c q (k + 1)) (fun k x => urnPath_meas' c q _ x) (fun k x => urnPath_on' c q _ x)
    (fun js => urnSrc js c (List.replicate c.length none) q)
    (fun js n hn hm => (urnSrc_notMem js c _ q (fun e he => absurd he (hrep e)) n hn).1 (List.mem_toFinset.1 hm)) ha] with u hu vb hvb hl
  have hL := G.oracle_legal u
  have hb : ∀ i, 0 ≤ G.beta 1 alpha (u i) ∧ G.beta 1 alpha (u i) ≤ 1 := fun i => ⟨hL.beta_nonneg i 1 alpha, hL.beta_le_one i 1 alpha⟩
  obtain ⟨m, hm0, hm1, hm⟩ : ∃ m : ℝ, 0 < m ∧ m ≤ 1 ∧ ∀ x ∈ vb, m ≤ x := by
    clear hu hl
    induction vb with
    | nil => exact ⟨1, one_pos, le_rfl, nofun⟩
    | cons y vb ih =>
      obtain ⟨m, h1, h2, h3⟩ := ih fun x hx => hvb x (by simp [hx])
      refine ⟨min m y, lt_min h1 (hvb y (by simp)).1, (min_le_left _ _).trans h2, fun x hx => ?_⟩
      rcases List.mem_cons.1 hx with rfl | hx
      · exact min_le_right _ _
      · exact (min_le_left _ _).trans (h3 x hx)
  have hs := fun i => urnStick_src (G.oracle u) a alpha (m := m) i c vb (List.replicate c.length none) q (by simpa using hl) (by
    intro j x hx
    have hx' := List.mem_of_getElem? hx
    exact ⟨fun _ => ⟨hm x hx', (hvb x hx').2⟩, fun e he => absurd (List.mem_of_getElem? he) (hrep e)⟩)
  refine usesUp_of_ge (fun i => ?_) (fun i => ?_) hm0 (fun i => ?_) hu
  · cases h : urnSrc (urnPath (G.oracle u) a c q (i + 1)) c (List.replicate c.length none) q with
    | none => exact ⟨hm0.le.trans ((hs i).1 h).1, ((hs i).1 h).2⟩
    | some e => rw [(hs i).2 e h]; exact hb e
  · cases urnSrc (urnPath (G.oracle u) a c q (i + 1)) c (List.replicate c.length none) q with
    | none => exact zero_le_one
    | some e => exact (hb e).1
  · cases h : urnSrc (urnPath (G.oracle u) a c q (i + 1)) c (List.replicate c.length none) q with
    | none => rw [Option.elim_none, mul_one]; exact ((hs i).1 h).1
    | some e =>
      rw [(hs i).2 e h]
      show m * G.beta 1 alpha (u e) ≤ G.beta 1 alpha (u e)
      nlinarith [(hb e).1]

end BID

end Verif
