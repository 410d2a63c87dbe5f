import Verif.RandGen

/-!
# Events that depend on finitely many seeds, and draws at a random stream position
-/

namespace Verif
open MeasureTheory ProbabilityTheory
namespace RandGen
variable (G : RandGen)

/-- The result depends on the seeds in `S` only. -/
def On {X : Type*} (S : Finset ℕ) (H : (ℕ → G.Seed) → X) : Prop := ∀ u u', (∀ k ∈ S, u k = u' k) → H u = H u'

variable {G}

theorem On.mono {X : Type*} {S T : Finset ℕ} {H : (ℕ → G.Seed) → X} (h : G.On S H) (hST : S ⊆ T) : G.On T H := fun u u' he => h u u' fun k hk => he k (hST hk)

theorem On.factor {X : Type*} [MeasurableSpace X] {S : Finset ℕ} {H : (ℕ → G.Seed) → X} (hm : Measurable H) (h : G.On S H) :
    ∃ F : ((k : S) → G.Seed) → X, Measurable F ∧ H = F ∘ (fun (u : ℕ → G.Seed) (k : S) => u k) := by
  obtain ⟨s0⟩ := G.nonempty_seed
  refine ⟨fun g => H (fun k => if hk : k ∈ S then g ⟨k, hk⟩ else s0), ?_, ?_⟩
  · refine hm.comp (measurable_pi_lambda _ fun k => ?_)
    by_cases hk : k ∈ S
    · simp only [hk, dite_true]; exact measurable_pi_apply _
    · simp only [hk, dite_false]; exact measurable_const
  · funext u
    refine h _ _ fun k hk => ?_
    simp [hk]

/-- Results that depend on disjoint sets of seeds are independent. -/
theorem indep_on {X Y : Type*} [MeasurableSpace X] [MeasurableSpace Y] {S T : Finset ℕ} (hST : Disjoint S T) {H : (ℕ → G.Seed) → X} {H' : (ℕ → G.Seed) → Y}
    (hm : Measurable H) (hm' : Measurable H') (h : G.On S H) (h' : G.On T H') : IndepFun H H' G.P := by
  obtain ⟨F, hF, rfl⟩ := h.factor hm
  obtain ⟨F', hF', rfl⟩ := h'.factor hm'
  exact (G.indep.indepFun_finset S T hST (fun i => measurable_pi_apply i)).comp hF hF'

/-- The same for events. -/
theorem prob_on {S T : Finset ℕ} (hST : Disjoint S T) {A B : (ℕ → G.Seed) → Prop} (hA : MeasurableSet {u | A u}) (hB : MeasurableSet {u | B u}) (h : G.On S A) (h' : G.On T B) :
    G.P {u | A u ∧ B u} = G.P {u | A u} * G.P {u | B u} := by
  have := indep_on (G := G) hST (measurableSet_setOfPred.1 hA) (measurableSet_setOfPred.1 hB) h h'
  have := indepFun_iff_measure_inter_preimage_eq_mul.1 this {True} {True} (MeasurableSet.singleton _) (MeasurableSet.singleton _)
  have e : ∀ C : (ℕ → G.Seed) → Prop, C ⁻¹' {True} = {u | C u} := fun C => by ext u; simp
  rw [e, e] at this
  exact this

theorem prob_seed (i : ℕ) {A : Set G.Seed} (hA : MeasurableSet A) : G.P {u | u i ∈ A} = G.ν A := by
  rw [← G.map_seed i, Measure.map_apply (measurable_pi_apply i) hA]; rfl

/-- A draw at a stream position that depends on other seeds has the law of a draw. -/
theorem law_path {ι Y : Type*} [Countable ι] [MeasurableSpace Y] {X : (ℕ → G.Seed) → ι} {S : ι → Finset ℕ} (hX : ∀ x, MeasurableSet {u | X u = x})
    (hS : ∀ x, G.On (S x) (fun u => X u = x)) {V : (ℕ → G.Seed) → Y} {g : G.Seed → Y} (hg : Measurable g) {e : ι → ℕ} (he : ∀ x, e x ∉ S x)
    (hV : ∀ u, V u = g (u (e (X u)))) : Measurable V ∧ G.P.map V = G.ν.map g := by
  have hpre : ∀ B : Set Y, V ⁻¹' B = ⋃ x, {u | X u = x ∧ u (e x) ∈ g ⁻¹' B} := by
    intro B
    ext u
    simp [hV u]
  have hms : ∀ B : Set Y, MeasurableSet B → ∀ x, MeasurableSet {u : ℕ → G.Seed | X u = x ∧ u (e x) ∈ g ⁻¹' B} := fun B hB x =>
    MeasurableSet.inter (hX x) (show MeasurableSet ((fun u : ℕ → G.Seed => u (e x)) ⁻¹' (g ⁻¹' B)) from measurable_pi_apply (e x) (hg hB))
  have hm : Measurable V := by
    intro B hB
    rw [hpre]
    exact MeasurableSet.iUnion (hms B hB)
  refine ⟨hm, ?_⟩
  ext B hB
  have hdisj : ∀ B : Set Y, Pairwise (Function.onFun Disjoint fun x => {u : ℕ → G.Seed | X u = x ∧ u (e x) ∈ g ⁻¹' B}) := by
    intro B x y hxy
    rw [Function.onFun, Set.disjoint_left]
    rintro u ⟨h1, -⟩ ⟨h2, -⟩
    exact hxy (h1.symm.trans h2)
  have hx : ∀ B : Set Y, MeasurableSet B → ∀ x, G.P {u | X u = x ∧ u (e x) ∈ g ⁻¹' B} = G.P {u | X u = x} * G.ν (g ⁻¹' B) := by
    intro B hB x
    rw [prob_on (S := S x) (T := {e x}) (by simpa using he x) (hX x) (measurable_pi_apply (e x) (hg hB)) (hS x), prob_seed _ (hg hB)]
    intro u u' h
    have := h (e x) (by simp)
    simp [this]
  rw [Measure.map_apply hm hB, Measure.map_apply hg hB, hpre, measure_iUnion (hdisj B) (hms B hB)]
  simp_rw [hx B hB]
  rw [ENNReal.tsum_mul_right]
  have hone : ∑' x, G.P {u | X u = x} = 1 := by
    rw [← measure_iUnion _ hX, ← measure_univ (μ := G.P)]
    · congr 1; ext u; simp
    · intro x y hxy
      rw [Function.onFun, Set.disjoint_left]
      intro u h1 h2
      exact hxy (h1.symm.trans h2)
  rw [hone, one_mul]

/-- Distinct seeds are independent. -/
theorem map_seeds {m : ℕ} {e : Fin m → ℕ} (he : Function.Injective e) : G.P.map (fun u i => u (e i)) = Measure.pi (fun _ : Fin m => G.ν) := by
  have h := (iIndepFun_iff_map_fun_eq_pi_map (fun i => (measurable_pi_apply (e i)).aemeasurable)).1 (G.indep.precomp (g := e) he)
  simp_rw [G.map_seed] at h
  exact h

/-- Seeds at stream positions that depend on other seeds, given those. -/
theorem prob_path {ι : Type*} [Countable ι] {X : (ℕ → G.Seed) → ι} {S : ι → Finset ℕ} (hX : ∀ x, MeasurableSet {u | X u = x})
    (hS : ∀ x, G.On (S x) (fun u => X u = x)) (T : Set ι) {m : ℕ} {e : ι → Fin m → ℕ} (hi : ∀ x ∈ T, Function.Injective (e x)) (he : ∀ x ∈ T, ∀ i, e x i ∉ S x)
    {C : Set (Fin m → G.Seed)} (hC : MeasurableSet C) :
    MeasurableSet {u | X u ∈ T ∧ (fun i => u (e (X u) i)) ∈ C} ∧
    G.P {u | X u ∈ T ∧ (fun i => u (e (X u) i)) ∈ C} = G.P {u | X u ∈ T} * Measure.pi (fun _ : Fin m => G.ν) C := by
  have hme : ∀ x, Measurable (fun (u : ℕ → G.Seed) i => u (e x i)) := fun x => measurable_pi_lambda _ fun i => measurable_pi_apply _
  have hpre : {u : ℕ → G.Seed | X u ∈ T ∧ (fun i => u (e (X u) i)) ∈ C} = ⋃ x : T, {u | X u = x ∧ (fun i => u (e x i)) ∈ C} := by
    ext u
    simp only [Set.mem_ofPred_eq, Set.mem_iUnion, Subtype.exists, exists_prop]
    constructor
    · rintro ⟨h1, h2⟩; exact ⟨_, h1, rfl, h2⟩
    · rintro ⟨x, h1, h2, h3⟩; subst h2; exact ⟨h1, h3⟩
  have hpre' : {u : ℕ → G.Seed | X u ∈ T} = ⋃ x : T, {u | X u = x} := by
    ext u
    simp
  have hms : ∀ x : T, MeasurableSet {u : ℕ → G.Seed | X u = x ∧ (fun i => u (e x i)) ∈ C} := fun x => MeasurableSet.inter (hX x) (hme x hC)
  have hx : ∀ x : T, G.P {u | X u = x ∧ (fun i => u (e x i)) ∈ C} = G.P {u | X u = x} * Measure.pi (fun _ : Fin m => G.ν) C := by
    intro x
    rw [prob_on (S := S x) (T := Finset.univ.image (e x)) _ (hX x) (hme x hC) (hS x), ← map_seeds (hi x x.2), Measure.map_apply (hme x) hC]
    · rfl
    · intro u u' h
      have : (fun i => u (e x i)) = fun i => u' (e x i) := funext fun i => h _ (Finset.mem_image_of_mem _ (Finset.mem_univ i))
      dsimp only
      rw [this]
    · rw [Finset.disjoint_right]
      intro k hk
      obtain ⟨i, _, rfl⟩ := Finset.mem_image.1 hk
      exact he x x.2 i
  have hd : ∀ D : T → Set (ℕ → G.Seed), Pairwise (Function.onFun Disjoint fun x : T => {u : ℕ → G.Seed | X u = x ∧ u ∈ D x}) := by
    intro D x y hxy
    rw [Function.onFun, Set.disjoint_left]
    rintro u ⟨h1, -⟩ ⟨h2, -⟩
    exact hxy (Subtype.ext (h1.symm.trans h2))
  refine ⟨by rw [hpre]; exact MeasurableSet.iUnion hms, ?_⟩
  have hd1 : Pairwise (Function.onFun Disjoint fun x : T => {u : ℕ → G.Seed | X u = x ∧ (fun i => u (e x i)) ∈ C}) := hd fun x => {u | (fun i => u (e x i)) ∈ C}
  rw [hpre, measure_iUnion hd1 hms]
  simp_rw [hx]
  have hd2 : Pairwise (Function.onFun Disjoint fun x : T => {u : ℕ → G.Seed | X u = x}) := by simpa using hd fun _ => Set.univ
  rw [ENNReal.tsum_mul_right, hpre', measure_iUnion hd2 fun x => hX x]

/-- Two Beta draws from different seeds differ almost surely. -/
theorem beta_ne {a b : ℝ} (ha : 0 < a) (hb : 0 < b) : ∀ᵐ u ∂G.P, ∀ i j : ℕ, i ≠ j → G.beta a b (u i) ≠ G.beta a b (u j) := by
  rw [ae_all_iff]
  intro i
  rw [ae_all_iff]
  intro j
  by_cases hij : i = j
  · exact Filter.Eventually.of_forall fun _ h => absurd hij h
  have hmi : ∀ i, Measurable (fun u : ℕ → G.Seed => G.beta a b (u i)) := fun i => (G.measurable_beta a b).comp (measurable_pi_apply i)
  have hl : ∀ i, G.P.map (fun u => G.beta a b (u i)) = betaMeasure a b := fun i => by
    rw [← G.beta_law a b ha hb, ← G.map_seed i, Measure.map_map (G.measurable_beta a b) (measurable_pi_apply i)]
    rfl
  have hind : IndepFun (fun u : ℕ → G.Seed => G.beta a b (u i)) (fun u => G.beta a b (u j)) G.P :=
    (G.indep.indepFun hij).comp (G.measurable_beta a b) (G.measurable_beta a b)
  have hpair := (indepFun_iff_map_prod_eq_prod_map_map (hmi i).aemeasurable (hmi j).aemeasurable).1 hind
  rw [hl i, hl j] at hpair
  have hat : ∀ x, betaMeasure a b {x} = 0 := fun x => withDensity_absolutelyContinuous _ _ (measure_singleton x)
  have hp : IsProbabilityMeasure (betaMeasure a b) := isProbabilityMeasureBeta ha hb
  have hdiag : MeasurableSet {p : ℝ × ℝ | p.1 = p.2} := measurableSet_eq_fun measurable_fst measurable_snd
  have h0 : (betaMeasure a b).prod (betaMeasure a b) {p : ℝ × ℝ | p.1 = p.2} = 0 := by
    rw [Measure.measure_prod_null hdiag]
    refine Filter.Eventually.of_forall fun x => ?_
    have : Prod.mk x ⁻¹' {p : ℝ × ℝ | p.1 = p.2} = {x} := by ext y; simp [eq_comm]
    dsimp only
    rw [this, hat]; rfl
  rw [← hpair, Measure.map_apply ((hmi i).prodMk (hmi j)) hdiag] at h0
  have : ∀ᵐ u ∂G.P, ¬ (G.beta a b (u i) = G.beta a b (u j)) := by rw [ae_iff]; simpa using h0
  filter_upwards [this] with u hu _ using hu

end RandGen
end Verif
