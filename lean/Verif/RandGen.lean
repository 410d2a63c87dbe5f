import Verif.Rng
import Mathlib.MeasureTheory.Constructions.Pi
import Mathlib.Probability.Distributions.Beta
import Mathlib.Probability.ProductMeasure
import Mathlib.Probability.HasLaw
import Mathlib.Probability.Independence.InfinitePi

/-!
# A generator with the documented laws

`Oracle` (in `Verif/Rng.lean`) stands for one outcome of a generator.  `RandGen` is a random generator: stream position `i` has a seed `u i`, the seeds are independent and
identically distributed, and the answer at position `i` is a measurable function of the seed and the request, with the law that `np.random.Generator` documents for
`beta`, `binomial`, `uniform`, `dirichlet` and `choice`, and that of `gumbel_max_sampling`.  No law is assumed for the scipy optimisers.
Statements about the law of a result integrate over the seeds of a fresh part of the stream, whatever the history that led to the state.
-/

namespace Verif
open MeasureTheory ProbabilityTheory

/-- The probability that `rng.choice` documents for index `k`: its entry, normalised. -/
noncomputable def choiceProb (p : List ℝ) (k : ℕ) : ℝ := (p[k]?).getD 0 / p.sum

/-- The weight `exp(logp)` of a log-probability, `0` for minus infinity. -/
noncomputable def expWeight (x : Option ℝ) : ℝ := x.elim 0 Real.exp

/-- The first `N` entries of a list. -/
def vec (N : ℕ) (l : List ℝ) : Fin N → ℝ := fun j => (l[(j : ℕ)]?).getD 0

/-- Stick breaking: weight `j` is `v_j` times the part left over by the earlier sticks. -/
def breakStick {N : ℕ} (v : Fin N → ℝ) : Fin N → ℝ := fun j => v j * ∏ l ∈ Finset.univ.filter (· < j), (1 - v l)

/-- The `j`-th stick of the Dirichlet law: `Beta(l_j, l_{j+1} + l_{j+2} + ...)`; the last stick takes what is left over. -/
noncomputable def dirichletStick (l : List ℝ) (j : ℕ) : Measure ℝ :=
  if j + 1 = l.length then Measure.dirac 1 else betaMeasure ((l[j]?).getD 0) ((l.drop (j + 1)).sum)

/-- The Dirichlet law, by stick breaking. -/
noncomputable def dirichletLaw (l : List ℝ) : Measure (Fin l.length → ℝ) := (Measure.pi (fun j : Fin l.length => dirichletStick l j)).map breakStick

/-- The outcome for given seeds. -/
def seedOracle {S : Type} (beta : ℝ → ℝ → S → ℝ) (binom : ℤ → ℝ → S → ℤ) (unif : S → ℝ) (dirichlet : List ℝ → S → List ℝ) (choice : List ℝ → S → ℕ)
    (gumbel : List (Option ℝ) → S → ℕ) (optim : List ℝ → List ℝ → S → Option ℝ) (u : ℕ → S) : Oracle ℝ where
  beta := fun i a b => beta a b (u i)
  binom := fun i n p => binom n p (u i)
  unif := fun i => unif (u i)
  dirichlet := fun i l => dirichlet l (u i)
  choice := fun i p => choice p (u i)
  gumbelMax := fun i l => gumbel l (u i)
  optim := fun i v ps => optim v ps (u i)

/-- A random generator. -/
structure RandGen where
  /-- The seeds. -/
  Seed : Type
  [ms : MeasurableSpace Seed]
  ν : Measure Seed
  [prob : IsProbabilityMeasure ν]
  /-- `rng.beta(a, b)` for a seed. -/
  beta : ℝ → ℝ → Seed → ℝ
  binom : ℤ → ℝ → Seed → ℤ
  unif : Seed → ℝ
  dirichlet : List ℝ → Seed → List ℝ
  choice : List ℝ → Seed → ℕ
  gumbel : List (Option ℝ) → Seed → ℕ
  optim : List ℝ → List ℝ → Seed → Option ℝ
  beta_meas : Measurable (fun x : (ℝ × ℝ) × Seed => beta x.1.1 x.1.2 x.2)
  beta_law : ∀ a b, 0 < a → 0 < b → ν.map (beta a b) = betaMeasure a b
  binom_meas : ∀ n, Measurable (fun x : ℝ × Seed => binom n x.1 x.2)
  binom_law : ∀ (n k : ℕ) p, 0 ≤ p → p ≤ 1 → ν.real {s | binom n p s = k} = n.choose k * p ^ k * (1 - p) ^ (n - k)
  unif_meas : Measurable unif
  unif_law : ν.map unif = volume.restrict (Set.Ico 0 1)
  dirichlet_meas : ∀ l, Measurable (fun s => vec l.length (dirichlet l s))
  dirichlet_law : ∀ l, l ≠ [] → (∀ x ∈ l, 0 < x) → ν.map (fun s => vec l.length (dirichlet l s)) = dirichletLaw l
  choice_meas : ∀ p, Measurable (choice p)
  choice_law : ∀ p k, (∀ x ∈ p, 0 ≤ x) → 0 < p.sum → ν.real {s | choice p s = k} = choiceProb p k
  gumbel_meas : ∀ l, Measurable (gumbel l)
  gumbel_law : ∀ l k, (∃ x ∈ l, x ≠ none) → ν.real {s | gumbel l s = k} = choiceProb (l.map expWeight) k
  /-- The answers lie in the support for every seed. -/
  legal : ∀ u : ℕ → Seed, (seedOracle beta binom unif dirichlet choice gumbel optim u).Legal

namespace RandGen

attribute [instance] ms prob

variable (G : RandGen)

/-- The outcome of the generator for the seeds `u`. -/
def oracle (u : ℕ → G.Seed) : Oracle ℝ := seedOracle G.beta G.binom G.unif G.dirichlet G.choice G.gumbel G.optim u

/-- The law of the seeds. -/
noncomputable def P : Measure (ℕ → G.Seed) := Measure.infinitePi (fun _ => G.ν)

instance : IsProbabilityMeasure G.P := by unfold P; infer_instance

theorem oracle_legal (u : ℕ → G.Seed) : (G.oracle u).Legal := G.legal u

theorem measurable_beta (a b : ℝ) : Measurable (G.beta a b) :=
  G.beta_meas.comp (f := fun s => ((a, b), s)) (measurable_const.prodMk measurable_id)

theorem measurable_binom (n : ℤ) (p : ℝ) : Measurable (G.binom n p) :=
  (G.binom_meas n).comp (f := fun s => (p, s)) (measurable_const.prodMk measurable_id)

theorem map_seed (i : ℕ) : G.P.map (fun u => u i) = G.ν := Measure.infinitePi_map_eval _ i

theorem indep : iIndepFun (fun (i : ℕ) (u : ℕ → G.Seed) => u i) G.P := by
  rw [iIndepFun_iff_map_fun_eq_infinitePi_map (fun i => measurable_pi_apply i)]
  simp_rw [G.map_seed]
  exact Measure.map_id

/-- The result depends on the seeds below `n` only. -/
def Before {X : Type*} (n : ℕ) (H : (ℕ → G.Seed) → X) : Prop := ∀ u u', (∀ k < n, u k = u' k) → H u = H u'

theorem nonempty_seed : Nonempty G.Seed := by
  by_contra h
  rw [not_nonempty_iff] at h
  have := measure_univ (μ := G.ν)
  rw [Set.eq_empty_of_isEmpty Set.univ, measure_empty] at this
  exact zero_ne_one this

/-- A seed is independent of everything that depends on earlier seeds. -/
theorem indep_before {X : Type*} [MeasurableSpace X] {n i : ℕ} (hi : n ≤ i) {H : (ℕ → G.Seed) → X} (hm : Measurable H) (hb : G.Before n H) :
    IndepFun H (fun u => u i) G.P := by
  obtain ⟨s0⟩ := G.nonempty_seed
  have h := G.indep.indepFun_finset (Finset.range n) {i} (by rw [Finset.disjoint_singleton_right, Finset.mem_range]; omega) (fun i => measurable_pi_apply i)
  let F : ((k : Finset.range n) → G.Seed) → X := fun g => H (fun k => if hk : k ∈ Finset.range n then g ⟨k, hk⟩ else s0)
  have hF : Measurable F := by
    refine hm.comp (measurable_pi_lambda _ fun k => ?_)
    by_cases hk : k ∈ Finset.range n
    · simp only [hk, dite_true]; exact measurable_pi_apply _
    · simp only [hk, dite_false]; exact measurable_const
  have hH : H = F ∘ (fun (u : ℕ → G.Seed) (k : Finset.range n) => u k) := by
    funext u
    refine hb _ _ fun k hk => ?_
    simp [hk]
  have := h.comp hF (measurable_pi_apply (⟨i, Finset.mem_singleton_self i⟩ : ({i} : Finset ℕ)))
  rw [hH]
  exact this

theorem map_before {X : Type*} [MeasurableSpace X] {n i : ℕ} (hi : n ≤ i) {H : (ℕ → G.Seed) → X} (hm : Measurable H) (hb : G.Before n H) :
    G.P.map (fun u => (H u, u i)) = (G.P.map H).prod G.ν := by
  rw [(indepFun_iff_map_prod_eq_prod_map_map hm.aemeasurable (measurable_pi_apply i).aemeasurable).1 (G.indep_before hi hm hb), G.map_seed]

/-- Integrating over one fresh seed. -/
theorem lintegral_before {X : Type*} [MeasurableSpace X] {n i : ℕ} (hi : n ≤ i) {H : (ℕ → G.Seed) → X} (hm : Measurable H) (hb : G.Before n H)
    {f : X → G.Seed → ENNReal} (hf : Measurable (Function.uncurry f)) :
    ∫⁻ u, f (H u) (u i) ∂G.P = ∫⁻ u, ∫⁻ s, f (H u) s ∂G.ν ∂G.P := by
  have h1 : ∫⁻ u, f (H u) (u i) ∂G.P = ∫⁻ x, Function.uncurry f x ∂(G.P.map (fun u => (H u, u i))) := by
    rw [lintegral_map hf (hm.prodMk (measurable_pi_apply i))]
    rfl
  rw [h1, G.map_before hi hm hb, lintegral_prod _ hf.aemeasurable, lintegral_map hf.lintegral_prod_right' hm]
  rfl

/-- Integrating over one fresh seed. -/
theorem integral_before {X : Type*} [MeasurableSpace X] {n i : ℕ} (hi : n ≤ i) {H : (ℕ → G.Seed) → X} (hm : Measurable H) (hb : G.Before n H)
    {f : X → G.Seed → ℝ} (hf : Measurable (Function.uncurry f)) {C : ℝ} (hC : ∀ x s, |f x s| ≤ C) :
    ∫ u, f (H u) (u i) ∂G.P = ∫ u, ∫ s, f (H u) s ∂G.ν ∂G.P := by
  have hp : IsProbabilityMeasure (G.P.map H) := Measure.isProbabilityMeasure_map hm.aemeasurable
  have h1 : ∫ u, f (H u) (u i) ∂G.P = ∫ x, Function.uncurry f x ∂(G.P.map (fun u => (H u, u i))) := by
    rw [integral_map (hm.prodMk (measurable_pi_apply i)).aemeasurable hf.aestronglyMeasurable]
    rfl
  have hint : Integrable (Function.uncurry f) ((G.P.map H).prod G.ν) :=
    Integrable.of_bound hf.aestronglyMeasurable C (Filter.Eventually.of_forall fun x => by rw [Real.norm_eq_abs]; exact hC _ _)
  rw [h1, G.map_before hi hm hb, integral_prod _ hint, integral_map hm.aemeasurable]
  · rfl
  · exact (hf.stronglyMeasurable.integral_prod_right (ν := G.ν)).aestronglyMeasurable

end RandGen
end Verif
