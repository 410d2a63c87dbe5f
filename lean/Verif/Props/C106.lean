import Verif.Props.C105
import Verif.Lemmas.FinAverage

/-!
# C106: averages over the saved states of a mixture with finitely many components converge to posterior means

As C98, for mixtures with `N` components and weights from `DirichletDistribution` or `EqualWeighting`, started cold: **the share of saved states in which two observations have the same label**
(`gibbs_eap_affinity_matrix()`, C42) **converges in probability to the posterior probability that they share a component**, as the number of saved states grows (`C106_affinity`), whatever the
burn-in, the gap between saved states and the labels at the start.  The same for the mean number of groups (`C106_groups`) and for every function of the labels (`C106_average`).

`savedMean` is the mean of a function of the labels of the saved states, over the randomness of all iterations, each with fresh draws.  As in C105 the shift `eps` of the slice variables is taken to be
zero.
-/

namespace Verif.Mix.FinMix
open MeasureTheory ProbabilityTheory GM Spec Filter
open scoped ENNReal Topology

set_option linter.unusedSectionVars false

variable {N m n : ℕ} [NeZero N] {Atom : Type} [MeasurableSpace Atom] {C0 : WeightCore ℝ}

/-- The mean of `F` of the labels of `T` saved states, when the first is saved after `b` iterations and the others after `gap` iterations each. -/
noncomputable def savedMean (nz : ℝ → ℝ) (W : World ℝ m Atom) (A : AtomGen m Atom) (G : RandGen) (gap : ℕ) : ℕ → ℕ → (List (Fin n → Fin N) → ℝ≥0∞) → GM C0.inheritTail m Atom × ℕ → ℝ≥0∞
  | 0, _, F, _ => F []
  | T + 1, b, F, s => runMean nz W A G b (fun s' => savedMean nz W A G gap T gap (fun l => F (labelsF N n s'.1.d :: l)) s') s

section
variable {lp : (Fin m → ℝ) → Atom → WithBot ℝ} {f : FinPrior N} {drawW : List ℕ → Oracle ℝ → ℕ → Fin N → ℝ} {Inv : C0.State → Prop} {W : World ℝ m Atom} {A : AtomGen m Atom} {y : Fin n → Fin m → ℝ}
  {p : NIW ℝ m} {nz : ℝ → ℝ} (hlp : ∀ i, Measurable (obsDens lp (y i)))
variable (hnz : IsGumbel nz) (hW : W.logpdf = lp) (hcl : FinClass C0 f drawW Inv) (heps : W.eps = 0) (hn : 2 ≤ n) (hcj : Conjugate A lp p) (G : RandGen)
include hlp hnz hW hcl heps hn hcj

theorem runMean_congr (k : ℕ) {F F' : GM C0.inheritTail m Atom × ℕ → ℝ≥0∞} (hF : ∀ s (δ : Fin n → Fin N), FinHolds y p Inv s.1 δ → F s = F' s) {s : GM C0.inheritTail m Atom × ℕ} {d : Fin n → Fin N}
    (h : FinHolds y p Inv s.1 d) : runMean nz W A G k F s = runMean nz W A G k F' s := by
  induction k generalizing s d with
  | zero => exact hF s d h
  | succ k ih => exact stepMean_congr hlp hnz hW hcl heps hn hcj G (fun s δ hs => ih hs) h

theorem savedMean_kernel (gap T b : ℕ) (F : List (Fin n → Fin N) → ℝ≥0∞) {s : GM C0.inheritTail m Atom × ℕ} {d : Fin n → Fin N} (h : FinHolds y p Inv s.1 d) :
    savedMean nz W A G gap T b F s = heldMean A p (kSaved A lp p f y gap T b F) s := by
  induction T generalizing b F s d with
  | zero =>
    show F [] = _
    unfold heldMean kSaved
    simp only [lintegral_const, measure_univ, mul_one]
  | succ T ih =>
    show runMean nz W A G b (fun s' => savedMean nz W A G gap T gap (fun l => F (labelsF N n s'.1.d :: l)) s') s = _
    rw [runMean_congr hlp hnz hW hcl heps hn hcj G b (F' := heldMean A p (fun d z => kSaved A lp p f y gap T gap (fun l => F (d :: l)) d z)) (fun s' δ hs => ih gap _ hs) h,
      runMean_kernel hlp hnz hW hcl heps hn hcj G b (fun δ => measurable_kSaved hlp gap T gap _ δ) h]
    rfl

omit hnz hW hcl heps hn in
theorem posterior_labels {g : (Fin n → Fin N) → ℝ} {C : ℝ} (hg : ∀ d, |g d| ≤ C) : ∫ q, g q.1 ∂(posteriorPairs A lp p f y) = ∑ δ, g δ * (finPosterior A lp p f y δ).real Set.univ := by
  have := posterior_prob (f := f) hlp hcj
  have hgb : Alt.Bd C (fun x : Config N n Atom => g x.1) := ⟨measurable_from_prod_countable_right fun d => (measurable_const : Measurable fun _ : FParams N Atom => g d), fun x => hg x.1⟩
  have h1 : Integrable (fun x : Config N n Atom => g x.1) (Measure.sum fun d => (finPosterior A lp p f y d).map (Prod.mk d)) := hgb.integrable (posteriorPairs A lp p f y)
  have h2 := hasSum_integral_measure h1
  have h3 : ∀ d, ∫ x, g x.1 ∂((finPosterior A lp p f y d).map (Prod.mk d)) = g d * (finPosterior A lp p f y d).real Set.univ := by
    intro d
    rw [(measurableEmbedding_prodMk_left d).integral_map]
    simp [mul_comm]
  simp_rw [h3] at h2
  exact (h2.tsum_eq.symm).trans (tsum_fintype _)

variable (hden : ∀ i a, lp (y i) a ≠ ⊥)
include hden

/-- **Averages over the saved states** of a bounded function of the labels converge in probability to the posterior mean. -/
theorem C106_average {s : GM C0.inheritTail m Atom × ℕ} {d : Fin n → Fin N} (h : FinHolds y p Inv s.1 d) (hfresh : FreshAtoms s.1) {C : ℝ} {g : (Fin n → Fin N) → ℝ} (hg : ∀ d, |g d| ≤ C)
    {gap : ℕ} (hgap : 0 < gap) (burn : ℕ) {ε : ℝ} (hε : 0 < ε) :
    Tendsto (fun T : ℕ => savedMean nz W A G gap T (burn + 1) (fun l : List (Fin n → Fin N) => if ε ≤ |(l.map g).sum / T - ∑ δ, g δ * (finPosterior A lp p f y δ).real Set.univ| then 1 else 0) s) atTop (𝓝 0) := by
  have hprob : IsProbabilityMeasure ((condLaw A p f y d).map (Prod.mk d)) := Measure.isProbabilityMeasure_map measurable_prodMk_left.aemeasurable
  have h1 := kSaved_average hlp hcj hden (by omega) hg hgap (burn + 1) hε (condLaw_ac (f := f) hlp hcj d)
  rw [posterior_labels hlp hcj hg] at h1
  rw [← tendsto_add_atTop_iff_nat 1] at h1 ⊢
  refine h1.congr fun T => ?_
  rw [savedMean_kernel hlp hnz hW hcl heps hn hcj G gap (T + 1) (burn + 1) _ h]
  unfold kSaved
  simp only [Function.iterate_succ_apply']
  refine (heldMean_fresh hlp (fun δ => measurable_iterate hlp (fun δ => measurable_kSaved hlp gap T gap _ δ) burn δ) h fun j hj => hfresh j ?_).symm
  rw [h.2.1]
  exact fun h' => hj ((mem_nat_iff d j).1 h')

/-- **The affinity matrix**: the share of saved states in which two observations have the same label converges in probability to the posterior probability of that. -/
theorem C106_affinity {s : GM C0.inheritTail m Atom × ℕ} {d : Fin n → Fin N} (h : FinHolds y p Inv s.1 d) (hfresh : FreshAtoms s.1) (i i' : Fin n) {gap : ℕ} (hgap : 0 < gap) (burn : ℕ) {ε : ℝ} (hε : 0 < ε) :
    Tendsto (fun T : ℕ => savedMean nz W A G gap T (burn + 1)
      (fun l : List (Fin n → Fin N) => if ε ≤ |(l.countP (fun δ => δ i = δ i') : ℝ) / T - ∑ δ, if δ i = δ i' then (finPosterior A lp p f y δ).real Set.univ else 0| then 1 else 0) s) atTop (𝓝 0) := by
  have h1 := C106_average hlp hnz hW hcl heps hn hcj G hden h hfresh (g := fun δ => if δ i = δ i' then 1 else 0) (C := 1) (fun δ => by split <;> simp) hgap burn hε
  have h2 : ∀ l : List (Fin n → Fin N), (l.map (fun δ => if δ i = δ i' then (1 : ℝ) else 0)).sum = l.countP (fun δ => δ i = δ i') := by
    intro l
    induction l with
    | nil => simp
    | cons δ l ih =>
      rw [List.map_cons, List.sum_cons, ih, List.countP_cons]
      by_cases hδ : δ i = δ i' <;> simp [hδ, add_comm]
  simp only [h2, ite_mul, one_mul, zero_mul] at h1
  exact h1

/-- **The number of groups**: its mean over the saved states converges in probability to its posterior mean. -/
theorem C106_groups {s : GM C0.inheritTail m Atom × ℕ} {d : Fin n → Fin N} (h : FinHolds y p Inv s.1 d) (hfresh : FreshAtoms s.1) {gap : ℕ} (hgap : 0 < gap) (burn : ℕ) {ε : ℝ} (hε : 0 < ε) :
    Tendsto (fun T : ℕ => savedMean nz W A G gap T (burn + 1)
      (fun l : List (Fin n → Fin N) => if ε ≤ |(l.map fun δ => ((Finset.univ.image δ).card : ℝ)).sum / T - ∑ δ, ((Finset.univ.image δ).card : ℝ) * (finPosterior A lp p f y δ).real Set.univ| then 1 else 0) s) atTop (𝓝 0) := by
  refine C106_average hlp hnz hW hcl heps hn hcj G hden h hfresh (g := fun δ => ((Finset.univ.image δ).card : ℝ)) (C := n) (fun δ => ?_) hgap burn hε
  rw [Nat.abs_cast, Nat.cast_le]
  exact Finset.card_image_le.trans (by simp)

end

/-! ### The case of the code: normal observations with one coordinate -/

section
variable {nz : ℝ → ℝ} (hnz : IsGumbel nz) {W : World ℝ 1 (MeanCov 1)} (heps : W.eps = 0) (hW : W.logpdf = normalLog) {p : NIW ℝ 1} (hl : 0 < p.lam) (hnu : 0 < p.nu) (hp : 0 < p.psi 0 0)
  (hn : 2 ≤ n) (G : RandGen) (y : Fin n → Fin 1 → ℝ) (i i' : Fin n) {gap : ℕ} (hgap : 0 < gap) (burn : ℕ) {ε : ℝ} (hε : 0 < ε)
include hnz heps hW hl hnu hp hn hgap hε

/-- Mixture of normal observations with Dirichlet weights. -/
theorem C106_dirichletDistribution {alpha : List ℝ} (hN : alpha.length = N) (ha : ∀ x ∈ alpha, 0 < x) {s : GM (DirDist.cls : WeightClass ℝ) 1 (MeanCov 1) × ℕ} {d : Fin n → Fin N}
    (h : FinHolds (C0 := DirDist.core) y p (fun s => s.alpha = alpha) s.1 d) (hfresh : FreshAtoms s.1) :
    Tendsto (fun T : ℕ => savedMean (C0 := DirDist.core) nz W (AtomGen.ofLaw atomLaw) G gap T (burn + 1)
      (fun l : List (Fin n → Fin N) => if ε ≤ |(l.countP (fun δ => δ i = δ i') : ℝ) / T - ∑ δ, if δ i = δ i' then (finPosterior (AtomGen.ofLaw atomLaw) normalLog p (dirPrior alpha hN ha) y δ).real Set.univ else 0| then 1 else 0) s)
      atTop (𝓝 0) :=
  C106_affinity (C0 := DirDist.core) (measurable_obsNormal y) hnz hW (dir_class hN ha) heps hn (normal_conjugate hl hnu hp) G (fun _ _ => WithBot.coe_ne_bot) h hfresh i i' hgap burn hε

/-- Mixture of normal observations with equal weights. -/
theorem C106_equal {s : GM (Equal.cls : WeightClass ℝ) 1 (MeanCov 1) × ℕ} {d : Fin n → Fin N} (h : FinHolds (C0 := Equal.core) y p (fun s => s.n = (N : ℤ)) s.1 d) (hfresh : FreshAtoms s.1) :
    Tendsto (fun T : ℕ => savedMean (C0 := Equal.core) nz W (AtomGen.ofLaw atomLaw) G gap T (burn + 1)
      (fun l : List (Fin n → Fin N) => if ε ≤ |(l.countP (fun δ => δ i = δ i') : ℝ) / T - ∑ δ, if δ i = δ i' then (finPosterior (AtomGen.ofLaw atomLaw) normalLog p (equalPrior N) y δ).real Set.univ else 0| then 1 else 0) s)
      atTop (𝓝 0) :=
  C106_affinity (C0 := Equal.core) (measurable_obsNormal y) hnz hW (equal_class N) heps hn (normal_conjugate hl hnu hp) G (fun _ _ => WithBot.coe_ne_bot) h hfresh i i' hgap burn hε

end

/-! ### A state that meets the hypotheses -/

example {nz : ℝ → ℝ} (hnz : IsGumbel nz) {W : World ℝ 1 (MeanCov 1)} (heps : W.eps = 0) (hW : W.logpdf = normalLog) (G : RandGen) (y : Fin 3 → Fin 1 → ℝ) (ha : ∀ x ∈ [1, 2, 3], (0 : ℝ) < x) :
    Tendsto (fun T : ℕ => savedMean (C0 := DirDist.core) nz W (AtomGen.ofLaw atomLaw) G 2 T 11
      (fun l : List (Fin 3 → Fin 3) => if 1 / 100 ≤ |(l.countP (fun δ => δ 0 = δ 1) : ℝ) / T - ∑ δ : Fin 3 → Fin 3, if δ 0 = δ 1 then
        (finPosterior (AtomGen.ofLaw atomLaw) normalLog ⟨fun _ => 0, 1, fun _ _ => 1, 1⟩ (dirPrior [1, 2, 3] rfl ha) y δ).real Set.univ else 0| then 1 else 0) (dirFresh y [1, 2, 3] fun i => i)) atTop (𝓝 0) :=
  C106_dirichletDistribution hnz heps hW one_pos one_pos one_pos (by norm_num) G y 0 1 two_pos 10 (by norm_num) rfl ha ⟨rfl, rfl, rfl, rfl, rfl⟩ (fun _ _ => rfl)

end Verif.Mix.FinMix
