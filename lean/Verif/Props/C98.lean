import Verif.Props.C97
import Verif.Lemmas.GibbsAverage

/-!
# C98: averages over the saved states of a stick-breaking mixture converge to posterior means

`fit_gibbs` saves one state after the burn-in and the first recorded iteration, and then one after every `subsample_steps` iterations; `gibbs_eap_affinity_matrix()` is the share of saved states in
which two observations have the same label (C42).  Here: for a `DirichletProcess` or `PitmanYorProcess` mixture started cold, **this share converges in probability to the posterior probability that
the two observations share a component**, as the number of saved states grows (`C98_affinity`), whatever the burn-in, the gap between saved states and the labels at the start.  The same for the mean
number of groups (`C98_groups`) and for every bounded function of the labels (`C98_average`).

`savedMean` is the mean of a function of the labels of the saved states, over the randomness of all iterations, each with fresh draws.  The proof bounds the second moment of the sum: correlations
tend to zero by C97 (`Lemmas/ErgodicMean`, `Lemmas/GibbsAverage`).  As in C97 the shift `eps` of the slice variables is taken to be zero.
-/

namespace Verif.Mix
open MeasureTheory ProbabilityTheory GM Spec Filter
open scoped ENNReal Topology

variable {m n : ℕ} {Atom : Type} [MeasurableSpace Atom] {C0 : WeightCore ℝ}

/-- The mean of `F` of the labels of `T` saved states, when the first is saved after `b` iterations and the others after `gap` iterations each. -/
noncomputable def savedMean (nz : ℝ → ℝ) (W : World ℝ m Atom) (A : AtomGen m Atom) (G : RandGen) (gap : ℕ) : ℕ → ℕ → (List (Fin n → ℕ) → ℝ≥0∞) → GM C0.inheritTail m Atom × ℕ → ℝ≥0∞
  | 0, _, F, _ => F []
  | T + 1, b, F, s => runMean nz W A G b (fun s' => savedMean nz W A G gap T gap (fun l => F (labelsOf n s'.1.d :: l)) s') s

section
variable {lp : (Fin m → ℝ) → Atom → WithBot ℝ} {f : StickParams} {getV : C0.State → List ℝ} {Inv : C0.State → Prop} {W : World ℝ m Atom} {A : AtomGen m Atom} {y : Fin n → Fin m → ℝ}
  {p : NIW ℝ m} {nz : ℝ → ℝ} (hlp : ∀ i, Measurable (obsDens lp (y i)))
variable (hnz : IsGumbel nz) (hW : W.logpdf = lp) (hcl : StickClass C0 f getV Inv) (heps : W.eps = 0) (hn : 2 ≤ n) (hex : f.Exhausts) (hcj : Conjugate A lp p) (G : RandGen)
include hlp hnz hW hcl heps hn hex hcj

theorem runMean_congr (k : ℕ) {F F' : GM C0.inheritTail m Atom × ℕ → ℝ≥0∞} (hF : ∀ s δ, StickHolds y p Inv s.1 δ → F s = F' s) {s : GM C0.inheritTail m Atom × ℕ} {d : Fin n → ℕ}
    (h : StickHolds y p Inv s.1 d) : runMean nz W A G k F s = runMean nz W A G k F' s := by
  induction k generalizing s d with
  | zero => exact hF s d h
  | succ k ih => exact stepMean_congr hlp hnz hW hcl heps hn hex hcj G (fun s δ hs => ih hs) h

theorem savedMean_kernel (gap T b : ℕ) (F : List (Fin n → ℕ) → ℝ≥0∞) {s : GM C0.inheritTail m Atom × ℕ} {d : Fin n → ℕ} (h : StickHolds y p Inv s.1 d) :
    savedMean nz W A G gap T b F s = heldMean A p f getV (kSaved A lp p f y gap T b F) s := by
  induction T generalizing b F s d with
  | zero =>
    show F [] = _
    unfold heldMean kSaved
    simp only [lintegral_const, measure_univ, mul_one]
  | succ T ih =>
    show runMean nz W A G b (fun s' => savedMean nz W A G gap T gap (fun l => F (labelsOf n s'.1.d :: l)) s') s = _
    rw [runMean_congr hlp hnz hW hcl heps hn hex hcj G b (F' := heldMean A p f getV (fun d z => kSaved A lp p f y gap T gap (fun l => F (d :: l)) d z)) (fun s' δ hs => ih gap _ hs) h,
      runMean_kernel hlp hnz hW hcl heps hn hex hcj G b (fun δ => measurable_kSaved hlp gap T gap _ δ) h]
    rfl

omit hnz hW hcl heps hn in
theorem posterior_labels {g : (Fin n → ℕ) → ℝ} {C : ℝ} (hg : ∀ d, |g d| ≤ C) : ∫ q, g q.1 ∂(posteriorPairs A lp p f y) = ∑' δ, g δ * (stickPosterior A lp p f y δ).real Set.univ := by
  have := posterior_prob (f := f) hlp hex hcj
  have hgb : Alt.Bd C (fun x : Config n Atom => g x.1) := ⟨measurable_from_prod_countable_right fun d => (measurable_const : Measurable fun _ : Params Atom => g d), fun x => hg x.1⟩
  have h1 : Integrable (fun x : Config n Atom => g x.1) (Measure.sum fun d => (stickPosterior A lp p f y d).map (Prod.mk d)) := hgb.integrable (posteriorPairs A lp p f y)
  have h2 := hasSum_integral_measure h1
  have h3 : ∀ d, ∫ x, g x.1 ∂((stickPosterior A lp p f y d).map (Prod.mk d)) = g d * (stickPosterior A lp p f y d).real Set.univ := by
    intro d
    rw [(measurableEmbedding_prodMk_left d).integral_map]
    simp [mul_comm]
  simp_rw [h3] at h2
  exact h2.tsum_eq.symm

variable (hden : ∀ i a, lp (y i) a ≠ ⊥)
include hden

/-- **Averages over the saved states** of a bounded function of the labels converge in probability to the posterior mean. -/
theorem C98_average {s : GM C0.inheritTail m Atom × ℕ} {d : Fin n → ℕ} (h : StickHolds y p Inv s.1 d) (hfresh : FreshAtoms s.1) {C : ℝ} {g : (Fin n → ℕ) → ℝ} (hg : ∀ d, |g d| ≤ C)
    {gap : ℕ} (hgap : 0 < gap) (burn : ℕ) {ε : ℝ} (hε : 0 < ε) :
    Tendsto (fun T : ℕ => savedMean nz W A G gap T (burn + 1) (fun l : List (Fin n → ℕ) => if ε ≤ |(l.map g).sum / T - ∑' δ, g δ * (stickPosterior A lp p f y δ).real Set.univ| then 1 else 0) s) atTop (𝓝 0) := by
  have hprob : IsProbabilityMeasure ((condLaw A p f y d).map (Prod.mk d)) := Measure.isProbabilityMeasure_map measurable_prodMk_left.aemeasurable
  have h1 := kSaved_average hlp hex hcj hden (by omega) hg hgap (burn + 1) hε (condLaw_ac (f := f) hlp hex hcj d)
  rw [posterior_labels hlp hex hcj hg] at h1
  rw [← tendsto_add_atTop_iff_nat 1] at h1 ⊢
  refine h1.congr fun T => ?_
  rw [savedMean_kernel hlp hnz hW hcl heps hn hex hcj G gap (T + 1) (burn + 1) _ h]
  unfold kSaved
  simp only [Function.iterate_succ_apply']
  refine (heldMean_fresh hlp (fun δ => measurable_iterate hlp (fun δ => measurable_kSaved hlp gap T gap _ δ) burn δ) h fun j hj => hfresh j ?_).symm
  rw [h.2.1]
  exact hj

/-- **The affinity matrix**: the share of saved states in which two observations have the same label converges in probability to the posterior probability of that. -/
theorem C98_affinity {s : GM C0.inheritTail m Atom × ℕ} {d : Fin n → ℕ} (h : StickHolds y p Inv s.1 d) (hfresh : FreshAtoms s.1) (i i' : Fin n) {gap : ℕ} (hgap : 0 < gap) (burn : ℕ) {ε : ℝ} (hε : 0 < ε) :
    Tendsto (fun T : ℕ => savedMean nz W A G gap T (burn + 1)
      (fun l : List (Fin n → ℕ) => if ε ≤ |(l.countP (fun δ => δ i = δ i') : ℝ) / T - ∑' δ, if δ i = δ i' then (stickPosterior A lp p f y δ).real Set.univ else 0| then 1 else 0) s) atTop (𝓝 0) := by
  have h1 := C98_average hlp hnz hW hcl heps hn hex hcj G hden h hfresh (g := fun δ => if δ i = δ i' then 1 else 0) (C := 1) (fun δ => by split <;> simp) hgap burn hε
  have h2 : ∀ l : List (Fin n → ℕ), (l.map (fun δ => if δ i = δ i' then (1 : ℝ) else 0)).sum = l.countP (fun δ => δ i = δ i') := by
    intro l
    induction l with
    | nil => simp
    | cons δ l ih =>
      rw [List.map_cons, List.sum_cons, ih, List.countP_cons]
      by_cases hδ : δ i = δ i' <;> simp [hδ, add_comm]
  simp only [h2, ite_mul, one_mul, zero_mul] at h1
  exact h1

/-- **The number of groups**: its mean over the saved states converges in probability to its posterior mean. -/
theorem C98_groups {s : GM C0.inheritTail m Atom × ℕ} {d : Fin n → ℕ} (h : StickHolds y p Inv s.1 d) (hfresh : FreshAtoms s.1) {gap : ℕ} (hgap : 0 < gap) (burn : ℕ) {ε : ℝ} (hε : 0 < ε) :
    Tendsto (fun T : ℕ => savedMean nz W A G gap T (burn + 1)
      (fun l : List (Fin n → ℕ) => if ε ≤ |(l.map fun δ => ((Finset.univ.image δ).card : ℝ)).sum / T - ∑' δ, ((Finset.univ.image δ).card : ℝ) * (stickPosterior A lp p f y δ).real Set.univ| then 1 else 0) s) atTop (𝓝 0) := by
  refine C98_average hlp hnz hW hcl heps hn hex hcj G hden h hfresh (g := fun δ => ((Finset.univ.image δ).card : ℝ)) (C := n) (fun δ => ?_) hgap burn hε
  rw [Nat.abs_cast, Nat.cast_le]
  exact Finset.card_image_le.trans (by simp)

end

/-! ### The case of the code: normal observations with one coordinate -/

section
variable {nz : ℝ → ℝ} (hnz : IsGumbel nz) {W : World ℝ 1 (MeanCov 1)} (heps : W.eps = 0) (hW : W.logpdf = normalLog) {p : NIW ℝ 1} (hl : 0 < p.lam) (hnu : 0 < p.nu) (hp : 0 < p.psi 0 0)
  (hn : 2 ≤ n) (G : RandGen) (y : Fin n → Fin 1 → ℝ) (i i' : Fin n) {gap : ℕ} (hgap : 0 < gap) (burn : ℕ) {ε : ℝ} (hε : 0 < ε)
include hnz heps hW hl hnu hp hn hgap hε

/-- Dirichlet process mixture of normal observations. -/
theorem C98_dirichletProcess {alpha : ℝ} (ha : 0 < alpha) {s : GM (DP.cls : WeightClass ℝ) 1 (MeanCov 1) × ℕ} {d : Fin n → ℕ} (h : StickHolds (C0 := DP.core) y p (fun s => s.alpha = alpha) s.1 d) (hfresh : FreshAtoms s.1) :
    Tendsto (fun T : ℕ => savedMean (C0 := DP.core) nz W (AtomGen.ofLaw atomLaw) G gap T (burn + 1)
      (fun l : List (Fin n → ℕ) => if ε ≤ |(l.countP (fun δ => δ i = δ i') : ℝ) / T - ∑' δ, if δ i = δ i' then (stickPosterior (AtomGen.ofLaw atomLaw) normalLog p (dpSticks alpha ha) y δ).real Set.univ else 0| then 1 else 0) s)
      atTop (𝓝 0) :=
  C98_affinity (C0 := DP.core) (measurable_obsNormal y) hnz hW (dp_stickClass ha) heps hn (dpSticks_exhausts ha) (normal_conjugate hl hnu hp) G (fun _ _ => WithBot.coe_ne_bot) h hfresh i i' hgap burn hε

/-- Pitman-Yor process mixture of normal observations. -/
theorem C98_pitmanYor {pyd alpha : ℝ} (h0 : 0 ≤ pyd) (h1 : pyd < 1) (ha : 0 < alpha) {s : GM (PY.cls : WeightClass ℝ) 1 (MeanCov 1) × ℕ} {d : Fin n → ℕ}
    (h : StickHolds (C0 := PY.core) y p (fun s => s.pyd = pyd ∧ s.alpha = alpha) s.1 d) (hfresh : FreshAtoms s.1) :
    Tendsto (fun T : ℕ => savedMean (C0 := PY.core) nz W (AtomGen.ofLaw atomLaw) G gap T (burn + 1)
      (fun l : List (Fin n → ℕ) => if ε ≤ |(l.countP (fun δ => δ i = δ i') : ℝ) / T - ∑' δ, if δ i = δ i' then (stickPosterior (AtomGen.ofLaw atomLaw) normalLog p (pySticks pyd alpha h0 h1 ha) y δ).real Set.univ else 0| then 1 else 0) s)
      atTop (𝓝 0) :=
  C98_affinity (C0 := PY.core) (measurable_obsNormal y) hnz hW (py_stickClass h0 h1 ha) heps hn (pySticks_exhausts h0 h1 ha) (normal_conjugate hl hnu hp) G (fun _ _ => WithBot.coe_ne_bot) h hfresh i i' hgap burn hε

end

/-! ### A state that meets the hypotheses -/

example {nz : ℝ → ℝ} (hnz : IsGumbel nz) {W : World ℝ 1 (MeanCov 1)} (heps : W.eps = 0) (hW : W.logpdf = normalLog) (G : RandGen) (y : Fin 3 → Fin 1 → ℝ) :
    Tendsto (fun T : ℕ => savedMean (C0 := DP.core) nz W (AtomGen.ofLaw atomLaw) G 2 T 11
      (fun l : List (Fin 3 → ℕ) => if 1 / 100 ≤ |(l.countP (fun δ => δ 0 = δ 1) : ℝ) / T - ∑' δ : Fin 3 → ℕ, if δ 0 = δ 1 then
        (stickPosterior (AtomGen.ofLaw atomLaw) normalLog ⟨fun _ => 0, 1, fun _ _ => 1, 1⟩ (dpSticks 2 two_pos) y δ).real Set.univ else 0| then 1 else 0) (dpFresh y 2 fun i => i)) atTop (𝓝 0) :=
  C98_dirichletProcess hnz heps hW one_pos one_pos one_pos (by norm_num) G y 0 1 two_pos 10 (by norm_num) two_pos ⟨rfl, rfl, rfl, rfl, rfl⟩ (fun _ _ => rfl)

end Verif.Mix
