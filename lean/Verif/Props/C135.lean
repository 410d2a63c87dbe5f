import Verif.Lemmas.FinLabels
import Verif.Props.C134

/-!
# C135: the labels that mixtures with finitely many components converge to

`dirMultinomial a d` is the specification: the Dirichlet-multinomial probability of labels, a quotient of elementary products.

* `C135_prior_dirichletDistribution`, `C135_prior_equal`: labels drawn from the weights of `DirichletDistribution(n, alpha)` have this probability; labels drawn from `EqualWeighting(n)` have
  probability `1 / n` to the number of observations.
* `C135_posterior_*`: the posterior probability of labels is proportional to the prior probability times `exp evidence` of the rows of every occupied component.
* `C135_average_*`: the average over the saved iterations of `fit_gibbs` of any function of the labels tends to its mean under this law.
* `C135_switching_*`: if the components have equal parameters, then the share of saved iterations in which an observation is in component `j` tends to `1 / n`, whatever the data are.
-/

set_option linter.unusedSectionVars false

namespace Verif.Mix
open MeasureTheory ProbabilityTheory Filter
open scoped ENNReal Topology
variable {N m n : ℕ} [NeZero N]

/-- Prior probability times the densities of the components. -/
noncomputable def labelWeight (prior : (Fin n → Fin N) → ℝ) (p : NIW ℝ m) (y : Fin n → Fin m → ℝ) (d : Fin n → Fin N) : ℝ :=
  prior d * ∏ j ∈ Finset.univ.image d, Real.exp (evidence (rowsIn y (Finset.univ.filter fun i => d i = j)) p)

/-- The posterior probability of labels. -/
noncomputable def labelPost (prior : (Fin n → Fin N) → ℝ) (p : NIW ℝ m) (y : Fin n → Fin m → ℝ) (d : Fin n → Fin N) : ℝ := labelWeight prior p y d / ∑ e, labelWeight prior p y e

/-- The Dirichlet-multinomial law with the parameters in a list. -/
noncomputable def dirLabels {alpha : List ℝ} (hN : alpha.length = N) (d : Fin n → Fin N) : ℝ := FinMix.dirMultinomial (fun j => alpha.get (j.cast hN.symm)) d

/-- The law of labels with equal weights. -/
noncomputable def equalLabels (N : ℕ) (_ : Fin n → Fin N) : ℝ := (1 / (N : ℝ)) ^ n

/-! ### The prior law of labels -/

/-- **Dirichlet weights**: the probability of labels. -/
theorem C135_prior_dirichletDistribution {alpha : List ℝ} (hN : alpha.length = N) (ha : ∀ x ∈ alpha, 0 < x) (d : Fin n → Fin N) :
    ∫⁻ w, ∏ i, ENNReal.ofReal (w (d i)) ∂weightPrior N alpha = ENNReal.ofReal (dirLabels hN d) := FinMix.dir_labels hN ha d

/-- **Equal weights**: the probability of labels. -/
theorem C135_prior_equal (d : Fin n → Fin N) : ∫⁻ w, ∏ i, ENNReal.ofReal (w (d i)) ∂(FinMix.equalPrior N).prior = ENNReal.ofReal (equalLabels N d) := FinMix.equal_labels d

theorem dirLabels_pos {alpha : List ℝ} (hN : alpha.length = N) (ha : ∀ x ∈ alpha, 0 < x) (d : Fin n → Fin N) : 0 < dirLabels hN d := FinMix.dirMultinomial_pos (fun _ => ha _ (List.get_mem _ _)) d

theorem equalLabels_pos (d : Fin n → Fin N) : 0 < equalLabels N d := by
  have : (0 : ℝ) < N := Nat.cast_pos.2 (NeZero.pos N)
  unfold equalLabels
  positivity

/-! ### The posterior law of labels -/

theorem labelWeight_pos {prior : (Fin n → Fin N) → ℝ} (hpos : ∀ d, 0 < prior d) (p : NIW ℝ m) (y : Fin n → Fin m → ℝ) (d : Fin n → Fin N) : 0 < labelWeight prior p y d :=
  mul_pos (hpos d) (Finset.prod_pos fun _ _ => Real.exp_pos _)

theorem labelWeight_sum_pos {prior : (Fin n → Fin N) → ℝ} (hpos : ∀ d, 0 < prior d) (p : NIW ℝ m) (y : Fin n → Fin m → ℝ) : 0 < ∑ e, labelWeight prior p y e :=
  Finset.sum_pos (fun d _ => labelWeight_pos hpos p y d) ⟨fun _ => 0, Finset.mem_univ _⟩

theorem labelPost_sum {prior : (Fin n → Fin N) → ℝ} (hpos : ∀ d, 0 < prior d) (p : NIW ℝ m) (y : Fin n → Fin m → ℝ) : ∑ d, labelPost prior p y d = 1 := by
  unfold labelPost
  rw [← Finset.sum_div, div_self (labelWeight_sum_pos hpos p y).ne']

section
variable {p : NIW ℝ m} (hp : Admissible p) (y : Fin n → Fin m → ℝ)
include hp

theorem finPosterior_labels {f : FinMix.FinPrior N} {prior : (Fin n → Fin N) → ℝ} (hpos : ∀ d, 0 < prior d) (hprior : ∀ d : Fin n → Fin N, ∫⁻ w, ∏ i, ENNReal.ofReal (w (d i)) ∂f.prior = ENNReal.ofReal (prior d))
    (d : Fin n → Fin N) : FinMix.finPosterior (AtomGen.ofLaw niwAtoms) normalLog p f y d Set.univ = ENNReal.ofReal (labelPost prior p y d) := by
  have hw : ∀ d, FinMix.finJoint (AtomGen.ofLaw niwAtoms) normalLog p f y d Set.univ = ENNReal.ofReal (labelWeight prior p y d) := fun d => by
    rw [FinMix.finJoint_univ (measurable_obs y) (niw_conjugate hp), hprior, Finset.prod_congr rfl fun j hj => blockMass_evidence hp y ?_,
      ← ENNReal.ofReal_prod_of_nonneg fun c _ => (Real.exp_pos _).le, ← ENNReal.ofReal_mul (hpos d).le]
    · rfl
    · obtain ⟨i, -, hi⟩ := Finset.mem_image.1 hj
      exact ⟨i, Finset.mem_filter.2 ⟨Finset.mem_univ _, hi⟩⟩
  have hs := labelWeight_sum_pos hpos p y
  unfold FinMix.finPosterior
  rw [Measure.smul_apply, smul_eq_mul, hw, Finset.sum_congr rfl fun e _ => hw e, ← ENNReal.ofReal_sum_of_nonneg fun e _ => (labelWeight_pos hpos p y e).le, ← ENNReal.ofReal_inv_of_pos hs,
    ← ENNReal.ofReal_mul (inv_nonneg.2 hs.le), labelPost, div_eq_inv_mul]

theorem finPosterior_labels_real {f : FinMix.FinPrior N} {prior : (Fin n → Fin N) → ℝ} (hpos : ∀ d, 0 < prior d) (hprior : ∀ d : Fin n → Fin N, ∫⁻ w, ∏ i, ENNReal.ofReal (w (d i)) ∂f.prior = ENNReal.ofReal (prior d))
    (d : Fin n → Fin N) : (FinMix.finPosterior (AtomGen.ofLaw niwAtoms) normalLog p f y d).real Set.univ = labelPost prior p y d := by
  rw [Measure.real, finPosterior_labels hp y hpos hprior, ENNReal.toReal_ofReal]
  exact div_nonneg (labelWeight_pos hpos p y d).le (labelWeight_sum_pos hpos p y).le

/-- **Dirichlet weights**: the posterior probability of labels. -/
theorem C135_posterior_dirichletDistribution {alpha : List ℝ} (hN : alpha.length = N) (ha : ∀ x ∈ alpha, 0 < x) (d : Fin n → Fin N) :
    FinMix.finPosterior (AtomGen.ofLaw niwAtoms) normalLog p (FinMix.dirPrior alpha hN ha) y d Set.univ = ENNReal.ofReal (labelPost (dirLabels hN) p y d) :=
  finPosterior_labels hp y (dirLabels_pos hN ha) (C135_prior_dirichletDistribution hN ha) d

/-- **Equal weights**: the posterior probability of labels. -/
theorem C135_posterior_equal (d : Fin n → Fin N) :
    FinMix.finPosterior (AtomGen.ofLaw niwAtoms) normalLog p (FinMix.equalPrior N) y d Set.univ = ENNReal.ofReal (labelPost (equalLabels N) p y d) :=
  finPosterior_labels hp y equalLabels_pos C135_prior_equal d

end

/-! ### Exchanging components -/

theorem count_perm (σ : Equiv.Perm (Fin N)) (d : Fin n → Fin N) (j : Fin N) : FinMix.count (σ ∘ d) (σ j) = FinMix.count d j := by
  unfold FinMix.count
  simp

theorem dirMultinomial_perm {a : Fin N → ℝ} {x : ℝ} (ha : ∀ j, a j = x) (σ : Equiv.Perm (Fin N)) (d : Fin n → Fin N) : FinMix.dirMultinomial a (σ ∘ d) = FinMix.dirMultinomial a d := by
  unfold FinMix.dirMultinomial
  congr 1
  rw [← Equiv.prod_comp σ]
  simp only [count_perm, ha]

theorem labelWeight_perm {prior : (Fin n → Fin N) → ℝ} (σ : Equiv.Perm (Fin N)) (hσ : ∀ d, prior (σ ∘ d) = prior d) (p : NIW ℝ m) (y : Fin n → Fin m → ℝ) (d : Fin n → Fin N) :
    labelWeight prior p y (σ ∘ d) = labelWeight prior p y d := by
  unfold labelWeight
  rw [hσ, ← Finset.image_image, Finset.prod_image (fun _ _ _ _ h => σ.injective h)]
  simp

theorem labelPost_switch {prior : (Fin n → Fin N) → ℝ} (hpos : ∀ d, 0 < prior d) (hσ : ∀ (σ : Equiv.Perm (Fin N)) d, prior (σ ∘ d) = prior d) (p : NIW ℝ m) (y : Fin n → Fin m → ℝ) (i : Fin n) (j : Fin N) :
    ∑ d : Fin n → Fin N, (if d i = j then labelPost prior p y d else 0) = 1 / N := by
  have hsame : ∀ k : Fin N, ∑ d : Fin n → Fin N, (if d i = k then labelPost prior p y d else 0) = ∑ d : Fin n → Fin N, (if d i = j then labelPost prior p y d else 0) := fun k => by
    rw [← Equiv.sum_comp (Equiv.piCongrRight fun _ : Fin n => Equiv.swap j k)]
    refine Finset.sum_congr rfl fun d _ => ?_
    have h1 : labelPost prior p y ((Equiv.piCongrRight fun _ : Fin n => Equiv.swap j k) d) = labelPost prior p y d := by
      unfold labelPost
      congr 1
      exact labelWeight_perm (Equiv.swap j k) (hσ _) p y d
    have h2 : ((Equiv.piCongrRight fun _ : Fin n => Equiv.swap j k) d) i = k ↔ d i = j := by
      show Equiv.swap j k (d i) = k ↔ _
      rw [Equiv.swap_apply_eq_iff, Equiv.swap_apply_right]
    simp only [h1, h2]
  have htot : ∑ k : Fin N, ∑ d : Fin n → Fin N, (if d i = k then labelPost prior p y d else 0) = 1 := by
    rw [Finset.sum_comm]
    simp [labelPost_sum hpos]
  rw [Finset.sum_congr rfl fun k _ => hsame k, Finset.sum_const, Finset.card_univ, Fintype.card_fin, nsmul_eq_mul] at htot
  have : (N : ℝ) ≠ 0 := Nat.cast_ne_zero.2 (NeZero.ne N)
  field_simp
  linarith

/-! ### Averages over the saved iterations -/

theorem labels_bound (g : (Fin n → Fin N) → ℝ) : ∃ C, ∀ d, |g d| ≤ C := by
  obtain ⟨C, hC⟩ := (Set.finite_range fun d => |g d|).bddAbove
  exact ⟨C, fun d => hC ⟨d, rfl⟩⟩

theorem sum_countP (l : List (Fin n → Fin N)) (i : Fin n) (j : Fin N) : (l.map fun δ => if δ i = j then (1 : ℝ) else 0).sum = l.countP (fun δ => δ i = j) := by
  induction l with
  | nil => simp
  | cons δ l ih =>
    rw [List.map_cons, List.sum_cons, ih, List.countP_cons]
    by_cases hδ : δ i = j <;> simp [hδ, add_comm]

section
variable {nz : ℝ → ℝ} (hnz : IsGumbel nz) {W : World ℝ m (MeanCov m)} (heps : W.eps = 0) (hW : W.logpdf = normalLog) {p : NIW ℝ m} (hp : Admissible p) (hn : 2 ≤ n) (G : RandGen)
  (y : Fin n → Fin m → ℝ) {gap : ℕ} (hgap : 0 < gap) (burn : ℕ) {ε : ℝ} (hε : 0 < ε)
include hnz heps hW hp hn hgap hε

/-- **Dirichlet weights**: any function of the labels. -/
theorem C135_average_dirichletDistribution {alpha : List ℝ} (hN : alpha.length = N) (ha : ∀ x ∈ alpha, 0 < x) {s : GM (DirDist.cls : WeightClass ℝ) m (MeanCov m) × ℕ}
    {d : Fin n → Fin N} (h : FinMix.FinHolds (C0 := DirDist.core) y p (fun s => s.alpha = alpha) s.1 d) (hfresh : FreshAtoms s.1) (g : (Fin n → Fin N) → ℝ) :
    Tendsto (fun T : ℕ => FinMix.savedMean (C0 := DirDist.core) nz W (AtomGen.ofLaw niwAtoms) G gap T (burn + 1)
      (fun l : List (Fin n → Fin N) => if ε ≤ |(l.map g).sum / T - ∑ δ, g δ * labelPost (dirLabels hN) p y δ| then 1 else 0) s) atTop (𝓝 0) := by
  obtain ⟨C, hC⟩ := labels_bound g
  have h1 := FinMix.C106_average (C0 := DirDist.core) (measurable_obs y) hnz hW (FinMix.dir_class hN ha) heps hn (niw_conjugate hp) G (fun _ _ => WithBot.coe_ne_bot) h hfresh hC hgap burn hε
  simp only [finPosterior_labels_real (f := FinMix.dirPrior alpha hN ha) hp y (dirLabels_pos hN ha) (C135_prior_dirichletDistribution hN ha)] at h1
  exact h1

/-- **Equal weights**: any function of the labels. -/
theorem C135_average_equal {s : GM (Equal.cls : WeightClass ℝ) m (MeanCov m) × ℕ} {d : Fin n → Fin N} (h : FinMix.FinHolds (C0 := Equal.core) y p (fun s => s.n = (N : ℤ)) s.1 d)
    (hfresh : FreshAtoms s.1) (g : (Fin n → Fin N) → ℝ) :
    Tendsto (fun T : ℕ => FinMix.savedMean (C0 := Equal.core) nz W (AtomGen.ofLaw niwAtoms) G gap T (burn + 1)
      (fun l : List (Fin n → Fin N) => if ε ≤ |(l.map g).sum / T - ∑ δ, g δ * labelPost (equalLabels N) p y δ| then 1 else 0) s) atTop (𝓝 0) := by
  obtain ⟨C, hC⟩ := labels_bound g
  have h1 := FinMix.C106_average (C0 := Equal.core) (measurable_obs y) hnz hW (FinMix.equal_class N) heps hn (niw_conjugate hp) G (fun _ _ => WithBot.coe_ne_bot) h hfresh hC hgap burn hε
  simp only [finPosterior_labels_real hp y equalLabels_pos C135_prior_equal] at h1
  exact h1

/-- **Dirichlet weights with equal parameters**: every observation is in every component equally often. -/
theorem C135_switching_dirichletDistribution {alpha : List ℝ} (hN : alpha.length = N) {x : ℝ} (hx : 0 < x) (hall : ∀ a ∈ alpha, a = x) {s : GM (DirDist.cls : WeightClass ℝ) m (MeanCov m) × ℕ}
    {d : Fin n → Fin N} (h : FinMix.FinHolds (C0 := DirDist.core) y p (fun s => s.alpha = alpha) s.1 d) (hfresh : FreshAtoms s.1) (i : Fin n) (j : Fin N) :
    Tendsto (fun T : ℕ => FinMix.savedMean (C0 := DirDist.core) nz W (AtomGen.ofLaw niwAtoms) G gap T (burn + 1)
      (fun l : List (Fin n → Fin N) => if ε ≤ |(l.countP (fun δ => δ i = j) : ℝ) / T - 1 / N| then 1 else 0) s) atTop (𝓝 0) := by
  have ha : ∀ a ∈ alpha, 0 < a := fun a h => hall a h ▸ hx
  have h1 := C135_average_dirichletDistribution hnz heps hW hp hn G y hgap burn hε hN ha h hfresh (fun δ => if δ i = j then 1 else 0)
  simp only [sum_countP, ite_mul, one_mul, zero_mul] at h1
  rwa [labelPost_switch (dirLabels_pos hN ha) fun σ d => dirMultinomial_perm (fun j => hall _ (List.get_mem _ _)) σ d] at h1

/-- **Equal weights**: every observation is in every component equally often. -/
theorem C135_switching_equal {s : GM (Equal.cls : WeightClass ℝ) m (MeanCov m) × ℕ} {d : Fin n → Fin N} (h : FinMix.FinHolds (C0 := Equal.core) y p (fun s => s.n = (N : ℤ)) s.1 d)
    (hfresh : FreshAtoms s.1) (i : Fin n) (j : Fin N) :
    Tendsto (fun T : ℕ => FinMix.savedMean (C0 := Equal.core) nz W (AtomGen.ofLaw niwAtoms) G gap T (burn + 1)
      (fun l : List (Fin n → Fin N) => if ε ≤ |(l.countP (fun δ => δ i = j) : ℝ) / T - 1 / N| then 1 else 0) s) atTop (𝓝 0) := by
  have h1 := C135_average_equal hnz heps hW hp hn G y hgap burn hε h hfresh (fun δ => if δ i = j then 1 else 0)
  simp only [sum_countP, ite_mul, one_mul, zero_mul] at h1
  rwa [labelPost_switch equalLabels_pos fun _ _ => rfl] at h1

end

/-! ### The hypotheses are met -/

/-- A mixture with Dirichlet weights in the plane that stores no atoms. -/
noncomputable def dirPlane (y : Fin n → Fin 2 → ℝ) (alpha : List ℝ) (d : Fin n → Fin N) : GM (DirDist.cls : WeightClass ℝ) 2 (MeanCov 2) × ℕ :=
  ({ totalIter := 5, burnIn := 0, subsample := 1, nAttr := some n, muPrior := some ![0, 0], lam := 1, psiPrior := some fun i j => (1 : Matrix (Fin 2) (Fin 2) ℝ) i j, nuPrior := some 2,
     y := List.ofFn y, d := List.ofFn fun i => (d i : ℕ), theta := [], thetaDefault := true, u := [], affinity := [], mapParams := none, mapLL := ⊥, saved := [], nGroups := [],
     nAtoms := [], totalSaved := 0, gibbsFitted := false,
     wst := (({ n := alpha.length, alpha := alpha, w := alpha, d := [] } : DirDist ℝ), 0) }, 0)

/-- Three components with parameter 1/2: the second observation is in the third component in a third of the saved iterations. -/
example {nz : ℝ → ℝ} (hnz : IsGumbel nz) {W : World ℝ 2 (MeanCov 2)} (heps : W.eps = 0) (hW : W.logpdf = normalLog) (G : RandGen) (y : Fin 4 → Fin 2 → ℝ) :
    Tendsto (fun T : ℕ => FinMix.savedMean (N := 3) (C0 := DirDist.core) nz W (AtomGen.ofLaw niwAtoms) G 2 T 11
      (fun l : List (Fin 4 → Fin 3) => if 1 / 100 ≤ |(l.countP (fun δ => δ 1 = 2) : ℝ) / T - 1 / (3 : ℕ)| then 1 else 0) (dirPlane y [1 / 2, 1 / 2, 1 / 2] fun _ => (0 : Fin 3))) atTop (𝓝 0) :=
  C135_switching_dirichletDistribution hnz heps hW admissible_plane (by norm_num) G y two_pos 10 (by norm_num) (alpha := [1 / 2, 1 / 2, 1 / 2]) rfl (x := 1 / 2) (by norm_num) (by simp)
    (d := fun _ => 0) ⟨rfl, rfl, rfl, rfl, rfl⟩ (fun _ _ => rfl) 1 2

/-- Two labels under Dirichlet(1, 2). -/
example : dirLabels (alpha := [1, 2]) (N := 2) rfl ![(0 : Fin 2), 0] = 1 / 6 ∧ dirLabels (alpha := [1, 2]) (N := 2) rfl ![(1 : Fin 2), 1] = 1 / 2 := by
  have h0 : FinMix.count ![(0 : Fin 2), 0] 0 = 2 ∧ FinMix.count ![(0 : Fin 2), 0] 1 = 0 := by decide
  have h1 : FinMix.count ![(1 : Fin 2), 1] 0 = 0 ∧ FinMix.count ![(1 : Fin 2), 1] 1 = 2 := by decide
  constructor
  · simp [dirLabels, FinMix.dirMultinomial, Fin.prod_univ_two, Fin.sum_univ_two, h0, Finset.prod_range_succ]
    norm_num
  · simp [dirLabels, FinMix.dirMultinomial, Fin.prod_univ_two, Fin.sum_univ_two, h1, Finset.prod_range_succ]
    norm_num

end Verif.Mix
