import Verif.Lemmas.Priors
import Verif.Lemmas.VarDemo
import Verif.Props.C109
import Mathlib.LinearAlgebra.Dimension.Finite
import Mathlib.LinearAlgebra.Dimension.Constructions
import Mathlib.LinearAlgebra.FiniteDimensional.Lemmas

/-!
# C121: the prior that the fits use, and when the defaults are a proper prior

The claim: the parts of the prior given to the constructor are used as they are; the parts left out are the mean and the sample covariance of the observations to fit and the number of columns,
and make a proper normal-inverse-Wishart prior.

* `C121_history`: what holds after any history of fits: the missing parts come from the *first* data set ever given to the object, and no later fit changes them.
* `C121_second_refuted`: so after two fits to data with different means the prior mean is not the mean of the observations to fit.
* `C121_proper`: the default prior is proper exactly when no hyperplane contains all observations.
* `C121_few_refuted`: it is improper for every data set with no more observations than columns.
-/

set_option linter.unusedSectionVars false

namespace Verif.Mix.VM
variable {K : Type} [Field K] [LinearOrder K] [IsStrictOrderedRing K] {m : ℕ} {C : WeightClass K} {V : VarClass C} {Atom : Type}
variable {ω : Oracle K} {W : World K m Atom} {F : VWorld K m}

/-- The deviations from `μ` add up to zero. -/
def IsCentroid (ys : List (Fin m → K)) (μ : Fin m → K) : Prop := ∀ i, (ys.map fun y => y i - μ i).sum = 0

/-- Half the average, over the ordered pairs of two different observations, of the product of the differences in the two coordinates. -/
def IsSampleCov (ys : List (Fin m → K)) (psi : Fin m → Fin m → K) : Prop :=
  ∀ i j, 2 * ((ys.length : K) * ((ys.length : K) - 1)) * psi i j = (ys.map fun y => (ys.map fun y' => (y i - y' i) * (y j - y' j)).sum).sum

theorem centroid_unique {ys : List (Fin m → K)} (hy : ys ≠ []) {μ μ' : Fin m → K} (h : IsCentroid ys μ) (h' : IsCentroid ys μ') : μ = μ' := by
  have key : ∀ (a : K) (i : Fin m) (l : List (Fin m → K)), (l.map fun y => y i - a).sum = (l.map fun y => y i).sum - l.length * a := by
    intro a i l
    induction l with
    | nil => simp
    | cons y l ih => simp only [List.map_cons, List.sum_cons, ih, List.length_cons]; push_cast; ring
  have hn : (ys.length : K) ≠ 0 := by
    rw [Nat.cast_ne_zero]
    exact fun h => hy (List.length_eq_zero_iff.1 h)
  funext i
  have h1 := h i
  have h2 := h' i
  rw [key] at h1 h2
  have : (ys.length : K) * μ i = ys.length * μ' i := by linarith
  exact mul_left_cancel₀ hn this

theorem meanVec_centroid {ys : List (Fin m → K)} (hy : ys ≠ []) : IsCentroid ys (meanVec ys) := by
  intro i
  have hn : (ys.length : K) ≠ 0 := by
    rw [Nat.cast_ne_zero]
    exact fun h => hy (List.length_eq_zero_iff.1 h)
  have key : ∀ (a : K) (l : List (Fin m → K)), (l.map fun y => y i - a).sum = (l.map fun y => y i).sum - l.length * a := by
    intro a l
    induction l with
    | nil => simp
    | cons y l ih => simp only [List.map_cons, List.sum_cons, ih, List.length_cons]; push_cast; ring
  rw [key]
  unfold meanVec
  field_simp
  ring

theorem sum_pairs (f g : (Fin m → K) → K) (ys : List (Fin m → K)) :
    (ys.map fun y => (ys.map fun y' => (f y - f y') * (g y - g y')).sum).sum =
      2 * (ys.length * (ys.map fun y => f y * g y).sum - (ys.map f).sum * (ys.map g).sum) := by
  have inner : ∀ (y : Fin m → K) (l : List (Fin m → K)), (l.map fun y' => (f y - f y') * (g y - g y')).sum =
      l.length * (f y * g y) - f y * (l.map g).sum - g y * (l.map f).sum + (l.map fun y => f y * g y).sum := by
    intro y l
    induction l with
    | nil => simp
    | cons z l ih => simp only [List.map_cons, List.sum_cons, ih, List.length_cons]; push_cast; ring
  have outer : ∀ (n a b c : K) (l : List (Fin m → K)), (l.map fun y => n * (f y * g y) - f y * a - g y * b + c).sum =
      n * (l.map fun y => f y * g y).sum - (l.map f).sum * a - (l.map g).sum * b + l.length * c := by
    intro n a b c l
    induction l with
    | nil => simp
    | cons z l ih => simp only [List.map_cons, List.sum_cons, ih, List.length_cons]; push_cast; ring
  simp only [inner, outer]
  ring

theorem cov_sample {ys : List (Fin m → K)} (hy : 2 ≤ ys.length) : IsSampleCov ys (GM.cov ys) := by
  intro i j
  rw [sum_pairs (fun y => y i) (fun y => y j)]
  have hn : (2 : K) ≤ ys.length := by exact_mod_cast hy
  have h0 : (ys.length : K) ≠ 0 := by linarith
  have h1 : (ys.length : K) - 1 ≠ 0 := by linarith
  have key : ∀ (a b : K) (l : List (Fin m → K)), (l.map fun y => (y i - a) * (y j - b)).sum =
      (l.map fun y => y i * y j).sum - a * (l.map fun y => y j).sum - b * (l.map fun y => y i).sum + l.length * (a * b) := by
    intro a b l
    induction l with
    | nil => simp
    | cons y l ih => simp only [List.map_cons, List.sum_cons, ih, List.length_cons]; push_cast; ring
  unfold GM.cov
  rw [key]
  unfold meanVec
  field_simp
  ring

/-- **The prior after any history of fits**: calls without usable data, then a first data set, then anything.  Given parts are used as they are, missing parts come from the first data set. -/
theorem C121_history (s : VM V m Atom × ℕ) (bad : List (Fit K m)) (hbad : ∀ f ∈ bad, f.rowsOf = .invalid) (f : Fit K m) (ys : List (Fin m → K)) (hf : f.rowsOf = .rows ys) (hy : 2 ≤ ys.length)
    (ops : List (Fit K m)) :
    ∃ q : NIW K m, HasPrior q (runFits F W ω s (bad ++ f :: ops)).1.gm ∧ q.lam = s.1.gm.lam ∧
      (∀ μ, s.1.gm.muPrior = some μ → q.mu = μ) ∧ (s.1.gm.muPrior = none → IsCentroid ys q.mu) ∧
      (∀ ψ, s.1.gm.psiPrior = some ψ → q.psi = ψ) ∧ (s.1.gm.psiPrior = none → IsSampleCov ys q.psi) ∧
      (∀ ν, s.1.gm.nuPrior = some ν → q.nu = ν) ∧ (s.1.gm.nuPrior = none → q.nu = m) := by
  have hs : runFits F W ω s bad = s := by
    induction bad with
    | nil => rfl
    | cons b bad ih =>
      unfold runFits
      rw [List.foldl_cons, doFit_invalid (hbad b (List.mem_cons_self ..))]
      exact ih fun f hf => hbad f (List.mem_cons_of_mem _ hf)
  have hrun : runFits F W ω s (bad ++ f :: ops) = runFits F W ω (doFit F W f ω s).2 ops := by
    unfold runFits at hs ⊢
    rw [List.foldl_append, hs, List.foldl_cons]
  have hne : ys ≠ [] := by rintro rfl; simp at hy
  refine ⟨{ mu := s.1.gm.muPrior.getD (meanVec ys), lam := s.1.gm.lam, psi := s.1.gm.psiPrior.getD (GM.cov ys), nu := s.1.gm.nuPrior.getD (m : K) }, ?_, rfl, ?_, ?_, ?_, ?_, ?_, ?_⟩
  · rw [hrun]
    exact runFits_kept ops (doFit_first hf rfl)
  · intro μ h; simp only [h, Option.getD_some]
  · intro h; simp only [h, Option.getD_none]; exact meanVec_centroid hne
  · intro μ h; simp only [h, Option.getD_some]
  · intro h; simp only [h, Option.getD_none]; exact cov_sample hy
  · intro μ h; simp only [h, Option.getD_some]
  · intro h; simp only [h, Option.getD_none]

/-- **False for later fits**: a new object fitted to two data sets with different means, in whatever way and with whatever outcome, does not use the mean of the observations to fit. -/
theorem C121_second_refuted (s : VM V m Atom × ℕ) (hs : s.1.gm.muPrior = none) (f g : Fit K m) {ys zs : List (Fin m → K)} (hf : f.rowsOf = .rows ys) (_hg : g.rowsOf = .rows zs) (hy : 2 ≤ ys.length)
    (hz : zs ≠ []) {μ μ' : Fin m → K} (hμ : IsCentroid ys μ) (hμ' : IsCentroid zs μ') (hne : μ ≠ μ') :
    (runFits F W ω s [f, g]).1.gm.muPrior = some μ ∧ ¬ ∃ ν, (runFits F W ω s [f, g]).1.gm.muPrior = some ν ∧ IsCentroid zs ν := by
  obtain ⟨q, hq, -, -, h2, -⟩ := C121_history (F := F) (W := W) (ω := ω) s [] (by simp) f ys hf hy [g]
  have hq1 : (runFits F W ω s [f, g]).1.gm.muPrior = some q.mu := congrArg Prod.fst hq
  have he : q.mu = μ := centroid_unique (by rintro rfl; simp at hy) (h2 hs) hμ
  rw [he] at hq1
  refine ⟨hq1, ?_⟩
  rintro ⟨ν, h, hc⟩
  rw [hq1] at h
  exact hne ((Option.some.inj h).trans (centroid_unique hz hc hμ'))

section
open Matrix

/-- No hyperplane contains all the points. -/
def Spread (ys : List (Fin m → ℝ)) : Prop := ∀ x : Fin m → ℝ, x ≠ 0 → ∃ y ∈ ys, ∃ y' ∈ ys, x ⬝ᵥ y ≠ x ⬝ᵥ y'

theorem quadratic {ys : List (Fin m → ℝ)} {psi : Fin m → Fin m → ℝ} (h : IsSampleCov ys psi) (x : Fin m → ℝ) :
    2 * ((ys.length : ℝ) * ((ys.length : ℝ) - 1)) * (x ⬝ᵥ (Matrix.of psi *ᵥ x)) = (ys.map fun y => (ys.map fun y' => (x ⬝ᵥ y - x ⬝ᵥ y') ^ 2).sum).sum := by
  have hsum : ∀ {ι : Type} (t : Finset ι) (f : ι → (Fin m → ℝ) → ℝ) (l : List (Fin m → ℝ)), (l.map fun y => ∑ i ∈ t, f i y).sum = ∑ i ∈ t, (l.map (f i)).sum := by
    intro ι t f l
    induction l with
    | nil => simp
    | cons y l ih => simp only [List.map_cons, List.sum_cons, ih, Finset.sum_add_distrib]
  have hexp : ∀ y y' : Fin m → ℝ, (x ⬝ᵥ y - x ⬝ᵥ y') ^ 2 = ∑ i, ∑ j, x i * x j * ((y i - y' i) * (y j - y' j)) := by
    intro y y'
    rw [← dotProduct_sub, sq, dotProduct, Finset.sum_mul_sum]
    refine Finset.sum_congr rfl fun i _ => Finset.sum_congr rfl fun j _ => ?_
    simp only [Pi.sub_apply]
    ring
  have hmul : ∀ (c : ℝ) (f : (Fin m → ℝ) → ℝ) (l : List (Fin m → ℝ)), (l.map fun y => c * f y).sum = c * (l.map f).sum := by
    intro c f l
    induction l with
    | nil => simp
    | cons y l ih => simp only [List.map_cons, List.sum_cons, ih]; ring
  simp only [hexp, hsum, hmul]
  simp only [dotProduct, mulVec, Finset.mul_sum]
  refine Finset.sum_congr rfl fun i _ => Finset.sum_congr rfl fun j _ => ?_
  rw [← h i j, Matrix.of_apply]
  ring

/-- **When the default prior is proper**: exactly when no hyperplane contains all observations of the first fit. -/
theorem C121_proper {ys : List (Fin m → ℝ)} (hy : 2 ≤ ys.length) {q : NIW ℝ m} (hl : 0 < q.lam) (hp : IsSampleCov ys q.psi) (hn : q.nu = m) : ProperPrior q ↔ Spread ys := by
  have hn2 : (2 : ℝ) ≤ ys.length := by exact_mod_cast hy
  have hc : 0 < 2 * ((ys.length : ℝ) * ((ys.length : ℝ) - 1)) := mul_pos two_pos (mul_pos (by linarith) (by linarith))
  have hnn : ∀ (y : Fin m → ℝ) (x : Fin m → ℝ), 0 ≤ (ys.map fun y' => (x ⬝ᵥ y - x ⬝ᵥ y') ^ 2).sum := fun y x => List.sum_nonneg (by
    intro z hz
    obtain ⟨y', _, rfl⟩ := List.mem_map.1 hz
    exact sq_nonneg _)
  constructor
  · rintro ⟨-, -, h⟩ x hx
    by_contra hno
    push Not at hno
    have h1 := h.dotProduct_mulVec_pos hx
    rw [star_trivial] at h1
    have h2 := mul_pos hc h1
    rw [quadratic hp] at h2
    have : (ys.map fun y => (ys.map fun y' => (x ⬝ᵥ y - x ⬝ᵥ y') ^ 2).sum).sum = 0 := by
      refine List.sum_eq_zero fun z hz => ?_
      obtain ⟨y, hy, rfl⟩ := List.mem_map.1 hz
      refine List.sum_eq_zero fun z hz => ?_
      obtain ⟨y', hy', rfl⟩ := List.mem_map.1 hz
      rw [hno y hy y' hy']
      simp
    linarith
  · intro h
    refine ⟨hl, by rw [hn]; linarith, PosDef.of_dotProduct_mulVec_pos ?_ fun x hx => ?_⟩
    · ext i j
      rw [conjTranspose_apply, star_trivial, Matrix.of_apply, Matrix.of_apply]
      apply mul_left_cancel₀ hc.ne'
      rw [hp i j, hp j i]
      simp only [mul_comm]
    · obtain ⟨y, hy1, y', hy2, hne⟩ := h x hx
      rw [star_trivial]
      have hpos : 0 < (ys.map fun y => (ys.map fun y' => (x ⬝ᵥ y - x ⬝ᵥ y') ^ 2).sum).sum := by
        have h1 : (x ⬝ᵥ y - x ⬝ᵥ y') ^ 2 ≤ (ys.map fun y' => (x ⬝ᵥ y - x ⬝ᵥ y') ^ 2).sum :=
          List.single_le_sum (by
            intro z hz
            obtain ⟨y', _, rfl⟩ := List.mem_map.1 hz
            exact sq_nonneg _) _ (List.mem_map.2 ⟨y', hy2, rfl⟩)
        have h2 : (ys.map fun y' => (x ⬝ᵥ y - x ⬝ᵥ y') ^ 2).sum ≤ (ys.map fun y => (ys.map fun y' => (x ⬝ᵥ y - x ⬝ᵥ y') ^ 2).sum).sum :=
          List.single_le_sum (by
            intro z hz
            obtain ⟨y, _, rfl⟩ := List.mem_map.1 hz
            exact hnn y x) _ (List.mem_map.2 ⟨y, hy1, rfl⟩)
        have h3 : 0 < (x ⬝ᵥ y - x ⬝ᵥ y') ^ 2 := by
          have : x ⬝ᵥ y - x ⬝ᵥ y' ≠ 0 := sub_ne_zero.2 hne
          positivity
        linarith
      rw [← quadratic hp] at hpos
      exact (mul_pos_iff_of_pos_left hc).1 hpos

/-- **False** for few observations: with at most as many observations as columns the default prior is improper, whatever the data. -/
theorem C121_few_refuted {ys : List (Fin m → ℝ)} (hy : 2 ≤ ys.length) (hm : ys.length ≤ m) {q : NIW ℝ m} (hl : 0 < q.lam) (hp : IsSampleCov ys q.psi) (hn : q.nu = m) : ¬ ProperPrior q := by
  rw [C121_proper hy hl hp hn]
  intro h
  obtain ⟨y0, rest, rfl⟩ : ∃ y0 rest, ys = y0 :: rest := by
    cases ys with
    | nil => simp at hy
    | cons y0 rest => exact ⟨y0, rest, rfl⟩
  -- the differences to the first observation, as a linear map to fewer dimensions
  let T : (Fin m → ℝ) →ₗ[ℝ] (Fin rest.length → ℝ) :=
    { toFun := fun x i => x ⬝ᵥ (rest[i] - y0)
      map_add' := fun x x' => by funext i; simp [add_dotProduct]; ring
      map_smul' := fun c x => by funext i; simp [smul_dotProduct]; ring }
  have hker : T.ker ≠ ⊥ := by
    apply LinearMap.ker_ne_bot_of_finrank_lt
    simp only [Module.finrank_fintype_fun_eq_card, Fintype.card_fin]
    simp only [List.length_cons] at hm
    omega
  obtain ⟨x, hx, hx0⟩ := Submodule.exists_mem_ne_zero_of_ne_bot hker
  have hsame : ∀ y ∈ y0 :: rest, x ⬝ᵥ y = x ⬝ᵥ y0 := by
    intro y hy
    rcases List.mem_cons.1 hy with rfl | hy
    · rfl
    · obtain ⟨i, hi, rfl⟩ := List.getElem_of_mem hy
      have := congrFun (LinearMap.mem_ker.1 hx) ⟨i, hi⟩
      have h2 : x ⬝ᵥ (rest[i] - y0) = 0 := this
      rw [dotProduct_sub] at h2
      linarith
  obtain ⟨y, h1, y', h2, hne⟩ := h x hx0
  exact hne ((hsame y h1).trans (hsame y' h2).symm)

/-! ### The hypotheses are met -/

/-- Three points of the plane that are not on a line. -/
example : Spread [![(0 : ℝ), 0], ![1, 0], ![0, 1]] := by
  intro x hx
  by_contra hno
  push Not at hno
  have h1 := hno ![1, 0] (by simp) ![0, 0] (by simp)
  have h2 := hno ![0, 1] (by simp) ![0, 0] (by simp)
  simp at h1 h2
  apply hx
  ext i
  fin_cases i <;> assumption

/-- The default prior of these points and that of two of them. -/
example : ProperPrior { mu := meanVec [![(0 : ℝ), 0], ![1, 0], ![0, 1]], lam := 1, psi := GM.cov [![(0 : ℝ), 0], ![1, 0], ![0, 1]], nu := (2 : ℕ) } ∧
    ¬ ProperPrior { mu := meanVec [![(0 : ℝ), 0], ![1, 0]], lam := 1, psi := GM.cov [![(0 : ℝ), 0], ![1, 0]], nu := (2 : ℕ) } := by
  constructor
  · rw [C121_proper (ys := [![(0 : ℝ), 0], ![1, 0], ![0, 1]]) (by simp) one_pos (cov_sample (by simp)) rfl]
    intro x hx
    by_contra hno
    push Not at hno
    have h1 := hno ![1, 0] (by simp) ![0, 0] (by simp)
    have h2 := hno ![0, 1] (by simp) ![0, 0] (by simp)
    simp at h1 h2
    apply hx
    ext i
    fin_cases i <;> assumption
  · exact C121_few_refuted (ys := [![(0 : ℝ), 0], ![1, 0]]) (by simp) (by simp) one_pos (cov_sample (by simp)) rfl

/-- Two fits to data with means `1/2` and `20`. -/
example : IsCentroid [![(0 : ℚ)], ![1]] ![1 / 2] ∧ IsCentroid [![(10 : ℚ)], ![30]] ![20] ∧ (![(1 : ℚ) / 2] : Fin 1 → ℚ) ≠ ![20] := by
  refine ⟨fun i => by fin_cases i; norm_num, fun i => by fin_cases i; norm_num, fun h => ?_⟩
  have := congrFun h 0
  norm_num at this

/-- They are not empty: an object of the library and two data sets. -/
example {ω : Oracle ℚ} {W : World ℚ 1 ℚ} {F : VWorld ℚ 1} :
    (runFits F W ω (dpVM 1, 0) [.gibbs ⟨.rows [![0], ![1]], .none, false, .kmeans⟩, .var (.rows [![10], ![30]]) none false (.fin 1) .kmeans]).1.gm.muPrior = some ![1 / 2] := by
  refine (C121_second_refuted (dpVM 1, 0) rfl _ _ (ys := [![0], ![1]]) (zs := [![10], ![30]]) rfl rfl (by simp) (by simp) (μ' := ![20]) (fun i => by fin_cases i; norm_num) (fun i => by fin_cases i; norm_num) fun h => ?_).1
  have := congrFun h 0
  norm_num at this
end
end Verif.Mix.VM
