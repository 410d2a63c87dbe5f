import Verif.Lemmas.VarLaw

/-!
# C88: `variational_mean_log_w_j` is the integral of the log weight under the fitted distribution

C39 states the value in terms of the digamma function.  Here the digamma function is the logarithmic derivative of `Γ` on the reals, and the value is shown to be
the integral of `log w_j` with respect to the fitted law of the weights, which is integrable.  `DirichletDistribution` returns a value smaller than the integral, for
every fit and every component.
-/

set_option linter.unusedSectionVars false

namespace Verif
open MeasureTheory ProbabilityTheory Spec
open scoped ENNReal

/-- `scipy.special.digamma`, `loggamma` and `np.log` as real functions. -/
noncomputable def realVarFun : VarFun ℝ := ⟨psi, fun x => Real.log (Real.Gamma x), Real.log⟩

/-- `mean_log_beta(a, b)` is `E log x` for `x ~ Beta(a, b)`. -/
theorem C88_mean_log_beta {a b : ℝ} (ha : 0 < a) (hb : 0 < b) :
    Integrable Real.log (betaMeasure a b) ∧ meanLogBeta realVarFun a b = ∫ x, Real.log x ∂betaMeasure a b :=
  ⟨(beta_log ha hb).1, (beta_log ha hb).2.symm⟩

theorem expLogOneSub_psi (ps : List (ℝ × ℝ)) (j : ℕ) : ((ps.take j).map (fun p => expLogOneSub realVarFun.digamma p.1 p.2)).sum =
    ((ps.take j).map (fun p => psi p.2 - psi (p.1 + p.2))).sum := rfl

/-- `DirichletProcess`. -/
theorem C88_dirichletProcess {alpha : ℝ} (ha : 0 < alpha) {q : List (List ℝ)} (hq : NonNegMatrix q) (j : Fin (DP.fitVariational alpha q).params.length) :
    Integrable (fun w => Real.log (w j)) (truncatedLaw (DP.fitVariational alpha q).params) ∧
    DP.meanLogWj realVarFun (some (DP.fitVariational alpha q)) j = .ok (some (∫ w, Real.log (w j) ∂truncatedLaw (DP.fitVariational alpha q).params)) := by
  obtain ⟨h1, h2⟩ := truncatedLaw_log (DP.fit_pos ha hq) j
  refine ⟨h1, ?_⟩
  have hl := DP.fit_length alpha q
  have hj := j.2
  obtain ⟨c1, c2, _⟩ := C39_dirichletProcess realVarFun alpha q j
  rw [h2]
  by_cases h : (j : ℕ) + 1 = q.length
  · rw [c2 h, if_pos (by omega), zero_add]
    rfl
  · rw [c1 hj (by omega), if_neg (by omega), add_comm]
    rfl

/-- `PitmanYorProcess`. -/
theorem C88_pitmanYor {pyd alpha : ℝ} (hp : 0 ≤ pyd ∧ pyd < 1) (ha : -pyd < alpha) {q : List (List ℝ)} (hq : NonNegMatrix q)
    (j : Fin (PY.fitVariational pyd alpha q).params.length) :
    Integrable (fun w => Real.log (w j)) (fittedLaw (PY.fitVariational pyd alpha q).params) ∧
    PY.meanLogWj realVarFun (some (PY.fitVariational pyd alpha q)) j = .ok (some (∫ w, Real.log (w j) ∂fittedLaw (PY.fitVariational pyd alpha q).params)) := by
  obtain ⟨h1, h2⟩ := fittedLaw_log (PY.fit_pos hp ha hq) j
  refine ⟨h1, ?_⟩
  rw [h2, (C39_pitmanYor realVarFun pyd alpha q j).1 j.2, add_comm]
  rfl

/-- `GeometricProcess`, every component. -/
theorem C88_geometric {a b : ℝ} (ha : 0 < a) (hb : 0 < b) {q : List (List ℝ)} (hq : NonNegMatrix q) {v : GVar ℝ} (h : Geo.fitVariational a b q = .ok v) (j : ℕ) :
    Integrable (fun p => Real.log (p * (1 - p) ^ j)) (betaMeasure v.a v.b) ∧
    Geo.meanLogWj realVarFun (some v) j = .ok (some (∫ p, Real.log (p * (1 - p) ^ j) ∂betaMeasure v.a v.b)) := by
  obtain ⟨h1, h2, _⟩ := Geo.fit_pos ha hb hq h
  have e : ∀ᵐ p ∂betaMeasure v.a v.b, Real.log (p * (1 - p) ^ j) = Real.log p + j * Real.log (1 - p) :=
    betaMeasure_ae.mono fun p hp => by rw [Real.log_mul hp.1.ne' (pow_ne_zero _ (sub_pos.2 hp.2).ne'), Real.log_pow]
  have i1 := beta_log h1 h2
  have i2 := beta_log_one_sub h1 h2
  refine ⟨(i1.1.add (i2.1.const_mul _)).congr (e.mono fun p hp => hp.symm), ?_⟩
  rw [C39_geometric, integral_congr_ae e, integral_add i1.1 (i2.1.const_mul _), integral_const_mul, i1.2, i2.2]
  rfl

/-- `DirichletDistribution`: for every fit and every component the value is strictly smaller than the expectation. -/
theorem C88_dirichletDistribution_refuted {alpha : List ℝ} (ha : ∀ x ∈ alpha, 0 < x) {q : List (List ℝ)} (hq : NonNegMatrix q) {v : DVar ℝ}
    (h : DirDist.fitVariational alpha.length alpha q = .ok v) (j : Fin v.params.length) :
    Integrable (fun w => Real.log (w j)) (dirichletLaw v.params) ∧
    ∃ x, DirDist.meanLogWj realVarFun (some v) j = .ok (some x) ∧ x < ∫ w, Real.log (w j) ∂dirichletLaw v.params := by
  have hlen : v.params.length = alpha.length := by
    obtain ⟨hl, rfl⟩ := DirDist.fit_eq h
    simp [rowSums_length, hl]
  have hpos : ∀ x ∈ v.params, 0 < x := by
    obtain ⟨hl, rfl⟩ := DirDist.fit_eq h
    exact DirDist.fit_pos ha hq
  obtain ⟨h1, h2⟩ := dirichletLaw_log hpos j
  refine ⟨h1, ?_⟩
  obtain ⟨a, x, e1, e2, _, e4⟩ := C39_dirichletDistribution_refuted realVarFun (fun _ _ => psi_strictMono) ha hq h (j := j) (by rw [← hlen]; exact j.2)
  refine ⟨x, e2, ?_⟩
  rw [List.getElem?_eq_getElem j.2] at e1
  rw [h2, Fin.getElem_fin, Option.some.inj e1]
  exact e4

/-- The expected log-likelihood of fixed labels under a law of the weights is the sum of the expected log weights: `variational_mean_log_p_d__w` of
`DirichletProcess` for any matrix of the fitted size, entry `(j, i)` being the probability that observation `i` has label `j`. -/
theorem C88_labels_dirichletProcess {alpha : ℝ} (ha : 0 < alpha) {q : List (List ℝ)} (hq : NonNegMatrix q) {q' : List (List ℝ)} (hl : q'.length = q.length) :
    DP.meanLogPd realVarFun (some (DP.fitVariational alpha q)) (some q') =
      .ok (some (∫ w, ∑ j : Fin (DP.fitVariational alpha q).params.length, ((rowSums q')[(j : ℕ)]?).getD 0 * Real.log (w j)
        ∂truncatedLaw (DP.fitVariational alpha q).params)) := by
  have hlen := DP.fit_length alpha q
  have hi : ∀ j, Integrable (fun w => Real.log (w j)) (truncatedLaw (DP.fitVariational alpha q).params) := fun j => (C88_dirichletProcess ha hq j).1
  have hv : ∀ j : Fin (DP.fitVariational alpha q).params.length, DP.meanLogWj realVarFun (some (DP.fitVariational alpha q)) j =
      .ok (some (∫ w, Real.log (w j) ∂truncatedLaw (DP.fitVariational alpha q).params)) := fun j => (C88_dirichletProcess ha hq j).2
  rw [integral_finsetSum _ fun j _ => (hi j).const_mul _]
  simp_rw [integral_const_mul]
  have key : ∀ (N : ℕ) (e : Fin N → ℝ) (f : ℕ → Except PyErr (Option ℝ)) (hf : ∀ j : Fin N, f j = .ok (some (e j))) (ns : List ℝ) (i : ℕ) (r : ℝ), i + ns.length = N →
      meanLogPdLoop f i (some r) ns = .ok (some (r + ∑ j : Fin N, (if i ≤ (j : ℕ) then (ns[(j : ℕ) - i]?).getD 0 else 0) * e j)) := by
    intro N e f hf ns
    induction ns with
    | nil =>
      intro i r h
      simp only [List.length_nil, add_zero] at h
      subst h
      rw [meanLogPdLoop]
      simp
    | cons x xs ih =>
      intro i r h
      simp only [List.length_cons] at h
      rw [meanLogPdLoop, hf ⟨i, by omega⟩]
      simp only []
      rw [ih (i + 1) _ (by omega)]
      congr 2
      rw [add_assoc]
      congr 1
      rw [← Finset.add_sum_erase _ _ (Finset.mem_univ (⟨i, by omega⟩ : Fin N)), ← Finset.add_sum_erase _ _ (Finset.mem_univ (⟨i, by omega⟩ : Fin N))]
      simp only [le_refl, if_true, Nat.sub_self, List.getElem?_cons_zero, Option.getD_some]
      rw [if_neg (by omega), zero_mul, zero_add]
      congr 1
      refine Finset.sum_congr rfl fun j hj => ?_
      have hne : (j : ℕ) ≠ i := fun he => Finset.ne_of_mem_erase hj (Fin.ext he)
      by_cases hij : i ≤ (j : ℕ)
      · rw [if_pos (by omega), if_pos hij, show (j : ℕ) - i = ((j : ℕ) - (i + 1)) + 1 by omega, List.getElem?_cons_succ]
      · rw [if_neg (by omega), if_neg hij]
  unfold DP.meanLogPd pickMatrix
  simp only []
  rw [key _ _ _ hv (rowSums q') 0 0 (by rw [rowSums_length, hl, hlen]; omega)]
  simp

/-! ### The hypotheses are met -/

example : 0 < (DP.fitVariational (2 : ℝ) [[1/2, 1], [1/2, 0]]).params.length ∧ NonNegMatrix [[(1/2 : ℝ), 1], [1/2, 0]] := by
  refine ⟨by rw [DP.fit_length]; simp, ?_⟩
  intro r hr x hx
  simp only [List.mem_cons, List.not_mem_nil, or_false] at hr
  rcases hr with rfl | rfl <;> simp only [List.mem_cons, List.not_mem_nil, or_false] at hx <;> rcases hx with rfl | rfl <;> norm_num

/-- `E log x` for the uniform law is `-1`. -/
example : meanLogBeta realVarFun 1 1 = -1 := by
  have h : ∀ᶠ x : ℝ in nhds 1, Real.log (Real.Gamma (x + 1)) = Real.log x + Real.log (Real.Gamma x) := by
    filter_upwards [Ioi_mem_nhds (zero_lt_one' ℝ)] with x hx
    have hx' : (0 : ℝ) < x := hx
    rw [Real.Gamma_add_one hx'.ne', Real.log_mul hx'.ne' (Real.Gamma_pos_of_pos hx').ne']
  have h1 : HasDerivAt (fun x : ℝ => Real.log (Real.Gamma (x + 1))) (psi (1 + 1)) 1 := HasDerivAt.comp_add_const 1 1 (hasDerivAt_logGamma (by norm_num))
  have h2 : HasDerivAt (fun x : ℝ => Real.log x + Real.log (Real.Gamma x)) (1⁻¹ + psi 1) 1 := (Real.hasDerivAt_log one_ne_zero).add (hasDerivAt_logGamma one_pos)
  have := h1.unique (h2.congr_of_eventuallyEq h)
  change psi 1 - psi (1 + 1) = -1
  rw [this]
  norm_num
end Verif
