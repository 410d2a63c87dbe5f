import Verif.Lemmas.Variational
import Verif.Props.C35

/-!
# C39: `variational_mean_log_w_j` is the expected log weight of the fitted distribution

Stick-breaking classes: `E log w_j = E log v_j + Σ_{i<j} E log (1 - v_i)`, where `E log v = ψ(a) - ψ(a+b)` for `v ~ Beta(a, b)` (and
`1 - v ~ Beta(b, a)`), `ψ` the digamma function; proved for `DirichletProcess` (whose last stick is one), `PitmanYorProcess` and
`GeometricProcess` for any parameters.  `DirichletDistribution` must return `ψ(a_j) - ψ(Σ a)` but returns `ψ(a_j) - ψ(a_j + Σ a)`:
`C39_dirichletDistribution_refuted`, for every fit and every component.
-/

set_option linter.unusedSectionVars false

namespace Verif
open Spec
variable {K : Type} [Field K] [LinearOrder K] [IsStrictOrderedRing K]

/-- The expectation of `log v` for `v ~ Beta(a, b)`. -/
def expLogBeta (ψ : K → K) (a b : K) : K := ψ a - ψ (a + b)

/-- The expectation of `log (1 - v)` for `v ~ Beta(a, b)`. -/
def expLogOneSub (ψ : K → K) (a b : K) : K := ψ b - ψ (a + b)

theorem meanLogBeta_swap (F : VarFun K) (p : K × K) : meanLogBeta F p.2 p.1 = expLogOneSub F.digamma p.1 p.2 := by
  simp [meanLogBeta, expLogOneSub, add_comm]

/-- Below the truncation; `-∞` (no mass) at or beyond it. -/
theorem C39_dirichletProcess (F : VarFun K) (alpha : K) (q : List (List K)) (j : ℕ) :
    (∀ hj : j < (DP.fitVariational alpha q).params.length, j + 1 < q.length →
      DP.meanLogWj F (some (DP.fitVariational alpha q)) j = .ok (some (
        (((DP.fitVariational alpha q).params.take j).map (fun p => expLogOneSub F.digamma p.1 p.2)).sum
          + expLogBeta F.digamma (DP.fitVariational alpha q).params[j].1 (DP.fitVariational alpha q).params[j].2))) ∧
    (j + 1 = q.length → DP.meanLogWj F (some (DP.fitVariational alpha q)) j = .ok (some (
        (((DP.fitVariational alpha q).params.take j).map (fun p => expLogOneSub F.digamma p.1 p.2)).sum))) ∧
    (q.length ≤ j → DP.meanLogWj F (some (DP.fitVariational alpha q)) j = .ok none) := by
  have hl := DP.fit_length alpha q
  generalize hv : DP.fitVariational alpha q = v at *
  have hk : v.k = q.length := by rw [← hv]; rfl
  unfold DP.meanLogWj
  refine ⟨fun hj h => ?_, fun h => ?_, fun h => ?_⟩
  · simp only []
    rw [if_neg (by omega), foldTo_ok _ _ _ _ (by omega), foldl_add_map]
    simp only [zero_add, meanLogBeta_swap]
    rw [if_pos (by omega), List.getElem?_eq_getElem hj]
    rfl
  · simp only []
    rw [if_neg (by omega), foldTo_ok _ _ _ _ (by omega), foldl_add_map]
    simp only [zero_add, meanLogBeta_swap]
    rw [if_neg (by omega)]
  · simp only []
    rw [if_pos (by omega)]

theorem C39_pitmanYor (F : VarFun K) (pyd alpha : K) (q : List (List K)) (j : ℕ) :
    (∀ hj : j < (PY.fitVariational pyd alpha q).params.length,
      PY.meanLogWj F (some (PY.fitVariational pyd alpha q)) j = .ok (some (
        (((PY.fitVariational pyd alpha q).params.take j).map (fun p => expLogOneSub F.digamma p.1 p.2)).sum
          + expLogBeta F.digamma (PY.fitVariational pyd alpha q).params[j].1 (PY.fitVariational pyd alpha q).params[j].2))) ∧
    (q.length ≤ j → PY.meanLogWj F (some (PY.fitVariational pyd alpha q)) j = .error .indexError) := by
  have hl := PY.fit_length pyd alpha q
  generalize hv : PY.fitVariational pyd alpha q = v at *
  unfold PY.meanLogWj
  refine ⟨fun hj => ?_, fun h => ?_⟩
  · simp only []
    rw [foldTo_ok _ _ _ _ (by omega), foldl_add_map]
    simp only [zero_add, meanLogBeta_swap]
    rw [List.getElem?_eq_getElem hj]
    rfl
  · simp only []
    rcases Nat.lt_or_ge q.length j with h' | h'
    · rw [foldTo_err _ _ _ _ (by omega)]
    · rw [foldTo_ok _ _ _ _ (by omega), List.getElem?_eq_none (by omega)]

/-- Every component: `w_j = p (1-p)^j`. -/
theorem C39_geometric (F : VarFun K) (v : GVar K) (j : ℕ) :
    Geo.meanLogWj F (some v) j = .ok (some (expLogBeta F.digamma v.a v.b + (j : K) * expLogOneSub F.digamma v.a v.b)) := by
  unfold Geo.meanLogWj
  have := meanLogBeta_swap F (v.a, v.b)
  simp only at this
  simp only [this]
  split
  · rw [mul_comm (j : K)]; rfl
  · have : j = 0 := by omega
    subst this; simp [meanLogBeta, expLogBeta]

/-- Without data: `NotFittedError`. -/
theorem C39_not_fitted (F : VarFun K) (j : ℕ) :
    DP.meanLogWj F none j = .error .notFittedError ∧ PY.meanLogWj F none j = .error .notFittedError ∧
    Geo.meanLogWj F none j = .error .notFittedError ∧ DirDist.meanLogWj F none j = .error .notFittedError := ⟨rfl, rfl, rfl, rfl⟩

/-- For a strictly increasing digamma, every fit and every component: the value is strictly smaller than `ψ(a_j) - ψ(Σ a)`. -/
theorem C39_dirichletDistribution_refuted (F : VarFun K) (hF : ∀ x y, 0 < x → x < y → F.digamma x < F.digamma y) {alpha : List K}
    (ha : ∀ x ∈ alpha, 0 < x) {q : List (List K)} (hq : NonNegMatrix q) {v : DVar K}
    (h : DirDist.fitVariational alpha.length alpha q = .ok v) {j : ℕ} (hj : j < alpha.length) :
    ∃ a x, v.params[j]? = some a ∧ DirDist.meanLogWj F (some v) j = .ok (some x) ∧ x = F.digamma a - F.digamma (a + v.params.sum) ∧
      x < F.digamma a - F.digamma v.params.sum := by
  obtain ⟨hl, rfl⟩ := DirDist.fit_eq h
  have hp := DirDist.fit_pos ha hq
  have hlen : (List.zipWith (· + ·) alpha (rowSums q)).length = alpha.length := by simp [rowSums_length, hl]
  simp only
  generalize hps : List.zipWith (· + ·) alpha (rowSums q) = ps at *
  have hjp : j < ps.length := by omega
  have hs : 0 < ps.sum := list_sum_pos hp (by rintro rfl; simp at hjp)
  refine ⟨ps[j], _, List.getElem?_eq_getElem hjp, ?_, rfl, ?_⟩
  · simp only [DirDist.meanLogWj, List.getElem?_eq_getElem hjp]; rfl
  · have := hF ps.sum (ps[j] + ps.sum) hs (by linarith [hp _ (List.getElem_mem hjp)])
    linarith

/-! ### The hypotheses are met -/

example : DP.meanLogWj ⟨fun x : ℚ => x, id, id⟩ (some (DP.fitVariational 2 [[1/2, 1/2], [1/2, 1/4], [0, 1/4]])) 1 = .ok (some (-17/4)) := by
  decide +kernel

example : ∃ v, DirDist.fitVariational 2 [(1 : ℚ), 3] [[1/2, 1], [1/2, 0]] = .ok v ∧
    DirDist.meanLogWj ⟨fun x : ℚ => x, id, id⟩ (some v) 0 = .ok (some (-6)) := by
  refine ⟨{ d := [[1/2, 1], [1/2, 0]], k := 2, params := [5/2, 7/2] }, ?_, ?_⟩
  · unfold DirDist.fitVariational DirDist.broadcastAdd; norm_num [rowSums]
  · decide +kernel
end Verif
