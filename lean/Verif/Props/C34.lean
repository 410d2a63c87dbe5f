import Verif.Lemmas.Variational
import Verif.Lemmas.StickTail

/-!
# C34: the variational mean weights of `DirichletProcess` form a probability vector

After `fit_variational(q)` for any matrix with `k ≥ 1` rows and non-negative entries: `variational_mean_w_j(j)` never raises, is non-negative,
is `0` for `j ≥ k`, and the values for `j < k` sum to exactly one.  `C34_stick`: they are the stick-breaking image of the means of the fitted
Beta distributions, with the last stick equal to one.
-/

set_option linter.unusedSectionVars false

namespace Verif
open Spec
variable {K : Type} [Field K] [LinearOrder K] [IsStrictOrderedRing K]

/-- The means of the sticks: those of the fitted Beta distributions, and one for the last stick. -/
def truncatedMeans (ps : List (K × K)) : List K := ps.dropLast.map betaMean ++ [1]

theorem DP.meanWj_eq {alpha : K} (ha : 0 < alpha) {q : List (List K)} (hq : NonNegMatrix q) (j : ℕ) (hj : j < q.length) :
    ∃ x, DP.meanWj (DP.fitVariational alpha q) j = .ok x ∧
      (stickWeights (truncatedMeans (DP.fitVariational alpha q).params))[j]? = some x := by
  have hpos := DP.fit_pos ha hq
  have hl := DP.fit_length alpha q
  generalize hv : DP.fitVariational alpha q = v at *
  have hk : v.k = q.length := by rw [← hv]; rfl
  have hlm : (truncatedMeans v.params).length = q.length := by simp [truncatedMeans, hl]; omega
  have htake : (truncatedMeans v.params).take j = (v.params.take j).map betaMean := by
    unfold truncatedMeans
    rw [List.take_append_of_le_length (by simp; omega), ← List.map_take, List.dropLast_eq_take, List.take_take]
    congr 2; omega
  have hget : ∀ x, (truncatedMeans v.params)[j]? = some x → (stickWeights (truncatedMeans v.params))[j]? =
      some (x * ((v.params.take j).map (fun p => p.2 / (p.1 + p.2))).prod) := by
    intro x hx
    rw [(stickWeights_isStick _).2 j x hx, htake, prod_betaMean (fun p hp => hpos p (List.mem_of_mem_take hp))]
  have hjv : j < v.params.length := by omega
  unfold DP.meanWj
  rw [if_neg (by omega), foldTo_ok _ _ _ _ (by omega), foldl_mul_map]
  simp only [one_mul]
  by_cases hlast : j + 1 < v.k
  · rw [if_pos hlast, List.getElem?_eq_getElem hjv]
    refine ⟨_, rfl, ?_⟩
    rw [hget (betaMean v.params[j]) ?_]
    · rw [mul_comm]; rfl
    · unfold truncatedMeans
      rw [List.getElem?_append_left (by simp; omega)]
      rw [List.getElem?_map, List.getElem?_dropLast, if_pos (by omega), List.getElem?_eq_getElem hjv]; rfl
  · rw [if_neg hlast]
    refine ⟨_, rfl, ?_⟩
    rw [hget 1 ?_, one_mul]
    unfold truncatedMeans
    rw [List.getElem?_append_right (by simp; omega)]
    have : j - (v.params.dropLast.map betaMean).length = 0 := by simp; omega
    rw [this]; rfl

/-- The values are the stick-breaking image of the means of the fitted sticks (last stick one). -/
theorem C34_stick {alpha : K} (ha : 0 < alpha) {q : List (List K)} (hq : NonNegMatrix q) (hne : q ≠ []) :
    ∃ w : List K, IsStick (truncatedMeans (DP.fitVariational alpha q).params) w ∧ w.length = q.length ∧
      ∀ j x, w[j]? = some x → DP.meanWj (DP.fitVariational alpha q) j = .ok x := by
  have hl := DP.fit_length alpha q
  have hpos : 0 < q.length := List.length_pos_iff.2 hne
  have hlen : (stickWeights (truncatedMeans (DP.fitVariational alpha q).params)).length = q.length := by
    rw [stickWeights_length]; simp [truncatedMeans, hl]; omega
  refine ⟨stickWeights _, stickWeights_isStick _, hlen, fun j x hx => ?_⟩
  have hj : j < q.length := by
    by_contra hc
    rw [List.getElem?_eq_none (by omega)] at hx; cases hx
  obtain ⟨y, h1, h2⟩ := DP.meanWj_eq ha hq j hj
  rw [h1, ← Option.some.inj (h2.symm.trans hx)]

theorem C34_probability {alpha : K} (ha : 0 < alpha) {q : List (List K)} (hq : NonNegMatrix q) (hne : q ≠ []) :
    ∃ w : List K, w.length = q.length ∧ Prob w ∧
      (∀ j x, w[j]? = some x → DP.meanWj (DP.fitVariational alpha q) j = .ok x) ∧
      ∀ j, q.length ≤ j → DP.meanWj (DP.fitVariational alpha q) j = .ok 0 := by
  obtain ⟨w, h1, h2, h3⟩ := C34_stick ha hq hne
  have hp := DP.fit_pos ha hq
  have hu : Unit01 (truncatedMeans (DP.fitVariational alpha q).params) := by
    refine Unit01.append ?_ ?_
    · intro x hx
      obtain ⟨p, hp', rfl⟩ := List.mem_map.1 hx
      exact betaMean_unit (hp p (List.mem_of_mem_dropLast hp'))
    · intro x hx; simp at hx; subst hx; simp
  rw [IsStick.eq h1] at h2 h3
  refine ⟨_, h2, ⟨stickWeights_nonneg hu, ?_⟩, h3, fun j hj => ?_⟩
  · rw [stickWeights_sum]; simp [leftOver, truncatedMeans]
  · unfold DP.meanWj; rw [if_pos (by exact hj)]

/-! ### The hypotheses are met -/

example : ∃ w : List ℚ, w.length = 3 ∧ Prob w :=
  let ⟨w, h1, h2, _⟩ := C34_probability (K := ℚ) (alpha := 2) (by norm_num) (q := [[1/2, 1/3], [1/4, 1/3], [1/4, 1/3]])
    (by unfold NonNegMatrix; decide +kernel) (by simp)
  ⟨w, h1, h2⟩

example : (List.range 4).map (fun j => (DP.meanWj (DP.fitVariational (2 : ℚ) [[1/2, 1/2], [1/2, 1/4], [0, 1/4]]) j).toOption) =
    [some (2/5), some (21/80), some (27/80), some 0] := by decide +kernel
end Verif
