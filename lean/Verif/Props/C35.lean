import Verif.Lemmas.Variational

/-!
# C35: the variational mean weights of `DirichletDistribution`

After a successful `fit_variational` the values for `j < n` are non-negative and sum to one (`C35_probability`); for `j > n` the value is `0`
(`C35_beyond_partial`), but for `j = n` the call raises `IndexError` because the guard is `j > variational_k` (`C35_refuted`, for every fit).
-/

set_option linter.unusedSectionVars false

namespace Verif
open Spec
variable {K : Type} [Field K] [LinearOrder K] [IsStrictOrderedRing K]

/-- For `alpha` with `n` entries `fit_variational` accepts exactly the matrices with `n` rows. -/
theorem C35_accepts (alpha : List K) (q : List (List K)) :
    (∃ v, DirDist.fitVariational alpha.length alpha q = .ok v) ↔ q.length = alpha.length := by
  unfold DirDist.fitVariational
  constructor
  · rintro ⟨v, h⟩
    by_contra hc
    rw [if_pos (by exact_mod_cast hc)] at h; cases h
  · intro h
    rw [if_neg (by simp [h])]
    unfold DirDist.broadcastAdd
    rw [if_pos (by rw [rowSums_length, h])]
    exact ⟨_, rfl⟩

theorem DirDist.fit_eq {alpha : List K} {q : List (List K)} {v : DVar K} (h : DirDist.fitVariational alpha.length alpha q = .ok v) :
    q.length = alpha.length ∧ v = { d := q, k := alpha.length, params := List.zipWith (· + ·) alpha (rowSums q) } := by
  have hl := (C35_accepts alpha q).1 ⟨v, h⟩
  unfold DirDist.fitVariational at h
  rw [if_neg (by simp [hl])] at h
  unfold DirDist.broadcastAdd at h
  rw [if_pos (by rw [rowSums_length, hl])] at h
  exact ⟨hl, by cases h; rfl⟩

theorem DirDist.fit_pos {alpha : List K} (ha : ∀ x ∈ alpha, 0 < x) {q : List (List K)} (hq : NonNegMatrix q) :
    ∀ x ∈ List.zipWith (· + ·) alpha (rowSums q), 0 < x := by
  intro x hx
  obtain ⟨j, hj, rfl⟩ := List.mem_iff_getElem.1 hx
  simp only [List.getElem_zipWith]
  have h1 := ha _ (List.getElem_mem (l := alpha) (n := j) (by simp at hj; omega))
  have h2 := rowSums_nonneg hq _ (List.getElem_mem (l := rowSums q) (n := j) (by simp at hj; omega))
  linarith

theorem list_sum_div (l : List K) (c : K) : (l.map (fun x => x / c)).sum = l.sum / c := by
  induction l with
  | nil => simp
  | cons x xs ih => simp [ih, add_div]

theorem list_sum_pos {l : List K} (h : ∀ x ∈ l, 0 < x) (hne : l ≠ []) : 0 < l.sum := by
  cases l with
  | nil => exact absurd rfl hne
  | cons x xs =>
    rw [List.sum_cons]
    have h1 := h x (by simp)
    have h2 : 0 ≤ xs.sum := List.sum_nonneg fun y hy => (h y (by simp [hy])).le
    linarith

theorem C35_probability {alpha : List K} (ha : ∀ x ∈ alpha, 0 < x) (hne : alpha ≠ []) {q : List (List K)} (hq : NonNegMatrix q) {v : DVar K}
    (h : DirDist.fitVariational alpha.length alpha q = .ok v) :
    ∃ w : List K, w.length = alpha.length ∧ Prob w ∧ ∀ j x, w[j]? = some x → DirDist.meanWj v j = .ok x := by
  obtain ⟨hl, rfl⟩ := DirDist.fit_eq h
  have hp := DirDist.fit_pos ha hq
  have hlen : (List.zipWith (· + ·) alpha (rowSums q)).length = alpha.length := by simp [rowSums_length, hl]
  generalize hps : List.zipWith (· + ·) alpha (rowSums q) = ps at *
  have hs : 0 < ps.sum := list_sum_pos hp (by rintro rfl; simp at hlen; exact hne (List.length_eq_zero_iff.1 hlen.symm))
  refine ⟨ps.map (fun x => x / ps.sum), by simp [hlen], ⟨?_, ?_⟩, ?_⟩
  · intro x hx
    obtain ⟨y, hy, rfl⟩ := List.mem_map.1 hx
    exact (div_pos (hp y hy) hs).le
  · rw [list_sum_div, div_self hs.ne']
  · intro j x hx
    rw [List.getElem?_map] at hx
    cases hj : ps[j]? with
    | none => rw [hj] at hx; cases hx
    | some y =>
      rw [hj] at hx
      have hjl : j < ps.length := by
        by_contra hc; rw [List.getElem?_eq_none (by omega)] at hj; cases hj
      unfold DirDist.meanWj
      rw [if_neg (by simp only; omega)]
      simp only [hj]
      rw [← Option.some.inj hx]

/-- Missing: `j = n`, see `C35_refuted`. -/
theorem C35_beyond_partial {alpha : List K} {q : List (List K)} {v : DVar K} (h : DirDist.fitVariational alpha.length alpha q = .ok v)
    {j : ℕ} (hj : alpha.length < j) : DirDist.meanWj v j = .ok 0 := by
  obtain ⟨hl, rfl⟩ := DirDist.fit_eq h
  unfold DirDist.meanWj
  rw [if_pos (by simpa using hj)]

/-- After every successful fit the first component beyond the end raises. -/
theorem C35_refuted {alpha : List K} {q : List (List K)} {v : DVar K} (h : DirDist.fitVariational alpha.length alpha q = .ok v) :
    DirDist.meanWj v alpha.length = .error .indexError := by
  obtain ⟨hl, rfl⟩ := DirDist.fit_eq h
  unfold DirDist.meanWj
  rw [if_neg (by simp)]
  simp only
  rw [List.getElem?_eq_none (by simp)]

/-! ### The hypotheses are met -/

example : ∃ v, DirDist.fitVariational 2 [(1 : ℚ), 3] [[1/2, 1], [1/2, 0]] = .ok v ∧ DirDist.meanWj v 0 = .ok (5/12) ∧
    DirDist.meanWj v 1 = .ok (7/12) ∧ DirDist.meanWj v 2 = .error .indexError ∧ DirDist.meanWj v 3 = .ok 0 := by
  refine ⟨{ d := [[1/2, 1], [1/2, 0]], k := 2, params := [5/2, 7/2] }, ?_, ?_⟩
  · unfold DirDist.fitVariational DirDist.broadcastAdd; norm_num [rowSums]
  · decide +kernel
end Verif
