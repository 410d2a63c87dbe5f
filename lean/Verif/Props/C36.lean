import Verif.Lemmas.Variational

/-!
# C36: the variational mean weights of `PitmanYorProcess` and `GeometricProcess`

Below the truncation both classes return non-negative values with total at most one (`C36_pitmanYor_partial`, `C36_geometric_partial`).  At the
truncation `PitmanYorProcess` raises `IndexError` (`C36_pitmanYor_refuted`), beyond it the value is `0`; `GeometricProcess` returns `1` for every
component at or beyond the truncation (`C36_geometric_refuted`).
-/

set_option linter.unusedSectionVars false

namespace Verif
open Spec
variable {K : Type} [Field K] [LinearOrder K] [IsStrictOrderedRing K]

/-- Missing: `j = k`, see `C36_pitmanYor_refuted`. -/
theorem C36_pitmanYor_partial {pyd alpha : K} (hp : 0 ≤ pyd ∧ pyd < 1) (ha : -pyd < alpha) {q : List (List K)} (hq : NonNegMatrix q) :
    ∃ w : List K, w.length = q.length ∧ SubProb w ∧
      (∀ j x, w[j]? = some x → PY.meanWj (PY.fitVariational pyd alpha q) j = .ok x) ∧
      ∀ j, q.length < j → PY.meanWj (PY.fitVariational pyd alpha q) j = .ok 0 := by
  have hpos := PY.fit_pos hp ha hq
  have hl := PY.fit_length pyd alpha q
  generalize hv : PY.fitVariational pyd alpha q = v at *
  have hk : v.k = q.length := by rw [← hv]; rfl
  refine ⟨stickWeights (v.params.map betaMean), by simp [stickWeights_length, hl], stickWeights_subProb ?_, ?_, ?_⟩
  · intro x hx
    obtain ⟨p, hp', rfl⟩ := List.mem_map.1 hx
    exact betaMean_unit (hpos p hp')
  · intro j x hx
    have hj : j < v.params.length := by
      by_contra hc
      rw [List.getElem?_eq_none (by simp [stickWeights_length]; omega)] at hx; cases hx
    rw [(stickWeights_isStick _).2 j (betaMean v.params[j]) (by simp [hj]), ← List.map_take,
      ← prod_betaMean (fun p hp => hpos p (List.mem_of_mem_take hp))] at hx
    unfold PY.meanWj
    rw [if_neg (by omega), foldTo_ok _ _ _ _ (by omega), foldl_mul_map, List.getElem?_eq_getElem hj]
    simp only [one_mul]
    rw [← Option.some.inj hx, mul_comm]; rfl
  · intro j hj
    unfold PY.meanWj
    rw [if_pos (by omega)]

/-- For every fit, the first component beyond the truncation raises. -/
theorem C36_pitmanYor_refuted (pyd alpha : K) (q : List (List K)) :
    PY.meanWj (PY.fitVariational pyd alpha q) q.length = .error .indexError := by
  have hl := PY.fit_length pyd alpha q
  unfold PY.meanWj
  rw [if_neg (by simp [PY.fitVariational, Var.k]), foldTo_ok _ _ _ _ (by omega), List.getElem?_eq_none (by omega)]

theorem Geo.fit_pos {a b : K} (ha : 0 < a) (hb : 0 < b) {q : List (List K)} (hq : NonNegMatrix q) {v : GVar K}
    (h : Geo.fitVariational a b q = .ok v) : 0 < v.a ∧ 0 < v.b ∧ v.d = q := by
  unfold Geo.fitVariational at h
  cases q with
  | nil => cases h
  | cons r0 rows =>
    cases h
    refine ⟨?_, ?_, rfl⟩
    · simp only
      have : (1 : K) ≤ ((max r0.length 1 : ℕ) : K) := by exact_mod_cast le_max_right _ _
      linarith
    · simp only
      have : 0 ≤ (((r0 :: rows).drop 1).mapIdx (fun j r => (r.map (fun x => x * ((j + 1 : ℕ) : K))).sum)).sum := by
        refine List.sum_nonneg fun x hx => ?_
        obtain ⟨j, hj, rfl⟩ := List.mem_mapIdx.1 hx
        refine List.sum_nonneg fun y hy => ?_
        obtain ⟨z, hz, rfl⟩ := List.mem_map.1 hy
        exact mul_nonneg (hq _ (List.mem_of_mem_drop (List.getElem_mem hj)) z hz) (Nat.cast_nonneg _)
      linarith

/-- Missing: components at or beyond the truncation, see `C36_geometric_refuted`. -/
theorem C36_geometric_partial {a b : K} (ha : 0 < a) (hb : 0 < b) {q : List (List K)} (hq : NonNegMatrix q) {v : GVar K}
    (h : Geo.fitVariational a b q = .ok v) :
    ∃ w : List K, w.length = q.length ∧ SubProb w ∧ ∀ j x, w[j]? = some x → Geo.meanWj v j = x := by
  obtain ⟨h1, h2, h3⟩ := Geo.fit_pos ha hb hq h
  have hu := betaMean_unit (p := (v.a, v.b)) ⟨h1, h2⟩
  refine ⟨stickWeights (List.replicate q.length (betaMean (v.a, v.b))), by simp [stickWeights_length],
    stickWeights_subProb (Unit01.replicate hu.1 hu.2 _), fun j x hx => ?_⟩
  have hj : j < q.length := by
    by_contra hc
    rw [List.getElem?_eq_none (by simp [stickWeights_length]; omega)] at hx; cases hx
  rw [stickWeights_replicate _ _ _ hj] at hx
  unfold Geo.meanWj
  rw [if_neg (by rw [h3]; omega), ← Option.some.inj hx]; rfl

/-- For every fit, every component at or beyond the truncation has weight one. -/
theorem C36_geometric_refuted {a b : K} {q : List (List K)} {v : GVar K} (h : Geo.fitVariational a b q = .ok v) {j : ℕ} (hj : q.length ≤ j) :
    Geo.meanWj v j = 1 ∧ Geo.meanWj v j ≠ 0 := by
  have h3 : v.d = q := by
    unfold Geo.fitVariational at h
    cases q with
    | nil => cases h
    | cons => cases h; rfl
  have : Geo.meanWj v j = 1 := by unfold Geo.meanWj; rw [if_pos (by rw [h3]; exact hj)]
  exact ⟨this, by rw [this]; exact one_ne_zero⟩

/-! ### The hypotheses are met -/

example : (List.range 4).map (fun j => match PY.meanWj (PY.fitVariational (1/2 : ℚ) 1 [[1/2, 1/2], [1/2, 1/2]]) j with | .ok x => some x | _ => none) =
    [some (3/8), some (15/56), none, some 0] := by decide +kernel

example : ∃ v, Geo.fitVariational (1 : ℚ) 1 [[1, 0], [0, 1]] = .ok v ∧ Geo.meanWj v 0 = 1/2 ∧ Geo.meanWj v 1 = 1/4 ∧ Geo.meanWj v 2 = 1 := by
  refine ⟨{ d := [[1, 0], [0, 1]], a := 2, b := 2 }, ?_, ?_⟩
  · unfold Geo.fitVariational; norm_num
  · decide +kernel
end Verif
