import Verif.Lemmas.VarLaw
import Verif.Props.C83

/-!
# C87: `variational_mean_w_j` is the expected weight under the fitted distribution

After `fit_variational(q)`: `variational_mean_w_j(j)` is the integral of weight `j` with respect to the fitted distribution of the weights: independent Beta sticks
(the last of `DirichletProcess` equal to one), or a Dirichlet distribution.  For the matrix of given labels this is also the expectation of weight `j` of the vector that
`random` draws after `fit(labels)`, except for the last component of `DirichletProcess`, whose draw leaves some mass over.

`GeometricProcess` returns `m (1-m)^j` with the mean `m`, not the mean of `p (1-p)^j`: right for `j = 0` and too large for `j = 1`, for every fit.
-/

set_option linter.unusedSectionVars false

namespace Verif
open MeasureTheory ProbabilityTheory Spec
open scoped ENNReal

/-- `DirichletProcess`, every component. -/
theorem C87_dirichletProcess {alpha : ℝ} (ha : 0 < alpha) {q : List (List ℝ)} (hq : NonNegMatrix q) (j : Fin (DP.fitVariational alpha q).params.length) :
    DP.meanWj (DP.fitVariational alpha q) j = .ok (∫ w, w j ∂truncatedLaw (DP.fitVariational alpha q).params) := by
  have hl := DP.fit_length alpha q
  rw [truncatedLaw_mean (DP.fit_pos ha hq)]
  have hj := j.2
  have hk : (DP.fitVariational alpha q).k = q.length := rfl
  generalize DP.fitVariational alpha q = v at *
  unfold DP.meanWj
  rw [if_neg (by omega), foldTo_ok _ _ _ _ (by omega), foldl_mul_map]
  simp only [one_mul]
  by_cases h : (j : ℕ) + 1 < v.k
  · rw [if_pos h, List.getElem?_eq_getElem hj, if_neg (by omega), mul_comm]
    rfl
  · rw [if_neg h, if_pos (by omega), one_mul]

/-- Every component of the fitted object is one of the above. -/
theorem C87_dirichletProcess_all {alpha : ℝ} {q : List (List ℝ)} : (DP.fitVariational alpha q).params.length = q.length := DP.fit_length alpha q

/-- `PitmanYorProcess`. -/
theorem C87_pitmanYor {pyd alpha : ℝ} (hp : 0 ≤ pyd ∧ pyd < 1) (ha : -pyd < alpha) {q : List (List ℝ)} (hq : NonNegMatrix q)
    (j : Fin (PY.fitVariational pyd alpha q).params.length) :
    PY.meanWj (PY.fitVariational pyd alpha q) j = .ok (∫ w, w j ∂fittedLaw (PY.fitVariational pyd alpha q).params) := by
  have hl := PY.fit_length pyd alpha q
  rw [fittedLaw_mean (PY.fit_pos hp ha hq)]
  have hj := j.2
  have hk : (PY.fitVariational pyd alpha q).k = q.length := rfl
  generalize PY.fitVariational pyd alpha q = v at *
  unfold PY.meanWj
  rw [if_neg (by omega), foldTo_ok _ _ _ _ (by omega), foldl_mul_map, List.getElem?_eq_getElem hj]
  simp only [one_mul]
  rw [mul_comm]
  rfl

/-- `DirichletDistribution`. -/
theorem C87_dirichletDistribution {alpha : List ℝ} (ha : ∀ x ∈ alpha, 0 < x) {q : List (List ℝ)} (hq : NonNegMatrix q) {v : DVar ℝ}
    (h : DirDist.fitVariational alpha.length alpha q = .ok v) (j : Fin v.params.length) :
    v.params.length = alpha.length ∧ DirDist.meanWj v j = .ok (∫ w, w j ∂dirichletLaw v.params) := by
  obtain ⟨hl, rfl⟩ := DirDist.fit_eq h
  have hlen : (List.zipWith (· + ·) alpha (rowSums q)).length = alpha.length := by simp [rowSums_length, hl]
  have hj := j.2
  refine ⟨hlen, ?_⟩
  rw [dirichletLaw_mean (DirDist.fit_pos ha hq) j]
  unfold DirDist.meanWj
  simp only at hj ⊢
  rw [if_neg (by omega), List.getElem?_eq_getElem hj]
  rfl

theorem geometric_moment {a b : ℝ} (ha : 0 < a) (hb : 0 < b) (j : ℕ) : ∫ p, p * (1 - p) ^ j ∂betaMeasure a b = beta (a + 1) (b + j) / beta a b := by
  have := integral_beta_moment ha hb 1 j
  simp only [pow_one, Nat.cast_one] at this
  rw [integral_betaMeasure ha hb, this]

/-- `GeometricProcess`: the first component.  Missing: the others, see `C87_geometric_refuted`. -/
theorem C87_geometric_partial {a b : ℝ} (ha : 0 < a) (hb : 0 < b) {q : List (List ℝ)} (hq : NonNegMatrix q) {v : GVar ℝ} (h : Geo.fitVariational a b q = .ok v) :
    Geo.meanWj v 0 = ∫ p, p * (1 - p) ^ 0 ∂betaMeasure v.a v.b := by
  obtain ⟨h1, h2, h3⟩ := Geo.fit_pos ha hb hq h
  have hne : q ≠ [] := by rintro rfl; cases h
  have := List.length_pos_of_ne_nil hne
  unfold Geo.meanWj
  rw [h3, if_neg (by omega)]
  simp [betaMeasure_mean h1 h2]

/-- For every fit with at least two components, the second mean weight is larger than the expectation. -/
theorem C87_geometric_refuted {a b : ℝ} (ha : 0 < a) (hb : 0 < b) {q : List (List ℝ)} (hq : NonNegMatrix q) {v : GVar ℝ} (h : Geo.fitVariational a b q = .ok v)
    (hk : 2 ≤ q.length) : ∫ p, p * (1 - p) ^ 1 ∂betaMeasure v.a v.b < Geo.meanWj v 1 := by
  obtain ⟨h1, h2, h3⟩ := Geo.fit_pos ha hb hq h
  unfold Geo.meanWj
  rw [h3, if_neg (by omega), geometric_moment h1 h2]
  generalize v.a = a at *
  generalize v.b = b at *
  have g1 := Real.Gamma_pos_of_pos h1
  have g2 := Real.Gamma_pos_of_pos h2
  have g3 := Real.Gamma_pos_of_pos (add_pos h1 h2)
  have h4 := add_pos h1 h2
  have e : beta (a + 1) (b + (1 : ℕ)) / beta a b = a * b / ((a + b) * (a + b + 1)) := by
    rw [Nat.cast_one, beta, beta, Real.Gamma_add_one h1.ne', Real.Gamma_add_one h2.ne', show a + 1 + (b + 1) = (a + b + 1) + 1 by ring,
      Real.Gamma_add_one (by positivity), Real.Gamma_add_one h4.ne']
    field_simp
  have e' : a / (a + b) * (1 - a / (a + b)) ^ 1 = a * b / ((a + b) * (a + b)) := by
    field_simp
    ring
  rw [e, e']
  refine div_lt_div_of_pos_left (mul_pos h1 h2) (mul_pos h4 h4) ?_
  exact mul_lt_mul_of_pos_left (by linarith) h4

section random
variable (G : RandGen) (log : ℝ → ℝ) (ω : Oracle ℝ) (pos : ℕ) (ops : List (WOp ℝ))

theorem betaSticks_eq_fitted {ps : List (ℝ × ℝ)} {N : ℕ} (hN : ps.length = N) {f : ℕ → ℝ × ℝ} (hf : ∀ j (hj : j < ps.length), ps[j] = f j) (j : ℕ) (h1 : j < N)
    (h2 : j < ps.length) : ∫ w, w ⟨j, h1⟩ ∂(betaSticks (fun j : Fin N => f j)).map breakStick = ∫ w, w ⟨j, h2⟩ ∂fittedLaw ps := by
  subst hN
  have : betaSticks (fun j : Fin ps.length => f j) = Measure.pi (fittedSticks ps) := by
    unfold betaSticks fittedSticks
    congr 1
    funext i
    rw [Fin.getElem_fin, hf i i.2]
  rw [this]
  rfl

/-- `DirichletProcess`: the expected weights of the vector that `random` draws after any history are the variational mean weights of the matrix of the labels held,
for all components but the last. -/
theorem C87_dirichletProcess_random {alpha : ℝ} (ha : 0 < alpha) {s : DP ℝ × ℕ} (hs : DP.cls.run log ω (DP.init alpha, pos) ops = s) {k : ℕ}
    (hd : LabelsBelow s.1.d k) {j : ℕ} (hj : j + 1 < k) :
    DP.meanWj (DP.fitVariational alpha (indicator s.1.d k)) j = .ok (∫ w, w ⟨j, by omega⟩ ∂G.lawOf (DP.random (.int k)) s k) := by
  have hal : s.1.alpha = alpha := by rw [← hs]; exact DP.reach_alpha _ _ _ _
  have hlen : (DP.fitVariational alpha (indicator s.1.d k)).params.length = k := by rw [DP.fit_length, indicator_length]
  have hpos := DP.fit_pos ha (indicator_nonneg (K := ℝ) s.1.d k)
  have hfi := DP.fit_indicator hd alpha
  have hf : ∀ i (hi : i < (DP.fitVariational alpha (indicator s.1.d k)).params.length), (DP.fitVariational alpha (indicator s.1.d k)).params[i] =
      (fun j : ℕ => (1 + (nEq s.1.d j : ℝ), alpha + (nGt s.1.d j : ℝ))) i := by
    intro i hi
    simp [hfi]
  rw [C87_dirichletProcess ha (indicator_nonneg s.1.d k) ⟨j, by omega⟩, DP.law G ha hal (fun x hx => (hd x hx).1) (.inl ⟨rfl, by omega⟩),
    betaSticks_eq_fitted hlen hf j (by omega) (by omega), fittedLaw_mean hpos, truncatedLaw_mean hpos, if_neg (by simp only; omega)]

/-- `PitmanYorProcess` without discount (otherwise the parameters of the two differ, `C37_pitmanYor_refuted`): every component. -/
theorem C87_pitmanYor_random_partial {alpha : ℝ} (ha : 0 < alpha) {s0 : PY ℝ} (hi : PY.init 0 alpha = .ok s0) {s : PY ℝ × ℕ}
    (hs : PY.cls.run log ω (s0, pos) ops = s) {k : ℕ} (hd : LabelsBelow s.1.d k) {j : ℕ} (hj : j < k) :
    PY.meanWj (PY.fitVariational 0 alpha (indicator s.1.d k)) j = .ok (∫ w, w ⟨j, hj⟩ ∂G.lawOf (PY.random (.int k)) s k) := by
  have e1 := PY.reach_hyper (ω := ω) log pos ops hi
  rw [hs] at e1
  have hlen : (PY.fitVariational 0 alpha (indicator s.1.d k)).params.length = k := by rw [PY.fit_length, indicator_length]
  have hfi := PY.fit_indicator hd 0 alpha
  have hf : ∀ i (hi : i < (PY.fitVariational 0 alpha (indicator s.1.d k)).params.length), (PY.fitVariational 0 alpha (indicator s.1.d k)).params[i] =
      (fun j : ℕ => (1 - 0 + (nEq s.1.d j : ℝ), alpha + (j : ℕ) * 0 + (nGt s.1.d j : ℝ))) i := by
    intro i hi
    simp [hfi, pitmanYorLaw]
  rw [C87_pitmanYor ⟨le_rfl, one_pos⟩ (by linarith) (indicator_nonneg s.1.d k) ⟨j, by omega⟩,
    PY.law G le_rfl one_pos ha e1.1 e1.2 (fun x hx => (hd x hx).1) (.inl ⟨rfl, by omega⟩), betaSticks_eq_fitted hlen hf j hj (by omega)]

/-- The last component: the draw leaves mass over, and its expectation is smaller. -/
theorem C87_dirichletProcess_random_last {alpha : ℝ} (ha : 0 < alpha) {s : DP ℝ × ℕ} (hs : DP.cls.run log ω (DP.init alpha, pos) ops = s) {k : ℕ}
    (hd : LabelsBelow s.1.d (k + 1)) : ∃ x, DP.meanWj (DP.fitVariational alpha (indicator s.1.d (k + 1))) k = .ok x ∧
      ∫ w, w ⟨k, by omega⟩ ∂G.lawOf (DP.random (.int (k + 1 : ℕ))) s (k + 1) < x := by
  have hal : s.1.alpha = alpha := by rw [← hs]; exact DP.reach_alpha _ _ _ _
  have hlen : (DP.fitVariational alpha (indicator s.1.d (k + 1))).params.length = k + 1 := by rw [DP.fit_length, indicator_length]
  have hpos := DP.fit_pos ha (indicator_nonneg (K := ℝ) s.1.d (k + 1))
  have hfi := DP.fit_indicator hd alpha
  have hf : ∀ i (hi : i < (DP.fitVariational alpha (indicator s.1.d (k + 1))).params.length), (DP.fitVariational alpha (indicator s.1.d (k + 1))).params[i] =
      (fun j : ℕ => (1 + (nEq s.1.d j : ℝ), alpha + (nGt s.1.d j : ℝ))) i := by
    intro i hi
    simp [hfi]
  refine ⟨_, C87_dirichletProcess ha (indicator_nonneg s.1.d (k + 1)) ⟨k, by omega⟩, ?_⟩
  rw [DP.law G ha hal (fun x hx => (hd x hx).1) (.inl ⟨rfl, by omega⟩), betaSticks_eq_fitted hlen hf k (by omega) (by omega), fittedLaw_mean hpos,
    truncatedLaw_mean hpos, if_pos (by simp only; omega)]
  have h1 := PosParams.get hpos ⟨k, by omega⟩
  refine mul_lt_mul_of_pos_right ?_ ?_
  · rw [div_lt_one (by linarith [h1.1, h1.2])]
    linarith [h1.2]
  · refine List.prod_pos fun x hx => ?_
    obtain ⟨p, hp, rfl⟩ := List.mem_map.1 hx
    have := hpos p (List.mem_of_mem_take hp)
    exact div_pos this.2 (by linarith [this.1, this.2])

/-- With a discount: the first expected weight of the draw is larger than the variational mean weight, for all labels. -/
theorem C87_pitmanYor_random_refuted {pyd alpha : ℝ} (h0 : 0 < pyd) (h1 : pyd < 1) (ha : 0 < alpha) {s0 : PY ℝ} (hi : PY.init pyd alpha = .ok s0) {s : PY ℝ × ℕ}
    (hs : PY.cls.run log ω (s0, pos) ops = s) {k : ℕ} (hd : LabelsBelow s.1.d k) (hk : 0 < k) :
    ∃ x, PY.meanWj (PY.fitVariational pyd alpha (indicator s.1.d k)) 0 = .ok x ∧ x < ∫ w, w ⟨0, hk⟩ ∂G.lawOf (PY.random (.int k)) s k := by
  have e1 := PY.reach_hyper (ω := ω) log pos ops hi
  rw [hs] at e1
  have hlen : (PY.fitVariational pyd alpha (indicator s.1.d k)).params.length = k := by rw [PY.fit_length, indicator_length]
  have hfi := PY.fit_indicator hd pyd alpha
  have hf0 : (PY.fitVariational pyd alpha (indicator s.1.d k)).params[0] = pitmanYorLaw pyd alpha s.1.d 0 := by simp [hfi]
  refine ⟨_, C87_pitmanYor ⟨h0.le, h1⟩ (by linarith) (indicator_nonneg s.1.d k) ⟨0, by omega⟩, ?_⟩
  have hq : ∀ j : Fin k, 0 < 1 - pyd + (nEq s.1.d j : ℝ) ∧ 0 < alpha + (j : ℕ) * pyd + (nGt s.1.d j : ℝ) := fun j =>
    ⟨by have := sub_pos.2 h1; positivity, by positivity⟩
  rw [PY.law G h0.le h1 ha e1.1 e1.2 (fun x hx => (hd x hx).1) (.inl ⟨rfl, by omega⟩), fittedLaw_mean (PY.fit_pos ⟨h0.le, h1⟩ (by linarith) (indicator_nonneg s.1.d k))]
  have hpr : ∀ j : Fin k, IsProbabilityMeasure (betaMeasure (1 - pyd + (nEq s.1.d j : ℝ)) (alpha + (j : ℕ) * pyd + (nGt s.1.d j : ℝ))) := fun j =>
    isProbabilityMeasureBeta (hq j).1 (hq j).2
  rw [betaSticks, stick_mean (fun j : Fin k => betaMeasure (1 - pyd + (nEq s.1.d j : ℝ)) (alpha + (j : ℕ) * pyd + (nGt s.1.d j : ℝ))),
    betaMeasure_mean (hq ⟨0, hk⟩).1 (hq ⟨0, hk⟩).2]
  have he : Finset.univ.filter (· < (⟨0, hk⟩ : Fin k)) = ∅ := by ext i; simp [Fin.lt_def]
  rw [he]
  have hg : (PY.fitVariational pyd alpha (indicator s.1.d k)).params[(⟨0, by omega⟩ : Fin (PY.fitVariational pyd alpha (indicator s.1.d k)).params.length)] =
    pitmanYorLaw pyd alpha s.1.d 0 := hf0
  rw [hg]
  have hb := hq ⟨0, hk⟩
  simp only [pitmanYorLaw, List.take_zero, List.map_nil, List.prod_nil, mul_one, Finset.prod_empty, Nat.cast_zero, zero_mul, add_zero] at hb ⊢
  refine div_lt_div_of_pos_left hb.1 (by linarith) ?_
  linarith

/-- `DirichletDistribution`: every component. -/
theorem C87_dirichletDistribution_random (n : ℤ) {alpha : List ℝ} (ha : ∀ x ∈ alpha, 0 < x) {s : DirDist ℝ × ℕ}
    (hs : DirDist.cls.run log ω (DirDist.initList n alpha, pos) ops = s) (size : PySize) (hd : LabelsBelow s.1.d alpha.length) (j : Fin alpha.length) :
    ∃ v, DirDist.fitVariational alpha.length alpha (indicator s.1.d alpha.length) = .ok v ∧
      DirDist.meanWj v j = .ok (∫ w, w j ∂G.lawOf (DirDist.random size) s alpha.length) := by
  obtain ⟨v, hv⟩ := (C35_accepts alpha (indicator s.1.d alpha.length)).2 (indicator_length _ _)
  have e1 := DirDist.reach_alpha (ω := ω) log pos ops n alpha
  rw [hs] at e1
  have hne : alpha ≠ [] := by rintro rfl; exact j.elim0
  refine ⟨v, hv, ?_⟩
  have hpar : v.params = dirichletPosterior alpha s.1.d := by
    obtain ⟨_, rfl⟩ := DirDist.fit_eq hv
    exact dirichlet_fit_indicator
  have hlen : v.params.length = alpha.length := by rw [hpar, dirichletPosterior_length]
  have := (C87_dirichletDistribution ha (indicator_nonneg _ _) hv ⟨j, by rw [hlen]; exact j.2⟩).2
  rw [this, DirDist.law G hne ha e1 size hd rfl, ← hpar]
  congr 1
  have key : ∀ (l : List ℝ) (N : ℕ) (_ : l.length = N) (i : ℕ) (h1 : i < l.length) (h2 : i < N), ∫ w, w ⟨i, h1⟩ ∂dirichletLaw l =
      ∫ w, w ⟨i, h2⟩ ∂(Measure.pi (fun j : Fin N => dirichletStick l j)).map breakStick := by
    rintro l _ rfl i h1 h2
    rfl
  exact key v.params _ hlen j _ j.2
end random

/-! ### The hypotheses are met -/

example : ∃ x : ℝ, DP.meanWj (DP.fitVariational (2 : ℝ) [[1/2, 1/3], [1/4, 1/3], [1/4, 1/3]]) 1 = .ok x :=
  have h := DP.fit_length (2 : ℝ) [[1/2, 1/3], [1/4, 1/3], [1/4, 1/3]]
  ⟨_, C87_dirichletProcess (by norm_num) (by
    intro r hr x hx
    simp only [List.mem_cons, List.not_mem_nil, or_false] at hr
    rcases hr with rfl | rfl | rfl <;> simp only [List.mem_cons, List.not_mem_nil, or_false] at hx <;> rcases hx with rfl | rfl <;> norm_num) ⟨1, by rw [h]; simp⟩⟩

/-- A fresh object that has fitted the labels `[0, 1, 0]`. -/
example (G : RandGen) (ω : Oracle ℝ) : ∃ s : DP ℝ × ℕ, DP.cls.run Real.log ω (DP.init 2, 0) [.fit [0, 1, 0]] = s ∧ LabelsBelow s.1.d 3 ∧
    DP.meanWj (DP.fitVariational 2 (indicator s.1.d 3)) 0 = .ok (∫ w, w ⟨0, by omega⟩ ∂G.lawOf (DP.random (.int 3)) s 3) :=
  have hd : LabelsBelow (DP.cls.run Real.log ω (DP.init 2, 0) [.fit [0, 1, 0]]).1.d 3 := by
    change LabelsBelow [0, 1, 0] 3
    unfold LabelsBelow
    decide
  ⟨_, rfl, hd, C87_dirichletProcess_random G Real.log ω 0 _ (by norm_num) rfl hd (by omega)⟩
end Verif
