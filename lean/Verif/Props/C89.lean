import Verif.Lemmas.BetaCross
import Verif.Props.C88

/-!
# C89: `variational_mean_log_q_w` and `variational_mean_log_p_w` are the expected log-densities of the fitted and the prior distribution

The log-densities are those of the sticks (`DirichletProcess`, whose last stick is fixed, so that `k - 1` sticks are random; `PitmanYorProcess`), of the single
parameter (`GeometricProcess`) and of the weights (`DirichletDistribution`).

* `variational_mean_log_q_w` is right for the stick-breaking classes and `GeometricProcess`, and wrong for `DirichletDistribution`.
* `variational_mean_log_p_w` is right for `GeometricProcess`.  `DirichletProcess` adds `log alpha` once too often, `PitmanYorProcess` subtracts
  `log(alpha + (j+1) d)` for every component, `DirichletDistribution` is wrong for the uniform prior and every fit.
* `variational_mean_log_p_w - variational_mean_log_q_w` is minus a Kullback-Leibler divergence, hence at most zero, for `GeometricProcess`; for `DirichletProcess`
  the bound is `log alpha`, which is attained.
-/

set_option linter.unusedSectionVars false

namespace Verif
open MeasureTheory ProbabilityTheory Spec
open scoped ENNReal

/-- The parameters in a list, as a vector. -/
def asVec {α : Type} (l : List α) : Fin l.length → α := fun j => l[j]

theorem sum_asVec {α : Type} (l : List α) (f : α → ℝ) : ∑ j, f (asVec l j) = (l.map f).sum := by
  have : (l.map f).sum = ∑ j : Fin l.length, f l[j] := by
    rw [← List.sum_ofFn]
    congr 1
    exact (List.ofFn_getElem_eq_map l f).symm
  rw [this]
  rfl

theorem qTerm_cross : DP.qTerm realVarFun = fun p => betaCross p p := by
  funext p
  unfold DP.qTerm betaCross meanLogBeta realVarFun
  simp only
  rw [add_comm p.2 p.1]

theorem PosParams.dropLast {ps : List (ℝ × ℝ)} (h : PosParams ps) : PosParams ps.dropLast := fun p hp => h p (List.mem_of_mem_dropLast hp)

theorem PosParams.vec {ps : List (ℝ × ℝ)} (h : PosParams ps) (j : Fin ps.length) : 0 < (asVec ps j).1 ∧ 0 < (asVec ps j).2 := h _ (List.getElem_mem _)

/-- `DirichletProcess`: minus the entropy of the fitted sticks. -/
theorem C89_q_dirichletProcess {alpha : ℝ} (ha : 0 < alpha) {q : List (List ℝ)} (hq : NonNegMatrix q) :
    DP.meanLogQw realVarFun (some (DP.fitVariational alpha q)) =
      .ok (∫ v, Real.log (stickDensity (asVec (DP.fitVariational alpha q).params.dropLast) v) ∂betaSticks (asVec (DP.fitVariational alpha q).params.dropLast)) := by
  have hp := PosParams.dropLast (DP.fit_pos ha hq)
  rw [(stick_cross hp.vec hp.vec).2, sum_asVec _ (fun p => betaCross p p)]
  unfold DP.meanLogQw
  simp only [qTerm_cross]

/-- `PitmanYorProcess`. -/
theorem C89_q_pitmanYor {pyd alpha : ℝ} (hp : 0 ≤ pyd ∧ pyd < 1) (ha : -pyd < alpha) {q : List (List ℝ)} (hq : NonNegMatrix q) :
    PY.meanLogQw realVarFun (some (PY.fitVariational pyd alpha q)) =
      .ok (∫ v, Real.log (stickDensity (asVec (PY.fitVariational pyd alpha q).params) v) ∂betaSticks (asVec (PY.fitVariational pyd alpha q).params)) := by
  have hp : PosParams _ := PY.fit_pos hp ha hq
  rw [(stick_cross hp.vec hp.vec).2, sum_asVec _ (fun p => betaCross p p)]
  unfold PY.meanLogQw
  simp only [qTerm_cross]

/-- `GeometricProcess`: both. -/
theorem C89_geometric {a b : ℝ} (ha : 0 < a) (hb : 0 < b) {q : List (List ℝ)} (hq : NonNegMatrix q) {v : GVar ℝ} (h : Geo.fitVariational a b q = .ok v) :
    Geo.meanLogQw realVarFun (some v) = .ok (∫ x, Real.log (betaPDFReal v.a v.b x) ∂betaMeasure v.a v.b) ∧
    Geo.meanLogPw realVarFun a b (some v) = .ok (∫ x, Real.log (betaPDFReal a b x) ∂betaMeasure v.a v.b) := by
  obtain ⟨h1, h2, _⟩ := Geo.fit_pos ha hb hq h
  rw [(beta_cross (p := (v.a, v.b)) (r := (v.a, v.b)) ⟨h1, h2⟩ ⟨h1, h2⟩).2, (beta_cross (p := (v.a, v.b)) (r := (a, b)) ⟨h1, h2⟩ ⟨ha, hb⟩).2]
  unfold Geo.meanLogQw Geo.meanLogPw betaCross meanLogBeta realVarFun
  simp only [add_comm v.b v.a]
  constructor <;> congr 1 <;> ring

/-- The difference is at most zero. -/
theorem C89_geometric_divergence {a b : ℝ} (ha : 0 < a) (hb : 0 < b) {q : List (List ℝ)} (hq : NonNegMatrix q) {v : GVar ℝ} (h : Geo.fitVariational a b q = .ok v) :
    ∃ x y, Geo.meanLogPw realVarFun a b (some v) = .ok x ∧ Geo.meanLogQw realVarFun (some v) = .ok y ∧ x ≤ y := by
  obtain ⟨h1, h2, _⟩ := Geo.fit_pos ha hb hq h
  obtain ⟨e1, e2⟩ := C89_geometric ha hb hq h
  refine ⟨_, _, e2, e1, ?_⟩
  rw [(beta_cross (p := (v.a, v.b)) (r := (v.a, v.b)) ⟨h1, h2⟩ ⟨h1, h2⟩).2, (beta_cross (p := (v.a, v.b)) (r := (a, b)) ⟨h1, h2⟩ ⟨ha, hb⟩).2]
  exact betaCross_le ⟨h1, h2⟩ ⟨ha, hb⟩

theorem cross_one {alpha : ℝ} (ha : 0 < alpha) (p : ℝ × ℝ) : betaCross p (1, alpha) = (alpha - 1) * meanLogBeta realVarFun p.2 p.1 + Real.log alpha := by
  unfold betaCross meanLogBeta realVarFun
  simp only
  rw [Real.Gamma_one, add_comm 1 alpha, Real.Gamma_add_one ha.ne', Real.log_mul ha.ne' (Real.Gamma_pos_of_pos ha).ne', Real.log_one, add_comm p.2 p.1]
  ring

/-- `DirichletProcess`: the value is the expected log-density of the prior `Beta(1, alpha)` of the `k - 1` random sticks, plus one extra `log alpha`. -/
theorem C89_p_dirichletProcess {alpha : ℝ} (ha : 0 < alpha) {q : List (List ℝ)} (hq : NonNegMatrix q) (hne : q ≠ []) :
    DP.meanLogPw realVarFun alpha (some (DP.fitVariational alpha q)) =
      .ok ((∫ v, Real.log (stickDensity (fun _ => (1, alpha)) v) ∂betaSticks (asVec (DP.fitVariational alpha q).params.dropLast)) + Real.log alpha) := by
  have hp := PosParams.dropLast (DP.fit_pos ha hq)
  have hl := DP.fit_length alpha q
  have hpos := List.length_pos_of_ne_nil hne
  have hk : (DP.fitVariational alpha q).k = q.length := rfl
  have hl' : (DP.fitVariational alpha q).params.dropLast.length = q.length - 1 := by rw [List.length_dropLast, hl]
  rw [(stick_cross hp.vec (fun _ => ⟨one_pos, ha⟩)).2]
  simp_rw [cross_one ha]
  rw [Finset.sum_add_distrib, ← Finset.mul_sum, sum_asVec _ (fun p : ℝ × ℝ => meanLogBeta realVarFun p.2 p.1)]
  unfold DP.meanLogPw
  simp only [Finset.sum_const, Finset.card_univ, Fintype.card_fin, nsmul_eq_mul]
  rw [hl', hk, Nat.cast_sub (by omega), Nat.cast_one]
  congr 1
  simp only [realVarFun]
  ring

/-- It is the expected log-density exactly if `alpha = 1`. -/
theorem C89_p_dirichletProcess_refuted {alpha : ℝ} (ha : 0 < alpha) {q : List (List ℝ)} (hq : NonNegMatrix q) (hne : q ≠ []) :
    DP.meanLogPw realVarFun alpha (some (DP.fitVariational alpha q)) =
      .ok (∫ v, Real.log (stickDensity (fun _ => (1, alpha)) v) ∂betaSticks (asVec (DP.fitVariational alpha q).params.dropLast)) ↔ alpha = 1 := by
  rw [C89_p_dirichletProcess ha hq hne]
  constructor
  · intro h
    have h0 : Real.log alpha = 0 := by
      injection h with h
      linarith
    rcases Real.log_eq_zero.1 h0 with h | h | h
    · exact absurd h ha.ne'
    · exact h
    · linarith
  · rintro rfl
    simp

/-- `DirichletProcess`: the bound on the difference. -/
theorem C89_dirichletProcess_divergence {alpha : ℝ} (ha : 0 < alpha) {q : List (List ℝ)} (hq : NonNegMatrix q) (hne : q ≠ []) :
    ∃ x y, DP.meanLogPw realVarFun alpha (some (DP.fitVariational alpha q)) = .ok x ∧ DP.meanLogQw realVarFun (some (DP.fitVariational alpha q)) = .ok y ∧
      x ≤ y + Real.log alpha := by
  have hp := PosParams.dropLast (DP.fit_pos ha hq)
  refine ⟨_, _, C89_p_dirichletProcess ha hq hne, C89_q_dirichletProcess ha hq, ?_⟩
  rw [(stick_cross hp.vec (fun _ => ⟨one_pos, ha⟩)).2, (stick_cross hp.vec hp.vec).2]
  have : ∑ j, betaCross (asVec (DP.fitVariational alpha q).params.dropLast j) (1, alpha) ≤
      ∑ j, betaCross (asVec (DP.fitVariational alpha q).params.dropLast j) (asVec (DP.fitVariational alpha q).params.dropLast j) :=
    Finset.sum_le_sum fun j _ => betaCross_le (hp.vec j) ⟨one_pos, ha⟩
  linarith

/-- For a matrix of zeros the fitted distribution is the prior and the bound is attained: for `alpha > 1` the difference is positive. -/
theorem C89_dirichletProcess_divergence_refuted {alpha : ℝ} (ha : 1 < alpha) {k n : ℕ} (hk : 1 ≤ k) :
    ∃ x y, DP.meanLogPw realVarFun alpha (some (DP.fitVariational alpha (List.replicate k (List.replicate n 0)))) = .ok x ∧
      DP.meanLogQw realVarFun (some (DP.fitVariational alpha (List.replicate k (List.replicate n 0)))) = .ok y ∧ y < x := by
  have ha' : 0 < alpha := by linarith
  have hq : NonNegMatrix (List.replicate k (List.replicate n (0 : ℝ))) := by
    intro r hr x hx
    rw [List.eq_of_mem_replicate hr] at hx
    rw [List.eq_of_mem_replicate hx]
  have hne : List.replicate k (List.replicate n (0 : ℝ)) ≠ [] := by
    intro h
    have := congrArg List.length h
    simp at this
    omega
  refine ⟨_, _, C89_p_dirichletProcess ha' hq hne, C89_q_dirichletProcess ha' hq, ?_⟩
  have hz : rowSums (List.replicate k (List.replicate n (0 : ℝ))) = List.replicate k 0 := by simp [rowSums]
  have hall : ∀ p ∈ (DP.fitVariational alpha (List.replicate k (List.replicate n 0))).params, p = (1, alpha) := by
    intro p hp
    obtain ⟨j, hj, rfl⟩ := List.mem_iff_getElem.1 hp
    rw [DP.fit_length] at hj
    have := DP.fit_get alpha (List.replicate k (List.replicate n (0 : ℝ))) j hj
    rw [List.getElem?_eq_getElem (by rw [DP.fit_length]; exact hj)] at this
    rw [Option.some.inj this]
    simp [hz]
  have hf : asVec (DP.fitVariational alpha (List.replicate k (List.replicate n 0))).params.dropLast = fun _ => (1, alpha) := by
    funext j
    exact hall _ (List.mem_of_mem_dropLast (List.getElem_mem _))
  rw [hf]
  linarith [Real.log_pos ha]

/-- `PitmanYorProcess`: the value is the expected log-density of the prior sticks `Beta(1 - d, alpha + (j+1) d)` minus `log(alpha + (j+1) d)` for every component. -/
theorem C89_p_pitmanYor {pyd alpha : ℝ} (hp : 0 ≤ pyd ∧ pyd < 1) (ha : -pyd < alpha) {q : List (List ℝ)} (hq : NonNegMatrix q) :
    PY.meanLogPw realVarFun pyd alpha (some (PY.fitVariational pyd alpha q)) =
      .ok ((∫ v, Real.log (stickDensity (fun j => (1 - pyd, alpha + (((j : ℕ) : ℝ) + 1) * pyd)) v) ∂betaSticks (asVec (PY.fitVariational pyd alpha q).params))
        - ∑ j : Fin (PY.fitVariational pyd alpha q).params.length, Real.log (alpha + (((j : ℕ) : ℝ) + 1) * pyd)) := by
  have hps : PosParams _ := PY.fit_pos hp ha hq
  have hpr : ∀ j : ℕ, 0 < alpha + ((j : ℝ) + 1) * pyd := fun j => by
    have : (0 : ℝ) ≤ j * pyd := mul_nonneg (Nat.cast_nonneg j) hp.1
    nlinarith
  rw [(stick_cross hps.vec (fun j => ⟨sub_pos.2 hp.2, hpr j⟩)).2, ← Finset.sum_sub_distrib]
  unfold PY.meanLogPw
  simp only
  congr 1
  have : ∀ (l : List (ℝ × ℝ)), (l.mapIdx (fun j p => PY.pTerm realVarFun pyd alpha j p)).sum = ∑ j : Fin l.length, PY.pTerm realVarFun pyd alpha j l[j] := by
    intro l
    rw [← List.sum_ofFn]
    congr 1
    refine List.ext_getElem (by simp) fun i h1 h2 => ?_
    simp
  rw [this]
  refine Finset.sum_congr rfl fun j _ => ?_
  unfold PY.pTerm betaCross meanLogBeta realVarFun asVec
  simp only
  rw [Real.Gamma_add_one (hpr j).ne', Real.log_mul (hpr j).ne' (Real.Gamma_pos_of_pos (hpr j)).ne',
    add_comm (PY.fitVariational pyd alpha q).params[j].2, show 1 - pyd + (alpha + (((j : ℕ) : ℝ) + 1) * pyd) = alpha + ((j : ℕ) : ℝ) * pyd + 1 by ring]
  ring

/-- With `alpha ≥ 1` and a discount the value is too small, for every fit. -/
theorem C89_p_pitmanYor_refuted {pyd alpha : ℝ} (hp : 0 < pyd ∧ pyd < 1) (ha : 1 ≤ alpha) {q : List (List ℝ)} (hq : NonNegMatrix q) (hne : q ≠ []) :
    ∃ x, PY.meanLogPw realVarFun pyd alpha (some (PY.fitVariational pyd alpha q)) = .ok x ∧
      x < ∫ v, Real.log (stickDensity (fun j => (1 - pyd, alpha + (((j : ℕ) : ℝ) + 1) * pyd)) v) ∂betaSticks (asVec (PY.fitVariational pyd alpha q).params) := by
  refine ⟨_, C89_p_pitmanYor ⟨hp.1.le, hp.2⟩ (by linarith) hq, ?_⟩
  have hl := PY.fit_length pyd alpha q
  have hpos := List.length_pos_of_ne_nil hne
  have : 0 < ∑ j : Fin (PY.fitVariational pyd alpha q).params.length, Real.log (alpha + (((j : ℕ) : ℝ) + 1) * pyd) := by
    refine Finset.sum_pos (fun j _ => Real.log_pos ?_) ⟨⟨0, by omega⟩, Finset.mem_univ _⟩
    have : 0 < (((j : ℕ) : ℝ) + 1) * pyd := mul_pos (by positivity) hp.1
    linarith
  linarith

section dirichlet
variable {alpha : List ℝ} (ha : ∀ x ∈ alpha, 0 < x) {q : List (List ℝ)} (hq : NonNegMatrix q) {v : DVar ℝ}
    (h : DirDist.fitVariational alpha.length alpha q = .ok v)
include ha hq h

theorem DirDist.fit_facts : v.params.length = alpha.length ∧ v.k = alpha.length ∧ ∀ x ∈ v.params, 0 < x := by
  obtain ⟨hl, rfl⟩ := DirDist.fit_eq h
  exact ⟨by simp [rowSums_length, hl], rfl, DirDist.fit_pos ha hq⟩

/-- `DirichletDistribution`: by how much `variational_mean_log_q_w` misses the expected log-density of the fitted distribution. -/
theorem C89_q_dirichletDistribution (hne : alpha ≠ []) : DirDist.meanLogQw realVarFun (some v) =
    .ok ((∫ w, Real.log (dirichletDensity (asVec v.params) w) ∂dirichletLaw v.params)
      - (v.params.map (fun a => (a - 1) * (psi (a + v.params.sum) - psi v.params.sum))).sum) := by
  obtain ⟨h1, h2, h3⟩ := DirDist.fit_facts ha hq h
  have hs : ∑ j, asVec v.params j = v.params.sum := by
    have := sum_asVec v.params id
    simpa using this
  have hpos : 0 < v.params.sum := list_sum_pos h3 (by intro he; rw [he] at h1; exact hne (List.length_eq_zero_iff.1 h1.symm))
  rw [(dirichlet_cross h3 (f := asVec v.params) (fun j => h3 _ (List.getElem_mem _)) (by rw [hs]; exact hpos)).2, hs]
  unfold DirDist.meanLogQw DirDist.logNorm
  simp only
  rw [if_neg (by omega), List.take_of_length_le (by omega)]
  congr 1
  rw [sum_asVec v.params (fun a => Real.log (Real.Gamma a))]
  have e1 : ∑ j : Fin v.params.length, (asVec v.params j - 1) * (psi v.params[j] - psi v.params.sum) =
      (v.params.map (fun a => (a - 1) * (psi a - psi v.params.sum))).sum := sum_asVec v.params (fun a => (a - 1) * (psi a - psi v.params.sum))
  have e2 : (v.params.map (fun a => (a - 1) * meanLogBeta realVarFun a v.params.sum)).sum =
      (v.params.map (fun a => (a - 1) * (psi a - psi v.params.sum))).sum - (v.params.map (fun a => (a - 1) * (psi (a + v.params.sum) - psi v.params.sum))).sum := by
    generalize v.params.sum = S
    induction v.params with
    | nil => simp
    | cons a l ih =>
      rw [List.map_cons, List.sum_cons, ih]
      simp only [List.map_cons, List.sum_cons, meanLogBeta, realVarFun]
      ring
  rw [e1, e2]
  simp only [realVarFun]
  ring

/-- With `alpha ≥ 1` everywhere and a positive row, it is too small. -/
theorem C89_q_dirichletDistribution_refuted (ha1 : ∀ x ∈ alpha, 1 ≤ x) (hrow : ∃ r ∈ rowSums q, 0 < r) :
    ∃ x, DirDist.meanLogQw realVarFun (some v) = .ok x ∧ x < ∫ w, Real.log (dirichletDensity (asVec v.params) w) ∂dirichletLaw v.params := by
  obtain ⟨r, hr, hr0⟩ := hrow
  obtain ⟨i, hi, rfl⟩ := List.mem_iff_getElem.1 hr
  have hq0 : q.length = alpha.length := (DirDist.fit_eq h).1
  have hi' : i < alpha.length := by rw [rowSums_length] at hi; omega
  have hne : alpha ≠ [] := by rintro rfl; simp at hi'
  obtain ⟨h1, h2, h3⟩ := DirDist.fit_facts ha hq h
  have hpar : v.params = List.zipWith (· + ·) alpha (rowSums q) := by obtain ⟨_, rfl⟩ := DirDist.fit_eq h; rfl
  have hpos : 0 < v.params.sum := list_sum_pos h3 (by intro he; rw [he] at h1; exact hne (List.length_eq_zero_iff.1 h1.symm))
  refine ⟨_, C89_q_dirichletDistribution ha hq h hne, ?_⟩
  have hge : ∀ a ∈ v.params, 1 ≤ a := by
    intro a hav
    rw [hpar] at hav
    obtain ⟨j, hj, rfl⟩ := List.mem_iff_getElem.1 hav
    simp only [List.getElem_zipWith]
    have h1 := ha1 _ (List.getElem_mem (l := alpha) (n := j) (by simp at hj; omega))
    have h2 := rowSums_nonneg hq _ (List.getElem_mem (l := rowSums q) (n := j) (by simp at hj; omega))
    linarith
  have hmono : ∀ a ∈ v.params, 0 < psi (a + v.params.sum) - psi v.params.sum := fun a hav => by
    have := psi_strictMono hpos (show v.params.sum < a + v.params.sum by linarith [h3 a hav])
    linarith
  have hi2 : i < v.params.length := by omega
  have : 0 < (v.params.map (fun a => (a - 1) * (psi (a + v.params.sum) - psi v.params.sum))).sum := by
    refine lt_of_lt_of_le ?_ (List.single_le_sum (l := v.params.map (fun a => (a - 1) * (psi (a + v.params.sum) - psi v.params.sum))) ?_ _
      (List.mem_map.2 ⟨v.params[i], List.getElem_mem hi2, rfl⟩))
    · refine mul_pos ?_ (hmono _ (List.getElem_mem hi2))
      have e : v.params[i] = alpha[i] + (rowSums q)[i] := by simp [hpar]
      rw [e]
      linarith [ha1 _ (List.getElem_mem hi')]
    · intro x hx
      obtain ⟨a, hav, rfl⟩ := List.mem_map.1 hx
      exact mul_nonneg (by linarith [hge a hav]) (hmono a hav).le
  linarith
end dirichlet

/-- `DirichletDistribution` with the uniform prior: `variational_mean_log_p_w` is too small for every fit with at least two components. -/
theorem C89_p_dirichletDistribution_refuted {n : ℕ} (hn : 2 ≤ n) {q : List (List ℝ)} (hq : NonNegMatrix q) {v : DVar ℝ}
    (h : DirDist.fitVariational n (List.replicate n 1) q = .ok v) :
    ∃ x, DirDist.meanLogPw realVarFun (List.replicate n 1) (some v) = .ok x ∧ x < ∫ w, Real.log (dirichletDensity (fun _ => 1) w) ∂dirichletLaw v.params := by
  have hr : (List.replicate n (1 : ℝ)).length = n := by simp
  have h' : DirDist.fitVariational (List.replicate n (1 : ℝ)).length (List.replicate n 1) q = .ok v := by rw [hr]; exact h
  obtain ⟨h1, h2, h3⟩ := DirDist.fit_facts (fun x hx => by rw [List.eq_of_mem_replicate hx]; exact one_pos) hq h'
  rw [hr] at h1 h2
  have hsum : ∑ _j : Fin v.params.length, (1 : ℝ) = n := by simp [h1]
  have hn0 : (0 : ℝ) < n := by exact_mod_cast (by omega : 0 < n)
  rw [(dirichlet_cross h3 (fun _ => one_pos) (by rw [hsum]; exact hn0)).2, hsum]
  unfold DirDist.meanLogPw
  simp only
  rw [if_neg (by omega)]
  refine ⟨_, rfl, ?_⟩
  have hpos : 0 < v.params.sum := list_sum_pos h3 (by intro he; rw [he] at h1; simp at h1; omega)
  rw [List.take_of_length_le (by omega)]
  have hneg : (v.params.map (fun a => meanLogBeta realVarFun a v.params.sum)).sum < 0 := by
    have : ∀ (l : List ℝ), l ≠ [] → (∀ x ∈ l, x < 0) → l.sum < 0 := by
      intro l hl hx
      have := list_sum_pos (l := l.map (fun x => -x)) (fun y hy => by obtain ⟨x, hx', rfl⟩ := List.mem_map.1 hy; linarith [hx x hx']) (by simpa using hl)
      have e : ∀ l : List ℝ, (l.map (fun x => -x)).sum = -l.sum := fun l => by induction l with
        | nil => simp
        | cons x l ih => simp [ih]; ring
      rw [e] at this
      linarith
    refine this _ (by intro he; have := congrArg List.length he; simp [h1] at this; omega) fun x hx => ?_
    obtain ⟨a, hav, rfl⟩ := List.mem_map.1 hx
    have := psi_strictMono (h3 a hav) (show a < a + v.params.sum by linarith)
    change psi a - psi (a + v.params.sum) < 0
    linarith
  have hk : (1 : ℝ) < n := by exact_mod_cast (by omega : 1 < n)
  have hm : (v.params.map (fun a => meanLogBeta realVarFun a v.params.sum)).sum * ((n : ℝ) - 1) < 0 := mul_neg_of_neg_of_pos hneg (by linarith)
  unfold DirDist.logNorm
  simp only [realVarFun, List.sum_replicate, List.map_replicate, Real.Gamma_one, Real.log_one, smul_zero, Finset.sum_const_zero, sub_self, zero_mul, nsmul_eq_mul,
    mul_one] at hm ⊢
  simp only [sub_zero, add_zero]
  linarith

/-! ### The hypotheses are met -/

example : NonNegMatrix [[(1/2 : ℝ), 1], [1/2, 0]] ∧ ∃ r ∈ rowSums [[(1/2 : ℝ), 1], [1/2, 0]], 0 < r := by
  refine ⟨?_, 3/2, by simp [rowSums]; norm_num, by norm_num⟩
  intro r hr x hx
  simp only [List.mem_cons, List.not_mem_nil, or_false] at hr
  rcases hr with rfl | rfl <;> simp only [List.mem_cons, List.not_mem_nil, or_false] at hx <;> rcases hx with rfl | rfl <;> norm_num

example : ∃ v, DirDist.fitVariational (2 : ℕ) (List.replicate 2 (1 : ℝ)) [[1/2, 1], [1/2, 0]] = .ok v := by
  unfold DirDist.fitVariational DirDist.broadcastAdd
  norm_num [rowSums]

example : ∃ v, Geo.fitVariational (1 : ℝ) 1 [[1/2, 1], [1/2, 0]] = .ok v := ⟨_, rfl⟩
end Verif
