import Verif.Props.C33
import Verif.Props.C72

/-!
# C74: nested models have the same `weighting_log_likelihood` at their boundary parameters

`PitmanYorProcess(pyd=0)` agrees with `DirichletProcess(alpha)` on all weights (`C74_pitmanYor`).  `BetaInBeta(x=0)` exceeds it by the log-density of the unused `p`
(`C74_betaInBeta_partial`), which is 0 for the default `a = b = 1`.  The other classes do not agree:

* `BetaBernoulli(p=1)`, whose sticks are all independent, counts the first stick only (`C74_betaBernoulli_one_refuted`);
* `BetaBernoulli(p=0)`, whose sticks are all equal, counts the common stick once per position (`C74_betaBernoulli_zero_refuted`);
* `BetaBinomial(n=0)` omits the first stick (`C74_betaBinomial_refuted`);
* `BetaInBeta(x=1)` raises and `BetaInDirichlet(a=0)` returns nan, where `GeometricProcess` returns the log-density (`C74_geometric_refuted`).

The statements give the exact difference for every number of sticks and every log-density; agreement is equivalent to a sum of log-densities being 0.
-/

set_option linter.unusedSectionVars false

namespace Verif
open Spec Mix
variable {K L : Type} [Field K] [LinearOrder K]

theorem pyLoop_zero [AddCommMonoid L] (D : Dens K L) (alpha : K) : ∀ (ws : List K) (j : ℕ) (ret : L) (c : K),
    PY.wllLoop D 0 alpha j ret c ws = DP.wllLoop D 1 alpha ret c ws
  | [], _, _, _ => rfl
  | w :: ws, j, ret, c => by rw [PY.wllLoop, DP.wllLoop, pyLoop_zero, sub_zero, mul_zero, add_zero]

theorem C74_pitmanYor [AddCommMonoid L] (D : Dens K L) (s : PY K) (t : DP K) (h0 : s.pyd = 0) (ha : s.alpha = t.alpha) (hw : s.w = t.w) :
    PY.weightingLogLikelihood D s = DP.weightingLogLikelihood D t := by
  unfold PY.weightingLogLikelihood DP.weightingLogLikelihood
  rw [hw, h0, ha]
  cases t.w with
  | nil => rfl
  | cons v ws => simp only [sub_zero, pyLoop_zero]

theorem C74_betaInBeta_partial [AddCommMonoid L] (D : Dens K L) (s : BIB K) (t : DP K) (h0 : s.x = 0) (ha : s.alpha = t.alpha) (hw : s.w = t.w) {y : L}
    (hy : DP.weightingLogLikelihood D t = .ok y) : BIB.weightingLogLikelihood D s = .ok (y + D.beta s.p s.a s.b) := by
  unfold DP.weightingLogLikelihood at hy
  unfold BIB.weightingLogLikelihood
  rw [hw, h0, ha]
  cases h : t.w with
  | nil => rw [h] at hy; cases hy
  | cons v ws =>
    rw [h] at hy
    injection hy with hy
    simp only [zero_ne_one, if_false, zero_div, zero_mul, add_zero, hy]

section
variable [AddCommGroup L]

theorem betaLoop_ones (D : Dens K L) (alpha : K) : ∀ (vs : List K) (ret : L), BBer.betaLoop D alpha ret vs (List.replicate vs.length 1) = .ok ret
  | [], _ => rfl
  | _ :: vs, ret => by
    rw [List.length_cons, List.replicate_succ, BBer.betaLoop, if_neg (by decide), betaLoop_ones]

theorem betaLoop_zeros (D : Dens K L) (alpha : K) : ∀ (vs : List K) (ret : L),
    BBer.betaLoop D alpha ret vs (List.replicate vs.length 0) = .ok (ret + (vs.map (fun x => D.beta x 1 alpha)).sum)
  | [], ret => by simp [BBer.betaLoop]
  | v :: vs, ret => by
    rw [List.length_cons, List.replicate_succ, BBer.betaLoop, if_pos rfl, betaLoop_zeros, List.map_cons, List.sum_cons, add_assoc]

/-- `BetaBernoulli(p=1)` against `DirichletProcess`: they agree iff the sticks after the first contribute nothing. -/
theorem C74_betaBernoulli_one_refuted (D : Dens K L) (hD : ∀ b, D.timesLog b 1 = 0) (s : BBer K) (t : DP K) (hp : s.p = 1) (ha : s.alpha = t.alpha)
    {v0 : K} {vs : List K} (hv : s.v = v0 :: vs) (hb : s.bernoullis = List.replicate s.v.length 1) (hs : IsStick s.v t.w) (h1 : EarlierNotOne s.v) :
    BBer.weightingLogLikelihood D s = .ok (D.beta v0 1 s.alpha) ∧
    (BBer.weightingLogLikelihood D s = DP.weightingLogLikelihood D t ↔ (vs.map (fun x => D.beta x 1 s.alpha)).sum = 0) := by
  have hE : BBer.weightingLogLikelihood D s = .ok (D.beta v0 1 s.alpha) := by
    unfold BBer.weightingLogLikelihood BBer.betaLL BBer.bernoulliLL
    rw [hb, hv, hp]
    simp only [List.length_cons, List.replicate_succ, List.tail_cons, betaLoop_ones, hD, one_ne_zero, if_false]
    simp
  refine ⟨hE, ?_⟩
  rw [hE, C33_dirichletProcess D t (by rw [hv]; simp) hs h1, ← ha, hv, List.map_cons, List.sum_cons]
  constructor
  · intro h
    injection h with h
    exact left_eq_add.1 h
  · intro h
    rw [h, add_zero]

/-- `BetaBernoulli(p=0)` against `GeometricProcess(1, alpha)` with the same stick: they agree iff the repetitions contribute nothing. -/
theorem C74_betaBernoulli_zero_refuted (D : Dens K L) (s : BBer K) (t : Geo K) (hp : s.p = 0) (ha : t.a = 1) (hb' : s.alpha = t.b)
    {n : ℕ} (hv : s.v = List.replicate (n + 1) t.p) {b0 : ℤ} (hb : s.bernoullis = b0 :: List.replicate n 0) :
    BBer.weightingLogLikelihood D s = .ok ((n + 1) • D.beta t.p 1 s.alpha) ∧
    (BBer.weightingLogLikelihood D s = .ok (Geo.weightingLogLikelihood D t) ↔ n • D.beta t.p 1 s.alpha = 0) := by
  have hE : BBer.weightingLogLikelihood D s = .ok ((n + 1) • D.beta t.p 1 s.alpha) := by
    unfold BBer.weightingLogLikelihood BBer.betaLL BBer.bernoulliLL
    rw [hb, hv, hp]
    have := betaLoop_zeros D s.alpha (List.replicate n t.p) (D.beta t.p 1 s.alpha)
    rw [List.length_replicate] at this
    simp only [List.replicate_succ, List.tail_cons, this, if_true, zero_add, List.map_replicate, List.sum_replicate, succ_nsmul']
  refine ⟨hE, ?_⟩
  rw [hE, Geo.weightingLogLikelihood, ha, ← hb', succ_nsmul]
  constructor
  · intro h
    injection h with h
    exact add_eq_right.1 h
  · intro h
    rw [h, zero_add]

theorem binLoop_zeros (D : Dens K L) (hD : ∀ p, D.binom 0 0 p = 0) (alpha : K) : ∀ (vs : List K) (ret : L) (m : ℕ), vs.length ≤ m →
    BBin.wllLoop D alpha 0 ret 0 vs (List.replicate m 0) = .ok (ret + (vs.map (fun x => D.beta x 1 alpha)).sum, 0)
  | [], ret, m, _ => by rw [BBin.wllLoop]; simp
  | v :: vs, ret, 0, h => by simp at h
  | v :: vs, ret, m + 1, h => by
    rw [List.replicate_succ, BBin.wllLoop, binLoop_zeros D hD alpha vs _ m (by simpa using h), hD]
    simp [add_assoc]

/-- `BetaBinomial(n=0)` against `DirichletProcess`, two sticks or more: they agree iff the first stick contributes nothing. -/
theorem C74_betaBinomial_refuted (D : Dens K L) (hD : ∀ p, D.binom 0 0 p = 0) (hBB : ∀ a b, D.betaBinom 0 0 a b = 0) (s : BBin K) (t : DP K) (hn : s.n = 0)
    (ha : s.alpha = t.alpha) {v0 v1 : K} {vs : List K} (hv : s.v = v0 :: v1 :: vs) {m : ℕ} (hm : s.v.length ≤ m) (hb : s.binomials = List.replicate m 0)
    (hs : IsStick s.v t.w) (h1 : EarlierNotOne s.v) :
    BBin.weightingLogLikelihood D s = .ok ((v1 :: vs).map (fun x => D.beta x 1 s.alpha)).sum ∧
    (BBin.weightingLogLikelihood D s = DP.weightingLogLikelihood D t ↔ D.beta v0 1 s.alpha = 0) := by
  have hE : BBin.weightingLogLikelihood D s = .ok ((v1 :: vs).map (fun x => D.beta x 1 s.alpha)).sum := by
    unfold BBin.weightingLogLikelihood
    cases m with
    | zero => rw [hv] at hm; simp at hm
    | succ m =>
      rw [hb, hv, hn, List.replicate_succ]
      have hlen : (v1 :: vs).dropLast.length ≤ m := by
        rw [hv] at hm
        simp at hm ⊢
        omega
      have hlast : (v0 :: v1 :: vs).getLast? = some ((v1 :: vs).getLast (by simp)) := by
        rw [List.getLast?_cons_cons, List.getLast?_eq_some_getLast]
      simp only [List.tail_cons, hBB, binLoop_zeros D hD s.alpha _ _ m hlen, hlast, zero_add, Int.cast_zero, add_zero, sub_zero]
      have hsplit := List.dropLast_append_getLast (l := v1 :: vs) (by simp)
      conv_rhs => rw [← hsplit]
      rw [List.map_append, List.sum_append]
      simp
  refine ⟨hE, ?_⟩
  rw [hE, C33_dirichletProcess D t (by rw [hv]; simp) hs h1, ← ha, hv, List.map_cons (a := v0), List.sum_cons (a := D.beta v0 1 s.alpha)]
  constructor
  · intro h
    injection h with h
    exact right_eq_add.1 h
  · intro h
    rw [h, zero_add]
end

/-- The two other geometric models give no number. -/
theorem C74_geometric_refuted [AddCommMonoid L] (D : Dens K L) (s : BIB K) (hx : s.x = 1) (hw : s.w ≠ []) (t : Geo K)
    (beta : ℝ → ℝ → ℝ → Fl ℝ) (u : BID ℝ) (ha : u.a = 0) :
    BIB.weightingLogLikelihood D s ≠ .ok (Geo.weightingLogLikelihood D t) ∧ ∀ y : ℝ, u.weightingLogLikelihood beta realFun.toVarFun ≠ .fin y := by
  refine ⟨?_, ?_⟩
  · rw [C33_betaInBeta_refuted D s hx hw]; nofun
  · intro y
    rw [C72_refuted beta u ha]; nofun

/-! Non-vacuity: states reached by an unfitted `random(3)` meet the hypotheses on the sticks, and the log-density `v ↦ v` makes the difference visible. -/
/-- A log-density that shows its argument. -/
def showDens : Dens ℚ ℚ := ⟨fun v _ _ => v, fun _ _ _ => 0, fun _ _ _ _ => 0, fun _ _ => 0⟩

example : (BBer.random (.int 3) meanO (BBer.init (1 : ℚ) 1, 0)).2.1.bernoullis = List.replicate 3 1 ∧
    (BBer.random (.int 3) meanO (BBer.init (1 : ℚ) 1, 0)).2.1.v = [1/2, 1/2, 1/2] := by decide +kernel
example : (BBer.random (.int 3) meanO (BBer.init (0 : ℚ) 1, 0)).2.1.bernoullis = List.replicate 3 0 ∧
    (BBer.random (.int 3) meanO (BBer.init (0 : ℚ) 1, 0)).2.1.v = [1/2, 1/2, 1/2] := by decide +kernel
example : (BBin.random (.int 3) meanO (BBin.init (K := ℚ) 0 1, 0)).2.1.binomials = List.replicate 3 0 ∧
    (BBin.random (.int 3) meanO (BBin.init (K := ℚ) 0 1, 0)).2.1.v = [1/2, 1/2, 1/2] := by decide +kernel
example : BBer.weightingLogLikelihood showDens (BBer.random (.int 3) meanO (BBer.init (1 : ℚ) 1, 0)).2.1 = .ok (1/2) ∧
    BBin.weightingLogLikelihood showDens (BBin.random (.int 3) meanO (BBin.init (K := ℚ) 0 1, 0)).2.1 = .ok 1 ∧
    DP.weightingLogLikelihood showDens ⟨1, [1/2, 1/2, 1/2], [1/2, 1/4, 1/8], []⟩ = .ok (3/2) := by decide +kernel
example : EarlierNotOne [(1/2 : ℚ), 1/2, 1/2] := by
  intro j x h _
  match j, h with
  | 0, h => cases h; norm_num
  | 1, h => cases h; norm_num
  | 2, h => cases h; norm_num
end Verif
