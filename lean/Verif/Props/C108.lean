import Verif.Props.C74
import Mathlib.Algebra.BigOperators.Intervals
import Mathlib.Algebra.BigOperators.Fin
import Mathlib.Analysis.SpecialFunctions.Log.Basic

/-!
# C108: `weighting_log_likelihood` of the chains `BetaBinomial` and `BetaBernoulli` is the log of their prior density

A `BetaBinomial` object holds sticks `v_0, v_1, …` and binomial variables `b_0, b_1, …`.  They are drawn (C17, C79) as `b_0` from the Beta-binomial law, `v_j` from the Beta law with parameters
`1 + b_j` and `alpha + n - b_j`, and `b_(j+1)` from the binomial law with parameters `n` and `v_j`.  So the log-density is the sum `chainLL`.  A `BetaBernoulli` object holds sticks and Bernoulli
variables; the stick `v_j` is new, from the Beta law with parameters `1` and `alpha`, if `b_j = 1` (probability `p`), and else repeats the one before; the log-density is `renewLL`.

* `BetaBinomial`: right for one stick (`C108_betaBinomial_partial`), wrong for more: the sticks are paired with the wrong binomial variables (`C108_betaBinomial_value`), the first stick and the last
  binomial are ignored (`C108_betaBinomial_ignores`), so the values of two states with different first sticks cannot both be right (`C108_betaBinomial_refuted`).
* `BetaBernoulli`: the densities of the *repeated* sticks are added, those of the new sticks and the probabilities of repetitions are left out (`C108_betaBernoulli_value`,
  `C108_betaBernoulli_ignores`, `C108_betaBernoulli_refuted`).  Right for a single stick with `b_0 = 0` (`C108_betaBernoulli_partial`).

All statements are for every log-density and every number of sticks.
-/

set_option linter.unusedSectionVars false

namespace Verif
open Mix
variable {K L : Type} [Field K] [LinearOrder K]

namespace Spec

/-- The log-density of the Beta-binomial chain with `J` sticks. -/
def chainLL [AddCommMonoid L] (D : Dens K L) (alpha : K) (n : ℤ) (V : ℕ → K) (B : ℕ → ℤ) (J : ℕ) : L :=
  D.betaBinom (B 0) n 1 alpha + ∑ j ∈ Finset.range J, D.beta (V j) (1 + (B j : K)) (alpha + (n : K) - (B j : K)) + ∑ j ∈ Finset.range (J - 1), D.binom (B (j + 1)) n (V j)

/-- The log-density of the Beta-Bernoulli chain with `J` sticks. -/
def renewLL [AddCommMonoid L] (D : Dens K L) (alpha p : K) (V : ℕ → K) (B : ℕ → ℤ) (J : ℕ) : L :=
  D.beta (V 0) 1 alpha + ∑ j ∈ Finset.Ico 1 J, if B j = 0 then D.timesLog 1 (1 - p) else D.timesLog 1 p + D.beta (V j) 1 alpha

end Spec
open Spec

/-! ### `BetaBinomial` -/

section
variable [AddCommMonoid L]

theorem binLoop_sum (D : Dens K L) (alpha : K) (n : ℤ) : ∀ (k i : ℕ) (res : L) (V : ℕ → K) (B : ℕ → ℤ) (bs : List ℤ), (∀ j < k, bs[j]? = some (B (i + j + 1))) →
    BBin.wllLoop D alpha n res (B i) ((List.range k).map fun j => V (i + j)) bs =
      .ok (res + ∑ j ∈ Finset.range k, (D.beta (V (i + j)) (1 + (B (i + j) : K)) (alpha + (n : K) - (B (i + j) : K)) + D.binom (B (i + j + 1)) n (V (i + j))), B (i + k))
  | 0, i, res, V, B, bs, _ => by simp [BBin.wllLoop]
  | k + 1, i, res, V, B, bs, h => by
    have h0 := h 0 (by omega)
    cases bs with
    | nil => simp at h0
    | cons b bs =>
      have hb : b = B (i + 0 + 1) := by simpa using h0
      subst hb
      rw [List.range_succ_eq_map, List.map_cons, List.map_map, BBin.wllLoop]
      have ih := binLoop_sum D alpha n k (i + 1) (res + D.beta (V (i + 0)) (1 + (B i : K)) (alpha + (n : K) - (B i : K)) + D.binom (B (i + 0 + 1)) n (V (i + 0))) V B bs fun j hj => by
        have := h (j + 1) (by omega)
        rw [List.getElem?_cons_succ] at this
        rw [this]
        congr 2
        omega
      have e : (fun j => V (i + 1 + j)) = (fun j => V (i + j)) ∘ Nat.succ := by
        funext j
        simp only [Function.comp_apply, Nat.succ_eq_add_one]
        congr 1
        omega
      rw [e] at ih
      rw [show i + 0 + 1 = i + 1 from rfl] at *
      rw [ih, Finset.sum_range_succ']
      simp only [add_zero, Nat.add_right_comm i 1, Nat.add_assoc]
      congr 2
      rw [add_assoc res, add_assoc res, add_comm (∑ _ ∈ _, _)]

/-- What `BetaBinomial.weighting_log_likelihood` computes, for two sticks or more: the stick `v_j` is paired with the binomial variable before its own, and its own with it. -/
theorem C108_betaBinomial_value (D : Dens K L) (s : BBin K) (V : ℕ → K) (B : ℕ → ℤ) {J M : ℕ} (hv : s.v = (List.range (J + 2)).map V) (hb : s.binomials = (List.range M).map B) (hM : J + 1 ≤ M) :
    BBin.weightingLogLikelihood D s = .ok (D.betaBinom (B 0) s.n 1 s.alpha + ∑ j ∈ Finset.range J, (D.beta (V (j + 1)) (1 + (B j : K)) (s.alpha + (s.n : K) - (B j : K)) + D.binom (B (j + 1)) s.n (V (j + 1))) +
      D.beta (V (J + 1)) (1 + (B J : K)) (s.alpha + (s.n : K) - (B J : K))) := by
  obtain ⟨M, rfl⟩ : ∃ M', M = M' + 1 := ⟨M - 1, by omega⟩
  unfold BBin.weightingLogLikelihood
  have hv' : s.v.tail.dropLast = (List.range J).map fun j => V (0 + j + 1) := by
    rw [hv, List.range_succ_eq_map, List.map_cons, List.tail_cons, List.map_map, List.range_succ, List.map_append, List.map_singleton, List.dropLast_concat]
    refine List.map_congr_left fun j _ => ?_
    simp
  have hl : s.v.getLast? = some (V (J + 1)) := by rw [hv, List.range_succ, List.map_append, List.map_singleton, List.getLast?_concat]
  have hb' : s.binomials = B 0 :: (List.range M).map (fun j => B (j + 1)) := by
    rw [hb, List.range_succ_eq_map, List.map_cons, List.map_map]
    rfl
  have := binLoop_sum D s.alpha s.n J 0 (D.betaBinom (B 0) s.n 1 s.alpha) (fun j => V (j + 1)) B ((List.range M).map fun j => B (j + 1)) fun j hj => by
    rw [List.getElem?_map, List.getElem?_range (by omega)]
    simp
  rw [hb']
  simp only
  rw [hv', this]
  simp only [hl, zero_add]

/-- Right for one stick. -/
theorem C108_betaBinomial_partial (D : Dens K L) (s : BBin K) (V : ℕ → K) (B : ℕ → ℤ) {M : ℕ} (hv : s.v = [V 0]) (hb : s.binomials = (List.range (M + 1)).map B) :
    BBin.weightingLogLikelihood D s = .ok (chainLL D s.alpha s.n V B 1) := by
  unfold BBin.weightingLogLikelihood
  rw [hb, List.range_succ_eq_map, List.map_cons, hv]
  simp [BBin.wllLoop, chainLL]

/-- The first stick, and the binomial variables from the last stick on, are ignored. -/
theorem C108_betaBinomial_ignores (D : Dens K L) (s t : BBin K) (V V' : ℕ → K) (B B' : ℕ → ℤ) {J M M' : ℕ} (hv : s.v = (List.range (J + 2)).map V) (hb : s.binomials = (List.range M).map B) (hM : J + 1 ≤ M)
    (hv' : t.v = (List.range (J + 2)).map V') (hb' : t.binomials = (List.range M').map B') (hM' : J + 1 ≤ M') (hn : s.n = t.n) (ha : s.alpha = t.alpha)
    (hV : ∀ j, V (j + 1) = V' (j + 1)) (hB : ∀ j ≤ J, B j = B' j) : BBin.weightingLogLikelihood D s = BBin.weightingLogLikelihood D t := by
  rw [C108_betaBinomial_value D s V B hv hb hM, C108_betaBinomial_value D t V' B' hv' hb' hM', hn, ha, hB 0 (by omega), hB J le_rfl, hV]
  congr 3
  refine Finset.sum_congr rfl fun j hj => ?_
  have := Finset.mem_range.1 hj
  rw [hB j (by omega), hB (j + 1) (by omega), hV]

end

/-- The values of two states that differ in the first stick are not both right, if the log-density of that stick and the binomial variable after it differs. -/
theorem C108_betaBinomial_refuted [AddCommGroup L] (D : Dens K L) (s t : BBin K) (V V' : ℕ → K) (B : ℕ → ℤ) {J M : ℕ} (hv : s.v = (List.range (J + 2)).map V) (hb : s.binomials = (List.range M).map B)
    (hM : J + 2 ≤ M) (ht : t = { s with v := (List.range (J + 2)).map V' }) (hV : ∀ j, V (j + 1) = V' (j + 1))
    (hne : D.beta (V 0) (1 + (B 0 : K)) (s.alpha + (s.n : K) - (B 0 : K)) + D.binom (B 1) s.n (V 0) ≠ D.beta (V' 0) (1 + (B 0 : K)) (s.alpha + (s.n : K) - (B 0 : K)) + D.binom (B 1) s.n (V' 0)) :
    ¬ (BBin.weightingLogLikelihood D s = .ok (chainLL D s.alpha s.n V B (J + 2)) ∧ BBin.weightingLogLikelihood D t = .ok (chainLL D t.alpha t.n V' B (J + 2))) := by
  rintro ⟨h1, h2⟩
  subst ht
  have h0 := C108_betaBinomial_ignores D s { s with v := (List.range (J + 2)).map V' } V V' B B hv hb (by omega) rfl hb (by omega) rfl rfl hV (fun _ _ => rfl)
  rw [← h0, h1] at h2
  injection h2 with h2
  simp only [chainLL, show J + 2 - 1 = J + 1 from rfl, Finset.sum_range_succ' _ (J + 1), Finset.sum_range_succ' _ J, hV] at h2
  refine hne ?_
  simp only [zero_add] at h2 ⊢
  have h3 := congrArg (fun x => x - (D.betaBinom (B 0) s.n 1 s.alpha + (∑ j ∈ Finset.range J, D.beta (V' (j + 1 + 1)) (1 + (B (j + 1 + 1) : K)) (s.alpha + (s.n : K) - (B (j + 1 + 1) : K)) +
    D.beta (V' 1) (1 + (B 1 : K)) (s.alpha + (s.n : K) - (B 1 : K))) + ∑ j ∈ Finset.range J, D.binom (B (j + 1 + 1)) s.n (V' (j + 1)))) h2
  simp only at h3
  have e : ∀ x y a b c : L, a + (b + x) + (c + y) - (a + b + c) = x + y := fun x y a b c => by abel
  rwa [e, e] at h3

/-! ### `BetaBernoulli` -/

section
variable [AddCommMonoid L]

theorem berLoop_sum (D : Dens K L) (alpha : K) : ∀ (k i : ℕ) (ret : L) (V : ℕ → K) (B : ℕ → ℤ),
    BBer.betaLoop D alpha ret ((List.range k).map fun j => V (i + j)) ((List.range k).map fun j => B (i + j)) = .ok (ret + ∑ j ∈ Finset.range k, if B (i + j) = 0 then D.beta (V (i + j)) 1 alpha else 0)
  | 0, i, ret, V, B => by simp [BBer.betaLoop]
  | k + 1, i, ret, V, B => by
    have e : ∀ {X : Type} (V : ℕ → X), (fun j => V (i + 1 + j)) = (fun j => V (i + j)) ∘ Nat.succ := fun V => by
      funext j
      simp only [Function.comp_apply, Nat.succ_eq_add_one]
      congr 1
      omega
    have ih := berLoop_sum D alpha k (i + 1) (if B (i + 0) = 0 then ret + D.beta (V (i + 0)) 1 alpha else ret) V B
    rw [e, e] at ih
    rw [List.range_succ_eq_map, List.map_cons, List.map_map, List.map_cons, List.map_map, BBer.betaLoop, ih, Finset.sum_range_succ']
    congr 1
    simp only [Nat.add_right_comm i 1, ← Nat.add_assoc]
    split
    · rw [add_assoc, add_comm (D.beta _ _ _)]
    · rw [add_zero]

/-- What `BetaBernoulli.weighting_log_likelihood` computes. -/
theorem C108_betaBernoulli_value (D : Dens K L) (s : BBer K) (hp : s.p ≠ 0) (V : ℕ → K) (B : ℕ → ℤ) {J : ℕ} (hv : s.v = (List.range (J + 1)).map V) (hb : s.bernoullis = (List.range (J + 1)).map B) :
    BBer.weightingLogLikelihood D s =
      .ok (∑ j ∈ Finset.range (J + 1), D.timesLog (B j) s.p + (D.beta (V 0) 1 s.alpha + ∑ j ∈ Finset.range J, if B (1 + j) = 0 then D.beta (V (1 + j)) 1 s.alpha else 0)) := by
  have e : ∀ {X : Type} (V : ℕ → X), (List.range (J + 1)).map V = V 0 :: (List.range J).map fun j => V (1 + j) := fun V => by
    rw [List.range_succ_eq_map, List.map_cons, List.map_map]
    congr 1
    refine List.map_congr_left fun j _ => ?_
    simp [add_comm]
  have h1 : BBer.bernoulliLL D s = ∑ j ∈ Finset.range (J + 1), D.timesLog (B j) s.p := by
    unfold BBer.bernoulliLL
    rw [if_neg hp, hb, List.map_map]
    rfl
  unfold BBer.weightingLogLikelihood BBer.betaLL
  rw [h1, hv, hb, e V, e B, List.tail_cons]
  simp only
  rw [berLoop_sum]

/-- Right for one stick, if the first Bernoulli variable is 0 (after a fit, `_beta_bernoulli.py:89`). -/
theorem C108_betaBernoulli_partial (D : Dens K L) (hD : ∀ p, D.timesLog 0 p = 0) (s : BBer K) (V : ℕ → K) (B : ℕ → ℤ) (hv : s.v = [V 0]) (hb : s.bernoullis = [B 0]) (h0 : B 0 = 0) :
    BBer.weightingLogLikelihood D s = .ok (renewLL D s.alpha s.p V B 1) := by
  unfold BBer.weightingLogLikelihood BBer.betaLL BBer.bernoulliLL
  rw [hv, hb, h0]
  simp [BBer.betaLoop, renewLL, hD]

/-- The new sticks after the first are ignored. -/
theorem C108_betaBernoulli_ignores (D : Dens K L) (s t : BBer K) (hp : s.p ≠ 0) (V V' : ℕ → K) (B : ℕ → ℤ) {J : ℕ} (hv : s.v = (List.range (J + 1)).map V) (hb : s.bernoullis = (List.range (J + 1)).map B)
    (ht : t = { s with v := (List.range (J + 1)).map V' }) (hV0 : V 0 = V' 0) (hV : ∀ j, B j = 0 → V j = V' j) : BBer.weightingLogLikelihood D s = BBer.weightingLogLikelihood D t := by
  subst ht
  rw [C108_betaBernoulli_value D s hp V B hv hb, C108_betaBernoulli_value D { s with v := (List.range (J + 1)).map V' } hp V' B rfl hb, hV0]
  congr 3
  refine Finset.sum_congr rfl fun j _ => ?_
  split
  · rw [hV _ (by assumption)]
  · rfl

end

/-- The values of two states that differ in the last stick, drawn anew, are not both right, if its log-density differs. -/
theorem C108_betaBernoulli_refuted [AddCommGroup L] (D : Dens K L) (s t : BBer K) (hp : s.p ≠ 0) (V V' : ℕ → K) (B : ℕ → ℤ) {J : ℕ} (hv : s.v = (List.range (J + 2)).map V)
    (hb : s.bernoullis = (List.range (J + 2)).map B) (ht : t = { s with v := (List.range (J + 2)).map V' }) (hB : B (J + 1) ≠ 0) (hV : ∀ j, j ≠ J + 1 → V j = V' j)
    (hne : D.beta (V (J + 1)) 1 s.alpha ≠ D.beta (V' (J + 1)) 1 s.alpha) :
    ¬ (BBer.weightingLogLikelihood D s = .ok (renewLL D s.alpha s.p V B (J + 2)) ∧ BBer.weightingLogLikelihood D t = .ok (renewLL D t.alpha t.p V' B (J + 2))) := by
  rintro ⟨h1, h2⟩
  rw [← C108_betaBernoulli_ignores D s t hp V V' B hv hb ht (hV 0 (by omega)) (fun j hj => hV j fun h => hB (h ▸ hj)), h1] at h2
  subst ht
  injection h2 with h2
  have e : ∀ j ∈ Finset.Ico 1 (J + 1), (if B j = 0 then D.timesLog 1 (1 - s.p) else D.timesLog 1 s.p + D.beta (V j) 1 s.alpha) =
      if B j = 0 then D.timesLog 1 (1 - s.p) else D.timesLog 1 s.p + D.beta (V' j) 1 s.alpha := fun j hj => by rw [hV j (by have := Finset.mem_Ico.1 hj; omega)]
  simp only [renewLL, Finset.sum_Ico_succ_top (show 1 ≤ J + 1 by omega), hB, if_false, hV 0 (by omega)] at h2
  rw [Finset.sum_congr rfl e] at h2
  exact hne (add_left_cancel (add_left_cancel (add_left_cancel h2)))

/-! Non-vacuity: states that `random(3)` reaches, and a log-density that shows its argument. -/

example : (BBin.random (.int 3) meanO (BBin.init (K := ℚ) 0 1, 0)).2.1.v = (List.range (1 + 2)).map (fun _ => 1 / 2) ∧
    (BBin.random (.int 3) meanO (BBin.init (K := ℚ) 0 1, 0)).2.1.binomials = (List.range 3).map (fun _ => 0) := by decide +kernel

example : (BBer.random (.int 3) meanO (BBer.init (1 : ℚ) 1, 0)).2.1.v = (List.range (1 + 2)).map (fun _ => 1 / 2) ∧
    (BBer.random (.int 3) meanO (BBer.init (1 : ℚ) 1, 0)).2.1.bernoullis = (List.range (1 + 2)).map (fun _ => 1) := by decide +kernel

/-- The log-density of the Beta law with parameters 1 and 2 (`log 2 + log (1 - v)`) differs between `0` and `1/2`, so the refutations apply to it. -/
example : Real.log 2 + Real.log (1 - 0) ≠ Real.log 2 + Real.log (1 - 1 / 2) := by
  intro h
  have h1 := add_left_cancel h
  rw [sub_zero, Real.log_one] at h1
  have h2 : Real.log (1 - 1 / 2) < 0 := Real.log_neg (by norm_num) (by norm_num)
  linarith

end Verif
