import Verif.Model.LogLik
import Verif.Lemmas.Stick
import Verif.Lemmas.Demo
import Mathlib.Tactic.Ring

/-!
# C33: `weighting_log_likelihood` inverts the stick-breaking map

If the weights of the object are the stick-breaking image of sticks `v` of which none but the last equals 1, `weighting_log_likelihood()` returns
the sum of the Beta log-densities of exactly these sticks (`DirichletProcess`: `Beta(1, alpha)`; `PitmanYorProcess`: `Beta(1-pyd, alpha + j pyd)`,
the law its `random` uses; `BetaInBeta`: its Beta law plus the density of `p`).  Any number of sticks, any log-density functions.
`BetaInBeta` with `x = 1` raises `ZeroDivisionError` (`C33_betaInBeta_refuted`).
-/

set_option linter.unusedSectionVars false

namespace Verif
open Spec
variable {K L : Type} [Field K] [LinearOrder K] [AddCommMonoid L]

/-- No stick but possibly the last equals 1. -/
def EarlierNotOne (v : List K) : Prop := ∀ (j : ℕ) (x : K), v[j]? = some x → j + 1 < v.length → x ≠ 1

/-- `Σ_j f j v_j`. -/
def sumSticks (f : ℕ → K → L) : ℕ → List K → L
  | _, [] => 0
  | j, x :: xs => f j x + sumSticks f (j + 1) xs

theorem sumSticks_eq (f : ℕ → K → L) (j : ℕ) (v : List K) : sumSticks f j v = ((v.mapIdx fun i x => f (j + i) x)).sum := by
  induction v generalizing j with
  | nil => rfl
  | cons x xs ih =>
    rw [sumSticks, ih, List.mapIdx_cons, List.sum_cons]
    congr 2
    exact List.mapIdx_eq_mapIdx_iff.2 fun i _ => by simp only [Nat.add_assoc, Nat.add_comm 1]

/-- The weights that follow when `c` of the stick is left. -/
def scaled (c : K) : List K → List K
  | [] => []
  | x :: xs => x * c :: scaled (c * (1 - x)) xs

theorem isStick_scaled {c : K} {v w : List K} (hl : w.length = v.length)
    (h : ∀ j x, v[j]? = some x → w[j]? = some (x * (c * ((v.take j).map (fun y => 1 - y)).prod))) : w = scaled c v := by
  induction v generalizing c w with
  | nil => exact List.length_eq_zero_iff.1 (by simpa using hl)
  | cons x xs ih =>
    cases w with
    | nil => simp at hl
    | cons y ys =>
      have h0 := h 0 x (by simp)
      simp at h0
      rw [scaled, h0]
      congr 1
      refine ih (by simpa using hl) (c := c * (1 - x)) ?_
      intro j z hz
      have := h (j + 1) z (by simpa using hz)
      simp only [List.getElem?_cons_succ, List.take_succ_cons, List.map_cons, List.prod_cons] at this
      rw [this, mul_assoc]

theorem dpLoop_scaled (D : Dens K L) (a b : K) (ret : L) {c : K} {v : List K} (hne : v = [] ∨ c ≠ 0) (hv : EarlierNotOne v) :
    DP.wllLoop D a b ret c (scaled c v) = ret + sumSticks (fun _ x => D.beta x a b) 0 v := by
  suffices ∀ i, DP.wllLoop D a b ret c (scaled c v) = ret + sumSticks (fun _ x => D.beta x a b) i v from this 0
  induction v generalizing ret c with
  | nil => intro i; simp [scaled, DP.wllLoop, sumSticks]
  | cons x xs ih =>
    intro i
    have hc : c ≠ 0 := by rcases hne with h | h; · cases h
                          · exact h
    rw [scaled, DP.wllLoop, mul_div_cancel_right₀ x hc, ih, sumSticks, add_assoc]
    · cases xs with
      | nil => exact .inl rfl
      | cons y ys =>
        right
        exact mul_ne_zero hc (sub_ne_zero.2 (hv 0 x (by simp) (by simp)).symm)
    · intro j y hy hj
      exact hv (j + 1) y (by simpa using hy) (by simpa using hj)

theorem pyLoop_scaled (D : Dens K L) (pyd alpha : K) (j : ℕ) (ret : L) {c : K} {v : List K} (hne : v = [] ∨ c ≠ 0) (hv : EarlierNotOne v) :
    PY.wllLoop D pyd alpha j ret c (scaled c v) = ret + sumSticks (fun i x => D.beta x (1 - pyd) (alpha + (i : K) * pyd)) j v := by
  induction v generalizing ret c j with
  | nil => simp [scaled, PY.wllLoop, sumSticks]
  | cons x xs ih =>
    have hc : c ≠ 0 := by rcases hne with h | h; · cases h
                          · exact h
    rw [scaled, PY.wllLoop, mul_div_cancel_right₀ x hc, ih, sumSticks, add_assoc]
    · cases xs with
      | nil => exact .inl rfl
      | cons y ys =>
        right
        exact mul_ne_zero hc (sub_ne_zero.2 (hv 0 x (by simp) (by simp)).symm)
    · intro j y hy hj
      exact hv (j + 1) y (by simpa using hy) (by simpa using hj)

theorem isStick_cons {v : List K} {x : K} {w : List K} (h : IsStick (x :: v) w) : w = x :: scaled (1 - x) v := by
  have := isStick_scaled (c := 1) h.1 (fun j y hy => by rw [h.2 j y hy, one_mul])
  rw [this, scaled, mul_one, one_mul]

theorem earlier_tail {x : K} {v : List K} (hv : EarlierNotOne (x :: v)) : (v = [] ∨ (1 - x) ≠ 0) ∧ EarlierNotOne v := by
  refine ⟨?_, fun j y hy hj => hv (j + 1) y (by simpa using hy) (by simpa using hj)⟩
  cases v with
  | nil => exact .inl rfl
  | cons y ys => exact .inr (sub_ne_zero.2 (hv 0 x (by simp) (by simp)).symm)

theorem C33_dirichletProcess (D : Dens K L) (s : DP K) {v : List K} (hne : v ≠ []) (hs : IsStick v s.w) (hv : EarlierNotOne v) :
    DP.weightingLogLikelihood D s = .ok (v.map (fun x => D.beta x 1 s.alpha)).sum := by
  cases v with
  | nil => exact absurd rfl hne
  | cons x v =>
    obtain ⟨h1, h2⟩ := earlier_tail hv
    unfold DP.weightingLogLikelihood
    rw [isStick_cons hs]
    dsimp only
    rw [dpLoop_scaled D 1 s.alpha _ h1 h2, sumSticks_eq, List.map_cons, List.sum_cons]
    congr 3
    exact List.ext_getElem? fun i => by simp

theorem C33_pitmanYor (D : Dens K L) (s : PY K) {v : List K} (hne : v ≠ []) (hs : IsStick v s.w) (hv : EarlierNotOne v) :
    PY.weightingLogLikelihood D s = .ok (v.mapIdx (fun j x => D.beta x (1 - s.pyd) (s.alpha + (j : K) * s.pyd))).sum := by
  cases v with
  | nil => exact absurd rfl hne
  | cons x v =>
    obtain ⟨h1, h2⟩ := earlier_tail hv
    unfold PY.weightingLogLikelihood
    rw [isStick_cons hs]
    dsimp only
    rw [pyLoop_scaled D s.pyd s.alpha 1 _ h1 h2, sumSticks_eq, List.mapIdx_cons, List.sum_cons]
    congr 2
    · simp
    · congr 1
      exact List.mapIdx_eq_mapIdx_iff.2 fun i _ => by rw [Nat.add_comm]

theorem C33_betaInBeta_partial (D : Dens K L) (s : BIB K) (hx : s.x ≠ 1) {v : List K} (hne : v ≠ []) (hs : IsStick v s.w) (hv : EarlierNotOne v) :
    BIB.weightingLogLikelihood D s =
      .ok ((v.map (fun x => D.beta x (1 + s.x / (1 - s.x) * s.p) (s.alpha + s.x / (1 - s.x) * (1 - s.p)))).sum + D.beta s.p s.a s.b) := by
  cases v with
  | nil => exact absurd rfl hne
  | cons x v =>
    obtain ⟨h1, h2⟩ := earlier_tail hv
    unfold BIB.weightingLogLikelihood
    rw [isStick_cons hs]
    dsimp only
    rw [if_neg hx, dpLoop_scaled D _ _ _ h1 h2, sumSticks_eq, List.map_cons, List.sum_cons]
    congr 4
    exact List.ext_getElem? fun i => by simp

/-- With `x = 1` the call raises. -/
theorem C33_betaInBeta_refuted (D : Dens K L) (s : BIB K) (hx : s.x = 1) (hw : s.w ≠ []) :
    BIB.weightingLogLikelihood D s = .error .zeroDivisionError := by
  unfold BIB.weightingLogLikelihood
  split
  · contradiction
  · rw [if_pos hx]

/-! Non-vacuity: the sticks `1/2, 1/3` and weights `1/2, 1/6`, with the "density" that shows its arguments. -/
example : IsStick [(1/2 : ℚ), 1/3] [1/2, 1/6] ∧ EarlierNotOne [(1/2 : ℚ), 1/3] := by
  constructor
  · refine ⟨rfl, fun j x h => ?_⟩
    match j, h with
    | 0, h => cases h; norm_num
    | 1, h => cases h; norm_num
  · intro j x h hj
    match j, h with
    | 0, h => cases h; norm_num
    | 1, h => simp at hj
example : DP.weightingLogLikelihood (⟨fun v _ _ => v, fun _ _ _ => 0, fun _ _ _ _ => 0, fun _ _ => 0⟩ : Dens ℚ ℚ) ⟨1, [1/2, 1/3], [1/2, 1/6], []⟩
    = .ok (1/2 + 1/3) := by decide +kernel
end Verif
