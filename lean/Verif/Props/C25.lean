import Verif.Lemmas.StickTail
import Verif.Lemmas.GeoTail
import Verif.Props.C10

/-!
# C25: `GeometricProcess.tail` reaches the requested mass

False: the number of weights is rounded down, so on an object without weights the mass is *never* above `x`, for any `p` in `(0, 1)`
and any `x` in `[0, 1)` (`C25_refuted`).  `C25_partial`: with one more weight the mass would be above `x`; the truncation is short by at
most that one weight.
-/

set_option linter.unusedSectionVars false

namespace Verif
open Spec
variable {ω : Oracle ℝ}

theorem Geo.tailSize_spec {x p : ℝ} (hp : 0 < p ∧ p < 1) (hx : 0 ≤ x ∧ x < 1) :
    ∃ n : ℕ, Geo.tailSize x p = .ok (n : ℤ) ∧ 1 - x ≤ (1 - p) ^ n ∧ (1 - p) ^ (n + 1) < 1 - x := by
  have h1 : Real.log (1 - p) < 0 := Real.log_neg (by linarith) (by linarith)
  have h2 : Real.log (1 - x) ≤ 0 := Real.log_nonpos (by linarith) (by linarith)
  have hq : 0 ≤ Real.log (1 - x) / Real.log (1 - p) := div_nonneg_of_nonpos h2 h1.le
  obtain ⟨n, hn⟩ := Int.eq_ofNat_of_zero_le (Int.floor_nonneg.2 hq)
  have hpp : (0 : ℝ) < 1 - p := by linarith
  have hxx : (0 : ℝ) < 1 - x := by linarith
  refine ⟨n, ?_, ?_, ?_⟩
  · unfold Geo.tailSize
    rw [if_neg hp.1.ne', if_neg hp.2.ne, hn]
  · have : (n : ℝ) ≤ Real.log (1 - x) / Real.log (1 - p) := by
      have := Int.floor_le (Real.log (1 - x) / Real.log (1 - p))
      rw [hn] at this; exact_mod_cast this
    rw [le_div_iff_of_neg h1, ← Real.log_pow] at this
    exact (Real.log_le_log_iff hxx (pow_pos hpp n)).1 this
  · have : Real.log (1 - x) / Real.log (1 - p) < (n : ℝ) + 1 := by
      have := Int.lt_floor_add_one (Real.log (1 - x) / Real.log (1 - p))
      rw [hn] at this; exact_mod_cast this
    rw [div_lt_iff_of_neg h1] at this
    have h3 : Real.log ((1 - p) ^ (n + 1)) < Real.log (1 - x) := by rw [Real.log_pow]; push_cast; exact this
    exact (Real.log_lt_log_iff (pow_pos hpp _) hxx).1 h3

theorem leftOver_replicate (p : ℝ) (n : ℕ) : leftOver (List.replicate n p) = (1 - p) ^ n := by
  simp [leftOver]

/-- On an object without weights, `tail(x)` of a `GeometricProcess` returns, and the mass is at most `x`. -/
theorem C25_refuted {x : ℝ} (s : Geo ℝ × ℕ) (hp : 0 < s.1.p ∧ s.1.p < 1) (hx : 0 ≤ x ∧ x < 1) (hv : s.1.v = []) (hw : s.1.w = []) (fuel : ℕ) :
    ∃ r t, Geo.cls.tail fuel x ω s = (.ok r, t) ∧ r.sum ≤ x := by
  obtain ⟨n, hn, hlo, _⟩ := Geo.tailSize_spec hp hx
  have := Geo.tail_eq (ω := ω) hx s hn (by omega)
  rw [hv] at this
  by_cases h0 : n = 0
  · subst h0
    rw [if_neg (by simp), hw] at this
    exact ⟨[], _, this, by simpa using hx.1⟩
  · rw [if_pos (by simp; omega)] at this
    refine ⟨_, _, this, ?_⟩
    rw [stickWeights_sum, leftOver_replicate, Int.toNat_natCast]
    linarith

/-- From every state that shows a geometric sequence, the mass with one more weight is above `x`.
Missing: that weight itself. -/
theorem C25_partial {x : ℝ} (s : Geo ℝ × ℕ) (hp : 0 < s.1.p ∧ s.1.p < 1) (hx : 0 ≤ x ∧ x < 1) (hv : ∀ y ∈ s.1.v, y = s.1.p)
    (hw : IsStick s.1.v s.1.w) (fuel : ℕ) :
    ∃ r t, Geo.cls.tail fuel x ω s = (.ok r, t) ∧ IsGeometric s.1.p r.length r ∧ x < r.sum + s.1.p * (1 - s.1.p) ^ r.length := by
  obtain ⟨n, hn, _, hhi⟩ := Geo.tailSize_spec hp hx
  have ht := Geo.tail_eq (ω := ω) hx s hn (by omega)
  have geo : ∀ k, IsGeometric s.1.p k (stickWeights (List.replicate k s.1.p)) := fun k =>
    ⟨by simp, fun j hj => stickWeights_replicate _ _ _ hj⟩
  have key : ∀ k, n ≤ k → x < (stickWeights (List.replicate k s.1.p)).sum + s.1.p * (1 - s.1.p) ^ k := by
    intro k hk
    rw [stickWeights_sum, leftOver_replicate]
    have h1 : (1 - s.1.p) ^ (k + 1) ≤ (1 - s.1.p) ^ (n + 1) := pow_le_pow_of_le_one (by linarith) (by linarith) (by omega)
    have h2 : (1 - s.1.p) ^ (k + 1) = (1 - s.1.p) ^ k - s.1.p * (1 - s.1.p) ^ k := by ring
    linarith
  split at ht
  · refine ⟨_, _, ht, ?_⟩
    rw [stickWeights_length, List.length_replicate, Int.toNat_natCast]
    exact ⟨geo n, key n le_rfl⟩
  · rename_i hlt
    have e : s.1.v = List.replicate s.1.v.length s.1.p := List.eq_replicate_iff.2 ⟨rfl, hv⟩
    have ew : s.1.w = stickWeights (List.replicate s.1.v.length s.1.p) := by rw [← e]; exact IsStick.eq hw
    refine ⟨_, _, ht, ?_⟩
    rw [hw.1, ew]
    exact ⟨geo _, key _ (by omega)⟩

/-! Non-vacuity: `GeometricProcess` with `p = 1/2` and two weights. -/
example : ∃ r t, Geo.cls.tail 0 (9/10) ω (⟨1, 1, 1/2, [1/2, 1/2], [1/2, 1/4], []⟩, 0) = (.ok r, t) ∧ IsGeometric (1/2) r.length r ∧
    (9/10 : ℝ) < r.sum + 1/2 * (1 - 1/2) ^ r.length :=
  C25_partial _ (by norm_num) (by norm_num) (by simp) (by
    refine ⟨rfl, fun j x h => ?_⟩
    rcases j with _ | _ | j <;> simp at h <;> subst h <;> norm_num) 0

end Verif
