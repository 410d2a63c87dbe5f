import Verif.Props.C26

/-!
# C27: `random_assignment()` with its default argument returns one assignment

False in every state of every class: the uniform is then a scalar, the comparison is one-dimensional and `np.sum(..., axis=1)` raises
`AxisError` (after a uniform was used up).  `C27_partial`: `random_assignment(1)` returns one assignment.
-/

namespace Verif
open Spec
variable {K : Type} [Field K] [LinearOrder K] [IsStrictOrderedRing K] {ω : Oracle K}

theorem C27_refuted (C : WeightCore K) (s : C.State × ℕ) :
    BaseWeight.randomAssignment C none ω s = (.error .axisError, (s.1, s.2 + 1)) := rfl

/-- Missing: the default argument. -/
theorem C27_partial (hω : ω.Legal) (C : WeightCore K) (s : C.State × ℕ) (hnn : ∀ x ∈ C.getW s.1, 0 ≤ x) (hs : 0 < (C.getW s.1).sum) :
    ∃ j, BaseWeight.randomAssignment C (some 1) ω s = (.ok [j], (s.1, s.2 + 1)) ∧ IsQuantile (C.getW s.1) (ω.unif s.2) j := by
  obtain ⟨r, h, hl, hr⟩ := C26_inverse_cdf hω C s hnn hs 1
  obtain ⟨j, rfl⟩ := List.length_eq_one_iff.1 hl
  exact ⟨j, h, hr 0 j rfl⟩

/-! Non-vacuity -/
example : (BaseWeight.randomAssignment DP.core (some 1) (demo : Oracle ℚ) (DP.cls.run id demo (DP.init 1, 0) [.random (.int 4)])).1 = .ok [0] := by
  decide +kernel

end Verif
