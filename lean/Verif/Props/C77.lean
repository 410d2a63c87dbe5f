import Verif.Props.C33
import Verif.Lemmas.Reach
import Verif.Model.Likelihood
import Verif.Lemmas.Demo

/-!
# C77: the function of `p` that `BetaInBeta` optimises or integrates is its public log-likelihood

For every history of calls, `x < 1` and a state with weights: the objective of `p_method="max-likelihood"` and `"inverse-sampling"` at `q` is what
`weighting_log_likelihood()` returns for the object with `p = q` (`C77_objective`), whatever the Beta log-density.  Two computations of one function: from the sticks and from the weights.
-/

set_option linter.unusedSectionVars false

namespace Verif
open Spec
variable {K L : Type} [Field K] [LinearOrder K] [IsStrictOrderedRing K] [AddCommMonoid L]

theorem C77_objective (log : K → K) {ω : Oracle K} (pos : ℕ) (ops : List (WOp K)) {x alpha a b p : K} {m : PMethod} {s0 : BIB K}
    (hi : BIB.init x alpha a b p m = .ok s0) (hx : x ≠ 1) {s : BIB K × ℕ} (hs : BIB.cls.run log ω (s0, pos) ops = s) (hv : s.1.v ≠ []) (hone : EarlierNotOne s.1.v)
    (D : Dens K L) (bot : L) (q : K) :
    BIB.weightingLogLikelihood D { s.1 with p := q } = .ok (BIB.structureLL D.beta bot s.1 q) := by
  have h0 : s0 = ⟨x, alpha, a, b, p, m, [], [], []⟩ := (BIB.init_eq hi).1
  have hh : BIB.hyper s.1 = BIB.hyper s0 := by
    have := WeightCore.run_keeps (BIB.hyper_stable (ω := ω) (· = BIB.hyper s0)) log ops (s0, pos) rfl
    rw [← hs]; exact this
  have e1 : s.1.x = x := by rw [h0] at hh; simp only [BIB.hyper, Prod.mk.injEq] at hh; exact hh.1
  have hi' := BIB.reach_sinv log (ω := ω) pos ops hi
  rw [hs] at hi'
  have hw : IsStick s.1.v s.1.w := by rw [hi' hv]; exact stickWeights_isStick _
  rw [C33_betaInBeta_partial D { s.1 with p := q } (by dsimp only; rw [e1]; exact hx) hv hw hone]
  unfold BIB.structureLL BIB.weightLL
  rw [if_neg (by rw [e1]; exact hx)]

/-- The hypotheses are met after `random(2)`: two sticks, none equal to 1. -/
example : (BIB.cls.run id meanO ((⟨1/2, 1, 1, 1, 0, .maxLikelihood, [], [], []⟩ : BIB ℚ), 0) [.random (.int 2)]).1.v = [1/3, 1/3] ∧ EarlierNotOne [(1/3 : ℚ), 1/3] := by
  constructor
  · decide +kernel
  · intro j x h hj
    match j, h with
    | 0, h => cases h; norm_num

/-- On a state without sticks the two differ: the objective is the log-density of `p`, the public method raises. -/
theorem C77_noSticks (D : Dens K L) (bot : L) (s : BIB K) (hv : s.v = []) (hw : s.w = []) (hx : s.x ≠ 1) (q : K) :
    BIB.structureLL D.beta bot s q = D.beta q s.a s.b ∧ BIB.weightingLogLikelihood D { s with p := q } = .error .indexError := by
  unfold BIB.structureLL BIB.weightLL BIB.weightingLogLikelihood
  rw [if_neg hx, hv]
  simp only [hw, List.map_nil, List.sum_nil, zero_add, and_self]
end Verif
