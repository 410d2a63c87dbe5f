import Verif.Lemmas.Demo
import Verif.Model.DirichletProcess
import Verif.Model.PitmanYor
import Verif.Model.Geometric
import Verif.Model.Finite
import Verif.Model.BetaInBeta
import Verif.Model.BetaBinomial
import Verif.Model.BetaBernoulli
import Verif.Model.BetaInDirichlet
import Verif.Lemmas.Wp

/-!
# C31: undetermined size is rejected

`random()` without a size on an infinite model without labels raises `ValueError`; object and generator are exactly as before.  Every state
without labels (in particular every object after `reset()`, whatever the history), every generator.
-/

set_option linter.unusedSectionVars false

namespace Verif
variable {K : Type} [Field K] [LinearOrder K]

/-- `random()` raises `ValueError` and changes nothing, in every state without labels. -/
def Undetermined (C : WeightCore K) : Prop :=
  ∀ (ω : Oracle K) (s : C.State × ℕ), C.getD s.1 = [] → C.random .none ω s = (.error .valueError, s)

theorem C31_dirichletProcess : Undetermined (DP.core (K := K)) := fun ω (s : DP K × ℕ) (h : s.1.d = []) => by
  show DP.random .none ω s = _
  unfold DP.random; rw [M.bind_apply]; simp [M.self, h]; rfl
theorem C31_pitmanYor : Undetermined (PY.core (K := K)) := fun ω (s : PY K × ℕ) (h : s.1.d = []) => by
  show PY.random .none ω s = _
  unfold PY.random; rw [M.bind_apply]; simp [M.self, h]; rfl
theorem C31_geometric : Undetermined (Geo.core (K := K)) := fun ω (s : Geo K × ℕ) (h : s.1.d = []) => by
  show Geo.random .none ω s = _
  unfold Geo.random; rw [M.bind_apply]; simp [M.self, h]; rfl
theorem C31_betaInBeta : Undetermined (BIB.core (K := K)) := fun ω (s : BIB K × ℕ) (h : s.1.d = []) => by
  show BIB.random .none ω s = _
  unfold BIB.random; rw [M.bind_apply]; simp [M.self, h]; rfl
theorem C31_betaBinomial : Undetermined (BBin.core (K := K)) := fun ω (s : BBin K × ℕ) (h : s.1.d = []) => by
  show BBin.random .none ω s = _
  unfold BBin.random; rw [M.bind_apply]; simp [M.self, h]; rfl
theorem C31_betaBernoulli : Undetermined (BBer.core (K := K)) := fun ω (s : BBer K × ℕ) (h : s.1.d = []) => by
  show BBer.random .none ω s = _
  unfold BBer.random; rw [M.bind_apply]; simp [M.self, h]; rfl
theorem C31_betaInDirichlet (F : SpecFun K) : Undetermined (BID.core F) := fun ω (s : BID K × ℕ) (h : s.1.d = []) => by
  show BID.random F .none ω s = _
  unfold BID.random; rw [M.bind_apply]; simp [M.self, h]; rfl

/-- After any history followed by `reset()`: the case the statement mentions, for every class that satisfies `Undetermined`. -/
theorem C31_reset {C : WeightClass K} (h : Undetermined C.toWeightCore) (hset : ∀ d s, C.getD (C.setD d s) = d) (ω : Oracle K) (log : K → K)
    (s : C.State × ℕ) (ops : List (WOp K)) :
    C.random .none ω (C.run log ω s (ops ++ [.reset])) = (.error .valueError, C.run log ω s (ops ++ [.reset])) := by
  refine h ω _ ?_
  unfold WeightClass.run
  rw [List.foldl_append]
  exact hset _ _

/-! Non-vacuity: with labels, or for a finite model, the call returns. -/
example : (DP.random .none (demo : Oracle ℚ) ({ DP.init 1 with d := [0] }, 0)).1 = .ok [1/2] := by decide +kernel
example : (Equal.random .none (demo : Oracle ℚ) (Equal.init 2, 0)).1 = .ok [1/2, 1/2] := by decide +kernel
example : (DP.cls.run id (demo : Oracle ℚ) (DP.init 1, 0) [.fit [0], .random .none, .reset]).1.d = [] := by decide +kernel
end Verif
