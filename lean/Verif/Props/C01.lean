import Verif.Lemmas.Stable
import Verif.Lemmas.Demo

/-!
# C01: weights are always a sub-probability vector

For each of the ten weight classes: whatever calls were made (with whatever arguments, fitted labels, exceptions and
generator answers), `get_weights()` has non-negative entries and total at most one.  The numeric hyper-parameters are
unrestricted (illegal ones make the draws raise); the constructor value of `p` must be a probability where there is one.
-/

set_option linter.unusedSectionVars false

namespace Verif
open Spec
variable {K : Type} [Field K] [LinearOrder K] [IsStrictOrderedRing K]

section
variable (log : K → K) {ω : Oracle K} (hω : ω.Legal) (pos : ℕ) (ops : List (WOp K))
include hω

theorem C01_dirichletProcess (alpha : K) :
    SubProb (DP.cls.run log ω (DP.init alpha, pos) ops).1.w :=
  (WeightCore.run_keeps (DP.stable hω) log ops (DP.init alpha, pos) ⟨Unit01.nil, SubProb.nil⟩).2

theorem C01_pitmanYor (pyd alpha : K) (s : PY K) (hs : PY.init pyd alpha = .ok s) :
    SubProb (PY.cls.run log ω (s, pos) ops).1.w := by
  refine (WeightCore.run_keeps (PY.stable hω) log ops (s, pos) ?_).2
  unfold PY.init at hs
  split at hs <;> cases hs
  exact ⟨Unit01.nil, SubProb.nil⟩

theorem C01_betaInBeta (x alpha a b p : K) (m : PMethod) (s : BIB K) (hp : 0 ≤ p ∧ p ≤ 1)
    (hs : BIB.init x alpha a b p m = .ok s) :
    SubProb (BIB.cls.run log ω (s, pos) ops).1.w := by
  refine (WeightCore.run_keeps (BIB.stable hω) log ops (s, pos) ?_).2.1
  unfold BIB.init at hs
  split at hs <;> cases hs
  exact ⟨Unit01.nil, SubProb.nil, hp⟩

theorem C01_betaInDirichlet (F : SpecFun K) (alpha a : K) :
    SubProb ((BID.cls F).run log ω (BID.init alpha a, pos) ops).1.w :=
  (WeightCore.run_keeps (BID.stable hω F) log ops (BID.init alpha a, pos) ⟨Unit01.nil, SubProb.nil, Unit01.nil⟩).2.1

theorem C01_betaBinomial (n : ℤ) (alpha : K) :
    SubProb (BBin.cls.run log ω (BBin.init n alpha, pos) ops).1.w :=
  (WeightCore.run_keeps (BBin.stable hω) log ops (BBin.init n alpha, pos) ⟨Unit01.nil, SubProb.nil⟩).2

theorem C01_betaBernoulli (p alpha : K) :
    SubProb (BBer.cls.run log ω (BBer.init p alpha, pos) ops).1.w :=
  (WeightCore.run_keeps (BBer.stable hω) log ops (BBer.init p alpha, pos) ⟨Unit01.nil, SubProb.nil⟩).2

theorem C01_dirichletDistribution (n : ℤ) (alpha : List K) :
    SubProb (DirDist.cls.run log ω (DirDist.initList n alpha, pos) ops).1.w :=
  WeightCore.run_keeps (DirDist.stable hω) log ops (DirDist.initList n alpha, pos) SubProb.nil

theorem C01_dirichletDistribution_scalar (n : ℤ) (alpha : K) :
    SubProb (DirDist.cls.run log ω (DirDist.initScalar n alpha, pos) ops).1.w :=
  WeightCore.run_keeps (DirDist.stable hω) log ops (DirDist.initScalar n alpha, pos) SubProb.nil

omit hω in
theorem C01_equalWeighting (n : ℤ) :
    SubProb (Equal.cls.run log ω (Equal.init n, pos) ops).1.w :=
  WeightCore.run_keeps Equal.stable log ops (Equal.init n, pos) SubProb.nil

omit hω in
theorem C01_frequencyWeighting (n : ℤ) :
    SubProb (Freq.cls.run log ω (Freq.init n, pos) ops).1.w :=
  WeightCore.run_keeps Freq.stable log ops (Freq.init n, pos) SubProb.nil
end

/-- The geometric process overrides `tail` with logarithms, hence the reals. -/
theorem C01_geometric (log : ℝ → ℝ) {ω : Oracle ℝ} (hω : ω.Legal) (pos : ℕ) (ops : List (WOp ℝ)) (a b p0 : ℝ)
    (hp : 0 ≤ p0 ∧ p0 ≤ 1) :
    SubProb (Geo.cls.run log ω (Geo.init a b p0, pos) ops).1.w :=
  (WeightClass.run_keeps (C := Geo.cls) (Geo.stable hω) (fun _ x => Geo.tail_keeps x) log ops
    (Geo.init a b p0, pos) ⟨Unit01.nil, SubProb.nil, hp⟩).2.1

/-! Non-vacuity: a legal generator exists and the histories really produce weights, also after failing calls. -/

example : (DP.cls.run id (demo : Oracle ℚ) (DP.init 1, 0)
    [.fit [0, 2, 2], .random .none, .random .other, .complete (.int 4), .tail 9 (1/2)]).1.w
    = [1/2, 1/6, 1/12, 1/20] := by decide +kernel

example : (BBin.cls.run id (demo : Oracle ℚ) (BBin.init 3 1, 0)
    [.random .none, .random (.int 2), .fit [1], .random .none, .complete (.int 3)]).1.w = [1/13, 6/91, 3/56] := by
  decide +kernel

example : (BID.cls ⟨id, id⟩ |>.run id (demo : Oracle ℚ) (BID.init 1 1, 0)
    [.random (.int 2), .fit [1, 0], .random .none]).1.w ≠ [] := by decide +kernel

example : (Freq.cls.run id (demo : Oracle ℚ) (Freq.init 3, 0) [.fit [0, 2, 2], .random .none]).1.w = [1/3, 0, 2/3] := by
  decide +kernel

example : SubProb (BIB.cls.run id (demo : Oracle ℚ)
    ({ x := 1/2, alpha := 1, a := 1, b := 1, p := 0, pMethod := .geometric, v := [], w := [], d := [] }, 0)
    [.fit [0, 1], .random .none, .complete (.int 3)]).1.w :=
  C01_betaInBeta id demo_legal 0 _ (1/2) 1 1 1 0 .geometric _ ⟨le_refl _, zero_le_one⟩ rfl

end Verif
