import Verif.Lemmas.VarFit
import Mathlib.Analysis.SpecialFunctions.Gamma.Deriv
import Mathlib.Analysis.SpecialFunctions.Pow.Real
import Mathlib.Analysis.SpecialFunctions.Sqrt

/-! # The special functions over the real numbers -/

namespace Verif.Mix

/-- numpy's and scipy's functions, as real functions. -/
noncomputable def realFun : MathFun ℝ where
  digamma := logDeriv Real.Gamma
  lgamma := fun x => Real.log (Real.Gamma x)
  log := Real.log
  exp := Real.exp
  sqrt := Real.sqrt
  pow := fun x y => x ^ y
  pi := Real.pi

theorem realFun_sane : Sane realFun where
  exp_pos := Real.exp_pos
  exp_lt := fun _ _ h => Real.exp_lt_exp.2 h
  sqrt_pos := fun _ h => Real.sqrt_pos.2 h
end Verif.Mix
