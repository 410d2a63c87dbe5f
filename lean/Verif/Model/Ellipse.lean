import Mathlib.LinearAlgebra.Matrix.Notation
import Mathlib.LinearAlgebra.Matrix.NonsingularInverse
import Mathlib.Analysis.SpecialFunctions.Trigonometric.Basic
import Mathlib.Analysis.SpecialFunctions.Log.Basic

/-!
# The colours and the ellipses of `gibbs_map_pairplot`

`/repo/pyrichlet/mixture_models/_base.py:400-406` (colour table, radius) and `469-486` (ellipses), over the real numbers.  `scipy.linalg.ldl` and the colour map of matplotlib are external: the first
is specified by what it returns, the second by its documented lookup.
-/

namespace Verif.Mix

/-- `plt.get_cmap('tab10')(np.linspace(0, 1, n))[i]` as one of the ten colours of the map, `_base.py:401-406`: `x` in `[0, 1]` is looked up at `int(10 * x)`, and `1` at the last colour. -/
def tabColour (n i : ℕ) : ℕ := min (10 * i / (n - 1)) 9

/-- What `scipy.linalg.ldl(sigma)` returns for a symmetric positive definite `sigma` of two rows: `sigma = lu @ d @ lu.T` with a diagonal `d` of non-negative entries and a unit lower triangular `lu`, or
one whose rows are exchanged when the second entry is the pivot. -/
structure IsLdl (sigma lu d : Matrix (Fin 2) (Fin 2) ℝ) : Prop where
  eq : sigma = lu * d * lu.transpose
  diag : d 0 1 = 0 ∧ d 1 0 = 0
  nonneg : 0 ≤ d 0 0 ∧ 0 ≤ d 1 1
  lower : (∃ l, lu = !![1, 0; l, 1]) ∨ ∃ l, lu = !![l, 1; 1, 0]

/-- `np.sqrt(d)`, entry by entry, `_base.py:475`. -/
noncomputable def sqrtEntries (d : Matrix (Fin 2) (Fin 2) ℝ) : Matrix (Fin 2) (Fin 2) ℝ := fun i j => √(d i j)

/-- `sig_sq`, `_base.py:474-476`. -/
noncomputable def sigSq (lu d : Matrix (Fin 2) (Fin 2) ℝ) : Matrix (Fin 2) (Fin 2) ℝ := lu * sqrtEntries d * lu.transpose

/-- A point of the dashed curve, `_base.py:477-482`: the row `(cos t, sin t) * radius` times `sig_sq`, plus the mean. -/
noncomputable def ellipsePoint (radius : ℝ) (mu : Fin 2 → ℝ) (lu d : Matrix (Fin 2) (Fin 2) ℝ) (t : ℝ) : Fin 2 → ℝ :=
  Matrix.vecMul (radius • ![Real.cos t, Real.sin t]) (sigSq lu d) + mu

/-- `np.linspace(0, 2 * np.pi, 100)[k]`, `_base.py:478-480`. -/
noncomputable def ellipseAngle (k : ℕ) : ℝ := k * (2 * Real.pi / 99)

/-- `alpha_radius`, `_base.py:399-400`: the quantile function of the chi-squared law with two degrees of freedom is `-2 * log (1 - q)`. -/
noncomputable def alphaRadius : ℝ := √(-2 * Real.log 0.05)
end Verif.Mix
