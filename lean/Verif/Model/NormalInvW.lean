import Verif.Model.Gibbs
import Mathlib.Analysis.SpecialFunctions.Gamma.Basic
import Mathlib.LinearAlgebra.Matrix.NonsingularInverse

/-!
# Log-densities of the atoms

`log_likelihood_normal_invw` (`mixture_models/_utils.py:17-20`) and `_theta_log_likelihood` (`mixture_models/_base.py:959-972`), over the real numbers.  Scipy's
`multivariate_normal.logpdf` and `invwishart.logpdf` are given by the formulas in scipy's documentation, for a positive definite covariance (scipy raises otherwise; not
modelled).
-/

namespace Verif.Mix
open Real
variable {m : ℕ}

/-- `(x - mu)' P (x - mu)`. -/
noncomputable def quad (P : Matrix (Fin m) (Fin m) ℝ) (x mu : Fin m → ℝ) : ℝ := ∑ i, ∑ j, P i j * ((x i - mu i) * (x j - mu j))

/-- `multivariate_normal.logpdf(x, mu, sigma)`, called in `_utils.py:19` and `_base.py:920-932`. -/
noncomputable def logNormal (x mu : Fin m → ℝ) (sigma : Matrix (Fin m) (Fin m) ℝ) : ℝ :=
  -(m * log (2 * π) + log sigma.det + quad sigma⁻¹ x mu) / 2

/-- `scipy.special.multigammaln(a, m)`, used by `invwishart.logpdf`. -/
noncomputable def multigammaln (a : ℝ) (m : ℕ) : ℝ := m * (m - 1) / 4 * log π + ∑ i : Fin m, log (Gamma (a - (i : ℕ) / 2))

/-- `invwishart.logpdf(sigma, nu, psi)`, called in `_utils.py:18`. -/
noncomputable def logInvWishart (sigma : Matrix (Fin m) (Fin m) ℝ) (nu : ℝ) (psi : Matrix (Fin m) (Fin m) ℝ) : ℝ :=
  nu / 2 * log psi.det - nu * m / 2 * log 2 - multigammaln (nu / 2) m - (nu + m + 1) / 2 * log sigma.det - (psi * sigma⁻¹).trace / 2

/-- `log_likelihood_normal_invw(mu, sigma, mu0, lam0, psi0, nu0)`, `_utils.py:17-20`. -/
noncomputable def logNIW (mu : Fin m → ℝ) (sigma : Matrix (Fin m) (Fin m) ℝ) (p : NIW ℝ m) : ℝ :=
  logInvWishart sigma p.nu (Matrix.of p.psi) + logNormal mu p.mu (p.lam⁻¹ • sigma)

/-- `_theta_log_likelihood`, `_base.py:959-972`: the sum over the occupied components, in increasing order; `KeyError` if one has no atom.  An atom is a pair of mean and
covariance. -/
noncomputable def thetaLogLik (p : NIW ℝ m) (theta : List (ℕ × ((Fin m → ℝ) × Matrix (Fin m) (Fin m) ℝ))) : List ℕ → Except PyErr ℝ
  | [] => .ok 0
  | j :: js => match theta.lookup j with
    | none => .error .keyError
    | some a => match thetaLogLik p theta js with
      | .error e => .error e
      | .ok r => .ok (logNIW a.1 a.2 p + r)

end Verif.Mix
