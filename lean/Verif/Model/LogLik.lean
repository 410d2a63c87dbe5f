import Verif.Model.DirichletProcess
import Verif.Model.PitmanYor
import Verif.Model.BetaInBeta
import Verif.Model.Geometric
import Verif.Model.BetaBernoulli
import Verif.Model.BetaBinomial
import Verif.Model.Finite

/-!
# `weighting_log_likelihood` of the weight classes

The log-densities of scipy (`pyrichlet/utils/functions.py:6-15`) are parameters with values in a commutative additive monoid `L` (so that minus
infinity and nan are values like any other).  A division by a zero array scalar (numpy: nan with a warning) is `0` here; the theorems exclude it.
-/

namespace Verif
variable {K L : Type}

/-- `log_likelihood_beta`, `log_likelihood_binom`, `log_likelihood_beta_binom`, `pyrichlet/utils/functions.py:6-15`, and `b * np.log(p)`. -/
structure Dens (K L : Type) where
  beta : K → K → K → L
  binom : ℤ → ℤ → K → L
  betaBinom : ℤ → ℤ → K → K → L
  timesLog : ℤ → K → L

section
variable [Field K] [AddCommMonoid L]

/-- `for wj in self.w[1:]`, `_dirichlet_process.py:19-22` and `_beta_in_beta.py:32-35`. -/
def DP.wllLoop (D : Dens K L) (a b : K) (ret : L) (prodV : K) : List K → L
  | [] => ret
  | wj :: ws => DP.wllLoop D a b (ret + D.beta (wj / prodV) a b) (prodV * (1 - wj / prodV)) ws

/-- `DirichletProcess.weighting_log_likelihood`, `_dirichlet_process.py:15-23`; `self.w[0]` raises `IndexError` without weights. -/
def DP.weightingLogLikelihood (D : Dens K L) (s : DP K) : Except PyErr L :=
  match s.w with
  | [] => .error .indexError
  | v :: ws => .ok (DP.wllLoop D 1 s.alpha (D.beta v 1 s.alpha) (1 - v) ws)

/-- `for j in range(1, len(self.w))`, `_pitman_yor_process.py:22-26`. -/
def PY.wllLoop (D : Dens K L) (pyd alpha : K) (j : ℕ) (ret : L) (prodV : K) : List K → L
  | [] => ret
  | wj :: ws => PY.wllLoop D pyd alpha (j + 1) (ret + D.beta (wj / prodV) (1 - pyd) (alpha + (j : K) * pyd)) (prodV * (1 - wj / prodV)) ws

/-- `PitmanYorProcess.weighting_log_likelihood`, `_pitman_yor_process.py:18-27`. -/
def PY.weightingLogLikelihood (D : Dens K L) (s : PY K) : Except PyErr L :=
  match s.w with
  | [] => .error .indexError
  | v :: ws => .ok (PY.wllLoop D s.pyd s.alpha 1 (D.beta v (1 - s.pyd) s.alpha) (1 - v) ws)

/-- `BetaInBeta.weighting_log_likelihood`, `_beta_in_beta.py:26-40`; `x / (1 - x)` raises for `x = 1` (Python numbers). -/
def BIB.weightingLogLikelihood [DecidableEq K] (D : Dens K L) (s : BIB K) : Except PyErr L :=
  match s.w with
  | [] => .error .indexError
  | v :: ws =>
    if s.x = 1 then .error .zeroDivisionError
    else
      let a := 1 + s.x / (1 - s.x) * s.p
      let b := s.alpha + s.x / (1 - s.x) * (1 - s.p)
      .ok (DP.wllLoop D a b (D.beta v a b) (1 - v) ws + D.beta s.p s.a s.b)

/-- `GeometricProcess.weighting_log_likelihood`, `_geometric_process.py:18-20`. -/
def Geo.weightingLogLikelihood (D : Dens K L) (s : Geo K) : L := D.beta s.p s.a s.b

/-- `_bernoulli_structure_log_likelihood`, `_beta_bernoulli.py:21-27`. -/
def BBer.bernoulliLL [DecidableEq K] (D : Dens K L) (s : BBer K) : L :=
  if s.p = 0 then 0 else (s.bernoullis.map (fun b => D.timesLog b s.p)).sum

/-- `for j in range(1, len(self.v))`, `_beta_bernoulli.py:31-33`: the remaining sticks and the remaining Bernoulli variables. -/
def BBer.betaLoop (D : Dens K L) (alpha : K) (ret : L) : List K → List ℤ → Except PyErr L
  | [], _ => .ok ret
  | _ :: _, [] => .error .indexError
  | v :: vs, b :: bs => BBer.betaLoop D alpha (if b = 0 then ret + D.beta v 1 alpha else ret) vs bs

/-- `_beta_structure_log_likelihood`, `_beta_bernoulli.py:29-34`. -/
def BBer.betaLL (D : Dens K L) (s : BBer K) : Except PyErr L :=
  match s.v with
  | [] => .error .indexError
  | v :: vs => BBer.betaLoop D s.alpha (D.beta v 1 s.alpha) vs s.bernoullis.tail

/-- `BetaBernoulli.weighting_log_likelihood`, `_beta_bernoulli.py:16-19`. -/
def BBer.weightingLogLikelihood [DecidableEq K] (D : Dens K L) (s : BBer K) : Except PyErr L :=
  match BBer.betaLL D s with
  | .error e => .error e
  | .ok y => .ok (BBer.bernoulliLL D s + y)

/-- `for j in range(1, len(self.v) - 1)`, `_beta_binomial.py:20-25`: the sticks `v[1..]` without the last, the binomials `[1..]`.  The result also
holds the last `b`. -/
def BBin.wllLoop (D : Dens K L) (alpha : K) (n : ℤ) (res : L) (b : ℤ) : List K → List ℤ → Except PyErr (L × ℤ)
  | [], _ => .ok (res, b)
  | _ :: _, [] => .error .indexError
  | v :: vs, b' :: bs => BBin.wllLoop D alpha n (res + D.beta v (1 + (b : K)) (alpha + (n : K) - (b : K)) + D.binom b' n v) b' vs bs

/-- `BetaBinomial.weighting_log_likelihood`, `_beta_binomial.py:17-29`. -/
def BBin.weightingLogLikelihood (D : Dens K L) (s : BBin K) : Except PyErr L :=
  match s.binomials with
  | [] => .error .indexError
  | b0 :: bs =>
    match BBin.wllLoop D s.alpha s.n (D.betaBinom b0 s.n 1 s.alpha) b0 s.v.tail.dropLast bs with
    | .error e => .error e
    | .ok (res, b) =>
      match s.v.getLast? with
      | none => .error .indexError
      | some v => .ok (res + D.beta v (1 + (b : K)) (s.alpha + (s.n : K) - (b : K)))

/-- `EqualWeighting.weighting_log_likelihood`, `_equal.py:12-13`; the same in `_frequency.py:12-13`. -/
def Equal.weightingLogLikelihood (_s : Equal K) : L := 0
end
end Verif
