import Verif.Model.Variational
import Verif.Model.BetaInBeta
import Verif.Model.BetaInDirichlet
import Verif.Model.Float
import Mathlib.Data.List.Sort

/-!
# `pyrichlet/utils/functions.py:18-24`, the likelihoods of `pyrichlet/weight_models/_beta_in_beta.py:148-195` and `BetaInDirichlet.weighting_log_likelihood`

Block sizes are natural numbers.  The log-density of the Beta distribution is a parameter.  In the part on `BetaInBeta` its values are in a
commutative additive monoid `L`, and `bot` is minus infinity.
-/

namespace Verif
variable {K L : Type}

/-- `loggamma` of scipy for a real argument: infinite at 0, nan below. -/
def lgammaFl [Zero K] [LinearOrder K] (lg : K → K) (x : K) : Fl K := if x < 0 then .nan else if x = 0 then .pinf else .fin (lg x)

/-- `dirichlet_log_eppf`, `utils/functions.py:18-24`. -/
def dirichletLogEppf [Field K] [LinearOrder K] (F : VarFun K) (alpha : K) (partition : List ℕ) : Fl K :=
  ((lgammaFl F.lgamma alpha).sub (lgammaFl F.lgamma (alpha + ((partition.sum : ℕ) : K)))).add
    (Fl.scale (partition.length : K) (Fl.log F.log (.fin alpha))) |>.add
    (Fl.sum (partition.map (fun c : ℕ => lgammaFl F.lgamma (c : K))))

/-- `np.unique(v, return_counts=True)`: the distinct values in increasing order, with their multiplicities. -/
def uniqueCounts [LinearOrder K] (v : List K) : List (K × ℕ) := (v.dedup.mergeSort (fun x y => decide (x ≤ y))).map (fun x => (x, v.count x))

/-- `BetaInDirichlet.weighting_log_likelihood`, `_beta_in_dirichlet.py:19-25`. -/
def BID.weightingLogLikelihood [Field K] [LinearOrder K] (beta : K → K → K → Fl K) (F : VarFun K) (s : BID K) : Fl K :=
  ((uniqueCounts s.v).foldl (fun (ret : Fl K) x => ret.add (beta x.1 1 s.alpha)) (Fl.fin 0)).add (dirichletLogEppf F s.a ((uniqueCounts s.v).map Prod.snd))

namespace BIB
variable [Field K] [LinearOrder K] [AddCommMonoid L]

/-- `_weight_log_likelihood`, `_beta_in_beta.py:162-186`, with `alpha` as given (the arguments `a` and `b` are not used, and `None` for one of them
resets `alpha`; no caller passes another `alpha`).  `x / (1 - x)` is not evaluated for `x = 1`. -/
def weightLL (beta : K → K → K → L) (bot : L) (v : List K) (p x alpha : K) : L :=
  if x = 1 then
    match v with
    | [] => 0
    | v0 :: vs => if vs.all (fun y => decide (y = v0)) then 0 else bot
  else (v.map (fun y => beta y (1 + x / (1 - x) * p) (alpha + x / (1 - x) * (1 - p)))).sum

/-- `_structure_log_likelihood(p=p)`, `_beta_in_beta.py:148-160`, with `_p_log_likelihood`, 188-195: the function of `p` that `random_p` optimises. -/
def structureLL (beta : K → K → K → L) (bot : L) (s : BIB K) (p : K) : L :=
  weightLL beta bot s.v p s.x s.alpha + beta p s.a s.b

end BIB
end Verif
