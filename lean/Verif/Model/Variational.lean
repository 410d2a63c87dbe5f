import Verif.Model.Base

/-!
# The variational parts of the weight classes

`_dirichlet_process.py:59-153`, `_pitman_yor_process.py:73-168`, `_geometric_process.py:47-126`, `_dirichlet_distribution.py:46-124`,
`_equal.py:22-48`, `_frequency.py:26-69`.

The matrix `variational_d` is the list of its rows (`variational_d[j]` belongs to component `j`, its entries to the observations).  `digamma`,
`loggamma` and `log` are parameters.  The component index is a natural number (Python's negative indices are not modelled).
A result that may be minus infinity (or nan, `0 * -inf`) is an `Option`.
-/

namespace Verif
variable {K : Type}

/-- Special functions used by the variational formulas: `scipy.special.digamma`, `loggamma`, `np.log`. -/
structure VarFun (K : Type) where
  digamma : K → K
  lgamma : K → K
  log : K → K

/-- `mean_log_beta`, `pyrichlet/utils/functions.py:27-28`. -/
def meanLogBeta [Field K] (F : VarFun K) (a b : K) : K := F.digamma a - F.digamma (a + b)

/-- `np.sum(variational_d, 1)`. -/
def rowSums [Field K] (q : List (List K)) : List K := q.map List.sum

/-- What `fit_variational` stores for the stick-breaking classes: `variational_d` and `variational_params` (`variational_k` is the number of rows). -/
structure Var (K : Type) where
  d : List (List K)
  params : List (K × K)

/-- `self.variational_k`. -/
def Var.k (v : Var K) : ℕ := v.d.length

/-- `for jj in range(j): res = g(res, params[jj])`; an index beyond the end raises `IndexError`. -/
def foldTo {α β : Type} (g : β → α → β) (init : β) (ps : List α) : ℕ → Except PyErr β
  | 0 => .ok init
  | j + 1 => match foldTo g init ps j with
    | .error e => .error e
    | .ok r => match ps[j]? with
      | some p => .ok (g r p)
      | none => .error .indexError

/-- `for j, nj in enumerate(np.sum(variational_d, 1)): res += nj * self.variational_mean_log_w_j(j)`, e.g. `_dirichlet_process.py:89-92`;
the first argument is the index of the next row. -/
def meanLogPdLoop [Field K] (f : ℕ → Except PyErr (Option K)) : ℕ → Option K → List K → Except PyErr (Option K)
  | _, res, [] => .ok res
  | j, res, nj :: ns => match f j with
    | .error e => .error e
    | .ok y => meanLogPdLoop f (j + 1) (match res, y with | some r, some y => some (r + nj * y) | _, _ => none) ns

/-- Choice of the matrix argument, e.g. `_dirichlet_process.py:83-88`. -/
def pickMatrix (own : Option (List (List K))) (arg : Option (List (List K))) : Except PyErr (List (List K)) :=
  match arg, own with
  | some q, _ => .ok q
  | none, some q => .ok q
  | none, none => .error .notFittedError

namespace DP
variable [Field K] [LinearOrder K]

/-- `fit_variational`, `_dirichlet_process.py:59-67`. -/
def fitVariational (alpha : K) (q : List (List K)) : Var K :=
  { d := q, params := List.zipWith (fun a b => (1 + a, alpha + b)) (rowSums q) (revTails (rowSums q)) }

/-- `variational_mean_log_w_j`, `_dirichlet_process.py:69-81`. -/
def meanLogWj (F : VarFun K) (v : Option (Var K)) (j : ℕ) : Except PyErr (Option K) :=
  match v with
  | none => .error .notFittedError
  | some v =>
    if v.k ≤ j then .ok none
    else match foldTo (fun r p => r + meanLogBeta F p.2 p.1) 0 v.params j with
    | .error e => .error e
    | .ok res =>
      if j + 1 < v.k then
        match v.params[j]? with
        | none => .error .indexError
        | some p => .ok (some (res + meanLogBeta F p.1 p.2))
      else .ok (some res)

/-- `variational_mean_log_p_d__w`, `_dirichlet_process.py:83-93`. -/
def meanLogPd (F : VarFun K) (v : Option (Var K)) (arg : Option (List (List K))) : Except PyErr (Option K) :=
  match pickMatrix (v.map Var.d) arg with
  | .error e => .error e
  | .ok q => meanLogPdLoop (meanLogWj F v) 0 (some 0) (rowSums q)

/-- `variational_mean_log_p_w`, `_dirichlet_process.py:95-103`. -/
def meanLogPw (F : VarFun K) (alpha : K) (v : Option (Var K)) : Except PyErr K :=
  match v with
  | none => .error .notFittedError
  | some v => .ok ((v.params.dropLast.map (fun p => meanLogBeta F p.2 p.1)).sum * (alpha - 1) + (v.k : K) * F.log alpha)

/-- One summand of `variational_mean_log_q_w`, `_dirichlet_process.py:109-113`. -/
def qTerm (F : VarFun K) (p : K × K) : K :=
  (p.1 - 1) * meanLogBeta F p.1 p.2 + (p.2 - 1) * meanLogBeta F p.2 p.1 + F.lgamma (p.1 + p.2) - (F.lgamma p.1 + F.lgamma p.2)

/-- `variational_mean_log_q_w`, `_dirichlet_process.py:105-114`. -/
def meanLogQw (F : VarFun K) (v : Option (Var K)) : Except PyErr K :=
  match v with
  | none => .error .notFittedError
  | some v => .ok ((v.params.dropLast.map (qTerm F)).sum)

/-- `variational_mean_w_j`, `_dirichlet_process.py:116-126`. -/
def meanWj (v : Var K) (j : ℕ) : Except PyErr K :=
  if v.k ≤ j then .ok 0
  else match foldTo (fun r p => r * (p.2 / (p.1 + p.2))) 1 v.params j with
  | .error e => .error e
  | .ok res =>
    if j + 1 < v.k then
      match v.params[j]? with
      | none => .error .indexError
      | some p => .ok (res * (p.1 / (p.1 + p.2)))
    else .ok res

/-- The loop `for jj in range(j)` of `variational_mode_w_j`, `_dirichlet_process.py:132-141`, on the remaining indices' parameters; `none` is
the early `return 0`. -/
def modeLoop (res : K) : List (K × K) → Except PyErr (Option K)
  | [] => .ok (some res)
  | p :: ps =>
    if p.2 ≤ 1 then (if p.1 ≤ 1 then .error .valueError else .ok none)
    else if p.1 ≤ 1 then modeLoop res ps
    else modeLoop (res * ((p.2 - 1) / (p.1 + p.2 - 2))) ps

/-- The factor of component `j`, `_dirichlet_process.py:144-153`. -/
def modeFactor (res : K) (p : K × K) : Except PyErr K :=
  if p.1 ≤ 1 then (if p.2 ≤ 1 then .error .valueError else .ok 0)
  else if p.2 ≤ 1 then .ok res
  else .ok (res * ((p.1 - 1) / (p.1 + p.2 - 2)))

/-- `variational_mode_w_j`, `_dirichlet_process.py:128-153`. -/
def modeWj (v : Var K) (j : ℕ) : Except PyErr K :=
  if v.k ≤ j then .ok 0
  else match modeLoop 1 (v.params.take j) with
  | .error e => .error e
  | .ok none => .ok 0
  | .ok (some res) =>
    if j + 1 = v.k then .ok res
    else match v.params[j]? with
      | none => .error .indexError
      | some p => modeFactor res p
end DP

namespace PY
variable [Field K] [LinearOrder K]

/-- `fit_variational`, `_pitman_yor_process.py:73-83`. -/
def fitVariational (pyd alpha : K) (q : List (List K)) : Var K :=
  { d := q
    params := List.zipWith (fun a jb => (1 - pyd + a, alpha + (1 + (jb.1 : ℕ) : K) * pyd + jb.2)) (rowSums q)
      (List.zip (List.range q.length) (revTails (rowSums q))) }

/-- `variational_mean_log_w_j`, `_pitman_yor_process.py:85-95`; no range check. -/
def meanLogWj (F : VarFun K) (v : Option (Var K)) (j : ℕ) : Except PyErr (Option K) :=
  match v with
  | none => .error .notFittedError
  | some v => match foldTo (fun r p => r + meanLogBeta F p.2 p.1) 0 v.params j with
    | .error e => .error e
    | .ok res => match v.params[j]? with
      | none => .error .indexError
      | some p => .ok (some (res + meanLogBeta F p.1 p.2))

/-- `variational_mean_log_p_d__w`, `_pitman_yor_process.py:97-107`. -/
def meanLogPd (F : VarFun K) (v : Option (Var K)) (arg : Option (List (List K))) : Except PyErr (Option K) :=
  match pickMatrix (v.map Var.d) arg with
  | .error e => .error e
  | .ok q => meanLogPdLoop (meanLogWj F v) 0 (some 0) (rowSums q)

/-- One summand of `variational_mean_log_p_w`, `_pitman_yor_process.py:113-120`. -/
def pTerm (F : VarFun K) (pyd alpha : K) (j : ℕ) (p : K × K) : K :=
  meanLogBeta F p.1 p.2 * -pyd + meanLogBeta F p.2 p.1 * (alpha + ((j : K) + 1) * pyd - 1)
    + F.lgamma (alpha + (j : K) * pyd + 1) - F.lgamma (alpha + ((j : K) + 1) * pyd + 1) - F.lgamma (1 - pyd)

/-- `variational_mean_log_p_w`, `_pitman_yor_process.py:109-121`. -/
def meanLogPw (F : VarFun K) (pyd alpha : K) (v : Option (Var K)) : Except PyErr K :=
  match v with
  | none => .error .notFittedError
  | some v => .ok ((v.params.mapIdx (fun j p => pTerm F pyd alpha j p)).sum)

/-- `variational_mean_log_q_w`, `_pitman_yor_process.py:123-132`. -/
def meanLogQw (F : VarFun K) (v : Option (Var K)) : Except PyErr K :=
  match v with
  | none => .error .notFittedError
  | some v => .ok ((v.params.map (DP.qTerm F)).sum)

/-- `variational_mean_w_j`, `_pitman_yor_process.py:134-142`; the test is `j > variational_k`. -/
def meanWj (v : Var K) (j : ℕ) : Except PyErr K :=
  if v.k < j then .ok 0
  else match foldTo (fun r p => r * (p.2 / (p.1 + p.2))) 1 v.params j with
  | .error e => .error e
  | .ok res => match v.params[j]? with
    | none => .error .indexError
    | some p => .ok (res * (p.1 / (p.1 + p.2)))

/-- `variational_mode_w_j`, `_pitman_yor_process.py:144-168`. For `j = variational_k` the loop runs first. -/
def modeWj (v : Var K) (j : ℕ) : Except PyErr K :=
  if v.k < j then .ok 0
  else match DP.modeLoop 1 (v.params.take j) with
  | .error e => .error e
  | .ok none => .ok 0
  | .ok (some res) => match v.params[j]? with
    | none => .error .indexError
    | some p => DP.modeFactor res p
end PY

/-- What `GeometricProcess.fit_variational` stores. -/
structure GVar (K : Type) where
  d : List (List K)
  a : K
  b : K

namespace Geo
variable [Field K] [LinearOrder K]

/-- `fit_variational`, `_geometric_process.py:47-56`; `variational_d[0]` raises without rows. -/
def fitVariational (a b : K) (q : List (List K)) : Except PyErr (GVar K) :=
  match q with
  | [] => .error .indexError
  | r0 :: _ => .ok
    { d := q
      a := a + ((max r0.length 1 : ℕ) : K) - 1
      b := b + ((q.drop 1).mapIdx (fun j r => (r.map (fun x => x * ((j + 1 : ℕ) : K))).sum)).sum }

/-- `variational_mean_log_w_j`, `_geometric_process.py:58-68`. -/
def meanLogWj (F : VarFun K) (v : Option (GVar K)) (j : ℕ) : Except PyErr (Option K) :=
  match v with
  | none => .error .notFittedError
  | some v => .ok (some (meanLogBeta F v.a v.b + (if 0 < j then meanLogBeta F v.b v.a * (j : K) else 0)))

/-- `variational_mean_log_p_d__w`, `_geometric_process.py:70-85`. -/
def meanLogPd (F : VarFun K) (v : Option (GVar K)) (arg : Option (List (List K))) : Except PyErr (Option K) :=
  match pickMatrix (v.map GVar.d) arg with
  | .error e => .error e
  | .ok q => match v, q with
    | none, _ => .error .typeError
    | some _, [] => .error .indexError
    | some v, r0 :: rows =>
      .ok (some (meanLogBeta F v.a v.b * ((r0.length : ℕ) : K) + ((rowSums (r0 :: rows)).map (fun nj => nj * meanLogBeta F v.b v.a)).sum))

/-- `variational_mean_log_p_w`, `_geometric_process.py:87-95`. -/
def meanLogPw (F : VarFun K) (a b : K) (v : Option (GVar K)) : Except PyErr K :=
  match v with
  | none => .error .notFittedError
  | some v => .ok (meanLogBeta F v.a v.b * (a - 1) + meanLogBeta F v.b v.a * (b - 1) + F.lgamma (a + b) - (F.lgamma a + F.lgamma b))

/-- `variational_mean_log_q_w`, `_geometric_process.py:97-105`. -/
def meanLogQw (F : VarFun K) (v : Option (GVar K)) : Except PyErr K :=
  match v with
  | none => .error .notFittedError
  | some v => .ok (meanLogBeta F v.a v.b * (v.a - 1) + meanLogBeta F v.b v.a * (v.b - 1) + F.lgamma (v.a + v.b)
      - (F.lgamma v.a + F.lgamma v.b))

/-- `variational_mean_w_j`, `_geometric_process.py:107-111`. -/
def meanWj (v : GVar K) (j : ℕ) : K :=
  if v.d.length ≤ j then 1
  else v.a / (v.a + v.b) * (1 - v.a / (v.a + v.b)) ^ j

/-- `variational_mode_w_j`, `_geometric_process.py:113-126`; `none` is Python's `None`. -/
def modeWj (v : GVar K) (j : ℕ) : Except PyErr (Option K) :=
  if v.d.length < j then .ok none
  else if v.a ≤ 1 then (if v.b ≤ 1 then .error .valueError else .ok (some 0))
  else if v.b ≤ 1 then .ok (some (if j = 0 then 1 else 0))
  else .ok (some ((1 - (v.a - 1) / (v.a + v.b - 2)) ^ j * ((v.a - 1) / (v.a + v.b - 2))))
end Geo

/-- What `DirichletDistribution.fit_variational` stores; `variational_k` is `n`. -/
structure DVar (K : Type) where
  d : List (List K)
  k : ℤ
  params : List K

namespace DirDist
variable [Field K] [LinearOrder K]

/-- `self.alpha + np.sum(variational_d, 1)`: numpy broadcasting of two one-dimensional arrays. -/
def broadcastAdd (xs ys : List K) : Except PyErr (List K) :=
  if xs.length = ys.length then .ok (List.zipWith (· + ·) xs ys)
  else match xs, ys with
    | [x], ys => .ok (ys.map (x + ·))
    | xs, [y] => .ok (xs.map (· + y))
    | _, _ => .error .valueError

/-- `fit_variational`, `_dirichlet_distribution.py:46-53`. -/
def fitVariational (n : ℤ) (alpha : List K) (q : List (List K)) : Except PyErr (DVar K) :=
  if (q.length : ℤ) ≠ n then .error .assertionError
  else match broadcastAdd alpha (rowSums q) with
    | .error e => .error e
    | .ok ps => .ok { d := q, k := n, params := ps }

/-- `variational_mean_log_w_j`, `_dirichlet_distribution.py:55-59`. -/
def meanLogWj (F : VarFun K) (v : Option (DVar K)) (j : ℕ) : Except PyErr (Option K) :=
  match v with
  | none => .error .notFittedError
  | some v => match v.params[j]? with
    | none => .error .indexError
    | some a => .ok (some (meanLogBeta F a v.params.sum))

/-- `variational_mean_log_p_d__w`, `_dirichlet_distribution.py:61-71`. -/
def meanLogPd (F : VarFun K) (v : Option (DVar K)) (arg : Option (List (List K))) : Except PyErr (Option K) :=
  match pickMatrix (v.map DVar.d) arg with
  | .error e => .error e
  | .ok q => meanLogPdLoop (meanLogWj F v) 0 (some 0) (rowSums q)

/-- `_log_normalization_constant`, `_dirichlet_distribution.py:116-124`. -/
def logNorm (F : VarFun K) (alpha : List K) : K := F.lgamma alpha.sum - (alpha.map F.lgamma).sum

/-- `variational_mean_log_p_w`, `_dirichlet_distribution.py:73-82`. -/
def meanLogPw (F : VarFun K) (alpha : List K) (v : Option (DVar K)) : Except PyErr K :=
  match v with
  | none => .error .notFittedError
  | some v => if (v.params.length : ℤ) < v.k then .error .indexError
    else .ok (logNorm F alpha + ((v.params.take v.k.toNat).map (fun a => meanLogBeta F a v.params.sum)).sum * (alpha.sum - 1))

/-- `variational_mean_log_q_w`, `_dirichlet_distribution.py:84-94`. -/
def meanLogQw (F : VarFun K) (v : Option (DVar K)) : Except PyErr K :=
  match v with
  | none => .error .notFittedError
  | some v => if (v.params.length : ℤ) < v.k then .error .indexError
    else .ok (((v.params.take v.k.toNat).map (fun a => (a - 1) * meanLogBeta F a v.params.sum)).sum + logNorm F v.params)

/-- `variational_mean_w_j`, `_dirichlet_distribution.py:96-99`. -/
def meanWj (v : DVar K) (j : ℕ) : Except PyErr K :=
  if v.k < (j : ℤ) then .ok 0
  else match v.params[j]? with
    | none => .error .indexError
    | some a => .ok (a / v.params.sum)

/-- `variational_mode_w_j`, `_dirichlet_distribution.py:101-114`. -/
def modeWj (v : DVar K) (j : ℕ) : Except PyErr K :=
  if v.k < (j : ℤ) then .ok 0
  else match v.params[j]? with
    | none => .error .indexError
    | some a =>
      if a ≤ 1 then (if v.params.sum - a ≤ 1 then .error .valueError else .ok 0)
      else if v.params.sum - a ≤ 1 then .ok 1
      else .ok ((a - 1) / (v.params.sum - 2))
end DirDist

namespace Equal
variable [Field K]

/-- `fit_variational`, `_equal.py:22-25`: overwrites `self.n`. -/
def fitVariational (q : List (List K)) : ℕ := q.length

/-- `variational_mean_log_w_j`, `_equal.py:27-28` (`n > 0`). -/
def meanLogWj (F : VarFun K) (n : ℕ) (j : ℕ) : K := if j < n then F.log (1 / (n : K)) else 0

/-- `variational_mean_log_p_d__w`, `_equal.py:30-36`; `shape[1]` is the length of the rows. -/
def meanLogPd (F : VarFun K) (n : ℕ) (q : List (List K)) : K := (((q.head?.map List.length).getD 0 : ℕ) : K) * F.log (n : K)

/-- `variational_mean_w_j` and `variational_mode_w_j`, `_equal.py:44-48`. -/
def meanWj (n : ℕ) (j : ℕ) : K := if j < n then 1 / (n : K) else 0
end Equal

namespace Freq
variable [Field K]

/-- `variational_k` after `fit_variational`, `_frequency.py:26-30`: the number of *columns*, or `n` if there is none. -/
def variationalK (n : ℕ) (q : List (List K)) : ℕ :=
  if (q.head?.map List.length).getD 0 = 0 then n else (q.head?.map List.length).getD 0

/-- `self.variational_d.sum(1)[j] / self.variational_d.sum()`. -/
def share (q : List (List K)) (j : ℕ) : Except PyErr K :=
  match (rowSums q)[j]? with
  | none => .error .indexError
  | some r => .ok (r / (rowSums q).sum)

/-- `variational_mean_log_w_j`, `_frequency.py:32-39`: the frequency itself, not its logarithm. -/
def meanLogWj (F : VarFun K) (n : ℕ) (q : List (List K)) (j : ℕ) : Except PyErr (Option K) :=
  if variationalK n q ≤ j then .ok none
  else if (q.head?.map List.length).getD 0 ≠ 0 then
    match share q j with
    | .error e => .error e
    | .ok x => .ok (some x)
  else .ok (some (F.log (1 / (variationalK n q : K))))

/-- `variational_mean_log_p_d__w`, `_frequency.py:41-49`, for matrices without zero rows (numpy: `0 * log 0 = nan`). -/
def meanLogPd (F : VarFun K) (q : List (List K)) : K :=
  ((rowSums q).map (fun r => r * F.log (r / (rowSums q).sum))).sum

/-- `variational_mean_w_j`, `_frequency.py:61-64`. -/
def meanWj (n : ℕ) (q : List (List K)) (j : ℕ) : Except PyErr K :=
  if variationalK n q ≤ j then .ok 0 else share q j
end Freq
end Verif
