import Verif.Py
import Mathlib.Algebra.Field.Defs
import Mathlib.Algebra.Order.Ring.Defs
import Mathlib.Algebra.Order.Monoid.Unbundled.WithTop
import Mathlib.Algebra.BigOperators.Group.List.Basic

/-!
# `pyrichlet/mixture_models/_utils.py`

Gaussian densities are parameters (`pdf`); an observation and an atom (mean and covariance) are elements of arbitrary types.  A dictionary
`theta` is an association list.  Component numbers are natural numbers.  Not modelled: `random_normal_invw` and `log_likelihood_normal_invw`
(calls into scipy, lines 7-20) except as oracles, and `KMeans` itself (its labels are an argument).
-/

namespace Verif.Mix
variable {K Obs Atom : Type}

/-- The argument `dim` of the density methods: `None`, a list (or array) of coordinates, an `int`, or anything else (for example `np.int64`). -/
inductive Dim where
  | none
  | list (l : List ℕ)
  | int (i : ℕ)
  | other
  deriving DecidableEq, Repr

/-- The loop of `mixture_density`, `_utils.py:72-87`: one row of scaled densities per component. -/
def componentRows [Mul K] (pdf : Obs → Atom → K) (xs : List Obs) (w : List K) (theta : List (ℕ × Atom)) : List ℕ → Except PyErr (List (List K))
  | [] => .ok []
  | j :: js => match theta.lookup j with
    | none => .error .keyError
    | some a => match w[j]? with
      | none => .error .indexError
      | some wj => match componentRows pdf xs w theta js with
        | .error e => .error e
        | .ok rs => .ok (xs.map (fun x => pdf x a * wj) :: rs)

/-- `np.array(rows).T`, then `.sum(1)`: for each of the `n` points the sum over the rows, `_utils.py:87-88`. -/
def colSums [AddMonoid K] (n : ℕ) (rows : List (List K)) : List K :=
  (List.range n).map (fun i => (rows.map (fun r => (r[i]?).getD 0)).sum)

/-- `mixture_density`, `_utils.py:64-89`. `pdf dim` is the (marginal) Gaussian density selected by `dim`.  When nothing was appended to `ret`
(no weights, or a `dim` of another type) the result is the array `[0.]`. -/
def mixtureDensity [Semiring K] (pdf : Dim → Obs → Atom → K) (xs : List Obs) (w : List K) (theta : List (ℕ × Atom)) (dim : Dim)
    (component : Option ℕ) : Except PyErr (List K) :=
  if dim = .other then .ok [0]
  else match componentRows (pdf dim) xs w theta (match component with | none => List.range w.length | some j => [j]) with
    | .error e => .error e
    | .ok [] => .ok [0]
    | .ok rows => .ok (colSums xs.length rows)

/-- `np.unique(l)` for non-negative integers: the sorted distinct values. -/
def npUnique (l : List ℕ) : List ℕ := (List.range (l.foldl max 0 + 1)).filter (fun x => x ∈ l)

/-- `np.unique(l, return_inverse=True)[1]`. -/
def npInverse (l : List ℕ) : List ℕ := l.map (fun x => (npUnique l).idxOf x)

/-- The loop of `cluster`, `_utils.py:95-99`. -/
def clusterRows (pdf : Obs → Atom → K) (xs : List Obs) (theta : List (ℕ × Atom)) : List ℕ → Except PyErr (List (List K))
  | [] => .ok []
  | j :: js => match theta.lookup j with
    | none => .error .keyError
    | some a => match clusterRows pdf xs theta js with
      | .error e => .error e
      | .ok rs => .ok (xs.map (fun x => pdf x a) :: rs)

/-- Row `i` of the normalised matrix, `_utils.py:100-102`. (Python divides `0/0` to nan when all densities of a point vanish.) -/
def assignProb [Field K] (rows : List (List K)) (w : List K) (i : ℕ) : List K :=
  let p := List.zipWith (· * ·) (rows.map (fun r => (r[i]?).getD 0)) w
  p.map (fun x => x / p.sum)

/-- `np.argmax` of a non-empty row. -/
def argmaxD [LT K] [DecidableRel (α := K) (· < ·)] (l : List K) : ℕ :=
  match Py.argmax l with
  | .ok i => i
  | .error _ => 0

/-- `cluster`, `_utils.py:92-106`.  A single point makes scipy return scalars, so that `.sum(1)` raises `AxisError`; the same without weights. -/
def cluster [Field K] [LinearOrder K] (pdf : Obs → Atom → K) (xs : List Obs) (w : List K) (theta : List (ℕ × Atom)) :
    Except PyErr (List ℕ × List K) :=
  match clusterRows pdf xs theta (List.range w.length) with
  | .error e => .error e
  | .ok rows =>
    if xs.length = 1 ∨ w.length = 0 then .error .axisError
    else
      let grp := (List.range xs.length).map (fun i => argmaxD (assignProb rows w i))
      let unc := (List.range xs.length).map (fun i => 1 - ((assignProb rows w i)[argmaxD (assignProb rows w i)]?).getD 0)
      .ok (npInverse grp, unc)

/-- Lines 146-150 of `kmeans_cluster_size_biased`, `_utils.py`, on the labels `d` returned by k-means; `argsort` is numpy's (unstable) sort. -/
def sizeBiased (argsort : List ℤ → List ℕ) (d : List ℕ) : List ℕ :=
  let u := npUnique d
  let cnt := u.map (fun x => -(d.count x : ℤ))
  let rank := argsort ((argsort cnt).map (fun i : ℕ => (i : ℤ)))
  (npInverse d).map (fun i => (rank[i]?).getD 0)

/-- One column of `gumbel_max_sampling`, `_utils.py:35-37` (`size=None`) and 39-43: the argmax of the log-probabilities plus Gumbel noise
(`⊥` is minus infinity); `ValueError` without components. -/
def gumbelColumn [LinearOrder K] [Add K] (logp : List (WithBot K)) (noise : List K) : Except PyErr ℕ :=
  Py.argmax (List.zipWith (fun p (g : K) => p + (g : WithBot K)) logp noise)

/-- `gumbel_max_sampling(logp)`, `_utils.py:34-37`, on a matrix given by its columns. -/
def gumbelMaxSampling [LinearOrder K] [Add K] : List (List (WithBot K)) → List (List K) → Except PyErr (List ℕ)
  | c :: cs, g :: gs => match gumbelColumn c g with
    | .error e => .error e
    | .ok i => match gumbelMaxSampling cs gs with
      | .error e => .error e
      | .ok is => .ok (i :: is)
  | _, _ => .ok []

/-- `rejection_sample` without size, `_utils.py:48-54`.  `unif p lo hi` is `rng.uniform(lo, hi)` at stream position `p`; the loop is cut off
after `fuel` rounds. -/
def rejectionSample [LinearOrder K] [Zero K] (unif : ℕ → K → K → K) (f : K → K) (maxY a b : K) : ℕ → ℕ → Except PyErr (K × ℕ)
  | 0, _ => .error .outOfFuel
  | fuel + 1, pos =>
    if f (unif pos a b) < unif (pos + 1) 0 maxY then rejectionSample unif f maxY a b fuel (pos + 2)
    else .ok (unif pos a b, pos + 2)

/-- `l[mask] = draws`: the masked positions get successive draws from stream position `pos`; also returns the next position. -/
def refill (draw : ℕ → K) : ℕ → List Bool → List K → List K × ℕ
  | pos, true :: ms, _ :: xs => let r := refill draw (pos + 1) ms xs; (draw pos :: r.1, r.2)
  | pos, false :: ms, x :: xs => let r := refill draw pos ms xs; (x :: r.1, r.2)
  | pos, _, _ => ([], pos)

/-- `y > f(x)`, `_utils.py:58-60`. -/
def above [LinearOrder K] (f : K → K) (x y : List K) : List Bool := List.zipWith (fun x y => decide (f x < y)) x y

/-- The loop of `rejection_sample` with a size, `_utils.py:58-60`: the mask is evaluated again, with the *new* `x`, before the heights are
redrawn. -/
def rejectionLoop [LinearOrder K] [Zero K] (unif : ℕ → K → K → K) (f : K → K) (maxY a b : K) : ℕ → ℕ → List K → List K → Except PyErr (List K × List K)
  | 0, _, _, _ => .error .outOfFuel
  | fuel + 1, pos, x, y =>
    if (above f x y).any id then
      let rx := refill (fun p => unif p a b) pos (above f x y) x
      let ry := refill (fun p => unif p 0 maxY) rx.2 (above f rx.1 y) y
      rejectionLoop unif f maxY a b fuel ry.2 rx.1 ry.1
    else .ok (x, y)

/-- `rejection_sample` with a size, `_utils.py:55-61`; the heights are returned too (for stating properties). -/
def rejectionSampleN [LinearOrder K] [Zero K] (unif : ℕ → K → K → K) (f : K → K) (maxY a b : K) (size fuel pos : ℕ) :
    Except PyErr (List K × List K) :=
  rejectionLoop unif f maxY a b fuel (pos + 2 * size) ((List.range size).map (fun i => unif (pos + i) a b))
    ((List.range size).map (fun i => unif (pos + size + i) 0 maxY))

/-- Parameters of a normal - inverse Wishart distribution in dimension `m`. -/
structure NIW (K : Type) (m : ℕ) where
  mu : Fin m → K
  lam : K
  psi : Fin m → Fin m → K
  nu : K

/-- `y.mean(axis=0)` (non-empty `y`). -/
def meanVec [Field K] {m : ℕ} (ys : List (Fin m → K)) (i : Fin m) : K := (ys.map (fun y => y i)).sum / (ys.length : K)

/-- `np.cov(y.T, bias=True)` (non-empty `y`). -/
def covBias [Field K] {m : ℕ} (ys : List (Fin m → K)) (i j : Fin m) : K :=
  (ys.map (fun y => (y i - meanVec ys i) * (y j - meanVec ys j))).sum / (ys.length : K)

/-- `posterior_norm_invw_params`, `_utils.py:23-31` (non-empty `y`; numpy returns nan for an empty one). -/
def posteriorNIW [Field K] {m : ℕ} (ys : List (Fin m → K)) (p : NIW K m) : NIW K m :=
  let n : K := (ys.length : K)
  { mu := fun i => (p.lam * p.mu i + n * meanVec ys i) / (p.lam + n)
    lam := p.lam + n
    psi := fun i j => p.psi i j + n * covBias ys i j + (p.lam * n) / (p.lam + n) * ((meanVec ys i - p.mu i) * (meanVec ys j - p.mu j))
    nu := p.nu + n }
end Verif.Mix
