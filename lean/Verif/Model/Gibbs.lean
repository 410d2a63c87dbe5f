import Verif.Model.Base
import Verif.Model.MixUtils
import Mathlib.Data.Rat.Floor

/-!
# `pyrichlet/mixture_models/_base.py`: construction, the Gibbs sampler and its result methods

A mixture object over a weight class `C`, data in dimension `m` and an arbitrary type `Atom` of atoms (pairs of mean and covariance).  `World` is
everything outside the modelled code: the generator of the mixture, scipy's densities, k-means.  The weight object keeps its own generator `ω` and
stream position (a generator shared between both is one particular pair of streams).  Methods are programs of the monad `M` over the
object state, so effects survive exceptions; the number component of the state is the stream position of the mixture's generator.

Simplifications: the data of one object has a fixed dimension `m`; `y` is a list of rows or an object of a wrong type (the casts of
`_initialize_common_params` are modelled in `Model/Cast.lean`); `init_method="variational"` takes its labels from `World.varLabels` (the
variational algorithm is modelled in `Model/VarFit.lean`); the display options, `_column_names` and the plot are left out; sums and logarithms are
exact; means of empty arrays (nan) are `0`.
-/

namespace Verif.Mix
variable {K : Type}

/-- What the mixture code calls but does not define. -/
structure World (K : Type) (m : ℕ) (Atom : Type) where
  /-- `rng.uniform(lo, hi)` at a stream position -/
  unif : ℕ → K → K → K
  /-- `random_normal_invw(mu, lam, psi, nu)`, `_utils.py:7-14` -/
  atom : ℕ → NIW K m → Atom
  /-- `-np.log(-np.log(rng.uniform()))` -/
  gumbel : ℕ → K
  /-- `KMeans(n_clusters=k, ...).fit_predict(y)`; it raises for an impossible number of clusters -/
  kmeans : ℕ → List (Fin m → K) → ℤ → Except PyErr (List ℕ)
  /-- `np.argsort` -/
  argsort : List ℤ → List ℕ
  /-- `fit_variational(y, n_groups=size)` followed by `var_map_cluster()` -/
  varLabels : ℕ → List (Fin m → K) → ℕ → Except PyErr (List ℕ)
  /-- `multivariate_normal.logpdf`; `⊥` is minus infinity -/
  logpdf : (Fin m → K) → Atom → WithBot K
  /-- `multivariate_normal.pdf` / `norm.pdf`, with the marginal selected by `dim` -/
  pdf : Dim → (Fin m → K) → Atom → K
  /-- `np.log` -/
  log : K → K
  /-- `np.finfo(np.float64).eps` -/
  eps : K
  /-- bound on the rounds of the loop of `tail` -/
  fuel : ℕ

/-- A state stored by `_get_run_params`, `_base.py:860-864`. -/
structure RunParams (K Atom : Type) where
  w : List K
  theta : List (ℕ × Atom)
  u : List K
  d : List ℕ
  deriving DecidableEq

/-- Attributes of `BaseGaussianMixture`, `_base.py:55-99`, used by the Gibbs sampler.  `nAttr` is the attribute `n` that the finite subclasses
set (`_dirichlet_distribution_mixture.py:8`, `_equal_weighted_mixture.py:8`, `_frequency_weighted_mixture.py:8`); `thetaDefault` tells whether
`theta` is the `defaultdict` of `_initialize_gibbs_params` or the plain dict of `__init__`; `wst` is the weight object with its position. -/
structure GM (C : WeightClass K) (m : ℕ) (Atom : Type) where
  totalIter : ℤ
  burnIn : ℤ
  subsample : ℤ
  nAttr : Option ℤ
  muPrior : Option (Fin m → K)
  lam : K
  psiPrior : Option (Fin m → Fin m → K)
  nuPrior : Option K
  y : List (Fin m → K)
  d : List ℕ
  theta : List (ℕ × Atom)
  thetaDefault : Bool
  u : List K
  affinity : List (List ℕ)
  mapParams : Option (RunParams K Atom)
  mapLL : WithBot K
  saved : List (RunParams K Atom)
  nGroups : List ℕ
  nAtoms : List ℕ
  totalSaved : ℕ
  gibbsFitted : Bool
  wst : C.State × ℕ

/-- Python's `int(q)`: truncation towards zero. -/
def pyInt (q : ℚ) : ℤ := if 0 ≤ q then ⌊q⌋ else ⌈q⌉

/-- The argument `y` of `fit_gibbs`: rows, or an object of another type. -/
inductive YArg (K : Type) (m : ℕ) where
  | rows (ys : List (Fin m → K))
  | invalid

/-- `init_method`. -/
inductive InitMethod where
  | kmeans | random | variational | unknown
  deriving DecidableEq, Repr

namespace GM
variable [Field K] [LinearOrder K] {C : WeightClass K} {m : ℕ} {Atom : Type}

/-- `__init__`, `_base.py:55-99`; the iteration numbers may be floats, which are compared before they are truncated. -/
def init (totalIter burnIn subsample : ℚ) (nAttr : Option ℤ) (mu : Option (Fin m → K)) (lam : K) (psi : Option (Fin m → Fin m → K))
    (nu : Option K) (wst : C.State × ℕ) : Except PyErr (GM C m Atom) :=
  if totalIter > burnIn then
    .ok { totalIter := pyInt totalIter, burnIn := pyInt burnIn, subsample := pyInt subsample, nAttr := nAttr, muPrior := mu, lam := lam,
          psiPrior := psi, nuPrior := nu, y := [], d := [], theta := [], thetaDefault := false, u := [], affinity := [], mapParams := none,
          mapLL := ⊥, saved := [], nGroups := [], nAtoms := [], totalSaved := 0, gibbsFitted := false, wst := wst }
  else .error .assertionError

/-- A call of a method of `self.weight_model`. -/
def callW {α : Type} (x : M K C.State α) : M K (GM C m Atom) α := fun ω s =>
  ((x ω s.1.wst).1, ({ s.1 with wst := (x ω s.1.wst).2 }, s.2))

/-- `n` successive draws from the mixture's generator. -/
def draws {α σ : Type} (f : ℕ → α) (n : ℕ) : M K σ (List α) := fun _ s => (.ok ((List.range n).map (fun i => f (s.2 + i))), (s.1, s.2 + n))

/-- One draw from the mixture's generator. -/
def draw1 {α σ : Type} (f : ℕ → α) : M K σ α := fun _ s => (.ok (f s.2), (s.1, s.2 + 1))

/-- `np.cov(y.T)`, divided by `n - 1`. -/
def cov (ys : List (Fin m → K)) (i j : Fin m) : K :=
  (ys.map (fun y => (y i - meanVec ys i) * (y j - meanVec ys j))).sum / ((ys.length : K) - 1)

/-- The prior handed to `random_normal_invw` (`mu_prior`, `psi_prior` and `nu_prior` are set by `_initialize_common_params`). -/
def prior (s : GM C m Atom) : NIW K m :=
  { mu := s.muPrior.getD (fun _ => 0), lam := s.lam, psi := s.psiPrior.getD (fun _ _ => 0), nu := s.nuPrior.getD 0 }

/-- `_initialize_common_params`, `_base.py:704-743`: priors that are set (by the constructor or by an earlier fit) stay. -/
def initCommon : YArg K m → M K (GM C m Atom) Unit
  | .invalid => M.raise .typeError
  | .rows ys => M.assign (fun s => { s with
      y := ys
      muPrior := some (s.muPrior.getD (meanVec ys))
      psiPrior := some (s.psiPrior.getD (cov ys))
      nuPrior := some (s.nuPrior.getD (m : K)) })

/-- `theta[j] = a` in a dict. -/
def setAtom (theta : List (ℕ × Atom)) (j : ℕ) (a : Atom) : List (ℕ × Atom) :=
  if (theta.lookup j).isSome then theta.map (fun p => if p.1 = j then (j, a) else p) else theta ++ [(j, a)]

/-- `self.theta[j]`: a missing atom is drawn from the prior and stored by the `defaultdict`, `_base.py:766-774, 781`. -/
def getAtom (W : World K m Atom) (j : ℕ) : M K (GM C m Atom) Atom := do
  let s ← M.self
  match s.theta.lookup j with
  | some a => pure a
  | none =>
    if s.thetaDefault = true then do
      let a ← draw1 (fun p => W.atom p (prior s))
      M.assign (fun s => { s with theta := setAtom s.theta j a })
      pure a
    else M.raise .keyError

/-- `min(self.u)`. -/
def minK : List K → Except PyErr K
  | [] => .error .valueError
  | x :: xs => .ok (xs.foldl min x)

/-- The labels as the weight classes get them. -/
def labels (d : List ℕ) : List ℤ := d.map (fun x : ℕ => (x : ℤ))

/-- The labels at the start, `_base.py:790-807`. -/
def initLabels (W : World K m Atom) (initGroups : PySize) : InitMethod → M K (GM C m Atom) (List ℕ)
  | .kmeans => do
    let s ← M.self
    let n : ℤ := match s.nAttr with
      | some n => n
      | none => match initGroups.toInt? with
        | some g => g
        | none => 2
    let r ← draw1 (fun p => W.kmeans p s.y n)
    let raw ← M.lift r
    pure (sizeBiased W.argsort raw)
  | .random => do
    let s ← M.self
    callW (BaseWeight.randomAssignment C.toWeightCore (some (s.y.length : ℤ)))
  | .variational => do
    let s ← M.self
    let r ← draw1 (fun p => W.varLabels p s.y (C.getW s.wst.1).length)
    M.lift r
  | .unknown => M.raise .attributeError

/-- The weights at the start, `_base.py:785-788`. -/
def initWeights (W : World K m Atom) (initGroups : PySize) : M K (GM C m Atom) Unit := do
  let s ← M.self
  match initGroups with
  | .none => do
    let u ← M.lift (minK s.u)
    let _ ← callW (C.tail W.fuel (1 - u))
    pure ()
  | g => do
    let _ ← callW (C.complete g)
    pure ()

/-- `_initialize_gibbs_params`, `_base.py:745-807`. -/
def initGibbs (W : World K m Atom) (initGroups : PySize) (method : InitMethod) : M K (GM C m Atom) Unit := do
  M.assign (fun s => { s with
      saved := []
      nGroups := []
      nAtoms := []
      totalSaved := 0
      theta := []
      thetaDefault := true
      affinity := List.replicate s.y.length (List.replicate s.y.length 0) })
  let s ← M.self
  let us ← draws (fun p => W.unif p W.eps 1) s.y.length
  M.assign (fun s => { s with u := us })
  initWeights W initGroups
  let d ← initLabels W initGroups method
  M.assign (fun s => { s with d := d })

/-- `_get_run_params`, `_base.py:860-864`. -/
def runParams (s : GM C m Atom) : RunParams K Atom := { w := C.getW s.wst.1, theta := s.theta, u := s.u, d := s.d }

/-- `self.y[self.d == j]`; numpy raises `IndexError` when the lengths differ. -/
def rowsOf (y : List (Fin m → K)) (d : List ℕ) (j : ℕ) : Except PyErr (List (Fin m → K)) :=
  if y.length = d.length then .ok ((List.zip y d).filterMap (fun p => if p.2 = j then some p.1 else none)) else .error .indexError

/-- The loop of `_y_log_likelihood`, `_base.py:944-948`, over the labels `js`. -/
def yLogLik (W : World K m Atom) : List ℕ → WithBot K → M K (GM C m Atom) (WithBot K)
  | [], acc => pure acc
  | j :: js, acc => do
    let s ← M.self
    let rows ← M.lift (rowsOf s.y s.d j)
    let a ← getAtom W j
    yLogLik W js (acc + (rows.map (fun x => W.logpdf x a)).sum)

/-- A log-likelihood of the weight classes (`none` is minus infinity). -/
def toBot : Option K → WithBot K
  | none => ⊥
  | some x => (x : WithBot K)

/-- `_run_log_likelihood`, `_base.py:934-938`, with `_y_log_likelihood` (940-949) and `_d_log_likelihood` (951-953). -/
def runLogLik (W : World K m Atom) : M K (GM C m Atom) (WithBot K) := do
  let s ← M.self
  let ly ← yLogLik W (npUnique s.d) 0
  let ld ← callW (BaseWeight.assignationLogLikelihood C.toWeightCore W.log (some (labels s.d)))
  pure (ly + toBot ld)

/-- `_update_map_params`, `_base.py:873-883`. -/
def updateMap (W : World K m Atom) : M K (GM C m Atom) Unit := do
  let ll ← runLogLik W
  M.assign (fun s =>
    if s.mapLL < ll then { s with mapLL := ll, mapParams := some (runParams s) }
    else if s.mapLL = ⊥ then { s with mapParams := some (runParams s) }
    else s)

/-- The loop of `_update_atoms`, `_base.py:892-909`. -/
def updateAtoms (W : World K m Atom) : List ℕ → M K (GM C m Atom) Unit
  | [] => pure ()
  | j :: js => do
    let s ← M.self
    let rows ← M.lift (rowsOf s.y s.d j)
    let a ← draw1 (fun p => W.atom p (posteriorNIW rows (prior s)))
    M.assign (fun s => { s with theta := setAtom s.theta j a })
    updateAtoms W js

/-- The slice variables `rng.uniform(eps, w[d] + eps)`, `_base.py:888-889`. -/
def drawSlices (W : World K m Atom) (ws : List K) : M K (GM C m Atom) (List K) := fun _ s =>
  (.ok (ws.mapIdx (fun i x => W.unif (s.2 + i) W.eps (x + W.eps))), (s.1, s.2 + ws.length))

/-- `_update_weights`, `_base.py:885-890`. -/
def updateWeights (W : World K m Atom) : M K (GM C m Atom) Unit := do
  let s ← M.self
  callW (BaseWeight.fit C.toWeightCore (labels s.d))
  let w ← callW (C.random .none)
  let ws ← M.lift (Py.gather w (labels s.d))
  let us ← drawSlices W ws
  M.assign (fun s => { s with u := us })
  let u ← M.lift (minK us)
  let _ ← callW (C.tail W.fuel (1 - u))

/-- `self.theta[j]` for the components `js`, `_base.py:922-928`. -/
def getAtoms (W : World K m Atom) : List ℕ → M K (GM C m Atom) (List Atom)
  | [] => pure []
  | j :: js => do
    let a ← getAtom W j
    let as ← getAtoms W js
    pure (a :: as)

/-- Column `i` of `_d_log_likelihood_vector`, `_base.py:920-932`: `logpdf(y_i) + log(w_j > u_i)`. -/
def column (W : World K m Atom) (w : List K) (as : List Atom) (x : Fin m → K) (u : K) : List (WithBot K) :=
  List.zipWith (fun a wj => W.logpdf x a + (if wj > u then (0 : WithBot K) else ⊥)) as w

/-- The Gumbel noise of column `i` out of `n`, for `k` rows, from position `p` (numpy fills a `k × n` matrix row by row), `_utils.py:36-37`. -/
def noise (W : World K m Atom) (p k n i : ℕ) : List K := (List.range k).map (fun j => W.gumbel (p + j * n + i))

/-- The noise of all `n` columns, `_utils.py:36-37`. -/
def drawNoise (W : World K m Atom) (k n : ℕ) : M K (GM C m Atom) (List (List K)) := fun _ s =>
  (.ok ((List.range n).map (noise W s.2 k n)), (s.1, s.2 + k * n))

/-- `_update_d`, `_base.py:911-913`.  With a single observation scipy returns scalars and the in-place addition in
`_d_log_likelihood_vector` (929-931) cannot be broadcast: `ValueError`; the same without weights. -/
def updateD (W : World K m Atom) : M K (GM C m Atom) Unit := do
  let s ← M.self
  let w := C.getW s.wst.1
  let as ← getAtoms W (List.range w.length)
  if s.y.length = 1 ∨ w.length = 0 ∨ s.u.length ≠ s.y.length then M.raise .valueError
  else do
    let ns ← drawNoise W w.length s.y.length
    let d ← M.lift (gumbelMaxSampling (List.zipWith (column W w as) s.y s.u) ns)
    M.assign (fun s => { s with d := d })

/-- `_gibbs_step`, `_base.py:915-918`. -/
def gibbsStep (W : World K m Atom) : M K (GM C m Atom) Unit := do
  let s ← M.self
  updateAtoms W (npUnique s.d)
  updateWeights W
  updateD W

/-- `np.equal(d, d[:, None])`, added to the counts; `ValueError` when the shapes differ, `_base.py:870`. -/
def addAffinity (aff : List (List ℕ)) (d : List ℕ) : Except PyErr (List (List ℕ)) :=
  if aff.length = d.length then .ok (List.zipWith (fun row x => List.zipWith (fun c y => c + (if y = x then 1 else 0)) row d) aff d)
  else .error .valueError

/-- `_save_params`, `_base.py:866-871`. -/
def saveParams : M K (GM C m Atom) Unit := do
  M.assign (fun s => { s with
      saved := s.saved ++ [runParams s]
      nGroups := s.nGroups ++ [(npUnique s.d).length]
      nAtoms := s.nAtoms ++ [s.theta.length] })
  let s ← M.self
  let aff ← M.lift (addAffinity s.affinity s.d)
  M.assign (fun s => { s with affinity := aff, totalSaved := s.totalSaved + 1 })

/-- The burn-in loop, `_base.py:152-154`, `n` rounds. -/
def burn (W : World K m Atom) : ℕ → M K (GM C m Atom) Unit
  | 0 => pure ()
  | n + 1 => do
    gibbsStep W
    updateMap W
    burn W n

/-- `if i % self.subsample_steps == 0: self._save_params()`, `_base.py:161-162`. -/
def maybeSave (i : ℤ) : M K (GM C m Atom) Unit := do
  let s ← M.self
  if s.subsample = 0 then M.raise .zeroDivisionError
  else M.whenM (i % s.subsample = 0) saveParams

/-- The recorded iterations `i, i+1, ..`, `_base.py:158-162`, `n` rounds. -/
def record (W : World K m Atom) : ℕ → ℕ → M K (GM C m Atom) Unit
  | 0, _ => pure ()
  | n + 1, i => do
    gibbsStep W
    updateMap W
    maybeSave (i : ℤ)
    record W n (i + 1)

/-- `fit_gibbs`, `_base.py:101-165`. -/
def fitGibbs (W : World K m Atom) (y : YArg K m) (initGroups : PySize) (warm : Bool) (method : InitMethod) : M K (GM C m Atom) Unit := do
  initCommon y
  M.whenM (warm = false) do
    initGibbs W initGroups method
    updateMap W
  let s ← M.self
  burn W s.burnIn.toNat
  record W (s.totalIter - s.burnIn).toNat 0
  M.assign (fun s => { s with gibbsFitted := true })

/-! ### Result methods (they do not change the object) -/

/-- `_cast_observations`, `_base.py:1099-1119`, for queries that are rows or `None`. -/
def queryRows (s : GM C m Atom) : Option (YArg K m) → Except PyErr (List (Fin m → K))
  | none => .ok s.y
  | some (.rows ys) => .ok ys
  | some .invalid => .error .typeError

/-- `l[-k:]`. -/
def lastSlice {α : Type} (l : List α) (k : ℤ) : List α :=
  if k = 0 then l else if 0 < k then l.drop (l.length - k.toNat) else l.drop (-k).toNat

/-- The states averaged by `gibbs_eap_density`, `_base.py:263-267`. -/
def usedStates (saved : List (RunParams K Atom)) : Option ℤ → List (RunParams K Atom)
  | none => saved
  | some p => lastSlice saved (min p (saved.length : ℤ))

/-- The densities of the states, `_base.py:268-273`. -/
def stateDensities (W : World K m Atom) (xs : List (Fin m → K)) (dim : Dim) (component : Option ℕ) :
    List (RunParams K Atom) → Except PyErr (List (List K))
  | [] => .ok []
  | p :: ps => match mixtureDensity W.pdf xs p.w p.theta dim component with
    | .error e => .error e
    | .ok r => match stateDensities W xs dim component ps with
      | .error e => .error e
      | .ok rs => .ok (r :: rs)

/-- `np.array(rows).mean(axis=0)` of `n` columns. (Without rows numpy gives nan; here `0`.) -/
def colMeans (n : ℕ) (rows : List (List K)) : List K := (colSums n rows).map (fun x => x / (rows.length : K))

/-- `gibbs_eap_density`, `_base.py:236-274`. -/
def eapDensity (W : World K m Atom) (s : GM C m Atom) (y : Option (YArg K m)) (dim : Dim) (component : Option ℕ) (periods : Option ℤ) :
    Except PyErr (List K) :=
  if s.gibbsFitted = false then .error .notFittedError
  else match queryRows s y with
    | .error e => .error e
    | .ok xs => match stateDensities W xs dim component (usedStates s.saved periods) with
      | .error e => .error e
      | .ok rows => .ok (colMeans (if dim = .other then 1 else xs.length) rows)

/-- `gibbs_map_density`, `_base.py:276-302`; `None["w"]` is a `TypeError`. -/
def mapDensity (W : World K m Atom) (s : GM C m Atom) (y : Option (YArg K m)) (dim : Dim) (component : Option ℕ) : Except PyErr (List K) :=
  if s.gibbsFitted = false then .error .notFittedError
  else match queryRows s y with
    | .error e => .error e
    | .ok xs => match s.mapParams with
      | none => .error .typeError
      | some p => mixtureDensity W.pdf xs p.w p.theta dim component

/-- `gibbs_eap_affinity_matrix()` without data, `_base.py:319-323`. -/
def eapAffinity (s : GM C m Atom) : Except PyErr (List (List K)) :=
  if s.gibbsFitted = false then .error .notFittedError
  else .ok (s.affinity.map (fun r => r.map (fun c : ℕ => (c : K) / (s.totalSaved : K))))

/-- The clusterings of the states, `_base.py:326-328`. -/
def stateClusters (W : World K m Atom) (xs : List (Fin m → K)) : List (RunParams K Atom) → Except PyErr (List (List ℕ))
  | [] => .ok []
  | p :: ps => match cluster (W.pdf .none) xs p.w p.theta with
    | .error e => .error e
    | .ok r => match stateClusters W xs ps with
      | .error e => .error e
      | .ok rs => .ok (r.1 :: rs)

/-- `gibbs_eap_affinity_matrix(y)` with data, `_base.py:324-330`. -/
def eapAffinityAt (W : World K m Atom) (s : GM C m Atom) (y : YArg K m) : Except PyErr (List (List K)) :=
  if s.gibbsFitted = false then .error .notFittedError
  else match queryRows s (some y) with
    | .error e => .error e
    | .ok xs => match stateClusters W xs s.saved with
      | .error e => .error e
      | .ok gs => .ok ((List.range xs.length).map (fun i => (List.range xs.length).map (fun j =>
          ((gs.countP (fun g => decide (g[i]? = g[j]?)) : ℕ) : K) / (s.saved.length : K))))

/-- `gibbs_map_cluster`, `_base.py:357-384` (with `full=True`; the default returns the first component). -/
def mapCluster (W : World K m Atom) (s : GM C m Atom) (y : Option (YArg K m)) : Except PyErr (List ℕ × List K) :=
  if s.gibbsFitted = false then .error .notFittedError
  else match queryRows s y with
    | .error e => .error e
    | .ok xs => match s.mapParams with
      | none => .error .typeError
      | some p => cluster (W.pdf .none) xs p.w p.theta

/-- One call of `fit_gibbs`. -/
structure FitArgs (K : Type) (m : ℕ) where
  y : YArg K m
  initGroups : PySize
  warm : Bool
  method : InitMethod

/-- The object after a history of `fit_gibbs` calls, exceptions caught by the caller. -/
def run (W : World K m Atom) (ω : Oracle K) (s : GM C m Atom × ℕ) (ops : List (FitArgs K m)) : GM C m Atom × ℕ :=
  ops.foldl (fun s a => (fitGibbs W a.y a.initGroups a.warm a.method ω s).2) s
end GM
end Verif.Mix
