import Verif.Model.Gibbs
import Verif.Model.Finite
import Verif.Model.DirichletProcess
import Verif.Lemmas.Demo
import Mathlib.Data.List.Sort

/-! # A concrete surrounding for the Gibbs sampler, used in examples and counterexamples -/

namespace Verif.Mix

/-- `np.argsort` by insertion. -/
def demoArgsort (l : List ℤ) : List ℕ := (List.range l.length).insertionSort (fun i j => (l[i]?).getD 0 ≤ (l[j]?).getD 0)

/-- One-dimensional data; an atom is a mean; atoms are drawn at the posterior mean plus the stream position over ten, uniforms are mid-points, the
"density" of `x` given `a` is `1/(1+(x-a)²)`, its logarithm minus the squared distance. -/
def world : World ℚ 1 ℚ where
  unif := fun _ lo hi => (lo + hi) / 2
  atom := fun p niw => niw.mu 0 + (p : ℚ) / 10
  gumbel := fun p => ((p % 3 : ℕ) : ℚ)
  kmeans := fun _ ys k => if k < 1 ∨ (ys.length : ℤ) < k then .error .valueError else .ok ((List.range ys.length).map (fun i => i % k.toNat))
  argsort := demoArgsort
  varLabels := fun _ ys _ => .ok (ys.map (fun _ => 0))
  logpdf := fun x a => ((-(x 0 - a) ^ 2 : ℚ) : WithBot ℚ)
  pdf := fun _ x a => 1 / (1 + (x 0 - a) ^ 2)
  log := fun x => x - 1
  eps := 1 / 1000
  fuel := 20

/-- The outcome of a call is a normal return. -/
def returns {K σ α : Type} (x : M K σ α) (ω : Oracle K) (s : σ × ℕ) : Bool := match (x ω s).1 with
  | .ok _ => true
  | .error _ => false

/-- One-dimensional rows. -/
def rows1 (l : List ℚ) : YArg ℚ 1 := .rows (l.map (fun x _ => x))

/-- A fresh mixture with equal weights. -/
def eqObj (k T B s : ℤ) : GM (Equal.cls : WeightClass ℚ) 1 ℚ :=
  { totalIter := T, burnIn := B, subsample := s, nAttr := some k, muPrior := none, lam := 1, psiPrior := none, nuPrior := none, y := [], d := [],
    theta := [], thetaDefault := false, u := [], affinity := [], mapParams := none, mapLL := ⊥, saved := [], nGroups := [], nAtoms := [],
    totalSaved := 0, gibbsFitted := false, wst := ((Equal.init k : Equal ℚ), 0) }

/-- A fresh Dirichlet process mixture. -/
def dpObj (alpha : ℚ) (T B s : ℤ) : GM (DP.cls : WeightClass ℚ) 1 ℚ :=
  { totalIter := T, burnIn := B, subsample := s, nAttr := none, muPrior := none, lam := 1, psiPrior := none, nuPrior := none, y := [], d := [],
    theta := [], thetaDefault := false, u := [], affinity := [], mapParams := none, mapLL := ⊥, saved := [], nGroups := [], nAtoms := [],
    totalSaved := 0, gibbsFitted := false, wst := ((DP.init alpha : DP ℚ), 0) }
end Verif.Mix
