import Verif.Lemmas.PairplotFacts
import Verif.Lemmas.GibbsDemo

/-! # Fits with two columns, used in the examples on the pair plot -/

namespace Verif.Mix
open GM

/-- Data with two columns; the atom drawn at position `p` is `atom p`; the density is `1` at points whose first coordinate equals the atom and `1/5` elsewhere. -/
def plotWorld (atom : ℕ → ℚ) : World ℚ 2 ℚ where
  unif := fun _ lo hi => (lo + hi) / 2
  atom := fun p _ => atom p
  gumbel := fun _ => 0
  kmeans := fun _ ys k => if k < 1 ∨ (ys.length : ℤ) < k then .error .valueError else .ok ((List.range ys.length).map (fun i => i % k.toNat))
  argsort := demoArgsort
  varLabels := fun _ ys _ => .ok (ys.map (fun _ => 0))
  logpdf := fun _ _ => 0
  pdf := fun _ x a => if x 0 = a then 1 else 1 / 5
  log := fun x => x - 1
  eps := 1 / 1000
  fuel := 20

/-- A fresh mixture with `k` equal weights and one iteration. -/
def plotObj (k : ℤ) : GM (Equal.cls : WeightClass ℚ) 2 ℚ :=
  { totalIter := 1, burnIn := 0, subsample := 1, nAttr := some k, muPrior := none, lam := 1, psiPrior := none, nuPrior := none, y := [], d := [],
    theta := [], thetaDefault := false, u := [], affinity := [], mapParams := none, mapLL := ⊥, saved := [], nGroups := [], nAtoms := [],
    totalSaved := 0, gibbsFitted := false, wst := ((Equal.init k : Equal ℚ), 0) }

/-- The object after `fit_gibbs` on the points `(x, x)`. -/
def plotFit (atom : ℕ → ℚ) (k : ℤ) (xs : List ℚ) : GM (Equal.cls : WeightClass ℚ) 2 ℚ :=
  (fitGibbs (plotWorld atom) (.rows (xs.map (fun x _ => x))) .none false .kmeans demo (plotObj k, 0)).2.1

end Verif.Mix
