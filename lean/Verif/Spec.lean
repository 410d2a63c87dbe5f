import Verif.Py
import Mathlib.Algebra.Order.Field.Basic
import Mathlib.Algebra.BigOperators.Group.List.Basic
import Mathlib.Algebra.Order.BigOperators.Group.List

/-!
# Specifications used in the property theorems

Nothing here refers to the model of the repository code: these are the mathematical notions in which the properties are stated.
-/

namespace Verif.Spec

variable {K : Type} [Field K] [LinearOrder K]

/-- Non-negative entries with total at most one. -/
structure SubProb (w : List K) : Prop where
  nonneg : ∀ x ∈ w, 0 ≤ x
  sum_le : w.sum ≤ 1

/-- Non-negative entries with total one. -/
structure Prob (w : List K) : Prop where
  nonneg : ∀ x ∈ w, 0 ≤ x
  sum_eq : w.sum = 1

/-- Every entry lies in the unit interval. -/
def Unit01 (v : List K) : Prop := ∀ x ∈ v, 0 ≤ x ∧ x ≤ 1

/-- `w` is the stick-breaking image of `v`: `w_j = v_j * ∏_{i<j} (1 - v_i)`. -/
def IsStick (v w : List K) : Prop :=
  w.length = v.length ∧
  ∀ j x, v[j]? = some x → w[j]? = some (x * ((v.take j).map (fun y => 1 - y)).prod)

/-- Number of labels equal to `j`. -/
def nEq (d : List ℤ) (j : ℕ) : ℕ := d.countP (fun x => decide (x = (j : ℤ)))

/-- Number of labels larger than `j`. -/
def nGt (d : List ℤ) (j : ℕ) : ℕ := d.countP (fun x => decide ((j : ℤ) < x))

/-- `m` is the largest label. -/
def IsMaxLabel (d : List ℤ) (m : ℤ) : Prop := m ∈ d ∧ ∀ x ∈ d, x ≤ m

/-- All labels are legal component numbers. -/
def NonNegLabels (d : List ℤ) : Prop := ∀ x ∈ d, 0 ≤ x

/-- The number `N ≥ 1` of weights a call `random(size)` asks for after `fit(d)`: an explicit positive `int`, or, with
`size=None`, one more than the largest label. -/
def EffSize (d : List ℤ) (size : PySize) (N : ℕ) : Prop :=
  (size = .int N ∧ 1 ≤ N) ∨ (size = .none ∧ IsMaxLabel d ((N : ℤ) - 1))

/-- The call `random(size)` does not ask for fewer than one weight: `None`, or a number `n ≥ 1`. -/
def ReqPos (size : PySize) : Prop := size = .none ∨ ∃ n, size.toInt? = some n ∧ 1 ≤ n

/-- `r` is a stick-breaking draw: weight `j` is `v_j * ∏_{i<j} (1 - v_i)`, all sticks lie in `[0,1]`, and the mass not
assigned is `∏_i (1 - v_i)`. -/
structure StickDraw (v r : List K) : Prop where
  isStick : IsStick v r
  unit : Unit01 v
  mass : 1 - r.sum = (v.map (fun x => 1 - x)).prod

/-- `w` is the geometric sequence `p, p(1-p), p(1-p)², …` of length `N`. -/
def IsGeometric (p : K) (N : ℕ) (w : List K) : Prop :=
  w.length = N ∧ ∀ j < N, w[j]? = some (p * (1 - p) ^ j)

end Verif.Spec
