import Verif.Model.Finite
import Verif.Model.Variational

/-!
# The constructor of `DirichletDistribution` with its argument types, `_dirichlet_distribution.py:11-19`

An `alpha` that is an array of more than one dimension and lists whose entries are not numbers are not modelled.
-/

namespace Verif
variable {K : Type}

namespace DirDist
variable [Field K] [LinearOrder K]

/-- The argument `alpha` of the constructor, `_dirichlet_distribution.py:15-19`: a list or one-dimensional array, a Python `int` or `float`, or anything else (a numpy float, a tuple). -/
inductive AlphaArg (K : Type) where
  | list (l : List K)
  | scalar (a : K)
  | other

/-- `DirichletDistribution(n, alpha)`, `_dirichlet_distribution.py:11-19`; `n` is `none` if it is not of type `int`.  The second component is the
attribute `alpha`, `none` if the constructor does not set it. -/
def construct (n : Option ℤ) (alpha : AlphaArg K) : Except PyErr (ℤ × Option (List K)) :=
  match n with
  | none => .error .assertionError
  | some n => match alpha with
    | .list l => .ok (n, some l)
    | .scalar a => .ok (n, some (List.replicate n.toNat a))
    | .other => .ok (n, none)

/-- `random` on the new object, `_dirichlet_distribution.py:26-38`; reading an attribute that is not set raises `AttributeError`. -/
def randomNew (o : ℤ × Option (List K)) (size : PySize) (pos : ℕ) (ω : Oracle K) : Except PyErr (List K) :=
  match o.2 with
  | none => .error .attributeError
  | some alpha => (random size ω (initList o.1 alpha, pos)).1

/-- `fit_variational` on the new object, `_dirichlet_distribution.py:46-53` (the assertion comes first). -/
def fitNew (o : ℤ × Option (List K)) (q : List (List K)) : Except PyErr (DVar K) :=
  match o.2 with
  | none => if (q.length : ℤ) ≠ o.1 then .error .assertionError else .error .attributeError
  | some alpha => fitVariational o.1 alpha q

end DirDist

end Verif
