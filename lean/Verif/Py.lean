import Mathlib.Algebra.Order.Field.Basic
import Mathlib.Algebra.BigOperators.Group.List.Basic

/-!
# Python and numpy primitives used by the model

Everything here models *external* code (CPython, numpy), not code of the repository.  The definitions
follow the documented meaning of the primitive and are part of the trusted base (DESIGN.md, section 3).
-/

namespace Verif

/-- Exceptions raised by the modelled code.  `outOfFuel` is not a Python exception: it is the outcome of a
`while` loop that has not finished after the given number of iterations. -/
inductive PyErr where
  | typeError | valueError | indexError | keyError | assertionError | attributeError
  | axisError | zeroDivisionError | notFittedError | notImplementedError | overflowError
  | linAlgError
  | outOfFuel
  deriving DecidableEq, Repr

/-- The argument `size` of `random` and `complete`: `None`, a Python `int`, a `np.int64`, or an object of a
non-numeric type (for example a string). -/
inductive PySize where
  | none
  | int (n : ℤ)
  | np (n : ℤ)
  | other
  deriving DecidableEq, Repr

namespace Py

variable {α β : Type}

/-- `np.cumsum` with an initial offset. -/
def cumsumFrom [Add α] (acc : α) : List α → List α
  | [] => []
  | x :: xs => (acc + x) :: cumsumFrom (acc + x) xs

/-- `np.cumsum(l)`. -/
def cumsum [Add α] [Zero α] (l : List α) : List α := cumsumFrom 0 l

/-- `np.cumprod` with an initial factor. -/
def cumprodFrom [Mul α] (acc : α) : List α → List α
  | [] => []
  | x :: xs => (acc * x) :: cumprodFrom (acc * x) xs

/-- `np.cumprod(l)`. -/
def cumprod [Mul α] [One α] (l : List α) : List α := cumprodFrom 1 l

/-- Python's `max(l)` on a list of ints: `ValueError` on an empty sequence. -/
def maxInt : List ℤ → Except PyErr ℤ
  | [] => .error .valueError
  | x :: xs => .ok (xs.foldl max x)

/-- `np.bincount(d)` for integer labels: `ValueError` if a label is negative; otherwise entry `j`, for
`j = 0 .. max(d)`, is the number of occurrences of `j`; empty for an empty `d`. -/
def bincount (d : List ℤ) : Except PyErr (List ℕ) :=
  if d.any (fun x => decide (x < 0)) then .error .valueError
  else match maxInt d with
    | .error _ => .ok []
    | .ok m => .ok ((List.range (m.toNat + 1)).map (fun (j : ℕ) => d.count (j : ℤ)))

/-- `l[:n]` with Python's convention for negative `n`. -/
def sliceTo (l : List α) (n : ℤ) : List α :=
  if 0 ≤ n then l.take n.toNat else l.take ((l.length : ℤ) + n).toNat

/-- `l[i]` with Python's convention for negative `i`; `IndexError` outside. -/
def index (l : List α) (i : ℤ) : Except PyErr α :=
  let k := if 0 ≤ i then i else (l.length : ℤ) + i
  if k < 0 then .error .indexError
  else match l[k.toNat]? with
    | some x => .ok x
    | none => .error .indexError

/-- `l[idx]` with an integer index array (fancy indexing). -/
def gather (l : List α) : List ℤ → Except PyErr (List α)
  | [] => .ok []
  | i :: is => match index l i with
    | .error e => .error e
    | .ok x => match gather l is with
      | .error e => .error e
      | .ok xs => .ok (x :: xs)

/-- `np.repeat(x, n)` for a scalar `x`: `ValueError` for negative `n`. -/
def repeatScalar (x : α) (n : ℤ) : Except PyErr (List α) :=
  if n < 0 then .error .valueError else .ok (List.replicate n.toNat x)

/-- `np.arange(a, b)` with unit step, as integers. -/
def arange (a b : ℤ) : List ℤ := (List.range (b - a).toNat).map (fun (i : ℕ) => a + (i : ℤ))

/-- First index of a maximal element from position `i` on, given the best candidate so far. -/
def argmaxFrom [LT α] [DecidableRel (α := α) (· < ·)] (best : α) (bi i : ℕ) : List α → ℕ
  | [] => bi
  | x :: xs => if best < x then argmaxFrom x i (i + 1) xs else argmaxFrom best bi (i + 1) xs

/-- `np.argmax(l)` for values without nan: the first index of a maximal element; `ValueError` if empty. -/
def argmax [LT α] [DecidableRel (α := α) (· < ·)] : List α → Except PyErr ℕ
  | [] => .error .valueError
  | x :: xs => .ok (argmaxFrom x 0 1 xs)

/-- `np.delete(l, j)` for `0 <= j < len(l)`. -/
def delete (l : List α) (j : ℕ) : List α := l.eraseIdx j

end Py

/-- The size as a number, when it has one. -/
def PySize.toInt? : PySize → Option ℤ
  | .none => Option.none
  | .int n => some n
  | .np n => some n
  | .other => Option.none

end Verif
