import Verif.Py
import Mathlib.Algebra.Order.Field.Basic

/-!
# Numbers with the special values of IEEE 754

`Fl K` is an exact number of `K`, an infinity or `nan`.  The operations follow numpy; rounding and the sign of zero are not modelled.
-/

namespace Verif
variable {K : Type}

/-- A float: `nan`, the infinities, or an exact number. -/
inductive Fl (K : Type) where
  | nan
  | ninf
  | fin (x : K)
  | pinf
  deriving DecidableEq, Repr

namespace Fl

/-- `x + y`. -/
def add [Add K] : Fl K → Fl K → Fl K
  | nan, _ => nan
  | _, nan => nan
  | fin x, fin y => fin (x + y)
  | ninf, pinf => nan
  | pinf, ninf => nan
  | ninf, _ => ninf
  | _, ninf => ninf
  | pinf, _ => pinf
  | _, pinf => pinf

/-- `-x`. -/
def neg [Neg K] : Fl K → Fl K
  | nan => nan
  | ninf => pinf
  | pinf => ninf
  | fin x => fin (-x)

/-- `x - y`. -/
def sub [Add K] [Neg K] (x y : Fl K) : Fl K := add x (neg y)

instance [Add K] : Add (Fl K) := ⟨add⟩
instance [Add K] [Neg K] : Sub (Fl K) := ⟨sub⟩

/-- `x * c` for a number `c`; `0 * inf` is `nan`. -/
def scale [Field K] [LinearOrder K] (c : K) : Fl K → Fl K
  | nan => nan
  | fin x => fin (c * x)
  | ninf => if c = 0 then nan else if 0 < c then ninf else pinf
  | pinf => if c = 0 then nan else if 0 < c then pinf else ninf

/-- `x * y`. -/
def mul [Field K] [LinearOrder K] : Fl K → Fl K → Fl K
  | nan, _ => nan
  | _, nan => nan
  | fin x, y => scale x y
  | x, fin y => scale y x
  | ninf, ninf => pinf
  | pinf, pinf => pinf
  | _, _ => ninf

/-- `x / y`. -/
def div [Field K] [LinearOrder K] : Fl K → Fl K → Fl K
  | nan, _ => nan
  | _, nan => nan
  | fin x, fin y => if y = 0 then (if x = 0 then nan else if 0 < x then pinf else ninf) else fin (x / y)
  | fin _, _ => fin 0
  | ninf, fin y => if y < 0 then pinf else ninf
  | pinf, fin y => if y < 0 then ninf else pinf
  | _, _ => nan

/-- `abs(x)`. -/
def abs [Field K] [LinearOrder K] : Fl K → Fl K
  | nan => nan
  | fin x => fin |x|
  | _ => pinf

/-- `np.exp(x)`. -/
def exp [Zero K] (e : K → K) : Fl K → Fl K
  | nan => nan
  | ninf => fin 0
  | fin x => fin (e x)
  | pinf => pinf

/-- `np.log(x)`. -/
def log [Zero K] [LinearOrder K] (l : K → K) : Fl K → Fl K
  | nan => nan
  | ninf => nan
  | fin x => if x < 0 then nan else if x = 0 then ninf else fin (l x)
  | pinf => pinf

/-- `x < y`; false as soon as one of them is `nan`. -/
def lt [LT K] [DecidableRel (α := K) (· < ·)] : Fl K → Fl K → Bool
  | nan, _ => false
  | _, nan => false
  | fin x, fin y => decide (x < y)
  | ninf, ninf => false
  | ninf, _ => true
  | pinf, _ => false
  | _, pinf => true
  | _, ninf => false

/-- `np.maximum(x, y)`: `nan` wins. -/
def max [LT K] [DecidableRel (α := K) (· < ·)] (x y : Fl K) : Fl K := match x, y with
  | nan, _ => nan
  | _, nan => nan
  | x, y => if lt x y then y else x

/-- `l.sum()`. -/
def sum [Add K] [Zero K] (l : List (Fl K)) : Fl K := l.foldl add (fin 0)

/-- `l.max(initial=-inf)`. -/
def maximum [LT K] [DecidableRel (α := K) (· < ·)] (l : List (Fl K)) : Fl K := l.foldl max ninf

/-- `l.mean()`. -/
def mean [Field K] [LinearOrder K] (l : List (Fl K)) : Fl K := div (sum l) (fin (l.length : K))

/-- The loop of `np.argmax`: the first `nan`, otherwise the first largest entry; `b` is the best value so far, at index `bi`. -/
def argmaxFrom [LT K] [DecidableRel (α := K) (· < ·)] (b : Fl K) (bi : ℕ) : ℕ → List (Fl K) → ℕ
  | _, [] => bi
  | i, x :: xs => match b, x with
    | nan, _ => bi
    | _, nan => i
    | b, x => if lt b x then argmaxFrom x i (i + 1) xs else argmaxFrom b bi (i + 1) xs

/-- `np.argmax`; `ValueError` for an empty array. -/
def argmax [LT K] [DecidableRel (α := K) (· < ·)] : List (Fl K) → Except PyErr ℕ
  | [] => .error .valueError
  | x :: xs => .ok (argmaxFrom x 0 1 xs)

/-- The numbers of an array without special values. -/
def numbers : List (Fl K) → Option (List K)
  | [] => some []
  | fin x :: xs => (numbers xs).map (x :: ·)
  | _ :: _ => none

/-- The numbers of a matrix without special values. -/
def matrix : List (List (Fl K)) → Option (List (List K))
  | [] => some []
  | r :: rs => match numbers r, matrix rs with
    | some r, some rs => some (r :: rs)
    | _, _ => none
end Fl
end Verif
