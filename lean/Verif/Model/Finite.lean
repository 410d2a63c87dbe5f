import Verif.Model.Base

/-! # The finite models: `_dirichlet_distribution.py`, `_equal.py`, `_frequency.py` (sampling part) -/

namespace Verif

variable {K : Type}

/-- Attributes of `DirichletDistribution`, `_dirichlet_distribution.py:11-19`. -/
structure DirDist (K : Type) where
  n : ℤ
  alpha : List K
  w : List K
  d : List ℤ

namespace DirDist
variable [Field K] [LinearOrder K]

/-- `__init__` with a scalar `alpha`, `_dirichlet_distribution.py:11-14, 18-19` (`[alpha] * n` is empty for `n <= 0`). -/
def initScalar (n : ℤ) (alpha : K) : DirDist K :=
  { n := n, alpha := List.replicate n.toNat alpha, w := [], d := [] }

/-- `__init__` with a list `alpha`, `_dirichlet_distribution.py:11-17`: `n` is *not* set to `len(alpha)`. -/
def initList (n : ℤ) (alpha : List K) : DirDist K := { n := n, alpha := alpha, w := [], d := [] }

/-- `alpha + a_c` after `a_c.resize(len(alpha))` (zero padded), `_dirichlet_distribution.py:33-35`. -/
def posterior (alpha : List K) (a_c : List ℕ) : List K :=
  alpha.mapIdx (fun j a => a + (((a_c[j]?).getD 0 : ℕ) : K))

/-- Lines 27-37 of `random`, `_dirichlet_distribution.py`: draw and store the weights. -/
def draw : M K (DirDist K) Unit := do
  let s ← M.self
  if s.d.length > 0 then do
    let m ← M.lift (Py.maxInt s.d)
    if m ≥ (s.alpha.length : ℤ) then M.raise .valueError
    else do
      let a_c ← M.lift (Py.bincount s.d)
      let w ← M.dirichlet (posterior s.alpha a_c)
      M.assign (fun s => { s with w := w })
  else do
    let w ← M.dirichlet s.alpha
    M.assign (fun s => { s with w := w })

/-- `random`, `_dirichlet_distribution.py:26-38`. -/
def random (_size : PySize) : M K (DirDist K) (List K) := do
  draw
  let s ← M.self
  pure s.w

/-- `complete`, `_dirichlet_distribution.py:40-44`. -/
def complete (size : PySize) : M K (DirDist K) (List K) := do
  let _ ← M.lift (BaseWeight.checkSize size)
  let s ← M.self
  M.whenM (s.w.length = 0) do
    let _ ← random .none
  let s ← M.self
  pure s.w

/-- Virtual-method table of the class. -/
def core : WeightCore K where
  State := DirDist K
  getW := DirDist.w
  getD := DirDist.d
  setD := fun d s => { s with d := d }
  random := random
  complete := fun n => do let w ← complete n; pure (some w)

/-- The class; `tail` is inherited. -/
def cls : WeightClass K := core.inheritTail

end DirDist

/-- Attributes of `EqualWeighting`, `_equal.py:8-10`. -/
structure Equal (K : Type) where
  n : ℤ
  w : List K
  d : List ℤ

/-- `np.repeat(1 / n, n)`, `_equal.py:16` and `_frequency.py:17`: `1 / 0` raises `ZeroDivisionError`, a negative repeat
count `ValueError`. -/
def uniformWeights [Field K] (n : ℤ) : Except PyErr (List K) :=
  if n = 0 then .error .zeroDivisionError else Py.repeatScalar (1 / (n : K)) n

namespace Equal
variable [Field K] [LinearOrder K]

/-- `__init__`, `_equal.py:8-10`. -/
def init (n : ℤ) : Equal K := { n := n, w := [], d := [] }

/-- `random`, `_equal.py:15-17`. -/
def random (_size : PySize) : M K (Equal K) (List K) := do
  let s ← M.self
  let w ← M.lift (uniformWeights s.n)
  M.assign (fun s => { s with w := w })
  pure w

/-- `complete`, `_equal.py:19-20` (no type check). -/
def complete (size : PySize) : M K (Equal K) (List K) := random size

/-- Virtual-method table of the class. -/
def core : WeightCore K where
  State := Equal K
  getW := Equal.w
  getD := Equal.d
  setD := fun d s => { s with d := d }
  random := random
  complete := fun n => do let w ← complete n; pure (some w)

/-- The class; `tail` is inherited. -/
def cls : WeightClass K := core.inheritTail

end Equal

/-- Attributes of `FrequencyWeighting`, `_frequency.py:8-10`. -/
structure Freq (K : Type) where
  n : ℤ
  w : List K
  d : List ℤ

namespace Freq
variable [Field K] [LinearOrder K]

/-- `__init__`, `_frequency.py:8-10`. -/
def init (n : ℤ) : Freq K := { n := n, w := [], d := [] }

/-- `self.w / self.w.sum()` for the counts, `_frequency.py:20`. -/
def frequencies (a_c : List ℕ) : List K := a_c.map (fun (a : ℕ) => (a : K) / ((a_c.sum : ℕ) : K))

/-- Lines 16-20 of `random`, `_frequency.py`: compute and store the weights. -/
def draw : M K (Freq K) Unit := do
  let s ← M.self
  if s.d.length = 0 then do
    let w ← M.lift (uniformWeights s.n)
    M.assign (fun s => { s with w := w })
  else do
    let a_c ← M.lift (Py.bincount s.d)
    M.assign (fun s => { s with w := frequencies a_c })

/-- `random`, `_frequency.py:15-21`. -/
def random (_size : PySize) : M K (Freq K) (List K) := do
  draw
  let s ← M.self
  pure s.w

/-- `complete`, `_frequency.py:23-24` (no type check). -/
def complete (size : PySize) : M K (Freq K) (List K) := random size

/-- Virtual-method table of the class. -/
def core : WeightCore K where
  State := Freq K
  getW := Freq.w
  getD := Freq.d
  setD := fun d s => { s with d := d }
  random := random
  complete := fun n => do let w ← complete n; pure (some w)

/-- The class; `tail` is inherited. -/
def cls : WeightClass K := core.inheritTail

end Freq
end Verif
