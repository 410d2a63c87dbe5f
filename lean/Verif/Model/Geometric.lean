import Verif.Model.Base
import Mathlib.Analysis.SpecialFunctions.Log.Basic

/-! # `pyrichlet/weight_models/_geometric_process.py` (sampling part) -/

namespace Verif

variable {K : Type}

/-- Attributes of `GeometricProcess`, `_geometric_process.py:10-16`. -/
structure Geo (K : Type) where
  a : K
  b : K
  p : K
  v : List K
  w : List K
  d : List ℤ

namespace Geo
variable [Field K] [LinearOrder K]

/-- `__init__`, `_geometric_process.py:10-16`; `p0` is the value of `self._rng.beta(a, b)` drawn by the constructor. -/
def init (a b p0 : K) : Geo K := { a := a, b := b, p := p0, v := [], w := [], d := [] }

/-- `complete`, `_geometric_process.py:32-38`. -/
def complete (size : PySize) : M K (Geo K) (List K) := do
  let _ ← M.lift (BaseWeight.checkSize size)
  match size.toInt? with
  | none => M.raise .typeError
  | some n => do
    let s ← M.self
    M.whenM ((s.v.length : ℤ) < n) do
      let nv ← M.lift (Py.repeatScalar s.p n)
      M.assign (fun s => { s with v := nv })
      M.assign (fun s => { s with w := stickWeights s.v })
    let s ← M.self
    pure s.w

/-- Lines 25-26: the size defaults to `max(self.d) + 1` (a `np.int64`). -/
def resolveSize (d : List ℤ) (size : PySize) : Except PyErr PySize :=
  match size with
  | .none => match Py.maxInt d with
    | .ok m => .ok (.np (m + 1))
    | .error e => .error e
  | sz => .ok sz

/-- `random`, `_geometric_process.py:22-30`. -/
def random (size : PySize) : M K (Geo K) (List K) := do
  let s ← M.self
  if size = .none ∧ s.d.length = 0 then M.raise .valueError
  else do
    let size ← M.lift (resolveSize s.d size)
    M.assign (fun s => { s with v := [] })
    let p ← M.beta (s.a + (s.d.length : K)) (s.b + ((s.d.sum : ℤ) : K))
    M.assign (fun s => { s with p := p })
    let _ ← complete size
    let s ← M.self
    pure s.w

/-- Virtual-method table of the class. -/
def core : WeightCore K where
  State := Geo K
  getW := Geo.w
  getD := Geo.d
  setD := fun d s => { s with d := d }
  random := random
  complete := fun n => do let w ← complete n; pure (some w)

/-- `int(np.log(1 - x) / np.log(1 - self.p))`, `_geometric_process.py:43`, for `0 < p < 1` (the quotient is
non-negative, so `int` is the floor). For `p = 1` numpy's quotient is `0`; for `p = 0` numpy divides by zero and `int`
raises (`OverflowError` for `inf`, `ValueError` for `nan`, i.e. for `x = 0`). -/
noncomputable def tailSize (x p : ℝ) : Except PyErr ℤ :=
  if p = 0 then (if x = 0 then .error .valueError else .error .overflowError)
  else if p = 1 then .ok 0
  else .ok ⌊Real.log (1 - x) / Real.log (1 - p)⌋

/-- `tail`, `_geometric_process.py:40-45` (overrides the base method). -/
noncomputable def tail (x : ℝ) : M ℝ (Geo ℝ) (List ℝ) :=
  if x ≥ 1 ∨ x < 0 then M.raise .valueError
  else do
    let s ← M.self
    let n ← M.lift (tailSize x s.p)
    let _ ← complete (.int n)
    let s ← M.self
    pure s.w

/-- The class. -/
noncomputable def cls : WeightClass ℝ := { (core : WeightCore ℝ) with tail := fun _ x => tail x }

end Geo
end Verif
