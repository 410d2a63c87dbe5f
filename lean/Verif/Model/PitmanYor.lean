import Verif.Model.Base

/-! # `pyrichlet/weight_models/_pitman_yor_process.py` (sampling part) -/

namespace Verif

variable {K : Type}

/-- Attributes of `PitmanYorProcess`, `_pitman_yor_process.py:10-16` (`truncation_length` is never read). -/
structure PY (K : Type) where
  pyd : K
  alpha : K
  v : List K
  w : List K
  d : List ℤ

namespace PY
variable [Field K] [LinearOrder K]

/-- `__init__`, `_pitman_yor_process.py:10-16`: `assert -pyd < alpha`. -/
def init (pyd alpha : K) : Except PyErr (PY K) :=
  if -pyd < alpha then .ok { pyd := pyd, alpha := alpha, v := [], w := [], d := [] }
  else .error .assertionError

/-- Parameters of prior sticks with indices `js` (`pitman_yor_bias`), `_pitman_yor_process.py:33-36, 61-66`. -/
def priorParams (s : PY K) (js : List ℤ) : List (K × K) :=
  js.map (fun (j : ℤ) => (1 - s.pyd, s.alpha + (j : K) * s.pyd))

/-- `complete`, `_pitman_yor_process.py:58-71`. -/
def complete (size : PySize) : M K (PY K) (List K) := do
  let _ ← M.lift (BaseWeight.checkSize size)
  match size.toInt? with
  | none => M.raise .typeError
  | some n => do
    let s ← M.self
    M.whenM ((s.w.length : ℤ) < n) do
      let nv ← M.betaVec (s.priorParams (Py.arange s.w.length n))
      M.assign (fun s => { s with v := s.v ++ nv })
      M.assign (fun s => { s with w := stickWeights s.v })
    let s ← M.self
    pure s.w

/-- Parameters of the fitted branch, `_pitman_yor_process.py:47-51`. -/
def params (s : PY K) (a_c b_c : List ℕ) : List (K × K) :=
  List.zipWith (fun (j : ℤ) (ab : ℕ × ℕ) =>
      (1 - s.pyd + (ab.1 : K), s.alpha + (j : K) * s.pyd + (ab.2 : K)))
    (Py.arange 0 a_c.length) (List.zip a_c b_c)

/-- The Beta draws of the fitted branch, `_pitman_yor_process.py:43-51`. -/
def drawSticks (s : PY K) (a_c b_c : List ℕ) (size : PySize) : M K (PY K) (List K) :=
  match size with
  | .other => M.raise .typeError
  | .none => M.betaVec (s.params a_c b_c)
  | .int n | .np n =>
    if n < (a_c.length : ℤ) then M.betaVec (s.params (Py.sliceTo a_c n) (Py.sliceTo b_c n))
    else M.betaVec (s.params a_c b_c)

/-- `random`, `_pitman_yor_process.py:29-56`.  The unfitted branch passes `size` to `np.arange` and `rng.beta`, which
raise `TypeError` for a non-numeric size and `ValueError` for a negative one; `rng.beta` also checks the scalar
`a = 1 - pyd` when the size is 0. -/
def random (size : PySize) : M K (PY K) (List K) := do
  let s ← M.self
  if size = .none ∧ s.d.length = 0 then M.raise .valueError
  else if s.d.length = 0 then
    match size.toInt? with
    | none => M.raise .typeError
    | some n =>
      if 1 - s.pyd ≤ 0 ∨ n < 0 then M.raise .valueError
      else do
        let v ← M.betaVec (s.priorParams (Py.arange 0 n))
        M.assign (fun s => { s with v := v, w := stickWeights v })
        let s ← M.self
        pure s.w
  else do
    let a_c ← M.lift (Py.bincount s.d)
    let v ← drawSticks s a_c (revTails a_c) size
    M.assign (fun s => { s with v := v, w := stickWeights v })
    M.whenM (size ≠ .none) do
      let _ ← complete size
    let s ← M.self
    pure s.w

/-- Virtual-method table of the class. -/
def core : WeightCore K where
  State := PY K
  getW := PY.w
  getD := PY.d
  setD := fun d s => { s with d := d }
  random := random
  complete := fun n => do let w ← complete n; pure (some w)

/-- The class; `tail` is inherited. -/
def cls : WeightClass K := core.inheritTail

end PY
end Verif
