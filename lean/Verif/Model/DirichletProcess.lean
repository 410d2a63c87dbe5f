import Verif.Model.Base

/-! # `pyrichlet/weight_models/_dirichlet_process.py` (sampling part) -/

namespace Verif

variable {K : Type}

/-- Attributes of `DirichletProcess`, `_dirichlet_process.py:10-13` and `_base.py:15-22`. -/
structure DP (K : Type) where
  alpha : K
  v : List K
  w : List K
  d : List ℤ

namespace DP
variable [Field K] [LinearOrder K]

/-- `__init__`, `_dirichlet_process.py:10-13`. -/
def init (alpha : K) : DP K := { alpha := alpha, v := [], w := [], d := [] }

/-- The part of `complete` after the type check, `_dirichlet_process.py:51-57`. `None < int` comparisons raise
`TypeError`. -/
def complete (size : PySize) : M K (DP K) (List K) := do
  let _ ← M.lift (BaseWeight.checkSize size)
  match size.toInt? with
  | none => M.raise .typeError
  | some n => do
    let s ← M.self
    M.whenM ((s.v.length : ℤ) < n) do
      let nv ← M.betaRep 1 s.alpha (n - s.v.length)
      M.assign (fun s => { s with v := s.v ++ nv })
      M.assign (fun s => { s with w := stickWeights s.v })
    let s ← M.self
    pure s.w

/-- The parameters handed to `rng.beta` in the fitted branch, `_dirichlet_process.py:35-42`. -/
def params (alpha : K) (a_c b_c : List ℕ) : List (K × K) :=
  List.zipWith (fun (a b : ℕ) => (1 + (a : K), alpha + (b : K))) a_c b_c

/-- The Beta draws of the fitted branch, `_dirichlet_process.py:38-42`. -/
def drawSticks (alpha : K) (a_c b_c : List ℕ) (size : PySize) : M K (DP K) (List K) :=
  match size.toInt? with
  | some n =>
    if n < (a_c.length : ℤ) then M.betaVec (params alpha (Py.sliceTo a_c n) (Py.sliceTo b_c n))
    else M.betaVec (params alpha a_c b_c)
  | none => M.betaVec (params alpha a_c b_c)

/-- Fitted branch of `random`, `_dirichlet_process.py:35-46`. -/
def randomFitted (size : PySize) : M K (DP K) Unit := do
  let s ← M.self
  let a_c ← M.lift (Py.bincount s.d)
  let v ← drawSticks s.alpha a_c (revTails a_c) size
  M.assign (fun s => { s with v := v, w := stickWeights v })
  M.whenM (size ≠ .none) do
    let _ ← complete size

/-- `random`, `_dirichlet_process.py:25-47`. -/
def random (size : PySize) : M K (DP K) (List K) := do
  let s ← M.self
  if size = .none ∧ s.d.length = 0 then M.raise .valueError
  else match size with
  | .np _ => M.raise .typeError
  | .other => M.raise .typeError
  | size => do
    M.assign (fun s => { s with v := [] })
    if s.d.length = 0 then complete size
    else do
      randomFitted size
      let s ← M.self
      pure s.w

/-- Virtual-method table of the class. -/
def core : WeightCore K where
  State := DP K
  getW := DP.w
  getD := DP.d
  setD := fun d s => { s with d := d }
  random := random
  complete := fun n => do let w ← complete n; pure (some w)

/-- The class; `tail` is inherited. -/
def cls : WeightClass K := core.inheritTail

end DP
end Verif
