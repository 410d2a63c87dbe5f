import Verif.Model.Base

/-! # `pyrichlet/weight_models/_beta_in_beta.py` (sampling part) -/

namespace Verif

variable {K : Type}

/-- The string `p_method`, `_beta_in_beta.py:141-146`; `unknown` is any other string. -/
inductive PMethod where
  | static | independent | geometric | rejectionSampling | maxLikelihood | inverseSampling | unknown
  deriving DecidableEq, Repr

/-- Attributes of `BetaInBeta`, `_beta_in_beta.py:11-24` (`p_optim_max_steps` is only passed to the optimiser). -/
structure BIB (K : Type) where
  x : K
  alpha : K
  a : K
  b : K
  p : K
  pMethod : PMethod
  v : List K
  w : List K
  d : List ℤ

namespace BIB
variable [Field K] [LinearOrder K]

/-- `__init__` and `_validate_params`, `_beta_in_beta.py:11-24, 141-146`. -/
def init (x alpha a b p : K) (m : PMethod) : Except PyErr (BIB K) :=
  if m = .unknown then .error .valueError
  else .ok { x := x, alpha := alpha, a := a, b := b, p := p, pMethod := m, v := [], w := [], d := [] }

/-- `rng.beta(a=self.a + len(self.d), b=self.b + self.d.sum())`, `_beta_in_beta.py:95-96, 110-111`. -/
def drawGeometricP : M K (BIB K) Unit := do
  let s ← M.self
  let p ← M.beta (s.a + (s.d.length : K)) (s.b + ((s.d.sum : ℤ) : K))
  M.assign (fun s => { s with p := p })

/-- `rng.beta(a=self.a, b=self.b)`, `_beta_in_beta.py:101, 107`. -/
def drawPriorP : M K (BIB K) Unit := do
  let s ← M.self
  let p ← M.beta s.a s.b
  M.assign (fun s => { s with p := p })

/-- `random_p`, `_beta_in_beta.py:93-139`.  The optimiser (`minimize`) and the root finder (`quad`, `brentq`) are the
oracle answer `optim` to the objective, which `_structure_log_likelihood` (148-159) builds from the sticks `v` and from `x`, `alpha`, `a`, `b`; the
last number is the start of the optimiser or the uniform number to be inverted.  The answer is a value in `[0, 1]` or a reported failure, which keeps the
old `p`. -/
def randomP : M K (BIB K) Unit := do
  let s ← M.self
  if s.x = 1 then drawGeometricP
  else if s.x = 0 then pure ()
  else if s.d.length = 0 then drawPriorP
  else match s.pMethod with
  | .static => pure ()
  | .independent => drawPriorP
  | .geometric => drawGeometricP
  | .maxLikelihood => do
    let r ← M.optim s.v [s.x, s.alpha, s.a, s.b, s.p]
    M.assign (fun s => { s with p := r.getD s.p })
  | .inverseSampling => do
    let u ← M.unifVec 1
    let r ← M.optim s.v ([s.x, s.alpha, s.a, s.b] ++ u)
    M.assign (fun s => { s with p := r.getD s.p })
  | .rejectionSampling => M.raise .valueError
  | .unknown => M.raise .valueError

/-- Prior Beta parameters of a stick, `_beta_in_beta.py:82-83`. -/
def priorA (s : BIB K) : K := 1 + s.x / (1 - s.x) * s.p
/-- See `priorA`. -/
def priorB (s : BIB K) : K := s.alpha + s.x / (1 - s.x) * (1 - s.p)

/-- The new sticks of `complete`, `_beta_in_beta.py:80-87`. -/
def newSticks (s : BIB K) (k : ℤ) : M K (BIB K) (List K) :=
  if s.x < 1 then M.betaRep s.priorA s.priorB k else M.lift (Py.repeatScalar s.p k)

/-- `complete`, `_beta_in_beta.py:75-91`.  Line 77 reads `if len(self.v == 0)`, which is true iff `v` is *not*
empty. -/
def complete (size : PySize) : M K (BIB K) (List K) := do
  let _ ← M.lift (BaseWeight.checkSize size)
  let s ← M.self
  M.whenM (s.v.length ≠ 0) randomP
  match size.toInt? with
  | none => M.raise .typeError
  | some n => do
    let s ← M.self
    M.whenM ((s.v.length : ℤ) < n) do
      let nv ← newSticks s (n - s.v.length)
      M.assign (fun s => { s with v := s.v ++ nv })
      M.assign (fun s => { s with w := stickWeights s.v })
    let s ← M.self
    pure s.w

/-- Beta parameters of the fitted branch, `_beta_in_beta.py:63-66`. -/
def params (s : BIB K) (a_c b_c : List ℕ) : List (K × K) :=
  List.zipWith (fun (a b : ℕ) => (s.priorA + (a : K), s.priorB + (b : K))) a_c b_c

/-- The sticks of the fitted branch, `_beta_in_beta.py:62-68`. -/
def fittedSticks (s : BIB K) (a_c b_c : List ℕ) (n : ℤ) : M K (BIB K) (List K) :=
  if s.x < 1 then M.betaVec (s.params a_c b_c) else M.lift (Py.repeatScalar s.p n)

/-- Fitted branch of `random` once the size is a number, `_beta_in_beta.py:56-72`. -/
def randomFitted (a_c b_c : List ℕ) (size : PySize) (n : ℤ) : M K (BIB K) (List K) := do
  let s ← M.self
  let a_c' := if n < (a_c.length : ℤ) then Py.sliceTo a_c n else a_c
  let b_c' := if n < (a_c.length : ℤ) then Py.sliceTo b_c n else b_c
  let v ← fittedSticks s a_c' b_c' n
  M.assign (fun s => { s with v := v, w := stickWeights v })
  complete size

/-- `random`, `_beta_in_beta.py:42-73`. -/
def random (size : PySize) : M K (BIB K) (List K) := do
  let s ← M.self
  if size = .none ∧ s.d.length = 0 then M.raise .valueError
  else do
    M.assign (fun s => { s with v := [] })
    if s.d.length = 0 then complete size
    else do
      M.whenM (0 < s.x) randomP
      let a_c ← M.lift (Py.bincount s.d)
      let b_c := revTails a_c
      match size with
      | .none => randomFitted a_c b_c (.int a_c.length) a_c.length
      | .other => M.raise .typeError
      | .int n => randomFitted a_c b_c (.int n) n
      | .np n => randomFitted a_c b_c (.np n) n

/-- Virtual-method table of the class. -/
def core : WeightCore K where
  State := BIB K
  getW := BIB.w
  getD := BIB.d
  setD := fun d s => { s with d := d }
  random := random
  complete := fun n => do let w ← complete n; pure (some w)

/-- The class; `tail` is inherited. -/
def cls : WeightClass K := core.inheritTail

end BIB
end Verif
