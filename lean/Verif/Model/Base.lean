import Verif.Rng

/-!
# `pyrichlet/weight_models/_base.py`: the base class `BaseWeight`

`WeightCore` is the virtual-method table (what a subclass provides); the base-class methods are written against it.
-/

namespace Verif

variable {K : Type}

/-- numpy expression used by all stick-breaking classes, e.g. `_dirichlet_process.py:43-44`:
`self.v * np.cumprod(np.concatenate(([1], 1 - self.v[:-1])))`. -/
def stickWeights [Field K] (v : List K) : List K :=
  List.zipWith (· * ·) v (Py.cumprod (1 :: v.dropLast.map (fun x => 1 - x)))

/-- `np.concatenate((np.cumsum(a_c[::-1])[-2::-1], [0]))`, e.g. `_dirichlet_process.py:36`. -/
def revTails {α : Type} [Add α] [Zero α] (a : List α) : List α :=
  (Py.cumsum a.reverse).dropLast.reverse ++ [0]

/-- What a concrete weight class provides. `_base.py:8-22` (attributes `w`, `d`), `24-67` (abstract methods).
`complete` returns an `Option` because `BetaInDirichlet.complete` has no `return` statement. -/
structure WeightCore (K : Type) where
  /-- instance attributes of the class -/
  State : Type
  /-- `self.w` -/
  getW : State → List K
  /-- `self.d` -/
  getD : State → List ℤ
  /-- assignment to `self.d` -/
  setD : List ℤ → State → State
  /-- `random(size)` -/
  random : PySize → M K State (List K)
  /-- `complete(size)` -/
  complete : PySize → M K State (Option (List K))

namespace BaseWeight

variable [Field K] [LinearOrder K]

/-- `BaseWeight.complete` body, `_base.py:66-67`: the type check shared by subclasses. -/
def checkSize (size : PySize) : Except PyErr Unit :=
  match size with
  | .other => .error .typeError
  | _ => .ok ()

/-- `fit`, `_base.py:81-94`. -/
def fit (C : WeightCore K) (d : List ℤ) : M K C.State Unit := M.assign (C.setD d)

/-- `reset`, `_base.py:131-133`. -/
def reset (C : WeightCore K) : M K C.State Unit := M.assign (C.setD [])

/-- The loop `while self.w.sum() < x: self.complete(len(self.w) + 1)`, `_base.py:118-119`, for at most
`fuel` iterations (Python's loop is unbounded). -/
def tailLoop (C : WeightCore K) (x : K) : ℕ → M K C.State (List K)
  | 0 => do
    let s ← M.self
    if (C.getW s).sum < x then M.raise .outOfFuel else pure (C.getW s)
  | fuel + 1 => do
    let s ← M.self
    if (C.getW s).sum < x then do
      let _ ← C.complete (.int ((C.getW s).length + 1))
      tailLoop C x fuel
    else pure (C.getW s)

/-- `tail`, `_base.py:96-120`. -/
def tail (C : WeightCore K) (fuel : ℕ) (x : K) : M K C.State (List K) :=
  if x ≥ 1 ∨ x < 0 then M.raise .valueError
  else do
    let s ← M.self
    if (C.getW s).length = 0 then do
      let _ ← C.random (.int 1)
      tailLoop C x fuel
    else tailLoop C x fuel

/-- `np.sum(np.log(self.w[d]))` with `log` a parameter; `none` is minus infinity, `_base.py:127-129`. -/
def sumLog (log : K → K) (ws : List K) : Option K :=
  if ws.any (fun x => decide (x = 0)) then none else some ((ws.map log).sum)

/-- `assignation_log_likelihood`, `_base.py:122-129`. `np.log` is a parameter; weights are non-negative, so
`np.log` gives minus infinity exactly at 0. -/
def assignationLogLikelihood (C : WeightCore K) (log : K → K) (d? : Option (List ℤ)) :
    M K C.State (Option K) := do
  let s ← M.self
  let d := d?.getD (C.getD s)
  let m ← M.lift (Py.maxInt d)
  let _ ← C.complete (.int (m + 1))
  let s ← M.self
  let ws ← M.lift (Py.gather (C.getW s) d)
  pure (sumLog log ws)

/-- `get_normalized_weights`, `_base.py:139-141` (for an all-zero vector numpy gives nan; here `0`). -/
def normalized (w : List K) : List K := w.map (fun x => x / w.sum)

/-- `get_normalized_cumulative_weights`, `_base.py:143-145`. -/
def normalizedCumulative (w : List K) : List K := Py.cumsum (normalized w)

/-- One row of `np.sum(np.greater.outer(u, cum), axis=1)`, `_base.py:155-158`. -/
def invCdf (cum : List K) (u : K) : ℕ := cum.countP (fun c => decide (u > c))

/-- `random_assignment`, `_base.py:151-158`.  With `size=None` the uniform is a scalar, `np.greater.outer` is
one-dimensional and `np.sum(..., axis=1)` raises `AxisError` (after the uniform was drawn). -/
def randomAssignment (C : WeightCore K) (size : Option ℤ) : M K C.State (List ℕ) := do
  match size with
  | none => do
    let _ ← M.unifVec 1
    M.raise .axisError
  | some n => do
    let us ← M.unifVec n
    let s ← M.self
    pure (us.map (invCdf (normalizedCumulative (C.getW s))))

end BaseWeight

/-- A weight class together with its (possibly overridden) `tail`. -/
structure WeightClass (K : Type) extends WeightCore K where
  /-- `tail(x)`; the first argument is the fuel of its loop -/
  tail : ℕ → K → M K State (List K)

/-- A class that inherits `BaseWeight.tail`. -/
def WeightCore.inheritTail [Field K] [LinearOrder K] (C : WeightCore K) : WeightClass K :=
  { C with tail := BaseWeight.tail C }

/-- One call a user can make on a weight object. -/
inductive WOp (K : Type) where
  | fit (d : List ℤ)
  | reset
  | random (size : PySize)
  | complete (size : PySize)
  | tail (fuel : ℕ) (x : K)
  | assignationLogLikelihood (d : Option (List ℤ))
  | randomAssignment (size : Option ℤ)

/-- A call that is not an explicit redraw: everything a user can do except `random`. -/
def WOp.notRandom : WOp K → Prop
  | .random _ => False
  | _ => True

namespace WeightClass

variable [Field K] [LinearOrder K]

/-- The effect of one call on the object and the generator; the outcome (value or exception) is dropped: a
caller may catch the exception and go on. -/
def step (C : WeightClass K) (log : K → K) (ω : Oracle K) (s : C.State × ℕ) : WOp K → C.State × ℕ
  | .fit d => (BaseWeight.fit C.toWeightCore d ω s).2
  | .reset => (BaseWeight.reset C.toWeightCore ω s).2
  | .random n => (C.random n ω s).2
  | .complete n => (C.complete n ω s).2
  | .tail f x => (C.tail f x ω s).2
  | .assignationLogLikelihood d => (BaseWeight.assignationLogLikelihood C.toWeightCore log d ω s).2
  | .randomAssignment n => (BaseWeight.randomAssignment C.toWeightCore n ω s).2

/-- A whole history of calls. -/
def run (C : WeightClass K) (log : K → K) (ω : Oracle K) (s : C.State × ℕ) (ops : List (WOp K)) :
    C.State × ℕ := ops.foldl (C.step log ω) s

end WeightClass

end Verif
