import Verif.Model.Base

/-! # `pyrichlet/weight_models/_beta_binomial.py` (sampling part) -/

namespace Verif

variable {K : Type}

/-- Attributes of `BetaBinomial`, `_beta_binomial.py:9-15`. -/
structure BBin (K : Type) where
  n : ℤ
  alpha : K
  v : List K
  binomials : List ℤ
  w : List K
  d : List ℤ

namespace BBin
variable [Field K] [LinearOrder K]

/-- `__init__`, `_beta_binomial.py:9-15`. -/
def init (n : ℤ) (alpha : K) : BBin K := { n := n, alpha := alpha, v := [], binomials := [], w := [], d := [] }

/-- One iteration of `while len(self.v) < size`, `_beta_binomial.py:63-69`. -/
def growOne : M K (BBin K) Unit := do
  let s ← M.self
  let vl ← M.lift (Py.index s.v (-1))
  let z ← M.binom s.n vl
  M.assign (fun s => { s with binomials := s.binomials ++ [z] })
  let nv ← M.beta (1 + (z : K)) (s.alpha + (s.n : K) - (z : K))
  M.assign (fun s => { s with v := s.v ++ [nv] })

/-- The loop `while len(self.v) < size`: each iteration appends one stick, so it runs `size - len(v)` times. -/
def grow : ℕ → M K (BBin K) Unit
  | 0 => pure ()
  | k + 1 => do
    growOne
    grow k

/-- `complete`, `_beta_binomial.py:54-72`. -/
def complete (size : PySize) : M K (BBin K) (List K) := do
  let _ ← M.lift (BaseWeight.checkSize size)
  let s ← M.self
  M.whenM (s.v.length = 0) do
    let v0 ← M.beta 1 s.alpha
    let z ← M.binom s.n v0
    M.assign (fun s => { s with binomials := [z] })
    let nv ← M.beta (1 + (z : K)) (s.alpha + (s.n : K) - (z : K))
    M.assign (fun s => { s with v := [nv] })
  match size.toInt? with
  | none => M.raise .typeError
  | some n => do
    let s ← M.self
    grow (n - s.v.length).toNat
    M.assign (fun s => { s with w := stickWeights s.v })
    let s ← M.self
    pure s.w

/-- `_random_binomials`, `_beta_binomial.py:74-81`. -/
def randomBinomials : M K (BBin K) Unit := do
  let s ← M.self
  let a_c ← M.lift (Py.bincount s.d)
  let b_c := revTails a_c
  let rv ← M.betaVec (List.zipWith (fun (a b : ℕ) => (1 + (a : K), s.alpha + (b : K))) (0 :: a_c) (0 :: b_c))
  let zs ← M.binomVec s.n rv
  M.assign (fun s => { s with binomials := zs })

/-- `self.binomials[:-1] + self.binomials[1:]`, `_beta_binomial.py:44`. -/
def phased (zs : List ℤ) : List ℤ := List.zipWith (· + ·) zs.dropLast zs.tail

/-- Beta parameters of the fitted branch, `_beta_binomial.py:45-46`. -/
def params (s : BBin K) (a_c b_c : List ℕ) : List (K × K) :=
  List.zipWith (fun (ab : ℕ × ℕ) (z : ℤ) =>
      (1 + (ab.1 : K) + (z : K), s.alpha + (ab.2 : K) + 2 * (s.n : K) - (z : K)))
    (List.zip a_c b_c) (phased s.binomials)

/-- `random` after `size` was resolved, `_beta_binomial.py:37-52`. -/
def randomSized (size : PySize) : M K (BBin K) (List K) := do
  M.assign (fun s => { s with v := [] })
  let s ← M.self
  if s.d.length = 0 then complete size
  else do
    randomBinomials
    let a_c ← M.lift (Py.bincount s.d)
    let b_c := revTails a_c
    let s ← M.self
    let v ← M.betaVec (s.params a_c b_c)
    M.assign (fun s => { s with v := v, w := stickWeights v })
    complete size

/-- `random`, `_beta_binomial.py:31-52`; `None` means size 1 when fitted. -/
def random (size : PySize) : M K (BBin K) (List K) := do
  let s ← M.self
  if size = .none ∧ s.d.length = 0 then M.raise .valueError
  else randomSized (if size = .none then .int 1 else size)

/-- Virtual-method table of the class. -/
def core : WeightCore K where
  State := BBin K
  getW := BBin.w
  getD := BBin.d
  setD := fun d s => { s with d := d }
  random := random
  complete := fun n => do let w ← complete n; pure (some w)

/-- The class; `tail` is inherited. -/
def cls : WeightClass K := core.inheritTail

end BBin
end Verif
