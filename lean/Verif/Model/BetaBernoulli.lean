import Verif.Model.Base
import Mathlib.Data.Nat.Factorial.Basic

/-! # `pyrichlet/weight_models/_beta_bernoulli.py` (sampling part) -/

namespace Verif

variable {K : Type}

/-- Attributes of `BetaBernoulli`, `_beta_bernoulli.py:9-14`. -/
structure BBer (K : Type) where
  p : K
  alpha : K
  v : List K
  bernoullis : List ℤ
  w : List K
  d : List ℤ

namespace BBer
variable [Field K] [LinearOrder K]

/-- `__init__`, `_beta_bernoulli.py:9-14`. -/
def init (p alpha : K) : BBer K := { p := p, alpha := alpha, v := [], bernoullis := [1], w := [], d := [] }

/-- `scipy.special.beta(a, b)` on counts: infinite (`none`) if one of them is 0. -/
def betaf (a b : ℕ) : Option K :=
  if a = 0 ∨ b = 0 then none
  else some (((a - 1).factorial * (b - 1).factorial : ℕ) / ((a + b - 1).factorial : ℕ) : K)

/-- `x * y` where `y` may be infinite and `x > 0`. -/
def scaleExt (x : K) (y : Option K) : Option K := y.map (fun y => x * y)

/-- Forward scan, `_beta_bernoulli.py:95-103`: for the indices `k = j+1, ...` until a 1 is met, accumulate the counts
and recompute `g_plus`.  Arguments: accumulated `a`, `b`, current `g_plus`, the remaining `(bernoulli, a_c, b_c)`. -/
def forward (alpha : K) (a b : ℕ) (g : Option K) : List (ℤ × ℕ × ℕ) → ℕ × ℕ × Option K
  | [] => (a, b, g)
  | (z, ac, bc) :: rest =>
    if z = 1 then (a, b, g)
    else forward alpha (a + ac) (b + bc) (scaleExt alpha (betaf (a + ac) (b + bc))) rest

/-- Backward scan, `_beta_bernoulli.py:106-112`, on the reversed prefix. -/
def backward (a b : ℕ) : List (ℤ × ℕ × ℕ) → ℕ × ℕ
  | [] => (a, b)
  | (z, ac, bc) :: rest => if z = 1 then (a, b) else backward (a + ac) (b + bc) rest

/-- The probability of line 117, `p_times_plus / (p_times_plus + not_p_times_minus)`; `none` is nan (`inf / inf` or
`0 / 0`).  Exact for `alpha > 0` (for `alpha <= 0` the later Beta draw raises in any case). -/
def ratio (p : K) (gPlus gMinus : Option K) : Option K :=
  let plus : Option K := if 0 < p then scaleExt p gPlus else some 0
  let minus : Option K := if p < 1 then scaleExt (1 - p) gMinus else some 0
  match plus, minus with
  | none, _ => none
  | some _, none => some 0
  | some x, some y => if x + y = 0 then none else some (x / (x + y))

/-- Conditional probability that position `j` starts a new stick, `_beta_bernoulli.py:95-117`. -/
def condProb (p alpha : K) (bern : List ℤ) (a_c b_c : List ℕ) (j : ℕ) : Option K :=
  let cells := List.zip bern (List.zip a_c b_c)
  let f := forward alpha 0 0 (some 1) (cells.drop (j + 1))
  let a := f.1 + (a_c[j]?).getD 0
  let b := f.2.1 + (b_c[j]?).getD 0
  let g := backward a b ((cells.take j).reverse)
  ratio p f.2.2 (scaleExt alpha (betaf g.1 g.2))

/-- The loop `for j in range(1, size_fit)`, `_beta_bernoulli.py:94-118`; the list holds the remaining indices. `rng.binomial`
rejects a nan probability with `ValueError`. -/
def bernLoop (a_c b_c : List ℕ) (bern : List ℤ) : List ℕ → M K (BBer K) (List ℤ)
  | [] => pure bern
  | j :: js => do
    let s ← M.self
    match condProb s.p s.alpha bern a_c b_c j with
    | none => M.raise .valueError
    | some q => do
      let z ← M.binom 1 q
      bernLoop a_c b_c (bern.set j z) js

/-- `_random_bernoullis`, `_beta_bernoulli.py:86-120`. The size is a number or of a wrong type. -/
def randomBernoullis (size : Option ℤ) : M K (BBer K) Unit := do
  let s ← M.self
  match size with
  | none => M.raise .typeError
  | some n => do
    let bern ← M.binomRep 1 s.p n
    if s.bernoullis.length = 0 then M.raise .indexError
    else do
      M.assign (fun s => { s with bernoullis := s.bernoullis.set 0 1 })
      if 0 < s.d.length then do
        let m ← M.lift (Py.maxInt s.d)
        let a_c ← M.lift (Py.bincount s.d)
        if bern.length = 0 then M.raise .indexError
        else do
          let bern ← bernLoop a_c (revTails a_c) (bern.set 0 0) ((List.range m.toNat).drop 1)
          M.assign (fun s => { s with bernoullis := bern })
      else M.assign (fun s => { s with bernoullis := bern })

/-- `complete`, `_beta_bernoulli.py:68-84`. -/
def complete (size : PySize) : M K (BBer K) (List K) := do
  let _ ← M.lift (BaseWeight.checkSize size)
  match size.toInt? with
  | none => M.raise .typeError
  | some n => do
    let s ← M.self
    M.whenM ((s.v.length : ℤ) < n) do
      M.whenM (s.v.length = 0) do
        let v ← M.betaRep 1 s.alpha 1
        M.assign (fun s => { s with v := v })
      let s ← M.self
      let change ← M.binomRep 1 s.p (n - s.v.length)
      M.assign (fun s => { s with bernoullis := s.bernoullis ++ change })
      let mask := Py.cumsum change
      let vl ← M.lift (Py.index s.v (-1))
      let ml ← M.lift (Py.index mask (-1))
      let nv ← M.betaRep 1 s.alpha ml
      let ext ← M.lift (Py.gather (vl :: nv) mask)
      M.assign (fun s => { s with v := s.v ++ ext })
      M.assign (fun s => { s with w := stickWeights s.v })
    let s ← M.self
    pure s.w

/-- `np.bincount(mask, weights)` for non-negative masks: entry `g`, for `g = 0 .. max(mask)`, is the sum of the weights at
the positions where the mask equals `g`. -/
def groupSums (mask : List ℤ) (ws : List ℕ) : Except PyErr (List ℕ) :=
  if mask.any (fun x => decide (x < 0)) then .error .valueError
  else match Py.maxInt mask with
    | .error _ => .ok []
    | .ok m => .ok ((List.range (m.toNat + 1)).map
        (fun (g : ℕ) => (((List.zip mask ws).filter (fun x => decide (x.1 = (g : ℤ)))).map Prod.snd).sum))

/-- `random` after `size` was resolved, `_beta_bernoulli.py:42-66`. -/
def randomSized (size : PySize) : M K (BBer K) (List K) := do
  M.assign (fun s => { s with v := [] })
  let s ← M.self
  if s.d.length = 0 then do
    randomBernoullis size.toInt?
    let s ← M.self
    let mask := Py.cumsum s.bernoullis
    let ml ← M.lift (Py.index mask (-1))
    let v ← M.betaRep 1 s.alpha (ml + 1)
    M.assign (fun s => { s with v := v })
    let v ← M.lift (Py.gather v mask)
    M.assign (fun s => { s with v := v, w := stickWeights v })
    pure (stickWeights v)
  else do
    let m ← M.lift (Py.maxInt s.d)
    randomBernoullis (some (m + 1))
    let s ← M.self
    let mask := Py.cumsum s.bernoullis
    let a_c ← M.lift (Py.bincount s.d)
    let ga ← M.lift (groupSums mask a_c)
    let gb ← M.lift (groupSums mask (revTails a_c))
    let v ← M.betaVec (List.zipWith (fun (a b : ℕ) => (1 + (a : K), s.alpha + (b : K))) ga gb)
    M.assign (fun s => { s with v := v })
    let v ← M.lift (Py.gather v mask)
    M.assign (fun s => { s with v := v, w := stickWeights v })
    complete size

/-- `random`, `_beta_bernoulli.py:36-66`; `None` means size 1 when fitted. -/
def random (size : PySize) : M K (BBer K) (List K) := do
  let s ← M.self
  if size = .none ∧ s.d.length = 0 then M.raise .valueError
  else randomSized (if size = .none then .int 1 else size)

/-- Virtual-method table of the class. -/
def core : WeightCore K where
  State := BBer K
  getW := BBer.w
  getD := BBer.d
  setD := fun d s => { s with d := d }
  random := random
  complete := fun n => do let w ← complete n; pure (some w)

/-- The class; `tail` is inherited. -/
def cls : WeightClass K := core.inheritTail

end BBer
end Verif
