import Verif.Model.Base

/-! # `pyrichlet/weight_models/_beta_in_dirichlet.py` (sampling part) -/

namespace Verif

variable {K : Type}

/-- Special functions of numpy / scipy used in log-probabilities. -/
structure SpecFun (K : Type) where
  log : K → K
  lgamma : K → K

/-- Attributes of `BetaInDirichlet`, `_beta_in_dirichlet.py:10-17`. -/
structure BID (K : Type) where
  alpha : K
  a : K
  v : List K
  vBase : List K
  dBase : List ℕ
  countBase : List ℕ
  w : List K
  d : List ℤ

namespace BID
variable [Field K] [LinearOrder K]

/-- `__init__`, `_beta_in_dirichlet.py:10-17`. -/
def init (alpha a : K) : BID K :=
  { alpha := alpha, a := a, v := [], vBase := [], dBase := [], countBase := [], w := [], d := [] }

/-- `p = np.array(self._count_base + [self.a]); p /= p.sum()`, `_beta_in_dirichlet.py:109-110`. -/
def urn (counts : List ℕ) (a : K) : List K :=
  let p := counts.map (fun (c : ℕ) => (c : K)) ++ [a]
  p.map (fun x => x / p.sum)

/-- The two branches for the chosen inner stick `jj`, `_beta_in_dirichlet.py:112-119`. -/
def useStick (jj : ℕ) : M K (BID K) Unit := do
  let s ← M.self
  if jj < s.vBase.length then do
    let x ← M.lift (Py.index s.vBase jj)
    M.assign (fun s => { s with v := s.v ++ [x] })
    M.assign (fun s => { s with countBase := s.countBase.modify jj (· + 1) })
  else do
    let nv ← M.beta 1 s.alpha
    M.assign (fun s => { s with vBase := s.vBase ++ [nv] })
    M.assign (fun s => { s with countBase := s.countBase ++ [1] })
    M.assign (fun s => { s with v := s.v ++ [nv] })

/-- One iteration of `while len(self.v) < size`, `_beta_in_dirichlet.py:109-120`.  `rng.choice` raises `ValueError` if
`p` and the range have different lengths. -/
def growOne : M K (BID K) Unit := do
  let s ← M.self
  if (urn s.countBase s.a).length ≠ s.vBase.length + 1 then M.raise .valueError
  else do
    let jj ← M.choice (urn s.countBase s.a)
    useStick jj
    M.assign (fun s => { s with dBase := s.dBase ++ [jj] })

/-- The loop `while len(self.v) < size`: each iteration appends one stick. -/
def grow : ℕ → M K (BID K) Unit
  | 0 => pure ()
  | k + 1 => do
    growOne
    grow k

/-- `complete`, `_beta_in_dirichlet.py:104-122`; no type check (the comparison raises `TypeError` for a non-number) and
no return value. -/
def complete (size : PySize) : M K (BID K) Unit := do
  let s ← M.self
  M.whenM (s.vBase.length = 0) do
    let v ← M.betaRep 1 s.alpha 1
    M.assign (fun s => { s with vBase := v })
    M.assign (fun s => { s with countBase := [1] })
  match size.toInt? with
  | none => M.raise .typeError
  | some n => do
    let s ← M.self
    grow (n - s.v.length).toNat
    M.assign (fun s => { s with w := stickWeights s.v })

/-- `np.sum(a_c[self._d_base == jj])`, `_beta_in_dirichlet.py:50-51`. -/
def baseSum (c : List ℕ) (dBase : List ℕ) (jj : ℕ) : ℕ :=
  (((List.zip dBase c).filter (fun x => decide (x.1 = jj))).map Prod.snd).sum

/-- `for jj in range(k): v_base[jj] = rng.beta(...)`, `_beta_in_dirichlet.py:49-53`; the list holds the remaining `jj`. -/
def drawBase (alpha : K) (a_c b_c dBase : List ℕ) : List ℕ → M K (BID K) (List K)
  | [] => pure []
  | jj :: rest => do
    let x ← M.beta (1 + (baseSum a_c dBase jj : K)) (alpha + (baseSum b_c dBase jj : K))
    let xs ← drawBase alpha a_c b_c dBase rest
    pure (x :: xs)

/-- The list `log_prob`, `_beta_in_dirichlet.py:66-87`, from position `dd` on (`fuel` positions left, `newBase` as in the
code). `none` is minus infinity; `0 * log 0` (nan in numpy) is taken as 0: in either case the entry is one that
`argmax` may select. -/
def logProb (F : SpecFun K) (s : BID K) (aj bj : ℕ) (reduced : List ℕ) (k : ℕ) :
    ℕ → ℕ → Bool → Except PyErr (List (Option K))
  | 0, _, _ => .ok []
  | fuel + 1, dd, newBase =>
    if reduced.count dd = 0 ∧ newBase = false then
      match logProb F s aj bj reduced k fuel (dd + 1) true with
      | .error e => .error e
      | .ok l => .ok (some (F.log s.a + F.lgamma (1 + (aj : K)) + F.lgamma (s.alpha + (bj : K))
          - F.lgamma (1 + s.alpha + (aj : K) + (bj : K))) :: l)
    else if reduced.count dd = 0 then
      if dd < k + 1 then
        match logProb F s aj bj reduced k fuel (dd + 1) newBase with
        | .error e => .error e
        | .ok l => .ok (none :: l)
      else logProb F s aj bj reduced k fuel (dd + 1) newBase
    else match Py.index s.vBase dd with
      | .error e => .error e
      | .ok x =>
        match logProb F s aj bj reduced k fuel (dd + 1) newBase with
        | .error e => .error e
        | .ok l => .ok ((if (x = 0 ∧ 0 < aj) ∨ (x = 1 ∧ 0 < bj) then none
            else some (F.log (reduced.count dd : K) + (aj : K) * F.log x + (bj : K) * F.log (1 - x))) :: l)

/-- `np.max` of a list of naturals: `ValueError` on an empty array. -/
def maxNat : List ℕ → Except PyErr ℕ
  | [] => .error .valueError
  | x :: xs => .ok (xs.foldl max x)

/-- Assign position `j` of `_d_base`, appending if it does not exist, `_beta_in_dirichlet.py:59-62, 88-93`. -/
def setBase (j x : ℕ) (s : BID K) : BID K :=
  if j < s.dBase.length then { s with dBase := s.dBase.set j x } else { s with dBase := s.dBase ++ [x] }

/-- Body of the loop `for j in range(n)`, `_beta_in_dirichlet.py:58-96`. -/
def updateOne (F : SpecFun K) (a_c b_c : List ℕ) (j : ℕ) : M K (BID K) Unit := do
  let s ← M.self
  if s.a = 0 then M.assign (setBase j 0)
  else do
    let reduced := Py.delete s.dBase j
    let k ← M.lift (maxNat reduced)
    let aj ← M.lift (Py.index a_c j)
    let bj ← M.lift (Py.index b_c j)
    let lp ← M.lift (logProb F s aj bj reduced k (k + 2) 0 false)
    let z ← M.gumbelMax lp
    M.assign (setBase j z)
    let s ← M.self
    let m ← M.lift (maxNat s.dBase)
    M.whenM (m ≤ s.vBase.length) do
      let nv ← M.beta 1 s.alpha
      M.assign (fun s => { s with vBase := s.vBase ++ [nv] })

/-- The loop `for j in range(n)`; the list holds the remaining `j`. -/
def updateAll (F : SpecFun K) (a_c b_c : List ℕ) : List ℕ → M K (BID K) Unit
  | [] => pure ()
  | j :: js => do
    updateOne F a_c b_c j
    updateAll F a_c b_c js

/-- Fitted branch of `random`, `_beta_in_dirichlet.py:38-102`; `size` plays no role. -/
def randomFitted (F : SpecFun K) : M K (BID K) (List K) := do
  let s ← M.self
  let m ← M.lift (Py.maxInt s.d)
  let n := m + 1
  M.assign (fun s =>
    if (s.dBase.length : ℤ) < n then
      { s with dBase := s.dBase ++ List.replicate (n - s.dBase.length).toNat 0 }
    else if (s.dBase.length : ℤ) > n then { s with dBase := Py.sliceTo s.dBase n }
    else s)
  let s ← M.self
  let k ← M.lift (maxNat s.dBase)
  let a_c ← M.lift (Py.bincount s.d)
  let b_c := revTails a_c
  let vb ← drawBase s.alpha a_c b_c s.dBase (List.range (k + 1))
  M.assign (fun s => { s with vBase := vb })
  updateAll F a_c b_c (List.range n.toNat)
  M.assign (fun s => { s with countBase := (List.range s.vBase.length).map (fun j => s.dBase.count j) })
  let s ← M.self
  let v ← M.lift (Py.gather s.vBase (s.dBase.map (fun (j : ℕ) => (j : ℤ))))
  M.assign (fun s => { s with v := v, w := stickWeights v })
  let s ← M.self
  pure s.w

/-- `random`, `_beta_in_dirichlet.py:27-102`. -/
def random (F : SpecFun K) (size : PySize) : M K (BID K) (List K) := do
  let s ← M.self
  if size = .none ∧ s.d.length = 0 then M.raise .valueError
  else match size with
  | .np _ => M.raise .typeError
  | .other => M.raise .typeError
  | size => do
    M.assign (fun s => { s with v := [], vBase := [] })
    if s.d.length = 0 then do
      complete size
      let s ← M.self
      pure s.w
    else randomFitted F

/-- Virtual-method table of the class. -/
def core (F : SpecFun K) : WeightCore K where
  State := BID K
  getW := BID.w
  getD := BID.d
  setD := fun d s => { s with d := d }
  random := random F
  complete := fun n => do complete n; pure none

/-- The class; `tail` is inherited. -/
def cls (F : SpecFun K) : WeightClass K := (core F).inheritTail

end BID
end Verif
