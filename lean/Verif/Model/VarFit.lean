import Verif.Model.Gibbs
import Verif.Model.Float
import Verif.Model.Variational
import Verif.Model.DirichletProcess
import Verif.Model.PitmanYor
import Verif.Model.Geometric
import Verif.Model.Finite
import Mathlib.LinearAlgebra.Matrix.Adjugate

/-!
# `pyrichlet/mixture_models/_base.py`: the variational algorithm and its result methods; the whole object

`VM` is a mixture object: the attributes of the Gibbs sampler (`GM`), those of the variational algorithm, and the variational attributes of its
weight model.  `MathFun` are the special functions, `VWorld` adds the draws of `random_normal_invw`.

Numbers that can become infinite or nan (scores, responsibilities, the ELBO) are of type `Fl`.  An entry `none` of `varTheta` is a group whose
parameters are nan, which happens exactly when its responsibilities sum to `0` or are nan themselves (`0/0` in `_update_var_theta`; `np.linalg.inv`
of a nan matrix is nan).  `varD` is stored column by column: one list of `var_k` numbers per observation.

Simplifications: exact arithmetic; `n_groups` is an integer or `None`; `lambda_prior > 0` and degrees of freedom for which `digamma` and `loggamma` are
finite (`nu_prior > dim - 1`, as for a proper prior); the progress bar is left out.
-/

namespace Verif

/-- Special functions. -/
structure MathFun (K : Type) extends VarFun K where
  exp : K → K
  sqrt : K → K
  pow : K → K → K
  pi : K

namespace Mix
variable {K : Type}

section math
variable [Field K] [LinearOrder K] {m : ℕ}

/-- `np.linalg.norm` of a matrix: the Frobenius norm. -/
def frob (F : MathFun K) (P : Fin m → Fin m → K) : K := F.sqrt (∑ i, ∑ j, P i j * P i j)

/-- `np.linalg.inv`; `LinAlgError` for a singular matrix. -/
def matInv (P : Fin m → Fin m → K) : Except PyErr (Fin m → Fin m → K) :=
  if (Matrix.of P).det = 0 then .error .linAlgError
  else .ok (fun i j => (Matrix.of P).adjugate i j / (Matrix.of P).det)

/-- `density_students_t` at one point, `utils/functions.py:31-38`. -/
def studentsT (F : MathFun K) (x mu : Fin m → K) (P : Fin m → Fin m → K) (nu : K) : K :=
  F.exp (F.lgamma ((nu + m) / 2) - F.lgamma (nu / 2)) * (F.pow (frob F P) (1 / 2) / F.pow (nu * F.pi) (m / 2))
    * F.pow (1 + (∑ i, ∑ j, (x i - mu i) * P i j * (x j - mu j)) / nu) (-(nu + m) / 2)

/-- `density_normal` at one point, `utils/functions.py:41-47`. -/
def normalDensity (F : MathFun K) (x mu : Fin m → K) (P : Fin m → Fin m → K) : K :=
  F.sqrt (F.pow (2 * F.pi) (-(m : K)) * frob F P) * F.exp (-(∑ i, ∑ j, (x i - mu i) * P i j * (x j - mu j)) / 2)

/-- `log_wishart_normalization_term`, `_utils.py:109-117`. -/
def logWishartNorm (F : MathFun K) (P : Fin m → Fin m → K) (scale : K) : Fl K :=
  Fl.scale (-scale / 2) (Fl.log F.log (.fin (frob F P)))
    - .fin (F.log 2 * (scale * m / 2) + F.log F.pi * ((m : K) * ((m : K) - 1) / 4) + ((List.range m).map (fun i => F.lgamma ((scale - (i : ℕ)) / 2))).sum)

/-- `e_log_norm_wishart`, `_utils.py:120-126`. -/
def eLogNormWishart (F : MathFun K) (P : Fin m → Fin m → K) (scale : K) : Fl K :=
  Fl.log F.log (.fin (frob F P)) + .fin ((m : K) * F.log 2 + ((List.range m).map (fun i => F.digamma ((scale - (i : ℕ)) / 2))).sum)

/-- `entropy_wishart`, `_utils.py:129-134`. -/
def entropyWishart (F : MathFun K) (P : Fin m → Fin m → K) (scale : K) : Fl K :=
  (Fl.neg (logWishartNorm F P scale) - Fl.scale ((scale - m - 1) / 2) (eLogNormWishart F P scale)) + .fin (scale * m / 2)
end math

/-- The variational side of a weight class. -/
structure VarClass (C : WeightClass K) where
  State : Type
  /-- `__init__` -/
  fresh : State
  /-- `fit_variational(variational_d)`: it may also change attributes used elsewhere -/
  fit : C.State → List (List (Fl K)) → Except PyErr (C.State × State)
  /-- `variational_mean_log_w_j` -/
  meanLogW : C.State → State → ℕ → Except PyErr (Fl K)
  /-- `variational_mean_log_p_d__w` -/
  meanLogPd : C.State → State → List (List (Fl K)) → Except PyErr (Fl K)
  /-- `variational_mean_log_p_w` -/
  meanLogPw : C.State → State → Except PyErr (Fl K)
  /-- `variational_mean_log_q_w` -/
  meanLogQw : C.State → State → Except PyErr (Fl K)
  /-- `variational_mean_w_j` -/
  meanW : C.State → State → ℕ → Except PyErr (Fl K)
  /-- `variational_mode_w_j`; `none` is Python's `None` -/
  modeW : C.State → State → ℕ → Except PyErr (Option (Fl K))

/-- What `fit_variational` has left in a weight object: nothing yet, parameters that are nan, or parameters. -/
inductive VFit (S : Type) where
  | unfitted
  | nan
  | fitted (s : S)

namespace VFit
variable {S α : Type}

/-- The stored parameters, if they are numbers. -/
def toOption : VFit S → Option S
  | fitted s => some s
  | _ => none

/-- A value computed from the parameters. -/
def eval (v : VFit S) (f : Option S → Except PyErr (Fl α)) : Except PyErr (Fl α) := match v with
  | nan => .ok .nan
  | v => f v.toOption
end VFit

/-- `-inf` for `none`. -/
def flOfOption : Option K → Fl K
  | none => .ninf
  | some x => .fin x

/-- The number returned by `f`. -/
def flOk (e : Except PyErr K) : Except PyErr (Fl K) := e.map .fin

/-- The base class: nothing is implemented, `weight_models/_base.py:160-220`. -/
def VarClass.none (C : WeightClass K) : VarClass C where
  State := Unit
  fresh := ()
  fit := fun _ _ => .error .notImplementedError
  meanLogW := fun _ _ _ => .error .notImplementedError
  meanLogPd := fun _ _ _ => .error .notImplementedError
  meanLogPw := fun _ _ => .error .notImplementedError
  meanLogQw := fun _ _ => .error .notImplementedError
  meanW := fun _ _ _ => .error .notImplementedError
  modeW := fun _ _ _ => .error .notImplementedError

section classes
variable [Field K] [LinearOrder K] (F : MathFun K)

/-- `DirichletProcess`, `_dirichlet_process.py:59-153`. -/
def varDP : VarClass (DP.cls : WeightClass K) where
  State := VFit (Var K)
  fresh := .unfitted
  fit := fun c q => match Fl.matrix q with
    | some q => .ok (c, .fitted (DP.fitVariational (show DP K from c).alpha q))
    | Option.none => .ok (c, .nan)
  meanLogW := fun _ v j => v.eval fun v => (DP.meanLogWj F.toVarFun v j).map flOfOption
  meanLogPd := fun _ v q => match Fl.matrix q with
    | some q => v.eval fun v => (DP.meanLogPd F.toVarFun v (some q)).map flOfOption
    | Option.none => .ok .nan
  meanLogPw := fun c v => v.eval fun v => flOk (DP.meanLogPw F.toVarFun (show DP K from c).alpha v)
  meanLogQw := fun _ v => v.eval fun v => flOk (DP.meanLogQw F.toVarFun v)
  meanW := fun _ v j => v.eval fun v => match v with
    | some v => flOk (DP.meanWj v j)
    | Option.none => .error .typeError
  modeW := fun _ v j => (v.eval fun v => match v with
    | some v => flOk (DP.modeWj v j)
    | Option.none => .error .typeError).map some

/-- `PitmanYorProcess`, `_pitman_yor_process.py:73-168`. -/
def varPY : VarClass (PY.cls : WeightClass K) where
  State := VFit (Var K)
  fresh := .unfitted
  fit := fun c q => match Fl.matrix q with
    | some q => .ok (c, .fitted (PY.fitVariational (show PY K from c).pyd (show PY K from c).alpha q))
    | Option.none => .ok (c, .nan)
  meanLogW := fun _ v j => v.eval fun v => (PY.meanLogWj F.toVarFun v j).map flOfOption
  meanLogPd := fun _ v q => match Fl.matrix q with
    | some q => v.eval fun v => (PY.meanLogPd F.toVarFun v (some q)).map flOfOption
    | Option.none => .ok .nan
  meanLogPw := fun c v => v.eval fun v => flOk (PY.meanLogPw F.toVarFun (show PY K from c).pyd (show PY K from c).alpha v)
  meanLogQw := fun _ v => v.eval fun v => flOk (PY.meanLogQw F.toVarFun v)
  meanW := fun _ v j => v.eval fun v => match v with
    | some v => flOk (PY.meanWj v j)
    | Option.none => .error .typeError
  modeW := fun _ v j => (v.eval fun v => match v with
    | some v => flOk (PY.modeWj v j)
    | Option.none => .error .typeError).map some

/-- `GeometricProcess`, `_geometric_process.py:47-126`; a matrix without rows raises. -/
noncomputable def varGeo (F : MathFun ℝ) : VarClass Geo.cls where
  State := VFit (GVar ℝ)
  fresh := .unfitted
  fit := fun c q => match Fl.matrix q with
    | some q => (Geo.fitVariational (show Geo ℝ from c).a (show Geo ℝ from c).b q).map fun v => (c, .fitted v)
    | Option.none => .ok (c, .nan)
  meanLogW := fun _ v j => v.eval fun v => (Geo.meanLogWj F.toVarFun v j).map flOfOption
  meanLogPd := fun _ v q => match Fl.matrix q with
    | some q => v.eval fun v => (Geo.meanLogPd F.toVarFun v (some q)).map flOfOption
    | Option.none => .ok .nan
  meanLogPw := fun c v => v.eval fun v => flOk (Geo.meanLogPw F.toVarFun (show Geo ℝ from c).a (show Geo ℝ from c).b v)
  meanLogQw := fun _ v => v.eval fun v => flOk (Geo.meanLogQw F.toVarFun v)
  meanW := fun _ v j => v.eval fun v => match v with
    | some v => .ok (.fin (Geo.meanWj v j))
    | Option.none => .error .typeError
  modeW := fun _ v j => match v with
    | .unfitted => .error .typeError
    | .nan => .ok (some .nan)
    | .fitted v => (Geo.modeWj v j).map (fun o => o.map .fin)

/-- `DirichletDistribution`, `_dirichlet_distribution.py:46-124`; the assertion on the number of rows comes first. -/
def varDirDist : VarClass (DirDist.cls : WeightClass K) where
  State := VFit (DVar K)
  fresh := .unfitted
  fit := fun c q => match Fl.matrix q with
    | some q => (DirDist.fitVariational (show DirDist K from c).n (show DirDist K from c).alpha q).map fun v => (c, .fitted v)
    | Option.none => if (q.length : ℤ) ≠ (show DirDist K from c).n then .error .assertionError else .ok (c, .nan)
  meanLogW := fun _ v j => v.eval fun v => (DirDist.meanLogWj F.toVarFun v j).map flOfOption
  meanLogPd := fun _ v q => match Fl.matrix q with
    | some q => v.eval fun v => (DirDist.meanLogPd F.toVarFun v (some q)).map flOfOption
    | Option.none => .ok .nan
  meanLogPw := fun c v => v.eval fun v => flOk (DirDist.meanLogPw F.toVarFun (show DirDist K from c).alpha v)
  meanLogQw := fun _ v => v.eval fun v => flOk (DirDist.meanLogQw F.toVarFun v)
  meanW := fun _ v j => v.eval fun v => match v with
    | some v => flOk (DirDist.meanWj v j)
    | Option.none => .error .typeError
  modeW := fun _ v j => (v.eval fun v => match v with
    | some v => flOk (DirDist.modeWj v j)
    | Option.none => .error .typeError).map some

/-- `EqualWeighting`, `_equal.py:22-49`: `fit_variational` overwrites `n`, which the weights use; the state tells whether it was called. -/
def varEqual : VarClass (Equal.cls : WeightClass K) where
  State := Bool
  fresh := false
  fit := fun c q => .ok (({ (show Equal K from c) with n := (q.length : ℤ) } : Equal K), true)
  meanLogW := fun c _ j => .ok (.fin (Equal.meanLogWj F.toVarFun (show Equal K from c).n.toNat j))
  meanLogPd := fun c _ q => .ok (.fin ((((q.head?.map List.length).getD 0 : ℕ) : K) * F.log ((show Equal K from c).n : K)))
  meanLogPw := fun _ _ => .ok (.fin 0)
  meanLogQw := fun _ _ => .ok (.fin 0)
  meanW := fun c _ j => .ok (.fin (Equal.meanWj (show Equal K from c).n.toNat j))
  modeW := fun c _ j => .ok (some (.fin (Equal.meanWj (show Equal K from c).n.toNat j)))

/-- `self.variational_k` of `FrequencyWeighting`, `_frequency.py:26-30`. -/
def freqK (n : ℤ) (q : List (List (Fl K))) : ℕ :=
  if (q.head?.map List.length).getD 0 = 0 then n.toNat else (q.head?.map List.length).getD 0

/-- `self.variational_d.sum(1)[j] / self.variational_d.sum()`, `_frequency.py:38, 64, 69`. -/
def freqShare (q : List (List (Fl K))) (j : ℕ) : Except PyErr (Fl K) := match Fl.matrix q with
  | some q => flOk (Freq.share q j)
  | Option.none => if j < q.length then .ok .nan else .error .indexError

/-- `FrequencyWeighting`, `_frequency.py:26-69`. -/
def varFreq : VarClass (Freq.cls : WeightClass K) where
  State := Option (List (List (Fl K)))
  fresh := Option.none
  fit := fun c q => .ok (c, some q)
  meanLogW := fun c v j => match v with
    | Option.none => .error .notFittedError
    | some q =>
      if freqK (show Freq K from c).n q ≤ j then .ok .ninf
      else if (q.head?.map List.length).getD 0 ≠ 0 then freqShare q j
      else .ok (.fin (F.log (1 / (freqK (show Freq K from c).n q : K))))
  meanLogPd := fun _ _ q => match Fl.matrix q with
    | some q => .ok (.fin (Freq.meanLogPd F.toVarFun q))
    | Option.none => .ok .nan
  meanLogPw := fun _ v => match v with
    | Option.none => .error .notFittedError
    | some _ => .ok (.fin 0)
  meanLogQw := fun _ v => match v with
    | Option.none => .error .notFittedError
    | some _ => .ok (.fin 0)
  meanW := fun c v j => match v with
    | Option.none => .error .typeError
    | some q => if freqK (show Freq K from c).n q ≤ j then .ok (.fin 0) else freqShare q j
  modeW := fun c v j => match v with
    | Option.none => .error .typeError
    | some q => if freqK (show Freq K from c).n q < j then .ok (some (.fin 0)) else (freqShare q j).map some
end classes

/-- The variational parameters of one group: `[v_mu_j, v_lambda_j, v_precision_j, v_scale_j]`. -/
structure VAtom (K : Type) (m : ℕ) where
  mu : Fin m → K
  lam : K
  prec : Fin m → Fin m → K
  scale : K

/-- A mixture object: `_base.py:55-99`. -/
structure VM {C : WeightClass K} (V : VarClass C) (m : ℕ) (Atom : Type) where
  gm : GM C m Atom
  vst : V.State
  varK : Option ℤ
  varTheta : List (Option (VAtom K m))
  varD : List (List (Fl K))
  varFitted : Bool
  varConverged : Bool

/-- The functions the variational algorithm calls. -/
structure VWorld (K : Type) (m : ℕ) extends MathFun K where
  /-- `random_normal_invw`, `_utils.py:7-14` -/
  niw : ℕ → NIW K m → (Fin m → K) × (Fin m → Fin m → K)
  /-- `1e-8`, the default of `tol` -/
  tol : K

/-- `init_method` of `fit_variational`. -/
inductive VarInit where
  | kmeans | random | unknown
  deriving DecidableEq, Repr

namespace VM
variable [Field K] [LinearOrder K] {C : WeightClass K} {V : VarClass C} {m : ℕ} {Atom : Type}

/-- A new object. -/
def init (V : VarClass C) (g : GM C m Atom) : VM V m Atom :=
  { gm := g, vst := V.fresh, varK := none, varTheta := [], varD := [], varFitted := false, varConverged := false }

/-- A method that only uses the Gibbs part. -/
def onGM {α : Type} (x : M K (GM C m Atom) α) : M K (VM V m Atom) α := fun ω s =>
  match x ω (s.1.gm, s.2) with
  | (r, t) => (r, ({ s.1 with gm := t.1 }, t.2))

/-! ### One update -/

/-- The mean `x_bar_j = (vd_j / n_j) @ y`. -/
def wMean (ys : List (Fin m → K)) (r : List K) (i : Fin m) : K := (List.zipWith (fun v y => v / r.sum * y i) r ys).sum

/-- `ns_j`: `einsum('i,ij,ik->jk', vd_j, y - x_bar_j, y - x_bar_j) / n_j`. -/
def wCov (ys : List (Fin m → K)) (r : List K) (i j : Fin m) : K :=
  (List.zipWith (fun v y => v * (y i - wMean ys r i) * (y j - wMean ys r j)) r ys).sum / r.sum

/-- The matrix that is inverted in `_update_var_theta`, `_base.py:1005-1009`: `@` between two vectors is their inner product, a number. -/
def varPsi (ys : List (Fin m → K)) (p : NIW K m) (r : List K) (i j : Fin m) : K :=
  p.psi i j + wCov ys r i j + p.lam * r.sum / (p.lam + r.sum) * ∑ k, (wMean ys r k - p.mu k) * (wMean ys r k - p.mu k)

/-- One round of the loop of `_update_var_theta`, `_base.py:995-1011`. -/
def varAtom (ys : List (Fin m → K)) (p : NIW K m) (row : List (Fl K)) : Except PyErr (Option (VAtom K m)) :=
  match Fl.numbers row with
  | none => .ok none
  | some r =>
    if r.sum = 0 then .ok none
    else match matInv (varPsi ys p r) with
    | .error e => .error e
    | .ok P => .ok (some
      { mu := fun i => (p.lam * p.mu i + r.sum * wMean ys r i) / (p.lam + r.sum)
        lam := p.lam + r.sum
        prec := P
        scale := p.nu + r.sum })

/-- All rounds. -/
def varAtoms (ys : List (Fin m → K)) (p : NIW K m) : List (List (Fl K)) → Except PyErr (List (Option (VAtom K m)))
  | [] => .ok []
  | r :: rs => match varAtom ys p r with
    | .error e => .error e
    | .ok a => match varAtoms ys p rs with
      | .error e => .error e
      | .ok as => .ok (a :: as)

/-- The rows of `var_d`. -/
def varRows (s : VM V m Atom) : List (List (Fl K)) :=
  (List.range (s.varK.getD 0).toNat).map (fun j => s.varD.map (fun c => (c[j]?).getD .nan))

/-- `_update_var_theta`, `_base.py:993-1012`. -/
def updateVarTheta : M K (VM V m Atom) Unit := do
  let s ← M.self
  let as ← M.lift (varAtoms s.gm.y (GM.prior s.gm) (varRows s))
  M.assign (fun s => { s with varTheta := as })

/-- `(x - mu) @ P @ (x - mu)`. -/
def quad (P : Fin m → Fin m → K) (x mu : Fin m → K) : K := ∑ i, (x i - mu i) * ∑ j, P i j * (x j - mu j)

/-- The summands of `log_d_ji` after the weight, `_base.py:1020-1026`. -/
def atomScore (F : MathFun K) (x : Fin m → K) : Option (VAtom K m) → Fl K
  | none => .nan
  | some a => Fl.scale (1 / 2) (eLogNormWishart F a.prec a.scale)
      + .fin (-((m : K) * F.log (2 * F.pi) / 2) - (m : K) / a.lam / 2 - a.scale * quad a.prec x a.mu / 2)

/-- `variational_mean_log_w_j(j)` for the groups `js`. -/
def logWeights (V : VarClass C) (c : C.State) (v : V.State) : List ℕ → Except PyErr (List (Fl K))
  | [] => .ok []
  | j :: js => match V.meanLogW c v j with
    | .error e => .error e
    | .ok x => match logWeights V c v js with
      | .error e => .error e
      | .ok xs => .ok (x :: xs)

/-- One column of the matrix of scores; groups without parameters keep the initial zeros. -/
def scoreColumn (F : MathFun K) (k : ℕ) (lw : List (Fl K)) (as : List (Option (VAtom K m))) (x : Fin m → K) : List (Fl K) :=
  List.zipWith (fun l a => l + atomScore F x a) lw as ++ List.replicate (k - as.length) (.fin 0)

/-- One column of lines 1028-1031: subtract the maximum, exponentiate, add `eps`, normalise. -/
def normMax (F : MathFun K) (eps : K) (col : List (Fl K)) : List (Fl K) :=
  let e := col.map (fun x => Fl.exp F.exp (x - Fl.maximum col) + .fin eps)
  e.map (fun x => Fl.div x (Fl.sum e))

/-- `_update_var_d`, `_base.py:1014-1032`; `np.zeros((None, n))` raises `TypeError`, a negative size `ValueError`. -/
def updateVarD (F : MathFun K) (W : World K m Atom) : M K (VM V m Atom) Unit := do
  let s ← M.self
  match s.varK with
  | none => M.raise .typeError
  | some k =>
    if k < 0 then M.raise .valueError
    else do
      let lw ← M.lift (logWeights V s.gm.wst.1 s.vst (List.range s.varTheta.length))
      if k.toNat < s.varTheta.length then M.raise .indexError
      else M.assign (fun s => { s with varD := s.gm.y.map (fun x => normMax F W.eps (scoreColumn F k.toNat lw s.varTheta x)) })

/-- `self.weight_model.fit_variational(q)`. -/
def fitWeights (q : List (List (Fl K))) : M K (VM V m Atom) Unit := do
  let s ← M.self
  let r ← M.lift (V.fit s.gm.wst.1 q)
  M.assign (fun s => { s with
      gm := { s.gm with wst := (r.1, s.gm.wst.2) }
      vst := r.2 })

/-- `_update_var_w`, `_base.py:990-991`. -/
def updateVarW : M K (VM V m Atom) Unit := do
  let s ← M.self
  fitWeights (varRows s)

/-- `_maximize_variational`, `_base.py:974-977`. -/
def maximize (F : MathFun K) (W : World K m Atom) : M K (VM V m Atom) Unit := do
  updateVarD F W
  updateVarW
  updateVarTheta

/-! ### The evidence lower bound -/

/-- `tr(A B)`. -/
def traceMul (A B : Fin m → Fin m → K) : K := ∑ i, ∑ j, A i j * B j i

/-- One round of `_e_q_log_p_x`, `_base.py:1037-1047`. -/
def pxTerm (F : MathFun K) (ys : List (Fin m → K)) (row : List (Fl K)) (a : Option (VAtom K m)) : Fl K := match Fl.numbers row, a with
  | some r, some a =>
    if r.sum = 0 then .nan
    else eLogNormWishart F a.prec a.scale
      + .fin (-((m : K) / a.lam) - a.scale * traceMul (wCov ys r) a.prec - a.scale * quad a.prec (wMean ys r) a.mu)
  | _, _ => .nan

/-- `_e_q_log_p_x`, `_base.py:1034-1050`. -/
def eLogPx (F : MathFun K) (s : VM V m Atom) : Fl K :=
  Fl.scale (1 / 2) (Fl.sum (List.zipWith (pxTerm F s.gm.y) (varRows s) s.varTheta) - .fin ((m : K) * F.log (2 * F.pi) * ((s.varK.getD 0 : ℤ) : K)))

/-- One round of `_e_log_p_theta`, `_base.py:1063-1073`. -/
def pThetaTerm (F : MathFun K) (p : NIW K m) : Option (VAtom K m) → Fl K
  | none => .nan
  | some a => Fl.scale (p.nu - m) (eLogNormWishart F a.prec a.scale)
      + .fin (-((m : K) * p.lam / a.lam) - a.scale * traceMul p.psi a.prec - p.lam * a.scale * quad a.prec a.mu p.mu)

/-- `_e_log_p_theta`, `_base.py:1060-1079`. -/
def eLogPTheta (F : MathFun K) (s : VM V m Atom) : Except PyErr (Fl K) := match matInv (GM.prior s.gm).psi with
  | .error e => .error e
  | .ok P => .ok (Fl.scale (1 / 2) (Fl.sum (s.varTheta.map (pThetaTerm F (GM.prior s.gm)))
        + .fin ((m : K) * F.log (s.gm.lam / (2 * F.pi)) * ((s.varK.getD 0 : ℤ) : K)))
      + Fl.scale ((s.varK.getD 0 : ℤ) : K) (logWishartNorm F P (GM.prior s.gm).nu))

/-- `_e_log_q_d`, `_base.py:1081-1082`. -/
def eLogQd (F : MathFun K) (s : VM V m Atom) : Fl K := Fl.sum (s.varD.map (fun c => Fl.sum (c.map (fun x => Fl.mul x (Fl.log F.log x)))))

/-- One round of `_e_log_q_theta`, `_base.py:1090-1094`. -/
def qThetaTerm (F : MathFun K) : Option (VAtom K m) → Fl K
  | none => .nan
  | some a => (eLogNormWishart F a.prec a.scale + .fin ((m : K) * F.log (a.lam / (2 * F.pi)))) - entropyWishart F a.prec a.scale

/-- `_e_log_q_theta`, `_base.py:1087-1097`. -/
def eLogQTheta (F : MathFun K) (s : VM V m Atom) : Fl K :=
  Fl.scale (1 / 2) (Fl.sum (s.varTheta.map (qThetaTerm F)) + .fin ((m : K) * ((s.varK.getD 0 : ℤ) : K)))

/-- `_calc_elbo`, `_base.py:979-988`; `_e_loq_q_w` (1084-1085) returns `variational_mean_log_p_w()`. -/
def calcElbo (F : MathFun K) (s : VM V m Atom) : Except PyErr (Fl K) := do
  let px := eLogPx F s
  let pd ← V.meanLogPd s.gm.wst.1 s.vst (varRows s)
  let pw ← V.meanLogPw s.gm.wst.1 s.vst
  let pt ← eLogPTheta F s
  let qd := eLogQd F s
  let qw ← V.meanLogPw s.gm.wst.1 s.vst
  let qt := eLogQTheta F s
  pure (px + pd + pw + pt - qd - qw - qt)

/-! ### `fit_variational` -/

/-- `random_normal_invw` for each of `k` groups, `_base.py:842-853`; the list grows while the draws are made. -/
def drawAtoms (F : VWorld K m) : ℕ → M K (VM V m Atom) Unit
  | 0 => pure ()
  | k + 1 => do
    let s ← M.self
    let a ← GM.draw1 (fun p => F.niw p (GM.prior s.gm))
    let P ← M.lift (matInv a.2)
    M.assign (fun s => { s with varTheta := s.varTheta ++ [some { mu := a.1, lam := s.gm.lam, prec := P, scale := (GM.prior s.gm).nu }] })
    drawAtoms F k

/-- The column of an observation with label `x`: `var_d[d, range(len(d))] = 1`. -/
def oneHot (k x : ℕ) : List (Fl K) := (List.range k).map (fun j => if j = x then .fin 1 else .fin 0)

/-- `_initialize_variational_params`, `_base.py:809-858`. -/
def initVar (F : VWorld K m) (W : World K m Atom) (k : ℤ) : VarInit → M K (VM V m Atom) Unit
  | .kmeans => do
    M.assign (fun s => { s with varK := some k, varTheta := [] })
    let s ← M.self
    let r ← GM.draw1 (fun p => W.kmeans p s.gm.y k)
    let raw ← M.lift r
    if k < 0 then M.raise .valueError
    else if ∃ x ∈ sizeBiased W.argsort raw, k.toNat ≤ x then M.raise .indexError
    else do
      M.assign (fun s => { s with varD := (sizeBiased W.argsort raw).map (oneHot k.toNat) })
      fitWeights (List.replicate k.toNat [])
      updateVarTheta
      updateVarD F.toMathFun W
      updateVarW
  | .random => do
    M.assign (fun s => { s with varK := some k, varTheta := [] })
    drawAtoms F k.toNat
    if k = 0 then M.raise .zeroDivisionError
    else if k < 0 then M.raise .valueError
    else do
      M.assign (fun s => { s with varD := s.gm.y.map (fun _ => List.replicate k.toNat (.fin (1 / (k : K)))) })
      updateVarW
  | .unknown => do
    M.assign (fun s => { s with varK := some k, varTheta := [] })
    M.raise .attributeError

/-- The loop of `fit_variational`, `_base.py:224-229`; the result is the number of iterations.  The first argument bounds the rounds. -/
def varLoop (F : MathFun K) (W : World K m Atom) (tol : Fl K) : ℕ → Fl K → Fl K → ℤ → M K (VM V m Atom) ℤ
  | 0, _, _, _ => M.raise .outOfFuel
  | n + 1, elbo, diff, it => do
    let s ← M.self
    if Fl.lt tol diff = true ∧ it < s.gm.totalIter then do
      maximize F W
      let s ← M.self
      let e ← M.lift (calcElbo F s)
      varLoop F W tol n e (Fl.abs (elbo - e)) (it + 1)
    else pure it

/-- `fit_variational`, `_base.py:167-234`. -/
def fitVariational (F : VWorld K m) (W : World K m Atom) (y : YArg K m) (nGroups : Option ℤ) (warm : Bool) (tol : Fl K) (method : VarInit) :
    M K (VM V m Atom) Unit := do
  onGM (GM.initCommon y)
  M.whenM (warm = false) do
    let s ← M.self
    match nGroups, s.gm.nAttr with
    | some k, _ => initVar F W k method
    | none, some n => initVar F W n method
    | none, none => M.raise .attributeError
  let s ← M.self
  let it ← varLoop F.toMathFun W tol (s.gm.totalIter.toNat + 1) .ninf .pinf 0
  M.assign (fun s => { s with
      varFitted := true
      varConverged := s.varConverged || decide (it < s.gm.totalIter) })

/-! ### Result methods -/

/-- Points of a density query: the fitted data, or points with `c` coordinates. -/
inductive Points (K : Type) where
  | own
  | given (c : ℕ) (xs : List (Fin c → K))
  | invalid

/-- The coordinates selected by `dim` for points with `c` coordinates: `v_mu_j[dim]`, `v_precision_j[:, dim][dim, :]`, `_base.py:527-528`.  An `int`
makes `v_precision_j[:, dim]` one-dimensional, so `[dim, :]` raises `IndexError`.  Broadcasting between different numbers of coordinates is not
modelled (`ValueError`). -/
def dimMap (m c : ℕ) : Dim → Except PyErr (Fin c → Fin m)
  | .none => if h : c ≤ m then .ok (Fin.castLE h) else .error .indexError
  | .list l =>
    if h : ∀ j ∈ l, j < m then
      if hl : l.length = c then .ok (fun i => ⟨l[i.1]'(by rw [hl]; exact i.2), h _ (List.getElem_mem _)⟩) else .error .valueError
    else .error .indexError
  | .int _ => .error .indexError
  | .other => .error .typeError

/-- The groups of a query: `enumerate(self.var_theta)` or one component. -/
def components (s : VM V m Atom) : Option ℕ → Except PyErr (List (ℕ × Option (VAtom K m)))
  | none => .ok (s.varTheta.mapIdx (fun j a => (j, a)))
  | some j => match s.varTheta[j]? with
    | none => .error .indexError
    | some a => .ok [(j, a)]

/-- The loop of a density query: one value per point and group, added up.  `f` is the density of a group, `w` its weight. -/
def densityLoop {c : ℕ} (dm : Except PyErr (Fin c → Fin m)) (f : (Fin c → Fin m) → VAtom K m → (Fin c → K) → K) (w : ℕ → Except PyErr (Fl K))
    (xs : List (Fin c → K)) : List (ℕ × Option (VAtom K m)) → List (Fl K) → Except PyErr (List (Fl K))
  | [], acc => .ok acc
  | (j, a) :: as, acc => match dm with
    | .error e => .error e
    | .ok g => match w j with
      | .error e => .error e
      | .ok wj =>
        let vals : List (Fl K) := xs.map (fun x => match a with
          | none => .nan
          | some a => Fl.scale (f g a x) wj)
        densityLoop dm f w xs as (List.zipWith (· + ·) acc vals)

/-- The points as rows with their number of coordinates. -/
def points (s : VM V m Atom) : Points K → Except PyErr (Σ c : ℕ, List (Fin c → K))
  | .own => .ok ⟨m, s.gm.y⟩
  | .given c xs => .ok ⟨c, xs⟩
  | .invalid => .error .typeError

/-- `var_eap_density`, `_base.py:489-535`. -/
def varEapDensity (F : MathFun K) (s : VM V m Atom) (y : Points K) (dim : Dim) (component : Option ℕ) : Except PyErr (List (Fl K)) :=
  if s.varFitted = false then .error .notFittedError
  else match points s y with
  | .error e => .error e
  | .ok ⟨c, xs⟩ =>
    if dim = .other then .error .typeError
    else match components s component with
    | .error e => .error e
    | .ok as =>
      let c' : K := match dim with
        | .int _ => 1
        | _ => c
      densityLoop (dimMap m c dim) (fun g a x => studentsT F x (fun i => a.mu (g i))
          (fun i j => a.prec (g i) (g j) * (a.scale + 1 - c') * a.lam / (1 + a.lam)) (a.scale + 1 - c'))
        (V.meanW s.gm.wst.1 s.vst) xs as (xs.map (fun _ => .fin 0))

/-- `var_map_density`, `_base.py:537-573`: `dim=None`, the default, reaches `len(None)`; a weight `None` cannot be multiplied. -/
def varMapDensity (F : MathFun K) (s : VM V m Atom) (y : Points K) (dim : Dim) (component : Option ℕ) : Except PyErr (List (Fl K)) :=
  if s.varFitted = false then .error .notFittedError
  else match points s y with
  | .error e => .error e
  | .ok ⟨c, xs⟩ =>
    if dim = .none ∨ dim = .other then .error .typeError
    else match components s component with
    | .error e => .error e
    | .ok as =>
      densityLoop (dimMap m c dim) (fun g a x => normalDensity F x (fun i => a.mu (g i)) (fun i j => (a.scale - c) * a.prec (g i) (g j)))
        (fun j => match V.modeW s.gm.wst.1 s.vst j with
          | .error e => .error e
          | .ok none => .error .typeError
          | .ok (some w) => .ok w) xs as (xs.map (fun _ => .fin 0))

/-- `var_d.T @ var_d`, entry by entry. -/
def gram (cols : List (List (Fl K))) : List (List (Fl K)) := cols.map (fun a => cols.map (fun b => Fl.sum (List.zipWith Fl.mul a b)))

/-- Query points of the other methods: `None`, an array of rows, a list of rows, or an object of another type. -/
inductive YQuery (K : Type) (m : ℕ) where
  | none
  | array (ys : List (Fin m → K))
  | list (ys : List (Fin m → K))
  | invalid

/-- The normalised columns for new points, `_base.py:597-616`. -/
def newColumns (F : MathFun K) (s : VM V m Atom) (ys : List (Fin m → K)) (norm : List (Fl K) → List (Fl K)) : Except PyErr (List (List (Fl K))) :=
  match logWeights V s.gm.wst.1 s.vst (List.range s.varTheta.length) with
  | .error e => .error e
  | .ok lw =>
    if (s.varK.getD 0).toNat < s.varTheta.length then .error .indexError
    else .ok (ys.map (fun x => norm (scoreColumn F (s.varK.getD 0).toNat lw s.varTheta x)))

/-- `var_eap_affinity_matrix`, `_base.py:575-618`: after the cast the argument itself is used, so a list raises `AttributeError`. -/
def varAffinity (F : MathFun K) (W : World K m Atom) (s : VM V m Atom) (y : YQuery K m) : Except PyErr (List (List (Fl K))) :=
  if s.varFitted = false then .error .notFittedError
  else match y with
  | .none => .ok (gram s.varD)
  | .array ys => (newColumns F s ys (normMax F W.eps)).map gram
  | .list _ => .error .attributeError
  | .invalid => .error .typeError

/-- `var_eap_spectral_consensus_cluster`, `_base.py:620-642`; `spectral` is `SpectralClustering(..).fit_predict`. -/
def varSpectral (F : MathFun K) (W : World K m Atom) (spectral : List (List (Fl K)) → Except PyErr (List ℕ)) (s : VM V m Atom) (y : YQuery K m) :
    Except PyErr (List ℕ) :=
  if s.varFitted = false then .error .notFittedError
  else match varAffinity F W s y with
  | .error e => .error e
  | .ok a => spectral a

/-- Lines 685-688 for one column: subtract the *mean*, exponentiate, add `eps`, normalise. -/
def normMean (F : MathFun K) (eps : K) (col : List (Fl K)) : List (Fl K) :=
  let e := col.map (fun x => Fl.exp F.exp (x - Fl.mean col) + .fin eps)
  e.map (fun x => Fl.div x (Fl.sum e))

/-- The scores of `var_map_cluster` lack the constant `- dim * log(2 pi) / 2`, `_base.py:677-684`. -/
def mapScore (F : MathFun K) (x : Fin m → K) : Option (VAtom K m) → Fl K
  | none => .nan
  | some a => Fl.scale (1 / 2) (eLogNormWishart F a.prec a.scale) + .fin (-((m : K) / (2 * a.lam)) - a.scale / 2 * quad a.prec x a.mu)

/-- One column of scores of `var_map_cluster`. -/
def mapColumn (F : MathFun K) (k : ℕ) (lw : List (Fl K)) (as : List (Option (VAtom K m))) (x : Fin m → K) : List (Fl K) :=
  List.zipWith (fun l a => l + mapScore F x a) lw as ++ List.replicate (k - as.length) (.fin 0)

/-- `var_d.argmax(0)`; `ValueError` without rows. -/
def argmaxes : List (List (Fl K)) → Except PyErr (List ℕ)
  | [] => .ok []
  | c :: cs => match Fl.argmax c with
    | .error e => .error e
    | .ok i => match argmaxes cs with
      | .error e => .error e
      | .ok is => .ok (i :: is)

/-- What `var_map_cluster` returns: labels, labels with one number each, or labels with a matrix (its rows). -/
inductive VarClusters (K : Type) where
  | labels (d : List ℕ)
  | withVector (d : List ℕ) (u : List (Fl K))
  | withMatrix (d : List ℕ) (q : List (List (Fl K)))
  deriving DecidableEq

/-- `var_map_cluster`, `_base.py:644-693`. -/
def varMapCluster (F : MathFun K) (W : World K m Atom) (s : VM V m Atom) (y : YQuery K m) (full : Bool) : Except PyErr (VarClusters K) :=
  if s.varFitted = false then .error .notFittedError
  else
    let new (ys : List (Fin m → K)) : Except PyErr (VarClusters K) := match logWeights V s.gm.wst.1 s.vst (List.range s.varTheta.length) with
      | .error e => .error e
      | .ok lw =>
        if (s.varK.getD 0).toNat < s.varTheta.length then .error .indexError
        else
          let cols := ys.map (fun x => normMean F W.eps (mapColumn F (s.varK.getD 0).toNat lw s.varTheta x))
          match argmaxes cols with
          | .error e => .error e
          | .ok d =>
            if full = false then .ok (.labels d)
            else .ok (.withMatrix d (d.map (fun j => cols.map (fun c => (c[j]?).getD .nan))))
    match y with
    | .none => match argmaxes s.varD with
      | .error e => .error e
      | .ok d =>
        if full = false then .ok (.labels d)
        else .ok (.withVector d (List.zipWith (fun c j => .fin 1 - (c[j]?).getD .nan) s.varD d))
    | .array ys => new ys
    | .list ys => new ys
    | .invalid => .error .typeError

/-! ### The Gibbs sampler of the whole object -/

/-- `_initialize_gibbs_params` up to the labels, `_base.py:766-788`. -/
def startGibbs (W : World K m Atom) (initGroups : PySize) : M K (GM C m Atom) Unit := do
  M.assign (fun s => { s with
      saved := []
      nGroups := []
      nAtoms := []
      totalSaved := 0
      theta := []
      thetaDefault := true
      affinity := List.replicate s.y.length (List.replicate s.y.length 0) })
  let s ← M.self
  let us ← GM.draws (fun p => W.unif p W.eps 1) s.y.length
  M.assign (fun s => { s with u := us })
  GM.initWeights W initGroups

/-- The labels at the start, `_base.py:790-807`; `"variational"` runs `fit_variational` on the object's data and takes the labels of the fitted data. -/
def startLabels (F : VWorld K m) (W : World K m Atom) (initGroups : PySize) : InitMethod → M K (VM V m Atom) (List ℕ)
  | .variational => do
    let s ← M.self
    fitVariational F W (.rows s.gm.y) (some ((C.getW s.gm.wst.1).length : ℤ)) false (.fin F.tol) .kmeans
    let s ← M.self
    let r ← M.lift (varMapCluster F.toMathFun W s .none false)
    match r with
    | .labels d => pure d
    | _ => M.raise .typeError
  | method => onGM (GM.initLabels W initGroups method)

/-- `fit_gibbs`, `_base.py:101-165`. -/
def fitGibbs (F : VWorld K m) (W : World K m Atom) (y : YArg K m) (initGroups : PySize) (warm : Bool) (method : InitMethod) : M K (VM V m Atom) Unit := do
  onGM (GM.initCommon y)
  M.whenM (warm = false) do
    onGM (startGibbs W initGroups)
    let d ← startLabels F W initGroups method
    M.assign (fun s => { s with gm := { s.gm with d := d } })
    onGM (GM.updateMap W)
  let s ← M.self
  onGM (GM.burn W s.gm.burnIn.toNat)
  onGM (GM.record W (s.gm.totalIter - s.gm.burnIn).toNat 0)
  M.assign (fun s => { s with gm := { s.gm with gibbsFitted := true } })

/-- A call of one of the two fitting methods. -/
inductive Fit (K : Type) (m : ℕ) where
  | gibbs (a : GM.FitArgs K m)
  | var (y : YArg K m) (nGroups : Option ℤ) (warm : Bool) (tol : Fl K) (method : VarInit)

/-- One fit. -/
def doFit (F : VWorld K m) (W : World K m Atom) : Fit K m → M K (VM V m Atom) Unit
  | .gibbs a => fitGibbs F W a.y a.initGroups a.warm a.method
  | .var y n w t i => fitVariational F W y n w t i

/-- A history of fits, returning or raising. -/
def runFits (F : VWorld K m) (W : World K m Atom) (ω : Oracle K) (s : VM V m Atom × ℕ) (ops : List (Fit K m)) : VM V m Atom × ℕ :=
  ops.foldl (fun s f => (doFit F W f ω s).2) s
end VM
end Mix
end Verif
