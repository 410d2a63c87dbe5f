import Verif.Model.VarFit

/-!
# Component arguments of the density methods as Python integers

`component` is passed to `var_theta[component]` (a list, so negative numbers count from the end), to `variational_mean_w_j(component)` (whose comparisons and `range` treat a
negative number differently) and, after `fit_gibbs`, to `theta[component]` (a dictionary, whose keys are not negative).  The models of the other files take natural numbers.
-/

namespace Verif
variable {K : Type}

namespace DP
variable [Field K] [LinearOrder K]

/-- `variational_mean_w_j`, `_dirichlet_process.py:116-126`, with an integer: `range(j)` is empty for negative `j`, and `variational_params[j, 0]` counts from the end. -/
def meanWAt (v : Var K) (j : ℤ) : Except PyErr K :=
  if (v.k : ℤ) ≤ j then .ok 0
  else match foldTo (fun r p => r * (p.2 / (p.1 + p.2))) 1 v.params j.toNat with
  | .error e => .error e
  | .ok res =>
    if j < (v.k : ℤ) - 1 then
      match Py.index v.params j with
      | .error e => .error e
      | .ok p => .ok (res * (p.1 / (p.1 + p.2)))
    else .ok res
end DP

namespace PY
variable [Field K] [LinearOrder K]

/-- `variational_mean_w_j`, `_pitman_yor_process.py:134-142`, with an integer. -/
def meanWAt (v : Var K) (j : ℤ) : Except PyErr K :=
  if (v.k : ℤ) < j then .ok 0
  else match foldTo (fun r p => r * (p.2 / (p.1 + p.2))) 1 v.params j.toNat with
  | .error e => .error e
  | .ok res => match Py.index v.params j with
    | .error e => .error e
    | .ok p => .ok (res * (p.1 / (p.1 + p.2)))
end PY

namespace Geo
variable [Field K] [LinearOrder K]

/-- `variational_mean_w_j`, `_geometric_process.py:107-111`, with an integer; `(1 - p) ** j` is `1 / (1 - p) ** (-j)` for negative `j`.  (For `p = 1` numpy gives infinity, here `0`;
`p = 1` needs `b = 0`.) -/
def meanWAt (v : GVar K) (j : ℤ) : K :=
  if (v.d.length : ℤ) ≤ j then 1
  else v.a / (v.a + v.b) * (1 - v.a / (v.a + v.b)) ^ j
end Geo

namespace DirDist
variable [Field K] [LinearOrder K]

/-- `variational_mean_w_j`, `_dirichlet_distribution.py:96-99`, with an integer. -/
def meanWAt (v : DVar K) (j : ℤ) : Except PyErr K :=
  if v.k < j then .ok 0
  else match Py.index v.params j with
    | .error e => .error e
    | .ok a => .ok (a / v.params.sum)
end DirDist

namespace Equal
variable [Field K]

/-- `variational_mean_w_j`, `_equal.py:44-45`, with an integer. -/
def meanWAt (n : ℕ) (j : ℤ) : K := if j < (n : ℤ) then 1 / (n : K) else 0
end Equal

namespace Freq
variable [Field K]

/-- `self.variational_d.sum(1)[j] / self.variational_d.sum()`, `_frequency.py:64`, with an integer. -/
def shareAt (q : List (List K)) (j : ℤ) : Except PyErr K := match Py.index (rowSums q) j with
  | .error e => .error e
  | .ok r => .ok (r / (rowSums q).sum)
end Freq

namespace Mix
variable [Field K] [LinearOrder K]

/-- `variational_mean_w_j(j)` of a weight object, for an integer `j`. -/
abbrev MeanAt {C : WeightClass K} (V : VarClass C) : Type := C.State → V.State → ℤ → Except PyErr (Fl K)

/-- `DirichletProcess.variational_mean_w_j`, `_dirichlet_process.py:116-126`. -/
def atDP (F : MathFun K) : MeanAt (varDP F) := fun _ v j => VFit.eval v fun v => match v with
  | some v => flOk (DP.meanWAt v j)
  | Option.none => .error .typeError

/-- `PitmanYorProcess.variational_mean_w_j`, `_pitman_yor_process.py:134-142`. -/
def atPY (F : MathFun K) : MeanAt (varPY F) := fun _ v j => VFit.eval v fun v => match v with
  | some v => flOk (PY.meanWAt v j)
  | Option.none => .error .typeError

/-- `GeometricProcess.variational_mean_w_j`, `_geometric_process.py:107-111`. -/
noncomputable def atGeo (F : MathFun ℝ) : MeanAt (varGeo F) := fun _ v j => VFit.eval v fun v => match v with
  | some v => .ok (.fin (Geo.meanWAt v j))
  | Option.none => .error .typeError

/-- `DirichletDistribution.variational_mean_w_j`, `_dirichlet_distribution.py:96-99`. -/
def atDirDist (F : MathFun K) : MeanAt (varDirDist F) := fun _ v j => VFit.eval v fun v => match v with
  | some v => flOk (DirDist.meanWAt v j)
  | Option.none => .error .typeError

/-- `EqualWeighting.variational_mean_w_j`, `_equal.py:44-45`. -/
def atEqual (F : MathFun K) : MeanAt (varEqual F) := fun c _ j => .ok (.fin (Equal.meanWAt (show Equal K from c).n.toNat j))

/-- `FrequencyWeighting.variational_mean_w_j`, `_frequency.py:61-64`. -/
def atFreq (F : MathFun K) : MeanAt (varFreq F) := fun c v j => match v with
  | Option.none => .error .typeError
  | some q => if (freqK (show Freq K from c).n q : ℤ) ≤ j then .ok (.fin 0) else match Fl.matrix q with
    | some q => flOk (Freq.shareAt q j)
    | Option.none => (Py.index q j).map fun _ => .nan

namespace VM
variable {C : WeightClass K} {V : VarClass C} {m : ℕ} {Atom : Type}

/-- `var_eap_density(y, dim, component=j)`, `_base.py:489-535`, for an integer `j`: `iterator = [(j, self.var_theta[j])]`. -/
def varEapAt (Z : MeanAt V) (F : MathFun K) (s : VM V m Atom) (y : Points K) (dim : Dim) (j : ℤ) : Except PyErr (List (Fl K)) :=
  if s.varFitted = false then .error .notFittedError
  else match points s y with
  | .error e => .error e
  | .ok ⟨c, xs⟩ =>
    if dim = .other then .error .typeError
    else match Py.index s.varTheta j with
    | .error e => .error e
    | .ok a =>
      let c' : K := match dim with
        | .int _ => 1
        | _ => c
      densityLoop (dimMap m c dim) (fun g a x => studentsT F x (fun i => a.mu (g i))
          (fun i j => a.prec (g i) (g j) * (a.scale + 1 - c') * a.lam / (1 + a.lam)) (a.scale + 1 - c'))
        (fun _ => Z s.gm.wst.1 s.vst j) xs [(0, a)] (xs.map (fun _ => .fin 0))
end VM

/-- `mixture_density(x, w, theta, dim, component=j)`, `_utils.py:64-89`, for an integer `j`: `theta` is a dictionary with keys `0, 1, ..`, `w` an array. -/
def mixtureAt {Obs Atom : Type} (pdf : Dim → Obs → Atom → K) (xs : List Obs) (w : List K) (theta : List (ℕ × Atom)) (dim : Dim) (j : ℤ) : Except PyErr (List K) :=
  if dim = .other then .ok [0]
  else match (if 0 ≤ j then theta.lookup j.toNat else none) with
    | none => .error .keyError
    | some a => match Py.index w j with
      | .error e => .error e
      | .ok wj => .ok (colSums xs.length [xs.map (fun x => pdf dim x a * wj)])

namespace GM
variable {C : WeightClass K} {m : ℕ} {Atom : Type}

/-- The densities of the states, `_base.py:268-273`, for an integer component. -/
def statesAt (W : World K m Atom) (xs : List (Fin m → K)) (dim : Dim) (j : ℤ) : List (RunParams K Atom) → Except PyErr (List (List K))
  | [] => .ok []
  | p :: ps => match mixtureAt W.pdf xs p.w p.theta dim j with
    | .error e => .error e
    | .ok r => match statesAt W xs dim j ps with
      | .error e => .error e
      | .ok rs => .ok (r :: rs)

/-- `gibbs_eap_density(y, dim, component=j, periods)`, `_base.py:236-274`, for an integer `j`. -/
def gibbsEapAt (W : World K m Atom) (s : GM C m Atom) (y : Option (YArg K m)) (dim : Dim) (j : ℤ) (periods : Option ℤ) : Except PyErr (List K) :=
  if s.gibbsFitted = false then .error .notFittedError
  else match queryRows s y with
    | .error e => .error e
    | .ok xs => match statesAt W xs dim j (usedStates s.saved periods) with
      | .error e => .error e
      | .ok rows => .ok (colMeans (if dim = .other then 1 else xs.length) rows)

/-- `gibbs_map_density(y, dim, component=j)`, `_base.py:276-302`, for an integer `j`. -/
def gibbsMapAt (W : World K m Atom) (s : GM C m Atom) (y : Option (YArg K m)) (dim : Dim) (j : ℤ) : Except PyErr (List K) :=
  if s.gibbsFitted = false then .error .notFittedError
  else match queryRows s y with
    | .error e => .error e
    | .ok xs => match s.mapParams with
      | none => .error .typeError
      | some p => mixtureAt W.pdf xs p.w p.theta dim j
end GM
end Mix
end Verif
