import Verif.Model.NegIndex

/-!
# The component of `var_map_density` as a Python integer

As `Model/NegIndex`, for `variational_mode_w_j`.
-/

namespace Verif
variable {K : Type}

namespace DP
variable [Field K] [LinearOrder K]

/-- `variational_mode_w_j`, `_dirichlet_process.py:128-153`, with an integer: `range(j)` is empty for negative `j`, and `variational_params[j, 0]` counts from the end. -/
def modeWAt (v : Var K) (j : ℤ) : Except PyErr K :=
  if (v.k : ℤ) ≤ j then .ok 0
  else match modeLoop 1 (v.params.take j.toNat) with
  | .error e => .error e
  | .ok none => .ok 0
  | .ok (some res) =>
    if j = (v.k : ℤ) - 1 then .ok res
    else match Py.index v.params j with
      | .error e => .error e
      | .ok p => modeFactor res p
end DP

namespace PY
variable [Field K] [LinearOrder K]

/-- `variational_mode_w_j`, `_pitman_yor_process.py:144-168`, with an integer. -/
def modeWAt (v : Var K) (j : ℤ) : Except PyErr K :=
  if (v.k : ℤ) < j then .ok 0
  else match DP.modeLoop 1 (v.params.take j.toNat) with
  | .error e => .error e
  | .ok none => .ok 0
  | .ok (some res) => match Py.index v.params j with
    | .error e => .error e
    | .ok p => DP.modeFactor res p
end PY

namespace Geo
variable [Field K] [LinearOrder K]

/-- `variational_mode_w_j`, `_geometric_process.py:113-126`, with an integer; `(1 - p) ** j` is `1 / (1 - p) ** (-j)` for negative `j`, and `p < 1` where it is reached. -/
def modeWAt (v : GVar K) (j : ℤ) : Except PyErr (Option K) :=
  if (v.d.length : ℤ) < j then .ok none
  else if v.a ≤ 1 then (if v.b ≤ 1 then .error .valueError else .ok (some 0))
  else if v.b ≤ 1 then .ok (some (if j = 0 then 1 else 0))
  else .ok (some ((1 - (v.a - 1) / (v.a + v.b - 2)) ^ j * ((v.a - 1) / (v.a + v.b - 2))))
end Geo

namespace DirDist
variable [Field K] [LinearOrder K]

/-- `variational_mode_w_j`, `_dirichlet_distribution.py:101-114`, with an integer. -/
def modeWAt (v : DVar K) (j : ℤ) : Except PyErr K :=
  if v.k < j then .ok 0
  else match Py.index v.params j with
    | .error e => .error e
    | .ok a =>
      if a ≤ 1 then (if v.params.sum - a ≤ 1 then .error .valueError else .ok 0)
      else if v.params.sum - a ≤ 1 then .ok 1
      else .ok ((a - 1) / (v.params.sum - 2))
end DirDist

namespace Mix
variable [Field K] [LinearOrder K]

/-- `variational_mode_w_j(j)` of a weight object, for an integer `j`; `none` is Python's `None`. -/
abbrev ModeAt {C : WeightClass K} (V : VarClass C) : Type := C.State → V.State → ℤ → Except PyErr (Option (Fl K))

/-- `DirichletProcess.variational_mode_w_j`, `_dirichlet_process.py:128-153`. -/
def modeAtDP (F : MathFun K) : ModeAt (varDP F) := fun _ v j => (VFit.eval v fun v => match v with
  | some v => flOk (DP.modeWAt v j)
  | Option.none => .error .typeError).map some

/-- `PitmanYorProcess.variational_mode_w_j`, `_pitman_yor_process.py:144-168`. -/
def modeAtPY (F : MathFun K) : ModeAt (varPY F) := fun _ v j => (VFit.eval v fun v => match v with
  | some v => flOk (PY.modeWAt v j)
  | Option.none => .error .typeError).map some

/-- `GeometricProcess.variational_mode_w_j`, `_geometric_process.py:113-126`. -/
noncomputable def modeAtGeo (F : MathFun ℝ) : ModeAt (varGeo F) := fun _ v j => match v with
  | .unfitted => .error .typeError
  | .nan => .ok (some .nan)
  | .fitted v => (Geo.modeWAt v j).map (fun o => o.map .fin)

/-- `DirichletDistribution.variational_mode_w_j`, `_dirichlet_distribution.py:101-114`. -/
def modeAtDirDist (F : MathFun K) : ModeAt (varDirDist F) := fun _ v j => (VFit.eval v fun v => match v with
  | some v => flOk (DirDist.modeWAt v j)
  | Option.none => .error .typeError).map some

/-- `EqualWeighting.variational_mode_w_j`, `_equal.py:47-48`. -/
def modeAtEqual (F : MathFun K) : ModeAt (varEqual F) := fun c _ j => .ok (some (.fin (Equal.meanWAt (show Equal K from c).n.toNat j)))

/-- `FrequencyWeighting.variational_mode_w_j`, `_frequency.py:66-69`. -/
def modeAtFreq (F : MathFun K) : ModeAt (varFreq F) := fun c v j => match v with
  | Option.none => .error .typeError
  | some q => if (freqK (show Freq K from c).n q : ℤ) < j then .ok (some (.fin 0)) else (match Fl.matrix q with
    | some q => flOk (Freq.shareAt q j)
    | Option.none => (Py.index q j).map fun _ => .nan).map some

namespace VM
variable {C : WeightClass K} {V : VarClass C} {m : ℕ} {Atom : Type}

/-- `var_map_density(y, dim, component=j)`, `_base.py:537-573`, for an integer `j`: `iterator = [(j, self.var_theta[j])]`. -/
def varMapAt (Z : ModeAt V) (F : MathFun K) (s : VM V m Atom) (y : Points K) (dim : Dim) (j : ℤ) : Except PyErr (List (Fl K)) :=
  if s.varFitted = false then .error .notFittedError
  else match points s y with
  | .error e => .error e
  | .ok ⟨c, xs⟩ =>
    if dim = .none ∨ dim = .other then .error .typeError
    else match Py.index s.varTheta j with
    | .error e => .error e
    | .ok a =>
      densityLoop (dimMap m c dim) (fun g a x => normalDensity F x (fun i => a.mu (g i)) (fun i j => (a.scale - c) * a.prec (g i) (g j)))
        (fun _ => match Z s.gm.wst.1 s.vst j with
          | .error e => .error e
          | .ok none => .error .typeError
          | .ok (some w) => .ok w) xs [(0, a)] (xs.map (fun _ => .fin 0))
end VM
end Mix
end Verif
