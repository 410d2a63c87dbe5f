import Verif.Lemmas.MirrorVar
import Verif.Lemmas.FlMonoid
import Mathlib.Data.List.Perm.Basic
import Mathlib.Algebra.BigOperators.Group.List.Basic

/-! # Lists in another order, and the variational fit of reordered data -/

set_option linter.unusedSectionVars false

namespace Verif

/-- An order of `n` things: `idx` lists their old places. -/
structure Order (n : ℕ) where
  idx : List ℕ
  perm : idx.Perm (List.range n)

namespace Order
variable {n : ℕ} {α β γ : Type}

/-- The list in the other order; lists of other lengths stay. -/
def app (o : Order n) (l : List α) : List α := if l.length = n then o.idx.filterMap (fun i => l[i]?) else l

theorem range_get (l : List α) : (List.range l.length).filterMap (fun i => l[i]?) = l := by
  induction l with
  | nil => rfl
  | cons x l ih =>
    rw [List.length_cons, List.range_succ_eq_map, List.filterMap_cons]
    simp only [List.getElem?_cons_zero, List.filterMap_map]
    congr 1

theorem app_perm (o : Order n) (l : List α) : (o.app l).Perm l := by
  unfold app
  split
  · rename_i h
    have := o.perm.filterMap (fun i => l[i]?)
    subst h
    rwa [range_get] at this
  · exact List.Perm.refl _

@[simp] theorem app_length (o : Order n) (l : List α) : (o.app l).length = l.length := (o.app_perm l).length_eq

theorem app_map (o : Order n) (f : α → β) (l : List α) : o.app (l.map f) = (o.app l).map f := by
  unfold app
  rw [List.length_map]
  split
  · rw [List.map_filterMap]
    congr 1
    funext i
    rw [List.getElem?_map]
  · rfl

theorem app_zip (o : Order n) {a : List α} {b : List β} (h : a.length = b.length) : o.app (a.zip b) = (o.app a).zip (o.app b) := by
  have e1 : (o.app (a.zip b)).map Prod.fst = o.app a := by rw [← app_map, List.map_fst_zip h.le]
  have e2 : (o.app (a.zip b)).map Prod.snd = o.app b := by rw [← app_map, List.map_snd_zip h.ge]
  rw [← e1, ← e2, List.zip_map', List.map_id']

theorem app_zipWith (o : Order n) (f : α → β → γ) {a : List α} {b : List β} (h : a.length = b.length) :
    List.zipWith f (o.app a) (o.app b) = o.app (List.zipWith f a b) := by
  have e : ∀ (a : List α) (b : List β), List.zipWith f a b = (a.zip b).map (fun p => f p.1 p.2) := by
    intro a b; rw [List.map_zip_eq_zipWith]; rfl
  rw [e, e, app_map, app_zip o h]

theorem app_sum [AddCommMonoid α] (o : Order n) (l : List α) : (o.app l).sum = l.sum := (o.app_perm l).sum_eq

theorem app_nil (o : Order n) : o.app ([] : List α) = [] := by
  have := o.app_length ([] : List α)
  exact List.length_eq_zero_iff.1 this
end Order

open Mix
variable {K : Type} [Field K] [LinearOrder K] [IsStrictOrderedRing K] {n : ℕ}

theorem numbers_app (o : Order n) (l : List (Fl K)) : Fl.numbers (o.app l) = (Fl.numbers l).map o.app := by
  cases h : Fl.numbers l with
  | some r =>
    rw [Fl.numbers_some h, Order.app_map, Fl.numbers_fin]; rfl
  | none =>
    cases h' : Fl.numbers (o.app l) with
    | none => rfl
    | some r =>
      exfalso
      have e := Fl.numbers_some h'
      have : ∀ x ∈ l, ∃ y, x = Fl.fin y := by
        intro x hx
        have := (o.app_perm l).mem_iff.2 hx
        rw [e] at this
        obtain ⟨y, _, rfl⟩ := List.mem_map.1 this
        exact ⟨y, rfl⟩
      have h2 : ∃ r' : List K, l = r'.map Fl.fin := by
        clear h h' e
        induction l with
        | nil => exact ⟨[], rfl⟩
        | cons x l ih =>
          obtain ⟨y, rfl⟩ := this x (by simp)
          obtain ⟨r', rfl⟩ := ih fun z hz => this z (by simp [hz])
          exact ⟨y :: r', rfl⟩
      obtain ⟨r', rfl⟩ := h2
      rw [Fl.numbers_fin] at h
      cases h

theorem matrix_app (o : Order n) : ∀ q : List (List (Fl K)), Fl.matrix (q.map o.app) = (Fl.matrix q).map (List.map o.app)
  | [] => rfl
  | r :: q => by
    rw [List.map_cons, Fl.matrix, Fl.matrix, numbers_app, matrix_app o q]
    cases Fl.numbers r <;> cases Fl.matrix q <;> rfl

theorem rowSums_app (o : Order n) (q : List (List K)) : rowSums (q.map o.app) = rowSums q := by
  unfold rowSums
  rw [List.map_map]
  exact List.map_congr_left fun r _ => o.app_sum r

theorem head_app {α : Type} (o : Order n) (q : List (List α)) : (q.map o.app).head?.map List.length = q.head?.map List.length := by
  cases q with
  | nil => rfl
  | cons r q => simp

namespace Mix

/-- A weight class whose variational part does not depend on the order of the columns of the matrix it is fitted to; `map` is what happens to the stored
parameters. -/
structure Unordered {C : WeightClass K} (V : VarClass C) (o : Order n) where
  map : V.State → V.State
  fresh : map V.fresh = V.fresh
  fit : ∀ c q, V.fit c (q.map o.app) = (V.fit c q).map (fun r => (r.1, map r.2))
  meanLogW : ∀ c v j, V.meanLogW c (map v) j = V.meanLogW c v j
  meanLogPd : ∀ c v q, V.meanLogPd c (map v) (q.map o.app) = V.meanLogPd c v q
  meanLogPw : ∀ c v, V.meanLogPw c (map v) = V.meanLogPw c v
  meanLogQw : ∀ c v, V.meanLogQw c (map v) = V.meanLogQw c v
  meanW : ∀ c v j, V.meanW c (map v) j = V.meanW c v j
  modeW : ∀ c v j, V.modeW c (map v) j = V.modeW c v j

/-- The parameters with another matrix. -/
def VFit.map {S : Type} (f : S → S) : VFit S → VFit S
  | .unfitted => .unfitted
  | .nan => .nan
  | .fitted s => .fitted (f s)

section classes
variable (F : MathFun K) (o : Order n)

/-- The stored parameters with the matrix in the other order. -/
def varApp (v : Var K) : Var K := { v with d := v.d.map o.app }
@[inherit_doc varApp] def gvarApp (v : GVar K) : GVar K := { v with d := v.d.map o.app }
@[inherit_doc varApp] def dvarApp (v : DVar K) : DVar K := { v with d := v.d.map o.app }

theorem varApp_k (v : Var K) : (varApp o v).k = v.k := List.length_map _

theorem gvarApp_k (v : GVar K) : (gvarApp o v).d.length = v.d.length := List.length_map _

theorem dpLogW_app (G : VarFun K) (v : Var K) : DP.meanLogWj G (some (varApp o v)) = DP.meanLogWj G (some v) := by
  funext j
  unfold DP.meanLogWj
  simp only [varApp_k]
  rfl

theorem dpMean_app (v : Var K) (j : ℕ) : DP.meanWj (varApp o v) j = DP.meanWj v j := by
  unfold DP.meanWj
  simp only [varApp_k]
  rfl

theorem dpMode_app (v : Var K) (j : ℕ) : DP.modeWj (varApp o v) j = DP.modeWj v j := by
  unfold DP.modeWj
  simp only [varApp_k]
  rfl

theorem dpPw_app (G : VarFun K) (alpha : K) (v : Var K) : DP.meanLogPw G alpha (some (varApp o v)) = DP.meanLogPw G alpha (some v) := by
  unfold DP.meanLogPw
  simp only [varApp_k]
  rfl

theorem pyLogW_app (G : VarFun K) (v : Var K) : PY.meanLogWj G (some (varApp o v)) = PY.meanLogWj G (some v) := rfl

theorem pyMean_app (v : Var K) (j : ℕ) : PY.meanWj (varApp o v) j = PY.meanWj v j := by
  unfold PY.meanWj
  simp only [varApp_k]
  rfl

theorem pyMode_app (v : Var K) (j : ℕ) : PY.modeWj (varApp o v) j = PY.modeWj v j := by
  unfold PY.modeWj
  simp only [varApp_k]
  rfl

theorem pyPw_app (G : VarFun K) (pyd alpha : K) (v : Var K) : PY.meanLogPw G pyd alpha (some (varApp o v)) = PY.meanLogPw G pyd alpha (some v) := rfl

/-- `DirichletProcess`. -/
def dpUnordered : Unordered (varDP F) o where
  map := VFit.map (varApp o)
  fresh := rfl
  fit := fun c q => by
    simp only [varDP, matrix_app]
    cases Fl.matrix q with
    | none => rfl
    | some q => simp [DP.fitVariational, rowSums_app, Except.map, VFit.map, varApp]
  meanLogW := fun c v j => by
    cases v with
    | fitted v => simp only [varDP, VFit.map, VFit.eval, VFit.toOption, dpLogW_app]
    | _ => rfl
  meanLogPd := fun c v q => by
    simp only [varDP, matrix_app]
    cases Fl.matrix q with
    | none => rfl
    | some q =>
      cases v with
      | fitted v =>
        simp only [VFit.map, VFit.eval, VFit.toOption, DP.meanLogPd, Option.map_some, pickMatrix, rowSums_app, dpLogW_app]
      | unfitted => simp only [VFit.map, VFit.eval, VFit.toOption, DP.meanLogPd, Option.map_some, pickMatrix, rowSums_app]
      | nan => rfl
  meanLogPw := fun c v => by
    cases v with
    | fitted v => simp only [varDP, VFit.map, VFit.eval, VFit.toOption, dpPw_app]
    | _ => rfl
  meanLogQw := fun c v => by cases v <;> rfl
  meanW := fun c v j => by
    cases v with
    | fitted v => simp only [varDP, VFit.map, VFit.eval, VFit.toOption, dpMean_app]
    | _ => rfl
  modeW := fun c v j => by
    cases v with
    | fitted v => simp only [varDP, VFit.map, VFit.eval, VFit.toOption, dpMode_app]
    | _ => rfl

/-- `PitmanYorProcess`. -/
def pyUnordered : Unordered (varPY F) o where
  map := VFit.map (varApp o)
  fresh := rfl
  fit := fun c q => by
    simp only [varPY, matrix_app]
    cases Fl.matrix q with
    | none => rfl
    | some q => simp [PY.fitVariational, rowSums_app, Except.map, VFit.map, varApp]
  meanLogW := fun c v j => by
    cases v with
    | fitted v => simp only [varPY, VFit.map, VFit.eval, VFit.toOption, pyLogW_app]
    | _ => rfl
  meanLogPd := fun c v q => by
    simp only [varPY, matrix_app]
    cases Fl.matrix q with
    | none => rfl
    | some q =>
      cases v with
      | fitted v =>
        simp only [VFit.map, VFit.eval, VFit.toOption, PY.meanLogPd, Option.map_some, pickMatrix, rowSums_app, pyLogW_app]
      | unfitted => simp only [VFit.map, VFit.eval, VFit.toOption, PY.meanLogPd, Option.map_some, pickMatrix, rowSums_app]
      | nan => rfl
  meanLogPw := fun c v => by
    cases v with
    | fitted v => simp only [varPY, VFit.map, VFit.eval, VFit.toOption, pyPw_app]
    | _ => rfl
  meanLogQw := fun c v => by cases v <;> rfl
  meanW := fun c v j => by
    cases v with
    | fitted v => simp only [varPY, VFit.map, VFit.eval, VFit.toOption, pyMean_app]
    | _ => rfl
  modeW := fun c v j => by
    cases v with
    | fitted v => simp only [varPY, VFit.map, VFit.eval, VFit.toOption, pyMode_app]
    | _ => rfl

/-- `DirichletDistribution`. -/
def dirDistUnordered : Unordered (varDirDist F) o where
  map := VFit.map (dvarApp o)
  fresh := rfl
  fit := fun c q => by
    simp only [varDirDist, matrix_app, List.length_map]
    cases Fl.matrix q with
    | none => simp only [Option.map_none]; split <;> rfl
    | some q =>
      simp only [Option.map_some, DirDist.fitVariational, rowSums_app, List.length_map]
      split
      · rfl
      · cases DirDist.broadcastAdd (show DirDist K from c).alpha (rowSums q) <;> rfl
  meanLogW := fun c v j => by cases v <;> rfl
  meanLogPd := fun c v q => by
    simp only [varDirDist, matrix_app]
    cases Fl.matrix q with
    | none => rfl
    | some q =>
      cases v with
      | fitted v =>
        simp only [VFit.map, VFit.eval, VFit.toOption, DirDist.meanLogPd, Option.map_some, pickMatrix, rowSums_app]
        rfl
      | unfitted => simp only [VFit.map, VFit.eval, VFit.toOption, DirDist.meanLogPd, Option.map_some, pickMatrix, rowSums_app]
      | nan => rfl
  meanLogPw := fun c v => by cases v <;> rfl
  meanLogQw := fun c v => by cases v <;> rfl
  meanW := fun c v j => by cases v <;> rfl
  modeW := fun c v j => by cases v <;> rfl

/-- `EqualWeighting`. -/
def equalUnordered : Unordered (varEqual F) o where
  map := id
  fresh := rfl
  fit := fun c q => by simp only [varEqual, List.length_map]; rfl
  meanLogW := fun c v j => rfl
  meanLogPd := fun c v q => by simp only [varEqual, head_app]
  meanLogPw := fun c v => rfl
  meanLogQw := fun c v => rfl
  meanW := fun c v j => rfl
  modeW := fun c v j => rfl

theorem freqShare_app (q : List (List (Fl K))) (j : ℕ) : freqShare (q.map o.app) j = freqShare q j := by
  simp only [freqShare, matrix_app, List.length_map]
  cases Fl.matrix q with
  | none => rfl
  | some q => simp only [Option.map_some, Freq.share, rowSums_app]

theorem freqK_app (k : ℤ) (q : List (List (Fl K))) : freqK k (q.map o.app) = freqK k q := by simp only [freqK, head_app]

/-- `FrequencyWeighting`. -/
def freqUnordered : Unordered (varFreq F) o where
  map := fun v => Option.map (List.map o.app) v
  fresh := rfl
  fit := fun c q => rfl
  meanLogW := fun c v j => by
    cases v with
    | none => rfl
    | some q => simp only [varFreq, Option.map_some, freqK_app, freqShare_app, head_app]
  meanLogPd := fun c v q => by
    simp only [varFreq, matrix_app]
    cases Fl.matrix q with
    | none => rfl
    | some q => simp only [Option.map_some, Freq.meanLogPd, rowSums_app]
  meanLogPw := fun c v => by cases v <;> rfl
  meanLogQw := fun c v => by cases v <;> rfl
  meanW := fun c v j => by
    cases v with
    | none => rfl
    | some q => simp only [varFreq, Option.map_some, freqK_app, freqShare_app]
  modeW := fun c v j => by
    cases v with
    | none => rfl
    | some q => simp only [varFreq, Option.map_some, freqK_app, freqShare_app]

/-- The classes without a variational part. -/
def noneUnordered (C : WeightClass K) : Unordered (VarClass.none C) o where
  map := id
  fresh := rfl
  fit := fun _ _ => rfl
  meanLogW := fun _ _ _ => rfl
  meanLogPd := fun _ _ _ => rfl
  meanLogPw := fun _ _ => rfl
  meanLogQw := fun _ _ => rfl
  meanW := fun _ _ _ => rfl
  modeW := fun _ _ _ => rfl
end classes

theorem geoFit_app (o : Order n) (a b : K) (q : List (List K)) :
    Geo.fitVariational a b (q.map o.app) = (Geo.fitVariational a b q).map (gvarApp o) := by
  cases q with
  | nil => rfl
  | cons r q =>
    simp only [List.map_cons, Geo.fitVariational, Except.map, gvarApp, Order.app_length, List.drop_succ_cons, List.drop_zero]
    congr 3
    refine congrArg List.sum (List.ext_getElem? fun j => ?_)
    simp only [List.getElem?_mapIdx, List.getElem?_map, Option.map_map]
    congr 1
    funext r
    simp only [Function.comp_apply]
    rw [← Order.app_map, Order.app_sum]

theorem geoMean_app (o : Order n) (v : GVar K) (j : ℕ) : Geo.meanWj (gvarApp o v) j = Geo.meanWj v j := by
  unfold Geo.meanWj
  simp only [gvarApp_k]
  rfl

theorem geoMode_app (o : Order n) (v : GVar K) (j : ℕ) : Geo.modeWj (gvarApp o v) j = Geo.modeWj v j := by
  unfold Geo.modeWj
  simp only [gvarApp_k]
  rfl

/-- `GeometricProcess`. -/
noncomputable def geoUnordered (F : MathFun ℝ) (o : Order n) : Unordered (varGeo F) o where
  map := VFit.map (gvarApp o)
  fresh := rfl
  fit := fun c q => by
    simp only [varGeo, matrix_app]
    cases Fl.matrix q with
    | none => rfl
    | some q =>
      simp only [Option.map_some, geoFit_app]
      cases Geo.fitVariational (show Geo ℝ from c).a (show Geo ℝ from c).b q <;> rfl
  meanLogW := fun c v j => by cases v <;> rfl
  meanLogPd := fun c v q => by
    simp only [varGeo, matrix_app]
    cases Fl.matrix q with
    | none => rfl
    | some q =>
      cases v with
      | fitted v =>
        cases q with
        | nil => rfl
        | cons r q =>
          have := rowSums_app o (r :: q)
          rw [List.map_cons] at this
          simp only [VFit.map, VFit.eval, VFit.toOption, Geo.meanLogPd, Option.map_some, pickMatrix, List.map_cons, this, Order.app_length]
          rfl
      | unfitted => rfl
      | nan => rfl
  meanLogPw := fun c v => by cases v <;> rfl
  meanLogQw := fun c v => by cases v <;> rfl
  meanW := fun c v j => by
    cases v with
    | fitted v => simp only [varGeo, VFit.map, VFit.eval, VFit.toOption, geoMean_app]
    | _ => rfl
  modeW := fun c v j => by
    cases v with
    | fitted v => simp only [varGeo, VFit.map, geoMode_app]
    | _ => rfl

/-! ### The mixture -/

namespace VM
variable {C : WeightClass K} {V : VarClass C} {m : ℕ} {Atom : Type} {ω : Oracle K} {o : Order n} {U : Unordered V o} {F : MathFun K} {W : World K m Atom}

theorem meanVec_app (ys : List (Fin m → K)) : meanVec (o.app ys) = meanVec ys := by
  funext i
  unfold meanVec
  rw [← o.app_map, o.app_sum, o.app_length]

theorem cov_app (ys : List (Fin m → K)) : GM.cov (o.app ys) = GM.cov ys := by
  funext i j
  unfold GM.cov
  rw [meanVec_app, ← o.app_map, o.app_sum, o.app_length]

/-- The data in another order. -/
def yApp (o : Order n) : YArg K m → YArg K m
  | .rows ys => .rows (o.app ys)
  | .invalid => .invalid

/-- The object with the data, and what is stored per observation, in another order. -/
def reorder (U : Unordered V o) (s : VM V m Atom) : VM V m Atom :=
  { s with gm := { s.gm with y := o.app s.gm.y }, vst := U.map s.vst, varD := o.app s.varD }

theorem wMean_app {ys : List (Fin m → K)} {r : List K} (h : r.length = ys.length) : wMean (o.app ys) (o.app r) = wMean ys r := by
  funext i
  unfold wMean
  rw [o.app_sum, o.app_zipWith _ h, o.app_sum]

theorem wCov_app {ys : List (Fin m → K)} {r : List K} (h : r.length = ys.length) : wCov (o.app ys) (o.app r) = wCov ys r := by
  funext i j
  unfold wCov
  rw [wMean_app h, o.app_sum, o.app_zipWith _ h, o.app_sum]

theorem varPsi_app {ys : List (Fin m → K)} {r : List K} (h : r.length = ys.length) (p : NIW K m) : varPsi (o.app ys) p (o.app r) = varPsi ys p r := by
  funext i j
  unfold varPsi
  rw [wCov_app h, wMean_app h, o.app_sum]

theorem varAtom_app {ys : List (Fin m → K)} {row : List (Fl K)} (h : row.length = ys.length) (p : NIW K m) :
    varAtom (o.app ys) p (o.app row) = varAtom ys p row := by
  unfold varAtom
  rw [numbers_app]
  cases hn : Fl.numbers row with
  | none => rfl
  | some r =>
    have hl : r.length = ys.length := (numbers_mem hn).1.trans h
    simp only [Option.map_some, o.app_sum, varPsi_app hl, wMean_app hl]

theorem varAtoms_app {ys : List (Fin m → K)} (p : NIW K m) : ∀ {q : List (List (Fl K))}, (∀ r ∈ q, r.length = ys.length) →
    varAtoms (o.app ys) p (q.map o.app) = varAtoms ys p q
  | [], _ => rfl
  | r :: q, h => by
    rw [List.map_cons, varAtoms, varAtoms, varAtom_app (h r (by simp)), varAtoms_app p fun r hr => h r (by simp [hr])]

theorem varRows_app (s : VM V m Atom) : varRows (reorder U s) = (varRows s).map o.app := by
  unfold varRows reorder
  rw [List.map_map]
  apply List.map_congr_left
  intro j _
  exact (o.app_map _ _).symm

/-- One column per observation. -/
def PerObs (s : VM V m Atom) : Prop := s.varD.length = s.gm.y.length

theorem varRows_len {s : VM V m Atom} (h : PerObs s) : ∀ r ∈ varRows s, r.length = s.gm.y.length := by
  intro r hr
  obtain ⟨j, _, rfl⟩ := List.mem_map.1 hr
  rw [List.length_map]; exact h

theorem logWeights_app (c : C.State) (v : V.State) : ∀ js : List ℕ, logWeights V c (U.map v) js = logWeights V c v js
  | [] => rfl
  | j :: js => by rw [logWeights, logWeights, U.meanLogW, logWeights_app c v js]

theorem prior_app (s : VM V m Atom) : GM.prior (reorder U s).gm = GM.prior s.gm := rfl

theorem ord_updateVarTheta {s : VM V m Atom × ℕ} (h : PerObs s.1) : Mir ω (reorder U) (fun _ => True) id updateVarTheta updateVarTheta s := by
  unfold updateVarTheta
  apply Mir.self_bind
  refine Mir.bind (f := id) (Mir.lift ?_ trivial) fun as s1 _ _ => Mir.assign rfl trivial
  rw [except_map_id, varRows_app, prior_app]
  exact varAtoms_app _ (varRows_len h)

theorem ord_updateVarD {s : VM V m Atom × ℕ} : Mir ω (reorder U) (fun _ => True) id (updateVarD F W) (updateVarD F W) s := by
  unfold updateVarD
  apply Mir.self_bind
  have e : (reorder U s.1).varK = s.1.varK := rfl
  rw [e]
  cases s.1.varK with
  | none => exact Mir.raise _ trivial
  | some k =>
    refine Mir.ite Iff.rfl (fun _ => Mir.raise _ trivial) fun _ => ?_
    refine Mir.bind (f := id) (Mir.lift ?_ trivial) fun lw s1 _ _ => ?_
    · rw [except_map_id]
      exact logWeights_app _ _ _
    · refine Mir.ite Iff.rfl (fun _ => Mir.raise _ trivial) fun _ => Mir.assign ?_ trivial
      unfold reorder
      simp only [id, Order.app_map]

theorem ord_fitWeights (q : List (List (Fl K))) {s : VM V m Atom × ℕ} :
    Mir ω (reorder U) (fun _ => True) id (fitWeights q) (fitWeights (q.map o.app)) s := by
  unfold fitWeights
  apply Mir.self_bind
  exact Mir.bind (f := fun r => (r.1, U.map r.2)) (Mir.lift (U.fit _ _) trivial) fun r s1 _ _ => Mir.assign rfl trivial

theorem ord_updateVarW {s : VM V m Atom × ℕ} : Mir ω (reorder U) (fun _ => True) id updateVarW updateVarW s := by
  unfold updateVarW
  apply Mir.self_bind
  rw [varRows_app]
  exact ord_fitWeights _

theorem updateVarD_perObs (s : VM V m Atom × ℕ) : wp ω (updateVarD F W) (fun _ t => PerObs t.1 ∧ t.1.gm.y = s.1.gm.y) (fun _ _ => True) s := by
  unfold updateVarD
  rw [wp_bind, wp_self]
  cases s.1.varK with
  | none => trivial
  | some k =>
    simp only []
    rw [wp_ite]
    refine ⟨fun _ => trivial, fun _ => ?_⟩
    rw [wp_bind, wp_lift]
    refine ⟨fun lw _ => ?_, fun _ _ => trivial⟩
    rw [wp_ite]
    refine ⟨fun _ => trivial, fun _ => ?_⟩
    rw [wp_assign]
    exact ⟨List.length_map _, rfl⟩

theorem PerObs.of_eq {s t : VM V m Atom} (h : PerObs s) (e : t.varD = s.varD ∧ t.gm.y = s.gm.y) : PerObs t := by
  unfold PerObs at h ⊢
  rw [e.1, e.2]; exact h

theorem ord_maximize {s : VM V m Atom × ℕ} : Mir ω (reorder U) (fun _ => True) id (maximize F W) (maximize F W) s := by
  unfold maximize
  refine Mir.bind ord_updateVarD fun _ s1 e1 _ => Mir.bind ord_updateVarW fun _ s2 e2 _ => ?_
  exact ord_updateVarTheta ((wp_of_ok e1 (updateVarD_perObs s)).1.of_eq (wp_of_ok e2 (updateVarW_cols s1)))

theorem maximize_perObs (s : VM V m Atom × ℕ) : wp ω (maximize F W) (fun _ t => PerObs t.1 ∧ t.1.gm.y = s.1.gm.y) (fun _ _ => True) s := by
  unfold maximize
  rw [wp_bind]
  refine wp_mono (updateVarD_perObs s) (fun _ t1 h1 => ?_) fun _ _ _ => trivial
  rw [wp_bind]
  refine wp_mono (updateVarW_cols t1) (fun _ t2 h2 => ?_) fun _ _ _ => trivial
  exact wp_mono (updateVarTheta_cols t2) (fun _ t3 h3 => ⟨(h1.1.of_eq h2).of_eq h3, h3.2.trans (h2.2.trans h1.2)⟩) fun _ _ _ => trivial

theorem pxTerm_app {ys : List (Fin m → K)} {row : List (Fl K)} (h : row.length = ys.length) (a : Option (VAtom K m)) :
    pxTerm F (o.app ys) (o.app row) a = pxTerm F ys row a := by
  unfold pxTerm
  rw [numbers_app]
  cases hn : Fl.numbers row with
  | none => rfl
  | some r =>
    have hl : r.length = ys.length := (numbers_mem hn).1.trans h
    cases a with
    | none => rfl
    | some a => simp only [Option.map_some, o.app_sum, wMean_app hl, wCov_app hl]

theorem eLogPx_app {s : VM V m Atom} (h : PerObs s) : eLogPx F (reorder U s) = eLogPx F s := by
  unfold eLogPx
  rw [varRows_app]
  have : List.zipWith (pxTerm F (reorder U s).gm.y) ((varRows s).map o.app) (reorder U s).varTheta =
      List.zipWith (pxTerm F s.gm.y) (varRows s) s.varTheta := by
    show List.zipWith (pxTerm F (o.app s.gm.y)) ((varRows s).map o.app) s.varTheta = _
    rw [List.zipWith_map_left, Affine.zipWith_eq_map, Affine.zipWith_eq_map]
    apply List.map_congr_left
    intro p hp
    exact pxTerm_app (varRows_len h _ (List.of_mem_zip hp).1) _
  rw [this]
  rfl

theorem eLogQd_app (s : VM V m Atom) : eLogQd F (reorder U s) = eLogQd F s := by
  unfold eLogQd reorder
  rw [← o.app_map]
  exact Fl.sum_perm (o.app_perm _)

theorem calcElbo_app {s : VM V m Atom} (h : PerObs s) : calcElbo F (reorder U s) = calcElbo F s := by
  have e1 : V.meanLogPd (reorder U s).gm.wst.1 (reorder U s).vst (varRows (reorder U s)) = V.meanLogPd s.gm.wst.1 s.vst (varRows s) := by
    rw [varRows_app]; exact U.meanLogPd _ _ _
  have e2 : V.meanLogPw (reorder U s).gm.wst.1 (reorder U s).vst = V.meanLogPw s.gm.wst.1 s.vst := U.meanLogPw _ _
  unfold calcElbo
  simp only [eLogPx_app h, e1, e2, eLogQd_app]
  rfl

theorem ord_drawAtoms {F : VWorld K m} : ∀ (k : ℕ) {s : VM V m Atom × ℕ}, Mir ω (reorder U) (fun _ => True) id (drawAtoms F k) (drawAtoms F k) s
  | 0, s => Mir.pure rfl trivial
  | k + 1, s => by
    unfold drawAtoms
    apply Mir.self_bind
    refine Mir.bind (f := id) (Mir.draw1 (fun p => rfl) trivial) fun a s1 _ _ => ?_
    refine Mir.bind (f := id) (Mir.lift (except_map_id _).symm trivial) fun P s2 _ _ => ?_
    exact Mir.bind (Mir.assign rfl trivial) fun _ s3 _ _ => ord_drawAtoms k

theorem npUnique_app (l : List ℕ) : npUnique (o.app l) = npUnique l := by
  unfold npUnique
  have e : (o.app l).foldl max 0 = l.foldl max 0 := (o.app_perm l).foldl_eq 0
  rw [e]
  apply List.filter_congr
  intro x _
  simp only [(o.app_perm l).mem_iff]

theorem sizeBiased_app (f : List ℤ → List ℕ) (l : List ℕ) : sizeBiased f (o.app l) = o.app (sizeBiased f l) := by
  unfold sizeBiased npInverse
  simp only [npUnique_app, (o.app_perm l).count_eq, o.app_map]

/-- K-means labels every observation, and an observation gets the same label in whatever order the data come. -/
structure KmeansFollows (o : Order n) (W : World K m Atom) : Prop where
  order : ∀ p ys k, W.kmeans p (o.app ys) k = (W.kmeans p ys k).map o.app
  total : ∀ p ys k raw, W.kmeans p ys k = .ok raw → raw.length = ys.length

theorem ord_initVar {F : VWorld K m} (k : ℤ) {method : VarInit} (hm : method ≠ .kmeans ∨ KmeansFollows o W) {s : VM V m Atom × ℕ} :
    Mir ω (reorder U) (fun _ => True) id (initVar F W k method) (initVar F W k method) s := by
  cases method with
  | random =>
    unfold initVar
    refine Mir.bind (Mir.assign rfl trivial) fun _ s1 _ _ => Mir.bind (ord_drawAtoms _) fun _ s2 _ _ => ?_
    refine Mir.ite Iff.rfl (fun _ => Mir.raise _ trivial) fun _ => Mir.ite Iff.rfl (fun _ => Mir.raise _ trivial) fun _ => ?_
    refine Mir.bind (Mir.assign ?_ trivial) fun _ s3 _ _ => ord_updateVarW
    unfold reorder
    simp only [Order.app_map]
  | unknown =>
    unfold initVar
    exact Mir.bind (Mir.assign rfl trivial) fun _ s1 _ _ => Mir.raise _ trivial
  | kmeans =>
    have hk : KmeansFollows o W := by
      rcases hm with h | h
      · exact absurd rfl h
      · exact h
    unfold initVar
    refine Mir.bind (Mir.assign rfl trivial) fun _ s1 _ _ => ?_
    apply Mir.self_bind
    refine Mir.bind (f := Except.map o.app) (Mir.draw1 (fun p => hk.order p _ _) trivial) fun r s2 e2 _ => ?_
    refine Mir.bind (f := o.app) (Mir.lift rfl trivial) fun raw s3 e3 _ => ?_
    refine Mir.ite Iff.rfl (fun _ => Mir.raise _ trivial) fun _ => ?_
    rw [sizeBiased_app]
    refine Mir.ite ?_ (fun _ => Mir.raise _ trivial) fun _ => ?_
    · simp only [(o.app_perm (sizeBiased W.argsort raw)).mem_iff]
    refine Mir.bind (Mir.assign ?_ trivial) fun _ s4 e4 _ => ?_
    · unfold reorder
      simp only [Order.app_map]
    have e0 : (List.replicate k.toNat ([] : List (Fl K))).map o.app = List.replicate k.toNat [] := by
      rw [List.map_replicate, o.app_nil]
    have h5 := ord_fitWeights (ω := ω) (U := U) (List.replicate k.toNat ([] : List (Fl K))) (s := s4)
    rw [e0] at h5
    refine Mir.bind h5 fun _ s5 e5 _ => ?_
    have hy2 : s2.1 = s1.1 := by cases e2; rfl
    have hy3 : s3 = s2 := by rw [M.lift_apply] at e3; cases e3; rfl
    have hraw : raw.length = s1.1.gm.y.length := by
      have h2 : r = W.kmeans s1.2 s1.1.gm.y k := by cases e2; rfl
      have h3 : r = .ok raw := by rw [M.lift_apply] at e3; exact congrArg Prod.fst e3
      exact hk.total _ _ _ _ (h2.symm.trans h3)
    have hc4 : PerObs s4.1 := by
      cases e4
      rw [hy3, hy2]
      unfold PerObs
      simp only [List.length_map]
      unfold sizeBiased npInverse
      simp only [List.length_map]
      exact hraw
    have hc5 : PerObs s5.1 := hc4.of_eq (wp_of_ok e5 (fitWeights_cols _ s4))
    exact Mir.bind (ord_updateVarTheta hc5) fun _ s6 _ _ => Mir.bind ord_updateVarD fun _ s7 _ _ => ord_updateVarW

theorem ord_varLoop (tol : Fl K) : ∀ (k : ℕ) (elbo diff : Fl K) (it : ℤ) {s : VM V m Atom × ℕ},
    Mir ω (reorder U) (fun _ => True) id (varLoop F W tol k elbo diff it) (varLoop F W tol k elbo diff it) s
  | 0, _, _, _, s => Mir.raise _ trivial
  | k + 1, elbo, diff, it, s => by
    unfold varLoop
    apply Mir.self_bind
    refine Mir.ite Iff.rfl (fun _ => ?_) fun _ => Mir.pure rfl trivial
    refine Mir.bind ord_maximize fun _ s1 e1 _ => ?_
    apply Mir.self_bind
    rw [calcElbo_app (wp_of_ok e1 (maximize_perObs s)).1]
    exact Mir.bind (f := id) (Mir.lift (except_map_id _).symm trivial) fun e s2 _ _ => ord_varLoop tol k _ _ _

theorem ord_initCommon (y : YArg K m) {s : VM V m Atom × ℕ} :
    Mir ω (reorder U) (fun _ => True) id (onGM (GM.initCommon y)) (onGM (GM.initCommon (yApp o y))) s := by
  refine ⟨?_, trivial⟩
  rw [onGM_eq, onGM_eq, except_map_id]
  cases y with
  | invalid => rfl
  | rows ys =>
    simp only [yApp, GM.initCommon, M.assign_apply, reorder, meanVec_app, cov_app]

theorem ord_fitVariational {F : VWorld K m} (y : YArg K m) (nGroups : Option ℤ) (warm : Bool) (tol : Fl K) (method : VarInit)
    (hm : warm = true ∨ method ≠ .kmeans ∨ KmeansFollows o W) {s : VM V m Atom × ℕ} :
    Mir ω (reorder U) (fun _ => True) id (fitVariational F W y nGroups warm tol method) (fitVariational F W (yApp o y) nGroups warm tol method) s := by
  unfold fitVariational
  refine Mir.bind (ord_initCommon y) fun _ s1 _ _ => ?_
  refine Mir.bind (f := id) ?_ fun _ s2 _ _ => ?_
  · cases warm with
    | true => exact Mir.pure rfl trivial
    | false =>
      have hr : method ≠ .kmeans ∨ KmeansFollows o W := by
        rcases hm with h | h
        · cases h
        · exact h
      refine Mir.whenM trivial ?_
      apply Mir.self_bind
      have e : (reorder U s1.1).gm.nAttr = s1.1.gm.nAttr := rfl
      rw [e]
      cases nGroups with
      | some k => exact ord_initVar k hr
      | none =>
        cases s1.1.gm.nAttr with
        | some k => exact ord_initVar k hr
        | none => exact Mir.raise _ trivial
  · apply Mir.self_bind
    exact Mir.bind (ord_varLoop tol _ _ _ _) fun it s3 _ _ => Mir.assign rfl trivial

/-! ### One column per observation after a fit -/

theorem drawAtoms_perObs {F : VWorld K m} : ∀ (k : ℕ) (s : VM V m Atom × ℕ),
    wp ω (drawAtoms F k) (fun _ t => t.1.varD = s.1.varD ∧ t.1.gm.y = s.1.gm.y) (fun _ _ => True) s
  | 0, s => ⟨rfl, rfl⟩
  | k + 1, s => by
    unfold drawAtoms
    simp only [wp_bind, wp_self, wp_draw, wp_lift, wp_assign]
    exact ⟨fun P _ => wp_mono (drawAtoms_perObs k _) (fun _ t h => h) fun _ _ _ => trivial, fun _ _ => trivial⟩

theorem initVar_perObs {F : VWorld K m} (k : ℤ) (method : VarInit) (s : VM V m Atom × ℕ) :
    wp ω (initVar F W k method) (fun _ t => PerObs t.1 ∧ t.1.gm.y = s.1.gm.y) (fun _ _ => True) s := by
  cases method with
  | unknown =>
    unfold initVar
    simp only [wp_bind, wp_assign]
    trivial
  | random =>
    unfold initVar
    rw [wp_bind, wp_assign, wp_bind]
    refine wp_mono (drawAtoms_perObs _ _) (fun _ t1 h1 => ?_) fun _ _ _ => trivial
    rw [wp_ite]
    refine ⟨fun _ => trivial, fun _ => ?_⟩
    rw [wp_ite]
    refine ⟨fun _ => trivial, fun _ => ?_⟩
    rw [wp_bind, wp_assign]
    exact wp_mono (updateVarW_cols _) (fun _ t2 h2 => ⟨PerObs.of_eq (by unfold PerObs; simp) h2, h2.2.trans h1.2⟩) fun _ _ _ => trivial
  | kmeans =>
    unfold initVar
    simp only [wp_bind, wp_assign, wp_self, wp_draw, wp_lift]
    refine ⟨fun raw _ => ?_, fun _ _ => trivial⟩
    rw [wp_ite]
    refine ⟨fun _ => trivial, fun _ => ?_⟩
    rw [wp_ite]
    refine ⟨fun _ => trivial, fun _ => ?_⟩
    simp only [wp_bind, wp_assign]
    refine wp_mono (fitWeights_cols _ _) (fun _ t2 h2 => ?_) fun _ _ _ => trivial
    refine wp_mono (updateVarTheta_cols _) (fun _ t3 h3 => ?_) fun _ _ _ => trivial
    refine wp_mono (updateVarD_perObs _) (fun _ t4 h4 => ?_) fun _ _ _ => trivial
    exact wp_mono (updateVarW_cols _) (fun _ t5 h5 => ⟨h4.1.of_eq h5, h5.2.trans (h4.2.trans (h3.2.trans h2.2))⟩) fun _ _ _ => trivial

theorem varLoop_perObs (tol : Fl K) : ∀ (k : ℕ) (elbo diff : Fl K) (it : ℤ) (s : VM V m Atom × ℕ), PerObs s.1 →
    wp ω (varLoop F W tol k elbo diff it) (fun _ t => PerObs t.1 ∧ t.1.gm.y = s.1.gm.y) (fun _ _ => True) s
  | 0, _, _, _, s, _ => trivial
  | k + 1, elbo, diff, it, s, h => by
    unfold varLoop
    rw [wp_bind, wp_self, wp_ite]
    refine ⟨fun _ => ?_, fun _ => ⟨h, rfl⟩⟩
    rw [wp_bind]
    refine wp_mono (maximize_perObs s) (fun _ t1 h1 => ?_) fun _ _ _ => trivial
    rw [wp_bind, wp_self, wp_bind, wp_lift]
    exact ⟨fun e _ => wp_mono (varLoop_perObs tol k _ _ _ _ h1.1) (fun _ t h => ⟨h.1, h.2.trans h1.2⟩) fun _ _ _ => trivial, fun _ _ => trivial⟩

theorem fitVariational_perObs {F : VWorld K m} (ys : List (Fin m → K)) (nGroups : Option ℤ) (tol : Fl K) (method : VarInit) (s : VM V m Atom × ℕ) :
    wp ω (fitVariational F W (.rows ys) nGroups false tol method) (fun _ t => PerObs t.1 ∧ t.1.gm.y = ys) (fun _ _ => True) s := by
  unfold fitVariational
  rw [wp_bind]
  refine wp_mono (Q' := fun _ t => t.1.gm.y = ys) (E' := fun _ _ => True) rfl (fun _ t1 h1 => ?_) fun _ _ _ => trivial
  rw [wp_bind, wp_whenM]
  refine ⟨fun _ => ?_, fun h => absurd rfl h⟩
  rw [wp_bind, wp_self]
  have key : ∀ k, wp ω (initVar F W k method) (fun _ t => wp ω (do
      let s ← M.self
      let it ← varLoop F.toMathFun W tol (s.gm.totalIter.toNat + 1) .ninf .pinf 0
      M.assign (fun s => { s with
          varFitted := true
          varConverged := s.varConverged || decide (it < s.gm.totalIter) }) : M K (VM V m Atom) Unit) (fun _ t => PerObs t.1 ∧ t.1.gm.y = ys) (fun _ _ => True) t)
      (fun _ _ => True) t1 := by
    intro k
    refine wp_mono (initVar_perObs k method t1) (fun _ t2 h2 => ?_) fun _ _ _ => trivial
    rw [wp_bind, wp_self, wp_bind]
    exact wp_mono (varLoop_perObs tol _ _ _ _ t2 h2.1) (fun it t3 h3 => ⟨h3.1, h3.2.trans (h2.2.trans h1)⟩) fun _ _ _ => trivial
  cases nGroups with
  | some k => exact key k
  | none =>
    cases t1.1.gm.nAttr with
    | some k => exact key k
    | none => trivial
end VM
end Mix
end Verif
