import Verif.Lemmas.Normalised
import Verif.Props.C58
import Verif.Props.C87
import Verif.Props.C109
import Mathlib.Analysis.Real.Pi.Bounds

/-!
# C114: `var_eap_density` is the expected density under the fitted law

The fitted law makes weights and groups independent: the weights follow the fitted law of the weight model, mean and precision of each group a normal-Wishart law.  The expected
density at a point is the expectation of `Σ_j w_j N(x; mean_j, precision_j)`.

* `C114_predictive`: the expectation of `N(x; mean, precision)` for one group, in every dimension, is a Student-t density.
* `C114_value`, `C114_component`: `var_eap_density` is the sum over the groups of mean weight times this expectation times `sqrt (‖P‖ / det P)`, for the data and for any given points, and the
  summand alone for one component.
* `C114_mixture`, `C114_one_partial`: with one coordinate it is the expected density, for every law of the weights with these means;
  `C114_dirichletProcess_partial` for the fitted law of the Dirichlet process.
* `C114_refuted`: for every dimension from two on there are groups for which every value is wrong.
* `C114_total`: over the whole space it integrates to the sum of mean weight times `sqrt (‖P‖ / det P)`; `C114_total_one_partial`: with one coordinate to the sum of the mean weights.
* `C114_dim_refuted`: with `dim` it is not the marginal density.
-/

set_option linter.unusedSectionVars false

namespace Verif.Mix.VM
open MeasureTheory Real Matrix
open Verif.Fl (fin)
variable {m : ℕ}

/-- The expectation of `N(x; mean, precision)` under the law of the group. -/
noncomputable def expectedPdf (a : VAtom ℝ m) (L : Matrix (Fin m) (Fin m) ℝ) (x : Fin m → ℝ) : ℝ :=
  ∫ ω, normalPdf x (NW.centre a.mu a.lam L ω) (NW.precision L ω) ∂NW.joint m a.scale

/-- The precision of the Student-t law of a new point. -/
noncomputable def newPrec (a : VAtom ℝ m) : Fin m → Fin m → ℝ := fun i j => a.prec i j * (a.scale + 1 - (m : ℝ)) * a.lam / (1 + a.lam)

/-- The error of the code. -/
noncomputable def normFactor (a : VAtom ℝ m) : ℝ := √(frob realFun (newPrec a) / (Matrix.of (newPrec a)).det)

theorem dof_pos {a : VAtom ℝ m} (ha : ProperAtom a) : 0 < a.scale + 1 - (m : ℝ) := by have := ha.scale; linarith

theorem newPrec_scale {a : VAtom ℝ m} (ha : ProperAtom a) : ∃ c : ℝ, 0 < c ∧ newPrec a = (c • Matrix.of a.prec : Matrix (Fin m) (Fin m) ℝ) := by
  have h1 := dof_pos ha
  have h2 := ha.lam
  refine ⟨(a.scale + 1 - (m : ℝ)) * a.lam / (1 + a.lam), by positivity, ?_⟩
  funext i j
  show _ = _ * a.prec i j
  unfold newPrec
  ring

theorem newPrec_posDef {a : VAtom ℝ m} (ha : ProperAtom a) : (Matrix.of (newPrec a)).PosDef := by
  obtain ⟨c, hc, h⟩ := newPrec_scale ha
  rw [h]
  exact ha.prec.smul hc

theorem normFactor_pos (hm : 0 < m) {a : VAtom ℝ m} (ha : ProperAtom a) : 0 < normFactor a := by
  have hd := (newPrec_posDef ha).det_pos
  exact Real.sqrt_pos.2 (div_pos (frob_real_pos hm hd) hd)

/-- **The expected density of one group** is a Student-t density; the density is integrable. -/
theorem C114_predictive {a : VAtom ℝ m} (ha : ProperAtom a) {L : Matrix (Fin m) (Fin m) ℝ} (hL : FactorOf L a) (x : Fin m → ℝ) :
    Integrable (fun ω => normalPdf x (NW.centre a.mu a.lam L ω) (NW.precision L ω)) (NW.joint m a.scale) ∧
    expectedPdf a L x = studentsPdf x a.mu (newPrec a) (a.scale + 1 - (m : ℝ)) := by
  have h := NW.expected_normalPdf ha.scale (factor_det ha.prec hL) x a.mu ha.lam
  have hP : (L * Lᵀ : Matrix (Fin m) (Fin m) ℝ) = a.prec := hL.symm
  rw [hP] at h
  exact h

/-- It does not depend on the factor. -/
theorem C114_factor {a : VAtom ℝ m} (ha : ProperAtom a) {L L' : Matrix (Fin m) (Fin m) ℝ} (hL : FactorOf L a) (hL' : FactorOf L' a) (x : Fin m → ℝ) :
    expectedPdf a L x = expectedPdf a L' x := by
  rw [(C114_predictive ha hL x).2, (C114_predictive ha hL' x).2]

theorem expectedPdf_pos {a : VAtom ℝ m} (ha : ProperAtom a) {L : Matrix (Fin m) (Fin m) ℝ} (hL : FactorOf L a) (x : Fin m → ℝ) : 0 < expectedPdf a L x := by
  rw [(C114_predictive ha hL x).2]
  exact NW.studentsPdf_pos (newPrec_posDef ha).det_pos (fun x mu => mahalanobis_nonneg (newPrec_posDef ha) x mu) (dof_pos ha) x a.mu

/-- The code's density of one group. -/
theorem group_value {a : VAtom ℝ m} (ha : ProperAtom a) {L : Matrix (Fin m) (Fin m) ℝ} (hL : FactorOf L a) (x : Fin m → ℝ) :
    studentsT realFun x a.mu (newPrec a) (a.scale + 1 - (m : ℝ)) = normFactor a * expectedPdf a L x := by
  rw [C69_students_gap x a.mu (newPrec_posDef ha).det_pos (dof_pos ha), (C114_predictive ha hL x).2]
  rfl

/-! ### The query -/

variable {C : WeightClass ℝ} {V : VarClass C} {Atom : Type}

theorem mixValue_fin {α : Type} (w : ℕ → ℝ) (f : VAtom ℝ m → α → ℝ) (as : List (VAtom ℝ m)) (x : α) :
    mixValue w f (as.map some) x = ∑ j : Fin as.length, w j * f as[j] x := by
  unfold mixValue
  rw [List.length_map, Finset.sum_range]
  refine Finset.sum_congr rfl fun j _ => ?_
  rw [List.getElem?_map, List.getElem?_eq_getElem j.2]
  rfl

/-- **`var_eap_density`** of the fitted data or of given points. -/
theorem C114_value {s : VM V m Atom} (hs : s.varFitted = true) {as : List (VAtom ℝ m)} (hth : s.varTheta = as.map some) (ha : ∀ a ∈ as, ProperAtom a)
    (L : Fin as.length → Matrix (Fin m) (Fin m) ℝ) (hL : ∀ j, FactorOf (L j) as[j]) {w : ℕ → ℝ} (hw : ∀ j < as.length, V.meanW s.gm.wst.1 s.vst j = .ok (fin (w j)))
    {y : Points ℝ} {xs : List (Fin m → ℝ)} (hy : points s y = .ok ⟨m, xs⟩) :
    varEapDensity realFun s y .none none = .ok (xs.map fun x => fin (∑ j : Fin as.length, w j * (normFactor as[j] * expectedPdf as[j] (L j) x))) := by
  unfold varEapDensity
  rw [if_neg (by rw [hs]; simp), hy]
  simp only [components, dimMap, le_refl, dite_true, Fin.castLE_rfl]
  rw [if_neg (by simp), densityLoop_ok (wf := w) _ (fun _ => 0) (fun p hp => by
    obtain ⟨i, hi, rfl⟩ := List.mem_mapIdx.1 hp
    rw [hth, List.length_map] at hi
    refine ⟨⟨as[i], ?_⟩, hw i hi⟩
    simp [hth])]
  congr 1
  apply List.map_congr_left
  intro x _
  rw [zero_add]
  refine congrArg fin ((mapIdx_sum (f := fun a x => studentsT realFun x a.mu (newPrec a) (a.scale + 1 - (m : ℝ))) _ _).trans ?_)
  rw [hth, mixValue_fin]
  exact Finset.sum_congr rfl fun j _ => congrArg (w j * ·) (group_value (ha _ (List.getElem_mem j.2)) (hL j) x)

/-- One component: the summand alone. -/
theorem C114_component {s : VM V m Atom} (hs : s.varFitted = true) {as : List (VAtom ℝ m)} (hth : s.varTheta = as.map some) (ha : ∀ a ∈ as, ProperAtom a)
    (j : Fin as.length) {L : Matrix (Fin m) (Fin m) ℝ} (hL : FactorOf L as[j]) {w : ℝ} (hw : V.meanW s.gm.wst.1 s.vst j = .ok (fin w))
    {y : Points ℝ} {xs : List (Fin m → ℝ)} (hy : points s y = .ok ⟨m, xs⟩) :
    varEapDensity realFun s y .none (some j) = .ok (xs.map fun x => fin (w * (normFactor as[j] * expectedPdf as[j] L x))) := by
  unfold varEapDensity
  rw [if_neg (by rw [hs]; simp), hy]
  have hc : s.varTheta[(j : ℕ)]? = some (some as[j]) := by
    rw [hth, List.getElem?_map, List.getElem?_eq_getElem j.2]
    rfl
  simp only [components, hc, dimMap, le_refl, dite_true, Fin.castLE_rfl]
  rw [if_neg (by simp), densityLoop_ok (wf := fun _ => w) _ (fun _ => 0) (fun p hp => by
    rw [List.mem_singleton] at hp
    subst hp
    exact ⟨⟨_, rfl⟩, hw⟩)]
  congr 1
  apply List.map_congr_left
  intro x _
  rw [zero_add]
  refine congrArg fin ?_
  rw [List.map_cons, List.map_nil, List.sum_singleton, mul_comm w]
  exact congrArg (· * w) (group_value (ha _ (List.getElem_mem j.2)) hL x)

/-- A component that does not exist. -/
theorem C114_component_raises {s : VM V m Atom} (hs : s.varFitted = true) {y : Points ℝ} (hy : y ≠ .invalid) {j : ℕ} (hj : s.varTheta.length ≤ j) :
    varEapDensity realFun s y .none (some j) = .error .indexError := by
  unfold varEapDensity
  rw [if_neg (by rw [hs]; simp)]
  have hc : s.varTheta[j]? = none := List.getElem?_eq_none hj
  cases y with
  | invalid => exact absurd rfl hy
  | own => simp [points, components, hc]
  | given c xs => simp [points, components, hc]

/-! ### The expectation -/

/-- The density of the mixture with weights `w` whose groups are given by the draws `ω`. -/
noncomputable def mixturePdf (as : List (VAtom ℝ m)) (L : Fin as.length → Matrix (Fin m) (Fin m) ℝ) (x : Fin m → ℝ) (p : (Fin as.length → ℝ) × (Fin as.length → NW.Src m → ℝ)) : ℝ :=
  ∑ j, p.1 j * normalPdf x (NW.centre as[j].mu as[j].lam (L j) (p.2 j)) (NW.precision (L j) (p.2 j))

/-- The law of the groups: independent normal-Wishart laws. -/
noncomputable def groupLaw (as : List (VAtom ℝ m)) : Measure (Fin as.length → NW.Src m → ℝ) := Measure.pi fun j => NW.joint m as[j].scale

/-- **The expected density of the mixture**, whatever the law of the weights. -/
theorem C114_mixture {as : List (VAtom ℝ m)} (ha : ∀ a ∈ as, ProperAtom a) (L : Fin as.length → Matrix (Fin m) (Fin m) ℝ) (hL : ∀ j, FactorOf (L j) as[j])
    (Q : Measure (Fin as.length → ℝ)) [IsProbabilityMeasure Q] (hQ : ∀ j, Integrable (fun w => w j) Q) (x : Fin m → ℝ) :
    Integrable (mixturePdf as L x) (Q.prod (groupLaw as)) ∧
    ∫ p, mixturePdf as L x p ∂(Q.prod (groupLaw as)) = ∑ j, (∫ w, w j ∂Q) * expectedPdf as[j] (L j) x := by
  have hp : ∀ j : Fin as.length, IsProbabilityMeasure (NW.joint m as[j].scale) := fun j => NW.joint_prob (ha _ (List.getElem_mem j.2)).scale
  have hg : IsProbabilityMeasure (groupLaw as) := by unfold groupLaw; infer_instance
  have hpr := fun j : Fin as.length => C114_predictive (ha _ (List.getElem_mem j.2)) (hL j) x
  have hmp : ∀ j : Fin as.length, MeasurePreserving (Function.eval j) (groupLaw as) (NW.joint m as[j].scale) := fun j => measurePreserving_eval _ j
  set f : ∀ j : Fin as.length, (NW.Src m → ℝ) → ℝ := fun j ω => normalPdf x (NW.centre as[j].mu as[j].lam (L j) ω) (NW.precision (L j) ω) with hf
  have h1 : ∀ j, Integrable (fun ω : Fin as.length → NW.Src m → ℝ => f j (ω j)) (groupLaw as) ∧ ∫ ω, f j (ω j) ∂groupLaw as = expectedPdf as[j] (L j) x := by
    intro j
    refine ⟨(hmp j).integrable_comp_of_integrable (hpr j).1, ?_⟩
    have := integral_map (μ := groupLaw as) (φ := Function.eval j) (f := f j) (hmp j).measurable.aemeasurable (by rw [(hmp j).map_eq]; exact (hpr j).1.aestronglyMeasurable)
    rw [(hmp j).map_eq] at this
    exact this.symm
  have h2 : ∀ j, Integrable (fun p : (Fin as.length → ℝ) × (Fin as.length → NW.Src m → ℝ) => p.1 j * f j (p.2 j)) (Q.prod (groupLaw as)) := fun j => (hQ j).mul_prod (h1 j).1
  refine ⟨integrable_finsetSum _ fun j _ => h2 j, ?_⟩
  unfold mixturePdf
  rw [integral_finsetSum _ fun j _ => h2 j]
  refine Finset.sum_congr rfl fun j _ => ?_
  rw [← (h1 j).2]
  exact integral_prod_mul (fun w : Fin as.length → ℝ => w j) (fun ω : Fin as.length → NW.Src m → ℝ => f j (ω j))

theorem normFactor_one {a : VAtom ℝ 1} (ha : ProperAtom a) : normFactor a = 1 := by
  have hd := newPrec_posDef ha
  unfold normFactor
  rw [frob_one (by simpa using hd.diag_pos (i := 0)), div_self hd.det_pos.ne', Real.sqrt_one]

/-- **One coordinate**: `var_eap_density` is the expected density under every law of the weights with the means of the code.  What is missing: more coordinates (`C114_refuted`). -/
theorem C114_one_partial {s : VM V 1 Atom} (hs : s.varFitted = true) {as : List (VAtom ℝ 1)} (hth : s.varTheta = as.map some) (ha : ∀ a ∈ as, ProperAtom a)
    (L : Fin as.length → Matrix (Fin 1) (Fin 1) ℝ) (hL : ∀ j, FactorOf (L j) as[j]) (Q : Measure (Fin as.length → ℝ)) [IsProbabilityMeasure Q]
    (hQ : ∀ j, Integrable (fun w => w j) Q) (hw : ∀ j : Fin as.length, V.meanW s.gm.wst.1 s.vst j = .ok (fin (∫ w, w j ∂Q)))
    {y : Points ℝ} {xs : List (Fin 1 → ℝ)} (hy : points s y = .ok ⟨1, xs⟩) :
    varEapDensity realFun s y .none none = .ok (xs.map fun x => fin (∫ p, mixturePdf as L x p ∂(Q.prod (groupLaw as)))) := by
  rw [C114_value hs hth ha L hL (w := fun j => if h : j < as.length then ∫ w, w ⟨j, h⟩ ∂Q else 0) (fun j hj => by rw [hw ⟨j, hj⟩, dif_pos hj]) hy]
  congr 1
  apply List.map_congr_left
  intro x _
  rw [(C114_mixture ha L hL Q hQ x).2]
  congr 1
  refine Finset.sum_congr rfl fun j _ => ?_
  have h1 : normFactor as[j] = 1 := normFactor_one (ha _ (List.getElem_mem j.2))
  rw [h1, one_mul, dif_pos j.2]

/-- **Refuted from two coordinates on**: with the identity matrix as scale matrix and the degrees of freedom `m + c - 1 + c / lam`, which make the precision of the Student-t law `c` times
the identity, the values are wrong at every point whenever `√m ≠ c ^ (m - 1)`. -/
theorem C114_refuted (hm : 2 ≤ m) (mu x : Fin m → ℝ) {lam c w : ℝ} (hl : 0 < lam) (hc : 0 < c) (hne : √m ≠ c ^ (m - 1)) (hw : 0 < w) {s : VM V m Atom} (hs : s.varFitted = true)
    (hth : s.varTheta = [some { mu := mu, lam := lam, prec := (1 : Matrix (Fin m) (Fin m) ℝ), scale := (m : ℝ) - 1 + c * (1 + lam) / lam }])
    (hW : V.meanW s.gm.wst.1 s.vst 0 = .ok (fin w)) (L : Matrix (Fin m) (Fin m) ℝ)
    (hL : FactorOf L { mu := mu, lam := lam, prec := (1 : Matrix (Fin m) (Fin m) ℝ), scale := (m : ℝ) - 1 + c * (1 + lam) / lam }) :
    ∃ v, varEapDensity realFun s (.given m [x]) .none none = .ok [fin v] ∧
      v ≠ w * expectedPdf { mu := mu, lam := lam, prec := (1 : Matrix (Fin m) (Fin m) ℝ), scale := (m : ℝ) - 1 + c * (1 + lam) / lam } L x := by
  set a : VAtom ℝ m := { mu := mu, lam := lam, prec := (1 : Matrix (Fin m) (Fin m) ℝ), scale := (m : ℝ) - 1 + c * (1 + lam) / lam } with hadef
  have hcl : 0 < c * (1 + lam) / lam := by positivity
  have hp : ProperAtom a := ⟨hl, by show (m : ℝ) - 1 < (m : ℝ) - 1 + _; linarith, Matrix.PosDef.one⟩
  have hv := C114_value hs (as := [a]) hth (fun b hb => by rw [List.mem_singleton] at hb; rw [hb]; exact hp) (fun _ => L) (fun j => by
    have : j = ⟨0, by simp⟩ := Fin.ext (Nat.lt_one_iff.1 j.2)
    subst this
    exact hL) (w := fun _ => w) (fun j hj => by
    have : j = 0 := by simpa using hj
    subst this
    exact hW) (y := .given m [x]) (xs := [x]) rfl
  refine ⟨_, hv, ?_⟩
  have hsum : ∑ j : Fin [a].length, w * (normFactor [a][j] * expectedPdf [a][j] L x) = w * (normFactor a * expectedPdf a L x) := Fin.sum_univ_one _
  rw [hsum]
  intro h
  have h1 := mul_left_cancel₀ hw.ne' h
  have h2 : newPrec a = fun i j => if i = j then c else 0 := by
    funext i j
    unfold newPrec
    show (1 : Matrix (Fin m) (Fin m) ℝ) i j * ((m : ℝ) - 1 + c * (1 + lam) / lam + 1 - m) * lam / (1 + lam) = _
    have : (m : ℝ) - 1 + c * (1 + lam) / lam + 1 - m = c * (1 + lam) / lam := by ring
    rw [this, Matrix.one_apply]
    split_ifs
    · field_simp
    · ring
  have h3 := (mul_eq_right₀ (expectedPdf_pos hp hL x).ne').1 h1
  unfold normFactor at h3
  rw [h2, frob_scaled c hc, det_scaled, Real.sqrt_eq_one, div_eq_one_iff_eq (pow_pos hc m).ne'] at h3
  apply hne
  have : c ^ m = c * c ^ (m - 1) := by rw [← pow_succ']; congr 1; omega
  rw [this] at h3
  exact mul_left_cancel₀ hc.ne' h3

/-! ### The total mass -/

theorem expectedPdf_integral {a : VAtom ℝ m} (ha : ProperAtom a) {L : Matrix (Fin m) (Fin m) ℝ} (hL : FactorOf L a) :
    Integrable (expectedPdf a L) ∧ ∫ x, expectedPdf a L x = 1 := by
  have h1 : expectedPdf a L = fun x => studentsPdf x a.mu (newPrec a) (a.scale + 1 - (m : ℝ)) := funext fun x => (C114_predictive ha hL x).2
  obtain ⟨c, hc, h⟩ := newPrec_scale ha
  have hdet := factor_det ha.prec hL
  have hd : (√c • L).det ≠ 0 := by
    rw [det_smul]
    exact mul_ne_zero (pow_ne_zero _ (Real.sqrt_pos.2 hc).ne') hdet
  have e : ((√c • L) * (√c • L)ᵀ : Matrix (Fin m) (Fin m) ℝ) = newPrec a := by
    have : ((√c • L) * (√c • L)ᵀ : Matrix (Fin m) (Fin m) ℝ) = c • (L * Lᵀ) := by
      rw [transpose_smul, Matrix.smul_mul, Matrix.mul_smul, smul_smul, Real.mul_self_sqrt hc.le]
    rw [this, h, hL]
  have h2 := NW.students_integral hd a.mu (dof_pos ha)
  rw [e] at h2
  rw [h1]
  exact h2

/-- The value of `var_eap_density` at one given point; `0` if it raises or is not a number. -/
noncomputable def eapAt (s : VM V m Atom) (x : Fin m → ℝ) : ℝ := match varEapDensity realFun s (.given m [x]) .none none with
  | .ok [.fin v] => v
  | _ => 0

/-- **The total mass.** -/
theorem C114_total {s : VM V m Atom} (hs : s.varFitted = true) {as : List (VAtom ℝ m)} (hth : s.varTheta = as.map some) (ha : ∀ a ∈ as, ProperAtom a)
    {w : ℕ → ℝ} (hw : ∀ j < as.length, V.meanW s.gm.wst.1 s.vst j = .ok (fin (w j))) :
    Integrable (eapAt s) ∧ ∫ x, eapAt s x = ∑ j : Fin as.length, w j * normFactor as[j] := by
  choose L hL using fun j : Fin as.length => exists_factor (ha _ (List.getElem_mem j.2)).prec
  have h1 : eapAt s = fun x => ∑ j : Fin as.length, w j * (normFactor as[j] * expectedPdf as[j] (L j) x) := by
    funext x
    unfold eapAt
    rw [C114_value hs hth ha L hL hw (y := .given m [x]) (xs := [x]) rfl]
    rfl
  have h2 := fun j : Fin as.length => expectedPdf_integral (ha _ (List.getElem_mem j.2)) (hL j)
  have h3 : ∀ j : Fin as.length, Integrable fun x => w j * (normFactor as[j] * expectedPdf as[j] (L j) x) := fun j => ((h2 j).1.const_mul _).const_mul _
  rw [h1]
  refine ⟨integrable_finsetSum _ fun j _ => h3 j, ?_⟩
  rw [integral_finsetSum _ fun j _ => h3 j]
  refine Finset.sum_congr rfl fun j _ => ?_
  have h4 : ∫ x, expectedPdf as[j] (L j) x = 1 := (h2 j).2
  rw [integral_const_mul, integral_const_mul, h4, mul_one]

/-- **One coordinate**: the total mass is the sum of the mean weights.  What is missing: more coordinates, where every group carries the factor of `C114_total`. -/
theorem C114_total_one_partial {s : VM V 1 Atom} (hs : s.varFitted = true) {as : List (VAtom ℝ 1)} (hth : s.varTheta = as.map some) (ha : ∀ a ∈ as, ProperAtom a)
    {w : ℕ → ℝ} (hw : ∀ j < as.length, V.meanW s.gm.wst.1 s.vst j = .ok (fin (w j))) : ∫ x, eapAt s x = ∑ j ∈ Finset.range as.length, w j := by
  rw [(C114_total hs hth ha hw).2, Finset.sum_range]
  exact Finset.sum_congr rfl fun j _ => by
    have h1 : normFactor as[j] = 1 := normFactor_one (ha _ (List.getElem_mem j.2))
    rw [h1, mul_one]

/-! ### One coordinate of two -/

theorem students_at {mu : Fin 2 → ℝ} {c : ℝ} (hc : 0 < c) (y : ℝ) : studentsPdf ![mu 0, y] mu (fun i j => if i = j then c else 0) 1 =
    √c / π * studentsPdf (fun _ : Fin 1 => y) (fun _ => mu 1) (fun _ _ => 2 * c) 2 := by
  unfold studentsPdf
  have d1 : (Matrix.of fun i j : Fin 2 => if i = j then c else 0).det = c ^ 2 := det_scaled c
  have d2 : (Matrix.of fun _ _ : Fin 1 => 2 * c).det = 2 * c := Matrix.det_fin_one _
  have q1 : mahalanobis ![mu 0, y] mu (fun i j => if i = j then c else 0) = c * (y - mu 1) ^ 2 := by
    unfold mahalanobis
    simp [Fin.sum_univ_two]
    ring
  have q2 : mahalanobis (fun _ : Fin 1 => y) (fun _ => mu 1) (fun _ _ => 2 * c) = 2 * c * (y - mu 1) ^ 2 := by
    unfold mahalanobis
    simp
    ring
  rw [d1, d2, q1, q2, Real.sqrt_sq hc.le]
  have e1 : (1 + ((2 : ℕ) : ℝ)) / 2 = (2 + ((1 : ℕ) : ℝ)) / 2 := by norm_num
  have e2 : -(1 + ((2 : ℕ) : ℝ)) / 2 = -(2 + ((1 : ℕ) : ℝ)) / 2 := by norm_num
  have e3 : 1 + c * (y - mu 1) ^ 2 / 1 = 1 + 2 * c * (y - mu 1) ^ 2 / 2 := by ring
  rw [e1, e2, e3, show (2 : ℝ) / 2 = 1 by norm_num, Real.Gamma_one, Real.Gamma_one_half_eq]
  have e4 : (1 * π) ^ ((2 : ℕ) / 2 : ℝ) = π := by norm_num
  have e5 : (2 * π) ^ ((1 : ℕ) / 2 : ℝ) = √2 * √π := by rw [Nat.cast_one, ← Real.sqrt_eq_rpow, Real.sqrt_mul (by norm_num)]
  have e6 : √(2 * c) = √2 * √c := Real.sqrt_mul (by norm_num) c
  have n1 : √π ≠ 0 := (Real.sqrt_pos.2 Real.pi_pos).ne'
  have n2 : √(2 : ℝ) ≠ 0 := (Real.sqrt_pos.2 (by norm_num)).ne'
  rw [e4, e5, e6]
  generalize (1 + 2 * c * (y - mu 1) ^ 2 / 2) ^ (-(2 + ((1 : ℕ) : ℝ)) / 2) = R
  generalize Gamma ((2 + ((1 : ℕ) : ℝ)) / 2) = G
  field_simp
  rw [Real.sq_sqrt hc.le]
  ring

/-- The first marginal of the expected density of a group, at its centre. -/
theorem marginal_at {mu : Fin 2 → ℝ} {lam : ℝ} (hl : 0 < lam) {L : Matrix (Fin 2) (Fin 2) ℝ}
    (hL : FactorOf L { mu := mu, lam := lam, prec := (1 : Matrix (Fin 2) (Fin 2) ℝ), scale := 2 }) :
    ∫ y : ℝ, expectedPdf { mu := mu, lam := lam, prec := (1 : Matrix (Fin 2) (Fin 2) ℝ), scale := 2 } L ![mu 0, y] = √(lam / (1 + lam)) / π := by
  set a : VAtom ℝ 2 := { mu := mu, lam := lam, prec := (1 : Matrix (Fin 2) (Fin 2) ℝ), scale := 2 } with hadef
  have hp : ProperAtom a := ⟨hl, by show ((2 : ℕ) : ℝ) - 1 < 2; norm_num, Matrix.PosDef.one⟩
  set c := lam / (1 + lam) with hcdef
  have hc : 0 < c := by rw [hcdef]; positivity
  have h2 : newPrec a = fun i j => if i = j then c else 0 := by
    funext i j
    unfold newPrec
    show (1 : Matrix (Fin 2) (Fin 2) ℝ) i j * (2 + 1 - ((2 : ℕ) : ℝ)) * lam / (1 + lam) = _
    rw [Matrix.one_apply]
    split_ifs
    · rw [hcdef]; norm_num
    · ring
  have h3 : ∀ y : ℝ, expectedPdf a L ![mu 0, y] = √c / π * studentsPdf (fun _ : Fin 1 => y) (fun _ => mu 1) (fun _ _ => 2 * c) 2 := by
    intro y
    rw [(C114_predictive hp hL _).2, h2]
    have : a.scale + 1 - ((2 : ℕ) : ℝ) = 1 := by show (2 : ℝ) + 1 - ((2 : ℕ) : ℝ) = 1; norm_num
    rw [this]
    exact students_at hc y
  simp only [h3]
  rw [integral_const_mul]
  have h4 := (NW.students_integral (L := Matrix.of fun _ _ : Fin 1 => √(2 * c)) (by
    rw [Matrix.det_fin_one]
    exact (Real.sqrt_pos.2 (by positivity)).ne') (fun _ => mu 1) (n := 2) (by norm_num)).2
  have h5 : ((Matrix.of fun _ _ : Fin 1 => √(2 * c)) * (Matrix.of fun _ _ : Fin 1 => √(2 * c))ᵀ : Matrix (Fin 1) (Fin 1) ℝ) = fun _ _ => 2 * c := by
    ext i j
    rw [Matrix.mul_apply, Fin.sum_univ_one]
    exact Real.mul_self_sqrt (show 0 ≤ 2 * c by positivity)
  rw [h5] at h4
  have h6 := (volume_preserving_funUnique (Fin 1) ℝ).integral_comp' (g := fun y : ℝ => studentsPdf (fun _ : Fin 1 => y) (fun _ => mu 1) (fun _ _ => 2 * c) 2)
  have h7 : ∫ y : ℝ, studentsPdf (fun _ : Fin 1 => y) (fun _ => mu 1) (fun _ _ => 2 * c) 2 = 1 := by
    rw [← h6, ← h4]
    refine integral_congr_ae (Filter.Eventually.of_forall fun x => ?_)
    have : (fun _ : Fin 1 => MeasurableEquiv.funUnique (Fin 1) ℝ x) = x := by
      funext i
      rw [Subsingleton.elim i default]
      rfl
    simp only [this]
  rw [h7, mul_one]

/-- **Refuted: `dim`.**  With `dim=[0]` the value at the centre of a group with two coordinates is not the marginal of the expected density. -/
theorem C114_dim_refuted (mu : Fin 2 → ℝ) {lam w : ℝ} (hl : 0 < lam) (hw : 0 < w) {s : VM V 2 Atom} (hs : s.varFitted = true)
    (hth : s.varTheta = [some { mu := mu, lam := lam, prec := (1 : Matrix (Fin 2) (Fin 2) ℝ), scale := 2 }])
    (hW : V.meanW s.gm.wst.1 s.vst 0 = .ok (fin w)) {L : Matrix (Fin 2) (Fin 2) ℝ}
    (hL : FactorOf L { mu := mu, lam := lam, prec := (1 : Matrix (Fin 2) (Fin 2) ℝ), scale := 2 }) :
    ∃ v, varEapDensity realFun s (.given 1 [![mu 0]]) (.list [0]) none = .ok [fin v] ∧
      w * ∫ y : ℝ, expectedPdf { mu := mu, lam := lam, prec := (1 : Matrix (Fin 2) (Fin 2) ℝ), scale := 2 } L ![mu 0, y] < v := by
  have hd : dimMap 2 1 (.list [0]) = .ok (fun _ => 0) := by
    simp only [dimMap]
    rw [dif_pos (by simp), dif_pos (by simp)]
    congr 1
    funext i
    have : i = 0 := Subsingleton.elim _ _
    subst this
    rfl
  set c := lam / (1 + lam) with hcdef
  have hc : 0 < c := by rw [hcdef]; positivity
  have hv : varEapDensity realFun s (.given 1 [![mu 0]]) (.list [0]) none = .ok [fin (0 + studentsT realFun ![mu 0] (fun _ => mu 0) (fun _ _ => 2 * c) 2 * w)] := by
    unfold varEapDensity
    rw [if_neg (by rw [hs]; simp)]
    simp only [points, components, hth]
    rw [if_neg (by simp), hd]
    simp only [List.mapIdx_cons, List.mapIdx_nil, densityLoop, hW, List.map_cons, List.map_nil, List.zipWith_cons_cons, List.zipWith_nil_left]
    have e1 : (2 : ℝ) + 1 - ((1 : ℕ) : ℝ) = 2 := by norm_num
    have e2 : (fun _ _ : Fin 1 => (1 : Matrix (Fin 2) (Fin 2) ℝ) 0 0 * 2 * lam / (1 + lam)) = fun _ _ => 2 * c := by
      funext i j
      rw [Matrix.one_apply_eq, hcdef]; ring
    rw [e1]
    exact congrArg (fun P : Fin 1 → Fin 1 → ℝ => Except.ok [Fl.fin 0 + Fl.scale (studentsT realFun ![mu 0] (fun _ => mu 0) P 2) (fin w)]) e2
  refine ⟨_, hv, ?_⟩
  rw [marginal_at hl hL, zero_add, (C69_one_partial ![mu 0] (fun _ => mu 0) (P := fun _ _ => 2 * c) (by positivity) (nu := 2) (by norm_num)).2.1, mul_comm w]
  refine mul_lt_mul_of_pos_right ?_ hw
  unfold studentsPdf
  have d2 : (Matrix.of fun _ _ : Fin 1 => 2 * c).det = 2 * c := Matrix.det_fin_one _
  have q2 : mahalanobis ![mu 0] (fun _ => mu 0) (fun _ _ : Fin 1 => 2 * c) = 0 := by simp [mahalanobis]
  rw [d2, q2, show (2 : ℝ) / 2 = 1 by norm_num, Real.Gamma_one, zero_div, add_zero, Real.one_rpow, mul_one, div_one, Nat.cast_one, ← Real.sqrt_eq_rpow,
    Real.sqrt_mul (by norm_num), Real.sqrt_mul (by norm_num)]
  have g : Gamma ((2 + 1 : ℝ) / 2) = √π / 2 := by
    rw [show ((2 + 1 : ℝ) / 2) = 1 / 2 + 1 by norm_num, Real.Gamma_add_one (by norm_num), Real.Gamma_one_half_eq]
    ring
  rw [g]
  have n1 : √π ≠ 0 := (Real.sqrt_pos.2 Real.pi_pos).ne'
  have n2 : √(2 : ℝ) ≠ 0 := (Real.sqrt_pos.2 (by norm_num)).ne'
  have e : √π / 2 * (√2 * √c / (√2 * √π)) = √c / 2 := by field_simp
  rw [e]
  exact div_lt_div_of_pos_left (Real.sqrt_pos.2 hc) (by norm_num) (by linarith [Real.pi_gt_three])

/-! ### After a fit -/

variable {ω : Oracle ℝ} {W : World ℝ m Atom} {I : C.State → Prop}

/-- The weights were fitted to positive responsibilities. -/
def FittedToProbs (I : C.State → Prop) (s : VM V m Atom) : Prop :=
  ∃ (c0 : C.State) (q : List (List ℝ)), I c0 ∧ q.length = s.varTheta.length ∧ (∀ r ∈ q, ∀ x ∈ r, 0 < x) ∧ V.fit c0 (q.map fun r => r.map fin) = .ok (s.gm.wst.1, s.vst) ∧
    ∀ r ∈ q, r ≠ []

theorem updateVarW_probs {k : ℕ} {s : VM V m Atom × ℕ} (hK : s.1.varK = some (k : ℤ)) (hI : I s.1.gm.wst.1) (hp : Probs k s.1) (hy : s.1.gm.y ≠ []) :
    wp ω updateVarW (fun _ t => ∃ (c0 : C.State) (q : List (List ℝ)), I c0 ∧ q.length = k ∧ (∀ r ∈ q, ∀ x ∈ r, 0 < x) ∧
      V.fit c0 (q.map fun r => r.map fin) = .ok (t.1.gm.wst.1, t.1.vst) ∧ ∀ r ∈ q, r ≠ []) (fun _ _ => True) s := by
  obtain ⟨q, hq, hl, hpos⟩ := rows_of_columns hK hp.2
  unfold updateVarW fitWeights
  simp only [wp_bind, wp_self, wp_lift, wp_assign]
  refine ⟨?_, fun _ _ => by trivial⟩
  intro r hr
  rw [hq] at hr
  exact ⟨_, q, hI, hl, fun r hr => (hpos r hr).2, hr, fun r hr h0 => by
    have := (hpos r hr).1
    rw [h0, hp.1] at this
    exact hy (List.length_eq_zero_iff.1 this.symm)⟩

theorem maximize_probs {F : MathFun ℝ} (hF : Sane F) (he : 0 < W.eps) (hV : Regular V I) (hm : 0 < m) {k : ℕ} {s : VM V m Atom × ℕ} (h : Ready I k s.1) (hy : s.1.gm.y ≠ []) :
    wp ω (maximize F W) (fun _ t => FittedToProbs I t.1) (fun _ _ => True) s := by
  unfold maximize
  rw [wp_bind]
  refine wp_mono (updateVarD_ready hF he h) ?_ (fun _ _ _ => trivial)
  rintro _ t ⟨hr, hd, hg⟩
  rw [wp_bind]
  refine wp_mono (wp_and (updateVarW_probs hr.varK hr.inv.1 hd (by rw [hg]; exact hy)) (updateVarW_ready hV h.pos hr.varK hr.inv.1 hd)) ?_ (fun _ _ _ => trivial)
  rintro _ t2 ⟨⟨c0, q, h1, h2, h3, h4, h8⟩, hw, hk, ht, hdd, hy2⟩
  have hd2 : Probs k t2.1 := by
    unfold Probs at hd ⊢
    rw [hdd, hy2]; exact hd
  have hyy : t2.1.gm.y ≠ [] := by rw [hy2, hg]; exact hy
  refine wp_mono (updateVarTheta_ready hm (hk.trans hr.varK) hyy hd2) ?_ (fun _ _ _ => trivial)
  rintro _ t3 ⟨h5, _, _, h6, h7⟩
  exact ⟨c0, q, h1, h2.trans h5.1.symm, h3, by rw [h6, h7]; exact h4, h8⟩

theorem Iter.probs {F : MathFun ℝ} (hF : Sane F) (he : 0 < W.eps) (hV : Regular V I) (hm : 0 < m) {k : ℕ} {s u : VM V m Atom × ℕ} {es : List (Fl ℝ)}
    (h : Iter F W ω s es u) (hr : Ready I k s.1) (hy : s.1.gm.y ≠ []) : es ≠ [] ∨ FittedToProbs I s.1 → FittedToProbs I u.1 := by
  induction h with
  | nil s => exact fun h => h.resolve_left (fun h => h rfl)
  | cons hmax hel rest ih =>
    obtain ⟨h1, h2, h3⟩ := wp_of_ok hmax (maximize_ready (ω := ω) hF he hV hm hr hy)
    have h4 := wp_of_ok hmax (maximize_probs (ω := ω) hF he hV hm hr hy)
    exact fun _ => ih h1 (by rw [h3]; exact hy) (.inr h4)

/-- **A whole fit** (random start, at least one iteration): the groups are proper and the weights fitted to positive responsibilities. -/
theorem C114_fit {F : VWorld ℝ m} (hF : Sane F.toMathFun) (he : 0 < W.eps) (hV : Regular V I) (hm : 0 < m) {ys : List (Fin m → ℝ)} (hy : ys ≠ []) (nG : Option ℤ) (tol : ℝ)
    {s u : VM V m Atom × ℕ} (hI : I s.1.gm.wst.1) (hT : 0 < s.1.gm.totalIter) (hp : ProperPrior (GM.prior (begun ys s.1).gm))
    (h : fitVariational F W (.rows ys) nG false (.fin tol) .random ω s = (.ok (), u)) :
    u.1.varFitted = true ∧ (∃ as : List (VAtom ℝ m), u.1.varTheta = as.map some ∧ ∀ a ∈ as, ProperAtom a) ∧ FittedToProbs I u.1 := by
  have hu : u.1.varFitted = true := by
    obtain ⟨_, u', _, _, _, hu, _⟩ := C53_flag h
    rw [hu]
  have hpr := C109_fit hF he hV hm hy nG tol hI hT hp h
  refine ⟨hu, ?_, ?_⟩
  · refine ⟨u.1.varTheta.filterMap id, ?_, ?_⟩
    · have : ∀ l : List (Option (VAtom ℝ m)), (∀ a ∈ l, ∃ b, a = some b ∧ ProperAtom b) → l = (l.filterMap id).map some := by
        intro l
        induction l with
        | nil => intro _; rfl
        | cons a l ih =>
          intro h
          obtain ⟨b, rfl, _⟩ := h a (by simp)
          show some b :: l = some b :: (l.filterMap id).map some
          rw [← ih fun a ha => h a (by simp [ha])]
      exact this _ hpr
    · intro a ha
      obtain ⟨o, ho, h1⟩ := List.mem_filterMap.1 ha
      obtain ⟨b, rfl, hb⟩ := hpr o ho
      cases h1
      exact hb
  · refine wp_of_ok h (fitVariational_wp (E := fun _ _ => True) (Q := fun u => FittedToProbs I u.1)
      (fun t => (∃ k : ℕ, Ready I k t.1) ∧ t.1.gm.y = ys ∧ 0 < t.1.gm.totalIter) (fun h => by cases h) ?_ (fun _ _ => trivial) ?_)
    · intro _ k hk
      refine wp_mono (wp_and (initVar_random hm hV F k (begun ys s.1, s.2) hI) (initVar_prior F k)) ?_ (fun _ _ h => trivial)
      rintro _ t ⟨⟨h1, h2, h3, h4⟩, h5, h6⟩
      exact ⟨⟨k.toNat, h2⟩, h4, by rw [h6]; exact hT⟩
    · rintro t ⟨⟨k, h2⟩, h4, hT⟩
      refine wp_mono (varLoop_spec (.fin tol) _ _ _ _ t (by omega)) ?_ (fun _ _ _ => trivial)
      rintro r u ⟨es, h3, h5, _, _, _, _, h6⟩
      have hne : es ≠ [] := by
        rintro rfl
        have := h6 (by simpa using hT)
        simp [changes, Fl.lt] at this
      have hu : FittedToProbs I u.1 := Iter.probs hF he hV hm h3 h2 (by rw [h4]; exact hy) (.inl hne)
      exact hu

/-! ### The Dirichlet process -/

theorem regular_DP_pos {F : MathFun ℝ} : Regular (varDP F) (fun c => 0 < (show DP ℝ from c).alpha) := by
  intro c q c' v hc hq hf
  refine ⟨?_, (regular_DP c q c' v trivial hq hf).2⟩
  simp only [varDP, Fl.matrix_fin] at hf
  cases hf
  exact hc

/-- The law of the weights, indexed by the groups. -/
noncomputable def weightLaw {n : ℕ} (ps : List (ℝ × ℝ)) (h : n = ps.length) : Measure (Fin n → ℝ) := (truncatedLaw ps).map fun w j => w (Fin.cast h j)

/-- **After a fit of univariate data with Dirichlet process weights** `var_eap_density` is, at the data and at all given points, the expected density under the fitted law: the truncated
stick-breaking law of the weights and the normal-Wishart laws of the groups.  What is missing: more coordinates (`C114_refuted`). -/
theorem C114_dirichletProcess_partial {G : MathFun ℝ} {F : VWorld ℝ 1} (hF : Sane F.toMathFun) {W : World ℝ 1 Atom} (he : 0 < W.eps) {ys : List (Fin 1 → ℝ)} (hy : ys ≠ []) (nG : Option ℤ)
    (tol : ℝ) {s u : VM (varDP G) 1 Atom × ℕ} (hI : 0 < (show DP ℝ from s.1.gm.wst.1).alpha) (hT : 0 < s.1.gm.totalIter) (hp : ProperPrior (GM.prior (begun ys s.1).gm))
    (h : fitVariational F W (.rows ys) nG false (.fin tol) .random ω s = (.ok (), u)) :
    ∃ (as : List (VAtom ℝ 1)) (L : Fin as.length → Matrix (Fin 1) (Fin 1) ℝ) (ps : List (ℝ × ℝ)) (hl : as.length = ps.length), u.1.varTheta = as.map some ∧ (∀ j, FactorOf (L j) as[j]) ∧
      PosParams ps ∧ (∃ v : Var ℝ, u.1.vst = VFit.fitted v ∧ v.params = ps) ∧ IsProbabilityMeasure (weightLaw ps hl) ∧ IsProbabilityMeasure (groupLaw as) ∧
      (∀ (y : Points ℝ) (xs : List (Fin 1 → ℝ)), points u.1 y = .ok ⟨1, xs⟩ →
        varEapDensity realFun u.1 y .none none = .ok (xs.map fun x => fin (∫ p, mixturePdf as L x p ∂((weightLaw ps hl).prod (groupLaw as))))) ∧
      ∫ x, eapAt u.1 x = 1 := by
  obtain ⟨h1, ⟨as, h2, h3⟩, c0, q, hc0, hq1, hq2, hq3, _⟩ := C114_fit hF he regular_DP_pos one_pos hy nG tol hI hT hp h
  have hq : NonNegMatrix q := fun r hr x hx => (hq2 r hr x hx).le
  set al := (show DP ℝ from c0).alpha with hal
  have hv : u.1.vst = VFit.fitted (DP.fitVariational al q) := by
    simp only [varDP, Fl.matrix_fin] at hq3
    injection hq3 with hq3
    exact (Prod.mk.inj hq3).2.symm
  have hlen : as.length = (DP.fitVariational al q).params.length := by rw [DP.fit_length, hq1, h2, List.length_map]
  have hps : PosParams (DP.fitVariational al q).params := DP.fit_pos hc0 hq
  choose L hL using fun j : Fin as.length => exists_factor (h3 _ (List.getElem_mem j.2)).prec
  have hsp := truncatedSticks_prob hps
  have hlaw : IsProbabilityMeasure (truncatedLaw (DP.fitVariational al q).params) := Measure.isProbabilityMeasure_map measurable_breakStick.aemeasurable
  have hcm : Measurable fun (w : Fin (DP.fitVariational al q).params.length → ℝ) (j : Fin as.length) => w (Fin.cast hlen j) := by fun_prop
  have hW : IsProbabilityMeasure (weightLaw (DP.fitVariational al q).params hlen) := Measure.isProbabilityMeasure_map hcm.aemeasurable
  have hG : IsProbabilityMeasure (groupLaw as) := by
    have hp : ∀ j : Fin as.length, IsProbabilityMeasure (NW.joint 1 as[j].scale) := fun j => NW.joint_prob (h3 _ (List.getElem_mem j.2)).scale
    unfold groupLaw; infer_instance
  have hmean : ∀ j : Fin as.length, ∫ w, w j ∂weightLaw (DP.fitVariational al q).params hlen = ∫ w, w (Fin.cast hlen j) ∂truncatedLaw (DP.fitVariational al q).params := by
    intro j
    unfold weightLaw
    rw [integral_map hcm.aemeasurable (measurable_pi_apply j).aestronglyMeasurable]
  have hmw : ∀ j : Fin as.length, (varDP G).meanW u.1.gm.wst.1 u.1.vst j = .ok (fin (∫ w, w j ∂weightLaw (DP.fitVariational al q).params hlen)) := by
    intro j
    rw [hv, hmean j]
    show flOk (DP.meanWj (DP.fitVariational al q) j) = _
    have := C87_dirichletProcess hc0 hq (Fin.cast hlen j)
    rw [show ((Fin.cast hlen j : Fin _) : ℕ) = j from rfl] at this
    rw [this]
    rfl
  have hint : ∀ j : Fin as.length, Integrable (fun w => w j) (weightLaw (DP.fitVariational al q).params hlen) := by
    intro j
    unfold weightLaw
    rw [integrable_map_measure (measurable_pi_apply j).aestronglyMeasurable hcm.aemeasurable]
    by_contra hni
    have h0 := truncatedLaw_mean hps (Fin.cast hlen j)
    have h1 : ∫ w, w (Fin.cast hlen j) ∂truncatedLaw (DP.fitVariational al q).params = 0 := integral_undef hni
    rw [h1] at h0
    refine absurd h0 (ne_of_lt (mul_pos ?_ (List.prod_pos fun x hx => ?_)))
    · split
      · exact one_pos
      · have := hps.get (Fin.cast hlen j)
        exact div_pos this.1 (add_pos this.1 this.2)
    · obtain ⟨p, hp, rfl⟩ := List.mem_map.1 hx
      have := hps p (List.mem_of_mem_take hp)
      exact div_pos this.2 (add_pos this.1 this.2)
  refine ⟨as, L, (DP.fitVariational al q).params, hlen, h2, hL, hps, ⟨_, hv, rfl⟩, hW, hG, fun y xs hyx => C114_one_partial h1 h2 h3 L hL _ hint hmw hyx, ?_⟩
  obtain ⟨k, _, _, hready, _⟩ := C52_random hF he regular_DP_pos one_pos hy nG (.fin tol) hI h
  have hne : q ≠ [] := by
    rintro rfl
    have h0 := hready.pos
    rw [← hready.theta, ← hq1] at h0
    simp at h0
  obtain ⟨w, hw1, hw2, hw3, _⟩ := C34_probability hc0 hq hne
  have hwl : w.length = as.length := by rw [hw1, hq1, h2, List.length_map]
  rw [C114_total_one_partial h1 h2 h3 (w := fun j => (w[j]?).getD 0) (fun j hj => by
    rw [hv]
    show flOk (DP.meanWj (DP.fitVariational al q) j) = _
    have hj' : j < w.length := by rw [hwl]; exact hj
    rw [hw3 j _ (List.getElem?_eq_getElem hj'), List.getElem?_eq_getElem hj']
    rfl)]
  rw [← hwl, ← hw2.2, Finset.sum_range]
  have : ∀ j : Fin w.length, (w[(j : ℕ)]?).getD 0 = w[j] := fun j => by rw [List.getElem?_eq_getElem j.2]; rfl
  simp only [this]
  exact Fin.sum_univ_getElem w

/-! ### Concrete cases -/

/-- A fitted object with one group and equal weights. -/
noncomputable def oneGroup (a : VAtom ℝ m) : VM (varEqual realFun) m ℝ :=
  { gm := { totalIter := 1, burnIn := 0, subsample := 1, nAttr := some 1, muPrior := none, lam := 1, psiPrior := none, nuPrior := none, y := [], d := [],
            theta := [], thetaDefault := false, u := [], affinity := [], mapParams := none, mapLL := ⊥, saved := [], nGroups := [], nAtoms := [],
            totalSaved := 0, gibbsFitted := false, wst := ((Equal.init 1 : Equal ℝ), 0) }
    vst := (varEqual realFun).fresh, varK := some 1, varTheta := [some a], varD := [], varFitted := true, varConverged := true }

theorem oneGroup_mean (a : VAtom ℝ m) : (varEqual realFun).meanW (oneGroup a).gm.wst.1 (oneGroup a).vst 0 = .ok (fin 1) := by
  show Except.ok (fin (Equal.meanWj (1 : ℤ).toNat 0)) = _
  simp [Equal.meanWj]

example : FactorOf 1 ({ mu := ![1, 2], lam := 3, prec := (1 : Matrix (Fin 2) (Fin 2) ℝ), scale := 2 } : VAtom ℝ 2) := by
  show (1 : Matrix (Fin 2) (Fin 2) ℝ) = _
  rw [transpose_one, mul_one]

/-- `C114_refuted` and `C114_dim_refuted` apply to it. -/
example : ∃ v, varEapDensity realFun (oneGroup { mu := ![1, 2], lam := 1, prec := (1 : Matrix (Fin 2) (Fin 2) ℝ), scale := ((2 : ℕ) : ℝ) - 1 + 1 * (1 + 1) / 1 }) (.given 2 [![0, 0]]) .none none = .ok [fin v] ∧
    v ≠ 1 * expectedPdf { mu := ![1, 2], lam := 1, prec := (1 : Matrix (Fin 2) (Fin 2) ℝ), scale := ((2 : ℕ) : ℝ) - 1 + 1 * (1 + 1) / 1 } 1 ![0, 0] :=
  C114_refuted le_rfl ![1, 2] ![0, 0] one_pos one_pos (by
    rw [one_pow, Ne, Real.sqrt_eq_one]; norm_num) one_pos rfl rfl (oneGroup_mean _) 1 (by
    show (1 : Matrix (Fin 2) (Fin 2) ℝ) = _
    rw [transpose_one, mul_one])

example : ∃ v, varEapDensity realFun (oneGroup { mu := ![1, 2], lam := 1, prec := (1 : Matrix (Fin 2) (Fin 2) ℝ), scale := 2 }) (.given 1 [![1]]) (.list [0]) none = .ok [fin v] ∧
    1 * ∫ y : ℝ, expectedPdf { mu := ![1, 2], lam := 1, prec := (1 : Matrix (Fin 2) (Fin 2) ℝ), scale := 2 } 1 ![1, y] < v :=
  C114_dim_refuted ![1, 2] one_pos one_pos rfl rfl (oneGroup_mean _) (by
    show (1 : Matrix (Fin 2) (Fin 2) ℝ) = _
    rw [transpose_one, mul_one])

/-- The univariate theorems apply to a group with one coordinate. -/
example : ∫ x, eapAt (oneGroup { mu := ![1], lam := 1, prec := (1 : Matrix (Fin 1) (Fin 1) ℝ), scale := 2 }) x = 1 := by
  rw [C114_total_one_partial (as := [{ mu := ![1], lam := 1, prec := (1 : Matrix (Fin 1) (Fin 1) ℝ), scale := 2 }]) rfl rfl (fun a ha => by
    rw [List.mem_singleton] at ha
    subst ha
    exact ⟨one_pos, by show ((1 : ℕ) : ℝ) - 1 < 2; norm_num, Matrix.PosDef.one⟩) (w := fun _ => 1) (fun j hj => by
    have : j = 0 := Nat.lt_one_iff.1 hj
    subst this
    exact oneGroup_mean _)]
  simp
end Verif.Mix.VM
