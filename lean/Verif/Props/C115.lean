import Verif.Lemmas.WishartMode
import Verif.Lemmas.BetaMode
import Verif.Props.C40
import Verif.Props.C110
import Verif.Props.C114

/-!
# C115: `var_map_density` is the density at the mode of the fitted law

* `C115_mode`: the joint density of mean and precision of a group has exactly one maximum, which is the pair used by the code, whenever the degrees of freedom exceed the dimension;
  `C115_no_mode`: otherwise there is none.
* `C115_stick`, `C115_stick_both`, `C115_stick_uniform`: the modes of the sticks used by the code are the modes of the Beta densities.
* `C115_value`: the returned values are the densities at the modes times `sqrt (‖Λ‖ / det Λ)`; `C115_one_partial`: with one coordinate they are the densities.
* `C115_total`: the integral over the whole space.
* `C115_fit`: after a fit the degrees of freedom of all groups exceed those of the prior, so the maximum exists with the default prior.
* `C115_dirichletProcess`: a whole fit with Dirichlet process weights, in every dimension.
* `C115_refuted`, `C115_raises_refuted`, `C115_dirichlet_refuted`: wrong values from two coordinates on; `ValueError` ("multimodal") for a Beta density with one mode; mode weights of
  `DirichletDistribution` that do not sum to one.
-/

set_option linter.unusedSectionVars false

namespace Verif.Mix.VM
open MeasureTheory Real Matrix
open Verif.Fl (fin)
variable {m : ℕ}

/-! ### The groups -/

/-- The joint density of mean and precision of a group. -/
noncomputable def jointPdf (a : VAtom ℝ m) (mu : Fin m → ℝ) (Λ : Matrix (Fin m) (Fin m) ℝ) : ℝ := normalWishartPdf a.mu a.lam (Matrix.of a.prec) a.scale mu Λ

/-- A maximum of the joint density over all means and positive definite precisions. -/
def IsJointMode (a : VAtom ℝ m) (mu : Fin m → ℝ) (Λ : Matrix (Fin m) (Fin m) ℝ) : Prop :=
  Λ.PosDef ∧ ∀ mu' (Λ' : Matrix (Fin m) (Fin m) ℝ), Λ'.PosDef → jointPdf a mu' Λ' ≤ jointPdf a mu Λ

theorem jointPdf_pos {a : VAtom ℝ m} (ha : ProperAtom a) (mu : Fin m → ℝ) {Λ : Matrix (Fin m) (Fin m) ℝ} (hΛ : Λ.PosDef) : 0 < jointPdf a mu Λ := by
  unfold jointPdf normalWishartPdf
  have hd2 : 0 < (a.lam • Λ).det := by
    rw [det_smul]
    exact mul_pos (pow_pos ha.lam _) hΛ.det_pos
  refine mul_pos (normalPdf_pos _ _ hd2) ?_
  unfold wishartPdf
  exact div_pos (mul_pos (Real.rpow_pos_of_pos hΛ.det_pos _) (Real.exp_pos _))
    (mul_pos (mul_pos (Real.rpow_pos_of_pos (by norm_num) _) (Real.rpow_pos_of_pos ha.prec.det_pos _)) (multiGamma_pos ha.scale))

/-- The logarithm of the joint density. -/
theorem log_jointPdf {a : VAtom ℝ m} (ha : ProperAtom a) (mu : Fin m → ℝ) {Λ : Matrix (Fin m) (Fin m) ℝ} (hΛ : Λ.PosDef) :
    log (jointPdf a mu Λ) = (a.scale - m) / 2 * log Λ.det - ((Matrix.of a.prec)⁻¹ * Λ).trace / 2 - a.lam * mahalanobis a.mu mu Λ / 2
      + (m * log (a.lam / (2 * π)) / 2 - wishartConst (Matrix.of a.prec) a.scale) := by
  have hd := hΛ.det_pos
  have hl := ha.lam
  have hd2 : 0 < (a.lam • Λ).det := by
    rw [det_smul]
    exact mul_pos (pow_pos hl _) hd
  have hwp : 0 < wishartPdf (Matrix.of a.prec) a.scale Λ := by
    unfold wishartPdf
    exact div_pos (mul_pos (Real.rpow_pos_of_pos hd _) (Real.exp_pos _))
      (mul_pos (mul_pos (Real.rpow_pos_of_pos (by norm_num) _) (Real.rpow_pos_of_pos ha.prec.det_pos _)) (multiGamma_pos ha.scale))
  have hnp : 0 < normalPdf mu a.mu (a.lam • Λ) := normalPdf_pos _ _ hd2
  unfold jointPdf normalWishartPdf
  rw [Real.log_mul hnp.ne' hwp.ne', log_normalPdf _ _ hd2, log_wishartPdf ha.prec.det_pos hd ha.scale, mahalanobis_swap, det_smul, Fintype.card_fin,
    Real.log_mul (pow_pos hl _).ne' hd.ne', Real.log_pow, Real.log_div hl.ne' (by positivity)]
  ring

theorem mahalanobis_dot (x mu : Fin m → ℝ) (Λ : Matrix (Fin m) (Fin m) ℝ) : mahalanobis x mu Λ = star (x - mu) ⬝ᵥ Λ *ᵥ (x - mu) := by
  unfold mahalanobis
  simp only [dotProduct, mulVec, Pi.sub_apply, Pi.star_apply, star_trivial, Finset.mul_sum, mul_assoc]

theorem mahalanobis_nonneg (x mu : Fin m → ℝ) {Λ : Matrix (Fin m) (Fin m) ℝ} (h : Λ.PosDef) : 0 ≤ mahalanobis x mu Λ := by
  rw [mahalanobis_dot]
  exact h.posSemidef.dotProduct_mulVec_nonneg _

theorem mahalanobis_pos {x mu : Fin m → ℝ} (hne : x ≠ mu) {Λ : Matrix (Fin m) (Fin m) ℝ} (h : Λ.PosDef) : 0 < mahalanobis x mu Λ := by
  rw [mahalanobis_dot]
  exact h.dotProduct_mulVec_pos (sub_ne_zero.2 hne)

theorem mahalanobis_self' (x : Fin m → ℝ) (Λ : Matrix (Fin m) (Fin m) ℝ) : mahalanobis x x Λ = 0 := by
  unfold mahalanobis
  simp

/-- The precision used by `var_map_density`. -/
def mapPrec (a : VAtom ℝ m) : Matrix (Fin m) (Fin m) ℝ := (a.scale - m) • Matrix.of a.prec

theorem mapPrec_posDef {a : VAtom ℝ m} (ha : ProperAtom a) (hs : (m : ℝ) < a.scale) : (mapPrec a).PosDef := ha.prec.smul (sub_pos.2 hs)

theorem jointPdf_lt {a : VAtom ℝ m} (ha : ProperAtom a) (hs : (m : ℝ) < a.scale) {mu : Fin m → ℝ} {Λ : Matrix (Fin m) (Fin m) ℝ} (hΛ : Λ.PosDef) (hne : ¬ (mu = a.mu ∧ Λ = mapPrec a)) :
    jointPdf a mu Λ < jointPdf a a.mu (mapPrec a) := by
  have hM := mapPrec_posDef ha hs
  have hc : 0 < a.scale - m := sub_pos.2 hs
  refine (Real.log_lt_log_iff (jointPdf_pos ha _ hΛ) (jointPdf_pos ha _ hM)).1 ?_
  rw [log_jointPdf ha _ hΛ, log_jointPdf ha _ hM, mahalanobis_self']
  obtain ⟨L, hL⟩ := exists_factor ha.prec
  have hdet := factor_det ha.prec hL
  have hag := NW.log_det_against hdet hΛ hc
  rw [← show Matrix.of a.prec = L * Lᵀ from hL] at hag
  have hu : IsUnit (Matrix.of a.prec : Matrix (Fin m) (Fin m) ℝ).det := ha.prec.det_pos.ne'.isUnit
  have e1 : log (mapPrec a).det = m * log (a.scale - m) + log (Matrix.of a.prec : Matrix (Fin m) (Fin m) ℝ).det := by
    unfold mapPrec
    rw [det_smul, Fintype.card_fin, Real.log_mul (pow_pos hc _).ne' ha.prec.det_pos.ne', Real.log_pow]
  have e2 : ((Matrix.of a.prec)⁻¹ * mapPrec a).trace = (a.scale - m) * m := by
    unfold mapPrec
    rw [Matrix.mul_smul, nonsing_inv_mul _ hu, trace_smul, trace_one, Fintype.card_fin]
    rfl
  rw [e1, e2]
  set T := ((Matrix.of a.prec)⁻¹ * Λ).trace with hT
  have hTc : (a.scale - m) * (T / (a.scale - m)) = T := mul_div_cancel₀ _ hc.ne'
  have hl := ha.lam
  by_cases hmu : mu = a.mu
  · have hlt : log Λ.det < log (Matrix.of a.prec : Matrix (Fin m) (Fin m) ℝ).det + T / (a.scale - m) - m + m * log (a.scale - m) :=
      lt_of_le_of_ne hag.1 (fun h => hne ⟨hmu, hag.2 h⟩)
    have h1 := mul_lt_mul_of_pos_left hlt hc
    have h2 := mahalanobis_nonneg a.mu mu hΛ
    have h3 : 0 ≤ a.lam * mahalanobis a.mu mu Λ := mul_nonneg hl.le h2
    nlinarith [h1, h3, hTc]
  · have h1 := mul_le_mul_of_nonneg_left hag.1 hc.le
    have h2 := mahalanobis_pos (x := a.mu) (Ne.symm hmu) hΛ
    have h3 : 0 < a.lam * mahalanobis a.mu mu Λ := mul_pos hl h2
    nlinarith [h1, h3, hTc]

/-- **The joint mode of a group**: more degrees of freedom than coordinates. -/
theorem C115_mode {a : VAtom ℝ m} (ha : ProperAtom a) (hs : (m : ℝ) < a.scale) (mu : Fin m → ℝ) (Λ : Matrix (Fin m) (Fin m) ℝ) :
    IsJointMode a mu Λ ↔ mu = a.mu ∧ Λ = mapPrec a := by
  constructor
  · rintro ⟨h1, h2⟩
    by_contra hne
    exact absurd (h2 a.mu (mapPrec a) (mapPrec_posDef ha hs)) (not_le.2 (jointPdf_lt ha hs h1 hne))
  · rintro ⟨rfl, rfl⟩
    refine ⟨mapPrec_posDef ha hs, fun mu' Λ' h => ?_⟩
    by_cases hne : mu' = a.mu ∧ Λ' = mapPrec a
    · rw [hne.1, hne.2]
    · exact (jointPdf_lt ha hs h hne).le

/-- **No mode** with at most as many degrees of freedom as coordinates: half the precision is always better. -/
theorem C115_no_mode (hm : 0 < m) {a : VAtom ℝ m} (ha : ProperAtom a) (hs : a.scale ≤ m) (mu : Fin m → ℝ) (Λ : Matrix (Fin m) (Fin m) ℝ) : ¬ IsJointMode a mu Λ := by
  rintro ⟨h1, h2⟩
  have hh : ((1 / 2 : ℝ) • Λ).PosDef := h1.smul (by norm_num)
  refine absurd (h2 mu _ hh) (not_le.2 ?_)
  refine (Real.log_lt_log_iff (jointPdf_pos ha _ h1) (jointPdf_pos ha _ hh)).1 ?_
  rw [log_jointPdf ha _ h1, log_jointPdf ha _ hh]
  have e1 : log ((1 / 2 : ℝ) • Λ).det = log Λ.det - m * log 2 := by
    rw [det_smul, Fintype.card_fin, Real.log_mul (by positivity) h1.det_pos.ne', Real.log_pow, one_div, Real.log_inv]
    ring
  have e2 : ((Matrix.of a.prec)⁻¹ * ((1 / 2 : ℝ) • Λ)).trace = ((Matrix.of a.prec)⁻¹ * Λ).trace / 2 := by
    rw [Matrix.mul_smul, trace_smul, smul_eq_mul]
    ring
  have e3 : mahalanobis a.mu mu ((1 / 2 : ℝ) • Λ) = mahalanobis a.mu mu Λ / 2 := by
    rw [mahalanobis_dot, mahalanobis_dot, smul_mulVec, dotProduct_smul, smul_eq_mul]
    ring
  rw [e1, e2, e3]
  have ht : 0 < ((Matrix.of a.prec)⁻¹ * Λ).trace := by
    obtain ⟨L, hL⟩ := exists_factor ha.prec
    have hw := NW.whiten_posDef (factor_det ha.prec hL) h1
    rw [show Matrix.of a.prec = L * Lᵀ from hL, ← NW.whiten_trace]
    have : Nonempty (Fin m) := ⟨⟨0, hm⟩⟩
    exact hw.trace_pos
  have hq := mul_nonneg ha.lam.le (mahalanobis_nonneg a.mu mu h1)
  have hl2 : 0 ≤ m * log 2 := mul_nonneg (Nat.cast_nonneg _) (Real.log_nonneg (by norm_num))
  nlinarith [mul_nonneg (sub_nonneg.2 hs) hl2]

/-! ### The sticks -/

/-- **The modes of the sticks**: unless both parameters are at most one, the number used by the code is the mode of the Beta density. -/
theorem C115_stick {p : ℝ × ℝ} (h1 : 0 < p.1) (h2 : 0 < p.2) (hn : ¬ Multimodal p) (v : ℝ) : Stick.IsMode (ProbabilityTheory.betaPDFReal p.1 p.2) v ↔ IsBetaMode p v := by
  unfold Multimodal at hn
  unfold IsBetaMode
  rcases le_or_gt p.1 1 with ha | ha
  · have hb : 1 < p.2 := by
      by_contra h
      exact hn ⟨ha, not_lt.1 h⟩
    rw [Stick.betaMode_zero h1 ha hb.le (.inr hb.ne')]
    constructor
    · rintro rfl; exact .inr (.inl ⟨ha, hb, rfl⟩)
    · rintro (⟨h, _⟩ | ⟨_, _, h⟩ | ⟨h, _⟩ | ⟨_, h, _⟩)
      · exact absurd ha (not_le.2 h)
      · exact h
      · exact absurd ha (not_le.2 h)
      · exact absurd hb (not_lt.2 h)
  · rcases le_or_gt p.2 1 with hb | hb
    · rw [Stick.betaMode_one h2 hb ha.le (.inl ha.ne')]
      constructor
      · rintro rfl; exact .inr (.inr (.inl ⟨ha, hb, rfl⟩))
      · rintro (⟨_, h, _⟩ | ⟨_, h, _⟩ | ⟨_, _, h⟩ | ⟨h, _⟩)
        · exact absurd hb (not_le.2 h)
        · exact absurd hb (not_le.2 h)
        · exact h
        · exact absurd ha (not_lt.2 h)
    · rw [Stick.betaMode_inner ha hb]
      constructor
      · rintro rfl; exact .inl ⟨ha, hb, rfl⟩
      · rintro (⟨_, _, h⟩ | ⟨h, _⟩ | ⟨_, h, _⟩ | ⟨h, _⟩)
        · exact h
        · exact absurd ha (not_lt.2 h)
        · exact absurd hb (not_lt.2 h)
        · exact absurd ha (not_lt.2 h)

/-- Both parameters below one: two modes, and the code raises. -/
theorem C115_stick_both {p : ℝ × ℝ} (h1 : 0 < p.1) (h2 : 0 < p.2) (h3 : p.1 < 1) (h4 : p.2 < 1) :
    Stick.IsMode (ProbabilityTheory.betaPDFReal p.1 p.2) 0 ∧ Stick.IsMode (ProbabilityTheory.betaPDFReal p.1 p.2) 1 := Stick.betaMode_both h1 h3 h2 h4

/-- Both parameters one: no mode, and the code raises. -/
theorem C115_stick_uniform (v : ℝ) : ¬ Stick.IsMode (ProbabilityTheory.betaPDFReal 1 1) v := Stick.betaMode_uniform v

/-- **`ValueError('multimodal distribution')` for a density with exactly one mode**: `PitmanYorProcess(1/2, 0)` fitted to the matrix `[[1/4], [1/2]]`. -/
theorem C115_raises_refuted : ∃ p : ℝ × ℝ, (PY.fitVariational (1 / 2 : ℝ) 0 [[1 / 4], [1 / 2]]).params[0]? = some p ∧
    PY.modeWj (PY.fitVariational (1 / 2 : ℝ) 0 [[1 / 4], [1 / 2]]) 0 = .error .valueError ∧
    ∀ v, Stick.IsMode (ProbabilityTheory.betaPDFReal p.1 p.2) v ↔ v = 0 := by
  have fit : (PY.fitVariational (1 / 2 : ℝ) 0 [[1 / 4], [1 / 2]]).params = [(3 / 4, 1), (1, 1)] := by
    simp [PY.fitVariational, rowSums, revTails, List.range_succ, Py.cumsum, Py.cumsumFrom]
    norm_num
  refine ⟨(3 / 4, 1), ?_, ?_, fun v => Stick.betaMode_zero (by norm_num) (by norm_num) le_rfl (.inl (by norm_num)) v⟩
  · rw [fit]
    rfl
  · rw [PY.modeWj, fit]
    simp [DP.modeLoop, DP.modeFactor, Var.k]
    norm_num

/-! ### The values -/

variable {C : WeightClass ℝ} {V : VarClass C} {Atom : Type} {ω : Oracle ℝ} {W : World ℝ m Atom} {I : C.State → Prop}

/-- The error of the code. -/
noncomputable def precFactor (Λ : Matrix (Fin m) (Fin m) ℝ) : ℝ := √(frob realFun Λ / Λ.det)

theorem scale_of_mode (hm : 0 < m) {a : VAtom ℝ m} (ha : ProperAtom a) {mu : Fin m → ℝ} {Λ : Matrix (Fin m) (Fin m) ℝ} (h : IsJointMode a mu Λ) :
    (m : ℝ) < a.scale ∧ mu = a.mu ∧ Λ = mapPrec a := by
  have hs : (m : ℝ) < a.scale := by
    by_contra hn
    exact C115_no_mode hm ha (not_lt.1 hn) mu Λ h
  exact ⟨hs, (C115_mode ha hs mu Λ).1 h⟩

/-- **`var_map_density`** of the data or of given points, all coordinates written out: mode weight times the density at the joint mode of the group times `sqrt (‖Λ‖ / det Λ)`. -/
theorem C115_value (hm : 0 < m) {s : VM V m Atom} (hs : s.varFitted = true) {as : List (VAtom ℝ m)} (hth : s.varTheta = as.map some) (ha : ∀ a ∈ as, ProperAtom a)
    (mu : Fin as.length → Fin m → ℝ) (Λ : Fin as.length → Matrix (Fin m) (Fin m) ℝ) (hmode : ∀ j, IsJointMode as[j] (mu j) (Λ j)) {w : ℕ → ℝ}
    (hw : ∀ j < as.length, V.modeW s.gm.wst.1 s.vst j = .ok (some (fin (w j)))) {y : Points ℝ} {xs : List (Fin m → ℝ)} (hy : points s y = .ok ⟨m, xs⟩) :
    varMapDensity realFun s y (.list (List.range m)) none = .ok (xs.map fun x => fin (∑ j : Fin as.length, w j * (precFactor (Λ j) * normalPdf x (mu j) (Λ j)))) := by
  unfold varMapDensity
  rw [if_neg (by rw [hs]; simp), hy]
  have hd : dimMap m m (.list (List.range m)) = .ok id := by
    simp only [dimMap]
    rw [dif_pos (by simp), dif_pos (by simp)]
    congr 1
    funext i
    simp
  simp only [components, hd]
  rw [if_neg (by simp), densityLoop_ok (wf := w) _ (fun _ => 0) (fun p hp => by
    obtain ⟨i, hi, rfl⟩ := List.mem_mapIdx.1 hp
    rw [hth, List.length_map] at hi
    refine ⟨⟨as[i], ?_⟩, by rw [hw i hi]⟩
    simp [hth])]
  congr 1
  apply List.map_congr_left
  intro x _
  rw [zero_add]
  refine congrArg fin ((mapIdx_sum (f := fun a x => normalDensity realFun x a.mu (fun i j => (a.scale - (m : ℝ)) * a.prec i j)) _ _).trans ?_)
  rw [hth, mixValue_fin]
  refine Finset.sum_congr rfl fun j _ => congrArg (w j * ·) ?_
  have hp : ProperAtom as[j] := ha _ (List.getElem_mem j.2)
  obtain ⟨h1, h2, h3⟩ := scale_of_mode hm hp (hmode j)
  rw [h2, h3]
  exact C69_normal_gap x _ (mapPrec_posDef hp h1).det_pos

/-- **One coordinate**: the values are the densities of the mixture at the modes.  What is missing: more coordinates (`C115_refuted`). -/
theorem C115_one_partial {s : VM V 1 Atom} (hs : s.varFitted = true) {as : List (VAtom ℝ 1)} (hth : s.varTheta = as.map some) (ha : ∀ a ∈ as, ProperAtom a)
    (mu : Fin as.length → Fin 1 → ℝ) (Λ : Fin as.length → Matrix (Fin 1) (Fin 1) ℝ) (hmode : ∀ j, IsJointMode as[j] (mu j) (Λ j)) {w : ℕ → ℝ}
    (hw : ∀ j < as.length, V.modeW s.gm.wst.1 s.vst j = .ok (some (fin (w j)))) {y : Points ℝ} {xs : List (Fin 1 → ℝ)} (hy : points s y = .ok ⟨1, xs⟩) :
    varMapDensity realFun s y (.list [0]) none = .ok (xs.map fun x => fin (∑ j : Fin as.length, w j * normalPdf x (mu j) (Λ j))) := by
  rw [show [0] = List.range 1 from rfl, C115_value one_pos hs hth ha mu Λ hmode hw hy]
  congr 1
  apply List.map_congr_left
  intro x _
  congr 1
  refine Finset.sum_congr rfl fun j _ => ?_
  have h1 : precFactor (Λ j) = 1 := by
    have hd := (hmode j).1
    have hf : frob realFun (Λ j) = (Λ j).det := frob_one (P := Λ j) (by simpa using hd.diag_pos (i := 0))
    unfold precFactor
    exact (congrArg _ (by rw [hf]; exact div_self hd.det_pos.ne')).trans Real.sqrt_one
  rw [h1, one_mul]

/-- The value at one point. -/
noncomputable def mapAt (s : VM V m Atom) (x : Fin m → ℝ) : ℝ :=
  match varMapDensity realFun s (.given m [x]) (.list (List.range m)) none with
  | .ok [.fin v] => v
  | _ => 0

/-- **The total mass** is the sum of mode weight times the factor. -/
theorem C115_total (hm : 0 < m) {s : VM V m Atom} (hs : s.varFitted = true) {as : List (VAtom ℝ m)} (hth : s.varTheta = as.map some) (ha : ∀ a ∈ as, ProperAtom a)
    (mu : Fin as.length → Fin m → ℝ) (Λ : Fin as.length → Matrix (Fin m) (Fin m) ℝ) (hmode : ∀ j, IsJointMode as[j] (mu j) (Λ j)) {w : ℕ → ℝ}
    (hw : ∀ j < as.length, V.modeW s.gm.wst.1 s.vst j = .ok (some (fin (w j)))) : Integrable (mapAt s) ∧ ∫ x, mapAt s x = ∑ j : Fin as.length, w j * precFactor (Λ j) := by
  have h1 : mapAt s = fun x => ∑ j : Fin as.length, w j * (precFactor (Λ j) * normalPdf x (mu j) (Λ j)) := by
    funext x
    unfold mapAt
    rw [C115_value hm hs hth ha mu Λ hmode hw (y := .given m [x]) (xs := [x]) rfl]
    rfl
  have h2 : ∀ j : Fin as.length, Integrable (fun x => normalPdf x (mu j) (Λ j)) ∧ ∫ x, normalPdf x (mu j) (Λ j) = 1 := by
    intro j
    have hp : (Matrix.of (Λ j)).PosDef := (hmode j).1
    obtain ⟨L, hL⟩ := exists_factor (a := { mu := mu j, lam := 1, prec := Λ j, scale := 0 }) hp
    have hdet := factor_det (a := { mu := mu j, lam := 1, prec := Λ j, scale := 0 }) hp hL
    have h := NW.normalPdf_integral hdet (mu j)
    rw [← show Λ j = L * Lᵀ from hL] at h
    exact h
  have h3 : ∀ j : Fin as.length, Integrable fun x => w j * (precFactor (Λ j) * normalPdf x (mu j) (Λ j)) := fun j => ((h2 j).1.const_mul _).const_mul _
  rw [h1]
  refine ⟨integrable_finsetSum _ fun j _ => h3 j, ?_⟩
  rw [integral_finsetSum _ fun j _ => h3 j]
  refine Finset.sum_congr rfl fun j _ => ?_
  rw [integral_const_mul, integral_const_mul, (h2 j).2, mul_one]

/-- **Refuted from two coordinates on**: with the identity matrix as scale matrix and `m + c` degrees of freedom the values are wrong at every point whenever `√m ≠ c ^ (m - 1)`. -/
theorem C115_refuted (hm : 2 ≤ m) (mu x : Fin m → ℝ) {lam c w : ℝ} (hl : 0 < lam) (hc : 0 < c) (hne : √m ≠ c ^ (m - 1)) (hw : 0 < w) {s : VM V m Atom} (hs : s.varFitted = true)
    (hth : s.varTheta = [some { mu := mu, lam := lam, prec := (1 : Matrix (Fin m) (Fin m) ℝ), scale := m + c }]) (hW : V.modeW s.gm.wst.1 s.vst 0 = .ok (some (fin w)))
    {mu' : Fin m → ℝ} {Λ : Matrix (Fin m) (Fin m) ℝ} (hmode : IsJointMode { mu := mu, lam := lam, prec := (1 : Matrix (Fin m) (Fin m) ℝ), scale := m + c } mu' Λ) :
    ∃ v, varMapDensity realFun s (.given m [x]) (.list (List.range m)) none = .ok [fin v] ∧ v ≠ w * normalPdf x mu' Λ := by
  set a : VAtom ℝ m := { mu := mu, lam := lam, prec := (1 : Matrix (Fin m) (Fin m) ℝ), scale := m + c } with hadef
  have hp : ProperAtom a := ⟨hl, by show (m : ℝ) - 1 < m + c; linarith, Matrix.PosDef.one⟩
  have hv := C115_value (by omega) hs (as := [a]) hth (fun b hb => by rw [List.mem_singleton] at hb; rw [hb]; exact hp) (fun _ => mu') (fun _ => Λ) (fun j => by
    have : j = ⟨0, by simp⟩ := Fin.ext (Nat.lt_one_iff.1 j.2)
    subst this
    exact hmode) (w := fun _ => w) (fun j hj => by
    have : j = 0 := by simpa using hj
    subst this
    exact hW) (y := .given m [x]) (xs := [x]) rfl
  refine ⟨_, hv, ?_⟩
  have hsum : ∑ j : Fin [a].length, w * (precFactor Λ * normalPdf x mu' Λ) = w * (precFactor Λ * normalPdf x mu' Λ) := Fin.sum_univ_one _
  rw [hsum]
  intro h
  have h1 := mul_left_cancel₀ hw.ne' h
  obtain ⟨_, _, hΛ⟩ := scale_of_mode (by omega) hp hmode
  have h2 : Λ = fun i j => if i = j then c else 0 := by
    rw [hΛ]
    funext i j
    show ((m : ℝ) + c - m) * (1 : Matrix (Fin m) (Fin m) ℝ) i j = _
    rw [Matrix.one_apply]
    split_ifs
    · ring
    · ring
  have hpos : 0 < normalPdf x mu' Λ := normalPdf_pos _ _ hmode.1.det_pos
  have h3 := (mul_eq_right₀ hpos.ne').1 h1
  unfold precFactor at h3
  have hdt : Λ.det = c ^ m := by rw [h2]; exact det_scaled c
  have hfr : frob realFun Λ = √m * c := by rw [h2, mul_comm]; exact frob_scaled c hc
  rw [hdt, hfr, Real.sqrt_eq_one, div_eq_one_iff_eq (pow_pos hc m).ne'] at h3
  apply hne
  have : c ^ m = c ^ (m - 1) * c := by rw [← pow_succ]; congr 1; omega
  rw [this] at h3
  exact mul_right_cancel₀ hc.ne' h3

/-! ### A whole fit -/

theorem varAtoms_wide {ys : List (Fin m → ℝ)} {p : NIW ℝ m} : ∀ {q : List (List ℝ)} {l : List (Option (VAtom ℝ m))}, (∀ r ∈ q, 0 < r.sum) →
    varAtoms ys p (q.map (fun r => r.map fin)) = .ok l → ∀ a ∈ l, ∃ b, a = some b ∧ p.nu < b.scale
  | [], l, _, h => by
    cases h
    intro a ha
    cases ha
  | r :: q, l, hq, h => by
    rw [List.map_cons, varAtoms] at h
    have h0 := hq r (List.mem_cons_self ..)
    cases ha : varAtom ys p (r.map fin) with
    | error e => rw [ha] at h; cases h
    | ok a =>
      rw [ha] at h
      cases hr : varAtoms ys p (q.map (fun r => r.map fin)) with
      | error e => simp only [hr] at h; cases h
      | ok l' =>
        simp only [hr] at h
        cases h
        intro b hb
        rcases List.mem_cons.1 hb with rfl | hb
        · unfold varAtom at ha
          rw [Fl.numbers_fin] at ha
          simp only [if_neg h0.ne'] at ha
          cases hi : matInv (varPsi ys p r) with
          | error e => rw [hi] at ha; cases ha
          | ok P =>
            rw [hi] at ha
            cases ha
            exact ⟨_, rfl, by show p.nu < p.nu + r.sum; linarith⟩
        · exact varAtoms_wide (fun r hr => hq r (List.mem_cons_of_mem _ hr)) hr b hb

/-- All groups have more than `nu` degrees of freedom. -/
def Wide (nu : ℝ) (s : VM V m Atom) : Prop := ∀ a ∈ s.varTheta, ∃ b : VAtom ℝ m, a = some b ∧ nu < b.scale

theorem maximize_wide {F : MathFun ℝ} (hF : Sane F) (he : 0 < W.eps) (hV : Regular V I) {k : ℕ} {s : VM V m Atom × ℕ} (h : Ready I k s.1) (hy : s.1.gm.y ≠ []) :
    wp ω (maximize F W) (fun _ t => Wide (GM.prior s.1.gm).nu t.1) (fun _ _ => True) s := by
  unfold maximize
  rw [wp_bind]
  refine wp_mono (updateVarD_ready hF he h) ?_ (fun _ _ _ => trivial)
  rintro _ t ⟨hr, hd, hg⟩
  rw [wp_bind]
  refine wp_mono (wp_and updateVarW_prior (updateVarW_ready hV h.pos hr.varK hr.inv.1 hd)) ?_ (fun _ _ _ => trivial)
  rintro _ t2 ⟨⟨hpr2, _⟩, hw, hk, ht, hdd, hy2⟩
  have hd2 : Probs k t2.1 := by
    unfold Probs at hd ⊢
    rw [hdd, hy2]; exact hd
  have hyy : t2.1.gm.y ≠ [] := by rw [hy2, hg]; exact hy
  obtain ⟨q, hq, hl, hpos⟩ := rows_of_columns (hk.trans hr.varK) hd2.2
  have hsum : ∀ r ∈ q, 0 < r.sum := fun r hr => sum_pos_of_pos (by
    intro h0
    have := (hpos r hr).1
    rw [h0, hd2.1] at this
    exact hyy (List.length_eq_zero_iff.1 this.symm)) (hpos r hr).2
  unfold updateVarTheta
  simp only [wp_bind, wp_self, wp_lift, wp_assign]
  rw [hq]
  refine ⟨fun l hl => ?_, fun _ _ => by trivial⟩
  have := varAtoms_wide hsum hl
  rw [hpr2, hg] at this
  exact this

theorem Iter.wide {F : MathFun ℝ} (hF : Sane F) (he : 0 < W.eps) (hV : Regular V I) (hm : 0 < m) {k : ℕ} {s u : VM V m Atom × ℕ} {es : List (Fl ℝ)} {nu : ℝ}
    (h : Iter F W ω s es u) (hr : Ready I k s.1) (hy : s.1.gm.y ≠ []) (hp : (GM.prior s.1.gm).nu = nu) : es ≠ [] ∨ Wide nu s.1 → Wide nu u.1 := by
  induction h with
  | nil s => exact fun h => h.resolve_left (fun h => h rfl)
  | cons hmax hel rest ih =>
    obtain ⟨h1, h2, h3⟩ := wp_of_ok hmax (maximize_ready (ω := ω) hF he hV hm hr hy)
    have h4 := wp_of_ok hmax (maximize_wide (ω := ω) hF he hV hr hy)
    have h5 := wp_of_ok hmax (maximize_prior (ω := ω) (W := W) (F := F))
    rw [hp] at h4
    exact fun _ => ih h1 (by rw [h3]; exact hy) (by rw [h5]; exact hp) (.inr h4)

theorem fit_wide {F : VWorld ℝ m} (hF : Sane F.toMathFun) (he : 0 < W.eps) (hV : Regular V I) (hm : 0 < m) {ys : List (Fin m → ℝ)} (hy : ys ≠ []) (nG : Option ℤ) (tol : ℝ)
    {s u : VM V m Atom × ℕ} (hI : I s.1.gm.wst.1) (hT : 0 < s.1.gm.totalIter)
    (h : fitVariational F W (.rows ys) nG false (.fin tol) .random ω s = (.ok (), u)) : Wide (GM.prior (begun ys s.1).gm).nu u.1 := by
  refine wp_of_ok h (fitVariational_wp (E := fun _ _ => True) (Q := fun u => Wide (GM.prior (begun ys s.1).gm).nu u.1)
    (fun t => (∃ k : ℕ, Ready I k t.1) ∧ t.1.gm.y = ys ∧ 0 < t.1.gm.totalIter ∧ GM.prior t.1.gm = GM.prior (begun ys s.1).gm) (fun h => by cases h) ?_ (fun _ _ => trivial) ?_)
  · intro _ k hk
    refine wp_mono (wp_and (initVar_random hm hV F k (begun ys s.1, s.2) hI) (initVar_prior F k)) ?_ (fun _ _ h => trivial)
    rintro _ t ⟨⟨h1, h2, h3, h4⟩, h5, h6⟩
    exact ⟨⟨k.toNat, h2⟩, h4, by rw [h6]; exact hT, h5⟩
  · rintro t ⟨⟨k, h2⟩, h4, hT, hp⟩
    refine wp_mono (varLoop_spec (.fin tol) _ _ _ _ t (by omega)) ?_ (fun _ _ _ => trivial)
    rintro r u ⟨es, h3, h5, _, _, _, _, h6⟩
    have hne : es ≠ [] := by
      rintro rfl
      have := h6 (by simpa using hT)
      simp [changes, Fl.lt] at this
    have hu : Wide (GM.prior (begun ys s.1).gm).nu u.1 := Iter.wide hF he hV hm h3 h2 (by rw [h4]; exact hy) (by rw [hp]) (.inl hne)
    exact hu

/-- **After a whole fit** (random start, at least one iteration) every group has more degrees of freedom than the prior; with a prior `nu` of at least the dimension, which includes the
default, every group has exactly one joint mode, the pair used by the code. -/
theorem C115_fit {F : VWorld ℝ m} (hF : Sane F.toMathFun) (he : 0 < W.eps) (hV : Regular V I) (hm : 0 < m) {ys : List (Fin m → ℝ)} (hy : ys ≠ []) (nG : Option ℤ) (tol : ℝ)
    {s u : VM V m Atom × ℕ} (hI : I s.1.gm.wst.1) (hT : 0 < s.1.gm.totalIter) (hp : ProperPrior (GM.prior (begun ys s.1).gm))
    (hnu : s.1.gm.nuPrior = none ∨ ∃ nu, s.1.gm.nuPrior = some nu ∧ (m : ℝ) ≤ nu)
    (h : fitVariational F W (.rows ys) nG false (.fin tol) .random ω s = (.ok (), u)) :
    u.1.varFitted = true ∧ ∃ as : List (VAtom ℝ m), u.1.varTheta = as.map some ∧ ∀ a ∈ as, ProperAtom a ∧ ∀ mu Λ, IsJointMode a mu Λ ↔ mu = a.mu ∧ Λ = mapPrec a := by
  obtain ⟨h1, ⟨as, h2, h3⟩, _⟩ := C114_fit hF he hV hm hy nG tol hI hT hp h
  have hw := fit_wide hF he hV hm hy nG tol hI hT h
  have hn : (m : ℝ) ≤ (GM.prior (begun ys s.1).gm).nu := by
    rcases hnu with hn | ⟨nu, hn, hle⟩
    · show (m : ℝ) ≤ (some (s.1.gm.nuPrior.getD (m : ℝ))).getD 0
      rw [hn]
      exact le_rfl
    · show (m : ℝ) ≤ (some (s.1.gm.nuPrior.getD (m : ℝ))).getD 0
      rw [hn]
      exact hle
  refine ⟨h1, as, h2, fun a ha => ⟨h3 a ha, C115_mode (h3 a ha) ?_⟩⟩
  obtain ⟨b, hb, hlt⟩ := hw (some a) (by rw [h2]; exact List.mem_map_of_mem ha)
  cases hb
  exact hn.trans_lt hlt

/-! ### Dirichlet process weights -/

/-- The weights broken off by sticks. -/
noncomputable def stickWeight (v : ℕ → ℝ) (j : ℕ) : ℝ := (∏ i ∈ Finset.range j, (1 - v i)) * v j

theorem stickWeight_sum (v : ℕ → ℝ) (n : ℕ) : ∑ j ∈ Finset.range n, stickWeight v j = 1 - ∏ i ∈ Finset.range n, (1 - v i) := by
  induction n with
  | zero => simp
  | succ n ih =>
    rw [Finset.sum_range_succ, ih, Finset.prod_range_succ]
    unfold stickWeight
    ring

theorem modes_range {ps : List (ℝ × ℝ)} {v : ℕ → ℝ} (h : ∀ j (hj : j < ps.length), IsBetaMode ps[j] (v j)) : Modes ps ((List.range ps.length).map v) := by
  unfold Modes
  rw [List.forall₂_iff_get]
  refine ⟨by simp, fun i h1 h2 => ?_⟩
  simpa using h i h1

theorem restProd_range (v : ℕ → ℝ) (n : ℕ) : restProd ((List.range n).map v) = ∏ i ∈ Finset.range n, (1 - v i) := by
  unfold restProd
  induction n with
  | zero => simp
  | succ n ih => rw [List.range_succ, List.map_append, List.map_append, List.prod_append, ih, Finset.prod_range_succ]; simp

/-- **After a fit with Dirichlet process weights**, in every dimension, `var_map_density` with all coordinates written out does not raise: its values are the densities at the modes of the
sticks and of the groups, each group times `sqrt (‖Λ‖ / det Λ)`; the last stick is one and the weights sum to one. -/
theorem C115_dirichletProcess {G : MathFun ℝ} {F : VWorld ℝ m} (hF : Sane F.toMathFun) (he : 0 < W.eps) (hm : 0 < m) {ys : List (Fin m → ℝ)} (hy : ys ≠ []) (nG : Option ℤ)
    (tol : ℝ) {s u : VM (varDP G) m Atom × ℕ} (hI : 0 < (show DP ℝ from s.1.gm.wst.1).alpha) (hT : 0 < s.1.gm.totalIter) (hp : ProperPrior (GM.prior (begun ys s.1).gm))
    (hnu : s.1.gm.nuPrior = none ∨ ∃ nu, s.1.gm.nuPrior = some nu ∧ (m : ℝ) ≤ nu)
    (h : fitVariational F W (.rows ys) nG false (.fin tol) .random ω s = (.ok (), u)) :
    ∃ (as : List (VAtom ℝ m)) (mu : Fin as.length → Fin m → ℝ) (Λ : Fin as.length → Matrix (Fin m) (Fin m) ℝ) (ps : List (ℝ × ℝ)) (v : ℕ → ℝ),
      u.1.varTheta = as.map some ∧ (∀ j, IsJointMode as[j] (mu j) (Λ j)) ∧ (∃ f : Var ℝ, u.1.vst = VFit.fitted f ∧ f.params = ps) ∧ ps.length = as.length ∧
      (∀ j (hj : j < ps.length), j + 1 < ps.length → Stick.IsMode (ProbabilityTheory.betaPDFReal ps[j].1 ps[j].2) (v j)) ∧ v (ps.length - 1) = 1 ∧
      ∑ j ∈ Finset.range as.length, stickWeight v j = 1 ∧
      (∀ (y : Points ℝ) (xs : List (Fin m → ℝ)), points u.1 y = .ok ⟨m, xs⟩ →
        varMapDensity realFun u.1 y (.list (List.range m)) none =
          .ok (xs.map fun x => fin (∑ j : Fin as.length, stickWeight v j * (precFactor (Λ j) * normalPdf x (mu j) (Λ j))))) ∧
      ∫ x, mapAt u.1 x = ∑ j : Fin as.length, stickWeight v j * precFactor (Λ j) := by
  obtain ⟨h1, as, h2, h3⟩ := C115_fit hF he regular_DP_pos hm hy nG tol hI hT hp hnu h
  obtain ⟨_, _, c0, q, hc0, hq1, hq2, hq3, hq4⟩ := C114_fit hF he regular_DP_pos hm hy nG tol hI hT hp h
  obtain ⟨k, _, _, hready, _⟩ := C52_random hF he regular_DP_pos hm hy nG (.fin tol) hI h
  have hq : NonNegMatrix q := fun r hr x hx => (hq2 r hr x hx).le
  set al := (show DP ℝ from c0).alpha with hal
  have hv : u.1.vst = VFit.fitted (DP.fitVariational al q) := by
    simp only [varDP, Fl.matrix_fin] at hq3
    injection hq3 with hq3
    exact (Prod.mk.inj hq3).2.symm
  have hql : q.length = as.length := by rw [hq1, h2, List.length_map]
  have hlen : (DP.fitVariational al q).params.length = as.length := by rw [DP.fit_length, hql]
  have hk : (DP.fitVariational al q).k = as.length := hql
  have hpos : 0 < as.length := by
    have h0 := hready.pos
    rw [← hready.theta, h2, List.length_map] at h0
    exact h0
  have hps : PosParams (DP.fitVariational al q).params := DP.fit_pos hc0 hq
  have hbig : ∀ p ∈ (DP.fitVariational al q).params, 1 < p.1 := by
    intro p hp
    obtain ⟨j, hj, rfl⟩ := List.mem_iff_getElem.1 hp
    have hj' : j < q.length := by rwa [DP.fit_length] at hj
    have := DP.fit_get al q j hj'
    rw [List.getElem?_eq_getElem hj] at this
    rw [Option.some.inj this]
    have hr : 0 < (rowSums q)[j]'(by simpa [rowSums] using hj') := by
      simp only [rowSums, List.getElem_map]
      exact sum_pos_of_pos (hq4 _ (List.getElem_mem hj')) (hq2 _ (List.getElem_mem hj'))
    show 1 < 1 + _
    linarith
  have hnm : ∀ p ∈ (DP.fitVariational al q).params, ¬ Multimodal p := fun p hp h => absurd h.1 (not_le.2 (hbig p hp))
  set ps := (DP.fitVariational al q).params with hpsd
  have hex : ∀ j : Fin ps.length, ∃ x, IsBetaMode ps[j] x := by
    intro j
    obtain ⟨ms, hms⟩ := modes_exist [ps[j]]
    cases hms with
    | cons h _ => exact ⟨_, h⟩
  choose v0 hv0 using hex
  set v : ℕ → ℝ := fun j => if h : j + 1 < ps.length then v0 ⟨j, by omega⟩ else 1 with hvd
  have hvm : ∀ j (hj : j < ps.length), j + 1 < ps.length → IsBetaMode ps[j] (v j) := by
    intro j hj hj'
    have : v j = v0 ⟨j, hj⟩ := by rw [hvd]; exact dif_pos hj'
    rw [this]
    exact hv0 ⟨j, hj⟩
  have hvl : ∀ j, ¬ j + 1 < ps.length → v j = 1 := fun j hj => dif_neg hj
  have hw : ∀ j < as.length, (varDP G).modeW u.1.gm.wst.1 u.1.vst j = .ok (some (fin (stickWeight v j))) := by
    intro j hj
    rw [hv]
    have hmode : DP.modeWj (DP.fitVariational al q) j = .ok (stickWeight v j) := by
      rcases C40_dirichletProcess (DP.fitVariational al q) (by rw [hk]; exact hlen) (j := j) (by rw [hk]; exact hj) with ⟨_, h⟩ | ⟨x, hx, _, _, hxx⟩
      · exfalso
        rcases h with ⟨p, hp, h⟩ | ⟨p, hp, h⟩
        · exact hnm p (List.mem_of_mem_take hp) h
        · split at hp
          · cases hp
          · exact hnm p (List.mem_of_getElem? hp) h
      · rw [hx]
        have hms : Modes (ps.take j) ((List.range j).map v) := by
          have := modes_range (ps := ps.take j) (v := v) (fun i hi => by
            have hi' : i < j ∧ i < ps.length := by simpa using hi
            rw [List.getElem_take]
            exact hvm i hi'.2 (by omega))
          rwa [List.length_take, min_eq_left (by omega)] at this
        rw [hxx _ (v j) hms (fun p hp => ?_) (fun hn => ?_), restProd_range]
        · rfl
        · split at hp
          · cases hp
          · rename_i hne
            have hj' : j < ps.length := by omega
            rw [List.getElem?_eq_getElem hj'] at hp
            cases hp
            exact hvm j hj' (by omega)
        · split at hn
          · rename_i he
            exact hvl j (by omega)
          · rw [List.getElem?_eq_getElem (show j < ps.length by omega)] at hn
            cases hn
    show ((flOk (DP.modeWj (DP.fitVariational al q) j)).map some) = _
    rw [hmode]
    rfl
  have hpa : ∀ a ∈ as, ProperAtom a := fun a ha => (h3 a ha).1
  have hjm : ∀ j : Fin as.length, IsJointMode as[j] as[j].mu (mapPrec as[j]) := fun j => ((h3 _ (List.getElem_mem j.2)).2 _ _).2 ⟨rfl, rfl⟩
  refine ⟨as, fun j => as[j].mu, fun j => mapPrec as[j], ps, v, h2, hjm, ⟨_, hv, rfl⟩, hlen, ?_, hvl _ (by omega), ?_, ?_, ?_⟩
  · intro j hj hj'
    have hmem := List.getElem_mem hj
    exact (C115_stick (hps _ hmem).1 (hps _ hmem).2 (hnm _ hmem) _).2 (hvm j hj hj')
  · rw [stickWeight_sum, Finset.prod_eq_zero (i := as.length - 1) (Finset.mem_range.2 (by omega)) (by rw [hvl _ (by omega), sub_self]), sub_zero]
  · intro y xs hyx
    exact C115_value hm h1 h2 hpa _ _ hjm hw hyx
  · exact (C115_total hm h1 h2 hpa _ _ hjm hw).2

/-! ### `DirichletDistribution` -/

/-- **The mode weights of `DirichletDistribution` do not sum to one**: for three or more components with parameters above one their sum is below one. -/
theorem C115_dirichlet_refuted {v : DVar ℝ} (hk : v.k = v.params.length) (hl : 3 ≤ v.params.length) (hp : ∀ a ∈ v.params, 1 < a) :
    ∃ w : List ℝ, w.length = v.params.length ∧ (∀ j (hj : j < w.length), DirDist.modeWj v j = .ok w[j]) ∧ w.sum = (v.params.sum - v.params.length) / (v.params.sum - 2) ∧ w.sum < 1 := by
  have hA : ∀ l : List ℝ, (∀ a ∈ l, 1 < a) → (l.length : ℝ) ≤ l.sum := by
    intro l
    induction l with
    | nil => simp
    | cons a l ih =>
      intro h
      have h1 := ih fun b hb => h b (by simp [hb])
      have h2 := h a (by simp)
      rw [List.length_cons, List.sum_cons]
      push_cast
      linarith
  have hl' : (3 : ℝ) ≤ v.params.length := by exact_mod_cast hl
  have hsum := hA v.params hp
  have hrest : ∀ j (hj : j < v.params.length), 1 < v.params.sum - v.params[j] := by
    intro j hj
    have h1 := hA (v.params.eraseIdx j) (fun a ha => hp a (List.mem_of_mem_eraseIdx ha))
    have h2 : (v.params.eraseIdx j).length = v.params.length - 1 := by rw [List.length_eraseIdx, if_pos hj]
    have h3 : v.params.sum = v.params[j] + (v.params.eraseIdx j).sum := by
      rw [← List.sum_cons]
      exact ((List.getElem_cons_eraseIdx_perm hj).sum_eq).symm
    rw [h2, Nat.cast_sub (by omega)] at h1
    push_cast at h1
    linarith
  have hS : (v.params.map fun a => (a - 1) / (v.params.sum - 2)).sum = (v.params.sum - v.params.length) / (v.params.sum - 2) := by
    generalize v.params.sum - 2 = c
    have : ∀ l : List ℝ, (l.map fun a => (a - 1) / c).sum = (l.sum - l.length) / c := by
      intro l
      induction l with
      | nil => simp
      | cons a l ih =>
        rw [List.map_cons, List.sum_cons, ih, List.sum_cons, List.length_cons]
        push_cast
        ring
    exact this _
  refine ⟨v.params.map fun a => (a - 1) / (v.params.sum - 2), by simp, fun j hj => ?_, ?_, ?_⟩
  · have hj' : j < v.params.length := by simpa using hj
    unfold DirDist.modeWj
    rw [if_neg (by rw [hk]; exact_mod_cast (not_lt.2 hj'.le)), List.getElem?_eq_getElem hj']
    simp only [List.getElem_map]
    rw [if_neg (not_le.2 (hp _ (List.getElem_mem hj'))), if_neg (not_le.2 (hrest j hj'))]
  · exact hS
  · rw [hS, div_lt_one (by linarith)]
    linarith

/-! ### Concrete cases -/

theorem oneGroup_mode (a : VAtom ℝ m) : (varEqual realFun).modeW (oneGroup a).gm.wst.1 (oneGroup a).vst 0 = .ok (some (fin 1)) := by
  show Except.ok (some (fin (Equal.meanWj (1 : ℤ).toNat 0))) = _
  simp [Equal.meanWj]

/-- A group with two coordinates, three degrees of freedom and its mode. -/
example : IsJointMode ({ mu := ![1, 2], lam := 1, prec := (1 : Matrix (Fin 2) (Fin 2) ℝ), scale := ((2 : ℕ) : ℝ) + 1 } : VAtom ℝ 2) ![1, 2] 1 :=
  (C115_mode (a := { mu := ![1, 2], lam := 1, prec := (1 : Matrix (Fin 2) (Fin 2) ℝ), scale := ((2 : ℕ) : ℝ) + 1 }) ⟨one_pos, by show ((2 : ℕ) : ℝ) - 1 < ((2 : ℕ) : ℝ) + 1; norm_num, Matrix.PosDef.one⟩ (by show ((2 : ℕ) : ℝ) < ((2 : ℕ) : ℝ) + 1; norm_num) _ _).2
    ⟨rfl, by unfold mapPrec; show (1 : Matrix (Fin 2) (Fin 2) ℝ) = (((2 : ℕ) : ℝ) + 1 - ((2 : ℕ) : ℝ)) • (1 : Matrix (Fin 2) (Fin 2) ℝ); rw [add_sub_cancel_left, one_smul]⟩

/-- `C115_refuted` applies to it. -/
example {mu' : Fin 2 → ℝ} {Λ : Matrix (Fin 2) (Fin 2) ℝ}
    (h : IsJointMode ({ mu := ![1, 2], lam := 1, prec := (1 : Matrix (Fin 2) (Fin 2) ℝ), scale := ((2 : ℕ) : ℝ) + 1 } : VAtom ℝ 2) mu' Λ) :
    ∃ v, varMapDensity realFun (oneGroup { mu := ![1, 2], lam := 1, prec := (1 : Matrix (Fin 2) (Fin 2) ℝ), scale := ((2 : ℕ) : ℝ) + 1 }) (.given 2 [![0, 0]]) (.list [0, 1]) none =
      .ok [fin v] ∧ v ≠ 1 * normalPdf ![0, 0] mu' Λ :=
  C115_refuted le_rfl ![1, 2] ![0, 0] one_pos one_pos (by rw [one_pow, Ne, Real.sqrt_eq_one]; norm_num) one_pos rfl rfl (oneGroup_mode _) h

/-- A group without a mode: as many degrees of freedom as coordinates. -/
example (mu : Fin 2 → ℝ) (Λ : Matrix (Fin 2) (Fin 2) ℝ) :
    ¬ IsJointMode ({ mu := ![1, 2], lam := 1, prec := (1 : Matrix (Fin 2) (Fin 2) ℝ), scale := ((2 : ℕ) : ℝ) } : VAtom ℝ 2) mu Λ :=
  C115_no_mode (a := { mu := ![1, 2], lam := 1, prec := (1 : Matrix (Fin 2) (Fin 2) ℝ), scale := ((2 : ℕ) : ℝ) }) (by norm_num) ⟨one_pos, by show ((2 : ℕ) : ℝ) - 1 < ((2 : ℕ) : ℝ); norm_num, Matrix.PosDef.one⟩ le_rfl mu Λ

/-- The sticks of `Beta(3, 2)` and of `Beta(1/2, 2)`. -/
example : Stick.IsMode (ProbabilityTheory.betaPDFReal 3 2) (2 / 3) ∧ Stick.IsMode (ProbabilityTheory.betaPDFReal (1 / 2) 2) 0 :=
  ⟨(C115_stick (p := (3, 2)) (by norm_num) (by norm_num) (by unfold Multimodal; norm_num) _).2 (.inl (by norm_num)),
    (C115_stick (p := (1 / 2, 2)) (by norm_num) (by norm_num) (by unfold Multimodal; norm_num) _).2 (.inr (.inl (by norm_num)))⟩

/-- Three equal components of `DirichletDistribution`. -/
example : ∃ w : List ℝ, w.length = 3 ∧ w.sum = 3 / 4 ∧ ∀ j (hj : j < w.length), DirDist.modeWj ({ d := [], k := 3, params := [2, 2, 2] } : DVar ℝ) j = .ok w[j] := by
  obtain ⟨w, h1, h2, h3, _⟩ := C115_dirichlet_refuted (v := { d := [], k := 3, params := [2, 2, 2] }) rfl le_rfl (by simp)
  exact ⟨w, h1, by rw [h3]; norm_num, h2⟩
end Verif.Mix.VM
