import Verif.Lemmas.NormalWishart
import Mathlib.Probability.Independence.InfinitePi
import Mathlib.Probability.Distributions.Gaussian.Real

/-!
# The expected normal density under the normal-Wishart law

The law of a new point given the group is a Student-t law: the expectation of `N(x; mean, precision)` over the normal-Wishart law of mean and precision, in every dimension.  The
quadratic form splits over the columns of Bartlett's matrix, which are independent; each column gives one factor.
-/

namespace Verif.NW
open MeasureTheory ProbabilityTheory Real Matrix
open scoped NNReal
variable {m : ℕ}

/-! ### One normal and one Gamma integral -/

theorem gauss_square {v : ℝ≥0} (hv : v ≠ 0) (c : ℝ) :
    ∫ y, exp (-(c + y) ^ 2 / 2) ∂gaussianReal 0 v = (√(1 + v))⁻¹ * exp (-c ^ 2 / (2 * (1 + v))) := by
  have hv0 : (0 : ℝ) < v := lt_of_le_of_ne v.2 (fun h => hv (NNReal.coe_eq_zero.1 h.symm))
  set w : ℝ≥0 := v / (1 + v) with hw
  have hw0 : w ≠ 0 := by rw [hw]; positivity
  have hwc : (w : ℝ) = v / (1 + v) := by rw [hw]; push_cast; rfl
  rw [integral_gaussianReal_eq_integral_smul hv]
  have e : ∀ y : ℝ, gaussianPDFReal 0 v y • exp (-(c + y) ^ 2 / 2) =
      ((√(1 + v))⁻¹ * exp (-c ^ 2 / (2 * (1 + v)))) * gaussianPDFReal (-c * v / (1 + v)) w y := by
    intro y
    rw [gaussianPDFReal, gaussianPDFReal, smul_eq_mul]
    have h1 : √(2 * π * v) = √(1 + v) * √(2 * π * w) := by
      rw [← Real.sqrt_mul (by positivity), hwc]
      congr 1
      field_simp
    rw [h1, mul_inv]
    have h2 : exp (-(y - 0) ^ 2 / (2 * v)) * exp (-(c + y) ^ 2 / 2) =
        exp (-c ^ 2 / (2 * (1 + v))) * exp (-(y - -c * v / (1 + v)) ^ 2 / (2 * w)) := by
      rw [← Real.exp_add, ← Real.exp_add, hwc]
      congr 1
      field_simp
      ring
    calc (√(1 + (v : ℝ)))⁻¹ * (√(2 * π * w))⁻¹ * exp (-(y - 0) ^ 2 / (2 * v)) * exp (-(c + y) ^ 2 / 2)
        = (√(1 + (v : ℝ)))⁻¹ * (√(2 * π * w))⁻¹ * (exp (-(y - 0) ^ 2 / (2 * v)) * exp (-(c + y) ^ 2 / 2)) := by ring
      _ = _ := by rw [h2]; ring
  simp only [e]
  rw [integral_const_mul, integral_gaussianPDFReal_eq_one _ hw0, mul_one]

theorem gamma_half {a r t : ℝ} (ha : 0 < a) (hr : 0 < r) (ht : 0 ≤ t) :
    ∫ x, √x * exp (-t * x) ∂gammaMeasure a r = Gamma (a + 1 / 2) / Gamma a * (r ^ a / (r + t) ^ (a + 1 / 2)) := by
  have ha2 : 0 < a + 1 / 2 := by positivity
  have hrt : 0 < r + t := by positivity
  rw [integral_gammaMeasure ha hr]
  have e : (fun x => √x * exp (-t * x) * gammaPDFReal a r x) =ᵐ[volume] fun x =>
      (Gamma (a + 1 / 2) / Gamma a * (r ^ a / (r + t) ^ (a + 1 / 2))) * gammaPDFReal (a + 1 / 2) (r + t) x := by
    filter_upwards [ae_ne_zero_real] with x hx
    unfold gammaPDFReal
    split
    · rename_i h
      have h0 : 0 < x := lt_of_le_of_ne h (Ne.symm hx)
      have h1 := (Real.Gamma_pos_of_pos ha).ne'
      have h2 := (Real.Gamma_pos_of_pos ha2).ne'
      have h3 := (Real.rpow_pos_of_pos hrt (a + 1 / 2)).ne'
      have e1 : x ^ (a + 1 / 2 - 1) = √x * x ^ (a - 1) := by
        rw [Real.sqrt_eq_rpow, ← Real.rpow_add h0]; congr 1; ring
      have e2 : exp (-((r + t) * x)) = exp (-t * x) * exp (-(r * x)) := by rw [← Real.exp_add]; congr 1; ring
      rw [e1, e2]
      field_simp
    · simp
  rw [integral_congr_ae e, integral_const_mul, integral_gammaPDFReal ha2 hrt, mul_one]

/-! ### Independence -/

theorem joint_indep {ν : ℝ} (hν : (m : ℝ) - 1 < ν) : iIndepFun (fun (i : Src m) (ω : Src m → ℝ) => ω i) (joint m ν) := by
  have := law_prob (m := m) hν
  exact iIndepFun_pi (X := fun _ x => x) fun _ => aemeasurable_id

/-- The variables of column `k`. -/
def cell (k : Fin m) : Option (Option (Fin m)) → Src m
  | none => .inl k
  | some none => .inr (.inr k)
  | some (some i) => .inr (.inl (i, k))

theorem cell_injective : Function.Injective (fun p : Fin m × Option (Option (Fin m)) => cell p.1 p.2) := by
  rintro ⟨k, _ | _ | i⟩ ⟨l, _ | _ | j⟩ h <;> simp [cell] at h ⊢ <;> try exact h
  exact ⟨h.2, h.1⟩

/-- **The columns are independent.** -/
theorem columns_indep {ν : ℝ} (hν : (m : ℝ) - 1 < ν) :
    iIndepFun (fun (k : Fin m) (ω : Src m → ℝ) (c : Option (Option (Fin m))) => ω (cell k c)) (joint m ν) := by
  have := law_prob (m := m) hν
  have := joint_prob (m := m) hν
  have hJ : joint m ν = Measure.infinitePi (law ν) := by rw [Measure.infinitePi_eq_pi]; rfl
  rw [iIndepFun_iff_map_fun_eq_infinitePi_map (by fun_prop)]
  have h1 : ∀ k : Fin m, (joint m ν).map (fun ω (c : Option (Option (Fin m))) => ω (cell k c)) = Measure.infinitePi (fun c => law ν (cell k c)) := by
    intro k
    rw [hJ]
    refine Measure.map_infinitePi_infinitePi_of_inj (P := law ν) (f := cell k) ?_
    intro a b h
    have := @cell_injective m (k, a) (k, b) h
    exact (Prod.ext_iff.1 this).2
  simp only [h1]
  have h2 := Measure.map_infinitePi_infinitePi_of_inj (P := law (m := m) ν) (f := fun p : Fin m × Option (Option (Fin m)) => cell p.1 p.2) cell_injective
  have h3 := Measure.infinitePi_map_curry (fun (k : Fin m) (c : Option (Option (Fin m))) => law ν (cell k c))
  rw [← h3, ← h2, hJ, Measure.map_map (by fun_prop) (by fun_prop)]
  rfl

/-- The law of a linear combination of the normal variables. -/
theorem combination_law {ν : ℝ} (hν : (m : ℝ) - 1 < ν) (c : (Fin m × Fin m) ⊕ Fin m → ℝ) (S : Finset ((Fin m × Fin m) ⊕ Fin m)) :
    (joint m ν).map (fun ω => ∑ r ∈ S, c r * ω (.inr r)) = gaussianReal 0 (∑ r ∈ S, NNReal.mk (c r ^ 2) (sq_nonneg _)) := by
  have := joint_prob (m := m) hν
  classical
  induction S using Finset.induction_on with
  | empty => simp [gaussianReal_zero_var]
  | insert r S hr ih =>
    have hi : iIndepFun (fun (i : (Fin m × Fin m) ⊕ Fin m) (ω : Src m → ℝ) => c i * ω (.inr i)) (joint m ν) :=
      ((joint_indep hν).precomp (g := Sum.inr) Sum.inr_injective).comp (fun i x => c i * x) (fun i => by fun_prop)
    have h1 := hi.indepFun_finsetSum_of_notMem (fun i => by fun_prop) hr
    have e1 : (∑ j ∈ S, fun ω : Src m → ℝ => c j * ω (.inr j)) = fun ω => ∑ j ∈ S, c j * ω (.inr j) := by
      ext ω; simp
    rw [e1] at h1
    have h2 : (joint m ν).map (fun ω => c r * ω (.inr r)) = gaussianReal 0 (NNReal.mk (c r ^ 2) (sq_nonneg _)) := by
      have h3 := gaussianReal_map_const_mul (μ := 0) (v := 1) (c r)
      have h4 : (joint m ν).map (fun ω : Src m → ℝ => ω (.inr r)) = gaussianReal 0 1 := (eval_map hν (.inr r)).map_eq
      rw [← h4, Measure.map_map (by fun_prop) (by fun_prop), mul_zero, mul_one] at h3
      exact h3
    have h5 := gaussianReal_add_gaussianReal_of_indepFun h1 ih h2
    rw [Finset.sum_insert hr, add_comm (NNReal.mk (c r ^ 2) _)]
    rw [add_zero] at h5
    rw [← h5]
    congr 1
    ext ω
    rw [Finset.sum_insert hr, add_comm]
    rfl

/-- One column: a chi-square variable and a normal one. -/
theorem column_factor {ν : ℝ} (hν : (m : ℝ) - 1 < ν) (k : Fin m) (c : (Fin m × Fin m) ⊕ Fin m → ℝ) {v : ℝ} (hv : ∑ r, c r ^ 2 = v) (hv0 : 0 < v) (e : ℝ) :
    ∫ ω, √(ω (.inl k)) * exp (-(√(ω (.inl k)) * e + ∑ r, c r * ω (.inr r)) ^ 2 / 2) ∂joint m ν =
      √2 * (Gamma ((ν + 1 - (k : ℕ)) / 2) / Gamma ((ν - (k : ℕ)) / 2)) * ((1 + v) ^ ((ν - (k : ℕ)) / 2) / (1 + v + e ^ 2) ^ ((ν + 1 - (k : ℕ)) / 2)) := by
  have := joint_prob (m := m) hν
  have ha := shape_pos hν k
  set a : ℝ := (ν - (k : ℕ)) / 2 with hadef
  have := isProbabilityMeasure_gammaMeasure ha (show (0 : ℝ) < 1 / 2 by norm_num)
  set V : ℝ≥0 := NNReal.mk v hv0.le with hV
  have hV0 : V ≠ 0 := fun h => hv0.ne' (congrArg NNReal.toReal h)
  have hlaw : (joint m ν).map (fun ω => ∑ r, c r * ω (.inr r)) = gaussianReal 0 V := by
    rw [combination_law hν c Finset.univ]
    congr 1
    apply NNReal.coe_injective
    rw [NNReal.coe_sum]
    exact hv
  have hchi : (joint m ν).map (fun ω : Src m → ℝ => ω (.inl k)) = gammaMeasure a (1 / 2) := (eval_map hν (.inl k)).map_eq
  have hind : IndepFun (fun ω : Src m → ℝ => ω (.inl k)) (fun ω => ∑ r, c r * ω (.inr r)) (joint m ν) := by
    have h := (joint_indep hν).indepFun_finset {.inl k} (Finset.univ.image Sum.inr) (by
      rw [Finset.disjoint_left]
      intro s hs ht
      rw [Finset.mem_singleton] at hs
      obtain ⟨r, _, h⟩ := Finset.mem_image.1 ht
      rw [hs] at h
      cases h) (fun i => by fun_prop)
    exact h.comp (φ := fun f : ({.inl k} : Finset (Src m)) → ℝ => f ⟨.inl k, Finset.mem_singleton_self _⟩)
      (ψ := fun f : ↥(Finset.univ.image Sum.inr : Finset (Src m)) → ℝ => ∑ r, c r * f ⟨.inr r, Finset.mem_image_of_mem _ (Finset.mem_univ r)⟩) (by fun_prop) (by fun_prop)
  have hm1 : Measurable fun ω : Src m → ℝ => ω (.inl k) := by fun_prop
  have hm2 : Measurable fun ω : Src m → ℝ => ∑ r, c r * ω (.inr r) := by fun_prop
  have hprod := hind.map_prod_eq_prod_map_map hm1.aemeasurable hm2.aemeasurable
  rw [hlaw, hchi] at hprod
  set f : ℝ × ℝ → ℝ := fun p => √p.1 * exp (-(√p.1 * e + p.2) ^ 2 / 2) with hf
  have hfm : Measurable f := by rw [hf]; fun_prop
  have h1 : ∫ ω, √(ω (.inl k)) * exp (-(√(ω (.inl k)) * e + ∑ r, c r * ω (.inr r)) ^ 2 / 2) ∂joint m ν =
      ∫ p, f p ∂((gammaMeasure a (1 / 2)).prod (gaussianReal 0 V)) := by
    rw [← hprod, integral_map (by fun_prop) hfm.aestronglyMeasurable]
  have hint : Integrable f ((gammaMeasure a (1 / 2)).prod (gaussianReal 0 V)) := by
    have hs : Integrable (fun x : ℝ => √x) (gammaMeasure a (1 / 2)) := by
      have h := integrable_rpow_gamma (a := a) (r := 1 / 2) (t := a + 1 / 2) ha (by norm_num) (by positivity)
      refine h.congr ?_
      filter_upwards with x
      rw [Real.sqrt_eq_rpow]
      congr 1
      ring
    refine ((hs.comp_fst (gaussianReal 0 V))).mono' hfm.aestronglyMeasurable (Filter.Eventually.of_forall fun p => ?_)
    rw [hf, Real.norm_eq_abs, abs_of_nonneg (by positivity)]
    have : exp (-(√p.1 * e + p.2) ^ 2 / 2) ≤ 1 := Real.exp_le_one_iff.2 (by nlinarith [sq_nonneg (√p.1 * e + p.2)])
    exact mul_le_of_le_one_right (Real.sqrt_nonneg _) this
  rw [h1, integral_prod _ hint]
  have h2 : ∀ x : ℝ, ∫ y, f (x, y) ∂gaussianReal 0 V = √x * ((√(1 + v))⁻¹ * exp (-(√x * e) ^ 2 / (2 * (1 + v)))) := by
    intro x
    have h := gauss_square hV0 (√x * e)
    have hVv : (V : ℝ) = v := rfl
    rw [hVv] at h
    rw [← h, ← integral_const_mul]
  simp only [h2]
  have h3 : (fun x : ℝ => √x * ((√(1 + v))⁻¹ * exp (-(√x * e) ^ 2 / (2 * (1 + v))))) =ᵐ[gammaMeasure a (1 / 2)]
      fun x => (√(1 + v))⁻¹ * (√x * exp (-(e ^ 2 / (2 * (1 + v))) * x)) := by
    filter_upwards [gammaMeasure_ae] with x hx
    have : -(√x * e) ^ 2 / (2 * (1 + v)) = -(e ^ 2 / (2 * (1 + v))) * x := by
      rw [mul_pow, Real.sq_sqrt hx.le]
      ring
    rw [this]
    ring
  have hw : 0 < 1 + v := by positivity
  have hq : 0 < 1 + v + e ^ 2 := by positivity
  rw [integral_congr_ae h3, integral_const_mul, gamma_half ha (by norm_num) (by positivity)]
  have e1 : (1 : ℝ) / 2 + e ^ 2 / (2 * (1 + v)) = (1 + v + e ^ 2) / (2 * (1 + v)) := by field_simp
  have e2 : (ν + 1 - (k : ℕ)) / 2 = a + 1 / 2 := by rw [hadef]; ring
  rw [e1, e2, Real.div_rpow hq.le (by positivity), Real.mul_rpow (by norm_num) hw.le, Real.rpow_add hw, ← Real.sqrt_eq_rpow,
    Real.rpow_add (by norm_num : (0 : ℝ) < 2), ← Real.sqrt_eq_rpow, one_div, Real.inv_rpow (by norm_num)]
  have n1 := (Real.rpow_pos_of_pos hq (a + 2⁻¹)).ne'
  have n2 := (Real.rpow_pos_of_pos (show (0 : ℝ) < 2 by norm_num) a).ne'
  have n3 := (Real.sqrt_pos.2 hw).ne'
  field_simp

/-- The coefficients of the normal variables in column `k`. -/
noncomputable def coef (e : Fin m → ℝ) (lam : ℝ) (k : Fin m) : (Fin m × Fin m) ⊕ Fin m → ℝ
  | .inl p => if p.2 = k ∧ k < p.1 then e p.1 else 0
  | .inr l => if l = k then -(√lam)⁻¹ else 0

theorem coef_sum (e : Fin m → ℝ) (lam : ℝ) (k : Fin m) (g : (Fin m × Fin m) ⊕ Fin m → ℝ) :
    ∑ r, coef e lam k r * g r = (∑ i, if k < i then e i * g (.inl (i, k)) else 0) - (√lam)⁻¹ * g (.inr k) := by
  rw [Fintype.sum_sum_type, Fintype.sum_prod_type]
  simp only [coef]
  have h1 : ∀ i : Fin m, ∑ l : Fin m, (if l = k ∧ k < i then e i else 0) * g (.inl (i, l)) = if k < i then e i * g (.inl (i, k)) else 0 := by
    intro i
    rw [Finset.sum_eq_single k]
    · by_cases h : k < i <;> simp [h]
    · intro l _ hl; simp [hl]
    · intro h; exact absurd (Finset.mem_univ k) h
  have h2 : ∑ l : Fin m, (if l = k then -(√lam)⁻¹ else 0) * g (.inr l) = -(√lam)⁻¹ * g (.inr k) := by
    rw [Finset.sum_eq_single k]
    · simp
    · intro l _ hl; simp [hl]
    · intro h; exact absurd (Finset.mem_univ k) h
  rw [h2]
  simp only [h1]
  ring

theorem coef_sq (e : Fin m → ℝ) {lam : ℝ} (hl : 0 < lam) (k : Fin m) : ∑ r, coef e lam k r ^ 2 = (∑ i, if k < i then e i ^ 2 else 0) + lam⁻¹ := by
  have h := coef_sum e lam k (coef e lam k)
  simp only [pow_two] at h ⊢
  rw [h]
  have h2 : (√lam)⁻¹ * (√lam)⁻¹ = lam⁻¹ := by rw [← mul_inv, Real.mul_self_sqrt hl.le]
  have h1 : ∀ i, (if k < i then e i * coef e lam k (.inl (i, k)) else 0) = if k < i then e i * e i else 0 := by
    intro i
    by_cases h : k < i <;> simp [coef, h]
  simp only [h1]
  simp only [coef, if_true]
  rw [mul_neg, h2, sub_neg_eq_add]

theorem tri_column (ω : Src m → ℝ) (e : Fin m → ℝ) (lam : ℝ) (k : Fin m) :
    ∑ i, tri ω i k * e i - (√lam)⁻¹ * std ω k = √(ω (.inl k)) * e k + ∑ r, coef e lam k r * ω (.inr r) := by
  rw [coef_sum e lam k (fun r => ω (.inr r))]
  have h : ∀ i, tri ω i k * e i = (if i = k then √(ω (.inl k)) * e k else 0) + if k < i then e i * ω (.inr (.inl (i, k))) else 0 := by
    intro i
    unfold tri
    simp only [of_apply]
    rcases lt_trichotomy k i with h | h | h
    · rw [if_pos h, if_neg (by omega), if_pos h]; ring
    · subst h; simp
    · rw [if_neg (by omega), if_neg (by omega), if_neg (by omega), if_neg (by omega)]; ring
  simp only [h, Finset.sum_add_distrib, Finset.sum_ite_eq', Finset.mem_univ, if_true]
  unfold std
  ring

theorem mahalanobis_columns {L : Matrix (Fin m) (Fin m) ℝ} (hL : L.det ≠ 0) {ω : Src m → ℝ} (h : ∀ i, 0 < ω (.inl i)) (x mu : Fin m → ℝ) {lam : ℝ} (hl : 0 < lam) :
    Mix.mahalanobis x (centre mu lam L ω) (precision L ω) =
      ∑ k, (√(ω (.inl k)) * (Lᵀ *ᵥ (x - mu)) k + ∑ r, coef (Lᵀ *ᵥ (x - mu)) lam k r * ω (.inr r)) ^ 2 := by
  rw [mahalanobis_centre hL h x mu hl, precision_bilin]
  simp only [← tri_column]
  have hs : (√lam)⁻¹ * (√lam)⁻¹ = lam⁻¹ := by rw [← mul_inv, Real.mul_self_sqrt hl.le]
  rw [Finset.mul_sum, Finset.mul_sum, ← Finset.sum_sub_distrib, ← Finset.sum_add_distrib]
  refine Finset.sum_congr rfl fun k _ => ?_
  have e4 : ∑ i, tri ω i k * std ω k * (Lᵀ *ᵥ (x - mu)) i = (∑ i, tri ω i k * (Lᵀ *ᵥ (x - mu)) i) * std ω k := by
    rw [Finset.sum_mul]
    exact Finset.sum_congr rfl fun i _ => by ring
  rw [e4, ← hs]
  ring

/-- The partial sums of squares. -/
noncomputable def tailSq (e : Fin m → ℝ) (lam : ℝ) (k : ℕ) : ℝ := 1 + lam⁻¹ + ∑ i : Fin m, if k ≤ (i : ℕ) then e i ^ 2 else 0

theorem tailSq_pos (e : Fin m → ℝ) {lam : ℝ} (hl : 0 < lam) (k : ℕ) : 0 < tailSq e lam k := by
  have : 0 ≤ ∑ i : Fin m, if k ≤ (i : ℕ) then e i ^ 2 else 0 := Finset.sum_nonneg fun i _ => by split_ifs <;> positivity
  unfold tailSq
  positivity

theorem tailSq_succ (e : Fin m → ℝ) (lam : ℝ) (k : Fin m) : tailSq e lam k = tailSq e lam (k + 1) + e k ^ 2 := by
  unfold tailSq
  have h : ∀ i : Fin m, (if (k : ℕ) ≤ (i : ℕ) then e i ^ 2 else 0) = (if (k : ℕ) + 1 ≤ (i : ℕ) then e i ^ 2 else 0) + if i = k then e k ^ 2 else 0 := by
    intro i
    rcases lt_trichotomy (i : ℕ) k with h | h | h
    · rw [if_neg (by omega), if_neg (by omega), if_neg (by intro h2; subst h2; omega)]; ring
    · have : i = k := Fin.ext h
      subst this; simp
    · rw [if_pos (by omega), if_pos (by omega), if_neg (by intro h2; subst h2; omega)]; ring
  simp only [h, Finset.sum_add_distrib, Finset.sum_ite_eq', Finset.mem_univ, if_true]
  ring

/-- **The expected density**: the Student-t density with `ν + 1 - m` degrees of freedom, centre `mu` and precision `(ν + 1 - m) lam / (1 + lam) L Lᵀ`. -/
theorem expected_normalPdf {ν : ℝ} (hν : (m : ℝ) - 1 < ν) {L : Matrix (Fin m) (Fin m) ℝ} (hL : L.det ≠ 0) (x mu : Fin m → ℝ) {lam : ℝ} (hl : 0 < lam) :
    Integrable (fun ω => Mix.normalPdf x (centre mu lam L ω) (precision L ω)) (joint m ν) ∧
    ∫ ω, Mix.normalPdf x (centre mu lam L ω) (precision L ω) ∂joint m ν =
      Mix.studentsPdf x mu (fun i j => (L * Lᵀ) i j * (ν + 1 - m) * lam / (1 + lam)) (ν + 1 - m) := by
  have := joint_prob (m := m) hν
  set e := Lᵀ *ᵥ (x - mu) with he
  have hD : 0 < (L * Lᵀ).det := by rw [det_mul, det_transpose]; exact mul_self_pos.2 hL
  set G : Fin m → (Option (Option (Fin m)) → ℝ) → ℝ := fun k g =>
    √(g none) * exp (-(√(g none) * e k + ((∑ i, if k < i then e i * g (some (some i)) else 0) - (√lam)⁻¹ * g (some none))) ^ 2 / 2) with hG
  have hGm : ∀ k, Measurable (G k) := by
    intro k
    rw [hG]
    have hms : Measurable fun g : Option (Option (Fin m)) → ℝ => ∑ i, if k < i then e i * g (some (some i)) else 0 := by
      refine Finset.measurable_sum _ fun i _ => ?_
      split_ifs <;> fun_prop
    fun_prop
  have hGe : ∀ k (ω : Src m → ℝ), G k (fun c => ω (cell k c)) = √(ω (.inl k)) * exp (-(√(ω (.inl k)) * e k + ∑ r, coef e lam k r * ω (.inr r)) ^ 2 / 2) := by
    intro k ω
    rw [coef_sum e lam k (fun r => ω (.inr r))]
    rfl
  have hae : (fun ω => Mix.normalPdf x (centre mu lam L ω) (precision L ω)) =ᵐ[joint m ν]
      fun ω => √((L * Lᵀ).det / (2 * π) ^ m) * ∏ k, G k (fun c => ω (cell k c)) := by
    filter_upwards [chi_pos hν] with ω h
    unfold Mix.normalPdf
    rw [mahalanobis_columns hL h x mu hl]
    have e1 : (Matrix.of (fun i j => precision L ω i j)).det = (L * Lᵀ).det * (∏ k, √(ω (.inl k))) ^ 2 := by
      show (precision L ω).det = _
      unfold precision factor
      rw [det_mul, det_transpose, det_mul, tri_det, det_mul, det_transpose]
      ring
    have e2 : √((L * Lᵀ).det * (∏ k, √(ω (.inl k))) ^ 2 / (2 * π) ^ m) = √((L * Lᵀ).det / (2 * π) ^ m) * ∏ k, √(ω (.inl k)) := by
      rw [mul_div_right_comm, Real.sqrt_mul (by positivity), Real.sqrt_sq (Finset.prod_nonneg fun i _ => Real.sqrt_nonneg _)]
    have e3 : ∀ s : Fin m → ℝ, exp (-(∑ k, s k ^ 2) / 2) = ∏ k, exp (-(s k) ^ 2 / 2) := by
      intro s
      rw [← Real.exp_sum]
      congr 1
      rw [neg_div, Finset.sum_div, ← Finset.sum_neg_distrib]
      exact Finset.sum_congr rfl fun k _ => by ring
    have e4 : √((Matrix.of (precision L ω)).det / (2 * π) ^ m) = √((L * Lᵀ).det / (2 * π) ^ m) * ∏ k, √(ω (.inl k)) := by
      rw [← e2, ← e1]
    rw [e4, e3, mul_assoc, ← Finset.prod_mul_distrib]
    congr 1
    exact Finset.prod_congr rfl fun k _ => (hGe k ω).symm
  set T := tailSq e lam with hT
  set f : ℕ → ℝ := fun k => Gamma ((ν + 1 - k) / 2) / T k ^ ((ν + 1 - k) / 2) with hfdef
  have hfp : ∀ k : ℕ, k ≤ m → 0 < f k := by
    intro k hk
    have h1 : (k : ℝ) ≤ m := by exact_mod_cast hk
    exact div_pos (Real.Gamma_pos_of_pos (by linarith)) (Real.rpow_pos_of_pos (tailSq_pos e hl k) _)
  have hcol : ∀ k : Fin m, ∫ ω, G k (fun c => ω (cell k c)) ∂joint m ν = √2 * (f k / f (k + 1)) := by
    intro k
    have hv : ∑ r, coef e lam k r ^ 2 = T (k + 1) - 1 := by
      rw [coef_sq e hl k, hT, tailSq]
      have : ∀ i : Fin m, (if k < i then e i ^ 2 else 0) = if (k : ℕ) + 1 ≤ (i : ℕ) then e i ^ 2 else 0 := by
        intro i
        by_cases h : k < i
        · rw [if_pos h, if_pos (by have : (k : ℕ) < i := h; omega)]
        · rw [if_neg h, if_neg (by have : ¬ (k : ℕ) < i := h; omega)]
      simp only [this]
      ring
    have hv0 : 0 < T (k + 1) - 1 := by
      rw [← hv, coef_sq e hl k]
      have : 0 ≤ ∑ i, if k < i then e i ^ 2 else 0 := Finset.sum_nonneg fun i _ => by split_ifs <;> positivity
      positivity
    simp only [hGe]
    rw [column_factor hν k (coef e lam k) hv hv0 (e k), mul_assoc]
    congr 1
    have h1 : 1 + (T (k + 1) - 1) = T (k + 1) := by ring
    rw [h1, ← tailSq_succ e lam k]
    rw [hfdef]
    show _ = _ / (Gamma ((ν + 1 - ((k : ℕ) + 1 : ℕ)) / 2) / _)
    have h2 : ν + 1 - (((k : ℕ) + 1 : ℕ) : ℝ) = ν - (k : ℕ) := by push_cast; ring
    rw [h2]
    have n1 := (Real.Gamma_pos_of_pos (shape_pos hν k)).ne'
    have n2 := (Real.rpow_pos_of_pos (tailSq_pos e hl (k : ℕ)) ((ν + 1 - (k : ℕ)) / 2)).ne'
    have n3 := (Real.rpow_pos_of_pos (tailSq_pos e hl ((k : ℕ) + 1)) ((ν - (k : ℕ)) / 2)).ne'
    rw [hT]
    field_simp
  have hval : ∫ ω, Mix.normalPdf x (centre mu lam L ω) (precision L ω) ∂joint m ν = √((L * Lᵀ).det / (2 * π) ^ m) * (√2 ^ m * (f 0 / f m)) := by
    rw [integral_congr_ae hae, integral_const_mul, (columns_indep hν).integral_fun_prod_comp (fun k => (show Measurable fun (ω : Src m → ℝ) c => ω (cell k c) by fun_prop).aemeasurable) (fun k => (hGm k).aestronglyMeasurable)]
    simp only [hcol]
    rw [Finset.prod_mul_distrib, Finset.prod_const, Finset.card_univ, Fintype.card_fin, Fin.prod_univ_eq_prod_range (fun k => f k / f (k + 1)) m]
    congr 2
    have : ∀ n : ℕ, n ≤ m → ∏ k ∈ Finset.range n, f k / f (k + 1) = f 0 / f n := by
      intro n
      induction n with
      | zero => intro _; rw [Finset.prod_range_zero, div_self (hfp 0 (Nat.zero_le _)).ne']
      | succ n ih =>
        intro hn
        rw [Finset.prod_range_succ, ih (by omega)]
        have h1 := (hfp n (by omega)).ne'
        have h2 := (hfp (n + 1) hn).ne'
        field_simp
    exact this m le_rfl
  have hpos : 0 < √((L * Lᵀ).det / (2 * π) ^ m) * (√2 ^ m * (f 0 / f m)) := by
    have := hfp 0 (Nat.zero_le _)
    have := hfp m le_rfl
    positivity
  refine ⟨by_contra fun h => hpos.ne' (by rw [← hval, integral_undef h]), hval.trans ?_⟩
  -- the Student-t density
  set n' : ℝ := ν + 1 - m with hn'
  have hn0 : 0 < n' := by rw [hn']; linarith
  have hw : (0 : ℝ) < 1 + lam := by positivity
  set c : ℝ := n' * lam / (1 + lam) with hc
  have hc0 : 0 < c := by rw [hc]; positivity
  have hQ : ∑ i : Fin m, e i ^ 2 = Mix.mahalanobis x mu (L * Lᵀ) := by
    rw [mahalanobis_eq, ← scale_bilin]
    exact Finset.sum_congr rfl fun i _ => by rw [he]; ring
  have hT0 : T 0 = 1 + lam⁻¹ + Mix.mahalanobis x mu (L * Lᵀ) := by
    rw [hT, tailSq, ← hQ]
    simp
  have hTm : T m = 1 + lam⁻¹ := by
    rw [hT, tailSq]
    have : ∀ i : Fin m, (if m ≤ (i : ℕ) then e i ^ 2 else 0) = 0 := fun i => if_neg (by have := i.2; omega)
    simp [this]
  have hP : (fun i j => (L * Lᵀ) i j * n' * lam / (1 + lam)) = c • (L * Lᵀ) := by
    ext i j
    rw [Matrix.smul_apply, smul_eq_mul, hc]
    ring
  have hmah : Mix.mahalanobis x mu (fun i j => (L * Lᵀ) i j * n' * lam / (1 + lam)) = c * Mix.mahalanobis x mu (L * Lᵀ) := by
    unfold Mix.mahalanobis
    rw [Finset.mul_sum]
    refine Finset.sum_congr rfl fun i _ => ?_
    rw [Finset.mul_sum]
    exact Finset.sum_congr rfl fun j _ => by rw [hc]; ring
  unfold Mix.studentsPdf
  rw [hmah]
  have hdet : (Matrix.of (fun i j => (L * Lᵀ) i j * n' * lam / (1 + lam))).det = c ^ m * (L * Lᵀ).det := by
    rw [hP]
    show (c • (L * Lᵀ)).det = _
    rw [det_smul, Fintype.card_fin]
  rw [hdet, hfdef]
  have g1 : (ν + 1 - ((0 : ℕ) : ℝ)) / 2 = (n' + m) / 2 := by rw [hn']; push_cast; ring
  have g2 : (ν + 1 - (m : ℝ)) / 2 = n' / 2 := by rw [hn']
  simp only [g1, g2]
  have hQ0 : 0 ≤ Mix.mahalanobis x mu (L * Lᵀ) := by rw [← hQ]; exact Finset.sum_nonneg fun i _ => sq_nonneg _
  have hTq : T 0 = (1 + lam⁻¹) * (1 + c * Mix.mahalanobis x mu (L * Lᵀ) / n') := by
    rw [hT0, hc]
    field_simp
    ring
  have hl1 : (0 : ℝ) < 1 + lam⁻¹ := by positivity
  have hq1 : 0 < 1 + c * Mix.mahalanobis x mu (L * Lᵀ) / n' := by positivity
  rw [hTq, hTm, Real.mul_rpow hl1.le hq1.le, neg_div, Real.rpow_neg hq1.le]
  have s1 : √((L * Lᵀ).det / (2 * π) ^ m) * √2 ^ m = √((L * Lᵀ).det) / √(π ^ m) := by
    rw [Real.sqrt_div' _ (by positivity), mul_pow, Real.sqrt_mul (by positivity)]
    have : √2 ^ m = √(2 ^ m) := by
      rw [Real.sqrt_eq_rpow, Real.sqrt_eq_rpow, ← Real.rpow_natCast, ← Real.rpow_natCast, ← Real.rpow_mul (by norm_num), ← Real.rpow_mul (by norm_num), mul_comm]
    rw [this]
    have h1 : √((2 : ℝ) ^ m) ≠ 0 := (Real.sqrt_pos.2 (by positivity)).ne'
    have h2 : √(π ^ m) ≠ 0 := (Real.sqrt_pos.2 (by positivity)).ne'
    field_simp
  have s2 : (n' * π) ^ ((m : ℝ) / 2) = √(n' ^ m) * √(π ^ m) := by
    rw [← Real.sqrt_mul (by positivity), ← mul_pow, Real.sqrt_eq_rpow, ← Real.rpow_natCast, ← Real.rpow_mul (by positivity)]
    congr 1
    ring
  have s3 : √(c ^ m * (L * Lᵀ).det) = √(c ^ m) * √((L * Lᵀ).det) := Real.sqrt_mul (by positivity) _
  have s4 : (1 + lam⁻¹) ^ ((n' + m) / 2) = (1 + lam⁻¹) ^ (n' / 2) * √((1 + lam⁻¹) ^ m) := by
    rw [add_div, Real.rpow_add hl1]
    congr 1
    rw [Real.sqrt_eq_rpow, ← Real.rpow_natCast, ← Real.rpow_mul hl1.le]
    congr 1
    ring
  have s5 : √(n' ^ m) = √(c ^ m) * √((1 + lam⁻¹) ^ m) := by
    rw [← Real.sqrt_mul (by positivity), ← mul_pow]
    congr 2
    rw [hc]
    field_simp
    ring
  rw [← mul_assoc, s1, s2, s3, s4, s5]
  have n1 := (Real.Gamma_pos_of_pos (show 0 < n' / 2 by positivity)).ne'
  have n2 := (Real.rpow_pos_of_pos hl1 (n' / 2)).ne'
  have n3 := (Real.rpow_pos_of_pos hq1 ((n' + m) / 2)).ne'
  have n4 : √((1 + lam⁻¹) ^ m) ≠ 0 := (Real.sqrt_pos.2 (by positivity)).ne'
  have n5 : √(c ^ m) ≠ 0 := (Real.sqrt_pos.2 (by positivity)).ne'
  have n6 : √(π ^ m) ≠ 0 := (Real.sqrt_pos.2 (by positivity)).ne'
  field_simp

end Verif.NW
