import Verif.Lemmas.GammaLog
import Verif.Props.C69
import Mathlib.Probability.Independence.Integration
import Mathlib.LinearAlgebra.Matrix.Block
import Mathlib.LinearAlgebra.Matrix.NonsingularInverse

/-!
# The normal-Wishart law

The law of a pair (mean, precision) in Bartlett's form: with `P = L Lᵀ` the precision is `L A Aᵀ Lᵀ`, where `A` is lower triangular with independent entries, the
square of the `i`-th diagonal entry having the law chi-square with `ν - i` degrees of freedom, the entries below the diagonal being standard normal; given
the precision `Λ` the mean is normal with mean `mu` and precision `lam Λ`.  All variables are functions of independent ones, indexed by `Src m`.
-/

namespace Verif.NW
open MeasureTheory ProbabilityTheory Real Matrix
variable {m : ℕ}

/-- The independent variables: one for each diagonal entry, for each pair of indices, and for each coordinate of the mean. -/
abbrev Src (m : ℕ) : Type := Fin m ⊕ (Fin m × Fin m) ⊕ Fin m

/-- Their laws: chi-square with `ν - i` degrees of freedom, standard normal, standard normal. -/
noncomputable def law (ν : ℝ) : Src m → Measure ℝ
  | .inl i => gammaMeasure ((ν - (i : ℕ)) / 2) (1 / 2)
  | .inr _ => gaussianReal 0 1

/-- The joint law. -/
noncomputable def joint (m : ℕ) (ν : ℝ) : Measure (Src m → ℝ) := Measure.pi (law ν)

/-- Bartlett's triangular matrix. -/
noncomputable def tri (ω : Src m → ℝ) : Matrix (Fin m) (Fin m) ℝ := .of fun i k => if k < i then ω (.inr (.inl (i, k))) else if k = i then √(ω (.inl i)) else 0

/-- The standard normal vector. -/
def std (ω : Src m → ℝ) (k : Fin m) : ℝ := ω (.inr (.inr k))

/-- A factor of the precision. -/
noncomputable def factor (L : Matrix (Fin m) (Fin m) ℝ) (ω : Src m → ℝ) : Matrix (Fin m) (Fin m) ℝ := L * tri ω

/-- The precision. -/
noncomputable def precision (L : Matrix (Fin m) (Fin m) ℝ) (ω : Src m → ℝ) : Matrix (Fin m) (Fin m) ℝ := factor L ω * (factor L ω)ᵀ

/-- The mean: given the precision `B Bᵀ` it is `mu` plus `(√lam)⁻¹ (Bᵀ)⁻¹ z` with `z` standard normal. -/
noncomputable def centre (mu : Fin m → ℝ) (lam : ℝ) (L : Matrix (Fin m) (Fin m) ℝ) (ω : Src m → ℝ) : Fin m → ℝ :=
  mu + (√lam)⁻¹ • ((factor L ω)ᵀ⁻¹ *ᵥ std ω)

theorem shape_pos {ν : ℝ} (hν : (m : ℝ) - 1 < ν) (i : Fin m) : 0 < (ν - (i : ℕ)) / 2 := by
  have : ((i : ℕ) : ℝ) + 1 ≤ m := by exact_mod_cast i.2
  linarith

theorem law_prob {ν : ℝ} (hν : (m : ℝ) - 1 < ν) (s : Src m) : IsProbabilityMeasure (law ν s) := by
  rcases s with i | s
  · exact isProbabilityMeasure_gammaMeasure (shape_pos hν i) (by norm_num)
  · exact inferInstanceAs (IsProbabilityMeasure (gaussianReal 0 1))

theorem joint_prob {ν : ℝ} (hν : (m : ℝ) - 1 < ν) : IsProbabilityMeasure (joint m ν) := by
  have := law_prob (m := m) hν
  unfold joint
  infer_instance

theorem eval_map {ν : ℝ} (hν : (m : ℝ) - 1 < ν) (s : Src m) : MeasurePreserving (fun ω : Src m → ℝ => ω s) (joint m ν) (law ν s) := by
  have := law_prob (m := m) hν
  exact measurePreserving_eval _ s

theorem integrable_eval {ν : ℝ} (hν : (m : ℝ) - 1 < ν) (s : Src m) {f : ℝ → ℝ} (hf : Integrable f (law ν s)) : Integrable (fun ω => f (ω s)) (joint m ν) :=
  (eval_map hν s).integrable_comp_of_integrable hf

theorem integral_eval {ν : ℝ} (hν : (m : ℝ) - 1 < ν) (s : Src m) {f : ℝ → ℝ} (hf : AEStronglyMeasurable f (law ν s)) :
    ∫ ω, f (ω s) ∂joint m ν = ∫ x, f x ∂law ν s := by
  have h := eval_map hν s
  rw [← h.map_eq] at hf ⊢
  exact (integral_map h.aemeasurable hf).symm

/-- A product of functions of two different variables. -/
theorem mul_eval {ν : ℝ} (hν : (m : ℝ) - 1 < ν) {s t : Src m} (hst : s ≠ t) {f g : ℝ → ℝ} (hf : Measurable f) (hg : Measurable g)
    (hfi : Integrable f (law ν s)) (hgi : Integrable g (law ν t)) :
    Integrable (fun ω => f (ω s) * g (ω t)) (joint m ν) ∧ ∫ ω, f (ω s) * g (ω t) ∂joint m ν = (∫ x, f x ∂law ν s) * ∫ x, g x ∂law ν t := by
  have := law_prob (m := m) hν
  have hi : iIndepFun (fun (i : Src m) (ω : Src m → ℝ) => ω i) (joint m ν) := iIndepFun_pi (X := fun _ x => x) fun _ => aemeasurable_id
  have h2 : IndepFun (fun ω : Src m → ℝ => f (ω s)) (fun ω => g (ω t)) (joint m ν) := (hi.indepFun hst).comp hf hg
  refine ⟨h2.integrable_mul (integrable_eval hν s hfi) (integrable_eval hν t hgi), ?_⟩
  rw [h2.integral_fun_mul_eq_mul_integral (integrable_eval hν s hfi).1 (integrable_eval hν t hgi).1, integral_eval hν s hfi.1, integral_eval hν t hgi.1]

theorem gauss_id : Integrable (fun x : ℝ => x) (gaussianReal 0 1) ∧ ∫ x, x ∂gaussianReal 0 1 = 0 :=
  ⟨(memLp_id_gaussianReal 1).integrable (by simp), integral_id_gaussianReal⟩

theorem gauss_sq : Integrable (fun x : ℝ => x * x) (gaussianReal 0 1) ∧ ∫ x, x * x ∂gaussianReal 0 1 = 1 := by
  have h : MemLp (fun x : ℝ => x) 2 (gaussianReal 0 1) := memLp_id_gaussianReal 2
  have h2 := h.integrable_sq
  simp only [pow_two] at h2
  refine ⟨h2, ?_⟩
  have hv := variance_fun_id_gaussianReal (μ := 0) (v := 1)
  rw [variance_of_integral_eq_zero h.1.aemeasurable gauss_id.2] at hv
  simpa [pow_two] using hv

/-- The variable of an entry of the triangular matrix. -/
def src (i k : Fin m) : Src m := if k < i then .inr (.inl (i, k)) else .inl i

/-- The entry as a function of that variable. -/
noncomputable def entry (i k : Fin m) (x : ℝ) : ℝ := if k < i then x else if k = i then √x else 0

theorem tri_entry (ω : Src m → ℝ) (i k : Fin m) : tri ω i k = entry i k (ω (src i k)) := by
  unfold tri entry src
  simp only [of_apply]
  split_ifs <;> rfl

theorem entry_measurable (i k : Fin m) : Measurable (entry i k) := by
  unfold entry
  split_ifs <;> fun_prop

theorem law_src_lt {ν : ℝ} {i k : Fin m} (h : k < i) : law ν (src i k) = gaussianReal 0 1 := by
  unfold src
  rw [if_pos h]
  rfl

theorem law_src_ge {ν : ℝ} {i k : Fin m} (h : ¬ k < i) : law ν (src i k) = gammaMeasure ((ν - (i : ℕ)) / 2) (1 / 2) := by
  unfold src
  rw [if_neg h]
  rfl

theorem entry_integrable {ν : ℝ} (hν : (m : ℝ) - 1 < ν) (i k : Fin m) : Integrable (entry i k) (law ν (src i k)) := by
  by_cases h : k < i
  · rw [law_src_lt h]
    have : entry i k = fun x => x := by funext x; simp [entry, h]
    rw [this]
    exact gauss_id.1
  · rw [law_src_ge h]
    have hs := shape_pos hν i
    have : entry i k = if k = i then fun x => √x else fun _ => 0 := by
      funext x
      unfold entry
      rw [if_neg h]
      split_ifs <;> rfl
    rw [this]
    split_ifs
    · have h2 := integrable_rpow_gamma hs (show (0 : ℝ) < 1 / 2 by norm_num) (show 0 < (ν - (i : ℕ)) / 2 + 1 / 2 by linarith)
      refine h2.congr (Filter.Eventually.of_forall fun x => ?_)
      simp only
      rw [add_sub_cancel_left, Real.sqrt_eq_rpow]
    · exact integrable_zero _ _ _

theorem entry_mean {ν : ℝ} {i k : Fin m} (h : k ≠ i) : ∫ x, entry i k x ∂law ν (src i k) = 0 := by
  by_cases hk : k < i
  · rw [law_src_lt hk]
    have : entry i k = fun x => x := by funext x; simp [entry, hk]
    rw [this]
    exact gauss_id.2
  · have : entry i k = fun _ => 0 := by funext x; simp [entry, hk, h]
    rw [this, integral_zero]

/-- The second moment of an entry. -/
noncomputable def secondMoment (ν : ℝ) (i k : Fin m) : ℝ := if k < i then 1 else if k = i then ν - (i : ℕ) else 0

theorem entry_sq {ν : ℝ} (hν : (m : ℝ) - 1 < ν) (i k : Fin m) :
    Integrable (fun x => entry i k x * entry i k x) (law ν (src i k)) ∧ ∫ x, entry i k x * entry i k x ∂law ν (src i k) = secondMoment ν i k := by
  by_cases h : k < i
  · rw [law_src_lt h]
    have : (fun x => entry i k x * entry i k x) = fun x => x * x := by funext x; simp [entry, h]
    rw [this, secondMoment, if_pos h]
    exact gauss_sq
  · rw [law_src_ge h]
    have hs := shape_pos hν i
    by_cases hk : k = i
    · have hc : (fun x => entry i k x * entry i k x) =ᵐ[gammaMeasure ((ν - (i : ℕ)) / 2) (1 / 2)] fun x => x := by
        filter_upwards [gammaMeasure_ae] with x hx
        unfold entry
        rw [if_neg h, if_pos hk, Real.mul_self_sqrt hx.le]
      have hm := gamma_mean hs (show (0 : ℝ) < 1 / 2 by norm_num)
      refine ⟨hm.1.congr hc.symm, ?_⟩
      rw [integral_congr_ae hc, hm.2, secondMoment, if_neg h, if_pos hk]
      ring
    · have : (fun x => entry i k x * entry i k x) = fun _ => 0 := by funext x; simp [entry, h, hk]
      rw [this, secondMoment, if_neg h, if_neg hk]
      exact ⟨integrable_zero _ _ _, integral_zero _ _⟩

theorem src_ne {i l k k' : Fin m} (h : i ≠ l) : src i k ≠ src l k' := by
  unfold src
  split_ifs <;> simp [h]

theorem tri_mul {ν : ℝ} (hν : (m : ℝ) - 1 < ν) (i l k : Fin m) :
    Integrable (fun ω => tri ω i k * tri ω l k) (joint m ν) ∧ ∫ ω, tri ω i k * tri ω l k ∂joint m ν = if i = l then secondMoment ν i k else 0 := by
  simp only [tri_entry]
  split_ifs with h
  · subst h
    have h2 := entry_sq hν i k
    exact ⟨integrable_eval hν (src i k) h2.1, (integral_eval hν (src i k) h2.1.1).trans h2.2⟩
  · have h2 := mul_eval hν (src_ne (k := k) (k' := k) h) (entry_measurable i k) (entry_measurable l k) (entry_integrable hν i k) (entry_integrable hν l k)
    refine ⟨h2.1, h2.2.trans ?_⟩
    by_cases hk : k = i
    · rw [entry_mean (show k ≠ l from fun e => h (hk.symm.trans e)), mul_zero]
    · rw [entry_mean hk, zero_mul]

theorem tri_std {ν : ℝ} (hν : (m : ℝ) - 1 < ν) (i k : Fin m) :
    Integrable (fun ω => tri ω i k * std ω k) (joint m ν) ∧ ∫ ω, tri ω i k * std ω k ∂joint m ν = 0 := by
  simp only [tri_entry, std]
  have hne : src i k ≠ .inr (.inr k) := by unfold src; split_ifs <;> simp
  have h2 := mul_eval hν hne (entry_measurable i k) measurable_id' (entry_integrable hν i k) gauss_id.1
  refine ⟨h2.1, h2.2.trans ?_⟩
  rw [show ∫ x, x ∂law ν (.inr (.inr k) : Src m) = 0 from gauss_id.2, mul_zero]

theorem std_sq {ν : ℝ} (hν : (m : ℝ) - 1 < ν) (k : Fin m) :
    Integrable (fun ω => std ω k * std ω k) (joint m ν) ∧ ∫ ω, std ω k * std ω k ∂joint m ν = 1 :=
  ⟨integrable_eval hν (.inr (.inr k)) (f := fun x => x * x) gauss_sq.1, (integral_eval hν (.inr (.inr k)) (f := fun x => x * x) gauss_sq.1.1).trans gauss_sq.2⟩

theorem sum_secondMoment (ν : ℝ) (i : Fin m) : ∑ k, secondMoment ν i k = ν := by
  have e : ∀ k, secondMoment ν i k = (if k < i then (1 : ℝ) else 0) + if k = i then ν - (i : ℕ) else 0 := by
    intro k
    unfold secondMoment
    by_cases h : k < i
    · rw [if_pos h, if_pos h, if_neg h.ne, add_zero]
    · rw [if_neg h, if_neg h, zero_add]
  simp_rw [e]
  rw [Finset.sum_add_distrib, Finset.sum_ite_eq' Finset.univ i, if_pos (Finset.mem_univ _), Finset.sum_boole]
  have : (Finset.univ.filter fun k : Fin m => k < i).card = (i : ℕ) := by
    rw [show (Finset.univ.filter fun k : Fin m => k < i) = Finset.Iio i by ext; simp, Fin.card_Iio]
  rw [this]
  ring

/-- Sums over the columns of `A`. -/
theorem tri_bilin {ν : ℝ} (hν : (m : ℝ) - 1 < ν) (e f : Fin m → ℝ) :
    Integrable (fun ω => ∑ k, (∑ i, tri ω i k * e i) * ∑ l, tri ω l k * f l) (joint m ν) ∧
      ∫ ω, ∑ k, (∑ i, tri ω i k * e i) * ∑ l, tri ω l k * f l ∂joint m ν = ν * ∑ i, e i * f i := by
  have ex : ∀ ω : Src m → ℝ, ∑ k, (∑ i, tri ω i k * e i) * ∑ l, tri ω l k * f l = ∑ k, ∑ i, ∑ l, tri ω i k * tri ω l k * (e i * f l) := by
    intro ω
    refine Finset.sum_congr rfl fun k _ => ?_
    rw [Finset.sum_mul_sum]
    exact Finset.sum_congr rfl fun i _ => Finset.sum_congr rfl fun l _ => by ring
  simp_rw [ex]
  have hi : ∀ k i l, Integrable (fun ω : Src m → ℝ => tri ω i k * tri ω l k * (e i * f l)) (joint m ν) := fun k i l => (tri_mul hν i l k).1.mul_const _
  refine ⟨integrable_finsetSum _ fun k _ => integrable_finsetSum _ fun i _ => integrable_finsetSum _ fun l _ => hi k i l, ?_⟩
  rw [integral_finsetSum _ fun k _ => integrable_finsetSum _ fun i _ => integrable_finsetSum _ fun l _ => hi k i l]
  have h1 : ∀ k, ∫ ω, ∑ i, ∑ l, tri ω i k * tri ω l k * (e i * f l) ∂joint m ν = ∑ i, secondMoment ν i k * (e i * f i) := by
    intro k
    rw [integral_finsetSum _ fun i _ => integrable_finsetSum _ fun l _ => hi k i l]
    refine Finset.sum_congr rfl fun i _ => ?_
    rw [integral_finsetSum _ fun l _ => hi k i l, Finset.sum_eq_single i]
    · rw [integral_mul_const, (tri_mul hν i i k).2, if_pos rfl]
    · intro l _ hl
      rw [integral_mul_const, (tri_mul hν i l k).2, if_neg (Ne.symm hl), zero_mul]
    · intro h
      exact absurd (Finset.mem_univ _) h
  simp_rw [h1]
  rw [Finset.sum_comm, Finset.mul_sum]
  refine Finset.sum_congr rfl fun i _ => ?_
  rw [← Finset.sum_mul, sum_secondMoment]

/-! ### The determinant -/

theorem tri_det (ω : Src m → ℝ) : (tri ω).det = ∏ i, √(ω (.inl i)) := by
  rw [det_of_isLowerTriangular (tri ω) ?_]
  · refine Finset.prod_congr rfl fun i _ => ?_
    simp [tri]
  · intro i j hij
    have h : i < j := hij
    simp [tri, h.not_gt, h.ne']

theorem chi_pos {ν : ℝ} (hν : (m : ℝ) - 1 < ν) : ∀ᵐ ω ∂joint m ν, ∀ i, 0 < ω (.inl i) := by
  rw [ae_all_iff]
  intro i
  have h := eval_map hν (.inl i : Src m)
  exact h.quasiMeasurePreserving.ae (p := fun x => 0 < x) gammaMeasure_ae

theorem factor_det_ne {L : Matrix (Fin m) (Fin m) ℝ} (hL : L.det ≠ 0) {ω : Src m → ℝ} (h : ∀ i, 0 < ω (.inl i)) : (factor L ω).det ≠ 0 := by
  unfold factor
  rw [det_mul, tri_det]
  exact mul_ne_zero hL (Finset.prod_ne_zero_iff.2 fun i _ => (Real.sqrt_pos.2 (h i)).ne')

theorem precision_det_pos {L : Matrix (Fin m) (Fin m) ℝ} (hL : L.det ≠ 0) {ω : Src m → ℝ} (h : ∀ i, 0 < ω (.inl i)) : 0 < (precision L ω).det := by
  unfold precision
  rw [det_mul, det_transpose]
  exact mul_self_pos.2 (factor_det_ne hL h)

theorem log_det_precision {L : Matrix (Fin m) (Fin m) ℝ} (hL : L.det ≠ 0) {ω : Src m → ℝ} (h : ∀ i, 0 < ω (.inl i)) :
    log (precision L ω).det = log (L * Lᵀ).det + ∑ i, log (ω (.inl i)) := by
  have e : (precision L ω).det = (L * Lᵀ).det * ∏ i, ω (.inl i) := by
    unfold precision factor
    rw [det_mul, det_transpose, det_mul, tri_det, det_mul, det_transpose]
    have : ∏ i, ω (.inl i) = (∏ i, √(ω (.inl i))) * ∏ i, √(ω (.inl i)) := by
      rw [← Finset.prod_mul_distrib]
      exact Finset.prod_congr rfl fun i _ => (Real.mul_self_sqrt (h i).le).symm
    rw [this]
    ring
  rw [e, Real.log_mul, Real.log_prod]
  · exact fun i _ => (h i).ne'
  · rw [det_mul, det_transpose]
    exact mul_ne_zero hL hL
  · exact Finset.prod_ne_zero_iff.2 fun i _ => (h i).ne'

/-- **The expected log determinant.** -/
theorem expected_log_det {ν : ℝ} (hν : (m : ℝ) - 1 < ν) {L : Matrix (Fin m) (Fin m) ℝ} (hL : L.det ≠ 0) :
    Integrable (fun ω => log (precision L ω).det) (joint m ν) ∧ ∫ ω, log (precision L ω).det ∂joint m ν = Mix.wishartLogDet (L * Lᵀ) ν := by
  have hc : (fun ω => log (precision L ω).det) =ᵐ[joint m ν] fun ω => log (L * Lᵀ).det + ∑ i, log (ω (.inl i)) := by
    filter_upwards [chi_pos hν] with ω h
    exact log_det_precision hL h
  have := joint_prob hν
  have hl : ∀ i : Fin m, Integrable (fun ω : Src m → ℝ => log (ω (.inl i))) (joint m ν) ∧
      ∫ ω, log (ω (.inl i)) ∂joint m ν = psi ((ν - (i : ℕ)) / 2) + log 2 := by
    intro i
    have h := gamma_log (shape_pos hν i) (show (0 : ℝ) < 1 / 2 by norm_num)
    refine ⟨integrable_eval hν (.inl i) h.1, (integral_eval hν (.inl i) h.1.1).trans (h.2.trans ?_)⟩
    rw [one_div, Real.log_inv]
    ring
  have hs : Integrable (fun ω : Src m → ℝ => ∑ i, log (ω (.inl i))) (joint m ν) := integrable_finsetSum _ fun i _ => (hl i).1
  refine ⟨((integrable_const _).add hs).congr hc.symm, ?_⟩
  rw [integral_congr_ae hc, integral_add (integrable_const _) hs, integral_const, integral_finsetSum _ fun i _ => (hl i).1]
  simp only [(hl _).2, Finset.sum_add_distrib, probReal_univ, one_smul, Finset.sum_const, Finset.card_univ, Fintype.card_fin, nsmul_eq_mul]
  unfold Mix.wishartLogDet psi
  show log (L * Lᵀ).det + _ = log (L * Lᵀ).det + _ + _
  ring

/-! ### Quadratic forms -/

theorem precision_bilin (L : Matrix (Fin m) (Fin m) ℝ) (ω : Src m → ℝ) (u v : Fin m → ℝ) :
    u ⬝ᵥ (precision L ω *ᵥ v) = ∑ k, (∑ i, tri ω i k * (Lᵀ *ᵥ u) i) * ∑ l, tri ω l k * (Lᵀ *ᵥ v) l := by
  have e : ∀ w : Fin m → ℝ, ∀ k, ((factor L ω)ᵀ *ᵥ w) k = ∑ i, tri ω i k * (Lᵀ *ᵥ w) i := by
    intro w k
    unfold factor
    rw [transpose_mul, ← mulVec_mulVec]
    rfl
  unfold precision
  rw [← mulVec_mulVec, dotProduct_mulVec, ← mulVec_transpose]
  exact Finset.sum_congr rfl fun k _ => by rw [e, e]

theorem scale_bilin (L : Matrix (Fin m) (Fin m) ℝ) (u v : Fin m → ℝ) : ∑ i, (Lᵀ *ᵥ u) i * (Lᵀ *ᵥ v) i = u ⬝ᵥ ((L * Lᵀ) *ᵥ v) := by
  rw [← mulVec_mulVec, dotProduct_mulVec, ← mulVec_transpose]
  rfl

/-- **The expected precision.** -/
theorem expected_bilin {ν : ℝ} (hν : (m : ℝ) - 1 < ν) (L : Matrix (Fin m) (Fin m) ℝ) (u v : Fin m → ℝ) :
    Integrable (fun ω => u ⬝ᵥ (precision L ω *ᵥ v)) (joint m ν) ∧ ∫ ω, u ⬝ᵥ (precision L ω *ᵥ v) ∂joint m ν = ν * (u ⬝ᵥ ((L * Lᵀ) *ᵥ v)) := by
  simp_rw [precision_bilin]
  have h := tri_bilin hν (Lᵀ *ᵥ u) (Lᵀ *ᵥ v)
  rw [scale_bilin] at h
  exact h

theorem expected_entry {ν : ℝ} (hν : (m : ℝ) - 1 < ν) (L : Matrix (Fin m) (Fin m) ℝ) (a b : Fin m) :
    Integrable (fun ω => precision L ω a b) (joint m ν) ∧ ∫ ω, precision L ω a b ∂joint m ν = ν * (L * Lᵀ) a b := by
  have e : ∀ M : Matrix (Fin m) (Fin m) ℝ, M a b = Pi.single a 1 ⬝ᵥ (M *ᵥ Pi.single b 1) := fun M => by
    rw [mulVec_single_one, single_one_dotProduct]; rfl
  simp only [e (precision L _), e (L * Lᵀ)]
  exact expected_bilin hν L _ _

theorem mahalanobis_eq (x mu : Fin m → ℝ) (P : Matrix (Fin m) (Fin m) ℝ) : Mix.mahalanobis x mu P = (x - mu) ⬝ᵥ (P *ᵥ (x - mu)) := by
  unfold Mix.mahalanobis dotProduct mulVec dotProduct
  refine Finset.sum_congr rfl fun i _ => ?_
  rw [Finset.mul_sum]
  exact Finset.sum_congr rfl fun j _ => by simp only [Pi.sub_apply]; ring

/-- The quadratic form at the random mean and precision. -/
theorem mahalanobis_centre {L : Matrix (Fin m) (Fin m) ℝ} (hL : L.det ≠ 0) {ω : Src m → ℝ} (h : ∀ i, 0 < ω (.inl i)) (x mu : Fin m → ℝ) {lam : ℝ} (hl : 0 < lam) :
    Mix.mahalanobis x (centre mu lam L ω) (precision L ω) =
      (x - mu) ⬝ᵥ (precision L ω *ᵥ (x - mu)) - 2 * (√lam)⁻¹ * (∑ k, ∑ i, tri ω i k * std ω k * (Lᵀ *ᵥ (x - mu)) i) + lam⁻¹ * ∑ k, std ω k * std ω k := by
  have hB : IsUnit (factor L ω)ᵀ.det := by rw [det_transpose]; exact (factor_det_ne hL h).isUnit
  rw [mahalanobis_eq]
  have e1 : ∀ v : Fin m → ℝ, v ⬝ᵥ (precision L ω *ᵥ v) = ∑ k, ((factor L ω)ᵀ *ᵥ v) k * ((factor L ω)ᵀ *ᵥ v) k := by
    intro v
    unfold precision
    rw [← mulVec_mulVec, dotProduct_mulVec, ← mulVec_transpose]
    rfl
  have e2 : (factor L ω)ᵀ *ᵥ (x - centre mu lam L ω) = (factor L ω)ᵀ *ᵥ (x - mu) - (√lam)⁻¹ • std ω := by
    unfold centre
    rw [← sub_sub, mulVec_sub, mulVec_smul, mulVec_mulVec, mul_nonsing_inv _ hB, one_mulVec]
  have e3 : ∀ k, ((factor L ω)ᵀ *ᵥ (x - mu)) k = ∑ i, tri ω i k * (Lᵀ *ᵥ (x - mu)) i := by
    intro k
    unfold factor
    rw [transpose_mul, ← mulVec_mulVec]
    rfl
  rw [e1, e1, e2]
  have hs : (√lam)⁻¹ * (√lam)⁻¹ = lam⁻¹ := by rw [← mul_inv, Real.mul_self_sqrt hl.le]
  rw [Finset.mul_sum, Finset.mul_sum, ← Finset.sum_sub_distrib, ← Finset.sum_add_distrib]
  refine Finset.sum_congr rfl fun k _ => ?_
  have e4 : ∑ i, tri ω i k * std ω k * (Lᵀ *ᵥ (x - mu)) i = ((factor L ω)ᵀ *ᵥ (x - mu)) k * std ω k := by
    rw [e3, Finset.sum_mul]
    exact Finset.sum_congr rfl fun i _ => by ring
  rw [e4, ← hs]
  simp only [Pi.sub_apply, Pi.smul_apply, smul_eq_mul]
  ring

/-- **The expected quadratic form.** -/
theorem expected_mahalanobis {ν : ℝ} (hν : (m : ℝ) - 1 < ν) {L : Matrix (Fin m) (Fin m) ℝ} (hL : L.det ≠ 0) (x mu : Fin m → ℝ) {lam : ℝ} (hl : 0 < lam) :
    Integrable (fun ω => Mix.mahalanobis x (centre mu lam L ω) (precision L ω)) (joint m ν) ∧
      ∫ ω, Mix.mahalanobis x (centre mu lam L ω) (precision L ω) ∂joint m ν = ν * Mix.mahalanobis x mu (L * Lᵀ) + m / lam := by
  have hc : (fun ω => Mix.mahalanobis x (centre mu lam L ω) (precision L ω)) =ᵐ[joint m ν] fun ω =>
      (x - mu) ⬝ᵥ (precision L ω *ᵥ (x - mu)) - 2 * (√lam)⁻¹ * (∑ k, ∑ i, tri ω i k * std ω k * (Lᵀ *ᵥ (x - mu)) i) + lam⁻¹ * ∑ k, std ω k * std ω k := by
    filter_upwards [chi_pos hν] with ω h
    exact mahalanobis_centre hL h x mu hl
  have h1 := expected_bilin hν L (x - mu) (x - mu)
  have hi : ∀ k i, Integrable (fun ω : Src m → ℝ => tri ω i k * std ω k * (Lᵀ *ᵥ (x - mu)) i) (joint m ν) := fun k i => (tri_std hν i k).1.mul_const _
  have h2 : Integrable (fun ω : Src m → ℝ => ∑ k, ∑ i, tri ω i k * std ω k * (Lᵀ *ᵥ (x - mu)) i) (joint m ν) :=
    integrable_finsetSum _ fun k _ => integrable_finsetSum _ fun i _ => hi k i
  have h3 : Integrable (fun ω : Src m → ℝ => ∑ k, std ω k * std ω k) (joint m ν) := integrable_finsetSum _ fun k _ => (std_sq hν k).1
  have h12 : Integrable (fun ω : Src m → ℝ => (x - mu) ⬝ᵥ (precision L ω *ᵥ (x - mu)) - 2 * (√lam)⁻¹ * ∑ k, ∑ i, tri ω i k * std ω k * (Lᵀ *ᵥ (x - mu)) i)
      (joint m ν) := h1.1.sub (h2.const_mul _)
  refine ⟨(h12.add (h3.const_mul _)).congr hc.symm, ?_⟩
  rw [integral_congr_ae hc, integral_add h12 (h3.const_mul _), integral_sub h1.1 (h2.const_mul _), integral_const_mul, integral_const_mul,
    h1.2, mahalanobis_eq, integral_finsetSum _ fun k _ => integrable_finsetSum _ fun i _ => hi k i, integral_finsetSum _ fun k _ => (std_sq hν k).1]
  have h0 : ∀ k, ∫ ω, ∑ i, tri ω i k * std ω k * (Lᵀ *ᵥ (x - mu)) i ∂joint m ν = 0 := by
    intro k
    rw [integral_finsetSum _ fun i _ => hi k i]
    refine Finset.sum_eq_zero fun i _ => ?_
    rw [integral_mul_const, (tri_std hν i k).2, zero_mul]
  simp only [h0, (std_sq hν _).2, Finset.sum_const_zero, mul_zero, sub_zero, Finset.sum_const, Finset.card_univ, Fintype.card_fin, nsmul_eq_mul, mul_one]
  rw [mul_comm lam⁻¹]
  rfl
end Verif.NW
