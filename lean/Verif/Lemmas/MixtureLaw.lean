import Verif.Lemmas.Marginal
import Verif.Lemmas.StoredStates
import Verif.Props.C47

/-!
# The law behind a mixture density

Densities of finite mixtures as densities of measures, for any space of query points.
-/

set_option linter.unusedSectionVars false

namespace Verif.Mix
open GM MeasureTheory Real
open scoped ENNReal
variable {X Y Atom : Type} [MeasurableSpace X] [MeasurableSpace Y]

/-- The density of one stored state at a point, from the density of one component. -/
noncomputable def mixValue {Obs : Type} (g : Obs → Atom → ℝ) (p : RunParams ℝ Atom) (x : Obs) : ℝ := ((List.range p.w.length).map (weighted g p.w p.theta x)).sum

/-- The mean over several states. -/
noncomputable def meanValue {Obs : Type} (g : Obs → Atom → ℝ) (ps : List (RunParams ℝ Atom)) (x : Obs) : ℝ := (ps.map fun p => mixValue g p x).sum / (ps.length : ℝ)

/-- One component of the law. -/
noncomputable def termLaw (N : Atom → Measure X) (p : RunParams ℝ Atom) (j : ℕ) : Measure X := match p.theta.lookup j, p.w[j]? with
  | some a, some wj => ENNReal.ofReal wj • N a
  | _, _ => 0

/-- The law of a state: each component with its weight. -/
noncomputable def mixLaw (N : Atom → Measure X) (p : RunParams ℝ Atom) : Measure X := ((List.range p.w.length).map (termLaw N p)).sum

/-- The mean of the laws of the states. -/
noncomputable def meanLaw (N : Atom → Measure X) (ps : List (RunParams ℝ Atom)) : Measure X := ENNReal.ofReal (ps.length : ℝ)⁻¹ • (ps.map (mixLaw N)).sum

/-- States whose atoms satisfy `P` and whose weights are not negative. -/
def Sound (P : Atom → Prop) (p : RunParams ℝ Atom) : Prop := (∀ q ∈ p.theta, P q.2) ∧ ∀ x ∈ p.w, 0 ≤ x

theorem lookup_mem' {theta : List (ℕ × Atom)} {j : ℕ} {a : Atom} (h : theta.lookup j = some a) : (j, a) ∈ theta := by
  induction theta with
  | nil => cases h
  | cons q t ih =>
    rw [List.lookup_cons] at h
    split at h
    · rename_i hq
      cases h
      have := beq_iff_eq.1 hq
      rw [this]
      exact List.mem_cons_self
    · exact List.mem_cons_of_mem _ (ih h)

section
variable {vol : Measure X} {P : Atom → Prop} {g : X → Atom → ℝ} {N : Atom → Measure X}

/-- `g · a` is a density of `N a`. -/
structure IsDensity (vol : Measure X) (P : Atom → Prop) (g : X → Atom → ℝ) (N : Atom → Measure X) : Prop where
  meas : ∀ a, P a → Measurable fun x => g x a
  nonneg : ∀ x a, P a → 0 ≤ g x a
  law : ∀ a, P a → vol.withDensity (fun x => ENNReal.ofReal (g x a)) = N a

theorem withDensity_list {ι : Type} (js : List ι) (f : ι → X → ℝ) (hm : ∀ j ∈ js, Measurable (f j)) (h0 : ∀ j ∈ js, ∀ x, 0 ≤ f j x) :
    vol.withDensity (fun x => ENNReal.ofReal (js.map fun j => f j x).sum) = (js.map fun j => vol.withDensity fun x => ENNReal.ofReal (f j x)).sum ∧
    (Measurable fun x => (js.map fun j => f j x).sum) ∧ ∀ x, 0 ≤ (js.map fun j => f j x).sum := by
  induction js with
  | nil => simp
  | cons j js ih =>
    obtain ⟨h1, h2, h3⟩ := ih (fun i hi => hm i (List.mem_cons_of_mem _ hi)) fun i hi => h0 i (List.mem_cons_of_mem _ hi)
    have hj := hm j List.mem_cons_self
    have hj0 := h0 j List.mem_cons_self
    simp only [List.map_cons, List.sum_cons]
    refine ⟨?_, hj.add h2, fun x => add_nonneg (hj0 x) (h3 x)⟩
    rw [← h1, ← withDensity_add_left hj.ennreal_ofReal]
    congr 1
    ext x
    exact ENNReal.ofReal_add (hj0 x) (h3 x)

theorem weighted_cases {Obs : Type} (g : Obs → Atom → ℝ) (p : RunParams ℝ Atom) (j : ℕ) :
    (∃ a wj, (j, a) ∈ p.theta ∧ wj ∈ p.w ∧ (∀ x, weighted g p.w p.theta x j = wj * g x a) ∧ ∀ {X : Type} [MeasurableSpace X] (N : Atom → Measure X), termLaw N p j = ENNReal.ofReal wj • N a) ∨
    ((∀ x, weighted g p.w p.theta x j = 0) ∧ ∀ {X : Type} [MeasurableSpace X] (N : Atom → Measure X), termLaw N p j = 0) := by
  rcases h1 : p.theta.lookup j with _ | a
  · refine .inr ⟨fun x => ?_, fun N => ?_⟩
    · unfold weighted; rw [h1]
    · unfold termLaw; rw [h1]
  · rcases h2 : p.w[j]? with _ | wj
    · refine .inr ⟨fun x => ?_, fun N => ?_⟩
      · unfold weighted; rw [h1, h2]
      · unfold termLaw; rw [h1, h2]
    · refine .inl ⟨a, wj, lookup_mem' h1, List.mem_of_getElem? h2, fun x => ?_, fun N => ?_⟩
      · unfold weighted; rw [h1, h2]
      · unfold termLaw; rw [h1, h2]

theorem mix_density (h : IsDensity vol P g N) {p : RunParams ℝ Atom} (hp : Sound P p) :
    vol.withDensity (fun x => ENNReal.ofReal (mixValue g p x)) = mixLaw N p ∧ (Measurable fun x => mixValue g p x) ∧ ∀ x, 0 ≤ mixValue g p x := by
  have key := withDensity_list (vol := vol) (List.range p.w.length) (fun j x => weighted g p.w p.theta x j) (fun j _ => ?_) (fun j _ x => ?_)
  · refine ⟨key.1.trans ?_, key.2⟩
    unfold mixLaw
    congr 1
    refine List.map_congr_left fun j _ => ?_
    rcases weighted_cases g p j with ⟨a, wj, ha, hw, e1, e2⟩ | ⟨e1, e2⟩
    · simp only [e1, e2, ENNReal.ofReal_mul (hp.2 _ hw)]
      rw [← h.law a (hp.1 _ ha), ← withDensity_smul _ (h.meas a (hp.1 _ ha)).ennreal_ofReal]
      rfl
    · simp only [e1, e2, ENNReal.ofReal_zero]
      exact withDensity_zero
  · rcases weighted_cases g p j with ⟨a, wj, ha, hw, e1, -⟩ | ⟨e1, -⟩
    · simp only [e1]
      exact (h.meas a (hp.1 _ ha)).const_mul wj
    · simp only [e1]
      exact measurable_const
  · rcases weighted_cases g p j with ⟨a, wj, ha, hw, e1, -⟩ | ⟨e1, -⟩
    · rw [e1]; exact mul_nonneg (hp.2 _ hw) (h.nonneg x a (hp.1 _ ha))
    · rw [e1]

theorem mean_density (h : IsDensity vol P g N) {ps : List (RunParams ℝ Atom)} (hp : ∀ p ∈ ps, Sound P p) :
    vol.withDensity (fun x => ENNReal.ofReal (meanValue g ps x)) = meanLaw N ps ∧ (Measurable fun x => meanValue g ps x) ∧ ∀ x, 0 ≤ meanValue g ps x := by
  obtain ⟨h1, h2, h3⟩ := withDensity_list (vol := vol) ps (fun p x => mixValue g p x) (fun p hp' => (mix_density h (hp p hp')).2.1) (fun p hp' => (mix_density h (hp p hp')).2.2)
  have hn : (0 : ℝ) ≤ (ps.length : ℝ)⁻¹ := by positivity
  refine ⟨?_, h2.div_const _, fun x => div_nonneg (h3 x) (Nat.cast_nonneg _)⟩
  unfold meanLaw
  have e : (ps.map (mixLaw N)) = ps.map fun p => vol.withDensity fun x => ENNReal.ofReal (mixValue g p x) :=
    List.map_congr_left fun p hp' => (mix_density h (hp p hp')).1.symm
  rw [e, ← h1, ← withDensity_smul _ h2.ennreal_ofReal]
  congr 1
  ext x
  simp only [meanValue, Pi.smul_apply, smul_eq_mul]
  rw [← ENNReal.ofReal_mul hn, div_eq_inv_mul]

theorem sum_measure_apply {ι : Type} (js : List ι) (μ : ι → Measure X) (s : Set X) : ((js.map μ).sum : Measure X) s = (js.map fun j => μ j s).sum := by
  induction js with
  | nil => simp
  | cons j js ih => simp only [List.map_cons, List.sum_cons, Measure.add_apply, ih]

theorem sum_measure_map {ι : Type} (js : List ι) (μ : ι → Measure X) {f : X → Y} (hf : Measurable f) : ((js.map μ).sum : Measure X).map f = (js.map fun j => (μ j).map f).sum := by
  induction js with
  | nil => simp
  | cons j js ih => simp only [List.map_cons, List.sum_cons, Measure.map_add _ _ hf, ih]

theorem mixLaw_map (p : RunParams ℝ Atom) {f : X → Y} (hf : Measurable f) : (mixLaw N p).map f = mixLaw (fun a => (N a).map f) p := by
  unfold mixLaw
  rw [sum_measure_map _ _ hf]
  congr 1
  refine List.map_congr_left fun j _ => ?_
  rcases weighted_cases (fun (_ : Unit) _ => (0 : ℝ)) p j with ⟨a, wj, -, -, -, e⟩ | ⟨-, e⟩
  · rw [e, e, Measure.map_smul]
  · rw [e, e, Measure.map_zero]

theorem meanLaw_map (ps : List (RunParams ℝ Atom)) {f : X → Y} (hf : Measurable f) : (meanLaw N ps).map f = meanLaw (fun a => (N a).map f) ps := by
  unfold meanLaw
  rw [Measure.map_smul, sum_measure_map _ _ hf]
  congr 2
  exact List.map_congr_left fun p _ => mixLaw_map p hf

theorem mixLaw_congr {N' : Atom → Measure X} {p : RunParams ℝ Atom} (hp : Sound P p) (h : ∀ a, P a → N a = N' a) : mixLaw N p = mixLaw N' p := by
  unfold mixLaw
  congr 1
  refine List.map_congr_left fun j _ => ?_
  rcases weighted_cases (fun (_ : Unit) _ => (0 : ℝ)) p j with ⟨a, wj, ha, -, -, e⟩ | ⟨-, e⟩
  · rw [e, e, h a (hp.1 _ ha)]
  · rw [e, e]

theorem meanLaw_congr {N' : Atom → Measure X} {ps : List (RunParams ℝ Atom)} (hp : ∀ p ∈ ps, Sound P p) (h : ∀ a, P a → N a = N' a) : meanLaw N ps = meanLaw N' ps := by
  unfold meanLaw
  congr 2
  exact List.map_congr_left fun p hp' => mixLaw_congr (hp p hp') h

/-- The mass of a state with all its atoms is the sum of its weights. -/
theorem mixLaw_univ {p : RunParams ℝ Atom} (hp : Sound P p) (hN : ∀ a, P a → N a Set.univ = 1) (hE : Evaluable p) : mixLaw N p Set.univ = ENNReal.ofReal p.w.sum := by
  unfold mixLaw
  rw [sum_measure_apply]
  have e : (List.range p.w.length).map (fun j => termLaw N p j Set.univ) = p.w.map ENNReal.ofReal := by
    refine List.ext_getElem (by simp) fun j h1 h2 => ?_
    have hj : j < p.w.length := by simpa using h1
    simp only [List.getElem_map, List.getElem_range]
    obtain ⟨a, ha⟩ := Option.isSome_iff_exists.1 (hE j hj)
    unfold termLaw
    rw [ha, List.getElem?_eq_getElem hj]
    simp only [Measure.smul_apply, smul_eq_mul]
    rw [hN a (hp.1 _ (lookup_mem' ha)), mul_one]
  rw [e]
  have h0 := hp.2
  generalize p.w = w at h0
  induction w with
  | nil => simp
  | cons x xs ih =>
    simp only [List.map_cons, List.sum_cons]
    rw [ih fun y hy => h0 y (List.mem_cons_of_mem _ hy), ENNReal.ofReal_add (h0 x List.mem_cons_self) (List.sum_nonneg fun y hy => h0 y (List.mem_cons_of_mem _ hy))]

/-- The mass of a mean: the mean of the sums of the weights. -/
theorem meanLaw_univ {ps : List (RunParams ℝ Atom)} (hp : ∀ p ∈ ps, Sound P p ∧ Evaluable p) (hN : ∀ a, P a → N a Set.univ = 1) :
    meanLaw N ps Set.univ = ENNReal.ofReal ((ps.map fun p => p.w.sum).sum / (ps.length : ℝ)) := by
  unfold meanLaw
  rw [Measure.smul_apply, sum_measure_apply, smul_eq_mul]
  have e : (ps.map fun p => mixLaw N p Set.univ) = (ps.map fun p => p.w.sum).map ENNReal.ofReal := by
    rw [List.map_map]
    exact List.map_congr_left fun p hp' => mixLaw_univ (hp p hp').1 hN (hp p hp').2
  have h0 : ∀ x ∈ ps.map fun p => p.w.sum, 0 ≤ x := by
    intro x hx
    obtain ⟨p, hp', rfl⟩ := List.mem_map.1 hx
    exact List.sum_nonneg (hp p hp').1.2
  rw [e, div_eq_inv_mul, ENNReal.ofReal_mul (by positivity)]
  congr 1
  generalize (ps.map fun p => p.w.sum) = l at h0
  induction l with
  | nil => simp
  | cons x xs ih =>
    simp only [List.map_cons, List.sum_cons]
    rw [ih fun y hy => h0 y (List.mem_cons_of_mem _ hy), ENNReal.ofReal_add (h0 x List.mem_cons_self) (List.sum_nonneg fun y hy => h0 y (List.mem_cons_of_mem _ hy))]
end

/-! ## Normal components -/

open NW

/-- A mean and a covariance. -/
abbrev Normal (m : ℕ) := (Fin m → ℝ) × (Fin m → Fin m → ℝ)

/-- The covariance is positive definite. -/
def PosCov {m : ℕ} (a : Normal m) : Prop := (Matrix.of a.2).PosDef

/-- The law of a component. -/
noncomputable def compLaw {m : ℕ} (a : Normal m) : Measure (Fin m → ℝ) := normalLaw a.1 (Matrix.of a.2)

theorem normalPdf_meas {m : ℕ} (mu : Fin m → ℝ) (Q : Fin m → Fin m → ℝ) : Measurable fun x => normalPdf x mu Q := by
  unfold normalPdf mahalanobis
  fun_prop

theorem full_isDensity (m : ℕ) : IsDensity (volume : Measure (Fin m → ℝ)) PosCov (fun x (a : Normal m) => normalPdf x a.1 ((Matrix.of a.2)⁻¹ : Matrix (Fin m) (Fin m) ℝ)) compLaw where
  meas := fun _ _ => normalPdf_meas _ _
  nonneg := fun _ _ _ => normalPdf_nonneg _ _ _
  law := fun _ _ => rfl

theorem compLaw_univ {m : ℕ} (a : Normal m) (h : PosCov a) : compLaw a Set.univ = 1 := by
  have : IsProbabilityMeasure (compLaw a) := normalLaw_prob h a.1
  exact measure_univ

/-- Some coordinates of a component. -/
theorem list_isDensity {m c : ℕ} {l : Fin c → Fin m} (hl : Function.Injective l) :
    IsDensity (volume : Measure (Fin c → ℝ)) PosCov (fun x (a : Normal m) => normalPdf x (fun i => a.1 (l i)) (((Matrix.of a.2).submatrix l l)⁻¹ : Matrix (Fin c) (Fin c) ℝ))
      (fun a => (compLaw a).map fun x i => x (l i)) where
  meas := fun _ _ => normalPdf_meas _ _
  nonneg := fun _ _ _ => normalPdf_nonneg _ _ _
  law := fun a ha => (normalLaw_select ha a.1 hl).symm

theorem gaussian_one (mu v x : ℝ) (hv : 0 < v) : ProbabilityTheory.gaussianPDFReal mu v.toNNReal x =
    normalPdf (fun _ : Fin 1 => x) (fun _ => mu) ((Matrix.of fun _ _ => v)⁻¹ : Matrix (Fin 1) (Fin 1) ℝ) := by
  unfold ProbabilityTheory.gaussianPDFReal normalPdf mahalanobis
  have hi : ((Matrix.of fun _ _ => v)⁻¹ : Matrix (Fin 1) (Fin 1) ℝ) = Matrix.of fun _ _ => v⁻¹ := by
    refine Matrix.inv_eq_right_inv ?_
    ext i j
    fin_cases i; fin_cases j
    simp [Matrix.mul_apply, hv.ne']
  rw [hi]
  simp only [Finset.univ_unique, Finset.sum_singleton, Matrix.det_unique, Matrix.of_apply, pow_one, Real.coe_toNNReal v hv.le]
  congr 1
  · show (√(2 * π * v))⁻¹ = √(v⁻¹ / (2 * π))
    rw [show v⁻¹ / (2 * π) = (2 * π * v)⁻¹ by rw [mul_inv, div_eq_mul_inv]; ring, Real.sqrt_inv]
  · congr 1
    field_simp

/-- One coordinate of a component. -/
theorem int_isDensity {m : ℕ} (i : Fin m) :
    IsDensity (volume : Measure ℝ) PosCov (fun x (a : Normal m) => ProbabilityTheory.gaussianPDFReal (a.1 i) (a.2 i i).toNNReal x) (fun a => (compLaw a).map fun x => x i) where
  meas := fun a _ => ProbabilityTheory.measurable_gaussianPDFReal _ _
  nonneg := fun x a _ => ProbabilityTheory.gaussianPDFReal_nonneg _ _ _
  law := fun a ha => by
    have hv : 0 < a.2 i i := ha.diag_pos
    have h1 := (list_isDensity (l := fun _ : Fin 1 => i) (fun _ _ _ => Subsingleton.elim _ _)).law a ha
    have hmp := (volume_preserving_funUnique (Fin 1) ℝ)
    have e : (compLaw a).map (fun x => x i) = ((compLaw a).map fun x (_ : Fin 1) => x i).map (MeasurableEquiv.funUnique (Fin 1) ℝ) := by
      rw [Measure.map_map (MeasurableEquiv.measurable _) (by fun_prop)]
      rfl
    rw [e, ← h1]
    have hmeas : Measurable fun x : ℝ => ENNReal.ofReal (ProbabilityTheory.gaussianPDFReal (a.1 i) (a.2 i i).toNNReal x) :=
      (ProbabilityTheory.measurable_gaussianPDFReal _ _).ennreal_ofReal
    ext s hs
    rw [Measure.map_apply (MeasurableEquiv.measurable _) hs, withDensity_apply _ hs, withDensity_apply _ (MeasurableEquiv.measurable _ hs),
      ← hmp.setLIntegral_comp_preimage hs hmeas]
    refine lintegral_congr fun x => ?_
    congr 1
    have hx : x = fun _ => (MeasurableEquiv.funUnique (Fin 1) ℝ) x := by
      ext j
      fin_cases j
      rfl
    rw [gaussian_one _ _ _ hv]
    conv_lhs => rw [hx]
    rfl
end Verif.Mix
