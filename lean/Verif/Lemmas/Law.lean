import Verif.Lemmas.RandGenExists
import Verif.Spec
import Verif.Lemmas.BetaLaw
import Verif.Props.C08
import Mathlib.Probability.Independence.Integration
import Mathlib.MeasureTheory.Constructions.Pi

/-! # Laws of stick-breaking draws and Bayes' rule -/

namespace Verif
open MeasureTheory ProbabilityTheory Spec
open scoped ENNReal

/-- Bayes' rule: the law `μ` reweighted with the likelihood `L`. -/
noncomputable def posterior {X : Type*} [MeasurableSpace X] (μ : Measure X) (L : X → ℝ≥0∞) : Measure X := (∫⁻ x, L x ∂μ)⁻¹ • μ.withDensity L

/-- The likelihood of labels that are drawn independently with the weights `w`. -/
noncomputable def labelLik {N : ℕ} (d : List ℤ) (w : Fin N → ℝ) : ℝ≥0∞ :=
  (d.map (fun x : ℤ => if h : 0 ≤ x ∧ x < (N : ℤ) then ENNReal.ofReal (w ⟨x.toNat, by omega⟩) else 0)).prod

/-- The law of the first `N` weights that a method returns, for fresh seeds. -/
noncomputable def RandGen.lawOf (G : RandGen) {σ : Type} (m : M ℝ σ (List ℝ)) (s : σ × ℕ) (N : ℕ) : Measure (Fin N → ℝ) :=
  G.P.map (fun u => vec N (match (m (G.oracle u) s).1 with | .ok r => r | .error _ => []))

section measure

theorem posterior_congr {X : Type*} [MeasurableSpace X] {μ : Measure X} {L L' : X → ℝ≥0∞} (h : L =ᵐ[μ] L') : posterior μ L = posterior μ L' := by
  unfold posterior
  rw [lintegral_congr_ae h, withDensity_congr_ae h]

theorem posterior_map {X Y : Type*} [MeasurableSpace X] [MeasurableSpace Y] {μ : Measure X} {f : X → Y} (hf : Measurable f) {L : Y → ℝ≥0∞} (hL : Measurable L) :
    posterior (μ.map f) L = (posterior μ (L ∘ f)).map f := by
  unfold posterior
  rw [lintegral_map hL hf, Measure.map_smul]
  congr 1
  ext s hs
  rw [withDensity_apply _ hs, Measure.map_apply hf hs, withDensity_apply _ (hf hs), setLIntegral_map hs hL hf]
  rfl

theorem pi_withDensity {n : ℕ} (μ : Fin n → Measure ℝ) [∀ i, IsProbabilityMeasure (μ i)] (f : Fin n → ℝ → ℝ≥0∞) (hf : ∀ i, Measurable (f i))
    [∀ i, SigmaFinite ((μ i).withDensity (f i))] :
    (Measure.pi μ).withDensity (fun x => ∏ i, f i (x i)) = Measure.pi (fun i => (μ i).withDensity (f i)) := by
  symm
  refine Measure.pi_eq fun s hs => ?_
  have hms : MeasurableSet (Set.univ.pi s) := MeasurableSet.univ_pi hs
  rw [withDensity_apply _ hms, ← lintegral_indicator hms]
  have : (Set.univ.pi s).indicator (fun x : Fin n → ℝ => ∏ i, f i (x i)) = fun x => ∏ i, (s i).indicator (f i) (x i) := by
    funext x
    by_cases h : x ∈ Set.univ.pi s
    · rw [Set.indicator_of_mem h]
      exact Finset.prod_congr rfl fun i _ => (Set.indicator_of_mem (h i (Set.mem_univ i)) _).symm
    · rw [Set.indicator_of_notMem h]
      simp only [Set.mem_pi, Set.mem_univ, forall_true_left, not_forall] at h
      obtain ⟨i, hi⟩ := h
      exact (Finset.prod_eq_zero (Finset.mem_univ i) (Set.indicator_of_notMem hi _)).symm
  rw [this, lintegral_prod_eq_prod_lintegral_of_indepFun Finset.univ (fun i (x : Fin n → ℝ) => (s i).indicator (f i) (x i))]
  · refine Finset.prod_congr rfl fun i _ => ?_
    rw [withDensity_apply _ (hs i), ← lintegral_indicator (hs i)]
    have hi := (hf i).indicator (hs i)
    conv_rhs => rw [← (measurePreserving_eval μ i).map_eq]
    rw [lintegral_map hi (measurable_pi_apply i)]
  · exact iIndepFun_pi (μ := μ) (X := fun i => (s i).indicator (f i)) (fun i => ((hf i).indicator (hs i)).aemeasurable)
  · exact fun i => ((hf i).indicator (hs i)).comp (measurable_pi_apply i)

end measure

/-- Conjugacy of one stick. -/
theorem betaMeasure_bayes {a b : ℝ} (ha : 0 < a) (hb : 0 < b) (m n : ℕ) :
    (betaMeasure a b).withDensity (fun x => ENNReal.ofReal x ^ m * ENNReal.ofReal (1 - x) ^ n) =
      ENNReal.ofReal (beta (a + m) (b + n) / beta a b) • betaMeasure (a + m) (b + n) := by
  have h1 : Measurable (betaPDF a b) := ENNReal.measurable_ofReal.comp (measurable_betaPDFReal a b)
  have h2 : Measurable (betaPDF (a + m) (b + n)) := ENNReal.measurable_ofReal.comp (measurable_betaPDFReal _ _)
  have h3 : Measurable (fun x : ℝ => ENNReal.ofReal x ^ m * ENNReal.ofReal (1 - x) ^ n) := by fun_prop
  unfold betaMeasure
  rw [← withDensity_mul _ h1 h3, ← withDensity_smul _ h2]
  congr 1
  funext x
  simp only [Pi.mul_apply, Pi.smul_apply, smul_eq_mul, betaPDF]
  have hc : 0 ≤ beta (a + m) (b + n) / beta a b := div_nonneg (beta_pos (by positivity) (by positivity)).le (beta_pos ha hb).le
  by_cases h : 0 < x ∧ x < 1
  · have h01 : 0 ≤ 1 - x := by linarith [h.2]
    rw [← ENNReal.ofReal_mul hc, ← betaPDFReal_bayes ha hb, ENNReal.ofReal_mul (by have := h.1; positivity), ENNReal.ofReal_mul (by have := h.1; positivity),
      ENNReal.ofReal_pow h.1.le, ENNReal.ofReal_pow h01]
    ring
  · rw [betaPDFReal, betaPDFReal, if_neg h, if_neg h]
    simp

section sticks
variable {N : ℕ}

theorem measurable_labelLik (d : List ℤ) : Measurable (labelLik (N := N) d) := by
  unfold labelLik
  induction d with
  | nil => exact measurable_const
  | cons x d ih =>
    simp only [List.map_cons, List.prod_cons]
    refine Measurable.mul ?_ ih
    by_cases h : 0 ≤ x ∧ x < (N : ℤ)
    · simp only [h, and_self, dite_true]; exact ENNReal.measurable_ofReal.comp (measurable_pi_apply _)
    · simp only [h, dite_false]; exact measurable_const

theorem labelLik_stick {d : List ℤ} (hd : ∀ x ∈ d, 0 ≤ x ∧ x < (N : ℤ)) {v : Fin N → ℝ} (hv : ∀ j, 0 ≤ v j ∧ v j ≤ 1) :
    labelLik d (breakStick v) = ∏ j, (ENNReal.ofReal (v j) ^ nEq d j * ENNReal.ofReal (1 - v j) ^ nGt d j) := by
  induction d with
  | nil => simp [labelLik, nEq, nGt]
  | cons x d ih =>
    have hx := hd x (List.mem_cons_self ..)
    have ih := ih fun y hy => hd y (List.mem_cons_of_mem _ hy)
    rw [labelLik, List.map_cons, List.prod_cons, dif_pos hx]
    change _ * labelLik d (breakStick v) = _
    rw [ih]
    have e : ENNReal.ofReal (breakStick v ⟨x.toNat, by omega⟩) =
        ∏ j : Fin N, (ENNReal.ofReal (v j) ^ (if x = (j : ℕ) then 1 else 0) * ENNReal.ofReal (1 - v j) ^ (if ((j : ℕ) : ℤ) < x then 1 else 0)) := by
      rw [breakStick, ENNReal.ofReal_mul (hv _).1, ENNReal.ofReal_prod_of_nonneg (fun j _ => sub_nonneg.2 (hv j).2), Finset.prod_mul_distrib]
      congr 1
      · rw [Finset.prod_eq_single (⟨x.toNat, by omega⟩ : Fin N)]
        · rw [if_pos (by simp [hx.1]), pow_one]
        · intro j _ hj
          rw [if_neg, pow_zero]
          rintro rfl
          exact hj (Fin.ext (by simp))
        · intro h; exact absurd (Finset.mem_univ _) h
      · rw [Finset.prod_filter]
        refine Finset.prod_congr rfl fun j _ => ?_
        have : j < (⟨x.toNat, by omega⟩ : Fin N) ↔ ((j : ℕ) : ℤ) < x := by rw [Fin.lt_def]; change (j : ℕ) < x.toNat ↔ _; omega
        by_cases h : ((j : ℕ) : ℤ) < x
        · rw [if_pos (this.2 h), if_pos h, pow_one]
        · rw [if_neg (fun h' => h (this.1 h')), if_neg h, pow_zero]
    rw [e, ← Finset.prod_mul_distrib]
    refine Finset.prod_congr rfl fun j _ => ?_
    have e1 : nEq (x :: d) j = nEq d j + if x = (j : ℕ) then 1 else 0 := by simp [nEq, List.countP_cons]
    have e2 : nGt (x :: d) j = nGt d j + if ((j : ℕ) : ℤ) < x then 1 else 0 := by simp [nGt, List.countP_cons]
    rw [e1, e2, pow_add, pow_add]
    ring

/-- Independent Beta sticks. -/
noncomputable def betaSticks (f : Fin N → ℝ × ℝ) : Measure (Fin N → ℝ) := Measure.pi (fun j => betaMeasure (f j).1 (f j).2)

theorem isProb_beta {f : Fin N → ℝ × ℝ} (hf : ∀ j, 0 < (f j).1 ∧ 0 < (f j).2) (j : Fin N) : IsProbabilityMeasure (betaMeasure (f j).1 (f j).2) :=
  isProbabilityMeasureBeta (hf j).1 (hf j).2

theorem betaSticks_ae {f : Fin N → ℝ × ℝ} (hf : ∀ j, 0 < (f j).1 ∧ 0 < (f j).2) : ∀ᵐ v ∂betaSticks f, ∀ j, 0 < v j ∧ v j < 1 := by
  have := isProb_beta hf
  rw [ae_all_iff]
  intro j
  exact (Measure.quasiMeasurePreserving_eval (fun j => betaMeasure (f j).1 (f j).2) j).ae betaMeasure_ae

/-- Bayes' rule for stick-breaking priors with independent sticks. -/
theorem posterior_pi {μ μ' : Fin N → Measure ℝ} [∀ j, IsProbabilityMeasure (μ j)] [∀ j, IsProbabilityMeasure (μ' j)] (h01 : ∀ j, ∀ᵐ x ∂μ j, 0 ≤ x ∧ x ≤ 1)
    {d : List ℤ} (hd : ∀ x ∈ d, 0 ≤ x ∧ x < (N : ℤ)) {c : Fin N → ℝ≥0∞} (hc0 : ∀ j, c j ≠ 0) (hct : ∀ j, c j ≠ ∞)
    (hb : ∀ j, (μ j).withDensity (fun x => ENNReal.ofReal x ^ nEq d j * ENNReal.ofReal (1 - x) ^ nGt d j) = c j • μ' j) :
    posterior ((Measure.pi μ).map breakStick) (labelLik d) = (Measure.pi μ').map breakStick := by
  rw [posterior_map measurable_breakStick (measurable_labelLik d)]
  congr 1
  let g : Fin N → ℝ → ℝ≥0∞ := fun j x => ENNReal.ofReal x ^ nEq d j * ENNReal.ofReal (1 - x) ^ nGt d j
  have hg : ∀ j, Measurable (g j) := fun j => by unfold g; fun_prop
  have hae : labelLik d ∘ breakStick =ᵐ[Measure.pi μ] fun v => ∏ j, g j (v j) := by
    have : ∀ᵐ v ∂Measure.pi μ, ∀ j, 0 ≤ v j ∧ v j ≤ 1 := by
      rw [ae_all_iff]
      exact fun j => (Measure.quasiMeasurePreserving_eval μ j).ae (h01 j)
    filter_upwards [this] with v hv
    exact labelLik_stick hd hv
  have hfin : ∀ j, IsFiniteMeasure ((μ j).withDensity (g j)) := fun j => by
    rw [hb j]
    exact Measure.smul_finite _ (hct j)
  have hw : (Measure.pi μ).withDensity (fun v => ∏ j, g j (v j)) = (∏ j, c j) • Measure.pi μ' := by
    rw [pi_withDensity _ g hg]
    refine Measure.pi_eq fun s hs => ?_
    rw [Measure.smul_apply, Measure.pi_pi, smul_eq_mul, ← Finset.prod_mul_distrib]
    refine Finset.prod_congr rfl fun j _ => ?_
    rw [hb j, Measure.smul_apply, smul_eq_mul]
  rw [posterior_congr hae]
  unfold posterior
  rw [hw]
  have hI : ∫⁻ v, ∏ j, g j (v j) ∂Measure.pi μ = ∏ j, c j := by
    have h1 := congrArg (fun μ : Measure (Fin N → ℝ) => μ Set.univ) hw
    simp only [withDensity_apply _ MeasurableSet.univ, Measure.restrict_univ, Measure.smul_apply, smul_eq_mul] at h1
    rw [h1, measure_univ, mul_one]
  rw [hI, smul_smul, ENNReal.inv_mul_cancel (Finset.prod_ne_zero_iff.2 fun j _ => hc0 j) (ENNReal.prod_ne_top fun j _ => hct j), one_smul]

/-- Bayes' rule for stick-breaking priors with independent Beta sticks. -/
theorem posterior_sticks {f : Fin N → ℝ × ℝ} (hf : ∀ j, 0 < (f j).1 ∧ 0 < (f j).2) {d : List ℤ} (hd : ∀ x ∈ d, 0 ≤ x ∧ x < (N : ℤ)) :
    posterior ((betaSticks f).map breakStick) (labelLik d) = (betaSticks (fun j => ((f j).1 + nEq d j, (f j).2 + nGt d j))).map breakStick := by
  have hp := isProb_beta hf
  have hpos : ∀ j : Fin N, 0 < (f j).1 + (nEq d j : ℝ) ∧ 0 < (f j).2 + (nGt d j : ℝ) := fun j =>
    ⟨add_pos_of_pos_of_nonneg (hf j).1 (Nat.cast_nonneg _), add_pos_of_pos_of_nonneg (hf j).2 (Nat.cast_nonneg _)⟩
  have hp' := isProb_beta (f := fun j => ((f j).1 + (nEq d j : ℝ), (f j).2 + (nGt d j : ℝ))) hpos
  exact posterior_pi (c := fun j => ENNReal.ofReal (beta ((f j).1 + nEq d j) ((f j).2 + nGt d j) / beta (f j).1 (f j).2))
    (fun j => betaMeasure_ae.mono fun x h => ⟨h.1.le, h.2.le⟩) hd
    (fun j => (ENNReal.ofReal_pos.2 (div_pos (beta_pos (hpos j).1 (hpos j).2) (beta_pos (hf j).1 (hf j).2))).ne') (fun j => ENNReal.ofReal_ne_top)
    (fun j => betaMeasure_bayes (hf j).1 (hf j).2 _ _)

end sticks

namespace RandGen
variable (G : RandGen)

theorem law_sticks {N : ℕ} {e : ℕ → ℕ} (he : Function.Injective e) {f : Fin N → ℝ × ℝ} (hf : ∀ j, 0 < (f j).1 ∧ 0 < (f j).2) :
    G.P.map (fun u (j : Fin N) => (G.oracle u).beta (e j) (f j).1 (f j).2) = betaSticks f := by
  have hi := (G.indep.precomp (g := fun j : Fin N => e j) (fun i j h => Fin.ext (he h))).comp (fun j => G.beta (f j).1 (f j).2)
    (fun j => G.measurable_beta _ _)
  have hl : ∀ j : Fin N, HasLaw (fun u => G.beta (f j).1 (f j).2 (u (e j))) (betaMeasure (f j).1 (f j).2) G.P := fun j => by
    refine ⟨((G.measurable_beta (f j).1 (f j).2).comp (measurable_pi_apply (e j))).aemeasurable, ?_⟩
    have : (fun u : ℕ → G.Seed => G.beta (f j).1 (f j).2 (u (e j))) = G.beta (f j).1 (f j).2 ∘ fun u => u (e j) := rfl
    rw [this, ← Measure.map_map (G.measurable_beta (f j).1 (f j).2) (measurable_pi_apply (e j)), G.map_seed, G.beta_law _ _ (hf j).1 (hf j).2]
  exact (hi.hasLaw_pi hl).map_eq

/-- The first sticks of independent sticks. -/
theorem betaSticks_restrict {N N' : ℕ} (h : N ≤ N') {f : Fin N' → ℝ × ℝ} (hf : ∀ j, 0 < (f j).1 ∧ 0 < (f j).2) :
    (betaSticks f).map (fun v j => v (Fin.castLE h j)) = betaSticks (fun j => f (Fin.castLE h j)) := by
  obtain ⟨G⟩ := RandGen.nonempty
  rw [← G.law_sticks (e := id) Function.injective_id hf, ← G.law_sticks (e := id) Function.injective_id (fun j => hf (Fin.castLE h j)), Measure.map_map]
  · rfl
  · exact measurable_pi_lambda _ fun j => measurable_pi_apply _
  · exact measurable_pi_lambda _ fun j => (G.measurable_beta _ _).comp (measurable_pi_apply _)

/-- The first weights broken from sticks come from the first sticks. -/
theorem breakStick_restrict {N N' : ℕ} (h : N ≤ N') (v : Fin N' → ℝ) : (fun j => breakStick v (Fin.castLE h j)) = breakStick (fun j : Fin N => v (Fin.castLE h j)) := by
  funext j
  unfold breakStick
  congr 1
  refine (Finset.prod_bij (fun l _ => Fin.castLE h l) ?_ ?_ ?_ ?_).symm
  · intro l hl; simpa using hl
  · intro l _ l' _ h'; exact Fin.castLE_injective h h'
  · intro l hl
    have : (l : ℕ) < (j : ℕ) := (Finset.mem_filter.1 hl).2
    exact ⟨⟨l, by omega⟩, Finset.mem_filter.2 ⟨Finset.mem_univ _, this⟩, Fin.ext rfl⟩
  · intro l _; rfl

/-- The law of the first weights of a stick-breaking law. -/
theorem stickLaw_restrict {N N' : ℕ} (h : N ≤ N') {f : Fin N' → ℝ × ℝ} (hf : ∀ j, 0 < (f j).1 ∧ 0 < (f j).2) :
    ((betaSticks f).map breakStick).map (fun w j => w (Fin.castLE h j)) = (betaSticks (fun j => f (Fin.castLE h j))).map breakStick := by
  have hm : ∀ {N N' : ℕ} (h : N ≤ N'), Measurable (fun (w : Fin N' → ℝ) (j : Fin N) => w (Fin.castLE h j)) := fun h =>
    measurable_pi_lambda _ fun j => measurable_pi_apply _
  rw [← betaSticks_restrict h hf, Measure.map_map (hm h) measurable_breakStick, Measure.map_map measurable_breakStick (hm h)]
  congr 1
  funext v
  exact breakStick_restrict h v

/-- The law of the weights returned by a stick-breaking draw. -/
theorem lawOf_sticks {σ : Type} {m : M ℝ σ (List ℝ)} {s : σ × ℕ} {N : ℕ} {e : ℕ → ℕ} (he : Function.Injective e) {f : ℕ → ℝ × ℝ} (hf : ∀ j < N, 0 < (f j).1 ∧ 0 < (f j).2)
    (v : σ → List ℝ) (h : ∀ u, ∃ r t, m (G.oracle u) s = (.ok r, t) ∧ IsStick (v t.1) r ∧ ∀ j < N, (v t.1)[j]? = some ((G.oracle u).beta (e j) (f j).1 (f j).2)) :
    G.lawOf m s N = (betaSticks (fun j : Fin N => f j)).map breakStick := by
  rw [← G.law_sticks he (fun j : Fin N => hf j j.2), Measure.map_map measurable_breakStick]
  · unfold lawOf
    congr 1
    funext u
    obtain ⟨r, t, hr, h1, h2⟩ := h u
    rw [hr]
    funext j
    have hv := h2 j j.2
    change (r[(j : ℕ)]?).getD 0 = _
    rw [h1.2 _ _ hv]
    simp only [Option.getD_some, Function.comp, breakStick]
    congr 1
    have : ∀ n ≤ N, (((v t.1).take n).map (fun y => 1 - y)).prod = ∏ l ∈ (Finset.univ : Finset (Fin N)).filter (fun l : Fin N => (l : ℕ) < n), (1 - (G.oracle u).beta (e l) (f l).1 (f l).2) := by
      intro n
      induction n with
      | zero => intro _; simp
      | succ n ih =>
        intro hn
        rw [List.take_add_one, h2 n (by omega), List.map_append, List.prod_append, ih (by omega)]
        have : (Finset.univ : Finset (Fin N)).filter (fun l : Fin N => (l : ℕ) < n + 1) = insert (⟨n, by omega⟩ : Fin N) ((Finset.univ : Finset (Fin N)).filter (fun l : Fin N => (l : ℕ) < n)) := by
          ext l
          simp only [Finset.mem_filter, Finset.mem_univ, true_and, Finset.mem_insert, Fin.ext_iff]
          omega
        rw [this, Finset.prod_insert (by simp)]
        simp [mul_comm]
    rw [this j j.2.le]
    rfl
  · exact measurable_pi_lambda _ fun j => (G.measurable_beta _ _).comp (measurable_pi_apply _)

end RandGen
end Verif
