import Verif.Lemmas.FinGibbs

/-! # The classes with finitely many components: `DirichletDistribution` and `EqualWeighting` -/

namespace Verif.Mix.FinMix
open MeasureTheory ProbabilityTheory GM Spec
open scoped ENNReal

variable {N : ℕ} [NeZero N]

theorem posterior_pos {l : List ℝ} (h : ∀ x ∈ l, 0 < x) (d : List ℤ) : ∀ x ∈ dirichletPosterior l d, 0 < x := by
  intro x hx
  obtain ⟨j, hj, rfl⟩ := List.mem_mapIdx.1 hx
  have := h _ (List.getElem_mem hj)
  positivity

theorem stick_pos (l : List ℝ) (j : ℕ) : ∀ᵐ x ∂dirichletStick l j, 0 < x ∧ (j + 1 ≠ l.length → x < 1) := by
  unfold dirichletStick
  split
  · rename_i h
    rw [ae_dirac_eq]
    exact ⟨one_pos, fun h' => absurd h h'⟩
  · exact betaMeasure_ae.mono fun x h => ⟨h.1, fun _ => h.2⟩

/-- Weights of the Dirichlet law are positive. -/
theorem weightPrior_good {alpha : List ℝ} (hN : alpha.length = N) (ha : ∀ x ∈ alpha, 0 < x) : ∀ᵐ w ∂(weightPrior N alpha), (∀ j, 0 < w j) ∧ ∑ j, w j = 1 := by
  subst hN
  have hne : alpha ≠ [] := by rintro rfl; exact NeZero.ne (List.length ([] : List ℝ)) rfl
  have hp := dirichletStick_prob ha
  have h2 : ∀ᵐ w ∂(weightPrior alpha.length alpha), ∀ j, 0 < w j := by
    unfold weightPrior
    rw [ae_all_iff]
    intro j
    rw [ae_map_iff measurable_breakStick.aemeasurable (measurableSet_lt measurable_const (measurable_pi_apply j))]
    have h1 : ∀ᵐ v ∂Measure.pi (fun j : Fin alpha.length => dirichletStick alpha j), ∀ j : Fin alpha.length, 0 < v j ∧ ((j : ℕ) + 1 ≠ alpha.length → v j < 1) := by
      rw [ae_all_iff]
      exact fun j => (Measure.quasiMeasurePreserving_eval (fun j : Fin alpha.length => dirichletStick alpha j) j).ae (stick_pos alpha j)
    filter_upwards [h1] with v hv
    refine mul_pos (hv j).1 (Finset.prod_pos fun l hl => ?_)
    have hl' : (l : ℕ) < j := (Finset.mem_filter.1 hl).2
    have := (hv l).2 (by have := j.2; omega)
    linarith
  filter_upwards [h2, dirichletLaw_ae hne ha] with w h1 h2 using ⟨h1, h2.2⟩

/-- Dirichlet weights. -/
noncomputable def dirPrior (alpha : List ℝ) (hN : alpha.length = N) (ha : ∀ x ∈ alpha, 0 < x) : FinPrior N where
  prior := weightPrior N alpha
  post := fun d => weightPrior N (dirichletPosterior alpha (labels d))
  prior_prob := weightPrior_prob ha hN
  post_prob := fun d => weightPrior_prob (posterior_pos ha _) (by rw [dirichletPosterior_length, hN])
  good := weightPrior_good hN ha
  conj := fun {n} d => by
    have hne : alpha ≠ [] := by rintro rfl; exact NeZero.ne N hN.symm
    have h := dirichlet_conjugate hne ha hN (labelsBelow_ofFn d)
    have hp : IsProbabilityMeasure (posterior (weightPrior N alpha) (labelLik (labels (List.ofFn fun i => (d i : ℕ))))) := by
      unfold weightPrior
      rw [h]
      exact weightPrior_prob (posterior_pos ha _) (by rw [dirichletPosterior_length, hN])
    obtain ⟨h1, h2, h3⟩ := posterior_smul (hp := hp)
    have e : labelLik (labels (List.ofFn fun i => (d i : ℕ))) = fun w : Fin N → ℝ => ∏ i, ENNReal.ofReal (w (d i)) := funext fun w => labelLik_ofFn d w
    refine ⟨_, h2, h3, ?_⟩
    rw [← e, h1]
    congr 1

/-- The weights that `DirichletDistribution` draws. -/
noncomputable def dirDraw (N : ℕ) (alpha : List ℝ) (d : List ℕ) (ω : Oracle ℝ) (pos : ℕ) : Fin N → ℝ := vec N (ω.dirichlet pos (dirichletPosterior alpha (labels d)))

theorem labelsBelow_list {d : List ℕ} (h : ∀ j ∈ d, j < N) : LabelsBelow (labels d) N := by
  intro x hx
  obtain ⟨j, hj, rfl⟩ := List.mem_map.1 hx
  have := h j hj
  exact ⟨by exact_mod_cast Nat.zero_le _, by exact_mod_cast this⟩

theorem dir_class {alpha : List ℝ} (hN : alpha.length = N) (ha : ∀ x ∈ alpha, 0 < x) :
    FinClass (DirDist.core : WeightCore ℝ) (dirPrior alpha hN ha) (dirDraw N alpha) (fun s => s.alpha = alpha) where
  run := fun ω t d hω hne hd hal => by
    have hdb : LabelsBelow (labels d) alpha.length := by rw [hN]; exact labelsBelow_list hd
    obtain ⟨t', ht, htw, -, -⟩ := DirDist.random_draw (ω := ω) ha (s := (DirDist.core.setD (labels d) t.1, t.2)) hal .none hdb
    have e : ω.dirichlet t.2 (dirichletPosterior alpha (labels d)) = List.ofFn (dirDraw N alpha d ω t.2) := by
      apply List.ext_getElem
      · rw [hω.dirichlet_length, dirichletPosterior_length, hN]; simp
      · intro i h1 h2
        simp [dirDraw, vec, List.getElem?_eq_getElem h1]
    refine ⟨t', ?_, ?_, ?_⟩
    · rw [← e]; exact ht
    · rw [← e]; exact htw
    · have := (DirDist.random_fixed (ω := ω) (fun q => q.2.1 = alpha) .none).keeps (DirDist.core.setD (labels d) t.1, t.2) hal
      rw [ht] at this
      exact this
  law := fun G d pos hd => by
    have hne : alpha ≠ [] := by rintro rfl; exact NeZero.ne N hN.symm
    have hdb : LabelsBelow (labels d) alpha.length := by rw [hN]; exact labelsBelow_list hd
    refine ⟨?_, ?_⟩
    · have key : ∀ (l : List ℝ) (N' : ℕ), l.length = N' → Measurable (fun u : ℕ → G.Seed => vec N' (G.dirichlet l (u pos))) := by
        rintro l _ rfl
        exact (G.dirichlet_meas l).comp (measurable_pi_apply pos)
      exact key _ N (by rw [dirichletPosterior_length, hN])
    · have h1 := DirDist.law G hne ha (s := ((⟨0, alpha, [], labels d⟩ : DirDist ℝ), pos)) rfl .none hdb hN
      refine Eq.trans ?_ h1
      unfold RandGen.lawOf
      congr 1
      funext u
      obtain ⟨t, hr, -⟩ := DirDist.random_draw (ω := G.oracle u) ha (s := ((⟨0, alpha, [], labels d⟩ : DirDist ℝ), pos)) rfl .none hdb
      rw [hr]
      rfl

/-! ### Equal weights -/

/-- Equal weights. -/
noncomputable def equalPrior (N : ℕ) [NeZero N] : FinPrior N where
  prior := Measure.dirac fun _ => 1 / (N : ℝ)
  post := fun _ => Measure.dirac fun _ => 1 / (N : ℝ)
  prior_prob := inferInstance
  post_prob := fun _ => inferInstance
  good := by
    have hN : (0 : ℝ) < N := by exact_mod_cast NeZero.pos N
    rw [ae_dirac_eq]
    refine ⟨fun j => by positivity, ?_⟩
    simp [hN.ne']
  conj := fun {n} d => by
    have hN : (0 : ℝ) < N := by exact_mod_cast NeZero.pos N
    have hm : Measurable (fun w : Fin N → ℝ => ∏ i, ENNReal.ofReal (w (d i))) := Finset.measurable_prod _ fun i _ => (measurable_pi_apply _).ennreal_ofReal
    refine ⟨∏ _i : Fin n, ENNReal.ofReal (1 / (N : ℝ)), Finset.prod_ne_zero_iff.2 fun _ _ => (ENNReal.ofReal_pos.2 (by positivity)).ne', ENNReal.prod_ne_top fun _ _ => ENNReal.ofReal_ne_top, ?_⟩
    refine Measure.ext fun s hs => ?_
    rw [withDensity_apply _ hs, ← lintegral_indicator hs, lintegral_dirac' _ (hm.indicator hs), Measure.smul_apply, Measure.dirac_apply' _ hs, smul_eq_mul]
    by_cases h : (fun _ => 1 / (N : ℝ)) ∈ s
    · rw [Set.indicator_of_mem h, Set.indicator_of_mem h, Pi.one_apply, mul_one]
    · rw [Set.indicator_of_notMem h, Set.indicator_of_notMem h, mul_zero]

theorem equal_class (N : ℕ) [NeZero N] : FinClass (Equal.core : WeightCore ℝ) (equalPrior N) (fun _ _ _ _ => 1 / (N : ℝ)) (fun s => s.n = (N : ℤ)) where
  run := fun ω t d hω hne hd hal => by
    have hu : uniformWeights (K := ℝ) (N : ℤ) = .ok (List.ofFn fun _ : Fin N => 1 / (N : ℝ)) := by
      unfold uniformWeights Py.repeatScalar
      rw [if_neg (by exact_mod_cast NeZero.ne N), if_neg (by omega)]
      simp
    refine ⟨({ t.1 with w := List.ofFn fun _ : Fin N => 1 / (N : ℝ), d := labels d }, t.2), ?_, rfl, hal⟩
    obtain ⟨s, pos⟩ := t
    have hal' : s.n = (N : ℤ) := hal
    show Equal.random .none ω ({ s with d := labels d }, pos) = _
    unfold Equal.random
    simp only [M.bind_apply, M.self, M.lift, hal', hu, M.assign]
    rfl
  law := fun G d pos hd => ⟨measurable_const, by rw [Measure.map_const, measure_univ, one_smul]; rfl⟩

end Verif.Mix.FinMix
