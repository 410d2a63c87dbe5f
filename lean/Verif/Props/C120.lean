import Verif.Lemmas.MixtureLaw
import Verif.Lemmas.WeightTotals
import Verif.Lemmas.RobustRuns
import Verif.Props.C119
import Verif.Props.C41

/-!
# C120: the Gibbs densities are densities, and `dim` marginalises them

After every history of fits of a new object of any of the ten classes, `gibbs_eap_density` is a measurable non-negative function, the density of the mean over
the saved states of the laws `∑ w_j N(mu_j, Sigma_j)`, of total mass the mean of the weight totals, at most one (`C120_eap`, `C120_periods`).  The mass is one for
the finite classes (`C120_one_dirichletDistribution`, `C120_one_equal`, `C120_one_frequency`) and strictly below one for the Dirichlet process whenever no
beta draw is exactly one (`C120_one_refuted`): the truncated weights are not renormalised.

With `dim=i` the function is the density of the `i`-th coordinate of that law (`C120_dim`), with `dim=[...]` of the coordinates in the list (`C120_list`), unlike for
the variational densities (`C114_dim_refuted`).  The MAP density is the density of the law of the stored state (`C120_map`).

The marginal is evaluated at the first column of the query, also when the query is the training data (`y=None`): there the values are those of the marginal of
coordinate `i` at coordinate 0 of the data (`C120_dim_data_refuted`).
-/

set_option linter.unusedSectionVars false

namespace Verif.Mix
open GM Spec MeasureTheory Real
open scoped ENNReal
variable {m : ℕ} [NeZero m] {C : WeightClass ℝ} {ω : Oracle ℝ}

/-- scipy evaluates normal densities, and every drawn atom is a mean with a positive definite covariance. -/
structure NormalWorld (W : World ℝ m (Normal m)) : Prop where
  full : ∀ x a, W.pdf .none x a = normalPdf x a.1 ((Matrix.of a.2)⁻¹ : Matrix (Fin m) (Fin m) ℝ)
  int : ∀ (i : Fin m) x a, W.pdf (.int i) x a = ProbabilityTheory.gaussianPDFReal (a.1 i) (a.2 i i).toNNReal (x 0)
  atoms : ∀ p q, PosCov (W.atom p q)

/-- A mixture just constructed. -/
structure NewObject (s : GM C m (Normal m)) : Prop where
  weights : NewWeights C s.wst.1
  theta : s.theta = []
  saved : s.saved = []
  map : s.mapParams = none

/-- A stored state with an atom for each weight, positive definite covariances and weights that are not negative and sum to at most one. -/
structure Proper (p : RunParams ℝ (Normal m)) : Prop where
  sound : Sound PosCov p
  complete : Complete p
  total : p.w.sum ≤ 1

theorem run_proper {W : World ℝ m (Normal m)} (hW : NormalWorld W) (hω : ω.Legal) {s : GM C m (Normal m) × ℕ} (hs : NewObject s.1) (ops : List (FitArgs ℝ m)) :
    (∀ p ∈ (run W ω s ops).1.saved, Proper p) ∧ ∀ p ∈ (run W ω s ops).1.mapParams, Sound PosCov p ∧ p.w.sum ≤ 1 := by
  obtain ⟨J, hJ, hS, h0⟩ := hs.weights.keeps hω
  obtain ⟨I, hI⟩ := hs.weights.library.tidy ω
  have hk := run_kept W hW.atoms hJ hS ops s (Kept.new hs.theta hs.saved hs.map h0)
  have hc : ∀ p ∈ (run W ω s ops).1.saved, Complete p :=
    run_saved W hI (fun t ht => ⟨evaluable_step t ht, by obtain ⟨as, ns, h⟩ := ht; exact h.ne⟩) s hs.saved ops
  exact ⟨fun p hp => ⟨⟨(hk.saved p hp).1, (hk.saved p hp).2.1⟩, hc p hp, (hk.saved p hp).2.2⟩,
    fun p hp => ⟨⟨(hk.map p hp).1, (hk.map p hp).2.1⟩, (hk.map p hp).2.2⟩⟩

/-- `f` is a density of the law `mu`. -/
structure DensityOf {X : Type} [MeasureSpace X] (f : X → ℝ) (mu : Measure X) : Prop where
  meas : Measurable f
  nonneg : ∀ x, 0 ≤ f x
  law : volume.withDensity (fun x => ENNReal.ofReal (f x)) = mu

theorem mean_le_one {l : List ℝ} (h : ∀ x ∈ l, x ≤ 1) : l.sum / (l.length : ℝ) ≤ 1 := by
  refine div_le_one_of_le₀ ?_ (Nat.cast_nonneg _)
  have := List.sum_le_card_nsmul l 1 h
  simpa using this

variable {W : World ℝ m (Normal m)}

theorem mean_full (hW : NormalWorld W) {ps : List (RunParams ℝ (Normal m))} (hp : ∀ p ∈ ps, Proper p) :
    DensityOf (meanDensity W .none ps) (meanLaw compLaw ps) ∧
      meanLaw compLaw ps Set.univ = ENNReal.ofReal ((ps.map fun p => p.w.sum).sum / (ps.length : ℝ)) ∧ meanLaw compLaw ps Set.univ ≤ 1 := by
  have e : W.pdf .none = fun x (a : Normal m) => normalPdf x a.1 ((Matrix.of a.2)⁻¹ : Matrix (Fin m) (Fin m) ℝ) := by
    funext x a
    exact hW.full x a
  have hd := full_isDensity m
  rw [← e] at hd
  obtain ⟨h1, h2, h3⟩ := mean_density hd fun p hp' => (hp p hp').sound
  have h4 := meanLaw_univ (N := compLaw) (fun p hp' => ⟨(hp p hp').sound, (hp p hp').complete.1⟩) compLaw_univ
  refine ⟨⟨h2, h3, h1⟩, h4, ?_⟩
  rw [h4, ← ENNReal.ofReal_one]
  refine ENNReal.ofReal_le_ofReal ?_
  have := mean_le_one (l := ps.map fun p => p.w.sum) fun x hx => by
    obtain ⟨p, hp', rfl⟩ := List.mem_map.1 hx
    exact (hp p hp').total
  simpa using this

/-- **The EAP density is a density**, of the mean law of the saved states. -/
theorem C120_eap (hW : NormalWorld W) (hω : ω.Legal) {s : GM C m (Normal m) × ℕ} (hs : NewObject s.1) (ops : List (FitArgs ℝ m))
    (hf : (run W ω s ops).1.gibbsFitted = true) :
    ∃ f : (Fin m → ℝ) → ℝ, (∀ xs, eapDensity W (run W ω s ops).1 (some (.rows xs)) .none none none = .ok (xs.map f)) ∧
      DensityOf f (meanLaw compLaw (run W ω s ops).1.saved) ∧
      meanLaw compLaw (run W ω s ops).1.saved Set.univ =
        ENNReal.ofReal (((run W ω s ops).1.saved.map fun p => p.w.sum).sum / ((run W ω s ops).1.saved.length : ℝ)) ∧
      meanLaw compLaw (run W ω s ops).1.saved Set.univ ≤ 1 :=
  ⟨_, fun xs => (C47_run W hs.weights.library s hs.saved ops hf xs (by decide)).1, mean_full hW (run_proper hW hω hs ops).1⟩

/-- The same with `periods=p`: the mean is over the last `p` states. -/
theorem C120_periods (hW : NormalWorld W) (hω : ω.Legal) {s : GM C m (Normal m) × ℕ} (hs : NewObject s.1) (ops : List (FitArgs ℝ m))
    (hf : (run W ω s ops).1.gibbsFitted = true) (k : ℕ) (hk : 1 ≤ k) :
    ∃ f : (Fin m → ℝ) → ℝ, (∀ xs, eapDensity W (run W ω s ops).1 (some (.rows xs)) .none none (some k) = .ok (xs.map f)) ∧
      DensityOf f (meanLaw compLaw (lastN (min k (run W ω s ops).1.saved.length) (run W ω s ops).1.saved)) ∧
      meanLaw compLaw (lastN (min k (run W ω s ops).1.saved.length) (run W ω s ops).1.saved) Set.univ ≤ 1 := by
  have h := mean_full hW (ps := lastN (min k (run W ω s ops).1.saved.length) (run W ω s ops).1.saved) fun p hp => (run_proper hW hω hs ops).1 p (by
    rw [lastN_eq] at hp
    exact List.mem_of_mem_drop hp)
  exact ⟨_, fun xs => (C47_run W hs.weights.library s hs.saved ops hf xs (by decide)).2 k hk, h.1, h.2.2⟩

/-- **`dim=i` marginalises**: the values are those of a density of coordinate `i` of the law above, at the first column of the query. -/
theorem C120_dim (hW : NormalWorld W) (hω : ω.Legal) {s : GM C m (Normal m) × ℕ} (hs : NewObject s.1) (ops : List (FitArgs ℝ m))
    (hf : (run W ω s ops).1.gibbsFitted = true) (i : Fin m) :
    ∃ g : ℝ → ℝ, (∀ xs, eapDensity W (run W ω s ops).1 (some (.rows xs)) (.int i) none none = .ok (xs.map fun x => g (x 0))) ∧
      DensityOf g ((meanLaw compLaw (run W ω s ops).1.saved).map fun x => x i) := by
  have hp := (run_proper hW hω hs ops).1
  obtain ⟨h1, h2, h3⟩ := mean_density (int_isDensity (m := m) i) fun p hp' => (hp p hp').sound
  refine ⟨meanValue (fun x (a : Normal m) => ProbabilityTheory.gaussianPDFReal (a.1 i) (a.2 i i).toNNReal x) (run W ω s ops).1.saved, fun xs => ?_, h2, h3, ?_⟩
  · rw [(C47_run W hs.weights.library s hs.saved ops hf xs (by simp)).1]
    congr 1
    refine List.map_congr_left fun x _ => ?_
    have e : W.pdf (.int i) = fun x (a : Normal m) => ProbabilityTheory.gaussianPDFReal (a.1 i) (a.2 i i).toNNReal (x 0) := by
      funext x a
      exact hW.int i x a
    unfold meanDensity stateDensity
    rw [e]
    rfl
  · rw [h1, meanLaw_map _ (by fun_prop)]

/-- `dim=[...]`: the mixture density of a stored state at points with as many columns as the list has entries is a density of these coordinates. -/
theorem C120_list {c : ℕ} {l : Fin c → Fin m} (hl : Function.Injective l) (pdf : Dim → (Fin c → ℝ) → Normal m → ℝ)
    (hpdf : ∀ x a, pdf (.list (List.ofFn fun i => (l i : ℕ))) x a = normalPdf x (fun i => a.1 (l i)) (((Matrix.of a.2).submatrix l l)⁻¹ : Matrix (Fin c) (Fin c) ℝ))
    {p : RunParams ℝ (Normal m)} (hp : Proper p) :
    ∃ g : (Fin c → ℝ) → ℝ, (∀ xs, mixtureDensity pdf xs p.w p.theta (.list (List.ofFn fun i => (l i : ℕ))) none = .ok (xs.map g)) ∧
      DensityOf g ((mixLaw compLaw p).map fun x i => x (l i)) := by
  have e : pdf (.list (List.ofFn fun i => (l i : ℕ))) = fun x (a : Normal m) => normalPdf x (fun i => a.1 (l i)) (((Matrix.of a.2).submatrix l l)⁻¹ : Matrix (Fin c) (Fin c) ℝ) := by
    funext x a
    exact hpdf x a
  obtain ⟨h1, h2, h3⟩ := mix_density (list_isDensity hl) hp.sound
  refine ⟨_, fun xs => C48_total pdf xs hp.complete.2 hp.complete.1 (by simp), ?_⟩
  rw [e]
  exact ⟨h2, h3, by rw [mixLaw_map _ (by fun_prop)]; exact h1⟩

/-- The MAP density, whenever the stored state has its atoms (see C45), and its marginals. -/
theorem C120_map (hW : NormalWorld W) (hω : ω.Legal) {s : GM C m (Normal m) × ℕ} (hs : NewObject s.1) (ops : List (FitArgs ℝ m))
    (hf : (run W ω s ops).1.gibbsFitted = true) {p : RunParams ℝ (Normal m)} (hp : (run W ω s ops).1.mapParams = some p) (hc : Complete p) :
    (∃ f : (Fin m → ℝ) → ℝ, (∀ xs, mapDensity W (run W ω s ops).1 (some (.rows xs)) .none none = .ok (xs.map f)) ∧
      DensityOf f (mixLaw compLaw p) ∧ mixLaw compLaw p Set.univ = ENNReal.ofReal p.w.sum ∧ p.w.sum ≤ 1) ∧
    ∀ i : Fin m, ∃ g : ℝ → ℝ, (∀ xs, mapDensity W (run W ω s ops).1 (some (.rows xs)) (.int i) none = .ok (xs.map fun x => g (x 0))) ∧
      DensityOf g ((mixLaw compLaw p).map fun x => x i) := by
  obtain ⟨hsd, ht⟩ := (run_proper hW hω hs ops).2 p hp
  have key : ∀ xs dim, dim ≠ .other → mapDensity W (run W ω s ops).1 (some (.rows xs)) dim none = .ok (xs.map fun x => mixValue (W.pdf dim) p x) := by
    intro xs dim hd
    unfold mapDensity
    rw [if_neg (by rw [hf]; simp)]
    simp only [queryRows, hp]
    exact C48_total W.pdf xs hc.2 hc.1 hd
  constructor
  · have e : W.pdf .none = fun x (a : Normal m) => normalPdf x a.1 ((Matrix.of a.2)⁻¹ : Matrix (Fin m) (Fin m) ℝ) := by
      funext x a
      exact hW.full x a
    obtain ⟨h1, h2, h3⟩ := mix_density (full_isDensity m) hsd
    refine ⟨_, fun xs => key xs .none (by decide), ?_, mixLaw_univ hsd compLaw_univ hc.1, ht⟩
    rw [e]
    exact ⟨h2, h3, h1⟩
  · intro i
    obtain ⟨h1, h2, h3⟩ := mix_density (int_isDensity (m := m) i) hsd
    refine ⟨mixValue (fun x (a : Normal m) => ProbabilityTheory.gaussianPDFReal (a.1 i) (a.2 i i).toNNReal x) p, fun xs => ?_, h2, h3, ?_⟩
    · rw [key xs _ (by simp)]
      congr 1
      refine List.map_congr_left fun x _ => ?_
      have e : W.pdf (.int i) = fun x (a : Normal m) => ProbabilityTheory.gaussianPDFReal (a.1 i) (a.2 i i).toNNReal (x 0) := by
        funext x a
        exact hW.int i x a
      rw [e]
      rfl
    · rw [h1, mixLaw_map _ (by fun_prop)]

/-! ## Mass one or not -/

theorem run_total {J : C.State → Prop} {Q : List ℝ → Prop} (hJ : CallsKeep C ω J) (hQ : ∀ t, J t → Q (C.getW t)) (W : World ℝ m (Normal m)) {s : GM C m (Normal m) × ℕ}
    (hs : NewObject s.1) (h0 : J s.1.wst.1) (ops : List (FitArgs ℝ m)) : ∀ p ∈ (run W ω s ops).1.saved, Q p.w := fun p hp =>
  ((run_kept W (P := fun _ => True) (fun _ _ => trivial) hJ hQ ops s (Kept.new hs.theta hs.saved hs.map h0)).saved p hp).2

theorem mass_one (hW : NormalWorld W) (hω : ω.Legal) {s : GM C m (Normal m) × ℕ} (hs : NewObject s.1) (ops : List (FitArgs ℝ m)) (hne : (run W ω s ops).1.saved ≠ [])
    (h1 : ∀ p ∈ (run W ω s ops).1.saved, UnitTotal p.w) : meanLaw compLaw (run W ω s ops).1.saved Set.univ = 1 := by
  have hp := (run_proper hW hω hs ops).1
  rw [(mean_full hW hp).2.1]
  have e : ((run W ω s ops).1.saved.map fun p => p.w.sum) = (run W ω s ops).1.saved.map fun _ => (1 : ℝ) :=
    List.map_congr_left fun p hp' => h1 p hp' (hp p hp').complete.2
  rw [e]
  have : ((run W ω s ops).1.saved.length : ℝ) ≠ 0 := by
    rw [Nat.cast_ne_zero]
    exact fun h => hne (List.length_eq_zero_iff.1 h)
  simp [this]

theorem C120_one_dirichletDistribution (hW : NormalWorld W) (hω : ω.Legal) {s : GM (DirDist.cls : WeightClass ℝ) m (Normal m) × ℕ} (hs : NewObject s.1)
    (ops : List (FitArgs ℝ m)) (hne : (run W ω s ops).1.saved ≠ []) : meanLaw compLaw (run W ω s ops).1.saved Set.univ = 1 := by
  refine mass_one hW hω hs ops hne (run_total (J := DirDist.Total) (DirDist.total_calls hω) (fun _ h => h) W hs (fun h => absurd hs.weights.empty h) ops)

theorem C120_one_equal (hW : NormalWorld W) (hω : ω.Legal) {s : GM (Equal.cls : WeightClass ℝ) m (Normal m) × ℕ} (hs : NewObject s.1) (ops : List (FitArgs ℝ m))
    (hne : (run W ω s ops).1.saved ≠ []) : meanLaw compLaw (run W ω s ops).1.saved Set.univ = 1 := by
  refine mass_one hW hω hs ops hne (run_total (J := Equal.Total) Equal.total_calls (fun _ h => h) W hs (fun h => absurd hs.weights.empty h) ops)

theorem C120_one_frequency (hW : NormalWorld W) (hω : ω.Legal) {s : GM (Freq.cls : WeightClass ℝ) m (Normal m) × ℕ} (hs : NewObject s.1) (ops : List (FitArgs ℝ m))
    (hne : (run W ω s ops).1.saved ≠ []) : meanLaw compLaw (run W ω s ops).1.saved Set.univ = 1 := by
  refine mass_one hW hω hs ops hne (run_total (J := Freq.Total) Freq.total_calls (fun _ h => h) W hs (fun h => absurd hs.weights.empty h) ops)

/-- **Not a probability density** for the Dirichlet process: mass strictly below one, after every history of fits, unless a beta draw is exactly one. -/
theorem C120_one_refuted (hW : NormalWorld W) (hω : ω.Legal) (ho : ω.OpenBeta) {s : GM (DP.cls : WeightClass ℝ) m (Normal m) × ℕ} {alpha : ℝ}
    (hs : NewObject s.1) (ha : s.1.wst.1 = DP.init alpha) (ops : List (FitArgs ℝ m)) : meanLaw compLaw (run W ω s ops).1.saved Set.univ < 1 := by
  have hp := (run_proper hW hω hs ops).1
  have hlt := run_total (J := DP.Short) (Q := fun w => w.sum < 1) (DP.short_calls hω ho) (fun _ h => h.2) W hs (by rw [ha]; exact DP.short_init alpha) ops
  rw [(mean_full hW hp).2.1, ← ENNReal.ofReal_one]
  refine (ENNReal.ofReal_lt_ofReal_iff one_pos).2 ?_
  generalize (run W ω s ops).1.saved = ps at hlt
  rcases ps with _ | ⟨p, ps⟩
  · simp
  · rw [div_lt_one (by simp only [List.length_cons]; positivity)]
    have h1 : (ps.map fun p => p.w.sum).sum ≤ (ps.length : ℝ) := by
      have := List.sum_le_card_nsmul (ps.map fun p => p.w.sum) 1 fun x hx => by
        obtain ⟨q, hq, rfl⟩ := List.mem_map.1 hx
        exact (hlt q (List.mem_cons_of_mem _ hq)).le
      simpa using this
    have h2 := hlt p List.mem_cons_self
    simp only [List.map_cons, List.sum_cons, List.length_cons, Nat.cast_add, Nat.cast_one]
    linarith

/-! ## `dim` with the training data -/

/-- The data of a fit stay on the object. -/
theorem fit_data {K : Type} [Field K] [LinearOrder K] [IsStrictOrderedRing K] {C : WeightClass K} {Atom : Type} {ω : Oracle K} (W : World K m Atom)
    (ys : List (Fin m → K)) (g : PySize) (method : InitMethod) (s : GM C m Atom × ℕ) :
    wp ω (fitGibbs W (.rows ys) g false method) (fun _ t => t.1.y = ys) (fun _ _ => True) s := by
  unfold fitGibbs
  rw [wp_bind]
  unfold initCommon
  rw [wp_assign]
  refine wp_mono (wp_of_keeps (I := fun t : GM C m Atom => t.y = ys) (KeepsR.keeps (R := fun _ => True) ?_) rfl) (fun _ _ h => h) fun _ _ _ => trivial
  have hfr : ∀ {α : Type} {x : M K (GM C m Atom) α}, (∀ c, KeepsR ω (fun s : GM C m Atom => frame s = c) x (fun _ => True)) →
      KeepsR ω (fun s : GM C m Atom => s.y = ys) x (fun _ => True) := by
    intro α x h
    refine KeepsR.of_wp fun s hs => ?_
    have key : ∀ t : GM C m Atom, frame t = frame s.1 → t.y = ys := fun t ht => (congrArg Frame.y ht).trans hs
    exact wp_mono (wp_of_keeps (h (frame s.1)).keeps (s := s) rfl) (fun _ t ht => ⟨key t.1 ht, trivial⟩) fun _ t ht => key t.1 ht
  have hrec : ∀ n i : ℕ, KeepsR ω (fun s : GM C m Atom => s.y = ys) (record W n i) (fun _ => True) := by
    intro n
    induction n with
    | zero => exact fun i => KeepsR.pure trivial
    | succ n ih =>
      intro i
      refine KeepsR.bind (hfr fun c => gibbsStep_frame c W) fun _ _ => KeepsR.bind (hfr fun c => updateMap_frame c W) fun _ _ => KeepsR.bind (R := fun _ => True) ?_ fun _ _ => ih _
      unfold maybeSave saveParams
      refine KeepsR.bind KeepsR.self fun _ _ => KeepsR.ite (fun _ => KeepsR.raise _) fun _ => KeepsR.whenM fun _ => ?_
      refine KeepsR.bind (KeepsR.assign fun s h => h) fun _ _ => KeepsR.bind KeepsR.self fun _ _ => KeepsR.bind (KeepsR.lift _) fun _ _ => ?_
      exact KeepsR.assign fun s h => h
  refine KeepsR.bind (R := fun _ => True) (KeepsR.whenM fun _ => KeepsR.bind (R := fun _ => True) ?_ fun _ _ => hfr fun c => updateMap_frame c W) fun _ _ =>
    KeepsR.bind KeepsR.self fun _ _ => KeepsR.bind (hfr fun c => burn_frame c W _) fun _ _ => KeepsR.bind (hrec _ _) fun _ _ => KeepsR.assign fun s h => h
  unfold initGibbs
  refine KeepsR.bind (KeepsR.assign fun s h => h) fun _ _ => KeepsR.bind KeepsR.self fun _ _ => KeepsR.bind (keeps_draws _ _) fun _ _ =>
    KeepsR.bind (KeepsR.assign fun s h => h) fun _ _ => KeepsR.bind (R := fun _ => True) ?_ fun _ _ => KeepsR.bind (R := fun _ => True) ?_ fun _ _ => KeepsR.assign fun s h => h
  · unfold initWeights
    refine KeepsR.bind KeepsR.self fun _ _ => ?_
    split
    · exact KeepsR.bind (KeepsR.lift _) fun _ _ => KeepsR.bind (keeps_callW (fun _ _ h => h) _) fun _ _ => KeepsR.pure trivial
    · exact KeepsR.bind (keeps_callW (fun _ _ h => h) _) fun _ _ => KeepsR.pure trivial
  · cases method with
    | kmeans => exact KeepsR.bind KeepsR.self fun _ _ => KeepsR.bind (keeps_draw1 _) fun _ _ => KeepsR.bind (KeepsR.lift _) fun _ _ => KeepsR.pure trivial
    | random => exact KeepsR.bind KeepsR.self fun _ _ => keeps_callW (fun _ _ h => h) _
    | variational => exact KeepsR.bind KeepsR.self fun _ _ => KeepsR.bind (keeps_draw1 _) fun _ _ => (KeepsR.lift _).true_of
    | unknown => exact KeepsR.raise _

/-- Surroundings in which every drawn atom happens to be the standard normal law. -/
noncomputable def stdWorld (m : ℕ) [NeZero m] : World ℝ m (Normal m) where
  unif := fun _ lo hi => (lo + hi) / 2
  atom := fun _ _ => (0, (1 : Matrix (Fin m) (Fin m) ℝ))
  gumbel := fun p => ((p % 3 : ℕ) : ℝ)
  kmeans := fun _ ys k => if k < 1 ∨ (ys.length : ℤ) < k then .error .valueError else .ok ((List.range ys.length).map (fun i => i % k.toNat))
  argsort := demoArgsort
  varLabels := fun _ ys _ => .ok (ys.map (fun _ => 0))
  logpdf := fun x a => ((Real.log (normalPdf x a.1 ((Matrix.of a.2)⁻¹ : Matrix (Fin m) (Fin m) ℝ)) : ℝ) : WithBot ℝ)
  pdf := fun dim x a => match dim with
    | .none => normalPdf x a.1 ((Matrix.of a.2)⁻¹ : Matrix (Fin m) (Fin m) ℝ)
    | .int i => if h : i < m then ProbabilityTheory.gaussianPDFReal (a.1 ⟨i, h⟩) (a.2 ⟨i, h⟩ ⟨i, h⟩).toNNReal (x 0) else 0
    | _ => 0
  log := Real.log
  eps := 1 / 1000
  fuel := 20

theorem std_normal (m : ℕ) [NeZero m] : NormalWorld (stdWorld m) where
  full := fun _ _ => rfl
  int := fun i _ _ => dif_pos i.2
  atoms := fun _ _ => Matrix.PosDef.one

theorem std_faithful (m : ℕ) [NeZero m] : Faithful (stdWorld m) where
  slices := ⟨fun p => by simp only [stdWorld]; norm_num, fun p x h0 h1 => by
    simp only [stdWorld]
    constructor
    · linarith
    · linarith⟩
  argsort := demoArgsort_ok
  kmeans := fun p ys k h1 h2 => by
    refine ⟨_, if_neg (by omega), by simp, fun x hx => ?_⟩
    obtain ⟨i, -, rfl⟩ := List.mem_map.1 hx
    have : i % k.toNat < k.toNat := Nat.mod_lt _ (by omega)
    omega
  varLabels := fun p ys k h1 => ⟨_, rfl, by simp, fun x hx => by
    obtain ⟨i, -, rfl⟩ := List.mem_map.1 hx
    omega⟩

/-- An equal-weights mixture of two components, two iterations of which one is burnt. -/
noncomputable def twoEqual (m : ℕ) : GM (Equal.cls : WeightClass ℝ) m (Normal m) × ℕ := (blank Equal.cls (some 2) 2 1 (Equal.init 2 : Equal ℝ), 0)

theorem twoEqual_new (m : ℕ) [NeZero m] : NewObject (twoEqual m).1 := ⟨.equal 2, rfl, rfl, rfl⟩

/-- Its fit to any two rows returns and saves one state. -/
theorem twoEqual_fit (m : ℕ) [NeZero m] (y y' : Fin m → ℝ) :
    ∃ t, fitGibbs (stdWorld m) (.rows [y, y']) .none false .kmeans demo (twoEqual m) = (.ok (), t) ∧ t.1.gibbsFitted = true ∧ t.1.y = [y, y'] ∧ t.1.saved.length = 1 := by
  have h := C119_equal (W := stdWorld m) (ω := demo) (n := 2) demo_legal (std_faithful m) (by omega) (twoEqual m) rfl rfl one_ne_zero [⟨[y, y'], .none, false, .kmeans⟩]
    ⟨by simp, ⟨⟨.inl rfl, nofun, fun _ => by simp [twoEqual, blank, clustersAsked], nofun⟩, .inl trivial⟩, trivial⟩
  have h' : wp demo (session (stdWorld m) [⟨[y, y'], .none, false, .kmeans⟩]) (fun _ t => t.1.gibbsFitted = true) (fun _ _ => False) (twoEqual m) := by
    obtain ⟨h1, h2⟩ := h
    have h3 := h2 (by simp)
    unfold wp
    revert h1 h3
    rcases session (stdWorld m) [⟨[y, y'], .none, false, .kmeans⟩] demo (twoEqual m) with ⟨e | ⟨⟩, t⟩
    · exact fun h => nomatch h
    · exact fun _ h => h
  unfold session session at h'
  rw [wp_bind] at h'
  have hd := fit_data (ω := demo) (stdWorld m) [y, y'] .none .kmeans (twoEqual m)
  unfold wp at hd h'
  rcases hr : fitGibbs (stdWorld m) (.rows [y, y']) .none false .kmeans demo (twoEqual m) with ⟨e | ⟨⟩, t⟩
  · rw [hr] at h'
    exact h'.elim
  · rw [hr] at hd h'
    refine ⟨t, rfl, h', hd, ?_⟩
    have hc := C41_cold (stdWorld m) (.rows [y, y']) .none .kmeans (twoEqual m) t (le_refl 1) hr
    rw [hc.1]
    simp [twoEqual, blank, perFit]

/-- The objects after one fit. -/
theorem run_one {t : GM (Equal.cls : WeightClass ℝ) m (Normal m) × ℕ} {ys : List (Fin m → ℝ)} (h : fitGibbs (stdWorld m) (.rows ys) .none false .kmeans demo (twoEqual m) = (.ok (), t)) :
    run (stdWorld m) demo (twoEqual m) [⟨.rows ys, .none, false, .kmeans⟩] = t := by
  unfold run
  simp only [List.foldl_cons, List.foldl_nil, h]

theorem mixValue_same {Atom Obs : Type} {a0 : Atom} {p : RunParams ℝ Atom} (hp : ∀ q ∈ p.theta, q.2 = a0) (hE : Evaluable p) (g : Obs → Atom → ℝ) (x : Obs) :
    mixValue g p x = p.w.sum * g x a0 := by
  unfold mixValue
  have e : (List.range p.w.length).map (weighted g p.w p.theta x) = p.w.map fun wj => wj * g x a0 := by
    refine List.ext_getElem (by simp) fun j h1 h2 => ?_
    have hj : j < p.w.length := by simpa using h1
    simp only [List.getElem_map, List.getElem_range]
    obtain ⟨a, ha⟩ := Option.isSome_iff_exists.1 (hE j hj)
    unfold weighted
    rw [ha, List.getElem?_eq_getElem hj]
    simp only []
    rw [show a = a0 from hp _ (lookup_mem' ha)]
  rw [e, List.sum_map_mul_right]
  simp

/-- **`y=None` with `dim=1`**: two observations of two coordinates; the values returned are those of the density of the second coordinate at the *first* coordinate
of the data, and not at the second. -/
theorem C120_dim_data_refuted : ∃ (W : World ℝ 2 (Normal 2)) (s : GM (Equal.cls : WeightClass ℝ) 2 (Normal 2) × ℕ) (ops : List (FitArgs ℝ 2)) (g : ℝ → ℝ),
    NormalWorld W ∧ NewObject s.1 ∧ (run W demo s ops).1.gibbsFitted = true ∧ DensityOf g ((meanLaw compLaw (run W demo s ops).1.saved).map fun x => x 1) ∧
    eapDensity W (run W demo s ops).1 none (.int 1) none none = .ok ((run W demo s ops).1.y.map fun x => g (x 0)) ∧
    (run W demo s ops).1.y = [![0, 1], ![0, 1]] ∧
    eapDensity W (run W demo s ops).1 none (.int 1) none none ≠ .ok ((run W demo s ops).1.y.map fun x => g (x 1)) := by
  obtain ⟨t, hr, hf, hy, hl⟩ := twoEqual_fit 2 ![0, 1] ![0, 1]
  have ht := run_one hr
  refine ⟨stdWorld 2, twoEqual 2, [⟨.rows [![0, 1], ![0, 1]], .none, false, .kmeans⟩], ?_⟩
  have hp := (run_proper (std_normal 2) demo_legal (twoEqual_new 2) [⟨.rows [![0, 1], ![0, 1]], .none, false, .kmeans⟩]).1
  have hk := run_kept (stdWorld 2) (ω := demo) (P := fun a => a = ((0, (1 : Matrix (Fin 2) (Fin 2) ℝ)) : Normal 2)) (Q := UnitTotal) (fun _ _ => rfl) Equal.total_calls (fun _ h => h)
    [⟨.rows [![0, 1], ![0, 1]], .none, false, .kmeans⟩] (twoEqual 2) (Kept.new rfl rfl rfl UnitTotal.nil)
  have hs := C47_all (stdWorld 2) _ (by rw [ht]; exact hf) (fun p h => (hp p h).complete) none rfl (dim := .int 1) (by simp)
  obtain ⟨h1, h2, h3⟩ := mean_density (int_isDensity (m := 2) 1) fun p hp' => (hp p hp').sound
  refine ⟨meanValue (fun x (a : Normal 2) => ProbabilityTheory.gaussianPDFReal (a.1 1) (a.2 1 1).toNNReal x)
    (run (stdWorld 2) demo (twoEqual 2) [⟨.rows [![0, 1], ![0, 1]], .none, false, .kmeans⟩]).1.saved, std_normal 2, twoEqual_new 2, by rw [ht]; exact hf,
    ⟨h2, h3, by rw [h1, meanLaw_map _ (by fun_prop)]⟩, ?_⟩
  have hg : ∀ x, meanValue (fun x (a : Normal 2) => ProbabilityTheory.gaussianPDFReal (a.1 1) (a.2 1 1).toNNReal x)
      (run (stdWorld 2) demo (twoEqual 2) [⟨.rows [![0, 1], ![0, 1]], .none, false, .kmeans⟩]).1.saved x = ProbabilityTheory.gaussianPDFReal 0 1 x := by
    intro x
    rw [ht] at hp hk ⊢
    obtain ⟨p, hps⟩ := List.length_eq_one_iff.1 hl
    rw [hps] at hp ⊢
    have hp1 := hp p (by simp)
    have hk1 := hk.saved p (by rw [hps]; simp)
    unfold meanValue
    simp only [List.map_cons, List.map_nil, List.sum_cons, List.sum_nil, List.length_cons, List.length_nil]
    rw [mixValue_same hk1.1 hp1.complete.1, hk1.2 hp1.complete.2]
    simp
  have e1 : eapDensity (stdWorld 2) (run (stdWorld 2) demo (twoEqual 2) [⟨.rows [![0, 1], ![0, 1]], .none, false, .kmeans⟩]).1 none (.int 1) none none
      = .ok ((run (stdWorld 2) demo (twoEqual 2) [⟨.rows [![0, 1], ![0, 1]], .none, false, .kmeans⟩]).1.y.map fun x =>
        meanValue (fun x (a : Normal 2) => ProbabilityTheory.gaussianPDFReal (a.1 1) (a.2 1 1).toNNReal x)
          (run (stdWorld 2) demo (twoEqual 2) [⟨.rows [![0, 1], ![0, 1]], .none, false, .kmeans⟩]).1.saved (x 0)) := hs
  refine ⟨e1, by rw [ht]; exact hy, ?_⟩
  rw [e1]
  simp only [hg]
  rw [ht, hy]
  intro h
  have h' : ProbabilityTheory.gaussianPDFReal 0 1 0 = ProbabilityTheory.gaussianPDFReal 0 1 1 := by simpa using h
  unfold ProbabilityTheory.gaussianPDFReal at h'
  have hc : (√(2 * π * ((1 : NNReal) : ℝ)))⁻¹ ≠ 0 := by positivity
  have := Real.exp_injective (mul_left_cancel₀ hc h')
  norm_num at this

/-! ### The hypotheses are met -/

/-- One fit of the equal-weights mixture to two rows: fitted, one state saved, mass one. -/
example : ∃ ops, (run (stdWorld 1) demo (twoEqual 1) ops).1.gibbsFitted = true ∧ meanLaw compLaw (run (stdWorld 1) demo (twoEqual 1) ops).1.saved Set.univ = 1 := by
  obtain ⟨t, hr, hf, -, hl⟩ := twoEqual_fit 1 (fun _ => 0) fun _ => 1
  have ht := run_one hr
  refine ⟨_, by rw [ht]; exact hf, C120_one_equal (std_normal 1) demo_legal (twoEqual_new 1) _ ?_⟩
  rw [ht]
  intro h
  rw [h] at hl
  simp at hl

/-- The example generator has no beta draw equal to one. -/
example : (demo : Oracle ℝ).OpenBeta := fun i _ _ => (demo_frac i).2

example : NewObject (m := 1) (blank DP.cls none 3 1 (DP.init 1 : DP ℝ)) := ⟨.dp 1, rfl, rfl, rfl⟩
end Verif.Mix
