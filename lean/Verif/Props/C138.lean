import Verif.Props.C113
import Verif.Props.C56
import Verif.Props.C137

/-!
# C138: the affinity matrix of given points converges to the posterior probability that they are assigned alike, not to a co-clustering probability

Mixtures with `N` components and weights from `DirichletDistribution` or `EqualWeighting`, normal observations with any number of columns, started cold, and at least two points `xs`.  For every pair of
points, **the probability that `gibbs_eap_affinity_matrix(xs)` raises or that the entry of the pair differs by `ε` or more from the posterior probability that both points have the same most probable
component tends to zero** as the number of saved states grows (`C138_dirichletDistribution`, `C138_equal`; for any conjugate prior of the atoms: `C138_affinity`).

This limit is **not** the one of `gibbs_eap_affinity_matrix()`, even when `xs` are the fitted data: if two rows of the data are equal and there are at least two components, the first matrix tends to one
for this pair, the second to a number below one (`C138_refuted_dirichletDistribution`, `C138_refuted_equal`).

As in C105 the shift `eps` of the slice variables is taken to be zero.
-/

namespace Verif.Mix
open MeasureTheory ProbabilityTheory GM Spec Filter
open scoped ENNReal Topology

set_option linter.unusedSectionVars false

variable {N m n : ℕ} [NeZero N] {Atom : Type} [MeasurableSpace Atom] {C0 : WeightCore ℝ}

namespace FinMix

/-- The probability of the event that `gibbs_eap_affinity_matrix(xs)` raises or that its entry `(i, j)` is not within `ε` of `v`, after `T` saved states. -/
noncomputable def affinityMiss (nz : ℝ → ℝ) (W : World ℝ m Atom) (A : AtomGen m Atom) (G : RandGen) (gap burn : ℕ) (xs : List (Fin m → ℝ)) (i j : ℕ) (v ε : ℝ) (s : GM C0.inheritTail m Atom × ℕ) (T : ℕ) : ℝ≥0∞ :=
  open Classical in
  savedRuns nz W A G gap T (burn + 1)
    (fun l => if ∃ M, eapAffinityAt W { s.1 with saved := l, gibbsFitted := true } (.rows xs) = .ok M ∧ |entry M i j - v| < ε then 0 else 1) s

/-- Weight times density at `x` of a component. -/
noncomputable def score (lp : (Fin m → ℝ) → Atom → WithBot ℝ) (x : Fin m → ℝ) (c : Config N n Atom) (j : Fin N) : ℝ := c.2.2 j * botExp (lp x (c.2.1 j))

/-- `b` is the most probable component for `x`, the lowest on ties. -/
def Preferred (lp : (Fin m → ℝ) → Atom → WithBot ℝ) (x : Fin m → ℝ) (c : Config N n Atom) (b : Fin N) : Prop := (∀ j, score lp x c j ≤ score lp x c b) ∧ ∀ j, j < b → score lp x c j < score lp x c b

/-- Both points have the same most probable component. -/
def alike (lp : (Fin m → ℝ) → Atom → WithBot ℝ) (x x' : Fin m → ℝ) : Set (Config N n Atom) := {c | ∃ b, Preferred lp x c b ∧ Preferred lp x' c b}

section
variable {lp : (Fin m → ℝ) → Atom → WithBot ℝ} {f : FinPrior N} {drawW : List ℕ → Oracle ℝ → ℕ → Fin N → ℝ} {Inv : C0.State → Prop} {W : World ℝ m Atom} {A : AtomGen m Atom} {y : Fin n → Fin m → ℝ}
  {p : NIW ℝ m} {nz : ℝ → ℝ}

theorem measurable_score {x : Fin m → ℝ} (hx : Measurable (obsDens lp x)) (j : Fin N) : Measurable (fun c : Config N n Atom => score lp x c j) := by
  have e : (fun a => botExp (lp x a)) = fun a => (obsDens lp x a).toReal := by
    funext a
    exact (ENNReal.toReal_ofReal (botExp_nonneg _)).symm
  have h1 : Measurable (fun a => botExp (lp x a)) := by
    rw [e]
    exact hx.ennreal_toReal
  exact ((measurable_pi_apply j).comp (measurable_snd.comp measurable_snd)).mul (h1.comp ((measurable_pi_apply j).comp (measurable_fst.comp measurable_snd)))

theorem measurableSet_alike {x x' : Fin m → ℝ} (hx : Measurable (obsDens lp x)) (hx' : Measurable (obsDens lp x')) : MeasurableSet (alike (N := N) (n := n) lp x x') := by
  have h1 : ∀ {x : Fin m → ℝ}, Measurable (obsDens lp x) → ∀ b : Fin N, MeasurableSet {c : Config N n Atom | Preferred lp x c b} := by
    intro x hx b
    have : {c : Config N n Atom | Preferred lp x c b} = (⋂ j, {c | score lp x c j ≤ score lp x c b}) ∩ ⋂ j, ⋂ _ : j < b, {c | score lp x c j < score lp x c b} := by
      ext c
      simp [Preferred]
    rw [this]
    exact (MeasurableSet.iInter fun j => measurableSet_le (measurable_score hx j) (measurable_score hx b)).inter
      (MeasurableSet.iInter fun j => MeasurableSet.iInter fun _ => measurableSet_lt (measurable_score hx j) (measurable_score hx b))
  have : alike (N := N) (n := n) lp x x' = ⋃ b, {c | Preferred lp x c b} ∩ {c | Preferred lp x' c b} := by
    ext c
    simp [alike]
  rw [this]
  exact MeasurableSet.iUnion fun b => (h1 hx b).inter (h1 hx' b)

theorem weighted_full {x : Fin m → ℝ} (hpdf : ∀ a, W.pdf .none x a = botExp (lp x a)) {s : GM C0.inheritTail m Atom} (h : FullRun N (runParams s)) (x0 : Fin N → Atom) (j : Fin N) :
    weighted (W.pdf .none) (runParams s).w (runParams s).theta x j = score lp x (stateConfig (n := n) x0 s) j := by
  obtain ⟨h1, w, hw, h2⟩ := h
  have h2' : C0.getW s.wst.1 = List.ofFn w := h2
  obtain ⟨a, ha⟩ := h1 j j.2
  have ha' : s.theta.lookup (j : ℕ) = some a := ha
  have e : (List.ofFn w)[(j : ℕ)]? = some (w j) := by simp
  unfold score stateConfig weighted extF
  rw [h2, h2', vec_ofFn, ha, e]
  simp only []
  rw [ha', ← hpdf]
  rfl

theorem argmax_full {x : Fin m → ℝ} (hpdf : ∀ a, W.pdf .none x a = botExp (lp x a)) (hden : ∀ a, lp x a ≠ ⊥) {s : GM C0.inheritTail m Atom} (h : FullRun N (runParams s)) (x0 : Fin N → Atom) (b : ℕ) :
    IsArgmax (responsibilities (W.pdf .none) (runParams s).w (runParams s).theta x) b ↔ ∃ hb : b < N, Preferred lp x (stateConfig (n := n) x0 s) ⟨b, hb⟩ := by
  have hs : ∀ j : Fin N, weighted (W.pdf .none) (runParams s).w (runParams s).theta x j = score lp x (stateConfig (n := n) x0 s) j := weighted_full hpdf h x0
  have hlen : (runParams s).w.length = N := by
    obtain ⟨-, w, -, h2⟩ := h
    rw [h2, List.length_ofFn]
  have hpos : 0 < ((List.range (runParams s).w.length).map (weighted (W.pdf .none) (runParams s).w (runParams s).theta x)).sum := by
    refine List.sum_pos _ (fun v hv => ?_) ?_
    · obtain ⟨j, hj, rfl⟩ := List.mem_map.1 hv
      rw [List.mem_range, hlen] at hj
      have := hs ⟨j, hj⟩
      rw [this]
      obtain ⟨-, w, hw, h2⟩ := h
      have h2' : C0.getW s.wst.1 = List.ofFn w := h2
      unfold score stateConfig
      rw [h2', vec_ofFn]
      refine mul_pos (hw _) ?_
      obtain ⟨r, hr⟩ := WithBot.ne_bot_iff_exists.1 (hden (extF s.theta x0 ⟨j, hj⟩))
      simp only []
      rw [← hr]
      exact Real.exp_pos r
    · intro hc
      have := congrArg List.length hc
      simp [hlen] at this
      exact NeZero.ne N this
  unfold responsibilities
  simp only []
  rw [IsArgmax.map_iff fun u v => div_lt_div_iff_of_pos_right hpos]
  constructor
  · intro hb
    have hbN : b < N := by simpa [hlen] using hb.lt
    refine ⟨hbN, fun j => ?_, fun j hj => ?_⟩
    · have := hb.max j (by simp [hlen])
      simp only [List.getElem_map, List.getElem_range] at this
      rw [← hs, ← hs]
      exact this
    · have := hb.first j hj
      simp only [List.getElem_map, List.getElem_range] at this
      rw [← hs, ← hs]
      exact this
  · rintro ⟨hbN, h1, h2⟩
    refine ⟨by simpa [hlen] using hbN, fun j hj => ?_, fun j hj => ?_⟩
    · have hj' : j < N := by simpa [hlen] using hj
      have := h1 ⟨j, hj'⟩
      rw [← hs, ← hs] at this
      simpa using this
    · have := h2 ⟨j, hj.trans hbN⟩ hj
      rw [← hs, ← hs] at this
      simpa using this

theorem sameChoice_full {x x' : Fin m → ℝ} (hpdf : ∀ x a, W.pdf .none x a = botExp (lp x a)) (hden : ∀ x a, lp x a ≠ ⊥) {s : GM C0.inheritTail m Atom} (h : FullRun N (runParams s)) (x0 : Fin N → Atom) :
    SameChoice (W.pdf .none) (runParams s) x x' ↔ stateConfig (n := n) x0 s ∈ alike lp x x' := by
  unfold SameChoice alike
  constructor
  · rintro ⟨b, h1, h2⟩
    obtain ⟨hb, h1⟩ := (argmax_full (hpdf x) (hden x) h x0 b).1 h1
    obtain ⟨_, h3⟩ := (argmax_full (hpdf x') (hden x') h x0 b).1 h2
    exact ⟨⟨b, hb⟩, h1, h3⟩
  · rintro ⟨b, h1, h2⟩
    exact ⟨b, (argmax_full (hpdf x) (hden x) h x0 b).2 ⟨b.2, h1⟩, (argmax_full (hpdf x') (hden x') h x0 b).2 ⟨b.2, h2⟩⟩

/-- The entry of the matrix. -/
theorem affinityAt_full {s : GM C0.inheritTail m Atom} (hf : s.gibbsFitted = true) (hq : ∀ q ∈ s.saved, FullRun N q) {xs : List (Fin m → ℝ)} (hxs : 2 ≤ xs.length) {i j : ℕ} {x x' : Fin m → ℝ} (hi : xs[i]? = some x)
    (hj : xs[j]? = some x') :
    ∃ M, eapAffinityAt W s (.rows xs) = .ok M ∧ entry M i j = (s.saved.map (open Classical in fun q => if SameChoice (W.pdf .none) q x x' then (1 : ℝ) else 0)).sum / (s.saved.length : ℝ) := by
  classical
  obtain ⟨gs, h1, h2⟩ := stateClusters_spec W hxs s.saved fun q h => ⟨(full_complete (hq q h)).2, fun j hj => (full_complete (hq q h)).1 j hj⟩
  refine ⟨_, by unfold eapAffinityAt; rw [if_neg (by simp [hf])]; simp only [queryRows]; rw [h1], ?_⟩
  obtain ⟨hi', -⟩ := List.getElem?_eq_some_iff.1 hi
  obtain ⟨hj', -⟩ := List.getElem?_eq_some_iff.1 hj
  simp only [entry, List.getElem?_map, List.getElem?_range hi', List.getElem?_range hj', Option.map_some, Option.bind_some, Option.getD_some]
  rw [h2 i j x x' hi hj]
  congr 1
  generalize s.saved = l
  induction l with
  | nil => simp
  | cons q l ih =>
    by_cases hc : SameChoice (W.pdf .none) q x x'
    · rw [List.filter_cons_of_pos (by simpa using hc), List.length_cons, List.map_cons, List.sum_cons, if_pos hc, ← ih]
      push_cast
      ring
    · rw [List.filter_cons_of_neg (by simpa using hc), List.map_cons, List.sum_cons, if_neg hc, ← ih, zero_add]

variable (hlp : ∀ x, Measurable (obsDens lp x)) (hnz : IsGumbel nz) (hW : W.logpdf = lp) (hpdf : ∀ x a, W.pdf .none x a = botExp (lp x a)) (hcl : FinClass C0 f drawW Inv) (heps : W.eps = 0) (hn : 2 ≤ n)
  (hcj : Conjugate A lp p) (G : RandGen) (hden : ∀ x a, lp x a ≠ ⊥)
include hlp hnz hW hpdf hcl heps hn hcj hden

/-- **The affinity matrix of given points converges** in probability to the posterior probability that they are assigned alike. -/
theorem C138_affinity {s : GM C0.inheritTail m Atom × ℕ} {d : Fin n → Fin N} (h : FinHolds y p Inv s.1 d) (hfresh : FreshAtoms s.1) {xs : List (Fin m → ℝ)} (hxs : 2 ≤ xs.length) {i j : ℕ} {x x' : Fin m → ℝ}
    (hi : xs[i]? = some x) (hj : xs[j]? = some x') {gap : ℕ} (hgap : 0 < gap) (burn : ℕ) {ε : ℝ} (hε : 0 < ε) :
    Tendsto (affinityMiss nz W A G gap burn xs i j ((posteriorPairs A lp p f y).real (alike lp x x')) ε s) atTop (𝓝 0) := by
  classical
  have hms := measurableSet_alike (N := N) (n := n) (hlp x) (hlp x')
  have hprob := posterior_prob (f := f) (fun i => hlp (y i)) hcj
  refine savedRuns_average (fun i => hlp (y i)) hnz hW hcl heps hn hcj G (fun i => hden (y i)) h hfresh hgap burn (g := (alike lp x x').indicator fun _ => 1) (measurable_const.indicator hms)
    (fun _ => Set.indicator_nonneg (fun _ _ => zero_le_one) _) ((integrable_const _).indicator hms) (obs := fun q => if SameChoice (W.pdf .none) q x x' then 1 else 0)
    (fun s δ x0 _ hf => ?_) hε (fun T l hl hq => ?_)
  · rw [Set.indicator_apply]
    exact if_congr (sameChoice_full hpdf hden hf x0) rfl rfl
  · obtain ⟨M, h1, h2⟩ := affinityAt_full (W := W) (s := { s.1 with saved := l, gibbsFitted := true }) rfl hq hxs hi hj
    have h2' : entry M i j = (l.map fun q => if SameChoice (W.pdf .none) q x x' then (1 : ℝ) else 0).sum / (T : ℝ) := by
      rw [h2, ← hl]
    have hM : ∫ q, (alike lp x x').indicator (fun _ => (1 : ℝ)) q ∂(posteriorPairs A lp p f y) = (posteriorPairs A lp p f y).real (alike lp x x') := integral_indicator_one hms
    rw [hM]
    by_cases hc : ε ≤ |(l.map fun q => if SameChoice (W.pdf .none) q x x' then (1 : ℝ) else 0).sum / (T : ℝ) - (posteriorPairs A lp p f y).real (alike lp x x')|
    · rw [if_pos hc, if_neg]
      rintro ⟨M', hM', hlt⟩
      rw [h1] at hM'
      cases hM'
      rw [h2'] at hlt
      exact absurd hlt (not_lt.2 hc)
    · rw [if_neg hc, if_pos ⟨M, h1, by rw [h2']; exact not_le.1 hc⟩]

end

/-- A point and itself are always assigned alike. -/
theorem alike_self (lp : (Fin m → ℝ) → Atom → WithBot ℝ) (x : Fin m → ℝ) : alike (N := N) (n := n) lp x x = Set.univ := by
  refine Set.eq_univ_of_forall fun c => ?_
  obtain ⟨b, hb⟩ := Finite.exists_max (score lp x c)
  obtain ⟨b', ⟨h1, h2⟩⟩ : ∃ b', (∀ j, score lp x c j ≤ score lp x c b') ∧ ∀ j, j < b' → ¬ ∀ k, score lp x c k ≤ score lp x c j := by
    have hne : (Finset.univ.filter fun b => ∀ j, score lp x c j ≤ score lp x c b).Nonempty := ⟨b, by simpa using hb⟩
    refine ⟨_, (Finset.mem_filter.1 (Finset.min'_mem _ hne)).2, fun j hj hc => ?_⟩
    exact absurd (Finset.min'_le _ j (by simpa using hc)) (not_le.2 hj)
  have : Preferred lp x c b' := ⟨h1, fun j hj => lt_of_not_ge fun hc => h2 j hj fun k => (h1 k).trans hc⟩
  exact ⟨b', this, this⟩

end FinMix

/-! ### Normal observations -/

section
variable {p : NIW ℝ m} (hp : Admissible p) (y : Fin n → Fin m → ℝ) {nz : ℝ → ℝ} (hnz : IsGumbel nz) {W : World ℝ m (MeanCov m)} (heps : W.eps = 0) (hW : W.logpdf = normalLog)
  (hpdf : ∀ x a, W.pdf .none x a = Real.exp (logNormal x a.1 (Matrix.of a.2))) (hn : 2 ≤ n) (G : RandGen) {gap : ℕ} (hgap : 0 < gap) (burn : ℕ) {ε : ℝ} (hε : 0 < ε)
include hp hnz heps hW hpdf hn hgap hε

/-- **Dirichlet weights.** -/
theorem C138_dirichletDistribution {alpha : List ℝ} (hN : alpha.length = N) (ha : ∀ x ∈ alpha, 0 < x) {s : GM (DirDist.cls : WeightClass ℝ) m (MeanCov m) × ℕ}
    {d : Fin n → Fin N} (h : FinMix.FinHolds (C0 := DirDist.core) y p (fun s => s.alpha = alpha) s.1 d) (hfresh : FreshAtoms s.1) {xs : List (Fin m → ℝ)} (hxs : 2 ≤ xs.length) {i j : ℕ} {x x' : Fin m → ℝ}
    (hi : xs[i]? = some x) (hj : xs[j]? = some x') :
    Tendsto (FinMix.affinityMiss (C0 := DirDist.core) nz W (AtomGen.ofLaw niwAtoms) G gap burn xs i j
      ((FinMix.posteriorPairs (AtomGen.ofLaw niwAtoms) normalLog p (FinMix.dirPrior alpha hN ha) y).real (FinMix.alike normalLog x x')) ε s) atTop (𝓝 0) :=
  FinMix.C138_affinity (C0 := DirDist.core) (fun x => measurable_obs (n := 1) (fun _ => x) 0) hnz hW hpdf (FinMix.dir_class hN ha) heps hn (niw_conjugate hp) G (fun _ _ => WithBot.coe_ne_bot) h hfresh hxs hi hj hgap burn hε

/-- **Equal weights.** -/
theorem C138_equal {s : GM (Equal.cls : WeightClass ℝ) m (MeanCov m) × ℕ} {d : Fin n → Fin N} (h : FinMix.FinHolds (C0 := Equal.core) y p (fun s => s.n = (N : ℤ)) s.1 d) (hfresh : FreshAtoms s.1)
    {xs : List (Fin m → ℝ)} (hxs : 2 ≤ xs.length) {i j : ℕ} {x x' : Fin m → ℝ} (hi : xs[i]? = some x) (hj : xs[j]? = some x') :
    Tendsto (FinMix.affinityMiss (C0 := Equal.core) nz W (AtomGen.ofLaw niwAtoms) G gap burn xs i j
      ((FinMix.posteriorPairs (AtomGen.ofLaw niwAtoms) normalLog p (FinMix.equalPrior N) y).real (FinMix.alike normalLog x x')) ε s) atTop (𝓝 0) :=
  FinMix.C138_affinity (C0 := Equal.core) (fun x => measurable_obs (n := 1) (fun _ => x) 0) hnz hW hpdf (FinMix.equal_class N) heps hn (niw_conjugate hp) G (fun _ _ => WithBot.coe_ne_bot) h hfresh hxs hi hj hgap burn hε

end

/-! ### The fitted data as argument -/

/-- The posterior probability that two observations share a component is below one. -/
theorem coCluster_lt_one {prior : (Fin n → Fin N) → ℝ} (hpos : ∀ d, 0 < prior d) (hN2 : 2 ≤ N) (p : NIW ℝ m) (y : Fin n → Fin m → ℝ) {i i' : Fin n} (hne : i ≠ i') :
    ∑ δ, (if δ i = δ i' then labelPost prior p y δ else 0) < 1 := by
  have hlt : ∀ δ, 0 < labelPost prior p y δ := fun δ => div_pos (labelWeight_pos hpos p y δ) (labelWeight_sum_pos hpos p y)
  rw [← labelPost_sum hpos p y]
  let e : Fin n → Fin N := fun k => if k = i then ⟨0, by omega⟩ else ⟨1, by omega⟩
  refine Finset.sum_lt_sum (fun δ _ => ?_) ⟨e, Finset.mem_univ _, ?_⟩
  · split
    · exact le_rfl
    · exact (hlt δ).le
  · have : e i ≠ e i' := by simp [e, hne.symm]
    rw [if_neg this]
    exact hlt e

section
variable {p : NIW ℝ m} (hp : Admissible p) (y : Fin n → Fin m → ℝ) {nz : ℝ → ℝ} (hnz : IsGumbel nz) {W : World ℝ m (MeanCov m)} (heps : W.eps = 0) (hW : W.logpdf = normalLog)
  (hpdf : ∀ x a, W.pdf .none x a = Real.exp (logNormal x a.1 (Matrix.of a.2))) (hn : 2 ≤ n) (G : RandGen) {gap : ℕ} (hgap : 0 < gap) (burn : ℕ)
include hp hnz heps hW hpdf hn hgap

/-- **With the fitted data as argument the limit is another one** than without argument (Dirichlet weights): for two equal rows the first is one, the second is not. -/
theorem C138_refuted_dirichletDistribution (hN2 : 2 ≤ N) {alpha : List ℝ} (hN : alpha.length = N) (ha : ∀ x ∈ alpha, 0 < x) {s : GM (DirDist.cls : WeightClass ℝ) m (MeanCov m) × ℕ}
    {d : Fin n → Fin N} (h : FinMix.FinHolds (C0 := DirDist.core) y p (fun s => s.alpha = alpha) s.1 d) (hfresh : FreshAtoms s.1) {i i' : Fin n} (hne : i ≠ i') (hrow : y i = y i') :
    (∀ ε > 0, Tendsto (FinMix.affinityMiss (C0 := DirDist.core) nz W (AtomGen.ofLaw niwAtoms) G gap burn (List.ofFn y) i i' 1 ε s) atTop (𝓝 0)) ∧
    ∃ v < 1, ∀ ε > 0, Tendsto (fun T : ℕ => FinMix.savedMean (C0 := DirDist.core) nz W (AtomGen.ofLaw niwAtoms) G gap T (burn + 1)
      (fun l : List (Fin n → Fin N) => if ε ≤ |(l.countP (fun δ => δ i = δ i') : ℝ) / T - v| then 1 else 0) s) atTop (𝓝 0) := by
  refine ⟨fun ε hε => ?_, _, coCluster_lt_one (dirLabels_pos hN ha) hN2 p y hne, fun ε hε => ?_⟩
  · have h1 := C138_dirichletDistribution hp y hnz heps hW hpdf hn G hgap burn hε hN ha h hfresh (xs := List.ofFn y) (by simpa using hn) (i := i) (j := i') (x := y i) (x' := y i) (by simp) (by simp [hrow])
    have hprob := FinMix.posterior_prob (f := FinMix.dirPrior alpha hN ha) (measurable_obs y) (niw_conjugate hp)
    rw [FinMix.alike_self, probReal_univ] at h1
    exact h1
  · have h1 := FinMix.C106_affinity (C0 := DirDist.core) (measurable_obs y) hnz hW (FinMix.dir_class hN ha) heps hn (niw_conjugate hp) G (fun _ _ => WithBot.coe_ne_bot) h hfresh i i' hgap burn hε
    simp only [finPosterior_labels_real (f := FinMix.dirPrior alpha hN ha) hp y (dirLabels_pos hN ha) (C135_prior_dirichletDistribution hN ha)] at h1
    exact h1

/-- **With the fitted data as argument the limit is another one** than without argument (equal weights). -/
theorem C138_refuted_equal (hN2 : 2 ≤ N) {s : GM (Equal.cls : WeightClass ℝ) m (MeanCov m) × ℕ} {d : Fin n → Fin N} (h : FinMix.FinHolds (C0 := Equal.core) y p (fun s => s.n = (N : ℤ)) s.1 d)
    (hfresh : FreshAtoms s.1) {i i' : Fin n} (hne : i ≠ i') (hrow : y i = y i') :
    (∀ ε > 0, Tendsto (FinMix.affinityMiss (C0 := Equal.core) nz W (AtomGen.ofLaw niwAtoms) G gap burn (List.ofFn y) i i' 1 ε s) atTop (𝓝 0)) ∧
    ∃ v < 1, ∀ ε > 0, Tendsto (fun T : ℕ => FinMix.savedMean (C0 := Equal.core) nz W (AtomGen.ofLaw niwAtoms) G gap T (burn + 1)
      (fun l : List (Fin n → Fin N) => if ε ≤ |(l.countP (fun δ => δ i = δ i') : ℝ) / T - v| then 1 else 0) s) atTop (𝓝 0) := by
  refine ⟨fun ε hε => ?_, _, coCluster_lt_one equalLabels_pos hN2 p y hne, fun ε hε => ?_⟩
  · have h1 := C138_equal hp y hnz heps hW hpdf hn G hgap burn hε h hfresh (xs := List.ofFn y) (by simpa using hn) (i := i) (j := i') (x := y i) (x' := y i) (by simp) (by simp [hrow])
    have hprob := FinMix.posterior_prob (f := FinMix.equalPrior N) (measurable_obs y) (niw_conjugate hp)
    rw [FinMix.alike_self, probReal_univ] at h1
    exact h1
  · have h1 := FinMix.C106_affinity (C0 := Equal.core) (measurable_obs y) hnz hW (FinMix.equal_class N) heps hn (niw_conjugate hp) G (fun _ _ => WithBot.coe_ne_bot) h hfresh i i' hgap burn hε
    simp only [finPosterior_labels_real (f := FinMix.equalPrior N) hp y equalLabels_pos C135_prior_equal] at h1
    exact h1

end

/-! ### The hypotheses are met -/

/-- Four points in the plane, the first two equal. -/
def twinRows : Fin 4 → Fin 2 → ℝ := fun i => if i.1 < 2 then ![1, 2] else if i.1 = 2 then ![0, 3] else ![5, 5]

/-- Three components with parameter 1/2. -/
example {nz : ℝ → ℝ} (hnz : IsGumbel nz) {W : World ℝ 2 (MeanCov 2)} (heps : W.eps = 0) (hW : W.logpdf = normalLog) (hpdf : ∀ x a, W.pdf .none x a = Real.exp (logNormal x a.1 (Matrix.of a.2)))
    (G : RandGen) (ha : ∀ x ∈ [1 / 2, 1 / 2, 1 / 2], (0 : ℝ) < x) :
    ∀ ε > 0, Tendsto (FinMix.affinityMiss (C0 := DirDist.core) nz W (AtomGen.ofLaw niwAtoms) G 2 10 (List.ofFn twinRows) (0 : Fin 4) (1 : Fin 4) 1 ε
      (dirPlane twinRows [1 / 2, 1 / 2, 1 / 2] fun _ => (0 : Fin 3))) atTop (𝓝 0) :=
  (C138_refuted_dirichletDistribution admissible_plane twinRows hnz heps hW hpdf (by norm_num) G two_pos 10 (N := 3) (by norm_num) rfl ha (d := fun _ => 0) ⟨rfl, rfl, rfl, rfl, rfl⟩ (fun _ _ => rfl)
    (i := 0) (i' := 1) (by decide) (by simp [twinRows])).1

end Verif.Mix
