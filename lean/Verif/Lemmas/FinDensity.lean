import Verif.Lemmas.ErgodicSum
import Verif.Props.C106
import Verif.Props.C47

/-!
# Functions of all parameters of the saved states of a mixture with finitely many components

After an iteration the object stores the atoms of all components and positive weights (`FullRun`), so its labels, atoms and weights are a point of the state space of the kernel.  Averages of an integrable
function of them converge (`savedRuns_average`).
-/

namespace Verif.Mix.FinMix
open MeasureTheory ProbabilityTheory GM Spec Filter
open scoped ENNReal Topology

set_option linter.unusedSectionVars false

variable {N m n : ℕ} [NeZero N] {Atom : Type} [MeasurableSpace Atom] {C0 : WeightCore ℝ}

/-- Atoms for all components, and positive weights. -/
def FullRun (N : ℕ) (q : RunParams ℝ Atom) : Prop := (∀ j, j < N → ∃ a, q.theta.lookup j = some a) ∧ ∃ w : Fin N → ℝ, (∀ j, 0 < w j) ∧ q.w = List.ofFn w

/-- The mean of `F` of the parameters of `T` saved states, when the first is saved after `b` iterations and the others after `gap` iterations each. -/
noncomputable def savedRuns (nz : ℝ → ℝ) (W : World ℝ m Atom) (A : AtomGen m Atom) (G : RandGen) (gap : ℕ) : ℕ → ℕ → (List (RunParams ℝ Atom) → ℝ≥0∞) → GM C0.inheritTail m Atom × ℕ → ℝ≥0∞
  | 0, _, F, _ => F []
  | T + 1, b, F, s => runMean nz W A G b (fun s' => savedRuns nz W A G gap T gap (fun l => F (runParams s'.1 :: l)) s') s

/-- The chain of labels, atoms and weights. -/
noncomputable def stepKer {lp : (Fin m → ℝ) → Atom → WithBot ℝ} {y : Fin n → Fin m → ℝ} (A : AtomGen m Atom) (p : NIW ℝ m) (f : FinPrior N) (hlp : ∀ i, Measurable (obsDens lp (y i))) :
    Kernel (Config N n Atom) (Config N n Atom) := labelsKer hlp ∘ₖ redrawKer A p f y

section
variable {lp : (Fin m → ℝ) → Atom → WithBot ℝ} {f : FinPrior N} {drawW : List ℕ → Oracle ℝ → ℕ → Fin N → ℝ} {Inv : C0.State → Prop} {W : World ℝ m Atom} {A : AtomGen m Atom} {y : Fin n → Fin m → ℝ}
  {p : NIW ℝ m} {nz : ℝ → ℝ} (hlp : ∀ i, Measurable (obsDens lp (y i)))

instance : IsMarkovKernel (stepKer A p f hlp) := by unfold stepKer; infer_instance

include hlp

theorem kop_stepKer {ψ : Config N n Atom → ℝ≥0∞} (hψ : Measurable ψ) (x : Config N n Atom) : Alt.kop (stepKer A p f hlp) ψ x = ∫⁻ q, ∫⁻ r, ψ r ∂(labelsKer hlp q) ∂(redrawKer A p f y x) :=
  Kernel.lintegral_comp _ _ _ hψ

theorem kop_stepKernel (hden : ∀ i a, lp (y i) a ≠ ⊥) {ψ : Config N n Atom → ℝ≥0∞} (hψ : Measurable ψ) (k : ℕ) (d : Fin n → Fin N) (z : FParams N Atom) :
    (stepKernel A lp p f y)^[k] (fun d z => ψ (d, z)) d z = (Alt.kop (stepKer A p f hlp))^[k] ψ (d, z) := by
  induction k generalizing d z with
  | zero => rfl
  | succ k ih =>
    rw [Function.iterate_succ_apply', Function.iterate_succ_apply']
    have h1 : (stepKernel A lp p f y)^[k] (fun d z => ψ (d, z)) = fun d z => (Alt.kop (stepKer A p f hlp))^[k] ψ (d, z) := by
      funext d z
      exact ih d z
    rw [h1, stepKernel_eq hlp hden (Alt.measurable_kop_iterate hψ k), kop_stepKer hlp (Alt.measurable_kop_iterate hψ k)]

theorem kop_real_step {C : ℝ} {g : Config N n Atom → ℝ} (hg : Alt.Bd C g) (h0 : ∀ x, 0 ≤ g x) :
    Alt.kop (stepKer A p f hlp) (fun x => ENNReal.ofReal (g x)) = fun x => ENNReal.ofReal (stepAct A p f hlp g x) := by
  funext x
  rw [kop_stepKer hlp hg.meas.ennreal_ofReal]
  unfold stepAct
  rw [ofReal_act hg.act (act_nonneg h0)]
  exact lintegral_congr fun q => (ofReal_act hg h0 q).symm

theorem kop_invariant (hcj : Conjugate A lp p) (hden : ∀ i a, lp (y i) a ≠ ⊥) {ψ : Config N n Atom → ℝ≥0∞} (hψ : Measurable ψ) :
    ∫⁻ x, Alt.kop (stepKer A p f hlp) ψ x ∂(posteriorPairs A lp p f y) = ∫⁻ x, ψ x ∂(posteriorPairs A lp p f y) := by
  have h := postMean_invariant (f := f) hlp hcj (φ := fun d z => ψ (d, z)) (fun δ => hψ.comp measurable_prodMk_left)
  rw [lintegral_posterior, lintegral_posterior]
  refine Eq.trans (Finset.sum_congr rfl fun d _ => lintegral_congr fun z => ?_) h
  exact (kop_stepKernel hlp hden hψ 1 d z).symm

variable (hnz : IsGumbel nz) (hW : W.logpdf = lp) (hcl : FinClass C0 f drawW Inv) (heps : W.eps = 0) (hn : 2 ≤ n) (hcj : Conjugate A lp p) (G : RandGen)
include hnz hW hcl heps hn hcj

/-- A step leads to states that store all atoms and positive weights. -/
theorem stepMean_congr_full {F F' : GM C0.inheritTail m Atom × ℕ → ℝ≥0∞} (hF : ∀ s (δ : Fin n → Fin N), FinHolds y p Inv s.1 δ → FullRun N (runParams s.1) → F s = F' s)
    {s : GM C0.inheritTail m Atom × ℕ} {d : Fin n → Fin N} (h : FinHolds y p Inv s.1 d) : stepMean nz W A G F s = stepMean nz W A G F' s := by
  subst hW
  unfold stepMean
  refine lintegral_congr_ae ?_
  filter_upwards [stream_unit] with U hU
  refine lintegral_congr_ae ?_
  have hdN : ∀ j ∈ List.ofFn (nat d), j < N := fun j hj => by
    obtain ⟨i, rfl⟩ := (List.mem_ofFn' _ _).1 hj
    exact (d i).2
  obtain ⟨hvm, hvl⟩ := hcl.law G (List.ofFn (nat d)) s.1.wst.2 hdN
  have hgoodu : ∀ᵐ u ∂G.P, (∀ j, 0 < drawW (List.ofFn (nat d)) (G.oracle u) s.1.wst.2 j) ∧ ∑ j, drawW (List.ofFn (nat d)) (G.oracle u) s.1.wst.2 j = 1 := by
    have hgood := f.post_good d
    rw [← hvl] at hgood
    exact ae_of_ae_map hvm.aemeasurable hgood
  filter_upwards [hgoodu] with u ⟨hv, hsum⟩
  refine lintegral_congr_ae ?_
  filter_upwards [lazyAtoms_dens (d := nat d) hlp hcj s.1.theta s.2] with X hX
  refine lintegral_congr fun g => ?_
  obtain ⟨R, hR1, hR2, hR3, hR4, -⟩ := fin_run hnz hcl (G.oracle_legal u) heps hn h (fun i => (d i).2) X rfl hv hsum rfl hX hU rfl
  have hsup : ∀ F : GM C0.inheritTail m Atom × ℕ → ℝ≥0∞, ⨆ k : ℕ, outcome F (gibbsStep (withNoise (withSlices (withAtoms W A X) (fun _ => k) U) (fun i => nz (g i))) (G.oracle u) s) = F (R fun i => nz (g i)) := fun F =>
    iSup_outcome (W0 := withNoise (withSlices (withAtoms W A X) (fun _ => 0) U) (fun i => nz (g i))) (fun _ => rfl) (fun k' hk' => hR1 k' hk' _) _
  rw [hsup, hsup]
  obtain ⟨δ, hδ⟩ := hR2 fun i => nz (g i)
  exact hF _ δ hδ ⟨fun j hj => ⟨_, hR3 _ j hj⟩, _, hv, hR4 _⟩

theorem runMean_congr_full (k : ℕ) {F F' : GM C0.inheritTail m Atom × ℕ → ℝ≥0∞} (hF : ∀ s (δ : Fin n → Fin N), FinHolds y p Inv s.1 δ → FullRun N (runParams s.1) → F s = F' s)
    {s : GM C0.inheritTail m Atom × ℕ} {d : Fin n → Fin N} (h : FinHolds y p Inv s.1 d) : runMean nz W A G (k + 1) F s = runMean nz W A G (k + 1) F' s := by
  induction k generalizing s d with
  | zero => exact stepMean_congr_full hlp hnz hW hcl heps hn hcj G hF h
  | succ k ih => exact stepMean_congr hlp hnz hW hcl heps hn hcj G (fun s δ hs => ih hs) h

/-- The labels, atoms and weights of a state that stores all atoms. -/
def stateConfig (x : Fin N → Atom) (s : GM C0.inheritTail m Atom) : Config N n Atom := (labelsF N n s.d, (extF s.theta x, vec N (C0.getW s.wst.1)))

omit hlp hnz hW hcl heps hn hcj in
theorem heldMean_full {s : GM C0.inheritTail m Atom × ℕ} (h : FullRun N (runParams s.1)) (φ : (Fin n → Fin N) → FParams N Atom → ℝ≥0∞) (x : Fin N → Atom) :
    heldMean A p φ s = φ (stateConfig (n := n) x s.1).1 (stateConfig (n := n) x s.1).2 := by
  have e : ∀ x', extF s.1.theta x' = extF s.1.theta x := fun x' => by
    funext j
    obtain ⟨a, ha⟩ := h.1 j j.2
    have ha' : s.1.theta.lookup (j : ℕ) = some a := ha
    unfold extF
    rw [ha']
    rfl
  unfold heldMean stateConfig
  simp only [e, lintegral_const, measure_univ, mul_one]

variable (hden : ∀ i a, lp (y i) a ≠ ⊥)
include hden

/-- A function of the sum of `obs` over the saved states. -/
theorem savedRuns_acc {gap : ℕ} (hgap : 0 < gap) {g : Config N n Atom → ℝ} (hg : Measurable g) {obs : RunParams ℝ Atom → ℝ} (hobs : ∀ (s : GM C0.inheritTail m Atom) (δ : Fin n → Fin N) (x : Fin N → Atom),
    FinHolds y p Inv s δ → FullRun N (runParams s) → obs (runParams s) = g (stateConfig x s)) {H : ℝ → ℝ≥0∞} (hH : Measurable H) (T b : ℕ) (a : ℝ) {F : List (RunParams ℝ Atom) → ℝ≥0∞}
    (hF : ∀ l, l.length = T → (∀ q ∈ l, FullRun N q) → F l = H (a + (l.map obs).sum)) {s : GM C0.inheritTail m Atom × ℕ} {d : Fin n → Fin N} (h : FinHolds y p Inv s.1 d) :
    savedRuns nz W A G gap T (b + 1) F s = heldMean A p (fun d z => Alt.accMean (stepKer A p f hlp) gap g H T (b + 1) a (d, z)) s := by
  have hne : Nonempty Atom := by
    have : IsProbabilityMeasure (A.law p) := inferInstance
    exact nonempty_of_isProbabilityMeasure (A.law p)
  induction T generalizing b a F s d with
  | zero =>
    show F [] = _
    rw [hF [] rfl (by simp)]
    unfold heldMean Alt.accMean
    simp only [lintegral_const, measure_univ, mul_one, List.map_nil, List.sum_nil, add_zero]
  | succ T ih =>
    obtain ⟨gap, rfl⟩ : ∃ k, gap = k + 1 := ⟨gap - 1, by omega⟩
    have hm : Measurable (fun q : Config N n Atom => Alt.accMean (stepKer A p f hlp) (gap + 1) g H T (gap + 1) (a + g q) q) :=
      (Alt.measurable_accMean hg hH T (gap + 1)).comp ((measurable_const.add hg).prodMk measurable_id)
    show runMean nz W A G (b + 1) (fun s' => savedRuns nz W A G (gap + 1) T (gap + 1) (fun l => F (runParams s'.1 :: l)) s') s = _
    rw [runMean_congr_full hlp hnz hW hcl heps hn hcj G b (F' := heldMean A p (fun d z => Alt.accMean (stepKer A p f hlp) (gap + 1) g H T (gap + 1) (a + g (d, z)) (d, z))) ?_ h,
      runMean_kernel hlp hnz hW hcl heps hn hcj G (b + 1) (φ := fun d z => Alt.accMean (stepKer A p f hlp) (gap + 1) g H T (gap + 1) (a + g (d, z)) (d, z)) (fun δ => hm.comp measurable_prodMk_left) h]
    · have e : ((stepKernel A lp p f y)^[b + 1] fun d z => Alt.accMean (stepKer A p f hlp) (gap + 1) g H T (gap + 1) (a + g (d, z)) (d, z)) =
          fun d z => Alt.accMean (stepKer A p f hlp) (gap + 1) g H (T + 1) (b + 1) a (d, z) := by
        funext d z
        exact kop_stepKernel hlp hden hm (b + 1) d z
      rw [e]
    · intro s' δ hs hfull
      let x : Fin N → Atom := fun _ => hne.some
      have ho := hobs s'.1 δ x hs hfull
      have hs' := ih gap (a + g (stateConfig x s'.1)) (F := fun l => F (runParams s'.1 :: l)) (fun l hl hq => by
        rw [hF _ (by rw [List.length_cons, hl]) (fun q hq' => by
          rcases List.mem_cons.1 hq' with rfl | h'
          · exact hfull
          · exact hq q h'), List.map_cons, List.sum_cons, ho, add_assoc]) hs
      show savedRuns nz W A G (gap + 1) T (gap + 1) (fun l => F (runParams s'.1 :: l)) s' = _
      rw [hs', heldMean_full hfull _ x, heldMean_full hfull _ x]

/-- **Averages over the saved states** of an integrable function of labels, atoms and weights converge in probability to its posterior mean. -/
theorem savedRuns_average {s : GM C0.inheritTail m Atom × ℕ} {d : Fin n → Fin N} (h : FinHolds y p Inv s.1 d) (hfresh : FreshAtoms s.1) {gap : ℕ} (hgap : 0 < gap) (burn : ℕ) {g : Config N n Atom → ℝ}
    (hg : Measurable g) (hg0 : ∀ x, 0 ≤ g x) (hgi : Integrable g (posteriorPairs A lp p f y)) {obs : RunParams ℝ Atom → ℝ} (hobs : ∀ (s : GM C0.inheritTail m Atom) (δ : Fin n → Fin N) (x : Fin N → Atom),
    FinHolds y p Inv s δ → FullRun N (runParams s) → obs (runParams s) = g (stateConfig x s)) {ε : ℝ} (hε : 0 < ε) {F : ℕ → List (RunParams ℝ Atom) → ℝ≥0∞}
    (hF : ∀ T l, l.length = T → (∀ q ∈ l, FullRun N q) → F T l = if ε ≤ |(l.map obs).sum / T - ∫ q, g q ∂(posteriorPairs A lp p f y)| then 1 else 0) :
    Tendsto (fun T : ℕ => savedRuns nz W A G gap T (burn + 1) (F T) s) atTop (𝓝 0) := by
  have hprob := posterior_prob (f := f) hlp hcj
  have hpr : IsProbabilityMeasure ((condLaw A p f y d).map (Prod.mk d)) := Measure.isProbabilityMeasure_map measurable_prodMk_left.aemeasurable
  have h1 := Alt.acc_average (stepAct_markovOp (f := f) hlp hcj hden) (kop_real_step hlp) (fun ψ hψ => kop_invariant hlp hcj hden hψ) (gap := gap)
    (fun hb h0 => corr_tendsto hlp hcj hden (by omega) hb h0 hgap) hg hg0 hgi (burn + 1) hε (condLaw_ac (f := f) hlp hcj d)
  rw [← tendsto_add_atTop_iff_nat 1] at h1 ⊢
  refine h1.congr fun T => ?_
  set M := ∫ q, g q ∂(posteriorPairs A lp p f y)
  let H : ℝ → ℝ≥0∞ := fun S => if ε ≤ |S / ((T + 1 : ℕ) : ℝ) - M| then 1 else 0
  have hH : Measurable H := Measurable.ite (measurableSet_le measurable_const ((measurable_id.div_const _).sub_const _).abs) measurable_const measurable_const
  rw [savedRuns_acc hlp hnz hW hcl heps hn hcj G hden hgap hg hobs hH (T + 1) burn 0 (fun l hl hq => by rw [hF _ l hl hq, zero_add]) h]
  have hm : Measurable (fun q : Config N n Atom => Alt.accMean (stepKer A p f hlp) gap g H T gap (0 + g q) q) :=
    (Alt.measurable_accMean hg hH T gap).comp ((measurable_const.add hg).prodMk measurable_id)
  have e : (fun d z => Alt.accMean (stepKer A p f hlp) gap g H (T + 1) (burn + 1) 0 (d, z)) =
      stepKernel A lp p f y ((stepKernel A lp p f y)^[burn] (fun d z => Alt.accMean (stepKer A p f hlp) gap g H T gap (0 + g (d, z)) (d, z))) := by
    funext d z
    rw [← Function.iterate_succ_apply' (stepKernel A lp p f y)]
    exact (kop_stepKernel hlp hden hm (burn + 1) d z).symm
  rw [e, heldMean_fresh hlp (φ := (stepKernel A lp p f y)^[burn] (fun d z => Alt.accMean (stepKer A p f hlp) gap g H T gap (0 + g (d, z)) (d, z)))
    (fun δ => measurable_iterate hlp (φ := fun d z => Alt.accMean (stepKer A p f hlp) gap g H T gap (0 + g (d, z)) (d, z)) (fun δ => hm.comp measurable_prodMk_left) burn δ) h fun j hj => hfresh j ?_]
  · refine lintegral_congr fun x => ?_
    have := congrFun (congrFun e x.1) x.2
    exact this
  · rw [h.2.1]
    exact fun h' => hj ((mem_nat_iff d j).1 h')

end

end Verif.Mix.FinMix
