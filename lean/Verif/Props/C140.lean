import Verif.Lemmas.StickDensity
import Verif.Props.C134
import Verif.Props.C137

/-!
# C140: gibbs_eap_density of process mixtures lies below the posterior predictive density

Mixtures with weights from `DirichletProcess` or `PitmanYorProcess`.  A saved state stores the weights of the components up to a random number only, and the density of the state is the sum over these
components, without the mass that is left.  So its mean is too small, at every point `x`:

* `C140_predictive`: the posterior predictive density, the posterior mean of the density of all components, is the probability of the data with `x` appended divided by that of the data, in closed form
  as sums over partitions (`partPredictive`).  It is a probability density (`C140_integral`).
* `C140_mean`: if the state has the posterior law, then after any positive number of iterations the mean of the density of the state is the posterior mean of the density of the components below the
  stopping time of `tail`, in closed form; it is **strictly smaller** than the posterior predictive density (`C140_below`).
* `C140_eap_dirichletProcess`, `C140_eap_pitmanYor`: the mean of `gibbs_eap_density([x])` is strictly smaller than the posterior predictive density, whatever the numbers of iterations and of saved states.
* `C140_limit_dirichletProcess`, `C140_limit_pitmanYor`: from every cold start the means of the density of the state, cut off at any level, converge, and all limits are below a bound that is strictly
  smaller than the posterior predictive density.  So more iterations do not help.

For mixtures with finitely many components the density converges to the posterior predictive density (C137).

As in C95 the shift `eps` of the slice variables is taken to be zero.
-/

namespace Verif.Mix
open MeasureTheory ProbabilityTheory GM Spec Filter
open scoped ENNReal Topology

set_option linter.unusedSectionVars false

variable {m n : ℕ} {Atom : Type} [MeasurableSpace Atom] {C0 : WeightCore ℝ}

/-- The value of `gibbs_eap_density([x])` of an object with the saved states `l`; `0` if it raises. -/
noncomputable def eapValue (W : World ℝ m Atom) (x : Fin m → ℝ) (s : GM C0.inheritTail m Atom) (l : List (RunParams ℝ Atom)) : ℝ≥0∞ :=
  match eapDensity W { s with saved := l, gibbsFitted := true } (some (.rows [x])) .none none none with
  | .ok [r] => ENNReal.ofReal r
  | _ => 0

section
variable {lp : (Fin m → ℝ) → Atom → WithBot ℝ} {x : Fin m → ℝ} {h : ℝ≥0∞ → ℝ≥0∞} {f : StickParams} {getV : C0.State → List ℝ} {Inv : C0.State → Prop} {W : World ℝ m Atom} {A : AtomGen m Atom}
  {y : Fin n → Fin m → ℝ} {p : NIW ℝ m} {nz : ℝ → ℝ}

/-! ### The posterior predictive density -/

theorem stickMass_append (d : Fin n → ℕ) (z : Params Atom) : fullDens lp x z * stickMass lp y d z = ∑' j, stickMass lp (append y x) (Fin.snoc (α := fun _ => ℕ) d j) z := by
  unfold fullDens
  rw [← ENNReal.tsum_mul_right]
  refine tsum_congr fun j => ?_
  unfold stickMass append
  rw [Fin.prod_univ_castSucc]
  simp only [Fin.snoc_castSucc, Fin.snoc_last]
  ring

theorem tsum_snoc (F : (Fin (n + 1) → ℕ) → ℝ≥0∞) : ∑' d : Fin n → ℕ, ∑' j, F (Fin.snoc (α := fun _ => ℕ) d j) = ∑' e, F e := by
  rw [ENNReal.tsum_comm, ← ENNReal.tsum_prod]
  exact (Fin.snocEquiv fun _ : Fin (n + 1) => ℕ).tsum_eq F

/-- **The posterior predictive density**: the posterior mean of the density of all components is the ratio of the probabilities of the data with and without `x`. -/
theorem C140_predictive (hlp : ∀ i, Measurable (obsDens lp (y i))) (hx : Measurable (obsDens lp x)) :
    postMean A lp p f y (fun _ => fullDens lp x) = (∑' e : Fin (n + 1) → ℕ, stickJoint A lp p f (append y x) e Set.univ) / ∑' d : Fin n → ℕ, stickJoint A lp p f y d Set.univ := by
  have hF := measurable_fullDens (Atom := Atom) hx
  have hap := FinMix.append_meas hlp hx
  unfold postMean stickPosterior
  simp only [lintegral_smul_measure, smul_eq_mul]
  rw [ENNReal.tsum_mul_left, ENNReal.div_eq_inv_mul]
  congr 1
  have e1 : ∀ d : Fin n → ℕ, ∫⁻ z, fullDens lp x z ∂(stickJoint A lp p f y d) = ∑' j, stickJoint A lp p f (append y x) (Fin.snoc (α := fun _ => ℕ) d j) Set.univ := fun d => by
    unfold stickJoint
    rw [lintegral_withDensity_eq_lintegral_mul _ (measurable_stickMass d hlp) hF]
    have e2 : ∀ z, (stickMass lp y d * fullDens lp x) z = ∑' j, stickMass lp (append y x) (Fin.snoc (α := fun _ => ℕ) d j) z := fun z => by
      rw [← stickMass_append, mul_comm]; rfl
    simp_rw [e2]
    rw [lintegral_tsum fun j => (measurable_stickMass _ hap).aemeasurable]
    refine tsum_congr fun j => ?_
    rw [withDensity_apply _ MeasurableSet.univ, Measure.restrict_univ]
  simp_rw [e1]
  exact tsum_snoc fun e => stickJoint A lp p f (append y x) e Set.univ

theorem predictive_finite (hlp : ∀ i, Measurable (obsDens lp (y i))) (hx : Measurable (obsDens lp x)) (hex : f.Exhausts) (hcj : Conjugate A lp p) : postMean A lp p f y (fun _ => fullDens lp x) ≠ ∞ := by
  rw [C140_predictive hlp hx]
  exact ENNReal.div_ne_top (stickJoint_total (FinMix.append_meas hlp hx) hex hcj).2 (stickJoint_total hlp hex hcj).1

/-! ### What is left out -/

theorem partDens_lt (hxb : ∀ a, lp x a ≠ ⊥) {z : Params Atom} (hv : ∀ j, z.2 j ∈ Set.Ioo (0 : ℝ) 1) (k : ℕ) : partDens lp x k z < fullDens lp x z := by
  have hfin : partDens lp x k z ≠ ∞ := (ENNReal.sum_lt_top.2 fun _ _ => ENNReal.mul_lt_top ENNReal.ofReal_lt_top ENNReal.ofReal_lt_top).ne
  have h1 : partDens lp x (k + 1) z ≤ fullDens lp x z := ENNReal.sum_le_tsum _
  refine lt_of_lt_of_le ?_ h1
  unfold partDens at hfin ⊢
  rw [Finset.sum_range_succ]
  refine ENNReal.lt_add_right hfin (mul_ne_zero ?_ ?_)
  · exact (ENNReal.ofReal_pos.2 (stickSeq_pos hv k)).ne'
  · exact (ENNReal.ofReal_pos.2 (botExp_pos (hxb _))).ne'

/-- Components are left out whatever the slice variables. -/
theorem shown_lt (hxb : ∀ a, lp x a ≠ ⊥) (d : Fin n → ℕ) {z : Params Atom} (hv : ∀ j, z.2 j ∈ Set.Ioo (0 : ℝ) 1) (hsum : HasSum (stickSeq z.2) 1) (hfin : fullDens lp x z ≠ ∞) :
    shownDens id lp x d z < fullDens lp x z := by
  have h1 : ∀ᵐ U ∂streamLaw, stoppedDens id lp x d 0 U z < fullDens lp x z := by
    filter_upwards [stream_unit] with U hU
    obtain ⟨k, hk⟩ := stopEv_exists (d := d) (q := 0) (N := topLabel (List.ofFn d)) hU hsum fun i => stickSeq_pos hv _
    rw [stoppedDens_of_stop hk]
    exact partDens_lt hxb hv k
  have h2 : ∫⁻ _U, fullDens lp x z ∂streamLaw = fullDens lp x z := by rw [lintegral_const, measure_univ, mul_one]
  unfold shownDens
  rw [← h2]
  refine lintegral_strict_mono (IsProbabilityMeasure.ne_zero _) aemeasurable_const (ne_top_of_le_ne_top (b := ∫⁻ _U, fullDens lp x z ∂streamLaw) (by rw [h2]; exact hfin) ?_) h1
  exact lintegral_mono_ae (h1.mono fun _ h => h.le)

theorem shown_mono {h h' : ℝ≥0∞ → ℝ≥0∞} (hle : ∀ r, h r ≤ h' r) (d : Fin n → ℕ) (z : Params Atom) : shownDens h lp x d z ≤ shownDens h' lp x d z := by
  refine lintegral_mono fun U => ?_
  unfold stoppedDens
  refine ENNReal.tsum_le_tsum fun k => ?_
  split
  · exact hle _
  · exact le_rfl

theorem shown_le {M : ℝ≥0∞} (hM : ∀ r, h r ≤ M) (d : Fin n → ℕ) (z : Params Atom) : shownDens h lp x d z ≤ M := by
  have h1 : ∀ U, stoppedDens h lp x d 0 U z ≤ M := fun U => by
    by_cases hk : ∃ k, z.2 ∈ stopEv d U 0 (topLabel (List.ofFn d)) k
    · obtain ⟨k, hk⟩ := hk
      rw [stoppedDens_of_stop hk]
      exact hM _
    · unfold stoppedDens
      rw [ENNReal.tsum_eq_zero.2 fun k => if_neg fun hc => hk ⟨k, hc⟩]
      exact zero_le
  refine (lintegral_mono (g := fun _ => M) h1).trans ?_
  rw [lintegral_const, measure_univ, mul_one]

/-- **What a state shows is too small on average.** -/
theorem C140_below (hlp : ∀ i, Measurable (obsDens lp (y i))) (hx : Measurable (obsDens lp x)) (hden : ∀ i a, lp (y i) a ≠ ⊥) (hxb : ∀ a, lp x a ≠ ⊥) (hex : f.Exhausts) (hcj : Conjugate A lp p) :
    postMean A lp p f y (shownDens id lp x) < postMean A lp p f y (fun _ => fullDens lp x) := by
  have hfin := predictive_finite (A := A) (p := p) hlp hx hex hcj
  have hF := measurable_fullDens (Atom := Atom) hx
  have hd : ∀ d : Fin n → ℕ, ∫⁻ z, fullDens lp x z ∂(stickPosterior A lp p f y d) ≠ ∞ := fun d => ENNReal.ne_top_of_tsum_ne_top hfin d
  have hae : ∀ d : Fin n → ℕ, ∀ᵐ z ∂(stickPosterior A lp p f y d), shownDens id lp x d z < fullDens lp x z := fun d => by
    filter_upwards [posterior_good hlp hden hex hcj d, ae_lt_top hF (hd d)] with z ⟨hv, hsum⟩ hz
    exact shown_lt hxb d hv hsum hz.ne
  have hle : ∀ d : Fin n → ℕ, ∫⁻ z, shownDens id lp x d z ∂(stickPosterior A lp p f y d) ≤ ∫⁻ z, fullDens lp x z ∂(stickPosterior A lp p f y d) := fun d => lintegral_mono_ae ((hae d).mono fun _ h => h.le)
  unfold postMean
  refine ENNReal.tsum_lt_tsum (i := fun _ => 0) (ne_top_of_le_ne_top hfin (ENNReal.tsum_le_tsum hle)) hle ?_
  refine lintegral_strict_mono ?_ hF.aemeasurable (ne_top_of_le_ne_top (hd _) (hle _)) (hae _)
  obtain ⟨c, hc0, -, -, hc⟩ := stickJoint_eq (f := f) hlp hcj (fun _ : Fin n => 0)
  unfold stickPosterior
  rw [hc, Ne, ← Measure.measure_univ_eq_zero, Measure.smul_apply, Measure.smul_apply, measure_univ, smul_eq_mul, smul_eq_mul, mul_one]
  refine mul_ne_zero (ENNReal.inv_ne_zero.2 ?_) (mul_ne_zero hc0 (atomMass_facts hcj _).1)
  exact (stickJoint_total hlp hex hcj).2

/-! ### The runs -/

theorem runMean_succ (F : GM C0.inheritTail m Atom × ℕ → ℝ≥0∞) (G : RandGen) (k : ℕ) (s : GM C0.inheritTail m Atom × ℕ) : runMean nz W A G (k + 1) F s = runMean nz W A G k (stepMean nz W A G F) s := by
  induction k generalizing s with
  | zero => rfl
  | succ k ih =>
    show stepMean nz W A G (runMean nz W A G (k + 1) F) s = stepMean nz W A G (runMean nz W A G k (stepMean nz W A G F)) s
    congr 1
    funext s'
    exact ih s'

theorem heldMean_add {φ ψ : (Fin n → ℕ) → Params Atom → ℝ≥0∞} (hφ : ∀ d, Measurable (φ d)) (s : GM C0.inheritTail m Atom × ℕ) :
    heldMean A p f getV (fun d z => φ d z + ψ d z) s = heldMean A p f getV φ s + heldMean A p f getV ψ s := by
  have h3 : Measurable (fun r : (ℕ → ℝ) × (ℕ → Atom) => φ (labelsOf n s.1.d) (extAtoms s.1.theta r.2, extSticks (getV s.1.wst.1) r.1)) := by
    refine (hφ _).comp (Measurable.prodMk ?_ ?_)
    · refine measurable_pi_lambda _ fun j => ?_
      unfold extAtoms
      cases s.1.theta.lookup j
      · exact (measurable_pi_apply j).comp measurable_snd
      · exact measurable_const
    · refine measurable_pi_lambda _ fun j => ?_
      unfold extSticks
      cases (getV s.1.wst.1)[j]?
      · exact (measurable_pi_apply j).comp measurable_fst
      · exact measurable_const
  have h4 : Measurable (fun v : ℕ → ℝ => ∫⁻ x', φ (labelsOf n s.1.d) (extAtoms s.1.theta x', extSticks (getV s.1.wst.1) v) ∂(Measure.infinitePi (fun _ : ℕ => A.law p))) := h3.lintegral_prod_right'
  have h5 : ∀ v : ℕ → ℝ, Measurable (fun x' : ℕ → Atom => φ (labelsOf n s.1.d) (extAtoms s.1.theta x', extSticks (getV s.1.wst.1) v)) := fun v => by
    have h6 : Measurable (fun x' : ℕ → Atom => (v, x')) := measurable_prodMk_left
    exact h3.comp h6
  unfold heldMean
  rw [← lintegral_add_left h4]
  refine lintegral_congr fun v => ?_
  rw [lintegral_add_left (h5 v)]

/-- The density of the saved state can be computed, and is no negative number. -/
def Shows (W : World ℝ m Atom) (x : Fin m → ℝ) (q : RunParams ℝ Atom) : Prop := Complete q ∧ 0 ≤ stateDensity W .none x q

variable (hlp : ∀ i, Measurable (obsDens lp (y i))) (hx : Measurable (obsDens lp x))
variable (hnz : IsGumbel nz) (hW : W.logpdf = lp) (hpdf : ∀ a, W.pdf .none x a = botExp (lp x a)) (hcl : StickClass C0 f getV Inv) (heps : W.eps = 0) (hn : 2 ≤ n) (hex : f.Exhausts) (hcj : Conjugate A lp p)
  (G : RandGen)

section
include hlp hnz hW hpdf hcl heps hn hex hcj

/-- A step leads to states whose density can be computed. -/
theorem stepMean_congr_shows {F F' : GM C0.inheritTail m Atom × ℕ → ℝ≥0∞} (hF : ∀ s (δ : Fin n → ℕ), StickHolds y p Inv s.1 δ → Shows W x (runParams s.1) → F s = F' s)
    {s : GM C0.inheritTail m Atom × ℕ} {d : Fin n → ℕ} (hs : StickHolds y p Inv s.1 d) : stepMean nz W A G F s = stepMean nz W A G F' s := by
  subst hW
  unfold stepMean
  refine lintegral_congr_ae ?_
  filter_upwards [stream_unit] with U hU
  refine lintegral_congr_ae ?_
  obtain ⟨hvm, hvl⟩ := stickDraw_law f (List.ofFn d) G s.1.wst.2
  have hgoodu : ∀ᵐ u ∂G.P, (∀ j, stickDraw f (List.ofFn d) (G.oracle u) s.1.wst.2 j ∈ Set.Ioo (0 : ℝ) 1) ∧ HasSum (stickSeq (stickDraw f (List.ofFn d) (G.oracle u) s.1.wst.2)) 1 := by
    have h2 := post_open hex d
    rw [← hvl] at h2
    exact ae_of_ae_map hvm.aemeasurable h2
  filter_upwards [hgoodu] with u ⟨hv, hsum⟩
  refine lintegral_congr_ae ?_
  filter_upwards [lazyAtoms_dens (d := d) hlp hcj s.1.theta s.2] with X hX
  refine lintegral_congr fun g => ?_
  have hpos := stickSeq_pos hv
  have hv01 : ∀ j, 0 ≤ stickDraw f (List.ofFn d) (G.oracle u) s.1.wst.2 j ∧ stickDraw f (List.ofFn d) (G.oracle u) s.1.wst.2 j ≤ 1 := fun j => ⟨(hv j).1.le, (hv j).2.le⟩
  obtain ⟨k, hk⟩ := stopEv_exists (d := d) (q := s.2 + (npUnique (List.ofFn d)).length) (N := topLabel (List.ofFn d)) hU hsum fun i => hpos _
  obtain ⟨R, hR1, hR2, hR3, -, hR5, -⟩ := stick_run_weights hnz hcl heps hn hs X rfl hv01 (fun i => hpos _) rfl hX hU rfl hk.1 hk.2.1 hk.2.2
  have hsup : ∀ F : GM C0.inheritTail m Atom × ℕ → ℝ≥0∞, ⨆ k : ℕ, outcome F (gibbsStep (withNoise (withSlices (withAtoms W A X) (fun _ => k) U) (fun i => nz (g i))) (G.oracle u) s) = F (R fun i => nz (g i)) := fun F =>
    iSup_outcome (W0 := withNoise (withSlices (withAtoms W A X) (fun _ => 0) U) (fun i => nz (g i))) (fun _ => rfl) (fun k' hk' => hR1 k' hk' _) _
  rw [hsup, hsup]
  obtain ⟨δ, hδ⟩ := hR2 fun i => nz (g i)
  have hk0 : 0 < k := lt_of_lt_of_le (Nat.succ_pos _) hk.1
  have hw : (runParams (R fun i => nz (g i)).1).w = (List.range k).map (stickSeq (stickDraw f (List.ofFn d) (G.oracle u) s.1.wst.2)) := hR5 _
  have hl : (runParams (R fun i => nz (g i)).1).w.length = k := by rw [hw]; simp
  refine hF _ δ hδ ⟨⟨fun j hj => ?_, fun hc => ?_⟩, ?_⟩
  · rw [hl] at hj
    show ((R fun i => nz (g i)).1.theta.lookup j).isSome
    rw [hR3, if_pos (.inl hj)]
    rfl
  · rw [hc] at hl
    simp at hl
    omega
  · unfold stateDensity
    refine List.sum_nonneg fun r hr => ?_
    obtain ⟨j, -, rfl⟩ := List.mem_map.1 hr
    unfold weighted
    split
    · rename_i a wj ha hwj
      rw [hw, List.getElem?_map] at hwj
      obtain ⟨i, -, rfl⟩ := Option.map_eq_some_iff.1 hwj
      rw [hpdf]
      exact mul_nonneg (hpos i).le (botExp_nonneg _)
    · exact le_rfl

theorem runMean_congr_shows (k : ℕ) {F F' : GM C0.inheritTail m Atom × ℕ → ℝ≥0∞} (hF : ∀ s (δ : Fin n → ℕ), StickHolds y p Inv s.1 δ → Shows W x (runParams s.1) → F s = F' s)
    {s : GM C0.inheritTail m Atom × ℕ} {d : Fin n → ℕ} (hs : StickHolds y p Inv s.1 d) : runMean nz W A G (k + 1) F s = runMean nz W A G (k + 1) F' s := by
  induction k generalizing s d with
  | zero => exact stepMean_congr_shows hlp hnz hW hpdf hcl heps hn hex hcj G hF hs
  | succ k ih =>
    show stepMean nz W A G (runMean nz W A G (k + 1) F) s = stepMean nz W A G (runMean nz W A G (k + 1) F') s
    exact stepMean_congr_shows hlp hnz hW hpdf hcl heps hn hex hcj G (fun s δ hs _ => ih hs) hs

omit hpdf in
theorem runMean_congr_holds (k : ℕ) {F F' : GM C0.inheritTail m Atom × ℕ → ℝ≥0∞} (hF : ∀ s (δ : Fin n → ℕ), StickHolds y p Inv s.1 δ → F s = F' s)
    {s : GM C0.inheritTail m Atom × ℕ} {d : Fin n → ℕ} (hs : StickHolds y p Inv s.1 d) : runMean nz W A G k F s = runMean nz W A G k F' s := by
  induction k generalizing s d with
  | zero => exact hF s d hs
  | succ k ih =>
    show stepMean nz W A G (runMean nz W A G k F) s = stepMean nz W A G (runMean nz W A G k F') s
    exact stepMean_congr hlp hnz hW hcl heps hn hex hcj G (fun s δ hs => ih hs) hs

end

variable (hden : ∀ i a, lp (y i) a ≠ ⊥)
include hlp hx hnz hW hpdf hcl heps hn hex hcj hden

/-- One step. -/
theorem stepMean_shown (hh : Measurable h) {F : GM C0.inheritTail m Atom × ℕ → ℝ≥0∞} {s : GM C0.inheritTail m Atom × ℕ} {d : Fin n → ℕ} (hs : StickHolds y p Inv s.1 d) :
    stepMean nz W A G (fun s' => seenDens W h x s' + F s') s = heldMean A p f getV (shownKer A lp p f y h x) s + stepMean nz W A G F s := by
  rw [stepMean_seen hlp hx hh hnz hW hpdf hcl heps hn hex hcj G hs, held_shown hlp hden hex hx hh hs]

/-- The density after `k + 1` iterations. -/
theorem runMean_shown (hh : Measurable h) (k : ℕ) {s : GM C0.inheritTail m Atom × ℕ} {d : Fin n → ℕ} (hs : StickHolds y p Inv s.1 d) :
    runMean nz W A G (k + 1) (seenDens W h x) s = runMean nz W A G k (heldMean A p f getV (shownKer A lp p f y h x)) s := by
  rw [runMean_succ]
  refine runMean_congr_holds hlp hnz hW hcl heps hn hex hcj G k (fun s δ hs => ?_) hs
  have e := stepMean_shown hlp hx hnz hW hpdf hcl heps hn hex hcj G hden hh (F := fun _ => 0) hs
  have e0 : stepMean nz W A G (fun _ : GM C0.inheritTail m Atom × ℕ => (0 : ℝ≥0∞)) s = 0 := by
    unfold stepMean
    have : ∀ r : Except PyErr Unit × (GM C0.inheritTail m Atom × ℕ), outcome (fun _ => (0 : ℝ≥0∞)) r = 0 := fun r => by
      rcases r with ⟨_ | _, _⟩ <;> rfl
    simp [this]
  simp only [add_zero, e0] at e
  exact e

/-- **The mean of the density of the state** in the long run, in closed form. -/
theorem C140_mean (hh : Measurable h) {Ω : Type} [MeasurableSpace Ω] {P : Measure Ω} {S : Ω → GM C0.inheritTail m Atom × ℕ} (hS : ∀ o, ∃ d : Fin n → ℕ, StickHolds y p Inv (S o).1 d)
    (hpost : HasPosterior A lp p f getV y P S) (k : ℕ) :
    ∫⁻ o, runMean nz W A G (k + 1) (seenDens W h x) (S o) ∂P = postMean A lp p f y (shownDens h lp x) := by
  rw [← postMean_shown hlp hden hex hx hh hcj, ← C95_run hlp hnz hW hcl heps hn hex hcj G hS hpost k (measurable_shownKer hlp hx hh)]
  refine lintegral_congr fun o => ?_
  obtain ⟨d, hd⟩ := hS o
  exact runMean_shown hlp hx hnz hW hpdf hcl heps hn hex hcj G hden hh k hd

/-- **Convergence** of the mean of the density of the state, cut off at `M`. -/
theorem C140_limit {M : ℝ≥0∞} (hM : M ≠ ∞) {s : GM C0.inheritTail m Atom × ℕ} {d : Fin n → ℕ} (hs : StickHolds y p Inv s.1 d) (hfresh : FreshAtoms s.1) :
    Tendsto (fun k => runMean nz W A G k (seenDens W (fun r => min r M) x) s) atTop (𝓝 (postMean A lp p f y (shownDens (fun r => min r M) lp x))) := by
  have hh : Measurable (fun r : ℝ≥0∞ => min r M) := measurable_id.min measurable_const
  rw [← tendsto_add_atTop_iff_nat 1, ← postMean_shown hlp hden hex hx hh hcj]
  have hb : ∀ d z, shownKer A lp p f y (fun r => min r M) x d z ≤ M := fun d z => by
    have h1 : shownKer A lp p f y (fun r => min r M) x d z ≤ stepKernel A lp p f y (fun _ _ => M + 0) d z :=
      stepKernel_mono (fun _ z => by rw [add_zero]; exact shown_le (fun r => min_le_right _ _) d z) d z
    rw [stepKernel_add_const hlp hden hex M (fun _ _ => 0)] at h1
    have h2 : stepKernel A lp p f y (fun _ _ => 0) d z = 0 := by simp [stepKernel, labelStep]
    simp only [h2, add_zero] at h1
    exact h1
  refine (C97_fresh hlp hnz hW hcl heps hn hex hcj hden G hs hfresh hM (measurable_shownKer hlp hx hh) hb).congr fun k => ?_
  exact (runMean_shown hlp hx hnz hW hpdf hcl heps hn hex hcj G hden hh k hs).symm

/-- The densities of the saved states, added up. -/
theorem savedRuns_shown (hh : Measurable h) {gap : ℕ} (hgap : 0 < gap) (T b : ℕ) : ∃ Ψ : (Fin n → ℕ) → Params Atom → ℝ≥0∞, (∀ d, Measurable (Ψ d)) ∧
    postMean A lp p f y Ψ = T * postMean A lp p f y (shownDens h lp x) ∧
    ∀ (c : ℝ≥0∞) (s : GM C0.inheritTail m Atom × ℕ) (d : Fin n → ℕ), StickHolds y p Inv s.1 d →
      FinMix.savedRuns nz W A G gap T (b + 1) (fun l => c + (l.map fun q => h (ENNReal.ofReal (stateDensity W .none x q))).sum) s = c + heldMean A p f getV Ψ s := by
  induction T generalizing b with
  | zero =>
    refine ⟨fun _ _ => 0, fun _ => measurable_const, by simp [postMean], fun c s d _ => ?_⟩
    simp [FinMix.savedRuns, heldMean]
  | succ T ih =>
    obtain ⟨g, rfl⟩ : ∃ g, gap = g + 1 := ⟨gap - 1, by omega⟩
    obtain ⟨Ψ, hΨ, hmean, hrun⟩ := ih g
    have hKm : ∀ d, Measurable (shownKer A lp p f y h x d) := measurable_shownKer hlp hx hh
    have hSm : ∀ d, Measurable (stepKernel A lp p f y Ψ d) := measurable_stepKernel hlp hΨ
    have hsm : ∀ d, Measurable (fun z => shownKer A lp p f y h x d z + stepKernel A lp p f y Ψ d z) := fun d => (hKm d).add (hSm d)
    have hpm : ∀ k, postMean A lp p f y ((stepKernel A lp p f y)^[k] fun d z => shownKer A lp p f y h x d z + stepKernel A lp p f y Ψ d z) =
        postMean A lp p f y (fun d z => shownKer A lp p f y h x d z + stepKernel A lp p f y Ψ d z) := fun k => by
      induction k with
      | zero => rfl
      | succ k ih => rw [Function.iterate_succ_apply', postMean_invariant hlp hex hcj (measurable_iterate hlp hsm k), ih]
    refine ⟨(stepKernel A lp p f y)^[b] fun d z => shownKer A lp p f y h x d z + stepKernel A lp p f y Ψ d z, measurable_iterate hlp hsm b, ?_, fun c s d hs => ?_⟩
    · rw [hpm]
      have e : postMean A lp p f y (fun d z => shownKer A lp p f y h x d z + stepKernel A lp p f y Ψ d z) = postMean A lp p f y (shownKer A lp p f y h x) + postMean A lp p f y (stepKernel A lp p f y Ψ) := by
        unfold postMean
        rw [← ENNReal.tsum_add]
        exact tsum_congr fun d => lintegral_add_left (hKm d) _
      rw [e, postMean_shown hlp hden hex hx hh hcj, postMean_invariant hlp hex hcj hΨ, hmean]
      push_cast
      ring
    · show runMean nz W A G (b + 1) (fun s' => FinMix.savedRuns nz W A G (g + 1) T (g + 1) (fun l => c + ((runParams s'.1 :: l).map fun q => h (ENNReal.ofReal (stateDensity W .none x q))).sum) s') s = _
      have hadd : ∀ (c : ℝ≥0∞) (φ : (Fin n → ℕ) → Params Atom → ℝ≥0∞) (s : GM C0.inheritTail m Atom × ℕ), heldMean A p f getV (fun d z => c + φ d z) s = c + heldMean A p f getV φ s := fun c φ s => by
        unfold heldMean
        simp_rw [lintegral_add_left measurable_const, lintegral_const, measure_univ, mul_one]
      have hcΨ : ∀ d, Measurable ((fun d z => c + Ψ d z) d) := fun d => (hΨ d).const_add c
      have hcs : ∀ d, Measurable ((fun d z => c + (shownKer A lp p f y h x d z + stepKernel A lp p f y Ψ d z)) d) := fun d => (hsm d).const_add c
      rw [runMean_succ, ← hadd, ← iterate_add_const hlp hden hex, ← runMean_kernel hlp hnz hW hcl heps hn hex hcj G b (φ := fun d z => c + (shownKer A lp p f y h x d z + stepKernel A lp p f y Ψ d z)) hcs hs]
      refine runMean_congr_holds hlp hnz hW hcl heps hn hex hcj G b (fun s δ hs => ?_) hs
      have e1 : stepMean nz W A G (fun s' => FinMix.savedRuns nz W A G (g + 1) T (g + 1) (fun l => c + ((runParams s'.1 :: l).map fun q => h (ENNReal.ofReal (stateDensity W .none x q))).sum) s') s =
          stepMean nz W A G (fun s' => seenDens W h x s' + heldMean A p f getV (fun d z => c + Ψ d z) s') s := by
        refine stepMean_congr hlp hnz hW hcl heps hn hex hcj G (fun s' δ hs' => ?_) hs
        have e2 := hrun (c + seenDens W h x s') s' δ hs'
        rw [hadd, ← add_assoc, add_comm (seenDens W h x s') c, ← e2]
        congr 1
        funext l
        rw [List.map_cons, List.sum_cons, ← add_assoc]
        rfl
      have hheld : heldMean A p f getV (fun d z => c + (shownKer A lp p f y h x d z + stepKernel A lp p f y Ψ d z)) s =
          heldMean A p f getV (shownKer A lp p f y h x) s + heldMean A p f getV (stepKernel A lp p f y fun d z => c + Ψ d z) s := by
        rw [← heldMean_add hKm]
        congr 1
        rw [stepKernel_add_const hlp hden hex c Ψ]
        funext d z
        exact add_left_comm _ _ _
      rw [e1, stepMean_shown hlp hx hnz hW hpdf hcl heps hn hex hcj G hden hh hs, stepMean_kernel hlp hnz hW hcl heps hn hex hcj G hcΨ hs, hheld]


omit hx hden in
/-- Functions of the saved states agree if they agree for states whose densities can be computed. -/
theorem savedRuns_congr_shows {gap : ℕ} (hgap : 0 < gap) (T b : ℕ) {F F' : List (RunParams ℝ Atom) → ℝ≥0∞} (hF : ∀ l, l.length = T → (∀ q ∈ l, Shows W x q) → F l = F' l)
    {s : GM C0.inheritTail m Atom × ℕ} {d : Fin n → ℕ} (hs : StickHolds y p Inv s.1 d) : FinMix.savedRuns nz W A G gap T (b + 1) F s = FinMix.savedRuns nz W A G gap T (b + 1) F' s := by
  induction T generalizing b F F' s d with
  | zero => exact hF [] rfl (by simp)
  | succ T ih =>
    obtain ⟨g, rfl⟩ : ∃ g, gap = g + 1 := ⟨gap - 1, by omega⟩
    refine runMean_congr_shows hlp hnz hW hpdf hcl heps hn hex hcj G b (fun s' δ hs' hq => ?_) hs
    refine ih g (fun l hl hq' => hF _ (by rw [List.length_cons, hl]) ?_) hs'
    rintro q (_ | ⟨_, hm⟩)
    · exact hq
    · exact hq' q hm

/-- **The mean of `gibbs_eap_density([x])`** in the long run, whatever the number of saved states, the gap between them and the number of iterations before. -/
theorem C140_eap {Ω : Type} [MeasurableSpace Ω] {P : Measure Ω} {S : Ω → GM C0.inheritTail m Atom × ℕ} (hS : ∀ o, ∃ d : Fin n → ℕ, StickHolds y p Inv (S o).1 d)
    (hpost : HasPosterior A lp p f getV y P S) {gap : ℕ} (hgap : 0 < gap) (T burn : ℕ) :
    ∫⁻ o, FinMix.savedRuns nz W A G gap (T + 1) (burn + 1) (eapValue W x (S o).1) (S o) ∂P = postMean A lp p f y (shownDens id lp x) := by
  have hT : ((T + 1 : ℕ) : ℝ≥0∞) ≠ 0 := by simp
  have hT' : ((T + 1 : ℕ) : ℝ≥0∞) ≠ ∞ := ENNReal.natCast_ne_top _
  have hTi : ((T + 1 : ℕ) : ℝ≥0∞)⁻¹ ≠ ∞ := ENNReal.inv_ne_top.2 hT
  have hh : Measurable (fun r : ℝ≥0∞ => ((T + 1 : ℕ) : ℝ≥0∞)⁻¹ * r) := measurable_const.mul measurable_id
  obtain ⟨Ψ, hΨ, hmean, hrun⟩ := savedRuns_shown hlp hx hnz hW hpdf hcl heps hn hex hcj G hden hh hgap (T + 1) burn
  have e1 : ∀ o, FinMix.savedRuns nz W A G gap (T + 1) (burn + 1) (eapValue W x (S o).1) (S o) = heldMean A p f getV Ψ (S o) := fun o => by
    obtain ⟨d, hd⟩ := hS o
    have h1 := hrun 0 (S o) d hd
    rw [zero_add] at h1
    rw [← h1]
    refine savedRuns_congr_shows hlp hnz hW hpdf hcl heps hn hex hcj G hgap (T + 1) burn (fun l hl hq => ?_) hd
    have e := eap_eq W { (S o).1 with saved := l, gibbsFitted := true } rfl (fun q hq' => (hq q hq').1) (some (.rows [x])) (xs := [x]) rfl (dim := .none) (by simp) none
    have e' : eapDensity W { (S o).1 with saved := l, gibbsFitted := true } (some (.rows [x])) .none none none = .ok [(l.map (stateDensity W .none x)).sum / ((T + 1 : ℕ) : ℝ)] := by
      rw [e, ← hl]
      rfl
    have e2 : eapValue W x (S o).1 l = ENNReal.ofReal ((l.map (stateDensity W .none x)).sum / ((T + 1 : ℕ) : ℝ)) := by
      unfold eapValue
      rw [e']
    rw [e2, zero_add, ENNReal.ofReal_div_of_pos (by positivity), ENNReal.ofReal_natCast, ENNReal.div_eq_inv_mul, List.sum_map_mul_left]
    congr 1
    clear e e' e2 hl
    induction l with
    | nil => simp
    | cons q l ih =>
      have hq' : ∀ r ∈ l, Shows W x r := fun r hr => hq r (List.mem_cons_of_mem _ hr)
      rw [List.map_cons, List.sum_cons, List.map_cons, List.sum_cons, ENNReal.ofReal_add (hq q List.mem_cons_self).2 (List.sum_nonneg fun r hr => ?_), ih hq']
      obtain ⟨q', hq1, rfl⟩ := List.mem_map.1 hr
      exact (hq' q' hq1).2
  simp_rw [e1]
  rw [hpost Ψ hΨ, hmean]
  have e3 : ∀ (d : Fin n → ℕ) (z : Params Atom), shownDens (fun r : ℝ≥0∞ => ((T + 1 : ℕ) : ℝ≥0∞)⁻¹ * r) lp x d z = ((T + 1 : ℕ) : ℝ≥0∞)⁻¹ * shownDens id lp x d z := fun d z => by
    unfold shownDens
    rw [← lintegral_const_mul' _ _ hTi]
    refine lintegral_congr fun U => ?_
    unfold stoppedDens
    rw [← ENNReal.tsum_mul_left]
    refine tsum_congr fun k => ?_
    rw [mul_ite, mul_zero]
    rfl
  unfold postMean
  simp_rw [e3, lintegral_const_mul' _ _ hTi, ENNReal.tsum_mul_left]
  rw [← mul_assoc, ENNReal.mul_inv_cancel hT hT', one_mul]

end

/-! ### Normal observations -/

theorem measurable_normal_at {X : Type*} [MeasurableSpace X] {g : X → Fin m → ℝ} {a : X → MeanCov m} (hg : Measurable g) (ha : Measurable a) :
    Measurable (fun q => ENNReal.ofReal (Real.exp (logNormal (g q) (a q).1 (Matrix.of (a q).2)))) := by
  have h1 : Measurable (fun q => (g q, a q)) := hg.prodMk ha
  have h2 := (measurable_pair_normal (m := m)).comp h1
  simp only [Function.comp_def] at h2
  exact h2

/-- The posterior predictive density: the probability of the data with `x` appended, divided by that of the data.  Both are sums over the partitions. -/
noncomputable def partPredictive (prior : ∀ {k : ℕ}, Parts k → ℝ) (p : NIW ℝ m) (y : Fin n → Fin m → ℝ) (x : Fin m → ℝ) : ℝ :=
  (∑ π : Parts (n + 1), partWeight prior p (append y x) π) / ∑ π : Parts n, partWeight prior p y π

section
variable {p : NIW ℝ m} (hp : Admissible p) (y : Fin n → Fin m → ℝ) (x : Fin m → ℝ) {f : StickParams}
include hp

theorem parts_joint {prior : Parts n → ℝ} (hpos : ∀ π, 0 < prior π) (hprior : ∀ π : Parts n, blockProb f Finset.card π.parts = ENNReal.ofReal (prior π)) :
    ∑' δ : Fin n → ℕ, stickJoint (AtomGen.ofLaw niwAtoms) normalLog p f y δ Set.univ = ENNReal.ofReal (∑ π, partWeight prior p y π) := by
  have h := tsum_joint (f := f) (measurable_obs y) (niw_conjugate hp) (fun _ : Parts n => True)
  simp only [if_true] at h
  have hwpos : ∀ π : Parts n, 0 < partWeight prior p y π := fun π => mul_pos (hpos π) (Finset.prod_pos fun c _ => Real.exp_pos _)
  rw [h, ENNReal.ofReal_sum_of_nonneg fun π _ => (hwpos π).le]
  refine Finset.sum_congr rfl fun π _ => ?_
  rw [hprior, Finset.prod_congr rfl fun c hc => blockMass_evidence hp y (π.nonempty_of_mem_parts hc), ← ENNReal.ofReal_prod_of_nonneg fun c _ => (Real.exp_pos _).le, ← ENNReal.ofReal_mul (hpos π).le]
  rfl

theorem predictive_parts {prior : ∀ {k : ℕ}, Parts k → ℝ} (hpos : ∀ {k : ℕ} (π : Parts k), 0 < prior π) (hprior : ∀ {k : ℕ} (π : Parts k), blockProb f Finset.card π.parts = ENNReal.ofReal (prior π)) :
    postMean (AtomGen.ofLaw niwAtoms) normalLog p f y (fun _ => fullDens normalLog x) = ENNReal.ofReal (partPredictive prior p y x) := by
  rw [C140_predictive (measurable_obs y) (measurable_obs (n := 1) (fun _ => x) 0), parts_joint hp y hpos hprior, parts_joint hp (append y x) hpos hprior, partPredictive, ENNReal.ofReal_div_of_pos]
  exact Finset.sum_pos (fun π _ => mul_pos (hpos π) (Finset.prod_pos fun c _ => Real.exp_pos _)) ⟨⊥, Finset.mem_univ _⟩

/-- **Dirichlet process mixtures**: the posterior mean of the density of all components. -/
theorem C140_predictive_dirichletProcess {alpha : ℝ} (ha : 0 < alpha) :
    postMean (AtomGen.ofLaw niwAtoms) normalLog p (dpSticks alpha ha) y (fun _ => fullDens normalLog x) = ENNReal.ofReal (partPredictive (pitmanYorLaw 0 alpha) p y x) :=
  predictive_parts hp y x (chinese_pos ha) (blockProb_dp ha)

/-- **Pitman-Yor process mixtures**: the posterior mean of the density of all components. -/
theorem C140_predictive_pitmanYor {pyd alpha : ℝ} (h0 : 0 ≤ pyd) (h1 : pyd < 1) (ha : 0 < alpha) :
    postMean (AtomGen.ofLaw niwAtoms) normalLog p (pySticks pyd alpha h0 h1 ha) y (fun _ => fullDens normalLog x) = ENNReal.ofReal (partPredictive (pitmanYorLaw pyd (alpha - pyd)) p y x) :=
  predictive_parts hp y x (pitmanYorLaw_pos h0 h1 ha) (fun π => by rw [blockProb_py h0 h1 _ ha (parts_card_pos π), gammaEppf_eq h0 h1 ha])

/-- **It is a density**: its integral is one.  So what the saved states leave out has positive mass. -/
theorem C140_integral (hex : f.Exhausts) {prior : ∀ {k : ℕ}, Parts k → ℝ} (hpos : ∀ {k : ℕ} (π : Parts k), 0 < prior π)
    (hprior : ∀ {k : ℕ} (π : Parts k), blockProb f Finset.card π.parts = ENNReal.ofReal (prior π)) : ∫⁻ x, ENNReal.ofReal (partPredictive prior p y x) = 1 := by
  have hprob := posterior_prob (f := f) (measurable_obs y) hex (niw_conjugate hp)
  simp_rw [← predictive_parts hp y _ hpos hprior]
  have e0 : ∀ x, postMean (AtomGen.ofLaw niwAtoms) normalLog p f y (fun _ => fullDens normalLog x) = ∫⁻ c, fullDens normalLog x c.2 ∂(posteriorPairs (AtomGen.ofLaw niwAtoms) normalLog p f y) := fun x => by
    unfold postMean posteriorPairs
    rw [lintegral_sum_measure]
    exact tsum_congr fun d => ((measurableEmbedding_prodMk_left d).lintegral_map (fun c : (Fin n → ℕ) × Params (MeanCov m) => fullDens normalLog x c.2)).symm
  simp_rw [e0]
  have hm : Measurable (fun q : (Fin m → ℝ) × ((Fin n → ℕ) × Params (MeanCov m)) => fullDens normalLog q.1 q.2.2) := by
    refine Measurable.tsum fun j => ?_
    have h1 : Measurable (fun q : (Fin m → ℝ) × ((Fin n → ℕ) × Params (MeanCov m)) => ENNReal.ofReal (stickSeq q.2.2.2 j)) :=
      ((measurable_stickSeq j).comp (measurable_snd.comp (measurable_snd.comp measurable_snd))).ennreal_ofReal
    have h0 : Measurable (fun q : (Fin m → ℝ) × ((Fin n → ℕ) × Params (MeanCov m)) => q.2.2.1) := measurable_fst.comp (measurable_snd.comp measurable_snd)
    have h4 : Measurable (fun q : (Fin m → ℝ) × ((Fin n → ℕ) × Params (MeanCov m)) => q.2.2.1 j) := (measurable_pi_apply j).comp h0
    have h2 : Measurable (fun q : (Fin m → ℝ) × ((Fin n → ℕ) × Params (MeanCov m)) => ENNReal.ofReal (Real.exp (logNormal q.1 (q.2.2.1 j).1 (Matrix.of (q.2.2.1 j).2)))) :=
      measurable_normal_at measurable_fst h4
    have h3 : (fun q : (Fin m → ℝ) × ((Fin n → ℕ) × Params (MeanCov m)) => ENNReal.ofReal (stickSeq q.2.2.2 j) * obsDens normalLog q.1 (q.2.2.1 j)) =
        fun q => ENNReal.ofReal (stickSeq q.2.2.2 j) * ENNReal.ofReal (Real.exp (logNormal q.1 (q.2.2.1 j).1 (Matrix.of (q.2.2.1 j).2))) := rfl
    rw [h3]
    exact h1.mul h2
  rw [lintegral_lintegral_swap hm.aemeasurable]
  have hone : ∀ᵐ c ∂(posteriorPairs (AtomGen.ofLaw niwAtoms) normalLog p f y), ∫⁻ x, fullDens normalLog x c.2 = 1 := by
    unfold posteriorPairs
    rw [Measure.ae_sum_iff]
    intro d
    rw [(measurableEmbedding_prodMk_left d).ae_map_iff]
    have hθ : ∀ᵐ z ∂(stickPosterior (AtomGen.ofLaw niwAtoms) normalLog p f y d), ∀ j, (Matrix.of (z.1 j).2).PosDef := by
      have h1 : ∀ᵐ θ ∂(Measure.infinitePi fun _ : ℕ => (AtomGen.ofLaw niwAtoms).law p), ∀ j, (Matrix.of (θ j).2).PosDef := by
        rw [ae_all_iff]
        intro j
        have h2 := niwAtoms_posDef hp
        rw [← AtomGen.ofLaw_law niwAtoms p] at h2
        exact (measurePreserving_eval_infinitePi (fun _ : ℕ => (AtomGen.ofLaw niwAtoms).law p) j).quasiMeasurePreserving.ae h2
      have h3 : ∀ᵐ z ∂(stickPrior (AtomGen.ofLaw niwAtoms) p f), ∀ j, (Matrix.of (z.1 j).2).PosDef :=
        Measure.quasiMeasurePreserving_fst (μ := Measure.infinitePi fun _ : ℕ => (AtomGen.ofLaw niwAtoms).law p) (ν := Measure.infinitePi f.prior) |>.ae h1
      unfold stickPosterior stickJoint
      exact Measure.ae_smul_measure ((withDensity_absolutelyContinuous _ _).ae_le h3) _
    filter_upwards [hθ, posterior_good (measurable_obs y) (fun _ _ => WithBot.coe_ne_bot) hex (niw_conjugate hp) d] with z h1 ⟨hv, hsum⟩
    unfold fullDens
    have hx : ∀ j, Measurable (fun x => obsDens normalLog x (z.1 j)) := fun j => IW.measurable_exp_logNormal _ _
    rw [lintegral_tsum fun j => ((hx j).const_mul _).aemeasurable]
    have e1 : ∀ j, ∫⁻ x, ENNReal.ofReal (stickSeq z.2 j) * obsDens normalLog x (z.1 j) = ENNReal.ofReal (stickSeq z.2 j) := fun j => by
      rw [lintegral_const_mul' _ _ ENNReal.ofReal_ne_top]
      have h2 := IW.lintegral_logNormal (z.1 j).1 (h1 j)
      have h3 : ∫⁻ x, obsDens normalLog x (z.1 j) = 1 := h2
      rw [h3, mul_one]
    simp_rw [e1]
    rw [← ENNReal.ofReal_tsum_of_nonneg (fun j => (stickSeq_pos hv j).le) hsum.summable, hsum.tsum_eq, ENNReal.ofReal_one]
  rw [lintegral_congr_ae hone, lintegral_const, measure_univ, mul_one]

variable {nz : ℝ → ℝ} (hnz : IsGumbel nz) {W : World ℝ m (MeanCov m)} (heps : W.eps = 0) (hW : W.logpdf = normalLog) (hpdf : ∀ x a, W.pdf .none x a = Real.exp (logNormal x a.1 (Matrix.of a.2)))
  (hn : 2 ≤ n) (G : RandGen)
include hnz heps hW hpdf hn

/-- **Dirichlet process mixtures**: the mean of `gibbs_eap_density([x])` is too small in the long run. -/
theorem C140_eap_dirichletProcess {alpha : ℝ} (ha : 0 < alpha) {Ω : Type} [MeasurableSpace Ω] {P : Measure Ω} {S : Ω → GM (DP.cls : WeightClass ℝ) m (MeanCov m) × ℕ}
    (hS : ∀ o, ∃ d : Fin n → ℕ, StickHolds (C0 := DP.core) y p (fun s => s.alpha = alpha) (S o).1 d)
    (hpost : HasPosterior (C0 := DP.core) (AtomGen.ofLaw niwAtoms) normalLog p (dpSticks alpha ha) DP.v y P S) {gap : ℕ} (hgap : 0 < gap) (T burn : ℕ) :
    ∫⁻ o, FinMix.savedRuns (C0 := DP.core) nz W (AtomGen.ofLaw niwAtoms) G gap (T + 1) (burn + 1) (eapValue (C0 := DP.core) W x (S o).1) (S o) ∂P < ENNReal.ofReal (partPredictive (pitmanYorLaw 0 alpha) p y x) := by
  rw [C140_eap (C0 := DP.core) (measurable_obs y) (measurable_obs (n := 1) (fun _ => x) 0) hnz hW (hpdf x) (dp_stickClass ha) heps hn (dpSticks_exhausts ha) (niw_conjugate hp) G (fun _ _ => WithBot.coe_ne_bot)
    hS hpost hgap T burn, ← C140_predictive_dirichletProcess hp y x ha]
  exact C140_below (measurable_obs y) (measurable_obs (n := 1) (fun _ => x) 0) (fun _ _ => WithBot.coe_ne_bot) (fun _ => WithBot.coe_ne_bot) (dpSticks_exhausts ha) (niw_conjugate hp)

/-- **Pitman-Yor process mixtures**: the mean of `gibbs_eap_density([x])` is too small in the long run. -/
theorem C140_eap_pitmanYor {pyd alpha : ℝ} (h0 : 0 ≤ pyd) (h1 : pyd < 1) (ha : 0 < alpha) {Ω : Type} [MeasurableSpace Ω] {P : Measure Ω} {S : Ω → GM (PY.cls : WeightClass ℝ) m (MeanCov m) × ℕ}
    (hS : ∀ o, ∃ d : Fin n → ℕ, StickHolds (C0 := PY.core) y p (fun s => s.pyd = pyd ∧ s.alpha = alpha) (S o).1 d)
    (hpost : HasPosterior (C0 := PY.core) (AtomGen.ofLaw niwAtoms) normalLog p (pySticks pyd alpha h0 h1 ha) PY.v y P S) {gap : ℕ} (hgap : 0 < gap) (T burn : ℕ) :
    ∫⁻ o, FinMix.savedRuns (C0 := PY.core) nz W (AtomGen.ofLaw niwAtoms) G gap (T + 1) (burn + 1) (eapValue (C0 := PY.core) W x (S o).1) (S o) ∂P <
      ENNReal.ofReal (partPredictive (pitmanYorLaw pyd (alpha - pyd)) p y x) := by
  rw [C140_eap (C0 := PY.core) (measurable_obs y) (measurable_obs (n := 1) (fun _ => x) 0) hnz hW (hpdf x) (py_stickClass h0 h1 ha) heps hn (pySticks_exhausts h0 h1 ha) (niw_conjugate hp) G
    (fun _ _ => WithBot.coe_ne_bot) hS hpost hgap T burn, ← C140_predictive_pitmanYor hp y x h0 h1 ha]
  exact C140_below (measurable_obs y) (measurable_obs (n := 1) (fun _ => x) 0) (fun _ _ => WithBot.coe_ne_bot) (fun _ => WithBot.coe_ne_bot) (pySticks_exhausts h0 h1 ha) (niw_conjugate hp)

/-- **Dirichlet process mixtures**: more iterations do not help, from any cold start. -/
theorem C140_limit_dirichletProcess {alpha : ℝ} (ha : 0 < alpha) {s : GM (DP.cls : WeightClass ℝ) m (MeanCov m) × ℕ} {d : Fin n → ℕ}
    (h : StickHolds (C0 := DP.core) y p (fun s => s.alpha = alpha) s.1 d) (hfresh : FreshAtoms s.1) :
    ∃ c < ENNReal.ofReal (partPredictive (pitmanYorLaw 0 alpha) p y x), ∀ M : ℝ≥0∞, M ≠ ∞ → ∃ L ≤ c,
      Tendsto (fun k => runMean (C0 := DP.core) nz W (AtomGen.ofLaw niwAtoms) G k (fun s' => min (ENNReal.ofReal (stateDensity W .none x (runParams s'.1))) M) s) atTop (𝓝 L) := by
  refine ⟨postMean (AtomGen.ofLaw niwAtoms) normalLog p (dpSticks alpha ha) y (shownDens id normalLog x), ?_, fun M hM => ⟨_, ?_,
    C140_limit (C0 := DP.core) (measurable_obs y) (measurable_obs (n := 1) (fun _ => x) 0) hnz hW (hpdf x) (dp_stickClass ha) heps hn (dpSticks_exhausts ha) (niw_conjugate hp) G (fun _ _ => WithBot.coe_ne_bot)
      hM h hfresh⟩⟩
  · rw [← C140_predictive_dirichletProcess hp y x ha]
    exact C140_below (measurable_obs y) (measurable_obs (n := 1) (fun _ => x) 0) (fun _ _ => WithBot.coe_ne_bot) (fun _ => WithBot.coe_ne_bot) (dpSticks_exhausts ha) (niw_conjugate hp)
  · exact ENNReal.tsum_le_tsum fun d => lintegral_mono fun z => shown_mono (fun r => min_le_left _ _) d z

/-- **Pitman-Yor process mixtures**: more iterations do not help, from any cold start. -/
theorem C140_limit_pitmanYor {pyd alpha : ℝ} (h0 : 0 ≤ pyd) (h1 : pyd < 1) (ha : 0 < alpha) {s : GM (PY.cls : WeightClass ℝ) m (MeanCov m) × ℕ} {d : Fin n → ℕ}
    (h : StickHolds (C0 := PY.core) y p (fun s => s.pyd = pyd ∧ s.alpha = alpha) s.1 d) (hfresh : FreshAtoms s.1) :
    ∃ c < ENNReal.ofReal (partPredictive (pitmanYorLaw pyd (alpha - pyd)) p y x), ∀ M : ℝ≥0∞, M ≠ ∞ → ∃ L ≤ c,
      Tendsto (fun k => runMean (C0 := PY.core) nz W (AtomGen.ofLaw niwAtoms) G k (fun s' => min (ENNReal.ofReal (stateDensity W .none x (runParams s'.1))) M) s) atTop (𝓝 L) := by
  refine ⟨postMean (AtomGen.ofLaw niwAtoms) normalLog p (pySticks pyd alpha h0 h1 ha) y (shownDens id normalLog x), ?_, fun M hM => ⟨_, ?_,
    C140_limit (C0 := PY.core) (measurable_obs y) (measurable_obs (n := 1) (fun _ => x) 0) hnz hW (hpdf x) (py_stickClass h0 h1 ha) heps hn (pySticks_exhausts h0 h1 ha) (niw_conjugate hp) G
      (fun _ _ => WithBot.coe_ne_bot) hM h hfresh⟩⟩
  · rw [← C140_predictive_pitmanYor hp y x h0 h1 ha]
    exact C140_below (measurable_obs y) (measurable_obs (n := 1) (fun _ => x) 0) (fun _ _ => WithBot.coe_ne_bot) (fun _ => WithBot.coe_ne_bot) (pySticks_exhausts h0 h1 ha) (niw_conjugate hp)
  · exact ENNReal.tsum_le_tsum fun d => lintegral_mono fun z => shown_mono (fun r => min_le_left _ _) d z

end

/-! ### The hypotheses are met -/

/-- Three points in the plane and a cold start. -/
example {nz : ℝ → ℝ} (hnz : IsGumbel nz) {W : World ℝ 2 (MeanCov 2)} (heps : W.eps = 0) (hW : W.logpdf = normalLog) (hpdf : ∀ x a, W.pdf .none x a = Real.exp (logNormal x a.1 (Matrix.of a.2)))
    (G : RandGen) (y : Fin 3 → Fin 2 → ℝ) (x : Fin 2 → ℝ) :
    ∃ c < ENNReal.ofReal (partPredictive (pitmanYorLaw 0 2) ⟨![0, 0], 1, fun i j => (1 : Matrix (Fin 2) (Fin 2) ℝ) i j, 2⟩ y x), ∀ M : ℝ≥0∞, M ≠ ∞ → ∃ L ≤ c,
      Tendsto (fun k => runMean (C0 := DP.core) nz W (AtomGen.ofLaw niwAtoms) G k (fun s' => min (ENNReal.ofReal (stateDensity W .none x (runParams s'.1))) M) (dpPlane y 2 fun i => i)) atTop (𝓝 L) :=
  C140_limit_dirichletProcess admissible_plane y x hnz heps hW hpdf (by norm_num) G two_pos (d := fun i => i) ⟨rfl, rfl, rfl, rfl, rfl⟩ (fun _ _ => rfl)

theorem admissible_line : Admissible (⟨fun _ => 0, 1, fun _ _ => 1, 1⟩ : NIW ℝ 1) := by
  refine ⟨one_pos, by norm_num, ?_⟩
  have e : (Matrix.of fun _ _ => 1 : Matrix (Fin 1) (Fin 1) ℝ) = 1 := by
    ext i j
    rw [Subsingleton.elim i j]
    simp
  show (Matrix.of fun _ _ => 1 : Matrix (Fin 1) (Fin 1) ℝ).PosDef
  rw [e]
  exact Matrix.PosDef.one

/-- A state with the posterior law: two observations on the line. -/
example {nz : ℝ → ℝ} (hnz : IsGumbel nz) {W : World ℝ 1 (MeanCov 1)} (heps : W.eps = 0) (hW : W.logpdf = normalLog) (hpdf : ∀ x a, W.pdf .none x a = Real.exp (logNormal x a.1 (Matrix.of a.2)))
    (G : RandGen) (y : Fin 2 → Fin 1 → ℝ) (x : Fin 1 → ℝ) :
    ∫⁻ o, FinMix.savedRuns (C0 := DP.core) nz W (AtomGen.ofLaw niwAtoms) G 3 10 5 (eapValue (C0 := DP.core) W x (dpState y 2 o).1) (dpState y 2 o)
      ∂(posteriorPairs (AtomGen.ofLaw niwAtoms) normalLog ⟨fun _ => 0, 1, fun _ _ => 1, 1⟩ (dpSticks 2 two_pos) y) < ENNReal.ofReal (partPredictive (pitmanYorLaw 0 2) ⟨fun _ => 0, 1, fun _ _ => 1, 1⟩ y x) :=
  C140_eap_dirichletProcess admissible_line y x hnz heps hW hpdf le_rfl G two_pos (fun o => ⟨o.1, rfl, rfl, rfl, rfl, rfl⟩)
    (C95_start (C0 := DP.core) (measurable_obs y) (niw_conjugate admissible_line) two_pos (dpState y 2) (fun d j => j < topLabel (List.ofFn d))
      (fun d i => lt_topLabel ((List.mem_ofFn' _ _).2 ⟨i, rfl⟩)) (fun d => topLabel (List.ofFn d)) (fun d i => lt_topLabel ((List.mem_ofFn' _ _).2 ⟨i, rfl⟩)) (fun x => rfl)
      (fun x j => lookup_range_map _ _ _) (fun x => rfl)) (by norm_num) 9 4

end Verif.Mix
