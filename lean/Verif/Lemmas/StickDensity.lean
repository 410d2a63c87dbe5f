import Verif.Props.C97
import Verif.Props.C47
import Verif.Lemmas.GibbsAverage
import Verif.Lemmas.StreamCons

/-! # The density of the state after a Gibbs iteration of a stick-breaking mixture -/

namespace Verif.Mix
open MeasureTheory ProbabilityTheory GM Spec Filter
open scoped ENNReal Topology

set_option linter.unusedSectionVars false

variable {m n : ℕ} {Atom : Type} [MeasurableSpace Atom] {C0 : WeightCore ℝ}

/-- The mixture density at `x` of the first `k` components. -/
noncomputable def partDens (lp : (Fin m → ℝ) → Atom → WithBot ℝ) (x : Fin m → ℝ) (k : ℕ) (z : Params Atom) : ℝ≥0∞ := ∑ j ∈ Finset.range k, ENNReal.ofReal (stickSeq z.2 j) * obsDens lp x (z.1 j)

/-- The mixture density at `x` of all components. -/
noncomputable def fullDens (lp : (Fin m → ℝ) → Atom → WithBot ℝ) (x : Fin m → ℝ) (z : Params Atom) : ℝ≥0∞ := ∑' j, ENNReal.ofReal (stickSeq z.2 j) * obsDens lp x (z.1 j)

open Classical in
/-- `h` of the mixture density of the components that are drawn for the slice variables `U`. -/
noncomputable def stoppedDens (h : ℝ≥0∞ → ℝ≥0∞) (lp : (Fin m → ℝ) → Atom → WithBot ℝ) (x : Fin m → ℝ) (d : Fin n → ℕ) (q : ℕ) (U : ℕ → ℝ) (z : Params Atom) : ℝ≥0∞ :=
  ∑' k, if z.2 ∈ stopEv d U q (topLabel (List.ofFn d)) k then h (partDens lp x k z) else 0

/-- Its mean over the slice variables. -/
noncomputable def shownDens (h : ℝ≥0∞ → ℝ≥0∞) (lp : (Fin m → ℝ) → Atom → WithBot ℝ) (x : Fin m → ℝ) (d : Fin n → ℕ) (z : Params Atom) : ℝ≥0∞ := ∫⁻ U, stoppedDens h lp x d 0 U z ∂streamLaw

section
variable {lp : (Fin m → ℝ) → Atom → WithBot ℝ} {x : Fin m → ℝ} {h : ℝ≥0∞ → ℝ≥0∞}

theorem measurable_partDens (hx : Measurable (obsDens lp x)) (k : ℕ) : Measurable (partDens (Atom := Atom) lp x k) :=
  Finset.measurable_sum _ fun j _ => ((measurable_stickSeq j).comp measurable_snd).ennreal_ofReal.mul (hx.comp ((measurable_pi_apply j).comp measurable_fst))

theorem measurable_fullDens (hx : Measurable (obsDens lp x)) : Measurable (fullDens (Atom := Atom) lp x) :=
  Measurable.tsum fun j => ((measurable_stickSeq j).comp measurable_snd).ennreal_ofReal.mul (hx.comp ((measurable_pi_apply j).comp measurable_fst))

theorem measurable_stop_pairs (d : Fin n → ℕ) (q N k : ℕ) : MeasurableSet {r : (ℕ → ℝ) × Params Atom | r.2.2 ∈ stopEv d r.1 q N k} := by
  have hc : ∀ k, MeasurableSet {r : (ℕ → ℝ) × Params Atom | Covers (stickSeq r.2.2) d r.1 q k} := fun k => by
    unfold Covers
    rw [Set.ofPred_forall]
    refine MeasurableSet.iInter fun i => measurableSet_le ?_ ?_
    · exact measurable_const.sub (Finset.measurable_fun_sum _ fun j _ => (measurable_stickSeq j).comp (measurable_snd.comp measurable_snd))
    · exact ((measurable_stickSeq _).comp (measurable_snd.comp measurable_snd)).mul ((measurable_pi_apply _).comp measurable_fst)
  by_cases hN : N ≤ k
  · have e : {r : (ℕ → ℝ) × Params Atom | r.2.2 ∈ stopEv d r.1 q N k} = {r | Covers (stickSeq r.2.2) d r.1 q k} ∩ ⋂ i : ℕ, ⋂ _ : N ≤ i, ⋂ _ : i < k, {r | Covers (stickSeq r.2.2) d r.1 q i}ᶜ := by
      ext r
      simp only [stopEv, hN, true_and, Set.mem_inter_iff, Set.mem_iInter, Set.mem_compl_iff, Set.mem_ofPred_eq]
    rw [e]
    exact (hc k).inter (MeasurableSet.iInter fun i => MeasurableSet.iInter fun _ => MeasurableSet.iInter fun _ => (hc i).compl)
  · have e : {r : (ℕ → ℝ) × Params Atom | r.2.2 ∈ stopEv d r.1 q N k} = ∅ := by
      ext r
      simp [stopEv, hN]
    rw [e]
    exact MeasurableSet.empty

theorem measurable_stoppedDens (hx : Measurable (obsDens lp x)) (hh : Measurable h) (d : Fin n → ℕ) (q : ℕ) : Measurable (fun r : (ℕ → ℝ) × Params Atom => stoppedDens h lp x d q r.1 r.2) := by
  classical
  unfold stoppedDens
  refine Measurable.tsum fun k => Measurable.ite (measurable_stop_pairs d q _ k) (hh.comp ((measurable_partDens hx k).comp measurable_snd)) measurable_const

theorem stoppedDens_of_stop {d : Fin n → ℕ} {q k : ℕ} {U : ℕ → ℝ} {z : Params Atom} (hk : z.2 ∈ stopEv d U q (topLabel (List.ofFn d)) k) : stoppedDens h lp x d q U z = h (partDens lp x k z) := by
  unfold stoppedDens
  rw [tsum_eq_single k fun k' hk' => if_neg fun hc => hk' (stopEv_unique z.2 _ _ hc hk), if_pos hk]

theorem stoppedDens_shift (d : Fin n → ℕ) (q : ℕ) (U : ℕ → ℝ) (z : Params Atom) : stoppedDens h lp x d q U z = stoppedDens h lp x d 0 (fun i => U (q + i)) z := by
  have e : ∀ k, stopEv d U q (topLabel (List.ofFn d)) k = stopEv d (fun i => U (q + i)) 0 (topLabel (List.ofFn d)) k := fun k => by
    unfold stopEv Covers
    simp only [Nat.zero_add]
  unfold stoppedDens
  refine tsum_congr fun k => ?_
  rw [e]

attribute [local irreducible] stoppedDens

theorem measurable_stopped_left (hx : Measurable (obsDens lp x)) (hh : Measurable h) (d : Fin n → ℕ) (q : ℕ) (z : Params Atom) : Measurable (fun U => stoppedDens h lp x d q U z) := by
  have h1 : Measurable (fun U : ℕ → ℝ => (U, z)) := measurable_prodMk_right
  exact (measurable_stoppedDens hx hh d q).comp h1

theorem measurable_stopped_right (hx : Measurable (obsDens lp x)) (hh : Measurable h) (d : Fin n → ℕ) (q : ℕ) (U : ℕ → ℝ) : Measurable (fun z : Params Atom => stoppedDens h lp x d q U z) := by
  have h1 : Measurable (fun z : Params Atom => (U, z)) := measurable_prodMk_left
  exact (measurable_stoppedDens hx hh d q).comp h1

theorem measurable_shownDens (hx : Measurable (obsDens lp x)) (hh : Measurable h) (d : Fin n → ℕ) : Measurable (shownDens (Atom := Atom) h lp x d) :=
  (measurable_stoppedDens hx hh d 0).lintegral_prod_left'

/-- The position in the stream does not matter. -/
theorem lintegral_stoppedDens (hx : Measurable (obsDens lp x)) (hh : Measurable h) (d : Fin n → ℕ) (q : ℕ) (z : Params Atom) : ∫⁻ U, stoppedDens h lp x d q U z ∂streamLaw = shownDens h lp x d z := by
  have hm := measurable_stopped_left hx hh d 0 z
  unfold shownDens
  have hsh : Measurable (fun (u : ℕ → ℝ) (i : ℕ) => u (q + i)) := measurable_pi_lambda _ fun i => measurable_pi_apply (q + i)
  have e := lintegral_map (μ := streamLaw) (f := fun U => stoppedDens h lp x d 0 U z) hm hsh
  rw [stream_shift q] at e
  rw [e]
  exact lintegral_congr fun U => stoppedDens_shift d q U z

variable {f : StickParams} {getV : C0.State → List ℝ} {Inv : C0.State → Prop} {W : World ℝ m Atom} {A : AtomGen m Atom} {y : Fin n → Fin m → ℝ}
  {p : NIW ℝ m} {nz : ℝ → ℝ}

/-- What the object shows: `h` of the density of its current weights and atoms. -/
noncomputable def seenDens (W : World ℝ m Atom) (h : ℝ≥0∞ → ℝ≥0∞) (x : Fin m → ℝ) (s : GM C0.inheritTail m Atom × ℕ) : ℝ≥0∞ := h (ENNReal.ofReal (stateDensity W .none x (runParams s.1)))

/-- The density of weights and atoms that are stored up to `T`. -/
theorem density_stored (hpdf : ∀ a, W.pdf .none x a = botExp (lp x a)) {q : RunParams ℝ Atom} {v : ℕ → ℝ} (hv : ∀ j, 0 ≤ v j ∧ v j ≤ 1) {θ : ℕ → Atom} {T : ℕ} (hw : q.w = (List.range T).map (stickSeq v))
    (hth : ∀ j < T, q.theta.lookup j = some (θ j)) : ENNReal.ofReal (stateDensity W .none x q) = partDens lp x T (θ, v) := by
  unfold stateDensity partDens
  rw [hw, List.length_map, List.length_range, ← List.sum_toFinset _ List.nodup_range, List.toFinset_range]
  have e : ∀ j ∈ Finset.range T, weighted (W.pdf .none) ((List.range T).map (stickSeq v)) q.theta x j = stickSeq v j * botExp (lp x (θ j)) := fun j hj => by
    have hj' := Finset.mem_range.1 hj
    unfold weighted
    rw [hth j hj', List.getElem?_map, List.getElem?_range hj']
    show stickSeq v j * W.pdf .none x (θ j) = _
    rw [hpdf]
  rw [Finset.sum_congr rfl e, ENNReal.ofReal_sum_of_nonneg fun j _ => mul_nonneg (stickSeq_nonneg hv j) (botExp_nonneg _)]
  refine Finset.sum_congr rfl fun j _ => ?_
  rw [ENNReal.ofReal_mul (stickSeq_nonneg hv j)]
  rfl

variable (hlp : ∀ i, Measurable (obsDens lp (y i))) (hx : Measurable (obsDens lp x)) (hh : Measurable h)
variable (hnz : IsGumbel nz) (hW : W.logpdf = lp) (hpdf : ∀ a, W.pdf .none x a = botExp (lp x a)) (hcl : StickClass C0 f getV Inv) (heps : W.eps = 0) (hn : 2 ≤ n) (hex : f.Exhausts) (hcj : Conjugate A lp p)
  (G : RandGen)
include hlp hx hh hnz hW hpdf hcl heps hn hex hcj

/-- **The mean of the density after a step**, added to anything else. -/
theorem stepMean_seen {F : GM C0.inheritTail m Atom × ℕ → ℝ≥0∞} {s : GM C0.inheritTail m Atom × ℕ} {d : Fin n → ℕ} (hs : StickHolds y p Inv s.1 d) :
    stepMean nz W A G (fun s' => seenDens W h x s' + F s') s =
      (∫⁻ v, ∫⁻ θ, shownDens h lp x d (θ, v) ∂(Measure.infinitePi (atomNew A y p d s.1.theta)) ∂(Measure.infinitePi (f.post (List.ofFn d)))) + stepMean nz W A G F s := by
  subst hW
  have hUm := measurable_stoppedDens (Atom := Atom) hx hh d (s.2 + (npUnique (List.ofFn d)).length)
  set q := s.2 + (npUnique (List.ofFn d)).length with hq
  obtain ⟨hvm, hvl⟩ := stickDraw_law f (List.ofFn d) G s.1.wst.2
  obtain ⟨ham, hal⟩ := lazyAtoms_law A y p d s.1.theta s.2
  have hgoodu : ∀ᵐ u ∂G.P, (∀ j, stickDraw f (List.ofFn d) (G.oracle u) s.1.wst.2 j ∈ Set.Ioo (0 : ℝ) 1) ∧ HasSum (stickSeq (stickDraw f (List.ofFn d) (G.oracle u) s.1.wst.2)) 1 := by
    have h1 : ∀ᵐ v ∂(Measure.infinitePi f.prior), (∀ j, v j ∈ Set.Ioo (0 : ℝ) 1) ∧ HasSum (stickSeq v) 1 := by
      filter_upwards [prior_unit f, hex] with v h1 h2 using ⟨h1, h2⟩
    have h2 := (post_ac f (List.ofFn d)).ae_le h1
    rw [← hvl] at h2
    exact ae_of_ae_map hvm.aemeasurable h2
  -- everything as a function of the slice variables, the generator and the draws of the atoms
  let D : (ℕ → ℝ) → (ℕ → G.Seed) → (ℕ → A.Seed) → ℝ≥0∞ := fun U u X => stoppedDens h W.logpdf x d q U (lazyAtoms A y p d s.1.theta s.2 X, stickDraw f (List.ofFn d) (G.oracle u) s.1.wst.2)
  have hD : Measurable (fun r : ((ℕ → ℝ) × (ℕ → G.Seed)) × (ℕ → A.Seed) => D r.1.1 r.1.2 r.2) :=
    hUm.comp ((measurable_fst.comp measurable_fst).prodMk ((ham.comp measurable_snd).prodMk (hvm.comp (measurable_snd.comp measurable_fst))))
  have hD2 : Measurable (fun r : (ℕ → ℝ) × (ℕ → G.Seed) => ∫⁻ X, D r.1 r.2 X ∂(Measure.infinitePi (fun _ : ℕ => A.ν))) := hD.lintegral_prod_right'
  have hD1 : Measurable (fun U : ℕ → ℝ => ∫⁻ u, ∫⁻ X, D U u X ∂(Measure.infinitePi (fun _ : ℕ => A.ν)) ∂G.P) := hD2.lintegral_prod_right'
  have hD3 : ∀ U u, Measurable (D U u) := fun U u => by
    have h1 : Measurable (fun X : ℕ → A.Seed => ((U, u), X)) := measurable_prodMk_left
    exact hD.comp h1
  have hD4 : ∀ U, Measurable (fun u => ∫⁻ X, D U u X ∂(Measure.infinitePi (fun _ : ℕ => A.ν))) := fun U => by
    have h1 : Measurable (fun u : ℕ → G.Seed => (U, u)) := measurable_prodMk_left
    exact hD2.comp h1
  have hsplit : stepMean nz W A G (fun s' => seenDens W h x s' + F s') s = (∫⁻ U, ∫⁻ u, ∫⁻ X, D U u X ∂(Measure.infinitePi (fun _ : ℕ => A.ν)) ∂G.P ∂streamLaw) + stepMean nz W A G F s := by
    unfold stepMean
    rw [← lintegral_add_left hD1]
    refine lintegral_congr_ae ?_
    filter_upwards [stream_unit] with U hU
    rw [← lintegral_add_left (hD4 U)]
    refine lintegral_congr_ae ?_
    filter_upwards [hgoodu] with u ⟨hv, hsum⟩
    rw [← lintegral_add_left (hD3 U u)]
    refine lintegral_congr_ae ?_
    filter_upwards [lazyAtoms_dens (d := d) hlp hcj s.1.theta s.2] with X hX
    have hpos : ∀ j, 0 < stickSeq (stickDraw f (List.ofFn d) (G.oracle u) s.1.wst.2) j := fun j => mul_pos (hv j).1 (Finset.prod_pos fun l _ => by linarith [(hv l).2])
    obtain ⟨k, hk⟩ := stopEv_exists (d := d) (q := q) (N := topLabel (List.ofFn d)) hU hsum fun i => hpos _
    obtain ⟨R, hR1, -, hR3, -, hR5, -⟩ := stick_run_weights hnz hcl heps hn hs X rfl (fun j => ⟨(hv j).1.le, (hv j).2.le⟩) (fun i => hpos _) rfl hX hU rfl hk.1 hk.2.1 hk.2.2
    have hsup : ∀ (F : GM C0.inheritTail m Atom × ℕ → ℝ≥0∞) (g : ℕ → ℝ), ⨆ k : ℕ, outcome F (gibbsStep (withNoise (withSlices (withAtoms W A X) (fun _ => k) U) (fun i => nz (g i))) (G.oracle u) s) =
        F (R fun i => nz (g i)) := fun F g =>
      iSup_outcome (W0 := withNoise (withSlices (withAtoms W A X) (fun _ => 0) U) (fun i => nz (g i))) (fun _ => rfl) (fun k' hk' => hR1 k' hk' _) _
    simp only [hsup]
    have hseen : ∀ g, seenDens W h x (R g) = D U u X := fun g => by
      show h _ = stoppedDens _ _ _ _ _ _ _
      rw [stoppedDens_of_stop (z := (lazyAtoms A y p d s.1.theta s.2 X, stickDraw f (List.ofFn d) (G.oracle u) s.1.wst.2)) hk,
        density_stored (q := runParams (R g).1) hpdf (fun j => ⟨(hv j).1.le, (hv j).2.le⟩) (hR5 g) fun j hj => by
          show (R g).1.theta.lookup j = _
          rw [hR3 g j, if_pos (.inl hj)]]
    simp only [hseen]
    rw [lintegral_add_left measurable_const, lintegral_const, measure_univ, mul_one]
  rw [hsplit]
  congr 1
  have e1 : ∀ U, ∫⁻ u, ∫⁻ X, D U u X ∂(Measure.infinitePi (fun _ : ℕ => A.ν)) ∂G.P =
      ∫⁻ v, ∫⁻ θ, stoppedDens h W.logpdf x d q U (θ, v) ∂(Measure.infinitePi (atomNew A y p d s.1.theta)) ∂(Measure.infinitePi (f.post (List.ofFn d))) := fun U => by
    have hz : Measurable (fun z : Params Atom => stoppedDens h W.logpdf x d q U z) := measurable_stopped_right hx hh d q U
    have hzv : ∀ v : ℕ → ℝ, Measurable (fun θ : ℕ → Atom => stoppedDens h W.logpdf x d q U (θ, v)) := fun v => hz.comp (measurable_id.prodMk measurable_const)
    have e2 : ∀ u, ∫⁻ X, D U u X ∂(Measure.infinitePi (fun _ : ℕ => A.ν)) =
        (fun v => ∫⁻ θ, stoppedDens h W.logpdf x d q U (θ, v) ∂(Measure.infinitePi (atomNew A y p d s.1.theta))) (stickDraw f (List.ofFn d) (G.oracle u) s.1.wst.2) := fun u => by
      simp only []
      rw [← hal, lintegral_map (hzv _) ham]
    simp_rw [e2]
    have hmv : Measurable (fun v => ∫⁻ θ, stoppedDens h W.logpdf x d q U (θ, v) ∂(Measure.infinitePi (atomNew A y p d s.1.theta))) := hz.lintegral_prod_left'
    rw [← lintegral_map hmv hvm, hvl]
  simp_rw [e1]
  have hm3 : Measurable (fun z : ((ℕ → ℝ) × (ℕ → ℝ)) × (ℕ → Atom) => stoppedDens h W.logpdf x d q z.1.1 (z.2, z.1.2)) :=
    hUm.comp ((measurable_fst.comp measurable_fst).prodMk (measurable_snd.prodMk (measurable_snd.comp measurable_fst)))
  have hm2 : Measurable (fun z : (ℕ → ℝ) × (ℕ → ℝ) => ∫⁻ θ, stoppedDens h W.logpdf x d q z.1 (θ, z.2) ∂(Measure.infinitePi (atomNew A y p d s.1.theta))) := hm3.lintegral_prod_right'
  refine (lintegral_lintegral_swap (f := fun U v => ∫⁻ θ, stoppedDens h W.logpdf x d q U (θ, v) ∂(Measure.infinitePi (atomNew A y p d s.1.theta))) hm2.aemeasurable).trans ?_
  refine lintegral_congr fun v => ?_
  have hm4 : Measurable (fun z : (ℕ → ℝ) × (ℕ → Atom) => stoppedDens h W.logpdf x d q z.1 (z.2, v)) := hUm.comp (measurable_fst.prodMk (measurable_snd.prodMk measurable_const))
  refine (lintegral_lintegral_swap (f := fun U θ => stoppedDens h W.logpdf x d q U (θ, v)) hm4.aemeasurable).trans ?_
  exact lintegral_congr fun θ => lintegral_stoppedDens hx hh d q (θ, v)

end

/-! ### As a function of labels, atoms and sticks -/

section
variable {lp : (Fin m → ℝ) → Atom → WithBot ℝ} {x : Fin m → ℝ} {h : ℝ≥0∞ → ℝ≥0∞} {f : StickParams} {getV : C0.State → List ℝ} {Inv : C0.State → Prop} {W : World ℝ m Atom} {A : AtomGen m Atom}
  {y : Fin n → Fin m → ℝ} {p : NIW ℝ m} {nz : ℝ → ℝ}

/-- The mean of the density after a step from labels, atoms and sticks. -/
noncomputable def shownKer (A : AtomGen m Atom) (lp : (Fin m → ℝ) → Atom → WithBot ℝ) (p : NIW ℝ m) (f : StickParams) (y : Fin n → Fin m → ℝ) (h : ℝ≥0∞ → ℝ≥0∞) (x : Fin m → ℝ) (d : Fin n → ℕ) (z : Params Atom) : ℝ≥0∞ :=
  stepKernel A lp p f y (fun _ z => shownDens h lp x d z) d z

theorem post_open (hex : f.Exhausts) (d : Fin n → ℕ) : ∀ᵐ v ∂(Measure.infinitePi (f.post (List.ofFn d))), (∀ j, v j ∈ Set.Ioo (0 : ℝ) 1) ∧ HasSum (stickSeq v) 1 := by
  have h1 : ∀ᵐ v ∂(Measure.infinitePi f.prior), (∀ j, v j ∈ Set.Ioo (0 : ℝ) 1) ∧ HasSum (stickSeq v) 1 := by
    filter_upwards [prior_unit f, hex] with v h1 h2 using ⟨h1, h2⟩
  exact (post_ac f _).ae_le h1

theorem stickSeq_pos {v : ℕ → ℝ} (hv : ∀ j, v j ∈ Set.Ioo (0 : ℝ) 1) (j : ℕ) : 0 < stickSeq v j := mul_pos (hv j).1 (Finset.prod_pos fun l _ => by linarith [(hv l).2])

variable (hlp : ∀ i, Measurable (obsDens lp (y i))) (hden : ∀ i a, lp (y i) a ≠ ⊥) (hex : f.Exhausts)
include hlp hden

/-- A label step does not change a function of atoms and sticks. -/
theorem labelStep_fixed (d : Fin n → ℕ) {z : Params Atom} (hv : ∀ j, z.2 j ∈ Set.Ioo (0 : ℝ) 1) (hsum : HasSum (stickSeq z.2) 1) (H : Params Atom → ℝ≥0∞) : labelStep lp y (fun _ z => H z) d z = H z := by
  unfold labelStep
  rw [ENNReal.tsum_mul_left, tsum_labelKer_one hlp d hsum (fun _ => stickSeq_pos hv _) fun i => hden i _, mul_one]

include hex

theorem stepKernel_add_const (c : ℝ≥0∞) (φ : (Fin n → ℕ) → Params Atom → ℝ≥0∞) : stepKernel A lp p f y (fun d z => c + φ d z) = fun d z => c + stepKernel A lp p f y φ d z := by
  funext d z
  unfold stepKernel
  have e : ∀ᵐ v ∂(Measure.infinitePi (f.post (List.ofFn d))), ∫⁻ θ, labelStep lp y (fun d z => c + φ d z) d (mixSeq (fun j => j ∈ List.ofFn d) θ z.1, v) ∂(Measure.infinitePi (atomNew A y p d [])) =
      c + ∫⁻ θ, labelStep lp y φ d (mixSeq (fun j => j ∈ List.ofFn d) θ z.1, v) ∂(Measure.infinitePi (atomNew A y p d [])) := by
    filter_upwards [post_open hex d] with v ⟨hv, hsum⟩
    have e2 : ∀ θ, labelStep lp y (fun d z => c + φ d z) d (mixSeq (fun j => j ∈ List.ofFn d) θ z.1, v) = c + labelStep lp y φ d (mixSeq (fun j => j ∈ List.ofFn d) θ z.1, v) := fun θ => by
      unfold labelStep
      simp_rw [add_mul]
      rw [ENNReal.tsum_add, ENNReal.tsum_mul_left, tsum_labelKer_one hlp d (z := (mixSeq (fun j => j ∈ List.ofFn d) θ z.1, v)) hsum (fun _ => stickSeq_pos hv _) fun i => hden i _, mul_one]
    simp_rw [e2]
    rw [lintegral_add_left measurable_const, lintegral_const, measure_univ, mul_one]
  rw [lintegral_congr_ae e, lintegral_add_left measurable_const, lintegral_const, measure_univ, mul_one]

theorem iterate_add_const (c : ℝ≥0∞) (φ : (Fin n → ℕ) → Params Atom → ℝ≥0∞) (k : ℕ) : (stepKernel A lp p f y)^[k] (fun d z => c + φ d z) = fun d z => c + (stepKernel A lp p f y)^[k] φ d z := by
  induction k with
  | zero => rfl
  | succ k ih => rw [Function.iterate_succ_apply', Function.iterate_succ_apply', ih, stepKernel_add_const hlp hden hex]

omit hden hex in
theorem measurable_shownKer (hx : Measurable (obsDens lp x)) (hh : Measurable h) (d : Fin n → ℕ) : Measurable (shownKer A lp p f y h x d) :=
  measurable_stepKernel hlp (fun _ => measurable_shownDens hx hh d) d

/-- The mean over atoms and sticks, as a mean for the stored atoms and sticks. -/
theorem held_shown (hx : Measurable (obsDens lp x)) (hh : Measurable h) {s : GM C0.inheritTail m Atom × ℕ} {d : Fin n → ℕ} (hs : StickHolds y p Inv s.1 d) :
    ∫⁻ v, ∫⁻ θ, shownDens h lp x d (θ, v) ∂(Measure.infinitePi (atomNew A y p d s.1.theta)) ∂(Measure.infinitePi (f.post (List.ofFn d))) = heldMean A p f getV (shownKer A lp p f y h x) s := by
  have e1 : heldMean A p f getV (shownKer A lp p f y h x) s = heldMean A p f getV (stepKernel A lp p f y (fun _ z => shownDens h lp x d z)) s := by
    unfold heldMean
    rw [hs.2.1, labelsOf_ofFn]
    rfl
  rw [e1, heldMean_stepKernel hlp (fun _ => measurable_shownDens hx hh d) hs]
  refine lintegral_congr_ae ?_
  filter_upwards [post_open hex d] with v ⟨hv, hsum⟩
  exact lintegral_congr fun θ => (labelStep_fixed hlp hden d (z := (θ, v)) hv hsum _).symm

theorem posterior_good (hcj : Conjugate A lp p) (d : Fin n → ℕ) : ∀ᵐ z ∂(stickPosterior A lp p f y d), (∀ j, z.2 j ∈ Set.Ioo (0 : ℝ) 1) ∧ HasSum (stickSeq z.2) 1 := by
  obtain ⟨c, -, -, -, hc⟩ := stickJoint_eq (f := f) hlp hcj d
  unfold stickPosterior
  rw [hc]
  refine Measure.ae_smul_measure (Measure.ae_smul_measure ?_ _) _
  exact Measure.quasiMeasurePreserving_snd.ae (post_open hex d)

/-- Its posterior mean. -/
theorem postMean_shown (hx : Measurable (obsDens lp x)) (hh : Measurable h) (hcj : Conjugate A lp p) : postMean A lp p f y (shownKer A lp p f y h x) = postMean A lp p f y (shownDens h lp x) := by
  unfold postMean
  refine tsum_congr fun d => ?_
  have hL := measurable_labelStep hlp (φ := fun _ z => shownDens h lp x d z) (fun _ => measurable_shownDens hx hh d) d
  have hK : Measurable (shownKer A lp p f y h x d) := measurable_shownKer hlp hx hh d
  have e1 : ∫⁻ z, shownKer A lp p f y h x d z ∂(stickPosterior A lp p f y d) = ∫⁻ z, labelStep lp y (fun _ z => shownDens h lp x d z) d z ∂(stickPosterior A lp p f y d) := by
    obtain ⟨c, -, -, -, hc⟩ := stickJoint_eq (f := f) hlp hcj d
    unfold stickPosterior
    rw [hc]
    simp only [lintegral_smul_measure]
    congr 2
    rw [lintegral_prod_symm _ hK.aemeasurable, lintegral_prod_symm _ hL.aemeasurable]
    unfold shownKer
    simp_rw [stepKernel_mean hlp (fun _ => measurable_shownDens hx hh d) d (atomNew A y p d []) (atomNew A y p d []) (fun _ _ => rfl) (fun _ _ => rfl)]
    rw [lintegral_const, measure_univ, mul_one]
  rw [e1]
  refine lintegral_congr_ae ?_
  filter_upwards [posterior_good hlp hden hex hcj d] with z ⟨hv, hsum⟩
  exact labelStep_fixed hlp hden d hv hsum _

end

end Verif.Mix
