import Verif.Lemmas.FinRun

/-! # The mean of a Gibbs step of a mixture with finitely many components -/

namespace Verif.Mix.FinMix
open MeasureTheory ProbabilityTheory GM Spec
open scoped ENNReal

set_option linter.unusedSectionVars false

/-- Reading some coordinates of an infinite product. -/
theorem infinitePi_coords {X ι κ : Type*} [MeasurableSpace X] (μ : ι → Measure X) [∀ j, IsProbabilityMeasure (μ j)] (e : κ → ι) (he : Function.Injective e) :
    (Measure.infinitePi μ).map (fun x j => x (e j)) = Measure.infinitePi (fun j => μ (e j)) := by
  classical
  have hm : Measurable (fun (x : ι → X) (j : κ) => x (e j)) := measurable_pi_lambda _ fun j => measurable_pi_apply _
  refine Measure.eq_infinitePi _ fun r t hmt => ?_
  have hms : MeasurableSet (Set.pi (r : Set κ) t) := MeasurableSet.pi (Finset.countable_toSet r) fun j _ => hmt j
  rw [Measure.map_apply hm hms]
  have hs : (fun (x : ι → X) (j : κ) => x (e j)) ⁻¹' (Set.pi (r : Set κ) t) = Set.pi (r.map ⟨e, he⟩ : Finset ι) (fun i => if h : ∃ j, e j = i then t h.choose else Set.univ) := by
    ext x
    simp only [Set.mem_preimage, Set.mem_pi, Finset.mem_coe, Finset.mem_map, Function.Embedding.coeFn_mk, forall_exists_index, and_imp, forall_apply_eq_imp_iff₂]
    refine forall_congr' fun j => forall_congr' fun _ => ?_
    have hex : ∃ j', e j' = e j := ⟨j, rfl⟩
    rw [dif_pos hex, he hex.choose_spec]
  rw [hs, Measure.infinitePi_pi _ (fun i hi => ?_), Finset.prod_map]
  · refine Finset.prod_congr rfl fun j _ => ?_
    simp only [Function.Embedding.coeFn_mk]
    have hex : ∃ j', e j' = e j := ⟨j, rfl⟩
    rw [dif_pos hex, he hex.choose_spec]
  · split
    · exact hmt _
    · exact MeasurableSet.univ

variable {N m n : ℕ} [NeZero N] {Atom : Type} [MeasurableSpace Atom] {C0 : WeightCore ℝ}

/-- The atoms and weights of `N` components. -/
abbrev FParams (N : ℕ) (Atom : Type) : Type := (Fin N → Atom) × (Fin N → ℝ)

/-- Labels as numbers. -/
abbrev nat (d : Fin n → Fin N) : Fin n → ℕ := fun i => (d i : ℕ)

section kernel
variable (lp : (Fin m → ℝ) → Atom → WithBot ℝ) (y : Fin n → Fin m → ℝ) (d δ : Fin n → Fin N)

/-- The probability of the labels `δ` for given slice variables. -/
noncomputable def sliceKer (q : ℕ) (U : ℕ → ℝ) (z : FParams N Atom) : ℝ≥0∞ :=
  ∏ i, sliceKernel (wseq z.2) (dens lp (aseq (NeZero.pos N) z.1) (y i)) (z.2 (d i) * U (q + i)) (δ i)

/-- The probability of the labels `δ`. -/
noncomputable def labelKer (z : FParams N Atom) : ℝ≥0∞ := labelKernel lp (NeZero.pos N) y d δ z

variable {lp y} (hlp : ∀ i, Measurable (obsDens lp (y i)))
include hlp

theorem measurable_factor (i : Fin n) (a b : Fin N) :
    Measurable fun q : FParams N Atom × ℝ => sliceKernel (wseq q.1.2) (dens lp (aseq (NeZero.pos N) q.1.1) (y i)) (q.1.2 a * q.2) b := by
  have hterm : ∀ k : ℕ, Measurable fun q : FParams N Atom × ℝ => if q.1.2 a * q.2 < wseq q.1.2 k then dens lp (aseq (NeZero.pos N) q.1.1) (y i) k else 0 := by
    intro k
    refine Measurable.ite (measurableSet_lt ?_ ?_) ?_ measurable_const
    · exact ((measurable_pi_apply a).comp (measurable_snd.comp measurable_fst)).mul measurable_snd
    · exact (measurable_wseq k).comp (measurable_snd.comp measurable_fst)
    · exact (hlp i).comp ((measurable_aseq _ k).comp (measurable_fst.comp measurable_fst))
  unfold sliceKernel sliceMass
  exact (hterm b).div (Measurable.tsum hterm)

theorem measurable_sliceKer (q : ℕ) : Measurable fun x : (ℕ → ℝ) × FParams N Atom => sliceKer lp y d δ q x.1 x.2 := by
  unfold sliceKer
  refine Finset.measurable_prod _ fun i _ => ?_
  exact (measurable_factor hlp i (d i) (δ i)).comp (measurable_snd.prodMk ((measurable_pi_apply _).comp measurable_fst))

theorem measurable_sliceKer_left (q : ℕ) (z : FParams N Atom) : Measurable fun U : ℕ → ℝ => sliceKer lp y d δ q U z := by
  have hpair : Measurable (fun U : ℕ → ℝ => (U, z)) := measurable_id.prodMk measurable_const
  have h := (measurable_sliceKer d δ hlp q).comp hpair
  rwa [Function.comp_def] at h

theorem measurable_labelKer : Measurable (labelKer lp y d δ) := measurable_labelKernel hlp _ d δ

omit hlp [MeasurableSpace Atom] in
theorem lintegral_sliceKer (q : ℕ) (z : FParams N Atom) : ∫⁻ U, sliceKer lp y d δ q U z ∂streamLaw = labelKer lp y d δ z := by
  have hm : ∀ i : Fin n, Measurable (fun x => sliceKernel (wseq z.2) (dens lp (aseq (NeZero.pos N) z.1) (y i)) (z.2 (d i) * x) (δ i)) := fun i =>
    (measurable_sliceKernel _ _ (δ i)).comp (measurable_const_mul _)
  have hind : iIndepFun (fun (i : Fin n) (U : ℕ → ℝ) => sliceKernel (wseq z.2) (dens lp (aseq (NeZero.pos N) z.1) (y i)) (z.2 (d i) * U (q + i)) (δ i)) streamLaw :=
    (streamLaw_indep.precomp (g := fun i : Fin n => q + i) (fun a b h => Fin.ext (by simpa using h))).comp _ hm
  unfold sliceKer labelKer labelKernel
  rw [lintegral_prod_eq_prod_lintegral_of_indepFun Finset.univ _ hind fun i => (hm i).comp (measurable_pi_apply _)]
  refine Finset.prod_congr rfl fun i _ => ?_
  rw [← Measure.infinitePi_map_eval (fun _ : ℕ => unifLaw) (q + i), lintegral_map (hm i) (measurable_pi_apply _)]
  rfl

omit hlp [MeasurableSpace Atom]

theorem finite_wseq (w : Fin N → ℝ) (t : ℝ) (ht : 0 ≤ t) : {j | t < wseq w j}.Finite := (Set.finite_Iio N).subset fun j hj => by
  by_contra h
  have : t < wseq w j := hj
  rw [wseq_of_le _ (not_lt.1 h)] at this
  exact absurd this (not_lt.2 ht)

theorem tsum_wseq {w : Fin N → ℝ} {F : ℕ → ℝ≥0∞} {t : ℝ} (ht : 0 ≤ t) : sliceMass (wseq w) F t = ∑ j : Fin N, if t < w j then F j else 0 := by
  unfold sliceMass
  rw [tsum_eq_sum (s := Finset.range N) (fun j hj => by rw [wseq_of_le _ (by simpa using hj), if_neg (not_lt.2 ht)]), Finset.sum_range]
  simp only [wseq_fin]

/-- The probabilities of the labels sum to one. -/
theorem sum_sliceKer {q : ℕ} {U : ℕ → ℝ} (hU : ∀ p, 0 < U p ∧ U p < 1) {z : FParams N Atom} (hpos : ∀ j, 0 < z.2 j)
    (hden : ∀ i, lp (y i) (z.1 (d i)) ≠ ⊥) : ∑ δ, sliceKer lp y d δ q U z = 1 := by
  unfold sliceKer
  rw [← Fintype.piFinset_univ, ← Finset.prod_univ_sum (fun _ => Finset.univ) (fun i (j : Fin N) => sliceKernel (wseq z.2) (dens lp (aseq (NeZero.pos N) z.1) (y i)) (z.2 (d i) * U (q + i)) j)]
  refine Finset.prod_eq_one fun i _ => ?_
  have hlev : 0 ≤ z.2 (d i) * U (q + i) := (mul_pos (hpos _) (hU _).1).le
  unfold sliceKernel
  rw [tsum_wseq hlev]
  simp_rw [wseq_fin, div_eq_mul_inv]
  rw [← Finset.sum_mul]
  have hlt : z.2 (d i) * U (q + i) < z.2 (d i) := by
    have := mul_lt_mul_of_pos_left (hU (q + i)).2 (hpos (d i))
    rwa [mul_one] at this
  refine ENNReal.mul_inv_cancel (fun h0 => ?_) (ENNReal.sum_ne_top.2 fun j _ => ?_)
  · have := Finset.sum_eq_zero_iff.1 h0 (d i) (Finset.mem_univ _)
    rw [if_pos hlt, dens, aseq_fin] at this
    exact (ENNReal.ofReal_pos.2 (botExp_pos (hden i))).ne' this
  · split
    · exact ENNReal.ofReal_ne_top
    · exact ENNReal.zero_ne_top

/-- Atoms beyond the last component do not matter. -/
theorem sliceKernel_aseq (w : Fin N → ℝ) (θ : ℕ → Atom) (x : Fin m → ℝ) {t : ℝ} (ht : 0 ≤ t) (j : Fin N) :
    sliceKernel (wseq w) (dens lp θ x) t j = sliceKernel (wseq w) (dens lp (aseq (NeZero.pos N) fun i : Fin N => θ i) x) t j := by
  unfold sliceKernel
  rw [tsum_wseq ht, tsum_wseq ht]
  simp only [dens, aseq_fin]

end kernel

/-! ### The mean of a step -/

/-- The stored labels. -/
def labelsF (N n : ℕ) [NeZero N] (l : List ℕ) : Fin n → Fin N := fun i => Fin.ofNat N ((l[(i : ℕ)]?).getD 0)

theorem labelsF_ofFn (d : Fin n → Fin N) : labelsF N n (List.ofFn (nat d)) = d := by
  funext i
  simp [labelsF]

/-- The stored atoms, and `x` for the others. -/
def extF (th : List (ℕ × Atom)) (x : Fin N → Atom) (j : Fin N) : Atom := (th.lookup (j : ℕ)).getD (x j)

/-- The mean of `φ` for the labels, atoms and weights of an object, when those atoms that it does not store are drawn from the prior. -/
noncomputable def heldMean (A : AtomGen m Atom) (p : NIW ℝ m) (φ : (Fin n → Fin N) → FParams N Atom → ℝ≥0∞) (s : GM C0.inheritTail m Atom × ℕ) : ℝ≥0∞ :=
  ∫⁻ x, φ (labelsF N n s.1.d) (extF s.1.theta x, vec N (C0.getW s.1.wst.1)) ∂(Measure.infinitePi (fun _ : Fin N => A.law p))

/-- The label step: mean of `φ` over the new labels. -/
noncomputable def labelStep (lp : (Fin m → ℝ) → Atom → WithBot ℝ) (y : Fin n → Fin m → ℝ) (φ : (Fin n → Fin N) → FParams N Atom → ℝ≥0∞) (d : Fin n → Fin N) (z : FParams N Atom) : ℝ≥0∞ :=
  ∑ δ, φ δ z * labelKer lp y d δ z

/-- The law of the atoms that a step uses. -/
noncomputable def atomF (A : AtomGen m Atom) (y : Fin n → Fin m → ℝ) (p : NIW ℝ m) (d : Fin n → Fin N) (th : List (ℕ × Atom)) (j : Fin N) : Measure Atom := atomNew A y p (nat d) th j

instance (A : AtomGen m Atom) (y : Fin n → Fin m → ℝ) (p : NIW ℝ m) (d : Fin n → Fin N) (th : List (ℕ × Atom)) (j : Fin N) : IsProbabilityMeasure (atomF A y p d th j) := by
  unfold atomF
  infer_instance

theorem vec_ofFn (w : Fin N → ℝ) : vec N (List.ofFn w) = w := by
  funext j
  simp [vec]

theorem FinPrior.post_ac (f : FinPrior N) (d : Fin n → Fin N) : f.post (List.ofFn (nat d)) ≪ f.prior := by
  obtain ⟨c, hc0, -, h⟩ := f.conj d
  have h1 : c • f.post (List.ofFn (nat d)) ≪ f.prior := by rw [← h]; exact withDensity_absolutelyContinuous _ _
  exact (Measure.absolutelyContinuous_smul hc0).trans h1

theorem FinPrior.post_good (f : FinPrior N) (d : Fin n → Fin N) : ∀ᵐ w ∂f.post (List.ofFn (nat d)), (∀ j, 0 < w j) ∧ ∑ j, w j = 1 := (f.post_ac d).ae_le f.good

section step
variable {lp : (Fin m → ℝ) → Atom → WithBot ℝ} {f : FinPrior N} {drawW : List ℕ → Oracle ℝ → ℕ → Fin N → ℝ} {Inv : C0.State → Prop} {W : World ℝ m Atom} {A : AtomGen m Atom} {y : Fin n → Fin m → ℝ}
  {p : NIW ℝ m} {d : Fin n → Fin N} {s : GM C0.inheritTail m Atom × ℕ} {nz : ℝ → ℝ}

/-- The law of the atoms that a step uses. -/
theorem atoms_law (A : AtomGen m Atom) (y : Fin n → Fin m → ℝ) (p : NIW ℝ m) (d : Fin n → Fin N) (th : List (ℕ × Atom)) (pos : ℕ) :
    Measurable (fun X => (fun j : Fin N => lazyAtoms A y p (nat d) th pos X j)) ∧
    (Measure.infinitePi (fun _ : ℕ => A.ν)).map (fun X => (fun j : Fin N => lazyAtoms A y p (nat d) th pos X j)) = Measure.infinitePi (atomF A y p d th) := by
  obtain ⟨h1, h2⟩ := lazyAtoms_law A y p (nat d) th pos
  have hm : Measurable (fun (x : ℕ → Atom) (j : Fin N) => x j) := measurable_pi_lambda _ fun j => measurable_pi_apply _
  refine ⟨hm.comp h1, ?_⟩
  have h3 := infinitePi_coords (atomNew A y p (nat d) th) (fun j : Fin N => (j : ℕ)) (fun a b h => Fin.ext h)
  rw [← h2, Measure.map_map hm h1] at h3
  exact h3

variable (hlp : ∀ i, Measurable (obsDens lp (y i)))
include hlp

variable (hnz : IsGumbel nz) (hW : W.logpdf = lp) (hcl : FinClass C0 f drawW Inv) (heps : W.eps = 0) (hn : 2 ≤ n)
include hnz hW hcl heps hn

/-- The mean over the Gumbel noise. -/
theorem noise_mean (φ : (Fin n → Fin N) → FParams N Atom → ℝ≥0∞) (h : FinHolds y p Inv s.1 d) {ω : Oracle ℝ} (hω : ω.Legal) {X : ℕ → A.Seed} {w : Fin N → ℝ}
    (hw' : w = drawW (List.ofFn (nat d)) ω s.1.wst.2) (hw : ∀ j, 0 < w j) (hw1 : ∑ j, w j = 1) {θ : ℕ → Atom} (hθ : θ = lazyAtoms A y p (nat d) s.1.theta s.2 X)
    (hden : ∀ i, lp (y i) (θ (d i)) ≠ ⊥) {U : ℕ → ℝ} (hU : ∀ p, 0 < U p ∧ U p < 1) {q : ℕ} (hq : q = s.2 + (npUnique (List.ofFn (nat d))).length) :
    ∫⁻ g, ⨆ k : ℕ, outcome (heldMean A p φ) (gibbsStep (withNoise (withSlices (withAtoms W A X) (fun _ => k) U) (fun i => nz (g i))) ω s) ∂streamLaw =
      ∑ δ, φ δ (fun j => θ j, w) * sliceKer lp y d δ q U (fun j => θ j, w) := by
  subst hW
  obtain ⟨R, hR1, hR2, hR3, hR4, hR5⟩ := fin_run hnz hcl hω heps hn h (fun i => (d i).2) X hw' hw hw1 hθ hden hU hq
  have hsup : ∀ g : ℕ → ℝ, ⨆ k : ℕ, outcome (heldMean A p φ) (gibbsStep (withNoise (withSlices (withAtoms W A X) (fun _ => k) U) (fun i => nz (g i))) ω s) =
      heldMean A p φ (R fun i => nz (g i)) := fun g =>
    iSup_outcome (W0 := withNoise (withSlices (withAtoms W A X) (fun _ => 0) U) (fun i => nz (g i))) (fun _ => rfl) (fun k' hk' => hR1 k' hk' _) _
  simp_rw [hsup]
  have hH : ∀ g : ℕ → ℝ, heldMean A p φ (R fun i => nz (g i)) = (fun δ => φ δ (fun j => θ j, w)) (labelsF N n (R fun i => nz (g i)).1.d) := by
    intro g
    have hext : ∀ x, extF (R fun i => nz (g i)).1.theta x = fun j : Fin N => θ j := fun x => by
      funext j
      unfold extF
      rw [hR3 _ j j.2]
      rfl
    unfold heldMean
    simp_rw [hext, hR4, vec_ofFn]
    rw [lintegral_const, measure_univ, mul_one]
  simp_rw [hH]
  have hset : ∀ δ, {g : ℕ → ℝ | labelsF N n (R fun i => nz (g i)).1.d = δ} = {g | (R fun i => nz (g i)).1.d = List.ofFn (nat δ)} := by
    intro δ
    ext g
    obtain ⟨δ', hδ'⟩ := hR2 fun i => nz (g i)
    simp only [Set.mem_ofPred_eq]
    rw [hδ'.2.1, labelsF_ofFn]
    exact ⟨fun e => by rw [e], fun e => by have := congrArg (labelsF N n) e; rwa [labelsF_ofFn, labelsF_ofFn] at this⟩
  have hprob : ∀ δ, streamLaw {g : ℕ → ℝ | labelsF N n (R fun i => nz (g i)).1.d = δ} = sliceKer W.logpdf y d δ q U (fun j => θ j, w) := fun δ => by
    rw [hset, hR5 (nat δ)]
    refine Finset.prod_congr rfl fun i _ => ?_
    rw [wseq_fin]
    exact sliceKernel_aseq w θ (y i) (mul_pos (hw _) (hU _).1).le (δ i)
  have hsum : ∑' δ, streamLaw {g : ℕ → ℝ | labelsF N n (R fun i => nz (g i)).1.d = δ} = 1 := by
    simp_rw [hprob]
    rw [tsum_fintype]
    exact sum_sliceKer d hU (z := (fun j => θ j, w)) hw hden
  rw [lintegral_discrete streamLaw (fun g : ℕ → ℝ => labelsF N n (R fun i => nz (g i)).1.d) hsum (fun δ => φ δ (fun j => θ j, w)), tsum_fintype]
  simp_rw [hprob]

variable (hcj : Conjugate A lp p) (G : RandGen)
include hcj

/-- **The mean of a step.** -/
theorem stepMean_held {φ : (Fin n → Fin N) → FParams N Atom → ℝ≥0∞} (hφ : ∀ δ, Measurable (φ δ)) (h : FinHolds y p Inv s.1 d) :
    stepMean nz W A G (heldMean A p φ) s = ∫⁻ w, ∫⁻ θ, labelStep lp y φ d (θ, w) ∂(Measure.infinitePi (atomF A y p d s.1.theta)) ∂(f.post (List.ofFn (nat d))) := by
  classical
  set q := s.2 + (npUnique (List.ofFn (nat d))).length with hq
  let hU : (ℕ → ℝ) → FParams N Atom → ℝ≥0∞ := fun U z => ∑ δ, φ δ z * sliceKer lp y d δ q U z
  have hUm : Measurable (fun x : (ℕ → ℝ) × FParams N Atom => hU x.1 x.2) := by
    refine Finset.measurable_sum _ fun δ _ => ?_
    exact ((hφ δ).comp measurable_snd).mul (measurable_sliceKer d δ hlp q)
  have hUz : ∀ U, Measurable (hU U) := fun U => hUm.comp (measurable_const.prodMk measurable_id)
  have hdN : ∀ j ∈ List.ofFn (nat d), j < N := fun j hj => by
    obtain ⟨i, rfl⟩ := (List.mem_ofFn' _ _).1 hj
    exact (d i).2
  obtain ⟨hvm, hvl⟩ := hcl.law G (List.ofFn (nat d)) s.1.wst.2 hdN
  obtain ⟨ham, hal⟩ := atoms_law A y p d s.1.theta s.2
  have hgoodu : ∀ᵐ u ∂G.P, (∀ j, 0 < drawW (List.ofFn (nat d)) (G.oracle u) s.1.wst.2 j) ∧ ∑ j, drawW (List.ofFn (nat d)) (G.oracle u) s.1.wst.2 j = 1 := by
    have hgood := f.post_good d
    rw [← hvl] at hgood
    exact ae_of_ae_map hvm.aemeasurable hgood
  -- for given slice variables
  have hmain : ∀ U : ℕ → ℝ, (∀ p, 0 < U p ∧ U p < 1) →
      ∫⁻ u, ∫⁻ X, ∫⁻ g, ⨆ k : ℕ, outcome (heldMean A p φ) (gibbsStep (withNoise (withSlices (withAtoms W A X) (fun _ => k) U) (fun i => nz (g i))) (G.oracle u) s)
        ∂streamLaw ∂(Measure.infinitePi (fun _ : ℕ => A.ν)) ∂G.P =
      ∫⁻ w, ∫⁻ θ, hU U (θ, w) ∂(Measure.infinitePi (atomF A y p d s.1.theta)) ∂(f.post (List.ofFn (nat d))) := by
    intro U hU01
    let H : (Fin N → ℝ) → ℝ≥0∞ := fun w => ∫⁻ θ, hU U (θ, w) ∂(Measure.infinitePi (atomF A y p d s.1.theta))
    have hHm : Measurable H := (hUz U).lintegral_prod_left'
    have hu : ∀ᵐ u ∂G.P, ∫⁻ X, ∫⁻ g, ⨆ k : ℕ, outcome (heldMean A p φ) (gibbsStep (withNoise (withSlices (withAtoms W A X) (fun _ => k) U) (fun i => nz (g i))) (G.oracle u) s)
        ∂streamLaw ∂(Measure.infinitePi (fun _ : ℕ => A.ν)) = H (drawW (List.ofFn (nat d)) (G.oracle u) s.1.wst.2) := by
      filter_upwards [hgoodu] with u ⟨hw, hsum⟩
      set w := drawW (List.ofFn (nat d)) (G.oracle u) s.1.wst.2 with hwdef
      have h1 : ∫⁻ X, ∫⁻ g, ⨆ k : ℕ, outcome (heldMean A p φ) (gibbsStep (withNoise (withSlices (withAtoms W A X) (fun _ => k) U) (fun i => nz (g i))) (G.oracle u) s)
          ∂streamLaw ∂(Measure.infinitePi (fun _ : ℕ => A.ν)) =
          ∫⁻ X, (fun θ => hU U (θ, w)) (fun j : Fin N => lazyAtoms A y p (nat d) s.1.theta s.2 X j) ∂(Measure.infinitePi (fun _ : ℕ => A.ν)) := by
        refine lintegral_congr_ae ?_
        filter_upwards [lazyAtoms_dens (d := nat d) hlp hcj s.1.theta s.2] with X hX
        exact noise_mean hlp hnz hW hcl heps hn φ h (G.oracle_legal u) hwdef hw hsum rfl hX hU01 hq
      have hm1 : Measurable (fun θ : Fin N → Atom => hU U (θ, w)) := (hUz U).comp (measurable_id.prodMk measurable_const)
      rw [h1, ← lintegral_map hm1 ham, hal]
    rw [lintegral_congr_ae hu, ← lintegral_map hHm hvm, hvl]
  unfold stepMean
  have e1 : ∀ᵐ U ∂streamLaw, ∫⁻ u, ∫⁻ X, ∫⁻ g, ⨆ k : ℕ, outcome (heldMean A p φ) (gibbsStep (withNoise (withSlices (withAtoms W A X) (fun _ => k) U) (fun i => nz (g i))) (G.oracle u) s)
        ∂streamLaw ∂(Measure.infinitePi (fun _ : ℕ => A.ν)) ∂G.P =
      ∫⁻ w, ∫⁻ θ, hU U (θ, w) ∂(Measure.infinitePi (atomF A y p d s.1.theta)) ∂(f.post (List.ofFn (nat d))) := by
    filter_upwards [stream_unit] with U hU using hmain U hU
  rw [lintegral_congr_ae e1]
  have hm3 : Measurable (fun z : ((ℕ → ℝ) × (Fin N → ℝ)) × (Fin N → Atom) => hU z.1.1 (z.2, z.1.2)) :=
    hUm.comp ((measurable_fst.comp measurable_fst).prodMk (measurable_snd.prodMk (measurable_snd.comp measurable_fst)))
  have hm2 : Measurable (fun z : (ℕ → ℝ) × (Fin N → ℝ) => ∫⁻ θ, hU z.1 (θ, z.2) ∂(Measure.infinitePi (atomF A y p d s.1.theta))) := hm3.lintegral_prod_right'
  refine (lintegral_lintegral_swap (f := fun U v => ∫⁻ θ, hU U (θ, v) ∂(Measure.infinitePi (atomF A y p d s.1.theta))) hm2.aemeasurable).trans ?_
  refine lintegral_congr fun v => ?_
  have hm4 : Measurable (fun z : (ℕ → ℝ) × (Fin N → Atom) => hU z.1 (z.2, v)) := hUm.comp (measurable_fst.prodMk (measurable_snd.prodMk measurable_const))
  refine (lintegral_lintegral_swap (f := fun U θ => hU U (θ, v)) hm4.aemeasurable).trans ?_
  refine lintegral_congr fun θ => ?_
  show ∫⁻ U, ∑ δ, φ δ (θ, v) * sliceKer lp y d δ q U (θ, v) ∂streamLaw = _
  have hm5 : ∀ δ, Measurable (fun U => sliceKer lp y d δ q U (θ, v)) := fun δ => measurable_sliceKer_left d δ hlp q _
  rw [lintegral_finsetSum _ (fun δ _ => (hm5 δ).const_mul _)]
  unfold labelStep
  refine Finset.sum_congr rfl fun δ _ => ?_
  rw [lintegral_const_mul _ (hm5 δ), lintegral_sliceKer]

end step

end Verif.Mix.FinMix
