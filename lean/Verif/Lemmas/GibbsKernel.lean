import Verif.Lemmas.GibbsRun
import Verif.Lemmas.Redraw
import Verif.Props.C83

/-! # The law of a Gibbs step of a mixture with finitely many weights -/

namespace Verif
open MeasureTheory ProbabilityTheory
open scoped ENNReal

/-- A stream read at different positions is a product. -/
theorem stream_map {X S : Type*} [MeasurableSpace X] [MeasurableSpace S] (Q : Measure S) [IsProbabilityMeasure Q] {N : ℕ} (O : Fin N → Prop) [DecidablePred O] (e : Fin N → ℕ)
    (he : ∀ i j, O i → O j → e i = e j → i = j) (F : Fin N → S → X) (hF : ∀ j, Measurable (F j)) (θ : Fin N → X) :
    (Measure.infinitePi (fun _ : ℕ => Q)).map (fun x j => if O j then F j (x (e j)) else θ j) = Measure.pi (fun j => if O j then Q.map (F j) else Measure.dirac (θ j)) := by
  have hm : Measurable (fun (x : ℕ → S) (j : Fin N) => if O j then F j (x (e j)) else θ j) := by
    refine measurable_pi_lambda _ fun j => ?_
    split
    · exact (hF j).comp (measurable_pi_apply _)
    · exact measurable_const
  have hp : ∀ j, IsProbabilityMeasure (if O j then Q.map (F j) else Measure.dirac (θ j)) := fun j => by
    split
    · exact Measure.isProbabilityMeasure_map (hF j).aemeasurable
    · infer_instance
  symm
  refine Measure.pi_eq fun B hB => ?_
  rw [Measure.map_apply hm (MeasurableSet.univ_pi hB)]
  by_cases hθ : ∀ j, ¬ O j → θ j ∈ B j
  · have hs : (fun (x : ℕ → S) (j : Fin N) => if O j then F j (x (e j)) else θ j) ⁻¹' (Set.univ.pi B) = {x | ∀ j, O j → x (e j) ∈ F j ⁻¹' B j} := by
      ext x
      simp only [Set.mem_preimage, Set.mem_pi, Set.mem_univ, forall_true_left, Set.mem_ofPred_eq]
      refine forall_congr' fun j => ?_
      by_cases hj : O j
      · simp [hj]
      · simp [hj, hθ j hj]
    rw [hs, stream_box Q O e he _ (fun j => hF j (hB j))]
    refine Finset.prod_congr rfl fun j _ => ?_
    by_cases hj : O j
    · simp only [if_pos hj]
      rw [Measure.map_apply (hF j) (hB j)]
    · simp only [if_neg hj]
      rw [Measure.dirac_apply' _ (hB j), Set.indicator_of_mem (hθ j hj)]
      rfl
  · push Not at hθ
    obtain ⟨j, hj, hjB⟩ := hθ
    have hs : (fun (x : ℕ → S) (j : Fin N) => if O j then F j (x (e j)) else θ j) ⁻¹' (Set.univ.pi B) = ∅ := by
      ext x
      simp only [Set.mem_preimage, Set.mem_pi, Set.mem_univ, forall_true_left, Set.mem_empty_iff_false, iff_false, not_forall]
      exact ⟨j, by simpa [hj] using hjB⟩
    rw [hs, measure_empty]
    symm
    refine Finset.prod_eq_zero (Finset.mem_univ j) ?_
    rw [if_neg hj, Measure.dirac_apply' _ (hB j), Set.indicator_of_notMem hjB]

/-- Integrals over a stream do not depend on the positions. -/
theorem lintegral_positions {X S : Type*} [MeasurableSpace X] [MeasurableSpace S] (Q : Measure S) [IsProbabilityMeasure Q] {N : ℕ} (O : Fin N → Prop) [DecidablePred O] (e e' : Fin N → ℕ)
    (he : ∀ i j, O i → O j → e i = e j → i = j) (he' : ∀ i j, O i → O j → e' i = e' j → i = j) (F : Fin N → S → X) (hF : ∀ j, Measurable (F j)) (θ : Fin N → X)
    {h : (Fin N → X) → ℝ≥0∞} (hh : Measurable h) :
    ∫⁻ x, h (fun j => if O j then F j (x (e j)) else θ j) ∂(Measure.infinitePi (fun _ : ℕ => Q)) = ∫⁻ x, h (fun j => if O j then F j (x (e' j)) else θ j) ∂(Measure.infinitePi (fun _ : ℕ => Q)) := by
  have hm : ∀ e : Fin N → ℕ, Measurable (fun (x : ℕ → S) (j : Fin N) => if O j then F j (x (e j)) else θ j) := fun e => by
    refine measurable_pi_lambda _ fun j => ?_
    split
    · exact (hF j).comp (measurable_pi_apply _)
    · exact measurable_const
  rw [← lintegral_map hh (hm e), ← lintegral_map hh (hm e'), stream_map Q O e he F hF, stream_map Q O e' he' F hF]

end Verif

namespace Verif.Mix
open MeasureTheory ProbabilityTheory GM
open scoped ENNReal

/-- Random generator of atoms: `draw q` has the law that `random_normal_invw` gives the parameters `q`. -/
structure AtomGen (m : ℕ) (Atom : Type) [MeasurableSpace Atom] where
  /-- The seeds. -/
  Seed : Type
  [ms : MeasurableSpace Seed]
  ν : Measure Seed
  [prob : IsProbabilityMeasure ν]
  draw : NIW ℝ m → Seed → Atom
  meas : ∀ q, Measurable (draw q)

attribute [instance] AtomGen.ms AtomGen.prob

variable {m : ℕ} {Atom : Type}

section kernel
variable {N n : ℕ}

/-- The weights, followed by zeros. -/
def wseq (w : Fin N → ℝ) (j : ℕ) : ℝ := if h : j < N then w ⟨j, h⟩ else 0

/-- The atoms, the first one repeated. -/
def aseq (h0 : 0 < N) (θ : Fin N → Atom) (j : ℕ) : Atom := if h : j < N then θ ⟨j, h⟩ else θ ⟨0, h0⟩

@[simp] theorem wseq_fin (w : Fin N → ℝ) (j : Fin N) : wseq w j = w j := by simp [wseq]
@[simp] theorem aseq_fin (h0 : 0 < N) (θ : Fin N → Atom) (j : Fin N) : aseq h0 θ j = θ j := by simp [aseq]

theorem wseq_of_le (w : Fin N → ℝ) {j : ℕ} (h : N ≤ j) : wseq w j = 0 := by rw [wseq, dif_neg (by omega)]

theorem ofFn_wseq (w : Fin N → ℝ) : List.ofFn w = (List.range (List.ofFn w).length).map (wseq w) := by
  apply List.ext_getElem
  · simp
  · intro i h1 h2
    have hi : i < N := by simpa using h1
    simp [wseq, hi]

/-- The density of an observation given its atom. -/
noncomputable def obsDens (lp : (Fin m → ℝ) → Atom → WithBot ℝ) (x : Fin m → ℝ) (a : Atom) : ℝ≥0∞ := ENNReal.ofReal (botExp (lp x a))

/-- Weights times densities of the observations. -/
noncomputable def pointMass (lp : (Fin m → ℝ) → Atom → WithBot ℝ) (y : Fin n → Fin m → ℝ) (d : Fin n → Fin N) (z : (Fin N → Atom) × (Fin N → ℝ)) : ℝ≥0∞ :=
  ∏ i, ENNReal.ofReal (z.2 (d i)) * obsDens lp (y i) (z.1 (d i))

/-- The kernel of the labels. -/
noncomputable def labelKernel (lp : (Fin m → ℝ) → Atom → WithBot ℝ) (h0 : 0 < N) (y : Fin n → Fin m → ℝ) (d d' : Fin n → Fin N) (z : (Fin N → Atom) × (Fin N → ℝ)) : ℝ≥0∞ :=
  ∏ i, ∫⁻ x, sliceKernel (wseq z.2) (dens lp (aseq h0 z.1) (y i)) (z.2 (d i) * x) (d' i) ∂unifLaw

variable [MeasurableSpace Atom] {lp : (Fin m → ℝ) → Atom → WithBot ℝ} {y : Fin n → Fin m → ℝ}

theorem measurable_aseq (h0 : 0 < N) (j : ℕ) : Measurable (fun θ : Fin N → Atom => aseq h0 θ j) := by
  unfold aseq
  split <;> exact measurable_pi_apply _

theorem measurable_wseq (j : ℕ) : Measurable (fun w : Fin N → ℝ => wseq w j) := by
  unfold wseq
  split
  · exact measurable_pi_apply _
  · exact measurable_const

variable (hlp : ∀ i, Measurable (obsDens lp (y i)))
include hlp

theorem measurable_pointMass (d : Fin n → Fin N) : Measurable (pointMass lp y d) := by
  unfold pointMass
  refine Finset.measurable_prod _ fun i _ => ?_
  exact ((measurable_pi_apply _).comp measurable_snd).ennreal_ofReal.mul ((hlp i).comp ((measurable_pi_apply _).comp measurable_fst))

theorem measurable_labelKernel (h0 : 0 < N) (d d' : Fin n → Fin N) : Measurable (labelKernel lp h0 y d d') := by
  unfold labelKernel
  refine Finset.measurable_prod _ fun i _ => ?_
  have hterm : ∀ k : ℕ, Measurable fun q : ((Fin N → Atom) × (Fin N → ℝ)) × ℝ => if q.1.2 (d i) * q.2 < wseq q.1.2 k then dens lp (aseq h0 q.1.1) (y i) k else 0 := by
    intro k
    refine Measurable.ite (measurableSet_lt ?_ ?_) ?_ measurable_const
    · exact ((measurable_pi_apply _).comp (measurable_snd.comp measurable_fst)).mul measurable_snd
    · exact (measurable_wseq k).comp (measurable_snd.comp measurable_fst)
    · exact (hlp i).comp ((measurable_aseq h0 k).comp (measurable_fst.comp measurable_fst))
  have h : Measurable fun q : ((Fin N → Atom) × (Fin N → ℝ)) × ℝ => sliceKernel (wseq q.1.2) (dens lp (aseq h0 q.1.1) (y i)) (q.1.2 (d i) * q.2) (d' i) := by
    unfold sliceKernel sliceMass
    exact (hterm (d' i)).div (Measurable.tsum hterm)
  exact h.lintegral_prod_right'

omit hlp [MeasurableSpace Atom]

/-- The label step keeps the law of the labels. -/
theorem sum_labelKernel (h0 : 0 < N) (d' : Fin n → Fin N) {z : (Fin N → Atom) × (Fin N → ℝ)} (hz : ∀ j, 0 ≤ z.2 j) :
    ∑ d : Fin n → Fin N, pointMass lp y d z * labelKernel lp h0 y d d' z = pointMass lp y d' z := by
  have hw : ∀ j, 0 ≤ wseq z.2 j := fun j => by
    unfold wseq
    split
    · exact hz _
    · exact le_rfl
  have hfin : ∀ t, 0 < t → {j | t < wseq z.2 j}.Finite := fun t ht => (Set.finite_Iio N).subset fun j hj => by
    by_contra h
    have : t < wseq z.2 j := hj
    rw [wseq_of_le _ (not_lt.1 h)] at this
    exact lt_asymm ht this
  have h1 : ∀ d : Fin n → Fin N, pointMass lp y d z * labelKernel lp h0 y d d' z = ∏ i, (ENNReal.ofReal (z.2 (d i)) * obsDens lp (y i) (z.1 (d i))) *
      ∫⁻ x, sliceKernel (wseq z.2) (dens lp (aseq h0 z.1) (y i)) (z.2 (d i) * x) (d' i) ∂unifLaw := fun d => by
    rw [pointMass, labelKernel, ← Finset.prod_mul_distrib]
  simp_rw [h1]
  rw [← Fintype.piFinset_univ, ← Finset.prod_univ_sum (fun _ => Finset.univ) (fun i j => (ENNReal.ofReal (z.2 j) * obsDens lp (y i) (z.1 j)) *
      ∫⁻ x, sliceKernel (wseq z.2) (dens lp (aseq h0 z.1) (y i)) (z.2 j * x) (d' i) ∂unifLaw)]
  refine Finset.prod_congr rfl fun i _ => ?_
  have h2 := slice_invariant (w := wseq z.2) (F := dens lp (aseq h0 z.1) (y i)) hw (fun j => ENNReal.ofReal_ne_top) hfin (d' i)
  rw [tsum_eq_sum (s := Finset.range N) (fun j hj => by rw [wseq_of_le _ (by simpa using hj)]; simp), Finset.sum_range] at h2
  simp only [wseq_fin] at h2
  have h3 : ∀ j : Fin N, dens lp (aseq h0 z.1) (y i) j = obsDens lp (y i) (z.1 j) := fun j => by
    unfold dens obsDens
    rw [aseq_fin]
  simp only [h3] at h2
  exact h2

end kernel

section step
variable [MeasurableSpace Atom] {N n : ℕ}

/-- The surrounding with atoms from a stream. -/
def withAtoms (W : World ℝ m Atom) (A : AtomGen m Atom) (X : ℕ → A.Seed) : World ℝ m Atom := { W with atom := fun p q => A.draw q (X p) }

/-- The observable state of a mixture with a `DirichletDistribution` of `N` weights: the data, the labels, the atoms of all components and the weights; `p` and `alpha` are the parameters of
the priors. -/
def Holds (y : Fin n → Fin m → ℝ) (p : NIW ℝ m) (alpha : List ℝ) (s : GM (DirDist.cls : WeightClass ℝ) m Atom) (d : Fin n → Fin N) (θ : Fin N → Atom) (w : Fin N → ℝ) : Prop :=
  s.y = List.ofFn y ∧ s.d = List.ofFn (fun i => (d i : ℕ)) ∧ (∀ j : Fin N, s.theta.lookup (j : ℕ) = some (θ j)) ∧ (s.wst.1 : DirDist ℝ).w = List.ofFn w ∧
    (s.wst.1 : DirDist ℝ).alpha = alpha ∧ prior s = p

/-- The atoms after the redraw. -/
noncomputable def newAtoms (A : AtomGen m Atom) (y : Fin n → Fin m → ℝ) (p : NIW ℝ m) (d : Fin n → Fin N) (θ : Fin N → Atom) (pos : ℕ) (X : ℕ → A.Seed) (j : Fin N) : Atom :=
  if ∃ i, d i = j then A.draw (posteriorNIW (rowsWith (List.ofFn y) (List.ofFn (fun i => (d i : ℕ))) j) p) (X (pos + labelRank (List.ofFn (fun i => (d i : ℕ))) j)) else θ j

variable {W : World ℝ m Atom} {A : AtomGen m Atom} {y : Fin n → Fin m → ℝ} {p : NIW ℝ m} {alpha : List ℝ} {d : Fin n → Fin N} {θ : Fin N → Atom} {w : Fin N → ℝ}
  {s : GM (DirDist.cls : WeightClass ℝ) m Atom × ℕ} {ω : Oracle ℝ}

theorem labelsBelow_ofFn (d : Fin n → Fin N) : LabelsBelow (labels (List.ofFn (fun i => (d i : ℕ)))) N := by
  intro x hx
  obtain ⟨j, hj, rfl⟩ := List.mem_map.1 hx
  obtain ⟨i, rfl⟩ := (List.mem_ofFn' _ _).1 hj
  exact ⟨by positivity, by exact_mod_cast (d i).2⟩

omit [MeasurableSpace Atom] in
theorem updateAtoms_congr {C : WeightClass ℝ} {W W' : World ℝ m Atom} (h : W.atom = W'.atom) : ∀ js, (updateAtoms W js : M ℝ (GM C m Atom) Unit) = updateAtoms W' js
  | [] => rfl
  | j :: js => by rw [updateAtoms, updateAtoms, updateAtoms_congr h js, h]

/-- The part of a Gibbs step before the slice variables. -/
theorem gibbsStep_front (ha : ∀ x ∈ alpha, 0 < x) (hN : alpha.length = N) (h : Holds y p alpha s.1 d θ w) (X : ℕ → A.Seed) :
    ∃ s2 : GM (DirDist.cls : WeightClass ℝ) m Atom × ℕ, s2.1.y = List.ofFn y ∧ (∀ j : Fin N, s2.1.theta.lookup (j : ℕ) = some (newAtoms A y p d θ s.2 X j)) ∧
      (s2.1.wst.1 : DirDist ℝ).w = ω.dirichlet s.1.wst.2 (dirichletPosterior alpha (labels (List.ofFn (fun i => (d i : ℕ))))) ∧ (s2.1.wst.1 : DirDist ℝ).alpha = alpha ∧ prior s2.1 = p ∧
      ∀ (fuel : (ℕ → ℝ) → ℕ) (U g : ℕ → ℝ), gibbsStep (withNoise (withSlices (withAtoms W A X) fuel U) g) ω s =
        assignStep (withNoise (withSlices (withAtoms W A X) fuel U) g) (List.ofFn (fun i => (d i : ℕ))) (s2.1.wst.1 : DirDist ℝ).w ω s2 := by
  obtain ⟨hy, hd, hθ, hw, hal, hp⟩ := h
  have hl : s.1.y.length = s.1.d.length := by rw [hy, hd]; simp
  obtain ⟨th, h1, h2⟩ := updateAtoms_run (ω := ω) (withAtoms W A X) (npUnique s.1.d) (npUnique_nodup _) s hl
  have hatom : ∀ j : Fin N, th.lookup (j : ℕ) = some (newAtoms A y p d θ s.2 X j) := by
    intro j
    rw [h2 j]
    unfold newAtoms
    by_cases hj : ∃ i, d i = j
    · have hm : (j : ℕ) ∈ s.1.d := by
        rw [hd]
        obtain ⟨i, rfl⟩ := hj
        exact (List.mem_ofFn' _ _).2 ⟨i, rfl⟩
      rw [if_pos (mem_npUnique.2 hm), if_pos hj, labelRank_eq hm, hd, hy, hp]
      rfl
    · have hm : (j : ℕ) ∉ s.1.d := by
        rw [hd]
        intro hm
        obtain ⟨i, hi⟩ := (List.mem_ofFn' _ _).1 hm
        exact hj ⟨i, Fin.ext hi⟩
      rw [if_neg (fun h => hm (mem_npUnique.1 h)), if_neg hj, hθ j]
  let ws0 : DirDist ℝ × ℕ := ({ (s.1.wst.1 : DirDist ℝ) with d := labels s.1.d }, s.1.wst.2)
  have hdb : LabelsBelow ws0.1.d alpha.length := by
    show LabelsBelow (labels s.1.d) _
    rw [hd, hN]
    exact labelsBelow_ofFn d
  obtain ⟨t, ht, htw, htd, htp⟩ := DirDist.random_draw (ω := ω) ha (s := ws0) (by exact hal) .none hdb
  have hta : t.1.alpha = alpha := by
    have := (DirDist.random_fixed (ω := ω) (fun q => q.2.1 = alpha) .none).keeps ws0 (by exact hal)
    rw [ht] at this
    exact this
  refine ⟨({ s.1 with theta := th, wst := t }, s.2 + (npUnique s.1.d).length), hy, hatom, ?_, hta, hp, fun fuel U g => ?_⟩
  · show t.1.w = _
    rw [htw, ← hd]
  · have hc : updateAtoms (C := (DirDist.cls : WeightClass ℝ)) (withNoise (withSlices (withAtoms W A X) fuel U) g) (npUnique s.1.d) = updateAtoms (withAtoms W A X) (npUnique s.1.d) :=
      updateAtoms_congr (by rfl) _
    rw [gibbsStep_eq, M.bind_apply]
    simp only [M.self]
    rw [M.bind_apply, hc, h1]
    simp only
    rw [M.bind_apply]
    simp only [M.self]
    rw [M.bind_apply, callW]
    have hfit : BaseWeight.fit (DirDist.cls : WeightClass ℝ).toWeightCore (labels s.1.d) ω s.1.wst = (.ok (), ws0) := rfl
    simp only [hfit]
    rw [M.bind_apply, callW]
    have hr : (DirDist.cls : WeightClass ℝ).random .none ω ws0 = (.ok t.1.w, t) := by rw [htw]; exact ht
    simp only [hr]
    rw [← hd]

/-- The new weights. -/
noncomputable def newWeights (alpha : List ℝ) (d : Fin n → Fin N) (pos : ℕ) (ω : Oracle ℝ) : Fin N → ℝ :=
  vec N (ω.dirichlet pos (dirichletPosterior alpha (labels (List.ofFn (fun i => (d i : ℕ))))))

theorem newWeights_facts (hω : ω.Legal) (h0 : 0 < N) (hN : alpha.length = N) (d : Fin n → Fin N) (pos : ℕ) :
    ω.dirichlet pos (dirichletPosterior alpha (labels (List.ofFn (fun i => (d i : ℕ))))) = List.ofFn (newWeights alpha d pos ω) ∧
      (∀ j, 0 ≤ newWeights alpha d pos ω j) ∧ ∑ j, newWeights alpha d pos ω j = 1 := by
  have hlen : (ω.dirichlet pos (dirichletPosterior alpha (labels (List.ofFn (fun i => (d i : ℕ)))))).length = N := by
    rw [hω.dirichlet_length, dirichletPosterior_length, hN]
  have e : ω.dirichlet pos (dirichletPosterior alpha (labels (List.ofFn (fun i => (d i : ℕ))))) = List.ofFn (newWeights alpha d pos ω) := by
    apply List.ext_getElem
    · rw [hlen]; simp
    · intro i h1 h2
      simp [newWeights, vec, List.getElem?_eq_getElem h1]
  have hs : (ω.dirichlet pos (dirichletPosterior alpha (labels (List.ofFn (fun i => (d i : ℕ)))))).sum = 1 := hω.dirichlet_sum _ _ fun h => by
    have := congrArg List.length h
    rw [dirichletPosterior_length, hN] at this
    simp at this
    omega
  refine ⟨e, fun j => hω.dirichlet_nonneg pos _ _ (by rw [e]; exact (List.mem_ofFn' _ _).2 ⟨j, rfl⟩), ?_⟩
  rw [e, List.sum_ofFn] at hs
  exact hs

variable {nz : ℝ → ℝ} {B : Set ((Fin N → Atom) × (Fin N → ℝ))}

/-- The outcomes of the Gumbel noise for which a Gibbs step returns and leads to the labels `d'` and to atoms and weights in `B`. -/
def reaches (nz : ℝ → ℝ) (W : World ℝ m Atom) (y : Fin n → Fin m → ℝ) (p : NIW ℝ m) (alpha : List ℝ) (ω : Oracle ℝ) (s : GM (DirDist.cls : WeightClass ℝ) m Atom × ℕ) (d' : Fin n → Fin N)
    (B : Set ((Fin N → Atom) × (Fin N → ℝ))) : Set (ℕ → ℝ) :=
  {g | (gibbsStep (withNoise W (fun k => nz (g k))) ω s).1 = .ok () ∧ ∃ z ∈ B, Holds y p alpha (gibbsStep (withNoise W (fun k => nz (g k))) ω s).2.1 d' z.1 z.2}

theorem reaches_law (hnz : IsGumbel nz) (heps : W.eps = 0) (ha : ∀ x ∈ alpha, 0 < x) (h0 : 0 < N) (hN : alpha.length = N) (hn : 2 ≤ n) (hω : ω.Legal) (h : Holds y p alpha s.1 d θ w)
    (X : ℕ → A.Seed) (fuel : (ℕ → ℝ) → ℕ) (hm : pointMass W.logpdf y d (newAtoms A y p d θ s.2 X, newWeights alpha d s.1.wst.2 ω) ≠ 0) (d' : Fin n → Fin N) :
    ∫⁻ U, streamLaw (reaches nz (withSlices (withAtoms W A X) fuel U) y p alpha ω s d' B) ∂streamLaw =
      B.indicator (labelKernel W.logpdf h0 y d d') (newAtoms A y p d θ s.2 X, newWeights alpha d s.1.wst.2 ω) := by
  classical
  obtain ⟨s2, hy2, hθ2, hw2, hal2, hp2, hstep⟩ := gibbsStep_front (W := W) (ω := ω) ha hN h X
  obtain ⟨e, hnn, hsum⟩ := newWeights_facts hω h0 hN d s.1.wst.2
  rw [e] at hw2
  set θ' := newAtoms A y p d θ s.2 X with hθ'
  set w' := newWeights alpha d s.1.wst.2 ω with hw'
  have hgw : (DirDist.core : WeightCore ℝ).getW s2.1.wst.1 = List.ofFn w' := hw2
  have hlen : (List.ofFn w').length = N := by simp
  have hθs : ∀ j < (List.ofFn w').length, s2.1.theta.lookup j = some (aseq h0 θ' j) := by
    intro j hj
    rw [hlen] at hj
    have := hθ2 ⟨j, hj⟩
    rw [this, show aseq h0 θ' j = θ' ⟨j, hj⟩ from dif_pos hj]
  have hs1 : (List.ofFn w').sum = 1 := by rw [List.sum_ofFn]; exact hsum
  have hne : List.ofFn w' ≠ [] := by
    intro hc
    rw [hc] at hlen
    simp at hlen
    omega
  have hfac : ∀ i, ENNReal.ofReal (w' (d i)) ≠ 0 ∧ obsDens W.logpdf (y i) (θ' (d i)) ≠ 0 := fun i => by
    have := Finset.prod_ne_zero_iff.1 hm i (Finset.mem_univ i)
    exact ⟨left_ne_zero_of_mul this, right_ne_zero_of_mul this⟩
  -- what a returning step leaves in the object
  have hframe : ∀ (U g : ℕ → ℝ), (gibbsStep (withNoise (withSlices (withAtoms W A X) fuel U) g) ω s).1 = .ok () →
      ∃ us d1, (gibbsStep (withNoise (withSlices (withAtoms W A X) fuel U) g) ω s).2.1 = { s2.1 with u := us, d := d1 } := by
    intro U g hok
    rw [hstep] at hok ⊢
    have hx : assignStep (withNoise (withSlices (withAtoms W A X) fuel U) g) (List.ofFn (fun i => (d i : ℕ))) (List.ofFn w') ω s2 = (.ok (),
        (assignStep (withNoise (withSlices (withAtoms W A X) fuel U) g) (List.ofFn (fun i => (d i : ℕ))) (List.ofFn w') ω s2).2) := by
      rw [hw2] at hok
      exact Prod.ext hok rfl
    obtain ⟨us, d1, h1⟩ := assignStep_complete (C0 := DirDist.core) (θ := aseq h0 θ') hgw hne hs1 hθs hx
    rw [hw2]
    exact ⟨us, d1, congrArg Prod.fst h1⟩
  have hset : ∀ U : ℕ → ℝ, reaches nz (withSlices (withAtoms W A X) fuel U) y p alpha ω s d' B = if (θ', w') ∈ B then
      {g | (assignStep (withNoise (withSlices (withAtoms W A X) fuel U) (fun k => nz (g k))) (List.ofFn (fun i => (d i : ℕ))) (List.ofFn w') ω s2).1 = .ok () ∧
        (assignStep (withNoise (withSlices (withAtoms W A X) fuel U) (fun k => nz (g k))) (List.ofFn (fun i => (d i : ℕ))) (List.ofFn w') ω s2).2.1.d = List.ofFn (fun i => (d' i : ℕ))} else ∅ := by
    intro U
    have huniq : ∀ (g : ℕ → ℝ) (z : (Fin N → Atom) × (Fin N → ℝ)), (gibbsStep (withNoise (withSlices (withAtoms W A X) fuel U) g) ω s).1 = .ok () →
        Holds y p alpha (gibbsStep (withNoise (withSlices (withAtoms W A X) fuel U) g) ω s).2.1 d' z.1 z.2 → z = (θ', w') := by
      intro g z hok hz
      obtain ⟨us, d1, h1⟩ := hframe U g hok
      rw [h1] at hz
      obtain ⟨-, -, hz3, hz4, -, -⟩ := hz
      refine Prod.ext (funext fun j => ?_) ?_
      · exact Option.some.inj ((hz3 j).symm.trans (hθ2 j))
      · exact List.ofFn_injective (hz4.symm.trans hw2)
    split
    · rename_i hB
      ext g
      simp only [reaches, Set.mem_ofPred_eq]
      constructor
      · rintro ⟨hok, z, -, hz⟩
        have h1 := hz.2.1
        rw [hstep, hw2] at hok h1
        exact ⟨hok, h1⟩
      · rintro ⟨hok, hd'⟩
        rw [← hw2, ← hstep] at hok hd'
        refine ⟨hok, (θ', w'), hB, ?_⟩
        obtain ⟨us, d1, h1⟩ := hframe U _ hok
        rw [h1] at hd' ⊢
        exact ⟨hy2, hd', hθ2, hw2, hal2, hp2⟩
    · rename_i hB
      ext g
      simp only [reaches, Set.mem_ofPred_eq, Set.mem_empty_iff_false, iff_false]
      rintro ⟨hok, z, hz, hh⟩
      rw [huniq _ z hok hh] at hz
      exact hB hz
  simp_rw [hset]
  by_cases hB : (θ', w') ∈ B
  · rw [Set.indicator_of_mem hB]
    simp only [if_pos hB]
    have hyl : s2.1.y.length = n := by rw [hy2]; simp
    have hyi : ∀ i : Fin n, s2.1.y[i]'(by rw [hyl]; exact i.2) = y i := fun i => by simp [hy2]
    have hwp : ∀ i : Fin n, 0 < wseq w' (d i) := fun i => by
      have := (hfac i).1
      rw [wseq_fin]
      rwa [Ne, ENNReal.ofReal_eq_zero, not_le] at this
    have key := stepProb_eq (C := (DirDist.cls : WeightClass ℝ)) (ω := ω) hnz (W := withAtoms W A X) heps (w := wseq w') (θ := aseq h0 θ') (w0 := List.ofFn w') (s := s2) (fuel := fuel) hyl hn
      (d := fun i => (d i : ℕ)) (d' := fun i => (d' i : ℕ)) (fun i => by simp) hwp (fun i hb => (hfac i).2 (by
        rw [hyi, aseq_fin] at hb
        unfold obsDens
        rw [show W.logpdf (y i) (θ' (d i)) = ⊥ from hb]
        exact ENNReal.ofReal_zero)) (by
        filter_upwards [stream_unit] with U hU
        refine sliceTail_returns (C0 := DirDist.core) (W := withAtoms W A X) heps hU (by omega) (ofFn_wseq w') (fun j => ?_) (fun j hj => wseq_of_le _ (by simpa using hj)) hwp hgw hs1 hθs
        unfold wseq
        split
        · rw [← hsum]
          exact Finset.single_le_sum (f := w') (fun j _ => hnn j) (Finset.mem_univ _)
        · exact zero_le_one)
    unfold stepProb at key
    refine key.trans ?_
    unfold labelKernel
    refine Finset.prod_congr rfl fun i _ => ?_
    rw [hyi]
    simp only [wseq_fin]
    rfl
  · rw [Set.indicator_of_notMem hB]
    simp [if_neg hB]

end step

end Verif.Mix
