import Verif.Lemmas.GibbsAverage
import Verif.Props.C98

/-! # A Gibbs step of a mixture with finitely many components, for given draws -/

namespace Verif.Mix.FinMix
open MeasureTheory ProbabilityTheory GM Spec
open scoped ENNReal

/-- A prior law of `N` weights, with the law given labels. -/
structure FinPrior (N : ℕ) where
  prior : Measure (Fin N → ℝ)
  post : List ℕ → Measure (Fin N → ℝ)
  prior_prob : IsProbabilityMeasure prior
  post_prob : ∀ d, IsProbabilityMeasure (post d)
  /-- The weights are positive and sum to one. -/
  good : ∀ᵐ w ∂prior, (∀ j, 0 < w j) ∧ ∑ j, w j = 1
  /-- `post d` is the law given that labels drawn with these weights are `d`. -/
  conj : ∀ {n : ℕ} (d : Fin n → Fin N), ∃ c : ℝ≥0∞, c ≠ 0 ∧ c ≠ ∞ ∧ prior.withDensity (fun w => ∏ i, ENNReal.ofReal (w (d i))) = c • post (List.ofFn fun i => (d i : ℕ))

attribute [instance] FinPrior.prior_prob FinPrior.post_prob

variable {N m n : ℕ} {Atom : Type} [MeasurableSpace Atom] {C0 : WeightCore ℝ}

/-- A class with `N` weights: for labels `d`, `random()` draws them from the law given the labels. -/
structure FinClass (C0 : WeightCore ℝ) (f : FinPrior N) (drawW : List ℕ → Oracle ℝ → ℕ → Fin N → ℝ) (Inv : C0.State → Prop) : Prop where
  run : ∀ (ω : Oracle ℝ) (t : C0.State × ℕ) (d : List ℕ), ω.Legal → d ≠ [] → (∀ j ∈ d, j < N) → Inv t.1 → ∃ t' : C0.State × ℕ,
    C0.random .none ω (C0.setD (labels d) t.1, t.2) = (.ok (List.ofFn (drawW d ω t.2)), t') ∧ C0.getW t'.1 = List.ofFn (drawW d ω t.2) ∧ Inv t'.1
  law : ∀ (G : RandGen) (d : List ℕ) (pos : ℕ), (∀ j ∈ d, j < N) → Measurable (fun u => drawW d (G.oracle u) pos) ∧ G.P.map (fun u => drawW d (G.oracle u) pos) = f.post d

/-- The state of a mixture with `N` components: data, labels, the parameters of the prior of the atoms, an atom dict that draws missing atoms, and a weight object satisfying `Inv`. -/
def FinHolds (y : Fin n → Fin m → ℝ) (p : NIW ℝ m) (Inv : C0.State → Prop) (s : GM C0.inheritTail m Atom) (d : Fin n → Fin N) : Prop :=
  StickHolds y p Inv s (fun i => (d i : ℕ))

variable {f : FinPrior N} {drawW : List ℕ → Oracle ℝ → ℕ → Fin N → ℝ} {Inv : C0.State → Prop} {W : World ℝ m Atom} {A : AtomGen m Atom} {y : Fin n → Fin m → ℝ} {p : NIW ℝ m} {d : Fin n → ℕ}
  {s : GM C0.inheritTail m Atom × ℕ} {ω : Oracle ℝ}

theorem sum_wseq (w : Fin N → ℝ) {k : ℕ} (hk : N ≤ k) : ∑ j ∈ Finset.range k, wseq w j = ∑ j, w j := by
  rw [← Finset.sum_subset (Finset.range_mono hk) fun j _ hj => wseq_of_le w (by simpa using hj), Finset.sum_range]
  exact Finset.sum_congr rfl fun j _ => wseq_fin w j

theorem hasSum_wseq {w : Fin N → ℝ} (h : ∑ j, w j = 1) : HasSum (wseq w) 1 := by
  rw [← h, ← sum_wseq w le_rfl]
  exact hasSum_sum_of_ne_finset_zero fun j hj => wseq_of_le w (by simpa using hj)

theorem wseq_nonneg {w : Fin N → ℝ} (h : ∀ j, 0 < w j) (j : ℕ) : 0 ≤ wseq w j := by
  unfold wseq
  split
  · exact (h _).le
  · exact le_rfl

theorem wseq_pos {w : Fin N → ℝ} (h : ∀ j, 0 < w j) {j : ℕ} (hj : j < N) : 0 < wseq w j := by
  unfold wseq
  rw [dif_pos hj]
  exact h _

theorem wseq_le_one {w : Fin N → ℝ} (h : ∀ j, 0 < w j) (h1 : ∑ j, w j = 1) (j : ℕ) : wseq w j ≤ 1 := by
  unfold wseq
  split
  · rw [← h1]
    exact Finset.single_le_sum (f := w) (fun i _ => (h i).le) (Finset.mem_univ _)
  · exact zero_le_one

variable {nz : ℝ → ℝ}

/-- **A step**, for given atoms, weights and slice variables: it returns, and only the labels depend on the noise. -/
theorem fin_run (hnz : IsGumbel nz) (hc : FinClass C0 f drawW Inv) (hω : ω.Legal) (heps : W.eps = 0) (hn : 2 ≤ n) (h : StickHolds y p Inv s.1 d) (hdN : ∀ i, d i < N) (X : ℕ → A.Seed) {w : Fin N → ℝ}
    (hw' : w = drawW (List.ofFn d) ω s.1.wst.2) (hw : ∀ j, 0 < w j) (hw1 : ∑ j, w j = 1) {θ : ℕ → Atom} (hθ : θ = lazyAtoms A y p d s.1.theta s.2 X)
    (hden : ∀ i, W.logpdf (y i) (θ (d i)) ≠ ⊥) {U : ℕ → ℝ} (hU : ∀ p, 0 < U p ∧ U p < 1) {q : ℕ} (hq : q = s.2 + (npUnique (List.ofFn d)).length) :
    ∃ R : (ℕ → ℝ) → GM C0.inheritTail m Atom × ℕ, (∀ F, N ≤ F → ∀ g, gibbsStep (withNoise (withSlices (withAtoms W A X) (fun _ => F) U) g) ω s = (.ok (), R g)) ∧
      (∀ g, ∃ δ : Fin n → Fin N, FinHolds y p Inv (R g).1 δ) ∧
      (∀ g j, j < N → (R g).1.theta.lookup j = some (θ j)) ∧ (∀ g, C0.getW (R g).1.wst.1 = List.ofFn w) ∧
      ∀ δ : Fin n → ℕ, streamLaw {g | (R (fun k => nz (g k))).1.d = List.ofFn δ} =
        ∏ i, sliceKernel (wseq w) (dens W.logpdf θ (y i)) (wseq w (d i) * U (q + i)) (δ i) := by
  have hn0 : 0 < n := by omega
  obtain ⟨hy, hd, hdef, hp, hI⟩ := h
  have hl : s.1.y.length = s.1.d.length := by rw [hy, hd]; simp
  have hne : List.ofFn d ≠ [] := by
    intro hc
    have := congrArg List.length hc
    simp at this
    omega
  have hmemN : ∀ j ∈ List.ofFn d, j < N := fun j hj => by
    obtain ⟨i, rfl⟩ := (List.mem_ofFn' _ _).1 hj
    exact hdN i
  obtain ⟨th, h1, h2⟩ := updateAtoms_run (ω := ω) (withAtoms W A X) (npUnique s.1.d) (npUnique_nodup _) s hl
  obtain ⟨t', h3, h4, h5⟩ := hc.run ω s.1.wst (List.ofFn d) hω hne hmemN hI
  rw [← hw'] at h3 h4
  have hwl : List.ofFn w = (List.range N).map (wseq w) := by
    have := ofFn_wseq w
    rwa [List.length_ofFn] at this
  rw [hwl] at h3 h4
  have hth : ∀ j, th.lookup j = if missing d s.1.theta j then none else some (θ j) := by
    intro j
    rw [h2 j, hθ]
    unfold lazyAtoms missing
    rw [hd]
    by_cases hj : j ∈ List.ofFn d
    · rw [if_pos (mem_npUnique.2 hj), if_pos hj, labelRank_eq hj, hy, hp]
      simp only [hj, not_true, decide_false, Bool.false_and, Bool.false_eq_true, if_false]
      rfl
    · rw [if_neg (fun h => hj (mem_npUnique.1 h)), if_neg hj]
      cases hlk : s.1.theta.lookup j with
      | none => simp [hj]
      | some a => simp
  have hstep : ∀ (fuel : (ℕ → ℝ) → ℕ) (U g : ℕ → ℝ), gibbsStep (withNoise (withSlices (withAtoms W A X) fuel U) g) ω s =
        assignStep (withNoise (withSlices (withAtoms W A X) fuel U) g) (List.ofFn d) ((List.range N).map (wseq w)) ω
          ({ s.1 with theta := th, wst := t' }, s.2 + (npUnique (List.ofFn d)).length) := by
    intro fuel U g
    have hcg : updateAtoms (C := C0.inheritTail) (withNoise (withSlices (withAtoms W A X) fuel U) g) (npUnique s.1.d) = updateAtoms (withAtoms W A X) (npUnique s.1.d) :=
      updateAtoms_congr (by rfl) _
    rw [gibbsStep_eq, M.bind_apply]
    simp only [M.self]
    rw [M.bind_apply, hcg, h1]
    simp only
    rw [M.bind_apply]
    simp only [M.self]
    rw [M.bind_apply, callW]
    have hfit : BaseWeight.fit (C0.inheritTail).toWeightCore (labels s.1.d) ω s.1.wst = (.ok (), (C0.setD (labels s.1.d) s.1.wst.1, s.1.wst.2)) := rfl
    simp only [hfit]
    rw [M.bind_apply, callW]
    have hr : (C0.inheritTail).random .none ω (C0.setD (labels s.1.d) s.1.wst.1, s.1.wst.2) = (.ok ((List.range N).map (wseq w)), t') := by rw [hd]; exact h3
    erw [hr]
    simp only
    rw [← hd]
  rw [← hq] at hstep
  have hg : Grows C0 ω (wseq w) (fun _ => t') N := ⟨h4, fun k hk hlt => by rw [sum_wseq w hk, hw1] at hlt; exact absurd hlt (lt_irrefl _)⟩
  have hcov : Covers (wseq w) d U q N := fun i => by
    rw [sum_wseq w le_rfl, hw1, sub_self]
    exact mul_nonneg (wseq_nonneg hw _) (hU _).1.le
  set S2 : GM C0.inheritTail m Atom × ℕ := ({ s.1 with theta := th, wst := t' }, q) with hS2
  set S1 : GM C0.inheritTail m Atom × ℕ := ({ s.1 with theta := th, u := slices (wseq w) d q U, wst := t' }, q + n) with hS1
  have hsl : ∀ F, N ≤ F → sliceTail (withSlices (withAtoms W A X) (fun _ => F) U) (List.ofFn d) ((List.range N).map (wseq w)) ω S2 = (.ok (), S1) := fun F hF =>
    stick_slice (W := withAtoms W A X) (q := q) (T := N) heps hn0 hg hdN (fun j => wseq_le_one hw hw1 j) (fun i => wseq_pos hw (hdN i)) hU le_rfl hcov (fun i h1 h2 => absurd h1 (by omega)) hF rfl S2 rfl rfl
  -- the atoms
  obtain ⟨th2, ha, hal⟩ := getAtoms_lazy (C := C0.inheritTail) (W := withAtoms W A X) (ω := ω) (miss := missing d s.1.theta) (p := q + n) (θ := θ) N 0 S1 hdef rfl (fun j _ => hth j) (fun j _ hm => by
    have hm1 : j ∉ List.ofFn d := by
      unfold missing at hm
      simp only [Bool.and_eq_true, decide_eq_true_eq] at hm
      exact hm.1
    have hm2 : s.1.theta.lookup j = none := by
      unfold missing at hm
      simp only [Bool.and_eq_true, Option.isNone_iff_eq_none] at hm
      exact hm.2
    have hpr : GM.prior S1.1 = p := hp
    rw [hpr, hθ]
    unfold lazyAtoms
    rw [if_neg hm1, hm2, ← hq]
    rfl)
  rw [← List.range_eq_range'] at ha
  have hgw : (C0.inheritTail).getW S1.1.wst.1 = (List.range N).map (wseq w) := h4
  have hcomp : Completes (withAtoms W A X) ω (wseq w) θ S1 := by
    refine ⟨N, _, hgw, ha, fun j hj u hu => ?_⟩
    have hu' : u ∈ slices (wseq w) d q U := hu
    obtain ⟨i, hi, rfl⟩ := List.mem_iff_getElem.1 hu'
    rw [wseq_of_le w hj]
    simp only [slices, List.getElem_mapIdx, List.getElem_map, List.getElem_ofFn]
    exact mul_nonneg (wseq_nonneg hw _) (hU _).1.le
  have hN0 : 0 < N := lt_of_le_of_lt (Nat.zero_le _) (hdN ⟨0, hn0⟩)
  have hT0' : ((List.range N).map (wseq w)).length = N := by simp
  have hyl : S1.1.y.length = n := by
    show s.1.y.length = n
    rw [hy]; simp
  have hul : S1.1.u.length = S1.1.y.length := by
    rw [hyl]
    show (slices (wseq w) d q U).length = n
    simp [slices]
  -- the labels
  have hlab : ∀ g : ℕ → ℝ, ∃ δ : Fin n → ℕ, gumbelMaxSampling (List.zipWith (column (withAtoms W A X) ((List.range N).map (wseq w)) ((List.range N).map θ)) S1.1.y S1.1.u)
      ((List.range S1.1.y.length).map (noise (withNoise (withAtoms W A X) g) (missPos (missing d s.1.theta) (q + n) (0 + N)) N S1.1.y.length)) = .ok (List.ofFn δ) ∧ ∀ i, δ i < N := by
    intro g
    have hcol : ∀ (i : ℕ) (c : List (WithBot ℝ)), (List.zipWith (column (withAtoms W A X) ((List.range N).map (wseq w)) ((List.range N).map θ)) S1.1.y S1.1.u)[i]? = some c → c.length = N := by
      intro i c hc
      rw [List.getElem?_zipWith] at hc
      cases e1 : S1.1.y[i]? with
      | none => simp [e1] at hc
      | some x =>
        cases e2 : S1.1.u[i]? with
        | none => simp [e1, e2] at hc
        | some u =>
          simp only [e1, e2, Option.some.injEq] at hc
          rw [← hc]
          simp [column]
    obtain ⟨is, h1, h2, h3⟩ := C64_matrix (K := ℝ) (cols := List.zipWith (column (withAtoms W A X) ((List.range N).map (wseq w)) ((List.range N).map θ)) S1.1.y S1.1.u)
      (noise := (List.range S1.1.y.length).map (noise (withNoise (withAtoms W A X) g) (missPos (missing d s.1.theta) (q + n) (0 + N)) N S1.1.y.length)) (by simp [hul])
      (fun i c g' hc hg' => by
        have hcl := hcol i c hc
        have hgl : g'.length = N := by
          rw [List.getElem?_map] at hg'
          cases e1 : (List.range S1.1.y.length)[i]? with
          | none => simp [e1] at hg'
          | some x =>
            simp only [e1, Option.map_some, Option.some.injEq] at hg'
            rw [← hg']
            simp [noise]
        exact ⟨fun hc0 => by rw [hc0] at hcl; simp at hcl; omega, by rw [hcl, hgl]⟩)
    have hil : is.length = n := by
      rw [h2, List.length_zipWith, hul, hyl, min_self]
    subst hil
    refine ⟨fun i => is[i], by rw [h1]; congr 1; apply List.ext_getElem <;> simp, fun i => ?_⟩
    set cols := List.zipWith (column (withAtoms W A X) ((List.range N).map (wseq w)) ((List.range N).map θ)) S1.1.y S1.1.u with hcols
    have hi1 : (i : ℕ) < cols.length := by rw [← h2]; exact i.2
    have hi2 : (i : ℕ) < ((List.range S1.1.y.length).map (noise (withNoise (withAtoms W A X) g) (missPos (missing d s.1.theta) (q + is.length) (0 + N)) N S1.1.y.length)).length := by
      rw [List.length_map, List.length_range, hyl]; exact i.2
    have := (h3 i _ _ is[i] (List.getElem?_eq_getElem hi1) (List.getElem?_eq_getElem hi2) (List.getElem?_eq_getElem i.2)).lt
    rwa [hcol i _ (List.getElem?_eq_getElem hi1)] at this
  choose δ hδ using hlab
  have hup : ∀ F g, updateD (withNoise (withSlices (withAtoms W A X) (fun _ => F) U) g) ω S1 =
      (.ok (), ({ S1.1 with theta := th2, d := List.ofFn (δ g) }, missPos (missing d s.1.theta) (q + n) (0 + N) + N * n)) := by
    intro F g
    have hA : GM.getAtoms (withSlices (withAtoms W A X) (fun _ => F) U) (List.range ((C0.inheritTail).getW S1.1.wst.1).length) ω S1 = (.ok ((List.range N).map θ), ({ S1.1 with theta := th2 }, missPos (missing d s.1.theta) (q + n) (0 + N))) := by
      rw [getAtoms_withSlices, hgw, hT0']
      exact ha
    rw [updateD_eq hA (by rw [hgw]; intro hc; rw [hc] at hT0'; simp at hT0'; omega) (by rw [hyl]; omega) hul g]
    have hcol : column (withSlices (withAtoms W A X) (fun _ => F) U) = column (withAtoms W A X) := rfl
    have hns : noise (withNoise (withSlices (withAtoms W A X) (fun _ => F) U) g) = noise (withNoise (withAtoms W A X) g) := rfl
    rw [hcol, hns, hgw, hT0']
    simp only
    rw [(hδ g).1]
    simp only [hyl]
  have hfull : ∀ F, N ≤ F → ∀ g, assignStep (withNoise (withSlices (withAtoms W A X) (fun _ => F) U) g) (List.ofFn d) ((List.range N).map (wseq w)) ω S2 =
      (.ok (), ({ S1.1 with theta := th2, d := List.ofFn (δ g) }, missPos (missing d s.1.theta) (q + n) (0 + N) + N * n)) := by
    intro F hF g
    have hsn : sliceTail (C := C0.inheritTail) (withNoise (withSlices (withAtoms W A X) (fun _ => F) U) g) (List.ofFn d) ((List.range N).map (wseq w)) =
        sliceTail (withSlices (withAtoms W A X) (fun _ => F) U) (List.ofFn d) ((List.range N).map (wseq w)) := rfl
    unfold assignStep
    rw [M.bind_apply, hsn, hsl F hF]
    exact hup F g
  refine ⟨fun g => ({ S1.1 with theta := th2, d := List.ofFn (δ g) }, missPos (missing d s.1.theta) (q + n) (0 + N) + N * n), fun F hF g => ?_, fun g => ⟨fun i => ⟨δ g i, (hδ g).2 i⟩, hy, rfl, hdef, hp, h5⟩,
    fun g j hj => ?_, fun g => by rw [hwl]; exact h4, fun δ' => ?_⟩
  · rw [hstep, hfull F hF g]
  · show th2.lookup j = _
    rw [hal j, if_pos (by omega)]
  · have hS2y : S2.1.y = List.ofFn y := hy
    have hS2l : S2.1.y.length = n := by rw [hS2y]; simp
    have hyi : ∀ i : Fin n, S2.1.y[i]'(by rw [hS2l]; exact i.2) = y i := fun i => by simp [hS2y]
    have key := step_law (C := C0.inheritTail) (ω := ω) hnz (W := withAtoms W A X) heps (w := wseq w) (θ := θ) (w0 := (List.range N).map (wseq w)) (s := S2) (s1 := S1) (fuel := fun _ => N) (U := U) (n := n) hS2l hn hU
      (d := d) (d' := δ') (fun i => by rw [List.getElem?_map, List.getElem?_range (hdN i)]; rfl) (fun i => wseq_pos hw (hdN i)) (fun i => by rw [hyi]; exact hden i) (hsl N le_rfl) hcomp
    simp only [hfull N le_rfl, true_and, hyi] at key
    exact key

end Verif.Mix.FinMix
