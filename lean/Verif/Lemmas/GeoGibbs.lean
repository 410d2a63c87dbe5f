import Verif.Props.C107
import Verif.Lemmas.StickGibbs

/-! # A Gibbs step of a mixture with geometric weights -/

namespace Verif.Mix
open MeasureTheory ProbabilityTheory GM Spec
open scoped ENNReal

variable {m n : ℕ} {Atom : Type}

theorem stickSeq_const (p : ℝ) : stickSeq (fun _ => p) = geoSeq p := by
  funext j
  simp [stickSeq, geoSeq]

/-! ### The part of a step before the slice variables -/

/-- The state of a mixture: the data, the labels, the parameters of the prior of the atoms, an atom dict that draws missing atoms, and the parameters of the weights. -/
def GeoHolds (y : Fin n → Fin m → ℝ) (p : NIW ℝ m) (a b : ℝ) (s : GM Geo.cls m Atom) (d : Fin n → ℕ) : Prop :=
  s.y = List.ofFn y ∧ s.d = List.ofFn d ∧ s.thetaDefault = true ∧ prior s = p ∧ (s.wst.1 : Geo ℝ).a = a ∧ (s.wst.1 : Geo ℝ).b = b

/-- The success probability that the generator gives. -/
noncomputable def geoDraw (a b : ℝ) (d : Fin n → ℕ) (ω : Oracle ℝ) (pos : ℕ) : ℝ := ω.beta pos (a + n) (b + ∑ i, (d i : ℝ))

theorem labels_sum (d : Fin n → ℕ) : (((labels (List.ofFn d)).sum : ℤ) : ℝ) = ∑ i, (d i : ℝ) := by
  unfold labels
  rw [List.map_ofFn, List.sum_ofFn]
  push_cast
  rfl

theorem labels_max {d : List ℕ} (h : d ≠ []) : IsMaxLabel (labels d) (((topLabel d : ℕ) : ℤ) - 1) := by
  have h1 := topLabel_mem h
  have h2 : 0 < topLabel d := by unfold topLabel; omega
  refine ⟨?_, fun x hx => ?_⟩
  · unfold labels
    exact List.mem_map.2 ⟨_, h1, by push_cast [h2]; rfl⟩
  · unfold labels at hx
    obtain ⟨j, hj, rfl⟩ := List.mem_map.1 hx
    have := lt_topLabel hj
    show (j : ℤ) ≤ _
    omega

/-- `random()` with labels. -/
theorem geo_random {a b : ℝ} (ha : 0 < a) (hb : 0 < b) (hn : 0 < n) (ω : Oracle ℝ) (d : Fin n → ℕ) {s : Geo ℝ × ℕ} (hd : s.1.d = labels (List.ofFn d)) (hsa : s.1.a = a) (hsb : s.1.b = b) :
    ∃ t, Geo.random .none ω s = (.ok (stickWeights (List.replicate (topLabel (List.ofFn d)) (geoDraw a b d ω s.2))), t) ∧ t.1.p = geoDraw a b d ω s.2 ∧
      t.1.v = List.replicate (topLabel (List.ofFn d)) (geoDraw a b d ω s.2) ∧ t.1.w = stickWeights (List.replicate (topLabel (List.ofFn d)) (geoDraw a b d ω s.2)) := by
  have hne : List.ofFn d ≠ [] := by
    intro hc
    have := congrArg List.length hc
    simp at this
    omega
  have hlen : s.1.d.length = n := by rw [hd]; simp [labels]
  have hmax : Py.maxInt s.1.d = .ok (((topLabel (List.ofFn d) : ℕ) : ℤ) - 1) := by rw [hd]; exact maxInt_eq_ok_iff.2 (labels_max hne)
  have hpos : 0 < a + (n : ℝ) ∧ 0 < b + ∑ i, (d i : ℝ) := ⟨by positivity, by positivity⟩
  have hk : 0 < topLabel (List.ofFn d) := by unfold topLabel; omega
  refine ⟨({ s.1 with v := List.replicate (topLabel (List.ofFn d)) (geoDraw a b d ω s.2), p := geoDraw a b d ω s.2, w := stickWeights (List.replicate (topLabel (List.ofFn d)) (geoDraw a b d ω s.2)) }, s.2 + 1), ?_, rfl, rfl, rfl⟩
  unfold Geo.random
  rw [M.bind_apply]
  simp only [M.self]
  rw [if_neg (by rw [hlen]; omega), M.bind_apply]
  have hr : Geo.resolveSize s.1.d .none = .ok (.np (topLabel (List.ofFn d) : ℕ)) := by simp [Geo.resolveSize, hmax]
  rw [hr, M.lift_ok]
  simp only
  rw [M.bind_apply, M.assign_apply]
  simp only
  rw [M.bind_apply]
  have hbeta : M.beta (s.1.a + (s.1.d.length : ℝ)) (s.1.b + ((s.1.d.sum : ℤ) : ℝ)) ω ({ s.1 with v := [] }, s.2) = (.ok (geoDraw a b d ω s.2), ({ s.1 with v := [] }, s.2 + 1)) := by
    rw [hsa, hsb, hlen, hd, labels_sum]
    unfold M.beta
    simp [hpos.1, hpos.2, geoDraw]
  rw [hbeta]
  simp only
  rw [M.bind_apply, M.assign_apply]
  simp only
  rw [M.bind_apply]
  have hc : ∀ q : Geo ℝ × ℕ, q.1.v = [] → Geo.complete (.np (topLabel (List.ofFn d) : ℕ)) ω q =
      (.ok (stickWeights (List.replicate (topLabel (List.ofFn d)) q.1.p)), ({ q.1 with v := List.replicate (topLabel (List.ofFn d)) q.1.p, w := stickWeights (List.replicate (topLabel (List.ofFn d)) q.1.p) }, q.2)) := by
    intro q hq
    unfold Geo.complete
    rw [M.bind_apply]
    have h1 : BaseWeight.checkSize (.np (topLabel (List.ofFn d) : ℕ)) = .ok () := rfl
    rw [h1, M.lift_ok]
    simp only [PySize.toInt?]
    rw [M.bind_apply]
    simp only [M.self]
    have h2 : ((q.1.v.length : ℕ) : ℤ) < ((topLabel (List.ofFn d) : ℕ) : ℤ) := by rw [hq]; simpa using hk
    rw [M.bind_apply]
    simp only [M.whenM, h2, if_true]
    rw [M.bind_apply]
    have h3 : Py.repeatScalar q.1.p ((topLabel (List.ofFn d) : ℕ) : ℤ) = .ok (List.replicate (topLabel (List.ofFn d)) q.1.p) := by
      unfold Py.repeatScalar
      rw [if_neg (by omega), Int.toNat_natCast]
    rw [h3, M.lift_ok]
    simp only
    rw [M.bind_apply, M.assign_apply]
    simp only [M.assign_apply]
    rw [M.bind_apply]
    simp only [M.self, M.pure_apply]
  rw [hc _ rfl]
  simp only
  rw [M.bind_apply]
  simp only [M.self, M.pure_apply]

section front
variable [MeasurableSpace Atom] {W : World ℝ m Atom} {A : AtomGen m Atom} {y : Fin n → Fin m → ℝ} {p : NIW ℝ m} {d : Fin n → ℕ} {s : GM Geo.cls m Atom × ℕ} {ω : Oracle ℝ} {a b : ℝ}

/-- The part of a step before the slice variables. -/
theorem geo_front (ha : 0 < a) (hb : 0 < b) (hn : 0 < n) (h : GeoHolds y p a b s.1 d) (X : ℕ → A.Seed) :
    ∃ s2 : GM Geo.cls m Atom × ℕ, s2.2 = s.2 + (npUnique (List.ofFn d)).length ∧
      GeoShows (withAtoms W A X) ω (geoDraw a b d ω s.1.wst.2) (lazyAtoms A y p d s.1.theta s.2 X) y (topLabel (List.ofFn d)) s2 ∧
      ∀ (fuel : (ℕ → ℝ) → ℕ) (U g : ℕ → ℝ), gibbsStep (withNoise (withSlices (withAtoms W A X) fuel U) g) ω s =
        assignStep (withNoise (withSlices (withAtoms W A X) fuel U) g) (List.ofFn d) (stickWeights (List.replicate (topLabel (List.ofFn d)) (geoDraw a b d ω s.1.wst.2))) ω s2 := by
  obtain ⟨hy, hd, hθ, hp, hsa, hsb⟩ := h
  have hl : s.1.y.length = s.1.d.length := by rw [hy, hd]; simp
  obtain ⟨th, h1, h2⟩ := updateAtoms_run (ω := ω) (withAtoms W A X) (npUnique s.1.d) (npUnique_nodup _) s hl
  have hth : ∀ j, th.lookup j = if missing d s.1.theta j then none else some (lazyAtoms A y p d s.1.theta s.2 X j) := by
    intro j
    rw [h2 j]
    unfold lazyAtoms missing
    rw [hd]
    by_cases hj : j ∈ List.ofFn d
    · rw [if_pos (mem_npUnique.2 hj), if_pos hj, labelRank_eq hj, hy, hp]
      simp only [hj, not_true, decide_false, Bool.false_and, Bool.false_eq_true, if_false]
      rfl
    · rw [if_neg (fun h => hj (mem_npUnique.1 h)), if_neg hj]
      cases hlk : s.1.theta.lookup j with
      | none => simp [hj]
      | some a => simp
  obtain ⟨t, ht, htp, htv, htw⟩ := geo_random ha hb hn ω d (s := ({ (s.1.wst.1 : Geo ℝ) with d := labels (List.ofFn d) }, s.1.wst.2)) rfl hsa hsb
  refine ⟨({ s.1 with theta := th, wst := t }, s.2 + (npUnique (List.ofFn d)).length), rfl, ⟨hy, htp, htv, htw, fun us ws k => ?_⟩, fun fuel U g => ?_⟩
  · have hmis : ∀ j, 0 ≤ j → missing d s.1.theta j = true →
        lazyAtoms A y p d s.1.theta s.2 X j = (withAtoms W A X).atom (missPos (missing d s.1.theta) (s.2 + (npUnique (List.ofFn d)).length + n) j) (prior s.1) := by
      intro j _ hm
      have hm' := hm
      unfold missing at hm'
      simp only [Bool.and_eq_true, decide_eq_true_eq, Option.isNone_iff_eq_none] at hm'
      unfold lazyAtoms
      rw [if_neg hm'.1, hm'.2, hp]
      rfl
    obtain ⟨th', h3, -⟩ := getAtoms_lazy (C := Geo.cls) (ω := ω) (W := withAtoms W A X) (miss := missing d s.1.theta) (p := s.2 + (npUnique (List.ofFn d)).length + n)
      (θ := lazyAtoms A y p d s.1.theta s.2 X) k 0 ({ s.1 with theta := th, wst := ws, u := us }, s.2 + (npUnique (List.ofFn d)).length + n) hθ rfl (fun j _ => hth j) hmis
    rw [← List.range_eq_range'] at h3
    exact ⟨_, h3⟩
  · have hcg : updateAtoms (C := Geo.cls) (withNoise (withSlices (withAtoms W A X) fuel U) g) (npUnique s.1.d) = updateAtoms (withAtoms W A X) (npUnique s.1.d) :=
      updateAtoms_congr (by rfl) _
    rw [gibbsStep_eq, M.bind_apply]
    simp only [M.self]
    rw [M.bind_apply, hcg, h1]
    simp only
    rw [M.bind_apply]
    simp only [M.self]
    rw [M.bind_apply, callW]
    have hfit : BaseWeight.fit (Geo.cls : WeightClass ℝ).toWeightCore (labels s.1.d) ω s.1.wst = (.ok (), (({ (s.1.wst.1 : Geo ℝ) with d := labels s.1.d } : Geo ℝ), s.1.wst.2)) := rfl
    simp only [hfit]
    rw [M.bind_apply, callW]
    have hr : (Geo.cls : WeightClass ℝ).random .none ω (({ (s.1.wst.1 : Geo ℝ) with d := labels s.1.d } : Geo ℝ), s.1.wst.2) =
        (.ok (stickWeights (List.replicate (topLabel (List.ofFn d)) (geoDraw a b d ω s.1.wst.2))), t) := by rw [hd]; exact ht
    erw [hr]
    simp only
    rw [← hd]

end front

/-! ### The law of the label update -/

/-- The slice levels at which the code loses component 1, if all labels are 0. -/
def lossBox (n q : ℕ) (p : ℝ) : Set (ℕ → ℝ) := {U | ∀ i : Fin n, (1 - p) ^ 2 / p < U (q + i) ∧ U (q + i) < 1 - p}

section law
variable {lp : (Fin m → ℝ) → Atom → WithBot ℝ} {nz : ℝ → ℝ} (hnz : IsGumbel nz) {W : World ℝ m Atom} {p : ℝ} {θ : ℕ → Atom} {y : Fin n → Fin m → ℝ} {ω : Oracle ℝ} {s : GM Geo.cls m Atom × ℕ}
  {k : ℕ} {d : Fin n → ℕ} {fuel : (ℕ → ℝ) → ℕ}
include hnz

/-- The probability that the code gives the labels `0, ..., 0`, for given slice variables. -/
theorem geo_law (hlp : W.logpdf = lp) (heps : W.eps = 0) (hp : 0 < p ∧ p < 1) (hn : 2 ≤ n) (hS : GeoShows W ω p θ y k s) (hd : ∀ i, d i < k) (hden : ∀ i, lp (y i) (θ (d i)) ≠ ⊥) {U : ℕ → ℝ}
    (hU : ∀ q, 0 < U q ∧ U q < 1) : ∃ u N, u ∈ slices (geoSeq p) d s.2 U ∧ u ≤ (1 - p) ^ N ∧
      streamLaw {g | (assignStep (withNoise (withSlices W fuel U) (fun p => nz (g p))) (List.ofFn d) (stickWeights (List.replicate k p)) ω s).1 = .ok () ∧
        (assignStep (withNoise (withSlices W fuel U) (fun p => nz (g p))) (List.ofFn d) (stickWeights (List.replicate k p)) ω s).2.1.d = List.ofFn fun _ : Fin n => 0} =
        ∏ i, sliceKernel (truncSeq (geoSeq p) (max k N)) (dens lp θ (y i)) (geoSeq p (d i) * U (s.2 + i)) 0 := by
  obtain ⟨u, N, s1, s2, hu, hule, h1, h2, hs1, hsu, hsw, hs2⟩ := geo_slice heps hp hn hS hd (fuel := fuel) hU
  refine ⟨u, N, hu, h1, ?_⟩
  have hd' : ∀ i, d i < max k N := fun i => lt_of_lt_of_le (hd i) (le_max_left _ _)
  have ht : ∀ i, truncSeq (geoSeq p) (max k N) (d i) = geoSeq p (d i) := fun i => if_pos (hd' i)
  have hy := hS.1
  have hyl : s.1.y.length = n := by rw [hy]; simp
  have hyi : ∀ i : Fin n, s.1.y[i]'(by rw [hyl]; exact i.2) = y i := fun i => by simp [hy]
  have key := step_law hnz (W := W) heps (w := truncSeq (geoSeq p) (max k N)) (θ := θ) (w0 := stickWeights (List.replicate k p)) (s := s) (s1 := s1) (fuel := fuel) (U := U) (ω := ω)
    hyl hn hU (d := d) (d' := fun _ => 0) (fun i => by rw [ht, geo_weights, List.getElem?_map, List.getElem?_range (hd i)]; rfl) (fun i => by rw [ht]; exact geoSeq_pos hp _)
    (fun i => by rw [hyi i, hlp]; exact hden i) hs1 ⟨max k N, s2, ?_, hs2, fun j hj v hv => ?_⟩
  · rw [key]
    refine Finset.prod_congr rfl fun i _ => ?_
    rw [ht, hyi, hlp]
  · refine hsw.trans (List.map_congr_left fun j hj => ?_)
    exact (if_pos (List.mem_range.1 hj)).symm
  · rw [truncSeq, if_neg (not_lt.2 hj)]
    rw [hsu] at hv
    obtain ⟨i, hi, rfl⟩ := List.mem_iff_getElem.1 hv
    have hi' : i < n := by simpa [slices] using hi
    have h1 : (slices (geoSeq p) d s.2 U)[i] = geoSeq p (d ⟨i, hi'⟩) * U (s.2 + i) := by simp [slices]
    rw [h1]
    exact mul_nonneg (geoSeq_pos hp _).le (hU _).1.le

/-- The code gives the labels `0, ..., 0` at least as often as the exact update. -/
theorem geo_more (hlp : W.logpdf = lp) (heps : W.eps = 0) (hp : 0 < p ∧ p < 1) (hn : 2 ≤ n) (hS : GeoShows W ω p θ y k s) (hd : ∀ i, d i < k) (hden : ∀ i, lp (y i) (θ (d i)) ≠ ⊥) {U : ℕ → ℝ}
    (hU : ∀ q, 0 < U q ∧ U q < 1) : sliceKer lp y d (fun _ => 0) s.2 U (θ, fun _ => p) ≤
      streamLaw {g | (assignStep (withNoise (withSlices W fuel U) (fun p => nz (g p))) (List.ofFn d) (stickWeights (List.replicate k p)) ω s).1 = .ok () ∧
        (assignStep (withNoise (withSlices W fuel U) (fun p => nz (g p))) (List.ofFn d) (stickWeights (List.replicate k p)) ω s).2.1.d = List.ofFn fun _ : Fin n => 0} := by
  obtain ⟨u, N, -, -, h⟩ := geo_law hnz (fuel := fuel) hlp heps hp hn hS hd hden hU
  rw [h]
  unfold sliceKer
  simp only [stickSeq_const]
  refine Finset.prod_le_prod' fun i _ => sliceKernel_trunc _ _ ?_ (mul_nonneg (geoSeq_pos hp _).le (hU _).1.le)
  exact lt_of_lt_of_le (lt_of_le_of_lt (Nat.zero_le _) (hd i)) (le_max_left _ _)

/-- If all labels are 0 and the slice levels are in the box, the code keeps them all at 0. -/
theorem geo_stuck (hlp : W.logpdf = lp) (heps : W.eps = 0) (hp : 0 < p ∧ p < 1) (hn : 2 ≤ n) (hS : GeoShows W ω p θ y 1 s) (hden : ∀ i, lp (y i) (θ 0) ≠ ⊥) {U : ℕ → ℝ}
    (hU : ∀ q, 0 < U q ∧ U q < 1) (hUE : U ∈ lossBox n s.2 p) :
      streamLaw {g | (assignStep (withNoise (withSlices W fuel U) (fun p => nz (g p))) (List.ofFn fun _ : Fin n => 0) (stickWeights (List.replicate 1 p)) ω s).1 = .ok () ∧
        (assignStep (withNoise (withSlices W fuel U) (fun p => nz (g p))) (List.ofFn fun _ : Fin n => 0) (stickWeights (List.replicate 1 p)) ω s).2.1.d = List.ofFn fun _ : Fin n => 0} = 1 := by
  obtain ⟨u, N, hu, h1, h2⟩ := geo_law hnz (fuel := fuel) hlp heps hp hn hS (d := fun _ => 0) (fun _ => one_pos) hden hU
  rw [h2]
  have hg0 : geoSeq p 0 = p := by simp [geoSeq]
  obtain ⟨i, hi, rfl⟩ := List.mem_iff_getElem.1 hu
  have hi' : i < n := by simpa [slices] using hi
  have h3 : (slices (geoSeq p) (fun _ : Fin n => 0) s.2 U)[i] = geoSeq p 0 * U (s.2 + i) := by simp [slices]
  rw [h3, hg0] at h1
  have h4 : (1 - p) ^ 2 < p * U (s.2 + i) := by
    have := (hUE ⟨i, hi'⟩).1
    rwa [div_lt_iff₀ hp.1, mul_comm] at this
  have hN : N < 2 := by
    by_contra hN
    have : (1 - p) ^ N ≤ (1 - p) ^ 2 := pow_le_pow_of_le_one (by linarith [hp.2]) (by linarith [hp.1]) (not_lt.1 hN)
    linarith
  have hk : max 1 N = 1 := by omega
  rw [hk]
  refine Finset.prod_eq_one fun i _ => sliceKernel_one (ENNReal.ofReal_pos.2 (botExp_pos (hden i))).ne' ENNReal.ofReal_ne_top (mul_nonneg (geoSeq_pos hp _).le (hU _).1.le) ?_
  have := mul_lt_mul_of_pos_left (hU (s.2 + i)).2 (geoSeq_pos hp 0)
  rwa [mul_one] at this

omit hnz in
/-- In the box the exact update can leave the labels `0, ..., 0`. -/
theorem sliceKer_box (hp : 0 < p ∧ p < 1) (hn : 0 < n) (hden : ∀ i, lp (y i) (θ 1) ≠ ⊥) {q : ℕ} {U : ℕ → ℝ} (hU : ∀ q, 0 < U q ∧ U q < 1) (hUE : U ∈ lossBox n q p) :
    sliceKer lp y (fun _ => 0) (fun _ => 0) q U (θ, fun _ => p) < 1 := by
  have hg0 : geoSeq p 0 = p := by simp [geoSeq]
  have hg1 : geoSeq p 1 = p * (1 - p) := by simp [geoSeq]
  have h1 : ∀ i : Fin n, sliceKernel (geoSeq p) (dens lp θ (y i)) (geoSeq p 0 * U (q + i)) 0 < 1 := fun i => by
    refine sliceKernel_lt ENNReal.ofReal_ne_top (ENNReal.ofReal_pos.2 (botExp_pos (hden i))).ne' ?_ ?_
    · have := mul_lt_mul_of_pos_left (hU (q + i)).2 (geoSeq_pos hp 0)
      rwa [mul_one] at this
    · rw [hg0, hg1]
      exact mul_lt_mul_of_pos_left (hUE i).2 hp.1
  unfold sliceKer
  simp only [stickSeq_const]
  have i0 : Fin n := ⟨0, hn⟩
  rw [← Finset.mul_prod_erase _ _ (Finset.mem_univ i0)]
  exact lt_of_le_of_lt (mul_le_of_le_one_right' (Finset.prod_le_one' fun i _ => (h1 i).le)) (h1 i0)

end law

end Verif.Mix
