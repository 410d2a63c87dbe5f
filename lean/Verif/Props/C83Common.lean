import Verif.Props.C83Nested
import Verif.Props.C82
import Verif.Props.C16
import Verif.Props.C15
import Verif.Props.C14
import Verif.Props.C05

/-!
# C83 for the models whose sticks are all equal

`BetaInDirichlet` with its default `a = 0` draws from the posterior law (`C83_betaInDirichlet_partial`); with `a > 0` it draws nothing at all when all labels
are 0 (`C83_betaInDirichlet_refuted`).  `BetaInBeta(x=1)` draws from the posterior of the documented geometric model with `p ~ Beta(a, b)`
(`C83_betaInBeta_one_partial`), but an object without labels uses its stored `p` instead of drawing one, so the law after `fit` is not the posterior of the law
before it (`C83_betaInBeta_one_refuted`).
-/

set_option linter.unusedSectionVars false

namespace Verif
open MeasureTheory ProbabilityTheory Spec
open scoped ENNReal

variable (G : RandGen) (log log' : ℝ → ℝ) (ω ω' : Oracle ℝ) (pos pos' : ℕ) (ops ops' : List (WOp ℝ))

/-- Bayes' rule for geometric weights with a Beta parameter. -/
theorem geo_posterior {a b : ℝ} (ha : 0 < a) (hb : 0 < b) {d : List ℤ} {N N' : ℕ} (h : N ≤ N') (hd : LabelsBelow d N') :
    (posterior ((betaMeasure a b).map (geoWeights N')) (labelLik d)).map (firstWeights h) =
      (betaMeasure (a + (d.length : ℝ)) (b + ((d.sum : ℤ) : ℝ))).map (geoWeights N) := by
  have hsum : 0 ≤ d.sum := List.sum_nonneg fun y hy => (hd y hy).1
  have hc : ((d.sum : ℤ) : ℝ) = ((d.sum.toNat : ℕ) : ℝ) := by
    rw [← Int.cast_natCast (R := ℝ) d.sum.toNat, Int.toNat_of_nonneg hsum]
  have hpos : 0 < a + (d.length : ℝ) ∧ 0 < b + (d.sum.toNat : ℝ) := ⟨by positivity, by positivity⟩
  have := isProbabilityMeasureBeta hpos.1 hpos.2
  rw [posterior_map (measurable_geoWeights N') (measurable_labelLik _), Measure.map_map, hc]
  · rw [posterior_congr (L := labelLik d ∘ geoWeights N') (L' := fun x => ENNReal.ofReal x ^ d.length * ENNReal.ofReal (1 - x) ^ d.sum.toNat)
      (betaMeasure_ae.mono fun x hx => labelLik_geo hd ⟨hx.1.le, hx.2.le⟩),
      posterior_of_withDensity (ENNReal.ofReal_pos.2 (div_pos (beta_pos hpos.1 hpos.2) (beta_pos ha hb))).ne' ENNReal.ofReal_ne_top (betaMeasure_bayes ha hb _ _)]
    rfl
  · exact measurable_pi_lambda _ fun j => measurable_pi_apply _
  · exact measurable_geoWeights _

/-- The law of a draw whose weights are geometric with one Beta draw. -/
theorem RandGen.lawOf_geo {σ : Type} {m : M ℝ σ (List ℝ)} {s : σ × ℕ} {N : ℕ} {a b : ℝ} (ha : 0 < a) (hb : 0 < b)
    (h : ∀ u, ∃ r t, m (G.oracle u) s = (.ok r, t) ∧ IsGeometric ((G.oracle u).beta s.2 a b) N r) :
    G.lawOf m s N = (betaMeasure a b).map (geoWeights N) := by
  rw [← G.beta_law _ _ ha hb, ← G.map_seed s.2, Measure.map_map (G.measurable_beta _ _) (measurable_pi_apply s.2),
    Measure.map_map (measurable_geoWeights N) ((G.measurable_beta _ _).comp (measurable_pi_apply s.2))]
  unfold RandGen.lawOf
  congr 1
  funext u
  obtain ⟨r, t, hr, h1⟩ := h u
  rw [hr]
  funext j
  change (r[(j : ℕ)]?).getD 0 = _
  rw [h1.2 j j.2]
  rfl

section counts

theorem nEq_sum {d : List ℤ} {m : ℕ} (hd : LabelsBelow d (m + 1)) : ∑ i ∈ Finset.range (m + 1), nEq d i = d.length := by
  induction d with
  | nil => simp [nEq]
  | cons x d ih =>
    have hx := hd x (List.mem_cons_self ..)
    have h1 : ∀ i : ℕ, nEq (x :: d) i = nEq d i + if i = x.toNat then 1 else 0 := fun i => by
      have : x = (i : ℤ) ↔ i = x.toNat := by omega
      simp [nEq, List.countP_cons, this]
    simp_rw [h1]
    rw [Finset.sum_add_distrib, ih fun y hy => hd y (List.mem_cons_of_mem _ hy), Finset.sum_ite_eq', if_pos (by simp; omega)]
    rfl

theorem nGt_sum {d : List ℤ} {m : ℕ} (hd : LabelsBelow d (m + 1)) : ((∑ i ∈ Finset.range (m + 1), nGt d i : ℕ) : ℤ) = d.sum := by
  induction d with
  | nil => simp [nGt]
  | cons x d ih =>
    have hx := hd x (List.mem_cons_self ..)
    have h1 : ∀ i : ℕ, nGt (x :: d) i = nGt d i + if i < x.toNat then 1 else 0 := fun i => by
      have : (i : ℤ) < x ↔ i < x.toNat := by omega
      simp only [nGt, List.countP_cons, decide_eq_true_eq, this]
    simp_rw [h1]
    rw [Finset.sum_add_distrib, Nat.cast_add, ih fun y hy => hd y (List.mem_cons_of_mem _ hy), ← Finset.card_filter,
      show (Finset.range (m + 1)).filter (fun i => i < x.toNat) = Finset.range x.toNat by ext i; simp; omega, Finset.card_range, List.sum_cons]
    omega

theorem labelSum_zero {z : List ℕ} {m : ℕ} (hz : z.length = m + 1) (h0 : ∀ y ∈ z, y = 0) (f : ℕ → ℕ) : labelSum z m f 0 = ∑ i ∈ Finset.range (m + 1), f i := by
  unfold labelSum
  congr 1
  ext i
  simp only [Finset.mem_filter, Finset.mem_range, and_iff_left_iff_imp]
  intro hi
  rw [List.getElem?_eq_getElem (by omega), h0 _ (List.getElem_mem _)]

end counts

namespace BID
variable {alpha : ℝ} (F : SpecFun ℝ)

theorem zero_fitted {ω : Oracle ℝ} (hω : ω.Legal) (ha : 0 < alpha) {s : BID ℝ × ℕ} (hs : (BID.cls F).run log ω' (BID.init alpha 0, pos) ops = s) (hω' : ω'.Legal)
    {N : ℕ} (hN : IsMaxLabel s.1.d ((N : ℤ) - 1)) (hd : NonNegLabels s.1.d) {size : PySize} (hsz : size = .none ∨ ∃ n, size = .int n) :
    ∃ r t, BID.random F size ω s = (.ok r, t) ∧ IsGeometric (ω.beta s.2 (1 + (s.1.d.length : ℝ)) (alpha + ((s.1.d.sum : ℤ) : ℝ))) N r := by
  have hz : ZInv s.1 := by
    have := WeightCore.run_keeps (BID.z_stable hω' F) log ops (BID.init alpha 0, pos)
      ⟨rfl, nofun, .inl ⟨rfl, rfl⟩, 0, ⟨rfl, fun j hj => absurd hj (by simp [BID.init])⟩⟩
    rw [← hs]; exact this
  have hh := BID.reach_hyper (ω := ω') log pos ops F alpha 0
  rw [hs] at hh
  have h1N : 1 ≤ N := by have := hd _ hN.1; omega
  obtain ⟨M, rfl⟩ : ∃ M, N = M + 1 := ⟨N - 1, by omega⟩
  have hM : IsMaxLabel s.1.d (M : ℕ) := by
    have : ((M + 1 : ℕ) : ℤ) - 1 = (M : ℤ) := by push_cast; ring
    rwa [this] at hN
  obtain ⟨r, t, hr, rfl, hF⟩ := wp_total (BID.random_ok hω F s (by rw [hh.1]; exact ha) hd hN (.inl hh.2) hsz)
  obtain ⟨⟨vb, hi, h1, h2, ⟨is, h3, h4, h5⟩, -⟩, g1, g2, g3, g4⟩ := wp_of_ok hr (BID.random_fitted_draw F s hM)
  have hzt : ZInv t.1 := wp_of_ok hr (BID.random_z hω F size s hz)
  have hcut : ∀ y ∈ cutLabels s.1.dBase M, y = 0 := by
    intro y hy
    rcases List.mem_append.1 (List.mem_of_mem_take hy) with h | h
    · exact hz.dBase y h
    · exact List.eq_of_mem_replicate h
  have hlen := cutLabels_length s.1.dBase M
  have hlb : LabelsBelow s.1.d (M + 1) := fun y hy => ⟨hd y hy, by have := hM.2 y hy; push_cast; omega⟩
  have h0 := h1 0 ⟨(cutLabels s.1.dBase M)[0]'(by omega), List.getElem_mem _, Nat.zero_le _⟩
  rw [labelSum_zero hlen hcut, labelSum_zero hlen hcut, nEq_sum hlb, hh.1] at h0
  have e : ((∑ i ∈ Finset.range (M + 1), nGt s.1.d i : ℕ) : ℝ) = ((s.1.d.sum : ℤ) : ℝ) := by
    rw [← nGt_sum hlb]; push_cast; rfl
  rw [e, Nat.add_zero] at h0
  have hv0 : t.1.vBase[0]? = some (ω.beta s.2 (1 + (s.1.d.length : ℝ)) (alpha + ((s.1.d.sum : ℤ) : ℝ))) := by
    rw [h3, List.getElem?_append_left (by by_contra hc; rw [List.getElem?_eq_none (by omega)] at h0; cases h0)]
    exact h0
  have hv : ∀ y ∈ t.1.v, y = ω.beta s.2 (1 + (s.1.d.length : ℝ)) (alpha + ((s.1.d.sum : ℤ) : ℝ)) := by
    intro y hy
    obtain ⟨i, hi, rfl⟩ := List.mem_iff_getElem.1 hy
    have hi' : i < t.1.dBase.length := by rw [← g1]; exact hi
    have := g2 i _ (List.getElem?_eq_getElem hi')
    rw [hzt.dBase _ (List.getElem_mem _), hv0, List.getElem?_eq_getElem hi] at this
    simpa using this
  refine ⟨_, t, hr, ?_⟩
  have hl : t.1.v.length = M + 1 := by
    rw [g1]; exact hF.len
  rw [← hl, g4]
  exact stickWeights_const hv

theorem zero_free {ω : Oracle ℝ} (hω : ω.Legal) (ha : 0 < alpha) {s : BID ℝ × ℕ} (hs : (BID.cls F).run log ω' (BID.init alpha 0, pos) ops = s) (hω' : ω'.Legal)
    (hd : s.1.d = []) {n : ℕ} (hn : 1 ≤ n) : ∃ r t, BID.random F (.int n) ω s = (.ok r, t) ∧ IsGeometric (ω.beta s.2 1 alpha) n r := by
  have hz : ZInv s.1 := by
    have := WeightCore.run_keeps (BID.z_stable hω' F) log ops (BID.init alpha 0, pos)
      ⟨rfl, nofun, .inl ⟨rfl, rfl⟩, 0, ⟨rfl, fun j hj => absurd hj (by simp [BID.init])⟩⟩
    rw [← hs]; exact this
  have hh := BID.reach_hyper (ω := ω') log pos ops F alpha 0
  rw [hs] at hh
  suffices hw : wp ω (BID.random F (.int n)) (fun r t => r = stickWeights t.1.v ∧ ∀ y ∈ t.1.v, y = ω.beta s.2 1 alpha) (fun _ _ => False) s by
    obtain ⟨r, t, hr, h1, h2⟩ := wp_total hw
    refine ⟨r, t, hr, ?_⟩
    have hl := (C05_betaInDirichlet_partial (n := (n : ℤ)) (by exact_mod_cast hn) F s hd hr).1
    have hl' : r.length = n := by exact_mod_cast hl
    rw [← hl', h1, stickWeights_length]
    exact stickWeights_const h2
  unfold random
  rw [wp_bind, wp_self, if_neg (by rintro ⟨h, -⟩; cases h), wp_bind, wp_assign, if_pos (by rw [hd]; rfl), wp_bind]
  unfold complete
  rw [wp_bind, wp_self, wp_bind, wp_whenM]
  refine ⟨fun _ => ?_, fun h0 => absurd rfl h0⟩
  rw [wp_bind, wp_betaRep]
  refine ⟨fun hb => ?_, fun _ _ _ => ?_⟩
  · rcases hb with hb | hb | hb
    · exact absurd one_pos (not_lt.2 hb)
    · dsimp only at hb
      rw [hh.1] at hb
      exact absurd ha (not_lt.2 hb)
    · omega
  rw [wp_bind, wp_assign, wp_assign]
  simp only [PySize.toInt?]
  rw [wp_bind, wp_self, wp_bind]
  refine wp_mono (grow_z hω (x := ω.beta s.2 1 s.1.alpha) _ _ ⟨hz.a, hz.dBase, rfl, ⟨1, le_rfl, rfl⟩, nofun⟩) ?_ (fun _ _ h => h.elim)
  intro _ t ht
  rw [wp_assign, wp_bind, wp_self, wp_pure]
  refine ⟨rfl, fun y hy => ?_⟩
  rw [← hh.1]
  exact ht.v y hy

end BID

/-- `BetaInDirichlet` with `a = 0` (the default).  Missing: `a > 0`, see `C83_betaInDirichlet_refuted`. -/
theorem C83_betaInDirichlet_partial (F : SpecFun ℝ) (hω : ω.Legal) (hω' : ω'.Legal) {alpha : ℝ} (ha : 0 < alpha) {s s' : BID ℝ × ℕ}
    (hs : (BID.cls F).run log ω (BID.init alpha 0, pos) ops = s) (hs' : (BID.cls F).run log' ω' (BID.init alpha 0, pos') ops' = s')
    (hd' : s'.1.d = []) {size : PySize} (hsz : size = .none ∨ ∃ n, size = .int n) {N N' : ℕ} (hN : IsMaxLabel s.1.d ((N : ℤ) - 1)) (h : N ≤ N')
    (hd : LabelsBelow s.1.d N') :
    G.lawOf (BID.random F size) s N = (posterior (G.lawOf (BID.random F (.int N')) s' N') (labelLik s.1.d)).map (firstWeights h) := by
  have hnn : NonNegLabels s.1.d := fun x hx => (hd x hx).1
  have hsum : (0 : ℝ) ≤ ((s.1.d.sum : ℤ) : ℝ) := by exact_mod_cast List.sum_nonneg fun y hy => hnn y hy
  have h1 : 1 ≤ N' := by have := hnn _ hN.1; omega
  rw [G.lawOf_geo (a := 1 + (s.1.d.length : ℝ)) (b := alpha + ((s.1.d.sum : ℤ) : ℝ)) (by positivity) (by positivity)
      (fun u => BID.zero_fitted log ω pos ops F (G.oracle_legal u) ha hs hω hN hnn hsz),
    G.lawOf_geo (a := 1) (b := alpha) one_pos ha (fun u => BID.zero_free log' ω' pos' ops' F (G.oracle_legal u) ha hs' hω' hd' h1),
    geo_posterior one_pos ha h hd]

/-- `BetaInDirichlet` with `a > 0` and all labels equal to 0: whatever the generator does, `random` raises. -/
theorem C83_betaInDirichlet_refuted (F : SpecFun ℝ) {alpha a : ℝ} (ha : 0 < alpha) (h0 : 0 < a) (k : ℕ) :
    ∀ u, (BID.random F .none (G.oracle u) ((BID.cls F).run log ω (BID.init alpha a, pos) [.fit (List.replicate (k + 1) 0)])).1 = .error .valueError := by
  intro u
  exact C15_single_group_fails F (G.oracle u) _ ha h0.ne' (by change List.replicate (k + 1) (0 : ℤ) ≠ []; simp)
    (by change ∀ x ∈ List.replicate (k + 1) (0 : ℤ), x = 0; exact fun x hx => List.eq_of_mem_replicate hx)

section betaInBeta
variable {alpha a b p : ℝ} {m : PMethod} {s0 : BIB ℝ}

/-- `BetaInBeta(x=1)` after `fit` draws from the posterior of the documented geometric model with `p ~ Beta(a, b)`.  Missing: that an object without labels draws
from this model, see `C83_betaInBeta_one_refuted`. -/
theorem C83_betaInBeta_one_partial (hω : ω.Legal) (hi : BIB.init 1 alpha a b p m = .ok s0) (ha : 0 < alpha) (hab : 0 < a ∧ 0 < b) (hp : 0 ≤ p ∧ p ≤ 1)
    {s : BIB ℝ × ℕ} (hs : BIB.cls.run log ω (s0, pos) ops = s) (hne : s.1.d ≠ []) {size : PySize} {N N' : ℕ}
    (hN : size.toInt? = some (N : ℤ) ∨ (size = .none ∧ IsMaxLabel s.1.d ((N : ℤ) - 1))) (h : N ≤ N') (hd : LabelsBelow s.1.d N') :
    G.lawOf (BIB.random size) s N = (posterior ((betaMeasure a b).map (geoWeights N')) (labelLik s.1.d)).map (firstWeights h) := by
  have hnn : NonNegLabels s.1.d := fun x hx => (hd x hx).1
  have hsum : (0 : ℝ) ≤ ((s.1.d.sum : ℤ) : ℝ) := by exact_mod_cast List.sum_nonneg fun y hy => hnn y hy
  have ha' := hab.1
  have hb' := hab.2
  have hv : BIB.Valid s.1 := by
    rw [← hs] at hnn ⊢
    exact BIB.reach_valid log pos ops hω hi ⟨zero_le_one, le_rfl⟩ ha hab hp (.inr (.inr rfl)) hnn
  obtain ⟨e1, e2, e3, e4, e5⟩ := BIB.hyper_reach log pos ops hi hs
  rw [geo_posterior hab.1 hab.2 h hd]
  refine G.lawOf_geo (by positivity) (by positivity) fun u => ?_
  obtain ⟨r, t, h1, _, h2⟩ := wp_total (BIB.random_one_fitted (G.oracle_legal u) s e1 hv hne hN)
  rw [e3, e4] at h2
  exact ⟨r, t, h1, h2⟩

/-- An object with `x = 1` without labels draws weights with its stored `p`, and the law after `fit([0])` is not the posterior of that, for every stored `p > 0`. -/
theorem C83_betaInBeta_one_refuted (hω : ω.Legal) (hi : BIB.init 1 alpha a b p m = .ok s0) (ha : 0 < alpha) (hab : 0 < a ∧ 0 < b) (hp : 0 < p ∧ p ≤ 1) :
    G.lawOf (BIB.random .none) (BIB.cls.run log ω (s0, pos) [.fit [0]]) 1 ≠ posterior (G.lawOf (BIB.random (.int 1)) (s0, pos') 1) (labelLik [0]) := by
  have hd : LabelsBelow [0] 1 := by intro x hx; simp at hx; omega
  have hs0 : (BIB.cls.run log ω (s0, pos) [.fit [0]]).1.d = [0] := rfl
  have ha' := hab.1
  have hb' := hab.2
  obtain ⟨e1, e2, e3, e4, e5⟩ := BIB.hyper_reach log pos [.fit [0]] (ω := ω) hi rfl
  have hv : BIB.Valid (BIB.cls.run log ω (s0, pos) [.fit [0]]).1 := by
    exact BIB.reach_valid log pos _ hω hi ⟨zero_le_one, le_rfl⟩ ha hab ⟨hp.1.le, hp.2⟩ (.inr (.inr rfl)) (by rw [hs0]; exact fun x hx => (hd x hx).1)
  have h1 : G.lawOf (BIB.random .none) (BIB.cls.run log ω (s0, pos) [.fit [0]]) 1 = (betaMeasure (a + 1) b).map (geoWeights 1) := by
    refine G.lawOf_geo (by positivity) hb' fun u => ?_
    obtain ⟨r, t, h1, _, h2⟩ := wp_total (BIB.random_one_fitted (G.oracle_legal u) _ e1 hv (N := 1) (by rw [hs0]; simp) (.inr ⟨rfl, by rw [hs0]; simp [IsMaxLabel]⟩))
    rw [e3, e4, hs0] at h2
    refine ⟨r, t, h1, ?_⟩
    simpa using h2
  have h2 : G.lawOf (BIB.random (.int 1)) (s0, pos') 1 = Measure.dirac (geoWeights 1 p) := by
    unfold RandGen.lawOf
    have : (fun u : ℕ → G.Seed => vec 1 (match (BIB.random (.int 1) (G.oracle u) (s0, pos')).1 with | .ok r => r | .error _ => [])) = fun _ => geoWeights 1 p := by
      funext u
      obtain ⟨r, t, h1, _, _, _, h2⟩ := C14_unfitted_partial (ω := G.oracle u) id pos' [] hi (s := (s0, pos')) rfl (by rw [(BIB.init_eq hi).1]) (size := .int 1) le_rfl rfl
      rw [h1]
      funext j
      change (r[(j : ℕ)]?).getD 0 = _
      rw [h2.2 j j.2, (BIB.init_eq hi).1]
      rfl
    refine (congrArg (fun f => G.P.map f) this).trans ?_
    rw [Measure.map_const, measure_univ, one_smul]
  intro h
  rw [h1, h2] at h
  have hL : labelLik [0] (geoWeights 1 p) = ENNReal.ofReal p := by simp [labelLik, geoWeights]
  have hm : MeasurableSet {w : Fin 1 → ℝ | w 0 = p} := measurableSet_eq_fun (measurable_pi_apply 0) measurable_const
  have h3 : posterior (Measure.dirac (geoWeights 1 p)) (labelLik [0]) {w | w 0 = p} = 1 := by
    have h0 : ENNReal.ofReal p ≠ 0 := (ENNReal.ofReal_pos.2 hp.1).ne'
    rw [posterior, Measure.smul_apply, withDensity_apply _ hm, lintegral_dirac' _ (measurable_labelLik _), hL, restrict_dirac' hm,
      if_pos (by simp [geoWeights]), lintegral_dirac' _ (measurable_labelLik _), hL, smul_eq_mul, ENNReal.inv_mul_cancel h0 ENNReal.ofReal_ne_top]
  rw [← h, Measure.map_apply (measurable_geoWeights 1) hm] at h3
  have h4 : geoWeights 1 ⁻¹' {w : Fin 1 → ℝ | w 0 = p} = {p} := by ext x; simp [geoWeights]
  rw [h4, betaMeasure, withDensity_absolutelyContinuous _ _ (measure_singleton p)] at h3
  exact zero_ne_one h3

end betaInBeta

/-! Non-vacuity: the objects exist, with and without labels. -/
example (F : SpecFun ℚ) : ((BID.cls F).run id (demo : Oracle ℚ) (BID.init 1 0, 0) [.random (.int 2), .fit [0, 2, 2]]).1.d = [0, 2, 2] ∧
    ((BID.cls F).run id (demo : Oracle ℚ) (BID.init 1 0, 0) [.random (.int 2), .fit [0], .random (.int 1), .reset]).1.d = [] ∧
    IsMaxLabel [0, 2, 2] (((3 : ℕ) : ℤ) - 1) := ⟨rfl, rfl, by simp [IsMaxLabel]⟩
example : BIB.init (1 : ℝ) 1 1 1 (1 / 2) .geometric = .ok ⟨1, 1, 1, 1, 1 / 2, .geometric, [], [], []⟩ ∧
    (BIB.cls.run (id : ℚ → ℚ) (demo : Oracle ℚ) (⟨1, 1, 1, 1, 1 / 2, .geometric, [], [], []⟩, 0) [.random (.int 2), .fit [0, 2]]).1.d = [0, 2] := by
  refine ⟨?_, by decide +kernel⟩
  unfold BIB.init
  rw [if_neg (by decide)]

end Verif
