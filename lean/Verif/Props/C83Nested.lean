import Verif.Props.C83
import Verif.Props.C75

/-!
# C83 for `BetaInBeta` with `0 < x < 1`

Write `c = x/(1-x)`.  With `p_method="static"` and one stored `p`, `random` draws from the posterior law (`C83_betaInBeta_static_partial`).  With the default
`p_method="geometric"` it does not: not from the posterior of the weights that the object without labels draws, with its stored `p`
(`C83_betaInBeta_refuted`), and not from the posterior of the documented model with `p ~ Beta(a, b)` either (`C83_betaInBeta_nested_refuted`).
-/

set_option linter.unusedSectionVars false

namespace Verif
open MeasureTheory ProbabilityTheory Spec
open scoped ENNReal

variable (G : RandGen) (log log' : ℝ → ℝ) (ω ω' : Oracle ℝ) (pos pos' : ℕ) (ops ops' : List (WOp ℝ)) {x alpha a b p : ℝ} {m : PMethod} {s0 : BIB ℝ}

namespace BIB

/-- Without labels no `p` is drawn: all sticks have the stored one. -/
theorem random_free {ω : Oracle ℝ} {s : BIB ℝ × ℕ} (h : Valid s.1) (hx : s.1.x < 1) (hd : s.1.d = []) {n : ℕ} (hn : 1 ≤ n) :
    ∃ r t, random (.int n) ω s = (.ok r, t) ∧ IsStick t.1.v r ∧ SticksDrawn ω s.2 n (fun _ => priorPar s.1 s.1.p) t.1.v := by
  have hpos := priorPar_pos h hx ⟨h.p0, h.p1⟩
  suffices hh : wp ω (random (.int n)) (fun r t => r = stickWeights t.1.v ∧ SticksDrawn ω s.2 n (fun _ => priorPar s.1 s.1.p) t.1.v) (fun _ _ => False) s by
    obtain ⟨r, t, h1, h2, h3⟩ := wp_total hh
    exact ⟨r, t, h1, h2 ▸ stickWeights_isStick _, h3⟩
  unfold random
  rw [wp_bind, wp_self, if_neg (by rintro ⟨h, -⟩; cases h), wp_bind, wp_assign, if_pos (by rw [hd]; rfl)]
  unfold complete
  rw [checkSize_ok (n := n) rfl, wp_bind, wp_lift]
  refine ⟨fun _ _ => ?_, nofun⟩
  rw [wp_bind, wp_self, wp_bind, wp_whenM]
  refine ⟨fun hc => absurd rfl hc, fun _ => ?_⟩
  unfold newSticks
  simp only [PySize.toInt?]
  wp_simp
  refine ⟨fun _ => ⟨fun _ => ⟨fun hb => ?_, fun _ _ _ => ?_⟩, fun hc => absurd hx hc⟩, fun hlt => by simp at hlt; omega⟩
  · rcases hb with hb | hb | hb
    · exact absurd hpos.1 (not_lt.2 hb)
    · exact absurd hpos.2 (not_lt.2 hb)
    · simp at hb; omega
  · refine ⟨trivial, ?_⟩
    have e : ((n : ℤ) - (([] : List ℝ).length : ℤ)).toNat = n := by simp
    have e2 : List.replicate n (priorPar s.1 s.1.p) = (List.range n).map (fun _ => priorPar s.1 s.1.p) := by simp
    rw [e]
    show SticksDrawn _ _ _ _ (M.betaValues ω _ (List.replicate n (priorPar s.1 s.1.p)))
    rw [e2]
    exact sticksDrawn_betaValues _ _ _ _

theorem hyper_reach {ω : Oracle ℝ} (hi : BIB.init x alpha a b p m = .ok s0) {s : BIB ℝ × ℕ} (hs : BIB.cls.run log ω (s0, pos) ops = s) :
    s.1.x = x ∧ s.1.alpha = alpha ∧ s.1.a = a ∧ s.1.b = b ∧ s.1.pMethod = m := by
  have e := WeightCore.run_keeps (BIB.hyper_stable (ω := ω) (· = (x, alpha, a, b, m))) log ops (s0, pos) (by rw [(BIB.init_eq hi).1]; rfl)
  change BIB.hyper (BIB.cls.run log ω (s0, pos) ops).1 = _ at e
  rw [hs] at e
  simp only [BIB.hyper, Prod.mk.injEq] at e
  exact e

theorem law_free {s : BIB ℝ × ℕ} (h : Valid s.1) (hx : s.1.x < 1) (hd : s.1.d = []) {n : ℕ} (hn : 1 ≤ n) :
    G.lawOf (random (.int n)) s n = (betaSticks (fun _ : Fin n => priorPar s.1 s.1.p)).map breakStick := by
  have hpos := priorPar_pos h hx ⟨h.p0, h.p1⟩
  refine G.lawOf_sticks (inj_add s.2) (f := fun _ => priorPar s.1 s.1.p) (fun _ _ => hpos) (fun t => t.v) fun u => ?_
  obtain ⟨r, t, h1, h2, h3⟩ := random_free (ω := G.oracle u) h hx hd hn
  exact ⟨r, t, h1, h2, h3.draw⟩

theorem law_static {s : BIB ℝ × ℕ} (h : Valid s.1) (hx : 0 < s.1.x ∧ s.1.x < 1) (hd : s.1.d ≠ []) (hm : s.1.pMethod = .static) {size : PySize} {n N : ℕ}
    (hn : EffSize s.1.d size n) (hN : IsMaxLabel s.1.d ((N : ℤ) - 1)) :
    G.lawOf (random size) s n = (betaSticks (fun j : Fin n => postPar s.1 s.1.p j)).map breakStick := by
  have hpos := priorPar_pos h hx.2 ⟨h.p0, h.p1⟩
  have hpp : ∀ j, 0 < (postPar s.1 s.1.p j).1 ∧ 0 < (postPar s.1 s.1.p j).2 := fun j =>
    ⟨add_pos_of_pos_of_nonneg hpos.1 (Nat.cast_nonneg _), add_pos_of_pos_of_nonneg hpos.2 (Nat.cast_nonneg _)⟩
  refine G.lawOf_sticks (inj_add s.2) (f := postPar s.1 s.1.p) (fun j _ => hpp j) (fun t => t.v) fun u => ?_
  have hnx : ∀ v q i, nextP (G.oracle u) s.1 v q i = (q, i) := fun v q i => by simp [nextP, hm]
  obtain ⟨r, t, v1, v2, h1, h2, h3, h4, h5, h6, -⟩ := random_next (G.oracle_legal u) h hx hd hn hN
  simp only [hnx] at h4 h5 h6
  refine ⟨r, t, h1, h2 ▸ stickWeights_isStick _, fun j hj => ?_⟩
  rw [h3]
  by_cases hj1 : j < min n N
  · rw [List.getElem?_append_left (by rw [h4.length]; exact hj1)]
    exact h4.draw j hj1
  · rw [List.getElem?_append_right (by rw [h4.length]; omega), h4.length, h6.draw (j - min n N) (by omega), h5]
    have hNj : N ≤ j := by omega
    have c1 : nEq s.1.d j = 0 := by
      simp only [nEq, List.countP_eq_zero, decide_eq_true_eq]
      intro y hy
      have := hN.2 y hy
      omega
    have c2 : nGt s.1.d j = 0 := by
      simp only [nGt, List.countP_eq_zero, decide_eq_true_eq]
      intro y hy
      have := hN.2 y hy
      omega
    have e : s.2 + min n N + (j - min n N) = s.2 + j := by omega
    simp only [postPar, priorPar, c1, c2, Nat.cast_zero, add_zero, e]

end BIB

theorem isMaxLabel_of_ne {d : List ℤ} (hd : d ≠ []) (hnn : NonNegLabels d) : ∃ N : ℕ, IsMaxLabel d ((N : ℤ) - 1) := by
  cases hb : Py.maxInt d with
  | ok k =>
    have hk := maxInt_eq_ok_iff.1 hb
    have := hnn k hk.1
    exact ⟨(k + 1).toNat, by rw [show (((k + 1).toNat : ℕ) : ℤ) - 1 = k by omega]; exact hk⟩
  | error e =>
    cases h' : d with
    | nil => exact absurd h' hd
    | cons y ys => rw [h'] at hb; simp [Py.maxInt] at hb

/-- `BetaInBeta(p_method="static")` with `0 < x < 1`: missing are the other values of `p_method`, see `C83_betaInBeta_refuted`, and stored values of `p` that
differ (the method `complete` of an object without labels draws a new one). -/
theorem C83_betaInBeta_static_partial (hω : ω.Legal) (hω' : ω'.Legal) (hi : BIB.init x alpha a b p .static = .ok s0) (hx : 0 < x ∧ x < 1) (ha : 0 < alpha)
    (hab : 0 < a ∧ 0 < b) (hp : 0 ≤ p ∧ p ≤ 1) {s s' : BIB ℝ × ℕ} (hs : BIB.cls.run log ω (s0, pos) ops = s) (hs' : BIB.cls.run log' ω' (s0, pos') ops' = s')
    (hd0 : s.1.d ≠ []) (hd' : s'.1.d = []) (hpp : s.1.p = s'.1.p) {size : PySize} {N N' : ℕ} (hN : EffSize s.1.d size N) (h : N ≤ N') (hd : LabelsBelow s.1.d N') :
    G.lawOf (BIB.random size) s N = (posterior (G.lawOf (BIB.random (.int N')) s' N') (labelLik s.1.d)).map (firstWeights h) := by
  have hnn : NonNegLabels s.1.d := fun y hy => (hd y hy).1
  have v1 : BIB.Valid s.1 := by
    have := BIB.reach_valid log pos ops hω hi ⟨hx.1.le, hx.2.le⟩ ha hab hp (.inl nofun) (by rw [hs]; exact hnn)
    rwa [hs] at this
  have v2 : BIB.Valid s'.1 := by
    have := BIB.reach_valid log' pos' ops' hω' hi ⟨hx.1.le, hx.2.le⟩ ha hab hp (.inl nofun) (by rw [hs', hd']; exact nofun)
    rwa [hs'] at this
  obtain ⟨e1, e2, e3, e4, e5⟩ := BIB.hyper_reach log pos ops hi hs
  obtain ⟨f1, f2, f3, f4, f5⟩ := BIB.hyper_reach log' pos' ops' hi hs'
  obtain ⟨M, hM⟩ := isMaxLabel_of_ne hd0 hnn
  have hN' : 1 ≤ N' := by
    have := hd _ hM.1
    omega
  rw [BIB.law_static G v1 (by rw [e1]; exact hx) hd0 e5 hN hM, BIB.law_free G v2 (by rw [f1]; exact hx.2) hd' hN']
  have hpos := BIB.priorPar_pos v2 (by rw [f1]; exact hx.2) ⟨v2.p0, v2.p1⟩
  rw [posterior_firstSticks h (f := fun _ => BIB.priorPar s'.1 s'.1.p) (fun _ => hpos) hd]
  simp only [BIB.postPar, BIB.priorPar, e1, e2, f1, f2, hpp]

section moments

theorem RandGen.beta_mean_at {a b : ℝ} (ha : 0 < a) (hb : 0 < b) (i : ℕ) : ∫ u, G.beta a b (u i) ∂G.P = a / (a + b) := by
  rw [← G.beta_mean ha hb, ← G.map_seed i, integral_map (measurable_pi_apply i).aemeasurable (G.measurable_beta _ _).aestronglyMeasurable]

theorem RandGen.beta_sq {a b : ℝ} (ha : 0 < a) (hb : 0 < b) : ∫ s, G.beta a b s ^ 2 ∂G.ν = a * (a + 1) / ((a + b) * (a + b + 1)) := by
  have h : ∫ s, G.beta a b s ^ 2 ∂G.ν = ∫ y, y ^ 2 ∂betaMeasure a b := by
    rw [← G.beta_law a b ha hb, integral_map (G.measurable_beta a b).aemeasurable (by fun_prop)]
  rw [h, integral_betaMeasure ha hb]
  have := integral_beta_moment ha hb 2 0
  simp only [pow_zero, mul_one, Nat.cast_ofNat, Nat.cast_zero, add_zero] at this
  rw [this, show a + 2 = a + 1 + 1 by ring]
  have e1 := beta_succ ha hb
  have e2 := beta_succ (add_pos ha one_pos) hb
  have h0 := (beta_pos ha hb).ne'
  have h1 := (beta_pos (add_pos ha one_pos) hb).ne'
  have : ProbabilityTheory.beta (a + 1 + 1) b / ProbabilityTheory.beta a b =
      (ProbabilityTheory.beta (a + 1 + 1) b / ProbabilityTheory.beta (a + 1) b) * (ProbabilityTheory.beta (a + 1) b / ProbabilityTheory.beta a b) := by field_simp
  rw [this, e1, e2]
  have : a + b ≠ 0 := (add_pos ha hb).ne'
  have : a + b + 1 ≠ 0 := by positivity
  have : a + 1 + b ≠ 0 := by positivity
  field_simp
  ring

theorem RandGen.beta_sq_at {a b : ℝ} (ha : 0 < a) (hb : 0 < b) (i : ℕ) : ∫ u, G.beta a b (u i) ^ 2 ∂G.P = a * (a + 1) / ((a + b) * (a + b + 1)) := by
  rw [← G.beta_sq ha hb, ← G.map_seed i, integral_map (measurable_pi_apply i).aemeasurable ((G.measurable_beta _ _).pow_const 2).aestronglyMeasurable]

/-- A stick of the documented model: `p ~ Beta(a, b)`, then the stick given `p`, with counts `e`, `g` added. -/
noncomputable def nestedStick (c alpha a b e g : ℝ) (i : ℕ) (u : ℕ → G.Seed) : ℝ :=
  G.beta (1 + c * G.beta a b (u i) + e) (alpha + c * (1 - G.beta a b (u i)) + g) (u (i + 1))

variable {c e g : ℝ}

theorem nestedStick_meas (i : ℕ) : Measurable (nestedStick G c alpha a b e g i) := by
  unfold nestedStick
  have h : Measurable (fun u : ℕ → G.Seed => G.beta a b (u i)) := (G.measurable_beta _ _).comp (measurable_pi_apply i)
  exact G.beta_meas.comp ((((measurable_const.add (h.const_mul c)).add_const e).prodMk ((measurable_const.add ((measurable_const.sub h).const_mul c)).add_const g)).prodMk
    (measurable_pi_apply (i + 1)))

theorem nestedStick_unit (i : ℕ) (u : ℕ → G.Seed) : 0 ≤ nestedStick G c alpha a b e g i u ∧ nestedStick G c alpha a b e g i u ≤ 1 := G.beta_unit _ _ _

theorem nestedStick_kernel : Measurable (Function.uncurry fun (q : ℝ) (y : G.Seed) => G.beta (1 + c * q + e) (alpha + c * (1 - q) + g) y) := by
  have h1 : Measurable (fun z : ℝ × G.Seed => 1 + c * z.1 + e) := (measurable_const.add (measurable_fst.const_mul c)).add_const e
  have h2 : Measurable (fun z : ℝ × G.Seed => alpha + c * (1 - z.1) + g) := (measurable_const.add ((measurable_const.sub measurable_fst).const_mul c)).add_const g
  exact G.beta_meas.comp ((h1.prodMk h2).prodMk measurable_snd)

variable (hc : 0 < c) (ha : 0 < alpha) (hab : 0 < a ∧ 0 < b) (he : 0 ≤ e) (hg : 0 ≤ g)
include hc ha hab he hg

theorem nestedStick_pos (u : ℕ → G.Seed) (i : ℕ) : 0 < 1 + c * G.beta a b (u i) + e ∧ 0 < alpha + c * (1 - G.beta a b (u i)) + g := by
  have h := G.beta_unit a b (u i)
  have h1 := mul_nonneg hc.le h.1
  have h2 := mul_nonneg hc.le (sub_nonneg.2 h.2)
  constructor <;> linarith

theorem nestedStick_mean (i : ℕ) : ∫ u, nestedStick G c alpha a b e g i u ∂G.P = (1 + c * (a / (a + b)) + e) / (1 + alpha + c + e + g) := by
  have hq : Measurable (fun u : ℕ → G.Seed => G.beta a b (u i)) := (G.measurable_beta _ _).comp (measurable_pi_apply i)
  have s1 : ∫ u, nestedStick G c alpha a b e g i u ∂G.P = ∫ u, ∫ y, G.beta (1 + c * G.beta a b (u i) + e) (alpha + c * (1 - G.beta a b (u i)) + g) y ∂G.ν ∂G.P :=
    G.integral_before le_rfl hq (fun u u' h => by dsimp only; rw [h i (by omega)]) (f := fun q y => G.beta (1 + c * q + e) (alpha + c * (1 - q) + g) y)
      (nestedStick_kernel G) (C := 1) (fun z y => by rw [abs_of_nonneg (G.beta_unit _ _ _).1]; exact (G.beta_unit _ _ _).2)
  have s2 : ∀ u : ℕ → G.Seed, ∫ y, G.beta (1 + c * G.beta a b (u i) + e) (alpha + c * (1 - G.beta a b (u i)) + g) y ∂G.ν = (1 + c * G.beta a b (u i) + e) / (1 + alpha + c + e + g) := by
    intro u
    have h := nestedStick_pos G hc ha hab he hg u i
    rw [G.beta_mean h.1 h.2]
    congr 1
    ring
  have i1 : Integrable (fun u => G.beta a b (u i)) G.P := Integrable.of_bound hq.aestronglyMeasurable 1
    (Filter.Eventually.of_forall fun u => by rw [Real.norm_eq_abs, abs_of_nonneg (G.beta_unit _ _ _).1]; exact (G.beta_unit _ _ _).2)
  rw [s1]
  simp_rw [s2]
  have i3 : Integrable (fun u => 1 + c * G.beta a b (u i)) G.P := (integrable_const _).add (i1.const_mul c)
  rw [integral_div, integral_add i3 (integrable_const _), integral_add (integrable_const _) (i1.const_mul c), integral_const_mul,
    RandGen.beta_mean_at G hab.1 hab.2]
  simp

theorem nestedStick_sq (i : ℕ) : ∫ u, nestedStick G c alpha a b e g i u ^ 2 ∂G.P =
    ((1 + e) * (2 + e) + (3 + 2 * e) * c * (a / (a + b)) + c ^ 2 * (a * (a + 1) / ((a + b) * (a + b + 1)))) / ((1 + alpha + c + e + g) * (2 + alpha + c + e + g)) := by
  have hq : Measurable (fun u : ℕ → G.Seed => G.beta a b (u i)) := (G.measurable_beta _ _).comp (measurable_pi_apply i)
  have s1 : ∫ u, nestedStick G c alpha a b e g i u ^ 2 ∂G.P = ∫ u, ∫ y, G.beta (1 + c * G.beta a b (u i) + e) (alpha + c * (1 - G.beta a b (u i)) + g) y ^ 2 ∂G.ν ∂G.P :=
    G.integral_before le_rfl hq (fun u u' h => by dsimp only; rw [h i (by omega)]) (f := fun q y => G.beta (1 + c * q + e) (alpha + c * (1 - q) + g) y ^ 2)
      ((nestedStick_kernel G).pow_const 2) (C := 1) (fun z y => by
        rw [abs_of_nonneg (sq_nonneg _)]
        exact pow_le_one₀ (G.beta_unit _ _ _).1 (G.beta_unit _ _ _).2)
  have s2 : ∀ u : ℕ → G.Seed, ∫ y, G.beta (1 + c * G.beta a b (u i) + e) (alpha + c * (1 - G.beta a b (u i)) + g) y ^ 2 ∂G.ν =
      (((1 + e) * (2 + e) + (3 + 2 * e) * c * G.beta a b (u i)) + c ^ 2 * G.beta a b (u i) ^ 2) / ((1 + alpha + c + e + g) * (2 + alpha + c + e + g)) := by
    intro u
    have h := nestedStick_pos G hc ha hab he hg u i
    rw [RandGen.beta_sq G h.1 h.2]
    congr 1 <;> ring
  have i1 : Integrable (fun u => G.beta a b (u i)) G.P := Integrable.of_bound hq.aestronglyMeasurable 1
    (Filter.Eventually.of_forall fun u => by rw [Real.norm_eq_abs, abs_of_nonneg (G.beta_unit _ _ _).1]; exact (G.beta_unit _ _ _).2)
  have i2 : Integrable (fun u => G.beta a b (u i) ^ 2) G.P := Integrable.of_bound (hq.pow_const 2).aestronglyMeasurable 1
    (Filter.Eventually.of_forall fun u => by
      rw [Real.norm_eq_abs, abs_of_nonneg (sq_nonneg _)]
      exact pow_le_one₀ (G.beta_unit _ _ _).1 (G.beta_unit _ _ _).2)
  rw [s1]
  simp_rw [s2]
  have i3 : Integrable (fun u => (1 + e) * (2 + e) + (3 + 2 * e) * c * G.beta a b (u i)) G.P := (integrable_const _).add (i1.const_mul _)
  rw [integral_div, integral_add i3 (i2.const_mul _), integral_add (integrable_const _) (i1.const_mul _), integral_const, integral_const_mul, integral_const_mul,
    RandGen.beta_mean_at G hab.1 hab.2, RandGen.beta_sq_at G hab.1 hab.2]
  simp

end moments

/-- The law of the first weight with the default method. -/
theorem BIB.law_geometric {s : BIB ℝ × ℕ} (h : Valid s.1) (hx : 0 < s.1.x ∧ s.1.x < 1) (hd : s.1.d ≠ []) (hm : s.1.pMethod = .geometric) :
    G.lawOf (random (.int 1)) s 1 = (G.P.map (nestedStick G (s.1.x / (1 - s.1.x)) s.1.alpha (s.1.a + (s.1.d.length : ℝ)) (s.1.b + ((s.1.d.sum : ℤ) : ℝ)) (nEq s.1.d 0) (nGt s.1.d 0) s.2)).map oneWeight := by
  obtain ⟨N, hN⟩ := isMaxLabel_of_ne hd h.labels
  have hN1 : 1 ≤ N := by
    have := h.labels _ hN.1
    omega
  rw [Measure.map_map measurable_oneWeight (nestedStick_meas G s.2)]
  unfold RandGen.lawOf
  congr 1
  funext u
  have hnx : ∀ v q i, nextP (G.oracle u) s.1 v q i = ((G.oracle u).beta i (s.1.a + (s.1.d.length : ℝ)) (s.1.b + ((s.1.d.sum : ℤ) : ℝ)), i + 1) := fun v q i => by simp [nextP, hm]
  obtain ⟨r, t, v1, v2, h1, h2, h3, h4, h5, h6, -⟩ := random_next (G.oracle_legal u) h hx hd (size := .int 1) (n := 1) (.inl ⟨rfl, le_rfl⟩) hN
  simp only [hnx, min_eq_left hN1] at h4 h5 h6
  have h7 := h4.draw 0 (by omega)
  have h8 : t.1.v[0]? = some (nestedStick G (s.1.x / (1 - s.1.x)) s.1.alpha (s.1.a + (s.1.d.length : ℝ)) (s.1.b + ((s.1.d.sum : ℤ) : ℝ)) (nEq s.1.d 0) (nGt s.1.d 0) s.2 u) := by
    rw [h3, List.getElem?_append_left (by rw [h4.length]; omega), h7]
    rfl
  rw [h1]
  funext j
  have : j = 0 := Subsingleton.elim _ _
  subst this
  change (r[0]?).getD 0 = _
  rw [h2, (stickWeights_isStick t.1.v).2 0 _ h8]
  simp [oneWeight]

/-- The mean of the first weight with the default method. -/
theorem BIB.mean_geometric {s : BIB ℝ × ℕ} (h : Valid s.1) (hx : 0 < s.1.x ∧ s.1.x < 1) (hd : s.1.d ≠ []) (hm : s.1.pMethod = .geometric) :
    ∫ w, w 0 ∂G.lawOf (random (.int 1)) s 1 =
      (1 + s.1.x / (1 - s.1.x) * ((s.1.a + (s.1.d.length : ℝ)) / (s.1.a + (s.1.d.length : ℝ) + (s.1.b + ((s.1.d.sum : ℤ) : ℝ)))) + nEq s.1.d 0) /
        (1 + s.1.alpha + s.1.x / (1 - s.1.x) + nEq s.1.d 0 + nGt s.1.d 0) := by
  have hc : 0 < s.1.x / (1 - s.1.x) := div_pos hx.1 (sub_pos.2 hx.2)
  rw [BIB.law_geometric G h hx hd hm, integral_map measurable_oneWeight.aemeasurable (measurable_pi_apply 0).aestronglyMeasurable,
    integral_map (nestedStick_meas G s.2).aemeasurable (show Measurable (fun x => oneWeight x 0) from measurable_id).aestronglyMeasurable]
  exact nestedStick_mean G hc h.alpha (geoParams_pos h) (Nat.cast_nonneg _) (Nat.cast_nonneg _) s.2

/-- `BetaInBeta` with the default method, any parameters and labels: the law of the first weight is the posterior law only if the `p` stored by the object without labels
happens to be `(a + n) / (a + b + n + Σ d)`. -/
theorem C83_betaInBeta_geometric (hω : ω.Legal) (hω' : ω'.Legal) (hi : BIB.init x alpha a b p .geometric = .ok s0) (hx : 0 < x ∧ x < 1) (ha : 0 < alpha)
    (hab : 0 < a ∧ 0 < b) (hp : 0 ≤ p ∧ p ≤ 1) {s s' : BIB ℝ × ℕ} (hs : BIB.cls.run log ω (s0, pos) ops = s) (hs' : BIB.cls.run log' ω' (s0, pos') ops' = s')
    (hd0 : s.1.d ≠ []) (hd' : s'.1.d = []) {N' : ℕ} (h : 1 ≤ N') (hd : LabelsBelow s.1.d N')
    (heq : G.lawOf (BIB.random (.int 1)) s 1 = (posterior (G.lawOf (BIB.random (.int N')) s' N') (labelLik s.1.d)).map (firstWeights h)) :
    s'.1.p = (a + (s.1.d.length : ℝ)) / (a + (s.1.d.length : ℝ) + (b + ((s.1.d.sum : ℤ) : ℝ))) := by
  have hnn : NonNegLabels s.1.d := fun y hy => (hd y hy).1
  have v1 : BIB.Valid s.1 := by
    have := BIB.reach_valid log pos ops hω hi ⟨hx.1.le, hx.2.le⟩ ha hab hp (.inl nofun) (by rw [hs]; exact hnn)
    rwa [hs] at this
  have v2 : BIB.Valid s'.1 := by
    have := BIB.reach_valid log' pos' ops' hω' hi ⟨hx.1.le, hx.2.le⟩ ha hab hp (.inl nofun) (by rw [hs', hd']; exact nofun)
    rwa [hs'] at this
  obtain ⟨e1, e2, e3, e4, e5⟩ := BIB.hyper_reach log pos ops hi hs
  obtain ⟨f1, f2, f3, f4, f5⟩ := BIB.hyper_reach log' pos' ops' hi hs'
  have hc : 0 < x / (1 - x) := div_pos hx.1 (sub_pos.2 hx.2)
  have m1 := BIB.mean_geometric G v1 (by rw [e1]; exact hx) hd0 e5
  have hpos := BIB.priorPar_pos v2 (by rw [f1]; exact hx.2) ⟨v2.p0, v2.p1⟩
  have hpos2 : 0 < (BIB.priorPar s'.1 s'.1.p).1 + (nEq s.1.d 0 : ℝ) ∧ 0 < (BIB.priorPar s'.1 s'.1.p).2 + (nGt s.1.d 0 : ℝ) :=
    ⟨add_pos_of_pos_of_nonneg hpos.1 (Nat.cast_nonneg _), add_pos_of_pos_of_nonneg hpos.2 (Nat.cast_nonneg _)⟩
  rw [heq, BIB.law_free G v2 (by rw [f1]; exact hx.2) hd' h, posterior_firstSticks h (f := fun _ => BIB.priorPar s'.1 s'.1.p) (fun _ => hpos) hd] at m1
  have ef : (fun j : Fin 1 => ((BIB.priorPar s'.1 s'.1.p).1 + (nEq s.1.d j : ℝ), (BIB.priorPar s'.1 s'.1.p).2 + (nGt s.1.d j : ℝ))) =
      fun _ => ((BIB.priorPar s'.1 s'.1.p).1 + (nEq s.1.d 0 : ℝ), (BIB.priorPar s'.1 s'.1.p).2 + (nGt s.1.d 0 : ℝ)) := by
    funext j
    have : j = 0 := Subsingleton.elim _ _
    subst this
    simp
  rw [ef, oneStick hpos2, integral_map measurable_oneWeight.aemeasurable (measurable_pi_apply 0).aestronglyMeasurable] at m1
  have m2 := betaMeasure_mean hpos2.1 hpos2.2
  rw [show (∫ y, oneWeight y 0 ∂betaMeasure ((BIB.priorPar s'.1 s'.1.p).1 + (nEq s.1.d 0 : ℝ)) ((BIB.priorPar s'.1 s'.1.p).2 + (nGt s.1.d 0 : ℝ))) = _ from m2] at m1
  simp only [BIB.priorPar, e1, e2, e3, e4, f1, f2] at m1
  have hD : 0 < 1 + alpha + x / (1 - x) + (nEq s.1.d 0 : ℝ) + (nGt s.1.d 0 : ℝ) := by positivity
  rw [show 1 + x / (1 - x) * s'.1.p + (nEq s.1.d 0 : ℝ) + (alpha + x / (1 - x) * (1 - s'.1.p) + (nGt s.1.d 0 : ℝ)) = 1 + alpha + x / (1 - x) + (nEq s.1.d 0 : ℝ) + (nGt s.1.d 0 : ℝ) by ring,
    div_left_inj' hD.ne'] at m1
  have m3 : x / (1 - x) * s'.1.p = x / (1 - x) * ((a + (s.1.d.length : ℝ)) / (a + (s.1.d.length : ℝ) + (b + ((s.1.d.sum : ℤ) : ℝ)))) := by linarith
  exact mul_left_cancel₀ hc.ne' m3

theorem posterior_integral {X : Type*} [MeasurableSpace X] {μ : Measure X} [IsProbabilityMeasure μ] {l f : X → ℝ} (hl : Measurable l) (h0 : ∀ x, 0 ≤ l x) (hi : Integrable l μ) :
    ∫ x, f x ∂posterior μ (fun x => ENNReal.ofReal (l x)) = (∫ x, l x * f x ∂μ) / ∫ x, l x ∂μ := by
  unfold posterior
  rw [integral_smul_measure, integral_withDensity_eq_integral_toReal_smul (by fun_prop) (Filter.Eventually.of_forall fun x => ENNReal.ofReal_lt_top),
    ← ofReal_integral_eq_lintegral_ofReal hi (Filter.Eventually.of_forall h0), ENNReal.toReal_inv, ENNReal.toReal_ofReal (integral_nonneg h0), smul_eq_mul, div_eq_inv_mul]
  congr 1
  refine integral_congr_ae (Filter.Eventually.of_forall fun x => ?_)
  simp only [ENNReal.toReal_ofReal (h0 x), smul_eq_mul]

/-- Every `BetaInBeta(p_method="geometric")` with `0 < x < 1` is wrong after `fit([0])` or after `fit([1])`. -/
theorem C83_betaInBeta_refuted (hω : ω.Legal) (hi : BIB.init x alpha a b p .geometric = .ok s0) (hx : 0 < x ∧ x < 1) (ha : 0 < alpha) (hab : 0 < a ∧ 0 < b)
    (hp : 0 ≤ p ∧ p ≤ 1) : ∃ k : ℤ, (k = 0 ∨ k = 1) ∧ G.lawOf (BIB.random (.int 1)) (BIB.cls.run log ω (s0, pos) [.fit [k]]) 1 ≠
      (posterior (G.lawOf (BIB.random (.int 2)) (s0, pos) 2) (labelLik [k])).map (firstWeights (by omega)) := by
  by_contra hcon
  push Not at hcon
  have hd0 : ∀ k : ℤ, (BIB.cls.run log ω (s0, pos) [.fit [k]]).1.d = [k] := fun k => rfl
  have key : ∀ k : ℤ, (k = 0 ∨ k = 1) → p = (a + 1) / (a + 1 + (b + (k : ℝ))) := by
    intro k hk
    have h1 := C83_betaInBeta_geometric G log log ω ω pos pos [.fit [k]] [] hω hω hi hx ha hab hp rfl rfl (by rw [hd0]; exact nofun)
      (by show s0.d = []; rw [(BIB.init_eq hi).1]) (N' := 2) (by omega) (by
        rw [hd0]
        intro y hy
        have : y = k := by simpa using hy
        subst this
        rcases hk with rfl | rfl <;> simp) (by rw [hd0]; exact hcon k hk)
    rw [hd0] at h1
    have e : (BIB.cls.run log ω (s0, pos) []).1.p = p := by
      show s0.p = p
      rw [(BIB.init_eq hi).1]
    rw [e] at h1
    simpa using h1
  have k0 := key 0 (.inl rfl)
  have k1 := key 1 (.inr rfl)
  have h1 : 0 < a + 1 + (b + ((0 : ℤ) : ℝ)) := by have := hab.1; have := hab.2; push_cast; linarith
  have h2 : 0 < a + 1 + (b + ((1 : ℤ) : ℝ)) := by have := hab.1; have := hab.2; push_cast; linarith
  rw [k0, div_eq_div_iff h1.ne' h2.ne'] at k1
  push_cast at k1
  have := hab.1
  linarith

/-- The documented model: `p ~ Beta(a, b)`, sticks `Beta(1 + c p, alpha + c (1 - p))` given `p`.  For every choice of the parameters and after every history that leaves
the label `[0]`, the first weight is not drawn from its posterior law in this model. -/
theorem C83_betaInBeta_nested_refuted (hω : ω.Legal) (hi : BIB.init x alpha a b p .geometric = .ok s0) (hx : 0 < x ∧ x < 1) (ha : 0 < alpha) (hab : 0 < a ∧ 0 < b)
    (hp : 0 ≤ p ∧ p ≤ 1) {s : BIB ℝ × ℕ} (hs : BIB.cls.run log ω (s0, pos) ops = s) (hd : s.1.d = [0]) :
    G.lawOf (BIB.random (.int 1)) s 1 ≠ posterior (G.P.map fun u => oneWeight (G.beta (1 + x / (1 - x) * G.beta a b (u 0)) (alpha + x / (1 - x) * (1 - G.beta a b (u 0))) (u 1)))
      (labelLik s.1.d) := by
  have v1 : BIB.Valid s.1 := by
    have := BIB.reach_valid log pos ops hω hi ⟨hx.1.le, hx.2.le⟩ ha hab hp (.inl nofun) (by rw [hs, hd]; intro y hy; have : y = 0 := by simpa using hy
                                                                                            exact this.ge)
    rwa [hs] at this
  obtain ⟨e1, e2, e3, e4, e5⟩ := BIB.hyper_reach log pos ops hi hs
  have hc : 0 < x / (1 - x) := div_pos hx.1 (sub_pos.2 hx.2)
  set c := x / (1 - x) with hcd
  have m1 := BIB.mean_geometric G v1 (by rw [e1]; exact hx) (by rw [hd]; exact nofun) e5
  have n1 : nEq s.1.d 0 = 1 := by rw [hd]; decide
  have n2 : nGt s.1.d 0 = 0 := by rw [hd]; decide
  rw [n1, n2, e1, e2, e3, e4, hd, ← hcd] at m1
  simp only [List.length_singleton, List.sum_singleton, Nat.cast_one, Nat.cast_zero, Int.cast_zero, add_zero] at m1
  intro heq
  have hV := nestedStick_meas G (c := c) (alpha := alpha) (a := a) (b := b) (e := 0) (g := 0) 0
  have eV : (fun u => oneWeight (G.beta (1 + c * G.beta a b (u 0)) (alpha + c * (1 - G.beta a b (u 0))) (u 1))) = oneWeight ∘ nestedStick G c alpha a b 0 0 0 := by
    funext u
    simp [nestedStick]
  have hone : Measurable (fun w : Fin 1 → ℝ => w 0) := measurable_pi_apply 0
  rw [eV] at heq
  have hprob : IsProbabilityMeasure (G.P.map (oneWeight ∘ nestedStick G c alpha a b 0 0 0)) := Measure.isProbabilityMeasure_map (measurable_oneWeight.comp hV).aemeasurable
  have hw01 : ∀ᵐ w ∂G.P.map (oneWeight ∘ nestedStick G c alpha a b 0 0 0), 0 ≤ w 0 ∧ w 0 ≤ 1 := by
    have hms : MeasurableSet {w : Fin 1 → ℝ | 0 ≤ w 0 ∧ w 0 ≤ 1} := (measurableSet_le measurable_const hone).inter (measurableSet_le hone measurable_const)
    exact (ae_map_iff (measurable_oneWeight.comp hV).aemeasurable hms).2 (Filter.Eventually.of_forall fun u => nestedStick_unit G 0 u)
  have hlik : labelLik s.1.d =ᵐ[G.P.map (oneWeight ∘ nestedStick G c alpha a b 0 0 0)] fun w => ENNReal.ofReal (|w 0|) := by
    filter_upwards [hw01] with w hw
    rw [abs_of_nonneg hw.1, hd]
    simp [labelLik]
  rw [posterior_congr hlik] at heq
  have habs : Measurable (fun w : Fin 1 → ℝ => |w 0|) := by fun_prop
  have hint : Integrable (fun w : Fin 1 → ℝ => |w 0|) (G.P.map (oneWeight ∘ nestedStick G c alpha a b 0 0 0)) := Integrable.of_bound habs.aestronglyMeasurable 1
    (hw01.mono fun w hw => by rw [Real.norm_eq_abs, abs_abs, abs_of_nonneg hw.1]; exact hw.2)
  have hmul : AEStronglyMeasurable (fun w : Fin 1 → ℝ => |w 0| * w 0) (G.P.map (oneWeight ∘ nestedStick G c alpha a b 0 0 0)) := (habs.mul hone).aestronglyMeasurable
  rw [heq, posterior_integral habs (fun w => abs_nonneg _) hint, integral_map (measurable_oneWeight.comp hV).aemeasurable hmul,
    integral_map (measurable_oneWeight.comp hV).aemeasurable habs.aestronglyMeasurable] at m1
  have s1 := nestedStick_mean G (c := c) (alpha := alpha) (a := a) (b := b) hc ha hab le_rfl le_rfl 0
  have s2 := nestedStick_sq G (c := c) (alpha := alpha) (a := a) (b := b) hc ha hab le_rfl le_rfl 0
  have t1 : ∫ u, |(oneWeight ∘ nestedStick G c alpha a b 0 0 0) u 0| ∂G.P = ∫ u, nestedStick G c alpha a b 0 0 0 u ∂G.P :=
    integral_congr_ae (Filter.Eventually.of_forall fun u => abs_of_nonneg (nestedStick_unit G 0 u).1)
  have t2 : ∫ u, |(oneWeight ∘ nestedStick G c alpha a b 0 0 0) u 0| * (oneWeight ∘ nestedStick G c alpha a b 0 0 0) u 0 ∂G.P = ∫ u, nestedStick G c alpha a b 0 0 0 u ^ 2 ∂G.P :=
    integral_congr_ae (Filter.Eventually.of_forall fun u => by
      change |nestedStick G c alpha a b 0 0 0 u| * nestedStick G c alpha a b 0 0 0 u = _
      rw [abs_of_nonneg (nestedStick_unit G 0 u).1]
      exact (sq _).symm)
  rw [t1, t2, s1, s2] at m1
  have ha0 := hab.1
  have hb0 := hab.2
  have d1 : 0 < a + b := by positivity
  have d2 : 0 < a + b + 1 := by positivity
  have d3 : 0 < a + 1 + b := by positivity
  have hq : a * (a + 1) / ((a + b) * (a + b + 1)) = a / (a + b) * ((a + 1) / (a + 1 + b)) := by
    rw [show a + 1 + b = a + b + 1 by ring, div_mul_div_comm]
  have hlt : a / (a + b) < (a + 1) / (a + 1 + b) := by
    rw [div_lt_div_iff₀ d1 d3]
    nlinarith
  have hq0 : 0 < a / (a + b) := by positivity
  rw [hq] at m1
  generalize a / (a + b) = q at m1 hlt hq0
  generalize (a + 1) / (a + 1 + b) = r at m1 hlt
  have d4 : 1 + alpha + c ≠ 0 := by positivity
  have d5 : 2 + alpha + c ≠ 0 := by positivity
  have d6 : 1 + c * q ≠ 0 := by positivity
  have d7 : 1 + alpha + c + 1 ≠ 0 := by positivity
  simp only [add_zero, mul_zero] at m1
  rw [div_div_div_eq, div_eq_div_iff (by positivity) d7] at m1
  have m2 : (1 + alpha + c) * (2 + alpha + c) * (c * (r - q)) = 0 := by linear_combination -m1
  have : (1 + alpha + c) * (2 + alpha + c) * (c * (r - q)) ≠ 0 := mul_ne_zero (mul_ne_zero d4 d5) (mul_ne_zero hc.ne' (sub_pos.2 hlt).ne')
  exact this m2

/-! Non-vacuity: the objects exist. -/
example : BIB.init (1 / 2 : ℝ) 1 1 1 (1 / 2) .geometric = .ok ⟨1 / 2, 1, 1, 1, 1 / 2, .geometric, [], [], []⟩ ∧
    (BIB.cls.run (id : ℚ → ℚ) (demo : Oracle ℚ) (⟨1 / 2, 1, 1, 1, 1 / 2, .geometric, [], [], []⟩, 0) [.random (.int 2), .fit [0]]).1.d = [0] := by
  refine ⟨?_, by decide +kernel⟩
  unfold BIB.init
  rw [if_neg (by decide)]
example : (BIB.cls.run (id : ℚ → ℚ) (demo : Oracle ℚ) (⟨1 / 2, 1, 1, 1, 1 / 2, .static, [], [], []⟩, 0) [.random (.int 2), .fit [0, 2, 2]]).1.p = 1 / 2 ∧ LabelsBelow [0, 2, 2] 3 := by
  refine ⟨by decide +kernel, ?_⟩
  intro x hx; fin_cases hx <;> simp

end Verif
