import Verif.Props.C83Nested
import Verif.Props.C84

/-!
# C83 for `BetaBernoulli`

With labels the coin of the last label is flipped with the prior probability `p`, whatever the labels.  Already with the one label `[1]`, the law of the weights drawn is
not the posterior of the law drawn without labels, for any `0 < p < 1` and `alpha > 0` (`C83_betaBernoulli_refuted`).
-/

set_option linter.unusedSectionVars false
namespace Verif
open MeasureTheory ProbabilityTheory Spec
open scoped ENNReal
variable (G : RandGen)

theorem BBer.bern_fit_one {ω : Oracle ℝ} {s : BBer ℝ × ℕ} (hp : 0 ≤ s.1.p ∧ s.1.p ≤ 1) (hb : s.1.bernoullis ≠ []) (hd : s.1.d = [1]) :
    wp ω (BBer.randomBernoullis (some 2)) (fun _ t => t = ({ s.1 with bernoullis := [0, ω.binom (s.2 + 1) 1 s.1.p] }, s.2 + 2)) (fun _ _ => False) s := by
  have hlen : s.1.bernoullis.length ≠ 0 := fun h => hb (List.length_eq_zero_iff.1 h)
  have e1 : Py.maxInt [1] = .ok 1 := by decide
  have e2 : Py.bincount [1] = .ok [0, 1] := by decide
  unfold BBer.randomBernoullis
  rw [wp_bind, wp_self]
  simp only []
  rw [wp_bind, wp_binomRep]
  refine ⟨fun h => ?_, fun _ _ _ _ => ?_⟩
  · rcases h with h | h | h | h
    · omega
    · linarith [hp.1]
    · linarith [hp.2]
    · omega
  rw [if_neg hlen, wp_bind, wp_assign, if_pos (by rw [hd]; decide), hd, e1, e2, wp_bind, wp_lift]
  refine ⟨?_, nofun⟩
  rintro _ ⟨⟩
  rw [wp_bind, wp_lift]
  refine ⟨?_, nofun⟩
  rintro _ ⟨⟩
  rw [if_neg (by simp), wp_bind]
  have : (List.range (1 : ℤ).toNat).drop 1 = [] := by decide
  rw [this, BBer.bernLoop, wp_pure, wp_assign]
  have e : ((List.range (2 : ℤ).toNat).map fun i => ω.binom (s.2 + i) 1 s.1.p) = [ω.binom (s.2 + 0) 1 s.1.p, ω.binom (s.2 + 1) 1 s.1.p] := rfl
  rw [e]
  rfl

theorem BBer.random_fit_one {ω : Oracle ℝ} (hω : ω.Legal) {p alpha : ℝ} {v w : List ℝ} {bern : List ℤ} (i : ℕ) (hp : 0 ≤ p ∧ p ≤ 1) (ha : 0 < alpha) (hb : bern ≠ []) :
    ∃ r t, BBer.random (.int 1) ω (⟨p, alpha, v, bern, w, [1]⟩, i) = (.ok r, t) ∧ r[0]? = some (ω.beta (i + 2) (2 - (ω.binom (i + 1) 1 p : ℝ)) (alpha + 1)) := by
  have h01 : ω.binom (i + 1) 1 p = 0 ∨ ω.binom (i + 1) 1 p = 1 := by
    have h1 := hω.binom_nonneg (i + 1) 1 p (by omega)
    have h2 := hω.binom_le (i + 1) 1 p (by omega)
    omega
  suffices hh : wp ω (BBer.random (.int 1)) (fun r _ => r[0]? = some (ω.beta (i + 2) (2 - (ω.binom (i + 1) 1 p : ℝ)) (alpha + 1))) (fun _ _ => False) (⟨p, alpha, v, bern, w, [1]⟩, i) by
    obtain ⟨r, t, h1, h2⟩ := wp_total hh
    exact ⟨r, t, h1, h2⟩
  have e1 : Py.maxInt [1] = .ok 1 := by decide
  have e2 : Py.bincount [1] = .ok [0, 1] := by decide
  have e3 : revTails [0, 1] = [1, 0] := by decide
  unfold BBer.random BBer.randomSized
  rw [wp_bind, wp_self, if_neg (by rintro ⟨h, -⟩; cases h), if_neg (by nofun), wp_bind, wp_assign, wp_bind, wp_self, if_neg (by simp), e1, wp_bind, wp_lift]
  refine ⟨?_, nofun⟩
  rintro _ ⟨⟩
  rw [wp_bind]
  refine wp_mono (BBer.bern_fit_one (s := (⟨p, alpha, [], bern, w, [1]⟩, i)) hp hb rfl) ?_ (fun _ _ h => h)
  rintro _ _ rfl
  dsimp only
  rw [wp_bind, wp_self, wp_bind, wp_lift]
  simp only [e2]
  refine ⟨?_, nofun⟩
  rintro _ ⟨⟩
  have hfin : ∀ (v w0 : List ℝ) (bern : List ℤ) (j : ℕ) (x : ℝ), v.length = 2 → v[0]? = some x → wp ω (BBer.complete (.int 1)) (fun r _ => r[0]? = some x) (fun _ _ => False)
      (⟨p, alpha, v, bern, stickWeights v, [1]⟩, j) := by
    intro v w0 bern j x hv hx
    unfold BBer.complete
    rw [checkSize_ok (n := 1) rfl, wp_bind, wp_lift]
    refine ⟨fun _ _ => ?_, nofun⟩
    simp only [PySize.toInt?]
    rw [wp_bind, wp_self, wp_bind, wp_whenM]
    refine ⟨fun h => by dsimp only at h; omega, fun _ => ?_⟩
    rw [wp_bind, wp_self, wp_pure, (stickWeights_isStick v).2 0 _ hx]
    simp
  rcases h01 with h | h
  · rw [h]
    have g1 : BBer.groupSums (Py.cumsum [0, 0]) [0, 1] = .ok [1] := by decide
    have g2 : BBer.groupSums (Py.cumsum [0, 0]) (revTails [0, 1]) = .ok [1] := by decide
    rw [g1, g2, wp_bind, wp_lift]
    refine ⟨?_, nofun⟩
    rintro _ ⟨⟩
    rw [wp_bind, wp_lift]
    refine ⟨?_, nofun⟩
    rintro _ ⟨⟩
    rw [wp_bind, wp_betaVec]
    refine ⟨fun ⟨q, hq, hbad⟩ => ?_, fun _ => ?_⟩
    · simp at hq
      subst hq
      dsimp only at hbad
      rcases hbad with hbad | hbad <;> linarith
    have hg : ∀ x : ℝ, Py.gather [x] (Py.cumsum [0, 0]) = .ok [x, x] := fun x => rfl
    rw [wp_bind, wp_assign, wp_bind, wp_lift]
    simp only [M.betaValues, List.zipWith, List.mapIdx_cons, List.mapIdx_nil, hg]
    refine ⟨?_, nofun⟩
    rintro _ ⟨⟩
    rw [wp_bind, wp_assign]
    refine hfin _ [] _ _ _ rfl ?_
    simp
    norm_num
  · rw [h]
    have g1 : BBer.groupSums (Py.cumsum [0, 1]) [0, 1] = .ok [0, 1] := by decide
    have g2 : BBer.groupSums (Py.cumsum [0, 1]) (revTails [0, 1]) = .ok [1, 0] := by decide
    rw [g1, g2, wp_bind, wp_lift]
    refine ⟨?_, nofun⟩
    rintro _ ⟨⟩
    rw [wp_bind, wp_lift]
    refine ⟨?_, nofun⟩
    rintro _ ⟨⟩
    rw [wp_bind, wp_betaVec]
    refine ⟨fun ⟨q, hq, hbad⟩ => ?_, fun _ => ?_⟩
    · simp at hq
      rcases hq with rfl | rfl <;> (dsimp only at hbad; rcases hbad with hbad | hbad <;> linarith)
    have hg : ∀ x y : ℝ, Py.gather [x, y] (Py.cumsum [0, 1]) = .ok [x, y] := fun x y => rfl
    rw [wp_bind, wp_assign, wp_bind, wp_lift]
    simp only [M.betaValues, List.zipWith, List.mapIdx_cons, List.mapIdx_nil, hg]
    refine ⟨?_, nofun⟩
    rintro _ ⟨⟩
    rw [wp_bind, wp_assign]
    refine hfin _ [] _ _ _ rfl ?_
    simp
    norm_num

theorem RandGen.integral_fresh {n i : ℕ} (hi : n ≤ i) {H : (ℕ → G.Seed) → ℝ} (hm : Measurable H) (hb : G.Before n H) (hH : ∀ u, |H u| ≤ 1) {g : G.Seed → ℝ} (hg : Measurable g)
    (hg1 : ∀ s, |g s| ≤ 1) : ∫ u, H u * g (u i) ∂G.P = (∫ u, H u ∂G.P) * ∫ s, g s ∂G.ν := by
  have hcl : ∀ u, max (-1) (min 1 (H u)) = H u := fun u => by
    have := abs_le.1 (hH u)
    rw [min_eq_right this.2, max_eq_right this.1]
  have hmeas : Measurable (Function.uncurry fun (x : ℝ) (s : G.Seed) => max (-1) (min 1 x) * g s) := by
    have : Measurable (fun z : ℝ × G.Seed => g z.2) := hg.comp measurable_snd
    exact (measurable_const.max (measurable_const.min measurable_fst)).mul this
  have h := G.integral_before hi hm hb (f := fun x s => max (-1) (min 1 x) * g s) hmeas (C := 1) (fun x s => by
    rw [abs_mul]
    exact mul_le_one₀ (abs_le.2 ⟨le_max_left _ _, max_le (by norm_num) (min_le_left _ _)⟩) (abs_nonneg _) (hg1 s))
  simp only [hcl] at h
  rw [h]
  simp_rw [integral_const_mul]
  rw [integral_mul_const]

theorem RandGen.integral_at {g : G.Seed → ℝ} (hg : Measurable g) (i : ℕ) : ∫ u, g (u i) ∂G.P = ∫ s, g s ∂G.ν := by
  rw [← G.map_seed i, integral_map (measurable_pi_apply i).aemeasurable hg.aestronglyMeasurable]

theorem RandGen.integral_four {i0 i1 i2 i3 : ℕ} (h1 : i0 < i1) (h2 : i1 < i2) (h3 : i2 < i3) {g0 g1 g2 g3 : G.Seed → ℝ} (m0 : Measurable g0) (m1 : Measurable g1) (m2 : Measurable g2)
    (m3 : Measurable g3) (b0 : ∀ s, |g0 s| ≤ 1) (b1 : ∀ s, |g1 s| ≤ 1) (b2 : ∀ s, |g2 s| ≤ 1) (b3 : ∀ s, |g3 s| ≤ 1) :
    ∫ u, g0 (u i0) * g1 (u i1) * g2 (u i2) * g3 (u i3) ∂G.P = (∫ s, g0 s ∂G.ν) * (∫ s, g1 s ∂G.ν) * (∫ s, g2 s ∂G.ν) * ∫ s, g3 s ∂G.ν := by
  have c0 : Measurable (fun u : ℕ → G.Seed => g0 (u i0)) := m0.comp (measurable_pi_apply _)
  have c1 : Measurable (fun u : ℕ → G.Seed => g1 (u i1)) := m1.comp (measurable_pi_apply _)
  have c2 : Measurable (fun u : ℕ → G.Seed => g2 (u i2)) := m2.comp (measurable_pi_apply _)
  have d1 : ∀ u : ℕ → G.Seed, |g0 (u i0) * g1 (u i1)| ≤ 1 := fun u => by rw [abs_mul]; exact mul_le_one₀ (b0 _) (abs_nonneg _) (b1 _)
  have d2 : ∀ u : ℕ → G.Seed, |g0 (u i0) * g1 (u i1) * g2 (u i2)| ≤ 1 := fun u => by rw [abs_mul]; exact mul_le_one₀ (d1 _) (abs_nonneg _) (b2 _)
  have c3 : Measurable (fun u : ℕ → G.Seed => g0 (u i0) * g1 (u i1)) := c0.mul c1
  have c4 : Measurable (fun u : ℕ → G.Seed => g0 (u i0) * g1 (u i1) * g2 (u i2)) := c3.mul c2
  rw [RandGen.integral_fresh G (n := i3) le_rfl c4 (fun u u' h => by rw [h i0 (by omega), h i1 (by omega), h i2 (by omega)]) d2 m3 b3,
    RandGen.integral_fresh G (n := i2) le_rfl c3 (fun u u' h => by rw [h i0 (by omega), h i1 (by omega)]) d1 m2 b2,
    RandGen.integral_fresh G (n := i1) le_rfl c0 (fun u u' h => by rw [h i0 (by omega)]) (fun u => b0 _) m1 b1, RandGen.integral_at G m0]

theorem betaMeasure_one {alpha : ℝ} (ha : 0 < alpha) : (∫ s, G.beta 1 alpha s ∂G.ν = 1 / (1 + alpha)) ∧ (∫ s, G.beta 1 alpha s ^ 2 ∂G.ν = 2 / ((1 + alpha) * (2 + alpha))) ∧
    (∫ s, G.beta 1 alpha s ^ 3 ∂G.ν = 6 / ((1 + alpha) * (2 + alpha) * (3 + alpha))) := by
  refine ⟨by rw [G.beta_mean one_pos ha], ?_, ?_⟩
  · rw [RandGen.beta_sq G one_pos ha]
    congr 1 <;> ring
  · have h : ∫ s, G.beta 1 alpha s ^ 3 ∂G.ν = ∫ y, y ^ 3 ∂betaMeasure 1 alpha := by
      rw [← G.beta_law 1 alpha one_pos ha, integral_map (G.measurable_beta 1 alpha).aemeasurable (by fun_prop)]
    rw [h, integral_betaMeasure one_pos ha]
    have := integral_beta_moment (c := 1) one_pos ha 3 0
    simp only [pow_zero, mul_one, Nat.cast_ofNat, Nat.cast_zero, add_zero] at this
    rw [this, show (1 : ℝ) + 3 = 3 + 1 by norm_num]
    have e1 := beta_succ (a := 1) one_pos ha
    have e2 := beta_succ (a := 2) (by norm_num) ha
    have e3 := beta_succ (a := 3) (by norm_num) ha
    have h0 := (beta_pos (α := 1) one_pos ha).ne'
    have h1 := (beta_pos (α := 2) (by norm_num) ha).ne'
    have h2 := (beta_pos (α := 3) (by norm_num) ha).ne'
    rw [show (1 : ℝ) + 1 = 2 by norm_num] at e1
    rw [show (2 : ℝ) + 1 = 3 by norm_num] at e2
    have : beta (3 + 1) alpha / beta 1 alpha = (beta (3 + 1) alpha / beta 3 alpha) * (beta 3 alpha / beta 2 alpha) * (beta 2 alpha / beta 1 alpha) := by field_simp
    rw [this, e1, e2, e3]
    have : 1 + alpha ≠ 0 := by positivity
    have : 2 + alpha ≠ 0 := by positivity
    have : 3 + alpha ≠ 0 := by positivity
    field_simp
    norm_num

/-- Two sticks from two coin flips at `i`, `i + 1` and sticks at `i + 2`, `i + 3`, `i + 4`, for a test function `φ(v₀) v₁`. -/
theorem twoSticks_integral {p alpha : ℝ} (hp : 0 ≤ p ∧ p ≤ 1) (i : ℕ) {φ : ℝ → ℝ} (hφ : Measurable φ) (hb : ∀ y, 0 ≤ y → y ≤ 1 → |φ y| ≤ 1) :
    ∫ u, φ (G.beta 1 alpha (u (i + 2 + (G.binom 1 p (u i)).toNat))) * G.beta 1 alpha (u (i + 2 + ((G.binom 1 p (u i)).toNat + (G.binom 1 p (u (i + 1))).toNat))) ∂G.P =
      (1 - p) * (∫ s, φ (G.beta 1 alpha s) * G.beta 1 alpha s ∂G.ν) + p * ((∫ s, φ (G.beta 1 alpha s) ∂G.ν) * ∫ s, G.beta 1 alpha s ∂G.ν) := by
  have hcast : Measurable (fun z : ℤ => (z : ℝ)) := measurable_from_top
  let z : G.Seed → ℝ := fun s => (G.binom 1 p s : ℝ)
  let w : G.Seed → ℝ := fun s => 1 - z s
  let B : G.Seed → ℝ := G.beta 1 alpha
  have hz : Measurable z := hcast.comp (G.measurable_binom 1 p)
  have hw : Measurable w := measurable_const.sub hz
  have hB : Measurable B := G.measurable_beta _ _
  have hφB : Measurable (fun s => φ (B s)) := hφ.comp hB
  have hφBB : Measurable (fun s => φ (B s) * B s) := hφB.mul hB
  have z01 : ∀ s, G.binom 1 p s = 0 ∨ G.binom 1 p s = 1 := fun s => by
    obtain ⟨k, hk, h⟩ := G.binom_range (n := 1) p s
    rw [Nat.cast_one] at h
    omega
  have bz : ∀ s, |z s| ≤ 1 := fun s => by rcases z01 s with h | h <;> simp [z, h]
  have bw : ∀ s, |w s| ≤ 1 := fun s => by rcases z01 s with h | h <;> simp [w, z, h]
  have bB : ∀ s, |B s| ≤ 1 := fun s => by rw [abs_of_nonneg (G.beta_unit _ _ _).1]; exact (G.beta_unit _ _ _).2
  have bφ : ∀ s, |φ (B s)| ≤ 1 := fun s => hb _ (G.beta_unit _ _ _).1 (G.beta_unit _ _ _).2
  have bφB : ∀ s, |φ (B s) * B s| ≤ 1 := fun s => by rw [abs_mul]; exact mul_le_one₀ (bφ s) (abs_nonneg _) (bB s)
  have b1 : ∀ _s : G.Seed, |(1 : ℝ)| ≤ 1 := fun _ => by simp
  have iz : ∫ s, z s ∂G.ν = p := by
    have := G.binom_mean (n := 1) hp.1 hp.2
    simpa using this
  have hint : ∀ {f : G.Seed → ℝ}, Measurable f → (∀ s, |f s| ≤ 1) → Integrable f G.ν := fun hf hb => Integrable.of_bound hf.aestronglyMeasurable 1 (Filter.Eventually.of_forall hb)
  have iw : ∫ s, w s ∂G.ν = 1 - p := by
    rw [integral_sub (integrable_const _) (hint hz bz), iz]
    simp
  have i1 : ∫ _s : G.Seed, (1 : ℝ) ∂G.ν = 1 := by simp
  have t0 := RandGen.integral_four G (i0 := i) (i1 := i + 1) (i2 := i + 2) (i3 := i + 3) (by omega) (by omega) (by omega) hw hw hφBB measurable_const bw bw bφB b1
  have t1 := RandGen.integral_four G (i0 := i) (i1 := i + 1) (i2 := i + 2) (i3 := i + 3) (by omega) (by omega) (by omega) hw hz hφB hB bw bz bφ bB
  have t2 := RandGen.integral_four G (i0 := i) (i1 := i + 1) (i2 := i + 3) (i3 := i + 4) (by omega) (by omega) (by omega) hz hw hφBB measurable_const bz bw bφB b1
  have t3 := RandGen.integral_four G (i0 := i) (i1 := i + 1) (i2 := i + 3) (i3 := i + 4) (by omega) (by omega) (by omega) hz hz hφB hB bz bz bφ bB
  have hI : ∀ {i0 i1 i2 i3 : ℕ} {g0 g1 g2 g3 : G.Seed → ℝ}, Measurable g0 → Measurable g1 → Measurable g2 → Measurable g3 → (∀ s, |g0 s| ≤ 1) → (∀ s, |g1 s| ≤ 1) → (∀ s, |g2 s| ≤ 1) →
      (∀ s, |g3 s| ≤ 1) → Integrable (fun u => g0 (u i0) * g1 (u i1) * g2 (u i2) * g3 (u i3)) G.P := by
    intro i0 i1 i2 i3 g0 g1 g2 g3 m0 m1 m2 m3 b0 b1 b2 b3
    refine Integrable.of_bound (C := 1) ?_ (Filter.Eventually.of_forall fun u => ?_)
    · have c0 : Measurable (fun u : ℕ → G.Seed => g0 (u i0)) := m0.comp (measurable_pi_apply _)
      have c1 : Measurable (fun u : ℕ → G.Seed => g1 (u i1)) := m1.comp (measurable_pi_apply _)
      have c2 : Measurable (fun u : ℕ → G.Seed => g2 (u i2)) := m2.comp (measurable_pi_apply _)
      have c3 : Measurable (fun u : ℕ → G.Seed => g3 (u i3)) := m3.comp (measurable_pi_apply _)
      exact (((c0.mul c1).mul c2).mul c3).aestronglyMeasurable
    · rw [Real.norm_eq_abs, abs_mul, abs_mul, abs_mul]
      exact mul_le_one₀ (mul_le_one₀ (mul_le_one₀ (b0 _) (abs_nonneg _) (b1 _)) (abs_nonneg _) (b2 _)) (abs_nonneg _) (b3 _)
  have I0 := hI (i0 := i) (i1 := i + 1) (i2 := i + 2) (i3 := i + 3) hw hw hφBB measurable_const bw bw bφB b1
  have I1 := hI (i0 := i) (i1 := i + 1) (i2 := i + 2) (i3 := i + 3) hw hz hφB hB bw bz bφ bB
  have I2 := hI (i0 := i) (i1 := i + 1) (i2 := i + 3) (i3 := i + 4) hz hw hφBB measurable_const bz bw bφB b1
  have I3 := hI (i0 := i) (i1 := i + 1) (i2 := i + 3) (i3 := i + 4) hz hz hφB hB bz bz bφ bB
  have key : ∀ u : ℕ → G.Seed, φ (G.beta 1 alpha (u (i + 2 + (G.binom 1 p (u i)).toNat))) * G.beta 1 alpha (u (i + 2 + ((G.binom 1 p (u i)).toNat + (G.binom 1 p (u (i + 1))).toNat))) =
      (w (u i) * w (u (i + 1)) * (φ (B (u (i + 2))) * B (u (i + 2))) * 1 + w (u i) * z (u (i + 1)) * φ (B (u (i + 2))) * B (u (i + 3))) +
      (z (u i) * w (u (i + 1)) * (φ (B (u (i + 3))) * B (u (i + 3))) * 1 + z (u i) * z (u (i + 1)) * φ (B (u (i + 3))) * B (u (i + 4))) := by
    intro u
    rcases z01 (u i) with h | h <;> rcases z01 (u (i + 1)) with h' | h' <;> simp [w, z, B, h, h', add_assoc]
  simp_rw [key]
  have I4 : Integrable (fun u => w (u i) * w (u (i + 1)) * (φ (B (u (i + 2))) * B (u (i + 2))) * 1 + w (u i) * z (u (i + 1)) * φ (B (u (i + 2))) * B (u (i + 3))) G.P := I0.add I1
  have I5 : Integrable (fun u => z (u i) * w (u (i + 1)) * (φ (B (u (i + 3))) * B (u (i + 3))) * 1 + z (u i) * z (u (i + 1)) * φ (B (u (i + 3))) * B (u (i + 4))) G.P := I2.add I3
  rw [integral_add I4 I5, integral_add I0 I1, integral_add I2 I3, t0, t1, t2, t3, iz, iw, i1]
  ring


/-- The mean of the first weight drawn with the label `[1]`. -/
theorem BBer.mean_fit_one {s : BBer ℝ × ℕ} (hp : 0 ≤ s.1.p ∧ s.1.p ≤ 1) (ha : 0 < s.1.alpha) (hb : s.1.bernoullis ≠ []) (hd : s.1.d = [1]) :
    ∫ w, w 0 ∂G.lawOf (BBer.random (.int 1)) s 1 = (1 - s.1.p) * (2 / (3 + s.1.alpha)) + s.1.p * (1 / (2 + s.1.alpha)) := by
  obtain ⟨⟨p, alpha, v, bern, w, d⟩, i⟩ := s
  dsimp only at hp ha hb hd ⊢
  subst hd
  have hcast : Measurable (fun z : ℤ => (z : ℝ)) := measurable_from_top
  let z : (ℕ → G.Seed) → ℝ := fun u => (G.binom 1 p (u (i + 1)) : ℝ)
  let V : (ℕ → G.Seed) → ℝ := fun u => G.beta (2 - z u) (alpha + 1) (u (i + 2))
  have hz : Measurable z := hcast.comp ((G.measurable_binom 1 p).comp (measurable_pi_apply (i + 1)))
  have hF : Measurable (Function.uncurry fun (x : ℝ) (y : G.Seed) => G.beta (2 - x) (alpha + 1) y) :=
    G.beta_meas.comp (((measurable_const.sub measurable_fst).prodMk measurable_const).prodMk measurable_snd)
  have hV : Measurable V := hF.comp (hz.prodMk (measurable_pi_apply (i + 2)))
  have hlaw : G.lawOf (BBer.random (.int 1)) (⟨p, alpha, v, bern, w, [1]⟩, i) 1 = (G.P.map V).map oneWeight := by
    rw [Measure.map_map measurable_oneWeight hV]
    unfold RandGen.lawOf
    congr 1
    funext u
    obtain ⟨r, t, hr, h1⟩ := BBer.random_fit_one (G.oracle_legal u) (v := v) (w := w) i hp ha hb
    rw [hr]
    funext j
    have : j = 0 := Subsingleton.elim _ _
    subst this
    change (r[0]?).getD 0 = _
    rw [h1]
    rfl
  rw [hlaw, integral_map measurable_oneWeight.aemeasurable (measurable_pi_apply 0).aestronglyMeasurable, integral_map hV.aemeasurable (show Measurable (fun x => oneWeight x 0) from measurable_id).aestronglyMeasurable]
  change ∫ u, V u ∂G.P = _
  have s1 : ∫ u, V u ∂G.P = ∫ u, ∫ y, G.beta (2 - z u) (alpha + 1) y ∂G.ν ∂G.P :=
    G.integral_before le_rfl hz (fun u u' h => by dsimp only [z]; rw [h (i + 1) (by omega)]) (f := fun x y => G.beta (2 - x) (alpha + 1) y) hF (C := 1)
      (fun z y => by rw [abs_of_nonneg (G.beta_unit _ _ _).1]; exact (G.beta_unit _ _ _).2)
  have z01 : ∀ s, G.binom 1 p s = 0 ∨ G.binom 1 p s = 1 := fun s => by
    obtain ⟨k, hk, h⟩ := G.binom_range (n := 1) p s
    rw [Nat.cast_one] at h
    omega
  have s2 : ∀ u, ∫ y, G.beta (2 - z u) (alpha + 1) y ∂G.ν = 2 / (3 + alpha) + (1 / (2 + alpha) - 2 / (3 + alpha)) * z u := by
    intro u
    have hzu : z u = 0 ∨ z u = 1 := by rcases z01 (u (i + 1)) with h | h <;> simp [z, h]
    rcases hzu with h | h
    · rw [h, G.beta_mean (by norm_num) (by positivity)]
      rw [mul_zero, add_zero]
      congr 1 <;> ring
    · rw [h, G.beta_mean (by norm_num) (by positivity)]
      rw [mul_one, add_sub_cancel]
      congr 1 <;> ring
  rw [s1]
  simp_rw [s2]
  have iz : ∫ u, z u ∂G.P = p := by
    have h1 : ∫ u, z u ∂G.P = ∫ s, (G.binom 1 p s : ℝ) ∂G.ν := RandGen.integral_at G (hcast.comp (G.measurable_binom 1 p)) (i + 1)
    have h2 := G.binom_mean (n := 1) hp.1 hp.2
    rw [h1]
    simpa using h2
  have hzi : Integrable z G.P := Integrable.of_bound hz.aestronglyMeasurable 1 (Filter.Eventually.of_forall fun u => by
    rcases z01 (u (i + 1)) with h | h <;> simp [z, h])
  rw [integral_add (integrable_const _) (hzi.const_mul _), integral_const_mul, iz]
  simp
  ring

theorem BBer.law_two {s : BBer ℝ × ℕ} (hp : 0 ≤ s.1.p ∧ s.1.p ≤ 1) (ha : 0 < s.1.alpha) (hb : s.1.bernoullis ≠ []) (hd : s.1.d = []) (u : ℕ → G.Seed) :
    ∃ r t, BBer.random (.int 2) (G.oracle u) s = (.ok r, t) ∧
      r[0]? = some (G.beta 1 s.1.alpha (u (s.2 + 2 + (G.binom 1 s.1.p (u s.2)).toNat))) ∧
      r[1]? = some (G.beta 1 s.1.alpha (u (s.2 + 2 + ((G.binom 1 s.1.p (u s.2)).toNat + (G.binom 1 s.1.p (u (s.2 + 1))).toNat))) *
        (1 - G.beta 1 s.1.alpha (u (s.2 + 2 + (G.binom 1 s.1.p (u s.2)).toNat)))) := by
  obtain ⟨r, t, hr, h1, -⟩ := wp_total (BBer.random_unfitted_ok (G.oracle_legal u) s hp ha hd hb (n := 2) (by omega) (size := .int 2) rfl)
  have h := BBer.sticks (G := G) hp ha hd hb (n := 2) (by omega) u
  rw [show ((2 : ℕ) : ℤ) = 2 from rfl, hr] at h
  change t.1.v = _ at h
  have e0 : t.1.v[0]? = some (G.beta 1 s.1.alpha (u (s.2 + 2 + (G.binom 1 s.1.p (u s.2)).toNat))) := by
    rw [h]
    simp [bitsFrom, sumsFrom]
  have e1 : t.1.v[1]? = some (G.beta 1 s.1.alpha (u (s.2 + 2 + ((G.binom 1 s.1.p (u s.2)).toNat + (G.binom 1 s.1.p (u (s.2 + 1))).toNat)))) := by
    rw [h]
    simp [bitsFrom, sumsFrom]
  refine ⟨r, t, hr, ?_, ?_⟩
  · rw [h1.2 0 _ e0]; simp
  · rw [h1.2 1 _ e1, List.take_one, List.head?_eq_getElem?, e0]
    simp

variable (log log' : ℝ → ℝ) (ω ω' : Oracle ℝ) (pos pos' : ℕ) (ops ops' : List (WOp ℝ))

/-- `BetaBernoulli` with any `0 < p < 1`: with the label `[1]` the weights drawn do not have the posterior law.  The coin of the last label is flipped with the prior
probability `p` and not given the labels, and the mean of the first weight exceeds the posterior mean. -/
theorem C83_betaBernoulli_refuted {p alpha : ℝ} (hp : 0 < p ∧ p < 1) (ha : 0 < alpha) (hops : ∀ op ∈ ops, op.notRandomZero) (hops' : ∀ op ∈ ops', op.notRandomZero)
    {s s' : BBer ℝ × ℕ} (hs : BBer.cls.run log ω (BBer.init p alpha, pos) ops = s) (hs' : BBer.cls.run log' ω' (BBer.init p alpha, pos') ops' = s')
    (hd' : s'.1.d = []) (hd : s.1.d = [1]) :
    ∫ w, w 0 ∂posterior (G.lawOf (BBer.random (.int 2)) s' 2) (labelLik s.1.d) < ∫ w, w 0 ∂G.lawOf (BBer.random (.int 1)) s 1 ∧
    G.lawOf (BBer.random (.int 1)) s 1 ≠ (posterior (G.lawOf (BBer.random (.int 2)) s' 2) (labelLik s.1.d)).map (firstWeights (by omega)) := by
  have e1 := BBer.reach_hyper (ω := ω) log pos ops p alpha
  have e2 := BBer.reach_hyper (ω := ω') log' pos' ops' p alpha
  have b1 := BBer.reach_bern (ω := ω) log pos p alpha ops hops
  have b2 := BBer.reach_bern (ω := ω') log' pos' p alpha ops' hops'
  rw [hs] at e1 b1
  rw [hs'] at e2 b2
  have hp' : 0 ≤ p ∧ p ≤ 1 := ⟨hp.1.le, hp.2.le⟩
  have m1 := BBer.mean_fit_one G (by rw [e1.1]; exact hp') (by rw [e1.2]; exact ha) b1 hd
  rw [e1.1, e1.2] at m1
  let i := s'.2
  let V0 : (ℕ → G.Seed) → ℝ := fun u => G.beta 1 alpha (u (i + 2 + (G.binom 1 p (u i)).toNat))
  let V1 : (ℕ → G.Seed) → ℝ := fun u => G.beta 1 alpha (u (i + 2 + ((G.binom 1 p (u i)).toNat + (G.binom 1 p (u (i + 1))).toNat)))
  let W : (ℕ → G.Seed) → Fin 2 → ℝ := fun u => vec 2 (match (BBer.random (.int 2) (G.oracle u) s').1 with | .ok r => r | .error _ => [])
  have hW : ∀ u, W u 0 = V0 u ∧ W u 1 = V1 u * (1 - V0 u) := by
    intro u
    obtain ⟨r, t, hr, h0, h1⟩ := BBer.law_two G (by rw [e2.1]; exact hp') (by rw [e2.2]; exact ha) b2 hd' u
    rw [e2.1, e2.2] at h0 h1
    simp only [W, hr]
    constructor
    · change (r[0]?).getD 0 = _
      rw [h0]; rfl
    · change (r[1]?).getD 0 = _
      rw [h1]; rfl
  have hk : ∀ j, Measurable (fun u : ℕ → G.Seed => (G.binom 1 p (u j)).toNat) := fun j =>
    (measurable_from_top (f := Int.toNat)).comp ((G.measurable_binom 1 p).comp (measurable_pi_apply j))
  have hsel : ∀ {n : (ℕ → G.Seed) → ℕ}, Measurable n → Measurable (fun u : ℕ → G.Seed => G.beta 1 alpha (u (i + 2 + n u))) := by
    intro n hn
    have : Measurable (fun x : (ℕ → G.Seed) × ℕ => G.beta 1 alpha (x.1 (i + 2 + x.2))) :=
      measurable_from_prod_countable_left fun k => (G.measurable_beta _ _).comp (measurable_pi_apply (i + 2 + k))
    exact this.comp (measurable_id.prodMk hn)
  have hV0 : Measurable V0 := hsel (hk i)
  have hV1 : Measurable V1 := hsel ((hk i).add (hk (i + 1)))
  have hWm : Measurable W := by
    refine measurable_pi_lambda _ fun j => ?_
    have : (fun u => W u j) = if j = 0 then V0 else fun u => V1 u * (1 - V0 u) := by
      funext u
      fin_cases j
      · exact (hW u).1
      · exact (hW u).2
    rw [this]
    split
    · exact hV0
    · exact hV1.mul (measurable_const.sub hV0)
  have hlawW : G.lawOf (BBer.random (.int 2)) s' 2 = G.P.map W := rfl
  have u0 : ∀ u, 0 ≤ V0 u ∧ V0 u ≤ 1 := fun u => G.beta_unit _ _ _
  have u1 : ∀ u, 0 ≤ V1 u ∧ V1 u ≤ 1 := fun u => G.beta_unit _ _ _
  have hprob : IsProbabilityMeasure (G.P.map W) := Measure.isProbabilityMeasure_map hWm.aemeasurable
  have hm1 : Measurable (fun w : Fin 2 → ℝ => |w 1|) := by fun_prop
  have hm0 : Measurable (fun w : Fin 2 → ℝ => w 0) := measurable_pi_apply 0
  have hm10 : Measurable (fun w : Fin 2 → ℝ => |w 1| * w 0) := hm1.mul hm0
  have w1 : ∀ u, 0 ≤ W u 1 ∧ W u 1 ≤ 1 := fun u => by
    rw [(hW u).2]
    exact ⟨mul_nonneg (u1 u).1 (sub_nonneg.2 (u0 u).2), mul_le_one₀ (u1 u).2 (sub_nonneg.2 (u0 u).2) (by linarith [(u0 u).1])⟩
  have hmset : MeasurableSet {w : Fin 2 → ℝ | 0 ≤ w 1 ∧ w 1 ≤ 1} := by
    have h : Measurable (fun w : Fin 2 → ℝ => w 1) := measurable_pi_apply 1
    exact (measurableSet_le measurable_const h).inter (measurableSet_le h measurable_const)
  have hw01 : ∀ᵐ w ∂G.P.map W, 0 ≤ w 1 ∧ w 1 ≤ 1 := (ae_map_iff hWm.aemeasurable hmset).2 (Filter.Eventually.of_forall w1)
  have hlik : labelLik s.1.d =ᵐ[G.P.map W] fun w => ENNReal.ofReal (|w 1|) := by
    filter_upwards [hw01] with w hw
    rw [abs_of_nonneg hw.1, hd]
    simp [labelLik]
  have hint : Integrable (fun w : Fin 2 → ℝ => |w 1|) (G.P.map W) := Integrable.of_bound hm1.aestronglyMeasurable 1
    (hw01.mono fun w hw => by rw [Real.norm_eq_abs, abs_abs, abs_of_nonneg hw.1]; exact hw.2)
  obtain ⟨q1, q2, q3⟩ := betaMeasure_one G ha
  have hB := G.measurable_beta 1 alpha
  have ib : ∀ k : ℕ, Integrable (fun s => G.beta 1 alpha s ^ k) G.ν := fun k => Integrable.of_bound (hB.pow_const k).aestronglyMeasurable 1
    (Filter.Eventually.of_forall fun s => by
      rw [Real.norm_eq_abs, abs_of_nonneg (pow_nonneg (G.beta_unit _ _ _).1 _)]
      exact pow_le_one₀ (G.beta_unit _ _ _).1 (G.beta_unit _ _ _).2)
  have ib1 : Integrable (fun s => G.beta 1 alpha s) G.ν := by simpa using ib 1
  have r1 : ∫ s, (1 - G.beta 1 alpha s) ∂G.ν = 1 - 1 / (1 + alpha) := by
    rw [integral_sub (integrable_const _) ib1, q1]; simp
  have r2 : ∫ s, (1 - G.beta 1 alpha s) * G.beta 1 alpha s ∂G.ν = 1 / (1 + alpha) - 2 / ((1 + alpha) * (2 + alpha)) := by
    rw [← q1, ← q2, ← integral_sub ib1 (ib 2)]
    congr 1; funext s; ring
  have r3 : ∫ s, G.beta 1 alpha s * (1 - G.beta 1 alpha s) ∂G.ν = 1 / (1 + alpha) - 2 / ((1 + alpha) * (2 + alpha)) := by
    rw [← r2]; congr 1; funext s; ring
  have r4 : ∫ s, G.beta 1 alpha s * (1 - G.beta 1 alpha s) * G.beta 1 alpha s ∂G.ν = 2 / ((1 + alpha) * (2 + alpha)) - 6 / ((1 + alpha) * (2 + alpha) * (3 + alpha)) := by
    rw [← q2, ← q3, ← integral_sub (ib 2) (ib 3)]
    congr 1; funext s; ring
  have hden := twoSticks_integral G (p := p) (alpha := alpha) hp' i (φ := fun y => 1 - y) (by fun_prop) (fun y h0 h1 => by rw [abs_le]; constructor <;> linarith)
  have hnum := twoSticks_integral G (p := p) (alpha := alpha) hp' i (φ := fun y => y * (1 - y)) (by fun_prop) (fun y h0 h1 => by rw [abs_le]; constructor <;> nlinarith)
  rw [q1, r1, r2] at hden
  rw [q1, r3, r4] at hnum
  have hD : ∫ w, |w 1| ∂G.P.map W = (1 - p) * (1 / (1 + alpha) - 2 / ((1 + alpha) * (2 + alpha))) + p * ((1 - 1 / (1 + alpha)) * (1 / (1 + alpha))) := by
    rw [integral_map hWm.aemeasurable hm1.aestronglyMeasurable, ← hden]
    congr 1; funext u
    rw [abs_of_nonneg (w1 u).1, (hW u).2]
    change _ = (1 - V0 u) * V1 u
    ring
  have hN : ∫ w, |w 1| * w 0 ∂G.P.map W = (1 - p) * (2 / ((1 + alpha) * (2 + alpha)) - 6 / ((1 + alpha) * (2 + alpha) * (3 + alpha))) +
      p * ((1 / (1 + alpha) - 2 / ((1 + alpha) * (2 + alpha))) * (1 / (1 + alpha))) := by
    rw [integral_map hWm.aemeasurable hm10.aestronglyMeasurable, ← hnum]
    congr 1; funext u
    rw [abs_of_nonneg (w1 u).1, (hW u).2, (hW u).1]
    change _ = V0 u * (1 - V0 u) * V1 u
    ring
  have hpost : ∫ w, w 0 ∂posterior (G.lawOf (BBer.random (.int 2)) s' 2) (labelLik s.1.d) < ∫ w, w 0 ∂G.lawOf (BBer.random (.int 1)) s 1 := by
    rw [hlawW, posterior_congr hlik, posterior_integral hm1 (fun w => abs_nonneg _) hint, m1, hN, hD]
    have a1 : 0 < 1 + alpha := by positivity
    have a2 : 0 < 2 + alpha := by positivity
    have a3 : 0 < 3 + alpha := by positivity
    have hq : 0 < 1 - p := sub_pos.2 hp.2
    have d1 : (1 - p) * (1 / (1 + alpha) - 2 / ((1 + alpha) * (2 + alpha))) + p * ((1 - 1 / (1 + alpha)) * (1 / (1 + alpha))) =
        alpha * ((1 - p) * (1 + alpha) + p * (2 + alpha)) / ((1 + alpha) ^ 2 * (2 + alpha)) := by
      field_simp
      ring
    have d2 : (1 - p) * (2 / ((1 + alpha) * (2 + alpha)) - 6 / ((1 + alpha) * (2 + alpha) * (3 + alpha))) +
        p * ((1 / (1 + alpha) - 2 / ((1 + alpha) * (2 + alpha))) * (1 / (1 + alpha))) = alpha * (2 * (1 - p) * (1 + alpha) + p * (3 + alpha)) / ((1 + alpha) ^ 2 * (2 + alpha) * (3 + alpha)) := by
      field_simp
      ring
    have d3 : 0 < (1 - p) * (1 + alpha) + p * (2 + alpha) := by have := hp.1; positivity
    rw [d1, d2, div_div_div_eq, show (1 - p) * (2 / (3 + alpha)) + p * (1 / (2 + alpha)) = (2 * (1 - p) * (2 + alpha) + p * (3 + alpha)) / ((3 + alpha) * (2 + alpha)) by field_simp,
      div_lt_div_iff₀ (by positivity) (by positivity)]
    have hgap : 0 < alpha * (1 + alpha) ^ 2 * (2 + alpha) * (3 + alpha) * (p * (1 - p) * (1 + alpha)) := by have := hp.1; positivity
    nlinarith [hgap]
  refine ⟨hpost, fun h => ?_⟩
  rw [h] at hpost
  have hf : Measurable (firstWeights (N := 1) (N' := 2) (by omega)) := measurable_pi_lambda _ fun j => measurable_pi_apply _
  rw [integral_map hf.aemeasurable (measurable_pi_apply 0).aestronglyMeasurable] at hpost
  exact lt_irrefl _ hpost

/-! Non-vacuity. -/
example : (BBer.cls.run (id : ℚ → ℚ) (demo : Oracle ℚ) (BBer.init (1 / 2) 1, 0) [.random (.int 2), .fit [1]]).1.d = [1] ∧ (∀ op ∈ [(.random (.int 2) : WOp ℚ), .fit [1]], op.notRandomZero) := by
  refine ⟨by decide +kernel, ?_⟩
  intro op hop
  fin_cases hop <;> simp [WOp.notRandomZero, PySize.toInt?]

end Verif
