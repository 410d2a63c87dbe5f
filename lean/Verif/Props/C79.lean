import Verif.Lemmas.BBinDraw
import Verif.Lemmas.NoErrorBB
import Verif.Lemmas.BetaLaw
import Verif.Lemmas.Demo
import Verif.Props.C17

/-!
# C79: the sticks of `BetaBinomial` are its Markov chain, and with data they have the conjugate parameters given the binomials

For every history of calls with `n ≥ 0`, `alpha > 0`.  Without data the sticks drawn are the chain: a stick `Beta(1, alpha)`, then in turn a binomial
`Binomial(n, last stick)` and a stick `Beta(1 + z, alpha + n - z)`; sticks appended later continue the same chain (`C79_prior`, `C79_complete`).
With labels `0 .. m` in use, given the binomials `z` held, stick `j` is drawn from
`Beta(1 + #{d_i = j} + z_j + z_{j+1}, alpha + #{d_i > j} + (n - z_j) + (n - z_{j+1}))`, at its own stream position (`C79_fitted`); and these are
the parameters of the conditional law of the stick in the chain given both neighbouring binomials and the labels (`C79_bayes`).
-/

set_option linter.unusedSectionVars false

namespace Verif
open Spec ProbabilityTheory
variable {K : Type} [Field K] [LinearOrder K] [IsStrictOrderedRing K] {ω : Oracle K}
variable (log : K → K) (pos : ℕ) (ops : List (WOp K)) {n : ℤ} {alpha : K}

theorem BBin.reach_hyper : (BBin.cls.run log ω (BBin.init n alpha, pos) ops).1.n = n ∧ (BBin.cls.run log ω (BBin.init n alpha, pos) ops).1.alpha = alpha := by
  have := WeightCore.run_keeps (BBin.hyper_stable (ω := ω) (· = (n, alpha))) log ops (BBin.init n alpha, pos) rfl
  exact ⟨congrArg Prod.fst this, congrArg Prod.snd this⟩

theorem BBin.prior_draw (hω : ω.Legal) {s : BBin K × ℕ} (hB : BBin.BInv s.1) (hn : s.1.n = n) (ha : s.1.alpha = alpha) (hd : s.1.d = [])
    {size : PySize} {k : ℤ} (hk : size.toInt? = some k) :
    ∃ r t, BBin.random size ω s = (.ok r, t) ∧ IsStick t.1.v r ∧ t.1.v.length = max 1 k.toNat ∧
      ChainFrom ω n alpha (s.2 + 1) (ω.beta s.2 1 alpha) t.1.binomials t.1.v := by
  obtain ⟨r, t, h⟩ := BBin.random_total hω hB (by rw [hd]; exact nofun) (size := size) (.inr ⟨k, hk⟩)
  have hw : wp ω (BBin.random size) (fun r t => IsStick t.1.v r ∧ t.1.v.length = max 1 k.toNat ∧
      ChainFrom ω n alpha (s.2 + 1) (ω.beta s.2 1 alpha) t.1.binomials t.1.v) (fun _ _ => True) s := by
    unfold BBin.random BBin.randomSized
    rw [wp_bind, wp_self, wp_ite]
    refine ⟨fun h => trivial, fun _ => ?_⟩
    rw [wp_bind, wp_assign, wp_bind, wp_self, if_pos (by rw [hd]; rfl), if_neg (by rintro rfl; cases hk)]
    refine wp_mono (BBin.complete_start size hk _ rfl) ?_ (fun _ _ _ => trivial)
    rintro r t ⟨h1, h2, h3, h4⟩
    rw [← hn, ← ha]
    exact ⟨by rw [h4]; exact stickWeights_isStick _, h1, h3⟩
  exact ⟨r, t, h, wp_of_ok h hw⟩

theorem C79_prior (hω : ω.Legal) (hn : 0 ≤ n) (ha : 0 < alpha) {s : BBin K × ℕ} (hs : BBin.cls.run log ω (BBin.init n alpha, pos) ops = s) (hd : s.1.d = [])
    {size : PySize} {k : ℤ} (hk : size.toInt? = some k) :
    ∃ r t, BBin.random size ω s = (.ok r, t) ∧ IsStick t.1.v r ∧ t.1.v.length = max 1 k.toNat ∧
      ChainFrom ω n alpha (s.2 + 1) (ω.beta s.2 1 alpha) t.1.binomials t.1.v := by
  have hh := BBin.reach_hyper (ω := ω) log pos ops (n := n) (alpha := alpha)
  have hB := BBin.reach (ω := ω) log pos ops hω hn ha
  rw [hs] at hh hB
  exact BBin.prior_draw hω hB hh.1 hh.2 hd hk

theorem C79_complete (hω : ω.Legal) (hn : 0 ≤ n) (ha : 0 < alpha) {s : BBin K × ℕ} (hs : BBin.cls.run log ω (BBin.init n alpha, pos) ops = s)
    {x : K} (hx : s.1.v.getLast? = some x) {size : PySize} {k : ℤ} (hk : size.toInt? = some k) :
    ∃ r t zs vs, BBin.complete size ω s = (.ok r, t) ∧ IsStick t.1.v r ∧ vs.length = (k - s.1.v.length).toNat ∧ t.1.v = s.1.v ++ vs ∧
      t.1.binomials = s.1.binomials ++ zs ∧ ChainFrom ω n alpha s.2 x zs vs := by
  obtain ⟨r, t, h⟩ := C17_complete log pos ops hω hn ha hs hk
  have hh := BBin.reach_hyper (ω := ω) log pos ops (n := n) (alpha := alpha)
  rw [hs] at hh
  obtain ⟨zs, vs, h1, h2, h3, h4, h5, h6, h7⟩ := wp_of_ok h (BBin.complete_chain size hk s hx)
  rw [hh.1, hh.2] at h6
  exact ⟨r, t, zs, vs, h, by rw [h7]; exact stickWeights_isStick _, h1, h2, h3, h6⟩

/-- The draw with data: `zs` the binomials, `vs` the sticks of the positions `0 .. m`. -/
structure FittedChain (ω : Oracle K) (n : ℤ) (alpha : K) (d : List ℤ) (pos m : ℕ) (zs : List ℤ) (vs : List K) : Prop where
  start : zs[0]? = some (ω.binom (pos + (m + 2)) n (ω.beta pos 1 alpha))
  binom : ∀ i ≤ m, zs[i + 1]? = some (ω.binom (pos + (m + 2) + (i + 1)) n (ω.beta (pos + (i + 1)) (1 + (nEq d i : K)) (alpha + (nGt d i : K))))
  stick : ∀ j ≤ m, ∃ z z', zs[j]? = some z ∧ zs[j + 1]? = some z' ∧
    vs[j]? = some (ω.beta (pos + 2 * (m + 2) + j) (1 + (nEq d j : K) + (z : K) + (z' : K)) (alpha + (nGt d j : K) + ((n : K) - z) + ((n : K) - z')))

theorem BBin.fitted_draw (hω : ω.Legal) {s : BBin K × ℕ} (hB : BBin.BInv s.1) (hn : s.1.n = n) (ha : s.1.alpha = alpha)
    (hd : NonNegLabels s.1.d) {m : ℕ} (hm : IsMaxLabel s.1.d m) {size : PySize} (hsz : size = .none ∨ ∃ k, size.toInt? = some k) :
    ∃ r t x zs vs, BBin.random size ω s = (.ok r, t) ∧ IsStick t.1.v r ∧ FittedChain ω n alpha s.1.d s.2 m t.1.binomials t.1.v ∧
      t.1.v[m]? = some x ∧ t.1.binomials.drop (m + 2) = zs ∧ t.1.v.drop (m + 1) = vs ∧ ChainFrom ω n alpha (s.2 + 2 * (m + 2) + (m + 1)) x zs vs ∧
      vs.length = (size.toInt?.getD 1 - ((m : ℤ) + 1)).toNat := by
  have hdne : s.1.d ≠ [] := List.ne_nil_of_mem hm.1
  obtain ⟨r, t, h⟩ := BBin.random_total hω hB hd (size := size) (hsz.imp (fun h => ⟨h, hdne⟩) id)
  obtain ⟨zs, vs, h1, h2, ⟨x, h3, h4⟩, h5, h6⟩ := wp_of_ok h (BBin.random_fitted_chain (size := size) s hm)
  rw [hn, ha] at h1 h2 h3 h4
  have hz : ∀ i < m + 2, t.1.binomials[i]? = some (BBin.zPost ω n alpha s.1.d s.2 m i) := by
    intro i hi
    rw [h1, List.getElem?_append_left (by simpa using hi)]
    simp [hi]
  have hv : ∀ j < m + 1, t.1.v[j]? = some (BBin.vPost ω n alpha s.1.d (s.2 + 2 * (m + 2)) (BBin.zPost ω n alpha s.1.d s.2 m) j) := by
    intro i hi
    rw [h2, List.getElem?_append_left (by simpa using hi)]
    simp [hi]
  refine ⟨r, t, x, zs, vs, h, by rw [h5]; exact stickWeights_isStick _, ⟨hz 0 (by omega), fun i hi => hz (i + 1) (by omega), fun j hj => ?_⟩, ?_, ?_, ?_, h4, h6⟩
  · refine ⟨_, _, hz j (by omega), hz (j + 1) (by omega), ?_⟩
    rw [hv j (by omega), BBin.vPost]
    push_cast
    congr 2 <;> ring
  · rw [h2, List.getElem?_append_left (by simp), h3]
  · rw [h1]; exact List.drop_left' (by simp)
  · rw [h2]; exact List.drop_left' (by simp)

theorem C79_fitted (hω : ω.Legal) (hn : 0 ≤ n) (ha : 0 < alpha) {s : BBin K × ℕ} (hs : BBin.cls.run log ω (BBin.init n alpha, pos) ops = s)
    (hd : NonNegLabels s.1.d) {m : ℕ} (hm : IsMaxLabel s.1.d m) {size : PySize} (hsz : size = .none ∨ ∃ k, size.toInt? = some k) :
    ∃ r t x zs vs, BBin.random size ω s = (.ok r, t) ∧ IsStick t.1.v r ∧ FittedChain ω n alpha s.1.d s.2 m t.1.binomials t.1.v ∧
      t.1.v[m]? = some x ∧ t.1.binomials.drop (m + 2) = zs ∧ t.1.v.drop (m + 1) = vs ∧ ChainFrom ω n alpha (s.2 + 2 * (m + 2) + (m + 1)) x zs vs ∧
      vs.length = (size.toInt?.getD 1 - ((m : ℤ) + 1)).toNat := by
  have hh := BBin.reach_hyper (ω := ω) log pos ops (n := n) (alpha := alpha)
  have hB := BBin.reach (ω := ω) log pos ops hω hn ha
  rw [hs] at hh hB
  exact BBin.fitted_draw hω hB hh.1 hh.2 hd hm hsz

/-- The parameters of `C79_fitted` are those of Bayes' rule: the density of the stick given the binomial before it, times the probability of the binomial after
it, times the probability of the labels at or beyond the position, is a constant times the density with these parameters. -/
theorem C79_bayes {alpha : ℝ} (ha : 0 < alpha) {n z z' : ℕ} (hz : z ≤ n) (hz' : z' ≤ n) (A B : ℕ) :
    ∃ c > 0, ∀ x, betaPDFReal (1 + z) (alpha + n - z) x * ((n.choose z' : ℝ) * x ^ z' * (1 - x) ^ (n - z')) * (x ^ A * (1 - x) ^ B) =
      c * betaPDFReal (1 + A + z + z') (alpha + B + ((n : ℝ) - z) + ((n : ℝ) - z')) x := by
  have h0 : (z : ℝ) ≤ n := by exact_mod_cast hz
  have h0' : (z' : ℝ) ≤ n := by exact_mod_cast hz'
  have h1 : 0 < alpha + (n : ℝ) - z := by linarith
  have h2 : (0 : ℝ) < 1 + z := by positivity
  have hc : (0 : ℝ) < n.choose z' := by exact_mod_cast Nat.choose_pos hz'
  refine ⟨n.choose z' * (beta (1 + z + ((z' + A : ℕ) : ℝ)) (alpha + n - z + ((n - z' + B : ℕ) : ℝ)) / beta (1 + z) (alpha + n - z)), ?_, fun x => ?_⟩
  · exact mul_pos hc (div_pos (beta_pos (by positivity) (by positivity)) (beta_pos h2 h1))
  · have := betaPDFReal_bayes h2 h1 (z' + A) (n - z' + B) x
    have e1 : (1 : ℝ) + A + z + z' = 1 + z + ((z' + A : ℕ) : ℝ) := by push_cast; ring
    have e2 : alpha + B + ((n : ℝ) - z) + ((n : ℝ) - z') = alpha + n - z + ((n - z' + B : ℕ) : ℝ) := by push_cast [hz']; ring
    rw [e1, e2]
    rw [pow_add, pow_add] at this
    linear_combination (n.choose z' : ℝ) * this

/-! Non-vacuity: the state reached by `fit([1, 0])` on `BetaBinomial(2, 1)`, and the draws it gives. -/
example : (BBin.cls.run id (demo : Oracle ℚ) (BBin.init 2 1, 0) [.fit [1, 0]]).1.d = [1, 0] ∧ NonNegLabels [1, 0] ∧ IsMaxLabel [1, 0] (1 : ℕ) :=
  ⟨rfl, by simp [NonNegLabels], by simp [IsMaxLabel]⟩
example : (BBin.random .none demo (BBin.cls.run id (demo : Oracle ℚ) (BBin.init 2 1, 0) [.fit [1, 0]])).2.1.v = [1/8, 1/9] := by decide +kernel

end Verif
