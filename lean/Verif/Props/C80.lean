import Verif.Lemmas.BBerDraw
import Verif.Lemmas.BetaLaw
import Verif.Props.C18

/-!
# C80: the sticks of `BetaBernoulli` have the conjugate parameters given its path

For every history of calls.  Without data the path is made of independent `Bernoulli(p)` draws (`C80_prior_partial`, for histories without `random(0)`,
after which the call fails; the sticks along the path are those of C18).  Sticks appended by `complete` go on in the same way: new `Bernoulli(p)` draws, the last
stick repeated until the first 1, and a new `Beta(1, alpha)` draw at every 1 (`C80_complete`).  With labels `0 .. m` in use, a draw that returns leaves a path whose
first entry is 0, and given the path, position `j` has the stick drawn from `Beta(1 + A, alpha + B)`, where `A` and `B` are the numbers of labels equal to, and larger
than, a position, summed over the positions that share the stick (`C80_fitted`); these are the parameters of Bayes' rule (`C80_bayes`).
-/

set_option linter.unusedSectionVars false

namespace Verif
open Spec ProbabilityTheory
variable {K : Type} [Field K] [LinearOrder K] [IsStrictOrderedRing K] {ω : Oracle K}
variable (log : K → K) (pos : ℕ) (ops : List (WOp K)) {p alpha : K}

/-- The number of changes of stick up to position `j`. -/
def changes (path : List ℤ) (j : ℕ) : ℕ := (path.take (j + 1)).countP (· = 1)

theorem group_eq_changes {path : List ℤ} (h : Bits path) (j : ℕ) : BBer.group path j = changes path j := by
  have : ∀ l : List ℤ, Bits l → l.sum = ((l.countP (· = 1) : ℕ) : ℤ) := by
    intro l
    induction l with
    | nil => intro _; rfl
    | cons x l ih =>
      intro hb
      have hx := hb x (by simp)
      rw [List.sum_cons, ih (fun z hz => hb z (by simp [hz])), List.countP_cons]
      have : x = 0 ∨ x = 1 := by omega
      rcases this with rfl | rfl <;> simp; ring
  unfold BBer.group changes
  rw [this _ (fun z hz => h z (List.mem_of_mem_take hz)), Int.toNat_natCast]

/-- The path of a draw without data, from any state. -/
theorem BBer.random_path (s : BBer K × ℕ) (hd : s.1.d = []) {n : ℕ} {size : PySize} (hsz : size.toInt? = some (n : ℤ)) :
    wp ω (BBer.random size) (fun _ t => ∀ j < n, t.1.bernoullis[j]? = some (ω.binom (s.2 + j) 1 s.1.p)) (fun _ _ => True) s := by
  unfold BBer.random BBer.randomSized
  rw [wp_bind, wp_self, wp_ite]
  refine ⟨fun _ => trivial, fun _ => ?_⟩
  rw [wp_bind, wp_assign, wp_bind, wp_self, if_pos (by rw [hd]; rfl), if_neg (by rintro rfl; cases hsz), hsz, wp_bind]
  unfold BBer.randomBernoullis
  rw [wp_bind, wp_self]
  dsimp only
  rw [wp_bind, wp_binomRep]
  refine ⟨fun _ => trivial, fun _ _ _ _ => ?_⟩
  rw [wp_ite]
  refine ⟨fun _ => trivial, fun _ => ?_⟩
  rw [wp_bind, wp_assign, if_neg (by rw [hd]; simp), wp_assign, wp_bind, wp_self, wp_bind, wp_lift]
  refine ⟨fun _ _ => ?_, fun _ _ => trivial⟩
  rw [wp_bind, wp_betaRep]
  refine ⟨fun _ => trivial, fun _ _ _ => ?_⟩
  rw [wp_bind, wp_assign, wp_bind, wp_lift]
  refine ⟨fun _ _ => ?_, fun _ _ => trivial⟩
  rw [wp_bind, wp_assign, wp_pure]
  intro j hj
  show ((List.range ((n : ℤ)).toNat).map (fun i => ω.binom (s.2 + i) 1 s.1.p))[j]? = _
  rw [Int.toNat_natCast, List.getElem?_map, List.getElem?_range hj]
  rfl

/-- Missing: histories with a call `random(0)`. -/
theorem C80_prior_partial (hω : ω.Legal) (hops : ∀ op ∈ ops, op.notRandomZero) (hp : 0 ≤ p ∧ p ≤ 1) (ha : 0 < alpha) {s : BBer K × ℕ}
    (hs : BBer.cls.run log ω (BBer.init p alpha, pos) ops = s) (hd : s.1.d = []) {n : ℕ} (hn : 1 ≤ n) {size : PySize} (hsz : size.toInt? = some (n : ℤ)) :
    ∃ r t, BBer.random size ω s = (.ok r, t) ∧ t.1.bernoullis.length = n ∧ ∀ j < n, t.1.bernoullis[j]? = some (ω.binom (s.2 + j) 1 p) := by
  obtain ⟨r, t, h, -, -, -, hl, -⟩ := C18_random_partial log pos ops hω hops hp ha hs hd hn hsz
  have hh := BBer.reach_hyper (ω := ω) log pos ops p alpha
  rw [hs] at hh
  refine ⟨r, t, h, hl, ?_⟩
  intro j hj
  rw [wp_of_ok h (BBer.random_path s hd hsz) j hj, hh.1]

theorem C80_complete (hω : ω.Legal) {s : BBer K × ℕ} (hs : BBer.cls.run log ω (BBer.init p alpha, pos) ops = s) {x : K} (hx : s.1.v.getLast? = some x)
    {size : PySize} {n : ℤ} (hn : size.toInt? = some n) {r : List K} {t : BBer K × ℕ} (h : BBer.complete size ω s = (.ok r, t)) :
    ∃ cs vs, cs.length = (n - s.1.v.length).toNat ∧ vs.length = cs.length ∧ t.1.bernoullis = s.1.bernoullis ++ cs ∧ t.1.v = s.1.v ++ vs ∧
      (∀ i < cs.length, cs[i]? = some (ω.binom (s.2 + i) 1 p)) ∧
      ∀ i < cs.length, vs[i]? = some (if changes cs i = 0 then x else ω.beta (s.2 + cs.length + (changes cs i - 1)) 1 alpha) := by
  have hh := BBer.reach_hyper (ω := ω) log pos ops p alpha
  rw [hs] at hh
  obtain ⟨cs, vs, h1, h2, h3, h4, h5, h6⟩ := wp_of_ok h (BBer.complete_draw size hn s hx)
  rw [hh.1] at h5
  rw [hh.2] at h6
  have hb : Bits cs := by
    intro z hz
    obtain ⟨i, hi⟩ := List.mem_iff_getElem?.1 hz
    have hil : i < cs.length := by
      by_contra hc
      rw [List.getElem?_eq_none (by omega)] at hi
      cases hi
    rw [h5 i hil] at hi
    cases hi
    exact ⟨hω.binom_nonneg _ _ _ (by omega), hω.binom_le _ _ _ (by omega)⟩
  refine ⟨cs, vs, h1, h2, h3, h4, h5, fun i hi => ?_⟩
  rw [h6 hb i hi, group_eq_changes hb]

/-- The sum of `f` over the positions up to `m` that share the stick of position `j`. -/
def shared (path : List ℤ) (m : ℕ) (f : ℕ → ℕ) (j : ℕ) : ℕ := ∑ i ∈ (Finset.range (m + 1)).filter (fun i => changes path i = changes path j), f i

theorem C80_fitted (hω : ω.Legal) {s : BBer K × ℕ} (hs : BBer.cls.run log ω (BBer.init p alpha, pos) ops = s) {m : ℕ} (hm : IsMaxLabel s.1.d m)
    {size : PySize} {r : List K} {t : BBer K × ℕ} (h : BBer.random size ω s = (.ok r, t)) :
    ∃ path q, path <+: t.1.bernoullis ∧ path.length = m + 1 ∧ Bits path ∧ path[0]? = some 0 ∧
      ∀ j ≤ m, t.1.v[j]? = some (ω.beta (q + changes path j) (1 + (shared path m (nEq s.1.d) j : K)) (alpha + (shared path m (nGt s.1.d) j : K))) := by
  have hh := BBer.reach_hyper (ω := ω) log pos ops p alpha
  rw [hs] at hh
  obtain ⟨bern, a, q, -, hP, hpre, hv⟩ := wp_of_ok h (BBer.random_fitted_draw hω s hm)
  have hbits : Bits bern := by
    intro z hz
    obtain ⟨i, hi⟩ := List.mem_iff_getElem?.1 hz
    have hil : i < m + 1 := by
      by_contra hc
      rw [List.getElem?_eq_none (by rw [hP.len]; omega)] at hi
      cases hi
    rcases Nat.eq_zero_or_pos i with h0 | h0
    · rw [h0, hP.zero] at hi; cases hi; exact ⟨le_rfl, zero_le_one⟩
    · by_cases him : i = m
      · rw [him, hP.last (by omega)] at hi; cases hi
        exact ⟨hω.binom_nonneg _ _ _ (by omega), hω.binom_le _ _ _ (by omega)⟩
      · obtain ⟨q, -, hr⟩ := hP.mid i h0 (by omega)
        rw [hr] at hi; cases hi
        exact ⟨hω.binom_nonneg _ _ _ (by omega), hω.binom_le _ _ _ (by omega)⟩
  refine ⟨bern, q, hpre, hP.len, hbits, hP.zero, fun j hj => ?_⟩
  have hsum : ∀ f, BBer.groupSum bern m f j = shared bern m f j := by
    intro f
    unfold BBer.groupSum shared
    simp_rw [group_eq_changes hbits]
  rw [hv j hj, hsum, hsum, hh.2, group_eq_changes hbits]

/-- Bayes' rule for a stick shared by the positions `S`: the prior density times the product of the probabilities of the labels is a constant times the density with
the parameters of `C80_fitted`. -/
theorem C80_bayes {alpha : ℝ} (ha : 0 < alpha) (S : Finset ℕ) (A B : ℕ → ℕ) :
    ∃ c > 0, ∀ x, betaPDFReal 1 alpha x * ∏ i ∈ S, (x ^ A i * (1 - x) ^ B i) =
      c * betaPDFReal (1 + ((∑ i ∈ S, A i : ℕ) : ℝ)) (alpha + ((∑ i ∈ S, B i : ℕ) : ℝ)) x := by
  refine ⟨beta (1 + ((∑ i ∈ S, A i : ℕ) : ℝ)) (alpha + ((∑ i ∈ S, B i : ℕ) : ℝ)) / beta 1 alpha, ?_, fun x => ?_⟩
  · exact div_pos (beta_pos (by positivity) (by positivity)) (beta_pos one_pos ha)
  · rw [← betaPDFReal_bayes one_pos ha, Finset.prod_mul_distrib, Finset.prod_pow_eq_pow_sum, Finset.prod_pow_eq_pow_sum]
    ring

/-! Non-vacuity: `fit([1, 0])` and the draw it gives. -/
example : (BBer.cls.run id (demo : Oracle ℚ) (BBer.init (1/2) 1, 0) [.fit [1, 0]]).1.d = [1, 0] ∧ IsMaxLabel [1, 0] (1 : ℕ) := ⟨rfl, by simp [IsMaxLabel]⟩
example : (BBer.random .none demo (BBer.cls.run id (demo : Oracle ℚ) (BBer.init (1/2) 1, 0) [.fit [1, 0]])).1.isOk = true := by decide +kernel

end Verif
