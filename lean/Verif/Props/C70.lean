import Verif.Lemmas.Reach
import Verif.Lemmas.Demo

/-!
# C70: every `p_method` that the constructor of `BetaInBeta` accepts can be used by `random()` after `fit`

`C70_partial`: for every accepted method other than `"rejection-sampling"`, every `x` in `[0, 1]`, every history of calls and every
non-empty array of non-negative labels, `random()` and `random(n)` return weights.  `C70_ends_partial`: with `x = 0` or `x = 1`
the method `"rejection-sampling"` is usable too.  `C70_unknown`: a method outside the documented ones is refused by the
constructor.  `C70_refuted`: for every `0 < x < 1`, every history and every non-empty array of labels, `random` with
`"rejection-sampling"` raises `ValueError`, whatever the size, although the constructor accepted the method.
-/

set_option linter.unusedSectionVars false

namespace Verif
open Spec
variable {K : Type} [Field K] [LinearOrder K] [IsStrictOrderedRing K]
variable (log : K → K) {ω : Oracle K} (pos : ℕ) (ops : List (WOp K)) {x alpha a b p : K} {m : PMethod} {s0 : BIB K}

/-- The sizes a caller may ask for: the default, or a positive number. -/
def AskedSize (size : PySize) : Prop := size = .none ∨ ∃ n : ℤ, 1 ≤ n ∧ size = .int n

theorem BIB.fitted_d (d : List ℤ) : (BIB.cls.run log ω (s0, pos) (ops ++ [.fit d])).1.d = d := by
  simp only [WeightClass.run, List.foldl_append, List.foldl_cons, List.foldl_nil]
  rfl

theorem BIB.usable_random (hω : ω.Legal) (hi : BIB.init x alpha a b p m = .ok s0) (hx : 0 ≤ x ∧ x ≤ 1) (ha : 0 < alpha) (hab : 0 < a ∧ 0 < b)
    (hp : 0 ≤ p ∧ p ≤ 1) (hm : m ≠ .rejectionSampling ∨ x = 0 ∨ x = 1) {d : List ℤ} (hd : NonNegLabels d) (hne : d ≠ []) {size : PySize}
    (hs : AskedSize size) : ∃ r t, BIB.random size ω (BIB.cls.run log ω (s0, pos) (ops ++ [.fit d])) = (.ok r, t) := by
  have hv := BIB.reach_valid log pos (ops ++ [.fit d]) hω hi hx ha hab hp hm (by rw [BIB.fitted_d]; exact hd)
  have hg : GoodSize (BIB.cls.run log ω (s0, pos) (ops ++ [.fit d])).1.d size := by
    rcases hs with rfl | ⟨n, hn, rfl⟩
    · exact .inl ⟨rfl, by rw [BIB.fitted_d]; exact hne⟩
    · exact .inr ⟨n, rfl, by omega⟩
  obtain ⟨r, t, h, -⟩ := wp_total (BIB.random_ok hω hv hg)
  exact ⟨r, t, h⟩

/-- Missing: `"rejection-sampling"` with `0 < x < 1`, see `C70_refuted`. -/
theorem C70_partial (hω : ω.Legal) (hi : BIB.init x alpha a b p m = .ok s0) (hx : 0 ≤ x ∧ x ≤ 1) (ha : 0 < alpha) (hab : 0 < a ∧ 0 < b)
    (hp : 0 ≤ p ∧ p ≤ 1) (hm : m ≠ .rejectionSampling) {d : List ℤ} (hd : NonNegLabels d) (hne : d ≠ []) {size : PySize}
    (hs : AskedSize size) : ∃ r t, BIB.random size ω (BIB.cls.run log ω (s0, pos) (ops ++ [.fit d])) = (.ok r, t) :=
  BIB.usable_random log pos ops hω hi hx ha hab hp (.inl hm) hd hne hs

/-- Missing: `0 < x < 1`, see `C70_refuted`. -/
theorem C70_ends_partial (hω : ω.Legal) (hi : BIB.init x alpha a b p .rejectionSampling = .ok s0) (hx : x = 0 ∨ x = 1) (ha : 0 < alpha)
    (hab : 0 < a ∧ 0 < b) (hp : 0 ≤ p ∧ p ≤ 1) {d : List ℤ} (hd : NonNegLabels d) (hne : d ≠ []) {size : PySize}
    (hs : AskedSize size) : ∃ r t, BIB.random size ω (BIB.cls.run log ω (s0, pos) (ops ++ [.fit d])) = (.ok r, t) :=
  BIB.usable_random log pos ops hω hi (by rcases hx with rfl | rfl <;> simp) ha hab hp (.inr hx) hd hne hs

theorem C70_unknown : BIB.init x alpha a b p .unknown = .error .valueError := rfl

theorem BIB.random_rejection (s : BIB K × ℕ) (hx : 0 < s.1.x ∧ s.1.x < 1) (hd : s.1.d ≠ []) (hm : s.1.pMethod = .rejectionSampling) {size : PySize} :
    ∃ t, BIB.random size ω s = (.error .valueError, t) := by
  have hl : s.1.d.length ≠ 0 := fun h => hd (List.length_eq_zero_iff.1 h)
  have hw : wp ω (BIB.random size) (fun _ _ => False) (fun e _ => e = .valueError) s := by
    unfold BIB.random
    rw [wp_bind, wp_self, if_neg (fun h => hl h.2), wp_bind, wp_assign, if_neg hl, wp_bind, wp_whenM]
    refine ⟨fun _ => ?_, fun h => absurd hx.1 h⟩
    unfold BIB.randomP
    rw [wp_bind, wp_self]
    dsimp only
    rw [if_neg hx.2.ne, if_neg hx.1.ne', if_neg hl, hm]
    dsimp only
    rw [wp_raise]
  unfold wp at hw
  rcases h : BIB.random size ω s with ⟨_ | _, t⟩ <;> rw [h] at hw
  · exact ⟨t, by rw [hw]⟩
  · exact hw.elim

/-- The constructor accepts the method, and then every `random` of a fitted object raises. -/
theorem C70_refuted (hx : 0 < x ∧ x < 1) : BIB.init x alpha a b p .rejectionSampling = .ok ⟨x, alpha, a, b, p, .rejectionSampling, [], [], []⟩ ∧
    ∀ {d : List ℤ}, d ≠ [] → ∀ size : PySize, ∃ t,
      BIB.random size ω (BIB.cls.run log ω (⟨x, alpha, a, b, p, .rejectionSampling, [], [], []⟩, pos) (ops ++ [.fit d])) = (.error .valueError, t) := by
  refine ⟨rfl, fun {d} hne size => ?_⟩
  have hh := WeightCore.run_keeps (BIB.hyper_stable (ω := ω) (· = (x, alpha, a, b, PMethod.rejectionSampling))) log (ops ++ [.fit d])
    (⟨x, alpha, a, b, p, .rejectionSampling, [], [], []⟩, pos) rfl
  have hd := BIB.fitted_d (ω := ω) (s0 := ⟨x, alpha, a, b, p, .rejectionSampling, [], [], []⟩) log pos ops d
  change BIB.hyper (BIB.cls.run log ω (⟨x, alpha, a, b, p, .rejectionSampling, [], [], []⟩, pos) (ops ++ [.fit d])).1 = _ at hh
  generalize hs : BIB.cls.run log ω (⟨x, alpha, a, b, p, .rejectionSampling, [], [], []⟩, pos) (ops ++ [.fit d]) = s at hh hd ⊢
  change (s.1.x, s.1.alpha, s.1.a, s.1.b, s.1.pMethod) = _ at hh
  simp only [Prod.mk.injEq] at hh
  obtain ⟨e1, -, -, -, e5⟩ := hh
  exact BIB.random_rejection s (by rw [e1]; exact hx) (by rw [hd]; exact hne) e5

/-- The hypotheses are met: a legal generator, labels, and runs of two methods. -/
example : (meanO : Oracle ℚ).Legal ∧ NonNegLabels [2, 0] ∧ AskedSize .none ∧
    (BIB.random .none (meanO : Oracle ℚ) (⟨1/2, 1, 1, 1, 0, .geometric, [], [], [2, 0]⟩, 0)).1.toOption.isSome = true ∧
    (BIB.random .none (meanO : Oracle ℚ) (⟨1, 1, 1, 1, 0, .rejectionSampling, [], [], [2, 0]⟩, 0)).1 = .ok [1/2, 1/4, 1/8] :=
  ⟨meanO_legal, by simp [NonNegLabels], .inl rfl, by decide +kernel, by decide +kernel⟩
example : (BIB.random .none (meanO : Oracle ℚ) (⟨1/2, 1, 1, 1, 0, .rejectionSampling, [], [], [2, 0]⟩, 0)).1 = .error .valueError := by
  decide +kernel

end Verif
