import Verif.Props.C75
import Verif.Lemmas.StickTail

/-!
# C76: the `p_method` choices that fit `p` use the sticks of the structure

`"max-likelihood"` and `"inverse-sampling"` determine `p` from the likelihood of the sticks that the object holds.  `random()` discards these sticks before
it determines the `p` with which the new sticks are drawn, so for every state the whole outcome of the call is the same whatever sticks were held
(`C76_forgets`), and `p` is the optimum for no sticks at all, i.e. of its prior (`C76_refuted`).  What holds: the `p` that the object keeps after `random()` is the
optimum for the sticks just drawn for the labels (`C76_maxLikelihood_partial`, `C76_inverseSampling_partial`), and `complete(n)` first fits `p` to the
sticks held (`C76_complete_partial`).
-/

set_option linter.unusedSectionVars false

namespace Verif
open Spec
variable {K : Type} [Field K] [LinearOrder K] [IsStrictOrderedRing K]
variable (log : K → K) {ω : Oracle K} (pos : ℕ) (ops : List (WOp K)) {x alpha a b p : K} {m : PMethod} {s0 : BIB K}

/-- The sticks that the object holds play no role in `random`. -/
theorem C76_forgets (s : BIB K × ℕ) (hd : s.1.d ≠ []) (size : PySize) (v : List K) : BIB.random size ω ({ s.1 with v := v }, s.2) = BIB.random size ω s := by
  have hl : s.1.d.length ≠ 0 := fun h => hd (List.length_eq_zero_iff.1 h)
  unfold BIB.random
  simp only [M.bind_apply, M.self, hl, and_false, if_false]
  rfl

theorem C76_maxLikelihood_partial (hω : ω.Legal) (hi : BIB.init x alpha a b p .maxLikelihood = .ok s0) (hx : 0 < x ∧ x < 1) (ha : 0 < alpha) (hab : 0 < a ∧ 0 < b)
    (hp : 0 ≤ p ∧ p ≤ 1) {s : BIB K × ℕ} (hs : BIB.cls.run log ω (s0, pos) ops = s) (hd : NonNegLabels s.1.d) {size : PySize} {n N : ℕ}
    (hn : EffSize s.1.d size n) (hN : IsMaxLabel s.1.d ((N : ℤ) - 1)) :
    ∃ r t p1 i, BIB.random size ω s = (.ok r, t) ∧ t.1.p = (ω.optim i (t.1.v.take N) [x, alpha, a, b, p1]).getD p1 ∧
      p1 = (ω.optim s.2 [] [x, alpha, a, b, s.1.p]).getD s.1.p := by
  have hh : BIB.hyper s.1 = BIB.hyper s0 := by
    have := WeightCore.run_keeps (BIB.hyper_stable (ω := ω) (· = BIB.hyper s0)) log ops (s0, pos) rfl
    rw [← hs]; exact this
  have h0 : s0 = ⟨x, alpha, a, b, p, .maxLikelihood, [], [], []⟩ := by injection hi with hi; exact hi.symm
  rw [h0] at hh
  simp only [BIB.hyper, Prod.mk.injEq] at hh
  obtain ⟨e1, e2, e3, e4, e5⟩ := hh
  obtain ⟨r, t, v1, v2, p1, i1, p2, i2, h1, -, h3, h4, h5, h6, h7, h8⟩ := C75_exact log pos ops hω hi hx ha hab hp (by decide) hs hd hn hN
  simp only [BIB.nextP, e1, e2, e3, e4, e5, Prod.mk.injEq] at h4 h6
  suffices hv1 : t.1.v.take N = v1 by
    refine ⟨r, t, p1, i1 + min n N, h1, ?_, h4.1⟩
    rw [h7, h6.1, hv1]
  rw [h3]
  by_cases hle : n ≤ N
  · rw [min_eq_left hle, Nat.sub_self] at h8
    have hv2 : v2 = [] := List.length_eq_zero_iff.1 h8.length
    rw [hv2, List.append_nil, List.take_of_length_le]
    rw [h5.length]; omega
  · have hl := h5.length
    rw [min_eq_right (by omega)] at hl
    rw [← hl, List.take_left']
    rfl

theorem C76_inverseSampling_partial (hω : ω.Legal) (hi : BIB.init x alpha a b p .inverseSampling = .ok s0) (hx : 0 < x ∧ x < 1) (ha : 0 < alpha) (hab : 0 < a ∧ 0 < b)
    (hp : 0 ≤ p ∧ p ≤ 1) {s : BIB K × ℕ} (hs : BIB.cls.run log ω (s0, pos) ops = s) (hd : NonNegLabels s.1.d) {size : PySize} {n N : ℕ}
    (hn : EffSize s.1.d size n) (hN : IsMaxLabel s.1.d ((N : ℤ) - 1)) :
    ∃ r t p1 i, BIB.random size ω s = (.ok r, t) ∧ t.1.p = (ω.optim (i + 1) (t.1.v.take N) [x, alpha, a, b, ω.unif i]).getD p1 ∧
      p1 = (ω.optim (s.2 + 1) [] [x, alpha, a, b, ω.unif s.2]).getD s.1.p := by
  have hh : BIB.hyper s.1 = BIB.hyper s0 := by
    have := WeightCore.run_keeps (BIB.hyper_stable (ω := ω) (· = BIB.hyper s0)) log ops (s0, pos) rfl
    rw [← hs]; exact this
  have h0 : s0 = ⟨x, alpha, a, b, p, .inverseSampling, [], [], []⟩ := by injection hi with hi; exact hi.symm
  rw [h0] at hh
  simp only [BIB.hyper, Prod.mk.injEq] at hh
  obtain ⟨e1, e2, e3, e4, e5⟩ := hh
  obtain ⟨r, t, v1, v2, p1, i1, p2, i2, h1, -, h3, h4, h5, h6, h7, h8⟩ := C75_exact log pos ops hω hi hx ha hab hp (by decide) hs hd hn hN
  simp only [BIB.nextP, e1, e2, e3, e4, e5, Prod.mk.injEq] at h4 h6
  suffices hv1 : t.1.v.take N = v1 by
    refine ⟨r, t, p1, i1 + min n N, h1, ?_, h4.1⟩
    rw [h7, h6.1, hv1]
  rw [h3]
  by_cases hle : n ≤ N
  · rw [min_eq_left hle, Nat.sub_self] at h8
    have hv2 : v2 = [] := List.length_eq_zero_iff.1 h8.length
    rw [hv2, List.append_nil, List.take_of_length_le]
    rw [h5.length]; omega
  · have hl := h5.length
    rw [min_eq_right (by omega)] at hl
    rw [← hl, List.take_left']
    rfl

/-- `complete` fits `p` to the sticks held, for both methods. -/
theorem C76_complete_partial (hω : ω.Legal) (hi : BIB.init x alpha a b p m = .ok s0) (hx : 0 < x ∧ x < 1) (ha : 0 < alpha) (hab : 0 < a ∧ 0 < b)
    (hp : 0 ≤ p ∧ p ≤ 1) (hm : m = .maxLikelihood ∨ m = .inverseSampling) {s : BIB K × ℕ} (hs : BIB.cls.run log ω (s0, pos) ops = s) (hd : NonNegLabels s.1.d)
    (hne : s.1.d ≠ []) (hv : s.1.v ≠ []) (hw : IsStick s.1.v s.1.w) (n : ℕ) :
    ∃ r t, BIB.complete (.int n) ω s = (.ok r, t) ∧
      t.1.p = (if m = .maxLikelihood then ω.optim s.2 s.1.v [x, alpha, a, b, s.1.p] else ω.optim (s.2 + 1) s.1.v [x, alpha, a, b, ω.unif s.2]).getD s.1.p := by
  have hval : BIB.Valid s.1 := by
    have := BIB.reach_valid log pos ops hω hi ⟨hx.1.le, hx.2.le⟩ ha hab hp (.inl (by rcases hm with rfl | rfl <;> decide)) (by rw [hs]; exact hd)
    rwa [hs] at this
  have hh : BIB.hyper s.1 = BIB.hyper s0 := by
    have := WeightCore.run_keeps (BIB.hyper_stable (ω := ω) (· = BIB.hyper s0)) log ops (s0, pos) rfl
    rw [← hs]; exact this
  have h0 : s0 = ⟨x, alpha, a, b, p, m, [], [], []⟩ := by
    unfold BIB.init at hi
    split at hi
    · cases hi
    · injection hi with hi; exact hi.symm
  rw [h0] at hh
  simp only [BIB.hyper, Prod.mk.injEq] at hh
  obtain ⟨e1, e2, e3, e4, e5⟩ := hh
  have hw' : s.1.w = stickWeights s.1.v := IsStick.eq hw
  obtain ⟨r, t, v2, h1, -, -, -, h5, -⟩ := BIB.complete_next hω hval (by rw [e1]; exact hx) hne hv hw' n (size := .int n) rfl
  refine ⟨r, t, h1, ?_⟩
  rw [h5, BIB.nextP, e5, e1, e2, e3, e4]
  rcases hm with rfl | rfl
  · rfl
  · rfl

/-- As `meanO`, but the optimum for no sticks is 0 and the optimum for any sticks is 1. -/
def optO : Oracle ℚ := { meanO with optim := fun _ v _ => some (if v = [] then 0 else 1) }

theorem optO_legal : optO.Legal :=
  { (meanO_legal : (meanO : Oracle ℚ).Legal) with
    optim_mem := by
      intro i v ps p h
      simp only [optO, Option.some.injEq] at h
      rw [← h]
      split <;> norm_num }

/-- `fit([0, 1])`, `random()`, `random()`: before the second draw the object holds two sticks, and the optimum for them is 1, yet the new sticks are drawn with
`p = 0`: `Beta(2, 3)` and `Beta(2, 2)` instead of `Beta(3, 2)` and `Beta(3, 1)`. -/
theorem C76_refuted : ∃ (s : BIB ℚ × ℕ) (r : List ℚ) (t : BIB ℚ × ℕ), optO.Legal ∧
    BIB.cls.run id optO (⟨1/2, 1, 1, 1, 0, .maxLikelihood, [], [], []⟩, 0) [.fit [0, 1], .random .none] = s ∧ s.1.v.length = 2 ∧
    (∀ i ps, optO.optim i s.1.v ps = some 1) ∧ BIB.random .none optO s = (.ok r, t) ∧ 
    ∀ i j, t.1.v = [optO.beta i 2 3, optO.beta j 2 2] ∧ t.1.v ≠ [optO.beta i 3 2, optO.beta j 3 1] := by
  generalize hs : BIB.cls.run id optO (⟨1/2, 1, 1, 1, 0, .maxLikelihood, [], [], []⟩, 0) [.fit [0, 1], .random .none] = s
  have h1 : s.1.v = [2/5, 1/2] ∧ (BIB.random .none optO s).1.toOption.isSome = true ∧ (BIB.random .none optO s).2.1.v = [2/5, 1/2] := by
    rw [← hs]; decide +kernel
  rcases h : BIB.random .none optO s with ⟨e | r, t⟩
  · rw [h] at h1; cases h1.2.1
  rw [h] at h1
  refine ⟨s, r, t, optO_legal, rfl, by rw [h1.1]; rfl, fun i ps => by simp [optO, h1.1], h, fun i j => ?_⟩
  rw [h1.2.2]
  constructor <;> norm_num [optO, meanO]

/-- The hypotheses of the theorems above are met by this object after `fit([0, 1])`, for both methods. -/
example : BIB.init (1/2 : ℚ) 1 1 1 0 .inverseSampling = .ok ⟨1/2, 1, 1, 1, 0, .inverseSampling, [], [], []⟩ ∧ NonNegLabels [0, 1] ∧ EffSize [0, 1] (.int 5) 5 ∧
    IsMaxLabel [0, 1] ((2 : ℕ) - 1) ∧ IsStick [(2/5 : ℚ), 1/2] [2/5, 3/10] := by
  refine ⟨rfl, by simp [NonNegLabels], .inl ⟨rfl, by omega⟩, by simp [IsMaxLabel], rfl, ?_⟩
  intro j x h
  match j with
  | 0 => norm_num at h ⊢; linarith
  | 1 => norm_num at h ⊢; rw [← h]; norm_num
  | j + 2 => simp at h

end Verif
