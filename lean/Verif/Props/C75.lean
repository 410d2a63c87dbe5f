import Verif.Lemmas.BIBDraw
import Verif.Lemmas.Demo

/-!
# C75: given `p`, the sticks of a fitted `BetaInBeta` have the conjugate parameters

For `0 < x < 1` write `c = x/(1-x)`.  The sticks of a draw should all be drawn with one `p`: stick `j` from
`Beta(1 + c p + #{d_i = j}, alpha + c (1-p) + #{d_i > j})`, which for sticks beyond the largest label is `Beta(1 + c p, alpha + c (1-p))`.

For every history, generator, accepted `p_method` and labels, a call that asks for no more weights than the labels need draws in this way, with one `p`
(`C75_partial`).  If more weights are asked for, `p` is updated again before the remaining sticks are drawn (`C75_exact`), so the sticks of one draw have
different `p` (`C75_refuted`).  `BIB.nextP`, `BIB.postPar`, `BIB.priorPar` (`Lemmas/BIBDraw.lean`) spell out the rule of each `p_method` and the parameters.
-/

set_option linter.unusedSectionVars false

namespace Verif
open Spec
variable {K : Type} [Field K] [LinearOrder K] [IsStrictOrderedRing K]
variable (log : K → K) {ω : Oracle K} (pos : ℕ) (ops : List (WOp K)) {x alpha a b p : K} {m : PMethod} {s0 : BIB K}

/-- The exact rule for every size: sticks with labels use the `p` chosen first, the others the `p` chosen after these sticks were drawn, which is the one the
object keeps. -/
theorem C75_exact (hω : ω.Legal) (hi : BIB.init x alpha a b p m = .ok s0) (hx : 0 < x ∧ x < 1) (ha : 0 < alpha) (hab : 0 < a ∧ 0 < b) (hp : 0 ≤ p ∧ p ≤ 1)
    (hm : m ≠ .rejectionSampling) {s : BIB K × ℕ} (hs : BIB.cls.run log ω (s0, pos) ops = s) (hd : NonNegLabels s.1.d) {size : PySize} {n N : ℕ}
    (hn : EffSize s.1.d size n) (hN : IsMaxLabel s.1.d ((N : ℤ) - 1)) :
    ∃ r t v1 v2 p1 i1 p2 i2, BIB.random size ω s = (.ok r, t) ∧ IsStick t.1.v r ∧ t.1.v = v1 ++ v2 ∧ (p1, i1) = BIB.nextP ω s.1 [] s.1.p s.2 ∧
      SticksDrawn ω i1 (min n N) (fun j => (1 + x / (1 - x) * p1 + (nEq s.1.d j : K), alpha + x / (1 - x) * (1 - p1) + (nGt s.1.d j : K))) v1 ∧
      (p2, i2) = BIB.nextP ω s.1 v1 p1 (i1 + min n N) ∧ t.1.p = p2 ∧
      SticksDrawn ω i2 (n - min n N) (fun _ => (1 + x / (1 - x) * p2, alpha + x / (1 - x) * (1 - p2))) v2 := by
  have hv : BIB.Valid s.1 := by
    have := BIB.reach_valid log pos ops hω hi ⟨hx.1.le, hx.2.le⟩ ha hab hp (.inl hm) (by rw [hs]; exact hd)
    rwa [hs] at this
  have hh : BIB.hyper s.1 = BIB.hyper s0 := by
    have := WeightCore.run_keeps (BIB.hyper_stable (ω := ω) (· = BIB.hyper s0)) log ops (s0, pos) rfl
    rw [← hs]; exact this
  have h0 : s0 = ⟨x, alpha, a, b, p, m, [], [], []⟩ := by
    unfold BIB.init at hi
    split at hi
    · cases hi
    · injection hi with hi; exact hi.symm
  rw [h0] at hh
  simp only [BIB.hyper, Prod.mk.injEq] at hh
  obtain ⟨e1, e2, -, -, -⟩ := hh
  have hne : s.1.d ≠ [] := fun e => by rw [e] at hN; exact absurd hN.1 (by simp)
  obtain ⟨r, t, v1, v2, h1, h2, h3, h4, h5, h6, -⟩ := BIB.random_next hω hv (by rw [e1]; exact hx) hne hn hN
  refine ⟨r, t, v1, v2, _, _, _, _, h1, by rw [h2]; exact stickWeights_isStick _, h3, rfl, ?_, rfl, h5, ?_⟩
  · unfold BIB.postPar at h4
    rwa [e1, e2] at h4
  · rw [h5] at h6
    unfold BIB.priorPar at h6
    rwa [e1, e2] at h6

/-- Missing: more weights than the labels need, see `C75_refuted`. -/
theorem C75_partial (hω : ω.Legal) (hi : BIB.init x alpha a b p m = .ok s0) (hx : 0 < x ∧ x < 1) (ha : 0 < alpha) (hab : 0 < a ∧ 0 < b) (hp : 0 ≤ p ∧ p ≤ 1)
    (hm : m ≠ .rejectionSampling) {s : BIB K × ℕ} (hs : BIB.cls.run log ω (s0, pos) ops = s) (hd : NonNegLabels s.1.d) {size : PySize} {n N : ℕ}
    (hn : EffSize s.1.d size n) (hN : IsMaxLabel s.1.d ((N : ℤ) - 1)) (hle : n ≤ N) :
    ∃ r t p1 i1, BIB.random size ω s = (.ok r, t) ∧ IsStick t.1.v r ∧
      SticksDrawn ω i1 n (fun j => (1 + x / (1 - x) * p1 + (nEq s.1.d j : K), alpha + x / (1 - x) * (1 - p1) + (nGt s.1.d j : K))) t.1.v := by
  obtain ⟨r, t, v1, v2, p1, i1, p2, i2, h1, h2, h3, -, h5, -, -, h8⟩ := C75_exact log pos ops hω hi hx ha hab hp hm hs hd hn hN
  rw [min_eq_left hle] at h5 h8
  rw [Nat.sub_self] at h8
  have : v2 = [] := List.length_eq_zero_iff.1 h8.length
  rw [this, List.append_nil] at h3
  exact ⟨r, t, p1, i1, h1, h2, by rw [h3]; exact h5⟩

/-- A generator that answers a Beta request by the mean, except that the answers to `beta(1, 1)` change with time. -/
def twoP : Oracle ℚ := { demo with beta := fun i a b => if a = 1 ∧ b = 1 then (if i = 0 then 1 / 2 else 1 / 4) else if 0 < a ∧ 0 < b then a / (a + b) else 0 }

theorem twoP_legal : twoP.Legal :=
  { (demo_legal : (demo : Oracle ℚ).Legal) with
    beta_nonneg := by
      intro i a b
      simp only [twoP]
      split
      · split <;> norm_num
      · split
        · rename_i h; exact div_nonneg h.1.le (by linarith [h.1, h.2])
        · exact le_rfl
    beta_le_one := by
      intro i a b
      simp only [twoP]
      split
      · split <;> norm_num
      · split
        · rename_i h; rw [div_le_one (by linarith [h.1, h.2])]; linarith [h.2]
        · exact zero_le_one }

theorem twoP_random : ((BIB.random (.int 2) twoP (⟨1/2, 1, 1, 1, 0, .independent, [], [], [0]⟩, 0)).1.toOption.isSome = true) ∧
    (BIB.random (.int 2) twoP (⟨1/2, 1, 1, 1, 0, .independent, [], [], [0]⟩, 0)).2.1.v = [5/8, 5/12] := by decide +kernel

/-- One label, two weights asked for: the two sticks are drawn with `p = 1/2` and `p = 1/4`; no common `p` explains them. -/
theorem C75_refuted : ∃ (s : BIB ℚ × ℕ) (r : List ℚ) (t : BIB ℚ × ℕ), twoP.Legal ∧
    BIB.cls.run id twoP (⟨1/2, 1, 1, 1, 0, .independent, [], [], []⟩, 0) [.fit [0]] = s ∧ BIB.random (.int 2) twoP s = (.ok r, t) ∧
    ¬ ∃ p i, 0 ≤ p ∧ SticksDrawn twoP i 2 (fun j => (1 + (1/2) / (1 - 1/2) * p + (nEq [0] j : ℚ), 1 + (1/2) / (1 - 1/2) * (1 - p) + (nGt [0] j : ℚ))) t.1.v := by
  obtain ⟨h1, h2⟩ := twoP_random
  rcases h : BIB.random (.int 2) twoP (⟨1/2, 1, 1, 1, 0, .independent, [], [], [0]⟩, 0) with ⟨e | r, t⟩
  · rw [h] at h1; cases h1
  refine ⟨(⟨1/2, 1, 1, 1, 0, .independent, [], [], [0]⟩, 0), r, t, twoP_legal, rfl, h, ?_⟩
  rw [h] at h2
  rw [h2]
  rintro ⟨p, i, hp, hdr⟩
  have d0 := hdr.draw 0 (by omega)
  have d1 := hdr.draw 1 (by omega)
  have e0 : nEq [0] 0 = 1 ∧ nGt [0] 0 = 0 ∧ nEq [0] 1 = 0 ∧ nGt [0] 1 = 0 := by decide
  simp only [List.getElem?_cons_zero, List.getElem?_cons_succ, Option.some.injEq, e0, twoP] at d0 d1
  norm_num at d0 d1
  split at d0
  · rename_i hc; linarith [hc.1]
  · split at d0
    · split at d1
      · rename_i hc; linarith [hc.1, hc.2]
      · split at d1
        · rw [eq_div_iff (by linarith)] at d0 d1
          linarith
        · norm_num at d1
    · norm_num at d0

/-- The hypotheses of `C75_partial` and `C75_exact` are met by this object and by every method that can be used. -/
example : BIB.init (1/2 : ℚ) 1 1 1 0 .maxLikelihood = .ok ⟨1/2, 1, 1, 1, 0, .maxLikelihood, [], [], []⟩ ∧ NonNegLabels [2, 0] ∧ EffSize [2, 0] .none 3 ∧
    EffSize [2, 0] (.int 5) 5 ∧ IsMaxLabel [2, 0] ((3 : ℕ) - 1) := by
  refine ⟨rfl, by simp [NonNegLabels], .inr ⟨rfl, ?_⟩, .inl ⟨rfl, by omega⟩, ?_⟩ <;> simp [IsMaxLabel]

end Verif
