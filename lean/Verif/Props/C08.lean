import Verif.Lemmas.Reach
import Verif.Lemmas.DP
import Verif.Lemmas.Demo
import Verif.Props.C02

/-!
# C08: Dirichlet process: posterior draws use the conjugate parameters

For any history of calls on `DirichletProcess(alpha)` (`alpha > 0`) that leaves non-negative labels `d`, `random` succeeds; the
`j`-th stick is the generator's answer to `Beta(1 + #{i: d_i = j}, alpha + #{i: d_i > j})` at its own stream position
(`pos + j`, so draws are independent), and the weights returned are the stick-breaking image.  Without data this is
`Beta(1, alpha)`, and so it is for the sticks `complete` appends.
-/

set_option linter.unusedSectionVars false

namespace Verif
open Spec
variable {K : Type} [Field K] [LinearOrder K] [IsStrictOrderedRing K]

/-- The sticks `v` are answers to `N` consecutive Beta requests starting at stream position `pos`, the `j`-th with
parameters `f j`. -/
structure SticksDrawn (ω : Oracle K) (pos N : ℕ) (f : ℕ → K × K) (v : List K) : Prop where
  length : v.length = N
  draw : ∀ j < N, v[j]? = some (ω.beta (pos + j) (f j).1 (f j).2)

theorem sticksDrawn_betaValues (ω : Oracle K) (pos N : ℕ) (f : ℕ → K × K) :
    SticksDrawn ω pos N f (M.betaValues ω pos ((List.range N).map f)) :=
  ⟨by simp [M.betaValues], fun j hj => by simp [M.betaValues, hj]⟩

section
variable (log : K → K) {ω : Oracle K} (pos : ℕ) (ops : List (WOp K)) {alpha : K} (ha : 0 < alpha)
include ha

theorem C08_random {s : DP K × ℕ} (hs : DP.cls.run log ω (DP.init alpha, pos) ops = s) (hd : NonNegLabels s.1.d)
    {size : PySize} {N : ℕ} (hN : EffSize s.1.d size N) :
    ∃ r t, DP.random size ω s = (.ok r, t) ∧ IsStick t.1.v r ∧ t.2 = s.2 + N ∧
      SticksDrawn ω s.2 N (fun j => (1 + (nEq s.1.d j : K), alpha + (nGt s.1.d j : K))) t.1.v := by
  have hal : s.1.alpha = alpha := by rw [← hs]; exact DP.reach_alpha _ _ _ _
  have h := DP.random_spec ω s.1 s.2 size N (by rw [hal]; exact ha) hd hN
  refine ⟨_, _, h, stickWeights_isStick _, rfl, ?_⟩
  rw [show DP.post s.1.alpha s.1.d = fun j => (1 + (nEq s.1.d j : K), alpha + (nGt s.1.d j : K)) by
    rw [hal]; rfl]
  exact sticksDrawn_betaValues ω s.2 N _

/-- Without data every stick is drawn from `Beta(1, alpha)`. -/
theorem C08_prior {s : DP K × ℕ} (hs : DP.cls.run log ω (DP.init alpha, pos) ops = s) (hd : s.1.d = []) {N : ℕ} (hN : 1 ≤ N) :
    ∃ r t, DP.random (.int N) ω s = (.ok r, t) ∧ IsStick t.1.v r ∧ SticksDrawn ω s.2 N (fun _ => (1, alpha)) t.1.v := by
  obtain ⟨r, t, h1, h2, _, h3⟩ := C08_random log pos ops ha hs (by rw [hd]; exact nofun) (size := .int N) (.inl ⟨rfl, hN⟩)
  refine ⟨r, t, h1, h2, ?_⟩
  have : (fun j => (1 + (nEq s.1.d j : K), alpha + (nGt s.1.d j : K))) = fun _ => ((1 : K), alpha) := by
    funext j; simp [hd, nEq, nGt]
  rwa [this] at h3

/-- The sticks appended by `complete` are drawn from `Beta(1, alpha)`. -/
theorem C08_complete {s : DP K × ℕ} (hs : DP.cls.run log ω (DP.init alpha, pos) ops = s) (n : ℕ) :
    ∃ r t v', DP.complete (.int n) ω s = (.ok r, t) ∧ t.1.v = s.1.v ++ v' ∧
      SticksDrawn ω s.2 (n - s.1.v.length) (fun _ => (1, alpha)) v' := by
  have hal : s.1.alpha = alpha := by rw [← hs]; exact DP.reach_alpha _ _ _ _
  rw [DP.complete_num (n := (n : ℤ)) rfl, hal]
  by_cases h : (s.1.v.length : ℤ) < n
  · rw [if_pos h, if_neg (not_le.2 ha)]
    refine ⟨_, _, _, rfl, rfl, ?_⟩
    have e : ((n : ℤ) - (s.1.v.length : ℤ)).toNat = n - s.1.v.length := by omega
    have e2 : List.replicate (n - s.1.v.length) ((1 : K), alpha) = (List.range (n - s.1.v.length)).map (fun _ => (1, alpha)) := by
      simp
    rw [e, e2]
    exact sticksDrawn_betaValues _ _ _ _
  · rw [if_neg h]
    have : n - s.1.v.length = 0 := by omega
    refine ⟨_, _, [], rfl, by simp, ?_⟩
    rw [this]
    exact ⟨rfl, fun j hj => absurd hj (by omega)⟩
end

/-! Non-vacuity: with `d = [0, 0, 2]`, `alpha = 1` the parameters are `(3,2), (1,2), (2,1)`, whose means are shown by the
generator `meanO`. -/
example : (DP.random .none meanO (DP.cls.run id (meanO : Oracle ℚ) (DP.init 1, 0) [.fit [0, 0, 2]])).2.1.v
    = [3/5, 1/3, 2/3] := by decide +kernel
example : EffSize [0, 0, 2] .none 3 := .inr ⟨rfl, by simp, by simp⟩

end Verif
