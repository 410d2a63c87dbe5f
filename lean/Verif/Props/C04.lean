import Verif.Lemmas.Reach
import Verif.Lemmas.Demo

/-!
# C04: `complete(n)` returns at least `n` weights

For DirichletProcess, PitmanYorProcess, GeometricProcess, BetaInBeta and BetaBinomial with usable hyper-parameters, and any
history of calls, `complete(n)` succeeds and returns at least `n` weights (total correctness).  The claim fails for
* `BetaInDirichlet`, whose `complete` has no `return` (`C04_betaInDirichlet_refuted`; the weights themselves are there:
  `C04_betaInDirichlet_partial`);
* `BetaBernoulli` (`C04_betaBernoulli_refuted`): `complete(1)` on a fresh object raises and a second `complete(1)` returns nothing;
* the finite classes, which return their own number of weights (`C04_equalWeighting_refuted`, …).
-/

set_option linter.unusedSectionVars false

namespace Verif
open Spec
variable {K : Type} [Field K] [LinearOrder K] [IsStrictOrderedRing K]

theorem CPost.le_length {v w v' w' : List K} {n : ℤ} (h : CPost v w v' w' (.int n)) (hs : SInv v w) : n ≤ w'.length := by
  have hl := (h.len n rfl).1
  by_cases hv : v' = []
  · subst hv
    simp at hl; omega
  · rw [h.sinv hs hv, stickWeights_length]; exact hl

section
variable (log : K → K) {ω : Oracle K} (pos : ℕ) (ops : List (WOp K)) (n : ℤ)

theorem C04_dirichletProcess {alpha : K} (ha : 0 < alpha) :
    ∃ r t, DP.complete (.int n) ω (DP.cls.run log ω (DP.init alpha, pos) ops) = (.ok r, t) ∧ n ≤ r.length := by
  have h1 := DP.complete_ok (s := DP.cls.run log ω (DP.init alpha, pos) ops) (ω := ω)
    (by rw [DP.reach_alpha]; exact ha) (size := .int n) rfl
  refine wp_total (wp_mono (wp_and h1 (DP.complete_post _ _)) ?_ (fun _ _ h => h.1))
  rintro r t ⟨_, rfl, _, _, hc⟩
  exact hc.le_length (DP.reach_sinv _ _ _ _)

theorem C04_pitmanYor {pyd alpha : K} {s0 : PY K} (h0 : PY.init pyd alpha = .ok s0) (hp : 0 ≤ pyd ∧ pyd < 1) (ha : 0 < alpha) :
    ∃ r t, PY.complete (.int n) ω (PY.cls.run log ω (s0, pos) ops) = (.ok r, t) ∧ n ≤ r.length := by
  have hh := PY.reach_hyper (ω := ω) log pos ops h0
  have hS := PY.reach_sinv (ω := ω) log pos ops h0
  have h1 := PY.complete_ok (s := PY.cls.run log ω (s0, pos) ops) (ω := ω) (by rw [hh.1]; exact hp.1)
    (by rw [hh.1]; exact hp.2) (by rw [hh.2]; exact ha) (size := .int n) rfl
  refine wp_total (wp_mono (wp_and h1 (PY.complete_post _ _ (by rw [hS, stickWeights_length]))) ?_ (fun _ _ h => h.1))
  rintro r t ⟨_, rfl, _, _, _, hc⟩
  exact hc.le_length fun _ => hS

theorem C04_betaInBeta (hω : ω.Legal) {x alpha a b p : K} {m : PMethod} {s0 : BIB K}
    (h0 : BIB.init x alpha a b p m = .ok s0) (hx : 0 ≤ x ∧ x ≤ 1) (ha : 0 < alpha) (hab : 0 < a ∧ 0 < b)
    (hp : 0 ≤ p ∧ p ≤ 1) (hm : m ≠ .rejectionSampling ∨ x = 0 ∨ x = 1) (hd : NonNegLabels (BIB.cls.run log ω (s0, pos) ops).1.d) :
    ∃ r t, BIB.complete (.int n) ω (BIB.cls.run log ω (s0, pos) ops) = (.ok r, t) ∧ n ≤ r.length := by
  have hV := BIB.reach_valid log pos ops hω h0 hx ha hab hp hm hd
  refine wp_total (wp_mono (wp_and (BIB.complete_ok hω hV (size := .int n) rfl) (BIB.complete_post _ _)) ?_ (fun _ _ h => h.1))
  rintro r t ⟨_, rfl, _, _, _, hc⟩
  exact hc.le_length (BIB.reach_sinv log pos ops h0)

theorem C04_betaBinomial (hω : ω.Legal) {N : ℤ} {alpha : K} (hN : 0 ≤ N) (ha : 0 < alpha) :
    ∃ r t, BBin.complete (.int n) ω (BBin.cls.run log ω (BBin.init N alpha, pos) ops) = (.ok r, t) ∧ n ≤ r.length := by
  have h1 := wp_mono (BBin.complete_ok hω (BBin.reach log pos ops hω hN ha) (.int n)) (Q := fun _ _ => True)
    (E := fun _ _ => False) (fun _ _ _ => trivial) (fun _ _ h => by have := h.2.2; simp [PySize.toInt?] at this)
  refine wp_total (wp_mono (wp_and h1 (BBin.complete_post _ _)) ?_ (fun _ _ h => h.1))
  rintro r t ⟨_, rfl, _, _, _, hst, _, hc⟩
  have := (hc.len n rfl).1
  rwa [hst, stickWeights_length]

/-- Missing: `complete` does not return the weights (it returns `None`); a later `get_weights()` shows at least `n`. -/
theorem C04_betaInDirichlet_partial (F : SpecFun K) (s : BID K × ℕ) {o : Option (List K)} {t : BID K × ℕ}
    (h : (BID.cls F).complete (.int n) ω s = (.ok o, t)) : n ≤ t.1.w.length ∧ o = none := by
  refine wp_of_ok h (Q := fun o t => n ≤ t.1.w.length ∧ o = none) (E := fun _ _ => True) ?_
  show wp ω (do BID.complete (.int n); pure none) _ _ s
  rw [wp_bind]
  refine wp_mono (BID.complete_post _ s) ?_ (fun _ _ _ => trivial)
  rintro _ t ⟨_, _, _, hst, hc⟩
  rw [wp_pure, hst, stickWeights_length]
  exact ⟨(hc.len n rfl).1, rfl⟩

/-- Missing: states with a stick but no weight for it (after a failed `complete(1)`), and the first weight of a fresh object. -/
theorem C04_betaBernoulli_partial (hω : ω.Legal) (s : BBer K × ℕ) (hp : 0 ≤ s.1.p ∧ s.1.p ≤ 1) (ha : 0 < s.1.alpha)
    (hs : IsStick s.1.v s.1.w) (hex : s.1.v ≠ [] ∨ n ≠ 1) :
    ∃ r t, BBer.complete (.int n) ω s = (.ok r, t) ∧ n ≤ r.length := by
  refine wp_total (wp_mono (wp_and (BBer.complete_ok hω hp.1 hp.2 ha (size := .int n) rfl hex) (BBer.complete_post _ _)) ?_
    (fun _ _ h => h.1))
  rintro r t ⟨_, rfl, _, _, _, hc⟩
  have hl := (hc.len n rfl).1
  rcases hc.w_eq with ⟨h1, h2⟩ | h
  · rw [h2, hs.1, ← h1]; exact hl
  · rw [h, stickWeights_length]; exact hl
end

section
variable (log : ℝ → ℝ) {ω : Oracle ℝ} (pos : ℕ) (ops : List (WOp ℝ)) (n : ℤ)

theorem C04_geometric (a b p0 : ℝ) :
    ∃ r t, Geo.complete (.int n) ω (Geo.cls.run log ω (Geo.init a b p0, pos) ops) = (.ok r, t) ∧ n ≤ r.length := by
  have hS := Geo.reach_ginv (ω := ω) log pos ops a b p0
  refine wp_total (wp_mono (wp_and (Geo.complete_ok (size := .int n) rfl) (Geo.complete_post _ _ hS.1)) ?_ (fun _ _ h => h.1))
  rintro r t ⟨_, rfl, _, _, _, _, hc⟩
  exact hc.le_length hS.2
end

/-! ## Refutations -/

/-- `complete(2)` on a fresh `BetaInDirichlet` returns `None`. -/
theorem C04_betaInDirichlet_refuted : ∃ ω : Oracle ℚ, ω.Legal ∧
    ((BID.cls ⟨id, id⟩).complete (.int 2) ω (BID.init 1 1, 0)).1 = .ok none :=
  ⟨demo, demo_legal, by decide +kernel⟩

/-- `complete(1)` on a fresh `BetaBernoulli` raises `IndexError`; a second `complete(1)` returns an empty array. -/
theorem C04_betaBernoulli_refuted : ∃ ω : Oracle ℚ, ω.Legal ∧
    (BBer.complete (.int 1) ω (BBer.init (1/2) 1, 0)).1 = .error .indexError ∧
    (BBer.complete (.int 1) ω (BBer.cls.run id ω (BBer.init (1/2) 1, 0) [.complete (.int 1)])).1 = .ok [] :=
  ⟨demo, demo_legal, by decide +kernel⟩

/-- The finite classes return their own number of weights. -/
theorem C04_equalWeighting_refuted : ∃ ω : Oracle ℚ, ω.Legal ∧
    (Equal.complete (.int 3) ω (Equal.init 2, 0)).1 = .ok [1/2, 1/2] := ⟨demo, demo_legal, by decide +kernel⟩
theorem C04_frequencyWeighting_refuted : ∃ ω : Oracle ℚ, ω.Legal ∧
    (Freq.complete (.int 3) ω (Freq.init 2, 0)).1 = .ok [1/2, 1/2] := ⟨demo, demo_legal, by decide +kernel⟩
theorem C04_dirichletDistribution_refuted : ∃ ω : Oracle ℚ, ω.Legal ∧
    (DirDist.complete (.int 3) ω (DirDist.initScalar 2 1, 0)).1 = .ok [1/2, 1/2] := ⟨demo, demo_legal, by decide +kernel⟩

/-! Non-vacuity: histories with failing calls and fitted labels. -/

example : (DP.complete (.int 4) demo (DP.cls.run id (demo : Oracle ℚ) (DP.init 1, 0)
    [.random (.int 2), .random .none, .fit [0, 1], .random (.int 0)])).1 = .ok [1/4, 3/20, 1/10, 1/14] := by decide +kernel
example : BIB.init (1/2 : ℚ) 1 1 1 0 .geometric = .ok ⟨1/2, 1, 1, 1, 0, .geometric, [], [], []⟩ := rfl
example : IsStick [1/2, (1/3 : ℚ)] [1/2, 1/6] := by
  refine ⟨rfl, fun j x h => ?_⟩
  rcases j with _ | _ | j <;> simp at h <;> subst h <;> norm_num

end Verif
