import Verif.Lemmas.Reach
import Verif.Lemmas.DP
import Verif.Lemmas.Demo

/-!
# C05: `random(n)` returns exactly the requested number of weights

For DirichletProcess, PitmanYorProcess, GeometricProcess and BetaInBeta with usable hyper-parameters, any history of calls and
non-negative labels, `random(n)` with `n ≥ 1` succeeds, returns exactly `n` weights, and `get_size()` is then `n`.  For
BetaBinomial, BetaBernoulli and BetaInDirichlet this holds without data (`_partial`) and fails with data (`_refuted`): they
return at least one weight per fitted component.  The finite classes ignore `n` (`_refuted`).
-/

set_option linter.unusedSectionVars false

namespace Verif
open Spec
variable {K : Type} [Field K] [LinearOrder K] [IsStrictOrderedRing K]

theorem RPost.exact_length {d : List ℤ} {n : ℤ} {v w r : List K} (h : RPost d (.int n) v w r) (he : Exact (.int n) v) :
    (r.length : ℤ) = n ∧ (w.length : ℤ) = n := by
  have := he n rfl
  rw [h.ret, h.stick, stickWeights_length]
  exact ⟨this, this⟩

theorem reqPos_int {n : ℤ} (h : 1 ≤ n) : ReqPos (.int n) := .inr ⟨n, rfl, h⟩
theorem goodSize_int {d : List ℤ} {n : ℤ} (h : 1 ≤ n) : GoodSize d (.int n) := .inr ⟨n, rfl, by omega⟩

section
variable (log : K → K) {ω : Oracle K} (pos : ℕ) (ops : List (WOp K)) {n : ℤ} (hn : 1 ≤ n)
include hn

theorem C05_dirichletProcess {alpha : K} (ha : 0 < alpha)
    (hd : NonNegLabels (DP.cls.run log ω (DP.init alpha, pos) ops).1.d) :
    ∃ r t, DP.random (.int n) ω (DP.cls.run log ω (DP.init alpha, pos) ops) = (.ok r, t) ∧ (r.length : ℤ) = n ∧
      (t.1.w.length : ℤ) = n := by
  obtain ⟨N, rfl⟩ : ∃ N : ℕ, n = N := ⟨n.toNat, by omega⟩
  have h := DP.random_spec ω (DP.cls.run log ω (DP.init alpha, pos) ops).1
    (DP.cls.run log ω (DP.init alpha, pos) ops).2 (.int N) N (by rw [DP.reach_alpha]; exact ha) hd (.inl ⟨rfl, by omega⟩)
  refine ⟨_, _, h, ?_⟩
  rw [stickWeights_length]
  simp [M.betaValues]

theorem C05_pitmanYor {pyd alpha : K} {s0 : PY K} (h0 : PY.init pyd alpha = .ok s0) (hp : 0 ≤ pyd ∧ pyd < 1) (ha : 0 < alpha)
    (hd : NonNegLabels (PY.cls.run log ω (s0, pos) ops).1.d) :
    ∃ r t, PY.random (.int n) ω (PY.cls.run log ω (s0, pos) ops) = (.ok r, t) ∧ (r.length : ℤ) = n ∧
      (t.1.w.length : ℤ) = n := by
  have hh := PY.reach_hyper (ω := ω) log pos ops h0
  have h1 := PY.random_ok (s := PY.cls.run log ω (s0, pos) ops) (ω := ω) (by rw [hh.1]; exact hp.1)
    (by rw [hh.1]; exact hp.2) (by rw [hh.2]; exact ha) hd (goodSize_int hn)
  refine wp_total (wp_mono (wp_and h1 (PY.random_post _ _)) ?_ (fun _ _ h => h.1))
  rintro r t ⟨_, h⟩
  exact (h (reqPos_int hn)).1.exact_length (h (reqPos_int hn)).2

theorem C05_betaInBeta (hω : ω.Legal) {x alpha a b p : K} {m : PMethod} {s0 : BIB K}
    (h0 : BIB.init x alpha a b p m = .ok s0) (hx : 0 ≤ x ∧ x ≤ 1) (ha : 0 < alpha) (hab : 0 < a ∧ 0 < b)
    (hp : 0 ≤ p ∧ p ≤ 1) (hm : m ≠ .rejectionSampling ∨ x = 0 ∨ x = 1) (hd : NonNegLabels (BIB.cls.run log ω (s0, pos) ops).1.d) :
    ∃ r t, BIB.random (.int n) ω (BIB.cls.run log ω (s0, pos) ops) = (.ok r, t) ∧ (r.length : ℤ) = n ∧
      (t.1.w.length : ℤ) = n := by
  have hV := BIB.reach_valid log pos ops hω h0 hx ha hab hp hm hd
  refine wp_total (wp_mono (wp_and (BIB.random_ok hω hV (goodSize_int hn)) (BIB.random_post _ _)) ?_ (fun _ _ h => h.1))
  rintro r t ⟨_, h⟩
  exact (h (reqPos_int hn)).1.exact_length (h (reqPos_int hn)).2

/-- Missing: with data (see `C05_betaBinomial_refuted`). -/
theorem C05_betaBinomial_partial (hω : ω.Legal) {N : ℤ} {alpha : K} (hN : 0 ≤ N) (ha : 0 < alpha)
    (hd : (BBin.cls.run log ω (BBin.init N alpha, pos) ops).1.d = []) :
    ∃ r t, BBin.random (.int n) ω (BBin.cls.run log ω (BBin.init N alpha, pos) ops) = (.ok r, t) ∧ (r.length : ℤ) = n ∧
      (t.1.w.length : ℤ) = n := by
  have h1 := wp_mono (BBin.random_ok hω (BBin.reach log pos ops hω hN ha) (.int n)) (Q := fun _ _ => True)
    (E := fun _ _ => False) (fun _ _ _ => trivial) (by
      rintro _ _ ⟨_, h | h | h⟩
      · exact absurd h.1 nofun
      · exact absurd h nofun
      · exact h (by rw [hd]; exact nofun))
  refine wp_total (wp_mono (wp_and h1 (BBin.random_post _ _)) ?_ (fun _ _ h => h.1))
  rintro r t ⟨_, h⟩
  obtain ⟨h1, h2, _⟩ := h (reqPos_int hn)
  exact h1.exact_length (h2 hd)

/-- Missing: with data (see `C05_betaBernoulli_refuted`), and draws after `random(0)`, which raise. -/
theorem C05_betaBernoulli_partial (s : BBer K × ℕ) (hd : s.1.d = []) {r : List K} {t : BBer K × ℕ}
    (h : BBer.random (.int n) ω s = (.ok r, t)) : (r.length : ℤ) = n ∧ (t.1.w.length : ℤ) = n := by
  obtain ⟨h1, h2, _⟩ := wp_of_ok h (BBer.random_post _ _) (reqPos_int hn)
  exact h1.exact_length (h2 hd)

/-- Missing: with data (see `C05_betaInDirichlet_refuted`). -/
theorem C05_betaInDirichlet_partial (F : SpecFun K) (s : BID K × ℕ) (hd : s.1.d = []) {r : List K} {t : BID K × ℕ}
    (h : BID.random F (.int n) ω s = (.ok r, t)) : (r.length : ℤ) = n ∧ (t.1.w.length : ℤ) = n := by
  obtain ⟨h1, h2, _⟩ := wp_of_ok h (BID.random_post F _ _ (by rw [hd]; exact nofun)) (reqPos_int hn)
  exact h1.exact_length (h2 hd)
end

section
variable (log : ℝ → ℝ) {ω : Oracle ℝ} (pos : ℕ) (ops : List (WOp ℝ)) {n : ℤ} (hn : 1 ≤ n)
include hn

theorem C05_geometric {a b p0 : ℝ} (ha : 0 < a) (hb : 0 < b)
    (hd : NonNegLabels (Geo.cls.run log ω (Geo.init a b p0, pos) ops).1.d) :
    ∃ r t, Geo.random (.int n) ω (Geo.cls.run log ω (Geo.init a b p0, pos) ops) = (.ok r, t) ∧ (r.length : ℤ) = n ∧
      (t.1.w.length : ℤ) = n := by
  have hh := Geo.reach_hyper (ω := ω) log pos ops a b p0
  have h1 := Geo.random_ok (s := Geo.cls.run log ω (Geo.init a b p0, pos) ops) (ω := ω) (by rw [hh.1]; exact ha)
    (by rw [hh.2]; exact hb) hd (goodSize_int hn)
  refine wp_total (wp_mono (wp_and h1 (Geo.random_post _ _)) ?_ (fun _ _ h => h.1))
  rintro r t ⟨_, h⟩
  obtain ⟨h1, h2, _⟩ := h (reqPos_int hn) (fun m hm => hd m hm.1)
  exact h1.exact_length h2
end

/-! ## Refutations -/

/-- `random(1)` after `fit([2])` returns three weights. -/
theorem C05_betaBinomial_refuted : ∃ (ω : Oracle ℚ) (r : List ℚ), ω.Legal ∧
    (BBin.random (.int 1) ω (BBin.cls.run id ω (BBin.init 1 1, 0) [.fit [2]])).1 = .ok r ∧ r.length = 3 :=
  ⟨demo, [1/10, 9/110, 3/44], demo_legal, by decide +kernel⟩
theorem C05_betaBernoulli_refuted : ∃ (ω : Oracle ℚ) (r : List ℚ), ω.Legal ∧
    (BBer.random (.int 1) ω (BBer.cls.run id ω (BBer.init 0 1, 0) [.fit [2]])).1 = .ok r ∧ r.length = 3 :=
  ⟨demo, [1/6, 5/36, 25/216], demo_legal, by decide +kernel⟩
/-- A positive draw after `random(0)` raises `IndexError`. -/
theorem C05_betaBernoulli_unfitted_refuted : ∃ (ω : Oracle ℚ), ω.Legal ∧
    (BBer.random (.int 1) ω (BBer.cls.run id ω (BBer.init (1/2) 1, 0) [.random (.int 0)])).1 = .error .indexError :=
  ⟨demo, demo_legal, by decide +kernel⟩
theorem C05_betaInDirichlet_refuted : ∃ (ω : Oracle ℚ) (r : List ℚ), ω.Legal ∧
    (BID.random ⟨id, id⟩ (.int 1) ω ((BID.cls ⟨id, id⟩).run id ω (BID.init 1 0, 0) [.fit [2]])).1 = .ok r ∧ r.length = 3 :=
  ⟨demo, [1/2, 1/4, 1/8], demo_legal, by decide +kernel⟩
theorem C05_equalWeighting_refuted : ∃ ω : Oracle ℚ, ω.Legal ∧
    (Equal.random (.int 3) ω (Equal.init 2, 0)).1 = .ok [1/2, 1/2] := ⟨demo, demo_legal, by decide +kernel⟩
theorem C05_frequencyWeighting_refuted : ∃ ω : Oracle ℚ, ω.Legal ∧
    (Freq.random (.int 3) ω (Freq.init 2, 0)).1 = .ok [1/2, 1/2] := ⟨demo, demo_legal, by decide +kernel⟩
theorem C05_dirichletDistribution_refuted : ∃ ω : Oracle ℚ, ω.Legal ∧
    (DirDist.random (.int 3) ω (DirDist.initScalar 2 1, 0)).1 = .ok [1/2, 1/2] := ⟨demo, demo_legal, by decide +kernel⟩

/-! Non-vacuity: fewer and more weights than fitted components. -/
example : (DP.random (.int 1) demo (DP.cls.run id (demo : Oracle ℚ) (DP.init 1, 0) [.fit [0, 2]])).1 = .ok [1/2] := by
  decide +kernel
example : (PY.random (.int 3) demo (PY.cls.run id (demo : Oracle ℚ) (⟨1/2, 1, [], [], []⟩, 0) [.fit [0]])).1
    = .ok [1/2, 1/6, 1/12] := by decide +kernel
example : (BBer.random (.int 2) demo ((BBer.init (1/2) 1, 0) : BBer ℚ × ℕ)).1 = .ok [1/4, 3/16] := by decide +kernel

end Verif
