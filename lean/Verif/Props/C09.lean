import Verif.Lemmas.PYSpec
import Verif.Lemmas.Reach
import Verif.Props.C08

/-!
# C09: Pitman-Yor: parameters accepted by the constructor can be drawn, and follow the Pitman-Yor law

Both halves of the claim are false for the code:
* the constructor accepts `-pyd < alpha ≤ 0` but then every draw raises `ValueError` (`C09_error_refuted`,
  `C09_nonpos_fails`);
* stick `j` (counted from 0) is drawn with second parameter `alpha + j*pyd` instead of `alpha + (j+1)*pyd`
  (`C09_law_refuted`): the code draws the law of `PitmanYor(pyd, alpha - pyd)` (`C09_partial`, stated in terms of the law).

`C09_partial` and `C09_complete_partial` hold for `alpha > 0` after any history: draws succeed and the sticks come from
exactly these Beta distributions.
-/

set_option linter.unusedSectionVars false

namespace Verif
open Spec
variable {K : Type} [Field K] [LinearOrder K] [IsStrictOrderedRing K]

/-- The Pitman-Yor posterior law of stick `j` (counted from 0) given labels `d`. -/
def pitmanYorLaw (pyd alpha : K) (d : List ℤ) (j : ℕ) : K × K :=
  (1 - pyd + (nEq d j : K), alpha + ((j : K) + 1) * pyd + (nGt d j : K))

section
variable (log : K → K) {ω : Oracle K} (pos : ℕ) (ops : List (WOp K)) {pyd alpha : K} {s0 : PY K}
  (h0 : PY.init pyd alpha = .ok s0)
include h0

/-- Missing: `alpha ≤ 0`, and the law is that of concentration `alpha - pyd` rather than `alpha`. -/
theorem C09_partial (hp : 0 ≤ pyd ∧ pyd < 1) (ha : 0 < alpha) {s : PY K × ℕ} (hs : PY.cls.run log ω (s0, pos) ops = s)
    (hd : NonNegLabels s.1.d) {size : PySize} {N : ℕ}
    (hN : (size.toInt? = some (N : ℤ) ∧ 1 ≤ N) ∨ (size = .none ∧ IsMaxLabel s.1.d ((N : ℤ) - 1))) :
    ∃ r t, PY.random size ω s = (.ok r, t) ∧ IsStick t.1.v r ∧ t.2 = s.2 + N ∧
      SticksDrawn ω s.2 N (pitmanYorLaw pyd (alpha - pyd) s.1.d) t.1.v := by
  have hh := PY.reach_hyper (ω := ω) log pos ops h0
  rw [hs] at hh
  have := PY.random_spec (ω := ω) s.1 s.2 (size := size) (N := N) (by rw [hh.1]; exact hp.1) (by rw [hh.1]; exact hp.2)
    (by rw [hh.2]; exact ha) hd hN
  obtain ⟨r, t, h, _, e2, e3, e4⟩ := wp_total this
  refine ⟨r, t, h, e2 ▸ stickWeights_isStick _, e4, ?_⟩
  rw [e3, show pitmanYorLaw pyd (alpha - pyd) s.1.d = s.1.post by
    funext j; simp only [pitmanYorLaw, PY.post, hh.1, hh.2]; congr 1; ring]
  exact sticksDrawn_betaValues _ _ _ _

/-- Missing: as `C09_partial`. -/
theorem C09_complete_partial (hp : 0 ≤ pyd ∧ pyd < 1) (ha : 0 < alpha) {s : PY K × ℕ}
    (hs : PY.cls.run log ω (s0, pos) ops = s) (n : ℕ) :
    ∃ r t v', PY.complete (.int n) ω s = (.ok r, t) ∧ t.1.v = s.1.v ++ v' ∧ IsStick t.1.v r ∧
      SticksDrawn ω s.2 (n - s.1.v.length) (fun j => pitmanYorLaw pyd (alpha - pyd) [] (s.1.v.length + j)) v' := by
  have hh := PY.reach_hyper (ω := ω) log pos ops h0
  have hS := PY.reach_sinv (ω := ω) log pos ops h0
  rw [hs] at hh hS
  have := PY.complete_spec (ω := ω) s.1 s.2 (size := .int n) (n := n) rfl (by rw [hh.1]; exact hp.1)
    (by rw [hh.1]; exact hp.2) (by rw [hh.2]; exact ha) hS
  obtain ⟨r, t, h, _, e2, e3, e4⟩ := wp_total this
  refine ⟨r, t, _, h, e3, e2 ▸ stickWeights_isStick _, ?_⟩
  rw [show (fun j => pitmanYorLaw pyd (alpha - pyd) [] (s.1.v.length + j)) =
      fun j => (1 - s.1.pyd, s.1.alpha + ((s.1.v.length + j : ℕ) : K) * s.1.pyd) by
    funext j; simp only [pitmanYorLaw, nEq, nGt, hh.1, hh.2, List.countP_nil]; push_cast; congr 1 <;> ring]
  exact sticksDrawn_betaValues _ _ _ _

/-- With `alpha ≤ 0` (accepted by the constructor if `alpha > -pyd`) no prior draw ever succeeds. -/
theorem C09_nonpos_fails (ha : alpha ≤ 0) {s : PY K × ℕ} (hs : PY.cls.run log ω (s0, pos) ops = s) (hd : s.1.d = [])
    {n : ℤ} (hn : 1 ≤ n) : PY.random (.int n) ω s = (.error .valueError, s) := by
  have hh := PY.reach_hyper (ω := ω) log pos ops h0
  rw [hs] at hh
  have hbad : ∃ p ∈ s.1.priorParams (Py.arange 0 n), p.1 ≤ 0 ∨ p.2 ≤ 0 := by
    refine ⟨(1 - s.1.pyd, s.1.alpha + ((0 : ℤ) : K) * s.1.pyd), ?_, .inr ?_⟩
    · unfold PY.priorParams
      refine List.mem_map.2 ⟨0, ?_, rfl⟩
      unfold Py.arange
      exact List.mem_map.2 ⟨0, List.mem_range.2 (by omega), by simp⟩
    · simp [hh.2, ha]
  unfold PY.random
  simp only [hd, M.bind_apply, M.self_apply, M.ite_apply', PySize.toInt?, List.length_nil, if_true]
  rw [if_neg (by simp)]
  split
  · rfl
  · simp only [M.betaVec, betaParams_illegal hbad, if_true]
end

/-- `PitmanYorProcess(1/2, -1/4)` is constructed but `random(1)` raises `ValueError`. -/
theorem C09_error_refuted : ∃ (ω : Oracle ℚ) (s0 : PY ℚ), ω.Legal ∧ PY.init (1/2) (-1/4) = .ok s0 ∧
    (PY.random (.int 1) ω (s0, 0)).1 = .error .valueError :=
  ⟨demo, ⟨1/2, -1/4, [], [], []⟩, demo_legal, if_pos (by norm_num), by decide +kernel⟩

/-- `PitmanYorProcess(1/2, 1)`: the first stick is not drawn from `Beta(1/2, 3/2)`. -/
theorem C09_law_refuted : ∃ (ω : Oracle ℚ) (s0 : PY ℚ) (r : List ℚ) (t : PY ℚ × ℕ), ω.Legal ∧
    PY.init (1/2) 1 = .ok s0 ∧ PY.random (.int 1) ω (s0, 0) = (.ok r, t) ∧
    ¬ SticksDrawn ω 0 1 (pitmanYorLaw (1/2) 1 []) t.1.v := by
  refine ⟨meanO, ⟨1/2, 1, [], [], []⟩, [1/3], (PY.random (.int 1) meanO (⟨1/2, 1, [], [], []⟩, 0)).2, meanO_legal,
    if_pos (by norm_num), Prod.ext (by decide +kernel) rfl, fun h => ?_⟩
  have h1 := h.draw 0 (by omega)
  have h2 : (PY.random (.int 1) meanO ((⟨1/2, 1, [], [], []⟩, 0) : PY ℚ × ℕ)).2.1.v[0]? = some (1/3) := by decide +kernel
  rw [h2] at h1
  revert h1
  simp only [pitmanYorLaw, nEq, nGt, meanO, List.countP_nil]
  norm_num

/-! Non-vacuity of `C09_partial`: with labels, code parameters for `pyd = 1/2`, `alpha = 1`, `d = [0, 1, 1]` are `(3/2, 3), (5/2, 3/2)`. -/
example : (PY.random .none meanO (PY.cls.run id (meanO : Oracle ℚ) (⟨1/2, 1, [], [], []⟩, 0) [.fit [0, 1, 1]])).2.1.v
    = [1/3, 5/8] := by decide +kernel

end Verif
