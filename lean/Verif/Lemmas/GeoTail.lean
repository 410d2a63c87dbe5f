import Verif.Lemmas.NoErrorBB
import Mathlib.Tactic.NormNum

/-! # Closed form of `GeometricProcess.tail` -/

set_option linter.unusedSectionVars false

namespace Verif.Geo
variable {ω : Oracle ℝ}

theorem tail_eq {x : ℝ} (hx : 0 ≤ x ∧ x < 1) (s : Geo ℝ × ℕ) {n : ℤ} (hn : tailSize x s.1.p = .ok n) (h0 : 0 ≤ n) :
    tail x ω s = if (s.1.v.length : ℤ) < n then
      (.ok (stickWeights (List.replicate n.toNat s.1.p)),
        ({ s.1 with v := List.replicate n.toNat s.1.p, w := stickWeights (List.replicate n.toNat s.1.p) }, s.2))
      else (.ok s.1.w, s) := by
  have hrep : (Py.repeatScalar s.1.p n : Except PyErr (List ℝ)) = .ok (List.replicate n.toNat s.1.p) := by
    unfold Py.repeatScalar; rw [if_neg (by omega)]
  have h : wp ω (tail x) (fun r t => (.ok r, t) = if (s.1.v.length : ℤ) < n then
      ((.ok (stickWeights (List.replicate n.toNat s.1.p)),
        ({ s.1 with v := List.replicate n.toNat s.1.p, w := stickWeights (List.replicate n.toNat s.1.p) }, s.2)) : Except PyErr (List ℝ) × (Geo ℝ × ℕ))
      else (.ok s.1.w, s)) (fun _ _ => False) s := by
    unfold tail complete
    rw [if_neg (by push Not; exact ⟨hx.2, hx.1⟩), wp_bind, wp_self, hn]
    wp_simp
    refine ⟨?_, nofun⟩
    rintro _ ⟨⟩
    have hcs : BaseWeight.checkSize (.int n) = .ok () := rfl
    refine ⟨fun _ _ => ?_, fun _ he => by rw [hcs] at he; cases he⟩
    simp only [PySize.toInt?]
    wp_simp
    refine ⟨fun hlt => ⟨fun nv hnv => ?_, fun e he => ?_⟩, fun hlt => ?_⟩
    · rw [hrep] at hnv; cases hnv
      rw [if_pos hlt]
    · rw [hrep] at he; cases he
    · rw [if_neg hlt]
  unfold wp at h
  rcases hr : tail x ω s with ⟨e | r, t⟩
  · rw [hr] at h; exact h.elim
  · rw [hr] at h; exact h

end Verif.Geo
