import Verif.Lemmas.Tail
import Verif.Lemmas.Reach
import Verif.Lemmas.Demo

/-!
# C20: `tail(x)` reaches the requested mass

`BaseWeight.tail` is inherited by nine of the ten classes; the theorem holds for *every* class with that `tail`, whatever its
`random` and `complete` do.  The documentation promises a sum *greater* than `x`; the loop stops at a sum equal to `x`
(`C20_strict_refuted`).
-/

set_option linter.unusedSectionVars false

namespace Verif
open Spec
variable {K : Type} [Field K] [LinearOrder K] [IsStrictOrderedRing K] {ω : Oracle K}

theorem C20_mass (C : WeightCore K) {fuel : ℕ} {x : K} {s t : C.State × ℕ} {r : List K}
    (h : C.inheritTail.tail fuel x ω s = (.ok r, t)) : x ≤ r.sum ∧ r = C.getW t.1 := by
  have hx : ¬ (x ≥ 1 ∨ x < 0) := fun hx => by
    rw [show C.inheritTail.tail fuel x = BaseWeight.tail C fuel x from rfl, BaseWeight.tail_bad C hx] at h; cases h
  have htrue : ∀ {α : Type} (m : M K C.State α) s', wp ω m (fun _ _ => True) (fun _ _ => True) s' := by
    intro α m s'; unfold wp; rcases m ω s' with ⟨e | a, t⟩ <;> trivial
  have := wp_of_ok h (wp_tail (C := C) (I := fun _ => True) (E := fun _ _ => True) hx (fun s' _ _ => htrue _ s') (fun _ _ _ => trivial) fuel s
    (fun _ => htrue _ s) (fun _ => trivial))
  exact ⟨this.2.2, this.2.1⟩

/-- The mass can be exactly `x`: the first stick of `DirichletProcess(1)` is 1/2 and `tail(1/2)` returns `[1/2]`. -/
theorem C20_strict_refuted : ∃ ω : Oracle ℚ, ω.Legal ∧
    (DP.cls.tail 5 (1/2) ω (DP.init 1, 0)).1 = .ok [1/2] := ⟨demo, demo_legal, by decide +kernel⟩

/-! Non-vacuity -/
example : (DP.cls.tail 5 (3/5) (demo : Oracle ℚ) (DP.init 1, 0)).1 = .ok [1/2, 1/6] := by decide +kernel
example : (BBer.cls.tail 9 (1/2) (demo : Oracle ℚ) (BBer.cls.run id demo (BBer.init 1 1, 0) [.random (.int 2)])).1
    = .ok [1/5, 2/15, 1/12, 7/120, 7/160] := by decide +kernel

end Verif
