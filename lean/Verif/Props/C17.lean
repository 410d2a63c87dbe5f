import Verif.Lemmas.Reach
import Verif.Lemmas.Demo
import Verif.Lemmas.Tail

/-!
# C17: `BetaBinomial` draws always use legal generator parameters

For `n ≥ 0`, `alpha > 0`, after every history: `random` on valid sizes and non-negative labels and `complete` of any number succeed (a
rejected generator parameter would be a `ValueError`), `tail` of any `x` in `[0, 1)` never raises (it may run out of the fuel
of the model: the loop is still running), and the sticks and the binomials stay aligned.
-/

set_option linter.unusedSectionVars false

namespace Verif
open Spec
variable {K : Type} [Field K] [LinearOrder K] [IsStrictOrderedRing K] {ω : Oracle K}
variable (log : K → K) (pos : ℕ) (ops : List (WOp K)) {n : ℤ} {alpha : K}

theorem BBin.random_total (hω : ω.Legal) {s : BBin K × ℕ} (h : BBin.BInv s.1)
    (hd : NonNegLabels s.1.d) {size : PySize} (hsz : (size = .none ∧ s.1.d ≠ []) ∨ ∃ k, size.toInt? = some k) :
    ∃ r t, BBin.random size ω s = (.ok r, t) := by
  obtain ⟨r, t, h, _⟩ := wp_total (wp_mono (BBin.random_ok hω h size) (Q := fun _ _ => True) (E := fun _ _ => False) (fun _ _ _ => trivial) (by
    rintro _ _ ⟨_, ⟨h1, h2⟩ | h1 | h1⟩
    · rcases hsz with ⟨_, h⟩ | ⟨k, h⟩
      · exact h h2
      · rw [h1] at h; cases h
    · rcases hsz with ⟨h, _⟩ | ⟨k, h⟩ <;> rw [h1] at h <;> cases h
    · exact h1 hd))
  exact ⟨r, t, h⟩

theorem C17_random (hω : ω.Legal) (hn : 0 ≤ n) (ha : 0 < alpha) {s : BBin K × ℕ} (hs : BBin.cls.run log ω (BBin.init n alpha, pos) ops = s)
    (hd : NonNegLabels s.1.d) {size : PySize} (hsz : (size = .none ∧ s.1.d ≠ []) ∨ ∃ k, size.toInt? = some k) :
    ∃ r t, BBin.random size ω s = (.ok r, t) := by
  have h := BBin.reach (ω := ω) log pos ops hω hn ha
  rw [hs] at h
  exact BBin.random_total hω h hd hsz

theorem C17_complete (hω : ω.Legal) (hn : 0 ≤ n) (ha : 0 < alpha) {s : BBin K × ℕ} (hs : BBin.cls.run log ω (BBin.init n alpha, pos) ops = s)
    {size : PySize} {k : ℤ} (hk : size.toInt? = some k) : ∃ r t, BBin.complete size ω s = (.ok r, t) := by
  have h := BBin.reach (ω := ω) log pos ops hω hn ha
  rw [hs] at h
  obtain ⟨r, t, h, _⟩ := wp_total (wp_mono (BBin.complete_ok hω h size) (Q := fun _ _ => True) (E := fun _ _ => False) (fun _ _ _ => trivial) (by
    rintro _ _ ⟨_, _, h1⟩
    rw [hk] at h1; cases h1))
  exact ⟨r, t, h⟩

theorem C17_tail (hω : ω.Legal) (hn : 0 ≤ n) (ha : 0 < alpha) {s : BBin K × ℕ} (hs : BBin.cls.run log ω (BBin.init n alpha, pos) ops = s)
    (hd : NonNegLabels s.1.d) {x : K} (hx : 0 ≤ x ∧ x < 1) (fuel : ℕ) {e : PyErr} {t : BBin K × ℕ}
    (h : BBin.cls.tail fuel x ω s = (.error e, t)) : e = .outOfFuel := by
  have hB := BBin.reach (ω := ω) log pos ops hω hn ha
  rw [hs] at hB
  refine wp_of_error (Q := fun _ _ => True) (E := fun e _ => e = .outOfFuel) h (wp_tail (C := BBin.core) (I := fun t => BBin.BInv t.1) (E := fun e _ => e = .outOfFuel) ?_ ?_ (fun _ _ _ => rfl)
    fuel s ?_ (fun _ => hB) |> fun h => wp_mono h (fun _ _ _ => trivial) (fun _ _ h => h))
  · push Not; exact ⟨hx.2, hx.1⟩
  · intro t ht _
    refine (wp_bind (BBin.complete _) _).2 ?_
    refine wp_mono (BBin.complete_ok hω ht _) (fun _ _ h => h.1) ?_
    rintro _ _ ⟨_, _, h⟩; cases h
  · intro _
    refine wp_mono (BBin.random_ok hω hB _) (fun _ _ h => h.1) ?_
    rintro _ _ ⟨_, ⟨h, _⟩ | h | h⟩
    · cases h
    · cases h
    · exact absurd hd h

/-- There are as many binomials as sticks, or one more (after a draw with data), or no sticks at all. -/
theorem C17_aligned (hω : ω.Legal) (hn : 0 ≤ n) (ha : 0 < alpha) :
    let s := (BBin.cls.run log ω (BBin.init n alpha, pos) ops).1
    s.v = [] ∨ s.binomials.length = s.v.length ∨ s.binomials.length = s.v.length + 1 :=
  (BBin.reach (ω := ω) log pos ops hω hn ha).aligned

/-! Non-vacuity -/
example : (BBin.random (.int 3) demo (BBin.cls.run id (demo : Oracle ℚ) (BBin.init 2 1, 0) [.fit [1, 0], .random .none, .complete (.int 3)])).1
    = .ok [1/18, 17/342, 17/399] := by decide +kernel

end Verif
