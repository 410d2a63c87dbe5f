import Verif.Model.MixUtils
import Mathlib.Algebra.Order.Field.Rat
import Mathlib.Tactic.Ring
import Mathlib.Tactic.NormNum

/-!
# C65: `rejection_sample` returns points under the curve

Without `size` the claim holds for every `f`, every stream of draws and any number of rejections (`C65_scalar`): the result is the first point
of the successive fresh (point, height) pairs that lies under the curve.

With `size` every returned point is under its height (`C65_sized_partial`), but the heights are not independent of the rejections: the loop
redraws the rejected points, evaluates the mask again *with the new points*, and redraws only the heights that are still above.  A new point is
thus often judged by the very height that rejected its predecessor (`C65_stale_height`), and the accepted points are not distributed as `f`:
`C65_biased` counts, over 81 equally likely quadruples of draws, 12 : 25 : 36 accepted points instead of 12 : 24 : 36.
-/

set_option linter.unusedSectionVars false

namespace Verif.Mix
variable {K : Type} [Field K] [LinearOrder K] [IsStrictOrderedRing K]

/-- The pair of draws number `r` from position `pos` on lies under the curve. -/
def Under (unif : ℕ → K → K → K) (f : K → K) (maxY a b : K) (pos r : ℕ) : Prop :=
  unif (pos + 2 * r + 1) 0 maxY ≤ f (unif (pos + 2 * r) a b)

theorem C65_scalar {unif : ℕ → K → K → K} {f : K → K} {maxY a b : K} {fuel pos pos' : ℕ} {x : K}
    (h : rejectionSample unif f maxY a b fuel pos = .ok (x, pos')) :
    ∃ r, Under unif f maxY a b pos r ∧ (∀ q < r, ¬ Under unif f maxY a b pos q) ∧ x = unif (pos + 2 * r) a b ∧ pos' = pos + 2 * r + 2 := by
  induction fuel generalizing pos with
  | zero => cases h
  | succ fuel ih =>
    rw [rejectionSample] at h
    by_cases hc : f (unif pos a b) < unif (pos + 1) 0 maxY
    · rw [if_pos hc] at h
      obtain ⟨r, h1, h2, h3, h4⟩ := ih h
      have e : ∀ r, pos + 2 * (r + 1) = pos + 2 + 2 * r := fun r => by ring
      refine ⟨r + 1, by unfold Under at h1 ⊢; rw [e]; exact h1, fun q hq => ?_, by rw [e]; exact h3, by rw [e]; exact h4⟩
      cases q with
      | zero => exact not_le.2 hc
      | succ q => have := h2 q (by omega); unfold Under at this ⊢; rw [e]; exact this
    · rw [if_neg hc] at h
      cases h
      exact ⟨0, not_lt.1 hc, by simp, rfl, rfl⟩

/-- It does return as soon as some pair is under the curve. -/
theorem C65_scalar_returns {unif : ℕ → K → K → K} {f : K → K} {maxY a b : K} {pos r : ℕ} (hr : Under unif f maxY a b pos r) :
    ∃ x pos', rejectionSample unif f maxY a b (r + 1) pos = .ok (x, pos') := by
  induction r generalizing pos with
  | zero =>
    refine ⟨unif pos a b, pos + 2, ?_⟩
    rw [rejectionSample, if_neg (not_lt.2 (show unif (pos + 1) 0 maxY ≤ f (unif pos a b) from hr))]
  | succ r ih =>
    rw [rejectionSample]
    by_cases hc : f (unif pos a b) < unif (pos + 1) 0 maxY
    · rw [if_pos hc]
      have e : pos + 2 * (r + 1) = pos + 2 + 2 * r := by ring
      refine ih (pos := pos + 2) ?_
      unfold Under at hr ⊢; rw [e] at hr; exact hr
    · rw [if_neg hc]; exact ⟨_, _, rfl⟩

theorem refill_spec (draw : ℕ → K) {P : K → Prop} (hd : ∀ p, P (draw p)) : ∀ (pos : ℕ) (ms : List Bool) (xs : List K), ms.length = xs.length →
    (∀ x ∈ xs, P x) → (refill draw pos ms xs).1.length = xs.length ∧ ∀ x ∈ (refill draw pos ms xs).1, P x
  | _, [], [], _, _ => ⟨rfl, by simp [refill]⟩
  | pos, true :: ms, x :: xs, h, hx => by
    obtain ⟨h1, h2⟩ := refill_spec draw hd (pos + 1) ms xs (by simpa using h) (fun y hy => hx y (by simp [hy]))
    rw [refill]
    refine ⟨by simp [h1], fun y hy => ?_⟩
    rcases List.mem_cons.1 hy with rfl | hy
    · exact hd pos
    · exact h2 y hy
  | pos, false :: ms, x :: xs, h, hx => by
    obtain ⟨h1, h2⟩ := refill_spec draw hd pos ms xs (by simpa using h) (fun y hy => hx y (by simp [hy]))
    rw [refill]
    refine ⟨by simp [h1], fun y hy => ?_⟩
    rcases List.mem_cons.1 hy with rfl | hy
    · exact hx y (by simp)
    · exact h2 y hy

theorem above_length (f : K → K) {x y : List K} (h : x.length = y.length) : (above f x y).length = x.length := by simp [above, h]

theorem rejectionLoop_spec {unif : ℕ → K → K → K} {f : K → K} {maxY a b : K} {P Q : K → Prop} (hP : ∀ p, P (unif p a b))
    (hQ : ∀ p, Q (unif p 0 maxY)) {fuel pos : ℕ} {x y xs ys : List K} (hl : x.length = y.length) (hx : ∀ t ∈ x, P t) (hy : ∀ t ∈ y, Q t)
    (h : rejectionLoop unif f maxY a b fuel pos x y = .ok (xs, ys)) :
    xs.length = x.length ∧ ys.length = x.length ∧ (∀ t ∈ xs, P t) ∧ (∀ t ∈ ys, Q t) ∧ (above f xs ys).any id = false := by
  induction fuel generalizing pos x y with
  | zero => cases h
  | succ fuel ih =>
    rw [rejectionLoop] at h
    by_cases hc : (above f x y).any id = true
    · rw [if_pos hc] at h
      obtain ⟨a1, a2⟩ := refill_spec (fun p => unif p a b) hP pos (above f x y) x (above_length f hl) hx
      obtain ⟨b1, b2⟩ := refill_spec (fun p => unif p 0 maxY) hQ (refill (fun p => unif p a b) pos (above f x y) x).2
        (above f (refill (fun p => unif p a b) pos (above f x y) x).1 y) y (by rw [above_length f (by rw [a1]; exact hl), a1]; exact hl) hy
      obtain ⟨c1, c2, c3⟩ := ih (by rw [a1, b1]; exact hl) a2 b2 h
      exact ⟨by rw [c1, a1], by rw [c2, a1], c3⟩
    · rw [if_neg hc] at h
      cases h
      exact ⟨rfl, hl.symm, hx, hy, by simpa using hc⟩

/-- With a size: as many points as asked for, each drawn from the proposal, each under a height drawn from the height distribution. -/
theorem C65_sized_partial {unif : ℕ → K → K → K} {f : K → K} {maxY a b : K} {size fuel pos : ℕ} {xs ys : List K}
    (h : rejectionSampleN unif f maxY a b size fuel pos = .ok (xs, ys)) :
    xs.length = size ∧ ys.length = size ∧ (∀ x ∈ xs, ∃ p, x = unif p a b) ∧ (∀ y ∈ ys, ∃ p, y = unif p 0 maxY) ∧
      ∀ (i : ℕ) (x y : K), xs[i]? = some x → ys[i]? = some y → y ≤ f x := by
  obtain ⟨h1, h2, h3, h4, h5⟩ := rejectionLoop_spec (P := fun x => ∃ p, x = unif p a b) (Q := fun y => ∃ p, y = unif p 0 maxY)
    (fun p => ⟨p, rfl⟩) (fun p => ⟨p, rfl⟩) (by simp)
    (fun t ht => by obtain ⟨i, _, rfl⟩ := List.mem_map.1 ht; exact ⟨_, rfl⟩)
    (fun t ht => by obtain ⟨i, _, rfl⟩ := List.mem_map.1 ht; exact ⟨_, rfl⟩) h
  simp only [List.length_map, List.length_range] at h1 h2
  refine ⟨h1, h2, h3, h4, fun i x y hx hy => ?_⟩
  by_contra hc
  rw [List.any_eq_false] at h5
  refine h5 true ?_ rfl
  refine List.mem_of_getElem? (i := i) ?_
  rw [above, List.getElem?_zipWith, hx, hy]
  simp [not_le.1 hc]

/-- The stream `l` (zero after its end). -/
def stream (l : List ℚ) (p : ℕ) (_ _ : ℚ) : ℚ := (l[p]?).getD 0

/-- The point drawn third is accepted because of the height drawn second, which had rejected the point drawn first. -/
theorem C65_stale_height : ∃ l : List ℚ, rejectionSampleN (stream l) (fun x => x + 1) 3 0 3 1 2 0 = .ok ([stream l 2 0 3], [stream l 1 0 3]) ∧
    ¬ stream l 1 0 3 ≤ stream l 0 0 3 + 1 ∧ stream l 1 0 3 ≠ stream l 3 0 3 ∧
    rejectionSample (stream l) (fun x => x + 1) 3 0 3 2 0 ≠ .ok (stream l 2 0 3, 4) :=
  ⟨[0, 2, 1, 3], by decide +kernel⟩

/-- All the quadruples of a first point, a first height, a second point and a second height, points in `{0,1,2}` and heights in `{1,2,3}`. -/
def quads : List (List ℚ) :=
  [0, 1, 2].flatMap fun x0 => [1, 2, 3].flatMap fun y0 => [0, 1, 2].flatMap fun x1 => [1, 2, 3].map fun y1 => [x0, y0, x1, y1]

/-- How many quadruples make `rejection_sample(f, 3, 0, 3, size=1)` return `x` within two rounds, for `f(x) = x+1`. -/
def sizedCount (x : ℚ) : ℕ := quads.countP (fun l => match rejectionSampleN (stream l) (fun x => x + 1) 3 0 3 1 2 0 with
  | .ok (xs, _) => decide (xs = [x])
  | .error _ => false)

/-- The same for `rejection_sample(f, 3, 0, 3)`. -/
def scalarCount (x : ℚ) : ℕ := quads.countP (fun l => match rejectionSample (stream l) (fun x => x + 1) 3 0 3 2 0 with
  | .ok (y, _) => decide (y = x)
  | .error _ => false)

/-- Without size the counts are proportional to `f`; with size they are not. -/
theorem C65_biased : (scalarCount 0 = 12 ∧ scalarCount 1 = 24 ∧ scalarCount 2 = 36) ∧ (sizedCount 0 = 12 ∧ sizedCount 1 = 25 ∧ sizedCount 2 = 36) := by
  decide +kernel
end Verif.Mix
