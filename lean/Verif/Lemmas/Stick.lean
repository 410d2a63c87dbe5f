import Verif.Model.Base
import Verif.Spec
import Mathlib.Tactic.Ring
import Mathlib.Tactic.Linarith
import Mathlib.Tactic.LinearCombination

/-! # The stick-breaking map -/

set_option linter.unusedSectionVars false

namespace Verif
open Spec

variable {K : Type}

section Field
variable [Field K]

theorem cumprodFrom_map_mul (c : K) (acc : K) (l : List K) :
    Py.cumprodFrom (c * acc) l = (Py.cumprodFrom acc l).map (fun x => c * x) := by
  induction l generalizing acc with
  | nil => rfl
  | cons x xs ih => simp [Py.cumprodFrom, mul_assoc, ih]

theorem cumprodFrom_length (acc : K) (l : List K) : (Py.cumprodFrom acc l).length = l.length := by
  induction l generalizing acc with
  | nil => rfl
  | cons x xs ih => simp [Py.cumprodFrom, ih]

@[simp] theorem stickWeights_nil : stickWeights ([] : List K) = [] := rfl

theorem stickWeights_cons (x : K) (xs : List K) :
    stickWeights (x :: xs) = x :: (stickWeights xs).map (fun y => (1 - x) * y) := by
  unfold stickWeights Py.cumprod
  cases xs with
  | nil => simp [Py.cumprodFrom]
  | cons y ys =>
    have h : Py.cumprodFrom (1 * (1 - x)) ((y :: ys).dropLast.map (fun z => 1 - z)) =
        (Py.cumprodFrom 1 ((y :: ys).dropLast.map (fun z => 1 - z))).map (fun z => (1 - x) * z) := by
      rw [one_mul, ← cumprodFrom_map_mul, mul_one]
    simp only [List.dropLast_cons_cons, List.map_cons, Py.cumprodFrom, List.zipWith_cons_cons, mul_one, one_mul]
    congr 1
    rw [← mul_one (1 - x), cumprodFrom_map_mul (1 - x) 1]
    simp only [mul_one]
    rw [List.map_zipWith, List.zipWith_map_right]
    congr 1
    · ring
    · congr 1
      funext a b; ring

@[simp] theorem stickWeights_length (v : List K) : (stickWeights v).length = v.length := by
  induction v with
  | nil => rfl
  | cons x xs ih => simp [stickWeights_cons, ih]

/-- Left-over mass after breaking the sticks of `v`. -/
def leftOver (v : List K) : K := (v.map (fun x => 1 - x)).prod

@[simp] theorem leftOver_nil : leftOver ([] : List K) = 1 := rfl
@[simp] theorem leftOver_cons (x : K) (v : List K) : leftOver (x :: v) = (1 - x) * leftOver v := by
  simp [leftOver]
@[simp] theorem leftOver_append (u v : List K) : leftOver (u ++ v) = leftOver u * leftOver v := by
  simp [leftOver]

theorem list_sum_map_mul (c : K) (l : List K) : (l.map (fun y => c * y)).sum = c * l.sum := by
  induction l with
  | nil => simp
  | cons x xs ih => simp [ih, mul_add]

theorem stickWeights_sum (v : List K) : (stickWeights v).sum = 1 - leftOver v := by
  induction v with
  | nil => simp
  | cons x xs ih =>
    simp only [stickWeights_cons, List.sum_cons, leftOver_cons]
    rw [list_sum_map_mul, ih]; ring

theorem stickWeights_append (u v : List K) :
    stickWeights (u ++ v) = stickWeights u ++ (stickWeights v).map (fun y => leftOver u * y) := by
  induction u with
  | nil => simp
  | cons x xs ih =>
    simp only [List.cons_append, stickWeights_cons, ih, List.map_append, List.map_map, leftOver_cons]
    congr 3
    funext y; simp [mul_assoc]

theorem stickWeights_getElem? (v : List K) (j : ℕ) :
    (stickWeights v)[j]? = (v[j]?).map (fun x => x * leftOver (v.take j)) := by
  induction v generalizing j with
  | nil => simp
  | cons x xs ih =>
    cases j with
    | zero => simp [stickWeights_cons]
    | succ j =>
      simp only [stickWeights_cons, List.getElem?_cons_succ, List.getElem?_map, ih, Option.map_map,
        List.take_succ_cons, leftOver_cons]
      congr 1
      funext y; simp; ring

theorem stickWeights_replicate (p : K) (n : ℕ) (j : ℕ) (hj : j < n) :
    (stickWeights (List.replicate n p))[j]? = some (p * (1 - p) ^ j) := by
  rw [stickWeights_getElem?]
  simp [hj, leftOver, List.take_replicate, Nat.min_eq_left hj.le]

end Field

section Ordered
variable [Field K] [LinearOrder K] [IsStrictOrderedRing K]

theorem Unit01.cons_iff {x : K} {v : List K} : Unit01 (x :: v) ↔ (0 ≤ x ∧ x ≤ 1) ∧ Unit01 v := by
  simp [Unit01]

theorem Unit01.append {u v : List K} (hu : Unit01 u) (hv : Unit01 v) : Unit01 (u ++ v) := by
  intro x hx
  rcases List.mem_append.1 hx with h | h
  · exact hu x h
  · exact hv x h

theorem Unit01.nil : Unit01 ([] : List K) := by simp [Unit01]

theorem Unit01.replicate {p : K} (h0 : 0 ≤ p) (h1 : p ≤ 1) (n : ℕ) : Unit01 (List.replicate n p) := by
  intro x hx
  rw [List.eq_of_mem_replicate hx]; exact ⟨h0, h1⟩

theorem leftOver_nonneg {v : List K} (h : Unit01 v) : 0 ≤ leftOver v := by
  induction v with
  | nil => simp
  | cons x xs ih =>
    rw [Unit01.cons_iff] at h
    rw [leftOver_cons]
    exact mul_nonneg (by linarith [h.1.2]) (ih h.2)

theorem leftOver_le_one {v : List K} (h : Unit01 v) : leftOver v ≤ 1 := by
  induction v with
  | nil => simp
  | cons x xs ih =>
    rw [Unit01.cons_iff] at h
    rw [leftOver_cons]
    exact mul_le_one₀ (by linarith [h.1.1]) (leftOver_nonneg h.2) (ih h.2)

theorem stickWeights_nonneg {v : List K} (h : Unit01 v) : ∀ x ∈ stickWeights v, 0 ≤ x := by
  induction v with
  | nil => simp
  | cons x xs ih =>
    rw [Unit01.cons_iff] at h
    rw [stickWeights_cons]
    intro y hy
    rcases List.mem_cons.1 hy with rfl | hy
    · exact h.1.1
    · obtain ⟨z, hz, rfl⟩ := List.mem_map.1 hy
      exact mul_nonneg (by linarith [h.1.2]) (ih h.2 z hz)

theorem stickWeights_subProb {v : List K} (h : Unit01 v) : SubProb (stickWeights v) :=
  ⟨stickWeights_nonneg h, by rw [stickWeights_sum]; linarith [leftOver_nonneg h]⟩

theorem stickWeights_isStick (v : List K) : IsStick v (stickWeights v) := by
  refine ⟨stickWeights_length v, fun j x hx => ?_⟩
  rw [stickWeights_getElem?, hx]; rfl

theorem SubProb.nil : SubProb ([] : List K) := ⟨by simp, by simp⟩

end Ordered
end Verif
