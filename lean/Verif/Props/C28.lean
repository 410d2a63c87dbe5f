import Verif.Model.Base
import Verif.Spec
import Mathlib.Algebra.Order.BigOperators.Group.List
import Mathlib.Tactic.FieldSimp
import Mathlib.Tactic.Linarith

/-!
# C28: normalised weights are a probability vector
-/

set_option linter.unusedSectionVars false

namespace Verif
open Spec
variable {K : Type} [Field K] [LinearOrder K] [IsStrictOrderedRing K]

theorem normalized_sum {w : List K} (h : w.sum ≠ 0) : (BaseWeight.normalized w).sum = 1 := by
  unfold BaseWeight.normalized
  have : ∀ (c : K) (l : List K), (l.map (fun x => x / c)).sum = l.sum / c := by
    intro c l
    induction l with
    | nil => simp
    | cons a l ih => rw [List.map_cons, List.sum_cons, List.sum_cons, ih, add_div]
  rw [this, div_self h]

theorem cumsumFrom_entry (acc : K) (l : List K) (j : ℕ) (h : j < l.length) :
    (Py.cumsumFrom acc l)[j]? = some (acc + (l.take (j + 1)).sum) := by
  induction l generalizing acc j with
  | nil => simp at h
  | cons a l ih =>
    cases j with
    | zero => simp [Py.cumsumFrom]
    | succ j =>
      rw [Py.cumsumFrom, List.getElem?_cons_succ, ih _ j (by simpa using h), List.take_succ_cons, List.sum_cons, add_assoc]

theorem cumsum_entry (l : List K) (j : ℕ) (h : j < l.length) : (Py.cumsum l)[j]? = some (l.take (j + 1)).sum := by
  unfold Py.cumsum
  rw [cumsumFrom_entry 0 l j h, zero_add]

theorem cumsumFrom_length' (acc : K) (l : List K) : (Py.cumsumFrom acc l).length = l.length := by
  induction l generalizing acc with
  | nil => rfl
  | cons a l ih => simp [Py.cumsumFrom, ih]

theorem cumsum_length' (l : List K) : (Py.cumsum l).length = l.length := cumsumFrom_length' 0 l

theorem take_sum_mono {l : List K} (h : ∀ x ∈ l, 0 ≤ x) {i j : ℕ} (hij : i ≤ j) : (l.take i).sum ≤ (l.take j).sum := by
  have h1 : l.take j = l.take i ++ (l.drop i).take (j - i) := by
    conv_lhs => rw [show j = i + (j - i) by omega]
    rw [List.take_add]
  rw [h1, List.sum_append]
  have : 0 ≤ ((l.drop i).take (j - i)).sum := List.sum_nonneg fun x hx => h x (List.mem_of_mem_drop (List.mem_of_mem_take hx))
  linarith

/-- `get_normalized_weights()`: same length, entries `w_i / Σ w`, total 1. -/
theorem C28_normalized {w : List K} (hnn : ∀ x ∈ w, 0 ≤ x) (hs : 0 < w.sum) :
    Prob (BaseWeight.normalized w) ∧ (BaseWeight.normalized w).length = w.length := by
  refine ⟨⟨?_, normalized_sum hs.ne'⟩, by simp [BaseWeight.normalized]⟩
  intro x hx
  obtain ⟨y, hy, rfl⟩ := List.mem_map.1 hx
  exact div_nonneg (hnn y hy) hs.le

/-- The ratios are kept. -/
theorem C28_ratio {w : List K} (hs : 0 < w.sum) {i j : ℕ} {a b x y : K} (ha : w[i]? = some a) (hb : w[j]? = some b)
    (hx : (BaseWeight.normalized w)[i]? = some x) (hy : (BaseWeight.normalized w)[j]? = some y) : a * y = b * x ∧ x = a / w.sum := by
  unfold BaseWeight.normalized at hx hy
  rw [List.getElem?_map, ha] at hx
  rw [List.getElem?_map, hb] at hy
  simp only [Option.map_some, Option.some.injEq] at hx hy
  subst hx hy
  exact ⟨by rw [mul_div, mul_div, mul_comm], rfl⟩

/-- `get_normalized_cumulative_weights()` is non-decreasing, has the partial sums as entries and ends at 1. -/
theorem C28_cumulative {w : List K} (hnn : ∀ x ∈ w, 0 ≤ x) (hs : 0 < w.sum) :
    let c := BaseWeight.normalizedCumulative w
    c.length = w.length ∧ (∀ (i j : ℕ) (x y : K), i ≤ j → c[i]? = some x → c[j]? = some y → x ≤ y) ∧ c.getLast? = some 1 ∧
      ∀ (j : ℕ) (x : K), c[j]? = some x → x = (w.take (j + 1)).sum / w.sum := by
  intro c
  have hp := (C28_normalized hnn hs).1
  have hl : (BaseWeight.normalized w).length = w.length := (C28_normalized hnn hs).2
  have hlc : c.length = w.length := by show (Py.cumsum _).length = _; rw [cumsum_length', hl]
  have hget : ∀ (j : ℕ) (x : K), c[j]? = some x → x = ((BaseWeight.normalized w).take (j + 1)).sum := by
    intro j x hx
    have hj : j < w.length := by rw [← hlc]; exact (List.getElem?_eq_some_iff.1 hx).1
    have := cumsum_entry (BaseWeight.normalized w) j (by rw [hl]; exact hj)
    rw [show Py.cumsum (BaseWeight.normalized w) = c from rfl, hx] at this
    exact Option.some.inj this
  have hne : w ≠ [] := by rintro rfl; simp at hs
  refine ⟨hlc, ?_, ?_, ?_⟩
  · intro i j x y hij hx hy
    rw [hget i x hx, hget j y hy]
    exact take_sum_mono hp.nonneg (by omega)
  · have hpos := List.length_pos_iff.2 hne
    rw [List.getLast?_eq_getElem?, hlc]
    have := cumsum_entry (BaseWeight.normalized w) (w.length - 1) (by rw [hl]; omega)
    rw [show c = Py.cumsum (BaseWeight.normalized w) from rfl, this, List.take_of_length_le (by omega), normalized_sum hs.ne']
  · intro j x hx
    rw [hget j x hx]
    unfold BaseWeight.normalized
    rw [← List.map_take]
    generalize w.take (j + 1) = l
    induction l with
    | nil => simp
    | cons a l ih => rw [List.map_cons, List.sum_cons, List.sum_cons, ih, add_div]

/-! Non-vacuity -/
example : BaseWeight.normalized [1/2, 1/4, (0 : ℚ)] = [2/3, 1/3, 0] ∧ BaseWeight.normalizedCumulative [1/2, 1/4, (0 : ℚ)] = [2/3, 1, 1] := by
  decide +kernel

end Verif
