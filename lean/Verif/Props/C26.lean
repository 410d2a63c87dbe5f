import Verif.Props.C28
import Verif.Lemmas.Wp
import Verif.Lemmas.Reach
import Verif.Lemmas.Demo

/-!
# C26: `random_assignment` is exact inverse-CDF sampling

For every class, every state whose weights are non-negative with positive sum, and every requested number `n`: the call returns `n`
indices, leaves the object alone and uses exactly `n` uniforms; the `i`-th index `j` is the one with `W(j) < u ≤ W(j+1)` (`W` the
normalised partial sums), where `u` is the `i`-th uniform; for `u = 0` it is `0`.  A component of weight 0 is never chosen for `u > 0`.
-/

set_option linter.unusedSectionVars false

namespace Verif
open Spec
variable {K : Type} [Field K] [LinearOrder K] [IsStrictOrderedRing K] {ω : Oracle K}

/-- Index `j` is the value of the generalised inverse of the distribution function of `w` (normalised) at `u`. -/
structure IsQuantile (w : List K) (u : K) (j : ℕ) : Prop where
  lt : j < w.length
  below : 0 < j → (w.take j).sum / w.sum < u
  above : u ≤ (w.take (j + 1)).sum / w.sum

theorem IsQuantile.unique {w : List K} (hnn : ∀ x ∈ w, 0 ≤ x) (hs : 0 < w.sum) {u : K} {i j : ℕ} (hi : IsQuantile w u i) (hj : IsQuantile w u j) : i = j := by
  rcases Nat.lt_trichotomy i j with h | h | h
  · have h1 := hj.below (by omega)
    have h2 := div_le_div_of_nonneg_right (take_sum_mono hnn (show i + 1 ≤ j by omega)) hs.le
    exact absurd (hi.above.trans h2) (not_le.2 h1)
  · exact h
  · have h1 := hi.below (by omega)
    have h2 := div_le_div_of_nonneg_right (take_sum_mono hnn (show j + 1 ≤ i by omega)) hs.le
    exact absurd (hj.above.trans h2) (not_le.2 h1)

/-- Counting the entries below `u` in a non-decreasing list. -/
theorem countP_sorted {c : List K} (hm : ∀ (i j : ℕ) (x y : K), i ≤ j → c[i]? = some x → c[j]? = some y → x ≤ y) (u : K) :
    (∀ (j : ℕ) (x : K), j < c.countP (fun x => decide (u > x)) → c[j]? = some x → x < u) ∧
    (∀ (j : ℕ) (x : K), c.countP (fun x => decide (u > x)) ≤ j → c[j]? = some x → u ≤ x) := by
  induction c with
  | nil => simp
  | cons a c ih =>
    have hm' : ∀ (i j : ℕ) (x y : K), i ≤ j → c[i]? = some x → c[j]? = some y → x ≤ y := fun i j x y hij hx hy =>
      hm (i + 1) (j + 1) x y (by omega) (by simpa using hx) (by simpa using hy)
    obtain ⟨h1, h2⟩ := ih hm'
    by_cases ha : u > a
    · rw [List.countP_cons_of_pos (by simpa using ha)]
      refine ⟨fun j x hj hx => ?_, fun j x hj hx => ?_⟩
      · cases j with
        | zero => simp at hx; rw [← hx]; exact ha
        | succ j => exact h1 j x (by omega) (by simpa using hx)
      · cases j with
        | zero => omega
        | succ j => exact h2 j x (by omega) (by simpa using hx)
    · rw [List.countP_cons_of_neg (by simpa using ha)]
      have hall : ∀ (j : ℕ) (x : K), (a :: c)[j]? = some x → u ≤ x := fun j x hx =>
        (not_lt.1 ha).trans (hm 0 j a x (by omega) rfl hx)
      have hz : c.countP (fun x => decide (u > x)) = 0 := by
        rw [List.countP_eq_zero]
        intro x hx
        obtain ⟨j, hj⟩ := List.mem_iff_getElem?.1 hx
        simpa using hall (j + 1) x (by simpa using hj)
      rw [hz]
      exact ⟨fun j x hj => by omega, fun j x _ hx => hall j x hx⟩

theorem invCdf_quantile {w : List K} (hnn : ∀ x ∈ w, 0 ≤ x) (hs : 0 < w.sum) {u : K} (hu1 : u < 1) :
    IsQuantile w u (BaseWeight.invCdf (BaseWeight.normalizedCumulative w) u) := by
  obtain ⟨hl, hm, hlast, hget⟩ := C28_cumulative hnn hs
  have hmono := countP_sorted hm u
  set c := BaseWeight.normalizedCumulative w with hc
  set j := BaseWeight.invCdf c u with hj
  have hjc : j = c.countP (fun x => decide (u > x)) := rfl
  have hne : c ≠ [] := by rintro h; rw [h] at hlast; simp at hlast
  have hpos := List.length_pos_iff.2 hne
  rw [List.getLast?_eq_getElem?] at hlast
  have hlt : j < c.length := by
    by_contra h
    have := hmono.1 (c.length - 1) 1 (by omega) hlast
    exact absurd (this.trans hu1) (lt_irrefl 1)
  have hsome : ∀ i : ℕ, i < c.length → c[i]? = some ((w.take (i + 1)).sum / w.sum) := by
    intro i hi
    rw [List.getElem?_eq_getElem hi]
    congr 1
    exact hget i _ (List.getElem?_eq_getElem hi)
  refine ⟨by omega, fun h0 => ?_, ?_⟩
  · have := hmono.1 (j - 1) _ (by omega) (hsome (j - 1) (by omega))
    rwa [show j - 1 + 1 = j by omega] at this
  · exact hmono.2 j _ (by omega) (hsome j hlt)

theorem C26_inverse_cdf (hω : ω.Legal) (C : WeightCore K) (s : C.State × ℕ) (hnn : ∀ x ∈ C.getW s.1, 0 ≤ x) (hs : 0 < (C.getW s.1).sum) (n : ℕ) :
    ∃ r, BaseWeight.randomAssignment C (some (n : ℤ)) ω s = (.ok r, (s.1, s.2 + n)) ∧ r.length = n ∧
      ∀ (i j : ℕ), r[i]? = some j → IsQuantile (C.getW s.1) (ω.unif (s.2 + i)) j := by
  refine ⟨((List.range n).map (fun i => ω.unif (s.2 + i))).map (BaseWeight.invCdf (BaseWeight.normalizedCumulative (C.getW s.1))), ?_, by simp, ?_⟩
  · unfold BaseWeight.randomAssignment
    rw [← wp_eq_ok]
    show wp ω (do let us ← M.unifVec (n : ℤ); let s ← M.self; pure (us.map (BaseWeight.invCdf (BaseWeight.normalizedCumulative (C.getW s))))) _ _ s
    rw [wp_bind, wp_unifVec]
    refine ⟨fun h => absurd h (by omega), fun _ => ?_⟩
    rw [wp_bind, wp_self, wp_pure]
    exact ⟨rfl, by simp⟩
  · intro i j hj
    rw [List.getElem?_map, List.getElem?_map] at hj
    rcases Nat.lt_or_ge i n with hi | hi
    · rw [List.getElem?_range hi] at hj
      simp only [Option.map_some, Option.some.injEq] at hj
      subst hj
      exact invCdf_quantile hnn hs (hω.unif_lt_one _)
    · rw [List.getElem?_eq_none (by simpa using hi)] at hj
      simp at hj

/-- A component of weight 0 is not the quantile of any `u > 0`. -/
theorem C26_zero_weight {w : List K} {u : K} {j : ℕ} (h : IsQuantile w u j) (hu : 0 < u) : w[j]? ≠ some 0 := by
  intro hj
  have ht : w.take (j + 1) = w.take j ++ [0] := by rw [List.take_add_one, hj]; rfl
  have ha := h.above
  rw [ht, List.sum_append] at ha
  simp only [List.sum_cons, List.sum_nil, add_zero] at ha
  rcases Nat.eq_zero_or_pos j with h0 | h0
  · subst h0; simp at ha; linarith
  · exact absurd (h.below h0) (not_lt.2 ha)

/-- `u = 0` is mapped to component 0 even if its weight is 0. -/
theorem C26_at_zero {w : List K} (hnn : ∀ x ∈ w, 0 ≤ x) (hs : 0 < w.sum) : IsQuantile w 0 0 := by
  refine ⟨List.length_pos_iff.2 (by rintro rfl; simp at hs), nofun, ?_⟩
  exact div_nonneg (List.sum_nonneg fun x hx => hnn x (List.mem_of_mem_take hx)) hs.le

/-! Non-vacuity: uniforms 1/6, 1/7, 1/8 and weights `[1/6, 5/42]` (normalised partial sums 7/12 and 1), and a zero weight. -/
example : (BaseWeight.randomAssignment DP.core (some 3) (demo : Oracle ℚ) (DP.cls.run id demo (DP.init 1, 0) [.random (.int 4)])).1 = .ok [0, 0, 0] := by
  decide +kernel
example : BaseWeight.invCdf (BaseWeight.normalizedCumulative [0, 1/4, 0, (1/4 : ℚ)]) (1/2) = 1 ∧
    BaseWeight.invCdf (BaseWeight.normalizedCumulative [0, 1/4, 0, (1/4 : ℚ)]) (3/5) = 3 := by decide +kernel

end Verif
