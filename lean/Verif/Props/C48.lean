import Verif.Model.MixUtils
import Verif.Lemmas.Demo
import Mathlib.Algebra.Order.BigOperators.Group.List
import Mathlib.Tactic.NormNum

/-!
# C48: the mixture density decomposes into its components

`mixture_density(x, w, theta)` returns one value per point: the sum over the components of `w_j` times the Gaussian density; the call with
`component=j` returns exactly the summand; everything is non-negative.  For every density function, every number of points, every non-empty
weight vector and every dictionary holding the needed atoms.  `C48_missing_atom`: with a missing atom it raises `KeyError`.
`C48_other_dim`: with a `dim` of a type other than `None`, list, array, `int` (for example `np.int64`) the result is silently `[0.]`.
-/

set_option linter.unusedSectionVars false

namespace Verif.Mix
variable {K Obs Atom : Type} [Field K] [LinearOrder K] [IsStrictOrderedRing K]

/-- `w_j` times the density of component `j` at `x` (zero without such a component). -/
def weighted (pdf : Obs → Atom → K) (w : List K) (theta : List (ℕ × Atom)) (x : Obs) (j : ℕ) : K :=
  match theta.lookup j, w[j]? with
  | some a, some wj => wj * pdf x a
  | _, _ => 0

/-- The dictionary holds an atom for each of the `k` components. -/
def HasAtoms (theta : List (ℕ × Atom)) (k : ℕ) : Prop := ∀ j < k, (theta.lookup j).isSome

theorem componentRows_ok (pdf : Obs → Atom → K) (xs : List Obs) {w : List K} {theta : List (ℕ × Atom)} (js : List ℕ)
    (h : ∀ j ∈ js, (theta.lookup j).isSome ∧ j < w.length) :
    componentRows pdf xs w theta js = .ok (js.map (fun j => xs.map (fun x => weighted pdf w theta x j))) := by
  induction js with
  | nil => rfl
  | cons j js ih =>
    obtain ⟨h1, h2⟩ := h j (by simp)
    obtain ⟨a, ha⟩ := Option.isSome_iff_exists.1 h1
    rw [componentRows, ha, ih (fun i hi => h i (by simp [hi])), List.getElem?_eq_getElem h2]
    simp only [List.map_cons, weighted, ha, List.getElem?_eq_getElem h2, mul_comm]

theorem colSums_rows (xs : List Obs) (js : List ℕ) (g : Obs → ℕ → K) :
    colSums xs.length (js.map (fun j => xs.map (fun x => g x j))) = xs.map (fun x => (js.map (g x)).sum) := by
  refine List.ext_getElem? fun i => ?_
  unfold colSums
  rcases Nat.lt_or_ge i xs.length with hi | hi
  · simp only [List.getElem?_map, List.getElem?_range hi, Option.map_some, List.getElem?_eq_getElem hi, List.map_map]
    congr 2
    refine List.map_congr_left fun j _ => ?_
    simp [hi]
  · rw [List.getElem?_eq_none (by simpa using hi), List.getElem?_eq_none (by simpa using hi)]

theorem C48_total (pdf : Dim → Obs → Atom → K) (xs : List Obs) {w : List K} (hw : w ≠ []) {theta : List (ℕ × Atom)}
    (ht : HasAtoms theta w.length) {dim : Dim} (hd : dim ≠ .other) :
    mixtureDensity pdf xs w theta dim none =
      .ok (xs.map (fun x => ((List.range w.length).map (weighted (pdf dim) w theta x)).sum)) := by
  unfold mixtureDensity
  rw [if_neg hd]
  simp only []
  rw [componentRows_ok _ _ _ (fun j hj => ⟨ht j (List.mem_range.1 hj), List.mem_range.1 hj⟩)]
  have : List.range w.length ≠ [] := by
    intro hc; exact hw (List.length_eq_zero_iff.1 (by simpa using hc))
  rw [← colSums_rows]
  cases hr : List.range w.length with
  | nil => exact absurd hr this
  | cons => rfl

theorem C48_component (pdf : Dim → Obs → Atom → K) (xs : List Obs) {w : List K} {theta : List (ℕ × Atom)} (ht : HasAtoms theta w.length)
    {dim : Dim} (hd : dim ≠ .other) {j : ℕ} (hj : j < w.length) :
    mixtureDensity pdf xs w theta dim (some j) = .ok (xs.map (fun x => weighted (pdf dim) w theta x j)) := by
  unfold mixtureDensity
  rw [if_neg hd]
  simp only []
  rw [componentRows_ok _ _ _ (fun i hi => by have := List.mem_singleton.1 hi; subst this; exact ⟨ht _ hj, hj⟩)]
  simp only [List.map_cons, List.map_nil]
  have := colSums_rows xs [j] (fun x j => weighted (pdf dim) w theta x j)
  simp only [List.map_cons, List.map_nil, List.sum_cons, List.sum_nil, add_zero] at this
  rw [this]

/-- The total is the pointwise sum of the component calls, and everything is non-negative. -/
theorem C48_decomposition (pdf : Dim → Obs → Atom → K) (hp : ∀ d x a, 0 ≤ pdf d x a) (xs : List Obs) {w : List K} (hw : w ≠ [])
    (hw0 : ∀ x ∈ w, 0 ≤ x) {theta : List (ℕ × Atom)} (ht : HasAtoms theta w.length) {dim : Dim} (hd : dim ≠ .other) :
    ∃ (total : List K) (parts : ℕ → List K), mixtureDensity pdf xs w theta dim none = .ok total ∧
      (∀ j < w.length, mixtureDensity pdf xs w theta dim (some j) = .ok (parts j)) ∧ total.length = xs.length ∧
      (∀ i < xs.length, total[i]? = some ((List.range w.length).map (fun j => ((parts j)[i]?).getD 0)).sum) ∧
      (∀ x ∈ total, 0 ≤ x) ∧ ∀ j < w.length, ∀ x ∈ parts j, 0 ≤ x := by
  have h0 : ∀ x j, 0 ≤ weighted (pdf dim) w theta x j := by
    intro x j
    unfold weighted
    split
    · rename_i a wj _ hj
      exact mul_nonneg (hw0 _ (List.mem_of_getElem? hj)) (hp _ _ _)
    · exact le_refl _
  refine ⟨_, _, C48_total pdf xs hw ht hd, fun j hj => C48_component pdf xs ht hd hj, by simp, fun i hi => ?_, ?_, ?_⟩
  · simp only [List.getElem?_map, List.getElem?_eq_getElem hi, Option.map_some, Option.getD_some]
  · intro y hy
    obtain ⟨x, _, rfl⟩ := List.mem_map.1 hy
    refine List.sum_nonneg fun z hz => ?_
    obtain ⟨j, _, rfl⟩ := List.mem_map.1 hz
    exact h0 x j
  · intro j _ y hy
    obtain ⟨x, _, rfl⟩ := List.mem_map.1 hy
    exact h0 x j

theorem componentRows_missing (pdf : Obs → Atom → K) (xs : List Obs) {w : List K} {theta : List (ℕ × Atom)} (js : List ℕ)
    (hl : ∀ j ∈ js, j < w.length) (h : ∃ j ∈ js, theta.lookup j = none) : componentRows pdf xs w theta js = .error .keyError := by
  induction js with
  | nil => simp at h
  | cons j js ih =>
    rw [componentRows]
    cases ha : theta.lookup j with
    | none => rfl
    | some a =>
      have hj : j < w.length := hl j (by simp)
      obtain ⟨i, hi, hn⟩ := h
      rcases List.mem_cons.1 hi with rfl | hi
      · rw [ha] at hn; cases hn
      · simp only [List.getElem?_eq_getElem hj, ih (fun i hi => hl i (by simp [hi])) ⟨i, hi, hn⟩]

/-- With a missing atom the density cannot be evaluated. -/
theorem C48_missing_atom (pdf : Dim → Obs → Atom → K) (xs : List Obs) {w : List K} {theta : List (ℕ × Atom)}
    (ht : ¬ HasAtoms theta w.length) {dim : Dim} (hd : dim ≠ .other) :
    mixtureDensity pdf xs w theta dim none = .error .keyError := by
  unfold HasAtoms at ht
  push Not at ht
  obtain ⟨j, hj, hn⟩ := ht
  unfold mixtureDensity
  rw [if_neg hd]
  simp only []
  rw [componentRows_missing _ _ _ (fun i hi => List.mem_range.1 hi) ⟨j, List.mem_range.2 hj, Option.not_isSome_iff_eq_none.1 hn⟩]

/-- Any other kind of `dim` gives a single zero, whatever the points. -/
theorem C48_other_dim (pdf : Dim → Obs → Atom → K) (xs : List Obs) (w : List K) (theta : List (ℕ × Atom)) (c : Option ℕ) :
    mixtureDensity pdf xs w theta .other c = .ok [0] := by unfold mixtureDensity; rw [if_pos rfl]

/-! ### The hypotheses are met -/

example : HasAtoms [(1, (2 : ℚ)), (0, 5)] 2 := by unfold HasAtoms; decide
example : mixtureDensity (fun _ (x a : ℚ) => x * a) [1, 2, 3] [1/4, 3/4] [(1, (2 : ℚ)), (0, 5)] .none none = .ok [11/4, 11/2, 33/4] := by decide +kernel
end Verif.Mix
