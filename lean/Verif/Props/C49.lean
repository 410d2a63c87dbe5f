import Verif.Lemmas.Argmax
import Verif.Props.C48
import Mathlib.Tactic.FieldSimp
import Mathlib.Tactic.Linarith
import Mathlib.Tactic.Ring

/-!
# C49: `cluster()` returns contiguous labels of the most probable component

For at least two points, any number of components and any densities for which no point has all its scaled densities equal to zero: two points
share a label iff they have the same most probable component (the lowest on ties), labels are numbered in the order of the components and are
exactly `0 .. m-1`, and the uncertainty of a point is one minus its largest responsibility, in `[0, 1 - 1/k]`.
`C49_one_point`: for a single point the call raises `AxisError`.
-/

set_option linter.unusedSectionVars false

namespace Verif.Mix
variable {K Obs Atom : Type} [Field K] [LinearOrder K] [IsStrictOrderedRing K]

/-- The responsibilities of the components for the point `x`. -/
def responsibilities (pdf : Obs → Atom → K) (w : List K) (theta : List (ℕ × Atom)) (x : Obs) : List K :=
  let p := (List.range w.length).map (weighted pdf w theta x)
  p.map (fun y => y / p.sum)

theorem clusterRows_ok (pdf : Obs → Atom → K) (xs : List Obs) {theta : List (ℕ × Atom)} (js : List ℕ)
    (h : ∀ j ∈ js, (theta.lookup j).isSome) :
    clusterRows pdf xs theta js = .ok (js.map (fun j => xs.map (fun x => match theta.lookup j with | some a => pdf x a | none => 0))) := by
  induction js with
  | nil => rfl
  | cons j js ih =>
    obtain ⟨a, ha⟩ := Option.isSome_iff_exists.1 (h j (by simp))
    rw [clusterRows, ha, ih (fun i hi => h i (by simp [hi]))]
    simp only [List.map_cons, ha]

theorem assignProb_eq (pdf : Obs → Atom → K) {xs : List Obs} {w : List K} {theta : List (ℕ × Atom)} (ht : HasAtoms theta w.length)
    {i : ℕ} (hi : i < xs.length) :
    assignProb ((List.range w.length).map (fun j => xs.map (fun x => match theta.lookup j with | some a => pdf x a | none => 0))) w i
      = responsibilities pdf w theta xs[i] := by
  unfold assignProb responsibilities
  have : List.zipWith (· * ·) (((List.range w.length).map (fun j => xs.map (fun x => match theta.lookup j with
      | some a => pdf x a | none => (0 : K)))).map (fun r => (r[i]?).getD 0)) w = (List.range w.length).map (weighted pdf w theta xs[i]) := by
    refine List.ext_getElem? fun j => ?_
    rcases Nat.lt_or_ge j w.length with hj | hj
    · obtain ⟨a, ha⟩ := Option.isSome_iff_exists.1 (ht j hj)
      simp only [List.getElem?_zipWith, List.getElem?_map, List.getElem?_range hj, Option.map_some, List.getElem?_eq_getElem hj,
        List.getElem?_eq_getElem hi, Option.getD_some, ha, weighted, mul_comm]
    · rw [List.getElem?_eq_none (by simpa using hj), List.getElem?_eq_none (by simpa using hj)]
  rw [this]

theorem C49_labels (pdf : Obs → Atom → K) {xs : List Obs} {w : List K} {theta : List (ℕ × Atom)} (ht : HasAtoms theta w.length)
    (hn : 2 ≤ xs.length) (hw : w ≠ []) :
    ∃ (lab : List ℕ) (unc : List K) (best : ℕ → ℕ), cluster pdf xs w theta = .ok (lab, unc) ∧ lab.length = xs.length ∧ unc.length = xs.length ∧
      (∀ (i : ℕ) (hi : i < xs.length), IsArgmax (responsibilities pdf w theta xs[i]) (best i)) ∧
      (∀ i j li lj, lab[i]? = some li → lab[j]? = some lj → (li = lj ↔ best i = best j) ∧ (li < lj ↔ best i < best j)) ∧
      (∃ m, ∀ l, l ∈ lab ↔ l < m) ∧
      ∀ (i : ℕ) (hi : i < xs.length), ∃ r, (responsibilities pdf w theta xs[i])[best i]? = some r ∧ unc[i]? = some (1 - r) := by
  have hk : 0 < w.length := List.length_pos_iff.2 hw
  let best : ℕ → ℕ := fun i => argmaxD (assignProb ((List.range w.length).map
    (fun j => xs.map (fun x => match theta.lookup j with | some a => pdf x a | none => 0))) w i)
  have hbest : ∀ (i : ℕ) (hi : i < xs.length), IsArgmax (responsibilities pdf w theta xs[i]) (best i) := by
    intro i hi
    show IsArgmax _ (argmaxD _)
    rw [assignProb_eq pdf ht hi]
    exact argmaxD_spec (by
      unfold responsibilities
      intro hc
      have := congrArg List.length hc
      simp at this; exact hw this)
  let grp := (List.range xs.length).map best
  have hg : ∀ i < xs.length, grp[i]? = some (best i) := fun i hi => by simp [grp, hi]
  let unc := (List.range xs.length).map (fun i => 1 - ((assignProb ((List.range w.length).map
      (fun j => xs.map (fun x => match theta.lookup j with | some a => pdf x a | none => 0))) w i)[best i]?).getD 0)
  refine ⟨npInverse grp, unc, best, ?_, by simp [npInverse, grp], ?_, hbest, ?_, ⟨(npUnique grp).length, fun l => ?_⟩, fun i hi => ?_⟩
  · unfold cluster
    rw [clusterRows_ok pdf xs _ (fun j hj => ht j (List.mem_range.1 hj))]
    simp only []
    rw [if_neg (by omega)]
  · simp [unc]
  · intro i j li lj h1 h2
    have e : ∀ {i li}, (npInverse grp)[i]? = some li → i < xs.length ∧ li = (npUnique grp).idxOf (best i) := by
      intro i li h
      have hi : i < xs.length := by
        by_contra hc
        rw [List.getElem?_eq_none (by simp [npInverse, grp]; omega)] at h; cases h
      rw [npInverse, List.getElem?_map, hg i hi] at h
      exact ⟨hi, (Option.some.inj h).symm⟩
    obtain ⟨hi, rfl⟩ := e h1
    obtain ⟨hj, rfl⟩ := e h2
    have mi : best i ∈ grp := List.mem_of_getElem? (hg i hi)
    have mj : best j ∈ grp := List.mem_of_getElem? (hg j hj)
    have ui := mem_npUnique.2 mi
    have uj := mem_npUnique.2 mj
    have key : ∀ {a b}, a ∈ npUnique grp → b ∈ npUnique grp → (npUnique grp).idxOf a < (npUnique grp).idxOf b → a < b := by
      intro a b ha hb hlt
      have := List.pairwise_iff_getElem.1 (npUnique_sorted grp) _ _ (List.idxOf_lt_length_iff.2 ha) (List.idxOf_lt_length_iff.2 hb) hlt
      simpa using this
    refine ⟨⟨npInverse_inj mi mj, fun h => by rw [h]⟩, ⟨key ui uj, fun h => ?_⟩⟩
    rcases Nat.lt_trichotomy ((npUnique grp).idxOf (best i)) ((npUnique grp).idxOf (best j)) with h' | h' | h'
    · exact h'
    · rw [npInverse_inj mi mj h'] at h; omega
    · have := key uj ui h'; omega
  · exact ⟨npInverse_lt l, npInverse_surj⟩
  · have hb := hbest i hi
    refine ⟨_, List.getElem?_eq_getElem hb.lt, ?_⟩
    simp only [unc, List.getElem?_map, List.getElem?_range hi, Option.map_some, assignProb_eq pdf ht hi, List.getElem?_eq_getElem hb.lt,
      Option.getD_some]

theorem list_sum_div' (l : List K) (c : K) : (l.map (fun x => x / c)).sum = l.sum / c := by
  induction l with
  | nil => simp
  | cons x xs ih => simp [ih, add_div]

/-- The responsibilities are a probability vector when the scaled densities are non-negative and not all zero. -/
theorem C49_responsibilities (pdf : Obs → Atom → K) (hp : ∀ x a, 0 ≤ pdf x a) {w : List K} (hw0 : ∀ x ∈ w, 0 ≤ x) {theta : List (ℕ × Atom)}
    (x : Obs) (hpos : 0 < ((List.range w.length).map (weighted pdf w theta x)).sum) :
    (∀ r ∈ responsibilities pdf w theta x, 0 ≤ r) ∧ (responsibilities pdf w theta x).sum = 1 := by
  unfold responsibilities
  constructor
  · intro r hr
    obtain ⟨y, hy, rfl⟩ := List.mem_map.1 hr
    obtain ⟨j, _, rfl⟩ := List.mem_map.1 hy
    refine div_nonneg ?_ hpos.le
    unfold weighted
    split
    · rename_i a wj _ hj
      exact mul_nonneg (hw0 _ (List.mem_of_getElem? hj)) (hp _ _)
    · exact le_refl _
  · rw [list_sum_div', div_self hpos.ne']

theorem sum_le_length_mul {l : List K} {m : K} (h : ∀ x ∈ l, x ≤ m) : l.sum ≤ (l.length : K) * m := by
  induction l with
  | nil => simp
  | cons x xs ih =>
    have h1 := h x (by simp)
    have h2 := ih (fun y hy => h y (by simp [hy]))
    rw [List.sum_cons, List.length_cons]
    push_cast
    linarith

/-- The range of the uncertainty. -/
theorem C49_uncertainty (pdf : Obs → Atom → K) (hp : ∀ x a, 0 ≤ pdf x a) {xs : List Obs} {w : List K} (hw0 : ∀ x ∈ w, 0 ≤ x)
    {theta : List (ℕ × Atom)} (ht : HasAtoms theta w.length) (hn : 2 ≤ xs.length) (hw : w ≠ [])
    (hpos : ∀ x ∈ xs, 0 < ((List.range w.length).map (weighted pdf w theta x)).sum) :
    ∃ lab unc, cluster pdf xs w theta = .ok (lab, unc) ∧ ∀ u ∈ unc, 0 ≤ u ∧ u ≤ 1 - 1 / (w.length : K) := by
  obtain ⟨lab, unc, best, h1, _, h3, h4, _, _, h7⟩ := C49_labels pdf ht hn hw
  refine ⟨lab, unc, h1, fun u hu => ?_⟩
  obtain ⟨i, hi, rfl⟩ := List.mem_iff_getElem.1 hu
  have hi' : i < xs.length := by omega
  obtain ⟨r, hr, he⟩ := h7 i hi'
  rw [List.getElem?_eq_getElem hi] at he
  have hb := h4 i hi'
  rw [List.getElem?_eq_getElem hb.lt] at hr
  have hr' := Option.some.inj hr
  obtain ⟨g1, g2⟩ := C49_responsibilities pdf hp hw0 xs[i] (hpos _ (List.getElem_mem hi'))
  have hlen : (responsibilities pdf w theta xs[i]).length = w.length := by simp [responsibilities]
  have hmax : ∀ x ∈ responsibilities pdf w theta xs[i], x ≤ r := by
    intro x hx
    obtain ⟨j, hj, rfl⟩ := List.mem_iff_getElem.1 hx
    rw [← hr']; exact hb.max j hj
  have hle : r ≤ 1 := by
    rw [← g2, ← hr']
    exact List.single_le_sum g1 _ (List.getElem_mem _)
  have hge := sum_le_length_mul hmax
  rw [g2, hlen] at hge
  have hk : (0 : K) < (w.length : K) := by exact_mod_cast List.length_pos_iff.2 hw
  rw [Option.some.inj he]
  have : 1 / (w.length : K) ≤ r := by rw [div_le_iff₀ hk]; linarith
  constructor <;> linarith

/-- A single point raises `AxisError`. -/
theorem C49_one_point (pdf : Obs → Atom → K) {x : Obs} {w : List K} {theta : List (ℕ × Atom)} (ht : HasAtoms theta w.length) :
    cluster pdf [x] w theta = .error .axisError := by
  unfold cluster
  rw [clusterRows_ok pdf [x] _ (fun j hj => ht j (List.mem_range.1 hj))]
  simp

/-! ### The hypotheses are met -/

example : cluster (fun (x a : ℚ) => x * a) [1, 2, 3] [1/4, 3/4] [(1, (2 : ℚ)), (0, 5)] = .ok ([0, 0, 0], [5/11, 5/11, 5/11]) := by decide +kernel
example : cluster (fun (x a : ℚ) => if x ≤ a then (1 : ℚ) else 1/5) [9, 1, 3] [1/4, 1/4, 1/2] [(0, (1 : ℚ)), (1, 3), (2, 0)] =
    .ok ([2, 0, 1], [1/2, 7/12, 3/8]) := by decide +kernel
end Verif.Mix
