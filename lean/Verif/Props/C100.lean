import Verif.Props.C99
import Verif.Model.Ellipse

/-!
# C100: the pair plot of a fitted mixture can be drawn and gives each group its own colour

The claim: whenever `gibbs_map_cluster()` returns for the fitted data, `gibbs_map_pairplot()` returns a figure, and different groups have different colours.  **False**: with a single column the call
raises `TypeError` (`C100_one_column_refuted`), with exactly eleven groups `IndexError` (`C100_eleven_refuted`; the test `max(grp) > 10` is off by one), and with twelve groups or more two groups
have the same colour (`C100_colours_refuted`; the map has ten colours).  `C100_iff`: it returns in all other cases; `C100_colours_partial`: up to ten groups the colours are different.
-/

set_option linter.unusedSectionVars false

namespace Verif.Mix
open GM
variable {K : Type} [Field K] [LinearOrder K] [IsStrictOrderedRing K] {m : ℕ} {C : WeightClass K} {Atom : Type} {W : World K m Atom} {s : GM C m Atom}

/-- **When the figure can be drawn**: given that the clustering can be computed, iff there are at least two columns and the number of groups is not eleven. -/
theorem C100_iff (hy : s.y ≠ []) {lab : List ℕ} {unc : List K} (hc : mapCluster W s none = .ok (lab, unc)) : (∃ fig, pairplot W s = .ok fig) ↔ 2 ≤ m ∧ lab.toFinset.card ≠ 11 := by
  obtain ⟨p, hp, _⟩ := mapCluster_facts hy hc
  obtain ⟨best, R⟩ := renumbered hy hc hp
  obtain ⟨g, hg⟩ := R.mem
  have hcard : lab.toFinset.card = g := by
    have : lab.toFinset = Finset.range g := by
      ext l
      rw [List.mem_toFinset, hg, Finset.mem_range]
    rw [this, Finset.card_range]
  rw [hcard]
  constructor
  · rintro ⟨fig, h⟩
    obtain ⟨lab', unc', p', g', hc', hp', _, hg', h11, hm, _⟩ := pairplot_panels h
    rw [hc] at hc'
    cases hc'
    have : g = g' := by
      rcases Nat.lt_trichotomy g g' with h | h | h
      · exact absurd ((hg g).1 ((hg' g).2 h)) (lt_irrefl _)
      · exact h
      · exact absurd ((hg' g').1 ((hg g').2 h)) (lt_irrefl _)
    rw [this]
    exact ⟨hm, h11⟩
  · rintro ⟨hm, h11⟩
    exact ⟨_, pairplot_ok hy hc hp hg hm h11⟩

/-- **One column**: `TypeError`, for every fit. -/
theorem C100_one_column_refuted {W : World K 1 Atom} {s : GM C 1 Atom} (hy : s.y ≠ []) {lab : List ℕ} {unc : List K} (hc : mapCluster W s none = .ok (lab, unc)) : pairplot W s = .error .typeError := by
  unfold pairplot
  rw [if_neg hy, hc]
  simp only
  rw [if_neg (by norm_num)]
  rfl

/-- **Eleven groups**: `IndexError`, for every fit with at least two columns. -/
theorem C100_eleven_refuted (hy : s.y ≠ []) {lab : List ℕ} {unc : List K} (hc : mapCluster W s none = .ok (lab, unc)) (hm : 2 ≤ m) (h11 : lab.toFinset.card = 11) :
    pairplot W s = .error .indexError := by
  obtain ⟨p, hp, _⟩ := mapCluster_facts hy hc
  obtain ⟨best, R⟩ := renumbered hy hc hp
  obtain ⟨g, hg⟩ := R.mem
  have hcard : lab.toFinset.card = g := by
    have : lab.toFinset = Finset.range g := by
      ext l
      rw [List.mem_toFinset, hg, Finset.mem_range]
    rw [this, Finset.card_range]
  rw [hcard] at h11
  subst h11
  exact pairplot_eleven hy hc hg hm

/-- The colour given to group `l`, by its label and the labels of all observations. -/
def groupColour (lab : List ℕ) (l : ℕ) : ℕ := tabColour (colourCount lab) l

/-- **Up to ten groups**: different groups have different colours. What is missing is the case of more groups, see `C100_colours_refuted`. -/
theorem C100_colours_partial (hy : s.y ≠ []) {lab : List ℕ} {unc : List K} (hc : mapCluster W s none = .ok (lab, unc)) (hle : lab.toFinset.card ≤ 10) {l l' : ℕ} (hl : l ∈ lab) (hl' : l' ∈ lab)
    (h : groupColour lab l = groupColour lab l') : l = l' := by
  obtain ⟨p, hp, _, _, _, hn, _⟩ := mapCluster_facts hy hc
  obtain ⟨best, R⟩ := renumbered hy hc hp
  obtain ⟨g, hg⟩ := R.mem
  have hcard : lab.toFinset.card = g := by
    have : lab.toFinset = Finset.range g := by
      ext l
      rw [List.mem_toFinset, hg, Finset.mem_range]
    rw [this, Finset.card_range]
  rw [hcard] at hle
  have h1 := (hg l).1 hl
  have h2 := (hg l').1 hl'
  unfold groupColour tabColour at h
  rw [R.colourCount_eq hg hn, if_neg (by omega)] at h
  omega

/-- **More than ten groups**: two groups have the same colour, for every fit (with eleven groups nothing is drawn). -/
theorem C100_colours_refuted {lab : List ℕ} (h : 10 < lab.toFinset.card) : ∃ l ∈ lab, ∃ l' ∈ lab, l ≠ l' ∧ groupColour lab l = groupColour lab l' := by
  obtain ⟨l, hl, l', hl', hne, he⟩ := Finset.exists_ne_map_eq_of_card_lt_of_maps_to (t := Finset.range 10) (f := groupColour lab) (s := lab.toFinset) (by rw [Finset.card_range]; exact h)
    (fun l _ => by
      have : groupColour lab l ≤ 9 := min_le_right _ _
      exact Finset.mem_coe.2 (Finset.mem_range.2 (by omega)))
  exact ⟨l, List.mem_toFinset.1 hl, l', List.mem_toFinset.1 hl', hne, he⟩

/-- **Twelve groups or more**: every colour of the map is used. -/
theorem C100_all_used (hy : s.y ≠ []) {lab : List ℕ} {unc : List K} (hc : mapCluster W s none = .ok (lab, unc)) (hle : 12 ≤ lab.toFinset.card) {c : ℕ} (hc10 : c < 10) :
    ∃ l ∈ lab, groupColour lab l = c := by
  obtain ⟨p, hp, _, _, _, hn, _⟩ := mapCluster_facts hy hc
  obtain ⟨best, R⟩ := renumbered hy hc hp
  obtain ⟨g, hg⟩ := R.mem
  have hcard : lab.toFinset.card = g := by
    have : lab.toFinset = Finset.range g := by
      ext l
      rw [List.mem_toFinset, hg, Finset.mem_range]
    rw [this, Finset.card_range]
  rw [hcard] at hle
  have key : ∃ l, l < g ∧ 10 * l / g = c := by
    have h9 : c * g ≤ 9 * g := Nat.mul_le_mul_right _ (by omega)
    have hs : (c + 1) * g = c * g + g := Nat.succ_mul ..
    exact ⟨(c * g + 9) / 10, by omega, Nat.div_eq_of_lt_le (by omega) (by omega)⟩
  obtain ⟨l, hl, hcl⟩ := key
  refine ⟨l, (hg l).2 hl, ?_⟩
  unfold groupColour tabColour
  rw [R.colourCount_eq hg hn, if_pos hle, Nat.add_sub_cancel, hcl]
  omega

/-! ### The hypotheses are met -/

/-- Component `j` of a fit with eleven observations is at `j`. -/
def elevenAtoms (p : ℕ) : ℚ := (p - 12 : ℕ)

/-- Eleven observations in eleven groups: the clustering returns and the figure cannot be drawn. -/
example : pairplot (plotWorld elevenAtoms) (plotFit elevenAtoms 11 [0, 1, 2, 3, 4, 5, 6, 7, 8, 9, 10]) = .error .indexError := by
  have hc : ∃ unc, mapCluster (plotWorld elevenAtoms) (plotFit elevenAtoms 11 [0, 1, 2, 3, 4, 5, 6, 7, 8, 9, 10]) none = .ok ([0, 1, 2, 3, 4, 5, 6, 7, 8, 9, 10], unc) :=
    ⟨List.replicate 11 (2 / 3), by decide +kernel⟩
  obtain ⟨unc, hc⟩ := hc
  exact C100_eleven_refuted (by decide +kernel) hc le_rfl (by decide)

/-- One column: the object of `GibbsDemo`. -/
example : ∃ s : GM (Equal.cls : WeightClass ℚ) 1 ℚ, s = (fitGibbs world (rows1 [0, 1, 5, 6]) .none false .kmeans demo (eqObj 2 6 1 2, 0)).2.1 ∧ pairplot world s = .error .typeError := by
  refine ⟨_, rfl, ?_⟩
  decide +kernel

/-- Two groups, two columns: drawn. -/
example : ∃ fig, pairplot (plotWorld gapAtoms) (plotFit gapAtoms 2 [0, 7, 7]) = .ok fig :=
  (C100_iff (by decide +kernel) (show mapCluster (plotWorld gapAtoms) (plotFit gapAtoms 2 [0, 7, 7]) none = .ok ([0, 1, 1], [1/6, 1/6, 1/6]) by decide +kernel)).2 ⟨le_rfl, by decide⟩

end Verif.Mix
