import Verif.Lemmas.PairplotDemo

/-!
# C99: in the pair plot observations have the colour of their own component

`gibbs_map_pairplot()` colours the observations by `gibbs_map_cluster()` and draws, in every panel, density curves or ellipses of components in colours.  The claim: the curve and the ellipse in the
colour of an observation are those of the component the observation belongs to.  **False** (`C99_refuted`): the labels of `gibbs_map_cluster()` are renumbered (C49), the components are not, so
that colour `c` always shows component `c` (`C99_shown`) while the points in colour `c` belong to the `c`-th component *in use*.  `C99_iff`: the colours are right exactly when the components in use are
`0, 1, .., g - 1` without a gap; `C99_partial` is that case.
-/

set_option linter.unusedSectionVars false

namespace Verif.Mix
open GM
variable {K : Type} [Field K] [LinearOrder K] [IsStrictOrderedRing K] {m : ℕ} {C : WeightClass K} {Atom : Type} {W : World K m Atom} {s : GM C m Atom}

/-- The panel shows component `j` (its curve or its ellipse) in colour `c`. -/
def GM.Panel.Shows (x : Panel K) (c j : ℕ) : Prop :=
  match x with
  | .diagonal curves _ => ∃ k ∈ curves, k.paint = .tab c ∧ k.component = j
  | .scatter _ ellipses => (j, c) ∈ ellipses

/-- Component `j` is the most probable one for point `x` (the lowest on ties) in the state of the best likelihood. -/
def BestFor (W : World K m Atom) (s : GM C m Atom) (x : Fin m → K) (j : ℕ) : Prop := ∃ p, s.mapParams = some p ∧ IsArgmax (responsibilities (W.pdf .none) p.w p.theta x) j

theorem panelAt_shows (p : RunParams K Atom) {lab : List ℕ} {g : ℕ} (hg : ∀ l, l ∈ lab ↔ l < g) (q : Fin m × Fin m) (c j : ℕ) : (panelAt W s p lab g q).Shows c j ↔ j = c ∧ c ∈ lab := by
  unfold panelAt Panel.Shows
  split
  · rename_i curves line h
    split at h
    · cases h
      rw [hg]
      simp only [List.mem_append, List.mem_map, List.mem_range]
      constructor
      · rintro ⟨k, ⟨i, hi, rfl⟩ | ⟨i, hi, rfl⟩, h1, h2⟩
        · cases h1
          exact ⟨h2.symm, hi⟩
        · cases h1
      · rintro ⟨rfl, h⟩
        exact ⟨_, .inl ⟨j, h, rfl⟩, rfl, rfl⟩
    · cases h
  · rename_i pts es h
    split at h
    · cases h
    · cases h
      rw [hg]
      simp only [List.mem_map, List.mem_range, Prod.mk.injEq]
      constructor
      · rintro ⟨i, hi, rfl, rfl⟩
        exact ⟨rfl, hi⟩
      · rintro ⟨rfl, h⟩
        exact ⟨j, h, rfl, rfl⟩

theorem pairplot_panels {fig : List ((Fin m × Fin m) × Panel K)} (h : pairplot W s = .ok fig) :
    ∃ lab unc p g, mapCluster W s none = .ok (lab, unc) ∧ s.mapParams = some p ∧ s.y ≠ [] ∧ (∀ l, l ∈ lab ↔ l < g) ∧ g ≠ 11 ∧ 2 ≤ m ∧ fig = (places m).map fun q => (q, panelAt W s p lab g q) := by
  have hy : s.y ≠ [] := by
    intro hy
    unfold pairplot at h
    rw [if_pos hy] at h
    cases h
  cases hc : mapCluster W s none with
  | error e =>
    unfold pairplot at h
    rw [if_neg hy, hc] at h
    cases h
  | ok r =>
    obtain ⟨lab, unc⟩ := r
    obtain ⟨p, hp, _⟩ := mapCluster_facts hy hc
    obtain ⟨best, R⟩ := renumbered hy hc hp
    obtain ⟨g, hg⟩ := R.mem
    have hm : 2 ≤ m := by
      unfold pairplot at h
      rw [if_neg hy, hc] at h
      simp only at h
      by_contra hm
      by_cases h0 : m = 0
      · rw [if_pos h0] at h
        cases h
      · rw [if_neg h0, if_pos (by omega)] at h
        cases h
    have h11 : g ≠ 11 := by
      rintro rfl
      rw [pairplot_eleven hy hc hg hm] at h
      cases h
    rw [pairplot_ok hy hc hp hg hm h11] at h
    cases h
    exact ⟨lab, unc, p, g, rfl, hp, hy, hg, h11, hm, rfl⟩

/-- **What is shown**: in every panel of a figure, colour `c` shows component `c`, for every colour in use, and nothing else. -/
theorem C99_shown {fig : List ((Fin m × Fin m) × Panel K)} (h : pairplot W s = .ok fig) :
    ∃ lab unc, mapCluster W s none = .ok (lab, unc) ∧ (∀ q, ∃ x, (q, x) ∈ fig) ∧ (∀ q pts es, (q, Panel.scatter pts es) ∈ fig → pts = lab) ∧ ∀ q x, (q, x) ∈ fig → ∀ c j, x.Shows c j ↔ j = c ∧ c ∈ lab := by
  obtain ⟨lab, unc, p, g, hc, hp, hy, hg, h11, hm, rfl⟩ := pairplot_panels h
  refine ⟨lab, unc, hc, fun q => ⟨_, List.mem_map.2 ⟨q, ?_, rfl⟩⟩, ?_, ?_⟩
  · unfold places
    simp only [List.mem_flatMap, List.mem_map, List.mem_finRange, true_and]
    exact ⟨q.1, q.2, rfl⟩
  · intro q pts es hx
    obtain ⟨q', _, he⟩ := List.mem_map.1 hx
    rw [Prod.mk.injEq] at he
    obtain ⟨rfl, he⟩ := he
    unfold panelAt at he
    split at he
    · cases he
    · cases he
      rfl
  · intro q x hx c j
    obtain ⟨q', _, he⟩ := List.mem_map.1 hx
    rw [Prod.mk.injEq] at he
    obtain ⟨rfl, rfl⟩ := he
    exact panelAt_shows p hg q' c j

/-- **When the colours are right**: every observation is drawn in the colour in which its own component is shown, in all panels, iff the components in use have no gap. -/
theorem C99_iff {fig : List ((Fin m × Fin m) × Panel K)} (h : pairplot W s = .ok fig) {lab : List ℕ} {unc : List K} (hc : mapCluster W s none = .ok (lab, unc)) :
    (∀ (i : ℕ) (hi : i < s.y.length) (l j : ℕ), lab[i]? = some l → BestFor W s s.y[i] j → ∀ q x, (q, x) ∈ fig → x.Shows l j) ↔
      ∀ (i : ℕ) (hi : i < s.y.length) (j : ℕ), BestFor W s s.y[i] j → ∀ c < j, ∃ (i' : ℕ) (hi' : i' < s.y.length), BestFor W s s.y[i'] c := by
  obtain ⟨lab', unc', p, g, hc', hp, hy, hg, h11, hm, rfl⟩ := pairplot_panels h
  rw [hc] at hc'
  cases hc'
  obtain ⟨best, R⟩ := renumbered hy hc hp
  have hb : ∀ (i : ℕ) (hi : i < s.y.length) (j : ℕ), BestFor W s s.y[i] j ↔ j = best i := by
    intro i hi j
    constructor
    · rintro ⟨p', hp', ha⟩
      rw [hp] at hp'
      cases hp'
      exact ha.unique (R.isBest i hi)
    · rintro rfl
      exact ⟨p, hp, R.isBest i hi⟩
  have h1 : (∀ (i : ℕ) (hi : i < s.y.length) (l j : ℕ), lab[i]? = some l → BestFor W s s.y[i] j → ∀ q x, (q, x) ∈ ((places m).map fun q => (q, panelAt W s p lab g q)) → x.Shows l j) ↔
      ∀ i l, lab[i]? = some l → l = best i := by
    constructor
    · intro H i l hl
      have hi := R.index_lt hl
      have hq : ((⟨0, by omega⟩, ⟨0, by omega⟩) : Fin m × Fin m) ∈ places m := by
        unfold places
        simp only [List.mem_flatMap, List.mem_map, List.mem_finRange, true_and]
        exact ⟨_, _, rfl⟩
      have := H i hi l (best i) hl ((hb i hi _).2 rfl) _ _ (List.mem_map.2 ⟨_, hq, rfl⟩)
      exact ((panelAt_shows p hg _ _ _).1 this).1.symm
    · intro H i hi l j hl hj q x hx
      obtain ⟨q', _, he⟩ := List.mem_map.1 hx
      rw [Prod.mk.injEq] at he
      obtain ⟨rfl, rfl⟩ := he
      rw [panelAt_shows p hg, (hb i hi j).1 hj, H i l hl]
      exact ⟨rfl, by rw [← H i l hl]; exact List.mem_of_getElem? hl⟩
  rw [h1, R.kept_iff]
  constructor
  · intro H i hi j hj c hc
    obtain ⟨i', hi', rfl⟩ := H i hi c (by rw [← (hb i hi j).1 hj]; exact hc)
    exact ⟨i', hi', (hb i' hi' _).2 rfl⟩
  · intro H i hi c hc
    obtain ⟨i', hi', hb'⟩ := H i hi _ ((hb i hi _).2 rfl) c hc
    exact ⟨i', hi', ((hb i' hi' c).1 hb').symm⟩

/-- The claim where it holds: the components in use have no gap. What is missing is the other case, see `C99_refuted`. -/
theorem C99_partial {fig : List ((Fin m × Fin m) × Panel K)} (h : pairplot W s = .ok fig) {lab : List ℕ} {unc : List K} (hc : mapCluster W s none = .ok (lab, unc))
    (hgap : ∀ (i : ℕ) (hi : i < s.y.length) (j : ℕ), BestFor W s s.y[i] j → ∀ c < j, ∃ (i' : ℕ) (hi' : i' < s.y.length), BestFor W s s.y[i'] c)
    {i : ℕ} (hi : i < s.y.length) {l j : ℕ} (hl : lab[i]? = some l) (hj : BestFor W s s.y[i] j) {q : Fin m × Fin m} {x : Panel K} (hx : (q, x) ∈ fig) : x.Shows l j :=
  (C99_iff h hc).2 hgap i hi l j hl hj q x hx

/-- The atoms of the counterexample. -/
def gapAtoms (p : ℕ) : ℚ := if p = 5 then 7 else 0

/-- **A fit whose figure is wrong**: three observations at `(7, 7)`, two equal components, the first at `0` and the second at `7`.  All observations belong to component `1`, and are drawn in colour
`0`, in which every panel shows component `0`; component `1` is drawn in no colour. -/
theorem C99_refuted : ∃ fig, pairplot (plotWorld gapAtoms) (plotFit gapAtoms 2 [7, 7, 7]) = .ok fig ∧ (∃ unc, mapCluster (plotWorld gapAtoms) (plotFit gapAtoms 2 [7, 7, 7]) none = .ok ([0, 0, 0], unc)) ∧
    (∀ x ∈ (plotFit gapAtoms 2 [7, 7, 7]).y, BestFor (plotWorld gapAtoms) (plotFit gapAtoms 2 [7, 7, 7]) x 1) ∧ ∀ q x, (q, x) ∈ fig → x.Shows 0 0 ∧ ∀ c, ¬ x.Shows c 1 := by
  have hc : mapCluster (plotWorld gapAtoms) (plotFit gapAtoms 2 [7, 7, 7]) none = .ok ([0, 0, 0], [1/6, 1/6, 1/6]) := by decide +kernel
  have hy : (plotFit gapAtoms 2 [7, 7, 7]).y ≠ [] := by decide +kernel
  obtain ⟨p, hp, _⟩ := mapCluster_facts hy hc
  have hg : ∀ l, l ∈ [0, 0, 0] ↔ l < 1 := by simp
  have h := pairplot_ok hy hc hp hg le_rfl (by norm_num)
  refine ⟨_, h, ⟨_, hc⟩, ?_, ?_⟩
  · have h1 : ∀ x ∈ (plotFit gapAtoms 2 [7, 7, 7]).y, ((plotFit gapAtoms 2 [7, 7, 7]).mapParams.map fun p => Py.argmax (responsibilities ((plotWorld gapAtoms).pdf .none) p.w p.theta x)) = some (.ok 1) := by
      decide +kernel
    intro x hx
    have h2 := h1 x hx
    rw [hp, Option.map_some, Option.some.injEq] at h2
    exact ⟨p, hp, argmax_eq_iff.1 h2⟩
  · intro q x hx
    obtain ⟨q', _, he⟩ := List.mem_map.1 hx
    rw [Prod.mk.injEq] at he
    obtain ⟨rfl, rfl⟩ := he
    simp only [panelAt_shows p hg]
    refine ⟨by simp, fun c => ?_⟩
    rintro ⟨rfl, h⟩
    simp at h

/-! A figure with two groups and no gap: both components are in use. -/
example : ∃ fig, pairplot (plotWorld gapAtoms) (plotFit gapAtoms 2 [0, 7, 7]) = .ok fig ∧ fig.length = 4 ∧ mapCluster (plotWorld gapAtoms) (plotFit gapAtoms 2 [0, 7, 7]) none = .ok ([0, 1, 1], [1/6, 1/6, 1/6]) := by
  have hc : mapCluster (plotWorld gapAtoms) (plotFit gapAtoms 2 [0, 7, 7]) none = .ok ([0, 1, 1], [1/6, 1/6, 1/6]) := by decide +kernel
  have hy : (plotFit gapAtoms 2 [0, 7, 7]).y ≠ [] := by decide +kernel
  obtain ⟨p, hp, _⟩ := mapCluster_facts hy hc
  exact ⟨_, pairplot_ok hy hc hp (g := 2) (by intro l; simp; omega) le_rfl (by norm_num), rfl, hc⟩

end Verif.Mix
