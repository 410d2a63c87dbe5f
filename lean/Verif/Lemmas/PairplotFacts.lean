import Verif.Model.Results
import Verif.Props.C49

/-! # What `gibbs_map_pairplot` draws -/

set_option linter.unusedSectionVars false

namespace Verif.Mix
namespace GM
variable {K : Type} [Field K] [LinearOrder K] [IsStrictOrderedRing K] {m : ℕ} {C : WeightClass K} {Atom : Type} {W : World K m Atom} {s : GM C m Atom} {p : RunParams K Atom}

theorem clusterRows_atoms {Obs : Type} {pdf : Obs → Atom → K} {xs : List Obs} {theta : List (ℕ × Atom)} {js : List ℕ} {r : List (List K)} (h : clusterRows pdf xs theta js = .ok r) :
    ∀ j ∈ js, (theta.lookup j).isSome := by
  induction js generalizing r with
  | nil => simp
  | cons j js ih =>
    rw [clusterRows] at h
    cases ha : theta.lookup j with
    | none => rw [ha] at h; cases h
    | some a =>
      rw [ha] at h
      simp only at h
      cases hr : clusterRows pdf xs theta js with
      | error e => rw [hr] at h; cases h
      | ok rs =>
        intro i hi
        rcases List.mem_cons.1 hi with rfl | hi
        · rw [ha]; rfl
        · exact ih hr i hi

/-- What is known when `gibbs_map_cluster()` returns. -/
theorem mapCluster_facts {lab : List ℕ} {unc : List K} (hy : s.y ≠ []) (h : mapCluster W s none = .ok (lab, unc)) :
    ∃ p, s.mapParams = some p ∧ s.gibbsFitted = true ∧ HasAtoms p.theta p.w.length ∧ p.w ≠ [] ∧ 2 ≤ s.y.length ∧ cluster (W.pdf .none) s.y p.w p.theta = .ok (lab, unc) := by
  unfold mapCluster at h
  split at h
  · cases h
  · rename_i hf
    simp only [queryRows] at h
    cases hp : s.mapParams with
    | none => rw [hp] at h; cases h
    | some p =>
      rw [hp] at h
      simp only at h
      refine ⟨p, rfl, by simpa using hf, ?_, ?_, ?_, h⟩
      all_goals unfold cluster at h
      all_goals cases hr : clusterRows (W.pdf .none) s.y p.theta (List.range p.w.length) with
        | error e => rw [hr] at h; cases h
        | ok rows =>
          rw [hr] at h
          simp only at h
          split at h
          · cases h
          · rename_i hc
            push Not at hc
            first
              | exact fun j hj => clusterRows_atoms hr j (List.mem_range.2 hj)
              | exact fun h0 => hc.2 (by rw [h0]; rfl)
              | have := List.length_pos_iff.2 hy; omega

/-- The labels of `gibbs_map_cluster()`: the component of each observation, and the renumbering. -/
structure Renumbered (W : World K m Atom) (s : GM C m Atom) (p : RunParams K Atom) (lab : List ℕ) (best : ℕ → ℕ) : Prop where
  length : lab.length = s.y.length
  isBest : ∀ (i : ℕ) (hi : i < s.y.length), IsArgmax (responsibilities (W.pdf .none) p.w p.theta s.y[i]) (best i)
  order : ∀ i j li lj, lab[i]? = some li → lab[j]? = some lj → (li = lj ↔ best i = best j) ∧ (li < lj ↔ best i < best j)
  mem : ∃ g, ∀ l, l ∈ lab ↔ l < g

theorem renumbered {lab : List ℕ} {unc : List K} (hy : s.y ≠ []) (h : mapCluster W s none = .ok (lab, unc)) (hp : s.mapParams = some p) : ∃ best, Renumbered W s p lab best := by
  obtain ⟨q, hq, _, ht, hw, hn, hc⟩ := mapCluster_facts hy h
  rw [hp] at hq
  cases hq
  obtain ⟨lab', unc', best, h1, h2, _, h4, h5, h6, _⟩ := C49_labels (W.pdf .none) ht hn hw
  rw [h1] at hc
  cases hc
  exact ⟨best, h2, h4, h5, h6⟩

namespace Renumbered
variable {lab : List ℕ} {best : ℕ → ℕ} (R : Renumbered W s p lab best)
include R

theorem best_lt {i : ℕ} (hi : i < s.y.length) : best i < p.w.length := by
  have := (R.isBest i hi).lt
  simpa [responsibilities] using this

/-- Labels do not exceed the components they stand for. -/
theorem le_best {i l : ℕ} (h : lab[i]? = some l) : l ≤ best i := by
  induction l using Nat.strong_induction_on generalizing i with
  | _ l ih =>
    rcases Nat.eq_zero_or_pos l with rfl | hl
    · exact Nat.zero_le _
    · obtain ⟨g, hg⟩ := R.mem
      have hlg : l < g := (hg l).1 (List.mem_of_getElem? h)
      obtain ⟨i', hi'⟩ := List.mem_iff_getElem?.1 ((hg (l - 1)).2 (by omega))
      have h1 := ih (l - 1) (by omega) hi'
      have h2 := (R.order i' i _ _ hi' h).2.1 (by omega)
      omega

theorem index_lt {i l : ℕ} (h : lab[i]? = some l) : i < s.y.length := by
  rw [← R.length]
  exact (List.getElem?_eq_some_iff.1 h).1

theorem lt_weights {l : ℕ} (h : l ∈ lab) : l < p.w.length := by
  obtain ⟨i, hi⟩ := List.mem_iff_getElem?.1 h
  exact (R.le_best hi).trans_lt (R.best_lt (R.index_lt hi))

/-- No observation was renumbered iff the components in use are an initial segment. -/
theorem kept_iff : (∀ i l, lab[i]? = some l → l = best i) ↔ ∀ i < s.y.length, ∀ c < best i, ∃ i' < s.y.length, best i' = c := by
  have get : ∀ i < s.y.length, ∃ l, lab[i]? = some l := fun i hi => ⟨_, List.getElem?_eq_getElem (by rw [R.length]; exact hi)⟩
  constructor
  · intro h i hi c hc
    obtain ⟨l, hl⟩ := get i hi
    obtain ⟨g, hg⟩ := R.mem
    have h1 := (hg l).1 (List.mem_of_getElem? hl)
    rw [h i l hl] at h1
    obtain ⟨i', hi'⟩ := List.mem_iff_getElem?.1 ((hg c).2 (by omega))
    exact ⟨i', R.index_lt hi', (h i' c hi').symm⟩
  · intro h
    have key : ∀ b i l, lab[i]? = some l → best i = b → b ≤ l := by
      intro b
      induction b with
      | zero => intros; exact Nat.zero_le _
      | succ b ih =>
        intro i l hl hb
        obtain ⟨i', hi', hb'⟩ := h i (R.index_lt hl) b (by omega)
        obtain ⟨l', hl'⟩ := get i' hi'
        have h1 := ih i' l' hl' hb'
        have h2 := (R.order i' i _ _ hl' hl).2.2 (by omega)
        omega
    exact fun i l hl => le_antisymm (R.le_best hl) (key _ i l hl rfl)

/-- The distinct labels in order. -/
theorem unique_eq {g : ℕ} (hg : ∀ l, l ∈ lab ↔ l < g) : npUnique lab = List.range g := by
  refine List.Pairwise.eq_of_mem_iff (r := (· < ·)) (npUnique_sorted lab) List.pairwise_lt_range fun l => ?_
  rw [mem_npUnique, hg, List.mem_range]

theorem groups_pos {g : ℕ} (hg : ∀ l, l ∈ lab ↔ l < g) (hn : 2 ≤ s.y.length) : 0 < g := by
  have : 0 < lab.length := by rw [R.length]; omega
  exact (Nat.zero_le _).trans_lt ((hg _).1 (List.getElem_mem this))

theorem max_eq {g : ℕ} (hg : ∀ l, l ∈ lab ↔ l < g) (hn : 2 ≤ s.y.length) : lab.foldl max 0 = g - 1 := by
  have hp := R.groups_pos hg hn
  have h1 := (le_foldl_max lab 0).2 (g - 1) ((hg _).2 (by omega))
  have h2 : ∀ (l : List ℕ) c b, c ≤ b → (∀ x ∈ l, x ≤ b) → l.foldl max c ≤ b := by
    intro l
    induction l with
    | nil => exact fun c b h _ => h
    | cons x l ih => exact fun c b h h' => ih _ b (max_le h (h' x (by simp))) fun y hy => h' y (by simp [hy])
  exact le_antisymm (h2 lab 0 _ (Nat.zero_le _) fun x hx => by have := (hg x).1 hx; omega) h1

/-- The length of the colour table. -/
theorem colourCount_eq {g : ℕ} (hg : ∀ l, l ∈ lab ↔ l < g) (hn : 2 ≤ s.y.length) : colourCount lab = if 12 ≤ g then g + 1 else 10 := by
  unfold colourCount
  rw [R.max_eq hg hn, R.unique_eq hg, List.length_range]
  by_cases h : 12 ≤ g
  · rw [if_pos h, if_pos (by omega)]
  · rw [if_neg h, if_neg (by omega)]
end Renumbered

/-- The curve of component `j` in the panel of coordinate `it`. -/
def part (W : World K m Atom) (s : GM C m Atom) (p : RunParams K Atom) (it : Fin m) (j : ℕ) : List K :=
  (plotRange s.y it).map (fun t => weighted (W.pdf (.int it)) p.w p.theta (fun _ => t) j)

section
variable (hf : s.gibbsFitted = true) (hp : s.mapParams = some p) (ht : HasAtoms p.theta p.w.length)
include hf hp ht

theorem mapDensity_part (it : Fin m) {j : ℕ} (hj : j < p.w.length) : mapDensity W s (some (rangeRows s.y it)) (.int it) (some j) = .ok (part W s p it j) := by
  unfold mapDensity
  rw [if_neg (by rw [hf]; simp)]
  simp only [rangeRows, queryRows, hp]
  rw [C48_component W.pdf _ ht (by simp) hj]
  unfold part
  rw [List.map_map]
  rfl

theorem mapDensity_line (hw : p.w ≠ []) (it : Fin m) :
    mapDensity W s (some (rangeRows s.y it)) (.int it) none = .ok ((plotRange s.y it).map (fun t => ((List.range p.w.length).map (weighted (W.pdf (.int it)) p.w p.theta (fun _ => t))).sum)) := by
  unfold mapDensity
  rw [if_neg (by rw [hf]; simp)]
  simp only [rangeRows, queryRows, hp]
  rw [C48_total W.pdf _ hw ht (by simp), List.map_map]
  rfl

theorem colouredCurves_ok (it : Fin m) {n : ℕ} {js : List ℕ} (hj : ∀ j ∈ js, j < p.w.length ∧ j < n) :
    colouredCurves W s n it js = .ok (js.map fun j => ⟨j, .tab j, part W s p it j⟩) := by
  induction js with
  | nil => rfl
  | cons j js ih =>
    obtain ⟨h1, h2⟩ := hj j (by simp)
    rw [colouredCurves, mapDensity_part hf hp ht it h1, ih fun i hi => hj i (by simp [hi])]
    simp only
    rw [if_neg (by omega)]
    rfl

theorem colouredCurves_error (it : Fin m) {n : ℕ} {js : List ℕ} (hj : ∀ j ∈ js, j < p.w.length) (hx : ∃ j ∈ js, n ≤ j) : colouredCurves W s n it js = .error .indexError := by
  induction js with
  | nil => simp at hx
  | cons j js ih =>
    rw [colouredCurves, mapDensity_part hf hp ht it (hj j (by simp))]
    simp only
    by_cases h : n ≤ j
    · rw [if_pos h]
    · obtain ⟨i, hi, hn⟩ := hx
      rcases List.mem_cons.1 hi with rfl | hi
      · exact absurd hn h
      · rw [if_neg h, ih (fun i hi => hj i (by simp [hi])) ⟨i, hi, hn⟩]

theorem blackCurves_ok (it : Fin m) (grp : List ℕ) {js : List ℕ} (hj : ∀ j ∈ js, j < p.w.length) :
    blackCurves W s grp it js = .ok ((js.filter fun j => decide (j ∉ grp ∧ ∃ x ∈ part W s p it j, 1 / 10000 < x)).map fun j => ⟨j, .black, part W s p it j⟩) := by
  induction js with
  | nil => rfl
  | cons j js ih =>
    rw [blackCurves]
    by_cases h : j ∈ grp
    · rw [if_pos h, ih fun i hi => hj i (by simp [hi]), List.filter_cons_of_neg (by simp [h])]
    · rw [if_neg h, mapDensity_part hf hp ht it (hj j (by simp)), ih fun i hi => hj i (by simp [hi])]
      simp only
      by_cases hb : ∃ x ∈ part W s p it j, 1 / 10000 < x
      · rw [if_pos (by simpa using hb), List.filter_cons_of_pos (by simpa [h] using hb)]
        rfl
      · rw [if_neg (by simpa using hb), List.filter_cons_of_neg (by simp only [decide_eq_true_eq]; exact fun hc => hb hc.2)]

theorem ellipses_ok {n : ℕ} {js : List ℕ} (hj : ∀ j ∈ js, j < p.w.length ∧ j < n) : ellipses p.theta n js = .ok (js.map fun j => (j, j)) := by
  induction js with
  | nil => rfl
  | cons j js ih =>
    obtain ⟨h1, h2⟩ := hj j (by simp)
    obtain ⟨a, ha⟩ := Option.isSome_iff_exists.1 (ht j h1)
    rw [ellipses, ha, ih fun i hi => hj i (by simp [hi])]
    simp only
    rw [if_neg (by omega)]
    rfl
end

/-- The panel at the place `q`, when the groups are `0, .., g - 1`. -/
def panelAt (W : World K m Atom) (s : GM C m Atom) (p : RunParams K Atom) (lab : List ℕ) (g : ℕ) (q : Fin m × Fin m) : Panel K :=
  if q.1 = q.2 then
    .diagonal ((List.range g).map (fun j => ⟨j, .tab j, part W s p q.1 j⟩) ++
        ((List.range p.w.length).filter fun j => decide (j ∉ lab ∧ ∃ x ∈ part W s p q.1 j, 1 / 10000 < x)).map fun j => ⟨j, .black, part W s p q.1 j⟩)
      ((plotRange s.y q.1).map (fun t => ((List.range p.w.length).map (weighted (W.pdf (.int q.1)) p.w p.theta (fun _ => t))).sum))
  else .scatter lab ((List.range g).map fun j => (j, j))

theorem pairplot_ok {lab : List ℕ} {unc : List K} {g : ℕ} (hy : s.y ≠ []) (h : mapCluster W s none = .ok (lab, unc)) (hp : s.mapParams = some p) (hg : ∀ l, l ∈ lab ↔ l < g) (hm : 2 ≤ m)
    (h11 : g ≠ 11) : pairplot W s = .ok ((places m).map fun q => (q, panelAt W s p lab g q)) := by
  obtain ⟨q, hq, hf, ht, hw, hn, hc⟩ := mapCluster_facts hy h
  rw [hp] at hq
  cases hq
  obtain ⟨best, R⟩ := renumbered hy h hp
  have hcc := R.colourCount_eq hg hn
  have hu := R.unique_eq hg
  have hlt : ∀ j ∈ List.range g, j < p.w.length ∧ j < colourCount lab := by
    intro j hj
    have hj' := List.mem_range.1 hj
    refine ⟨R.lt_weights ((hg j).2 hj'), ?_⟩
    rw [hcc]
    split <;> omega
  have key : ∀ qs, panels W s p lab qs = .ok (qs.map fun q => (q, panelAt W s p lab g q)) := by
    intro qs
    induction qs with
    | nil => rfl
    | cons q qs ih =>
      have e : (if q.1 = q.2 then diagonalPanel W s p lab q.1 else scatterPanel p lab) = Except.ok (panelAt W s p lab g q) := by
        unfold panelAt
        by_cases hd : q.1 = q.2
        · rw [if_pos hd, if_pos hd]
          unfold diagonalPanel
          rw [hu, colouredCurves_ok hf hp ht q.1 hlt, blackCurves_ok hf hp ht q.1 lab fun j hj => List.mem_range.1 hj, mapDensity_line hf hp ht hw]
        · rw [if_neg hd, if_neg hd]
          unfold scatterPanel
          rw [if_neg, hu, ellipses_ok hf hp ht hlt]
          simp only [List.any_eq_true, decide_eq_true_eq, not_exists, not_and, not_le]
          exact fun l hl => (hlt l (List.mem_range.2 ((hg l).1 hl))).2
      rw [panels, e, ih]
      rfl
  unfold pairplot
  rw [if_neg hy, h]
  simp only
  rw [if_neg (by omega), if_neg (by omega), hp]
  exact key _

theorem pairplot_eleven {lab : List ℕ} {unc : List K} (hy : s.y ≠ []) (h : mapCluster W s none = .ok (lab, unc)) (hg : ∀ l, l ∈ lab ↔ l < 11) (hm : 2 ≤ m) :
    pairplot W s = .error .indexError := by
  obtain ⟨p, hp, hf, ht, hw, hn, hc⟩ := mapCluster_facts hy h
  obtain ⟨best, R⟩ := renumbered hy h hp
  have hcc := R.colourCount_eq hg hn
  have hu := R.unique_eq hg
  unfold pairplot
  rw [if_neg hy, h]
  simp only
  rw [if_neg (by omega), if_neg (by omega), hp]
  simp only
  obtain ⟨m, rfl⟩ : ∃ k, m = k + 1 := ⟨m - 1, by omega⟩
  have hpl : ∃ t, places (m + 1) = (0, 0) :: t := by
    unfold places
    rw [List.finRange_succ]
    exact ⟨_, rfl⟩
  obtain ⟨t, ht'⟩ := hpl
  rw [ht', panels, if_pos rfl, diagonalPanel, hu, hcc, colouredCurves_error hf hp ht 0 (fun j hj => R.lt_weights ((hg j).2 (List.mem_range.1 hj))) ⟨10, by simp, by simp⟩]
end GM
end Verif.Mix
