import Verif.Props.C99

/-!
# C102: what the panels of the pair plot contain

For every figure that `gibbs_map_pairplot()` returns: there is one panel for each pair of columns (`C102_places`); a panel off the diagonal has one point for each observation (`C102_points`); in a panel of the diagonal each component of
the best state is drawn exactly once, coloured if it is the label of a group and black otherwise, unless its density is at most `1e-4` on the whole range (`C102_curves`); the curves add up to the black
line, up to `1e-4` for each component left out (`C102_line`); the range covers the data (`C102_range`).  `C102_sharey`: in each row the panels off the diagonal, and no others, are connected
by the calls of `sharey`, and none is told twice to share (matplotlib raises `ValueError` on that).
-/

set_option linter.unusedSectionVars false

namespace Verif.Mix
open GM
variable {K : Type} [Field K] [LinearOrder K] [IsStrictOrderedRing K] {m : ℕ} {C : WeightClass K} {Atom : Type} {W : World K m Atom} {s : GM C m Atom} {fig : List ((Fin m × Fin m) × Panel K)}

theorem mem_places (q : Fin m × Fin m) : q ∈ places m := by
  unfold places
  exact List.mem_flatMap.2 ⟨q.1, List.mem_finRange _, List.mem_map.2 ⟨q.2, List.mem_finRange _, rfl⟩⟩

theorem places_nodup : (places m).Nodup := by
  have : places m = (List.finRange m) ×ˢ (List.finRange m) := rfl
  rw [this]
  exact (List.nodup_finRange m).product (List.nodup_finRange m)

/-- **One panel for each pair of columns**, of the right kind. -/
theorem C102_places (h : pairplot W s = .ok fig) : (fig.map Prod.fst).Nodup ∧ (∀ q, q ∈ fig.map Prod.fst) ∧
    ∀ q x, (q, x) ∈ fig → (q.1 = q.2 ↔ ∃ curves line, x = .diagonal curves line) := by
  obtain ⟨lab, unc, p, g, _, _, _, _, _, _, rfl⟩ := pairplot_panels h
  rw [List.map_map, show (Prod.fst ∘ fun q => (q, panelAt W s p lab g q)) = id from rfl, List.map_id]
  refine ⟨places_nodup, mem_places, ?_⟩
  intro q x hx
  obtain ⟨q', _, he⟩ := List.mem_map.1 hx
  cases he
  unfold panelAt
  constructor
  · intro hd
    rw [if_pos hd]
    exact ⟨_, _, rfl⟩
  · rintro ⟨c, l, he⟩
    by_contra hd
    rw [if_neg hd] at he
    cases he

/-- **One point for each observation**, in the colour of its group. -/
theorem C102_points (h : pairplot W s = .ok fig) {q : Fin m × Fin m} {pts : List ℕ} {es : List (ℕ × ℕ)} (hx : (q, Panel.scatter pts es) ∈ fig) :
    pts.length = s.y.length ∧ ∃ unc, mapCluster W s none = .ok (pts, unc) := by
  obtain ⟨lab, unc, p, g, hc, hp, hy, _, _, _, rfl⟩ := pairplot_panels h
  obtain ⟨best, R⟩ := renumbered hy hc hp
  obtain ⟨q', _, he⟩ := List.mem_map.1 hx
  unfold panelAt at he
  split at he
  · cases he
  · cases he
    exact ⟨R.length, unc, hc⟩

/-- **Each component once**: the components drawn are different and exist, each curve is what `gibbs_map_density` gives for its component, the colour is the label of the group or black if there is no
such group, and a component left out has density at most `1e-4` on the range. -/
theorem C102_curves (h : pairplot W s = .ok fig) {it : Fin m} {curves : List (Curve K)} {line : List K} (hx : ((it, it), Panel.diagonal curves line) ∈ fig) :
    ∃ p lab unc, s.mapParams = some p ∧ mapCluster W s none = .ok (lab, unc) ∧ (curves.map (·.component)).Nodup ∧
      (∀ c ∈ curves, c.component < p.w.length ∧ mapDensity W s (some (rangeRows s.y it)) (.int it) (some c.component) = .ok c.dens ∧ c.paint = if c.component ∈ lab then .tab c.component else .black) ∧
      (∀ j ∈ lab, j ∈ curves.map (·.component)) ∧
      ∀ j < p.w.length, j ∉ curves.map (·.component) → ∃ dens, mapDensity W s (some (rangeRows s.y it)) (.int it) (some j) = .ok dens ∧ ∀ x ∈ dens, x ≤ 1 / 10000 := by
  obtain ⟨lab, unc, p, g, hc, hp, hy, hg, _, _, rfl⟩ := pairplot_panels h
  obtain ⟨p', hp', hf, ht, hw, hn, _⟩ := mapCluster_facts hy hc
  rw [hp] at hp'
  cases hp'
  obtain ⟨best, R⟩ := renumbered hy hc hp
  obtain ⟨q', _, he⟩ := List.mem_map.1 hx
  have hq := congrArg Prod.fst he
  simp only at hq
  subst hq
  have he := congrArg Prod.snd he
  simp only [panelAt, if_true] at he
  cases he
  refine ⟨p, lab, unc, hp, hc, ?_, ?_, ?_, ?_⟩
  · rw [List.map_append, List.map_map, List.map_map]
    have e1 : ((fun c : Curve K => c.component) ∘ fun j => (⟨j, Paint.tab j, part W s p it j⟩ : Curve K)) = id := rfl
    have e2 : ((fun c : Curve K => c.component) ∘ fun j => (⟨j, Paint.black, part W s p it j⟩ : Curve K)) = id := rfl
    rw [e1, e2, List.map_id, List.map_id, List.nodup_append]
    refine ⟨List.nodup_range, List.nodup_range.filter _, ?_⟩
    rintro a ha b hb rfl
    have h1 := (hg a).2 (List.mem_range.1 ha)
    have h2 := (List.mem_filter.1 hb).2
    simp only [decide_eq_true_eq] at h2
    exact h2.1 h1
  · intro c hcm
    rcases List.mem_append.1 hcm with hm | hm
    · obtain ⟨j, hj, rfl⟩ := List.mem_map.1 hm
      have hl := (hg j).2 (List.mem_range.1 hj)
      have hlt := R.lt_weights hl
      exact ⟨hlt, mapDensity_part hf hp ht it hlt, by rw [if_pos hl]⟩
    · obtain ⟨j, hj, rfl⟩ := List.mem_map.1 hm
      obtain ⟨h1, h2⟩ := List.mem_filter.1 hj
      simp only [decide_eq_true_eq] at h2
      have hlt := List.mem_range.1 h1
      exact ⟨hlt, mapDensity_part hf hp ht it hlt, by rw [if_neg h2.1]⟩
  · intro j hj
    exact List.mem_map.2 ⟨_, List.mem_append_left _ (List.mem_map.2 ⟨j, List.mem_range.2 ((hg j).1 hj), rfl⟩), rfl⟩
  · intro j hj hnot
    refine ⟨_, mapDensity_part hf hp ht it hj, ?_⟩
    by_contra hex
    simp only [not_forall, not_le] at hex
    obtain ⟨x, hx1, hx2⟩ := hex
    apply hnot
    by_cases hl : j ∈ lab
    · exact List.mem_map.2 ⟨_, List.mem_append_left _ (List.mem_map.2 ⟨j, List.mem_range.2 ((hg j).1 hl), rfl⟩), rfl⟩
    · refine List.mem_map.2 ⟨_, List.mem_append_right _ (List.mem_map.2 ⟨j, List.mem_filter.2 ⟨List.mem_range.2 hj, ?_⟩, rfl⟩), rfl⟩
      simp only [decide_eq_true_eq]
      exact ⟨hl, x, hx1, hx2⟩

/-- **The line**: it is `gibbs_map_density` on the range, and at each point it exceeds the sum of the curves by the densities of the components left out, so by at most `1e-4` for each of them. -/
theorem C102_line (h : pairplot W s = .ok fig) {it : Fin m} {curves : List (Curve K)} {line : List K} (hx : ((it, it), Panel.diagonal curves line) ∈ fig) :
    ∃ p, s.mapParams = some p ∧ mapDensity W s (some (rangeRows s.y it)) (.int it) none = .ok line ∧ line.length = 100 ∧
      ∀ i < 100, line.getD i 0 ≤ (curves.map (fun c => c.dens.getD i 0)).sum + ((p.w.length - curves.length : ℕ) : K) / 10000 := by
  obtain ⟨p, lab, unc, hp, hc, hnd, hcur, _, hleft⟩ := C102_curves h hx
  obtain ⟨lab', unc', p', g, hc', hp', hy, hg, _, _, rfl⟩ := pairplot_panels h
  rw [hp] at hp'
  cases hp'
  rw [hc] at hc'
  cases hc'
  obtain ⟨p', hp', hf, ht, hw, hn, _⟩ := mapCluster_facts hy hc
  rw [hp] at hp'
  cases hp'
  obtain ⟨q', _, he⟩ := List.mem_map.1 hx
  have hq := congrArg Prod.fst he
  simp only at hq
  subst hq
  have he := congrArg Prod.snd he
  simp only [panelAt, if_true, Panel.diagonal.injEq] at he
  obtain ⟨_, hline⟩ := he
  have hlen : (plotRange s.y it).length = 100 := by simp [plotRange, linspace]
  refine ⟨p, hp, by rw [← hline]; exact mapDensity_line hf hp ht hw it, by rw [← hline, List.length_map, hlen], ?_⟩
  intro i hi
  -- the line at `i` is the sum over all components
  have hdens : ∀ j < p.w.length, ∀ dens, mapDensity W s (some (rangeRows s.y it)) (.int it) (some j) = .ok dens →
      dens.getD i 0 = weighted (W.pdf (.int it)) p.w p.theta (fun _ => (plotRange s.y it)[i]'(by rw [hlen]; exact hi)) j ∧ (weighted (W.pdf (.int it)) p.w p.theta (fun _ => (plotRange s.y it)[i]'(by rw [hlen]; exact hi)) j ∈ dens) := by
    intro j hj dens hd
    rw [mapDensity_part hf hp ht it hj] at hd
    cases hd
    constructor
    · rw [List.getD_eq_getElem?_getD, part, List.getElem?_map, List.getElem?_eq_getElem (by rw [hlen]; exact hi)]
      rfl
    · exact List.mem_map.2 ⟨_, List.getElem_mem _, rfl⟩
  set f := weighted (W.pdf (.int it)) p.w p.theta (fun _ => (plotRange s.y it)[i]'(by rw [hlen]; exact hi)) with hfdef
  have hl : line.getD i 0 = ∑ j ∈ Finset.range p.w.length, f j := by
    rw [← hline, List.getD_eq_getElem?_getD, List.getElem?_map, List.getElem?_eq_getElem (by rw [hlen]; exact hi)]
    rfl
  set S := (curves.map (·.component)).toFinset with hS
  have hsub : S ⊆ Finset.range p.w.length := by
    intro j hj
    obtain ⟨c, hc1, rfl⟩ := List.mem_map.1 (List.mem_toFinset.1 hj)
    exact Finset.mem_range.2 (hcur c hc1).1
  have hsum : (curves.map (fun c => c.dens.getD i 0)).sum = ∑ j ∈ S, f j := by
    rw [hS, List.sum_toFinset _ hnd, List.map_map]
    congr 1
    refine List.map_congr_left fun c hc1 => ?_
    obtain ⟨h1, h2, _⟩ := hcur c hc1
    exact (hdens _ h1 _ h2).1
  have hcard : (Finset.range p.w.length \ S).card = p.w.length - curves.length := by
    rw [Finset.card_sdiff_of_subset hsub, Finset.card_range, hS, List.toFinset_card_of_nodup hnd, List.length_map]
  rw [hl, hsum, ← Finset.sum_sdiff hsub, add_comm]
  refine add_le_add_right ?_ _
  calc ∑ j ∈ Finset.range p.w.length \ S, f j ≤ ∑ j ∈ Finset.range p.w.length \ S, (1 / 10000 : K) := by
        refine Finset.sum_le_sum fun j hj => ?_
        obtain ⟨h1, h2⟩ := Finset.mem_sdiff.1 hj
        obtain ⟨dens, hd, hle⟩ := hleft j (Finset.mem_range.1 h1) fun hm => h2 (List.mem_toFinset.2 hm)
        exact hle _ (hdens j (Finset.mem_range.1 h1) dens hd).2
    _ = ((p.w.length - curves.length : ℕ) : K) / 10000 := by
        rw [Finset.sum_const, hcard, nsmul_eq_mul, mul_one_div]

theorem foldl_min_leK : ∀ (xs : List K) (a : K), xs.foldl min a ≤ a ∧ ∀ x ∈ xs, xs.foldl min a ≤ x
  | [], a => ⟨le_rfl, by simp⟩
  | y :: ys, a => by
    obtain ⟨h1, h2⟩ := foldl_min_leK ys (min a y)
    refine ⟨h1.trans (min_le_left _ _), fun x hx => ?_⟩
    rcases List.mem_cons.1 hx with rfl | hx
    · exact h1.trans (min_le_right _ _)
    · exact h2 x hx

theorem le_foldl_maxK : ∀ (xs : List K) (a : K), a ≤ xs.foldl max a ∧ ∀ x ∈ xs, x ≤ xs.foldl max a
  | [], a => ⟨le_rfl, by simp⟩
  | y :: ys, a => by
    obtain ⟨h1, h2⟩ := le_foldl_maxK ys (max a y)
    refine ⟨(le_max_left _ _).trans h1, fun x hx => ?_⟩
    rcases List.mem_cons.1 hx with rfl | hx
    · exact (le_max_right _ _).trans h1
    · exact h2 x hx

/-- **The range**: one hundred points in increasing order, the first and the last of them on either side of every observation, at a quarter of the distance between extremes or more. -/
theorem C102_range {y : List (Fin m → K)} (it : Fin m) : (plotRange y it).length = 100 ∧ (plotRange y it).Pairwise (· ≤ ·) ∧
    ∀ r ∈ y, ∀ r' ∈ y, (plotRange y it).getD 0 0 ≤ r it - (r' it - r it) / 4 ∧ r it + (r it - r' it) / 4 ≤ (plotRange y it).getD 99 0 := by
  have hb : ∀ r ∈ y, colMin y it ≤ r it ∧ r it ≤ colMax y it := by
    intro r hr
    unfold colMin colMax
    cases y with
    | nil => simp at hr
    | cons z zs =>
      simp only [List.map_cons]
      rcases List.mem_cons.1 hr with rfl | hr
      · exact ⟨(foldl_min_leK _ _).1, (le_foldl_maxK _ _).1⟩
      · exact ⟨(foldl_min_leK _ _).2 _ (List.mem_map.2 ⟨r, hr, rfl⟩), (le_foldl_maxK _ _).2 _ (List.mem_map.2 ⟨r, hr, rfl⟩)⟩
  have hle : colMin y it ≤ colMax y it := by
    cases y with
    | nil => exact le_rfl
    | cons z zs => exact (hb z (by simp)).1.trans (hb z (by simp)).2
  refine ⟨by simp [plotRange, linspace], ?_, ?_⟩
  · unfold plotRange linspace
    refine List.pairwise_map.2 (List.Pairwise.imp ?_ List.pairwise_lt_range)
    intro a b hab
    have : (a : K) ≤ b := by exact_mod_cast hab.le
    refine add_le_add_right (mul_le_mul_of_nonneg_right this (div_nonneg ?_ ?_)) _
    · linarith
    · norm_num
  · intro r hr r' hr'
    obtain ⟨h1, h2⟩ := hb r hr
    obtain ⟨h3, h4⟩ := hb r' hr'
    have e0 : (plotRange y it).getD 0 0 = colMin y it - (colMax y it - colMin y it) / 4 := by
      simp [plotRange, linspace, List.getD_eq_getElem?_getD]
    have e99 : (plotRange y it).getD 99 0 = colMax y it + (colMax y it - colMin y it) / 4 := by
      simp only [plotRange, linspace, List.getD_eq_getElem?_getD, List.getElem?_map, List.getElem?_range (show 99 < 100 by norm_num), Option.map_some, Option.getD_some]
      push_cast
      field_simp
      ring
    rw [e0, e99]
    constructor <;> linarith

theorem mem_shareCalls {n it a b : ℕ} : (a, b) ∈ shareCalls n it ↔ a < n - 1 ∧ it ≠ a ∧ b = (if it = a + 1 then a + 1 + 1 else a + 1) ∧ b ≠ n := by
  unfold shareCalls
  simp only [List.mem_filterMap, List.mem_range]
  constructor
  · rintro ⟨c, hc, h⟩
    by_cases h1 : it = c
    · rw [if_pos h1] at h
      cases h
    · rw [if_neg h1] at h
      by_cases h2 : (if it = c + 1 then c + 1 + 1 else c + 1) = n
      · rw [if_pos h2] at h
        cases h
      · rw [if_neg h2] at h
        cases h
        exact ⟨hc, h1, rfl, h2⟩
  · rintro ⟨h1, h2, rfl, h4⟩
    exact ⟨a, h1, by rw [if_neg h2, if_neg h4]⟩

theorem share_chain {n it : ℕ} : ∀ (b a : ℕ), a < b → b < n → a ≠ it → b ≠ it → Relation.EqvGen (fun x y => (x, y) ∈ shareCalls n it) a b := by
  intro b
  induction b using Nat.strong_induction_on with
  | _ b ih =>
    intro a hab hb ha hbi
    by_cases hprev : it + 1 = b
    · -- the panel before is the one of the diagonal
      obtain ⟨c, rfl⟩ : ∃ c, b = c + 2 := ⟨b - 2, by omega⟩
      have hc : (c, c + 2) ∈ shareCalls n it := by
        rw [mem_shareCalls, if_pos (by omega)]
        omega
      by_cases hac : a = c
      · subst hac
        exact .rel _ _ hc
      · exact .trans _ _ _ (ih c (by omega) a (by omega) (by omega) ha (by omega)) (.rel _ _ hc)
    · obtain ⟨c, rfl⟩ : ∃ c, b = c + 1 := ⟨b - 1, by omega⟩
      have hc : (c, c + 1) ∈ shareCalls n it := by
        rw [mem_shareCalls, if_neg (by omega)]
        omega
      by_cases hac : a = c
      · subst hac
        exact .rel _ _ hc
      · exact .trans _ _ _ (ih c (by omega) a (by omega) (by omega) ha (by omega)) (.rel _ _ hc)

/-- **Shared axes**: in row `it` of `n` two different panels are connected by the calls iff both are off the diagonal, and no panel is the subject of two calls. -/
theorem C102_sharey {n it : ℕ} : (∀ a b, a ≠ b → (Relation.EqvGen (fun x y => (x, y) ∈ shareCalls n it) a b ↔ (a < n ∧ a ≠ it) ∧ b < n ∧ b ≠ it)) ∧ ((shareCalls n it).map Prod.fst).Nodup := by
  constructor
  · intro a b hab
    constructor
    · intro h
      have key : a = b ∨ ((a < n ∧ a ≠ it) ∧ b < n ∧ b ≠ it) := by
        clear hab
        induction h with
        | rel x y h =>
          rw [mem_shareCalls] at h
          obtain ⟨h1, h2, h3, h4⟩ := h
          split at h3 <;> omega
        | refl x => exact .inl rfl
        | symm x y _ ih => omega
        | trans x y z _ _ ih1 ih2 => omega
      exact key.resolve_left hab
    · rintro ⟨⟨h1, h2⟩, h3, h4⟩
      rcases Nat.lt_or_gt_of_ne hab with h | h
      · exact share_chain b a h h3 h2 h4
      · exact .symm _ _ (share_chain a b h h1 h4 h2)
  · have : ((shareCalls n it).map Prod.fst).Sublist (List.range (n - 1)) := by
      have hfm : (shareCalls n it).map Prod.fst = (List.range (n - 1)).filterMap (fun c => if it = c ∨ (if it = c + 1 then c + 1 + 1 else c + 1) = n then none else some c) := by
        unfold shareCalls
        rw [List.map_filterMap]
        refine List.filterMap_congr fun c _ => ?_
        by_cases h1 : it = c
        · simp [h1]
        · by_cases h2 : (if it = c + 1 then c + 1 + 1 else c + 1) = n
          · simp [h1, h2]
          · simp [h1, h2]
      rw [hfm]
      generalize List.range (n - 1) = l
      induction l with
      | nil => exact .slnil
      | cons c cs ih =>
        rw [List.filterMap_cons]
        by_cases h : it = c ∨ (if it = c + 1 then c + 1 + 1 else c + 1) = n
        · rw [if_pos h]
          exact ih.cons _
        · rw [if_neg h]
          exact ih.cons_cons _
    exact this.nodup List.nodup_range

/-! ### The hypotheses are met -/

/-- A figure with four panels, two of them on the diagonal. -/
example : ∃ fig, pairplot (plotWorld gapAtoms) (plotFit gapAtoms 2 [0, 7, 7]) = .ok fig ∧ fig.length = 4 ∧ ∃ curves line, ((0, 0), Panel.diagonal curves line) ∈ fig ∧ curves.map (·.component) = [0, 1] := by
  have h : mapCluster (plotWorld gapAtoms) (plotFit gapAtoms 2 [0, 7, 7]) none = .ok ([0, 1, 1], [1/6, 1/6, 1/6]) := by decide +kernel
  have hy : (plotFit gapAtoms 2 [0, 7, 7]).y ≠ [] := by decide +kernel
  obtain ⟨p, hp, _⟩ := mapCluster_facts hy h
  have hg : ∀ l, l ∈ [0, 1, 1] ↔ l < 2 := by
    intro l
    simp
    omega
  have hpw : p.w.length = 2 := by
    have : (plotFit gapAtoms 2 [0, 7, 7]).mapParams.map (fun p => p.w.length) = some 2 := by decide +kernel
    rw [hp] at this
    exact Option.some.inj this
  refine ⟨_, pairplot_ok hy h hp hg le_rfl (by norm_num), by rw [List.length_map]; decide, _, _, List.mem_map.2 ⟨(0, 0), mem_places _, rfl⟩, ?_⟩
  simp [List.range_succ, hpw]

/-- Row 1 of three columns: panels 0 and 2 share their axis. -/
example : shareCalls 3 1 = [(0, 2)] := by decide

end Verif.Mix
