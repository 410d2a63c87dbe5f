import Verif.Props.C42
import Verif.Props.C45
import Verif.Props.C49
import Verif.Model.Results

/-!
# C113: the affinity matrix of new points and the consensus clustering

After every history of fits that stored states, `gibbs_eap_affinity_matrix(y)` for at least two points holds, for each pair, the fraction of the stored states
whose most probable component is the same for both points; such matrices are symmetric, have unit diagonal, entries in `[0, 1]` and satisfy the inequality
`A i j + A j k ≤ 1 + A i k`.  `gibbs_eap_spectral_consensus_cluster` clusters exactly this matrix.  For one point the call raises (`C113_one_refuted`), and with
the fitted data as argument it is not the matrix of the call without argument (`C113_default_refuted`).
-/

set_option linter.unusedSectionVars false

namespace Verif.Mix
open GM
open scoped Classical in
/-- `A` is the `n × n` matrix of the fractions of `states` in which `same` holds for two points. -/
def IsConsensus {K S Obs : Type} [Field K] (same : S → Obs → Obs → Prop) (states : List S) (xs : List Obs) (A : List (List K)) : Prop :=
  A.length = xs.length ∧ (∀ row ∈ A, row.length = xs.length) ∧ ∀ (i j : ℕ) (x y : Obs), xs[i]? = some x → xs[j]? = some y →
    entry A i j = ((states.filter (fun p => same p x y)).length : K) / (states.length : K)

section
variable {K : Type} [Field K] [LinearOrder K] [IsStrictOrderedRing K] {C : WeightClass K} {m : ℕ} {Atom : Type} {ω : Oracle K}

/-- The most probable component of the state is the same for both points (the lowest on ties). -/
def SameChoice (pdf : (Fin m → K) → Atom → K) (p : RunParams K Atom) (x y : Fin m → K) : Prop :=
  ∃ b, IsArgmax (responsibilities pdf p.w p.theta x) b ∧ IsArgmax (responsibilities pdf p.w p.theta y) b

variable (W : World K m Atom)

theorem weights_stepped {W : World K m Atom} (s : GM C m Atom) (h : Stepped W s) : (runParams s).w ≠ [] ∧ HasAtoms (runParams s).theta (runParams s).w.length := by
  obtain ⟨as, ns, h⟩ := h
  exact ⟨h.ne, h.covered⟩

theorem responsibilities_argmax (pdf : (Fin m → K) → Atom → K) {w : List K} (hw : w ≠ []) (theta : List (ℕ × Atom)) (x : Fin m → K) :
    ∃ b, IsArgmax (responsibilities pdf w theta x) b :=
  ⟨_, argmaxD_spec (by
    unfold responsibilities
    intro hc
    have := congrArg List.length hc
    simp at this; exact hw this)⟩

/-- The clusterings of complete states: equal labels mean equal choices. -/
theorem stateClusters_spec {xs : List (Fin m → K)} (hn : 2 ≤ xs.length) : ∀ (ps : List (RunParams K Atom)), (∀ p ∈ ps, p.w ≠ [] ∧ HasAtoms p.theta p.w.length) →
    ∃ gs, stateClusters W xs ps = .ok gs ∧ ∀ (i j : ℕ) (x y : Fin m → K), xs[i]? = some x → xs[j]? = some y →
      gs.countP (fun g => decide (g[i]? = g[j]?)) = (open scoped Classical in (ps.filter (fun p => SameChoice (W.pdf .none) p x y)).length)
  | [], _ => ⟨[], rfl, fun i j x y _ _ => rfl⟩
  | p :: ps, h => by
    obtain ⟨gs, h1, h2⟩ := stateClusters_spec hn ps fun q hq => h q (by simp [hq])
    obtain ⟨hw, ht⟩ := h p (by simp)
    obtain ⟨lab, unc, best, c1, c2, -, c4, c5, -⟩ := C49_labels (W.pdf .none) (xs := xs) ht hn hw
    refine ⟨lab :: gs, by rw [stateClusters, c1]; simp only []; rw [h1], fun i j x y hx hy => ?_⟩
    obtain ⟨hi, rfl⟩ := List.getElem?_eq_some_iff.1 hx
    obtain ⟨hj, rfl⟩ := List.getElem?_eq_some_iff.1 hy
    have li : lab[i]? = some (lab[i]'(by omega)) := List.getElem?_eq_getElem _
    have lj : lab[j]? = some (lab[j]'(by omega)) := List.getElem?_eq_getElem _
    have hiff : (lab[i]? = lab[j]?) ↔ SameChoice (W.pdf .none) p xs[i] xs[j] := by
      rw [li, lj, Option.some_inj, (c5 i j _ _ li lj).1]
      constructor
      · intro e
        exact ⟨best i, c4 i hi, e ▸ c4 j hj⟩
      · rintro ⟨b, b1, b2⟩
        rw [(c4 i hi).unique b1, (c4 j hj).unique b2]
    rw [List.countP_cons, h2 i j _ _ hx hy]
    by_cases hc : SameChoice (W.pdf .none) p xs[i] xs[j]
    · simp [hc, hiff]
    · simp [hc, hiff]

/-- The matrix for new points. -/
theorem C113_matrix (hC : Library C) (s : GM C m Atom × ℕ) (hs : s.1.saved = []) (ops : List (FitArgs K m)) (hf : (run W ω s ops).1.gibbsFitted = true)
    {xs : List (Fin m → K)} (hn : 2 ≤ xs.length) :
    ∃ A, eapAffinityAt W (run W ω s ops).1 (.rows xs) = .ok A ∧ IsConsensus (SameChoice (W.pdf .none)) (run W ω s ops).1.saved xs A := by
  obtain ⟨I, hI⟩ := hC.tidy ω
  have hall := run_saved W hI (Q := fun p => p.w ≠ [] ∧ HasAtoms p.theta p.w.length) weights_stepped s hs ops
  obtain ⟨gs, h1, h2⟩ := stateClusters_spec W hn _ hall
  refine ⟨_, by unfold eapAffinityAt; rw [if_neg (by simp [hf])]; simp only [queryRows]; rw [h1], ?_, ?_, ?_⟩
  · simp
  · intro row hr
    obtain ⟨i, _, rfl⟩ := List.mem_map.1 hr
    simp
  · intro i j x y hx hy
    obtain ⟨hi, -⟩ := List.getElem?_eq_some_iff.1 hx
    obtain ⟨hj, -⟩ := List.getElem?_eq_some_iff.1 hy
    simp only [entry, List.getElem?_map, List.getElem?_range hi, List.getElem?_range hj, Option.map_some, Option.bind_some, Option.getD_some]
    rw [h2 i j x y hx hy]

/-- What such matrices look like, whenever sharing is an equivalence in each state. -/
theorem C113_shape {S Obs : Type} {same : S → Obs → Obs → Prop} {states : List S} (hst : states ≠ []) (he : ∀ p ∈ states, Equivalence (same p)) {xs : List Obs}
    {A : List (List K)} (hA : IsConsensus same states xs A) :
    (∀ i < xs.length, entry A i i = 1) ∧ (∀ i < xs.length, ∀ j < xs.length, entry A i j = entry A j i ∧ 0 ≤ entry A i j ∧ entry A i j ≤ 1) ∧
    ∀ i < xs.length, ∀ j < xs.length, ∀ k < xs.length, entry A i j + entry A j k ≤ 1 + entry A i k := by
  classical
  have hpos : (0 : K) < (states.length : K) := by exact_mod_cast List.length_pos_iff.2 hst
  have hget : ∀ {i} (h : i < xs.length), xs[i]? = some xs[i] := fun h => List.getElem?_eq_getElem h
  have hval : ∀ {i j} (hi : i < xs.length) (hj : j < xs.length), entry A i j = ((states.countP (fun p => decide (same p xs[i] xs[j]))) : K) / (states.length : K) := by
    intro i j hi hj
    rw [hA.2.2 i j _ _ (hget hi) (hget hj), List.countP_eq_length_filter]
  refine ⟨fun i hi => ?_, fun i hi j hj => ⟨?_, ?_, ?_⟩, fun i hi j hj k hk => ?_⟩
  · rw [hval hi hi, List.countP_eq_length.2 (fun p hp => by simpa using (he p hp).refl _), div_self hpos.ne']
  · rw [hval hi hj, hval hj hi]
    congr 2
    refine List.countP_congr fun p hp => ?_
    simp only [decide_eq_true_eq]
    exact ⟨(he p hp).symm, (he p hp).symm⟩
  · rw [hval hi hj]
    exact div_nonneg (Nat.cast_nonneg _) hpos.le
  · rw [hval hi hj, div_le_one hpos]
    exact_mod_cast List.countP_le_length
  · rw [hval hi hj, hval hj hk, hval hi hk, ← add_div, ← sub_nonneg]
    have key : ∀ l : List S, (∀ p ∈ l, Equivalence (same p)) →
        l.countP (fun p => decide (same p xs[i] xs[j])) + l.countP (fun p => decide (same p xs[j] xs[k])) ≤
          l.length + l.countP (fun p => decide (same p xs[i] xs[k])) := by
      intro l
      induction l with
      | nil => intro _; simp
      | cons p l ih =>
        intro hl
        have i1 := ih fun q hq => hl q (by simp [hq])
        have e := hl p (by simp)
        simp only [List.countP_cons, List.length_cons]
        have hle : ∀ q : Prop, [Decidable q] → (if decide q = true then 1 else 0) ≤ 1 := fun q _ => by split <;> omega
        have hb : (if decide (same p xs[i] xs[j]) = true then 1 else 0) + (if decide (same p xs[j] xs[k]) = true then 1 else 0) ≤
            1 + (if decide (same p xs[i] xs[k]) = true then 1 else 0) := by
          by_cases h1 : same p xs[i] xs[j]
          · by_cases h2 : same p xs[j] xs[k]
            · simp [h1, h2, e.trans h1 h2]
            · simp [h1, h2]
          · have := hle (same p xs[j] xs[k])
            simp only [h1, decide_false, Bool.false_eq_true, if_false]
            omega
        omega
    have hk' : ((states.countP (fun p => decide (same p xs[i] xs[j])) : ℕ) : K) + ((states.countP (fun p => decide (same p xs[j] xs[k])) : ℕ) : K) ≤
        (states.length : K) + ((states.countP (fun p => decide (same p xs[i] xs[k])) : ℕ) : K) := by exact_mod_cast key states he
    have : (1 : K) + ((states.countP (fun p => decide (same p xs[i] xs[k])) : ℕ) : K) / (states.length : K) -
        (((states.countP (fun p => decide (same p xs[i] xs[j])) : ℕ) : K) + ((states.countP (fun p => decide (same p xs[j] xs[k])) : ℕ) : K)) / (states.length : K) =
        ((states.length : K) + ((states.countP (fun p => decide (same p xs[i] xs[k])) : ℕ) : K) -
          (((states.countP (fun p => decide (same p xs[i] xs[j])) : ℕ) : K) + ((states.countP (fun p => decide (same p xs[j] xs[k])) : ℕ) : K))) / (states.length : K) := by
      field_simp
    rw [this]
    exact div_nonneg (sub_nonneg.2 hk') hpos.le

/-- In a complete state the choice is an equivalence. -/
theorem sameChoice_equivalence (pdf : (Fin m → K) → Atom → K) {p : RunParams K Atom} (hw : p.w ≠ []) : Equivalence (SameChoice pdf p) where
  refl x := by
    obtain ⟨b, hb⟩ := responsibilities_argmax pdf hw p.theta x
    exact ⟨b, hb, hb⟩
  symm := fun ⟨b, h1, h2⟩ => ⟨b, h2, h1⟩
  trans := fun ⟨b, h1, h2⟩ ⟨c, h3, h4⟩ => ⟨b, h1, by rw [h2.unique h3]; exact h4⟩

/-- The matrix for new points has the shape of an average of clusterings. -/
theorem C113_new (hC : Library C) (s : GM C m Atom × ℕ) (hs : s.1.saved = []) (ops : List (FitArgs K m)) (hf : (run W ω s ops).1.gibbsFitted = true)
    (hst : (run W ω s ops).1.saved ≠ []) {xs : List (Fin m → K)} (hn : 2 ≤ xs.length) :
    ∃ A, eapAffinityAt W (run W ω s ops).1 (.rows xs) = .ok A ∧ (∀ i < xs.length, entry A i i = 1) ∧
      (∀ i < xs.length, ∀ j < xs.length, entry A i j = entry A j i ∧ 0 ≤ entry A i j ∧ entry A i j ≤ 1) ∧
      ∀ i < xs.length, ∀ j < xs.length, ∀ k < xs.length, entry A i j + entry A j k ≤ 1 + entry A i k := by
  obtain ⟨A, h1, h2⟩ := C113_matrix (ω := ω) W hC s hs ops hf hn
  obtain ⟨I, hI⟩ := hC.tidy ω
  have hall := run_saved W hI (Q := fun p => p.w ≠ [] ∧ HasAtoms p.theta p.w.length) weights_stepped s hs ops
  exact ⟨A, h1, C113_shape hst (fun p hp => sameChoice_equivalence _ (hall p hp).1) h2⟩

/-- The consensus clustering of new points is computed from that matrix, the one without argument from the co-clustering matrix of the stored labels. -/
theorem C113_consensus (hC : Library C) (predict : List (List K) → Except PyErr (List ℕ)) :
    (∀ (s : GM C m Atom × ℕ) (ops : List (FitArgs K m)) (xs : List (Fin m → K)), s.1.saved = [] → (run W ω s ops).1.gibbsFitted = true → 2 ≤ xs.length →
      ∃ A, IsConsensus (SameChoice (W.pdf .none)) (run W ω s ops).1.saved xs A ∧ spectral W predict (run W ω s ops).1 (some (.rows xs)) = predict A) ∧
    (∀ (ys : List (Fin m → K)) (g : PySize) (method : InitMethod) (s t : GM C m Atom × ℕ) (ops : List (FitArgs K m)), 1 ≤ s.1.subsample →
      s.1.burnIn < s.1.totalIter → fitGibbs W (.rows ys) g false method ω s = (.ok (), t) → (∀ a ∈ ops, a.warm = true) →
      ∃ A, IsCoClustering ys.length (run W ω t ops).1.saved A ∧ spectral W predict (run W ω t ops).1 none = predict A) := by
  constructor
  · intro s ops xs hs hf hn
    obtain ⟨A, h1, h2⟩ := C113_matrix (ω := ω) W hC s hs ops hf hn
    refine ⟨A, h2, ?_⟩
    unfold spectral
    rw [if_neg (by simp [hf])]
    simp only [h1]
  · intro ys g method s t ops hs hT h hw
    obtain ⟨A, h1, h2, -⟩ := C42_affinity W ys g method s t hs hT h ops hw
    refine ⟨A, h2, ?_⟩
    unfold spectral
    have : (run W ω t ops).1.gibbsFitted ≠ false := by
      intro hc
      rw [C42_not_fitted _ hc] at h1
      cases h1
    rw [if_neg this]
    simp only [h1]

/-- A single new point raises `AxisError`. -/
theorem C113_one_refuted (hC : Library C) (s : GM C m Atom × ℕ) (hs : s.1.saved = []) (ops : List (FitArgs K m)) (hf : (run W ω s ops).1.gibbsFitted = true)
    (hst : (run W ω s ops).1.saved ≠ []) (x : Fin m → K) : eapAffinityAt W (run W ω s ops).1 (.rows [x]) = .error .axisError := by
  obtain ⟨I, hI⟩ := hC.tidy ω
  have hall := run_saved W hI (Q := fun p => p.w ≠ [] ∧ HasAtoms p.theta p.w.length) weights_stepped s hs ops
  unfold eapAffinityAt
  rw [if_neg (by simp [hf])]
  simp only [queryRows]
  rcases hsv : (run W ω s ops).1.saved with _ | ⟨p, ps⟩
  · exact absurd hsv hst
  · rw [stateClusters, C49_one_point _ (hall p (by rw [hsv]; simp)).2]
end

/-! ### With and without argument -/

/-- Asking for the fitted data gives another matrix than asking for nothing: the first uses the most probable components, the second the sampled labels. -/
theorem C113_default_refuted :
    let t := run world demo (eqObj 2 6 1 2, 0) [⟨rows1 [0, 1, 5, 6], .none, false, .kmeans⟩]
    t.1.gibbsFitted = true ∧ t.1.y = [fun _ => 0, fun _ => 1, fun _ => 5, fun _ => 6] ∧
      (eapAffinity t.1).toOption ≠ (eapAffinityAt world t.1 (rows1 [0, 1, 5, 6])).toOption := by
  decide +kernel

/-! ### The hypotheses are met -/

example : let t := run world demo (eqObj 2 6 1 2, 0) [⟨rows1 [0, 1, 5, 6], .none, false, .kmeans⟩]
    (eqObj 2 6 1 2).saved = [] ∧ t.1.gibbsFitted = true ∧ t.1.saved.length = 3 ∧
      (eapAffinityAt world t.1 (rows1 [0, 2, 4, 9])).toOption.map (fun A => (entry A 0 1, entry A 1 2, entry A 2 3)) = some (1, 1, 1 / 3) := by
  decide +kernel
end Verif.Mix
