import Verif.Lemmas.AtomLedger
import Verif.Lemmas.GibbsDemo
import Verif.Lemmas.Argmax

/-!
# C142: get_n_groups and get_n_theta

For every weight class, surrounding and history of `fit_gibbs` calls on a new object, returning or raising: entry `i` of `get_n_groups` is the number of distinct
labels and entry `i` of `get_n_theta` the number of components that hold an atom in entry `i` of `get_sim_params` (`C142_entries`).  A component that holds an atom in
one saved state holds one in all later ones, so `get_n_theta` never decreases (`C142_grows`).  For the classes of the library there are at least as many atoms as
stored weights and at least as many of these as groups, and there are no more groups than observations (`C142_order`).  `get_n_theta` is not the number of
components in use: it may exceed the number of stored weights (`C142_use_refuted`).
-/

set_option linter.unusedSectionVars false

namespace Verif.Mix
open GM
variable {K : Type} [Field K] [LinearOrder K] [IsStrictOrderedRing K] {C : WeightClass K} {m : ℕ} {Atom : Type} {ω : Oracle K}

/-- An object on which no fit has been made. -/
structure Unfitted (s : GM C m Atom) : Prop where
  saved : s.saved = []
  groups : s.nGroups = []
  atoms : s.nAtoms = []
  theta : s.theta = []

theorem Unfitted.ledger {s : GM C m Atom} (h : Unfitted s) : Ledger s := Ledger.reset s h.saved h.groups h.atoms h.theta

/-- The components that hold an atom. -/
def holders (theta : List (ℕ × Atom)) : Set ℕ := {j | (theta.lookup j).isSome}

theorem holders_eq (theta : List (ℕ × Atom)) : holders theta = {j | j ∈ keysOf theta} := by
  ext j; exact lookup_keys

theorem unique_card (d : List ℕ) : (npUnique d).length = {j | j ∈ d}.ncard := by
  have e : {j | j ∈ d} = ((npUnique d).toFinset : Set ℕ) := by ext j; simp [mem_npUnique]
  rw [e, Set.ncard_coe_finset, List.toFinset_card_of_nodup (npUnique_nodup d)]

theorem holders_card {theta : List (ℕ × Atom)} (h : (keysOf theta).Nodup) : theta.length = (holders theta).ncard := by
  have e : holders theta = ((keysOf theta).toFinset : Set ℕ) := by rw [holders_eq]; ext j; simp
  rw [e, Set.ncard_coe_finset, List.toFinset_card_of_nodup h]
  simp [keysOf]

variable (W : World K m Atom)

/-- The entries of the two lists. -/
theorem C142_entries (s : GM C m Atom × ℕ) (hs : Unfitted s.1) (ops : List (FitArgs K m)) :
    (run W ω s ops).1.nGroups = (run W ω s ops).1.saved.map (fun p => {j | j ∈ p.d}.ncard) ∧
      (run W ω s ops).1.nAtoms = (run W ω s ops).1.saved.map (fun p => (holders p.theta).ncard) := by
  have h := run_ledger W (ω := ω) ops s hs.ledger
  refine ⟨?_, ?_⟩
  · rw [h.groups]
    exact List.map_congr_left fun p _ => unique_card p.d
  · rw [h.atoms]
    exact List.map_congr_left fun p hp => holders_card (h.older p hp).1

/-- Atoms are never given up, and their number does not decrease. -/
theorem C142_grows (s : GM C m Atom × ℕ) (hs : Unfitted s.1) (ops : List (FitArgs K m)) :
    (run W ω s ops).1.saved.Pairwise (fun p q => holders p.theta ⊆ holders q.theta) ∧ (run W ω s ops).1.nAtoms.Pairwise (· ≤ ·) := by
  have h := run_ledger W (ω := ω) ops s hs.ledger
  refine ⟨h.grow.imp fun {p q} hpq => ?_, ?_⟩
  · rw [holders_eq, holders_eq]
    exact fun j hj => hpq.subset hj
  · rw [h.atoms, List.pairwise_map]
    refine h.grow.imp fun {p q} hpq => ?_
    simpa [keysOf] using hpq.length_le

/-- Groups, stored weights, atoms. -/
theorem C142_order (hC : Library C) (s : GM C m Atom × ℕ) (hs : Unfitted s.1) (ops : List (FitArgs K m)) :
    ∀ p ∈ (run W ω s ops).1.saved, {j | j ∈ p.d}.ncard ≤ p.w.length ∧ p.w.length ≤ (holders p.theta).ncard ∧ {j | j ∈ p.d}.ncard ≤ p.d.length := by
  obtain ⟨I, hI⟩ := hC.tidy ω
  intro p hp
  have h := run_ledger W (ω := ω) ops s hs.ledger
  obtain ⟨h1, h2⟩ := run_saved W (Q := fun p => (∀ j ∈ p.d, j < p.w.length) ∧ ∀ j < p.w.length, (p.theta.lookup j).isSome) hI (fun t ht => by
    obtain ⟨as, ns, h⟩ := ht
    exact ⟨h.lt W, h.covered⟩) s hs.saved ops p hp
  have hr : (Set.Iio p.w.length).ncard = p.w.length := by
    rw [← Finset.coe_range, Set.ncard_coe_finset, Finset.card_range]
  refine ⟨?_, ?_, ?_⟩
  · rw [← hr]
    exact Set.ncard_le_ncard (fun j hj => h1 j hj) (Set.finite_Iio _)
  · conv_lhs => rw [← hr]
    refine Set.ncard_le_ncard (fun j hj => h2 j hj) ?_
    rw [holders_eq]
    exact List.finite_toSet _
  · have e : {j | j ∈ p.d} = (p.d.toFinset : Set ℕ) := by ext j; simp
    rw [e, Set.ncard_coe_finset]
    exact List.toFinset_card_le _

/-- **`get_n_theta` is not the number of components in use**: a run whose last saved state has one group and one stored weight, and more atoms. -/
theorem C142_use_refuted : ∃ (s : GM (DP.cls : WeightClass ℚ) 1 ℚ × ℕ) (ops : List (FitArgs ℚ 1)), Unfitted s.1 ∧
    (run { world with eps := 0 } meanO s ops).1.gibbsFitted = true ∧
    (run { world with eps := 0 } meanO s ops).1.nGroups.getLast? = some 1 ∧
    (run { world with eps := 0 } meanO s ops).1.saved.getLast?.map (fun p => p.w.length) = some 1 ∧
    (run { world with eps := 0 } meanO s ops).1.nAtoms.getLast? = some 2 :=
  ⟨(dpObj 1 4 1 1, 0), [⟨rows1 [1, 2, 5, 7], .int 2, false, .kmeans⟩], ⟨rfl, rfl, rfl, rfl⟩, by decide +kernel⟩

/-! ### The hypotheses are met -/

/-- Three saved states: the numbers of groups, of weights and of atoms. -/
example : let t := run { world with eps := 0 } (meanO : Oracle ℚ) (dpObj 1 4 1 1, 0) [⟨rows1 [1, 2, 5, 7], .int 2, false, .kmeans⟩]
    t.1.nGroups = [2, 1, 1] ∧ t.1.saved.map (fun p => p.w.length) = [2, 2, 1] ∧ t.1.nAtoms = [2, 2, 2] := by
  decide +kernel
end Verif.Mix
