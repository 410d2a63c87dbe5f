import Verif.Props.C45

/-!
# C47: the EAP density averages the requested saved states

`gibbs_eap_density(y, periods=p)` is the pointwise mean of the mixture density over the last `min(p, saved)` states for every `p ≥ 1`, and over all
states for `periods=None`; for every object, every query and marginal, and every number of saved states (`C47_periods`, `C47_all`; after every
history of fits: `C47_run`).

For `p = 0` the claim is false: `l[-0:]` is the whole list, so `periods=0` averages all states (`C47_zero_refuted`).
-/

set_option linter.unusedSectionVars false

namespace Verif.Mix
open GM
variable {K : Type} [Field K] [LinearOrder K] [IsStrictOrderedRing K] {C : WeightClass K} {m : ℕ} {Atom : Type} {ω : Oracle K}

/-- The mixture density of one state at `x`. -/
def stateDensity (W : World K m Atom) (dim : Dim) (x : Fin m → K) (p : RunParams K Atom) : K :=
  ((List.range p.w.length).map (weighted (W.pdf dim) p.w p.theta x)).sum

/-- The mean of the density over a list of states. -/
def meanDensity (W : World K m Atom) (dim : Dim) (states : List (RunParams K Atom)) (x : Fin m → K) : K :=
  (states.map (stateDensity W dim x)).sum / (states.length : K)

/-- The last `n` elements. -/
def lastN {α : Type} (n : ℕ) (l : List α) : List α := (l.reverse.take n).reverse

theorem lastN_eq {α : Type} (n : ℕ) (l : List α) : lastN n l = l.drop (l.length - n) := by
  unfold lastN
  rw [List.take_reverse, List.reverse_reverse]

variable (W : World K m Atom)

/-- A state that can be evaluated: an atom for each weight, and at least one weight. -/
def Complete (p : RunParams K Atom) : Prop := Evaluable p ∧ p.w ≠ []

theorem stateDensities_eq (xs : List (Fin m → K)) {dim : Dim} (hd : dim ≠ .other) (ps : List (RunParams K Atom)) (h : ∀ p ∈ ps, Complete p) :
    stateDensities W xs dim none ps = .ok (ps.map (fun p => xs.map (fun x => stateDensity W dim x p))) := by
  induction ps with
  | nil => rfl
  | cons p ps ih =>
    obtain ⟨h1, h2⟩ := h p (by simp)
    unfold stateDensities
    rw [C48_total W.pdf xs h2 h1 hd, ih fun q hq => h q (by simp [hq])]
    rfl

theorem eap_eq (s : GM C m Atom) (hf : s.gibbsFitted = true) (hs : ∀ p ∈ s.saved, Complete p) (y : Option (YArg K m)) {xs : List (Fin m → K)}
    (hy : queryRows s y = .ok xs) {dim : Dim} (hd : dim ≠ .other) (per : Option ℤ) :
    eapDensity W s y dim none per = .ok (xs.map (meanDensity W dim (usedStates s.saved per))) := by
  unfold eapDensity
  rw [if_neg (by rw [hf]; simp), hy]
  simp only []
  rw [stateDensities_eq W xs hd _ fun p hp => hs p (mem_usedStates (per := per) hp)]
  simp only [if_neg hd]
  unfold colMeans
  rw [show (fun p : RunParams K Atom => xs.map (fun x => stateDensity W dim x p)) = fun p => xs.map (fun x => (fun x p => stateDensity W dim x p) x p) from rfl]
  have : colSums xs.length ((usedStates s.saved per).map (fun p => xs.map (fun x => stateDensity W dim x p)))
      = xs.map (fun x => ((usedStates s.saved per).map (stateDensity W dim x)).sum) := by
    refine List.ext_getElem? fun i => ?_
    unfold colSums
    rcases Nat.lt_or_ge i xs.length with hi | hi
    · simp only [List.getElem?_map, List.getElem?_range hi, Option.map_some, List.getElem?_eq_getElem hi, List.map_map]
      congr 2
      refine List.map_congr_left fun j _ => ?_
      simp [hi]
    · rw [List.getElem?_eq_none (by simpa using hi), List.getElem?_eq_none (by simpa using hi)]
  rw [this]
  simp [meanDensity]

/-- `periods=p`, `p ≥ 1`. -/
theorem C47_periods (s : GM C m Atom) (hf : s.gibbsFitted = true) (hs : ∀ p ∈ s.saved, Complete p) (y : Option (YArg K m)) {xs : List (Fin m → K)}
    (hy : queryRows s y = .ok xs) {dim : Dim} (hd : dim ≠ .other) (p : ℕ) (hp : 1 ≤ p) :
    eapDensity W s y dim none (some (p : ℤ)) = .ok (xs.map (meanDensity W dim (lastN (min p s.saved.length) s.saved))) := by
  rw [eap_eq W s hf hs y hy hd]
  congr 2
  unfold usedStates lastSlice
  simp only []
  rw [lastN_eq]
  split
  · rename_i h
    have : s.saved.length = 0 := by omega
    rw [this]
    simp
  · rw [if_pos (by omega)]
    congr 2
    congr 1
    omega

/-- `periods=None`. -/
theorem C47_all (s : GM C m Atom) (hf : s.gibbsFitted = true) (hs : ∀ p ∈ s.saved, Complete p) (y : Option (YArg K m)) {xs : List (Fin m → K)}
    (hy : queryRows s y = .ok xs) {dim : Dim} (hd : dim ≠ .other) :
    eapDensity W s y dim none none = .ok (xs.map (meanDensity W dim s.saved)) := eap_eq W s hf hs y hy hd none

/-- The states are complete after every history of fits, so both statements apply. -/
theorem C47_run (hC : Library C) (s : GM C m Atom × ℕ) (hs : s.1.saved = []) (ops : List (FitArgs K m)) (hf : (run W ω s ops).1.gibbsFitted = true)
    (xs : List (Fin m → K)) {dim : Dim} (hd : dim ≠ .other) :
    eapDensity W (run W ω s ops).1 (some (.rows xs)) dim none none = .ok (xs.map (meanDensity W dim (run W ω s ops).1.saved)) ∧
    ∀ p : ℕ, 1 ≤ p → eapDensity W (run W ω s ops).1 (some (.rows xs)) dim none (some (p : ℤ)) =
      .ok (xs.map (meanDensity W dim (lastN (min p (run W ω s ops).1.saved.length) (run W ω s ops).1.saved))) := by
  obtain ⟨I, hI⟩ := hC.tidy ω
  have h : ∀ p ∈ (run W ω s ops).1.saved, Complete p :=
    run_saved W hI (fun t ht => ⟨evaluable_step t ht, by obtain ⟨as, ns, h⟩ := ht; exact h.ne⟩) s hs ops
  exact ⟨C47_all W _ hf h _ rfl hd, fun p hp => C47_periods W _ hf h _ rfl hd p hp⟩

/-- `periods=0` averages all states. -/
theorem C47_zero (s : GM C m Atom) (hf : s.gibbsFitted = true) (hs : ∀ p ∈ s.saved, Complete p) (y : Option (YArg K m)) {xs : List (Fin m → K)}
    (hy : queryRows s y = .ok xs) {dim : Dim} (hd : dim ≠ .other) :
    eapDensity W s y dim none (some 0) = .ok (xs.map (meanDensity W dim s.saved)) := by
  rw [eap_eq W s hf hs y hy hd]
  have : usedStates s.saved (some 0) = s.saved := by
    unfold usedStates lastSlice
    simp only []
    rw [if_pos (by simp)]
  rw [this]

/-- A fitted object with three saved states: `periods=0` gives what `periods=3` gives, not a mean over zero states. -/
def zeroObj : GM (Equal.cls : WeightClass ℚ) 1 ℚ := (run world demo (eqObj 2 3 0 1, 0) [⟨rows1 [1, 2, 5], .int 2, false, .kmeans⟩]).1

theorem C47_zero_refuted : zeroObj.gibbsFitted = true ∧ zeroObj.saved.length = 3 ∧
    eapDensity world zeroObj (some (rows1 [0])) .none none (some 0) = eapDensity world zeroObj (some (rows1 [0])) .none none (some 3) ∧
    eapDensity world zeroObj (some (rows1 [0])) .none none (some 0) ≠ .ok [meanDensity world .none (lastN 0 zeroObj.saved) (fun _ => 0)] := by
  decide +kernel

/-! ### The hypotheses are met -/

example : eapDensity world zeroObj (some (rows1 [0])) .none none (some 1) ≠ eapDensity world zeroObj (some (rows1 [0])) .none none none ∧
    eapDensity world zeroObj (some (rows1 [0])) .none none (some 1) = .ok [meanDensity world .none (lastN 1 zeroObj.saved) (fun _ => 0)] := by
  decide +kernel
end Verif.Mix
