import Verif.Lemmas.GibbsStep
import Verif.Lemmas.GibbsDemo
import Verif.Props.C48

/-!
# C45: can every stored state be evaluated?

Full claim: every state in `get_sim_params()` and the MAP state holds an atom for each of its weights, so the density and cluster methods never
fail with a missing atom.

Proved for the saved states: every weight class, every surrounding, after every history of fits on an object that started without saved states
(`C45_saved`), hence `gibbs_eap_density` returns for every query, every marginal and every period (`C45_eap_density`); evaluating or clustering with
a complete state never raises `KeyError` (`C45_no_key_error`).

False for the MAP state: `_update_map_params` is first called right after the initialisation, when only the occupied components have atoms; if no
later state is better, `gibbs_map_density` raises `KeyError` (`C45_map_refuted`).  The remaining part: the MAP state is complete whenever it was
not the initial one (`C45_map_partial`).
-/

set_option linter.unusedSectionVars false

namespace Verif.Mix
open GM
variable {K : Type} [Field K] [LinearOrder K] [IsStrictOrderedRing K] {C : WeightClass K} {m : ℕ} {Atom : Type} {ω : Oracle K}

/-- A stored state holds an atom for each of its weights. -/
def Evaluable (p : RunParams K Atom) : Prop := HasAtoms p.theta p.w.length

theorem evaluable_step {W : World K m Atom} (s : GM C m Atom) (h : Stepped W s) : Evaluable (runParams s) := by
  obtain ⟨as, ns, h⟩ := h
  exact h.covered

variable (W : World K m Atom)

/-- Every history of fits, returning or raising, on an object without saved states. -/
theorem C45_saved (hC : Library C) (s : GM C m Atom × ℕ) (hs : s.1.saved = []) (ops : List (FitArgs K m)) :
    ∀ p ∈ (run W ω s ops).1.saved, Evaluable p := by
  obtain ⟨I, hI⟩ := hC.tidy ω
  exact run_saved W hI evaluable_step s hs ops

theorem stateDensities_ok (xs : List (Fin m → K)) (dim : Dim) (ps : List (RunParams K Atom)) (h : ∀ p ∈ ps, Evaluable p) :
    ∃ rows, stateDensities W xs dim none ps = .ok rows := by
  induction ps with
  | nil => exact ⟨[], rfl⟩
  | cons p ps ih =>
    obtain ⟨rows, hr⟩ := ih fun q hq => h q (by simp [hq])
    have : ∃ r, mixtureDensity W.pdf xs p.w p.theta dim none = .ok r := by
      by_cases hd : dim = .other
      · exact ⟨[0], by unfold mixtureDensity; rw [if_pos hd]⟩
      · by_cases hw : p.w = []
        · exact ⟨[0], by unfold mixtureDensity; rw [if_neg hd, hw]; rfl⟩
        · exact ⟨_, C48_total W.pdf xs hw (h p (by simp)) hd⟩
    obtain ⟨r, hr'⟩ := this
    exact ⟨r :: rows, by unfold stateDensities; rw [hr', hr]⟩

theorem mem_usedStates {saved : List (RunParams K Atom)} {per : Option ℤ} {p : RunParams K Atom} (h : p ∈ usedStates saved per) : p ∈ saved := by
  unfold usedStates lastSlice at h
  cases per with
  | none => exact h
  | some k =>
    simp only [] at h
    split at h
    · exact h
    · split at h <;> exact List.mem_of_mem_drop h

/-- `gibbs_eap_density` returns for every query, every marginal and every number of periods once the object is fitted. -/
theorem C45_eap_density (hC : Library C) (s : GM C m Atom × ℕ) (hs : s.1.saved = []) (ops : List (FitArgs K m))
    (hf : (run W ω s ops).1.gibbsFitted = true) (xs : List (Fin m → K)) (dim : Dim) (per : Option ℤ) :
    ∃ r, eapDensity W (run W ω s ops).1 (some (.rows xs)) dim none per = .ok r := by
  obtain ⟨rows, hr⟩ := stateDensities_ok W xs dim _ (fun p hp => C45_saved W hC s hs ops p (mem_usedStates (per := per) hp))
  refine ⟨colMeans (if dim = .other then 1 else xs.length) rows, ?_⟩
  unfold eapDensity
  rw [if_neg (by rw [hf]; simp)]
  show (match stateDensities W xs dim none (usedStates (run W ω s ops).1.saved per) with
    | .error e => _
    | .ok rows => _) = _
  rw [hr]

/-- The atoms of `cluster` are found. -/
theorem clusterRows_returns (pdf : (Fin m → K) → Atom → K) (xs : List (Fin m → K)) {theta : List (ℕ × Atom)} (js : List ℕ)
    (h : ∀ j ∈ js, (theta.lookup j).isSome) : ∃ rows, clusterRows pdf xs theta js = .ok rows := by
  induction js with
  | nil => exact ⟨[], rfl⟩
  | cons j js ih =>
    obtain ⟨a, ha⟩ := Option.isSome_iff_exists.1 (h j (by simp))
    obtain ⟨rows, hr⟩ := ih fun i hi => h i (by simp [hi])
    exact ⟨xs.map (fun x => pdf x a) :: rows, by rw [clusterRows, ha]; simp only []; rw [hr]⟩

/-- Evaluating a complete state never raises `KeyError`. -/
theorem C45_no_key_error {p : RunParams K Atom} (hp : Evaluable p) (xs : List (Fin m → K)) (dim : Dim) :
    mixtureDensity W.pdf xs p.w p.theta dim none ≠ .error .keyError ∧ cluster (W.pdf .none) xs p.w p.theta ≠ .error .keyError := by
  constructor
  · obtain ⟨rows, hr⟩ := stateDensities_ok W xs dim [p] (by simpa using hp)
    intro hc
    unfold stateDensities at hr
    rw [hc] at hr
    cases hr
  · obtain ⟨rows, hr⟩ := clusterRows_returns (W.pdf .none) xs (List.range p.w.length) (fun j hj => hp j (List.mem_range.1 hj))
    unfold cluster
    rw [hr]
    simp only []
    split <;> intro h <;> cases h

/-- The MAP state is complete after any fit during which it was complete at the start of the loops: a warm fit from a complete one, a cold fit whose
initial state is complete or was not kept. -/
theorem C45_map_partial (hC : Library C) (y : YArg K m) (g : PySize) (method : InitMethod) (s : GM C m Atom × ℕ) :
    ((∀ p, s.1.mapParams = some p → Evaluable p) → ∀ p, (fitGibbs W y g true method ω s).2.1.mapParams = some p → Evaluable p) ∧
    ((∀ p, (coldStart W y g method ω s).2.1.mapParams = some p → Evaluable p) →
      ∀ p, (fitGibbs W y g false method ω s).2.1.mapParams = some p → Evaluable p) := by
  obtain ⟨I, hI⟩ := hC.tidy ω
  exact fit_map W hI evaluable_step y g method s

/-! ### The MAP state may be incomplete -/

/-- A possible run: the atoms drawn at the start are close to the data, the later ones are not. -/
def luckyStart : World ℚ 1 ℚ := { world with atom := fun p _ => if p < 10 then 1 / 2 else 7 }

/-- Three equal weights, two observations: after the fit the MAP state has three weights and fewer atoms; `gibbs_map_density` and
`gibbs_map_cluster` raise `KeyError`. -/
theorem C45_map_refuted :
    let t := run luckyStart demo (eqObj 3 2 0 1, 0) [⟨rows1 [0, 1], .none, false, .random⟩]
    t.1.gibbsFitted = true ∧ (t.1.mapParams.map (fun p => (p.w.length, p.theta.length))) = some (3, 2) ∧
      mapDensity luckyStart t.1 none .none none = .error .keyError ∧ mapCluster luckyStart t.1 none = .error .keyError := by
  decide +kernel

/-! ### The hypotheses are met -/

example : let t := run world demo (eqObj 2 4 1 2, 0) [⟨rows1 [1, 2, 5], .int 2, false, .kmeans⟩]
    t.1.gibbsFitted = true ∧ t.1.saved.length = 2 ∧ (t.1.saved.map (fun p => (p.w.length, p.theta.length))) = [(2, 2), (2, 2)] := by
  decide +kernel
end Verif.Mix
