import Verif.Props.C43
import Verif.Lemmas.GibbsBook
import Verif.Lemmas.GibbsDemo

/-!
# C60: a fit that raises leaves earlier results usable

The claim fails: `fit_gibbs` wipes the saved states before it looks at `init_method`, and does not reset the fitted flag.

* `C60_wiped_refuted`: on every object, with every data set: a cold fit with an unknown `init_method` raises and leaves no saved state, the counts at
  zero and the flag as it was; `C60_refuted` shows the effect on the result methods after a successful fit.
* `C60_bad_data_partial`: data of an unsupported type are refused before anything is touched, whatever the other arguments.
* `C60_warm_partial`: a warm fit that raises keeps all earlier saved states (in front of the new ones) and the flag.
* `C60_map_partial`: after any fit that raises, the MAP state is the earlier one unless a state with a larger log-likelihood was visited; so
  `gibbs_map_density` and `gibbs_map_cluster` give the same answer for the same points.

What is missing: cold fits that raise after their data were accepted.
-/

set_option linter.unusedSectionVars false

namespace Verif.Mix
variable {K : Type} [Field K] [LinearOrder K] [IsStrictOrderedRing K] {m : ℕ} {C : WeightClass K} {Atom : Type}
namespace GM
variable {ω : Oracle K} {W : World K m Atom}

/-- Data of an unsupported type: the object, and the position in the random stream, are the same as before. -/
theorem C60_bad_data_partial (g : PySize) (warm : Bool) (method : InitMethod) (s : GM C m Atom × ℕ) :
    fitGibbs W .invalid g warm method ω s = (.error .typeError, s) := rfl

theorem initLabels_unknown (g : PySize) (s : GM C m Atom × ℕ) : ∃ e, (initLabels W g .unknown ω s).1 = .error e := by
  exact ⟨_, rfl⟩

/-- **Refuted** on every object and every data set: the saved states are gone, the flag is not reset. -/
theorem C60_wiped_refuted (ys : List (Fin m → K)) (g : PySize) (s : GM C m Atom × ℕ) :
    (∃ e, (fitGibbs W (.rows ys) g false .unknown ω s).1 = .error e) ∧
    (fitGibbs W (.rows ys) g false .unknown ω s).2.1.saved = [] ∧ (fitGibbs W (.rows ys) g false .unknown ω s).2.1.totalSaved = 0 ∧
    (fitGibbs W (.rows ys) g false .unknown ω s).2.1.gibbsFitted = s.1.gibbsFitted := by
  have h : wp ω (fitGibbs W (.rows ys) g false .unknown) (fun _ _ => False)
      (fun _ t => t.1.saved = [] ∧ t.1.totalSaved = 0 ∧ t.1.gibbsFitted = s.1.gibbsFitted) s := by
    unfold fitGibbs initCommon
    rw [wp_bind, wp_assign, wp_bind, wp_whenM]
    refine ⟨fun _ => ?_, fun h => absurd rfl h⟩
    rw [wp_bind]
    unfold initGibbs
    rw [wp_bind, wp_assign, wp_bind, wp_self, wp_bind, wp_draws, wp_bind, wp_assign, wp_bind]
    refine wp_mono (KeepsR.wp (initWeights_frame W (frame (wiped _)) g) rfl) ?_ ?_
    · rintro _ t ⟨ht, -⟩
      rw [wp_bind]
      unfold initLabels
      refine ⟨congrArg Frame.saved ht, congrArg Frame.totalSaved ht, congrArg Frame.gibbsFitted ht⟩
    · rintro _ t ht
      refine ⟨congrArg Frame.saved ht, congrArg Frame.totalSaved ht, congrArg Frame.gibbsFitted ht⟩
  cases hr : fitGibbs W (.rows ys) g false .unknown ω s with
  | mk r t =>
    cases r with
    | ok u => exact (wp_of_ok hr h).elim
    | error e => exact ⟨⟨e, rfl⟩, wp_of_error hr h⟩

/-- A warm fit that raises drops nothing. -/
theorem C60_warm_partial (y : YArg K m) (g : PySize) (method : InitMethod) {s t : GM C m Atom × ℕ} {e : PyErr}
    (h : fitGibbs W y g true method ω s = (.error e, t)) :
    s.1.saved <+: t.1.saved ∧ t.1.gibbsFitted = s.1.gibbsFitted := by
  have := wp_of_error h (fit_flag W y g true method s)
  exact ⟨this.2 rfl, this.1⟩

/-- The MAP results after a fit that raises: never worse, and the same answers for the same points unless a better state was visited. -/
theorem C60_map_partial (a : FitArgs K m) {s t : GM C m Atom × ℕ} {e : PyErr}
    (h : fitGibbs W a.y a.initGroups a.warm a.method ω s = (.error e, t)) (hfin : s.1.mapLL ≠ ⊥) :
    s.1.mapLL ≤ t.1.mapLL ∧ (t.1.mapLL = s.1.mapLL → ∀ (y : YArg K m) (dim : Dim) (component : Option ℕ),
      mapDensity W t.1 (some y) dim component = mapDensity W s.1 (some y) dim component ∧ mapCluster W t.1 (some y) = mapCluster W s.1 (some y)) := by
  have hrun : run W ω s [a] = t := by
    show (fitGibbs W a.y a.initGroups a.warm a.method ω s).2 = t
    rw [h]
  have hb := C43_best (ω := ω) W [a] s
  rw [hrun] at hb
  refine ⟨hb.ge.1, fun heq y dim component => ?_⟩
  have hp : t.1.mapParams = s.1.mapParams := by
    rcases hb.first (by rw [heq]; exact hfin) with h1 | h1
    · exact h1.2
    · exact absurd heq (ne_of_gt h1.1)
  have hfl := (wp_of_error h (fit_flag W a.y a.initGroups a.warm a.method s)).1
  constructor
  · unfold mapDensity
    rw [hfl, hp]
    cases y <;> rfl
  · unfold mapCluster
    rw [hfl, hp]
    cases y <;> rfl

/-- **Refuted**, as seen by the user: a successful fit of four observations, then a fit with a misspelt `init_method`: the object still counts as fitted,
the posterior affinity and density have changed (here `0`, as this model writes a mean over nothing; numpy gives nan), and no state is left. -/
theorem C60_refuted : ∃ (W : World ℚ 1 ℚ) (ω : Oracle ℚ) (s : GM (Equal.cls : WeightClass ℚ) 1 ℚ × ℕ) (a b : FitArgs ℚ 1),
    ω.Legal ∧ returns (fitGibbs W a.y a.initGroups a.warm a.method) ω s = true ∧
    returns (fitGibbs W b.y b.initGroups b.warm b.method) ω (run W ω s [a]) = false ∧
    (run W ω s [a, b]).1.gibbsFitted = true ∧
    (run W ω s [a]).1.saved.length = 3 ∧ (run W ω s [a, b]).1.saved.length = 0 ∧
    eapAffinity (run W ω s [a]).1 ≠ eapAffinity (run W ω s [a, b]).1 ∧
    eapDensity W (run W ω s [a]).1 (some (rows1 [0])) .none none none ≠ eapDensity W (run W ω s [a, b]).1 (some (rows1 [0])) .none none none := by
  refine ⟨world, demo, (eqObj 2 6 1 2, 0), ⟨rows1 [0, 1, 5, 6], .none, false, .kmeans⟩, ⟨rows1 [0, 1, 5, 6], .none, false, .unknown⟩, demo_legal, ?_⟩
  decide +kernel

/-! A warm fit that raises after a successful one (the stored labels are for four observations, the new data have two), and its MAP state. -/
example : let s := (run world demo (eqObj 2 6 1 2, 0) [⟨rows1 [0, 1, 5, 6], .none, false, .kmeans⟩])
    returns (fitGibbs world (rows1 [0, 1]) .none true .kmeans) demo s = false ∧ s.1.saved.length = 3 ∧ s.1.mapLL ≠ ⊥ ∧
    (fitGibbs world (rows1 [0, 1]) .none true .kmeans demo s).2.1.mapLL = s.1.mapLL := by decide +kernel
end GM
end Verif.Mix
