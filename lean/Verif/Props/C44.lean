import Verif.Lemmas.GibbsBook
import Verif.Lemmas.GibbsDemo

/-!
# C44: does a cold fit forget the previous fit?

Full claim: `fit_gibbs(y2, warm_start=False)` starts over, MAP results and data-derived priors come from this fit only.

The claim is false: the MAP state, its log-likelihood and the priors derived from the first data set survive (`C44_map_refuted`,
`C44_prior_refuted`); `_initialize_gibbs_params` does not touch them and `_initialize_common_params` only fills priors that are `None`.

Proved part: everything else is forgotten.  The outcome of a cold fit, and the whole object after it, do not depend on the data, labels, atoms,
slice variables, saved states, counts and affinity matrix left by earlier calls.
-/

set_option linter.unusedSectionVars false

namespace Verif.Mix
open GM
variable {K : Type} [Field K] [LinearOrder K] [IsStrictOrderedRing K] {C : WeightClass K} {m : ℕ} {Atom : Type} {ω : Oracle K}

/-- The labels replaced. -/
def withD (d : List ℕ) (s : GM C m Atom) : GM C m Atom := { s with d := d }

/-- Running `x` on the object with other labels gives the same outcome and the same object with other labels. -/
def IgnoresD (ω : Oracle K) (d : List ℕ) {α : Type} (x : M K (GM C m Atom) α) : Prop :=
  ∀ s : GM C m Atom × ℕ, x ω (withD d s.1, s.2) = ((x ω s).1, (withD d (x ω s).2.1, (x ω s).2.2))

theorem IgnoresD.bind {d : List ℕ} {α β : Type} {x : M K (GM C m Atom) α} {k : α → M K (GM C m Atom) β} (h : IgnoresD ω d x)
    (hk : ∀ a, IgnoresD ω d (k a)) : IgnoresD ω d (x >>= k) := by
  intro s
  rw [M.bind_apply, M.bind_apply, h s]
  rcases x ω s with ⟨e | a, t⟩
  · rfl
  · exact hk a t

theorem IgnoresD.self {d : List ℕ} {α : Type} {k : GM C m Atom → M K (GM C m Atom) α} (hk : ∀ a, IgnoresD ω d (k a))
    (h : ∀ a, k (withD d a) = k a) : IgnoresD ω d (M.self >>= k) := by
  intro s
  have : (M.self >>= k) ω (withD d s.1, s.2) = k (withD d s.1) ω (withD d s.1, s.2) := rfl
  rw [this, h]
  exact hk s.1 s

theorem ignoresD_callW (d : List ℕ) {α : Type} (x : M K C.State α) : IgnoresD ω d (callW x : M K (GM C m Atom) α) := fun _ => rfl
theorem ignoresD_pure (d : List ℕ) {α : Type} (a : α) : IgnoresD ω d (pure a : M K (GM C m Atom) α) := fun _ => rfl
theorem ignoresD_raise (d : List ℕ) {α : Type} (e : PyErr) : IgnoresD ω d (M.raise e : M K (GM C m Atom) α) := fun _ => rfl
theorem ignoresD_draw1 (d : List ℕ) {α : Type} (f : ℕ → α) : IgnoresD ω d (draw1 f : M K (GM C m Atom) α) := fun _ => rfl
theorem ignoresD_lift (d : List ℕ) {α : Type} (e : Except PyErr α) : IgnoresD ω d (M.lift e : M K (GM C m Atom) α) := by
  intro s; rcases e with e | a <;> rfl

variable (W : World K m Atom)

theorem initWeights_ignores (d : List ℕ) (g : PySize) : IgnoresD ω d (initWeights W g : M K (GM C m Atom) Unit) := by
  cases g with
  | none => exact IgnoresD.self (fun a => IgnoresD.bind (ignoresD_lift d _) fun _ => IgnoresD.bind (ignoresD_callW d _) fun _ => ignoresD_pure d _) fun a => rfl
  | int n => exact IgnoresD.self (fun a => IgnoresD.bind (ignoresD_callW d _) fun _ => ignoresD_pure d _) fun a => rfl
  | np n => exact IgnoresD.self (fun a => IgnoresD.bind (ignoresD_callW d _) fun _ => ignoresD_pure d _) fun a => rfl
  | other => exact IgnoresD.self (fun a => IgnoresD.bind (ignoresD_callW d _) fun _ => ignoresD_pure d _) fun a => rfl

theorem initLabels_ignores (d : List ℕ) (g : PySize) (method : InitMethod) : IgnoresD ω d (initLabels W g method : M K (GM C m Atom) (List ℕ)) := by
  cases method with
  | kmeans =>
    exact IgnoresD.self (fun a => IgnoresD.bind (ignoresD_draw1 d _) fun _ => IgnoresD.bind (ignoresD_lift d _) fun _ => ignoresD_pure d _) fun a => rfl
  | random => exact IgnoresD.self (fun a => ignoresD_callW d _) fun a => rfl
  | variational => exact IgnoresD.self (fun a => IgnoresD.bind (ignoresD_draw1 d _) fun _ => ignoresD_lift d _) fun a => rfl
  | unknown => exact ignoresD_raise d _

/-- The attributes that a cold fit reads before it writes them: configuration, priors, MAP bookkeeping, flag, weight object. -/
structure SameKept (s s' : GM C m Atom) : Prop where
  totalIter : s.totalIter = s'.totalIter
  burnIn : s.burnIn = s'.burnIn
  subsample : s.subsample = s'.subsample
  nAttr : s.nAttr = s'.nAttr
  muPrior : s.muPrior = s'.muPrior
  lam : s.lam = s'.lam
  psiPrior : s.psiPrior = s'.psiPrior
  nuPrior : s.nuPrior = s'.nuPrior
  mapLL : s.mapLL = s'.mapLL
  mapParams : s.mapParams = s'.mapParams
  gibbsFitted : s.gibbsFitted = s'.gibbsFitted
  wst : s.wst = s'.wst

/-- The object at the point where the initialisation draws the slice variables. -/
def started (ys : List (Fin m → K)) (s : GM C m Atom) : GM C m Atom := wiped { s with
      y := ys
      muPrior := some (s.muPrior.getD (meanVec ys))
      psiPrior := some (s.psiPrior.getD (cov ys))
      nuPrior := some (s.nuPrior.getD (m : K)) }

theorem initGibbs_ignores (d : List ℕ) (g : PySize) (method : InitMethod) (s : GM C m Atom) (p : ℕ) :
    let x : M K (GM C m Atom) Unit := do initWeights W g; let d ← initLabels W g method; M.assign (fun s => { s with d := d })
    (x ω (withD d s, p)).1 = (x ω (s, p)).1 ∧ ((x ω (s, p)).1 = .ok () → (x ω (withD d s, p)).2 = (x ω (s, p)).2) := by
  intro x
  have h1 := initWeights_ignores (ω := ω) W d g (s, p)
  simp only [x, M.bind_apply, h1]
  rcases initWeights W g ω (s, p) with ⟨e | a, t⟩
  · exact ⟨rfl, fun h => by cases h⟩
  · have h2 := initLabels_ignores (ω := ω) W d g method t
    simp only [h2]
    rcases initLabels W g method ω t with ⟨e | a, t2⟩
    · exact ⟨rfl, fun h => by cases h⟩
    · exact ⟨rfl, fun _ => rfl⟩

/-- What a cold fit leaves behind does not depend on the data, labels, atoms, slices, saved states and counts of earlier calls. -/
theorem C44_forgets_partial (y : YArg K m) (g : PySize) (method : InitMethod) (s s' : GM C m Atom) (p : ℕ) (h : SameKept s s') :
    (fitGibbs W y g false method ω (s, p)).1 = (fitGibbs W y g false method ω (s', p)).1 ∧
    ((fitGibbs W y g false method ω (s', p)).1 = .ok () →
      (fitGibbs W y g false method ω (s, p)).2 = (fitGibbs W y g false method ω (s', p)).2) := by
  cases y with
  | invalid => exact ⟨rfl, fun h => by cases h⟩
  | rows ys =>
    let us := (List.range ys.length).map (fun i => W.unif (p + i) W.eps 1)
    let x : M K (GM C m Atom) Unit := do initWeights W g; let d ← initLabels W g method; M.assign (fun s => { s with d := d })
    let rest : M K (GM C m Atom) Unit := do
      updateMap W
      let s ← M.self
      burn W s.burnIn.toNat
      record W (s.totalIter - s.burnIn).toNat 0
      M.assign (fun s => { s with gibbsFitted := true })
    have hfit : ∀ z : GM C m Atom, fitGibbs W (.rows ys) g false method ω (z, p) = (x >>= fun _ => rest) ω ({ started ys z with u := us }, p + ys.length) := by
      intro z
      have e1 : fitGibbs W (.rows ys) g false method ω (z, p) =
          ((do initGibbs W g method; updateMap W) >>= fun _ => (do
            let s ← M.self
            burn W s.burnIn.toNat
            record W (s.totalIter - s.burnIn).toNat 0
            M.assign (fun s => { s with gibbsFitted := true }))) ω
          ({ z with
              y := ys
              muPrior := some (z.muPrior.getD (meanVec ys))
              psiPrior := some (z.psiPrior.getD (cov ys))
              nuPrior := some (z.nuPrior.getD (m : K)) }, p) := rfl
      rw [e1, M.bind_apply, M.bind_apply, M.bind_apply]
      have e2 : initGibbs W g method ω ({ z with
              y := ys
              muPrior := some (z.muPrior.getD (meanVec ys))
              psiPrior := some (z.psiPrior.getD (cov ys))
              nuPrior := some (z.nuPrior.getD (m : K)) }, p) = x ω ({ started ys z with u := us }, p + ys.length) := rfl
      rw [e2]
      rcases x ω ({ started ys z with u := us }, p + ys.length) with ⟨e | a, t⟩
      · rfl
      · simp only [rest, M.bind_apply]
    have hsame : ({ started ys s with u := us } : GM C m Atom) = withD s.d { started ys s' with u := us } := by
      simp only [started, wiped, withD, h.totalIter, h.burnIn, h.subsample, h.nAttr, h.muPrior, h.lam, h.psiPrior, h.nuPrior, h.mapLL, h.mapParams,
        h.gibbsFitted, h.wst]
    obtain ⟨k1, k2⟩ := initGibbs_ignores (ω := ω) W s.d g method { started ys s' with u := us } (p + ys.length)
    rw [hfit s, hfit s', hsame, M.bind_apply, M.bind_apply]
    change (x ω (withD s.d { started ys s' with u := us }, p + ys.length)).1 = (x ω ({ started ys s' with u := us }, p + ys.length)).1 at k1
    change (x ω ({ started ys s' with u := us }, p + ys.length)).1 = .ok () →
      (x ω (withD s.d { started ys s' with u := us }, p + ys.length)).2 = (x ω ({ started ys s' with u := us }, p + ys.length)).2 at k2
    revert k1 k2
    rcases x ω (withD s.d { started ys s' with u := us }, p + ys.length) with ⟨r1, t1⟩
    rcases x ω ({ started ys s' with u := us }, p + ys.length) with ⟨r2, t2⟩
    intro k1 k2
    simp only at k1 k2
    subst k1
    cases r1 with
    | error e => exact ⟨rfl, fun h => by cases h⟩
    | ok u =>
      have := k2 rfl
      subst this
      exact ⟨rfl, fun _ => rfl⟩

/-- A second object in the examples below: everything that must not matter is different. -/
example : SameKept (eqObj 2 3 1 1) { eqObj 2 3 1 1 with
    y := [fun _ => 7]
    d := [3, 3]
    theta := [(5, 1)]
    thetaDefault := true
    u := [1]
    affinity := [[2]]
    saved := [⟨[], [], [], []⟩]
    nGroups := [1]
    nAtoms := [9]
    totalSaved := 4 } := by constructor <;> rfl

def firstFit : FitArgs ℚ 1 := ⟨rows1 [0, 0, 1, 1], .none, false, .kmeans⟩
def secondFit : FitArgs ℚ 1 := ⟨rows1 [10, 20, 30], .none, false, .kmeans⟩

/-- The MAP state after a second cold fit, on three observations, still has the four labels of the first fit, and `gibbs_map_density` differs from
what a fresh object returns. -/
theorem C44_map_refuted : ∃ (W : World ℚ 1 ℚ) (ω : Oracle ℚ) (s : GM (Equal.cls : WeightClass ℚ) 1 ℚ × ℕ) (a b : FitArgs ℚ 1),
    ω.Legal ∧ a.warm = false ∧ b.warm = false ∧ s.1.mapLL = ⊥ ∧
    returns (fitGibbs W a.y a.initGroups a.warm a.method) ω s = true ∧
    returns (fitGibbs W b.y b.initGroups b.warm b.method) ω (run W ω s [a]) = true ∧
    (run W ω s [a, b]).1.y.length = 3 ∧ (run W ω s [a, b]).1.mapParams.map (·.d.length) = some 4 ∧
    (mapDensity W (run W ω s [a, b]).1 none .none none).toOption ≠ (mapDensity W (run W ω s [b]).1 none .none none).toOption := by
  refine ⟨world, demo, (eqObj 2 3 1 1, 0), firstFit, secondFit, demo_legal, ?_⟩
  decide +kernel

/-- The prior mean derived from the first data set (1/2) is still used in the second cold fit (where the data mean is 20). -/
theorem C44_prior_refuted : ∃ (W : World ℚ 1 ℚ) (ω : Oracle ℚ) (s : GM (Equal.cls : WeightClass ℚ) 1 ℚ × ℕ) (a b : FitArgs ℚ 1),
    ω.Legal ∧ a.warm = false ∧ b.warm = false ∧ s.1.muPrior.isNone = true ∧
    returns (fitGibbs W b.y b.initGroups b.warm b.method) ω (run W ω s [a]) = true ∧
    (run W ω s [a, b]).1.muPrior.map (· 0) = some (1 / 2) ∧ (run W ω s [b]).1.muPrior.map (· 0) = some 20 := by
  refine ⟨world, demo, (eqObj 2 3 1 1, 0), firstFit, secondFit, demo_legal, ?_⟩
  decide +kernel
end Verif.Mix
