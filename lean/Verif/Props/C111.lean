import Verif.Lemmas.MirrorGibbs
import Verif.Lemmas.GibbsDemo
import Mathlib.LinearAlgebra.Matrix.PosDef
import Mathlib.LinearAlgebra.Matrix.NonsingularInverse
import Mathlib.Analysis.SpecialFunctions.Log.Basic
import Mathlib.Analysis.SpecialFunctions.Trigonometric.Basic
import Mathlib.Analysis.Matrix.PosDef

/-!
# C111: the Gibbs sampler does not depend on the units, the origin or the axes of the data

`g` is an affine map of the data, `A` its action on the atoms, `Moved` says that the draws of atoms and the densities follow it.  `C111_gauss` shows that
Gaussian densities do, for every invertible affine map, and that the draws can be coupled so.
-/

set_option linter.unusedSectionVars false

namespace Verif.Mix.GM
open Matrix

section
variable {K : Type} [Field K] [LinearOrder K] [IsStrictOrderedRing K] {C : WeightClass K} {m : ℕ} {Atom : Type} {ω : Oracle K}
variable {g : Affine K m} {A : Atom → Atom} {κ L : K} {W W' : World K m Atom}

/-! ### Histories of fits -/

/-- The fits of a history have data; all have the same number `n` of rows unless the densities keep their size (`κ = 0`). -/
def Comparable (κ : K) (n : ℕ) (ops : List (FitArgs K m)) : Prop :=
  ∀ a ∈ ops, ∀ ys, a.y = .rows ys → ys ≠ [] ∧ (κ = 0 ∨ ys.length = n)

theorem Comparable.cond {n : ℕ} {ops : List (FitArgs K m)} (h : Comparable κ n ops) :
    ∀ a ∈ ops, ∀ ys, a.y = .rows ys → ys ≠ [] ∧ (ys.length : K) * κ = (n : K) * κ := by
  intro a ha ys hy
  obtain ⟨h1, h2 | h2⟩ := h a ha ys hy
  · exact ⟨h1, by rw [h2, mul_zero, mul_zero]⟩
  · exact ⟨h1, by rw [h2]⟩

/-- After every history of fits on transformed data the object is the transformed object. -/
theorem C111_history (hW : Moved g A κ W W') {n : ℕ} {ops : List (FitArgs K m)} (ho : Comparable κ n ops) {s : GM C m Atom × ℕ} (h : 0 < s.1.lam) :
    run W' ω (move g A ((n : K) * κ) s.1, s.2) (ops.map (FitArgs.move g)) =
      (move g A ((n : K) * κ) (run W ω s ops).1, (run W ω s ops).2) := run_move hW ops ho.cond h

/-- What the user sees of it: the same labels, weights, slice variables, numbers of groups and of atoms, co-clustering counts and position of the
generator; the means and covariances of the groups are the images; the log-likelihood of the MAP state changes by the constant. -/
theorem C111_fit (hW : Moved g A κ W W') {n : ℕ} {ops : List (FitArgs K m)} (ho : Comparable κ n ops) {s : GM C m Atom × ℕ} (h : 0 < s.1.lam) :
    let t := run W ω s ops
    let t' := run W' ω (move g A ((n : K) * κ) s.1, s.2) (ops.map (FitArgs.move g))
    t'.1.d = t.1.d ∧ t'.1.u = t.1.u ∧ t'.1.wst = t.1.wst ∧ t'.2 = t.2 ∧ t'.1.affinity = t.1.affinity ∧ t'.1.nGroups = t.1.nGroups ∧
    t'.1.nAtoms = t.1.nAtoms ∧ t'.1.totalSaved = t.1.totalSaved ∧ t'.1.gibbsFitted = t.1.gibbsFitted ∧
    t'.1.saved.map (fun p => (p.w, p.u, p.d)) = t.1.saved.map (fun p => (p.w, p.u, p.d)) ∧
    (∀ j, t'.1.theta.lookup j = (t.1.theta.lookup j).map A) ∧
    t'.1.mapParams.map (fun p => (p.w, p.u, p.d)) = t.1.mapParams.map (fun p => (p.w, p.u, p.d)) ∧
    t'.1.mapLL = t.1.mapLL + (((n : K) * κ : K) : WithBot K) := by
  intro t t'
  have e : t' = (move g A ((n : K) * κ) t.1, t.2) := C111_history hW ho h
  rw [e]
  refine ⟨rfl, rfl, rfl, rfl, rfl, rfl, rfl, rfl, rfl, ?_, fun j => lookup_move _ _ _, ?_, rfl⟩
  · simp only [move, List.map_map]
    rfl
  · simp only [move, Option.map_map]
    rfl

/-- Each fit returns or raises as the fit of the original data does. -/
theorem C111_raises (hW : Moved g A κ W W') {n : ℕ} (a : FitArgs K m) (ho : Comparable κ n [a]) {s : GM C m Atom × ℕ} (h : 0 < s.1.lam) :
    (fitGibbs W' (YArg.move g a.y) a.initGroups a.warm a.method ω (move g A ((n : K) * κ) s.1, s.2)).1 =
      (fitGibbs W a.y a.initGroups a.warm a.method ω s).1 := by
  have := (fitGibbs_move (ω := ω) hW a (fun ys hy => (ho.cond a (by simp) ys hy).1) (fun ys hy => (ho.cond a (by simp) ys hy).2) h).1
  rw [this, except_map_id]

/-! ### Result methods -/

/-- The densities at transformed points are the old ones times `ρ`. -/
def PdfMoved (g : Affine K m) (A : Atom → Atom) (ρ : K) (W W' : World K m Atom) : Prop :=
  ρ ≠ 0 ∧ ∀ x a, W'.pdf .none (g.pt x) (A a) = ρ * W.pdf .none x a

variable {ρ : K}

theorem componentRows_move (hp : PdfMoved g A ρ W W') (xs : List (Fin m → K)) (w : List K) (theta : List (ℕ × Atom)) :
    ∀ js, componentRows (W'.pdf .none) (xs.map g.pt) w (moveTheta A theta) js =
      (componentRows (W.pdf .none) xs w theta js).map (List.map (List.map (fun z => ρ * z)))
  | [] => rfl
  | j :: js => by
    rw [componentRows, componentRows, lookup_move, componentRows_move hp xs w theta js]
    cases theta.lookup j with
    | none => rfl
    | some a =>
      simp only [Option.map_some]
      cases w[j]? with
      | none => rfl
      | some wj =>
        simp only []
        cases componentRows (W.pdf .none) xs w theta js with
        | error e => rfl
        | ok rs =>
          refine congrArg Except.ok ?_
          rw [List.map_cons, List.map_map, List.map_map]
          congr 1
          apply List.map_congr_left
          intro x _
          simp only [Function.comp_apply, hp.2, mul_assoc]

theorem getD_scale (r : List K) (i : ℕ) : ((r.map (fun z => ρ * z))[i]?).getD 0 = ρ * (r[i]?).getD 0 := by
  rw [List.getElem?_map]
  cases r[i]? <;> simp

theorem colSums_move (n : ℕ) (rows : List (List K)) :
    colSums n (rows.map (List.map (fun z => ρ * z))) = (colSums n rows).map (fun z => ρ * z) := by
  unfold colSums
  rw [List.map_map]
  apply List.map_congr_left
  intro i _
  simp only [Function.comp_apply]
  rw [List.map_map, ← List.sum_map_mul_left]
  congr 1
  apply List.map_congr_left
  intro r _
  exact getD_scale r i

theorem mixtureDensity_move (hp : PdfMoved g A ρ W W') (xs : List (Fin m → K)) (w : List K) (theta : List (ℕ × Atom)) (comp : Option ℕ) :
    mixtureDensity W'.pdf (xs.map g.pt) w (moveTheta A theta) .none comp =
      (mixtureDensity W.pdf xs w theta .none comp).map (List.map (fun z => ρ * z)) := by
  unfold mixtureDensity
  rw [if_neg (by simp), if_neg (by simp), componentRows_move hp]
  cases componentRows (W.pdf .none) xs w theta (match comp with | none => List.range w.length | some j => [j]) with
  | error e => rfl
  | ok rows =>
    cases rows with
    | nil => simp [Except.map]
    | cons r rows =>
      refine congrArg Except.ok ?_
      rw [← colSums_move, List.length_map]

theorem queryRows_move (s : GM C m Atom) (y : Option (YArg K m)) :
    queryRows (move g A L s) (y.map (YArg.move g)) = (queryRows s y).map (List.map g.pt) := by
  rcases y with _ | (ys | _) <;> rfl

theorem stateDensities_move (hp : PdfMoved g A ρ W W') (xs : List (Fin m → K)) (comp : Option ℕ) : ∀ ps : List (RunParams K Atom),
    stateDensities W' (xs.map g.pt) .none comp (ps.map (RunParams.move A)) =
      (stateDensities W xs .none comp ps).map (List.map (List.map (fun z => ρ * z)))
  | [] => rfl
  | p :: ps => by
    rw [List.map_cons, stateDensities, stateDensities, stateDensities_move hp xs comp ps]
    have : mixtureDensity W'.pdf (xs.map g.pt) (RunParams.move A p).w (RunParams.move A p).theta .none comp = _ := mixtureDensity_move hp xs p.w p.theta comp
    rw [this]
    cases mixtureDensity W.pdf xs p.w p.theta .none comp with
    | error e => rfl
    | ok r =>
      cases stateDensities W xs .none comp ps <;> rfl

theorem usedStates_move (saved : List (RunParams K Atom)) (periods : Option ℤ) :
    usedStates (saved.map (RunParams.move A)) periods = (usedStates saved periods).map (RunParams.move A) := by
  cases periods with
  | none => rfl
  | some p =>
    simp only [usedStates, lastSlice, List.length_map]
    split
    · rfl
    · split <;> rw [List.map_drop]

/-- `gibbs_eap_density` at the transformed points (or at the fitted data): the old densities times the constant. -/
theorem C111_eap_density (hp : PdfMoved g A ρ W W') (s : GM C m Atom) (y : Option (YArg K m)) (comp : Option ℕ) (periods : Option ℤ) :
    eapDensity W' (move g A L s) (y.map (YArg.move g)) .none comp periods =
      (eapDensity W s y .none comp periods).map (List.map (fun z => ρ * z)) := by
  unfold eapDensity
  have e : (move g A L s).gibbsFitted = s.gibbsFitted := rfl
  rw [e, queryRows_move]
  split
  · rfl
  · cases queryRows s y with
    | error e => rfl
    | ok xs =>
      simp only [Except.map]
      have : usedStates (move g A L s).saved periods = (usedStates s.saved periods).map (RunParams.move A) := usedStates_move _ _
      rw [this, stateDensities_move hp]
      cases stateDensities W xs .none comp (usedStates s.saved periods) with
      | error e => rfl
      | ok rows =>
        refine congrArg Except.ok ?_
        unfold colMeans
        simp only [List.length_map, colSums_move, List.map_map, reduceCtorEq, if_false]
        apply List.map_congr_left
        intro z _
        simp only [Function.comp_apply, mul_div_assoc]

/-- `gibbs_map_density`. -/
theorem C111_map_density (hp : PdfMoved g A ρ W W') (s : GM C m Atom) (y : Option (YArg K m)) (comp : Option ℕ) :
    mapDensity W' (move g A L s) (y.map (YArg.move g)) .none comp =
      (mapDensity W s y .none comp).map (List.map (fun z => ρ * z)) := by
  unfold mapDensity
  have e : (move g A L s).gibbsFitted = s.gibbsFitted := rfl
  have e2 : (move g A L s).mapParams = s.mapParams.map (RunParams.move A) := rfl
  rw [e, queryRows_move, e2]
  split
  · rfl
  · cases queryRows s y with
    | error e => rfl
    | ok xs =>
      simp only [Except.map]
      cases s.mapParams with
      | none => rfl
      | some p => exact mixtureDensity_move hp xs p.w p.theta comp

theorem clusterRows_move (hp : PdfMoved g A ρ W W') (xs : List (Fin m → K)) (theta : List (ℕ × Atom)) :
    ∀ js, clusterRows (W'.pdf .none) (xs.map g.pt) (moveTheta A theta) js =
      (clusterRows (W.pdf .none) xs theta js).map (List.map (List.map (fun z => ρ * z)))
  | [] => rfl
  | j :: js => by
    rw [clusterRows, clusterRows, lookup_move, clusterRows_move hp xs theta js]
    cases theta.lookup j with
    | none => rfl
    | some a =>
      simp only [Option.map_some]
      cases clusterRows (W.pdf .none) xs theta js with
      | error e => rfl
      | ok rs =>
        refine congrArg Except.ok ?_
        rw [List.map_cons, List.map_map, List.map_map]
        congr 1
        apply List.map_congr_left
        intro x _
        simp only [Function.comp_apply, hp.2]

theorem assignProb_move (hρ : ρ ≠ 0) (rows : List (List K)) (w : List K) (i : ℕ) :
    assignProb (rows.map (List.map (fun z => ρ * z))) w i = assignProb rows w i := by
  unfold assignProb
  have : List.zipWith (· * ·) ((rows.map (List.map (fun z => ρ * z))).map (fun r => (r[i]?).getD 0)) w =
      (List.zipWith (· * ·) (rows.map (fun r => (r[i]?).getD 0)) w).map (fun z => ρ * z) := by
    rw [List.map_map, List.map_zipWith, List.zipWith_map_left, List.zipWith_map_left]
    congr 1
    funext r wj
    simp only [Function.comp_apply]
    rw [getD_scale, mul_assoc]
  simp only []
  rw [this, List.sum_map_mul_left, List.map_id', List.map_map]
  apply List.map_congr_left
  intro z _
  exact mul_div_mul_left _ _ hρ

theorem cluster_move (hp : PdfMoved g A ρ W W') (xs : List (Fin m → K)) (w : List K) (theta : List (ℕ × Atom)) :
    cluster (W'.pdf .none) (xs.map g.pt) w (moveTheta A theta) = cluster (W.pdf .none) xs w theta := by
  unfold cluster
  rw [clusterRows_move hp, List.length_map]
  cases clusterRows (W.pdf .none) xs theta (List.range w.length) with
  | error e => rfl
  | ok rows => simp only [Except.map, assignProb_move hp.1]

/-- `gibbs_map_cluster`: labels and uncertainties are the same. -/
theorem C111_map_cluster (hp : PdfMoved g A ρ W W') (s : GM C m Atom) (y : Option (YArg K m)) :
    mapCluster W' (move g A L s) (y.map (YArg.move g)) = mapCluster W s y := by
  unfold mapCluster
  have e : (move g A L s).gibbsFitted = s.gibbsFitted := rfl
  have e2 : (move g A L s).mapParams = s.mapParams.map (RunParams.move A) := rfl
  rw [e, queryRows_move, e2]
  split
  · rfl
  · cases queryRows s y with
    | error e => rfl
    | ok xs =>
      simp only [Except.map]
      cases s.mapParams with
      | none => rfl
      | some p => exact cluster_move hp xs p.w p.theta

theorem stateClusters_move (hp : PdfMoved g A ρ W W') (xs : List (Fin m → K)) : ∀ ps : List (RunParams K Atom),
    stateClusters W' (xs.map g.pt) (ps.map (RunParams.move A)) = stateClusters W xs ps
  | [] => rfl
  | p :: ps => by
    rw [List.map_cons, stateClusters, stateClusters, stateClusters_move hp xs ps]
    have : cluster (W'.pdf .none) (xs.map g.pt) (RunParams.move A p).w (RunParams.move A p).theta = _ := cluster_move hp xs p.w p.theta
    rw [this]

/-- `gibbs_eap_affinity_matrix`, without data and with new points. -/
theorem C111_affinity (hp : PdfMoved g A ρ W W') (s : GM C m Atom) (y : YArg K m) :
    eapAffinity (move g A L s) = eapAffinity s ∧ eapAffinityAt W' (move g A L s) (YArg.move g y) = eapAffinityAt W s y := by
  refine ⟨rfl, ?_⟩
  unfold eapAffinityAt
  have e : (move g A L s).gibbsFitted = s.gibbsFitted := rfl
  have e2 : (move g A L s).saved = s.saved.map (RunParams.move A) := rfl
  have := queryRows_move (g := g) (A := A) (L := L) s (some y)
  rw [Option.map_some] at this
  rw [e, this, e2]
  split
  · rfl
  · cases queryRows s (some y) with
    | error e => rfl
    | ok xs =>
      simp only [Except.map, List.length_map, stateClusters_move hp]

/-! ### Translations -/

/-- A translation. -/
def shift (c : Fin m → K) : Affine K m := { B := fun i j => if i = j then 1 else 0, c := c }

theorem shift_pt (c x : Fin m → K) : (shift c).pt x = fun i => x i + c i := by
  funext i; simp [Affine.pt, Affine.lin, shift]

theorem shift_conj (c : Fin m → K) (P : Fin m → Fin m → K) : (shift c).conj P = P := by
  funext i j
  simp [Affine.conj, shift]

/-- Adding a constant vector to the data (and to the prior mean, when the user gave one): with a generator whose atoms are drawn relative to the mean
of their law, a history of fits of the *same* program leaves the same labels, weights and densities; the prior stays the default one. -/
theorem C111_translation (c : Fin m → K) (hatom : ∀ p q, W.atom p { q with mu := fun i => q.mu i + c i } = A (W.atom p q))
    (hk : ∀ p (ys : List (Fin m → K)) k, W.kmeans p (ys.map fun y i => y i + c i) k = W.kmeans p ys k)
    (hv : ∀ p (ys : List (Fin m → K)) k, W.varLabels p (ys.map fun y i => y i + c i) k = W.varLabels p ys k)
    (hlp : ∀ x a, W.logpdf (fun i => x i + c i) (A a) = W.logpdf x a) (hpdf : ∀ x a, W.pdf .none (fun i => x i + c i) (A a) = W.pdf .none x a)
    {ops : List (FitArgs K m)} (ho : ∀ a ∈ ops, ∀ ys, a.y = .rows ys → ys ≠ []) {s : GM C m Atom × ℕ} (h : 0 < s.1.lam)
    (hfresh : s.1.muPrior = none ∧ s.1.theta = [] ∧ s.1.mapParams = none ∧ s.1.saved = [] ∧ s.1.y = []) :
    let t := run W ω s ops
    let t' := run W ω s (ops.map (FitArgs.move (shift c)))
    t'.1.d = t.1.d ∧ t'.1.wst = t.1.wst ∧ t'.1.affinity = t.1.affinity ∧ t'.1.nGroups = t.1.nGroups ∧
    (∀ j, t'.1.theta.lookup j = (t.1.theta.lookup j).map A) ∧
    mapCluster W t'.1 none = mapCluster W t.1 none ∧ eapAffinity t'.1 = eapAffinity t.1 ∧
    (∀ ys comp periods, eapDensity W t'.1 (some (.rows (ys.map fun y i => y i + c i))) .none comp periods =
      eapDensity W t.1 (some (.rows ys)) .none comp periods) := by
  intro t t'
  have hf : (shift c).pt = fun (x : Fin m → K) i => x i + c i := funext (shift_pt c)
  have hW : Moved (shift c) A 0 W W := by
    refine ⟨rfl, rfl, rfl, rfl, rfl, rfl, ?_, ?_, ?_, ?_⟩
    · intro p q
      rw [← hatom]
      unfold Affine.niw
      rw [shift_pt, shift_conj]
    · intro p ys k; rw [hf, hk]
    · intro p ys k; rw [hf, hv]
    · intro x a; rw [shift_pt, hlp, WithBot.coe_zero, add_zero]
  have hp : PdfMoved (shift c) A 1 W W := ⟨one_ne_zero, fun x a => by rw [shift_pt, hpdf, one_mul]⟩
  have hs : move (shift c) A 0 s.1 = s.1 := by
    obtain ⟨h1, h2, h3, h4, h5⟩ := hfresh
    obtain ⟨s, p⟩ := s
    have e : s.psiPrior.map (shift c).conj = s.psiPrior := by
      cases s.psiPrior with
      | none => rfl
      | some P => exact congrArg some (shift_conj c P)
    cases s
    simp only at h1 h2 h3 h4 h5 e
    simp only [move, h1, h2, h3, h4, h5, e, WithBot.coe_zero, add_zero]
    rfl
  have e := C111_history (ω := ω) (n := 0) hW (ops := ops) (fun a ha ys hy => ⟨ho a ha ys hy, Or.inl rfl⟩) h
  rw [mul_zero, hs] at e
  have e' : t' = (move (shift c) A 0 t.1, t.2) := e
  have e1 : List.map (fun z : K => 1 * z) = id := by funext l; simp
  rw [e']
  refine ⟨rfl, rfl, rfl, rfl, fun j => lookup_move _ _ _, C111_map_cluster hp t.1 none, rfl, ?_⟩
  intro ys comp periods
  have := C111_eap_density (L := 0) hp t.1 (some (.rows ys)) comp periods
  rw [Option.map_some, YArg.move, hf, e1, except_map_id] at this
  exact this
end

/-! ### Gaussian densities -/

section gauss
variable {m : ℕ}

/-- An atom: a mean and a covariance matrix. -/
abbrev GAtom (m : ℕ) : Type := (Fin m → ℝ) × { S : Matrix (Fin m) (Fin m) ℝ // S.PosDef }

/-- The logarithm of the density of the normal law. -/
noncomputable def gaussLog (x : Fin m → ℝ) (a : GAtom m) : ℝ :=
  -((m : ℝ) * Real.log (2 * Real.pi) + Real.log a.2.1.det + (x - a.1) ⬝ᵥ (a.2.1⁻¹ *ᵥ (x - a.1))) / 2

theorem posDef_conj (g : Affine ℝ m) (hg : IsUnit (Matrix.of g.B)) {S : Matrix (Fin m) (Fin m) ℝ} (hS : S.PosDef) :
    (Matrix.of g.B * S * (Matrix.of g.B)ᵀ).PosDef := by
  have := hS.mul_mul_conjTranspose_same (B := Matrix.of g.B) (Matrix.vecMul_injective_of_isUnit hg)
  rwa [Matrix.conjTranspose_eq_transpose_of_trivial] at this

/-- The image of an atom. -/
noncomputable def gaussMove (g : Affine ℝ m) (hg : IsUnit (Matrix.of g.B)) (a : GAtom m) : GAtom m :=
  (g.pt a.1, ⟨Matrix.of g.B * a.2.1 * (Matrix.of g.B)ᵀ, posDef_conj g hg a.2.2⟩)

theorem gaussLog_move (g : Affine ℝ m) (hg : IsUnit (Matrix.of g.B)) (x : Fin m → ℝ) (a : GAtom m) :
    gaussLog (g.pt x) (gaussMove g hg a) = gaussLog x a + -Real.log |(Matrix.of g.B).det| := by
  have hd : (Matrix.of g.B).det ≠ 0 := ((Matrix.isUnit_iff_isUnit_det _).1 hg).ne_zero
  have hS := a.2.2.det_pos
  have e : g.pt x - g.pt a.1 = Matrix.of g.B *ᵥ (x - a.1) := by
    funext i
    rw [Pi.sub_apply, Affine.lin_sub]
    simp [Affine.lin, Matrix.mulVec, dotProduct]
  have e2 : (Matrix.of g.B * a.2.1 * (Matrix.of g.B)ᵀ).det = a.2.1.det * ((Matrix.of g.B).det) ^ 2 := by
    rw [Matrix.det_mul, Matrix.det_mul, Matrix.det_transpose]; ring
  have e3 : (Matrix.of g.B *ᵥ (x - a.1)) ⬝ᵥ ((Matrix.of g.B * a.2.1 * (Matrix.of g.B)ᵀ)⁻¹ *ᵥ (Matrix.of g.B *ᵥ (x - a.1))) =
      (x - a.1) ⬝ᵥ (a.2.1⁻¹ *ᵥ (x - a.1)) := by
    have hu := (Matrix.isUnit_iff_isUnit_det _).1 hg
    have hut : IsUnit ((Matrix.of g.B)ᵀ).det := by rwa [Matrix.det_transpose]
    rw [Matrix.mul_inv_rev, Matrix.mul_inv_rev, Matrix.mulVec_mulVec, Matrix.dotProduct_mulVec, ← Matrix.vecMul_transpose, Matrix.vecMul_vecMul,
      ← Matrix.dotProduct_mulVec]
    congr 2
    rw [Matrix.mul_assoc, Matrix.mul_assoc, Matrix.nonsing_inv_mul _ hu, Matrix.mul_one, ← Matrix.mul_assoc, Matrix.mul_nonsing_inv _ hut, Matrix.one_mul]
  unfold gaussLog
  simp only [gaussMove]
  rw [e, e2, e3, Real.log_mul hS.ne' (pow_ne_zero _ hd), Real.log_pow, Real.log_abs]
  push_cast
  ring

/-- Gaussian densities follow every invertible affine map: there is a surrounding `W'` with the same Gaussian densities and the same uniform and Gumbel draws whose
atoms are the images of the atoms drawn by `W`, and on which the sampler of the transformed data mirrors the original. -/
theorem C111_gauss (g : Affine ℝ m) (hg : IsUnit (Matrix.of g.B)) (W : World ℝ m (GAtom m)) (hl : ∀ x a, W.logpdf x a = ((gaussLog x a : ℝ) : WithBot ℝ))
    (hp : ∀ x a, W.pdf .none x a = Real.exp (gaussLog x a)) :
    ∃ W' : World ℝ m (GAtom m), (∀ x a, W'.logpdf x a = ((gaussLog x a : ℝ) : WithBot ℝ)) ∧ (∀ x a, W'.pdf .none x a = Real.exp (gaussLog x a)) ∧
      Moved g (gaussMove g hg) (-Real.log |(Matrix.of g.B).det|) W W' ∧ PdfMoved g (gaussMove g hg) |(Matrix.of g.B).det|⁻¹ W W' := by
  have hd : (Matrix.of g.B).det ≠ 0 := ((Matrix.isUnit_iff_isUnit_det _).1 hg).ne_zero
  have hu := (Matrix.isUnit_iff_isUnit_det _).1 hg
  -- the inverse map
  have hpt : Function.Injective g.pt := by
    intro x y hxy
    apply Matrix.mulVec_injective_of_isUnit hg
    funext i
    have := congrFun hxy i
    simpa [Affine.pt, Affine.lin, Matrix.mulVec, dotProduct] using this
  have hof : ∀ P : Fin m → Fin m → ℝ, Matrix.of (g.conj P) = Matrix.of g.B * Matrix.of P * (Matrix.of g.B)ᵀ := by
    intro P
    ext i j
    simp only [Matrix.of_apply, Affine.conj, Matrix.mul_apply, Matrix.transpose_apply, Finset.sum_mul]
    exact Finset.sum_comm
  have hcj : Function.Injective g.conj := by
    intro P Q hPQ
    have h1 : Matrix.of g.B * Matrix.of P * (Matrix.of g.B)ᵀ = Matrix.of g.B * Matrix.of Q * (Matrix.of g.B)ᵀ := by rw [← hof, ← hof, hPQ]
    have hut : IsUnit (Matrix.of g.B)ᵀ := (Matrix.isUnit_transpose _).2 hg
    exact Matrix.of.injective (hg.mul_left_cancel (hut.mul_right_cancel h1))
  have hn : Function.Injective g.niw := by
    rintro ⟨m1, l1, p1, n1⟩ ⟨m2, l2, p2, n2⟩ h
    simp only [Affine.niw, NIW.mk.injEq] at h
    obtain ⟨h1, rfl, h3, rfl⟩ := h
    rw [hpt h1, hcj h3]
  have hL : Function.Injective (List.map g.pt) := List.map_injective_iff.2 hpt
  refine ⟨{ W with
      atom := fun p => Function.extend g.niw (fun q => gaussMove g hg (W.atom p q)) (fun q => W.atom p q)
      kmeans := fun p ys k => Function.extend (List.map g.pt) (fun ys => W.kmeans p ys k) (fun _ => .error .valueError) ys
      varLabels := fun p ys k => Function.extend (List.map g.pt) (fun ys => W.varLabels p ys k) (fun _ => .error .valueError) ys }, hl, hp, ?_, ?_⟩
  · refine ⟨rfl, rfl, rfl, rfl, rfl, rfl, ?_, ?_, ?_, ?_⟩
    · intro p q; exact hn.extend_apply (fun q => gaussMove g hg (W.atom p q)) (fun q => W.atom p q) q
    · intro p ys k; exact hL.extend_apply (fun ys => W.kmeans p ys k) (fun _ => .error .valueError) ys
    · intro p ys k; exact hL.extend_apply (fun ys => W.varLabels p ys k) (fun _ => .error .valueError) ys
    · intro x a
      show W.logpdf _ _ = _
      rw [hl, hl, gaussLog_move, WithBot.coe_add]
  · refine ⟨inv_ne_zero (abs_ne_zero.2 hd), ?_⟩
    intro x a
    show W.pdf _ _ _ = _
    rw [hp, hp, gaussLog_move, Real.exp_add, Real.exp_neg, Real.exp_log (abs_pos.2 hd), mul_comm]

/-- Rescaling, rotating and shifting the data (`B` invertible): for Gaussian mixtures there is such a coupled surrounding, and for every history of fits of `n` rows the labels, weights and
counts agree, the log-likelihood of the MAP state drops by `n log |det B|`, the densities are divided by `|det B|`, the clusterings agree. -/
theorem C111_affine (g : Affine ℝ m) (hg : IsUnit (Matrix.of g.B)) (W : World ℝ m (GAtom m)) (hl : ∀ x a, W.logpdf x a = ((gaussLog x a : ℝ) : WithBot ℝ))
    (hp : ∀ x a, W.pdf .none x a = Real.exp (gaussLog x a)) :
    ∃ W' : World ℝ m (GAtom m), (∀ x a, W'.logpdf x a = ((gaussLog x a : ℝ) : WithBot ℝ)) ∧ (∀ x a, W'.pdf .none x a = Real.exp (gaussLog x a)) ∧
      (∀ p q, W'.atom p (g.niw q) = gaussMove g hg (W.atom p q)) ∧
      ∀ (C : WeightClass ℝ) (ω : Oracle ℝ) (n : ℕ) (ops : List (FitArgs ℝ m)) (s : GM C m (GAtom m) × ℕ), 0 < s.1.lam →
        (∀ a ∈ ops, ∀ ys, a.y = .rows ys → ys ≠ [] ∧ ys.length = n) →
        let L := (n : ℝ) * -Real.log |(Matrix.of g.B).det|
        let t := run W ω s ops
        let t' := run W' ω (move g (gaussMove g hg) L s.1, s.2) (ops.map (FitArgs.move g))
        t'.1.d = t.1.d ∧ t'.1.wst = t.1.wst ∧ t'.1.affinity = t.1.affinity ∧ t'.1.nGroups = t.1.nGroups ∧ t'.1.mapLL = t.1.mapLL + (L : WithBot ℝ) ∧
        (∀ j, t'.1.theta.lookup j = (t.1.theta.lookup j).map (gaussMove g hg)) ∧
        (∀ y, mapCluster W' t'.1 (y.map (YArg.move g)) = mapCluster W t.1 y) ∧
        (∀ y comp periods, eapDensity W' t'.1 (y.map (YArg.move g)) .none comp periods =
          (eapDensity W t.1 y .none comp periods).map (List.map (fun z => |(Matrix.of g.B).det|⁻¹ * z))) := by
  obtain ⟨W', h1, h2, h3, h4⟩ := C111_gauss g hg W hl hp
  refine ⟨W', h1, h2, h3.atom, ?_⟩
  intro C ω n ops s hs ho L t t'
  have e : t' = (move g (gaussMove g hg) L t.1, t.2) := C111_history h3 (fun a ha ys hy => ⟨(ho a ha ys hy).1, Or.inr (ho a ha ys hy).2⟩) hs
  rw [e]
  exact ⟨rfl, rfl, rfl, rfl, rfl, fun j => lookup_move _ _ _, fun y => C111_map_cluster h4 _ y, fun y comp periods => C111_eap_density h4 _ y comp periods⟩
end gauss

/-! ### The hypotheses are met -/

/-- In the concrete surrounding of the examples, atoms are drawn around the posterior mean. -/
theorem world_moved (c : ℚ) : Moved (shift fun _ => c) (fun a : ℚ => a + c) 0 world world := by
  have hf : (shift fun _ : Fin 1 => c).pt = fun (x : Fin 1 → ℚ) i => x i + c := funext (shift_pt _)
  refine ⟨rfl, rfl, rfl, rfl, rfl, rfl, ?_, ?_, ?_, ?_⟩
  · intro p q
    simp only [world, Affine.niw, hf]
    ring
  · intro p ys k
    simp only [world, List.length_map]
  · intro p ys k
    simp only [world, List.map_map]
    rfl
  · intro x a
    rw [hf]
    simp only [world, WithBot.coe_zero, add_zero, add_sub_add_right_eq_sub]

/-- Two fits that return, the second a warm start on other data: a history for the theorems above. -/
example : Comparable (0 : ℚ) 0 [⟨rows1 [0, 1, 5], .int 2, false, .kmeans⟩, ⟨rows1 [1, 2, 6], .none, true, .random⟩] ∧
    0 < (eqObj 2 3 1 1).lam ∧
    returns (fitGibbs world (rows1 [0, 1, 5]) (.int 2) false .kmeans) demo (eqObj 2 3 1 1, 0) = true ∧
    (run world demo (eqObj 2 3 1 1, 0) [⟨rows1 [0, 1, 5], .int 2, false, .kmeans⟩, ⟨rows1 [1, 2, 6], .none, true, .random⟩]).1.totalSaved = 4 := by
  refine ⟨?_, by decide +kernel, by decide +kernel, by decide +kernel⟩
  intro a ha ys hy
  simp only [List.mem_cons, List.not_mem_nil, or_false] at ha
  rcases ha with rfl | rfl <;> · cases hy; exact ⟨by simp, Or.inl rfl⟩

/-- The labels after these fits of data around 1000 are those of the data around 0. -/
example : (run world demo (eqObj 2 3 1 1, 0) [⟨rows1 [1000, 1001, 1005], .int 2, false, .kmeans⟩]).1.d =
    (run world demo (eqObj 2 3 1 1, 0) [⟨rows1 [0, 1, 5], .int 2, false, .kmeans⟩]).1.d := by decide +kernel

/-- Gaussian surroundings exist for every dimension, and rescalings are invertible. -/
example : IsUnit (Matrix.of (Affine.mk (fun i j : Fin 2 => if i = j then (1000 : ℝ) else 0) (fun _ => 3)).B) := by
  rw [Matrix.isUnit_iff_isUnit_det]
  simp [Matrix.det_fin_two]
end Verif.Mix.GM
