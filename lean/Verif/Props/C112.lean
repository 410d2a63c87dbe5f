import Verif.Lemmas.MirrorVar
import Verif.Lemmas.VarDemo
import Verif.Props.C111
import Mathlib.Data.Matrix.Basic
import Mathlib.Tactic.FinCases

/-!
# C112: the variational fit follows changes of coordinates that keep distances

`g` is a rigid motion of the data (`Affine.Rigid`: its linear part is orthogonal), `A` its action on the atoms of the sampler.  The full claim is that every
history of fits of the transformed data leaves the transformed object, for every rigid motion.  `C112_history_partial` proves it for the rigid motions whose linear
part keeps the vector of ones up to its sign (`Affine.KeepsOnes`), which covers translations (`C112_translation`), permutations of the coordinates
(`C112_permutation`) and all rigid motions of the line (`C112_line`).  For other motions it is false: `C112_exact` shows that the update of the scale matrix of a
group follows a rigid motion only if it keeps the ones, and `C112_reflection_refuted` gives a fit that a reflection of one axis changes.
-/

set_option linter.unusedSectionVars false

namespace Verif.Mix.VM
open Matrix
open GM (shift shift_pt shift_conj)

section
variable {K : Type} [Field K] [LinearOrder K] [IsStrictOrderedRing K] {C : WeightClass K} {V : VarClass C} {m : ℕ} {Atom : Type} {ω : Oracle K}
variable {g : Affine K m} {A : Atom → Atom} {W W' : World K m Atom} {F F' : VWorld K m}

/-- What the surroundings of two fits have to do with each other: same functions, non-negative exponential and machine epsilon, draws that follow `g`, and a
k-means that labels every row. -/
structure Follow (g : Affine K m) (A : Atom → Atom) (F F' : VWorld K m) (W W' : World K m Atom) : Prop where
  var : VMoved g F F'
  gibbs : Moved g A 0 W W'
  exp : ∀ x, 0 ≤ F.exp x
  eps : 0 ≤ W.eps
  kmeans : ∀ p ys k raw, W.kmeans p ys k = .ok raw → raw.length = ys.length

/-- After every history of variational and Gibbs fits of the transformed data the object is the transformed object. -/
theorem C112_history_partial (h : g.Rigid) (h1 : g.KeepsOnes) (hF : Follow g A F F' W W') {ops : List (Fit K m)} (ho : ∀ f ∈ ops, f.data ≠ .rows [])
    {s : VM V m Atom × ℕ} (hs : 0 < s.1.gm.lam) :
    runFits F' W' ω (move g A s.1, s.2) (ops.map (Fit.move g)) = (move g A (runFits F W ω s ops).1, (runFits F W ω s ops).2) :=
  runFits_move h h1 hF.var hF.exp hF.eps hF.gibbs hF.kmeans ops ho hs

/-- What this means for the fitted object: the same responsibilities, weights, groups, flags, labels and counts; means and precisions of the groups are transformed. -/
theorem C112_fit_partial (h : g.Rigid) (h1 : g.KeepsOnes) (hF : Follow g A F F' W W') {ops : List (Fit K m)} (ho : ∀ f ∈ ops, f.data ≠ .rows [])
    {s : VM V m Atom × ℕ} (hs : 0 < s.1.gm.lam) :
    let t := runFits F W ω s ops
    let t' := runFits F' W' ω (move g A s.1, s.2) (ops.map (Fit.move g))
    t'.1.varD = t.1.varD ∧ t'.1.vst = t.1.vst ∧ t'.1.varK = t.1.varK ∧ t'.1.varFitted = t.1.varFitted ∧ t'.1.varConverged = t.1.varConverged ∧
    t'.1.varTheta.length = t.1.varTheta.length ∧
    (∀ (j : ℕ) (a : VAtom K m), t.1.varTheta[j]? = some (some a) → ∃ a', t'.1.varTheta[j]? = some (some a') ∧
      (∀ i, a'.mu i = (∑ k, g.B i k * a.mu k) + g.c i) ∧ a'.lam = a.lam ∧ a'.scale = a.scale ∧
      (∀ i l, a'.prec i l = ∑ p, ∑ q, g.B i p * a.prec p q * g.B l q)) ∧
    t'.1.gm.d = t.1.gm.d ∧ t'.1.gm.wst = t.1.gm.wst ∧ t'.1.gm.affinity = t.1.gm.affinity ∧ t'.1.gm.nGroups = t.1.gm.nGroups ∧ t'.2 = t.2 := by
  intro t t'
  have e : t' = (move g A t.1, t.2) := C112_history_partial h h1 hF ho hs
  rw [e]
  refine ⟨rfl, rfl, rfl, rfl, rfl, List.length_map _, ?_, rfl, rfl, rfl, rfl, rfl⟩
  intro j a ha
  refine ⟨VAtom.move g a, ?_, fun i => rfl, rfl, rfl, fun i l => rfl⟩
  show ((t.1.varTheta.map (Option.map (VAtom.move g)))[j]?) = _
  rw [List.getElem?_map, ha]
  rfl

/-- Each fit returns or raises as the fit of the original data does. -/
theorem C112_raises_partial (h : g.Rigid) (h1 : g.KeepsOnes) (hF : Follow g A F F' W W') (f : Fit K m) (hf : f.data ≠ .rows []) {s : VM V m Atom × ℕ}
    (hs : 0 < s.1.gm.lam) : (doFit F' W' (Fit.move g f) ω (move g A s.1, s.2)).1 = (doFit F W f ω s).1 := by
  rw [(mir_doFit (ω := ω) h h1 hF.var hF.exp hF.eps hF.gibbs hF.kmeans f hf hs).1, except_map_id]

/-! ### Result methods: these follow every rigid motion -/

/-- The lower bound of the transformed object, when there are as many responsibilities as data and none is negative. -/
theorem C112_bound (h : g.Rigid) {s : VM V m Atom} (hl : 0 < s.gm.lam) (hm : s.gm.muPrior.isSome = true) (hn : s.varD.length = s.gm.y.length)
    (hd : ∀ c ∈ s.varD, ∀ x, Fl.fin x ∈ c → 0 ≤ x) (G : MathFun K) : calcElbo G (move g A s) = calcElbo G s :=
  calcElbo_move h ⟨hl, hm, mul_zero _⟩ ⟨hn, hd⟩

/-- `var_eap_density` at the transformed points. -/
theorem C112_eap_density (h : g.Rigid) (G : MathFun K) (s : VM V m Atom) {y : Points K} (hy : y.Full m) (comp : Option ℕ) :
    varEapDensity G (move g A s) (Points.move g y) .none comp = varEapDensity G s y .none comp := varEapDensity_move h s hy comp

/-- `var_map_density` at the transformed points, with all coordinates asked for. -/
theorem C112_map_density (h : g.Rigid) (G : MathFun K) (s : VM V m Atom) {y : Points K} (hy : y.Full m) (comp : Option ℕ) :
    varMapDensity G (move g A s) (Points.move g y) (.list (List.range m)) comp = varMapDensity G s y (.list (List.range m)) comp :=
  varMapDensity_move h s hy comp

/-- `var_map_cluster` and `var_eap_affinity_matrix`, for the fitted data and for new points. -/
theorem C112_cluster (h : g.Rigid) (hW : W'.eps = W.eps) (G : MathFun K) (s : VM V m Atom) (y : YQuery K m) (full : Bool) :
    varMapCluster G W' (move g A s) (YQuery.move g y) full = varMapCluster G W s y full ∧
    varAffinity G W' (move g A s) (YQuery.move g y) = varAffinity G W s y :=
  ⟨varMapCluster_move h hW s y full, varAffinity_move h hW s y⟩

/-! ### Translations -/

theorem shift_rigid (c : Fin m → K) : (shift c).Rigid := by
  have : Matrix.of (shift c).B = 1 := by
    ext i j
    simp [shift, Matrix.one_apply]
  unfold Affine.Rigid
  rw [this, Matrix.transpose_one, Matrix.mul_one]

theorem shift_keepsOnes (c : Fin m → K) : (shift c).KeepsOnes := by
  intro i j
  simp [shift]

/-- An object no fit was called on, without user-given prior mean. -/
def Untouched (s : VM V m Atom) : Prop :=
  s.gm.muPrior = none ∧ s.gm.theta = [] ∧ s.gm.mapParams = none ∧ s.gm.saved = [] ∧ s.gm.y = [] ∧ s.varTheta = []

theorem move_untouched {s : VM V m Atom} (h : Untouched s) (hp : s.gm.psiPrior.map g.conj = s.gm.psiPrior) : move g A s = s := by
  obtain ⟨h1, h2, h3, h4, h5, h6⟩ := h
  obtain ⟨gm, vst, varK, varTheta, varD, b1, b2⟩ := s
  cases gm
  simp only at h1 h2 h3 h4 h5 h6 hp
  simp only [move, GM.move, h1, h2, h3, h4, h5, h6, hp, WithBot.coe_zero, add_zero]
  rfl

/-- Adding a constant vector to the data: with a generator that draws starting parameters relative to the prior mean, a history of fits of the *same* program
leaves the same responsibilities, weights, labels and results; only the means of the groups are shifted. -/
theorem C112_translation (c : Fin m → K) (hF : Follow (shift c) A F F W W) {ops : List (Fit K m)} (ho : ∀ f ∈ ops, f.data ≠ .rows [])
    {s : VM V m Atom × ℕ} (hs : 0 < s.1.gm.lam) (hu : Untouched s.1) :
    let t := runFits F W ω s ops
    let t' := runFits F W ω s (ops.map (Fit.move (shift c)))
    t'.1.varD = t.1.varD ∧ t'.1.vst = t.1.vst ∧ t'.1.varFitted = t.1.varFitted ∧ t'.1.gm.d = t.1.gm.d ∧ t'.1.gm.wst = t.1.gm.wst ∧
    (∀ (j : ℕ) (a : VAtom K m), t.1.varTheta[j]? = some (some a) →
      t'.1.varTheta[j]? = some (some { a with mu := fun i => a.mu i + c i })) ∧
    (∀ full, varMapCluster F.toMathFun W t'.1 .none full = varMapCluster F.toMathFun W t.1 .none full) ∧
    (∀ comp, varEapDensity F.toMathFun t'.1 .own .none comp = varEapDensity F.toMathFun t.1 .own .none comp) ∧
    (∀ ys comp, varEapDensity F.toMathFun t'.1 (.given m (ys.map fun y i => y i + c i)) .none comp =
      varEapDensity F.toMathFun t.1 (.given m ys) .none comp) := by
  intro t t'
  have hm : move (shift c) A s.1 = s.1 := by
    refine move_untouched hu ?_
    cases s.1.gm.psiPrior with
    | none => rfl
    | some P => exact congrArg some (shift_conj c P)
  have e : t' = (move (shift c) A t.1, t.2) := by
    have := C112_history_partial (ω := ω) (shift_rigid c) (shift_keepsOnes c) hF ho hs
    rw [hm] at this
    exact this
  rw [e]
  refine ⟨rfl, rfl, rfl, rfl, rfl, ?_, ?_, ?_, ?_⟩
  · intro j a ha
    show ((t.1.varTheta.map (Option.map (VAtom.move (shift c))))[j]?) = _
    rw [List.getElem?_map, ha, Option.map_some, Option.map_some, VAtom.move, shift_pt, shift_conj]
  · intro full
    exact (C112_cluster (A := A) (shift_rigid c) rfl F.toMathFun t.1 .none full).1
  · intro comp
    exact C112_eap_density (shift_rigid c) F.toMathFun t.1 (y := .own) trivial comp
  · intro ys comp
    have := C112_eap_density (A := A) (shift_rigid c) F.toMathFun t.1 (y := .given m ys) rfl comp
    simp only [Points.move, dif_pos] at this
    rwa [show (shift c).pt = fun (x : Fin m → K) i => x i + c i from funext (shift_pt c)] at this

/-! ### Permutations of the coordinates -/

/-- The coordinates in another order. -/
def perm (σ : Equiv.Perm (Fin m)) : Affine K m := { B := fun i j => if σ i = j then 1 else 0, c := fun _ => 0 }

theorem perm_pt (σ : Equiv.Perm (Fin m)) (x : Fin m → K) : (perm σ).pt x = fun i => x (σ i) := by
  funext i; simp [Affine.pt, Affine.lin, perm]

theorem perm_conj (σ : Equiv.Perm (Fin m)) (P : Fin m → Fin m → K) : (perm σ).conj P = fun i j => P (σ i) (σ j) := by
  funext i j
  simp [Affine.conj, perm]

theorem perm_rigid (σ : Equiv.Perm (Fin m)) : (perm (K := K) σ).Rigid := by
  ext i j
  simp [perm, Matrix.mul_apply, Matrix.one_apply, eq_comm]

theorem perm_keepsOnes (σ : Equiv.Perm (Fin m)) : (perm (K := K) σ).KeepsOnes := by
  intro i j
  simp [perm]

/-- Reordering the columns of the data reorders the coordinates of the group means and precisions; responsibilities, weights and labels are the same. -/
theorem C112_permutation (σ : Equiv.Perm (Fin m)) (hF : Follow (perm σ) A F F W W) {ops : List (Fit K m)} (ho : ∀ f ∈ ops, f.data ≠ .rows [])
    {s : VM V m Atom × ℕ} (hs : 0 < s.1.gm.lam) (hu : Untouched s.1) (hp : s.1.gm.psiPrior = none) :
    let t := runFits F W ω s ops
    let t' := runFits F W ω s (ops.map (Fit.move (perm σ)))
    t'.1.varD = t.1.varD ∧ t'.1.vst = t.1.vst ∧ t'.1.varFitted = t.1.varFitted ∧ t'.1.gm.d = t.1.gm.d ∧ t'.1.gm.wst = t.1.gm.wst ∧
    (∀ (j : ℕ) (a : VAtom K m), t.1.varTheta[j]? = some (some a) →
      t'.1.varTheta[j]? = some (some { a with mu := fun i => a.mu (σ i), prec := fun i l => a.prec (σ i) (σ l) })) ∧
    (∀ full, varMapCluster F.toMathFun W t'.1 .none full = varMapCluster F.toMathFun W t.1 .none full) ∧
    (∀ comp, varEapDensity F.toMathFun t'.1 .own .none comp = varEapDensity F.toMathFun t.1 .own .none comp) := by
  intro t t'
  have hm : move (perm σ) A s.1 = s.1 := move_untouched hu (by rw [hp]; rfl)
  have e : t' = (move (perm σ) A t.1, t.2) := by
    have := C112_history_partial (ω := ω) (perm_rigid σ) (perm_keepsOnes σ) hF ho hs
    rw [hm] at this
    exact this
  rw [e]
  refine ⟨rfl, rfl, rfl, rfl, rfl, ?_, ?_, ?_⟩
  · intro j a ha
    show ((t.1.varTheta.map (Option.map (VAtom.move (perm σ))))[j]?) = _
    rw [List.getElem?_map, ha, Option.map_some, Option.map_some, VAtom.move, perm_pt, perm_conj]
  · intro full
    exact (C112_cluster (A := A) (perm_rigid σ) rfl F.toMathFun t.1 .none full).1
  · intro comp
    exact C112_eap_density (perm_rigid σ) F.toMathFun t.1 (y := .own) trivial comp

/-- On the line every rigid motion keeps the ones up to sign: the full claim holds for data with one coordinate. -/
theorem C112_line {g : Affine K 1} (h : g.Rigid) : g.KeepsOnes := by
  intro i j
  have := congrFun (congrFun h 0) 0
  rw [Matrix.mul_apply] at this
  rw [Subsingleton.elim i 0, Subsingleton.elim j 0]
  simpa using this

/-! ### The condition is exact -/

/-- A rigid motion is followed by the update of the scale matrix of a group, for all data, priors and responsibilities, only if it keeps the ones. -/
theorem C112_exact (h : g.Rigid) : g.KeepsOnes ↔ ∀ (ys : List (Fin m → K)) (q : NIW K m) (r : List K), r.length = ys.length → 0 < r.sum →
    varPsi (ys.map g.pt) (g.niw q) r = g.conj (varPsi ys q r) := by
  refine ⟨fun h1 ys q r hl hr => Affine.varPsi_pt h h1 hl hr.ne' q, fun hall i j => ?_⟩
  have key := congrFun (congrFun (hall [fun k => if k = i then 1 else 0] { mu := fun _ => 0, lam := 1, psi := fun _ _ => 0, nu := 1 } [1] rfl (by simp)) i) j
  have e1 : wMean [fun k : Fin m => if k = i then (1 : K) else 0] [1] = fun k => if k = i then 1 else 0 := by
    funext k; simp [wMean]
  have e2 : wCov [fun k : Fin m => if k = i then (1 : K) else 0] [1] = fun _ _ => 0 := by
    funext k l; simp [wCov, wMean]
  have hl : ([1] : List K).length = [fun k : Fin m => if k = i then (1 : K) else 0].length := rfl
  have hr : ([1] : List K).sum ≠ 0 := by simp
  have e3 := Affine.wMean_pt (g := g) hl hr
  have e4 := Affine.wCov_pt (g := g) hl hr
  rw [e1] at e3
  rw [e2] at e4
  have ec : ∀ a b : Fin m, g.conj (fun _ _ => (0 : K)) a b = 0 := fun a b => by simp [Affine.conj]
  have es : ∑ k, (g.pt (fun k => if k = i then (1 : K) else 0) k - g.pt (fun _ => 0) k) * (g.pt (fun k => if k = i then (1 : K) else 0) k - g.pt (fun _ => 0) k) = 1 := by
    simp only [Affine.lin_sub]
    rw [Affine.lin_dot h]
    simp
  have ex : g.conj (fun _ _ => (1 : K) / 2) i j = 1 / 2 * ((∑ k, g.B i k) * ∑ k, g.B j k) := by
    have := Affine.conj_outer g (fun _ => (1 : K) / 2) (fun _ => 1) i j
    simp only [mul_one] at this
    rw [this]
    simp only [Affine.lin, mul_one, ← Finset.sum_mul]
    ring
  unfold varPsi at key
  rw [e3, e4, e1, e2] at key
  simp only [Affine.niw, List.sum_cons, List.sum_nil, add_zero, sub_zero, ec, es] at key
  norm_num at key
  have e5 : g.conj (fun _ _ : Fin m => (1 : K) / 2) i j = 1 / 2 := key.symm
  rw [ex] at e5
  linarith
end

/-! ### A reflection that is not followed -/

/-- Two-dimensional data; what is drawn only depends on the first coordinate. -/
def world2 : World ℚ 2 ℚ where
  unif := fun _ lo hi => (lo + hi) / 2
  atom := fun p niw => niw.mu 0 + (p : ℚ) / 10
  gumbel := fun p => ((p % 3 : ℕ) : ℚ)
  kmeans := fun _ ys k => if k < 1 ∨ (ys.length : ℤ) < k then .error .valueError else .ok ((List.range ys.length).map (fun i => i % k.toNat))
  argsort := demoArgsort
  varLabels := fun _ ys _ => .ok (ys.map (fun _ => 0))
  logpdf := fun x a => ((-(x 0 - a) ^ 2 : ℚ) : WithBot ℚ)
  pdf := fun _ x a => 1 / (1 + (x 0 - a) ^ 2)
  log := fun x => x - 1
  eps := 1 / 1000
  fuel := 20

/-- Starting parameters: the prior mean moved along the first axis, the prior matrix. -/
def vworld2 : VWorld ℚ 2 := { demoFun with
  niw := fun p q => (fun i => q.mu i + if i = 0 then (p : ℚ) else 0, q.psi)
  tol := 1 / 100 }

/-- The reflection of the second axis. -/
def flip2 : Affine ℚ 2 := { B := fun i j => if i = j then (if i = 0 then 1 else -1) else 0, c := fun _ => 0 }

theorem flip2_pt (x : Fin 2 → ℚ) (i : Fin 2) : flip2.pt x i = if i = 0 then x 0 else -x 1 := by
  fin_cases i <;> simp [Affine.pt, Affine.lin, flip2]

theorem flip2_rigid : flip2.Rigid := by
  ext i j
  fin_cases i <;> fin_cases j <;> simp [flip2, Matrix.mul_apply]

theorem kmeans2_len : ∀ p (ys : List (Fin 2 → ℚ)) k raw, world2.kmeans p ys k = .ok raw → raw.length = ys.length := by
  intro p ys k raw h
  simp only [world2] at h
  split at h
  · cases h
  · cases h; simp

theorem flip2_follow : Follow flip2 id vworld2 vworld2 world2 world2 := by
  refine ⟨⟨rfl, rfl, fun p q => ?_⟩, ⟨rfl, rfl, rfl, rfl, rfl, rfl, fun p q => ?_, fun p ys k => ?_, fun p ys k => ?_, fun x a => ?_⟩,
    fun x => (demoFun_sane.exp_pos x).le, by decide +kernel, kmeans2_len⟩
  · refine Prod.ext (funext fun i => ?_) rfl
    simp only [vworld2, Affine.niw]
    rw [flip2_pt, flip2_pt]
    fin_cases i <;> simp
  · simp only [world2, Affine.niw, flip2_pt, id]
    simp
  · simp only [world2, List.length_map]
  · simp only [world2, List.map_map]
    rfl
  · simp only [world2, flip2_pt, id, WithBot.coe_zero, add_zero]
    simp

/-- A fresh mixture of two groups with equal weights, for two-dimensional data. -/
def obj2 (T : ℤ) : VM (varEqual demoFun) 2 ℚ := VM.init _
  { totalIter := T, burnIn := 0, subsample := 1, nAttr := some 2, muPrior := none, lam := 1, psiPrior := none, nuPrior := none, y := [], d := [],
    theta := [], thetaDefault := false, u := [], affinity := [], mapParams := none, mapLL := ⊥, saved := [], nGroups := [], nAtoms := [],
    totalSaved := 0, gibbsFitted := false, wst := ((Equal.init 2 : Equal ℚ), 0) }

/-- Four correlated observations. -/
def data2 : List (Fin 2 → ℚ) := [![0, 0], ![1, 2], ![2, 1], ![5, 6]]

/-- One variational fit with a random start. -/
def fit2 : Fit ℚ 2 := .var (.rows data2) (some 2) false (.fin 0) .random

theorem obj2_untouched (T : ℤ) : Untouched (obj2 T) := ⟨rfl, rfl, rfl, rfl, rfl, rfl⟩

/-- The reflection of one axis: surroundings that follow it, a fit that returns, and other responsibilities than those of the original data. -/
theorem C112_reflection_refuted : flip2.Rigid ∧ Follow flip2 id vworld2 vworld2 world2 world2 ∧ 0 < (obj2 2).gm.lam ∧ Untouched (obj2 2) ∧
    returns (doFit vworld2 world2 fit2) demo (obj2 2, 0) = true ∧
    (runFits vworld2 world2 demo (obj2 2, 0) ([fit2].map (Fit.move flip2))).1.varD ≠ (runFits vworld2 world2 demo (obj2 2, 0) [fit2]).1.varD :=
  ⟨flip2_rigid, flip2_follow, by decide +kernel, obj2_untouched 2, by decide +kernel, by decide +kernel⟩

/-- The full claim fails. -/
theorem C112_refuted : ¬ ∀ (C : WeightClass ℚ) (V : VarClass C) (g : Affine ℚ 2) (F : VWorld ℚ 2) (W : World ℚ 2 ℚ) (ω : Oracle ℚ) (s : VM V 2 ℚ × ℕ)
    (ops : List (Fit ℚ 2)), g.Rigid → Follow g id F F W W → (∀ f ∈ ops, f.data ≠ .rows []) → 0 < s.1.gm.lam →
    (runFits F W ω (move g id s.1, s.2) (ops.map (Fit.move g))).1.varD = (runFits F W ω s ops).1.varD := by
  intro hall
  obtain ⟨h1, h2, h3, h4, -, h6⟩ := C112_reflection_refuted
  refine h6 ?_
  have := hall _ (varEqual demoFun) flip2 vworld2 world2 demo (obj2 2, 0) [fit2] h1 h2 (by simp [fit2, Fit.data, data2]) h3
  rwa [move_untouched h4 rfl] at this

/-! ### The hypotheses are met -/

theorem follow_line (c : ℚ) : Follow (shift fun _ => c) (fun a : ℚ => a + c) vworld vworld world world := by
  refine ⟨⟨rfl, rfl, fun p q => ?_⟩, GM.world_moved c, fun x => (demoFun_sane.exp_pos x).le, by decide +kernel, ?_⟩
  · have hf : (shift fun _ : Fin 1 => c).pt = fun (x : Fin 1 → ℚ) i => x i + c := funext (shift_pt _)
    refine Prod.ext (funext fun i => ?_) rfl
    simp only [vworld, Affine.niw, hf]
    ring
  · intro p ys k raw h
    simp only [world] at h
    split at h
    · cases h
    · cases h; simp

/-- A history for the theorems above: a random start, a warm start, a Gibbs fit that starts from a variational one. -/
def story : List (Fit ℚ 1) :=
  [.var (rows1 [0, 1, 5, 7]) (some 2) false (.fin 0) .random, .var (rows1 [0, 2, 5, 7]) (some 2) true (.fin 0) .kmeans,
    .gibbs ⟨rows1 [0, 1, 5], .int 2, false, .variational⟩]

example : (∀ f ∈ story, f.data ≠ .rows []) ∧ 0 < (dpVM 1).gm.lam ∧ Untouched (dpVM 1) ∧ (runFits vworld world demo (dpVM 1, 0) story).1.varFitted = true ∧
    (runFits vworld world demo (dpVM 1, 0) story).1.gm.gibbsFitted = true := by
  refine ⟨?_, by decide +kernel, ⟨rfl, rfl, rfl, rfl, rfl, rfl⟩, by decide +kernel, by decide +kernel⟩
  intro f hf
  simp only [story, List.mem_cons, List.not_mem_nil, or_false] at hf
  rcases hf with rfl | rfl | rfl <;> simp [Fit.data, rows1]

example : (runFits vworld world demo (dpVM 1, 0) (story.map (Fit.move (shift fun _ => 1000)))).1.varD = (runFits vworld world demo (dpVM 1, 0) story).1.varD :=
  (C112_translation (ω := demo) _ (follow_line 1000) (s := (dpVM 1, 0)) (ops := story) (by
    intro f hf
    simp only [story, List.mem_cons, List.not_mem_nil, or_false] at hf
    rcases hf with rfl | rfl | rfl <;> simp [Fit.data, rows1]) (by decide +kernel) ⟨rfl, rfl, rfl, rfl, rfl, rfl⟩).1

/-- Exchanging two coordinates keeps the ones, reflecting one does not. -/
example : (perm (K := ℚ) (Equiv.swap (0 : Fin 2) 1)).KeepsOnes ∧ ¬ flip2.KeepsOnes := by
  refine ⟨perm_keepsOnes _, fun h => ?_⟩
  have := h 0 1
  simp [flip2] at this
  norm_num at this
end Verif.Mix.VM
