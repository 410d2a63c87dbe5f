import Verif.Lemmas.Units
import Verif.Lemmas.VarReal
import Verif.Props.C112

/-!
# C117: the units of measurement do not matter for the variational fit

`g` is a similarity: its linear part multiplies all squared distances by `ρ` (`Affine.Similar`, with the condition on the ones that `C112_exact` shows to be
necessary).  The main case is `unit c`: all coordinates are multiplied by `c`, say metres instead of centimetres.  The square root and the logarithm have to be
those of a multiple (`Scales`), which the real functions are (`scales_real`).

Responsibilities, weights, group counts, labels and the number of rounds are the same in all units; means and precisions of the groups are converted.  The bound
that decides about convergence is shifted by a number that only depends on the numbers of groups and coordinates, so its changes are the same (see C118).
-/

set_option linter.unusedSectionVars false

namespace Verif.Mix.VM
open Matrix

section
variable {K : Type} [Field K] [LinearOrder K] [IsStrictOrderedRing K] {C : WeightClass K} {V : VarClass C} {m : ℕ} {Atom : Type} {ω : Oracle K}
variable {g : Affine K m} {ρ δ : K} {A : Atom → Atom} {W W' : World K m Atom} {F F' : VWorld K m}

/-- A call of `fit_variational`. -/
def Fit.IsVar (f : Fit K m) : Prop := ∃ y n w t i, f = .var y n w t i

/-- A history of variational fits of the converted data leaves the converted object. -/
theorem C117_history (h : g.Similar ρ) (hS : Scales F.toMathFun ρ δ) (hF : Resized g F F' W W') :
    ∀ {ops : List (Fit K m)}, (∀ f ∈ ops, f.IsVar ∧ f.data ≠ .rows []) → ∀ {s : VM V m Atom × ℕ}, 0 < s.1.gm.lam → Lined s.1 →
    runFits F' W' ω (resize g ρ A s.1, s.2) (ops.map (Fit.move g)) = (resize g ρ A (runFits F W ω s ops).1, (runFits F W ω s ops).2)
  | [], _, s, _, _ => rfl
  | f :: ops, ho, s, hs, hL => by
    obtain ⟨⟨y, n, w, t, i, rfl⟩, hy⟩ := ho f (by simp)
    have m1 := sim_fitVariational (ω := ω) (A := A) h hS hF y n w t i (s := s) (fun ys e => Or.inl (by rintro rfl; exact hy e)) hs hL
    have m2 := C117_history h hS hF (ops := ops) (fun f hf => ho f (by simp [hf])) m1.2.1 m1.2.2
    unfold runFits at m2 ⊢
    rw [List.map_cons, List.foldl_cons, List.foldl_cons]
    have e := congrArg Prod.snd m1.1
    show List.foldl _ (fitVariational F' W' (GM.YArg.move g y) n w t i ω (resize g ρ A s.1, s.2)).2 _ = _
    rw [e]
    exact m2

/-- Each fit returns or raises as the fit of the original data does. -/
theorem C117_raises (h : g.Similar ρ) (hS : Scales F.toMathFun ρ δ) (hF : Resized g F F' W W') {f : Fit K m} (hf : f.IsVar) (hy : f.data ≠ .rows [])
    {s : VM V m Atom × ℕ} (hs : 0 < s.1.gm.lam) (hL : Lined s.1) :
    (doFit F' W' (Fit.move g f) ω (resize g ρ A s.1, s.2)).1 = (doFit F W f ω s).1 := by
  obtain ⟨y, n, w, t, i, rfl⟩ := hf
  have m1 := sim_fitVariational (ω := ω) (A := A) h hS hF y n w t i (s := s) (fun ys e => Or.inl (by rintro rfl; exact hy e)) hs hL
  have := congrArg Prod.fst m1.1
  rw [except_map_id] at this
  exact this

/-! ### Multiplying all coordinates -/

/-- All coordinates are multiplied by `c`. -/
def unit (c : K) : Affine K m := { B := fun i j => if i = j then c else 0, c := fun _ => 0 }

theorem unit_pt (c : K) (x : Fin m → K) : (unit c).pt x = fun i => c * x i := by
  funext i; simp [Affine.pt, Affine.lin, unit]

theorem unit_conj (c : K) (P : Fin m → Fin m → K) : (unit c).conj P = fun i j => c * P i j * c := by
  funext i j
  simp [Affine.conj, unit]

theorem unit_pconj {c : K} (hc : c ≠ 0) (P : Fin m → Fin m → K) : (unit c).pconj (c ^ 2) P = fun i j => P i j / c ^ 2 := by
  funext i j
  unfold Affine.pconj
  rw [unit_conj]
  field_simp

theorem unit_similar {c : K} (hc : c ≠ 0) : (unit (m := m) c).Similar (c ^ 2) := by
  refine ⟨by positivity, ?_, fun i j => ?_⟩
  · have : Matrix.of (unit (m := m) c).B = c • (1 : Matrix (Fin m) (Fin m) K) := by
      ext i j
      simp [unit, Matrix.one_apply]
    rw [this, Matrix.transpose_smul, Matrix.transpose_one, Matrix.smul_mul, Matrix.one_mul, smul_smul, pow_two]
  · simp [unit, pow_two]

theorem resize_untouched {s : VM V m Atom} (h : Untouched s) (hp : s.gm.psiPrior = none) : resize g ρ A s = s := by
  obtain ⟨h1, h2, h3, h4, h5, h6⟩ := h
  obtain ⟨gm, vst, varK, varTheta, varD, b1, b2⟩ := s
  cases gm
  simp only at h1 h2 h3 h4 h5 h6 hp
  simp only [resize, GM.move, h1, h2, h3, h4, h5, h6, hp, WithBot.coe_zero, add_zero]
  rfl

/-- The same program on the data in other units, with the default priors: same responsibilities, weights, groups and flags; means are multiplied by `c`, precisions
divided by `c²`. -/
theorem C117_units {c : K} (hc : c ≠ 0) (hS : Scales F.toMathFun (c ^ 2) δ) (hF : Resized (unit c) F F W W) {ops : List (Fit K m)}
    (ho : ∀ f ∈ ops, f.IsVar ∧ f.data ≠ .rows []) {s : VM V m Atom × ℕ} (hs : 0 < s.1.gm.lam) (hu : Untouched s.1) (hp : s.1.gm.psiPrior = none) :
    let t := runFits F W ω s ops
    let t' := runFits F W ω s (ops.map (Fit.move (unit c)))
    t'.1.varD = t.1.varD ∧ t'.1.vst = t.1.vst ∧ t'.1.gm.wst = t.1.gm.wst ∧ t'.1.varK = t.1.varK ∧ t'.1.varFitted = t.1.varFitted ∧
    t'.1.varConverged = t.1.varConverged ∧ t'.2 = t.2 ∧ t'.1.varTheta.length = t.1.varTheta.length ∧
    (∀ (j : ℕ) (a : VAtom K m), t.1.varTheta[j]? = some (some a) →
      t'.1.varTheta[j]? = some (some { a with mu := fun i => c * a.mu i, prec := fun i l => a.prec i l / c ^ 2 })) := by
  intro t t'
  have hm : resize (unit c) (c ^ 2) id s.1 = s.1 := resize_untouched hu hp
  have e : t' = (resize (unit c) (c ^ 2) id t.1, t.2) := by
    have := C117_history (ω := ω) (A := id) (unit_similar hc) hS hF ho hs (Or.inl hu.2.2.2.2.2)
    rw [hm] at this
    exact this
  rw [e]
  refine ⟨rfl, rfl, rfl, rfl, rfl, rfl, rfl, List.length_map _, ?_⟩
  intro j a ha
  show ((t.1.varTheta.map (Option.map (VAtom.resize (unit c) (c ^ 2))))[j]?) = _
  rw [List.getElem?_map, ha, Option.map_some, Option.map_some, VAtom.resize, unit_pt, unit_pconj hc]

/-! ### Results -/

/-- `var_map_cluster` and `var_eap_affinity_matrix` in other units, for the fitted data and for new points. -/
theorem C117_cluster (h : g.Similar ρ) {G : MathFun K} (hS : Scales G ρ δ) (hW : W'.eps = W.eps) {s : VM V m Atom} (hL : Lined s) (y : YQuery K m) (full : Bool) :
    varMapCluster G W' (resize g ρ A s) (YQuery.move g y) full = varMapCluster G W s y full ∧
    varAffinity G W' (resize g ρ A s) (YQuery.move g y) = varAffinity G W s y := by
  have k1 : ∀ ys : List (Fin m → K), ∀ lw, (ys.map g.pt).map (fun x => normMean G W'.eps (mapColumn G (s.varK.getD 0).toNat lw (resize g ρ A s).varTheta x)) =
      ys.map (fun x => normMean G W.eps (mapColumn G (s.varK.getD 0).toNat lw s.varTheta x)) := by
    intro ys lw
    rw [List.map_map, hW]
    apply List.map_congr_left
    intro x _
    exact normMap_sim h hS _ _ hL _
  have k2 : ∀ ys : List (Fin m → K), ∀ lw, (ys.map g.pt).map (fun x => normMax G W'.eps (scoreColumn G (s.varK.getD 0).toNat lw (resize g ρ A s).varTheta x)) =
      ys.map (fun x => normMax G W.eps (scoreColumn G (s.varK.getD 0).toNat lw s.varTheta x)) := by
    intro ys lw
    rw [List.map_map, hW]
    apply List.map_congr_left
    intro x _
    exact normScore_sim h hS _ _ hL _
  have el : (resize g ρ A s).varTheta.length = s.varTheta.length := List.length_map _
  constructor
  · unfold varMapCluster
    cases y with
    | none => rfl
    | invalid => rfl
    | array ys =>
      simp only [YQuery.move, el]
      simp only [show (resize g ρ A s).varK = s.varK from rfl, show (resize g ρ A s).varFitted = s.varFitted from rfl, show (resize g ρ A s).vst = s.vst from rfl,
        show (resize g ρ A s).gm.wst = s.gm.wst from rfl, k1]
    | list ys =>
      simp only [YQuery.move, el]
      simp only [show (resize g ρ A s).varK = s.varK from rfl, show (resize g ρ A s).varFitted = s.varFitted from rfl, show (resize g ρ A s).vst = s.vst from rfl,
        show (resize g ρ A s).gm.wst = s.gm.wst from rfl, k1]
  · unfold varAffinity newColumns
    cases y with
    | none => rfl
    | invalid => rfl
    | list ys => rfl
    | array ys =>
      simp only [YQuery.move, el]
      simp only [show (resize g ρ A s).varK = s.varK from rfl, show (resize g ρ A s).varFitted = s.varFitted from rfl, show (resize g ρ A s).vst = s.vst from rfl,
        show (resize g ρ A s).gm.wst = s.gm.wst from rfl, k2]

end

/-! ### The real functions -/

/-- The square root and the logarithm of a multiple. -/
theorem scales_real {ρ : ℝ} (h : 0 < ρ) : Scales realFun ρ (Real.log ρ) := by
  refine ⟨fun x => ?_, fun x hx => Real.log_div hx.ne' h.ne'⟩
  show √(x / ρ ^ 2) = √x / ρ
  rw [Real.sqrt_div' _ (by positivity), Real.sqrt_sq h.le]

/-! ### The hypotheses are met -/

section

/-- Starting parameters: the prior mean and the prior matrix. -/
noncomputable def unitVWorld : VWorld ℝ 1 := { realFun with
  niw := fun _ q => (q.mu, q.psi)
  tol := 0 }

/-- Surroundings that do not look at the scale: k-means by position. -/
noncomputable def unitWorld : World ℝ 1 ℝ where
  unif := fun _ lo hi => (lo + hi) / 2
  atom := fun _ q => q.mu 0
  gumbel := fun p => ((p % 3 : ℕ) : ℝ)
  kmeans := fun _ ys k => if k < 1 ∨ (ys.length : ℤ) < k then .error .valueError else .ok ((List.range ys.length).map (fun i => i % k.toNat))
  argsort := demoArgsort
  varLabels := fun _ ys _ => .ok (ys.map (fun _ => 0))
  logpdf := fun x a => ((-(x 0 - a) ^ 2 : ℝ) : WithBot ℝ)
  pdf := fun _ x a => 1 / (1 + (x 0 - a) ^ 2)
  log := Real.log
  eps := 1 / 1000
  fuel := 20

theorem unit_resized (c : ℝ) : Resized (unit c) unitVWorld unitVWorld unitWorld unitWorld := by
  refine ⟨rfl, fun _ _ => rfl, fun _ _ => Iff.rfl, fun p ys k => ?_, rfl, rfl, fun x => (Real.exp_pos x).le, by norm_num [unitWorld], fun p ys k raw h => ?_⟩
  · simp only [unitWorld, List.length_map]
  · simp only [unitWorld] at h
    split at h
    · cases h
    · cases h; simp

/-- A fresh mixture with a Dirichlet process. -/
noncomputable def unitObj (T : ℤ) : VM (varDP realFun) 1 ℝ := VM.init _
  { totalIter := T, burnIn := 0, subsample := 1, nAttr := none, muPrior := none, lam := 1, psiPrior := none, nuPrior := none, y := [], d := [],
    theta := [], thetaDefault := false, u := [], affinity := [], mapParams := none, mapLL := ⊥, saved := [], nGroups := [], nAtoms := [],
    totalSaved := 0, gibbsFitted := false, wst := (DP.init 1, 0) }

/-- Two fits, the second with a warm start. -/
def unitFits : List (Fit ℝ 1) :=
  [.var (.rows [fun _ => 0, fun _ => 1, fun _ => 5, fun _ => 7]) (some 2) false (.fin 0) .random,
   .var (.rows [fun _ => 0, fun _ => 2, fun _ => 5, fun _ => 7]) (some 2) true (.fin 0) .kmeans]

theorem unitFits_ok : ∀ f ∈ unitFits, f.IsVar ∧ f.data ≠ .rows [] := by
  intro f hf
  simp only [unitFits, List.mem_cons, List.not_mem_nil, or_false] at hf
  rcases hf with rfl | rfl <;> exact ⟨⟨_, _, _, _, _, rfl⟩, by simp [Fit.data]⟩

/-- Metres and centimetres. -/
example (T : ℤ) (ω : Oracle ℝ) : (runFits unitVWorld unitWorld ω (unitObj T, 0) (unitFits.map (Fit.move (unit 100)))).1.varD =
    (runFits unitVWorld unitWorld ω (unitObj T, 0) unitFits).1.varD :=
  (C117_units (ω := ω) (c := 100) (by norm_num) (scales_real (by norm_num)) (unit_resized 100) unitFits_ok (s := (unitObj T, 0)) (by norm_num [unitObj, VM.init])
    ⟨rfl, rfl, rfl, rfl, rfl, rfl⟩ rfl).1

/-- The two coordinates exchanged and multiplied by two. -/
example : ({ B := fun i j => if i = j then 0 else 2, c := fun _ => 1 } : Affine ℚ 2).Similar 4 := by
  refine ⟨by norm_num, ?_, ?_⟩
  · ext i j
    fin_cases i <;> fin_cases j <;> simp [Matrix.mul_apply] <;> norm_num
  · intro i j
    fin_cases i <;> fin_cases j <;> simp <;> norm_num
end
end Verif.Mix.VM
