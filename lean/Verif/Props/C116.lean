import Verif.Lemmas.Reorder
import Verif.Lemmas.VarDemo

/-!
# C116: the order of the observations does not matter for the variational fit

`ys'` are the rows `ys` in another order (`List.Perm`).  A new object fitted to `ys'` with the same generator raises the same exception or ends with the same
groups, weights and bound, and every observation has the responsibilities it has after the fit of `ys` (`C116_fit`).  The start by k-means is covered as far as the
labels of k-means do not depend on the order (`KmeansFollows`); a start from the object's own state and histories of fits are in `C116_history`.
`C116_results` says what follows for the result methods.  The weight classes of the library are covered by `C116_classes`.
-/

set_option linter.unusedSectionVars false

namespace Verif.Mix.VM

section
variable {K : Type} [Field K] [LinearOrder K] [IsStrictOrderedRing K] {C : WeightClass K} {V : VarClass C} {m : ℕ} {Atom : Type} {ω : Oracle K}
variable {F : VWorld K m} {W : World K m Atom}

/-- The class does not depend on the order of the columns of the matrix it is fitted to, whatever the order. -/
def OrderFree (V : VarClass C) : Prop := ∀ (n : ℕ) (o : Order n), Nonempty (Unordered V o)

theorem exists_order {α : Type} {l l' : List α} (h : l.Perm l') : ∃ o : Order l.length, o.app l = l' := by
  have e : (List.range l.length).map (fun i => l[i]?) = l.map some := by
    apply List.ext_getElem?
    intro i
    rw [List.getElem?_map, List.getElem?_map]
    by_cases hi : i < l.length
    · simp [hi]
    · rw [List.getElem?_eq_none (by simpa using hi), List.getElem?_eq_none (by simpa using hi)]; rfl
  have hp : (l'.map some).Perm ((List.range l.length).map (fun i => l[i]?)) := by rw [e]; exact (h.map some).symm
  have hc : Relation.Comp (· = List.map (fun i : ℕ => l[i]?) ·) List.Perm (l'.map some) (List.range l.length) := by
    have := List.eq_map_comp_perm (fun i : ℕ => l[i]?)
    rw [this]; exact hp
  obtain ⟨idx, h1, h2⟩ := hc
  refine ⟨⟨idx, h2⟩, ?_⟩
  unfold Order.app
  rw [if_pos rfl]
  have : idx.filterMap (fun i => l[i]?) = (idx.map (fun i => l[i]?)).filterMap id := by rw [List.filterMap_map]; rfl
  rw [this, ← h1, List.filterMap_map]
  simp

/-- K-means labels every observation, and an observation gets the same label in whatever order the data come. -/
def KmeansOrderFree (W : World K m Atom) : Prop := ∀ (n : ℕ) (o : Order n), KmeansFollows o W

/-- What two fits of the same observations in two orders share. -/
structure SameFit (F : MathFun K) (ys ys' : List (Fin m → K)) (t t' : VM V m Atom) : Prop where
  groups : t'.varTheta = t.varTheta
  number : t'.varK = t.varK
  fitted : t'.varFitted = t.varFitted
  converged : t'.varConverged = t.varConverged
  state : t'.gm.wst = t.gm.wst
  mean : ∀ j, V.meanW t'.gm.wst.1 t'.vst j = V.meanW t.gm.wst.1 t.vst j
  mode : ∀ j, V.modeW t'.gm.wst.1 t'.vst j = V.modeW t.gm.wst.1 t.vst j
  meanLog : ∀ j, V.meanLogW t'.gm.wst.1 t'.vst j = V.meanLogW t.gm.wst.1 t.vst j
  bound : calcElbo F t' = calcElbo F t
  each : (ys'.zip t'.varD).Perm (ys.zip t.varD)

/-- The fit of the observations in another order. -/
theorem C116_fit (hV : OrderFree V) {ys ys' : List (Fin m → K)} (h : ys.Perm ys') (nGroups : Option ℤ) (tol : Fl K) {method : VarInit}
    (hm : method ≠ .kmeans ∨ KmeansOrderFree W) {g : GM C m Atom} (hg : g.y = []) (pos : ℕ) :
    let r := fitVariational F W (.rows ys) nGroups false tol method ω (init V g, pos)
    let r' := fitVariational F W (.rows ys') nGroups false tol method ω (init V g, pos)
    r'.1 = r.1 ∧ r'.2.2 = r.2.2 ∧ (r.1 = .ok () → SameFit F.toMathFun ys ys' r.2.1 r'.2.1) := by
  obtain ⟨o, rfl⟩ := exists_order h
  obtain ⟨U⟩ := hV _ o
  intro r r'
  have e0 : reorder U (init V g) = init V g := by
    unfold reorder init
    simp only [U.fresh, hg, o.app_nil]
    congr 1
    cases g; cases hg; rfl
  have key := (ord_fitVariational (ω := ω) (U := U) (F := F) (W := W) (.rows ys) nGroups false tol method
    (Or.inr (hm.imp id fun h => h _ o)) (s := (init V g, pos))).1
  rw [e0, except_map_id] at key
  have e1 : r' = (r.1, (reorder U r.2.1, r.2.2)) := key
  refine ⟨by rw [e1], by rw [e1], fun hr => ?_⟩
  obtain ⟨hp, hy⟩ := wp_of_ok (a := ()) (s' := r.2) (Prod.ext hr rfl)
    (fitVariational_perObs (ω := ω) (F := F) (W := W) ys nGroups tol method (init V g, pos))
  rw [e1]
  refine ⟨rfl, rfl, rfl, rfl, rfl, fun j => U.meanW _ _ j, fun j => U.modeW _ _ j, fun j => U.meanLogW _ _ j, calcElbo_app hp, ?_⟩
  show ((o.app ys).zip (o.app r.2.1.varD)).Perm _
  rw [← o.app_zip (by rw [← hy]; exact hp.symm)]
  exact o.app_perm _

/-! ### Result methods -/

theorem argmaxes_iff {cols : List (List (Fl K))} {d : List ℕ} : argmaxes cols = .ok d ↔ cols.map Fl.argmax = d.map Except.ok := by
  induction cols generalizing d with
  | nil =>
    rw [argmaxes]
    cases d <;> simp
  | cons c cs ih =>
    rw [argmaxes]
    cases hc : Fl.argmax c with
    | error e => cases d <;> simp [hc]
    | ok i =>
      cases hs : argmaxes cs with
      | error e =>
        cases d with
        | nil => simp
        | cons j d =>
          simp only [List.map_cons, hc, List.cons.injEq, Except.ok.injEq, reduceCtorEq, false_iff, not_and]
          intro _ h
          have := ih.2 h
          rw [hs] at this; cases this
      | ok is =>
        cases d with
        | nil => simp
        | cons j d =>
          simp only [List.map_cons, hc, List.cons.injEq, Except.ok.injEq, ← ih, hs]

theorem argmaxes_app {n : ℕ} (o : Order n) {cols : List (List (Fl K))} {d : List ℕ} (h : argmaxes cols = .ok d) : argmaxes (o.app cols) = .ok (o.app d) := by
  rw [argmaxes_iff] at h ⊢
  rw [← o.app_map, h, o.app_map]

theorem gram_app {n : ℕ} (o : Order n) (cols : List (List (Fl K))) : gram (o.app cols) = (o.app (gram cols)).map o.app := by
  unfold gram
  rw [← o.app_map, o.app_map, o.app_map, List.map_map]
  apply List.map_congr_left
  intro a _
  rw [Function.comp_apply, o.app_map]

theorem density_app {n : ℕ} {o : Order n} {U : Unordered V o} (G : MathFun K) (t : VM V m Atom) (c : ℕ) (xs : List (Fin c → K)) (dim : Dim) (comp : Option ℕ) :
    varEapDensity G (reorder U t) (.given c xs) dim comp = varEapDensity G t (.given c xs) dim comp ∧
    varMapDensity G (reorder U t) (.given c xs) dim comp = varMapDensity G t (.given c xs) dim comp := by
  have e1 : V.meanW (reorder U t).gm.wst.1 (reorder U t).vst = V.meanW t.gm.wst.1 t.vst := funext fun j => U.meanW _ _ j
  have e2 : V.modeW (reorder U t).gm.wst.1 (reorder U t).vst = V.modeW t.gm.wst.1 t.vst := funext fun j => U.modeW _ _ j
  constructor
  · unfold varEapDensity
    rw [e1]; rfl
  · unfold varMapDensity
    rw [e2]; rfl

/-- What the result methods say after the fits of the same observations in two orders: equal values for new points, reordered values for the fitted ones. -/
theorem C116_results (hV : OrderFree V) {ys ys' : List (Fin m → K)} (h : ys.Perm ys') (nGroups : Option ℤ) (tol : Fl K) {method : VarInit}
    (hm : method ≠ .kmeans ∨ KmeansOrderFree W) {g : GM C m Atom} (hg : g.y = []) (pos : ℕ) :
    let t := (fitVariational F W (.rows ys) nGroups false tol method ω (init V g, pos)).2.1
    let t' := (fitVariational F W (.rows ys') nGroups false tol method ω (init V g, pos)).2.1
    (∀ c xs dim comp, varEapDensity F.toMathFun t' (.given c xs) dim comp = varEapDensity F.toMathFun t (.given c xs) dim comp ∧
      varMapDensity F.toMathFun t' (.given c xs) dim comp = varMapDensity F.toMathFun t (.given c xs) dim comp) ∧
    (∀ q, q ≠ .none → varAffinity F.toMathFun W t' q = varAffinity F.toMathFun W t q) ∧
    (∀ q full, q ≠ .none → varMapCluster F.toMathFun W t' q full = varMapCluster F.toMathFun W t q full) ∧
    ∃ o : Order ys.length, ys' = o.app ys ∧
      (∀ A, varAffinity F.toMathFun W t .none = .ok A → varAffinity F.toMathFun W t' .none = .ok ((o.app A).map o.app)) ∧
      (∀ d, varMapCluster F.toMathFun W t .none false = .ok (.labels d) → varMapCluster F.toMathFun W t' .none false = .ok (.labels (o.app d))) := by
  obtain ⟨o, rfl⟩ := exists_order h
  obtain ⟨U⟩ := hV _ o
  intro t t'
  have e0 : reorder U (init V g) = init V g := by
    unfold reorder init
    simp only [U.fresh, hg, o.app_nil]
    congr 1
    cases g; cases hg; rfl
  have key := (ord_fitVariational (ω := ω) (U := U) (F := F) (W := W) (.rows ys) nGroups false tol method
    (Or.inr (hm.imp id fun h => h _ o)) (s := (init V g, pos))).1
  rw [e0, except_map_id] at key
  have e1 : t' = reorder U t := congrArg (fun z => z.2.1) key
  have elw : ∀ js, logWeights V (reorder U t).gm.wst.1 (reorder U t).vst js = logWeights V t.gm.wst.1 t.vst js := fun js => logWeights_app _ _ js
  rw [e1]
  refine ⟨density_app _ t, ?_, ?_, o, rfl, ?_, ?_⟩
  · intro q hq
    unfold varAffinity newColumns
    simp only [elw]
    cases q with
    | none => exact absurd rfl hq
    | _ => rfl
  · intro q full hq
    unfold varMapCluster
    simp only [elw]
    cases q with
    | none => exact absurd rfl hq
    | _ => rfl
  · intro A hA
    unfold varAffinity at hA ⊢
    have ef : (reorder U t).varFitted = t.varFitted := rfl
    rw [ef]
    split at hA
    · cases hA
    · rename_i hf
      rw [if_neg hf]
      cases hA
      exact congrArg _ (gram_app o _)
  · intro d hd
    unfold varMapCluster at hd ⊢
    have ef : (reorder U t).varFitted = t.varFitted := rfl
    rw [ef]
    split at hd
    · cases hd
    · rename_i hf
      rw [if_neg hf]
      cases ha : argmaxes t.varD with
      | error e => simp only [ha] at hd; cases hd
      | ok d0 =>
        simp only [ha, if_true] at hd
        cases hd
        have : argmaxes (reorder U t).varD = .ok (o.app d) := argmaxes_app o ha
        simp only [this, if_true]

/-! ### Histories of fits -/

/-- The same call with the data in another order. -/
def Fit.reorder {n : ℕ} (o : Order n) : Fit K m → Fit K m
  | .gibbs a => .gibbs a
  | .var y k w tol i => .var (yApp o y) k w tol i

/-- A variational fit that starts from the object itself, at random, or from labels of k-means that do not depend on the order. -/
def Fit.OrderFree (W : World K m Atom) : Fit K m → Prop
  | .gibbs _ => False
  | .var _ _ w _ i => w = true ∨ i ≠ .kmeans ∨ KmeansOrderFree W

/-- Every history of variational fits: the object is the same up to the order of what it stores per observation. -/
theorem C116_history {n : ℕ} {o : Order n} (U : Unordered V o) : ∀ {ops : List (Fit K m)}, (∀ f ∈ ops, f.OrderFree W) → ∀ s : VM V m Atom × ℕ,
    runFits F W ω (reorder U s.1, s.2) (ops.map (Fit.reorder o)) = (reorder U (runFits F W ω s ops).1, (runFits F W ω s ops).2)
  | [], _, s => rfl
  | f :: ops, h, s => by
    have hf := h f (by simp)
    cases f with
    | gibbs a => exact absurd hf id
    | var y k w tol i =>
      have key := (ord_fitVariational (ω := ω) (U := U) (F := F) (W := W) y k w tol i (hf.imp id (Or.imp id fun h => h _ o)) (s := s)).1
      have e : (doFit F W (Fit.reorder o (.var y k w tol i)) ω (reorder U s.1, s.2)).2 =
          (reorder U (doFit F W (.var y k w tol i) ω s).2.1, (doFit F W (.var y k w tol i) ω s).2.2) := by
        show (fitVariational F W (yApp o y) k w tol i ω (reorder U s.1, s.2)).2 = _
        rw [key]; rfl
      unfold runFits
      rw [List.map_cons, List.foldl_cons, List.foldl_cons, e]
      exact C116_history U (fun f hf => h f (by simp [hf])) _

/-- All weight classes of the library. -/
theorem C116_classes (G : MathFun K) (H : MathFun ℝ) : OrderFree (varDP G) ∧ OrderFree (varPY G) ∧ OrderFree (varDirDist G) ∧ OrderFree (varEqual G) ∧
    OrderFree (varFreq G) ∧ OrderFree (varGeo H) ∧ (∀ C : WeightClass K, OrderFree (VarClass.none C)) :=
  ⟨fun _ o => ⟨dpUnordered G o⟩, fun _ o => ⟨pyUnordered G o⟩, fun _ o => ⟨dirDistUnordered G o⟩, fun _ o => ⟨equalUnordered G o⟩,
    fun _ o => ⟨freqUnordered G o⟩, fun _ o => ⟨geoUnordered H o⟩, fun C _ o => ⟨noneUnordered o C⟩⟩
end

/-! ### A fit with two orders -/

/-- The rows of two fits of the same three numbers. -/
def demoRows : List (Fin 1 → ℚ) := [fun _ => 0, fun _ => 1, fun _ => 4]
@[inherit_doc demoRows] def demoRows' : List (Fin 1 → ℚ) := [fun _ => 4, fun _ => 0, fun _ => 1]

example : demoRows.Perm demoRows' := by
  show ([fun _ => 0, fun _ => 1] ++ [fun _ => 4] : List (Fin 1 → ℚ)).Perm ([fun _ => 4] ++ [fun _ => 0, fun _ => 1])
  exact List.perm_append_comm

/-- Both fits return, and the columns of the responsibilities are not in the same order. -/
example :
    (fitVariational vworld world (.rows demoRows) (some 2) false (.fin vworld.tol) .random demo (dpVM 2, 0)).1.toOption = some () ∧
    (fitVariational vworld world (.rows demoRows') (some 2) false (.fin vworld.tol) .random demo (dpVM 2, 0)).1.toOption = some () ∧
    (fitVariational vworld world (.rows demoRows') (some 2) false (.fin vworld.tol) .random demo (dpVM 2, 0)).2.1.varD ≠
      (fitVariational vworld world (.rows demoRows) (some 2) false (.fin vworld.tol) .random demo (dpVM 2, 0)).2.1.varD := by decide +kernel
end Verif.Mix.VM
