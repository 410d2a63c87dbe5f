import Verif.Props.C53

/-!
# C126: a warm start of `fit_variational` continues the previous fit

Full claim: `fit_variational(y)` that did not converge, followed by `fit_variational(y, warm_start=True)`, gives the groups, responsibilities and weights that one
`fit_variational(y)` with as many iterations in total gives.

The warm fit makes further iterations of the same sequence (`C126_sequence`), so histories with as many iterations agree (`C126_same`).  The number of iterations is that of
the long fit, unless the long fit stops at the seam, in iteration `T` or `T + 1` (`C126_long_partial`): the warm fit does not know the bound reached before and never compares its first
bound with it.  At the seam the claim is false (`C126_seam_refuted`), and a fit that has converged is always continued by further iterations (`C126_converged_refuted`).
-/

set_option linter.unusedSectionVars false

namespace Verif.Mix.VM
open GM
variable {K : Type} [Field K] [LinearOrder K] [IsStrictOrderedRing K] {C : WeightClass K} {V : VarClass C} {m : ℕ} {Atom : Type}
variable {ω : Oracle K} {W : World K m Atom} {F : VWorld K m}

/-- What a variational fit computes: data, number of groups, parameters of the groups, responsibilities, weight object. -/
structure VarResult {C : WeightClass K} (V : VarClass C) (m : ℕ) where
  y : List (Fin m → K)
  k : Option ℤ
  groups : List (Option (VAtom K m))
  resp : List (List (Fl K))
  weights : C.State × ℕ
  varWeights : V.State

def varResult (s : VM V m Atom) : VarResult V m := ⟨s.gm.y, s.varK, s.varTheta, s.varD, s.gm.wst, s.vst⟩

/-- The same object with another number of iterations. -/
def vTotal (T : ℤ) (s : VM V m Atom) : VM V m Atom := { s with gm := { s.gm with totalIter := T } }

/-! ### Attributes that the iterations do not read -/

/-- The settings removed. -/
def vBare (s : VM V m Atom) : VM V m Atom := { s with gm := { s.gm with totalIter := 0 }, varFitted := false, varConverged := false }

/-- Running `x` on the changed object gives the same outcome and the changed object. -/
def VCommutes (ω : Oracle K) (f : VM V m Atom → VM V m Atom) {α : Type} (x : M K (VM V m Atom) α) : Prop :=
  ∀ s : VM V m Atom × ℕ, x ω (f s.1, s.2) = ((x ω s).1, (f (x ω s).2.1, (x ω s).2.2))

namespace VCommutes
variable {f : VM V m Atom → VM V m Atom} {α β : Type}

theorem bind {x : M K (VM V m Atom) α} {k : α → M K (VM V m Atom) β} (h : VCommutes ω f x) (hk : ∀ a, VCommutes ω f (k a)) : VCommutes ω f (x >>= k) := by
  intro s
  rw [M.bind_apply, M.bind_apply, h s]
  rcases x ω s with ⟨e | a, t⟩
  · rfl
  · exact hk a t

theorem self {k : VM V m Atom → M K (VM V m Atom) α} (hk : ∀ a, VCommutes ω f (k a)) (h : ∀ a, k (f a) = k a) : VCommutes ω f (M.self >>= k) := by
  intro s
  have : (M.self >>= k) ω (f s.1, s.2) = k (f s.1) ω (f s.1, s.2) := rfl
  rw [this, h]
  exact hk s.1 s

theorem pure (a : α) : VCommutes ω f (Pure.pure a : M K (VM V m Atom) α) := fun _ => rfl
theorem raise (e : PyErr) : VCommutes ω f (M.raise e : M K (VM V m Atom) α) := fun _ => rfl
theorem draw1 (g : ℕ → α) : VCommutes ω f (GM.draw1 g : M K (VM V m Atom) α) := fun _ => rfl
theorem lift (e : Except PyErr α) : VCommutes ω f (M.lift e : M K (VM V m Atom) α) := by
  intro s; rcases e with e | a <;> rfl
theorem assign {g : VM V m Atom → VM V m Atom} (h : ∀ s, g (f s) = f (g s)) : VCommutes ω f (M.assign g : M K (VM V m Atom) Unit) := by
  intro s
  show (Except.ok (), (g (f s.1), s.2)) = _
  rw [h]; rfl

end VCommutes

/-- The change concerns the settings only. -/
structure VInert (f : VM V m Atom → VM V m Atom) : Prop where
  setTheta : ∀ s x, f { s with varTheta := x } = { f s with varTheta := x }
  setD : ∀ s x, f { s with varD := x } = { f s with varD := x }
  setK : ∀ s k, f { s with varK := some k, varTheta := [] } = { f s with varK := some k, varTheta := [] }
  setW : ∀ s x v, f { s with gm := { s.gm with wst := (x, s.gm.wst.2) }, vst := v } = { f s with gm := { (f s).gm with wst := (x, (f s).gm.wst.2) }, vst := v }
  y : ∀ s, (f s).gm.y = s.gm.y
  prior : ∀ s, GM.prior (f s).gm = GM.prior s.gm
  lam : ∀ s, (f s).gm.lam = s.gm.lam
  theta : ∀ s, (f s).varTheta = s.varTheta
  d : ∀ s, (f s).varD = s.varD
  k : ∀ s, (f s).varK = s.varK
  wst : ∀ s, (f s).gm.wst = s.gm.wst
  vst : ∀ s, (f s).vst = s.vst

theorem vInert_total (T : ℤ) : VInert (vTotal T : VM V m Atom → VM V m Atom) :=
  ⟨fun _ _ => rfl, fun _ _ => rfl, fun _ _ => rfl, fun _ _ _ => rfl, fun _ => rfl, fun _ => rfl, fun _ => rfl, fun _ => rfl, fun _ => rfl, fun _ => rfl, fun _ => rfl, fun _ => rfl⟩

theorem vInert_bare : VInert (vBare : VM V m Atom → VM V m Atom) :=
  ⟨fun _ _ => rfl, fun _ _ => rfl, fun _ _ => rfl, fun _ _ _ => rfl, fun _ => rfl, fun _ => rfl, fun _ => rfl, fun _ => rfl, fun _ => rfl, fun _ => rfl, fun _ => rfl, fun _ => rfl⟩

section
variable {f : VM V m Atom → VM V m Atom} (hf : VInert f)
include hf

theorem varRows_inert (s : VM V m Atom) : varRows (f s) = varRows s := by simp only [varRows, hf.k, hf.d]

theorem updateVarTheta_commutes : VCommutes ω f (updateVarTheta) :=
  VCommutes.self (fun a => VCommutes.bind (VCommutes.lift _) fun as => VCommutes.assign fun s => (hf.setTheta s as).symm)
    fun a => by simp only [hf.y, hf.prior, varRows_inert hf]

theorem fitWeights_commutes (q : List (List (Fl K))) : VCommutes ω f (fitWeights q) :=
  VCommutes.self (fun a => VCommutes.bind (VCommutes.lift _) fun r => VCommutes.assign fun s => (hf.setW s r.1 r.2).symm)
    fun a => by simp only [hf.wst]

theorem updateVarW_commutes : VCommutes ω f (updateVarW) :=
  VCommutes.self (fun a => fitWeights_commutes hf _) fun a => by simp only [varRows_inert hf]

theorem updateVarD_commutes (F : MathFun K) : VCommutes ω f (updateVarD F W) := by
  refine VCommutes.self (fun a => ?_) fun a => by simp only [hf.k, hf.wst, hf.vst, hf.theta]
  cases a.varK with
  | none => exact VCommutes.raise _
  | some k =>
    dsimp only
    split
    · exact VCommutes.raise _
    · refine VCommutes.bind (VCommutes.lift _) fun lw => ?_
      split
      · exact VCommutes.raise _
      · exact VCommutes.assign fun s => (congrArg (fun z => ({ f s with varD := z } : VM V m Atom)) (by rw [hf.y, hf.theta])).trans (hf.setD s _).symm

theorem maximize_commutes (F : MathFun K) : VCommutes ω f (maximize F W) :=
  VCommutes.bind (updateVarD_commutes hf F) fun _ => VCommutes.bind (updateVarW_commutes hf) fun _ => updateVarTheta_commutes hf

theorem drawAtoms_commutes (k : ℕ) : VCommutes ω f (drawAtoms F k) := by
  induction k with
  | zero => exact VCommutes.pure _
  | succ k ih =>
    refine VCommutes.self (fun a => VCommutes.bind (VCommutes.draw1 _) fun a => VCommutes.bind (VCommutes.lift _) fun P => VCommutes.bind (VCommutes.assign fun s =>
      (congrArg (fun z => ({ f s with varTheta := z } : VM V m Atom)) (by rw [hf.theta, hf.lam, hf.prior])).trans (hf.setTheta s _).symm) fun _ => ih)
      fun a => by simp only [hf.prior]

theorem initVar_commutes (k : ℤ) (method : VarInit) : VCommutes ω f (initVar F W k method) := by
  cases method with
  | unknown => exact VCommutes.bind (VCommutes.assign fun s => (hf.setK s k).symm) fun _ => VCommutes.raise _
  | random =>
    refine VCommutes.bind (VCommutes.assign fun s => (hf.setK s k).symm) fun _ => VCommutes.bind (drawAtoms_commutes hf _) fun _ => ?_
    split
    · exact VCommutes.raise _
    · split
      · exact VCommutes.raise _
      · exact VCommutes.bind (VCommutes.assign fun s => (congrArg (fun z => ({ f s with varD := z } : VM V m Atom)) (by rw [hf.y])).trans (hf.setD s _).symm)
          fun _ => updateVarW_commutes hf
  | kmeans =>
    refine VCommutes.bind (VCommutes.assign fun s => (hf.setK s k).symm) fun _ => VCommutes.self (fun a => VCommutes.bind (VCommutes.draw1 _) fun r =>
      VCommutes.bind (VCommutes.lift _) fun raw => ?_) fun a => by simp only [hf.y]
    split
    · exact VCommutes.raise _
    · split
      · exact VCommutes.raise _
      · exact VCommutes.bind (VCommutes.assign fun s => (hf.setD s _).symm) fun _ => VCommutes.bind (fitWeights_commutes hf _) fun _ =>
          VCommutes.bind (updateVarTheta_commutes hf) fun _ => VCommutes.bind (updateVarD_commutes hf _) fun _ => updateVarW_commutes hf
end

theorem calcElbo_bare (F : MathFun K) (s : VM V m Atom) : calcElbo F (vBare s) = calcElbo F s := rfl

theorem Iter.bare {F : MathFun K} {s u : VM V m Atom × ℕ} {es : List (Fl K)} (h : Iter F W ω s es u) : Iter F W ω (vBare s.1, s.2) es (vBare u.1, u.2) := by
  induction h with
  | nil s => exact .nil _
  | @cons s t u e es hmax hel rest ih =>
    refine .cons (t := (vBare t.1, t.2)) ?_ ((calcElbo_bare F t.1).trans hel) ih
    rw [maximize_commutes vInert_bare F s, hmax]

theorem Iter.append {F : MathFun K} {s t u : VM V m Atom × ℕ} {es es' : List (Fl K)} (h : Iter F W ω s es t) (h' : Iter F W ω t es' u) : Iter F W ω s (es ++ es') u := by
  induction h with
  | nil s => exact h'
  | cons hmax hel rest ih => exact .cons hmax hel (ih h')

/-- The iterations are determined by the state. -/
theorem Iter.split {F : MathFun K} {s u u' : VM V m Atom × ℕ} {es es' : List (Fl K)} (h : Iter F W ω s es u) (h' : Iter F W ω s es' u') (hl : es.length ≤ es'.length) :
    ∃ es'', es' = es ++ es'' ∧ Iter F W ω u es'' u' := by
  induction h generalizing es' u' with
  | nil s => exact ⟨es', rfl, h'⟩
  | @cons s t u e es hmax hel rest ih =>
    cases h' with
    | nil => simp at hl
    | @cons _ t' _ e' es2 hmax' hel' rest' =>
      rw [hmax] at hmax'
      cases hmax'
      rw [hel] at hel'
      cases hel'
      obtain ⟨es'', rfl, h2⟩ := ih rest' (by simpa using hl)
      exact ⟨es'', rfl, h2⟩

theorem Iter.same {F : MathFun K} {s u u' : VM V m Atom × ℕ} {es es' : List (Fl K)} (h : Iter F W ω s es u) (h' : Iter F W ω s es' u') (hl : es.length = es'.length) :
    es' = es ∧ u' = u := by
  obtain ⟨es'', rfl, h2⟩ := Iter.split h h' hl.le
  have : es'' = [] := List.eq_nil_of_length_eq_zero (by simpa using hl)
  subst this
  cases h2
  exact ⟨by simp, rfl⟩

theorem varResult_bare {s t : VM V m Atom} (h : vBare s = vBare t) : varResult s = varResult t := by
  have h1 : varResult (vBare s) = varResult (vBare t) := by rw [h]
  exact h1

/-! ### The data and priors stay -/

/-- The common part of a fit has nothing left to do. -/
def Settled (ys : List (Fin m → K)) (t : VM V m Atom) : Prop := t.gm.y = ys ∧ t.gm.muPrior.isSome ∧ t.gm.psiPrior.isSome ∧ t.gm.nuPrior.isSome

theorem begun_settled (ys : List (Fin m → K)) (s : VM V m Atom) : Settled ys (begun ys s) := ⟨rfl, rfl, rfl, rfl⟩

theorem begun_of_settled {ys : List (Fin m → K)} {t : VM V m Atom} (h : Settled ys t) : begun ys t = t := by
  obtain ⟨h1, h2, h3, h4⟩ := h
  rcases t with ⟨g, a, b, c, d, e⟩
  rcases g with ⟨⟩
  simp only [begun] at *
  subst h1
  rw [Option.isSome_iff_exists] at h2 h3 h4
  obtain ⟨x, rfl⟩ := h2
  obtain ⟨x', rfl⟩ := h3
  obtain ⟨x'', rfl⟩ := h4
  rfl

/-- Kept by the assignments of the iterations. -/
structure VStable (P : VM V m Atom → Prop) : Prop where
  setTheta : ∀ s x, P s → P { s with varTheta := x }
  setD : ∀ s x, P s → P { s with varD := x }
  setK : ∀ s k, P s → P { s with varK := some k, varTheta := [] }
  setW : ∀ s x v, P s → P { s with gm := { s.gm with wst := (x, s.gm.wst.2) }, vst := v }

theorem vStable_settled (ys : List (Fin m → K)) : VStable (Settled ys : VM V m Atom → Prop) := ⟨fun _ _ h => h, fun _ _ h => h, fun _ _ h => h, fun _ _ _ h => h⟩

section
variable {P : VM V m Atom → Prop} (hP : VStable P)
include hP

theorem VStable.updD (G : MathFun K) : KeepsR ω P (updateVarD G W) (fun _ => True) := by
  unfold updateVarD
  refine KeepsR.bind KeepsR.self (fun t _ => ?_)
  cases t.varK with
  | none => exact KeepsR.raise _
  | some k =>
    simp only []
    exact KeepsR.ite (fun _ => KeepsR.raise _) (fun _ => KeepsR.bind (KeepsR.lift _) (fun _ _ =>
      KeepsR.ite (fun _ => KeepsR.raise _) (fun _ => KeepsR.assign (fun s h => hP.setD s _ h))))

theorem VStable.fitW (q : List (List (Fl K))) : KeepsR ω P (fitWeights q) (fun _ => True) := by
  unfold fitWeights
  exact KeepsR.bind KeepsR.self (fun _ _ => KeepsR.bind (KeepsR.lift _) (fun _ _ => KeepsR.assign (fun s h => hP.setW s _ _ h)))

theorem VStable.updW : KeepsR ω P updateVarW (fun _ => True) := by
  unfold updateVarW
  exact KeepsR.bind KeepsR.self (fun _ _ => VStable.fitW hP _)

theorem VStable.updTheta : KeepsR ω P updateVarTheta (fun _ => True) := by
  unfold updateVarTheta
  exact KeepsR.bind KeepsR.self (fun _ _ => KeepsR.bind (KeepsR.lift _) (fun _ _ => KeepsR.assign (fun s h => hP.setTheta s _ h)))

theorem VStable.drawAtoms : ∀ n, KeepsR ω P (drawAtoms F n) (fun _ => True)
  | 0 => KeepsR.pure trivial
  | n + 1 => by
    have hd : ∀ {α : Type} (f : ℕ → α), KeepsR ω P (GM.draw1 f) (fun _ => True) := fun f t ht => ⟨ht, trivial⟩
    unfold VM.drawAtoms
    exact KeepsR.bind KeepsR.self (fun _ _ => KeepsR.bind (hd _) (fun _ _ => KeepsR.bind (KeepsR.lift _) (fun _ _ =>
      KeepsR.bind (KeepsR.assign (fun s h => hP.setTheta s _ h)) (fun _ _ => VStable.drawAtoms n))))

theorem VStable.maximize (G : MathFun K) : KeepsR ω P (maximize G W) (fun _ => True) :=
  KeepsR.bind (hP.updD G) fun _ _ => KeepsR.bind hP.updW fun _ _ => hP.updTheta

theorem VStable.initVar (k : ℤ) (method : VarInit) : KeepsR ω P (initVar F W k method) (fun _ => True) := by
  have hd : ∀ {α : Type} (f : ℕ → α), KeepsR ω P (GM.draw1 f) (fun _ => True) := fun f t ht => ⟨ht, trivial⟩
  cases method with
  | kmeans =>
    unfold VM.initVar
    exact KeepsR.bind (KeepsR.assign (fun s h => hP.setK s k h)) (fun _ _ => KeepsR.bind KeepsR.self (fun _ _ => KeepsR.bind (hd _) (fun _ _ =>
      KeepsR.bind (KeepsR.lift _) (fun _ _ => KeepsR.ite (fun _ => KeepsR.raise _) (fun _ => KeepsR.ite (fun _ => KeepsR.raise _) (fun _ =>
        KeepsR.bind (KeepsR.assign (fun s h => hP.setD s _ h)) (fun _ _ => KeepsR.bind (hP.fitW _) (fun _ _ => KeepsR.bind hP.updTheta (fun _ _ =>
          KeepsR.bind (hP.updD _) (fun _ _ => hP.updW))))))))))
  | random =>
    unfold VM.initVar
    exact KeepsR.bind (KeepsR.assign (fun s h => hP.setK s k h)) (fun _ _ => KeepsR.bind (VStable.drawAtoms hP _) (fun _ _ => KeepsR.ite (fun _ => KeepsR.raise _) (fun _ =>
      KeepsR.ite (fun _ => KeepsR.raise _) (fun _ => KeepsR.bind (KeepsR.assign (fun s h => hP.setD s _ h)) (fun _ _ => hP.updW)))))
  | unknown =>
    unfold VM.initVar
    exact KeepsR.bind (KeepsR.assign (fun s h => hP.setK s k h)) (fun _ _ => KeepsR.raise _)

theorem VStable.iter {G : MathFun K} {s u : VM V m Atom × ℕ} {es : List (Fl K)} (h : Iter G W ω s es u) (hs : P s.1) : P u.1 := by
  induction h with
  | nil s => exact hs
  | @cons s t u e es hmax hel rest ih =>
    refine ih ?_
    have := (hP.maximize (W := W) (ω := ω) G).wp hs
    exact (wp_of_ok hmax this).1
end

theorem Started.settled {ys : List (Fin m → K)} {nG : Option ℤ} {warm : Bool} {method : VarInit} {s t : VM V m Atom × ℕ}
    (h : Started F W ω ys nG warm method s t) : Settled ys t.1 := by
  rcases h with ⟨_, rfl⟩ | ⟨_, k, _, h⟩
  · exact begun_settled ys s.1
  · exact (wp_of_ok h (((vStable_settled ys).initVar k method).wp (begun_settled ys s.1))).1

/-- The start does not depend on the number of iterations. -/
theorem Started.total {ys : List (Fin m → K)} {nG : Option ℤ} {warm : Bool} {method : VarInit} {s t t' : VM V m Atom × ℕ} {T : ℤ}
    (h : Started F W ω ys nG warm method s t) (h' : Started F W ω ys nG warm method (vTotal T s.1, s.2) t') : (vBare t'.1, t'.2) = (vBare t.1, t.2) := by
  rcases h with ⟨hw, rfl⟩ | ⟨hw, k, hk, h⟩
  · rcases h' with ⟨_, rfl⟩ | ⟨hw', _⟩
    · rfl
    · rw [hw] at hw'; cases hw'
  · rcases h' with ⟨hw', _⟩ | ⟨_, k', hk', h'⟩
    · rw [hw] at hw'; cases hw'
    · have e : startGroups nG (vTotal T s.1) = startGroups nG s.1 := rfl
      rw [e, hk] at hk'
      cases hk'
      have := initVar_commutes (ω := ω) (W := W) (F := F) (vInert_total T) k method (begun ys s.1, s.2)
      rw [h] at this
      have e2 : initVar F W k method ω (vTotal T (begun ys s.1), s.2) = (.ok (), t') := h'
      rw [e2] at this
      cases this
      rfl

/-! ### The changes of the bound -/

theorem changes_head (e0 d0 : Fl K) (es : List (Fl K)) : (changes e0 d0 es)[0]? = some d0 := by cases es <;> rfl

theorem changes_prefix (e0 d0 : Fl K) (es es' : List (Fl K)) (i : ℕ) (h : i ≤ es.length) : (changes e0 d0 (es ++ es'))[i]? = (changes e0 d0 es)[i]? := by
  induction es generalizing e0 d0 i with
  | nil =>
    have : i = 0 := by simpa using h
    subst this
    rw [changes_head, changes_head]
  | cons e es ih =>
    cases i with
    | zero => rfl
    | succ i => exact ih _ _ i (by simpa using h)

theorem changes_shift (e0 d0 e1 d1 : Fl K) (es es' : List (Fl K)) (i : ℕ) : (changes e0 d0 (es ++ es'))[es.length + (i + 2)]? = (changes e1 d1 es')[i + 2]? := by
  induction es generalizing e0 d0 with
  | nil =>
    rcases es' with _ | ⟨a, _ | ⟨b, l⟩⟩
    · rfl
    · rfl
    · simp [changes]
  | cons e es ih =>
    have : (e :: es).length + (i + 2) = (es.length + (i + 2)) + 1 := by simp; omega
    rw [this]
    exact ih _ _

theorem changes_next (e0 d0 e : Fl K) (es l : List (Fl K)) : ∃ x, (changes e0 d0 (es ++ e :: l))[es.length + 1]? = some (Fl.abs (x - e)) := by
  induction es generalizing e0 d0 with
  | nil => exact ⟨e0, changes_head _ _ _⟩
  | cons a es ih => exact ih _ _

/-! ### The property -/

/-- **C126**: the warm fit makes further iterations of the sequence that the first fit began. -/
theorem C126_sequence {ys : List (Fin m → K)} {nG nG' : Option ℤ} {warm : Bool} {tol tol' : Fl K} {method method' : VarInit} {T : ℤ} {s u1 u2 : VM V m Atom × ℕ}
    (h1 : fitVariational F W (.rows ys) nG warm tol method ω s = (.ok (), u1))
    (h2 : fitVariational F W (.rows ys) nG' true tol' method' ω (vTotal T u1.1, u1.2) = (.ok (), u2)) :
    ∃ (t : VM V m Atom × ℕ) (es1 es2 : List (Fl K)), Started F W ω ys nG warm method s t ∧
      Iter F.toMathFun W ω (vBare t.1, t.2) es1 (vBare u1.1, u1.2) ∧ Iter F.toMathFun W ω (vBare t.1, t.2) (es1 ++ es2) (vBare u2.1, u2.2) ∧
      (es1.length : ℤ) ≤ max 0 s.1.gm.totalIter ∧ (es2.length : ℤ) ≤ max 0 T ∧
      (s.1.varConverged = false → u1.1.varConverged = decide ((es1.length : ℤ) < s.1.gm.totalIter)) ∧
      (u1.1.varConverged = false → u2.1.varConverged = decide ((es2.length : ℤ) < T)) ∧
      (∀ i < es1.length, ((changes .ninf .pinf es1)[i]?).map (Fl.lt tol) = some true) ∧
      (∀ i < es2.length, ((changes .ninf .pinf es2)[i]?).map (Fl.lt tol') = some true) ∧
      ((es2.length : ℤ) < T → ((changes .ninf .pinf es2)[es2.length]?).map (Fl.lt tol') = some false) := by
  obtain ⟨t1, v1, es1, a0, a1, a2, a3, a4, a5, a6⟩ := C53_flag h1
  obtain ⟨t2, v2, es2, b0, b1, b2, b3, b4, b5, b6⟩ := C53_flag h2
  have e1 : (vBare v1.1, v1.2) = (vBare u1.1, u1.2) := by rw [a2]; rfl
  have e2 : (vBare v2.1, v2.2) = (vBare u2.1, u2.2) := by rw [b2]; rfl
  have hr : Settled ys u1.1 := by
    have := (vStable_settled ys).iter a1 a0.settled
    rw [a2]; exact this
  have e3 : (vBare t2.1, t2.2) = (vBare u1.1, u1.2) := by
    rcases b0 with ⟨_, rfl⟩ | ⟨hw, _⟩
    · show (vBare (begun ys u1.1), u1.2) = _
      rw [begun_of_settled hr]
    · cases hw
  have i1 := a1.bare
  have i2 := b1.bare
  rw [e1] at i1
  rw [e2, e3] at i2
  refine ⟨t1, es1, es2, a0, i1, i1.append i2, a3, b3, fun h => ?_, fun h => ?_, a5, b5, b6⟩
  · rw [a4, h, Bool.false_or]
  · have : (vTotal T u1.1).varConverged = false := h
    rw [b4]
    show ((vTotal T u1.1).varConverged || _) = _
    rw [this, Bool.false_or]; rfl

/-- **C126** when none of the fits reports convergence: `T₁` iterations and, warm, `T₂` further ones give what `T₁ + T₂` iterations give. -/
theorem C126_unconverged {ys : List (Fin m → K)} {nG nG' : Option ℤ} {warm : Bool} {tol tol' tol'' : Fl K} {method method' : VarInit} {T : ℤ} {s u1 u2 u3 : VM V m Atom × ℕ}
    (hT1 : 0 ≤ s.1.gm.totalIter) (hT2 : 0 ≤ T)
    (h1 : fitVariational F W (.rows ys) nG warm tol method ω s = (.ok (), u1)) (c1 : u1.1.varConverged = false)
    (h2 : fitVariational F W (.rows ys) nG' true tol' method' ω (vTotal T u1.1, u1.2) = (.ok (), u2)) (c2 : u2.1.varConverged = false)
    (h3 : fitVariational F W (.rows ys) nG warm tol'' method ω (vTotal (s.1.gm.totalIter + T) s.1, s.2) = (.ok (), u3)) (c3 : u3.1.varConverged = false) :
    varResult u3.1 = varResult u2.1 ∧ u3.2 = u2.2 := by
  have c0 : s.1.varConverged = false := by
    by_contra h
    rw [C53_refit_refuted h1 (by simpa using h)] at c1
    cases c1
  obtain ⟨t, es1, es2, a0, a1, a2, a3, a4, a5, a6, _⟩ := C126_sequence h1 h2
  obtain ⟨t3, v3, es3, b0, b1, b2, b3, b4, _⟩ := C53_flag h3
  have l1 := a5 c0
  have l2 := a6 c1
  rw [c1] at l1
  rw [c2] at l2
  rw [c3] at b4
  have c0' : (vTotal (s.1.gm.totalIter + T) s.1).varConverged = false := c0
  rw [c0', Bool.false_or] at b4
  have l1 := of_decide_eq_false l1.symm
  have l2 := of_decide_eq_false l2.symm
  have l3 : ¬ (es3.length : ℤ) < s.1.gm.totalIter + T := of_decide_eq_false b4.symm
  have b3 : (es3.length : ℤ) ≤ max 0 (s.1.gm.totalIter + T) := b3
  have i3 := b1.bare
  rw [a0.total b0] at i3
  have e3 : (vBare v3.1, v3.2) = (vBare u3.1, u3.2) := by rw [b2]; rfl
  rw [e3] at i3
  obtain ⟨_, he⟩ := Iter.same a2 i3 (by rw [List.length_append]; omega)
  rw [Prod.mk.injEq] at he
  exact ⟨varResult_bare he.1, he.2⟩

/-- **C126** for fits with the same tolerance, the first of which did not converge: the warm fit gives what the long fit gives, unless the long fit reports convergence
after `T₁` or `T₁ + 1` iterations.  (Missing: this case, see `C126_seam_refuted`; a bound of `-inf`.) -/
theorem C126_long_partial {ys : List (Fin m → K)} {nG nG' : Option ℤ} {warm : Bool} {tol : K} {method method' : VarInit} {T : ℤ} {s u1 u2 u3 : VM V m Atom × ℕ}
    (hT1 : 0 ≤ s.1.gm.totalIter) (hT2 : 0 ≤ T)
    (h1 : fitVariational F W (.rows ys) nG warm (.fin tol) method ω s = (.ok (), u1)) (c1 : u1.1.varConverged = false)
    (h2 : fitVariational F W (.rows ys) nG' true (.fin tol) method' ω (vTotal T u1.1, u1.2) = (.ok (), u2))
    (h3 : fitVariational F W (.rows ys) nG warm (.fin tol) method ω (vTotal (s.1.gm.totalIter + T) s.1, s.2) = (.ok (), u3)) :
    ∃ (t : VM V m Atom × ℕ) (es : List (Fl K)), Started F W ω ys nG warm method s t ∧ Iter F.toMathFun W ω (vBare t.1, t.2) es (vBare u3.1, u3.2) ∧ (.ninf ∉ es →
      (varResult u3.1 = varResult u2.1 ∧ u3.2 = u2.2 ∧ u3.1.varConverged = u2.1.varConverged) ∨
      (u3.1.varConverged = true ∧ ((es.length : ℤ) = s.1.gm.totalIter ∨ (es.length : ℤ) = s.1.gm.totalIter + 1))) := by
  have c0 : s.1.varConverged = false := by
    by_contra h
    rw [C53_refit_refuted h1 (by simpa using h)] at c1
    cases c1
  obtain ⟨t, es1, es2, a0, a1, a2, a3, a4, a5, a6, a7, a8, a9⟩ := C126_sequence h1 h2
  obtain ⟨t3, v3, es3, b0, b1, b2, b3, b4, b5, b6⟩ := C53_flag h3
  have l1 := a5 c0
  have l2 := a6 c1
  rw [c1] at l1
  have c0' : (vTotal (s.1.gm.totalIter + T) s.1).varConverged = false := c0
  rw [c0', Bool.false_or] at b4
  have l1 : ¬ (es1.length : ℤ) < s.1.gm.totalIter := of_decide_eq_false l1.symm
  have b3 : (es3.length : ℤ) ≤ max 0 (s.1.gm.totalIter + T) := b3
  have b4 : u3.1.varConverged = decide ((es3.length : ℤ) < s.1.gm.totalIter + T) := b4
  have b6 : (es3.length : ℤ) < s.1.gm.totalIter + T → ((changes .ninf .pinf es3)[es3.length]?).map (Fl.lt (.fin tol)) = some false := b6
  have i3 := b1.bare
  rw [a0.total b0] at i3
  have e3 : (vBare v3.1, v3.2) = (vBare u3.1, u3.2) := by rw [b2]; rfl
  rw [e3] at i3
  refine ⟨t, es3, a0, i3, fun hn => ?_⟩
  have hl1 : (es1.length : ℤ) = s.1.gm.totalIter := by omega
  -- as many iterations
  have same : es3.length = es1.length + es2.length → (varResult u3.1 = varResult u2.1 ∧ u3.2 = u2.2 ∧ u3.1.varConverged = u2.1.varConverged) := by
    intro hl
    obtain ⟨_, he⟩ := Iter.same a2 i3 (by rw [List.length_append, hl])
    rw [Prod.mk.injEq] at he
    refine ⟨varResult_bare he.1, he.2, ?_⟩
    rw [b4, l2, decide_eq_decide, hl]
    push_cast
    omega
  -- the first change of a fit is infinite
  have first : ∀ es : List (Fl K), ((changes .ninf .pinf es)[0]?).map (Fl.lt (.fin tol)) = some true := by
    intro es; rw [changes_head]; rfl
  have pos2 : es2.length = 0 → T = 0 := by
    intro h0
    by_contra hT
    have := a9 (by omega)
    rw [h0, first] at this
    cases this
  rcases lt_or_ge es3.length es1.length with hlt | hge
  · -- the long fit does not stop before the first fit
    exfalso
    obtain ⟨es', rfl, _⟩ := Iter.split i3 a1 hlt.le
    have h := a7 es3.length hlt
    rw [changes_prefix _ _ _ _ _ le_rfl, b6 (by omega)] at h
    cases h
  obtain ⟨es', rfl, i4⟩ := Iter.split a1 i3 hge
  rw [List.length_append] at *
  rcases Nat.lt_or_ge es'.length 2 with hshort | hlong
  · by_cases hall : ((es1.length + es'.length : ℕ) : ℤ) < s.1.gm.totalIter + T
    · right
      refine ⟨by rw [b4]; exact decide_eq_true hall, ?_⟩
      push_cast
      omega
    · left
      apply same
      push_cast at hall
      omega
  · left
    obtain ⟨k, hk⟩ := Nat.exists_eq_add_of_le' hlong
    apply same
    rcases lt_trichotomy es2.length es'.length with h | h | h
    · exfalso
      obtain ⟨esx, hx, _⟩ := Iter.split a2 i3 (by simp only [List.length_append]; omega)
      rw [List.append_assoc, List.append_cancel_left_eq] at hx
      subst hx
      have hstop := a9 (by push_cast at b3; omega)
      rcases hes : es2 with _ | ⟨e, _ | ⟨e', l⟩⟩
      · rw [hes] at hstop; simp [changes, Fl.lt] at hstop
      · have hgo := b5 (es1.length + 1) (by rw [hes] at h; simp at h ⊢; omega)
        rw [hes] at hstop hn hgo
        obtain ⟨x, hx⟩ := changes_next (Fl.ninf : Fl K) .pinf e es1 esx
        rw [List.singleton_append, hx] at hgo
        have hstop : Fl.lt (.fin tol) (Fl.abs (.ninf - e)) = false := by simpa [changes] using hstop
        cases e with
        | fin v => cases hstop
        | pinf => cases hstop
        | ninf => simp at hn
        | nan => cases x <;> cases hgo
      · have hgo := b5 (es1.length + es2.length) (by omega)
        have hlen : es2.length = l.length + 2 := by rw [hes]; rfl
        rw [hlen, changes_shift (e1 := .ninf) (d1 := .pinf), changes_prefix _ _ _ _ _ (by omega), ← hlen, hstop] at hgo
        cases hgo
    · omega
    · exfalso
      obtain ⟨esx, hx, _⟩ := Iter.split i3 a2 (by simp only [List.length_append]; omega)
      rw [List.append_assoc, List.append_cancel_left_eq] at hx
      subst hx
      have hgo := a8 es'.length h
      have hstop := b6 (by push_cast; omega)
      rw [hk, changes_shift (e1 := .ninf) (d1 := .pinf), ← hk] at hstop
      rw [changes_prefix _ _ _ _ _ le_rfl, hstop] at hgo
      cases hgo

/-- A converged fit is not left alone: if its tolerance is met again, the warm fit still makes two iterations (`T₂ ≥ 2`, the first bound a number). -/
theorem C126_further {ys : List (Fin m → K)} {nG : Option ℤ} {tol : K} {method : VarInit} {s u : VM V m Atom × ℕ} (hT : 2 ≤ s.1.gm.totalIter)
    (h : fitVariational F W (.rows ys) nG true (.fin tol) method ω s = (.ok (), u)) :
    ∃ (t u' : VM V m Atom × ℕ) (es : List (Fl K)), Started F W ω ys nG true method s t ∧ Iter F.toMathFun W ω t es u' ∧ varResult u.1 = varResult u'.1 ∧ u.2 = u'.2 ∧
      1 ≤ es.length ∧ ((∃ x, es.head? = some (.fin x)) → 2 ≤ es.length) := by
  obtain ⟨t, v, es, a0, a1, a2, a3, a4, a5, a6⟩ := C53_flag h
  refine ⟨t, v, es, a0, a1, by rw [a2]; rfl, by rw [a2], ?_, ?_⟩
  · by_contra hl
    have h0 : es.length = 0 := by omega
    have := a6 (by omega)
    rw [h0, changes_head] at this
    cases this
  · rintro ⟨x, hx⟩
    by_contra hl
    rcases es with _ | ⟨e, _ | ⟨e', l⟩⟩
    · cases hx
    · have he : e = .fin x := by simpa using hx
      subst he
      have := a6 (by simp; omega)
      cases this
    · simp at hl

/-! ### Concrete fits -/

/-- A fit of the demo object. -/
def demoFit (T : ℤ) (warm : Bool) (tol : Fl ℚ) (x : VM (varDP demoFun) 1 ℚ × ℕ) : Except PyErr Unit × (VM (varDP demoFun) 1 ℚ × ℕ) :=
  fitVariational vworld world (rows1 [0, 1]) (some 2) warm tol .random demo (vTotal T x.1, x.2)

/-- The demo object before any fit. -/
def demoNew : VM (varDP demoFun) 1 ℚ × ℕ := ({ dpVM 3 with gm := { (dpVM 3).gm with psiPrior := some (fun _ _ => 1) } }, 0)

/-- The hypotheses of `C126_unconverged` and of `C126_long_partial`: one iteration, then two, against three. -/
example : (demoFit 1 false (.fin 0) demoNew).1.isOk ∧ (demoFit 1 false (.fin 0) demoNew).2.1.varConverged = false ∧
    (demoFit 2 true (.fin 0) (demoFit 1 false (.fin 0) demoNew).2).1.isOk ∧ (demoFit 2 true (.fin 0) (demoFit 1 false (.fin 0) demoNew).2).2.1.varConverged = false ∧
    (demoFit 3 false (.fin 0) demoNew).1.isOk ∧ (demoFit 3 false (.fin 0) demoNew).2.1.varConverged = false := by decide +kernel

/-- The iterations matter: three give other responsibilities than one. -/
example : (demoFit 3 false (.fin 0) demoNew).2.1.varD ≠ (demoFit 1 false (.fin 0) demoNew).2.1.varD := by decide +kernel

/-- **C126 fails** at the seam: with a tolerance that the second change meets, the long fit stops after two iterations, the split fit only after three, with other
responsibilities; no fit raised an exception, and the first fit of the split did not converge. -/
theorem C126_seam_refuted :
    (demoFit 1 false (.fin 1000) demoNew).1.isOk ∧ (demoFit 1 false (.fin 1000) demoNew).2.1.varConverged = false ∧
    (demoFit 2 true (.fin 1000) (demoFit 1 false (.fin 1000) demoNew).2).1.isOk ∧ (demoFit 3 false (.fin 1000) demoNew).1.isOk ∧
    (demoFit 2 true (.fin 1000) (demoFit 1 false (.fin 1000) demoNew).2).2.1.varD ≠ (demoFit 3 false (.fin 1000) demoNew).2.1.varD ∧
    (demoFit 3 false (.fin 1000) demoNew).2.1.varD = (demoFit 2 false (.fin 1000) demoNew).2.1.varD := by decide +kernel

/-- **C126 fails** after convergence: a converged fit is changed by a warm fit with the same data and tolerance. -/
theorem C126_converged_refuted :
    (demoFit 3 false (.fin 1000) demoNew).1.isOk ∧ (demoFit 3 false (.fin 1000) demoNew).2.1.varConverged = true ∧
    (demoFit 1 true (.fin 1000) (demoFit 3 false (.fin 1000) demoNew).2).1.isOk ∧
    (demoFit 1 true (.fin 1000) (demoFit 3 false (.fin 1000) demoNew).2).2.1.varD ≠ (demoFit 3 false (.fin 1000) demoNew).2.1.varD := by decide +kernel

end Verif.Mix.VM
