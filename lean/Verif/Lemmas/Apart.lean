import Verif.Lemmas.VarGibbs
import Verif.Lemmas.Hyper

/-! # What the two fitting methods leave alone -/

set_option linter.unusedSectionVars false

namespace Verif.Mix.VM
open Verif.Fl
variable {K : Type} [Field K] [LinearOrder K] [IsStrictOrderedRing K] {m : ℕ} {C : WeightClass K} {V : VarClass C} {Atom : Type}
variable {ω : Oracle K} {W : World K m Atom} {F : VWorld K m}

/-! ### `fit_variational` leaves what the Gibbs sampler has stored -/

/-- What the Gibbs sampler has stored. -/
structure GibbsRec (K Atom : Type) where
  saved : List (RunParams K Atom)
  nGroups : List ℕ
  nAtoms : List ℕ
  affinity : List (List ℕ)
  totalSaved : ℕ
  mapParams : Option (RunParams K Atom)
  mapLL : WithBot K
  fitted : Bool

/-- The record of an object. -/
def gibbsRec (s : GM C m Atom) : GibbsRec K Atom := ⟨s.saved, s.nGroups, s.nAtoms, s.affinity, s.totalSaved, s.mapParams, s.mapLL, s.gibbsFitted⟩

/-- The record is `r`, the data are `ys`. -/
def Rec (r : GibbsRec K Atom) (ys : List (Fin m → K)) (s : VM V m Atom) : Prop := gibbsRec s.gm = r ∧ s.gm.y = ys

theorem updateVarD_rec {G : MathFun K} {r : GibbsRec K Atom} {ys : List (Fin m → K)} : KeepsR ω (Rec r ys) (updateVarD G W : M K (VM V m Atom) Unit) (fun _ => True) := by
  unfold updateVarD
  refine KeepsR.bind KeepsR.self (fun t ht => ?_)
  cases t.varK with
  | none => exact KeepsR.raise _
  | some k =>
    simp only []
    exact KeepsR.ite (fun _ => KeepsR.raise _) (fun _ => KeepsR.bind (KeepsR.lift _) (fun _ _ =>
      KeepsR.ite (fun _ => KeepsR.raise _) (fun _ => KeepsR.assign (fun _ h => h))))

theorem fitWeights_rec {r : GibbsRec K Atom} {ys : List (Fin m → K)} (q : List (List (Fl K))) : KeepsR ω (Rec r ys) (fitWeights q : M K (VM V m Atom) Unit) (fun _ => True) := by
  unfold fitWeights
  exact KeepsR.bind KeepsR.self (fun _ _ => KeepsR.bind (KeepsR.lift _) (fun _ _ => KeepsR.assign (fun _ h => h)))

theorem updateVarW_rec {r : GibbsRec K Atom} {ys : List (Fin m → K)} : KeepsR ω (Rec r ys) (updateVarW : M K (VM V m Atom) Unit) (fun _ => True) := by
  unfold updateVarW
  exact KeepsR.bind KeepsR.self (fun _ _ => fitWeights_rec _)

theorem updateVarTheta_rec {r : GibbsRec K Atom} {ys : List (Fin m → K)} : KeepsR ω (Rec r ys) (updateVarTheta : M K (VM V m Atom) Unit) (fun _ => True) := by
  unfold updateVarTheta
  exact KeepsR.bind KeepsR.self (fun _ _ => KeepsR.bind (KeepsR.lift _) (fun _ _ => KeepsR.assign (fun _ h => h)))

theorem maximize_rec {G : MathFun K} {r : GibbsRec K Atom} {ys : List (Fin m → K)} : KeepsR ω (Rec r ys) (maximize G W : M K (VM V m Atom) Unit) (fun _ => True) :=
  KeepsR.bind updateVarD_rec fun _ _ => KeepsR.bind updateVarW_rec fun _ _ => updateVarTheta_rec

theorem drawAtoms_rec {r : GibbsRec K Atom} {ys : List (Fin m → K)} (k : ℕ) : KeepsR ω (Rec r ys) (drawAtoms F k : M K (VM V m Atom) Unit) (fun _ => True) := by
  induction k with
  | zero => exact KeepsR.pure trivial
  | succ k ih =>
    unfold drawAtoms
    exact KeepsR.bind KeepsR.self fun _ _ => KeepsR.bind (keepsV_draw1 _) fun _ _ => KeepsR.bind (KeepsR.lift _) fun _ _ =>
      KeepsR.bind (KeepsR.assign (fun _ h => h)) fun _ _ => ih

theorem initVar_rec {r : GibbsRec K Atom} {ys : List (Fin m → K)} (k : ℤ) (method : VarInit) : KeepsR ω (Rec r ys) (initVar F W k method : M K (VM V m Atom) Unit) (fun _ => True) := by
  cases method with
  | kmeans =>
    unfold initVar
    refine KeepsR.bind (KeepsR.assign (fun _ h => h)) fun _ _ => KeepsR.bind KeepsR.self fun _ _ => KeepsR.bind (keepsV_draw1 _) fun _ _ =>
      KeepsR.bind (KeepsR.lift _) fun _ _ => KeepsR.ite (fun _ => KeepsR.raise _) fun _ => KeepsR.ite (fun _ => KeepsR.raise _) fun _ => ?_
    exact KeepsR.bind (KeepsR.assign (fun _ h => h)) fun _ _ => KeepsR.bind (fitWeights_rec _) fun _ _ => KeepsR.bind updateVarTheta_rec fun _ _ =>
      KeepsR.bind updateVarD_rec fun _ _ => updateVarW_rec
  | random =>
    unfold initVar
    exact KeepsR.bind (KeepsR.assign (fun _ h => h)) fun _ _ => KeepsR.bind (drawAtoms_rec _) fun _ _ => KeepsR.ite (fun _ => KeepsR.raise _) fun _ =>
      KeepsR.ite (fun _ => KeepsR.raise _) fun _ => KeepsR.bind (KeepsR.assign (fun _ h => h)) fun _ _ => updateVarW_rec
  | unknown =>
    unfold initVar
    exact KeepsR.bind (KeepsR.assign (fun _ h => h)) fun _ _ => KeepsR.raise _

theorem varLoop_rec {G : MathFun K} {r : GibbsRec K Atom} {ys : List (Fin m → K)} (tol : Fl K) : ∀ (n : ℕ) (elbo diff : Fl K) (it : ℤ),
    KeepsR ω (Rec r ys) (varLoop G W tol n elbo diff it : M K (VM V m Atom) ℤ) (fun _ => True) := by
  intro n
  induction n with
  | zero => intro _ _ _; exact KeepsR.raise _
  | succ n ih =>
    intro elbo diff it
    unfold varLoop
    exact KeepsR.bind KeepsR.self fun _ _ => KeepsR.ite (fun _ => KeepsR.bind maximize_rec fun _ _ => KeepsR.bind KeepsR.self fun _ _ =>
      KeepsR.bind (KeepsR.lift _) fun _ _ => ih _ _ _) (fun _ => KeepsR.pure trivial)

/-- `fit_variational` keeps the record and has the data it was given as data, if they are data. -/
theorem fitVariational_rec (y : YArg K m) (nG : Option ℤ) (warm : Bool) (tol : Fl K) (method : VarInit) (s : VM V m Atom × ℕ) :
    Rec (gibbsRec s.1.gm) (match y with | .rows ys => ys | .invalid => s.1.gm.y) ((fitVariational F W y nG warm tol method : M K (VM V m Atom) Unit) ω s).2.1 := by
  cases y with
  | invalid => exact ⟨rfl, rfl⟩
  | rows ys =>
    have h : KeepsR ω (Rec (gibbsRec s.1.gm) ys) (do
        M.whenM (warm = false) do
          let s ← M.self
          match nG, s.gm.nAttr with
          | some k, _ => initVar F W k method
          | none, some n => initVar F W n method
          | none, none => M.raise .attributeError
        let s ← M.self
        let it ← varLoop F.toMathFun W tol (s.gm.totalIter.toNat + 1) .ninf .pinf 0
        M.assign (fun s => { s with
            varFitted := true
            varConverged := s.varConverged || decide (it < s.gm.totalIter) }) : M K (VM V m Atom) Unit) (fun _ => True) := by
      refine KeepsR.bind (R := fun _ => True) (KeepsR.whenM (fun _ => KeepsR.bind KeepsR.self fun s _ => ?_)) fun _ _ =>
        KeepsR.bind KeepsR.self fun _ _ => KeepsR.bind (varLoop_rec _ _ _ _ _) fun _ _ => KeepsR.assign fun _ h => h
      cases nG with
      | some k => exact initVar_rec _ _
      | none =>
        cases s.gm.nAttr with
        | some n => exact initVar_rec _ _
        | none => exact KeepsR.raise _
    exact h.keeps ({ s.1 with gm := { s.1.gm with
      y := ys
      muPrior := some (s.1.gm.muPrior.getD (meanVec ys))
      psiPrior := some (s.1.gm.psiPrior.getD (GM.cov ys))
      nuPrior := some (s.1.gm.nuPrior.getD (m : K)) } }, s.2) ⟨rfl, rfl⟩
end Verif.Mix.VM

/-! ### `fit_gibbs` leaves what the weight class never changes -/

namespace Verif.Mix.GM
variable {K : Type} [Field K] [LinearOrder K] [IsStrictOrderedRing K] {m : ℕ} {C : WeightClass K} {Atom : Type} {ω : Oracle K}

/-- An invariant of the weight object. -/
def OnW (I : C.State → Prop) (s : GM C m Atom) : Prop := I s.wst.1

variable {I : C.State → Prop} (W : World K m Atom)

theorem callW_onW {α : Type} {x : M K C.State α} (h : Keeps ω I x) : KeepsR ω (OnW I : GM C m Atom → Prop) (callW x) (fun _ => True) := by
  refine KeepsR.of_wp fun s hs => ?_
  rw [wp_callW]
  exact wp_mono ((KeepsR.of_keeps h).wp (s := s.1.wst) hs) (fun _ t ht => ⟨ht.1, trivial⟩) fun _ t ht => ht

theorem getAtom_onW (j : ℕ) : KeepsR ω (OnW I : GM C m Atom → Prop) (getAtom W j) (fun _ => True) := by
  unfold getAtom
  refine KeepsR.bind KeepsR.self fun s _ => ?_
  split
  · exact KeepsR.pure trivial
  · exact KeepsR.ite (fun _ => KeepsR.bind (keeps_draw1 _) fun _ _ => KeepsR.bind (KeepsR.assign fun s h => h) fun _ _ => KeepsR.pure trivial) (fun _ => KeepsR.raise _)

theorem getAtoms_onW (js : List ℕ) : KeepsR ω (OnW I : GM C m Atom → Prop) (getAtoms W js) (fun _ => True) := by
  induction js with
  | nil => exact KeepsR.pure trivial
  | cons j js ih => exact KeepsR.bind (getAtom_onW W j) fun _ _ => KeepsR.bind ih fun _ _ => KeepsR.pure trivial

theorem yLogLik_onW (js : List ℕ) (acc : WithBot K) : KeepsR ω (OnW I : GM C m Atom → Prop) (yLogLik W js acc) (fun _ => True) := by
  induction js generalizing acc with
  | nil => exact KeepsR.pure trivial
  | cons j js ih => exact KeepsR.bind KeepsR.self fun s _ => KeepsR.bind (KeepsR.lift _) fun rows _ => KeepsR.bind (getAtom_onW W j) fun a _ => ih _

theorem updateAtoms_onW (js : List ℕ) : KeepsR ω (OnW I : GM C m Atom → Prop) (updateAtoms W js) (fun _ => True) := by
  induction js with
  | nil => exact KeepsR.pure trivial
  | cons j js ih =>
    exact KeepsR.bind KeepsR.self fun s _ => KeepsR.bind (KeepsR.lift _) fun rows _ => KeepsR.bind (keeps_draw1 _) fun _ _ => KeepsR.bind (KeepsR.assign fun s h => h) fun _ _ => ih

variable (hS : C.toWeightCore.Stable ω I) (ht : ∀ f x, Keeps ω I (C.tail f x))
include hS

theorem updateMap_onW : KeepsR ω (OnW I : GM C m Atom → Prop) (updateMap W) (fun _ => True) := by
  unfold updateMap
  refine KeepsR.bind (R := fun _ => True) ?_ fun _ _ => KeepsR.assign fun s h => ?_
  · unfold runLogLik
    exact KeepsR.bind KeepsR.self fun _ _ => KeepsR.bind (yLogLik_onW W _ _) fun _ _ => KeepsR.bind (callW_onW (assignLL_keeps hS _ _)) fun _ _ => KeepsR.pure trivial
  · split
    · exact h
    · split <;> exact h

include ht

theorem gibbsStep_onW : KeepsR ω (OnW I : GM C m Atom → Prop) (gibbsStep W) (fun _ => True) := by
  unfold gibbsStep
  refine KeepsR.bind KeepsR.self fun s _ => KeepsR.bind (updateAtoms_onW W _) fun _ _ => KeepsR.bind (R := fun _ => True) ?_ fun _ _ => ?_
  · unfold updateWeights
    refine KeepsR.bind KeepsR.self fun s _ => KeepsR.bind (callW_onW ?_) fun _ _ => KeepsR.bind (callW_onW (hS.random _)) fun w _ => KeepsR.bind (KeepsR.lift _) fun ws _ =>
      KeepsR.bind (keeps_slices W ws) fun us _ => KeepsR.bind (KeepsR.assign fun s h => h) fun _ _ => KeepsR.bind (KeepsR.lift _) fun u _ =>
      KeepsR.bind (callW_onW (ht _ _)) fun _ _ => KeepsR.pure trivial
    unfold BaseWeight.fit
    exact (KeepsR.assign fun t h => hS.setD _ t h).keeps
  · unfold updateD
    refine KeepsR.bind KeepsR.self fun s _ => KeepsR.bind (getAtoms_onW W _) fun _ _ => KeepsR.ite (fun _ => KeepsR.raise _) fun _ =>
      KeepsR.bind (R := fun _ => True) ?_ fun _ _ => KeepsR.bind (KeepsR.lift _) fun _ _ => KeepsR.assign fun s h => h
    exact fun s hs => ⟨hs, trivial⟩

theorem burn_onW (n : ℕ) : KeepsR ω (OnW I : GM C m Atom → Prop) (burn W n) (fun _ => True) := by
  induction n with
  | zero => exact KeepsR.pure trivial
  | succ n ih => exact KeepsR.bind (gibbsStep_onW W hS ht) fun _ _ => KeepsR.bind (updateMap_onW W hS) fun _ _ => ih

theorem record_onW (n i : ℕ) : KeepsR ω (OnW I : GM C m Atom → Prop) (record W n i) (fun _ => True) := by
  induction n generalizing i with
  | zero => exact KeepsR.pure trivial
  | succ n ih =>
    refine KeepsR.bind (gibbsStep_onW W hS ht) fun _ _ => KeepsR.bind (updateMap_onW W hS) fun _ _ => KeepsR.bind (R := fun _ => True) ?_ fun _ _ => ih _
    unfold maybeSave saveParams
    refine KeepsR.bind KeepsR.self fun _ _ => KeepsR.ite (fun _ => KeepsR.raise _) fun _ => KeepsR.whenM fun _ => ?_
    refine KeepsR.bind (KeepsR.assign fun s h => h) fun _ _ => KeepsR.bind KeepsR.self fun _ _ => KeepsR.bind (KeepsR.lift _) fun _ _ => ?_
    exact KeepsR.assign fun s h => h

theorem fitGibbs_onW (y : YArg K m) (g : PySize) (warm : Bool) (method : InitMethod) :
    KeepsR ω (OnW I : GM C m Atom → Prop) (fitGibbs W y g warm method) (fun _ => True) := by
  unfold fitGibbs
  refine KeepsR.bind (R := fun _ => True) ?_ fun _ _ => KeepsR.bind (R := fun _ => True) (KeepsR.whenM fun _ => KeepsR.bind (R := fun _ => True) ?_ fun _ _ => updateMap_onW W hS) fun _ _ =>
    KeepsR.bind KeepsR.self fun _ _ => KeepsR.bind (burn_onW W hS ht _) fun _ _ => KeepsR.bind (record_onW W hS ht _ _) fun _ _ => KeepsR.assign fun s h => h
  · unfold initCommon
    split
    · exact KeepsR.raise _
    · exact KeepsR.assign fun s h => h
  · unfold initGibbs
    refine KeepsR.bind (KeepsR.assign fun s h => h) fun _ _ => KeepsR.bind KeepsR.self fun _ _ => KeepsR.bind (keeps_draws _ _) fun _ _ =>
      KeepsR.bind (KeepsR.assign fun s h => h) fun _ _ => KeepsR.bind (R := fun _ => True) ?_ fun _ _ => KeepsR.bind (R := fun _ => True) ?_ fun _ _ => KeepsR.assign fun s h => h
    · unfold initWeights
      refine KeepsR.bind KeepsR.self fun _ _ => ?_
      split
      · exact KeepsR.bind (KeepsR.lift _) fun _ _ => KeepsR.bind (callW_onW (ht _ _)) fun _ _ => KeepsR.pure trivial
      · exact KeepsR.bind (callW_onW (hS.complete _)) fun _ _ => KeepsR.pure trivial
    · cases method with
      | kmeans => exact KeepsR.bind KeepsR.self fun _ _ => KeepsR.bind (keeps_draw1 _) fun _ _ => KeepsR.bind (KeepsR.lift _) fun _ _ => KeepsR.pure trivial
      | random => exact KeepsR.bind KeepsR.self fun _ _ => callW_onW (randomAssignment_keeps _)
      | variational => exact KeepsR.bind KeepsR.self fun _ _ => KeepsR.bind (keeps_draw1 _) fun _ _ => (KeepsR.lift _).true_of
      | unknown => exact KeepsR.raise _
end Verif.Mix.GM
