import Verif.Model.Gibbs
import Verif.Lemmas.Wp
import Verif.Lemmas.Argmax

/-! # Symbolic execution of the Gibbs sampler -/

set_option linter.unusedSectionVars false

namespace Verif.Mix
variable {K : Type} [Field K] [LinearOrder K] [IsStrictOrderedRing K] {C : WeightClass K} {m : ℕ} {Atom : Type} {ω : Oracle K}

namespace GM

section wp
variable {α : Type} {E : PyErr → GM C m Atom × ℕ → Prop} {s : GM C m Atom × ℕ}

theorem wp_callW {Q : α → GM C m Atom × ℕ → Prop} (x : M K C.State α) :
    wp ω (callW x) Q E s ↔ wp ω x (fun a t => Q a ({ s.1 with wst := t }, s.2)) (fun e t => E e ({ s.1 with wst := t }, s.2)) s.1.wst := by
  unfold wp callW
  rcases x ω s.1.wst with ⟨e | a, t⟩ <;> rfl

theorem wp_draws {Q : List α → GM C m Atom × ℕ → Prop} (f : ℕ → α) (n : ℕ) :
    wp ω (draws f n) Q E s ↔ Q ((List.range n).map (fun i => f (s.2 + i))) (s.1, s.2 + n) := Iff.rfl

theorem wp_draw1 {Q : α → GM C m Atom × ℕ → Prop} (f : ℕ → α) : wp ω (draw1 f) Q E s ↔ Q (f s.2) (s.1, s.2 + 1) := Iff.rfl

theorem wp_drawSlices {Q : List K → GM C m Atom × ℕ → Prop} (W : World K m Atom) (ws : List K) :
    wp ω (drawSlices W ws) Q E s ↔ Q (ws.mapIdx (fun i x => W.unif (s.2 + i) W.eps (x + W.eps))) (s.1, s.2 + ws.length) := Iff.rfl

theorem wp_drawNoise {Q : List (List K) → GM C m Atom × ℕ → Prop} (W : World K m Atom) (k n : ℕ) :
    wp ω (drawNoise W k n) Q E s ↔ Q ((List.range n).map (noise W s.2 k n)) (s.1, s.2 + k * n) := Iff.rfl
end wp

/-- The attributes that no Gibbs step and no update of the MAP state touches. -/
structure Frame (K : Type) (m : ℕ) (Atom : Type) where
  totalIter : ℤ
  burnIn : ℤ
  subsample : ℤ
  nAttr : Option ℤ
  muPrior : Option (Fin m → K)
  lam : K
  psiPrior : Option (Fin m → Fin m → K)
  nuPrior : Option K
  y : List (Fin m → K)
  thetaDefault : Bool
  affinity : List (List ℕ)
  saved : List (RunParams K Atom)
  nGroups : List ℕ
  nAtoms : List ℕ
  totalSaved : ℕ
  gibbsFitted : Bool

/-- The frame of an object. -/
def frame (s : GM C m Atom) : Frame K m Atom :=
  ⟨s.totalIter, s.burnIn, s.subsample, s.nAttr, s.muPrior, s.lam, s.psiPrior, s.nuPrior, s.y, s.thetaDefault, s.affinity, s.saved, s.nGroups,
    s.nAtoms, s.totalSaved, s.gibbsFitted⟩

section frame
variable (c : Frame K m Atom)

theorem keeps_callW {α : Type} {I : GM C m Atom → Prop} (h : ∀ s t, I s → I { s with wst := t }) (x : M K C.State α) :
    KeepsR ω I (callW x) (fun _ => True) := by
  refine KeepsR.of_wp fun s hs => ?_
  rw [wp_callW]
  unfold wp
  rcases x ω s.1.wst with ⟨e | a, t⟩
  · exact h _ _ hs
  · exact ⟨h _ _ hs, trivial⟩

theorem keeps_draw1 {α : Type} {I : GM C m Atom → Prop} (f : ℕ → α) : KeepsR ω I (draw1 f : M K (GM C m Atom) α) (fun _ => True) :=
  fun _ hs => ⟨hs, trivial⟩

theorem keeps_draws {α : Type} {I : GM C m Atom → Prop} (f : ℕ → α) (n : ℕ) : KeepsR ω I (draws f n : M K (GM C m Atom) (List α)) (fun _ => True) :=
  fun _ hs => ⟨hs, trivial⟩

theorem keeps_slices {I : GM C m Atom → Prop} (W : World K m Atom) (ws : List K) :
    KeepsR ω I (drawSlices W ws : M K (GM C m Atom) (List K)) (fun _ => True) := fun _ hs => ⟨hs, trivial⟩

variable (W : World K m Atom)

theorem getAtom_frame (j : ℕ) : KeepsR ω (fun s : GM C m Atom => frame s = c) (getAtom W j) (fun _ => True) := by
  unfold getAtom
  refine KeepsR.bind KeepsR.self fun s _ => ?_
  split
  · exact KeepsR.pure trivial
  · refine KeepsR.ite (fun _ => ?_) (fun _ => KeepsR.raise _)
    refine KeepsR.bind (keeps_draw1 _) fun a _ => ?_
    exact KeepsR.bind (KeepsR.assign fun s h => h) fun _ _ => KeepsR.pure trivial

theorem yLogLik_frame (js : List ℕ) (acc : WithBot K) : KeepsR ω (fun s : GM C m Atom => frame s = c) (yLogLik W js acc) (fun _ => True) := by
  induction js generalizing acc with
  | nil => exact KeepsR.pure trivial
  | cons j js ih =>
    unfold yLogLik
    refine KeepsR.bind KeepsR.self fun s _ => KeepsR.bind (KeepsR.lift _) fun rows _ => KeepsR.bind (getAtom_frame c W j) fun a _ => ih _

theorem runLogLik_frame : KeepsR ω (fun s : GM C m Atom => frame s = c) (runLogLik W) (fun _ => True) := by
  unfold runLogLik
  refine KeepsR.bind KeepsR.self fun s _ => KeepsR.bind (yLogLik_frame c W _ _) fun _ _ => ?_
  exact KeepsR.bind (keeps_callW (fun s t h => h) _) fun _ _ => KeepsR.pure trivial

theorem updateMap_frame : KeepsR ω (fun s : GM C m Atom => frame s = c) (updateMap W) (fun _ => True) := by
  unfold updateMap
  refine KeepsR.bind (runLogLik_frame c W) fun ll _ => KeepsR.assign fun s h => ?_
  split
  · exact h
  · split <;> exact h

theorem updateAtoms_frame (js : List ℕ) : KeepsR ω (fun s : GM C m Atom => frame s = c) (updateAtoms W js) (fun _ => True) := by
  induction js with
  | nil => exact KeepsR.pure trivial
  | cons j js ih =>
    unfold updateAtoms
    refine KeepsR.bind KeepsR.self fun s _ => KeepsR.bind (KeepsR.lift _) fun rows _ => KeepsR.bind (keeps_draw1 _) fun a _ => ?_
    exact KeepsR.bind (KeepsR.assign fun s h => h) fun _ _ => ih

theorem updateWeights_frame : KeepsR ω (fun s : GM C m Atom => frame s = c) (updateWeights W) (fun _ => True) := by
  unfold updateWeights
  refine KeepsR.bind KeepsR.self fun s _ => KeepsR.bind (keeps_callW (fun s t h => h) _) fun _ _ => ?_
  refine KeepsR.bind (keeps_callW (fun s t h => h) _) fun w _ => KeepsR.bind (KeepsR.lift _) fun ws _ => ?_
  refine KeepsR.bind (keeps_slices W ws) fun us _ => KeepsR.bind (KeepsR.assign fun s h => h) fun _ _ => ?_
  refine KeepsR.bind (KeepsR.lift _) fun u _ => KeepsR.bind (keeps_callW (fun s t h => h) _) fun _ _ => KeepsR.pure trivial

theorem getAtoms_frame (js : List ℕ) : KeepsR ω (fun s : GM C m Atom => frame s = c) (getAtoms W js) (fun _ => True) := by
  induction js with
  | nil => exact KeepsR.pure trivial
  | cons j js ih =>
    unfold getAtoms
    exact KeepsR.bind (getAtom_frame c W j) fun _ _ => KeepsR.bind ih fun _ _ => KeepsR.pure trivial

theorem updateD_frame : KeepsR ω (fun s : GM C m Atom => frame s = c) (updateD W) (fun _ => True) := by
  unfold updateD
  refine KeepsR.bind KeepsR.self fun s _ => ?_
  refine KeepsR.bind (getAtoms_frame c W _) fun as _ => KeepsR.ite (fun _ => KeepsR.raise _) fun _ => ?_
  refine KeepsR.bind (R := fun _ => True) (fun _ hs => ⟨hs, trivial⟩) fun ns _ => ?_
  exact KeepsR.bind (KeepsR.lift _) fun d _ => KeepsR.assign fun s h => h

theorem gibbsStep_frame : KeepsR ω (fun s : GM C m Atom => frame s = c) (gibbsStep W) (fun _ => True) := by
  unfold gibbsStep
  exact KeepsR.bind KeepsR.self fun s _ => KeepsR.bind (updateAtoms_frame c W _) fun _ _ => KeepsR.bind (updateWeights_frame c W) fun _ _ =>
    updateD_frame c W

theorem burn_frame (n : ℕ) : KeepsR ω (fun s : GM C m Atom => frame s = c) (burn W n) (fun _ => True) := by
  induction n with
  | zero => exact KeepsR.pure trivial
  | succ n ih =>
    unfold burn
    exact KeepsR.bind (gibbsStep_frame c W) fun _ _ => KeepsR.bind (updateMap_frame c W) fun _ _ => ih
end frame
end GM
end Verif.Mix
