import Verif.Lemmas.GibbsStep
import Verif.Lemmas.Stable

/-!
# What is stored was drawn

A property of every drawn atom and an invariant of the weight object hold for the current state, for every saved state and for the MAP state, after every
history of fits.
-/

set_option linter.unusedSectionVars false

namespace Verif.Mix
open GM
variable {K : Type} [Field K] [LinearOrder K] [IsStrictOrderedRing K] {C : WeightClass K} {m : ℕ} {Atom : Type} {ω : Oracle K}

/-- A stored state whose atoms satisfy `P` and whose weights satisfy `Q`. -/
def GoodState (P : Atom → Prop) (Q : List K → Prop) (p : RunParams K Atom) : Prop := (∀ q ∈ p.theta, P q.2) ∧ Q p.w

/-- The object: current state, saved states and MAP state. -/
structure Kept (P : Atom → Prop) (J : C.State → Prop) (Q : List K → Prop) (s : GM C m Atom) : Prop where
  theta : ∀ q ∈ s.theta, P q.2
  weights : J s.wst.1
  saved : ∀ p ∈ s.saved, GoodState P Q p
  map : ∀ p ∈ s.mapParams, GoodState P Q p

/-- The calls the mixture makes on its weight object keep `J`. -/
structure CallsKeep (C : WeightClass K) (ω : Oracle K) (J : C.State → Prop) : Prop where
  core : C.toWeightCore.Stable ω J
  tail : ∀ f x, Keeps ω J (C.tail f x)

theorem callW_kept {P : Atom → Prop} {J : C.State → Prop} {Q : List K → Prop} {α : Type} {x : M K C.State α} (hx : Keeps ω J x) :
    KeepsR ω (Kept P J Q : GM C m Atom → Prop) (callW x) (fun _ => True) := by
  refine KeepsR.of_wp fun s hs => ?_
  rw [wp_callW]
  have h := hx s.1.wst hs.weights
  unfold wp
  revert h
  rcases x ω s.1.wst with ⟨e | a, t⟩
  · exact fun h => ⟨hs.theta, h, hs.saved, hs.map⟩
  · exact fun h => ⟨⟨hs.theta, h, hs.saved, hs.map⟩, trivial⟩

theorem setAtom_all {P : Atom → Prop} {theta : List (ℕ × Atom)} (h : ∀ q ∈ theta, P q.2) (j : ℕ) {a : Atom} (ha : P a) : ∀ q ∈ setAtom theta j a, P q.2 := by
  unfold setAtom
  intro q hq
  split at hq
  · obtain ⟨r, hr, e⟩ := List.mem_map.1 hq
    split at e
    · rw [← e]; exact ha
    · rw [← e]; exact h r hr
  · rcases List.mem_append.1 hq with hq | hq
    · exact h q hq
    · rw [List.mem_singleton.1 hq]; exact ha

theorem Kept.good {P : Atom → Prop} {J : C.State → Prop} {Q : List K → Prop} (hQ : ∀ s, J s → Q (C.getW s)) {s : GM C m Atom} (h : Kept P J Q s) :
    GoodState P Q (runParams s) := ⟨h.theta, hQ _ h.weights⟩

section
variable (W : World K m Atom) {P : Atom → Prop} (hP : ∀ p q, P (W.atom p q)) {J : C.State → Prop} (hJ : CallsKeep C ω J) {Q : List K → Prop}
  (hQ : ∀ s, J s → Q (C.getW s))
include hP

theorem getAtom_kept (j : ℕ) : KeepsR ω (Kept P J Q : GM C m Atom → Prop) (getAtom W j) (fun _ => True) := by
  unfold getAtom
  refine KeepsR.bind KeepsR.self fun s _ => ?_
  split
  · exact KeepsR.pure trivial
  · refine KeepsR.ite (fun _ => KeepsR.bind (R := P) (fun t ht => ⟨ht, hP _ _⟩) fun a ha => ?_) fun _ => KeepsR.raise _
    exact KeepsR.bind (KeepsR.assign fun s h => ⟨setAtom_all h.theta j ha, h.weights, h.saved, h.map⟩) fun _ _ => KeepsR.pure trivial

theorem getAtoms_kept (js : List ℕ) : KeepsR ω (Kept P J Q : GM C m Atom → Prop) (getAtoms W js) (fun _ => True) := by
  induction js with
  | nil => exact KeepsR.pure trivial
  | cons j js ih => exact KeepsR.bind (getAtom_kept W hP j) fun _ _ => KeepsR.bind ih fun _ _ => KeepsR.pure trivial

theorem yLogLik_kept (js : List ℕ) (acc : WithBot K) : KeepsR ω (Kept P J Q : GM C m Atom → Prop) (yLogLik W js acc) (fun _ => True) := by
  induction js generalizing acc with
  | nil => exact KeepsR.pure trivial
  | cons j js ih =>
    exact KeepsR.bind KeepsR.self fun _ _ => KeepsR.bind (KeepsR.lift _) fun _ _ => KeepsR.bind (getAtom_kept W hP j) fun _ _ => ih _

include hJ hQ

theorem updateMap_kept : KeepsR ω (Kept P J Q : GM C m Atom → Prop) (updateMap W) (fun _ => True) := by
  unfold updateMap runLogLik
  refine KeepsR.bind (R := fun _ => True) ?_ fun ll _ => KeepsR.assign fun s h => ?_
  · exact KeepsR.bind KeepsR.self fun s _ => KeepsR.bind (yLogLik_kept W hP _ _) fun _ _ => KeepsR.bind (callW_kept (assignLL_keeps hJ.core _ _)) fun _ _ =>
      KeepsR.pure trivial
  · have hg : ∀ p ∈ some (runParams s), GoodState P Q p := by rintro _ ⟨⟩; exact Kept.good hQ h
    split
    · exact ⟨h.theta, h.weights, h.saved, hg⟩
    · split
      · exact ⟨h.theta, h.weights, h.saved, hg⟩
      · exact h

theorem gibbsStep_kept : KeepsR ω (Kept P J Q : GM C m Atom → Prop) (gibbsStep W) (fun _ => True) := by
  have hA : ∀ js : List ℕ, KeepsR ω (Kept P J Q : GM C m Atom → Prop) (updateAtoms W js) (fun _ => True) := by
    intro js
    induction js with
    | nil => exact KeepsR.pure trivial
    | cons j js ih =>
      unfold updateAtoms
      refine KeepsR.bind KeepsR.self fun s _ => KeepsR.bind (KeepsR.lift _) fun rows _ => KeepsR.bind (R := P) (fun t ht => ⟨ht, hP _ _⟩) fun a ha => ?_
      exact KeepsR.bind (KeepsR.assign fun s h => ⟨setAtom_all h.theta j ha, h.weights, h.saved, h.map⟩) fun _ _ => ih
  unfold gibbsStep
  refine KeepsR.bind KeepsR.self fun s _ => KeepsR.bind (hA _) fun _ _ => KeepsR.bind (R := fun _ => True) ?_ fun _ _ => ?_
  · unfold updateWeights
    refine KeepsR.bind KeepsR.self fun s _ => KeepsR.bind (callW_kept fun t ht => hJ.core.setD _ _ ht) fun _ _ => ?_
    refine KeepsR.bind (callW_kept (hJ.core.random _)) fun w _ => KeepsR.bind (KeepsR.lift _) fun ws _ => ?_
    refine KeepsR.bind (keeps_slices W ws) fun us _ => KeepsR.bind (KeepsR.assign fun s h => ⟨h.theta, h.weights, h.saved, h.map⟩) fun _ _ => ?_
    refine KeepsR.bind (KeepsR.lift _) fun u _ => KeepsR.bind (callW_kept (hJ.tail _ _)) fun _ _ => KeepsR.pure trivial
  · unfold updateD
    refine KeepsR.bind KeepsR.self fun s _ => KeepsR.bind (getAtoms_kept W hP _) fun as _ => KeepsR.ite (fun _ => KeepsR.raise _) fun _ => ?_
    refine KeepsR.bind (R := fun _ => True) (fun _ hs => ⟨hs, trivial⟩) fun ns _ => ?_
    exact KeepsR.bind (KeepsR.lift _) fun d _ => KeepsR.assign fun s h => ⟨h.theta, h.weights, h.saved, h.map⟩

theorem save_kept : KeepsR ω (Kept P J Q : GM C m Atom → Prop) saveParams (fun _ => True) := by
  unfold saveParams
  refine KeepsR.bind (KeepsR.assign fun s h => ⟨h.theta, h.weights, ?_, h.map⟩) fun _ _ => KeepsR.bind KeepsR.self fun s _ => KeepsR.bind (KeepsR.lift _) fun a _ =>
    KeepsR.assign fun s h => ⟨h.theta, h.weights, h.saved, h.map⟩
  intro p hp
  rcases List.mem_append.1 hp with hp | hp
  · exact h.saved p hp
  · rw [List.mem_singleton.1 hp]; exact Kept.good hQ h

theorem burn_kept (n : ℕ) : KeepsR ω (Kept P J Q : GM C m Atom → Prop) (burn W n) (fun _ => True) := by
  induction n with
  | zero => exact KeepsR.pure trivial
  | succ n ih => exact KeepsR.bind (gibbsStep_kept W hP hJ hQ) fun _ _ => KeepsR.bind (updateMap_kept W hP hJ hQ) fun _ _ => ih

theorem record_kept (n i : ℕ) : KeepsR ω (Kept P J Q : GM C m Atom → Prop) (record W n i) (fun _ => True) := by
  induction n generalizing i with
  | zero => exact KeepsR.pure trivial
  | succ n ih =>
    refine KeepsR.bind (gibbsStep_kept W hP hJ hQ) fun _ _ => KeepsR.bind (updateMap_kept W hP hJ hQ) fun _ _ => KeepsR.bind (R := fun _ => True) ?_ fun _ _ => ih _
    unfold maybeSave
    exact KeepsR.bind KeepsR.self fun s _ => KeepsR.ite (fun _ => KeepsR.raise _) fun _ => KeepsR.whenM fun _ => save_kept W hP hJ hQ

theorem initGibbs_kept (g : PySize) (method : InitMethod) : KeepsR ω (Kept P J Q : GM C m Atom → Prop) (initGibbs W g method) (fun _ => True) := by
  unfold initGibbs
  refine KeepsR.bind (KeepsR.assign fun s h => ⟨by simp, h.weights, by simp, h.map⟩) fun _ _ => KeepsR.bind KeepsR.self fun s _ => ?_
  refine KeepsR.bind (keeps_draws _ _) fun us _ => KeepsR.bind (KeepsR.assign fun s h => ⟨h.theta, h.weights, h.saved, h.map⟩) fun _ _ => ?_
  refine KeepsR.bind (R := fun _ => True) ?_ fun _ _ => KeepsR.bind (R := fun _ => True) ?_ fun d _ => KeepsR.assign fun s h => ⟨h.theta, h.weights, h.saved, h.map⟩
  · unfold initWeights
    refine KeepsR.bind KeepsR.self fun s _ => ?_
    split
    · exact KeepsR.bind (KeepsR.lift _) fun u _ => KeepsR.bind (callW_kept (hJ.tail _ _)) fun _ _ => KeepsR.pure trivial
    · exact KeepsR.bind (callW_kept (hJ.core.complete _)) fun _ _ => KeepsR.pure trivial
  · cases method with
    | kmeans => exact KeepsR.bind KeepsR.self fun s _ => KeepsR.bind (keeps_draw1 _) fun r _ => KeepsR.bind (KeepsR.lift _) fun _ _ => KeepsR.pure trivial
    | random => exact KeepsR.bind KeepsR.self fun s _ => callW_kept (randomAssignment_keeps _)
    | variational => exact KeepsR.bind KeepsR.self fun s _ => KeepsR.bind (keeps_draw1 _) fun r _ => (KeepsR.lift _).true_of
    | unknown => exact KeepsR.raise _

theorem fit_kept (y : YArg K m) (g : PySize) (warm : Bool) (method : InitMethod) :
    KeepsR ω (Kept P J Q : GM C m Atom → Prop) (fitGibbs W y g warm method) (fun _ => True) := by
  unfold fitGibbs
  refine KeepsR.bind (R := fun _ => True) ?_ fun _ _ => KeepsR.bind (R := fun _ => True) (KeepsR.whenM fun _ => ?_) fun _ _ => ?_
  · cases y with
    | invalid => exact KeepsR.raise _
    | rows ys => unfold initCommon; exact KeepsR.assign fun s h => ⟨h.theta, h.weights, h.saved, h.map⟩
  · exact KeepsR.bind (initGibbs_kept W hP hJ hQ g method) fun _ _ => updateMap_kept W hP hJ hQ
  · exact KeepsR.bind KeepsR.self fun s _ => KeepsR.bind (burn_kept W hP hJ hQ _) fun _ _ => KeepsR.bind (record_kept W hP hJ hQ _ _) fun _ _ =>
      KeepsR.assign fun s h => ⟨h.theta, h.weights, h.saved, h.map⟩

/-- After every history of fits, returning or raising. -/
theorem run_kept (ops : List (FitArgs K m)) : ∀ s : GM C m Atom × ℕ, Kept P J Q s.1 → Kept P J Q (run W ω s ops).1 := by
  induction ops with
  | nil => exact fun s hs => hs
  | cons a ops ih =>
    intro s hs
    refine ih _ ?_
    have h := (fit_kept W hP hJ hQ a.y a.initGroups a.warm a.method) s hs
    show Kept P J Q (fitGibbs W a.y a.initGroups a.warm a.method ω s).2.1
    revert h
    rcases fitGibbs W a.y a.initGroups a.warm a.method ω s with ⟨e | v, t⟩
    · exact fun h => h
    · exact fun h => h.1
end

theorem Kept.new {P : Atom → Prop} {J : C.State → Prop} {Q : List K → Prop} {s : GM C m Atom} (h1 : s.theta = []) (h2 : s.saved = []) (h3 : s.mapParams = none)
    (hw : J s.wst.1) : Kept P J Q s := ⟨by rw [h1]; simp, hw, by rw [h2]; simp, by rw [h3]; simp⟩
end Verif.Mix
