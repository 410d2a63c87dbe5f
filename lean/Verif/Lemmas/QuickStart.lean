import Verif.Props.C45
import Verif.Props.C52
import Verif.Props.C127

/-!
# The MAP state of a fit that starts with k-means

When the weights are exactly as many as the groups found by k-means, the first state has an atom for each weight, and so has every MAP state of the fit.
-/

set_option linter.unusedSectionVars false

namespace Verif.Mix.GM
open Spec
variable {K : Type} [Field K] [LinearOrder K] [IsStrictOrderedRing K] {m : ℕ} {C : WeightClass K} {Atom : Type} {ω : Oracle K} {W : World K m Atom}

/-- The atoms of the labels are there after `_y_log_likelihood`. -/
theorem yLogLik_atoms (js : List ℕ) (acc : WithBot K) (s : GM C m Atom × ℕ) :
    wp ω (yLogLik W js acc) (fun _ t => Grown s.1 t.1 ∧ ∀ j ∈ js, (t.1.theta.lookup j).isSome) (fun _ _ => True) s := by
  induction js generalizing acc s with
  | nil => exact ⟨Grown.rfl _, by simp⟩
  | cons j js ih =>
    unfold yLogLik
    rw [wp_bind, wp_self, wp_bind, wp_lift]
    refine ⟨fun rows _ => ?_, fun _ _ => trivial⟩
    rw [wp_bind]
    refine wp_mono (getAtom_spec W j s) (fun a t h => ?_) fun _ t h => trivial
    refine wp_mono (ih _ t) (fun _ t' h' => ⟨h.1.trans h'.1, fun i hi => ?_⟩) fun _ _ h' => trivial
    rcases List.mem_cons.1 hi with rfl | hi
    · rw [lookup_prefix h'.1.pre h.2]; rfl
    · exact h'.2 i hi

/-- A stored state that can be evaluated, with at least one weight. -/
def Usable (p : RunParams K Atom) : Prop := Evaluable p ∧ p.w ≠ []

/-- There is a MAP state, and it can be evaluated. -/
def HasMap (s : GM C m Atom) : Prop := ∃ p, s.mapParams = some p ∧ Usable p

theorem usable_step {s : GM C m Atom} (h : Stepped W s) : Usable (runParams s) := by
  obtain ⟨as, ns, h⟩ := h
  exact ⟨h.covered, h.ne⟩

theorem HasMap.stored : Stored W (HasMap : GM C m Atom → Prop) where
  same s t _ hm h := by obtain ⟨p, hp, hu⟩ := h; exact ⟨p, hm.trans hp, hu⟩
  save s t _ _ hm h := by obtain ⟨p, hp, hu⟩ := h; exact ⟨p, hm.trans hp, hu⟩
  map s t ht _ hm _ := ⟨_, hm, usable_step ht⟩

/-- The first evaluation of a new object whose labels use all its weights. -/
theorem updateMap_first {I : C.State → Prop} (hI : Tidy C ω I) (s : GM C m Atom × ℕ) (hs : I s.1.wst.1) (hl : s.1.mapLL = ⊥) (hd : ∀ j, j ∈ s.1.d ↔ j < (C.getW s.1.wst.1).length)
    (hne : C.getW s.1.wst.1 ≠ []) : wp ω (updateMap W) (fun _ t => HasMap t.1) (fun _ _ => True) s := by
  unfold updateMap runLogLik
  rw [wp_bind, wp_bind, wp_self, wp_bind]
  refine wp_mono (yLogLik_atoms _ _ s) (fun _ t ht => ?_) fun _ t ht => trivial
  obtain ⟨ht, hat⟩ := ht
  rw [wp_bind, wp_callW, ht.wst]
  unfold BaseWeight.assignationLogLikelihood
  rw [wp_bind, wp_self, wp_bind, wp_lift]
  refine ⟨fun k hk => ?_, fun _ _ => trivial⟩
  obtain ⟨x, hx, rfl⟩ := maxInt_labels hk
  rw [wp_bind]
  have hx' : x < (C.getW s.1.wst.1).length := (hd x).1 hx
  have hcomp := hI.complete ((x : ℤ) + 1) s.1.wst hs (by omega) (by omega)
  refine wp_mono (Q' := fun _ t => C.getW t.1 = C.getW s.1.wst.1) (E' := fun _ _ => True) hcomp (fun _ v hv => ?_) fun _ _ _ => trivial
  rw [wp_bind, wp_self, wp_bind, wp_lift]
  refine ⟨fun ws _ => ?_, fun _ _ => trivial⟩
  rw [wp_pure, wp_pure, wp_assign]
  have key : ∀ u : GM C m Atom, C.getW u.wst.1 = C.getW s.1.wst.1 → u.theta = t.1.theta → Usable (runParams u) := by
    intro u h1 h2
    refine ⟨fun j hj => ?_, fun h => hne (h1.symm.trans h)⟩
    have hj' : j < (C.getW u.wst.1).length := hj
    rw [h1] at hj'
    show (u.theta.lookup j).isSome
    rw [h2]
    exact hat j (mem_npUnique.2 ((hd j).2 hj'))
  dsimp only
  split
  · exact ⟨_, rfl, key _ hv rfl⟩
  · rw [if_pos (ht.map.1.trans hl)]
    exact ⟨_, rfl, key _ hv rfl⟩

/-- k-means finds as many groups as it was asked for. -/
def FindsGroups (W : World K m Atom) (ys : List (Fin m → K)) (g : ℕ) : Prop := ∀ p raw, W.kmeans p ys g = .ok raw → raw.toFinset.card = g

/-- The MAP state of a fit of a new object that starts with k-means. -/
theorem fit_hasMap {I : C.State → Prop} (hI : Tidy C ω I) (ha : IsArgsort W.argsort) {ys : List (Fin m → K)} {g : ℕ} (hg : 0 < g) (hk : FindsGroups W ys g)
    {s t : GM C m Atom × ℕ} (hn : s.1.nAttr = none) (hl : s.1.mapLL = ⊥)
    (hc : wp ω (C.complete (.int g)) (fun _ c => I c.1 ∧ (C.getW c.1).length = g) (fun _ _ => True) s.1.wst)
    (h : fitGibbs W (.rows ys) (.int g) false .kmeans ω s = (.ok (), t)) : HasMap t.1 := by
  refine wp_of_ok h (Q := fun _ t => HasMap t.1) (E := fun _ _ => True) (fitGibbs_cold W _ _ _ ?_)
  suffices hw : wp ω (coldStart W (.rows ys) (.int g) .kmeans) (fun _ t => HasMap t.1) (fun _ _ => True) s from
    wp_mono hw (fun _ t ht => wp_mono ((loops_stored W HasMap.stored hI).wp ht) (fun _ _ h => h.1) fun _ _ _ => trivial) fun _ _ _ => trivial
  unfold coldStart initCommon
  rw [wp_bind, wp_assign, wp_bind]
  unfold initGibbs
  rw [wp_bind, wp_assign, wp_bind, wp_self, wp_bind, wp_draws, wp_bind, wp_assign, wp_bind]
  unfold initWeights
  rw [wp_bind, wp_self, wp_bind, wp_callW]
  refine wp_mono hc (fun _ c hc' => ?_) fun _ _ _ => trivial
  rw [wp_pure, wp_bind]
  unfold initLabels
  rw [wp_bind, wp_self, wp_bind, wp_draw1, wp_bind, wp_lift]
  refine ⟨fun raw hr => ?_, fun _ _ => trivial⟩
  rw [wp_pure, wp_assign]
  dsimp only at hr
  rw [hn] at hr
  have hcov := VM.sizeBiased_covers ha (hk _ raw hr)
  have hd : ∀ j, j ∈ sizeBiased W.argsort raw ↔ j < (C.getW c.1).length := by rw [hc'.2]; exact hcov
  have hne : C.getW c.1 ≠ [] := by
    intro h0
    have := hc'.2
    rw [h0] at this
    exact hg.ne this
  exact updateMap_first hI _ hc'.1 hl hd hne
end Verif.Mix.GM
