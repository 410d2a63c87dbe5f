import Verif.Lemmas.GibbsStep

/-! # The components that hold an atom, through whole runs -/

set_option linter.unusedSectionVars false

namespace Verif.Mix
open GM
variable {K : Type} [Field K] [LinearOrder K] [IsStrictOrderedRing K] {C : WeightClass K} {m : ℕ} {Atom : Type} {ω : Oracle K}

/-- The components with an atom, in the order in which they got their first one. -/
def keysOf (theta : List (ℕ × Atom)) : List ℕ := theta.map Prod.fst

theorem lookup_keys {theta : List (ℕ × Atom)} {j : ℕ} : (theta.lookup j).isSome ↔ j ∈ keysOf theta := by
  unfold keysOf
  induction theta with
  | nil => simp
  | cons q theta ih =>
    rw [List.lookup_cons, List.map_cons, List.mem_cons]
    by_cases h : j = q.1
    · simp [h]
    · have h1 : (j == q.1) = false := by simpa using h
      simp only [h1, ih, h, false_or]

theorem keys_setAtom (theta : List (ℕ × Atom)) (j : ℕ) (a : Atom) :
    keysOf (setAtom theta j a) = if j ∈ keysOf theta then keysOf theta else keysOf theta ++ [j] := by
  unfold setAtom
  by_cases h : j ∈ keysOf theta
  · rw [if_pos (lookup_keys.2 h), if_pos h]
    unfold keysOf
    rw [List.map_map]
    refine List.map_congr_left fun q _ => ?_
    simp only [Function.comp_apply]
    split
    · rename_i e; exact e.symm
    · rfl
  · rw [if_neg fun h' => h (lookup_keys.1 h'), if_neg h]
    simp [keysOf]

/-- The lists kept beside the saved states belong to them; the components with an atom only grow in number, each is there once. -/
structure Ledger (s : GM C m Atom) : Prop where
  groups : s.nGroups = s.saved.map (fun p => (npUnique p.d).length)
  atoms : s.nAtoms = s.saved.map (fun p => p.theta.length)
  nodup : (keysOf s.theta).Nodup
  older : ∀ p ∈ s.saved, (keysOf p.theta).Nodup ∧ keysOf p.theta <+: keysOf s.theta
  grow : s.saved.Pairwise fun p q => keysOf p.theta <+: keysOf q.theta

theorem Ledger.setAtom {s : GM C m Atom} (h : Ledger s) (j : ℕ) (a : Atom) : Ledger { s with theta := setAtom s.theta j a } := by
  have hk := keys_setAtom s.theta j a
  refine ⟨h.groups, h.atoms, ?_, fun p hp => ⟨(h.older p hp).1, (h.older p hp).2.trans ?_⟩, h.grow⟩
  · show (keysOf (GM.setAtom s.theta j a)).Nodup
    rw [hk]
    split
    · exact h.nodup
    · rename_i hj
      exact List.nodup_append.2 ⟨h.nodup, by simp, by rintro x hx y hy rfl; exact hj (List.mem_singleton.1 hy ▸ hx)⟩
  · show keysOf s.theta <+: keysOf (GM.setAtom s.theta j a)
    rw [hk]
    split
    · exact List.prefix_rfl
    · exact List.prefix_append _ _

theorem Ledger.reset (s : GM C m Atom) (h1 : s.saved = []) (h2 : s.nGroups = []) (h3 : s.nAtoms = []) (h4 : s.theta = []) : Ledger s where
  groups := by rw [h1, h2]; rfl
  atoms := by rw [h1, h3]; rfl
  nodup := by rw [h4]; exact List.nodup_nil
  older := by rw [h1]; simp
  grow := by rw [h1]; exact List.Pairwise.nil

theorem Ledger.same {s t : GM C m Atom} (h : Ledger s) (h1 : t.saved = s.saved) (h2 : t.nGroups = s.nGroups) (h3 : t.nAtoms = s.nAtoms) (h4 : t.theta = s.theta) : Ledger t where
  groups := by rw [h1, h2]; exact h.groups
  atoms := by rw [h1, h3]; exact h.atoms
  nodup := by rw [h4]; exact h.nodup
  older := by rw [h1, h4]; exact h.older
  grow := by rw [h1]; exact h.grow

namespace GM
theorem callW_ledger {α : Type} (x : M K C.State α) : KeepsR ω (Ledger : GM C m Atom → Prop) (callW x) (fun _ => True) :=
  keeps_callW (fun _ _ h => h.same rfl rfl rfl rfl) x

variable (W : World K m Atom)

theorem getAtom_ledger (j : ℕ) : KeepsR ω (Ledger : GM C m Atom → Prop) (getAtom W j) (fun _ => True) := by
  unfold getAtom
  refine KeepsR.bind KeepsR.self fun s _ => ?_
  split
  · exact KeepsR.pure trivial
  · refine KeepsR.ite (fun _ => KeepsR.bind (keeps_draw1 _) fun a _ => ?_) fun _ => KeepsR.raise _
    exact KeepsR.bind (KeepsR.assign fun s h => h.setAtom j a) fun _ _ => KeepsR.pure trivial

theorem getAtoms_ledger (js : List ℕ) : KeepsR ω (Ledger : GM C m Atom → Prop) (getAtoms W js) (fun _ => True) := by
  induction js with
  | nil => exact KeepsR.pure trivial
  | cons j js ih => exact KeepsR.bind (getAtom_ledger W j) fun _ _ => KeepsR.bind ih fun _ _ => KeepsR.pure trivial

theorem yLogLik_ledger (js : List ℕ) (acc : WithBot K) : KeepsR ω (Ledger : GM C m Atom → Prop) (yLogLik W js acc) (fun _ => True) := by
  induction js generalizing acc with
  | nil => exact KeepsR.pure trivial
  | cons j js ih =>
    exact KeepsR.bind KeepsR.self fun _ _ => KeepsR.bind (KeepsR.lift _) fun _ _ => KeepsR.bind (getAtom_ledger W j) fun _ _ => ih _

theorem updateMap_ledger : KeepsR ω (Ledger : GM C m Atom → Prop) (updateMap W) (fun _ => True) := by
  unfold updateMap runLogLik
  refine KeepsR.bind (R := fun _ => True) ?_ fun ll _ => KeepsR.assign fun s h => ?_
  · exact KeepsR.bind KeepsR.self fun s _ => KeepsR.bind (yLogLik_ledger W _ _) fun _ _ => KeepsR.bind (callW_ledger _) fun _ _ => KeepsR.pure trivial
  · split
    · exact h.same rfl rfl rfl rfl
    · split
      · exact h.same rfl rfl rfl rfl
      · exact h

theorem gibbsStep_ledger : KeepsR ω (Ledger : GM C m Atom → Prop) (gibbsStep W) (fun _ => True) := by
  have hA : ∀ js : List ℕ, KeepsR ω (Ledger : GM C m Atom → Prop) (updateAtoms W js) (fun _ => True) := by
    intro js
    induction js with
    | nil => exact KeepsR.pure trivial
    | cons j js ih =>
      unfold updateAtoms
      refine KeepsR.bind KeepsR.self fun s _ => KeepsR.bind (KeepsR.lift _) fun rows _ => KeepsR.bind (keeps_draw1 _) fun a _ => ?_
      exact KeepsR.bind (KeepsR.assign fun s h => h.setAtom j a) fun _ _ => ih
  unfold gibbsStep
  refine KeepsR.bind KeepsR.self fun s _ => KeepsR.bind (hA _) fun _ _ => KeepsR.bind (R := fun _ => True) ?_ fun _ _ => ?_
  · unfold updateWeights
    refine KeepsR.bind KeepsR.self fun s _ => KeepsR.bind (callW_ledger _) fun _ _ => ?_
    refine KeepsR.bind (callW_ledger _) fun w _ => KeepsR.bind (KeepsR.lift _) fun ws _ => ?_
    refine KeepsR.bind (keeps_slices W ws) fun us _ => KeepsR.bind (KeepsR.assign fun s h => h.same rfl rfl rfl rfl) fun _ _ => ?_
    refine KeepsR.bind (KeepsR.lift _) fun u _ => KeepsR.bind (callW_ledger _) fun _ _ => KeepsR.pure trivial
  · unfold updateD
    refine KeepsR.bind KeepsR.self fun s _ => KeepsR.bind (getAtoms_ledger W _) fun as _ => KeepsR.ite (fun _ => KeepsR.raise _) fun _ => ?_
    refine KeepsR.bind (R := fun _ => True) (fun _ hs => ⟨hs, trivial⟩) fun ns _ => ?_
    exact KeepsR.bind (KeepsR.lift _) fun d _ => KeepsR.assign fun s h => h.same rfl rfl rfl rfl

theorem save_ledger : KeepsR ω (Ledger : GM C m Atom → Prop) saveParams (fun _ => True) := by
  unfold saveParams
  refine KeepsR.bind (KeepsR.assign fun s h => ?_) fun _ _ => KeepsR.bind KeepsR.self fun s _ => KeepsR.bind (KeepsR.lift _) fun a _ =>
    KeepsR.assign fun s h => h.same rfl rfl rfl rfl
  refine ⟨?_, ?_, h.nodup, fun p hp => ?_, ?_⟩
  · show s.nGroups ++ _ = List.map _ (s.saved ++ _)
    rw [List.map_append, h.groups]; rfl
  · show s.nAtoms ++ _ = List.map _ (s.saved ++ _)
    rw [List.map_append, h.atoms]; rfl
  · rcases List.mem_append.1 hp with hp | hp
    · exact h.older p hp
    · rw [List.mem_singleton.1 hp]; exact ⟨h.nodup, List.prefix_rfl⟩
  · refine List.pairwise_append.2 ⟨h.grow, List.pairwise_singleton _ _, fun p hp q hq => ?_⟩
    rw [List.mem_singleton.1 hq]; exact (h.older p hp).2

theorem burn_ledger (n : ℕ) : KeepsR ω (Ledger : GM C m Atom → Prop) (burn W n) (fun _ => True) := by
  induction n with
  | zero => exact KeepsR.pure trivial
  | succ n ih => exact KeepsR.bind (gibbsStep_ledger W) fun _ _ => KeepsR.bind (updateMap_ledger W) fun _ _ => ih

theorem record_ledger (n i : ℕ) : KeepsR ω (Ledger : GM C m Atom → Prop) (record W n i) (fun _ => True) := by
  induction n generalizing i with
  | zero => exact KeepsR.pure trivial
  | succ n ih =>
    refine KeepsR.bind (gibbsStep_ledger W) fun _ _ => KeepsR.bind (updateMap_ledger W) fun _ _ => KeepsR.bind (R := fun _ => True) ?_ fun _ _ => ih _
    unfold maybeSave
    exact KeepsR.bind KeepsR.self fun s _ => KeepsR.ite (fun _ => KeepsR.raise _) fun _ => KeepsR.whenM fun _ => save_ledger

theorem initGibbs_ledger (g : PySize) (method : InitMethod) : KeepsR ω (Ledger : GM C m Atom → Prop) (initGibbs W g method) (fun _ => True) := by
  unfold initGibbs
  refine KeepsR.bind (KeepsR.assign fun s h => Ledger.reset _ rfl rfl rfl rfl) fun _ _ => KeepsR.bind KeepsR.self fun s _ => ?_
  refine KeepsR.bind (keeps_draws _ _) fun us _ => KeepsR.bind (KeepsR.assign fun s h => h.same rfl rfl rfl rfl) fun _ _ => ?_
  refine KeepsR.bind (R := fun _ => True) ?_ fun _ _ => KeepsR.bind (R := fun _ => True) ?_ fun d _ => KeepsR.assign fun s h => h.same rfl rfl rfl rfl
  · unfold initWeights
    refine KeepsR.bind KeepsR.self fun s _ => ?_
    split
    · exact KeepsR.bind (KeepsR.lift _) fun u _ => KeepsR.bind (callW_ledger _) fun _ _ => KeepsR.pure trivial
    · exact KeepsR.bind (callW_ledger _) fun _ _ => KeepsR.pure trivial
  · cases method with
    | kmeans => exact KeepsR.bind KeepsR.self fun s _ => KeepsR.bind (keeps_draw1 _) fun r _ => KeepsR.bind (KeepsR.lift _) fun _ _ => KeepsR.pure trivial
    | random => exact KeepsR.bind KeepsR.self fun s _ => callW_ledger _
    | variational => exact KeepsR.bind KeepsR.self fun s _ => KeepsR.bind (keeps_draw1 _) fun r _ => (KeepsR.lift _).true_of
    | unknown => exact KeepsR.raise _

theorem fit_ledger (y : YArg K m) (g : PySize) (warm : Bool) (method : InitMethod) :
    KeepsR ω (Ledger : GM C m Atom → Prop) (fitGibbs W y g warm method) (fun _ => True) := by
  unfold fitGibbs
  refine KeepsR.bind (R := fun _ => True) ?_ fun _ _ => KeepsR.bind (R := fun _ => True) (KeepsR.whenM fun _ => ?_) fun _ _ => ?_
  · cases y with
    | invalid => exact KeepsR.raise _
    | rows ys => unfold initCommon; exact KeepsR.assign fun s h => h.same rfl rfl rfl rfl
  · exact KeepsR.bind (initGibbs_ledger W g method) fun _ _ => updateMap_ledger W
  · exact KeepsR.bind KeepsR.self fun s _ => KeepsR.bind (burn_ledger W _) fun _ _ => KeepsR.bind (record_ledger W _ _) fun _ _ =>
      KeepsR.assign fun s h => h.same rfl rfl rfl rfl

/-- After every history of fits, returning or raising. -/
theorem run_ledger (ops : List (FitArgs K m)) : ∀ s : GM C m Atom × ℕ, Ledger s.1 → Ledger (run W ω s ops).1 := by
  induction ops with
  | nil => exact fun s hs => hs
  | cons a ops ih =>
    intro s hs
    refine ih _ ?_
    have h := (fit_ledger (ω := ω) W a.y a.initGroups a.warm a.method) s hs
    show Ledger (fitGibbs W a.y a.initGroups a.warm a.method ω s).2.1
    revert h
    rcases fitGibbs W a.y a.initGroups a.warm a.method ω s with ⟨e | v, t⟩
    · exact fun h => h
    · exact fun h => h.1
end GM
end Verif.Mix
