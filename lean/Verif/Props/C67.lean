import Verif.Props.C66

/-!
# C67: atoms are redrawn for the occupied components only, and never dropped

`C67_step`: in a Gibbs step that returns, from any state of the object, every occupied component has got the atom drawn from the
normal-inverse-Wishart posterior of exactly its own observations, one draw per occupied component (the stream positions are the ranks of the labels), and
every atom of an unoccupied component is what it was.  `C67_count`: after every history of cold and warm fits of a new object, returning or
raising, the values of `get_n_theta()` are non-decreasing, and none exceeds the number of atoms now in the object.
-/

set_option linter.unusedSectionVars false

namespace Verif.Mix
open GM Verif.Spec
variable {K : Type} [Field K] [LinearOrder K] [IsStrictOrderedRing K] {C : WeightClass K} {m : ℕ} {Atom : Type} {ω : Oracle K}

variable (W : World K m Atom)

theorem updateAtoms_value (js : List ℕ) (hn : js.Nodup) (s : GM C m Atom × ℕ) :
    wp ω (updateAtoms W js) (fun _ t => t.1.d = s.1.d ∧ t.1.y = s.1.y ∧ t.2 = s.2 + js.length ∧ (∀ k, t.1.theta.lookup k =
      if k ∈ js then some (W.atom (s.2 + js.idxOf k) (posteriorNIW (rowsWith s.1.y s.1.d k) (prior s.1))) else s.1.theta.lookup k)) (fun _ _ => True) s := by
  induction js generalizing s with
  | nil => exact ⟨rfl, rfl, rfl, by simp⟩
  | cons j js ih =>
    unfold updateAtoms
    rw [wp_bind, wp_self, wp_bind, wp_lift]
    refine ⟨fun rows hr => ?_, fun _ _ => trivial⟩
    obtain ⟨hl, rfl⟩ := rowsOf_eq hr
    rw [wp_bind, wp_draw1, wp_bind, wp_assign]
    rw [List.nodup_cons] at hn
    refine wp_mono (ih hn.2 _) (fun _ t h => ?_) fun _ _ _ => trivial
    obtain ⟨h1, h2, h3, h4⟩ := h
    refine ⟨h1, h2, ?_, fun k => ?_⟩
    · rw [h3, List.length_cons]; simp only []; omega
    · rw [h4 k]
      simp only [List.mem_cons]
      by_cases hk : k = j
      · subst hk
        rw [if_neg hn.1, if_pos (.inl rfl), lookup_setAtom, if_pos rfl, List.idxOf_cons_self]
        rfl
      · by_cases hm : k ∈ js
        · rw [if_pos hm, if_pos (.inr hm), List.idxOf_cons_ne _ (Ne.symm hk)]
          have e : s.2 + 1 + js.idxOf k = s.2 + (js.idxOf k).succ := by omega
          show some (W.atom (s.2 + 1 + js.idxOf k) _) = _
          rw [e]; rfl
        · rw [if_neg hm, if_neg (by simp [hk, hm]), lookup_setAtom, if_neg hk]

theorem updateWeights_theta (s : GM C m Atom × ℕ) :
    wp ω (updateWeights W) (fun _ t => t.1.theta = s.1.theta) (fun _ t => t.1.theta = s.1.theta) s := by
  have h : KeepsR ω (fun t : GM C m Atom => t.theta = s.1.theta) (updateWeights W) (fun _ => True) := by
    unfold updateWeights
    refine KeepsR.bind KeepsR.self fun s _ => KeepsR.bind (keeps_callW (fun s t h => h) _) fun _ _ => ?_
    refine KeepsR.bind (keeps_callW (fun s t h => h) _) fun w _ => KeepsR.bind (KeepsR.lift _) fun ws _ => ?_
    refine KeepsR.bind (keeps_slices W ws) fun us _ => KeepsR.bind (KeepsR.assign fun s h => h) fun _ _ => ?_
    exact KeepsR.bind (KeepsR.lift _) fun u _ => KeepsR.bind (keeps_callW (fun s t h => h) _) fun _ _ => KeepsR.pure trivial
  exact wp_mono (h.wp rfl) (fun _ t h => h.1) fun _ _ h => h

/-- In an increasing list the index of an element is the number of smaller ones. -/
theorem idxOf_sorted {l : List ℕ} (h : l.Pairwise (· < ·)) {j : ℕ} (hj : j ∈ l) : l.idxOf j = (l.filter (fun i => decide (i < j))).length := by
  induction l with
  | nil => cases hj
  | cons a l ih =>
    rw [List.pairwise_cons] at h
    by_cases hja : j = a
    · subst hja
      rw [List.idxOf_cons_self, List.filter_cons_of_neg (by simp)]
      symm
      rw [List.length_eq_zero_iff, List.filter_eq_nil_iff]
      intro b hb
      have := h.1 b hb
      simp; omega
    · have hm := (List.mem_cons.1 hj).resolve_left hja
      rw [List.idxOf_cons_ne _ (Ne.symm hja), ih h.2 hm, List.filter_cons_of_pos (by simpa using h.1 j hm)]
      rfl

/-- The number of distinct labels below `j`. -/
def labelRank (d : List ℕ) (j : ℕ) : ℕ := (d.toFinset.filter (· < j)).card

theorem labelRank_eq {d : List ℕ} {j : ℕ} (hj : j ∈ d) : (npUnique d).idxOf j = labelRank d j := by
  rw [idxOf_sorted (npUnique_sorted d) (mem_npUnique.2 hj)]
  unfold labelRank
  rw [← List.toFinset_card_of_nodup ((npUnique_nodup d).filter _)]
  congr 1
  ext i
  simp [mem_npUnique]

/-- The atoms after a Gibbs step: the observations `rowsWith y d j` are those with label `j` before the step. -/
theorem C67_step (s t : GM C m Atom × ℕ) (h : gibbsStep W ω s = (.ok (), t)) :
    (∀ j ∈ s.1.d, t.1.theta.lookup j = some (W.atom (s.2 + labelRank s.1.d j) (posteriorNIW (rowsWith s.1.y s.1.d j) (prior s.1)))) ∧
    (∀ j ∉ s.1.d, ∀ a, s.1.theta.lookup j = some a → t.1.theta.lookup j = some a) := by
  refine wp_of_ok h (Q := fun _ t => (∀ j ∈ s.1.d, t.1.theta.lookup j = some (W.atom (s.2 + labelRank s.1.d j) (posteriorNIW (rowsWith s.1.y s.1.d j)
    (prior s.1)))) ∧ (∀ j ∉ s.1.d, ∀ a, s.1.theta.lookup j = some a → t.1.theta.lookup j = some a)) (E := fun _ _ => True) ?_
  unfold gibbsStep
  rw [wp_bind, wp_self, wp_bind]
  refine wp_mono (updateAtoms_value W _ (npUnique_nodup _) s) (fun _ t ht => ?_) fun _ _ _ => trivial
  rw [wp_bind]
  refine wp_mono (updateWeights_theta W t) (fun _ t' ht' => ?_) fun _ _ _ => trivial
  refine wp_mono (updateD_spec W t') (fun _ t'' h => ?_) fun _ _ _ => trivial
  obtain ⟨_, _, hp, _⟩ := h
  rw [ht'] at hp
  refine ⟨fun j hj => lookup_prefix hp ?_, fun j hj a ha => lookup_prefix hp ?_⟩
  · rw [ht.2.2.2 j, if_pos (mem_npUnique.2 hj), labelRank_eq hj]
  · rw [ht.2.2.2 j, if_neg (fun h => hj (mem_npUnique.1 h))]; exact ha

/-- Different occupied components use different draws. -/
theorem C67_distinct (d : List ℕ) {i j : ℕ} (hi : i ∈ d) (h : i < j) : labelRank d i < labelRank d j := by
  refine Finset.card_lt_card ⟨fun x hx => ?_, fun hsub => ?_⟩
  · rw [Finset.mem_filter] at hx ⊢
    exact ⟨hx.1, hx.2.trans h⟩
  · have := hsub (Finset.mem_filter.2 ⟨List.mem_toFinset.2 hi, h⟩)
    rw [Finset.mem_filter] at this
    exact lt_irrefl _ this.2

/-! ### `get_n_theta()` -/

/-- The recorded numbers of atoms are non-decreasing and none exceeds the current number. -/
def AtomCounts (s : GM C m Atom) : Prop := s.nAtoms.Pairwise (· ≤ ·) ∧ ∀ k ∈ s.nAtoms, k ≤ s.theta.length

theorem AtomCounts.grow {s t : GM C m Atom} (h : AtomCounts s) (hn : t.nAtoms = s.nAtoms) (hl : s.theta.length ≤ t.theta.length) : AtomCounts t :=
  ⟨by rw [hn]; exact h.1, fun k hk => (h.2 k (by rw [← hn]; exact hk)).trans hl⟩

theorem getAtom_counts (j : ℕ) : KeepsR ω (AtomCounts : GM C m Atom → Prop) (getAtom W j) (fun _ => True) := by
  unfold getAtom
  refine KeepsR.bind KeepsR.self fun s _ => ?_
  split
  · exact KeepsR.pure trivial
  · exact KeepsR.ite (fun _ => KeepsR.bind (keeps_draw1 _) fun _ _ => KeepsR.bind (KeepsR.assign fun s h => h.grow rfl (setAtom_length _ _ _))
      fun _ _ => KeepsR.pure trivial) fun _ => KeepsR.raise _

theorem getAtoms_counts (js : List ℕ) : KeepsR ω (AtomCounts : GM C m Atom → Prop) (getAtoms W js) (fun _ => True) := by
  induction js with
  | nil => exact KeepsR.pure trivial
  | cons j js ih => exact KeepsR.bind (getAtom_counts W j) fun _ _ => KeepsR.bind ih fun _ _ => KeepsR.pure trivial

theorem yLogLik_counts (js : List ℕ) (acc : WithBot K) : KeepsR ω (AtomCounts : GM C m Atom → Prop) (yLogLik W js acc) (fun _ => True) := by
  induction js generalizing acc with
  | nil => exact KeepsR.pure trivial
  | cons j js ih =>
    exact KeepsR.bind KeepsR.self fun _ _ => KeepsR.bind (KeepsR.lift _) fun _ _ => KeepsR.bind (getAtom_counts W j) fun _ _ => ih _

theorem updateMap_counts : KeepsR ω (AtomCounts : GM C m Atom → Prop) (updateMap W) (fun _ => True) := by
  unfold updateMap runLogLik
  refine KeepsR.bind (R := fun _ => True) ?_ fun ll _ => KeepsR.assign fun s h => ?_
  · exact KeepsR.bind KeepsR.self fun s _ => KeepsR.bind (yLogLik_counts W _ _) fun _ _ => KeepsR.bind (keeps_callW (fun s t h => h) _) fun _ _ =>
      KeepsR.pure trivial
  · split
    · exact h
    · split <;> exact h

theorem gibbsStep_counts : KeepsR ω (AtomCounts : GM C m Atom → Prop) (gibbsStep W) (fun _ => True) := by
  have hA : ∀ js : List ℕ, KeepsR ω (AtomCounts : GM C m Atom → Prop) (updateAtoms W js) (fun _ => True) := by
    intro js
    induction js with
    | nil => exact KeepsR.pure trivial
    | cons j js ih =>
      unfold updateAtoms
      refine KeepsR.bind KeepsR.self fun s _ => KeepsR.bind (KeepsR.lift _) fun rows _ => KeepsR.bind (keeps_draw1 _) fun a _ => ?_
      exact KeepsR.bind (KeepsR.assign fun s h => h.grow rfl (setAtom_length _ _ _)) fun _ _ => ih
  unfold gibbsStep
  refine KeepsR.bind KeepsR.self fun s _ => KeepsR.bind (hA _) fun _ _ => KeepsR.bind (R := fun _ => True) ?_ fun _ _ => ?_
  · unfold updateWeights
    refine KeepsR.bind KeepsR.self fun s _ => KeepsR.bind (keeps_callW (fun s t h => h) _) fun _ _ => ?_
    refine KeepsR.bind (keeps_callW (fun s t h => h) _) fun w _ => KeepsR.bind (KeepsR.lift _) fun ws _ => ?_
    refine KeepsR.bind (keeps_slices W ws) fun us _ => KeepsR.bind (KeepsR.assign fun s h => h) fun _ _ => ?_
    refine KeepsR.bind (KeepsR.lift _) fun u _ => KeepsR.bind (keeps_callW (fun s t h => h) _) fun _ _ => KeepsR.pure trivial
  · unfold updateD
    refine KeepsR.bind KeepsR.self fun s _ => KeepsR.bind (getAtoms_counts W _) fun as _ => KeepsR.ite (fun _ => KeepsR.raise _) fun _ => ?_
    refine KeepsR.bind (R := fun _ => True) (fun _ hs => ⟨hs, trivial⟩) fun ns _ => ?_
    exact KeepsR.bind (KeepsR.lift _) fun d _ => KeepsR.assign fun s h => h

theorem save_counts : KeepsR ω (AtomCounts : GM C m Atom → Prop) saveParams (fun _ => True) := by
  unfold saveParams
  refine KeepsR.bind (KeepsR.assign fun s h => ⟨?_, ?_⟩) fun _ _ => KeepsR.bind KeepsR.self fun s _ => KeepsR.bind (KeepsR.lift _) fun a _ =>
    KeepsR.assign fun s h => h
  · show (s.nAtoms ++ [s.theta.length]).Pairwise (· ≤ ·)
    rw [List.pairwise_append]
    exact ⟨h.1, by simp, fun a ha b hb => by rw [List.mem_singleton.1 hb]; exact h.2 a ha⟩
  · intro k hk
    rcases List.mem_append.1 hk with hk | hk
    · exact h.2 k hk
    · rw [List.mem_singleton.1 hk]

theorem burn_counts (n : ℕ) : KeepsR ω (AtomCounts : GM C m Atom → Prop) (burn W n) (fun _ => True) := by
  induction n with
  | zero => exact KeepsR.pure trivial
  | succ n ih => exact KeepsR.bind (gibbsStep_counts W) fun _ _ => KeepsR.bind (updateMap_counts W) fun _ _ => ih

theorem record_counts (n i : ℕ) : KeepsR ω (AtomCounts : GM C m Atom → Prop) (record W n i) (fun _ => True) := by
  induction n generalizing i with
  | zero => exact KeepsR.pure trivial
  | succ n ih =>
    refine KeepsR.bind (gibbsStep_counts W) fun _ _ => KeepsR.bind (updateMap_counts W) fun _ _ => KeepsR.bind (R := fun _ => True) ?_ fun _ _ => ih _
    unfold maybeSave
    exact KeepsR.bind KeepsR.self fun s _ => KeepsR.ite (fun _ => KeepsR.raise _) fun _ => KeepsR.whenM fun _ => save_counts

theorem initGibbs_counts (g : PySize) (method : InitMethod) (s : GM C m Atom × ℕ) :
    wp ω (initGibbs W g method) (fun _ t => AtomCounts t.1) (fun _ t => AtomCounts t.1) s := by
  have h := initGibbs_frame (ω := ω) W g method s
  refine wp_mono h (fun _ t ht => ?_) fun _ t ht => ?_ <;>
  · have : t.1.nAtoms = [] := congrArg Frame.nAtoms ht
    exact ⟨by rw [this]; exact List.Pairwise.nil, by rw [this]; simp⟩

theorem fit_counts (y : YArg K m) (g : PySize) (warm : Bool) (method : InitMethod) :
    KeepsR ω (AtomCounts : GM C m Atom → Prop) (fitGibbs W y g warm method) (fun _ => True) := by
  unfold fitGibbs
  refine KeepsR.bind (R := fun _ => True) ?_ fun _ _ => KeepsR.bind (R := fun _ => True) (KeepsR.whenM fun _ => ?_) fun _ _ => ?_
  · cases y with
    | invalid => exact KeepsR.raise _
    | rows ys => unfold initCommon; exact KeepsR.assign fun s h => h
  · refine KeepsR.bind (R := fun _ => True) (KeepsR.of_wp fun s _ => ?_) fun _ _ => updateMap_counts W
    exact wp_mono (initGibbs_counts W g method s) (fun _ _ h => ⟨h, trivial⟩) fun _ _ h => h
  · exact KeepsR.bind KeepsR.self fun s _ => KeepsR.bind (burn_counts W _) fun _ _ => KeepsR.bind (record_counts W _ _) fun _ _ =>
      KeepsR.assign fun s h => h

/-- After every history of fits of a new object. -/
theorem C67_count (s : GM C m Atom × ℕ) (hs : s.1.nAtoms = []) (ops : List (FitArgs K m)) :
    (run W ω s ops).1.nAtoms.Pairwise (· ≤ ·) ∧ ∀ k ∈ (run W ω s ops).1.nAtoms, k ≤ (run W ω s ops).1.theta.length := by
  have : ∀ s : GM C m Atom × ℕ, AtomCounts s.1 → AtomCounts (run W ω s ops).1 := by
    induction ops with
    | nil => exact fun s hs => hs
    | cons a ops ih =>
      intro s hs
      refine ih _ ?_
      have h := (fit_counts (ω := ω) W a.y a.initGroups a.warm a.method) s hs
      show AtomCounts (fitGibbs W a.y a.initGroups a.warm a.method ω s).2.1
      revert h
      rcases fitGibbs W a.y a.initGroups a.warm a.method ω s with ⟨e | v, t⟩
      · exact fun h => h
      · exact fun h => h.1
  exact this s ⟨by rw [hs]; exact List.Pairwise.nil, by rw [hs]; simp⟩

/-! ### The hypotheses are met: not every component with an atom is occupied; the numbers of atoms -/

example : let t := run world demo (eqObj 4 3 0 1, 0) [⟨rows1 [1, 2, 5, 6], .int 4, false, .kmeans⟩]
    returns (gibbsStep world) demo t = true ∧ (npUnique t.1.d).length < t.1.theta.length ∧ t.1.nAtoms.length = 3 := by decide +kernel
end Verif.Mix
