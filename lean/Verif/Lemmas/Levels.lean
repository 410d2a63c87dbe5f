import Verif.Lemmas.StickTail
import Verif.Props.C46

/-! # Slice levels below the weights, through whole runs -/

set_option linter.unusedSectionVars false

namespace Verif.Mix
open Verif.Spec
variable {K : Type} [Field K] [LinearOrder K] [IsStrictOrderedRing K] {C : WeightClass K} {m : ℕ} {Atom : Type} {ω : Oracle K}

/-- `random` returns the stored weights, and `tail` keeps them as a prefix and reaches what was asked. -/
structure Growing (C : WeightClass K) (ω : Oracle K) (I : C.State → Prop) : Prop where
  random : ∀ (d : List ℤ), NonNegLabels d → ∀ s : C.State × ℕ,
    wp ω (C.random .none) (fun r t => I t.1 ∧ r = C.getW t.1) (fun _ _ => True) (C.setD d s.1, s.2)
  tail : ∀ (f : ℕ) (x : K) (s : C.State × ℕ), I s.1 →
    wp ω (C.tail f x) (fun _ t => x < 1 ∧ x ≤ (C.getW t.1).sum ∧ C.getW s.1 <+: C.getW t.1) (fun _ _ => True) s

theorem StickCore.growing {C : WeightCore K} {V : C.State → List K} (hC : StickCore C V ω)
    (hr : ∀ (d : List ℤ), NonNegLabels d → ∀ s : C.State × ℕ,
      wp ω (C.random .none) (fun r t => StickState C V t.1 ∧ r = C.getW t.1) (fun _ _ => True) (C.setD d s.1, s.2)) :
    Growing C.inheritTail ω (StickState C V) where
  random := hr
  tail := by
    intro f x s hs
    have hne : C.getW s.1 ≠ [] := by
      intro h
      have h1 := congrArg List.length (hs.1.symm.trans h)
      rw [stickWeights_length] at h1
      exact hs.2 (List.length_eq_zero_iff.1 h1)
    show wp ω (BaseWeight.tail C f x) _ _ s
    unfold wp
    split
    · rename_i r t h
      have := hC.tail_drawn hs.1 hne h
      refine ⟨lt_of_not_ge fun hx => ?_, this.1 ▸ this.2.1, this.1 ▸ this.2.2.old⟩
      cases h.symm.trans (BaseWeight.tail_bad C (.inl hx) f s)
    · trivial

theorem DP.growing : Growing (DP.cls (K := K)) ω (StickState DP.core DP.v) :=
  StickCore.growing DP.stickCore fun _ _ _ => wp_mono (DP.random_post .none _) (fun _ _ h => have h := (h reqPos_none).1; ⟨⟨h.stick, h.ne⟩, h.ret⟩) fun _ _ _ => trivial

theorem PY.growing : Growing (PY.cls (K := K)) ω (StickState PY.core PY.v) :=
  StickCore.growing PY.stickCore fun _ _ _ => wp_mono (PY.random_post .none _) (fun _ _ h => have h := (h reqPos_none).1; ⟨⟨h.stick, h.ne⟩, h.ret⟩) fun _ _ _ => trivial

theorem BIB.growing : Growing (BIB.cls (K := K)) ω (StickState BIB.core BIB.v) :=
  StickCore.growing BIB.stickCore fun _ _ _ => wp_mono (BIB.random_post .none _) (fun _ _ h => have h := (h reqPos_none).1; ⟨⟨h.stick, h.ne⟩, h.ret⟩) fun _ _ _ => trivial

theorem BBin.growing : Growing (BBin.cls (K := K)) ω (StickState BBin.core BBin.v) :=
  StickCore.growing BBin.stickCore fun _ _ _ => wp_mono (BBin.random_post .none _) (fun _ _ h => have h := (h reqPos_none).1; ⟨⟨h.stick, h.ne⟩, h.ret⟩) fun _ _ _ => trivial

theorem BBer.growing : Growing (BBer.cls (K := K)) ω (StickState BBer.core BBer.v) :=
  StickCore.growing BBer.stickCore fun _ _ _ => wp_mono (BBer.random_post .none _) (fun _ _ h => have h := (h reqPos_none).1; ⟨⟨h.stick, h.ne⟩, h.ret⟩) fun _ _ _ => trivial

theorem BID.growing (F : SpecFun K) : Growing (BID.cls F (K := K)) ω (StickState (BID.core F) BID.v) :=
  StickCore.growing (BID.stickCore F) fun _ hd _ => wp_mono (BID.random_post F .none _ hd) (fun _ _ h => have h := (h reqPos_none).1; ⟨⟨h.stick, h.ne⟩, h.ret⟩) fun _ _ _ => trivial

/-- There are slice levels, they are positive, the weights leave out at most each of them, and each is below some weight (up to the margin `eps`). -/
structure Levels (eps : K) (w u : List K) : Prop where
  ne : u ≠ []
  pos : ∀ x ∈ u, 0 < x
  cover : CoversLevels w u
  below : ∀ x ∈ u, ∃ y ∈ w, (0 ≤ y → x ≤ y + eps) ∧ (0 < y → x < y + eps)

namespace GM
variable (W : World K m Atom)

/-- Uniform draws are in the half-open interval. -/
def DrawsBelow : Prop := ∀ p lo hi, lo ≤ hi → W.unif p lo hi ≤ hi ∧ (lo < hi → W.unif p lo hi < hi)

theorem updateWeights_levels {I : C.State → Prop} (hG : Growing C ω I) (hu : DrawsBelow W) (s : GM C m Atom × ℕ) :
    wp ω (updateWeights W) (fun _ t => Levels W.eps (C.getW t.1.wst.1) t.1.u) (fun _ _ => True) s := by
  unfold updateWeights
  rw [wp_bind, wp_self, wp_bind, wp_callW]
  unfold BaseWeight.fit
  rw [wp_assign, wp_bind, wp_callW]
  have hnn : NonNegLabels (labels s.1.d) := by
    intro x hx
    obtain ⟨n, _, rfl⟩ := List.mem_map.1 hx
    omega
  refine wp_mono (hG.random _ hnn s.1.wst) (fun w t ht => ?_) fun _ _ _ => trivial
  rw [wp_bind, wp_lift]
  refine ⟨fun ws hws => ?_, fun _ _ => trivial⟩
  rw [wp_bind, wp_drawSlices, wp_bind, wp_assign, wp_bind, wp_lift]
  refine ⟨fun u hmin => ?_, fun _ _ => trivial⟩
  rw [wp_bind, wp_callW]
  refine wp_mono (hG.tail _ _ t ht.1) (fun _ t' ht' => ?_) fun _ _ _ => trivial
  refine ⟨fun h => ?_, fun x hx => ?_, fun x hx => le_trans (by have := minK_le hmin x hx; linarith) ht'.2.1, fun x hx => ?_⟩
  · have h : (ws.mapIdx fun i x => W.unif (_ + i) W.eps (x + W.eps)) = [] := h
    rw [h] at hmin; cases hmin
  · have := minK_le hmin x hx
    have := ht'.1
    linarith
  obtain ⟨i, hi, rfl⟩ := List.mem_mapIdx.1 hx
  refine ⟨ws[i], ht'.2.2.subset ?_, fun h => (hu _ _ _ (by linarith)).1, fun h => (hu _ _ _ (by linarith)).2 (by linarith)⟩
  have := gather_mem hws _ (List.getElem_mem hi)
  rwa [ht.2] at this

theorem gibbsStep_levels {I : C.State → Prop} (hG : Growing C ω I) (hu : DrawsBelow W) (s : GM C m Atom × ℕ) :
    wp ω (gibbsStep W) (fun _ t => Levels W.eps (C.getW t.1.wst.1) t.1.u) (fun _ _ => True) s := by
  have triv : ∀ {σ α : Type} (c : M K σ α) (s : σ × ℕ), wp ω c (fun _ _ => True) (fun _ _ => True) s := by
    intro σ α c s; unfold wp; split <;> trivial
  unfold gibbsStep
  rw [wp_bind, wp_self, wp_bind]
  refine wp_mono (triv _ _) (fun _ t _ => ?_) fun _ _ _ => trivial
  rw [wp_bind]
  refine wp_mono (updateWeights_levels W hG hu t) (fun _ t' ht' => ?_) fun _ _ _ => trivial
  refine wp_mono (updateD_spec W t') (fun _ t'' h => ?_) fun _ _ _ => trivial
  rw [h.1, h.2.1]; exact ht'

/-- `_update_map_params` changes neither the weights nor the slice levels. -/
theorem updateMap_same {I : C.State → Prop} (hI : Tidy C ω I) (s : GM C m Atom × ℕ) (hs : I s.1.wst.1) (hc : Stepped W s.1) :
    wp ω (updateMap W) (fun _ t => C.getW t.1.wst.1 = C.getW s.1.wst.1 ∧ t.1.u = s.1.u) (fun _ _ => True) s := by
  unfold updateMap runLogLik
  rw [wp_bind, wp_bind, wp_self, wp_bind]
  refine wp_mono (yLogLik_spec W _ _ s) (fun _ t ht => ?_) fun _ t ht => trivial
  rw [wp_bind, wp_callW, ht.wst]
  unfold BaseWeight.assignationLogLikelihood
  rw [wp_bind, wp_self, wp_bind, wp_lift]
  refine ⟨fun k hk => ?_, fun _ _ => trivial⟩
  obtain ⟨x, hx, rfl⟩ := maxInt_labels hk
  rw [wp_bind]
  have hx' : x < (C.getW s.1.wst.1).length := by obtain ⟨as, ns, h⟩ := hc; exact h.lt W x hx
  have hcomp := hI.complete ((x : ℤ) + 1) s.1.wst hs (by omega) (by omega)
  refine wp_mono (Q' := fun _ t => C.getW t.1 = C.getW s.1.wst.1) (E' := fun _ _ => True) hcomp (fun _ v hv => ?_) fun _ _ _ => trivial
  rw [wp_bind, wp_self, wp_bind, wp_lift]
  refine ⟨fun ws _ => ?_, fun _ _ => trivial⟩
  rw [wp_pure, wp_pure, wp_assign]
  dsimp only
  split
  · exact ⟨hv, ht.u⟩
  · split
    · exact ⟨hv, ht.u⟩
    · exact ⟨hv, ht.u⟩

/-- One iteration. -/
theorem iter_levels {I J : C.State → Prop} (hI : Tidy C ω I) (hG : Growing C ω J) (hu : DrawsBelow W) (s : GM C m Atom × ℕ) :
    wp ω (iter W) (fun _ t => t.1.saved = s.1.saved ∧ Stepped W t.1 ∧ Levels W.eps (C.getW t.1.wst.1) t.1.u) (fun _ t => t.1.saved = s.1.saved) s := by
  have h0 := iter_spec W hI s
  have h1 : wp ω (iter W) (fun _ t => Levels W.eps (C.getW t.1.wst.1) t.1.u) (fun _ _ => True) s := by
    unfold iter
    rw [wp_bind]
    refine wp_mono (wp_and (gibbsStep_spec W hI s) (gibbsStep_levels W hG hu s)) (fun _ t h => ?_) fun _ _ _ => trivial
    refine wp_mono (updateMap_same W hI t h.1.1 h.1.2.2) (fun _ t' h' => ?_) fun _ _ _ => trivial
    rw [h'.1, h'.2]; exact h.2
  exact wp_mono (wp_and h0 h1) (fun _ t h => ⟨congrArg Frame.saved h.1.1, h.1.2.1, h.2⟩) fun _ t h => congrArg Frame.saved h.1.1

variable {Q : RunParams K Atom → Prop}

theorem burn_levels {I J : C.State → Prop} (hI : Tidy C ω I) (hG : Growing C ω J) (hu : DrawsBelow W) (n : ℕ) :
    KeepsR ω (SavedAll Q : GM C m Atom → Prop) (burn W n) (fun _ => True) := by
  induction n with
  | zero => exact KeepsR.pure trivial
  | succ n ih =>
    refine KeepsR.of_wp fun s hs => ?_
    show wp ω (do gibbsStep W; updateMap W; burn W n) _ _ s
    have h := iter_levels W hI hG hu s
    unfold iter at h
    rw [wp_bind] at h ⊢
    have same : ∀ t : GM C m Atom × ℕ, t.1.saved = s.1.saved → SavedAll Q t.1 := fun t h p hp => hs p (by rw [← h]; exact hp)
    refine wp_mono h (fun _ t ht => ?_) fun _ t h => same t h
    rw [wp_bind]
    exact wp_mono ht (fun _ t' ht' => ih.wp (same t' ht'.1)) fun _ t h => same t h

theorem record_levels {I J : C.State → Prop} (hI : Tidy C ω I) (hG : Growing C ω J) (hu : DrawsBelow W)
    (hQ : ∀ s : GM C m Atom, Stepped W s → Levels W.eps (C.getW s.wst.1) s.u → Q (runParams s)) (n i : ℕ) :
    KeepsR ω (SavedAll Q : GM C m Atom → Prop) (record W n i) (fun _ => True) := by
  induction n generalizing i with
  | zero => exact KeepsR.pure trivial
  | succ n ih =>
    refine KeepsR.of_wp fun s hs => ?_
    show wp ω (do gibbsStep W; updateMap W; maybeSave (i : ℤ); record W n (i + 1)) _ _ s
    have h := iter_levels W hI hG hu s
    unfold iter at h
    rw [wp_bind] at h ⊢
    have same : ∀ t : GM C m Atom × ℕ, t.1.saved = s.1.saved → SavedAll Q t.1 := fun t h p hp => hs p (by rw [← h]; exact hp)
    refine wp_mono h (fun _ t ht => ?_) fun _ t h => same t h
    rw [wp_bind]
    refine wp_mono ht (fun _ t' ht' => ?_) fun _ t h => same t h
    rw [wp_bind]
    refine wp_mono (Q' := fun _ t => SavedAll Q t.1) (E' := fun _ t => SavedAll Q t.1) ?_ (fun _ t'' h => (ih (i + 1)).wp h) fun _ _ h => h
    have add : ∀ t : GM C m Atom × ℕ, t.1.saved = t'.1.saved ++ [runParams t'.1] → SavedAll Q t.1 := by
      intro t h p hp
      rw [h] at hp
      rcases List.mem_append.1 hp with hp | hp
      · exact same t' ht'.1 p hp
      · rw [List.mem_singleton.1 hp]; exact hQ _ ht'.2.1 ht'.2.2
    unfold maybeSave
    rw [wp_bind, wp_self, wp_ite]
    refine ⟨fun _ => same t' ht'.1, fun _ => ?_⟩
    rw [wp_whenM]
    refine ⟨fun _ => ?_, fun _ => same t' ht'.1⟩
    unfold saveParams
    rw [wp_bind, wp_assign, wp_bind, wp_self, wp_bind, wp_lift]
    exact ⟨fun _ _ => add _ rfl, fun _ _ => add _ rfl⟩

theorem loops_levels {I J : C.State → Prop} (hI : Tidy C ω I) (hG : Growing C ω J) (hu : DrawsBelow W)
    (hQ : ∀ s : GM C m Atom, Stepped W s → Levels W.eps (C.getW s.wst.1) s.u → Q (runParams s)) :
    KeepsR ω (SavedAll Q : GM C m Atom → Prop) (loops W) (fun _ => True) :=
  KeepsR.bind KeepsR.self fun _ _ => KeepsR.bind (burn_levels W hI hG hu _) fun _ _ => KeepsR.bind (record_levels W hI hG hu hQ _ _) fun _ _ =>
    KeepsR.assign fun _ h => h

theorem fit_levels {I J : C.State → Prop} (hI : Tidy C ω I) (hG : Growing C ω J) (hu : DrawsBelow W)
    (hQ : ∀ s : GM C m Atom, Stepped W s → Levels W.eps (C.getW s.wst.1) s.u → Q (runParams s)) (y : YArg K m) (g : PySize) (warm : Bool) (method : InitMethod) :
    KeepsR ω (SavedAll Q : GM C m Atom → Prop) (fitGibbs W y g warm method) (fun _ => True) := by
  refine KeepsR.of_wp fun s hs => ?_
  cases warm with
  | false => exact fitGibbs_cold W y g method (wp_mono (coldStart_saved W Q y g method s hs) (fun _ t h => (loops_levels W hI hG hu hQ).wp h) fun _ _ h => h)
  | true =>
    unfold fitGibbs
    rw [wp_bind]
    cases y with
    | invalid => exact hs
    | rows ys =>
      unfold initCommon
      rw [wp_assign, wp_bind, wp_whenM]
      exact ⟨fun h => (by cases h), fun _ => (loops_levels W hI hG hu hQ).wp (fun p hp => hs p hp)⟩

/-- A property of the states after an iteration, with what is known of the slice levels, holds for all saved states. -/
theorem run_levels {I J : C.State → Prop} (hI : Tidy C ω I) (hG : Growing C ω J) (hu : DrawsBelow W)
    (hQ : ∀ s : GM C m Atom, Stepped W s → Levels W.eps (C.getW s.wst.1) s.u → Q (runParams s))
    (s : GM C m Atom × ℕ) (hs : s.1.saved = []) (ops : List (FitArgs K m)) : ∀ p ∈ (run W ω s ops).1.saved, Q p := by
  have : ∀ s : GM C m Atom × ℕ, SavedAll Q s.1 → SavedAll Q (run W ω s ops).1 := by
    induction ops with
    | nil => exact fun s hs => hs
    | cons a ops ih =>
      intro s hs
      refine ih _ ?_
      have h := (fit_levels W hI hG hu hQ a.y a.initGroups a.warm a.method) s hs
      show SavedAll Q (fitGibbs W a.y a.initGroups a.warm a.method ω s).2.1
      revert h
      rcases fitGibbs W a.y a.initGroups a.warm a.method ω s with ⟨e | v, t⟩
      · exact fun h => h
      · exact fun h => h.1
  exact this s (by intro p hp; rw [hs] at hp; cases hp)

end GM
end Verif.Mix
