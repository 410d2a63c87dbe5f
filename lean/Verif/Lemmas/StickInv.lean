import Verif.Lemmas.RandomPost

/-! # Invariant: stored weights are the stick-breaking image of the stored sticks -/

set_option linter.unusedSectionVars false
set_option linter.unusedSimpArgs false

namespace Verif
open Spec
variable {K : Type} [Field K] [LinearOrder K] [IsStrictOrderedRing K] {ω : Oracle K}

/-- The weights belong to the sticks (vacuous while there are no sticks: a failed or empty draw leaves old weights). -/
def SInv (v w : List K) : Prop := v ≠ [] → w = stickWeights v

theorem SInv.nil (w : List K) : SInv [] w := fun h => absurd rfl h
theorem SInv.stick (v : List K) : SInv v (stickWeights v) := fun _ => rfl

theorem CPost.sinv {v w v' w' : List K} {size : PySize} (h : CPost v w v' w' size) (hs : SInv v w) : SInv v' w' := by
  rcases h.w_eq with ⟨h1, h2⟩ | h
  · rw [h1, h2]; exact hs
  · exact fun _ => h

namespace DP
theorem complete_sinv (n : PySize) :
    KeepsR ω (fun s : DP K => SInv s.v s.w) (complete n) (fun _ => True) := by
  refine KeepsR.of_wp fun s hs => wp_mono (complete_post n s) ?_ ?_
  · rintro _ t ⟨_, _, _, hc⟩; exact ⟨hc.sinv hs, trivial⟩
  · rintro _ t rfl; exact hs

theorem random_sinv (n : PySize) : KeepsR ω (fun s : DP K => SInv s.v s.w) (random n) (fun _ => True) := by
  refine KeepsR.of_wp fun s hs => ?_
  unfold random
  rw [wp_bind, wp_self, wp_ite]
  refine ⟨fun _ => hs, fun _ => ?_⟩
  split
  · exact hs
  · exact hs
  · rw [wp_bind, wp_assign, wp_ite]
    refine ⟨fun _ => (complete_sinv _).wp (SInv.nil _), fun _ => ?_⟩
    unfold randomFitted drawSticks
    have hc : ∀ v p, wp ω (complete n) (fun _ s' => SInv s'.1.v s'.1.w ∧ True) (fun _ s' => SInv s'.1.v s'.1.w)
        ({ s.1 with v := v, w := stickWeights v }, p) := fun v p => (complete_sinv _).wp (SInv.stick v)
    wp_simp
    refine ⟨fun a _ => ?_, fun _ _ => SInv.nil _⟩
    split
    · wp_simp
      exact ⟨fun _ => ⟨fun _ => SInv.nil _, fun _ => ⟨fun _ => hc _ _, fun _ => ⟨SInv.stick _, trivial⟩⟩⟩,
        fun _ => ⟨fun _ => SInv.nil _, fun _ => ⟨fun _ => hc _ _, fun _ => ⟨SInv.stick _, trivial⟩⟩⟩⟩
    · wp_simp
      exact ⟨fun _ => SInv.nil _, fun _ => ⟨fun _ => hc _ _, fun _ => ⟨SInv.stick _, trivial⟩⟩⟩

theorem sinv_stable : (core : WeightCore K).Stable ω (fun s : DP K => SInv s.v s.w) where
  setD := fun _ _ h => h
  random := fun n => (random_sinv n).keeps
  complete := fun n => (KeepsR.bind (R' := fun _ => True) (complete_sinv n) fun _ _ => KeepsR.pure trivial).keeps
end DP

namespace PY
theorem complete_sinv (n : PySize) :
    KeepsR ω (fun s : PY K => s.w = stickWeights s.v) (complete n) (fun _ => True) := by
  refine KeepsR.of_wp fun s hs => wp_mono (complete_post n s (by rw [hs, stickWeights_length])) ?_ ?_
  · rintro _ t ⟨_, _, _, _, hc⟩
    refine ⟨?_, trivial⟩
    rcases hc.w_eq with ⟨h1, h2⟩ | h
    · rw [h1, h2]; exact hs
    · exact h
  · rintro _ t rfl; exact hs

theorem random_sinv (n : PySize) : KeepsR ω (fun s : PY K => s.w = stickWeights s.v) (random n) (fun _ => True) := by
  refine KeepsR.of_wp fun s hs => ?_
  have hc : ∀ v p, wp ω (complete n) (fun _ s' => s'.1.w = stickWeights s'.1.v ∧ True)
      (fun _ s' => s'.1.w = stickWeights s'.1.v)
      ({ s.1 with v := v, w := stickWeights v }, p) := fun v p => KeepsR.wp (s := ({ s.1 with v := v, w := stickWeights v }, p)) (complete_sinv _) rfl
  unfold random
  rw [wp_bind, wp_self, wp_ite]
  refine ⟨fun _ => hs, fun _ => ?_⟩
  rw [wp_ite]
  refine ⟨fun _ => ?_, fun _ => ?_⟩
  · split
    · exact hs
    · wp_simp
      exact ⟨fun _ => hs, fun _ => ⟨fun _ => hs, fun _ => ⟨rf, rf⟩⟩⟩
  · unfold drawSticks
    wp_simp
    refine ⟨fun a _ => ?_, fun _ _ => hs⟩
    split
    · exact hs
    · wp_simp
      exact ⟨fun _ => hs, fun _ => ⟨fun h => hc _ _, fun _ => ⟨rf, rf⟩⟩⟩
    · wp_simp
      exact ⟨fun _ => ⟨fun _ => hs, fun _ => ⟨fun _ => wp_mono (hc _ _) (fun _ _ h => h) (fun _ _ h => h), fun _ => ⟨rf, rf⟩⟩⟩,
        fun _ => ⟨fun _ => hs, fun _ => ⟨fun _ => wp_mono (hc _ _) (fun _ _ h => h) (fun _ _ h => h), fun _ => ⟨rf, rf⟩⟩⟩⟩
    · wp_simp
      exact ⟨fun _ => ⟨fun _ => hs, fun _ => ⟨fun _ => wp_mono (hc _ _) (fun _ _ h => h) (fun _ _ h => h), fun _ => ⟨rf, rf⟩⟩⟩,
        fun _ => ⟨fun _ => hs, fun _ => ⟨fun _ => wp_mono (hc _ _) (fun _ _ h => h) (fun _ _ h => h), fun _ => ⟨rf, rf⟩⟩⟩⟩

theorem sinv_stable : (core : WeightCore K).Stable ω (fun s : PY K => s.w = stickWeights s.v) where
  setD := fun _ _ h => h
  random := fun n => (random_sinv n).keeps
  complete := fun n => (KeepsR.bind (R' := fun _ => True) (complete_sinv n) fun _ _ => KeepsR.pure trivial).keeps
end PY

namespace Geo
/-- All sticks equal `p`, and the weights belong to the sticks. -/
def GInv (s : Geo K) : Prop := (∀ x ∈ s.v, x = s.p) ∧ SInv s.v s.w

theorem complete_sinv (n : PySize) : KeepsR ω (GInv (K := K)) (complete n) (fun _ => True) := by
  refine KeepsR.of_wp fun s hs => wp_mono (complete_post n s hs.1) ?_ ?_
  · rintro _ t ⟨_, _, _, _, hp, hc⟩; exact ⟨⟨hp, hc.sinv hs.2⟩, trivial⟩
  · rintro _ t rfl; exact hs

theorem random_sinv (n : PySize) : KeepsR ω (GInv (K := K)) (random n) (fun _ => True) := by
  refine KeepsR.of_wp fun s hs => ?_
  unfold random
  wp_simp
  refine ⟨fun _ => hs, fun _ => ⟨fun sz _ => ⟨fun _ => ⟨nofun, SInv.nil _⟩, fun _ _ => ?_⟩, fun _ _ => hs⟩⟩
  exact (complete_sinv _).wp ⟨nofun, SInv.nil _⟩

theorem sinv_stable : (core : WeightCore K).Stable ω (GInv (K := K)) where
  setD := fun _ _ h => h
  random := fun n => (random_sinv n).keeps
  complete := fun n => (KeepsR.bind (R' := fun _ => True) (complete_sinv n) fun _ _ => KeepsR.pure trivial).keeps

theorem tail_sinv {ω : Oracle ℝ} (x : ℝ) : KeepsR ω (GInv (K := ℝ)) (tail x) (fun _ => True) := by
  unfold tail
  keeps_step
  · keeps_step
  · keeps_step; keeps_step
    exact KeepsR.bind (complete_sinv _) fun _ _ => KeepsR.bind KeepsR.self fun _ _ => KeepsR.pure trivial
end Geo

namespace BIB
theorem complete_sinv (n : PySize) :
    KeepsR ω (fun s : BIB K => SInv s.v s.w) (complete n) (fun _ => True) := by
  refine KeepsR.of_wp fun s hs => wp_mono (complete_post n s) ?_ ?_
  · rintro _ t ⟨_, _, _, _, hc⟩; exact ⟨hc.sinv hs, trivial⟩
  · rintro _ t h
    rw [h]; exact hs

theorem random_sinv (n : PySize) : KeepsR ω (fun s : BIB K => SInv s.v s.w) (random n) (fun _ => True) := by
  refine KeepsR.of_wp fun s hs => ?_
  unfold random
  rw [wp_bind, wp_self, wp_ite]
  refine ⟨fun _ => hs, fun _ => ?_⟩
  rw [wp_bind, wp_assign, wp_ite]
  refine ⟨fun _ => (complete_sinv _).wp (SInv.nil _), fun _ => ?_⟩
  have hnil : ∀ t : BIB K × ℕ, t.1.v = [] → SInv t.1.v t.1.w := by
    intro t h; rw [h]; exact SInv.nil _
  have hP : wp ω (M.whenM (0 < s.1.x) randomP) (fun _ t => t.1.v = []) (fun _ t => SInv t.1.v t.1.w)
      ({ s.1 with v := [] }, s.2) := by
    rw [wp_whenM]
    refine ⟨fun _ => wp_mono (randomP_post _) ?_ ?_, fun _ => rfl⟩
    · rintro _ t h; rw [h]
    · rintro _ t h; exact hnil _ (by rw [h])
  rw [wp_bind]
  refine wp_mono hP ?_ (fun _ _ h => h)
  intro _ t ht
  rw [wp_bind, wp_lift]
  refine ⟨fun a _ => ?_, fun _ _ => hnil _ ht⟩
  have hf : ∀ sz k, wp ω (randomFitted a (revTails a) sz k) (fun _ s' => SInv s'.1.v s'.1.w ∧ True)
      (fun _ s' => SInv s'.1.v s'.1.w) t := by
    intro sz k
    unfold randomFitted fittedSticks
    have hc : ∀ v p, wp ω (complete sz) (fun _ s' => SInv s'.1.v s'.1.w ∧ True) (fun _ s' => SInv s'.1.v s'.1.w)
        ({ t.1 with v := v, w := stickWeights v }, p) := fun v p => (complete_sinv _).wp (SInv.stick v)
    wp_simp
    exact ⟨fun _ => ⟨fun _ => hnil _ ht, fun _ => hc _ _⟩, fun _ => ⟨fun _ _ => hc _ _, fun _ _ => hnil _ ht⟩⟩
  split
  · exact hf _ _
  · exact hnil _ ht
  · exact hf _ _
  · exact hf _ _

theorem sinv_stable : (core : WeightCore K).Stable ω (fun s : BIB K => SInv s.v s.w) where
  setD := fun _ _ h => h
  random := fun n => (random_sinv n).keeps
  complete := fun n => (KeepsR.bind (R' := fun _ => True) (complete_sinv n) fun _ _ => KeepsR.pure trivial).keeps
end BIB

end Verif
