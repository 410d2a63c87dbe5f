import Verif.Lemmas.TailLaw
import Verif.Lemmas.RandomPost
import Verif.Lemmas.Stable
import Verif.Lemmas.Hyper

/-! # With probability one no stick that is held is 0 -/

set_option linter.unusedSectionVars false

namespace Verif
open MeasureTheory ProbabilityTheory Filter Spec Mix
open scoped ENNReal Topology

variable {ω : Oracle ℝ} {G : RandGen}

/-- No Beta draw with the parameters of the classes is 0. -/
def PosBeta (ω : Oracle ℝ) (alpha : ℝ) : Prop := ∀ i m k : ℕ, 0 < ω.beta i (1 + (m : ℝ)) (alpha + (k : ℝ))

theorem PosBeta.one {alpha : ℝ} (h : PosBeta ω alpha) (i : ℕ) : 0 < ω.beta i 1 alpha := by simpa using h i 0 0

theorem posBeta_ae {alpha : ℝ} (ha : 0 < alpha) : ∀ᵐ u ∂G.P, PosBeta (G.oracle u) alpha := by
  unfold PosBeta
  rw [ae_all_iff]; intro i
  rw [ae_all_iff]; intro m
  rw [ae_all_iff]; intro k
  have h1 : (0 : ℝ) < 1 + (m : ℝ) := by positivity
  have h2 : (0 : ℝ) < alpha + (k : ℝ) := by positivity
  have hm : Measurable (fun u : ℕ → G.Seed => G.beta (1 + (m : ℝ)) (alpha + (k : ℝ)) (u i)) := (G.measurable_beta _ _).comp (measurable_pi_apply i)
  have hl : G.P.map (fun u : ℕ → G.Seed => G.beta (1 + (m : ℝ)) (alpha + (k : ℝ)) (u i)) = betaMeasure (1 + (m : ℝ)) (alpha + (k : ℝ)) := by
    rw [← G.beta_law _ _ h1 h2, ← G.map_seed i, Measure.map_map (G.measurable_beta _ _) (measurable_pi_apply i)]
    rfl
  have h3 : ∀ᵐ x ∂(G.P.map (fun u : ℕ → G.Seed => G.beta (1 + (m : ℝ)) (alpha + (k : ℝ)) (u i))), 0 < x := by
    rw [hl]
    filter_upwards [betaMeasure_ae] with x hx using hx.1
  exact ae_of_ae_map hm.aemeasurable h3

/-- All sticks of a list are positive. -/
def PosList (v : List ℝ) : Prop := ∀ y ∈ v, 0 < y

theorem PosList.nil : PosList [] := nofun
theorem PosList.append {v w : List ℝ} (h : PosList v) (h' : PosList w) : PosList (v ++ w) := fun y hy => (List.mem_append.1 hy).elim (h y) (h' y)
theorem PosList.single {x : ℝ} (h : 0 < x) : PosList [x] := fun y hy => by rw [List.mem_singleton.1 hy]; exact h
theorem PosList.cons {x : ℝ} {v : List ℝ} (h : 0 < x) (h' : PosList v) : PosList (x :: v) := fun y hy => (List.mem_cons.1 hy).elim (fun e => e ▸ h) (h' y)
theorem PosList.gather {v r : List ℝ} {is : List ℤ} (h : PosList v) (hg : Py.gather v is = .ok r) : PosList r := by
  induction is generalizing r with
  | nil => unfold Py.gather at hg; cases hg; exact PosList.nil
  | cons i is ih =>
    unfold Py.gather at hg
    cases h1 : Py.index v i with
    | error e => rw [h1] at hg; cases hg
    | ok x =>
      cases h2 : Py.gather v is with
      | error e => rw [h1, h2] at hg; cases hg
      | ok xs => rw [h1, h2] at hg; cases hg; exact PosList.cons (h x (index_mem h1)) (ih h2)

theorem betaValues_pos {q : ℕ} {ps : List (ℝ × ℝ)} (h : ∀ i, ∀ p ∈ ps, 0 < ω.beta i p.1 p.2) : PosList (M.betaValues ω q ps) := by
  intro y hy
  unfold M.betaValues at hy
  obtain ⟨i, hi⟩ := List.mem_iff_getElem?.1 hy
  rw [List.getElem?_mapIdx] at hi
  obtain ⟨p, hp, rfl⟩ := Option.map_eq_some_iff.1 hi
  exact h _ p (List.mem_of_getElem? hp)

section
variable {σ : Type} {I : σ → Prop}

theorem keepsR_beta_pos {a b : ℝ} (h : ∀ i, 0 < ω.beta i a b) : KeepsR ω I (M.beta a b : M ℝ σ ℝ) (fun x => 0 < x) := by
  intro s hs
  unfold M.beta
  split
  · rename_i h'; split at h' <;> cases h'; exact ⟨hs, h _⟩
  · rename_i h'; split at h' <;> cases h'; exact hs

theorem keepsR_betaVec_pos {ps : List (ℝ × ℝ)} (h : ∀ i, ∀ p ∈ ps, 0 < ω.beta i p.1 p.2) : KeepsR ω I (M.betaVec ps : M ℝ σ (List ℝ)) PosList := by
  intro s hs
  unfold M.betaVec
  split
  · rename_i h'; split at h' <;> cases h'; exact ⟨hs, betaValues_pos h⟩
  · rename_i h'; split at h' <;> cases h'; exact hs

theorem keepsR_betaRep_pos {a b : ℝ} (h : ∀ i, 0 < ω.beta i a b) (n : ℤ) : KeepsR ω I (M.betaRep a b n : M ℝ σ (List ℝ)) PosList := by
  intro s hs
  unfold M.betaRep
  split
  · rename_i h'
    split at h'
    · cases h'
    · cases h'; exact ⟨hs, betaValues_pos fun i p hp => by rw [List.eq_of_mem_replicate hp]; exact h i⟩
  · rename_i h'; split at h' <;> cases h'; exact hs
end

namespace BBer

/-- The concentration is `alpha` and all sticks are positive. -/
def PInv (alpha : ℝ) (s : BBer ℝ) : Prop := s.alpha = alpha ∧ PosList s.v

variable {alpha : ℝ}

theorem complete_pos (hω : PosBeta ω alpha) (n : PySize) : KeepsR ω (PInv alpha) (complete n) (fun _ => True) := by
  unfold complete
  refine KeepsR.bind (KeepsR.lift _) fun _ _ => ?_
  split
  · exact KeepsR.raise _
  · refine KeepsR.bind KeepsR.self fun s0 hs0 => ?_
    refine KeepsR.bind (KeepsR.whenM fun _ => ?_) fun _ _ => KeepsR.bind KeepsR.self fun _ _ => KeepsR.pure trivial
    refine KeepsR.bind (KeepsR.whenM fun _ => ?_) fun _ _ => ?_
    · refine KeepsR.bind (keepsR_betaRep_pos (fun i => by rw [hs0.1]; exact hω.one i) _) fun v hv => KeepsR.assign fun s hs => ⟨hs.1, hv⟩
    · refine KeepsR.bind KeepsR.self fun s hs => ?_
      refine KeepsR.bind (binomRep_any _ _ _) fun change _ => ?_
      refine KeepsR.bind (KeepsR.assign fun s hs => hs) fun _ _ => ?_
      refine KeepsR.bind (KeepsR.lift _) fun vl hvl => ?_
      refine KeepsR.bind (KeepsR.lift _) fun ml _ => ?_
      refine KeepsR.bind (keepsR_betaRep_pos (fun i => by rw [hs.1]; exact hω.one i) _) fun nv hnv => ?_
      refine KeepsR.bind (KeepsR.lift _) fun ext hext => ?_
      have hvl' : PosList (vl :: nv) := PosList.cons (hs.2 _ (index_mem hvl)) hnv
      refine KeepsR.bind (KeepsR.assign fun s hs => ⟨hs.1, hs.2.append (hvl'.gather hext)⟩) fun _ _ => KeepsR.assign fun s hs => hs

theorem randomBernoullis_pos (n : Option ℤ) : KeepsR ω (PInv alpha) (randomBernoullis n) (fun _ => True) := by
  have hbern : ∀ (a b : List ℕ) (js : List ℕ) (bern : List ℤ), KeepsR ω (PInv alpha) (bernLoop a b bern js) (fun _ => True) := by
    intro a b js
    induction js with
    | nil => intro bern; unfold bernLoop; exact KeepsR.pure trivial
    | cons j js ih =>
      intro bern
      unfold bernLoop
      refine KeepsR.bind KeepsR.self fun s hs => ?_
      split
      · exact KeepsR.raise _
      · exact KeepsR.bind (binom_any _ _) fun _ _ => ih _
  unfold randomBernoullis
  repeat' first | use_h hbern | hyp_step

theorem random_pos (hω : PosBeta ω alpha) (n : PySize) : KeepsR ω (PInv alpha) (random n) (fun _ => True) := by
  unfold random
  refine KeepsR.bind KeepsR.self fun _ _ => KeepsR.ite (fun _ => KeepsR.raise _) fun _ => ?_
  unfold randomSized
  refine KeepsR.bind (KeepsR.assign fun s hs => ⟨hs.1, PosList.nil⟩) fun _ _ => KeepsR.bind KeepsR.self fun _ _ => KeepsR.ite (fun _ => ?_) fun _ => ?_
  · refine KeepsR.bind (randomBernoullis_pos _) fun _ _ => KeepsR.bind KeepsR.self fun s hs => ?_
    refine KeepsR.bind (KeepsR.lift _) fun _ _ => ?_
    refine KeepsR.bind (keepsR_betaRep_pos (fun i => by rw [hs.1]; exact hω.one i) _) fun v hv => ?_
    refine KeepsR.bind (KeepsR.assign fun s hs => ⟨hs.1, hv⟩) fun _ _ => KeepsR.bind (KeepsR.lift _) fun v' hv' => ?_
    exact KeepsR.bind (KeepsR.assign fun s hs => ⟨hs.1, hv.gather hv'⟩) fun _ _ => KeepsR.pure trivial
  · refine KeepsR.bind (KeepsR.lift _) fun _ _ => KeepsR.bind (randomBernoullis_pos _) fun _ _ => KeepsR.bind KeepsR.self fun s hs => ?_
    refine KeepsR.bind (KeepsR.lift _) fun _ _ => KeepsR.bind (KeepsR.lift _) fun ga _ => KeepsR.bind (KeepsR.lift _) fun gb _ => ?_
    refine KeepsR.bind (keepsR_betaVec_pos (fun i p hp => ?_)) fun v hv => ?_
    · obtain ⟨j, hj⟩ := List.mem_iff_getElem?.1 hp
      rw [List.getElem?_zipWith_eq_some] at hj
      obtain ⟨x, y, _, _, rfl⟩ := hj
      rw [hs.1]
      exact hω i x y
    refine KeepsR.bind (KeepsR.assign fun s hs => ⟨hs.1, hv⟩) fun _ _ => KeepsR.bind (KeepsR.lift _) fun v' hv' => ?_
    exact KeepsR.bind (KeepsR.assign fun s hs => ⟨hs.1, hv.gather hv'⟩) fun _ _ => complete_pos hω _

theorem pos_stable (hω : PosBeta ω alpha) : (core : WeightCore ℝ).Stable ω (PInv alpha) where
  setD := fun _ _ h => h
  random := fun n => (random_pos hω n).keeps
  complete := fun n => (KeepsR.bind (R' := fun _ => True) (complete_pos hω n) fun _ _ => KeepsR.pure trivial).keeps

end BBer

namespace BID

/-- The concentration is `alpha`, all sticks and inner sticks are positive. -/
def PInv (alpha : ℝ) (s : BID ℝ) : Prop := s.alpha = alpha ∧ PosList s.v ∧ PosList s.vBase

variable {alpha : ℝ}

theorem useStick_pos (hω : PosBeta ω alpha) (jj : ℕ) : KeepsR ω (PInv alpha) (useStick jj) (fun _ => True) := by
  unfold useStick
  refine KeepsR.bind KeepsR.self fun s hs => KeepsR.ite (fun _ => ?_) fun _ => ?_
  · refine KeepsR.bind (KeepsR.lift _) fun x hx => ?_
    exact KeepsR.bind (KeepsR.assign fun t ht => ⟨ht.1, ht.2.1.append (.single (hs.2.2 _ (index_mem hx))), ht.2.2⟩) fun _ _ => KeepsR.assign fun t ht => ht
  · refine KeepsR.bind (keepsR_beta_pos (fun i => by rw [hs.1]; exact hω.one i)) fun x hx => ?_
    exact KeepsR.bind (KeepsR.assign fun t ht => ⟨ht.1, ht.2.1, ht.2.2.append (.single hx)⟩) fun _ _ => KeepsR.bind (KeepsR.assign fun t ht => ht) fun _ _ =>
      KeepsR.assign fun t ht => ⟨ht.1, ht.2.1.append (.single hx), ht.2.2⟩

theorem growOne_pos (hω : PosBeta ω alpha) : KeepsR ω (PInv alpha) growOne (fun _ => True) := by
  unfold growOne
  refine KeepsR.bind KeepsR.self fun s hs => KeepsR.ite (fun _ => KeepsR.raise _) fun _ => ?_
  exact KeepsR.bind (choice_any _) fun _ _ => KeepsR.bind (useStick_pos hω _) fun _ _ => KeepsR.assign fun t ht => ht

theorem grow_pos (hω : PosBeta ω alpha) (k : ℕ) : KeepsR ω (PInv alpha) (grow k) (fun _ => True) := by
  induction k with
  | zero => unfold grow; exact KeepsR.pure trivial
  | succ k ih => unfold grow; exact KeepsR.bind (growOne_pos hω) fun _ _ => ih

theorem complete_pos (hω : PosBeta ω alpha) (n : PySize) : KeepsR ω (PInv alpha) (complete n) (fun _ => True) := by
  unfold complete
  refine KeepsR.bind KeepsR.self fun s hs => KeepsR.bind (KeepsR.whenM fun _ => ?_) fun _ _ => ?_
  · refine KeepsR.bind (keepsR_betaRep_pos (fun i => by rw [hs.1]; exact hω.one i) _) fun v hv => ?_
    exact KeepsR.bind (KeepsR.assign fun t ht => ⟨ht.1, ht.2.1, hv⟩) fun _ _ => KeepsR.assign fun t ht => ht
  · split
    · exact KeepsR.raise _
    · exact KeepsR.bind KeepsR.self fun _ _ => KeepsR.bind (grow_pos hω _) fun _ _ => KeepsR.assign fun t ht => ht

theorem drawBase_pos (hω : PosBeta ω alpha) (a b dB js : List ℕ) : KeepsR ω (PInv alpha) (drawBase alpha a b dB js) PosList := by
  induction js with
  | nil => unfold drawBase; exact KeepsR.pure PosList.nil
  | cons j js ih =>
    unfold drawBase
    exact KeepsR.bind (keepsR_beta_pos fun i => hω i _ _) fun x hx => KeepsR.bind ih fun xs hxs => KeepsR.pure (hxs.cons hx)

theorem setBase_pos (j x : ℕ) (s : BID ℝ) (h : PInv alpha s) : PInv alpha (setBase j x s) := by
  unfold setBase
  split <;> exact h

theorem updateOne_pos (hω : PosBeta ω alpha) (F : SpecFun ℝ) (a b : List ℕ) (j : ℕ) : KeepsR ω (PInv alpha) (updateOne F a b j) (fun _ => True) := by
  unfold updateOne
  refine KeepsR.bind KeepsR.self fun s hs => KeepsR.ite (fun _ => KeepsR.assign (setBase_pos _ _)) fun _ => ?_
  refine KeepsR.bind (KeepsR.lift _) fun _ _ => KeepsR.bind (KeepsR.lift _) fun _ _ => KeepsR.bind (KeepsR.lift _) fun _ _ => KeepsR.bind (KeepsR.lift _) fun _ _ => ?_
  refine KeepsR.bind (gumbelMax_any _) fun _ _ => KeepsR.bind (KeepsR.assign (setBase_pos _ _)) fun _ _ => KeepsR.bind KeepsR.self fun s hs => ?_
  refine KeepsR.bind (KeepsR.lift _) fun _ _ => KeepsR.whenM fun _ => ?_
  exact KeepsR.bind (keepsR_beta_pos (fun i => by rw [hs.1]; exact hω.one i)) fun x hx => KeepsR.assign fun t ht => ⟨ht.1, ht.2.1, ht.2.2.append (.single hx)⟩

theorem updateAll_pos (hω : PosBeta ω alpha) (F : SpecFun ℝ) (a b js : List ℕ) : KeepsR ω (PInv alpha) (updateAll F a b js) (fun _ => True) := by
  induction js with
  | nil => unfold updateAll; exact KeepsR.pure trivial
  | cons j js ih => unfold updateAll; exact KeepsR.bind (updateOne_pos hω F a b j) fun _ _ => ih

theorem randomFitted_pos (hω : PosBeta ω alpha) (F : SpecFun ℝ) : KeepsR ω (PInv alpha) (randomFitted F) (fun _ => True) := by
  unfold randomFitted
  refine KeepsR.bind KeepsR.self fun _ _ => KeepsR.bind (KeepsR.lift _) fun _ _ => KeepsR.bind (KeepsR.assign fun s hs => ?_) fun _ _ => ?_
  · split
    · exact hs
    · split <;> exact hs
  refine KeepsR.bind KeepsR.self fun s hs => KeepsR.bind (KeepsR.lift _) fun _ _ => KeepsR.bind (KeepsR.lift _) fun _ _ => ?_
  refine KeepsR.bind (R := PosList) (by rw [hs.1]; exact drawBase_pos hω _ _ _ _) fun vb hvb => ?_
  refine KeepsR.bind (KeepsR.assign fun t ht => ⟨ht.1, ht.2.1, hvb⟩) fun _ _ => KeepsR.bind (updateAll_pos hω _ _ _ _) fun _ _ => ?_
  refine KeepsR.bind (KeepsR.assign fun t ht => ht) fun _ _ => KeepsR.bind KeepsR.self fun s hs => KeepsR.bind (KeepsR.lift _) fun v hv => ?_
  exact KeepsR.bind (KeepsR.assign fun t ht => ⟨ht.1, hs.2.2.gather hv, ht.2.2⟩) fun _ _ => KeepsR.bind KeepsR.self fun _ _ => KeepsR.pure trivial

theorem random_pos (hω : PosBeta ω alpha) (F : SpecFun ℝ) (n : PySize) : KeepsR ω (PInv alpha) (random F n) (fun _ => True) := by
  unfold random
  refine KeepsR.bind KeepsR.self fun _ _ => KeepsR.ite (fun _ => KeepsR.raise _) fun _ => ?_
  split
  · exact KeepsR.raise _
  · exact KeepsR.raise _
  · refine KeepsR.bind (KeepsR.assign fun t ht => ⟨ht.1, PosList.nil, PosList.nil⟩) fun _ _ => KeepsR.ite (fun _ => ?_) fun _ => ?_
    · exact KeepsR.bind (complete_pos hω _) fun _ _ => KeepsR.bind KeepsR.self fun _ _ => KeepsR.pure trivial
    · exact randomFitted_pos hω F

theorem pos_stable (hω : PosBeta ω alpha) (F : SpecFun ℝ) : (core F : WeightCore ℝ).Stable ω (PInv alpha) where
  setD := fun _ _ h => h
  random := fun n => (random_pos hω F n).keeps
  complete := fun n => (KeepsR.bind (R' := fun _ => True) (complete_pos hω n) fun _ _ => KeepsR.pure trivial).keeps

/-- The counts belong to the inner sticks, and somebody sits there. -/
def Seated (s : BID ℝ) : Prop := s.vBase.length = s.countBase.length ∧ 0 < s.countBase.sum

theorem growOne_seated {s : BID ℝ × ℕ} (h : Seated s.1) : wp ω growOne (fun _ t => Seated t.1) (fun _ _ => True) s := by
  unfold growOne
  rw [wp_bind, wp_self, wp_ite]
  refine ⟨fun _ => trivial, fun _ => ?_⟩
  rw [wp_bind, wp_choice]
  refine ⟨fun _ => trivial, fun _ => ?_⟩
  rw [wp_bind]
  unfold useStick
  rw [wp_bind, wp_self, wp_ite]
  refine ⟨fun hj => ?_, fun hj => ?_⟩
  · rw [wp_bind, wp_lift]
    refine ⟨fun x _ => ?_, fun _ _ => trivial⟩
    rw [wp_bind, wp_assign, wp_assign, wp_assign]
    refine ⟨by simpa using h.1, ?_⟩
    have hlt : 0 < s.1.countBase.sum := h.2
    show 0 < (s.1.countBase.modify _ (· + 1)).sum
    obtain ⟨y, hy, hy0⟩ : ∃ y ∈ s.1.countBase, 0 < y := by
      by_contra hc
      push Not at hc
      have := List.sum_eq_zero fun y hy => Nat.le_zero.1 (hc y hy)
      omega
    obtain ⟨i, hi, rfl⟩ := List.mem_iff_getElem.1 hy
    have hm : (s.1.countBase.modify (ω.choice s.2 (urn s.1.countBase s.1.a)) (· + 1))[i]'(by simpa using hi) ∈ s.1.countBase.modify (ω.choice s.2 (urn s.1.countBase s.1.a)) (· + 1) := List.getElem_mem _
    have h1 := List.single_le_sum (fun _ _ => Nat.zero_le _) _ hm
    have h2 : 0 < (s.1.countBase.modify (ω.choice s.2 (urn s.1.countBase s.1.a)) (· + 1))[i]'(by simpa using hi) := by
      rw [List.getElem_modify]
      split <;> omega
    exact h2.trans_le h1
  · rw [wp_bind, wp_beta]
    refine ⟨fun _ => trivial, fun _ => ?_⟩
    intro _
    rw [wp_bind, wp_assign, wp_bind, wp_assign, wp_assign, wp_assign]
    refine ⟨by simpa using h.1, ?_⟩
    show 0 < (s.1.countBase ++ [1]).sum
    simp

theorem grow_seated (k : ℕ) {s : BID ℝ × ℕ} (h : Seated s.1) : wp ω (grow k) (fun _ t => Seated t.1) (fun _ _ => True) s := by
  induction k generalizing s with
  | zero => exact h
  | succ k ih => unfold grow; rw [wp_bind]; exact wp_mono (growOne_seated h) (fun _ t ht => ih ht) fun _ _ h => h

theorem complete_seated (size : PySize) {s : BID ℝ × ℕ} (h : s.1.vBase ≠ [] → Seated s.1) : wp ω (complete size) (fun _ t => Seated t.1) (fun _ _ => True) s := by
  unfold complete
  rw [wp_bind, wp_self, wp_bind, wp_whenM]
  have key : ∀ s : BID ℝ × ℕ, Seated s.1 → wp ω (match size.toInt? with
    | none => M.raise .typeError
    | some n => do
      let s ← M.self
      grow (n - s.v.length).toNat
      M.assign (fun s => { s with w := stickWeights s.v }) : M ℝ (BID ℝ) Unit) (fun _ t => Seated t.1) (fun _ _ => True) s := by
    intro s hs
    split
    · trivial
    · rw [wp_bind, wp_self, wp_bind]
      exact wp_mono (grow_seated _ hs) (fun _ t ht => ht) fun _ _ h => h
  refine ⟨fun h0 => ?_, fun h0 => key _ (h fun e => h0 (by rw [e]; rfl))⟩
  rw [wp_bind, wp_betaRep]
  refine ⟨fun _ => trivial, fun _ => ?_⟩
  intro _ _
  rw [wp_bind, wp_assign, wp_assign]
  refine key _ ⟨?_, ?_⟩
  · simp [M.betaValues]
  · simp

theorem randomFitted_seated (F : SpecFun ℝ) (s : BID ℝ × ℕ) : wp ω (randomFitted F) (fun _ t => t.1.v ≠ [] → Seated t.1) (fun _ _ => True) s := by
  unfold randomFitted
  rw [wp_bind, wp_self, wp_bind, wp_lift]
  refine ⟨fun m _ => ?_, fun _ _ => trivial⟩
  rw [wp_bind, wp_assign, wp_bind, wp_self, wp_bind, wp_lift]
  refine ⟨fun k _ => ?_, fun _ _ => trivial⟩
  rw [wp_bind, wp_lift]
  refine ⟨fun a_c _ => ?_, fun _ _ => trivial⟩
  rw [wp_bind]
  refine wp_mono (wp_true _ _) (fun vb t1 _ => ?_) fun _ _ _ => trivial
  rw [wp_bind, wp_assign, wp_bind]
  refine wp_mono (wp_true _ _) (fun _ t2 _ => ?_) fun _ _ _ => trivial
  rw [wp_bind, wp_assign, wp_bind, wp_self, wp_bind, wp_lift]
  refine ⟨fun v hv => ?_, fun _ _ => trivial⟩
  rw [wp_bind, wp_assign, wp_bind, wp_self, wp_pure]
  intro hne
  refine ⟨by simp, ?_⟩
  change Py.gather t2.1.vBase (t2.1.dBase.map (fun (j : ℕ) => (j : ℤ))) = .ok v at hv
  show 0 < ((List.range t2.1.vBase.length).map (fun j => t2.1.dBase.count j)).sum
  cases hd : t2.1.dBase with
  | nil => rw [hd] at hv; unfold Py.gather at hv; cases hv; exact absurd rfl hne
  | cons j js =>
    rw [hd] at hv
    have hj : j < t2.1.vBase.length := by
      by_contra hc
      have : Py.index t2.1.vBase (j : ℤ) = .error .indexError := by
        unfold Py.index
        simp [hc]
      rw [List.map_cons] at hv
      unfold Py.gather at hv
      rw [this] at hv
      cases hv
    rw [← hd]
    have h1 := List.single_le_sum (l := (List.range t2.1.vBase.length).map (fun j => t2.1.dBase.count j)) (fun _ _ => Nat.zero_le _) _ (List.mem_map.2 ⟨j, List.mem_range.2 hj, rfl⟩)
    have h2 : 0 < t2.1.dBase.count j := List.count_pos_iff.2 (by rw [hd]; simp)
    exact h2.trans_le h1

theorem random_seated (F : SpecFun ℝ) (size : PySize) (s : BID ℝ × ℕ) : wp ω (random F size) (fun _ t => t.1.v ≠ [] → Seated t.1) (fun _ _ => True) s := by
  unfold random
  rw [wp_bind, wp_self, wp_ite]
  refine ⟨fun _ => trivial, fun _ => ?_⟩
  split
  · trivial
  · trivial
  · rw [wp_bind, wp_assign, wp_ite]
    refine ⟨fun _ => ?_, fun _ => randomFitted_seated F _⟩
    rw [wp_bind]
    exact wp_mono (complete_seated _ fun h => absurd rfl h) (fun _ t ht _ => ht) fun _ _ h => h

end BID

end Verif
