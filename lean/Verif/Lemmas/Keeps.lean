import Verif.Lemmas.Triple
import Verif.Lemmas.Stick
import Verif.Lemmas.Counts

/-! # Invariant preservation: compositional rules -/

set_option linter.unusedSectionVars false

namespace Verif
open Spec

variable {K : Type} {σ α β : Type}

/-- `m` keeps the object invariant `I` (also when it raises) and its value satisfies `R`. -/
def KeepsR (ω : Oracle K) (I : σ → Prop) (m : M K σ α) (R : α → Prop) : Prop :=
  Triple ω (fun s => I s.1) m (fun a s => I s.1 ∧ R a) (fun _ s => I s.1)

namespace KeepsR
variable {ω : Oracle K} {I : σ → Prop}

theorem keeps {m : M K σ α} {R : α → Prop} (h : KeepsR ω I m R) : Keeps ω I m :=
  Triple.keeps (Triple.conseq h (fun _ h => h) (fun _ _ h => h.1) (fun _ _ h => h))

theorem of_keeps {m : M K σ α} (h : Keeps ω I m) : KeepsR ω I m (fun _ => True) :=
  Triple.conseq (Triple.of_keeps h) (fun _ h => h) (fun _ _ h => ⟨h, trivial⟩) (fun _ _ h => h)

theorem weaken {m : M K σ α} {R R' : α → Prop} (h : KeepsR ω I m R) (hR : ∀ a, R a → R' a) :
    KeepsR ω I m R' :=
  Triple.conseq h (fun _ h => h) (fun _ _ h => ⟨h.1, hR _ h.2⟩) (fun _ _ h => h)

theorem bind {m : M K σ α} {f : α → M K σ β} {R : α → Prop} {R' : β → Prop}
    (h₁ : KeepsR ω I m R) (h₂ : ∀ a, R a → KeepsR ω I (f a) R') : KeepsR ω I (m >>= f) R' := by
  refine Triple.bind (R := fun a s => I s.1 ∧ R a) h₁ ?_
  rintro a s ⟨hI, hR⟩
  exact h₂ a hR s hI

theorem pure {a : α} {R : α → Prop} (h : R a) : KeepsR ω I (Pure.pure a : M K σ α) R :=
  fun _ hs => ⟨hs, h⟩

theorem raise (e : PyErr) {R : α → Prop} : KeepsR ω I (M.raise e : M K σ α) R := fun _ hs => hs

theorem self : KeepsR ω I (M.self : M K σ σ) I := fun _ hs => ⟨hs, hs⟩

theorem assign {f : σ → σ} (h : ∀ s, I s → I (f s)) : KeepsR ω I (M.assign f : M K σ Unit) (fun _ => True) :=
  fun _ hs => ⟨h _ hs, trivial⟩

theorem lift (e : Except PyErr α) : KeepsR ω I (M.lift e : M K σ α) (fun a => e = .ok a) := by
  intro s hs
  rw [M.lift_apply]
  rcases e with x | a
  · exact hs
  · exact ⟨hs, rfl⟩

theorem ite {c : Prop} [Decidable c] {x y : M K σ α} {R : α → Prop} (h₁ : c → KeepsR ω I x R)
    (h₂ : ¬c → KeepsR ω I y R) : KeepsR ω I (if c then x else y) R := by
  split
  · exact h₁ ‹_›
  · exact h₂ ‹_›

theorem whenM {c : Prop} [Decidable c] {m : M K σ Unit} (h : c → KeepsR ω I m (fun _ => True)) :
    KeepsR ω I (M.whenM c m) (fun _ => True) := by
  unfold M.whenM
  split
  · exact h ‹_›
  · exact KeepsR.pure trivial

theorem true_of {m : M K σ α} {R : α → Prop} (h : KeepsR ω I m R) : KeepsR ω I m (fun _ => True) :=
  h.weaken fun _ _ => trivial

section Draws
variable [Field K] [LinearOrder K] [IsStrictOrderedRing K] (hω : ω.Legal)
include hω

theorem beta (a b : K) : KeepsR ω I (M.beta a b : M K σ K) (fun x => 0 ≤ x ∧ x ≤ 1) := by
  intro s hs
  unfold M.beta
  split
  · rename_i h; split at h <;> cases h; exact ⟨hs, hω.beta_nonneg _ _ _, hω.beta_le_one _ _ _⟩
  · rename_i h; split at h <;> cases h; exact hs

theorem betaVec (ps : List (K × K)) :
    KeepsR ω I (M.betaVec ps : M K σ (List K)) (fun v => Unit01 v ∧ v.length = ps.length) := by
  intro s hs
  unfold M.betaVec
  split
  · rename_i h; split at h <;> cases h; exact ⟨hs, betaValues_unit01 hω _ _, by simp⟩
  · rename_i h; split at h <;> cases h; exact hs

theorem betaRep (a b : K) (n : ℤ) :
    KeepsR ω I (M.betaRep a b n : M K σ (List K)) (fun v => Unit01 v ∧ (v.length : ℤ) = n) := by
  intro s hs
  unfold M.betaRep
  split
  · rename_i h
    split at h
    · cases h
    · rename_i hn
      cases h; refine ⟨hs, betaValues_unit01 hω _ _, ?_⟩
      push Not at hn
      simp; exact hn.2.2
  · rename_i h; split at h <;> cases h; exact hs

theorem binom (n : ℤ) (p : K) : KeepsR ω I (M.binom n p : M K σ ℤ) (fun z => 0 ≤ z ∧ z ≤ n) := by
  intro s hs
  unfold M.binom
  split
  · rename_i h
    split at h
    · cases h
    · rename_i hn
      cases h
      push Not at hn
      exact ⟨hs, hω.binom_nonneg _ _ _ hn.1, hω.binom_le _ _ _ hn.1⟩
  · rename_i h; split at h <;> cases h; exact hs

theorem binomVec (n : ℤ) (ps : List K) :
    KeepsR ω I (M.binomVec n ps : M K σ (List ℤ)) (fun zs => (∀ z ∈ zs, 0 ≤ z ∧ z ≤ n) ∧ zs.length = ps.length) := by
  intro s hs
  unfold M.binomVec
  split
  · rename_i h
    split at h
    · cases h
    · rename_i hn
      cases h
      push Not at hn
      refine ⟨hs, ?_, by simp⟩
      intro z hz
      rw [List.mem_mapIdx] at hz
      obtain ⟨i, hi, rfl⟩ := hz
      exact ⟨hω.binom_nonneg _ _ _ hn.1, hω.binom_le _ _ _ hn.1⟩
  · rename_i h; split at h <;> cases h; exact hs

theorem binomRep (n : ℤ) (p : K) (m : ℤ) :
    KeepsR ω I (M.binomRep n p m : M K σ (List ℤ)) (fun zs => (∀ z ∈ zs, 0 ≤ z ∧ z ≤ n) ∧ (zs.length : ℤ) = m) := by
  intro s hs
  unfold M.binomRep
  split
  · rename_i h
    split at h
    · cases h
    · rename_i hn
      cases h
      push Not at hn
      refine ⟨hs, ?_, by simp; exact hn.2.2.2⟩
      intro z hz
      rw [List.mem_map] at hz
      obtain ⟨i, hi, rfl⟩ := hz
      exact ⟨hω.binom_nonneg _ _ _ hn.1, hω.binom_le _ _ _ hn.1⟩
  · rename_i h; split at h <;> cases h; exact hs

theorem unifVec (n : ℤ) :
    KeepsR ω I (M.unifVec n : M K σ (List K)) (fun us => ∀ u ∈ us, 0 ≤ u ∧ u < 1) := by
  intro s hs
  unfold M.unifVec
  split
  · rename_i h
    split at h
    · cases h
    · cases h
      refine ⟨hs, ?_⟩
      intro z hz
      rw [List.mem_map] at hz
      obtain ⟨i, hi, rfl⟩ := hz
      exact ⟨hω.unif_nonneg _, hω.unif_lt_one _⟩
  · rename_i h; split at h <;> cases h; exact hs

theorem dirichlet (l : List K) :
    KeepsR ω I (M.dirichlet l : M K σ (List K)) (fun w => SubProb w ∧ w.length = l.length) := by
  intro s hs
  unfold M.dirichlet
  split
  · rename_i h
    split at h
    · cases h
    · cases h
      refine ⟨hs, ⟨hω.dirichlet_nonneg _ _, ?_⟩, hω.dirichlet_length _ _⟩
      by_cases hl : l = []
      · have := hω.dirichlet_length s.2 l
        rw [hl] at this ⊢
        rw [List.length_eq_zero_iff.1 this]; simp
      · rw [hω.dirichlet_sum _ _ hl]
  · rename_i h; split at h <;> cases h; exact hs

theorem choice (p : List K) :
    KeepsR ω I (M.choice p : M K σ ℕ)
      (fun j => (∀ x ∈ p, 0 ≤ x) ∧ (0 < p.sum → ∃ x, p[j]? = some x ∧ 0 < x)) := by
  intro s hs
  unfold M.choice
  split
  · rename_i h
    split at h
    · cases h
    · rename_i hn
      cases h
      have h0 : ∀ x ∈ p, 0 ≤ x := by
        simp only [List.any_eq_true, decide_eq_true_eq, not_exists, not_and, not_lt] at hn
        exact hn
      exact ⟨hs, h0, fun hp => hω.choice_pos _ _ h0 hp⟩
  · rename_i h; split at h <;> cases h; exact hs

theorem gumbelMax (l : List (Option K)) :
    KeepsR ω I (M.gumbelMax l : M K σ ℕ)
      (fun j => j < l.length ∧ ((∃ x ∈ l, x ≠ none) → ∃ y, l[j]? = some (some y))) := by
  intro s hs
  unfold M.gumbelMax
  split
  · rename_i h
    split at h
    · cases h
    · rename_i hn
      cases h
      exact ⟨hs, hω.gumbel_lt _ _ (by simpa using hn), hω.gumbel_some _ _⟩
  · rename_i h; split at h <;> cases h; exact hs

theorem optim (v ps : List K) : KeepsR ω I (M.optim v ps : M K σ (Option K)) (fun r => ∀ p, r = some p → 0 ≤ p ∧ p ≤ 1) := by
  intro s hs
  exact ⟨hs, fun p hp => hω.optim_mem _ _ _ _ hp⟩

end Draws
end KeepsR

/-- One step of an invariant-preservation proof; leaves the obligations for assignments. -/
macro "keeps_step" : tactic => `(tactic| first
  | exact KeepsR.raise _
  | exact KeepsR.pure trivial
  | refine KeepsR.bind KeepsR.self fun _ _ => ?_
  | refine KeepsR.bind (KeepsR.lift _) fun _ _ => ?_
  | refine KeepsR.bind (KeepsR.beta ‹_› _ _) fun _ _ => ?_
  | refine KeepsR.bind (KeepsR.betaVec ‹_› _) fun _ _ => ?_
  | refine KeepsR.bind (KeepsR.betaRep ‹_› _ _ _) fun _ _ => ?_
  | refine KeepsR.bind (KeepsR.binom ‹_› _ _) fun _ _ => ?_
  | refine KeepsR.bind (KeepsR.binomVec ‹_› _ _) fun _ _ => ?_
  | refine KeepsR.bind (KeepsR.binomRep ‹_› _ _ _) fun _ _ => ?_
  | refine KeepsR.bind (KeepsR.unifVec ‹_› _) fun _ _ => ?_
  | refine KeepsR.bind (KeepsR.dirichlet ‹_› _) fun _ _ => ?_
  | refine KeepsR.bind (KeepsR.choice ‹_› _) fun _ _ => ?_
  | refine KeepsR.bind (KeepsR.gumbelMax ‹_› _) fun _ _ => ?_
  | refine KeepsR.bind (KeepsR.optim ‹_› _ _) fun _ _ => ?_
  | refine KeepsR.bind (KeepsR.assign ?_) fun _ _ => ?_
  | refine KeepsR.bind (KeepsR.whenM fun _ => ?_) fun _ _ => ?_
  | refine KeepsR.whenM fun _ => ?_
  | refine KeepsR.assign ?_
  | refine KeepsR.ite (fun _ => ?_) fun _ => ?_
  | split)

/-- A weight class keeps an invariant. -/
structure WeightCore.Stable (C : WeightCore K) (ω : Oracle K) (I : C.State → Prop) : Prop where
  setD : ∀ d s, I s → I (C.setD d s)
  random : ∀ n, Keeps ω I (C.random n)
  complete : ∀ n, Keeps ω I (C.complete n)

section Base
variable [Field K] [LinearOrder K] {C : WeightCore K} {ω : Oracle K} {I : C.State → Prop}

theorem tailLoop_keeps (h : C.Stable ω I) (x : K) (fuel : ℕ) : Keeps ω I (BaseWeight.tailLoop C x fuel) := by
  refine KeepsR.keeps (R := fun _ => True) ?_
  induction fuel with
  | zero =>
    unfold BaseWeight.tailLoop
    refine KeepsR.bind KeepsR.self fun s _ => KeepsR.ite (fun _ => KeepsR.raise _) fun _ => KeepsR.pure trivial
  | succ n ih =>
    unfold BaseWeight.tailLoop
    refine KeepsR.bind KeepsR.self fun s _ => KeepsR.ite (fun _ => ?_) fun _ => KeepsR.pure trivial
    exact KeepsR.bind (KeepsR.of_keeps (h.complete _)) fun _ _ => ih

theorem tail_keeps (h : C.Stable ω I) (x : K) (fuel : ℕ) : Keeps ω I (BaseWeight.tail C fuel x) := by
  refine KeepsR.keeps (R := fun _ => True) ?_
  unfold BaseWeight.tail
  refine KeepsR.ite (fun _ => KeepsR.raise _) fun _ => KeepsR.bind KeepsR.self fun s _ => ?_
  refine KeepsR.ite (fun _ => ?_) fun _ => ?_
  · exact KeepsR.bind (KeepsR.of_keeps (h.random _)) fun _ _ => KeepsR.of_keeps (tailLoop_keeps h x fuel)
  · exact KeepsR.of_keeps (tailLoop_keeps h x fuel)

theorem assignLL_keeps (h : C.Stable ω I) (log : K → K) (d : Option (List ℤ)) :
    Keeps ω I (BaseWeight.assignationLogLikelihood C log d) := by
  refine KeepsR.keeps (R := fun _ => True) ?_
  unfold BaseWeight.assignationLogLikelihood
  refine KeepsR.bind KeepsR.self fun s _ => KeepsR.bind (KeepsR.lift _) fun m _ =>
    KeepsR.bind (KeepsR.of_keeps (h.complete _)) fun _ _ => KeepsR.bind KeepsR.self fun s _ =>
    KeepsR.bind (KeepsR.lift _) fun _ _ => KeepsR.pure trivial

theorem unifVec_keeps {σ : Type} {I : σ → Prop} (n : ℤ) : Keeps ω I (M.unifVec n) := by
  intro s hs
  unfold M.unifVec
  split <;> exact hs

theorem randomAssignment_keeps (n : Option ℤ) : Keeps ω I (BaseWeight.randomAssignment C n) := by
  refine KeepsR.keeps (R := fun _ => True) ?_
  unfold BaseWeight.randomAssignment
  cases n with
  | none =>
    exact KeepsR.bind (KeepsR.of_keeps (unifVec_keeps _)) fun _ _ => KeepsR.raise _
  | some n =>
    exact KeepsR.bind (KeepsR.of_keeps (unifVec_keeps _)) fun _ _ =>
      KeepsR.bind KeepsR.self fun _ _ => KeepsR.pure trivial

/-- An invariant kept by the virtual methods holds along every history. -/
theorem WeightClass.run_keeps {C : WeightClass K} {ω : Oracle K} {I : C.State → Prop}
    (h : C.toWeightCore.Stable ω I) (ht : ∀ f x, Keeps ω I (C.tail f x)) (log : K → K)
    (ops : List (WOp K)) (s : C.State × ℕ) (hs : I s.1) : I (C.run log ω s ops).1 := by
  induction ops generalizing s with
  | nil => exact hs
  | cons op ops ih =>
    refine ih _ ?_
    cases op with
    | fit d => exact h.setD _ _ hs
    | reset => exact h.setD _ _ hs
    | random n => exact h.random _ _ hs
    | complete n => exact h.complete _ _ hs
    | tail f x => exact ht _ _ _ hs
    | assignationLogLikelihood d => exact assignLL_keeps h log d s hs
    | randomAssignment n => exact randomAssignment_keeps (C := C.toWeightCore) n s hs

theorem WeightCore.run_keeps {C : WeightCore K} {ω : Oracle K} {I : C.State → Prop}
    (h : C.Stable ω I) (log : K → K) (ops : List (WOp K)) (s : C.State × ℕ) (hs : I s.1) :
    I (C.inheritTail.run log ω s ops).1 :=
  WeightClass.run_keeps (C := C.inheritTail) h (fun f x => tail_keeps h x f) log ops s hs

end Base
end Verif
