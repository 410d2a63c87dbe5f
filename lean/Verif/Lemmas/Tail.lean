import Verif.Lemmas.Wp

/-! # The loop of `BaseWeight.tail` -/

set_option linter.unusedSectionVars false

namespace Verif
variable {K : Type} [Field K] [LinearOrder K] {C : WeightCore K} {ω : Oracle K}

theorem wp_tailLoop {I : C.State × ℕ → Prop} {E : PyErr → C.State × ℕ → Prop} {x : K}
    (hc : ∀ s, I s → (C.getW s.1).sum < x → wp ω (C.complete (.int ((C.getW s.1).length + 1))) (fun _ t => I t) E s)
    (hf : ∀ s, I s → (C.getW s.1).sum < x → E .outOfFuel s) (fuel : ℕ) (s : C.State × ℕ) (hs : I s) :
    wp ω (BaseWeight.tailLoop C x fuel) (fun r t => I t ∧ r = C.getW t.1 ∧ x ≤ r.sum) E s := by
  induction fuel generalizing s with
  | zero =>
    unfold BaseWeight.tailLoop
    rw [wp_bind, wp_self, wp_ite]
    exact ⟨fun h => hf s hs h, fun h => ⟨hs, rfl, not_lt.1 h⟩⟩
  | succ n ih =>
    unfold BaseWeight.tailLoop
    rw [wp_bind, wp_self, wp_ite]
    refine ⟨fun h => ?_, fun h => ⟨hs, rfl, not_lt.1 h⟩⟩
    rw [wp_bind]
    exact wp_mono (hc s hs h) (fun _ t ht => ih t ht) (fun _ _ h => h)

theorem wp_tail {I : C.State × ℕ → Prop} {E : PyErr → C.State × ℕ → Prop} {x : K} (hx : ¬ (x ≥ 1 ∨ x < 0))
    (hc : ∀ s, I s → (C.getW s.1).sum < x → wp ω (C.complete (.int ((C.getW s.1).length + 1))) (fun _ t => I t) E s)
    (hf : ∀ s, I s → (C.getW s.1).sum < x → E .outOfFuel s) (fuel : ℕ) (s : C.State × ℕ)
    (h0 : C.getW s.1 = [] → wp ω (C.random (.int 1)) (fun _ t => I t) E s) (hs : C.getW s.1 ≠ [] → I s) :
    wp ω (BaseWeight.tail C fuel x) (fun r t => I t ∧ r = C.getW t.1 ∧ x ≤ r.sum) E s := by
  unfold BaseWeight.tail
  rw [if_neg hx, wp_bind, wp_self, wp_ite]
  refine ⟨fun h => ?_, fun h => ?_⟩
  · rw [wp_bind]
    exact wp_mono (h0 (List.length_eq_zero_iff.1 h)) (fun _ t ht => wp_tailLoop hc hf fuel t ht) (fun _ _ h => h)
  · exact wp_tailLoop hc hf fuel s (hs fun h' => h (List.length_eq_zero_iff.2 h'))

theorem BaseWeight.tail_bad (C : WeightCore K) {x : K} (hx : x ≥ 1 ∨ x < 0) (fuel : ℕ) (s : C.State × ℕ) :
    BaseWeight.tail C fuel x ω s = (.error .valueError, s) := by
  unfold BaseWeight.tail
  rw [if_pos hx]; rfl

/-- An invariant kept by `complete` and by the admissible calls of `random` holds along every history of admissible calls. -/
theorem WeightCore.run_keeps_adm {I : C.State → Prop} {P : PySize → Prop} (hd : ∀ d s, I s → I (C.setD d s))
    (hc : ∀ n, Keeps ω I (C.complete n)) (hr : ∀ n, P n → Keeps ω I (C.random n)) (h1 : P (.int 1)) (log : K → K) (ops : List (WOp K))
    (hops : ∀ n, WOp.random n ∈ ops → P n) (s : C.State × ℕ) (hs : I s.1) : I (C.inheritTail.run log ω s ops).1 := by
  have hloop : ∀ x fuel, Keeps ω I (BaseWeight.tailLoop C x fuel) := by
    intro x fuel
    refine KeepsR.keeps (R := fun _ => True) ?_
    induction fuel with
    | zero =>
      unfold BaseWeight.tailLoop
      refine KeepsR.bind KeepsR.self fun s _ => KeepsR.ite (fun _ => KeepsR.raise _) fun _ => KeepsR.pure trivial
    | succ n ih =>
      unfold BaseWeight.tailLoop
      refine KeepsR.bind KeepsR.self fun s _ => KeepsR.ite (fun _ => ?_) fun _ => KeepsR.pure trivial
      exact KeepsR.bind (KeepsR.of_keeps (hc _)) fun _ _ => ih
  have htail : ∀ x fuel, Keeps ω I (BaseWeight.tail C fuel x) := by
    intro x fuel
    refine KeepsR.keeps (R := fun _ => True) ?_
    unfold BaseWeight.tail
    refine KeepsR.ite (fun _ => KeepsR.raise _) fun _ => KeepsR.bind KeepsR.self fun s _ => ?_
    refine KeepsR.ite (fun _ => ?_) fun _ => ?_
    · exact KeepsR.bind (KeepsR.of_keeps (hr _ h1)) fun _ _ => KeepsR.of_keeps (hloop x fuel)
    · exact KeepsR.of_keeps (hloop x fuel)
  have hall : ∀ d, Keeps ω I (BaseWeight.assignationLogLikelihood C log d) := by
    intro d
    refine KeepsR.keeps (R := fun _ => True) ?_
    unfold BaseWeight.assignationLogLikelihood
    refine KeepsR.bind KeepsR.self fun s _ => KeepsR.bind (KeepsR.lift _) fun m _ =>
      KeepsR.bind (KeepsR.of_keeps (hc _)) fun _ _ => KeepsR.bind KeepsR.self fun s _ =>
      KeepsR.bind (KeepsR.lift _) fun _ _ => KeepsR.pure trivial
  induction ops generalizing s with
  | nil => exact hs
  | cons op ops ih =>
    refine ih (fun n hn => hops n (by simp [hn])) _ ?_
    cases op with
    | fit d => exact hd _ _ hs
    | reset => exact hd _ _ hs
    | random n => exact hr n (hops n (by simp)) _ hs
    | complete n => exact hc _ _ hs
    | tail f x => exact htail x f s hs
    | assignationLogLikelihood d => exact hall d s hs
    | randomAssignment n => exact randomAssignment_keeps (C := C) n s hs

end Verif
