import Verif.Lemmas.Misc

/-! # Weakest preconditions: exact symbolic execution of methods -/

set_option linter.unusedSectionVars false

namespace Verif
open Spec

variable {K : Type} {σ α β : Type}

/-- The outcome of `m` started in `s` satisfies `Q` (normal) or `E` (exception). -/
def wp (ω : Oracle K) (m : M K σ α) (Q : α → σ × ℕ → Prop) (E : PyErr → σ × ℕ → Prop) (s : σ × ℕ) : Prop :=
  match m ω s with
  | (.ok a, s') => Q a s'
  | (.error e, s') => E e s'

section
variable {ω : Oracle K} {Q : α → σ × ℕ → Prop} {E : PyErr → σ × ℕ → Prop} {s : σ × ℕ}

theorem wp_of_ok {m : M K σ α} {a : α} {s' : σ × ℕ} (h : m ω s = (.ok a, s')) (hw : wp ω m Q E s) : Q a s' := by
  unfold wp at hw; rw [h] at hw; exact hw

theorem wp_of_error {m : M K σ α} {e : PyErr} {s' : σ × ℕ} (h : m ω s = (.error e, s')) (hw : wp ω m Q E s) :
    E e s' := by
  unfold wp at hw; rw [h] at hw; exact hw

theorem wp_eq_ok {m : M K σ α} {a : α} {s' : σ × ℕ} :
    wp ω m (fun b t => b = a ∧ t = s') (fun _ _ => False) s ↔ m ω s = (.ok a, s') := by
  unfold wp
  rcases m ω s with ⟨e | b, t⟩ <;> simp

theorem wp_mono {m : M K σ α} {Q' : α → σ × ℕ → Prop} {E' : PyErr → σ × ℕ → Prop} (h : wp ω m Q' E' s)
    (hQ : ∀ a s', Q' a s' → Q a s') (hE : ∀ e s', E' e s' → E e s') : wp ω m Q E s := by
  unfold wp at *
  revert h
  rcases m ω s with ⟨e | a, s'⟩
  · exact hE e s'
  · exact hQ a s'

theorem wp_and {m : M K σ α} {Q' : α → σ × ℕ → Prop} {E' : PyErr → σ × ℕ → Prop} (h : wp ω m Q E s)
    (h' : wp ω m Q' E' s) : wp ω m (fun a t => Q a t ∧ Q' a t) (fun a t => E a t ∧ E' a t) s := by
  unfold wp at *
  revert h h'
  rcases m ω s with ⟨e | a, s'⟩ <;> exact fun h h' => ⟨h, h'⟩

theorem Triple.wp {P : σ × ℕ → Prop} {m : M K σ α} (h : Triple ω P m Q E) (hs : P s) : wp ω m Q E s := h s hs

theorem KeepsR.wp {I : σ → Prop} {m : M K σ α} {R : α → Prop} (h : KeepsR ω I m R) (hs : I s.1) :
    wp ω m (fun a s' => I s'.1 ∧ R a) (fun _ s' => I s'.1) s := h s hs

theorem KeepsR.of_wp {I : σ → Prop} {m : M K σ α} {R : α → Prop}
    (h : ∀ s : σ × ℕ, I s.1 → Verif.wp ω m (fun a s' => I s'.1 ∧ R a) (fun _ s' => I s'.1) s) : KeepsR ω I m R := h

theorem wp_pure (a : α) : wp ω (pure a : M K σ α) Q E s ↔ Q a s := Iff.rfl
theorem wp_raise (e : PyErr) : wp ω (M.raise e : M K σ α) Q E s ↔ E e s := Iff.rfl
theorem wp_bind {γ : Type} (m : M K σ γ) (f : γ → M K σ α) :
    wp ω (m >>= f) Q E s ↔ wp ω m (fun a s' => wp ω (f a) Q E s') E s := by
  unfold wp
  rw [M.bind_apply]
  rcases m ω s with ⟨e | a, s'⟩ <;> rfl

theorem wp_ite (c : Prop) [Decidable c] (x y : M K σ α) :
    wp ω (if c then x else y) Q E s ↔ (c → wp ω x Q E s) ∧ (¬c → wp ω y Q E s) := by
  split <;> simp_all

theorem wp_lift (e : Except PyErr α) :
    wp ω (M.lift e : M K σ α) Q E s ↔ (∀ a, e = .ok a → Q a s) ∧ (∀ x, e = .error x → E x s) := by
  unfold wp
  rw [M.lift_apply]
  rcases e with x | a <;> simp
end

section
variable {ω : Oracle K} {E : PyErr → σ × ℕ → Prop} {s : σ × ℕ}
theorem wp_self {Q : σ → σ × ℕ → Prop} : wp ω (M.self : M K σ σ) Q E s ↔ Q s.1 s := Iff.rfl
theorem wp_assign {Q : Unit → σ × ℕ → Prop} (f : σ → σ) :
    wp ω (M.assign f : M K σ Unit) Q E s ↔ Q () (f s.1, s.2) := Iff.rfl
theorem wp_whenM {Q : Unit → σ × ℕ → Prop} (c : Prop) [Decidable c] (m : M K σ Unit) :
    wp ω (M.whenM c m) Q E s ↔ (c → wp ω m Q E s) ∧ (¬c → Q () s) := by
  unfold M.whenM
  rw [wp_ite]; rfl
end

section Draws
variable [Field K] [LinearOrder K] [IsStrictOrderedRing K] {ω : Oracle K} {E : PyErr → σ × ℕ → Prop} {s : σ × ℕ}

theorem wp_beta {Q : K → σ × ℕ → Prop} (a b : K) :
    wp ω (M.beta a b : M K σ K) Q E s ↔
      ((a ≤ 0 ∨ b ≤ 0) → E .valueError s) ∧ (0 < a → 0 < b → Q (ω.beta s.2 a b) (s.1, s.2 + 1)) := by
  unfold wp M.beta
  by_cases ha : a ≤ 0
  · simp [ha, not_lt.2 ha]
  · by_cases hb : b ≤ 0
    · simp [hb, not_lt.2 hb]
    · simp [ha, hb, not_le.1 ha, not_le.1 hb]

theorem wp_betaVec {Q : List K → σ × ℕ → Prop} (ps : List (K × K)) :
    wp ω (M.betaVec ps : M K σ (List K)) Q E s ↔
      ((∃ p ∈ ps, p.1 ≤ 0 ∨ p.2 ≤ 0) → E .valueError s) ∧
      ((∀ p ∈ ps, 0 < p.1 ∧ 0 < p.2) → Q (M.betaValues ω s.2 ps) (s.1, s.2 + ps.length)) := by
  unfold wp M.betaVec
  by_cases h : ∃ p ∈ ps, p.1 ≤ 0 ∨ p.2 ≤ 0
  · rw [betaParams_illegal h]
    have : ¬ ∀ p ∈ ps, 0 < p.1 ∧ 0 < p.2 := by
      obtain ⟨p, hp, h⟩ := h
      intro hc
      rcases h with h | h
      · exact absurd (hc p hp).1 (not_lt.2 h)
      · exact absurd (hc p hp).2 (not_lt.2 h)
    simp only [if_true, this, false_imp_iff, and_true]
    exact ⟨fun hE _ => hE, fun hE => hE h⟩
  · have h' : ∀ p ∈ ps, 0 < p.1 ∧ 0 < p.2 := by
      push Not at h; exact h
    rw [betaParams_legal h']
    simp only [Bool.false_eq_true, if_false, h, false_imp_iff, true_and]
    exact ⟨fun hQ _ => hQ, fun hQ => hQ h'⟩

theorem wp_betaRep {Q : List K → σ × ℕ → Prop} (a b : K) (n : ℤ) :
    wp ω (M.betaRep a b n : M K σ (List K)) Q E s ↔
      ((a ≤ 0 ∨ b ≤ 0 ∨ n < 0) → E .valueError s) ∧
      (0 < a → 0 < b → 0 ≤ n →
        Q (M.betaValues ω s.2 (List.replicate n.toNat (a, b))) (s.1, s.2 + n.toNat)) := by
  unfold wp M.betaRep
  by_cases ha : a ≤ 0
  · simp [ha, not_lt.2 ha]
  · by_cases hb : b ≤ 0
    · simp [hb, not_lt.2 hb]
    · by_cases hn : n < 0
      · simp [hn, not_le.2 hn]
      · simp [ha, hb, hn, not_le.1 ha, not_le.1 hb, not_lt.1 hn]

theorem wp_binom {Q : ℤ → σ × ℕ → Prop} (n : ℤ) (p : K) :
    wp ω (M.binom n p : M K σ ℤ) Q E s ↔
      ((n < 0 ∨ p < 0 ∨ 1 < p) → E .valueError s) ∧
      (0 ≤ n → 0 ≤ p → p ≤ 1 → Q (ω.binom s.2 n p) (s.1, s.2 + 1)) := by
  unfold wp M.binom
  by_cases h1 : n < 0
  · simp [h1, not_le.2 h1]
  · by_cases h2 : p < 0
    · simp [h2, not_le.2 h2]
    · by_cases h3 : 1 < p
      · simp [h3, not_le.2 h3]
      · simp [h1, h2, h3, not_lt.1 h1, not_lt.1 h2, not_lt.1 h3]

theorem wp_binomVec {Q : List ℤ → σ × ℕ → Prop} (n : ℤ) (ps : List K) :
    wp ω (M.binomVec n ps : M K σ (List ℤ)) Q E s ↔
      ((n < 0 ∨ ∃ p ∈ ps, p < 0 ∨ 1 < p) → E .valueError s) ∧
      (0 ≤ n → (∀ p ∈ ps, 0 ≤ p ∧ p ≤ 1) →
        Q (ps.mapIdx (fun i p => ω.binom (s.2 + i) n p)) (s.1, s.2 + ps.length)) := by
  unfold wp M.binomVec
  have hany : (ps.any (fun p => decide (p < 0 ∨ 1 < p)) = true) ↔ ∃ p ∈ ps, p < 0 ∨ 1 < p := by
    simp [List.any_eq_true]
  simp only [hany]
  by_cases h : n < 0 ∨ ∃ p ∈ ps, p < 0 ∨ 1 < p
  · simp only [h, if_true, true_imp_iff]
    refine ⟨fun hE => ⟨hE, fun h1 h2 => ?_⟩, fun hE => hE.1⟩
    exfalso
    rcases h with h | ⟨p, hp, h⟩
    · omega
    · have := h2 p hp
      rcases h with h | h
      · exact absurd this.1 (not_le.2 h)
      · exact absurd this.2 (not_le.2 h)
  · simp only [h, if_false, false_imp_iff, true_and]
    push Not at h
    exact ⟨fun hQ _ _ => hQ, fun hQ => hQ h.1 h.2⟩

theorem wp_binomRep {Q : List ℤ → σ × ℕ → Prop} (n : ℤ) (p : K) (m : ℤ) :
    wp ω (M.binomRep n p m : M K σ (List ℤ)) Q E s ↔
      ((n < 0 ∨ p < 0 ∨ 1 < p ∨ m < 0) → E .valueError s) ∧
      (0 ≤ n → 0 ≤ p → p ≤ 1 → 0 ≤ m →
        Q ((List.range m.toNat).map (fun i => ω.binom (s.2 + i) n p)) (s.1, s.2 + m.toNat)) := by
  unfold wp M.binomRep
  by_cases h1 : n < 0
  · simp [h1, not_le.2 h1]
  · by_cases h2 : p < 0
    · simp [h2, not_le.2 h2]
    · by_cases h3 : 1 < p
      · simp [h3, not_le.2 h3]
      · by_cases h4 : m < 0
        · simp [h4, not_le.2 h4]
        · simp [h1, h2, h3, h4, not_lt.1 h1, not_lt.1 h2, not_lt.1 h3, not_lt.1 h4]

theorem wp_unifVec {Q : List K → σ × ℕ → Prop} (n : ℤ) :
    wp ω (M.unifVec n : M K σ (List K)) Q E s ↔
      (n < 0 → E .valueError s) ∧
      (0 ≤ n → Q ((List.range n.toNat).map (fun i => ω.unif (s.2 + i))) (s.1, s.2 + n.toNat)) := by
  unfold wp M.unifVec
  by_cases h : n < 0
  · simp [h, not_le.2 h]
  · simp [h, not_lt.1 h]

theorem wp_dirichlet {Q : List K → σ × ℕ → Prop} (l : List K) :
    wp ω (M.dirichlet l : M K σ (List K)) Q E s ↔
      ((∃ a ∈ l, a < 0) → E .valueError s) ∧
      ((∀ a ∈ l, 0 ≤ a) → Q (ω.dirichlet s.2 l) (s.1, s.2 + 1)) := by
  unfold wp M.dirichlet
  have hany : (l.any (fun a => decide (a < 0)) = true) ↔ ∃ a ∈ l, a < 0 := by simp [List.any_eq_true]
  simp only [hany]
  by_cases h : ∃ a ∈ l, a < 0
  · simp only [h, if_true, true_imp_iff]
    refine ⟨fun hE => ⟨hE, fun h1 => ?_⟩, fun hE => hE.1⟩
    obtain ⟨a, ha, h⟩ := h
    exact absurd (h1 a ha) (not_le.2 h)
  · simp only [h, if_false, false_imp_iff, true_and]
    push Not at h
    exact ⟨fun hQ _ => hQ, fun hQ => hQ h⟩

theorem wp_choice {Q : ℕ → σ × ℕ → Prop} (p : List K) :
    wp ω (M.choice p : M K σ ℕ) Q E s ↔
      ((∃ a ∈ p, a < 0) → E .valueError s) ∧
      ((∀ a ∈ p, 0 ≤ a) → Q (ω.choice s.2 p) (s.1, s.2 + 1)) := by
  unfold wp M.choice
  have hany : (p.any (fun a => decide (a < 0)) = true) ↔ ∃ a ∈ p, a < 0 := by simp [List.any_eq_true]
  simp only [hany]
  by_cases h : ∃ a ∈ p, a < 0
  · simp only [h, if_true, true_imp_iff]
    refine ⟨fun hE => ⟨hE, fun h1 => ?_⟩, fun hE => hE.1⟩
    obtain ⟨a, ha, h⟩ := h
    exact absurd (h1 a ha) (not_le.2 h)
  · simp only [h, if_false, false_imp_iff, true_and]
    push Not at h
    exact ⟨fun hQ _ => hQ, fun hQ => hQ h⟩

theorem wp_gumbelMax {Q : ℕ → σ × ℕ → Prop} (l : List (Option K)) :
    wp ω (M.gumbelMax l : M K σ ℕ) Q E s ↔
      (l = [] → E .valueError s) ∧ (l ≠ [] → Q (ω.gumbelMax s.2 l) (s.1, s.2 + 1)) := by
  unfold wp M.gumbelMax
  cases l <;> simp

theorem wp_optim {v ps : List K} {Q : Option K → σ × ℕ → Prop} :
    wp ω (M.optim v ps : M K σ (Option K)) Q E s ↔ Q (ω.optim s.2 v ps) (s.1, s.2 + 1) := Iff.rfl

end Draws

/-- Closes an equation that holds by computation (or that `wp_simp` has already reduced to `True`). -/
macro "rf" : term => `(by first | rfl | trivial)

/-- Symbolic execution. -/
macro "wp_simp" : tactic => `(tactic| simp only [wp_pure, wp_raise, wp_bind, wp_ite, wp_lift, wp_self, wp_assign,
  wp_whenM, wp_beta, wp_betaVec, wp_betaRep, wp_binom, wp_binomVec, wp_binomRep, wp_unifVec, wp_dirichlet, wp_choice,
  wp_gumbelMax, wp_optim])

end Verif
