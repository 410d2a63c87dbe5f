import Verif.Lemmas.Wp

/-! # Relational reasoning: two runs of methods on two objects with the same generator -/

set_option linter.unusedSectionVars false

namespace Verif
open Spec

variable {K : Type} {σ τ α β : Type}

/-- Started in objects related by `R` at the same stream position, `m` and `m'` both return, with the same value, the same
stream position and objects related by `R'`; or both raise the same exception at the same position, objects related by `E`. -/
def Rel (ω : Oracle K) (R R' E : σ → τ → Prop) (m : M K σ α) (m' : M K τ α) : Prop :=
  ∀ s t p, R s t →
    match m ω (s, p), m' ω (t, p) with
    | (.ok a, s'), (.ok b, t') => a = b ∧ s'.2 = t'.2 ∧ R' s'.1 t'.1
    | (.error e, s'), (.error e', t') => e = e' ∧ s'.2 = t'.2 ∧ E s'.1 t'.1
    | _, _ => False

namespace Rel
variable {ω : Oracle K} {R R' R'' E : σ → τ → Prop}

theorem mono {R1 R1' E1 : σ → τ → Prop} {m : M K σ α} {m' : M K τ α} (h : Rel ω R1 R1' E1 m m')
    (h1 : ∀ s t, R s t → R1 s t) (h2 : ∀ s t, R1' s t → R' s t) (h3 : ∀ s t, E1 s t → E s t) : Rel ω R R' E m m' := by
  intro s t p hR
  have := h s t p (h1 s t hR)
  revert this
  rcases m ω (s, p) with ⟨e | a, s'⟩ <;> rcases m' ω (t, p) with ⟨e' | b, t'⟩
  · exact fun ⟨a, b, c⟩ => ⟨a, b, h3 _ _ c⟩
  · exact id
  · exact id
  · exact fun ⟨a, b, c⟩ => ⟨a, b, h2 _ _ c⟩

theorem pre {R1 : σ → τ → Prop} {m : M K σ α} {m' : M K τ α} (h : Rel ω R1 R' E m m')
    (h1 : ∀ s t, R s t → R1 s t) : Rel ω R R' E m m' := h.mono h1 (fun _ _ => id) (fun _ _ => id)

theorem pure (a : α) : Rel ω R R E (pure a) (pure a) := fun _ _ _ h => ⟨rfl, rfl, h⟩

theorem pure' {a b : α} (h : ∀ s t, R s t → a = b ∧ R' s t) : Rel ω R R' E (Pure.pure a) (Pure.pure b) :=
  fun s t _ hR => ⟨(h s t hR).1, rfl, (h s t hR).2⟩

theorem raise {e : PyErr} (h : ∀ s t, R s t → E s t) : Rel ω R R' E (M.raise e : M K σ α) (M.raise e) :=
  fun s t _ hR => ⟨rfl, rfl, h s t hR⟩

theorem lift {e e' : Except PyErr α} (he : e = e') (h : ∀ s t, R s t → E s t) : Rel ω R R E (M.lift e) (M.lift e') := by
  subst he
  intro s t p hR
  rcases e with e | a
  · exact ⟨rfl, rfl, h s t hR⟩
  · exact ⟨rfl, rfl, hR⟩

theorem assign {f : σ → σ} {g : τ → τ} (h : ∀ s t, R s t → R' (f s) (g t)) : Rel ω R R' E (M.assign f) (M.assign g) :=
  fun s t _ hR => ⟨rfl, rfl, h s t hR⟩

theorem bind {γ : Type} {x : M K σ γ} {x' : M K τ γ} {f : γ → M K σ α} {f' : γ → M K τ α}
    (hx : Rel ω R R'' E x x') (hf : ∀ a, Rel ω R'' R' E (f a) (f' a)) : Rel ω R R' E (x >>= f) (x' >>= f') := by
  intro s t p hR
  have := hx s t p hR
  rw [M.bind_apply, M.bind_apply]
  revert this
  rcases x ω (s, p) with ⟨e | a, s'⟩ <;> rcases x' ω (t, p) with ⟨e' | b, t'⟩
  · exact id
  · exact False.elim
  · exact False.elim
  · rintro ⟨rfl, h2, h3⟩
    have := hf a s'.1 t'.1 s'.2 h3
    rw [show t' = (t'.1, s'.2) by rw [h2]]
    exact this

/-- Reading the object: the two readings are related, and remain known. -/
theorem self_bind {f : σ → M K σ α} {f' : τ → M K τ α}
    (h : ∀ s0 t0, R s0 t0 → Rel ω (fun s t => s = s0 ∧ t = t0) R' E (f s0) (f' t0)) :
    Rel ω R R' E (M.self >>= f) (M.self >>= f') := by
  intro s t p hR
  exact h s t hR s t p ⟨rfl, rfl⟩

/-- Reading the object without remembering the state. -/
theorem self_bind' {f : σ → M K σ α} {f' : τ → M K τ α}
    (h : ∀ s0 t0, R s0 t0 → Rel ω R R' E (f s0) (f' t0)) :
    Rel ω R R' E (M.self >>= f) (M.self >>= f') :=
  self_bind fun s0 t0 h0 => (h s0 t0 h0).pre fun _ _ ⟨h1, h2⟩ => h1 ▸ h2 ▸ h0

theorem ite {c c' : Prop} [Decidable c] [Decidable c'] {x y : M K σ α} {x' y' : M K τ α} (hc : c ↔ c')
    (hx : c → Rel ω R R' E x x') (hy : ¬c → Rel ω R R' E y y') :
    Rel ω R R' E (if c then x else y) (if c' then x' else y') := by
  by_cases h : c
  · rw [if_pos h, if_pos (hc.1 h)]; exact hx h
  · rw [if_neg h, if_neg (fun h' => h (hc.2 h'))]; exact hy h

theorem whenM {c c' : Prop} [Decidable c] [Decidable c'] {x : M K σ Unit} {x' : M K τ Unit} (hc : c ↔ c')
    (hx : c → Rel ω R R E x x') : Rel ω R R E (M.whenM c x) (M.whenM c' x') := by
  unfold M.whenM
  exact ite hc hx fun _ => pure _

section
variable [Field K] [LinearOrder K]

/-- A method that neither reads nor changes the object (all generator calls). -/
theorem draw {m : M K σ α} {m' : M K τ α}
    (h : ∀ (ω : Oracle K) s t p, (m ω (s, p)).1 = (m' ω (t, p)).1 ∧ (m ω (s, p)).2.2 = (m' ω (t, p)).2.2 ∧
      (m ω (s, p)).2.1 = s ∧ (m' ω (t, p)).2.1 = t)
    (hE : ∀ s t, R s t → E s t) : Rel ω R R E m m' := by
  intro s t p hR
  have := h ω s t p
  revert this
  rcases m ω (s, p) with ⟨e | a, s', p'⟩ <;> rcases m' ω (t, p) with ⟨e' | b, t', q'⟩ <;> simp
  · rintro rfl rfl rfl rfl; exact ⟨rfl, rfl, hE _ _ hR⟩
  · rintro rfl rfl rfl rfl; exact ⟨rfl, rfl, hR⟩

variable (hE : ∀ s t, R s t → E s t)
include hE
theorem beta (a b : K) : Rel ω R R E (M.beta a b) (M.beta a b) :=
  draw (fun ω s t p => by unfold M.beta; split <;> simp) hE
theorem betaVec (ps : List (K × K)) : Rel ω R R E (M.betaVec ps) (M.betaVec ps) :=
  draw (fun ω s t p => by unfold M.betaVec; split <;> simp) hE
theorem betaRep (a b : K) (n : ℤ) : Rel ω R R E (M.betaRep a b n) (M.betaRep a b n) :=
  draw (fun ω s t p => by unfold M.betaRep; split <;> simp) hE
theorem binom (n : ℤ) (q : K) : Rel ω R R E (M.binom n q) (M.binom n q) :=
  draw (fun ω s t p => by unfold M.binom; split <;> simp) hE
theorem binomVec (n : ℤ) (ps : List K) : Rel ω R R E (M.binomVec n ps) (M.binomVec n ps) :=
  draw (fun ω s t p => by unfold M.binomVec; split <;> simp) hE
theorem binomRep (n : ℤ) (q : K) (m : ℤ) : Rel ω R R E (M.binomRep n q m) (M.binomRep n q m) :=
  draw (fun ω s t p => by unfold M.binomRep; split <;> simp) hE
theorem unifVec (n : ℤ) : Rel ω R R E (M.unifVec n) (M.unifVec n) :=
  draw (fun ω s t p => by unfold M.unifVec; split <;> simp) hE
theorem dirichlet (l : List K) : Rel ω R R E (M.dirichlet l) (M.dirichlet l) :=
  draw (fun ω s t p => by unfold M.dirichlet; split <;> simp) hE
theorem choice (l : List K) : Rel ω R R E (M.choice l) (M.choice l) :=
  draw (fun ω s t p => by unfold M.choice; split <;> simp) hE
theorem gumbelMax (l : List (Option K)) : Rel ω R R E (M.gumbelMax l) (M.gumbelMax l) :=
  draw (fun ω s t p => by unfold M.gumbelMax; split <;> simp) hE
theorem optim (v ps : List K) : Rel ω R R E (M.optim v ps) (M.optim v ps) :=
  draw (fun ω s t p => by unfold M.optim; simp) hE
end

/-- What two related calls have in common. -/
theorem result {m : M K σ α} {m' : M K τ α} (h : Rel ω R R' E m m') {s : σ} {t : τ} (p : ℕ) (hR : R s t) :
    (m ω (s, p)).1 = (m' ω (t, p)).1 ∧ (m ω (s, p)).2.2 = (m' ω (t, p)).2.2 ∧
      (∀ r, (m ω (s, p)).1 = .ok r → R' (m ω (s, p)).2.1 (m' ω (t, p)).2.1) ∧
      (∀ e, (m ω (s, p)).1 = .error e → E (m ω (s, p)).2.1 (m' ω (t, p)).2.1) := by
  have := h s t p hR
  revert this
  rcases m ω (s, p) with ⟨e | a, s'⟩ <;> rcases m' ω (t, p) with ⟨e' | b, t'⟩
  · rintro ⟨rfl, h2, h3⟩; exact ⟨rfl, h2, nofun, fun _ _ => h3⟩
  · exact False.elim
  · exact False.elim
  · rintro ⟨rfl, h2, h3⟩; exact ⟨rfl, h2, fun _ _ => h3, nofun⟩
end Rel
end Verif
