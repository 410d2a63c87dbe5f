import Verif.Model.Base
import Verif.Spec

/-! # Hoare triples for the method monad -/

set_option linter.unusedSectionVars false

namespace Verif
open Spec

variable {K : Type} {σ α β : Type}

/-- Partial-correctness triple with separate postconditions for normal and exceptional outcome. -/
def Triple (ω : Oracle K) (P : σ × ℕ → Prop) (m : M K σ α) (Q : α → σ × ℕ → Prop)
    (E : PyErr → σ × ℕ → Prop) : Prop :=
  ∀ s, P s → match m ω s with
    | (.ok a, s') => Q a s'
    | (.error e, s') => E e s'

/-- `m` keeps the invariant `I` of the object, whatever happens. -/
def Keeps (ω : Oracle K) (I : σ → Prop) (m : M K σ α) : Prop :=
  ∀ s, I s.1 → I (m ω s).2.1

namespace Triple

variable {ω : Oracle K} {P : σ × ℕ → Prop} {Q : α → σ × ℕ → Prop} {E : PyErr → σ × ℕ → Prop}

theorem keeps {I : σ → Prop} {m : M K σ α}
    (h : Triple ω (fun s => I s.1) m (fun _ s => I s.1) (fun _ s => I s.1)) : Keeps ω I m := by
  intro s hs
  have := h s hs
  revert this
  rcases m ω s with ⟨_ | _, s'⟩ <;> exact id

theorem of_keeps {I : σ → Prop} {m : M K σ α} (h : Keeps ω I m) :
    Triple ω (fun s => I s.1) m (fun _ s => I s.1) (fun _ s => I s.1) := by
  intro s hs
  have := h s hs
  revert this
  rcases m ω s with ⟨_ | _, s'⟩ <;> exact id

theorem conseq {P' : σ × ℕ → Prop} {Q' : α → σ × ℕ → Prop} {E' : PyErr → σ × ℕ → Prop} {m : M K σ α}
    (h : Triple ω P' m Q' E') (hP : ∀ s, P s → P' s) (hQ : ∀ a s, Q' a s → Q a s)
    (hE : ∀ e s, E' e s → E e s) : Triple ω P m Q E := by
  intro s hs
  have := h s (hP s hs)
  revert this
  rcases m ω s with ⟨e | a, s'⟩
  · exact hE e s'
  · exact hQ a s'

theorem bind {m : M K σ α} {f : α → M K σ β} {R : α → σ × ℕ → Prop} {Q : β → σ × ℕ → Prop}
    (h₁ : Triple ω P m R E) (h₂ : ∀ a, Triple ω (R a) (f a) Q E) : Triple ω P (m >>= f) Q E := by
  intro s hs
  have := h₁ s hs
  rw [M.bind_apply]
  revert this
  rcases m ω s with ⟨e | a, s'⟩
  · exact id
  · exact h₂ a s'

theorem pure (a : α) : Triple ω (Q a) (Pure.pure a : M K σ α) Q E := fun _ h => h

theorem raise (e : PyErr) : Triple ω (E e) (M.raise e : M K σ α) Q E := fun _ h => h

theorem self {Q : σ → σ × ℕ → Prop} : Triple ω (fun s => Q s.1 s) M.self Q E := fun _ h => h

theorem assign {Q : Unit → σ × ℕ → Prop} (f : σ → σ) :
    Triple ω (fun s => Q () (f s.1, s.2)) (M.assign f) Q E := fun _ h => h

theorem ite {c : Prop} [Decidable c] {x y : M K σ α} (h₁ : c → Triple ω P x Q E)
    (h₂ : ¬c → Triple ω P y Q E) : Triple ω P (if c then x else y) Q E := by
  split
  · exact h₁ ‹_›
  · exact h₂ ‹_›

theorem lift {e : Except PyErr α} (hok : ∀ a, e = .ok a → ∀ s, P s → Q a s)
    (herr : ∀ x, e = .error x → ∀ s, P s → E x s) : Triple ω P (M.lift e : M K σ α) Q E := by
  intro s hs
  rw [M.lift_apply]
  rcases e with x | a
  · exact herr x rfl s hs
  · exact hok a rfl s hs

end Triple

section Draws
variable [Field K] [LinearOrder K] [IsStrictOrderedRing K] {ω : Oracle K} (hω : ω.Legal)
include hω

theorem betaValues_unit01 (pos : ℕ) (ps : List (K × K)) : Unit01 (M.betaValues ω pos ps) := by
  intro x hx
  unfold M.betaValues at hx
  rw [List.mem_mapIdx] at hx
  obtain ⟨i, hi, rfl⟩ := hx
  exact ⟨hω.beta_nonneg _ _ _, hω.beta_le_one _ _ _⟩

end Draws

namespace M
variable [Field K] [LinearOrder K]

@[simp] theorem betaValues_length (ω : Oracle K) (pos : ℕ) (ps : List (K × K)) :
    (betaValues ω pos ps).length = ps.length := by simp [betaValues]

theorem betaValues_getElem? (ω : Oracle K) (pos : ℕ) (ps : List (K × K)) (j : ℕ) :
    (betaValues ω pos ps)[j]? = (ps[j]?).map (fun p => ω.beta (pos + j) p.1 p.2) := by
  simp [betaValues]

theorem betaValues_append (ω : Oracle K) (pos : ℕ) (ps qs : List (K × K)) :
    betaValues ω pos (ps ++ qs) = betaValues ω pos ps ++ betaValues ω (pos + ps.length) qs := by
  simp only [betaValues, List.mapIdx_append]
  congr 2
  funext i p
  congr 1
  omega

end M
end Verif
