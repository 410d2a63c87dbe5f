import Verif.Props.C41
import Verif.Lemmas.GibbsDemo

/-!
# C63: the constructor rejects a burn-in that leaves no iterations

The constructor raises `AssertionError` exactly when `total_iter <= burn_in`, whatever numbers are given (`C63_assert`), and for integers with
`subsample_steps >= 1` every fit of an accepted object that returns has saved at least one state (`C63_saves`, `C63_saves_warm`).

`total_iter`, `burn_in` and `subsample_steps` are documented as integers.  The constructor nevertheless takes floats, compares them first and
truncates them afterwards: `C63_float_refuted` accepts `10.5` and `10.2` and the fit saves nothing; `C63_float_exact` says which numbers are affected.
-/

set_option linter.unusedSectionVars false

namespace Verif.Mix
open GM
variable {K : Type} [Field K] [LinearOrder K] [IsStrictOrderedRing K] {C : WeightClass K} {m : ℕ} {Atom : Type} {ω : Oracle K}

theorem C63_assert (T B st : ℚ) (nAttr : Option ℤ) (mu : Option (Fin m → K)) (lam : K) (psi : Option (Fin m → Fin m → K)) (nu : Option K)
    (wst : C.State × ℕ) :
    ((GM.init T B st nAttr mu lam psi nu wst : Except PyErr (GM C m Atom)) = .error .assertionError ↔ T ≤ B) ∧
    (T ≤ B ∨ ∃ s, (GM.init T B st nAttr mu lam psi nu wst : Except PyErr (GM C m Atom)) = .ok s) := by
  unfold GM.init
  by_cases h : T > B
  · rw [if_pos h]
    exact ⟨⟨fun h' => by (cases h'), fun h' => absurd h (not_lt.2 h')⟩, .inr ⟨_, rfl⟩⟩
  · rw [if_neg h]
    exact ⟨⟨fun _ => not_lt.1 h, fun _ => rfl⟩, .inl (not_lt.1 h)⟩

variable (W : World K m Atom)

/-- A cold fit of an object made with integers. -/
theorem C63_saves (T B st : ℤ) (hst : 1 ≤ st) (hTB : B < T) (nAttr : Option ℤ) (mu : Option (Fin m → K)) (lam : K)
    (psi : Option (Fin m → Fin m → K)) (nu : Option K) (wst : C.State × ℕ) :
    ∃ s0 : GM C m Atom, GM.init (T : ℚ) (B : ℚ) (st : ℚ) nAttr mu lam psi nu wst = .ok s0 ∧
      ∀ (y : YArg K m) (g : PySize) (method : InitMethod) (p : ℕ) (t : GM C m Atom × ℕ),
        fitGibbs W y g false method ω (s0, p) = (.ok (), t) → 1 ≤ t.1.saved.length := by
  rcases (C63_assert (Atom := Atom) (T : ℚ) (B : ℚ) (st : ℚ) nAttr mu lam psi nu wst).2 with h | ⟨s0, h⟩
  · exact absurd h (not_le.2 (by exact_mod_cast hTB))
  · exact ⟨s0, h, fun y g method p t ht => (C41_cold_of_init W T B st nAttr mu lam psi nu wst s0 h hst y g method p t ht).2⟩

/-- Any fit, cold or warm, of any object whose iteration numbers leave an iteration to record. -/
theorem C63_saves_warm (y : YArg K m) (g : PySize) (warm : Bool) (method : InitMethod) (s t : GM C m Atom × ℕ) (hb : Book s.1)
    (hst : 1 ≤ s.1.subsample) (hTB : s.1.burnIn < s.1.totalIter) (h : fitGibbs W y g warm method ω s = (.ok (), t)) : 1 ≤ t.1.saved.length := by
  have hp : 1 ≤ perFit s.1.totalIter s.1.burnIn s.1.subsample := by
    unfold perFit
    rw [Nat.one_le_ceil_iff]
    have h1 : (0 : ℚ) < ((s.1.totalIter - s.1.burnIn).toNat : ℕ) := by
      have : 0 < (s.1.totalIter - s.1.burnIn).toNat := by omega
      exact_mod_cast this
    have h2 : (0 : ℚ) < (s.1.subsample : ℚ) := by exact_mod_cast (by omega : 0 < s.1.subsample)
    exact div_pos h1 h2
  cases warm with
  | false => rw [(C41_cold W y g method s t hst h).1]; exact hp
  | true => rw [(C41_warm W y g method s t hb _ h).2 hst rfl]; omega

/-- Which numbers leave nothing to record although the constructor accepts them: those with `int(T) <= int(B)`. -/
theorem C63_float_exact (T B st : ℚ) (nAttr : Option ℤ) (mu : Option (Fin m → K)) (lam : K) (psi : Option (Fin m → Fin m → K)) (nu : Option K)
    (wst : C.State × ℕ) (s0 : GM C m Atom) (h0 : GM.init T B st nAttr mu lam psi nu wst = .ok s0) (hst : 1 ≤ st)
    (y : YArg K m) (g : PySize) (method : InitMethod) (p : ℕ) (t : GM C m Atom × ℕ)
    (h : fitGibbs W y g false method ω (s0, p) = (.ok (), t)) : t.1.saved = [] ↔ pyInt T ≤ pyInt B := by
  unfold GM.init at h0
  split at h0
  · simp only [Except.ok.injEq] at h0
    have e1 : s0.totalIter = pyInt T := by rw [← h0]
    have e2 : s0.burnIn = pyInt B := by rw [← h0]
    have e3 : s0.subsample = pyInt st := by rw [← h0]
    have e4 : 1 ≤ pyInt st := by
      unfold pyInt
      rw [if_pos (by linarith)]
      exact Int.le_floor.2 (by exact_mod_cast hst)
    have hc := C41_cold W y g method (s0, p) t (by rw [e3]; exact e4) h
    simp only [e1, e2, e3] at hc
    rw [← List.length_eq_zero_iff, hc.1]
    unfold perFit
    rw [Nat.ceil_eq_zero]
    have h2 : (0 : ℚ) < (pyInt st : ℚ) := by exact_mod_cast (by omega : 0 < pyInt st)
    constructor
    · intro h3
      by_contra h4
      have h1 : (0 : ℚ) < ((pyInt T - pyInt B).toNat : ℕ) := by
        have : 0 < (pyInt T - pyInt B).toNat := by omega
        exact_mod_cast this
      exact absurd h3 (not_le.2 (div_pos h1 h2))
    · intro h3
      have : (pyInt T - pyInt B).toNat = 0 := by omega
      rw [this]; simp
  · cases h0

/-- `total_iter=10.5, burn_in=10.2`: accepted, the fit returns, nothing is saved. -/
theorem C63_float_refuted : ∃ (W : World ℚ 1 ℚ) (ω : Oracle ℚ) (T B st : ℚ) (s0 : GM (Equal.cls : WeightClass ℚ) 1 ℚ) (y : YArg ℚ 1),
    ω.Legal ∧ B < T ∧ 1 ≤ st ∧ GM.init T B st (some 2) none 1 none none ((Equal.init 2 : Equal ℚ), 0) = .ok s0 ∧
    returns (fitGibbs W y .none false .kmeans) ω (s0, 0) = true ∧ (fitGibbs W y .none false .kmeans ω (s0, 0)).2.1.saved.length = 0 := by
  refine ⟨world, demo, 21 / 2, 51 / 5, 1, eqObj 2 10 10 1, rows1 [0, 1, 5, 6], demo_legal, by norm_num, le_refl _, ?_, ?_, ?_⟩
  · unfold GM.init
    rw [if_pos (by norm_num)]
    have h1 : pyInt (21 / 2) = 10 := by decide +kernel
    have h2 : pyInt (51 / 5) = 10 := by decide +kernel
    have h3 : pyInt 1 = 1 := by decide +kernel
    rw [h1, h2, h3]; rfl
  · decide +kernel
  · decide +kernel

example : returns (fitGibbs world (rows1 [0, 1, 5, 6]) .none false .kmeans) demo (eqObj 2 5 4 3, 0) = true ∧
    (fitGibbs world (rows1 [0, 1, 5, 6]) .none false .kmeans demo (eqObj 2 5 4 3, 0)).2.1.saved.length = 1 := by decide +kernel
end Verif.Mix
