import Verif.Props.C31

/-!
# C32: sizes of the wrong type are rejected

`complete(size)` with a size that is neither an integer nor `None` raises `TypeError`; for seven classes object and generator are exactly as
before.  `BetaInDirichlet` has no type check: a non-number raises `TypeError` only after the inner sticks were started (the weights are
unchanged); numbers of other types are outside the model.  `EqualWeighting` and `FrequencyWeighting` accept every size (refuted).

`None` is let through by the check of the base class; the infinite classes then raise `TypeError` as well, with the weights unchanged
(`C32_none_*`).
-/

set_option linter.unusedSectionVars false
set_option linter.unusedSimpArgs false

namespace Verif
variable {K : Type} [Field K] [LinearOrder K]

/-- `complete` of a wrongly typed size raises `TypeError` and changes nothing. -/
def RejectsType (C : WeightCore K) : Prop := ∀ (ω : Oracle K) (s : C.State × ℕ), C.complete .other ω s = (.error .typeError, s)

theorem C32_dirichletProcess : RejectsType (DP.core (K := K)) := fun _ _ => rfl
theorem C32_pitmanYor : RejectsType (PY.core (K := K)) := fun _ _ => rfl
theorem C32_geometric : RejectsType (Geo.core (K := K)) := fun _ _ => rfl
theorem C32_betaInBeta : RejectsType (BIB.core (K := K)) := fun _ _ => rfl
theorem C32_betaBinomial : RejectsType (BBin.core (K := K)) := fun _ _ => rfl
theorem C32_betaBernoulli : RejectsType (BBer.core (K := K)) := fun _ _ => rfl
theorem C32_dirichletDistribution : RejectsType (DirDist.core (K := K)) := fun _ _ => rfl

/-- Missing: the object is not unchanged (the inner sticks are started). -/
theorem C32_betaInDirichlet_partial [IsStrictOrderedRing K] (F : SpecFun K) (ω : Oracle K) (s : BID K × ℕ) (ha : 0 < s.1.alpha) {size : PySize} (hs : size = .other ∨ size = .none) :
    ((BID.core F).complete size ω s).1 = .error .typeError ∧ ((BID.core F).complete size ω s).2.1.w = s.1.w ∧
    ((BID.core F).complete size ω s).2.1.v = s.1.v := by
  have h1 : ¬ ((1 : K) ≤ 0) := not_le.2 zero_lt_one
  have key : ∀ e : M K (BID K) Unit, e = BID.complete size → (e ω s).1 = .error .typeError ∧ (e ω s).2.1.w = s.1.w ∧ (e ω s).2.1.v = s.1.v := by
    rintro _ rfl
    have hi : size.toInt? = none := by rcases hs with rfl | rfl <;> rfl
    unfold BID.complete
    rw [hi]
    by_cases h0 : s.1.vBase.length = 0
    · simp only [M.bind_apply, M.self, M.whenM, if_pos h0, M.betaRep, h1, not_le.2 ha]
      simp
    · simp only [M.bind_apply, M.self, M.whenM, if_neg h0]
      exact ⟨rfl, rfl, rfl⟩
  obtain ⟨h2, h3, h4⟩ := key _ rfl
  show ((do BID.complete size; pure none : M K (BID K) (Option (List K))) ω s).1 = _ ∧ ((do BID.complete size; pure none : M K (BID K) (Option (List K))) ω s).2.1.w = _ ∧
    ((do BID.complete size; pure none : M K (BID K) (Option (List K))) ω s).2.1.v = _
  rw [M.bind_apply]
  revert h2 h3 h4
  rcases BID.complete size ω s with ⟨e | a, t⟩
  · rintro h2 h3 h4; cases h2; exact ⟨rfl, h3, h4⟩
  · rintro h2; cases h2

theorem C32_equalWeighting_refuted : ∃ ω : Oracle ℚ, ω.Legal ∧ (Equal.core.complete .other ω (Equal.init 2, 0)).1 = .ok (some [1/2, 1/2]) :=
  ⟨demo, demo_legal, by decide +kernel⟩
theorem C32_frequencyWeighting_refuted : ∃ ω : Oracle ℚ, ω.Legal ∧ (Freq.core.complete .other ω (Freq.init 2, 0)).1 = .ok (some [1/2, 1/2]) :=
  ⟨demo, demo_legal, by decide +kernel⟩

theorem C32_none_dirichletProcess (ω : Oracle K) (s : DP K × ℕ) : DP.complete .none ω s = (.error .typeError, s) := by
  simp [DP.complete, BaseWeight.checkSize, PySize.toInt?]
theorem C32_none_pitmanYor (ω : Oracle K) (s : PY K × ℕ) : PY.complete .none ω s = (.error .typeError, s) := by
  simp [PY.complete, BaseWeight.checkSize, PySize.toInt?]
theorem C32_none_geometric (ω : Oracle K) (s : Geo K × ℕ) : Geo.complete .none ω s = (.error .typeError, s) := by
  simp [Geo.complete, BaseWeight.checkSize, PySize.toInt?]
theorem C32_none_betaBernoulli (ω : Oracle K) (s : BBer K × ℕ) : BBer.complete .none ω s = (.error .typeError, s) := by
  simp [BBer.complete, BaseWeight.checkSize, PySize.toInt?]

/-! Non-vacuity: an integer is accepted in the same states. -/
example : (DP.complete (.int 1) (demo : Oracle ℚ) (DP.init 1, 0)).1 = .ok [1/2] := by decide +kernel
example : ((BID.core ⟨id, id⟩).complete .other (demo : Oracle ℚ) (BID.init 1 1, 0)).2.1.vBase = [1/2] := by decide +kernel
end Verif
