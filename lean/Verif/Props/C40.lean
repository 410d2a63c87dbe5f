import Verif.Lemmas.Variational
import Verif.Props.C35

/-!
# C40: variational mode weights

For every fitted object with positive parameters and every component below the truncation, `variational_mode_w_j` either raises `ValueError`,
in which case one of the Beta factors involved is multimodal (both parameters at most one), or returns a number in `[0, 1]` equal to the product
of the modes of the factors: `m_j * ∏_{i<j} (1 - m_i)` for the stick-breaking classes (the last stick of `DirichletProcess` is one),
`m (1-m)^j` for `GeometricProcess`, the mode of the marginal `Beta(a_j, Σ a - a_j)` for `DirichletDistribution`.  The product does not depend on
which mode is chosen for a multimodal factor.
-/

set_option linter.unusedSectionVars false

namespace Verif
open Spec
variable {K : Type} [Field K] [LinearOrder K] [IsStrictOrderedRing K]

/-- `m` is a mode of `Beta(a, b)`; for a multimodal one (both parameters at most one) any point of the unit interval is allowed. -/
def IsBetaMode (p : K × K) (m : K) : Prop :=
  (1 < p.1 ∧ 1 < p.2 ∧ m = (p.1 - 1) / (p.1 + p.2 - 2)) ∨ (p.1 ≤ 1 ∧ 1 < p.2 ∧ m = 0) ∨ (1 < p.1 ∧ p.2 ≤ 1 ∧ m = 1) ∨
  (p.1 ≤ 1 ∧ p.2 ≤ 1 ∧ 0 ≤ m ∧ m ≤ 1)

/-- Both parameters at most one. -/
def Multimodal (p : K × K) : Prop := p.1 ≤ 1 ∧ p.2 ≤ 1

/-- `ms` are modes of the distributions `ps`. -/
def Modes (ps : List (K × K)) (ms : List K) : Prop := List.Forall₂ IsBetaMode ps ms

theorem IsBetaMode.unit {p : K × K} {m : K} (h : IsBetaMode p m) : 0 ≤ m ∧ m ≤ 1 := by
  rcases h with ⟨h1, h2, rfl⟩ | ⟨_, _, rfl⟩ | ⟨_, _, rfl⟩ | ⟨_, _, h⟩
  · have h3 : 0 < p.1 + p.2 - 2 := by linarith
    refine ⟨div_nonneg (by linarith) h3.le, ?_⟩
    rw [div_le_one h3]; linarith
  · simp
  · simp
  · exact h

theorem modes_exist (ps : List (K × K)) : ∃ ms, Modes ps ms := by
  induction ps with
  | nil => exact ⟨[], .nil⟩
  | cons p ps ih =>
    obtain ⟨ms, h⟩ := ih
    have : ∃ m, IsBetaMode p m := by
      unfold IsBetaMode
      rcases le_or_gt p.1 1 with h1 | h1 <;> rcases le_or_gt p.2 1 with h2 | h2
      · exact ⟨0, by simp [h1, h2]⟩
      · exact ⟨0, by simp [h1, h2]⟩
      · exact ⟨1, by simp [h1, h2]⟩
      · exact ⟨_, .inl ⟨h1, h2, rfl⟩⟩
    obtain ⟨m, hm⟩ := this
    exact ⟨m :: ms, .cons hm h⟩

/-- `∏ (1 - m)`. -/
def restProd (ms : List K) : K := (ms.map (fun m => 1 - m)).prod

theorem modeLoop_spec (c : K) (ps : List (K × K)) :
    (DP.modeLoop c ps = .error .valueError ∧ ∃ p ∈ ps, Multimodal p) ∨
    (∃ x, DP.modeLoop c ps = .ok (some x) ∧ ∀ ms, Modes ps ms → x = c * restProd ms) ∨
    (DP.modeLoop c ps = .ok none ∧ ∀ ms, Modes ps ms → restProd ms = 0) := by
  induction ps generalizing c with
  | nil => exact .inr (.inl ⟨c, rfl, fun ms h => by cases h; simp [restProd]⟩)
  | cons p ps ih =>
    rw [DP.modeLoop]
    by_cases h2 : p.2 ≤ 1
    · rw [if_pos h2]
      by_cases h1 : p.1 ≤ 1
      · rw [if_pos h1]; exact .inl ⟨rfl, p, by simp, h1, h2⟩
      · rw [if_neg h1]
        refine .inr (.inr ⟨rfl, fun ms h => ?_⟩)
        cases h with
        | cons hm _ =>
          rcases hm with ⟨_, h', _⟩ | ⟨h', _⟩ | ⟨_, _, rfl⟩ | ⟨h', _⟩
          · exact absurd h2 (not_le.2 h')
          · exact absurd h' h1
          · simp [restProd]
          · exact absurd h' h1
    · rw [if_neg h2]
      have h2' : 1 < p.2 := not_le.1 h2
      by_cases h1 : p.1 ≤ 1
      · rw [if_pos h1]
        have hz : ∀ m, IsBetaMode p m → m = 0 := by
          intro m hm
          rcases hm with ⟨h', _⟩ | ⟨_, _, rfl⟩ | ⟨h', _⟩ | ⟨_, h', _⟩
          · exact absurd h1 (not_le.2 h')
          · rfl
          · exact absurd h1 (not_le.2 h')
          · exact absurd h' h2
        rcases ih c with ⟨e, q, hq, hq'⟩ | ⟨x, e, hx⟩ | ⟨e, hx⟩
        · exact .inl ⟨e, q, by simp [hq], hq'⟩
        · refine .inr (.inl ⟨x, e, fun ms h => ?_⟩)
          cases h with
          | cons hm ht => rw [hx _ ht, hz _ hm]; simp [restProd]
        · refine .inr (.inr ⟨e, fun ms h => ?_⟩)
          cases h with
          | cons hm ht => have := hx _ ht; unfold restProd at this ⊢; rw [List.map_cons, List.prod_cons, this, mul_zero]
      · rw [if_neg h1]
        have h1' : 1 < p.1 := not_le.1 h1
        have hz : ∀ m, IsBetaMode p m → 1 - m = (p.2 - 1) / (p.1 + p.2 - 2) := by
          intro m hm
          rcases hm with ⟨_, _, rfl⟩ | ⟨h', _⟩ | ⟨_, h', _⟩ | ⟨h', _⟩
          · have : p.1 + p.2 - 2 ≠ 0 := by linarith
            field_simp; ring
          · exact absurd h' h1
          · exact absurd h' h2
          · exact absurd h' h1
        rcases ih (c * ((p.2 - 1) / (p.1 + p.2 - 2))) with ⟨e, q, hq, hq'⟩ | ⟨x, e, hx⟩ | ⟨e, hx⟩
        · exact .inl ⟨e, q, by simp [hq], hq'⟩
        · refine .inr (.inl ⟨x, e, fun ms h => ?_⟩)
          cases h with
          | cons hm ht => rw [hx _ ht]; unfold restProd; rw [List.map_cons, List.prod_cons, hz _ hm]; ring
        · refine .inr (.inr ⟨e, fun ms h => ?_⟩)
          cases h with
          | cons hm ht => have := hx _ ht; unfold restProd at this ⊢; rw [List.map_cons, List.prod_cons, this, mul_zero]

theorem modeFactor_spec (c : K) (p : K × K) :
    (DP.modeFactor c p = .error .valueError ∧ Multimodal p) ∨ (∃ x, DP.modeFactor c p = .ok x ∧ ∀ m, IsBetaMode p m → x = c * m) := by
  unfold DP.modeFactor
  by_cases h1 : p.1 ≤ 1
  · rw [if_pos h1]
    by_cases h2 : p.2 ≤ 1
    · rw [if_pos h2]; exact .inl ⟨rfl, h1, h2⟩
    · rw [if_neg h2]
      refine .inr ⟨0, rfl, fun m hm => ?_⟩
      rcases hm with ⟨h', _⟩ | ⟨_, _, rfl⟩ | ⟨h', _⟩ | ⟨_, h', _⟩
      · exact absurd h1 (not_le.2 h')
      · simp
      · exact absurd h1 (not_le.2 h')
      · exact absurd h' h2
  · rw [if_neg h1]
    by_cases h2 : p.2 ≤ 1
    · rw [if_pos h2]
      refine .inr ⟨c, rfl, fun m hm => ?_⟩
      rcases hm with ⟨_, h', _⟩ | ⟨h', _⟩ | ⟨_, _, rfl⟩ | ⟨h', _⟩
      · exact absurd h2 (not_le.2 h')
      · exact absurd h' h1
      · simp
      · exact absurd h' h1
    · rw [if_neg h2]
      refine .inr ⟨_, rfl, fun m hm => ?_⟩
      rcases hm with ⟨_, _, rfl⟩ | ⟨h', _⟩ | ⟨_, h', _⟩ | ⟨h', _⟩
      · rfl
      · exact absurd h' h1
      · exact absurd h' h2
      · exact absurd h' h1

/-- The outcome `r` for a weight that is the product of one factor per entry of `ps`: all but the last contribute `1 - m`, the last `m`
(`last = some p`) or nothing (`last = none`). -/
def ModeOutcome (r : Except PyErr K) (ps : List (K × K)) (last : Option (K × K)) : Prop :=
  (r = .error .valueError ∧ ((∃ p ∈ ps, Multimodal p) ∨ ∃ p, last = some p ∧ Multimodal p)) ∨
  ∃ x, r = .ok x ∧ 0 ≤ x ∧ x ≤ 1 ∧ ∀ ms m, Modes ps ms → (∀ p, last = some p → IsBetaMode p m) → (last = none → m = 1) → x = restProd ms * m

theorem restProd_unit {ps : List (K × K)} {ms : List K} (h : Modes ps ms) : 0 ≤ restProd ms ∧ restProd ms ≤ 1 := by
  induction h with
  | nil => simp [restProd]
  | cons hm _ ih =>
    unfold restProd at ih ⊢
    rw [List.map_cons, List.prod_cons]
    have := hm.unit
    exact ⟨mul_nonneg (by linarith) ih.1, mul_le_one₀ (by linarith) ih.1 ih.2⟩

theorem modeOutcome_of {r : Except PyErr K} {x : K} {ps : List (K × K)} {last : Option (K × K)} (h : r = .ok x)
    (hx : ∀ ms m, Modes ps ms → (∀ p, last = some p → IsBetaMode p m) → (last = none → m = 1) → x = restProd ms * m) :
    ModeOutcome r ps last := by
  refine .inr ⟨x, h, ?_⟩
  obtain ⟨ms, hms⟩ := modes_exist ps
  have hr := restProd_unit hms
  have hm : ∃ m, (∀ p, last = some p → IsBetaMode p m) ∧ (last = none → m = 1) ∧ 0 ≤ m ∧ m ≤ 1 := by
    cases last with
    | none => exact ⟨1, by simp, by simp, by simp, le_refl _⟩
    | some p =>
      obtain ⟨l, hl⟩ := modes_exist [p]
      cases hl with
      | cons h _ => exact ⟨_, by rintro _ ⟨⟩; exact h, by simp, h.unit.1, h.unit.2⟩
  obtain ⟨m, h1, h2, h3, h4⟩ := hm
  have e := hx ms m hms h1 h2
  exact ⟨by rw [e]; exact mul_nonneg hr.1 h3, by rw [e]; exact mul_le_one₀ hr.2 h3 h4, hx⟩

/-- Every variational state of `DirichletProcess` with one parameter pair per component (`DP.fit_length`), every component below the truncation. -/
theorem C40_dirichletProcess (v : Var K) (hl : v.params.length = v.k) {j : ℕ} (hj : j < v.k) :
    ModeOutcome (DP.modeWj v j) (v.params.take j) (if j + 1 = v.k then none else v.params[j]?) := by
  unfold DP.modeWj
  rw [if_neg (by omega)]
  rcases modeLoop_spec (1 : K) (v.params.take j) with ⟨e, h⟩ | ⟨x, e, h⟩ | ⟨e, h⟩
  · rw [e]; exact .inl ⟨rfl, .inl h⟩
  · rw [e]
    by_cases hlast : j + 1 = v.k
    · simp only [if_pos hlast]
      exact modeOutcome_of rfl fun ms m hms _ hm => by rw [h ms hms, hm rfl]; ring
    · simp only [if_neg hlast]
      have hjl : j < v.params.length := by omega
      rw [List.getElem?_eq_getElem hjl]
      rcases modeFactor_spec x v.params[j] with ⟨e', h'⟩ | ⟨y, e', h'⟩
      · simp only [e']; exact .inl ⟨rfl, .inr ⟨_, rfl, h'⟩⟩
      · simp only [e']
        exact modeOutcome_of rfl fun ms m hms hm _ => by rw [h' m (hm _ rfl), h ms hms]; ring
  · rw [e]
    exact modeOutcome_of rfl fun ms m hms _ _ => by rw [h ms hms]; ring

theorem C40_pitmanYor (v : Var K) (hl : v.params.length = v.k) {j : ℕ} (hj : j < v.k) :
    ModeOutcome (PY.modeWj v j) (v.params.take j) v.params[j]? := by
  unfold PY.modeWj
  rw [if_neg (by omega)]
  have hjl : j < v.params.length := by omega
  rw [List.getElem?_eq_getElem hjl]
  rcases modeLoop_spec (1 : K) (v.params.take j) with ⟨e, h⟩ | ⟨x, e, h⟩ | ⟨e, h⟩
  · rw [e]; exact .inl ⟨rfl, .inl h⟩
  · rw [e]
    rcases modeFactor_spec x v.params[j] with ⟨e', h'⟩ | ⟨y, e', h'⟩
    · simp only [e']; exact .inl ⟨rfl, .inr ⟨_, rfl, h'⟩⟩
    · simp only [e']
      exact modeOutcome_of rfl fun ms m hms hm _ => by rw [h' m (hm _ rfl), h ms hms]; ring
  · rw [e]
    exact modeOutcome_of rfl fun ms m hms _ _ => by rw [h ms hms]; ring

/-- `m (1-m)^j` for the mode `m` of the success probability. -/
theorem C40_geometric (v : GVar K) {j : ℕ} (hj : j < v.d.length) :
    (Geo.modeWj v j = .error .valueError ∧ Multimodal (v.a, v.b)) ∨
    ∃ x, Geo.modeWj v j = .ok (some x) ∧ 0 ≤ x ∧ x ≤ 1 ∧ ∀ m, IsBetaMode (v.a, v.b) m → x = (1 - m) ^ j * m := by
  have key : ∀ x, Geo.modeWj v j = .ok (some x) → (∀ m, IsBetaMode (v.a, v.b) m → x = (1 - m) ^ j * m) →
      ∃ x, Geo.modeWj v j = .ok (some x) ∧ 0 ≤ x ∧ x ≤ 1 ∧ ∀ m, IsBetaMode (v.a, v.b) m → x = (1 - m) ^ j * m := by
    intro x hx h
    obtain ⟨l, hl⟩ := modes_exist [(v.a, v.b)]
    cases hl with
    | cons hm _ =>
      have e := h _ hm
      have hu := hm.unit
      have h1 := pow_nonneg (sub_nonneg.2 hu.2) j
      have h2 := pow_le_one₀ (n := j) (sub_nonneg.2 hu.2) (by linarith [hu.1])
      exact ⟨x, hx, by rw [e]; exact mul_nonneg h1 hu.1, by rw [e]; exact mul_le_one₀ h2 hu.1 hu.2, h⟩
  unfold Geo.modeWj at key ⊢
  rw [if_neg (by omega)] at key ⊢
  by_cases h1 : v.a ≤ 1
  · rw [if_pos h1] at key ⊢
    by_cases h2 : v.b ≤ 1
    · rw [if_pos h2]; exact .inl ⟨rfl, h1, h2⟩
    · rw [if_neg h2] at key ⊢
      refine .inr (key 0 rfl fun m hm => ?_)
      rcases hm with ⟨h', _⟩ | ⟨_, _, rfl⟩ | ⟨h', _⟩ | ⟨_, h', _⟩
      · exact absurd h1 (not_le.2 h')
      · simp
      · exact absurd h1 (not_le.2 h')
      · exact absurd h' h2
  · rw [if_neg h1] at key ⊢
    by_cases h2 : v.b ≤ 1
    · rw [if_pos h2] at key ⊢
      refine .inr (key _ rfl fun m hm => ?_)
      rcases hm with ⟨_, h', _⟩ | ⟨h', _⟩ | ⟨_, _, rfl⟩ | ⟨h', _⟩
      · exact absurd h2 (not_le.2 h')
      · exact absurd h' h1
      · by_cases hj0 : j = 0 <;> simp [hj0]
      · exact absurd h' h1
    · rw [if_neg h2] at key ⊢
      refine .inr (key _ rfl fun m hm => ?_)
      rcases hm with ⟨_, _, rfl⟩ | ⟨h', _⟩ | ⟨_, h', _⟩ | ⟨h', _⟩
      · rfl
      · exact absurd h' h1
      · exact absurd h' h2
      · exact absurd h' h1

/-- The mode of the marginal `Beta(a_j, Σ a - a_j)`. -/
theorem C40_dirichletDistribution (v : DVar K) (hl : (v.params.length : ℤ) = v.k) {j : ℕ} (hj : j < v.params.length) :
    ModeOutcome (DirDist.modeWj v j) [] (some (v.params[j], v.params.sum - v.params[j])) := by
  unfold DirDist.modeWj
  rw [if_neg (by omega), List.getElem?_eq_getElem hj]
  simp only []
  rcases modeFactor_spec (1 : K) (v.params[j], v.params.sum - v.params[j]) with ⟨e, h⟩ | ⟨y, e, h⟩
  · unfold DP.modeFactor at e
    by_cases h1 : v.params[j] ≤ 1
    · by_cases h2 : v.params.sum - v.params[j] ≤ 1
      · rw [if_pos h1, if_pos h2]; exact .inl ⟨rfl, .inr ⟨_, rfl, h⟩⟩
      · exact absurd h.2 h2
    · exact absurd h.1 h1
  · refine modeOutcome_of (x := y) ?_ fun ms m hms hm _ => by cases hms; rw [h m (hm _ rfl)]; simp [restProd]
    unfold DP.modeFactor at e
    simp only [one_mul] at e
    rw [← e]
    congr 4 <;> ring

/-! ### The hypotheses are met -/

example : (DP.fitVariational (2 : ℚ) [[1, 1], [1, 2], [0, 1]]).params = [(3, 6), (4, 3), (2, 2)] ∧
    DP.modeWj (DP.fitVariational (2 : ℚ) [[1, 1], [1, 2], [0, 1]]) 1 = .ok (3/7) ∧
    DP.modeWj (DP.fitVariational (1 : ℚ) [[0, 0], [0, 0]]) 0 = .error .valueError := by decide +kernel
end Verif
