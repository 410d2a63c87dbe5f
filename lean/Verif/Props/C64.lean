import Verif.Lemmas.Argmax
import Mathlib.Algebra.Order.Field.Rat
import Mathlib.Tactic.Ring
import Mathlib.Tactic.NormNum

/-!
# C64: Gumbel-max picks only possible components

For every log-probability column (`⊥` is minus infinity), whatever the finite Gumbel noise: the result is the first index of a maximal
perturbed value and is never a component of log-probability minus infinity while another one is finite.  `C64_matrix`: for a matrix with at
least one row, one such index per column.  `C64_reachable`: every component of finite log-probability is the result for some noise.
-/

set_option linter.unusedSectionVars false

namespace Verif.Mix
variable {K : Type} [Field K] [LinearOrder K] [IsStrictOrderedRing K]

/-- The perturbed log-probabilities. -/
def perturbed (logp : List (WithBot K)) (noise : List K) : List (WithBot K) := List.zipWith (fun p (g : K) => p + (g : WithBot K)) logp noise

theorem perturbed_length {logp : List (WithBot K)} {noise : List K} (h : noise.length = logp.length) : (perturbed logp noise).length = logp.length := by
  simp [perturbed, h]

theorem perturbed_get {logp : List (WithBot K)} {noise : List K} (h : noise.length = logp.length) {i : ℕ} (hi : i < logp.length) :
    (perturbed logp noise)[i]'(by rw [perturbed_length h]; exact hi) = logp[i] + ((noise[i]'(by omega) : K) : WithBot K) := by
  simp [perturbed]

/-- What the choice `i` for one column satisfies. -/
structure GumbelChoice (logp : List (WithBot K)) (noise : List K) (i : ℕ) : Prop where
  lt : i < logp.length
  best : IsArgmax (perturbed logp noise) i
  possible : (∃ x ∈ logp, x ≠ ⊥) → logp[i]? ≠ some ⊥

theorem C64_column {logp : List (WithBot K)} (hne : logp ≠ []) {noise : List K} (h : noise.length = logp.length) :
    ∃ i, gumbelColumn logp noise = .ok i ∧ GumbelChoice logp noise i := by
  have hp : perturbed logp noise ≠ [] := by
    intro hc
    have := congrArg List.length hc
    rw [perturbed_length h] at this
    exact hne (List.length_eq_zero_iff.1 this)
  obtain ⟨i, h1, h2⟩ := argmax_spec hp
  have hi : i < logp.length := by rw [← perturbed_length h]; exact h2.lt
  refine ⟨i, h1, hi, h2, fun ⟨x, hx, hxb⟩ hb => ?_⟩
  obtain ⟨j, hj, rfl⟩ := List.mem_iff_getElem.1 hx
  have := h2.max j (by rw [perturbed_length h]; exact hj)
  rw [perturbed_get h hj, perturbed_get h hi] at this
  rw [List.getElem?_eq_getElem hi, Option.some.injEq] at hb
  rw [hb, WithBot.bot_add, le_bot_iff, WithBot.add_eq_bot] at this
  rcases this with h' | h'
  · exact hxb h'
  · exact WithBot.coe_ne_bot h'

/-- No component: numpy raises. -/
theorem C64_empty (noise : List K) : gumbelColumn ([] : List (WithBot K)) noise = .error .valueError := rfl

theorem C64_matrix {cols : List (List (WithBot K))} {noise : List (List K)} (hlen : noise.length = cols.length)
    (hc : ∀ (i : ℕ) (c : List (WithBot K)) (g : List K), cols[i]? = some c → noise[i]? = some g → c ≠ [] ∧ g.length = c.length) :
    ∃ is, gumbelMaxSampling cols noise = .ok is ∧ is.length = cols.length ∧
      ∀ (i : ℕ) (c : List (WithBot K)) (g : List K) (j : ℕ), cols[i]? = some c → noise[i]? = some g → is[i]? = some j → GumbelChoice c g j := by
  induction cols generalizing noise with
  | nil => exact ⟨[], by simp [gumbelMaxSampling], rfl, by simp⟩
  | cons c cs ih =>
    cases noise with
    | nil => simp at hlen
    | cons g gs =>
      obtain ⟨h1, h2⟩ := hc 0 c g rfl rfl
      obtain ⟨j, e, hj⟩ := C64_column h1 h2
      obtain ⟨is, e', l', his⟩ := ih (noise := gs) (by simpa using hlen) (fun i c' g' a b => hc (i + 1) c' g' (by simpa using a) (by simpa using b))
      refine ⟨j :: is, by simp only [gumbelMaxSampling, e, e'], by simp [l'], fun i c' g' j' a b d => ?_⟩
      cases i with
      | zero => simp only [List.getElem?_cons_zero, Option.some.injEq] at a b d; subst a b d; exact hj
      | succ i => simp only [List.getElem?_cons_succ] at a b d; exact his i c' g' j' a b d

theorem withBot_le_coe_of (x : WithBot K) : ∃ b : K, x ≤ (b : WithBot K) := by
  cases x with
  | bot => exact ⟨0, bot_le⟩
  | coe a => exact ⟨a, le_refl _⟩

theorem exists_bound (l : List (WithBot K)) : ∃ b : K, ∀ x ∈ l, x ≤ (b : WithBot K) := by
  induction l with
  | nil => exact ⟨0, by simp⟩
  | cons x xs ih =>
    obtain ⟨b, hb⟩ := ih
    obtain ⟨c, hc⟩ := withBot_le_coe_of x
    refine ⟨max b c, fun y hy => ?_⟩
    rcases List.mem_cons.1 hy with rfl | hy
    · exact hc.trans (by exact_mod_cast le_max_right b c)
    · exact (hb y hy).trans (by exact_mod_cast le_max_left b c)

/-- Every component of finite log-probability is chosen for some noise. -/
theorem C64_reachable {logp : List (WithBot K)} {i : ℕ} (hi : i < logp.length) (hf : logp[i] ≠ ⊥) :
    ∃ noise : List K, noise.length = logp.length ∧ gumbelColumn logp noise = .ok i := by
  obtain ⟨b, hb⟩ := exists_bound logp
  obtain ⟨a, ha⟩ := WithBot.ne_bot_iff_exists.1 hf
  refine ⟨(List.range logp.length).map (fun j => if j = i then b - a + 1 else 0), by simp, ?_⟩
  have hl : ((List.range logp.length).map (fun j => if j = i then b - a + 1 else (0 : K))).length = logp.length := by simp
  refine argmax_eq_iff.2 (?_ : IsArgmax (perturbed logp _) i)
  have e : (perturbed logp ((List.range logp.length).map (fun j => if j = i then b - a + 1 else (0 : K))))[i]'(by
      rw [perturbed_length hl]; exact hi) = ((b + 1 : K) : WithBot K) := by
    rw [perturbed_get hl hi, ← ha]
    simp only [List.getElem_map, List.getElem_range, if_true, ← WithBot.coe_add]
    congr 1
    ring
  have key : ∀ (j : ℕ) (hj : j < logp.length), j ≠ i → (perturbed logp ((List.range logp.length).map
      (fun j => if j = i then b - a + 1 else (0 : K))))[j]'(by rw [perturbed_length hl]; exact hj) < ((b + 1 : K) : WithBot K) := by
    intro j hj hne
    rw [perturbed_get hl hj]
    simp only [List.getElem_map, List.getElem_range, if_neg hne, WithBot.coe_zero, add_zero]
    refine lt_of_le_of_lt (hb _ (List.getElem_mem hj)) ?_
    exact_mod_cast lt_add_one b
  refine ⟨by rw [perturbed_length hl]; exact hi, fun j hj => ?_, fun j hj => ?_⟩
  · rw [e]
    by_cases hji : j = i
    · subst hji; exact e.le
    · exact (key j (by rwa [perturbed_length hl] at hj) hji).le
  · rw [e]; exact key j (by omega) (by omega)

/-! ### The hypotheses are met -/

example : gumbelColumn [⊥, ((1 : ℚ) : WithBot ℚ), ((2 : ℚ) : WithBot ℚ)] [100, 3, 1] = .ok 1 := by decide +kernel
end Verif.Mix
