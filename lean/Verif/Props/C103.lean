import Verif.Model.DirCtor
import Verif.Lemmas.Demo
import Verif.Props.C11
import Verif.Props.C35

/-!
# C103: a new `DirichletDistribution` has one number of components

The claim: for every `n` and `alpha` that the constructor accepts, `random()` returns `N` weights and `fit_variational(q)` accepts exactly the matrices of `N` rows, with the same `N`, and then the mean
weights sum to one.  **False**: for a list `alpha` draws use its length and the variational part uses `n`, which is `1` by default (`C103_list_refuted`: the matrix that fits the draws is refused;
`C103_default_refuted`: with `n = 1` a matrix of one row is accepted and the mean weights do not sum to one); for an `alpha` that is neither a list, an array, an `int` nor a `float`
- a numpy float, say - the constructor returns an object on which both calls raise `AttributeError` (`C103_type_refuted`).  `C103_partial`: the claim holds for a number `alpha` and for a list of `n` entries.
-/

set_option linter.unusedSectionVars false

namespace Verif
open Spec
variable {K : Type} [Field K] [LinearOrder K] [IsStrictOrderedRing K] {ω : Oracle K}

/-- The number of components is `N`: for draws and for the variational fit. -/
def Components (o : ℤ × Option (List K)) (N : ℕ) : Prop :=
  (∀ (ω : Oracle K), ω.Legal → ∀ pos size, ∃ w, DirDist.randomNew o size pos ω = .ok w ∧ w.length = N ∧ Prob w) ∧
  (∀ q, (∃ v, DirDist.fitNew o q = .ok v) ↔ q.length = N) ∧
  ∀ q v, NonNegMatrix q → DirDist.fitNew o q = .ok v → ∃ w : List K, w.length = N ∧ Prob w ∧ ∀ j x, w[j]? = some x → DirDist.meanWj v j = .ok x

theorem randomNew_draw {n : ℤ} {alpha : List K} (ha : ∀ x ∈ alpha, 0 < x) (hne : alpha ≠ []) (hω : ω.Legal) (pos : ℕ) (size : PySize) :
    ∃ w, DirDist.randomNew (n, some alpha) size pos ω = .ok w ∧ w.length = alpha.length ∧ Prob w := by
  obtain ⟨t, h, -⟩ := DirDist.random_draw (ω := ω) ha (s := (DirDist.initList n alpha, pos)) rfl size (by intro x hx; simp [DirDist.initList] at hx)
  have hd : (dirichletPosterior alpha (DirDist.initList n alpha).d).length = alpha.length := by simp [dirichletPosterior]
  refine ⟨_, congrArg Prod.fst h, by rw [hω.dirichlet_length, hd], fun x hx => hω.dirichlet_nonneg _ _ x hx, hω.dirichlet_sum _ _ fun hc => ?_⟩
  rw [hc] at hd
  exact hne (List.length_eq_zero_iff.1 hd.symm)

/-- **A list of `n` positive numbers**, or a positive number: the claim holds. What is missing are lists of another length and other types, see the refutations. -/
theorem C103_partial : (∀ {alpha : List K}, (∀ x ∈ alpha, 0 < x) → alpha ≠ [] → ∃ o, DirDist.construct (some alpha.length) (.list alpha) = .ok o ∧ Components o alpha.length) ∧
    ∀ {n : ℕ} {a : K}, 0 < a → 0 < n → ∃ o, DirDist.construct (some n) (.scalar a) = .ok o ∧ Components o n := by
  have key : ∀ {alpha : List K}, (∀ x ∈ alpha, 0 < x) → alpha ≠ [] → Components (((alpha.length : ℕ) : ℤ), some alpha) alpha.length := fun ha hne =>
    ⟨fun ω hω pos size => randomNew_draw ha hne hω pos size, fun q => C35_accepts _ q, fun q v hq h => C35_probability ha hne hq h⟩
  refine ⟨fun ha hne => ⟨_, rfl, key ha hne⟩, fun {n a} ha hn => ⟨_, rfl, ?_⟩⟩
  have := key (alpha := List.replicate n a) (fun x hx => by rw [List.eq_of_mem_replicate hx]; exact ha) (by
    intro h
    have := congrArg List.length h
    simp at this
    omega)
  simpa using this

/-- **A list of another length than `n`**: `random()` returns as many weights as the list has entries, and `fit_variational` refuses every matrix with that number of rows. -/
theorem C103_list_refuted {n : ℤ} {alpha : List K} (hn : (alpha.length : ℤ) ≠ n) (ha : ∀ x ∈ alpha, 0 < x) (hne : alpha ≠ []) : ∃ o, DirDist.construct (some n) (.list alpha) = .ok o ∧
    (∀ (ω : Oracle K), ω.Legal → ∀ pos size, ∃ w, DirDist.randomNew o size pos ω = .ok w ∧ w.length = alpha.length) ∧
    (∀ q, q.length = alpha.length → DirDist.fitNew o q = .error .assertionError) ∧ ¬ ∃ N, Components o N := by
  have h1 : ∀ (ω : Oracle K), ω.Legal → ∀ pos size, ∃ w, DirDist.randomNew (n, some alpha) size pos ω = .ok w ∧ w.length = alpha.length := fun ω hω pos size => by
    obtain ⟨w, h1, h2, -⟩ := randomNew_draw (n := n) ha hne hω pos size
    exact ⟨w, h1, h2⟩
  have h2 : ∀ q : List (List K), q.length = alpha.length → DirDist.fitNew (n, some alpha) q = .error .assertionError := fun q hq => by
    simp only [DirDist.fitNew, DirDist.fitVariational]
    rw [if_pos (by rw [hq]; exact hn)]
  refine ⟨_, rfl, h1, h2, ?_⟩
  rintro ⟨N, hN1, hN2, -⟩
  obtain ⟨w, hw, hl, -⟩ := hN1 demo demo_legal 0 .none
  obtain ⟨w', hw', hl'⟩ := h1 demo demo_legal 0 .none
  rw [hw] at hw'
  cases hw'
  obtain ⟨v, hv⟩ := (hN2 (List.replicate N [])).2 (by simp)
  rw [h2 _ (by simp [← hl, hl'])] at hv
  cases hv

/-- **A list of two or more entries with the default `n = 1`**: a matrix of one row is accepted, and the mean weight of the only component of the fit is not one. -/
theorem C103_default_refuted {a b : K} {alpha : List K} (ha : ∀ x ∈ a :: b :: alpha, 0 < x) {r : List K} (hr : ∀ x ∈ r, 0 ≤ x) :
    ∃ o v x, DirDist.construct (some 1) (.list (a :: b :: alpha)) = .ok o ∧ DirDist.fitNew o [r] = .ok v ∧ v.k = 1 ∧ DirDist.meanWj v 0 = .ok x ∧ x < 1 := by
  have hr0 : 0 ≤ r.sum := List.sum_nonneg hr
  have ha0 := ha a (by simp)
  have hb0 := ha b (by simp)
  have hs : 0 ≤ (alpha.map (· + r.sum)).sum := List.sum_nonneg fun x hx => by
    obtain ⟨y, hy, rfl⟩ := List.mem_map.1 hx
    exact add_nonneg (ha y (by simp [hy])).le hr0
  refine ⟨_, { d := [r], k := 1, params := (a :: b :: alpha).map (· + r.sum) }, (a + r.sum) / ((a :: b :: alpha).map (· + r.sum)).sum, rfl, ?_, rfl, ?_, ?_⟩
  · simp only [DirDist.fitNew, DirDist.fitVariational]
    rw [if_neg (by simp)]
    simp [DirDist.broadcastAdd, rowSums]
  · rfl
  · simp only [List.map_cons, List.sum_cons]
    rw [div_lt_one (by positivity)]
    linarith

/-- **An `alpha` of another type**: the constructor accepts it, `random()` raises `AttributeError` and `fit_variational` always raises. -/
theorem C103_type_refuted (n : ℤ) : ∃ o : ℤ × Option (List K), DirDist.construct (some n) .other = .ok o ∧ (∀ size pos ω, DirDist.randomNew o size pos ω = .error .attributeError) ∧
    ∀ q, (DirDist.fitNew o q = .error .assertionError ∨ DirDist.fitNew o q = .error .attributeError) := by
  refine ⟨_, rfl, fun _ _ _ => rfl, fun q => ?_⟩
  simp only [DirDist.fitNew]
  split
  · exact .inl rfl
  · exact .inr rfl

/-- **`n` of another type than `int`**: `AssertionError`, and only then. -/
theorem C103_n (n : Option ℤ) (alpha : DirDist.AlphaArg K) : DirDist.construct n alpha = .error .assertionError ↔ n = none := by
  cases n with
  | none => simp [DirDist.construct]
  | some n => cases alpha <;> simp [DirDist.construct]

/-! ### The hypotheses are met -/

example : ∃ o : ℤ × Option (List ℚ), DirDist.construct (some 1) (.list [1, 1, 1]) = .ok o ∧ ¬ ∃ N, Components o N := by
  obtain ⟨o, h, -, -, h4⟩ := C103_list_refuted (K := ℚ) (n := 1) (alpha := [1, 1, 1]) (by norm_num) (by simp) (by simp)
  exact ⟨o, h, h4⟩

example : ∃ o : ℤ × Option (List ℚ), DirDist.construct (some 3) (.scalar (1 / 2)) = .ok o ∧ Components o 3 := C103_partial.2 (by norm_num) (by norm_num)

end Verif
