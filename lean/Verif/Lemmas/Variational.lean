import Verif.Model.Variational
import Verif.Lemmas.Counts
import Verif.Lemmas.Misc
import Verif.Lemmas.Stick
import Mathlib.Tactic.Ring
import Mathlib.Tactic.Linarith
import Mathlib.Tactic.Positivity
import Mathlib.Tactic.FieldSimp

/-! # Facts about the variational model -/

set_option linter.unusedSectionVars false
set_option linter.unusedSimpArgs false

namespace Verif
open Spec
variable {K : Type} [Field K] [LinearOrder K] [IsStrictOrderedRing K]

theorem foldTo_ok {α β : Type} (g : β → α → β) (b : β) (ps : List α) (j : ℕ) (h : j ≤ ps.length) :
    foldTo g b ps j = .ok ((ps.take j).foldl g b) := by
  induction j with
  | zero => simp [foldTo]
  | succ j ih =>
    rw [foldTo, ih (by omega)]
    have hj : j < ps.length := by omega
    rw [List.take_succ, List.foldl_append, List.getElem?_eq_getElem hj]
    rfl

theorem foldTo_err {α β : Type} (g : β → α → β) (b : β) (ps : List α) (j : ℕ) (h : ps.length < j) :
    foldTo g b ps j = .error .indexError := by
  induction j with
  | zero => omega
  | succ j ih =>
    rw [foldTo]
    rcases Nat.lt_or_ge ps.length j with h' | h'
    · rw [ih h']
    · have : j = ps.length := by omega
      rw [foldTo_ok g b ps j h']
      simp [this]

theorem foldl_add_map {α : Type} (f : α → K) (c : K) (l : List α) : l.foldl (fun r p => r + f p) c = c + (l.map f).sum := by
  induction l generalizing c with
  | nil => simp
  | cons x xs ih => rw [List.foldl_cons, ih]; simp [add_assoc]

theorem foldl_mul_map {α : Type} (f : α → K) (c : K) (l : List α) : l.foldl (fun r p => r * f p) c = c * (l.map f).prod := by
  induction l generalizing c with
  | nil => simp
  | cons x xs ih => rw [List.foldl_cons, ih]; simp [mul_assoc]

theorem rowSums_length (q : List (List K)) : (rowSums q).length = q.length := by simp [rowSums]

theorem DP.fit_length (alpha : K) (q : List (List K)) : (DP.fitVariational alpha q).params.length = q.length := by
  by_cases h : q = []
  · subst h; rfl
  · have : rowSums q ≠ [] := by simp [rowSums, h]
    simp [DP.fitVariational, revTails_length this, rowSums_length]

theorem PY.fit_length (pyd alpha : K) (q : List (List K)) : (PY.fitVariational pyd alpha q).params.length = q.length := by
  by_cases h : q = []
  · subst h; rfl
  · have : rowSums q ≠ [] := by simp [rowSums, h]
    simp [PY.fitVariational, revTails_length this, rowSums_length]

/-- The fitted parameters of `DirichletProcess`: row sum and the sum of the later row sums. -/
theorem DP.fit_get (alpha : K) (q : List (List K)) (j : ℕ) (hj : j < q.length) :
    (DP.fitVariational alpha q).params[j]? = some (1 + (rowSums q)[j]'(by simpa [rowSums] using hj), alpha + ((rowSums q).drop (j + 1)).sum) := by
  have h1 : j < (rowSums q).length := by simpa [rowSums] using hj
  simp [DP.fitVariational, List.getElem?_zipWith, revTails_getElem? j h1, List.getElem?_eq_getElem h1]

theorem PY.fit_get (pyd alpha : K) (q : List (List K)) (j : ℕ) (hj : j < q.length) :
    (PY.fitVariational pyd alpha q).params[j]? = some (1 - pyd + (rowSums q)[j]'(by simpa [rowSums] using hj),
      alpha + (1 + (j : K)) * pyd + ((rowSums q).drop (j + 1)).sum) := by
  have h1 : j < (rowSums q).length := by simpa [rowSums] using hj
  simp [PY.fitVariational, List.getElem?_zipWith, List.getElem?_zip_eq_some, revTails_getElem? j h1, List.getElem?_eq_getElem h1,
    List.zip, List.getElem?_range hj]

/-- All entries of the matrix are non-negative. -/
def NonNegMatrix (q : List (List K)) : Prop := ∀ r ∈ q, ∀ x ∈ r, 0 ≤ x

theorem rowSums_nonneg {q : List (List K)} (h : NonNegMatrix q) : ∀ x ∈ rowSums q, 0 ≤ x := by
  intro x hx
  obtain ⟨r, hr, rfl⟩ := List.mem_map.1 hx
  exact List.sum_nonneg (h r hr)

theorem DP.fit_pos {alpha : K} (ha : 0 < alpha) {q : List (List K)} (h : NonNegMatrix q) :
    ∀ p ∈ (DP.fitVariational alpha q).params, 0 < p.1 ∧ 0 < p.2 := by
  intro p hp
  obtain ⟨j, hj, rfl⟩ := List.mem_iff_getElem.1 hp
  have hj' : j < q.length := by rwa [DP.fit_length] at hj
  have := DP.fit_get alpha q j hj'
  rw [List.getElem?_eq_getElem hj] at this
  rw [Option.some.inj this]
  have h1 := rowSums_nonneg h
  have a1 : 0 ≤ (rowSums q)[j]'(by simpa [rowSums] using hj') := h1 _ (List.getElem_mem _)
  have a2 : 0 ≤ ((rowSums q).drop (j + 1)).sum := List.sum_nonneg (fun x hx => h1 _ (List.mem_of_mem_drop hx))
  constructor <;> simp only <;> linarith

theorem PY.fit_pos {pyd alpha : K} (hp : 0 ≤ pyd ∧ pyd < 1) (ha : -pyd < alpha) {q : List (List K)} (h : NonNegMatrix q) :
    ∀ p ∈ (PY.fitVariational pyd alpha q).params, 0 < p.1 ∧ 0 < p.2 := by
  intro p hp'
  obtain ⟨j, hj, rfl⟩ := List.mem_iff_getElem.1 hp'
  have hj' : j < q.length := by rwa [PY.fit_length] at hj
  have := PY.fit_get pyd alpha q j hj'
  rw [List.getElem?_eq_getElem hj] at this
  rw [Option.some.inj this]
  have h1 := rowSums_nonneg h
  have a1 : 0 ≤ (rowSums q)[j]'(by simpa [rowSums] using hj') := h1 _ (List.getElem_mem _)
  have a2 : 0 ≤ ((rowSums q).drop (j + 1)).sum := List.sum_nonneg (fun x hx => h1 _ (List.mem_of_mem_drop hx))
  have a3 : 0 ≤ (j : K) * pyd := mul_nonneg (Nat.cast_nonneg _) hp.1
  constructor
  · simp only; linarith
  · simp only
    have : alpha + (1 + (j : K)) * pyd = (alpha + pyd) + (j : K) * pyd := by ring
    linarith

/-- The mean of a Beta distribution. -/
def betaMean (p : K × K) : K := p.1 / (p.1 + p.2)

theorem betaMean_unit {p : K × K} (h : 0 < p.1 ∧ 0 < p.2) : 0 ≤ betaMean p ∧ betaMean p ≤ 1 := by
  unfold betaMean
  constructor
  · have := h.1; have := h.2; positivity
  · rw [div_le_one (by linarith [h.1, h.2])]; linarith [h.2]

theorem one_sub_betaMean {p : K × K} (h : 0 < p.1 ∧ 0 < p.2) : p.2 / (p.1 + p.2) = 1 - betaMean p := by
  unfold betaMean
  have : p.1 + p.2 ≠ 0 := by linarith [h.1, h.2]
  field_simp
  ring

theorem prod_betaMean {ps : List (K × K)} (h : ∀ p ∈ ps, 0 < p.1 ∧ 0 < p.2) :
    (ps.map (fun p => p.2 / (p.1 + p.2))).prod = ((ps.map betaMean).map (fun x => 1 - x)).prod := by
  rw [List.map_map]
  congr 1
  exact List.map_congr_left fun p hp => one_sub_betaMean (h p hp)

/-- The indicator matrix of the labels `d` with `k` rows. -/
def indicator (d : List ℤ) (k : ℕ) : List (List K) := (List.range k).map (fun (j : ℕ) => d.map (fun x => if x = (j : ℤ) then 1 else 0))

theorem indicator_length (d : List ℤ) (k : ℕ) : (indicator d k : List (List K)).length = k := by simp [indicator]

theorem indicator_rowSums (d : List ℤ) (k : ℕ) : rowSums (indicator d k : List (List K)) = (List.range k).map (fun j => (nEq d j : K)) := by
  unfold rowSums indicator
  rw [List.map_map]
  refine List.map_congr_left fun j _ => ?_
  simp only [Function.comp_apply]
  unfold nEq
  induction d with
  | nil => simp
  | cons x xs ih =>
    by_cases hx : x = (j : ℤ)
    · simp [hx, ih]; ring
    · simp [hx, ih]

theorem indicator_nonneg (d : List ℤ) (k : ℕ) : NonNegMatrix (indicator d k : List (List K)) := by
  intro r hr x hx
  obtain ⟨j, _, rfl⟩ := List.mem_map.1 hr
  obtain ⟨y, _, rfl⟩ := List.mem_map.1 hx
  split <;> simp

theorem nGt_eq_sum {d : List ℤ} {k : ℕ} (h : ∀ x ∈ d, x < (k : ℤ)) (j : ℕ) (hj : j < k) :
    (((List.range k).map (fun i => (nEq d i : K))).drop (j + 1)).sum = (nGt d j : K) := by
  obtain ⟨n, rfl⟩ : ∃ n, k = j + 1 + n := ⟨k - (j + 1), by omega⟩
  clear hj
  induction n generalizing j with
  | zero =>
    have h0 : nGt d j = 0 := by
      unfold nGt
      rw [List.countP_eq_zero]
      intro x hx
      have := h x hx
      simp; push_cast at this; omega
    rw [List.drop_eq_nil_of_le (by simp), h0]; simp
  | succ n ih =>
    have := ih (j + 1) (by intro x hx; have := h x hx; push_cast at this ⊢; omega)
    rw [nGt_step]
    rw [show j + 1 + (n + 1) = j + 1 + 1 + n by omega]
    rw [List.drop_eq_getElem_cons (by simp; omega), List.sum_cons, this]
    simp
end Verif
