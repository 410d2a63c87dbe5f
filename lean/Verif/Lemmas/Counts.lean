import Verif.Model.Base
import Verif.Spec
import Mathlib.Data.List.Count
import Mathlib.Data.List.Induction
import Mathlib.Tactic.Linarith

/-! # `bincount` and the reversed cumulative sums count labels -/

set_option linter.unusedSectionVars false

namespace Verif
open Spec

theorem maxInt_cases (d : List ℤ) :
    (d = [] ∧ Py.maxInt d = .error .valueError) ∨ ∃ m, Py.maxInt d = .ok m ∧ IsMaxLabel d m := by
  cases d with
  | nil => left; exact ⟨rfl, rfl⟩
  | cons x xs =>
    right
    refine ⟨xs.foldl max x, rfl, ?_⟩
    induction xs generalizing x with
    | nil => simp [IsMaxLabel]
    | cons y ys ih =>
      obtain ⟨h1, h2⟩ := ih (max x y)
      simp only [List.foldl_cons]
      constructor
      · rcases List.mem_cons.1 h1 with h | h
        · rcases max_choice x y with h' | h' <;> rw [h, h'] <;> simp
        · simp [h]
      · intro z hz
        have hxy := h2 (max x y) (by simp)
        rcases List.mem_cons.1 hz with rfl | hz
        · exact le_trans (le_max_left _ _) hxy
        · rcases List.mem_cons.1 hz with rfl | hz
          · exact le_trans (le_max_right _ _) hxy
          · exact h2 z (by simp [hz])

theorem maxInt_ok {d : List ℤ} (h : d ≠ []) : ∃ m, Py.maxInt d = .ok m ∧ IsMaxLabel d m := by
  rcases maxInt_cases d with ⟨h', _⟩ | h'
  · exact absurd h' h
  · exact h'

theorem Spec.IsMaxLabel.unique {d : List ℤ} {m m' : ℤ} (h : IsMaxLabel d m) (h' : IsMaxLabel d m') : m = m' :=
  le_antisymm (h'.2 _ h.1) (h.2 _ h'.1)

theorem maxInt_eq_ok_iff {d : List ℤ} {m : ℤ} : Py.maxInt d = .ok m ↔ IsMaxLabel d m := by
  rcases maxInt_cases d with ⟨rfl, h⟩ | ⟨m', h, hm⟩
  · simp [h, IsMaxLabel]
  · rw [h]
    constructor
    · intro e; cases e; exact hm
    · intro e; rw [hm.unique e]

/-- What a successful `bincount` returns. -/
structure IsBincount (d : List ℤ) (a : List ℕ) : Prop where
  nonneg : NonNegLabels d
  getElem? : ∀ j, a[j]? = if j < a.length then some (nEq d j) else none
  bound : ∀ x ∈ d, x < (a.length : ℤ)
  last : a ≠ [] → ((a.length : ℤ) - 1) ∈ d

theorem bincount_neg {d : List ℤ} (h : ¬ NonNegLabels d) : Py.bincount d = .error .valueError := by
  unfold Py.bincount
  rw [if_pos]
  simp only [NonNegLabels, not_forall, not_le] at h
  obtain ⟨x, hx, h0⟩ := h
  simp only [List.any_eq_true, decide_eq_true_eq]
  exact ⟨x, hx, h0⟩

theorem bincount_ok {d : List ℤ} (h : NonNegLabels d) : ∃ a, Py.bincount d = .ok a ∧ IsBincount d a := by
  unfold Py.bincount
  rw [if_neg (by
    simp only [List.any_eq_true, decide_eq_true_eq, not_exists, not_and, not_lt]
    exact h)]
  rcases maxInt_cases d with ⟨rfl, h'⟩ | ⟨m, h', hm⟩
  · rw [h']
    exact ⟨[], rfl, h, by simp, by simp, by simp⟩
  · rw [h']
    have hm0 : 0 ≤ m := h m hm.1
    refine ⟨_, rfl, h, ?_, ?_, ?_⟩
    · intro j
      simp only [List.getElem?_map, List.length_map, List.length_range]
      split
      · rename_i hj
        rw [List.getElem?_range hj]
        simp [nEq, List.count, beq_eq_decide]
      · rename_i hj
        rw [List.getElem?_eq_none (by simpa using hj)]
        rfl
    · intro x hx
      have := hm.2 x hx
      simp only [List.length_map, List.length_range]; omega
    · intro _
      simp only [List.length_map, List.length_range]
      have : ((m.toNat + 1 : ℕ) : ℤ) - 1 = m := by omega
      rw [this]; exact hm.1

theorem bincount_cases (d : List ℤ) :
    (¬ NonNegLabels d ∧ Py.bincount d = .error .valueError) ∨
    ∃ a, Py.bincount d = .ok a ∧ IsBincount d a := by
  by_cases h : NonNegLabels d
  · exact .inr (bincount_ok h)
  · exact .inl ⟨h, bincount_neg h⟩

namespace IsBincount
variable {d : List ℤ} {a : List ℕ}

theorem of_ok (h : Py.bincount d = .ok a) : IsBincount d a := by
  rcases bincount_cases d with ⟨_, h'⟩ | ⟨a', h', ha⟩
  · rw [h'] at h; cases h
  · rw [h'] at h; cases h; exact ha

theorem ne_nil (h : IsBincount d a) (hd : d ≠ []) : a ≠ [] := by
  rintro rfl
  obtain ⟨x, hx⟩ := List.exists_mem_of_ne_nil d hd
  have := h.bound x hx
  have := h.nonneg x hx
  simp at *; omega

theorem max (h : IsBincount d a) (hd : d ≠ []) : IsMaxLabel d ((a.length : ℤ) - 1) :=
  ⟨h.last (h.ne_nil hd), fun x hx => by have := h.bound x hx; omega⟩

theorem length_eq (h : IsBincount d a) {m : ℤ} (hm : IsMaxLabel d m) : (a.length : ℤ) = m + 1 := by
  have hd : d ≠ [] := List.ne_nil_of_mem hm.1
  have := (h.max hd).unique hm
  omega

theorem get (h : IsBincount d a) {j : ℕ} (hj : j < a.length) : a[j] = nEq d j := by
  have := h.getElem? j
  rw [List.getElem?_eq_getElem hj, if_pos hj] at this
  exact Option.some.inj this

end IsBincount

/-! ### reversed cumulative sums -/

section Rev
variable {α : Type} [AddCommMonoid α]

theorem cumsumFrom_length (acc : α) (l : List α) : (Py.cumsumFrom acc l).length = l.length := by
  induction l generalizing acc with
  | nil => rfl
  | cons x xs ih => simp [Py.cumsumFrom, ih]

@[simp] theorem cumsum_length (l : List α) : (Py.cumsum l).length = l.length := cumsumFrom_length 0 l

theorem cumsumFrom_append (acc : α) (l r : List α) :
    Py.cumsumFrom acc (l ++ r) = Py.cumsumFrom acc l ++ Py.cumsumFrom (acc + l.sum) r := by
  induction l generalizing acc with
  | nil => simp [Py.cumsumFrom]
  | cons x xs ih => simp [Py.cumsumFrom, ih, add_assoc]

theorem cumsum_append_singleton (l : List α) (x : α) :
    Py.cumsum (l ++ [x]) = Py.cumsum l ++ [l.sum + x] := by
  simp [Py.cumsum, cumsumFrom_append, Py.cumsumFrom]

theorem cumsum_getElem? (l : List α) (j : ℕ) (hj : j < l.length) :
    (Py.cumsum l)[j]? = some ((l.take (j + 1)).sum) := by
  induction l using List.reverseRecOn with
  | nil => simp at hj
  | append_singleton xs x ih =>
    rw [cumsum_append_singleton]
    rcases Nat.lt_or_ge j xs.length with h | h
    · rw [List.getElem?_append_left (by simpa using h), ih h, List.take_append_of_le_length (by omega)]
    · have : j = xs.length := by simp at hj; omega
      subst this
      rw [List.getElem?_append_right (by simp)]
      simp

theorem revTails_cons_cons (x y : α) (l : List α) :
    revTails (x :: y :: l) = (y :: l).sum :: revTails (y :: l) := by
  unfold revTails
  have h : ((y :: l).reverse) ≠ [] := by simp
  rw [List.reverse_cons (a := x), cumsum_append_singleton, List.dropLast_concat]
  have hne : Py.cumsum ((y :: l).reverse) ≠ [] := by
    intro h'
    have := congrArg List.length h'
    simp at this
  obtain ⟨q, z, hq⟩ : ∃ q z, (y :: l).reverse = q ++ [z] := ⟨l.reverse, y, by simp⟩
  have hs : (y :: l).sum = q.sum + z := by
    rw [← List.sum_reverse, hq]; simp
  rw [hq, cumsum_append_singleton, List.dropLast_concat]
  rw [hs]; simp

@[simp] theorem revTails_singleton (x : α) : revTails [x] = [0] := by
  simp [revTails, Py.cumsum, Py.cumsumFrom]

theorem revTails_length {l : List α} (h : l ≠ []) : (revTails l).length = l.length := by
  simp [revTails]
  have : 0 < l.length := List.length_pos_of_ne_nil h
  omega

theorem revTails_getElem? {l : List α} (j : ℕ) (hj : j < l.length) :
    (revTails l)[j]? = some ((l.drop (j + 1)).sum) := by
  induction l generalizing j with
  | nil => simp at hj
  | cons x xs ih =>
    cases xs with
    | nil =>
      have : j = 0 := by simp at hj; omega
      subst this; simp
    | cons y ys =>
      rw [revTails_cons_cons]
      cases j with
      | zero => simp
      | succ j =>
        rw [List.getElem?_cons_succ, ih j (by simpa using hj)]
        simp

end Rev

theorem nGt_step (d : List ℤ) (j : ℕ) : nGt d j = nEq d (j + 1) + nGt d (j + 1) := by
  induction d with
  | nil => simp [nGt, nEq]
  | cons x xs ih =>
    simp only [nGt, nEq, List.countP_cons] at *
    rw [ih]
    push_cast
    rcases lt_trichotomy x ((j : ℤ) + 1) with h | h | h
    · have h1 : ¬ ((j : ℤ) < x) := by omega
      have h2 : ¬ (x = (j : ℤ) + 1) := by omega
      have h3 : ¬ ((j : ℤ) + 1 < x) := by omega
      simp [h1, h2, h3]
    · subst h
      simp; omega
    · have h1 : ((j : ℤ) < x) := by omega
      have h2 : ¬ (x = (j : ℤ) + 1) := by omega
      simp [h1, h2, h]; omega

theorem IsBincount.drop_sum {d : List ℤ} {a : List ℕ} (h : IsBincount d a) (j : ℕ) (hj : j < a.length) :
    (a.drop (j + 1)).sum = nGt d j := by
  obtain ⟨n, hn⟩ : ∃ n, a.length = j + 1 + n := ⟨a.length - (j + 1), by omega⟩
  induction n generalizing j with
  | zero =>
    rw [List.drop_eq_nil_of_le (by omega)]
    simp only [List.sum_nil, nGt]
    symm
    rw [List.countP_eq_zero]
    intro x hx
    have := h.bound x hx
    simp only [decide_eq_true_eq]; omega
  | succ n ih =>
    rw [List.drop_eq_getElem_cons (by omega), List.sum_cons, ih (j + 1) (by omega) (by omega),
      h.get (by omega), ← nGt_step]

/-- `b_c[j]` is the number of labels larger than `j`. -/
theorem IsBincount.revTails_get {d : List ℤ} {a : List ℕ} (h : IsBincount d a) (j : ℕ) (hj : j < a.length) :
    (revTails a)[j]? = some (nGt d j) := by
  rw [revTails_getElem? j hj, h.drop_sum j hj]

theorem maxInt_perm {d d' : List ℤ} (h : d.Perm d') : Py.maxInt d = Py.maxInt d' := by
  rcases maxInt_cases d with ⟨rfl, h1⟩ | ⟨m, h1, hm⟩
  · rw [List.nil_perm.1 h]
  · rw [h1]; symm; rw [maxInt_eq_ok_iff]
    exact ⟨h.mem_iff.1 hm.1, fun x hx => hm.2 x (h.mem_iff.2 hx)⟩

theorem bincount_perm {d d' : List ℤ} (h : d.Perm d') : Py.bincount d = Py.bincount d' := by
  unfold Py.bincount
  rw [maxInt_perm h]
  have : d.any (fun x => decide (x < 0)) = d'.any (fun x => decide (x < 0)) := by
    rw [Bool.eq_iff_iff]; simp only [List.any_eq_true]
    constructor <;> rintro ⟨x, hx, h0⟩
    · exact ⟨x, h.mem_iff.1 hx, h0⟩
    · exact ⟨x, h.mem_iff.2 hx, h0⟩
  rw [this]
  have : (fun j : ℕ => d.count (j : ℤ)) = fun j : ℕ => d'.count (j : ℤ) := by
    funext j; exact h.count_eq _
  simp [this]

end Verif
