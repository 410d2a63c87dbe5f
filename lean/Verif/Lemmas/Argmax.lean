import Verif.Model.MixUtils

/-! # `np.argmax` and `np.unique` -/

set_option linter.unusedSectionVars false

namespace Verif

/-- `i` is the first index of a maximal entry of `l`. -/
structure IsArgmax {α : Type} [LinearOrder α] (l : List α) (i : ℕ) : Prop where
  lt : i < l.length
  max : ∀ (j : ℕ) (hj : j < l.length), l[j] ≤ l[i]
  first : ∀ (j : ℕ) (hj : j < i), l[j] < l[i]

theorem IsArgmax.unique {α : Type} [LinearOrder α] {l : List α} {i j : ℕ} (h : IsArgmax l i) (h' : IsArgmax l j) : i = j := by
  rcases Nat.lt_trichotomy i j with hlt | heq | hgt
  · exact absurd (h'.first i hlt) (not_lt.2 (h.max j h'.lt))
  · exact heq
  · exact absurd (h.first j hgt) (not_lt.2 (h'.max i h.lt))

theorem argmaxFrom_spec {α : Type} [LinearOrder α] (pre : List α) (xs : List α) (bi : ℕ) (b : α) (hb : IsArgmax pre bi)
    (hbi : pre[bi]'hb.lt = b) : IsArgmax (pre ++ xs) (Py.argmaxFrom b bi pre.length xs) := by
  induction xs generalizing pre bi b with
  | nil => simpa [Py.argmaxFrom] using hb
  | cons x xs ih =>
    rw [Py.argmaxFrom]
    have hap : pre ++ x :: xs = (pre ++ [x]) ++ xs := by simp
    have hlen : pre.length + 1 = (pre ++ [x]).length := by simp
    by_cases h : b < x
    · rw [if_pos h, hap, hlen]
      refine ih (pre ++ [x]) pre.length x ⟨by simp, fun j hj => ?_, fun j hj => ?_⟩ (by simp)
      · rcases Nat.lt_or_ge j pre.length with hj' | hj'
        · simp only [List.getElem_append_left hj', List.getElem_append_right (le_refl pre.length), Nat.sub_self, List.getElem_cons_zero]
          exact ((hb.max j hj').trans (hbi ▸ le_refl _)).trans h.le
        · have : j = pre.length := by simp at hj; omega
          subst this; exact le_refl _
      · simp only [List.getElem_append_left hj, List.getElem_append_right (le_refl pre.length), Nat.sub_self, List.getElem_cons_zero]
        exact lt_of_le_of_lt ((hb.max j hj).trans (hbi ▸ le_refl _)) h
    · rw [if_neg h, hap, hlen]
      have hlt := hb.lt
      refine ih (pre ++ [x]) bi b ⟨by simp; omega, fun j hj => ?_, fun j hj => ?_⟩ (by simp only [List.getElem_append_left hlt]; exact hbi)
      · simp only [List.getElem_append_left hlt]
        rcases Nat.lt_or_ge j pre.length with hj' | hj'
        · simp only [List.getElem_append_left hj']; exact hb.max j hj'
        · have : j = pre.length := by simp at hj; omega
          subst this
          simp only [List.getElem_append_right (le_refl pre.length), Nat.sub_self, List.getElem_cons_zero]
          rw [hbi]; exact not_lt.1 h
      · simp only [List.getElem_append_left hlt, List.getElem_append_left (show j < pre.length by omega)]
        exact hb.first j hj

theorem argmax_spec {α : Type} [LinearOrder α] {l : List α} (h : l ≠ []) : ∃ i, Py.argmax l = .ok i ∧ IsArgmax l i := by
  cases l with
  | nil => exact absurd rfl h
  | cons x xs =>
    refine ⟨_, rfl, ?_⟩
    have := argmaxFrom_spec [x] xs 0 x ⟨by simp, fun j hj => ?_, fun j hj => by omega⟩ rfl
    · simpa using this
    · have : j = 0 := by simpa using hj
      subst this; exact le_refl _

theorem argmax_eq_iff {α : Type} [LinearOrder α] {l : List α} {i : ℕ} : Py.argmax l = .ok i ↔ IsArgmax l i := by
  constructor
  · intro h
    have hne : l ≠ [] := by rintro rfl; cases h
    obtain ⟨j, h1, h2⟩ := argmax_spec hne
    rw [h1] at h; cases h; exact h2
  · intro h
    have hne : l ≠ [] := by rintro rfl; exact absurd h.lt (by simp)
    obtain ⟨j, h1, h2⟩ := argmax_spec hne
    rw [h1, h.unique h2]

namespace Mix

theorem argmaxD_spec {α : Type} [LinearOrder α] {l : List α} (h : l ≠ []) : IsArgmax l (argmaxD l) := by
  obtain ⟨i, h1, h2⟩ := argmax_spec h
  unfold argmaxD; rw [h1]; exact h2

theorem le_foldl_max (l : List ℕ) (c : ℕ) : c ≤ l.foldl max c ∧ ∀ x ∈ l, x ≤ l.foldl max c := by
  induction l generalizing c with
  | nil => simp
  | cons y ys ih =>
    obtain ⟨h1, h2⟩ := ih (max c y)
    simp only [List.foldl_cons]
    refine ⟨by omega, fun x hx => ?_⟩
    rcases List.mem_cons.1 hx with rfl | hx
    · omega
    · exact h2 x hx

theorem mem_npUnique {l : List ℕ} {x : ℕ} : x ∈ npUnique l ↔ x ∈ l := by
  simp only [npUnique, List.mem_filter, List.mem_range, decide_eq_true_eq]
  constructor
  · exact fun h => h.2
  · exact fun h => ⟨by have := (le_foldl_max l 0).2 x h; omega, h⟩

theorem npUnique_nodup (l : List ℕ) : (npUnique l).Nodup := (List.nodup_range).filter _

theorem npUnique_sorted (l : List ℕ) : (npUnique l).Pairwise (· < ·) := (List.pairwise_lt_range).filter _

theorem npInverse_lt {l : List ℕ} : ∀ x ∈ npInverse l, x < (npUnique l).length := by
  intro x hx
  obtain ⟨y, hy, rfl⟩ := List.mem_map.1 hx
  exact List.idxOf_lt_length_iff.2 (mem_npUnique.2 hy)

theorem npInverse_surj {l : List ℕ} {i : ℕ} (h : i < (npUnique l).length) : i ∈ npInverse l := by
  refine List.mem_map.2 ⟨(npUnique l)[i], mem_npUnique.1 (List.getElem_mem h), ?_⟩
  exact (npUnique_nodup l).idxOf_getElem i h

theorem npInverse_inj {l : List ℕ} {x y : ℕ} (hx : x ∈ l) (_hy : y ∈ l) (h : (npUnique l).idxOf x = (npUnique l).idxOf y) : x = y :=
  (List.idxOf_inj (mem_npUnique.2 hx)).1 h
end Mix
end Verif
