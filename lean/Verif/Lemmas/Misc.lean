import Verif.Lemmas.Keeps

/-! # Assorted list lemmas -/

set_option linter.unusedSectionVars false

namespace Verif
open Spec

variable {α β γ : Type}

theorem sliceTo_zipWith (f : α → β → γ) (a : List α) (b : List β) (h : a.length = b.length) (n : ℤ) :
    List.zipWith f (Py.sliceTo a n) (Py.sliceTo b n) = Py.sliceTo (List.zipWith f a b) n := by
  unfold Py.sliceTo
  split <;> simp [List.take_zipWith, h]

theorem sliceTo_nonneg (l : List α) {n : ℤ} (h : 0 ≤ n) : Py.sliceTo l n = l.take n.toNat := by
  simp [Py.sliceTo, h]

theorem mem_of_mem_sliceTo {l : List α} {n : ℤ} {x : α} (h : x ∈ Py.sliceTo l n) : x ∈ l := by
  unfold Py.sliceTo at h
  split at h <;> exact List.mem_of_mem_take h

theorem list_ext_range {l : List α} {n : ℕ} {f : ℕ → α} (hl : l.length = n)
    (h : ∀ j, j < n → l[j]? = some (f j)) : l = (List.range n).map f := by
  apply List.ext_getElem?
  intro j
  rcases Nat.lt_or_ge j n with hj | hj
  · rw [h j hj]; simp [hj]
  · rw [List.getElem?_eq_none (by omega), List.getElem?_eq_none (by simpa using hj)]

theorem range_map_append_replicate (n k : ℕ) (f : ℕ → α) (c : α) (h : ∀ j, n ≤ j → f j = c) :
    (List.range n).map f ++ List.replicate k c = (List.range (n + k)).map f := by
  apply list_ext_range (by simp)
  intro j hj
  rcases Nat.lt_or_ge j n with h' | h'
  · rw [List.getElem?_append_left (by simpa using h')]; simp [h']
  · rw [List.getElem?_append_right (by simpa using h')]
    simp only [List.length_map, List.length_range]
    rw [List.getElem?_replicate, if_pos (by omega), h j h']

theorem range_map_take (n k : ℕ) (f : ℕ → α) (h : k ≤ n) :
    ((List.range n).map f).take k = (List.range k).map f := by
  rw [← List.map_take, List.take_range, Nat.min_eq_left h]

theorem nEq_eq_zero_of_gt {d : List ℤ} {m : ℤ} (hm : IsMaxLabel d m) {j : ℕ} (h : m < j) : nEq d j = 0 := by
  simp only [nEq, List.countP_eq_zero, decide_eq_true_eq]
  intro x hx
  have := hm.2 x hx
  omega

theorem nGt_eq_zero_of_ge {d : List ℤ} {m : ℤ} (hm : IsMaxLabel d m) {j : ℕ} (h : m ≤ j) : nGt d j = 0 := by
  simp only [nGt, List.countP_eq_zero, decide_eq_true_eq]
  intro x hx
  have := hm.2 x hx
  omega

theorem nEq_perm {d d' : List ℤ} (h : d.Perm d') (j : ℕ) : nEq d j = nEq d' j := h.countP_eq _
theorem nGt_perm {d d' : List ℤ} (h : d.Perm d') (j : ℕ) : nGt d j = nGt d' j := h.countP_eq _

theorem IsBincount.eq_map {d : List ℤ} {a : List ℕ} (h : IsBincount d a) :
    a = (List.range a.length).map (fun j => nEq d j) :=
  list_ext_range rfl fun j hj => by rw [h.getElem? j, if_pos hj]

theorem IsBincount.revTails_eq_map {d : List ℤ} {a : List ℕ} (h : IsBincount d a) (ha : a ≠ []) :
    revTails a = (List.range a.length).map (fun j => nGt d j) :=
  list_ext_range (revTails_length ha) fun j hj => h.revTails_get j hj

theorem IsBincount.zipWith_eq {γ : Type} {d : List ℤ} {a : List ℕ} (h : IsBincount d a) (ha : a ≠ [])
    (f : ℕ → ℕ → γ) :
    List.zipWith f a (revTails a) = (List.range a.length).map (fun j => f (nEq d j) (nGt d j)) := by
  have h1 := h.eq_map
  rw [h.revTails_eq_map ha]
  conv_lhs => rw [h1]
  simp

theorem betaParams_legal {K : Type} [Field K] [LinearOrder K] {ps : List (K × K)} (h : ∀ p ∈ ps, 0 < p.1 ∧ 0 < p.2) :
    ps.any (fun p => decide (p.1 ≤ 0 ∨ p.2 ≤ 0)) = false := by
  rw [List.any_eq_false]
  intro p hp
  have := h p hp
  rw [decide_eq_true_eq]
  push Not
  exact this

theorem betaParams_illegal {K : Type} [Field K] [LinearOrder K] {ps : List (K × K)} (h : ∃ p ∈ ps, p.1 ≤ 0 ∨ p.2 ≤ 0) :
    ps.any (fun p => decide (p.1 ≤ 0 ∨ p.2 ≤ 0)) = true := by
  rw [List.any_eq_true]
  obtain ⟨p, hp, h⟩ := h
  exact ⟨p, hp, by rw [decide_eq_true_eq]; exact h⟩

end Verif
