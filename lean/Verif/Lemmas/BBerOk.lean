import Verif.Lemmas.NoErrorBB

/-! # `BetaBernoulli`: paths of zeros and ones, and calls that never raise -/

set_option linter.unusedSectionVars false
set_option linter.unusedSimpArgs false

namespace Verif
open Spec
variable {K : Type} [Field K] [LinearOrder K] [IsStrictOrderedRing K] {ω : Oracle K}

/-- A list of zeros and ones. -/
def Bits (l : List ℤ) : Prop := ∀ z ∈ l, 0 ≤ z ∧ z ≤ 1

theorem index_ok {α : Type} {l : List α} {i : ℤ} (h0 : 0 ≤ i) (h1 : i < l.length) :
    ∃ x, Py.index l i = .ok x ∧ l[i.toNat]? = some x := by
  unfold Py.index
  simp only [h0, if_true]
  rw [if_neg (by omega), List.getElem?_eq_getElem (by omega)]
  exact ⟨_, rfl, rfl⟩

theorem index_last {α : Type} {l : List α} (h : l ≠ []) :
    ∃ x, Py.index l (-1) = .ok x ∧ l[l.length - 1]? = some x := by
  have hl := List.length_pos_of_ne_nil h
  unfold Py.index
  have e : (l.length : ℤ) + -1 = ((l.length - 1 : ℕ) : ℤ) := by omega
  simp only [show ¬ ((0 : ℤ) ≤ -1) by omega, if_false, e]
  rw [if_neg (by omega), Int.toNat_natCast, List.getElem?_eq_getElem (by omega)]
  exact ⟨_, rfl, rfl⟩

theorem index_some {α : Type} {l : List α} {i : ℤ} {x : α} (h0 : 0 ≤ i) (h : Py.index l i = .ok x) :
    l[i.toNat]? = some x := by
  unfold Py.index at h
  simp only [h0, if_true] at h
  rw [if_neg (by omega)] at h
  split at h
  · cases h; assumption
  · cases h

theorem gather_ok {α : Type} {l : List α} {is : List ℤ} (h : ∀ i ∈ is, 0 ≤ i ∧ i < l.length) :
    ∃ xs, Py.gather l is = .ok xs := by
  induction is with
  | nil => exact ⟨[], rfl⟩
  | cons i is ih =>
    obtain ⟨x, hx, _⟩ := index_ok (h i (by simp)).1 (h i (by simp)).2
    obtain ⟨xs, hxs⟩ := ih fun j hj => h j (by simp [hj])
    exact ⟨x :: xs, by unfold Py.gather; rw [hx, hxs]⟩

theorem gather_get {α : Type} {l xs : List α} {is : List ℤ} (h : Py.gather l is = .ok xs) (j : ℕ) {i : ℤ}
    (hi : is[j]? = some i) (h0 : 0 ≤ i) : xs[j]? = l[i.toNat]? := by
  induction is generalizing xs j with
  | nil => simp at hi
  | cons k is ih =>
    unfold Py.gather at h
    split at h
    · cases h
    · rename_i x hx
      split at h
      · cases h
      · rename_i ys hys
        cases h
        cases j with
        | zero => simp at hi; subst hi; simp [index_some h0 hx]
        | succ j => simpa using ih hys j (by simpa using hi)

theorem cumsumFrom_bits {acc : ℤ} {l : List ℤ} (h : Bits l) :
    ∀ z ∈ Py.cumsumFrom acc l, acc ≤ z ∧ z ≤ acc + l.sum := by
  induction l generalizing acc with
  | nil => simp [Py.cumsumFrom]
  | cons x xs ih =>
    have hx := h x (by simp)
    have hxs : Bits xs := fun y hy => h y (by simp [hy])
    have hsum : ∀ ys : List ℤ, Bits ys → 0 ≤ ys.sum := by
      intro ys hys
      induction ys with
      | nil => simp
      | cons y ys ih' =>
        rw [List.sum_cons]
        have := hys y (by simp)
        have := ih' fun z hz => hys z (by simp [hz])
        omega
    have := hsum xs hxs
    intro z hz
    unfold Py.cumsumFrom at hz
    rw [List.sum_cons]
    rcases List.mem_cons.1 hz with rfl | hz
    · omega
    · have := ih hxs z hz; omega

theorem cumsum_bits {l : List ℤ} (h : Bits l) : ∀ z ∈ Py.cumsum l, 0 ≤ z ∧ z ≤ l.sum := by
  intro z hz
  have := cumsumFrom_bits h z hz
  omega

theorem cumsum_last {l : List ℤ} (h : l ≠ []) : Py.index (Py.cumsum l) (-1) = .ok l.sum := by
  obtain ⟨x, hx, hg⟩ := index_last (l := Py.cumsum l) (by
    intro hc; apply h; apply List.length_eq_zero_iff.1; rw [← cumsum_length, hc]; rfl)
  rw [hx]
  have hl := List.length_pos_of_ne_nil h
  rw [cumsum_length, cumsum_getElem? l _ (by omega)] at hg
  rw [Nat.sub_add_cancel hl, List.take_length] at hg
  cases hg; rfl

theorem cumsum_succ (l : List ℤ) (j : ℕ) {z : ℤ} (h : l[j + 1]? = some z) :
    ∃ m, (Py.cumsum l)[j]? = some m ∧ (Py.cumsum l)[j + 1]? = some (m + z) := by
  have hlt : j + 1 < l.length := by
    by_contra hc
    rw [List.getElem?_eq_none (by omega)] at h; cases h
  refine ⟨_, cumsum_getElem? l j (by omega), ?_⟩
  rw [cumsum_getElem? l (j + 1) hlt, List.take_add_one (i := j + 1), h]
  simp

namespace BBer
variable {s : BBer K × ℕ}

theorem binomRep_bits (hω : ω.Legal) (pos m : ℕ) (p : K) : Bits ((List.range m).map (fun i => ω.binom (pos + i) 1 p)) := by
  intro z hz
  obtain ⟨i, _, rfl⟩ := List.mem_map.1 hz
  exact ⟨hω.binom_nonneg _ _ _ (by omega), hω.binom_le _ _ _ (by omega)⟩

/-- `complete(n)` of a number raises only for `n = 1` on an object without sticks. -/
theorem complete_ok (hω : ω.Legal) (hp0 : 0 ≤ s.1.p) (hp1 : s.1.p ≤ 1) (ha : 0 < s.1.alpha) {size : PySize} {n : ℤ}
    (hn : size.toInt? = some n) (hex : s.1.v ≠ [] ∨ n ≠ 1) :
    wp ω (complete size) (fun _ _ => True) (fun _ _ => False) s := by
  unfold complete
  rw [checkSize_ok hn, hn, wp_bind, wp_lift]
  refine ⟨fun _ _ => ?_, nofun⟩
  rw [wp_bind, wp_self, wp_bind, wp_whenM]
  refine ⟨fun hlt => ?_, fun _ => by wp_simp⟩
  rw [wp_bind]
  have hP : wp ω (M.whenM (s.1.v.length = 0) do
        let v ← M.betaRep 1 s.1.alpha 1
        M.assign (fun s => { s with v := v }))
      (fun _ t => t.1.v ≠ [] ∧ (t.1.v.length : ℤ) < n ∧ t.1.p = s.1.p ∧ t.1.alpha = s.1.alpha) (fun _ _ => False) s := by
    wp_simp
    refine ⟨fun h0 => ⟨fun hb => ?_, fun _ _ _ => ⟨?_, ?_, rf, rf⟩⟩, fun h0 => ⟨?_, hlt, rf, rf⟩⟩
    · rcases hb with hb | hb | hb
      · linarith [zero_lt_one (α := K)]
      · linarith
      · omega
    · apply List.ne_nil_of_length_pos; simp
    · rcases hex with h | h
      · exact absurd (List.length_eq_zero_iff.1 h0) h
      · simp only [M.betaValues_length, List.length_replicate]; omega
    · intro hc; rw [hc] at h0; exact h0 rfl
  refine wp_mono hP ?_ (fun _ _ h => h)
  rintro _ s1 ⟨hne, hlt1, hp, hα⟩
  wp_simp
  rw [hp, hα]
  refine ⟨fun hb => ?_, fun _ _ _ hm => ?_⟩
  · rcases hb with hb | hb | hb | hb
    · omega
    · linarith
    · linarith
    · omega
  have hbits := binomRep_bits hω s1.2 (n - s1.1.v.length).toNat s.1.p
  set ch := (List.range (n - s1.1.v.length).toNat).map (fun i => ω.binom (s1.2 + i) 1 s.1.p) with hch
  have hchne : ch ≠ [] := by
    apply List.ne_nil_of_length_pos; rw [hch, List.length_map, List.length_range]; omega
  have hb := cumsum_bits hbits
  have hsum : 0 ≤ ch.sum := by
    obtain ⟨x, hx⟩ := List.exists_mem_of_ne_nil (Py.cumsum ch) (by
      intro hc; apply hchne; apply List.length_eq_zero_iff.1; rw [← cumsum_length, hc]; rfl)
    have := hb x hx; omega
  refine ⟨fun vl _ => ⟨fun ml hml => ?_, fun e he => ?_⟩, fun e he => ?_⟩
  · rw [cumsum_last hchne] at hml
    cases hml
    refine ⟨fun hbad => ?_, fun _ _ _ => ⟨fun _ _ => trivial, fun e he => ?_⟩⟩
    · rcases hbad with h | h | h
      · linarith [zero_lt_one (α := K)]
      · linarith
      · omega
    · obtain ⟨xs, hxs⟩ := gather_ok (l := vl :: M.betaValues ω (s1.2 + (n - s1.1.v.length).toNat)
        (List.replicate ch.sum.toNat (1, s.1.alpha))) (is := Py.cumsum ch) (by
          intro i hi
          have := hb i hi
          simp only [List.length_cons, M.betaValues_length, List.length_replicate]
          omega)
      rw [hxs] at he; cases he
  · rw [cumsum_last hchne] at he; cases he
  · obtain ⟨x, hx, _⟩ := index_last hne
    rw [hx] at he; cases he
end BBer
end Verif
