import Verif.Lemmas.Reach
import Verif.Lemmas.Demo

/-!
# C12: frequency weighting returns the empirical frequencies

After any history of calls on `FrequencyWeighting(n)`: with non-negative labels `d`, `random` and `complete` (with whatever
size argument) return `#{i: d_i = j} / len(d)` for `j = 0 .. max(d)`; without data they return `n` times `1/n`.
-/

set_option linter.unusedSectionVars false

namespace Verif
open Spec
variable {K : Type} [Field K] [LinearOrder K] [IsStrictOrderedRing K]

/-- The empirical frequencies of the labels `0 .. N-1`. -/
def IsFrequency (d : List ℤ) (N : ℕ) (w : List K) : Prop :=
  w.length = N ∧ ∀ j < N, w[j]? = some ((nEq d j : K) / (d.length : K))

theorem IsBincount.sum_eq {d : List ℤ} {a : List ℕ} (h : IsBincount d a) : a.sum = d.length := by
  by_cases hd : d = []
  · subst hd
    have : a = [] := by
      by_contra hc
      exact absurd (h.last hc) (by simp)
    subst this; rfl
  · have hne := h.ne_nil hd
    obtain ⟨x, xs, rfl⟩ := List.exists_cons_of_ne_nil hne
    have h1 := h.drop_sum 0 (by simp)
    have h2 := h.get (j := 0) (by simp)
    change xs.sum = nGt d 0 at h1
    change x = nEq d 0 at h2
    rw [List.sum_cons, h1, h2, nEq, nGt, List.length_eq_countP_add_countP (fun x => decide (x = ((0 : ℕ) : ℤ)))]
    congr 1
    apply List.countP_congr
    intro y hy
    have := h.nonneg y hy
    simp only [decide_eq_true_eq, Nat.cast_zero]
    omega

/-- In every state, whatever happened before. -/
theorem C12_fitted {ω : Oracle K} {s : Freq K × ℕ} (size : PySize)
    (hd : NonNegLabels s.1.d) {m : ℕ} (hm : IsMaxLabel s.1.d m) :
    (∃ r t, Freq.random size ω s = (.ok r, t) ∧ IsFrequency s.1.d (m + 1) r ∧ t.1.w = r ∧ t.2 = s.2) ∧
    (∃ r t, Freq.complete size ω s = (.ok r, t) ∧ IsFrequency s.1.d (m + 1) r ∧ t.1.w = r ∧ t.2 = s.2) := by
  have key : ∃ r t, Freq.random size ω s = (.ok r, t) ∧ IsFrequency s.1.d (m + 1) r ∧ t.1.w = r ∧ t.2 = s.2 := by
    obtain ⟨a, hb, hA⟩ := bincount_ok hd
    have hne : s.1.d ≠ [] := List.ne_nil_of_mem hm.1
    have hlen := hA.length_eq hm
    refine ⟨Freq.frequencies a, ({ s.1 with w := Freq.frequencies a }, s.2), ?_, ⟨?_, fun j hj => ?_⟩, rfl, rfl⟩
    · simp [Freq.random, Freq.draw, hne, hb]
    · simp only [Freq.frequencies, List.length_map]; omega
    · simp only [Freq.frequencies, List.getElem?_map, hA.getElem? j, hA.sum_eq]
      rw [if_pos (by omega)]; rfl
  exact ⟨key, key⟩

section
variable (log : K → K) {ω : Oracle K} (pos : ℕ) (ops : List (WOp K)) (n : ℤ)

/-- Without data: `n` equal weights. -/
theorem C12_unfitted {s : Freq K × ℕ} (hs : Freq.cls.run log ω (Freq.init n, pos) ops = s) (size : PySize)
    (hd : s.1.d = []) (hn : 1 ≤ n) :
    (∃ t, Freq.random size ω s = (.ok (List.replicate n.toNat (1 / (n : K))), t) ∧
      t.1.w = List.replicate n.toNat (1 / (n : K)) ∧ t.2 = s.2) ∧
    (∃ t, Freq.complete size ω s = (.ok (List.replicate n.toNat (1 / (n : K))), t) ∧
      t.1.w = List.replicate n.toNat (1 / (n : K)) ∧ t.2 = s.2) := by
  have hh := Freq.reach_n (ω := ω) log pos ops n
  rw [hs] at hh
  have key : ∃ t, Freq.random size ω s = (.ok (List.replicate n.toNat (1 / (n : K))), t) ∧
      t.1.w = List.replicate n.toNat (1 / (n : K)) ∧ t.2 = s.2 := by
    have e : uniformWeights (K := K) n = .ok (List.replicate n.toNat (1 / (n : K))) := by
      unfold uniformWeights Py.repeatScalar
      rw [if_neg (by omega), if_neg (by omega)]
    exact ⟨({ s.1 with w := List.replicate n.toNat (1 / (n : K)) }, s.2), by simp [Freq.random, Freq.draw, hd, hh, e], rfl, rfl⟩
  exact ⟨key, key⟩
end

/-! Non-vacuity. -/
example : (Freq.random .none demo (Freq.cls.run id (demo : Oracle ℚ) (Freq.init 4, 0) [.random .none, .fit [2, 0, 2]])).1
    = .ok [1/3, 0, 2/3] := by decide +kernel
example : IsMaxLabel [2, 0, 2] (2 : ℕ) ∧ NonNegLabels [2, 0, 2] := by simp [IsMaxLabel, NonNegLabels]
example : (Freq.complete (.int 9) demo (Freq.cls.run id (demo : Oracle ℚ) (Freq.init 2, 0) [.fit [5], .reset])).1
    = .ok [1/2, 1/2] := by decide +kernel

end Verif
