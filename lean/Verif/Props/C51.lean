import Verif.Model.MixUtils
import Mathlib.Algebra.BigOperators.Fin
import Mathlib.Algebra.Order.BigOperators.Group.List
import Mathlib.Algebra.BigOperators.Ring.Finset
import Mathlib.Tactic.FieldSimp
import Mathlib.Tactic.Linarith
import Mathlib.Tactic.Positivity
import Mathlib.Tactic.Ring

/-!
# C51: the normal - inverse Wishart update is coherent under batching and reordering

In every dimension, for all non-empty batches and every prior with positive `lambda`: the posterior of the concatenation is the posterior of
the second batch under the posterior of the first (`C51_batching`), it does not depend on the order of the observations
(`C51_reordering`), `lambda` and `nu` grow by the number of observations (`C51_counts`), `psi` does not decrease as a quadratic form and
stays symmetric (`C51_psi`), and the new mean is the average of prior mean and observations weighted `lambda : 1 : .. : 1` (`C51_mean`).
-/

set_option linter.unusedSectionVars false

namespace Verif.Mix
variable {K : Type} [Field K] [LinearOrder K] [IsStrictOrderedRing K] {m : ℕ}

/-- The sum of one coordinate. -/
def coordSum (ys : List (Fin m → K)) (i : Fin m) : K := (ys.map (fun y => y i)).sum
/-- The sum of the products of two coordinates. -/
def prodSum (ys : List (Fin m → K)) (i j : Fin m) : K := (ys.map (fun y => y i * y j)).sum

theorem covSum_eq (ys : List (Fin m → K)) (i j : Fin m) (a b : K) :
    (ys.map (fun y => (y i - a) * (y j - b))).sum = prodSum ys i j - a * coordSum ys j - b * coordSum ys i + (ys.length : K) * (a * b) := by
  unfold prodSum coordSum
  induction ys with
  | nil => simp
  | cons y ys ih =>
    simp only [List.map_cons, List.sum_cons, ih, List.length_cons]
    push_cast
    ring

/-- The posterior in terms of sums only. -/
theorem posteriorNIW_mu {ys : List (Fin m → K)} (h : ys ≠ []) (p : NIW K m) (i : Fin m) :
    (posteriorNIW ys p).mu i = (p.lam * p.mu i + coordSum ys i) / (p.lam + ys.length) := by
  have hn : (ys.length : K) ≠ 0 := by exact_mod_cast (List.length_pos_iff.2 h).ne'
  show (p.lam * p.mu i + (ys.length : K) * (coordSum ys i / (ys.length : K))) / _ = _
  rw [mul_div_cancel₀ _ hn]

theorem posteriorNIW_psi {ys : List (Fin m → K)} (h : ys ≠ []) {p : NIW K m} (hp : 0 < p.lam) (i j : Fin m) :
    (posteriorNIW ys p).psi i j = p.psi i j + prodSum ys i j + p.lam * (p.mu i * p.mu j)
      - (p.lam * p.mu i + coordSum ys i) * (p.lam * p.mu j + coordSum ys j) / (p.lam + ys.length) := by
  have hpos : (0 : K) < (ys.length : K) := by exact_mod_cast List.length_pos_iff.2 h
  have hn : (ys.length : K) ≠ 0 := hpos.ne'
  have hl : p.lam + (ys.length : K) ≠ 0 := by positivity
  have h1 : ∀ i, meanVec ys i = coordSum ys i / (ys.length : K) := fun _ => rfl
  show p.psi i j + (ys.length : K) * ((ys.map (fun y => (y i - meanVec ys i) * (y j - meanVec ys j))).sum / (ys.length : K))
    + (p.lam * (ys.length : K)) / (p.lam + (ys.length : K)) * ((meanVec ys i - p.mu i) * (meanVec ys j - p.mu j)) = _
  rw [covSum_eq, h1, h1]
  field_simp
  ring

theorem NIW.ext' {p q : NIW K m} (h1 : ∀ i, p.mu i = q.mu i) (h2 : p.lam = q.lam) (h3 : ∀ i j, p.psi i j = q.psi i j) (h4 : p.nu = q.nu) :
    p = q := by
  obtain ⟨a, b, c, d⟩ := p
  obtain ⟨a', b', c', d'⟩ := q
  simp only at h1 h2 h3 h4
  obtain rfl := funext h1
  obtain rfl := funext fun i => funext (h3 i)
  subst h2 h4; rfl

theorem C51_batching {y1 y2 : List (Fin m → K)} (h1 : y1 ≠ []) (h2 : y2 ≠ []) {p : NIW K m} (hp : 0 < p.lam) :
    posteriorNIW (y1 ++ y2) p = posteriorNIW y2 (posteriorNIW y1 p) := by
  have h12 : y1 ++ y2 ≠ [] := by simp [h1]
  have hl1 : (0 : K) < p.lam + (y1.length : K) := by positivity
  have hp' : 0 < (posteriorNIW y1 p).lam := hl1
  have hlam : (posteriorNIW y1 p).lam = p.lam + (y1.length : K) := rfl
  have hl2 : (0 : K) < p.lam + (y1.length : K) + (y2.length : K) := by positivity
  have hS : ∀ i, coordSum (y1 ++ y2) i = coordSum y1 i + coordSum y2 i := fun i => by simp [coordSum]
  have hQ : ∀ i j, prodSum (y1 ++ y2) i j = prodSum y1 i j + prodSum y2 i j := fun i j => by simp [prodSum]
  have hlen : ((y1 ++ y2).length : K) = (y1.length : K) + (y2.length : K) := by simp
  refine NIW.ext' (fun i => ?_) ?_ (fun i j => ?_) ?_
  · rw [posteriorNIW_mu h12, posteriorNIW_mu h2, posteriorNIW_mu h1, hlam, hS, hlen, mul_div_cancel₀ _ hl1.ne']
    congr 1 <;> ring
  · show p.lam + ((y1 ++ y2).length : K) = p.lam + (y1.length : K) + (y2.length : K)
    rw [hlen]; ring
  · rw [posteriorNIW_psi h12 hp, posteriorNIW_psi h2 hp', posteriorNIW_psi h1 hp, posteriorNIW_mu h1, posteriorNIW_mu h1, hlam, hS, hS, hQ, hlen]
    have e : p.lam + ((y1.length : K) + (y2.length : K)) = p.lam + (y1.length : K) + (y2.length : K) := by ring
    rw [e]
    have hne := hl1.ne'
    have hne2 := hl2.ne'
    field_simp
    ring
  · show p.nu + ((y1 ++ y2).length : K) = p.nu + (y1.length : K) + (y2.length : K)
    rw [hlen]; ring

/-- Any number of batches. -/
theorem C51_batches {bs : List (List (Fin m → K))} (h : ∀ b ∈ bs, b ≠ []) (hne : bs ≠ []) {p : NIW K m} (hp : 0 < p.lam) :
    posteriorNIW bs.flatten p = bs.foldl (fun q b => posteriorNIW b q) p := by
  induction bs generalizing p with
  | nil => exact absurd rfl hne
  | cons b bs ih =>
    rw [List.flatten_cons, List.foldl_cons]
    cases bs with
    | nil => simp
    | cons c cs =>
      have hb : b ≠ [] := h b (by simp)
      have hc : (c :: cs).flatten ≠ [] := by
        simp only [List.flatten_cons]
        intro hx; exact h c (by simp) (List.append_eq_nil_iff.1 hx).1
      rw [C51_batching hb hc hp, ih (fun x hx => h x (by simp [hx])) (by simp) (show (0 : K) < p.lam + (b.length : K) by positivity)]

theorem C51_reordering {y1 y2 : List (Fin m → K)} (h : y1.Perm y2) (p : NIW K m) : posteriorNIW y1 p = posteriorNIW y2 p := by
  have hS : ∀ i, meanVec y1 i = meanVec y2 i := fun i => by
    unfold meanVec; rw [(h.map _).sum_eq, h.length_eq]
  have hC : ∀ i j, covBias y1 i j = covBias y2 i j := fun i j => by
    unfold covBias; rw [hS, hS, (h.map _).sum_eq, h.length_eq]
  refine NIW.ext' (fun i => ?_) ?_ (fun i j => ?_) ?_
  · simp only [posteriorNIW, hS, h.length_eq]
  · simp only [posteriorNIW, h.length_eq]
  · simp only [posteriorNIW, hS, hC, h.length_eq]
  · simp only [posteriorNIW, h.length_eq]

theorem C51_counts (ys : List (Fin m → K)) (p : NIW K m) :
    (posteriorNIW ys p).lam = p.lam + ys.length ∧ (posteriorNIW ys p).nu = p.nu + ys.length := ⟨rfl, rfl⟩

/-- The posterior mean is a weighted average of the prior mean and the observations. -/
theorem C51_mean {ys : List (Fin m → K)} (h : ys ≠ []) {p : NIW K m} (hp : 0 < p.lam) (i : Fin m) :
    (p.lam + ys.length) * (posteriorNIW ys p).mu i = p.lam * p.mu i + (ys.map (fun y => y i)).sum := by
  rw [posteriorNIW_mu h]
  have : p.lam + (ys.length : K) ≠ 0 := by positivity
  field_simp
  rfl

theorem outer_form (v a : Fin m → K) : ∑ i, ∑ j, v i * (a i * a j) * v j = (∑ i, v i * a i) ^ 2 := by
  rw [sq, Finset.sum_mul_sum]
  refine Finset.sum_congr rfl fun i _ => Finset.sum_congr rfl fun j _ => by ring

theorem list_form (v : Fin m → K) (ys : List (Fin m → K)) (a : Fin m → K) :
    ∑ i, ∑ j, v i * (ys.map (fun y => (y i - a i) * (y j - a j))).sum * v j = (ys.map (fun y => (∑ i, v i * (y i - a i)) ^ 2)).sum := by
  induction ys with
  | nil => simp
  | cons y ys ih =>
    simp only [List.map_cons, List.sum_cons, ← ih, ← outer_form v (fun i => y i - a i), ← Finset.sum_add_distrib]
    refine Finset.sum_congr rfl fun i _ => Finset.sum_congr rfl fun j _ => by ring

theorem C51_psi {ys : List (Fin m → K)} (h : ys ≠ []) {p : NIW K m} (hp : 0 < p.lam) :
    (∀ v : Fin m → K, ∑ i, ∑ j, v i * p.psi i j * v j ≤ ∑ i, ∑ j, v i * (posteriorNIW ys p).psi i j * v j) ∧
    ((∀ i j, p.psi i j = p.psi j i) → ∀ i j, (posteriorNIW ys p).psi i j = (posteriorNIW ys p).psi j i) := by
  have hpos : (0 : K) < (ys.length : K) := by exact_mod_cast List.length_pos_iff.2 h
  constructor
  · intro v
    have e : ∀ i j, v i * (posteriorNIW ys p).psi i j * v j = v i * p.psi i j * v j
        + v i * (ys.map (fun y => (y i - meanVec ys i) * (y j - meanVec ys j))).sum * v j
        + (p.lam * (ys.length : K)) / (p.lam + (ys.length : K)) * (v i * ((meanVec ys i - p.mu i) * (meanVec ys j - p.mu j)) * v j) := by
      intro i j
      show v i * (p.psi i j + (ys.length : K) * ((ys.map (fun y => (y i - meanVec ys i) * (y j - meanVec ys j))).sum / (ys.length : K))
        + (p.lam * (ys.length : K)) / (p.lam + (ys.length : K)) * ((meanVec ys i - p.mu i) * (meanVec ys j - p.mu j))) * v j = _
      rw [mul_div_cancel₀ _ hpos.ne']
      ring
    simp only [e, Finset.sum_add_distrib, ← Finset.mul_sum]
    rw [list_form, outer_form v (fun i => meanVec ys i - p.mu i)]
    have h1 : 0 ≤ (ys.map (fun y => (∑ i, v i * (y i - meanVec ys i)) ^ 2)).sum :=
      List.sum_nonneg fun x hx => by obtain ⟨y, _, rfl⟩ := List.mem_map.1 hx; positivity
    have h2 : 0 ≤ (p.lam * (ys.length : K)) / (p.lam + (ys.length : K)) * (∑ i, v i * (meanVec ys i - p.mu i)) ^ 2 := by positivity
    linarith
  · intro hs i j
    rw [posteriorNIW_psi h hp, posteriorNIW_psi h hp, hs i j]
    have : prodSum ys i j = prodSum ys j i := by unfold prodSum; simp only [mul_comm]
    rw [this]; ring

/-! ### The hypotheses are met -/

example : (posteriorNIW [![1, 2], ![3, 6]] (⟨![0, 0], 1, ![![1, 0], ![0, 1]], 4⟩ : NIW ℚ 2)).psi 0 1 = 28/3 := by decide +kernel
example : (posteriorNIW [![1, 2], ![3, 6]] (⟨![0, 0], 1, ![![1, 0], ![0, 1]], 4⟩ : NIW ℚ 2)).mu 1 = 8/3 := by decide +kernel
end Verif.Mix
