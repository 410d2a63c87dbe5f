import Verif.Lemmas.VarFit
import Verif.Lemmas.VarDemo

/-!
# C68: the variational atom update on hard assignments

The row of `var_d` of group `j` is the indicator of the observations with label `j`; `rowsOf` are these observations, `posteriorNIW` is
`posterior_norm_invw_params`.

* `C68_params_partial`: the mean, `lambda` and the scale of a non-empty group are those of the conjugate update, for all data and dimensions.
* `C68_gap`: the matrix that is inverted differs from the conjugate `psi` by `- (n - 1) cov + lambda n / (lambda + n) (|delta|² - delta delta')`, where
  `delta` is the distance of the group mean from the prior mean: the scatter is divided by `n`, and the outer product is an inner product.
* `C68_one_partial`: one coordinate and one observation: the precision is the inverse of the conjugate `psi`.
* `C68_scatter_refuted`: one coordinate, every group with two different observations: the precision times the conjugate `psi` is larger than one.
* `C68_outer_refuted`: two or more coordinates, every group with one observation that is not the prior mean: some diagonal entry is wrong.
-/

set_option linter.unusedSectionVars false

namespace Verif.Mix.VM
open Verif.Fl
variable {K : Type} [Field K] [LinearOrder K] [IsStrictOrderedRing K] {m : ℕ}

/-- The indicator of group `j`. -/
def indicator (d : List ℕ) (j : ℕ) : List K := d.map (fun x => if x = j then 1 else 0)

theorem sum_indicator (f : (Fin m → K) → K) (j : ℕ) : ∀ (ys rows : List (Fin m → K)) (d : List ℕ), GM.rowsOf ys d j = .ok rows →
    (List.zipWith (fun v y => v * f y) (indicator d j) ys).sum = (rows.map f).sum := by
  intro ys
  induction ys with
  | nil =>
    intro rows d h
    unfold GM.rowsOf at h
    split at h
    · cases h; simp
    · cases h
  | cons y ys ih =>
    intro rows d h
    unfold GM.rowsOf at h
    split at h
    · next hl =>
      cases h
      cases d with
      | nil => simp at hl
      | cons x d =>
        have hl' : ys.length = d.length := by simpa using hl
        have := ih _ d (by unfold GM.rowsOf; rw [if_pos hl'])
        unfold indicator at this ⊢
        rw [List.map_cons, List.zipWith_cons_cons, List.sum_cons, this, List.zip_cons_cons, List.filterMap_cons]
        by_cases hx : x = j
        · simp [hx]
        · simp [hx]
    · cases h

theorem sum_indicator_count (j : ℕ) (ys rows : List (Fin m → K)) (d : List ℕ) (h : GM.rowsOf ys d j = .ok rows) : (indicator d j : List K).sum = rows.length := by
  have h1 := sum_indicator (fun _ => (1 : K)) j ys rows d h
  have hl : ys.length = d.length := by
    unfold GM.rowsOf at h
    split at h
    · assumption
    · cases h
  have h2 : ∀ (r : List K) (ys : List (Fin m → K)), ys.length = r.length → List.zipWith (fun v _ => v * (1 : K)) r ys = r := by
    intro r
    induction r with
    | nil => intro ys _; simp
    | cons x r ih =>
      intro ys hy
      cases ys with
      | nil => simp at hy
      | cons y ys => rw [List.zipWith_cons_cons, ih ys (by simpa using hy), mul_one]
  rw [h2 _ _ (by simp [indicator, hl])] at h1
  rw [h1]
  simp

theorem wMean_indicator {j : ℕ} {ys rows : List (Fin m → K)} {d : List ℕ} (h : GM.rowsOf ys d j = .ok rows) (i : Fin m) :
    wMean ys (indicator d j) i = meanVec rows i := by
  unfold wMean meanVec
  have := sum_indicator (fun y => y i / (rows.length : K)) j ys rows d h
  rw [sum_indicator_count j ys rows d h]
  have h2 : (rows.map (fun y => y i / (rows.length : K))).sum = (rows.map (fun y => y i)).sum / rows.length := by
    induction rows generalizing ys d with
    | nil => simp
    | cons y r ih => rw [div_eq_mul_inv, ← List.sum_map_mul_right]; simp [div_eq_mul_inv]
  rw [← h2, ← this]
  congr 1
  congr 1
  funext v y
  ring

theorem wCov_indicator {j : ℕ} {ys rows : List (Fin m → K)} {d : List ℕ} (h : GM.rowsOf ys d j = .ok rows) (i l : Fin m) :
    wCov ys (indicator d j) i l = covBias rows i l := by
  unfold wCov covBias
  rw [sum_indicator_count j ys rows d h]
  congr 1
  rw [← sum_indicator (fun y => (y i - meanVec rows i) * (y l - meanVec rows l)) j ys rows d h]
  congr 1
  congr 1
  funext v y
  rw [wMean_indicator h, wMean_indicator h]
  ring

/-- **The gap**, for all data, labels, dimensions and priors. -/
theorem C68_gap {j : ℕ} {ys rows : List (Fin m → K)} {d : List ℕ} (p : NIW K m) (h : GM.rowsOf ys d j = .ok rows) (i l : Fin m) :
    varPsi ys p (indicator d j) i l = (posteriorNIW rows p).psi i l - ((rows.length : K) - 1) * covBias rows i l
      + p.lam * rows.length / (p.lam + rows.length) *
        ((∑ k, (meanVec rows k - p.mu k) ^ 2) - (meanVec rows i - p.mu i) * (meanVec rows l - p.mu l)) := by
  unfold varPsi posteriorNIW
  rw [wCov_indicator h, sum_indicator_count j ys rows d h]
  simp only [wMean_indicator h]
  have : ∑ k, (meanVec rows k - p.mu k) * (meanVec rows k - p.mu k) = ∑ k, (meanVec rows k - p.mu k) ^ 2 := Finset.sum_congr rfl fun k _ => by ring
  rw [this]
  ring

/-- **Mean, `lambda` and scale** of a non-empty group. What is missing is the precision. -/
theorem C68_params_partial {j : ℕ} {ys rows : List (Fin m → K)} {d : List ℕ} (p : NIW K m) (h : GM.rowsOf ys d j = .ok rows) (hne : rows ≠ [])
    {r : Option (VAtom K m)} (ha : varAtom ys p ((indicator d j).map fin) = .ok r) :
    ∃ a, r = some a ∧ a.mu = (posteriorNIW rows p).mu ∧ a.lam = (posteriorNIW rows p).lam ∧ a.scale = (posteriorNIW rows p).nu ∧
      matInv (varPsi ys p (indicator d j)) = .ok a.prec := by
  have hn : ((rows.length : ℕ) : K) ≠ 0 := by
    have := List.length_pos_iff.2 hne
    positivity
  unfold varAtom at ha
  rw [numbers_fin] at ha
  simp only [] at ha
  rw [if_neg (by rw [sum_indicator_count j ys rows d h]; exact hn)] at ha
  cases hm : matInv (varPsi ys p (indicator d j)) with
  | error e => rw [hm] at ha; cases ha
  | ok P =>
    rw [hm] at ha
    cases ha
    refine ⟨_, rfl, ?_, ?_, ?_, rfl⟩
    · funext i
      show (p.lam * p.mu i + (indicator d j).sum * wMean ys (indicator d j) i) / (p.lam + (indicator d j).sum) = _
      rw [wMean_indicator h, sum_indicator_count j ys rows d h]
      rfl
    · show p.lam + (indicator d j).sum = _
      rw [sum_indicator_count j ys rows d h]
      rfl
    · show p.nu + (indicator d j).sum = _
      rw [sum_indicator_count j ys rows d h]
      rfl

theorem matInv_one {P Q : Fin 1 → Fin 1 → K} (h : matInv P = .ok Q) : Q 0 0 * P 0 0 = 1 := by
  unfold matInv at h
  split at h
  · cases h
  · next hd =>
    cases h
    rw [Matrix.det_fin_one] at hd
    have hp : P 0 0 ≠ 0 := hd
    simp only [Matrix.det_fin_one, Matrix.adjugate_subsingleton, Matrix.of_apply]
    simp [hp]

/-- One coordinate, one observation: right. -/
theorem C68_one_partial {j : ℕ} {ys : List (Fin 1 → K)} {x : Fin 1 → K} {d : List ℕ} (p : NIW K 1) (h : GM.rowsOf ys d j = .ok [x]) {a : VAtom K 1}
    (ha : varAtom ys p ((indicator d j).map fin) = .ok (some a)) : a.prec 0 0 * (posteriorNIW [x] p).psi 0 0 = 1 := by
  obtain ⟨a', ha', -, -, -, hm⟩ := C68_params_partial p h (by simp) ha
  cases ha'
  have := C68_gap p h 0 0
  have h2 := matInv_one hm
  rw [this] at h2
  simpa [sq] using h2

/-- **Refuted in one dimension**: every group with different observations gets a precision that is too large. -/
theorem C68_scatter_refuted {j : ℕ} {ys rows : List (Fin 1 → K)} {d : List ℕ} (p : NIW K 1) (hlam : 0 ≤ p.lam) (hpsi : 0 < p.psi 0 0)
    (h : GM.rowsOf ys d j = .ok rows) (hdiff : ∃ x ∈ rows, ∃ y ∈ rows, x 0 ≠ y 0) {a : VAtom K 1}
    (ha : varAtom ys p ((indicator d j).map fin) = .ok (some a)) : 1 < a.prec 0 0 * (posteriorNIW rows p).psi 0 0 := by
  obtain ⟨x, hx, y, hy, hxy⟩ := hdiff
  have hne : rows ≠ [] := List.ne_nil_of_mem hx
  obtain ⟨a', ha', -, -, -, hm⟩ := C68_params_partial p h hne ha
  cases ha'
  have h2 := matInv_one hm
  have hg := C68_gap p h 0 0
  have hz : (∑ k, (meanVec rows k - p.mu k) ^ 2) - (meanVec rows 0 - p.mu 0) * (meanVec rows 0 - p.mu 0) = 0 := by simp [sq]
  rw [hz, mul_zero, add_zero] at hg
  have hn2 : (2 : ℕ) ≤ rows.length := by
    by_contra hc
    have : rows.length = 1 := by have := List.length_pos_iff.2 hne; omega
    obtain ⟨z, rfl⟩ := List.length_eq_one_iff.1 this
    simp only [List.mem_singleton] at hx hy
    rw [hx, hy] at hxy
    exact hxy rfl
  have hn : (0 : K) < rows.length := by have : 0 < rows.length := by omega
                                        exact_mod_cast this
  have hc : 0 < covBias rows 0 0 := by
    unfold covBias
    apply div_pos _ hn
    have hnn : ∀ z ∈ rows.map (fun y => (y 0 - meanVec rows 0) * (y 0 - meanVec rows 0)), 0 ≤ z := by
      simp only [List.mem_map]
      rintro _ ⟨z, _, rfl⟩
      exact mul_self_nonneg _
    rcases lt_or_eq_of_le (List.sum_nonneg hnn) with h3 | h3
    · exact h3
    · exfalso
      have h4 : ∀ z ∈ rows.map (fun y => (y 0 - meanVec rows 0) * (y 0 - meanVec rows 0)), z = 0 := fun z hz =>
        le_antisymm (by rw [h3]; exact List.single_le_sum hnn z hz) (hnn z hz)
      have e1 := h4 _ (List.mem_map.2 ⟨x, hx, rfl⟩)
      have e2 := h4 _ (List.mem_map.2 ⟨y, hy, rfl⟩)
      have e1' := mul_self_eq_zero.1 e1
      have e2' := mul_self_eq_zero.1 e2
      exact hxy (by linarith)
  have hvp : 0 < varPsi ys p (indicator d j) 0 0 := by
    have hcn : 0 ≤ wCov ys (indicator d j) 0 0 := by rw [wCov_indicator h]; exact hc.le
    unfold varPsi
    have hs : 0 ≤ (indicator d j : List K).sum := by rw [sum_indicator_count j ys rows d h]; exact hn.le
    have : 0 ≤ p.lam * (indicator d j : List K).sum / (p.lam + (indicator d j).sum) * ∑ k, (wMean ys (indicator d j) k - p.mu k) * (wMean ys (indicator d j) k - p.mu k) :=
      mul_nonneg (div_nonneg (mul_nonneg hlam hs) (add_nonneg hlam hs)) (Finset.sum_nonneg fun k _ => mul_self_nonneg _)
    linarith
  have hprec : 0 < a.prec 0 0 := by
    by_contra hc'
    have := mul_nonpos_of_nonpos_of_nonneg (not_lt.1 hc') hvp.le
    rw [h2] at this
    exact absurd this (by norm_num)
  have hn1 : (1 : K) < rows.length := by exact_mod_cast (by omega : 1 < rows.length)
  have hlt : varPsi ys p (indicator d j) 0 0 < (posteriorNIW rows p).psi 0 0 := by
    rw [hg]
    have := mul_pos (sub_pos.2 hn1) hc
    linarith
  rw [← h2]
  exact mul_lt_mul_of_pos_left hlt hprec

/-- **Refuted in two and more dimensions**: a group with one observation other than the prior mean. -/
theorem C68_outer_refuted {j : ℕ} {ys : List (Fin m → K)} {x : Fin m → K} {d : List ℕ} (p : NIW K m) (hm : 2 ≤ m) (hlam : 0 < p.lam)
    (h : GM.rowsOf ys d j = .ok [x]) (hx : x ≠ p.mu) : ∃ i, varPsi ys p (indicator d j) i i ≠ (posteriorNIW [x] p).psi i i := by
  by_contra hc
  push Not at hc
  have hmean : ∀ k, meanVec [x] k = x k := fun k => by simp [meanVec]
  have hcoef : p.lam * ((([x] : List (Fin m → K)).length : ℕ) : K) / (p.lam + (([x] : List (Fin m → K)).length : ℕ)) ≠ 0 := by
    simp only [List.length_singleton, Nat.cast_one]
    have : 0 < p.lam + 1 := by linarith
    positivity
  have he : ∀ i, (x i - p.mu i) ^ 2 = ∑ k, (x k - p.mu k) ^ 2 := by
    intro i
    have hg := C68_gap p h i i
    rw [hc i] at hg
    simp only [hmean] at hg
    have h0 : p.lam * ((([x] : List (Fin m → K)).length : ℕ) : K) / (p.lam + (([x] : List (Fin m → K)).length : ℕ)) *
        ((∑ k, (x k - p.mu k) ^ 2) - (x i - p.mu i) * (x i - p.mu i)) = 0 := by
      have h1 : (((([x] : List (Fin m → K)).length : ℕ) : K) - 1) = 0 := by simp
      rw [h1, zero_mul, sub_zero] at hg
      linarith
    rcases mul_eq_zero.1 h0 with h1 | h1
    · exact absurd h1 hcoef
    · linarith [sq (x i - p.mu i)]
  have hsum : (m : K) * ∑ k, (x k - p.mu k) ^ 2 = ∑ k, (x k - p.mu k) ^ 2 := by
    have : ∑ i : Fin m, (x i - p.mu i) ^ 2 = ∑ _i : Fin m, ∑ k, (x k - p.mu k) ^ 2 := Finset.sum_congr rfl fun i _ => he i
    conv_rhs => rw [this]
    simp
  have hz : ∑ k, (x k - p.mu k) ^ 2 = 0 := by
    have hm' : (1 : K) < m := by exact_mod_cast (by omega : 1 < m)
    have : ((m : K) - 1) * ∑ k, (x k - p.mu k) ^ 2 = 0 := by linarith
    rcases mul_eq_zero.1 this with h1 | h1
    · linarith
    · exact h1
  apply hx
  funext i
  have := he i
  rw [hz] at this
  have := pow_eq_zero_iff (two_ne_zero) |>.1 this
  linarith

/-! Three observations of one coordinate, labels `0, 1, 0`; two coordinates, a single observation. -/
example : ((varAtom [fun _ => 0, fun _ => 7, fun _ => 2] (⟨fun _ => 0, 1, fun _ _ => 1, 1⟩ : NIW ℚ 1) ((indicator [0, 1, 0] 0).map fin)).toOption.join.map
      (fun a => a.prec 0 0)) = some (3 / 8) ∧
    GM.rowsOf [fun _ => 0, fun _ => 7, (fun _ => 2 : Fin 1 → ℚ)] [0, 1, 0] 0 = .ok [fun _ => 0, fun _ => 2] ∧
    (posteriorNIW [fun _ => 0, fun _ => 2] (⟨fun _ => 0, 1, fun _ _ => 1, 1⟩ : NIW ℚ 1)).psi 0 0 = 11 / 3 := by
  decide +kernel
example : GM.rowsOf [![1, (0 : ℚ)]] [0] 0 = .ok [![1, 0]] ∧ (![1, (0 : ℚ)]) ≠ fun _ => 0 := by decide +kernel
end Verif.Mix.VM
