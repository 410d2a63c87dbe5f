import Verif.Props.C109
import Verif.Props.C52
import Verif.Lemmas.FlMonoid

/-!
# C110: the data and group terms of the ELBO are the expectations they stand for

The ELBO contains the expected log-density of the data, of the means and precisions under the prior, and (subtracted) under the fitted law.  The densities are
the textbook ones, the expectations Lebesgue integrals over the normal-Wishart law of `Lemmas/NormalWishart`.

* `C110_data`: the code adds up the *averages* over the groups instead of the sums: its data term is, up to the norm for the determinant (C109), the sum over the groups of
  the expectation divided by the total responsibility of the group.  `C110_data_partial`: right for univariate data when every group has total one; `C110_data_refuted`: for a
  fit with one group to two or more observations there are data for which it is wrong.
* `C110_prior`, `C110_prior_partial`: the prior term; right for univariate data.
* `C110_posterior`: the term of the fitted law is too large by half the entropy of the Wishart law plus the dimension, for every group.  `C110_posterior_refuted`: it is right for
  at most one precision, when everything else is fixed.
-/

set_option linter.unusedSectionVars false

namespace Verif.Mix.VM
open MeasureTheory Real Matrix
open Verif.Fl (fin)
open scoped MatrixOrder
variable {m : ℕ}

/-- What the norm in the place of the determinant adds. -/
noncomputable def normGap (P : Matrix (Fin m) (Fin m) ℝ) : ℝ := log (frob realFun P) - log P.det

theorem normGap_of (P : Fin m → Fin m → ℝ) : normGap (.of P) = log (frob realFun P) - log (Matrix.of P).det := rfl

theorem normGap_one {P : Matrix (Fin 1) (Fin 1) ℝ} (hP : P.PosDef) : normGap P = 0 := by
  unfold normGap
  rw [frob_one (P := P) (by simpa using hP.diag_pos (i := 0))]
  exact sub_self _

/-! ### The data -/

/-- `Σ_i r_i f(y_i)`. -/
def wSum (r : List ℝ) (ys : List (Fin m → ℝ)) (f : (Fin m → ℝ) → ℝ) : ℝ := (List.zipWith (fun v y => v * f y) r ys).sum

theorem wSum_add (f g : (Fin m → ℝ) → ℝ) : ∀ (r : List ℝ) (ys : List (Fin m → ℝ)), wSum r ys (fun y => f y + g y) = wSum r ys f + wSum r ys g
  | [], _ => by simp [wSum]
  | _ :: _, [] => by simp [wSum]
  | v :: r, y :: ys => by
    have := wSum_add f g r ys
    unfold wSum at this ⊢
    simp only [List.zipWith_cons_cons, List.sum_cons, this]
    ring

theorem wSum_mul (c : ℝ) (f : (Fin m → ℝ) → ℝ) : ∀ (r : List ℝ) (ys : List (Fin m → ℝ)), wSum r ys (fun y => c * f y) = c * wSum r ys f
  | [], _ => by simp [wSum]
  | _ :: _, [] => by simp [wSum]
  | v :: r, y :: ys => by
    have := wSum_mul c f r ys
    unfold wSum at this ⊢
    simp only [List.zipWith_cons_cons, List.sum_cons, this]
    ring

theorem wSum_const (c : ℝ) : ∀ {r : List ℝ} {ys : List (Fin m → ℝ)}, r.length = ys.length → wSum r ys (fun _ => c) = r.sum * c
  | [], [], _ => by simp [wSum]
  | v :: r, y :: ys, h => by
    have := wSum_const c (r := r) (ys := ys) (by simpa using h)
    unfold wSum at this ⊢
    simp only [List.zipWith_cons_cons, List.sum_cons, this]
    ring

theorem wSum_sum {ι : Type*} (s : Finset ι) (f : ι → (Fin m → ℝ) → ℝ) (r : List ℝ) (ys : List (Fin m → ℝ)) : wSum r ys (fun y => ∑ i ∈ s, f i y) = ∑ i ∈ s, wSum r ys (f i) := by
  classical
  induction s using Finset.induction_on with
  | empty => simpa using wSum_mul (m := m) 0 (fun _ => 0) r ys
  | insert a s ha ih =>
    simp only [Finset.sum_insert ha]
    rw [wSum_add, ih]

theorem wMean_eq (r : List ℝ) (ys : List (Fin m → ℝ)) (i : Fin m) : wMean ys r i = wSum r ys (fun y => y i) / r.sum := by
  have h := wSum_mul (r.sum)⁻¹ (fun y : Fin m → ℝ => y i) r ys
  rw [div_eq_inv_mul, ← h]
  unfold wMean wSum
  congr 2
  ext v y
  rw [div_eq_mul_inv]
  ring

theorem wCov_eq (r : List ℝ) (ys : List (Fin m → ℝ)) (i j : Fin m) :
    wCov ys r i j = wSum r ys (fun y => (y i - wMean ys r i) * (y j - wMean ys r j)) / r.sum := by
  unfold wCov wSum
  simp only [mul_assoc]

/-- The weighted second moments around a point. -/
theorem wSum_pair {r : List ℝ} {ys : List (Fin m → ℝ)} (hl : r.length = ys.length) (hs : r.sum ≠ 0) (mu : Fin m → ℝ) (i j : Fin m) :
    wSum r ys (fun y => (y i - mu i) * (y j - mu j)) = r.sum * (wCov ys r i j + (wMean ys r i - mu i) * (wMean ys r j - mu j)) := by
  have h0 : ∀ i, wSum r ys (fun y => y i - wMean ys r i) = 0 := by
    intro i
    have h1 : wSum r ys (fun y => y i - wMean ys r i) = wSum r ys (fun y => y i + -wMean ys r i) := by simp only [sub_eq_add_neg]
    rw [h1, wSum_add, wSum_const _ hl, wMean_eq]
    field_simp
    ring
  have e : (fun y : Fin m → ℝ => (y i - mu i) * (y j - mu j)) = fun y => (y i - wMean ys r i) * (y j - wMean ys r j)
      + ((wMean ys r j - mu j) * (y i - wMean ys r i) + ((wMean ys r i - mu i) * (y j - wMean ys r j) + (wMean ys r i - mu i) * (wMean ys r j - mu j))) := by
    ext y; ring
  rw [e, wSum_add, wSum_add, wSum_add, wSum_mul, wSum_mul, h0, h0, wSum_const _ hl, wCov_eq]
  field_simp
  ring

theorem wCov_symm (r : List ℝ) (ys : List (Fin m → ℝ)) (i j : Fin m) : wCov ys r i j = wCov ys r j i := by
  rw [wCov_eq, wCov_eq]
  simp only [mul_comm]

/-- The weighted sum of the quadratic forms. -/
theorem wSum_mahalanobis {r : List ℝ} {ys : List (Fin m → ℝ)} (hl : r.length = ys.length) (hs : r.sum ≠ 0) (mu : Fin m → ℝ) (P : Fin m → Fin m → ℝ) :
    wSum r ys (fun y => mahalanobis y mu P) = r.sum * (traceMul (wCov ys r) P + quad P (wMean ys r) mu) := by
  rw [quad_eq]
  unfold mahalanobis traceMul
  have e : (fun y : Fin m → ℝ => ∑ i, ∑ j, (y i - mu i) * P i j * (y j - mu j)) = fun y => ∑ i, ∑ j, P i j * ((y i - mu i) * (y j - mu j)) := by
    ext y
    exact Finset.sum_congr rfl fun i _ => Finset.sum_congr rfl fun j _ => by ring
  rw [e, wSum_sum]
  simp only [wSum_sum, wSum_mul, wSum_pair hl hs]
  rw [Finset.sum_comm (f := fun i j => wCov ys r i j * P j i), ← Finset.sum_add_distrib, Finset.mul_sum]
  refine Finset.sum_congr rfl fun i _ => ?_
  rw [← Finset.sum_add_distrib, Finset.mul_sum]
  exact Finset.sum_congr rfl fun j _ => by rw [wCov_symm r ys j i]; ring

/-- The expected log-density of the data, as far as one group with responsibilities `r` is concerned. -/
noncomputable def dataTerm (r : List ℝ) (ys : List (Fin m → ℝ)) (a : VAtom ℝ m) (L : Matrix (Fin m) (Fin m) ℝ) : ℝ := wSum r ys (expectedLogPdf a L)

theorem dataTerm_value {r : List ℝ} {ys : List (Fin m → ℝ)} (hl : r.length = ys.length) (hs : r.sum ≠ 0) {a : VAtom ℝ m} (ha : ProperAtom a)
    {L : Matrix (Fin m) (Fin m) ℝ} (hL : FactorOf L a) :
    dataTerm r ys a L = r.sum * ((wishartLogDet a.prec a.scale - m * log (2 * π) - m / a.lam - a.scale * traceMul (wCov ys r) a.prec
      - a.scale * quad a.prec (wMean ys r) a.mu) / 2) := by
  unfold dataTerm
  have e : expectedLogPdf a L = fun x => (wishartLogDet a.prec a.scale - m * log (2 * π) - m / a.lam) / 2 + (-(a.scale / 2)) * mahalanobis x a.mu a.prec := by
    ext x
    rw [(C109_value ha hL x).2]
    ring
  rw [e, wSum_add, wSum_const _ hl, wSum_mul, wSum_mahalanobis hl hs]
  ring

/-- One round of the loop. -/
theorem pxTerm_value (hm : 0 < m) {r : List ℝ} {ys : List (Fin m → ℝ)} (hl : r.length = ys.length) (hs : r.sum ≠ 0) {a : VAtom ℝ m} (ha : ProperAtom a)
    {L : Matrix (Fin m) (Fin m) ℝ} (hL : FactorOf L a) :
    pxTerm realFun ys (r.map fin) (some a) = fin (2 * (dataTerm r ys a L / r.sum) + normGap (.of a.prec) + m * log (2 * π)) := by
  rw [dataTerm_value hl hs ha hL, mul_div_cancel_left₀ _ hs]
  unfold pxTerm
  rw [Fl.numbers_fin]
  simp only [if_neg hs]
  rw [C69_wishart_gap hm ha.prec.det_pos]
  show fin _ = fin _
  congr 1
  rw [normGap_of]
  ring

variable {C : WeightClass ℝ} {V : VarClass C} {Atom : Type}

/-- The hypotheses on the object: `k` groups with proper parameters and responsibilities that are numbers with a total other than zero. -/
structure Fitted (s : VM V m Atom) (q : List (List ℝ)) (as : List (VAtom ℝ m)) : Prop where
  groups : s.varK = some (as.length : ℤ)
  theta : s.varTheta = as.map some
  rows : varRows s = q.map (fun r => r.map fin)
  len : q.length = as.length
  each : ∀ r ∈ q, r.length = s.gm.y.length ∧ r.sum ≠ 0
  proper : ∀ a ∈ as, ProperAtom a

theorem px_sum (hm : 0 < m) {ys : List (Fin m → ℝ)} {L : VAtom ℝ m → Matrix (Fin m) (Fin m) ℝ} : ∀ {q : List (List ℝ)} {as : List (VAtom ℝ m)}, q.length = as.length →
    (∀ r ∈ q, r.length = ys.length ∧ r.sum ≠ 0) → (∀ a ∈ as, ProperAtom a) → (∀ a ∈ as, FactorOf (L a) a) →
    List.zipWith (pxTerm realFun ys) (q.map (fun r => r.map fin)) (as.map some) =
      (List.zipWith (fun r a => 2 * (dataTerm r ys a (L a) / r.sum) + normGap (.of a.prec) + m * log (2 * π)) q as).map fin
  | [], [], _, _, _, _ => rfl
  | r :: q, a :: as, h, h1, h2, h3 => by
    simp only [List.map_cons, List.zipWith_cons_cons]
    rw [pxTerm_value hm (h1 r (List.mem_cons_self ..)).1 (h1 r (List.mem_cons_self ..)).2 (h2 a (List.mem_cons_self ..)) (h3 a (List.mem_cons_self ..)),
      px_sum hm (by simpa using h) (fun r hr => h1 r (List.mem_cons_of_mem _ hr)) (fun a ha => h2 a (List.mem_cons_of_mem _ ha))
        (fun a ha => h3 a (List.mem_cons_of_mem _ ha))]

/-- **The data term of the code**: the averages over the groups are added. -/
theorem C110_data (hm : 0 < m) {s : VM V m Atom} {q : List (List ℝ)} {as : List (VAtom ℝ m)} (h : Fitted s q as) {L : VAtom ℝ m → Matrix (Fin m) (Fin m) ℝ}
    (hL : ∀ a ∈ as, FactorOf (L a) a) :
    eLogPx realFun s = fin (List.zipWith (fun r a => dataTerm r s.gm.y a (L a) / r.sum + normGap (.of a.prec) / 2) q as).sum := by
  unfold eLogPx
  rw [h.rows, h.theta, h.groups, px_sum hm h.len h.each h.proper hL, Fl.sum_fin]
  show fin _ = fin _
  congr 1
  have : ∀ (q : List (List ℝ)) (as : List (VAtom ℝ m)), q.length = as.length →
      (List.zipWith (fun r a => 2 * (dataTerm r s.gm.y a (L a) / r.sum) + normGap (.of a.prec) + m * log (2 * π)) q as).sum
        = 2 * (List.zipWith (fun r a => dataTerm r s.gm.y a (L a) / r.sum + normGap (.of a.prec) / 2) q as).sum + as.length * (m * log (2 * π)) := by
    intro q
    induction q with
    | nil => intro as h; cases as with
      | nil => simp
      | cons => simp at h
    | cons r q ih => intro as h; cases as with
      | nil => simp at h
      | cons a as =>
        simp only [List.zipWith_cons_cons, List.sum_cons, List.length_cons]
        rw [ih as (by simpa using h)]
        push_cast
        ring
  rw [this q as h.len]
  show 1 / 2 * (_ + -((m : ℝ) * log (2 * π) * _)) = _
  rw [Option.getD_some, Int.cast_natCast]
  ring

/-- **Univariate data, every group with total responsibility one**: the data term is right.  What is missing: everything else. -/
theorem C110_data_partial {s : VM V 1 Atom} {q : List (List ℝ)} {as : List (VAtom ℝ 1)} (h : Fitted s q as) {L : VAtom ℝ 1 → Matrix (Fin 1) (Fin 1) ℝ}
    (hL : ∀ a ∈ as, FactorOf (L a) a) (h1 : ∀ r ∈ q, r.sum = 1) :
    eLogPx realFun s = fin (List.zipWith (fun r a => dataTerm r s.gm.y a (L a)) q as).sum := by
  rw [C110_data one_pos h hL]
  congr 2
  have : ∀ (q : List (List ℝ)) (as : List (VAtom ℝ 1)), (∀ r ∈ q, r.sum = 1) → (∀ a ∈ as, ProperAtom a) →
      List.zipWith (fun r a => dataTerm r s.gm.y a (L a) / r.sum + normGap (.of a.prec) / 2) q as = List.zipWith (fun r a => dataTerm r s.gm.y a (L a)) q as := by
    intro q
    induction q with
    | nil => intro as _ _; simp
    | cons r q ih => intro as h1 h2; cases as with
      | nil => simp
      | cons a as =>
        simp only [List.zipWith_cons_cons]
        rw [ih as (fun r hr => h1 r (List.mem_cons_of_mem _ hr)) (fun a ha => h2 a (List.mem_cons_of_mem _ ha)), h1 r (List.mem_cons_self ..),
          normGap_one (h2 a (List.mem_cons_self ..)).prec]
        simp
  exact this q as h1 h.proper

theorem wSum_replicate (n : ℕ) (x : Fin m → ℝ) (f : (Fin m → ℝ) → ℝ) : wSum (List.replicate n 1) (List.replicate n x) f = n * f x := by
  unfold wSum
  rw [List.zipWith_replicate', List.sum_replicate]
  simp

/-- **One group, two or more observations**: whatever the parameters of the group, there are data for which the data term is wrong. -/
theorem C110_data_refuted {n : ℕ} (hn : 2 ≤ n) {a : VAtom ℝ 1} (ha : ProperAtom a) {L : Matrix (Fin 1) (Fin 1) ℝ} (hL : FactorOf L a) :
    ∃ ys : List (Fin 1 → ℝ), ys.length = n ∧ ∀ s : VM V 1 Atom, s.gm.y = ys → s.varK = some 1 → s.varTheta = [some a] → s.varD = List.replicate n [fin 1] →
      eLogPx realFun s ≠ fin (dataTerm (List.replicate n 1) ys a L) := by
  have hP : 0 < a.prec 0 0 := by simpa using ha.prec.diag_pos (i := 0)
  have hsc : 0 < a.scale := by have := ha.scale; simpa using this
  set A := a.scale * a.prec 0 0 with hA
  have hA0 : 0 < A := mul_pos hsc hP
  set c := wishartLogDet a.prec a.scale - (1 : ℕ) * log (2 * π) - (1 : ℕ) / a.lam with hc
  set t := (|c| + 1) / A + 1 with ht
  have ht1 : 1 ≤ t := by
    have : 0 ≤ (|c| + 1) / A := by positivity
    linarith
  have hAt : |c| + 1 ≤ A * t ^ 2 := by
    have h1 : A * t = |c| + 1 + A := by rw [ht]; field_simp
    have h2 : A * t ≤ A * t ^ 2 := by
      apply mul_le_mul_of_nonneg_left _ hA0.le
      nlinarith
    linarith
  refine ⟨List.replicate n (fun _ => a.mu 0 + t), by simp, ?_⟩
  intro s hy hk hth hd he
  have hrows : varRows s = [(List.replicate n (1 : ℝ)).map fin] := by
    unfold varRows
    rw [hk, hd]
    simp
  have hf : Fitted s [List.replicate n 1] [a] := ⟨by simpa using hk, by simpa using hth, by simpa using hrows, rfl, by
    intro r hr
    rw [List.mem_singleton] at hr
    rw [hr, hy]
    refine ⟨by simp, ?_⟩
    simp
    omega, by
    intro b hb
    rw [List.mem_singleton] at hb
    rw [hb]; exact ha⟩
  rw [C110_data one_pos hf (L := fun _ => L) (by
    intro b hb
    rw [List.mem_singleton] at hb
    rw [hb]; exact hL)] at he
  have hn0 : (n : ℝ) ≠ 0 := by positivity
  have hn1 : (n : ℝ) ≠ 1 := by
    have : n ≠ 1 := by omega
    exact_mod_cast this
  rw [Fl.fin.injEq] at he
  simp only [List.zipWith_cons_cons, List.zipWith_nil_left, List.sum_cons, List.sum_nil, add_zero] at he
  rw [hy, normGap_one ha.prec] at he
  unfold dataTerm at he
  rw [wSum_replicate, List.sum_replicate, nsmul_eq_mul, mul_one, mul_div_cancel_left₀ _ hn0, zero_div, add_zero, (C109_value ha hL _).2] at he
  have hq : mahalanobis (fun _ => a.mu 0 + t) a.mu a.prec = a.prec 0 0 * t ^ 2 := by
    unfold mahalanobis
    rw [Fin.sum_univ_one, Fin.sum_univ_one]
    ring
  rw [hq] at he
  have h0 : (c - A * t ^ 2) / 2 = n * ((c - A * t ^ 2) / 2) := by
    rw [hc, hA]
    linear_combination he
  have h1 : (n - 1) * ((c - A * t ^ 2) / 2) = 0 := by linear_combination -h0
  rcases mul_eq_zero.1 h1 with h | h
  · exact hn1 (by linarith)
  · have := le_abs_self c
    linarith

/-! ### The groups -/

/-- The multivariate Gamma function. -/
noncomputable def multiGamma (m : ℕ) (x : ℝ) : ℝ := π ^ ((m : ℝ) * (m - 1) / 4) * ∏ i : Fin m, Gamma (x - (i : ℕ) / 2)

/-- The density of the Wishart distribution with scale matrix `P` and `nu` degrees of freedom. -/
noncomputable def wishartPdf (P : Matrix (Fin m) (Fin m) ℝ) (nu : ℝ) (Λ : Matrix (Fin m) (Fin m) ℝ) : ℝ :=
  Λ.det ^ ((nu - m - 1) / 2) * exp (-(P⁻¹ * Λ).trace / 2) / (2 ^ (nu * m / 2) * P.det ^ (nu / 2) * multiGamma m (nu / 2))

/-- The density of the normal-Wishart distribution: `Λ` is Wishart and the mean, given `Λ`, normal with precision `lam Λ`. -/
noncomputable def normalWishartPdf (mu0 : Fin m → ℝ) (lam : ℝ) (P : Matrix (Fin m) (Fin m) ℝ) (nu : ℝ) (mu : Fin m → ℝ) (Λ : Matrix (Fin m) (Fin m) ℝ) : ℝ :=
  normalPdf mu mu0 (lam • Λ) * wishartPdf P nu Λ

/-- With one coordinate the Wishart density is that of a Gamma distribution. -/
theorem wishartPdf_one {P : Matrix (Fin 1) (Fin 1) ℝ} (hP : 0 < P 0 0) {nu : ℝ} {Λ : Matrix (Fin 1) (Fin 1) ℝ} (hΛ : 0 < Λ 0 0) :
    wishartPdf P nu Λ = ProbabilityTheory.gammaPDFReal (nu / 2) (1 / (2 * P 0 0)) (Λ 0 0) := by
  unfold wishartPdf ProbabilityTheory.gammaPDFReal multiGamma
  rw [if_pos hΛ.le, det_fin_one, det_fin_one]
  have h1 : (P⁻¹ * Λ).trace = Λ 0 0 / P 0 0 := by
    rw [inv_def, det_fin_one, Matrix.trace_fin_one]
    simp [Matrix.mul_apply, Matrix.adjugate_fin_one]
    field_simp
  rw [h1]
  have h2 : (1 / (2 * P 0 0)) ^ (nu / 2) = (2 ^ (nu / 2) * P 0 0 ^ (nu / 2))⁻¹ := by
    rw [one_div, Real.inv_rpow (by positivity), Real.mul_rpow (by norm_num) hP.le]
  have h3 : -(Λ 0 0 / P 0 0) / 2 = -(1 / (2 * P 0 0) * Λ 0 0) := by field_simp
  have h4 : (nu - (1 : ℕ) - 1) / 2 = nu / 2 - 1 := by push_cast; ring
  rw [h2, h3, h4]
  simp only [Nat.cast_one, mul_one, sub_self, mul_zero, zero_div, Real.rpow_zero, one_mul, Finset.univ_unique, Fin.default_eq_zero, Fin.isValue,
    Fin.val_zero, Nat.cast_zero, sub_zero, Finset.prod_singleton]
  rw [div_eq_mul_inv, mul_inv, div_eq_mul_inv]
  ring

theorem multiGamma_pos {nu : ℝ} (hnu : (m : ℝ) - 1 < nu) : 0 < multiGamma m (nu / 2) := by
  unfold multiGamma
  refine mul_pos (Real.rpow_pos_of_pos Real.pi_pos _) (Finset.prod_pos fun i _ => Real.Gamma_pos_of_pos ?_)
  have := NW.shape_pos hnu i
  linarith

/-- The logarithm of the norming constant. -/
noncomputable def wishartConst (P : Matrix (Fin m) (Fin m) ℝ) (nu : ℝ) : ℝ :=
  nu * m / 2 * log 2 + nu / 2 * log P.det + ((m : ℝ) * (m - 1) / 4 * log π + ∑ i : Fin m, log (Gamma ((nu - (i : ℕ)) / 2)))

theorem log_wishartPdf {P Λ : Matrix (Fin m) (Fin m) ℝ} (hP : 0 < P.det) (hΛ : 0 < Λ.det) {nu : ℝ} (hnu : (m : ℝ) - 1 < nu) :
    log (wishartPdf P nu Λ) = (nu - m - 1) / 2 * log Λ.det - (P⁻¹ * Λ).trace / 2 - wishartConst P nu := by
  have hg := multiGamma_pos hnu
  have h1 : 0 < Λ.det ^ ((nu - m - 1) / 2) := Real.rpow_pos_of_pos hΛ _
  have h2 : (0 : ℝ) < 2 ^ (nu * m / 2) := Real.rpow_pos_of_pos (by norm_num) _
  have h3 : 0 < P.det ^ (nu / 2) := Real.rpow_pos_of_pos hP _
  have h4 : log (multiGamma m (nu / 2)) = (m : ℝ) * (m - 1) / 4 * log π + ∑ i : Fin m, log (Gamma ((nu - (i : ℕ)) / 2)) := by
    unfold multiGamma
    have hp : ∀ i : Fin m, 0 < Gamma (nu / 2 - (i : ℕ) / 2) := fun i => Real.Gamma_pos_of_pos (by have := NW.shape_pos hnu i; linarith)
    rw [Real.log_mul (Real.rpow_pos_of_pos Real.pi_pos _).ne' (Finset.prod_pos fun i _ => hp i).ne', Real.log_rpow Real.pi_pos, Real.log_prod fun i _ => (hp i).ne']
    simp only [sub_div]
  unfold wishartPdf wishartConst
  rw [Real.log_div (mul_pos h1 (Real.exp_pos _)).ne' (mul_pos (mul_pos h2 h3) hg).ne', Real.log_mul h1.ne' (Real.exp_pos _).ne', Real.log_exp, Real.log_rpow hΛ,
    Real.log_mul (mul_pos h2 h3).ne' hg.ne', Real.log_mul h2.ne' h3.ne', Real.log_rpow (by norm_num), Real.log_rpow hP, h4]
  ring

/-- The expectation of the logarithm of a Wishart density under the law of a group. -/
theorem expected_wishart {a : VAtom ℝ m} (ha : ProperAtom a) {L : Matrix (Fin m) (Fin m) ℝ} (hL : FactorOf L a) {P : Matrix (Fin m) (Fin m) ℝ} (hP : 0 < P.det)
    {nu : ℝ} (hnu : (m : ℝ) - 1 < nu) :
    Integrable (fun ω => log (wishartPdf P nu (NW.precision L ω))) (NW.joint m a.scale) ∧
    ∫ ω, log (wishartPdf P nu (NW.precision L ω)) ∂NW.joint m a.scale =
      (nu - m - 1) / 2 * wishartLogDet a.prec a.scale - a.scale * (P⁻¹ * Matrix.of a.prec).trace / 2 - wishartConst P nu := by
  have hdet := factor_det ha.prec hL
  have hPr : (L * Lᵀ : Matrix (Fin m) (Fin m) ℝ) = a.prec := hL.symm
  have h1 := NW.expected_log_det ha.scale hdet
  rw [hPr] at h1
  have := NW.joint_prob (m := m) ha.scale
  have he : ∀ i j, Integrable (fun ω => NW.precision L ω i j) (NW.joint m a.scale) ∧ ∫ ω, NW.precision L ω i j ∂NW.joint m a.scale = a.scale * a.prec i j := by
    intro i j
    have := NW.expected_entry ha.scale L i j
    rw [hPr] at this
    exact this
  have ht : Integrable (fun ω => (P⁻¹ * NW.precision L ω).trace) (NW.joint m a.scale) ∧
      ∫ ω, (P⁻¹ * NW.precision L ω).trace ∂NW.joint m a.scale = a.scale * (P⁻¹ * Matrix.of a.prec).trace := by
    have e : ∀ Λ : Matrix (Fin m) (Fin m) ℝ, (P⁻¹ * Λ).trace = ∑ i, ∑ j, P⁻¹ i j * Λ j i := fun Λ => rfl
    simp only [e]
    refine ⟨integrable_finsetSum _ fun i _ => integrable_finsetSum _ fun j _ => (he j i).1.const_mul _, ?_⟩
    refine (integral_finsetSum _ fun i _ => integrable_finsetSum _ fun j _ => (he j i).1.const_mul _).trans ?_
    rw [Finset.mul_sum]
    refine Finset.sum_congr rfl fun i _ => ?_
    refine (integral_finsetSum _ fun j _ => (he j i).1.const_mul _).trans ?_
    rw [Finset.mul_sum]
    refine Finset.sum_congr rfl fun j _ => ?_
    refine (integral_const_mul _ _).trans ?_
    rw [(he j i).2]
    show _ = a.scale * (P⁻¹ i j * a.prec j i)
    ring
  have hc : (fun ω => log (wishartPdf P nu (NW.precision L ω))) =ᵐ[NW.joint m a.scale]
      fun ω => (nu - m - 1) / 2 * log (NW.precision L ω).det - (P⁻¹ * NW.precision L ω).trace / 2 - wishartConst P nu := by
    filter_upwards [NW.chi_pos ha.scale] with ω h
    exact log_wishartPdf hP (NW.precision_det_pos hdet h) hnu
  have h3 : Integrable (fun ω => (nu - m - 1) / 2 * log (NW.precision L ω).det - (P⁻¹ * NW.precision L ω).trace / 2) (NW.joint m a.scale) :=
    (h1.1.const_mul _).sub (ht.1.div_const 2)
  refine ⟨(h3.sub (integrable_const _)).congr hc.symm, ?_⟩
  rw [integral_congr_ae hc, integral_sub h3 (integrable_const _), integral_sub (h1.1.const_mul _) (ht.1.div_const 2), integral_const_mul, integral_div, h1.2, ht.2,
    integral_const]
  simp

theorem mahalanobis_swap (x y : Fin m → ℝ) (c : ℝ) (P : Matrix (Fin m) (Fin m) ℝ) : mahalanobis x y (c • P) = c * mahalanobis y x P := by
  unfold mahalanobis
  rw [Finset.mul_sum]
  refine Finset.sum_congr rfl fun i _ => ?_
  rw [Finset.mul_sum]
  refine Finset.sum_congr rfl fun j _ => ?_
  simp only [Matrix.smul_apply, smul_eq_mul]
  ring

/-- The expectation of the logarithm of a normal-Wishart density under the law of a group. -/
theorem expected_normalWishart {a : VAtom ℝ m} (ha : ProperAtom a) {L : Matrix (Fin m) (Fin m) ℝ} (hL : FactorOf L a) {P : Matrix (Fin m) (Fin m) ℝ} (hP : 0 < P.det)
    {nu lam : ℝ} (hnu : (m : ℝ) - 1 < nu) (hl : 0 < lam) (mu0 : Fin m → ℝ) :
    Integrable (fun ω => log (normalWishartPdf mu0 lam P nu (NW.centre a.mu a.lam L ω) (NW.precision L ω))) (NW.joint m a.scale) ∧
    ∫ ω, log (normalWishartPdf mu0 lam P nu (NW.centre a.mu a.lam L ω) (NW.precision L ω)) ∂NW.joint m a.scale =
      (m * log (lam / (2 * π)) + (nu - m) * wishartLogDet a.prec a.scale - lam * (a.scale * mahalanobis mu0 a.mu a.prec + m / a.lam)
        - a.scale * (P⁻¹ * Matrix.of a.prec).trace) / 2 - wishartConst P nu := by
  have hdet := factor_det ha.prec hL
  have hPr : (L * Lᵀ : Matrix (Fin m) (Fin m) ℝ) = a.prec := hL.symm
  have h1 := NW.expected_log_det ha.scale hdet
  have h2 := NW.expected_mahalanobis ha.scale hdet mu0 a.mu ha.lam
  rw [hPr] at h1 h2
  have hw := expected_wishart ha hL hP hnu
  have := NW.joint_prob (m := m) ha.scale
  have hc : (fun ω => log (normalWishartPdf mu0 lam P nu (NW.centre a.mu a.lam L ω) (NW.precision L ω))) =ᵐ[NW.joint m a.scale]
      fun ω => (log (NW.precision L ω).det + m * log (lam / (2 * π)) - lam * mahalanobis mu0 (NW.centre a.mu a.lam L ω) (NW.precision L ω)) / 2
        + log (wishartPdf P nu (NW.precision L ω)) := by
    filter_upwards [NW.chi_pos ha.scale] with ω h
    have hd := NW.precision_det_pos hdet h
    have hd2 : 0 < (lam • NW.precision L ω).det := by
      rw [det_smul]
      exact mul_pos (pow_pos hl _) hd
    have hwp : 0 < wishartPdf P nu (NW.precision L ω) := by
      unfold wishartPdf
      exact div_pos (mul_pos (Real.rpow_pos_of_pos hd _) (Real.exp_pos _))
        (mul_pos (mul_pos (Real.rpow_pos_of_pos (by norm_num) _) (Real.rpow_pos_of_pos hP _)) (multiGamma_pos hnu))
    have hnp : 0 < normalPdf (NW.centre a.mu a.lam L ω) mu0 (lam • NW.precision L ω) := normalPdf_pos _ _ hd2
    unfold normalWishartPdf
    rw [Real.log_mul hnp.ne' hwp.ne', log_normalPdf _ _ hd2, mahalanobis_swap, det_smul, Fintype.card_fin, Real.log_mul (pow_pos hl _).ne' hd.ne', Real.log_pow,
      Real.log_div hl.ne' (by positivity)]
    ring
  have h3 : Integrable (fun ω => log (NW.precision L ω).det + m * log (lam / (2 * π))) (NW.joint m a.scale) := h1.1.add (integrable_const _)
  have h4 : Integrable (fun ω => log (NW.precision L ω).det + m * log (lam / (2 * π)) - lam * mahalanobis mu0 (NW.centre a.mu a.lam L ω) (NW.precision L ω))
    (NW.joint m a.scale) := h3.sub (h2.1.const_mul _)
  refine ⟨((h4.div_const 2).add hw.1).congr hc.symm, ?_⟩
  have h5 : ∫ ω, lam * mahalanobis mu0 (NW.centre a.mu a.lam L ω) (NW.precision L ω) ∂NW.joint m a.scale = lam * (a.scale * mahalanobis mu0 a.mu a.prec + m / a.lam) :=
    (integral_const_mul _ _).trans (by rw [h2.2])
  rw [integral_congr_ae hc, integral_add (h4.div_const 2) hw.1, integral_div, integral_sub h3 (h2.1.const_mul _), integral_add h1.1 (integrable_const _),
    h1.2, hw.2, integral_const, h5]
  simp only [probReal_univ, one_smul]
  ring

/-- The expected log-density of the mean and precision of a group under a prior `p` whose matrix `psi` is the inverse of the scale matrix. -/
noncomputable def priorTerm (p : NIW ℝ m) (a : VAtom ℝ m) (L : Matrix (Fin m) (Fin m) ℝ) : ℝ :=
  ∫ ω, log (normalWishartPdf p.mu p.lam (Matrix.of p.psi)⁻¹ p.nu (NW.centre a.mu a.lam L ω) (NW.precision L ω)) ∂NW.joint m a.scale

/-- The expected log-density of the mean and precision of a group under its own law. -/
noncomputable def posteriorTerm (a : VAtom ℝ m) (L : Matrix (Fin m) (Fin m) ℝ) : ℝ :=
  ∫ ω, log (normalWishartPdf a.mu a.lam (Matrix.of a.prec) a.scale (NW.centre a.mu a.lam L ω) (NW.precision L ω)) ∂NW.joint m a.scale

/-- The entropy of the Wishart law of a group. -/
noncomputable def wishartEntropy (a : VAtom ℝ m) (L : Matrix (Fin m) (Fin m) ℝ) : ℝ :=
  -∫ ω, log (wishartPdf (Matrix.of a.prec) a.scale (NW.precision L ω)) ∂NW.joint m a.scale

theorem lgamma_sum (nu : ℝ) : ((List.range m).map (fun i => realFun.lgamma ((nu - (i : ℕ)) / 2))).sum = ∑ i : Fin m, log (Gamma ((nu - (i : ℕ)) / 2)) := by
  rw [← List.sum_ofFn, ← List.map_coe_finRange_eq_range, List.map_map, List.ofFn_eq_map]
  rfl

/-- The norming constant in the code. -/
theorem logWishartNorm_value (hm : 0 < m) {P : Fin m → Fin m → ℝ} (hd : 0 < (Matrix.of P).det) (nu : ℝ) :
    logWishartNorm realFun P nu = fin (-wishartConst (Matrix.of P) nu - nu / 2 * normGap (.of P)) := by
  have hf := frob_real_pos hm hd
  have h1 : Fl.log realFun.log (.fin (frob realFun P)) = .fin (log (frob realFun P)) := by
    unfold Fl.log
    simp only []
    rw [if_neg (not_lt.2 hf.le), if_neg hf.ne']
    rfl
  unfold logWishartNorm
  rw [h1, lgamma_sum]
  show fin _ = fin _
  congr 1
  rw [normGap_of]
  unfold wishartConst
  show -nu / 2 * log (frob realFun P) + -(log 2 * (nu * m / 2) + log π * ((m : ℝ) * ((m : ℝ) - 1) / 4) + _) = _
  ring

theorem mahalanobis_comm (x y : Fin m → ℝ) (P : Fin m → Fin m → ℝ) : mahalanobis x y P = mahalanobis y x P := by
  unfold mahalanobis
  exact Finset.sum_congr rfl fun i _ => Finset.sum_congr rfl fun j _ => by ring

theorem pThetaTerm_value (hm : 0 < m) {p : NIW ℝ m} (hp : ProperPrior p) {a : VAtom ℝ m} (ha : ProperAtom a) {L : Matrix (Fin m) (Fin m) ℝ} (hL : FactorOf L a) :
    pThetaTerm realFun p (some a) = fin (2 * (priorTerm p a L + wishartConst (Matrix.of p.psi)⁻¹ p.nu) - m * log (p.lam / (2 * π)) + (p.nu - m) * normGap (.of a.prec)) := by
  have hu : IsUnit (Matrix.of p.psi).det := hp.psi.det_pos.ne'.isUnit
  unfold priorTerm
  rw [(expected_normalWishart ha hL hp.psi.inv.det_pos hp.nu hp.lam p.mu).2, nonsing_inv_nonsing_inv _ hu]
  unfold pThetaTerm
  simp only []
  rw [C69_wishart_gap hm ha.prec.det_pos, quad_eq, mahalanobis_comm]
  show fin _ = fin _
  congr 1
  have : traceMul p.psi a.prec = (Matrix.of p.psi * Matrix.of a.prec).trace := rfl
  rw [this]
  rw [normGap_of]
  ring

theorem matInv_posDef {P : Fin m → Fin m → ℝ} (hP : (Matrix.of P).PosDef) : ∃ Q, matInv P = .ok Q ∧ Matrix.of Q = (Matrix.of P)⁻¹ := by
  unfold matInv
  rw [if_neg hP.det_pos.ne']
  refine ⟨_, rfl, ?_⟩
  rw [inv_def]
  ext i j
  simp only [of_apply, Matrix.smul_apply, smul_eq_mul, Ring.inverse_eq_inv']
  rw [div_eq_inv_mul]

/-- **The prior term of the code.** -/
theorem C110_prior (hm : 0 < m) {s : VM V m Atom} {q : List (List ℝ)} {as : List (VAtom ℝ m)} (h : Fitted s q as) (hp : ProperPrior (GM.prior s.gm))
    {L : VAtom ℝ m → Matrix (Fin m) (Fin m) ℝ} (hL : ∀ a ∈ as, FactorOf (L a) a) :
    eLogPTheta realFun s = .ok (fin (as.map fun a => priorTerm (GM.prior s.gm) a (L a) + ((GM.prior s.gm).nu - m) / 2 * normGap (.of a.prec)
      - (GM.prior s.gm).nu / 2 * normGap (Matrix.of (GM.prior s.gm).psi)⁻¹).sum) := by
  obtain ⟨Q, hQ, hQ2⟩ := matInv_posDef hp.psi
  have hQd : 0 < (Matrix.of Q).det := by rw [hQ2]; exact hp.psi.inv.det_pos
  have ht : (as.map some).map (pThetaTerm realFun (GM.prior s.gm)) = (as.map fun a => 2 * (priorTerm (GM.prior s.gm) a (L a)
      + wishartConst (Matrix.of (GM.prior s.gm).psi)⁻¹ (GM.prior s.gm).nu) - m * log ((GM.prior s.gm).lam / (2 * π)) + ((GM.prior s.gm).nu - m) * normGap (.of a.prec)).map fin := by
    rw [List.map_map, List.map_map]
    exact List.map_congr_left fun a ha => pThetaTerm_value hm hp (h.proper a ha) (hL a ha)
  unfold eLogPTheta
  rw [hQ]
  simp only []
  rw [h.theta, h.groups, ht, Fl.sum_fin, logWishartNorm_value hm hQd, hQ2]
  show Except.ok (fin _) = Except.ok (fin _)
  congr 2
  show 1 / 2 * (_ + (m : ℝ) * log ((GM.prior s.gm).lam / (2 * π)) * _) + _ * _ = _
  rw [Option.getD_some, Int.cast_natCast]
  generalize wishartConst (Matrix.of (GM.prior s.gm).psi)⁻¹ (GM.prior s.gm).nu = c
  generalize normGap (Matrix.of (GM.prior s.gm).psi)⁻¹ = g
  clear ht hL h
  induction as with
  | nil => simp
  | cons a as ih =>
    simp only [List.map_cons, List.sum_cons, List.length_cons]
    push_cast
    linear_combination ih

/-- **Univariate data**: the prior term is right.  What is missing: more coordinates. -/
theorem C110_prior_partial {s : VM V 1 Atom} {q : List (List ℝ)} {as : List (VAtom ℝ 1)} (h : Fitted s q as) (hp : ProperPrior (GM.prior s.gm))
    {L : VAtom ℝ 1 → Matrix (Fin 1) (Fin 1) ℝ} (hL : ∀ a ∈ as, FactorOf (L a) a) :
    eLogPTheta realFun s = .ok (fin (as.map fun a => priorTerm (GM.prior s.gm) a (L a)).sum) := by
  rw [C110_prior one_pos h hp hL]
  congr 3
  refine List.map_congr_left fun a ha => ?_
  have : normGap (Matrix.of (GM.prior s.gm).psi)⁻¹ = 0 := normGap_one hp.psi.inv
  rw [normGap_one (h.proper a ha).prec, this]
  ring

/-- The entropy of the Wishart law and the expected log-density under the law itself. -/
theorem posteriorTerm_value {a : VAtom ℝ m} (ha : ProperAtom a) {L : Matrix (Fin m) (Fin m) ℝ} (hL : FactorOf L a) :
    wishartEntropy a L = wishartConst (Matrix.of a.prec) a.scale - (a.scale - m - 1) / 2 * wishartLogDet a.prec a.scale + a.scale * m / 2 ∧
    posteriorTerm a L = (m * log (a.lam / (2 * π)) + wishartLogDet a.prec a.scale - m) / 2 - wishartEntropy a L := by
  have hu : IsUnit (Matrix.of a.prec).det := ha.prec.det_pos.ne'.isUnit
  have h1 : wishartEntropy a L = wishartConst (Matrix.of a.prec) a.scale - (a.scale - m - 1) / 2 * wishartLogDet a.prec a.scale + a.scale * m / 2 := by
    unfold wishartEntropy
    rw [(expected_wishart ha hL ha.prec.det_pos ha.scale).2, nonsing_inv_mul _ hu, trace_one, Fintype.card_fin]
    ring
  refine ⟨h1, ?_⟩
  rw [h1]
  unfold posteriorTerm
  rw [(expected_normalWishart ha hL ha.prec.det_pos ha.scale ha.lam a.mu).2, nonsing_inv_mul _ hu, trace_one, Fintype.card_fin]
  have h2 : mahalanobis a.mu a.mu a.prec = 0 := by simp [mahalanobis]
  rw [h2]
  have := ha.lam.ne'
  field_simp
  ring

theorem qThetaTerm_value (hm : 0 < m) {a : VAtom ℝ m} (ha : ProperAtom a) {L : Matrix (Fin m) (Fin m) ℝ} (hL : FactorOf L a) :
    qThetaTerm realFun (some a) = fin (2 * (posteriorTerm a L + wishartEntropy a L / 2 + m + (1 - m) / 4 * normGap (.of a.prec)) - m) := by
  obtain ⟨h1, h2⟩ := posteriorTerm_value ha hL
  rw [h2, h1]
  unfold qThetaTerm entropyWishart
  simp only []
  rw [C69_wishart_gap hm ha.prec.det_pos, logWishartNorm_value hm ha.prec.det_pos]
  show fin _ = fin _
  congr 1
  show _ + (m : ℝ) * log (a.lam / (2 * π)) + -((- _ + -((a.scale - m - 1) / 2 * _)) + a.scale * m / 2) = _
  rw [normGap_of]
  ring

/-- **The term of the fitted law in the code**: too large by half the entropy of the Wishart law and the dimension, for every group. -/
theorem C110_posterior (hm : 0 < m) {s : VM V m Atom} {q : List (List ℝ)} {as : List (VAtom ℝ m)} (h : Fitted s q as)
    {L : VAtom ℝ m → Matrix (Fin m) (Fin m) ℝ} (hL : ∀ a ∈ as, FactorOf (L a) a) :
    eLogQTheta realFun s = fin (as.map fun a => posteriorTerm a (L a) + wishartEntropy a (L a) / 2 + m + (1 - m) / 4 * normGap (.of a.prec)).sum := by
  have ht : (as.map some).map (qThetaTerm realFun) = (as.map fun a => 2 * (posteriorTerm a (L a) + wishartEntropy a (L a) / 2 + m + (1 - m) / 4 * normGap (.of a.prec)) - m).map fin := by
    rw [List.map_map, List.map_map]
    exact List.map_congr_left fun a ha => qThetaTerm_value hm (h.proper a ha) (hL a ha)
  unfold eLogQTheta
  rw [h.theta, h.groups, ht, Fl.sum_fin]
  show fin _ = fin _
  congr 1
  show 1 / 2 * (_ + (m : ℝ) * _) = _
  rw [Option.getD_some, Int.cast_natCast]
  clear ht hL h
  induction as with
  | nil => simp
  | cons a as ih =>
    simp only [List.map_cons, List.sum_cons, List.length_cons]
    push_cast
    linear_combination ih

/-- **Two univariate groups with the same degrees of freedom**, each the only group of an object: the term is wrong for at least one of them. -/
theorem C110_posterior_refuted {s t : VM V 1 Atom} {r r' : List ℝ} {a b : VAtom ℝ 1} (hs : Fitted s [r] [a]) (ht : Fitted t [r'] [b]) (hsc : a.scale = b.scale)
    (hne : a.prec 0 0 ≠ b.prec 0 0) {L L' : Matrix (Fin 1) (Fin 1) ℝ} (hL : FactorOf L a) (hL' : FactorOf L' b) :
    ¬ (eLogQTheta realFun s = fin (posteriorTerm a L) ∧ eLogQTheta realFun t = fin (posteriorTerm b L')) := by
  rintro ⟨h1, h2⟩
  have ha := hs.proper a (List.mem_singleton_self a)
  have hb := ht.proper b (List.mem_singleton_self b)
  rw [C110_posterior one_pos hs (L := fun _ => L) (by intro c hc; rw [List.mem_singleton] at hc; rw [hc]; exact hL)] at h1
  rw [C110_posterior one_pos ht (L := fun _ => L') (by intro c hc; rw [List.mem_singleton] at hc; rw [hc]; exact hL')] at h2
  rw [Fl.fin.injEq] at h1 h2
  simp only [List.map_cons, List.map_nil, List.sum_cons, List.sum_nil, add_zero] at h1 h2
  rw [normGap_one ha.prec] at h1
  rw [normGap_one hb.prec] at h2
  have e : wishartEntropy a L = wishartEntropy b L' := by linarith
  rw [(posteriorTerm_value ha hL).1, (posteriorTerm_value hb hL').1, hsc] at e
  unfold wishartConst wishartLogDet at e
  rw [det_fin_one, det_fin_one] at e
  have hap : 0 < a.prec 0 0 := by simpa using ha.prec.diag_pos (i := 0)
  have hbp : 0 < b.prec 0 0 := by simpa using hb.prec.diag_pos (i := 0)
  apply hne
  apply Real.log_injOn_pos hap hbp
  simp only [of_apply, Nat.cast_one] at e
  linarith

/-- **The hypotheses hold after every fit** that starts at random, makes an iteration and has a proper prior. -/
theorem C110_fit {ω : Oracle ℝ} {W : World ℝ m Atom} {I : C.State → Prop} {F : VWorld ℝ m} (hF : Sane F.toMathFun) (he : 0 < W.eps) (hV : Regular V I) (hm : 0 < m)
    {ys : List (Fin m → ℝ)} (hy : ys ≠ []) (nG : Option ℤ) (tol : ℝ) {s u : VM V m Atom × ℕ} (hI : I s.1.gm.wst.1) (hT : 0 < s.1.gm.totalIter)
    (hp : ProperPrior (GM.prior (begun ys s.1).gm)) (h : fitVariational F W (.rows ys) nG false (.fin tol) .random ω s = (.ok (), u)) :
    ∃ q as, Fitted u.1 q as ∧ 0 < as.length := by
  obtain ⟨k, _, hpr, hr, hyy⟩ := C52_random hF he hV hm hy nG (.fin tol) hI h
  have hP := C109_fit hF he hV hm hy nG tol hI hT hp h
  obtain ⟨q, hq, hl, hpos⟩ := rows_of_columns hr.varK hpr.2
  obtain ⟨as, has, hasp⟩ : ∃ as : List (VAtom ℝ m), u.1.varTheta = as.map some ∧ ∀ a ∈ as, ProperAtom a := by
    have : ∀ l : List (Option (VAtom ℝ m)), (∀ a ∈ l, ∃ b : VAtom ℝ m, a = some b ∧ ProperAtom b) → ∃ as : List (VAtom ℝ m), l = as.map some ∧ ∀ a ∈ as, ProperAtom a := by
      intro l
      induction l with
      | nil => exact fun _ => ⟨[], rfl, fun a ha => by cases ha⟩
      | cons a l ih =>
        intro h
        obtain ⟨b, rfl, hb⟩ := h a (List.mem_cons_self ..)
        obtain ⟨as, rfl, has⟩ := ih fun a ha => h a (List.mem_cons_of_mem _ ha)
        refine ⟨b :: as, rfl, fun c hc => ?_⟩
        rcases List.mem_cons.1 hc with rfl | hc
        · exact hb
        · exact has c hc
    exact this _ hP
  have hlen : as.length = k := by have := hr.theta; rw [has, List.length_map] at this; exact this
  refine ⟨q, as, ⟨by rw [hlen]; exact hr.varK, has, hq, hl.trans hlen.symm, fun r hr' => ?_, hasp⟩, by rw [hlen]; exact hr.pos⟩
  refine ⟨(hpos r hr').1.trans hpr.1, (sum_pos_of_pos ?_ (hpos r hr').2).ne'⟩
  intro h0
  have := (hpos r hr').1
  rw [h0, hpr.1, hyy] at this
  exact hy (List.length_eq_zero_iff.1 this.symm)

/-- **The label term**: the sum over the observations of the expectation of the log-probability of the label, so it lies between minus the number of observations times the logarithm of the number of
groups and zero. -/
theorem C110_labels {s : VM V m Atom} {k : ℕ} (h : Probs k s) :
    ∃ qs : List (List ℝ), s.varD = qs.map (fun r => r.map fin) ∧ eLogQd realFun s = fin (qs.map fun r => (r.map fun x => x * log x).sum).sum ∧
      -(s.gm.y.length * log k) ≤ (qs.map fun r => (r.map fun x => x * log x).sum).sum ∧ (qs.map fun r => (r.map fun x => x * log x).sum).sum ≤ 0 := by
  obtain ⟨hl, h⟩ := h
  rw [← hl]
  unfold eLogQd
  generalize s.varD = D at h
  induction D with
  | nil => exact ⟨[], rfl, rfl, by simp, by simp⟩
  | cons c D ih =>
    obtain ⟨qs, rfl, h1, h2, h3⟩ := ih fun c hc => h c (List.mem_cons_of_mem _ hc)
    obtain ⟨r, rfl, hr, hp, hs⟩ := h c (List.mem_cons_self ..)
    have hterm : Fl.sum ((r.map fin).map (fun x => Fl.mul x (Fl.log realFun.log x))) = fin (r.map fun x => x * log x).sum := by
      rw [List.map_map, ← Fl.sum_fin, List.map_map]
      congr 1
      apply List.map_congr_left
      intro x hx
      have hx0 := hp x hx
      show Fl.mul (fin x) (Fl.log realFun.log (fin x)) = fin (x * log x)
      show Fl.mul (fin x) (Fl.log realFun.log (fin x)) = Fl.mul (fin x) (fin (log x))
      congr 1
      unfold Fl.log
      simp only []
      rw [if_neg hx0.not_gt, if_neg hx0.ne']
      rfl
    have hgibbs : -log k ≤ (r.map fun x => x * log x).sum := by
      have hk : 0 < (k : ℝ) := by
        rcases Nat.eq_zero_or_pos k with rfl | hk
        · rw [List.length_eq_zero_iff.1 hr] at hs; simp at hs
        · exact_mod_cast hk
      have hone : ∀ x ∈ r, x - 1 / k ≤ x * log x + x * log k := by
        intro x hx
        have hx0 := hp x hx
        have := Real.add_one_le_exp (-(log x + log k))
        rw [neg_add, Real.exp_add, Real.exp_neg, Real.exp_neg, Real.exp_log hx0, Real.exp_log hk] at this
        have h2 := mul_le_mul_of_nonneg_left this hx0.le
        have h3 : x * (x⁻¹ * (k : ℝ)⁻¹) = 1 / k := by field_simp
        rw [h3] at h2
        nlinarith
      have hsum := List.sum_le_sum (f := fun x => x - 1 / (k : ℝ)) (g := fun x => x * log x + x * log k) hone
      have e1 : (r.map fun x => x - 1 / (k : ℝ)).sum = r.sum - r.length * (1 / k) := by
        clear hone hsum hs hr hp hterm h
        induction r with
        | nil => simp
        | cons x r ih => simp only [List.map_cons, List.sum_cons, ih, List.length_cons]; push_cast; ring
      have e2 : (r.map fun x => x * log x + x * log k).sum = (r.map fun x => x * log x).sum + r.sum * log k := by
        clear hone hsum hs hr hp hterm h e1
        induction r with
        | nil => simp
        | cons x r ih => simp only [List.map_cons, List.sum_cons, ih]; ring
      rw [e1, e2, hs, hr, one_mul] at hsum
      have : (k : ℝ) * (1 / k) = 1 := by field_simp
      linarith
    have hneg : (r.map fun x => x * log x).sum ≤ 0 := by
      have : ∀ l : List ℝ, (∀ y ∈ l, y ≤ 0) → l.sum ≤ 0 := by
        intro l
        induction l with
        | nil => simp
        | cons y l ih =>
          intro h
          rw [List.sum_cons]
          exact add_nonpos (h y (List.mem_cons_self ..)) (ih fun z hz => h z (List.mem_cons_of_mem _ hz))
      apply this
      intro y hy
      obtain ⟨x, hx, rfl⟩ := List.mem_map.1 hy
      have hx1 : x ≤ 1 := by rw [← hs]; exact List.single_le_sum (fun z hz => (hp z hz).le) x hx
      exact mul_nonpos_of_nonneg_of_nonpos (hp x hx).le (Real.log_nonpos (hp x hx).le hx1)
    refine ⟨r :: qs, rfl, ?_, ?_, ?_⟩
    · simp only [List.map_cons (l := qs), List.sum_cons]
      rw [List.map_cons, Fl.sum_cons', h1, hterm]
      rfl
    · simp only [List.map_cons, List.sum_cons, List.length_cons, Nat.cast_add, Nat.cast_one]
      linarith
    · simp only [List.map_cons, List.sum_cons]
      linarith

/-- A concrete object that meets the hypotheses, with two groups and two observations. -/
example {s : VM V 1 Atom} (h1 : s.varK = some 2) (h2 : s.varTheta = [some { mu := ![0], lam := 2, prec := (1 : Matrix _ _ ℝ), scale := 2 }, some { mu := ![5], lam := 2, prec := (1 : Matrix _ _ ℝ), scale := 2 }])
    (h3 : s.varD = [[fin (3 / 4), fin (1 / 4)], [fin (1 / 4), fin (3 / 4)]]) (h4 : s.gm.y = [![0], ![5]]) :
    Fitted s [[3 / 4, 1 / 4], [1 / 4, 3 / 4]] [{ mu := ![0], lam := 2, prec := (1 : Matrix _ _ ℝ), scale := 2 }, { mu := ![5], lam := 2, prec := (1 : Matrix _ _ ℝ), scale := 2 }] where
  groups := h1
  theta := h2
  rows := by
    unfold varRows
    rw [h1, h3]
    rfl
  len := rfl
  each := by
    intro r hr
    rw [h4]
    simp only [List.mem_cons, List.not_mem_nil, or_false] at hr
    rcases hr with rfl | rfl <;> norm_num
  proper := by
    intro a ha
    simp only [List.mem_cons, List.not_mem_nil, or_false] at ha
    rcases ha with rfl | rfl <;> exact ⟨by norm_num, by norm_num, Matrix.PosDef.one⟩
end Verif.Mix.VM
