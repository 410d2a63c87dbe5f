import Verif.Lemmas.StickPartition

/-!
# The partition of the Pitman-Yor sticks

The probability of a partition under the sticks Beta(1 - pyd, alpha + j * pyd), `j` from zero, in closed form: it solves the recursion of
`Lemmas/StickPartition.lean`, and the solution is unique because the part of the unit that is not broken off tends to zero.
-/

set_option linter.unusedSectionVars false

namespace Verif.Mix
open MeasureTheory ProbabilityTheory Filter
open scoped ENNReal Topology

variable {B : Type} [DecidableEq B]

/-- The closed form. -/
noncomputable def gammaEppf (σ α : ℝ) (sz : B → ℕ) (S : Finset B) : ℝ :=
  if S = ∅ then 1 else (∏ l ∈ Finset.range (S.card - 1), (α + l * σ)) * (Real.Gamma (α - σ + 1) / Real.Gamma (α - σ + (∑ c ∈ S, sz c : ℕ))) * ∏ c ∈ S, (Real.Gamma (sz c - σ) / Real.Gamma (1 - σ))

section
variable {σ α : ℝ} (h0 : 0 ≤ σ) (h1 : σ < 1) (ha : 0 < α) {sz : B → ℕ} {S : Finset B}
include h0 h1 ha

theorem gammaEppf_stay (hS : S.Nonempty) (hsz : ∀ c ∈ S, 1 ≤ sz c) :
    beta (1 - σ + (0 : ℕ)) (α + (∑ c ∈ S, sz c : ℕ)) / beta (1 - σ) α * gammaEppf σ (α + σ) sz S = gammaEppf σ α sz S * ((α + (S.card - 1) * σ) / (α - σ + (∑ c ∈ S, sz c : ℕ))) := by
  obtain ⟨k, hk⟩ : ∃ k, S.card = k + 1 := ⟨S.card - 1, by have := hS.card_pos; omega⟩
  obtain ⟨c0, hc0⟩ := hS
  have hN : (1 : ℝ) ≤ ((∑ c ∈ S, sz c : ℕ) : ℝ) := by
    exact_mod_cast (hsz c0 hc0).trans (Finset.single_le_sum (f := sz) (fun _ _ => Nat.zero_le _) hc0)
  have hne : S ≠ ∅ := Finset.ne_empty_of_mem hc0
  simp only [gammaEppf, if_neg hne, hk, Nat.add_sub_cancel]
  generalize hNN : ((∑ c ∈ S, sz c : ℕ) : ℝ) = N at *
  have hp : α * ∏ l ∈ Finset.range k, (α + σ + l * σ) = (∏ l ∈ Finset.range k, (α + l * σ)) * (α + k * σ) := by
    rw [← Finset.prod_range_succ, Finset.prod_range_succ', mul_comm]
    congr 1
    · exact Finset.prod_congr rfl fun l _ => by push_cast; ring
    · simp
  have g1 : Real.Gamma (α + 1) = α * Real.Gamma α := Real.Gamma_add_one ha.ne'
  have hpos : 0 < α - σ + N := by linarith
  have g2 : Real.Gamma (α - σ + N + 1) = (α - σ + N) * Real.Gamma (α - σ + N) := Real.Gamma_add_one hpos.ne'
  have p1 : Real.Gamma (1 - σ) ≠ 0 := (Real.Gamma_pos_of_pos (by linarith)).ne'
  have p2 : Real.Gamma α ≠ 0 := (Real.Gamma_pos_of_pos ha).ne'
  have p3 : Real.Gamma (α + N) ≠ 0 := (Real.Gamma_pos_of_pos (by linarith)).ne'
  have p4 : Real.Gamma (α - σ + N) ≠ 0 := (Real.Gamma_pos_of_pos hpos).ne'
  have p5 : Real.Gamma (α - σ + 1) ≠ 0 := (Real.Gamma_pos_of_pos (by linarith)).ne'
  rw [show α + σ - σ + 1 = α + 1 by ring, show α + σ - σ + N = α + N by ring, g1]
  generalize (∏ c ∈ S, (Real.Gamma (sz c - σ) / Real.Gamma (1 - σ))) = R
  unfold beta
  rw [show 1 - σ + ((0 : ℕ) : ℝ) = 1 - σ by simp, show 1 - σ + (α + N) = α - σ + N + 1 by ring, g2, show 1 - σ + α = α - σ + 1 by ring]
  push_cast
  rw [show (k : ℝ) + 1 - 1 = k by ring]
  generalize (∏ l ∈ Finset.range k, (α + σ + l * σ)) = P at *
  generalize (∏ l ∈ Finset.range k, (α + l * σ)) = Q at *
  field_simp
  linear_combination R * hp

theorem gammaEppf_hold (hsz : ∀ c ∈ S, 1 ≤ sz c) {c : B} (hc : c ∈ S) :
    beta (1 - σ + (sz c : ℕ)) (α + (∑ c ∈ S.erase c, sz c : ℕ)) / beta (1 - σ) α * gammaEppf σ (α + σ) sz (S.erase c) = gammaEppf σ α sz S * ((sz c - σ) / (α - σ + (∑ c ∈ S, sz c : ℕ))) := by
  have hc1 : (1 : ℝ) ≤ sz c := by exact_mod_cast hsz c hc
  have hne : S ≠ ∅ := Finset.ne_empty_of_mem hc
  have hsum : ((∑ c ∈ S, sz c : ℕ) : ℝ) = sz c + ((∑ c ∈ S.erase c, sz c : ℕ) : ℝ) := by
    rw [← Finset.add_sum_erase S sz hc]; push_cast; ring
  have hM : (0 : ℝ) ≤ ((∑ c ∈ S.erase c, sz c : ℕ) : ℝ) := Nat.cast_nonneg _
  have hprod : ∏ c ∈ S, (Real.Gamma (sz c - σ) / Real.Gamma (1 - σ)) = (Real.Gamma (sz c - σ) / Real.Gamma (1 - σ)) * ∏ c ∈ S.erase c, (Real.Gamma (sz c - σ) / Real.Gamma (1 - σ)) :=
    (Finset.mul_prod_erase S (fun c => Real.Gamma (sz c - σ) / Real.Gamma (1 - σ)) hc).symm
  have hcard : S.card = (S.erase c).card + 1 := (Finset.card_erase_add_one hc).symm
  have hpos : 0 < α - σ + (sz c + ((∑ c ∈ S.erase c, sz c : ℕ) : ℝ)) := by linarith
  have g1 : Real.Gamma (α + 1) = α * Real.Gamma α := Real.Gamma_add_one ha.ne'
  have g2 : Real.Gamma (α - σ + (sz c + ((∑ c ∈ S.erase c, sz c : ℕ) : ℝ)) + 1) = (α - σ + (sz c + ((∑ c ∈ S.erase c, sz c : ℕ) : ℝ))) * Real.Gamma (α - σ + (sz c + ((∑ c ∈ S.erase c, sz c : ℕ) : ℝ))) := Real.Gamma_add_one hpos.ne'
  have g3 : Real.Gamma (sz c - σ + 1) = (sz c - σ) * Real.Gamma (sz c - σ) := Real.Gamma_add_one (by linarith)
  have p1 : Real.Gamma (1 - σ) ≠ 0 := (Real.Gamma_pos_of_pos (by linarith)).ne'
  have p2 : Real.Gamma α ≠ 0 := (Real.Gamma_pos_of_pos ha).ne'
  have p4 := (Real.Gamma_pos_of_pos hpos).ne'
  have p5 : Real.Gamma (α - σ + 1) ≠ 0 := (Real.Gamma_pos_of_pos (by linarith)).ne'
  have p6 : Real.Gamma (sz c - σ) ≠ 0 := (Real.Gamma_pos_of_pos (by linarith)).ne'
  by_cases he : S.erase c = ∅
  · have hM0 : (∑ c ∈ S.erase c, sz c : ℕ) = 0 := by rw [he]; simp
    simp only [gammaEppf, if_neg hne, if_pos he, hprod, hsum, hcard, hM0] at *
    rw [he]
    unfold beta
    simp only [Nat.cast_zero, add_zero, Finset.card_empty, zero_add, Nat.sub_self, Finset.range_zero, Finset.prod_empty, one_mul, mul_one] at *
    rw [show 1 - σ + (sz c : ℝ) + α = α - σ + sz c + 1 by ring, g2, show 1 - σ + (sz c : ℝ) = sz c - σ + 1 by ring, g3, show 1 - σ + α = α - σ + 1 by ring]
    field_simp
  · obtain ⟨k, hk⟩ : ∃ k, (S.erase c).card = k + 1 := ⟨(S.erase c).card - 1, by have := (Finset.nonempty_iff_ne_empty.2 he).card_pos; omega⟩
    obtain ⟨c1, hc1'⟩ := Finset.nonempty_iff_ne_empty.2 he
    simp only [gammaEppf, if_neg hne, if_neg he, hprod, hsum, hcard, hk, Nat.add_sub_cancel]
    have p3 : Real.Gamma (α + ((∑ c ∈ S.erase c, sz c : ℕ) : ℝ)) ≠ 0 := (Real.Gamma_pos_of_pos (by linarith)).ne'
    generalize ((∑ c ∈ S.erase c, sz c : ℕ) : ℝ) = N at *
    have hp : α * ∏ l ∈ Finset.range k, (α + σ + l * σ) = ∏ l ∈ Finset.range (k + 1), (α + l * σ) := by
      rw [Finset.prod_range_succ', mul_comm]
      congr 1
      · exact Finset.prod_congr rfl fun l _ => by push_cast; ring
      · simp
    rw [← hp, show α + σ - σ + 1 = α + 1 by ring, show α + σ - σ + N = α + N by ring, g1]
    generalize (∏ c ∈ S.erase c, (Real.Gamma (sz c - σ) / Real.Gamma (1 - σ))) = R
    unfold beta
    rw [show 1 - σ + (sz c : ℝ) + (α + N) = α - σ + (sz c + N) + 1 by ring, g2, show 1 - σ + (sz c : ℝ) = sz c - σ + 1 by ring, g3, show 1 - σ + α = α - σ + 1 by ring]
    field_simp

theorem gammaEppf_pos (hsz : ∀ c ∈ S, 1 ≤ sz c) : 0 < gammaEppf σ α sz S := by
  unfold gammaEppf
  split
  · exact one_pos
  · rename_i hne
    obtain ⟨c0, hc0⟩ := Finset.nonempty_iff_ne_empty.2 hne
    have hN : (1 : ℝ) ≤ ((∑ c ∈ S, sz c : ℕ) : ℝ) := by
      exact_mod_cast (hsz c0 hc0).trans (Finset.single_le_sum (f := sz) (fun _ _ => Nat.zero_le _) hc0)
    refine mul_pos (mul_pos (Finset.prod_pos fun l _ => by positivity) (div_pos (Real.Gamma_pos_of_pos (by linarith)) (Real.Gamma_pos_of_pos (by linarith)))) (Finset.prod_pos fun c hc => ?_)
    have : (1 : ℝ) ≤ sz c := by exact_mod_cast hsz c hc
    exact div_pos (Real.Gamma_pos_of_pos (by linarith)) (Real.Gamma_pos_of_pos (by linarith))

/-- The closed form solves the recursion. -/
theorem gammaEppf_rec (hS : S.Nonempty) (hsz : ∀ c ∈ S, 1 ≤ sz c) :
    gammaEppf σ α sz S = beta (1 - σ + (0 : ℕ)) (α + (∑ c ∈ S, sz c : ℕ)) / beta (1 - σ) α * gammaEppf σ (α + σ) sz S +
      ∑ c ∈ S, beta (1 - σ + (sz c : ℕ)) (α + (∑ c ∈ S.erase c, sz c : ℕ)) / beta (1 - σ) α * gammaEppf σ (α + σ) sz (S.erase c) := by
  rw [gammaEppf_stay h0 h1 ha hS hsz, Finset.sum_congr rfl fun c hc => gammaEppf_hold h0 h1 ha hsz hc, ← Finset.mul_sum, ← mul_add, ← Finset.sum_div, ← add_div, Finset.sum_sub_distrib]
  obtain ⟨c0, hc0⟩ := hS
  have hN : (1 : ℝ) ≤ ((∑ c ∈ S, sz c : ℕ) : ℝ) := by
    exact_mod_cast (hsz c0 hc0).trans (Finset.single_le_sum (f := sz) (fun _ _ => Nat.zero_le _) hc0)
  rw [Finset.sum_const, nsmul_eq_mul]
  have : α + ((S.card : ℝ) - 1) * σ + (∑ c ∈ S, (sz c : ℝ) - S.card * σ) = α - σ + ((∑ c ∈ S, sz c : ℕ) : ℝ) := by push_cast; ring
  rw [this, div_self (by linarith), mul_one]

/-- Products of such ratios tend to zero. -/
theorem ratios_tendsto {x y : ℝ} (hx : 0 ≤ x) (hxy : x < y) : Tendsto (fun L => ∏ l ∈ Finset.range L, ((x + l * σ) / (y + l * σ))) atTop (𝓝 0) := by
  have hy : 0 < y := lt_of_le_of_lt hx hxy
  have hl : ∀ l : ℕ, 0 ≤ (l : ℝ) * σ := fun l => by positivity
  have hns : ¬ Summable (fun l : ℕ => (y - x) / (y + l * σ)) := by
    intro hs
    have hle : ∀ l : ℕ, (y - x) / (y + 1) * (1 / ((l : ℝ) + 1)) ≤ (y - x) / (y + l * σ) := by
      intro l
      rw [div_mul_div_comm, mul_one]
      refine div_le_div_of_nonneg_left (by linarith) (by linarith [hl l]) ?_
      have hj : (0 : ℝ) ≤ l := Nat.cast_nonneg l
      nlinarith [mul_nonneg hj hy.le, mul_nonneg hj (sub_nonneg.2 h1.le)]
    have h2 : Summable (fun l : ℕ => (y - x) / (y + 1) * (1 / ((l : ℝ) + 1))) :=
      Summable.of_nonneg_of_le (fun l => mul_nonneg (div_nonneg (by linarith) (by linarith)) (by positivity)) hle hs
    have h3 : Summable (fun j : ℕ => (1 : ℝ) / ((j : ℝ) + 1)) := (summable_mul_left_iff (div_pos (by linarith) (by linarith)).ne').1 h2
    have h4 : Summable (fun j : ℕ => (1 : ℝ) / (j : ℝ)) := by
      rw [← summable_nat_add_iff 1]
      refine h3.congr fun j => ?_
      push_cast
      rfl
    exact Real.not_summable_natCast_inv (by simpa using h4)
  have hdiv := (not_summable_iff_tendsto_nat_atTop_of_nonneg fun l : ℕ => div_nonneg (by linarith : 0 ≤ y - x) (by linarith [hl l] : 0 ≤ y + l * σ)).1 hns
  refine squeeze_zero (fun L => Finset.prod_nonneg fun l _ => div_nonneg (by linarith [hl l]) (by linarith [hl l])) (fun L => ?_) (Real.tendsto_exp_neg_atTop_nhds_zero.comp hdiv)
  simp only [Function.comp]
  rw [← Finset.sum_neg_distrib, Real.exp_sum]
  refine Finset.prod_le_prod (fun l _ => div_nonneg (by linarith [hl l]) (by linarith [hl l])) fun l _ => ?_
  have := Real.add_one_le_exp (-((y - x) / (y + l * σ)))
  refine le_trans (le_of_eq ?_) this
  have : y + l * σ ≠ 0 := by linarith [hl l]
  field_simp
  ring

end

theorem pySticks_tail {σ α : ℝ} (h0 : 0 ≤ σ) (h1 : σ < 1) (ha : 0 < α) : (pySticks σ α h0 h1 ha).tail = pySticks σ (α + σ) h0 h1 (by linarith) := by
  unfold StickParams.tail pySticks
  congr 1
  funext j
  push_cast
  ring

theorem firstMoment_py {σ α : ℝ} (h0 : 0 ≤ σ) (h1 : σ < 1) (ha : 0 < α) (k l : ℕ) : firstMoment (pySticks σ α h0 h1 ha) k l = ENNReal.ofReal (beta (1 - σ + k) (α + l) / beta (1 - σ) α) := by
  unfold firstMoment pySticks
  simp

theorem betaRatio_pos {a b : ℝ} (ha : 0 < a) (hb : 0 < b) (k l : ℕ) : 0 < beta (a + k) (b + l) / beta a b := div_pos (beta_pos (by positivity) (by positivity)) (beta_pos ha hb)

/-- Staying clear of `n` labels is less likely than staying clear of one. -/
theorem betaRatio_le {a b : ℝ} (ha : 0 < a) (hb : 0 < b) {n : ℕ} (hn : 1 ≤ n) : beta (a + (0 : ℕ)) (b + n) / beta a b ≤ b / (a + b) := by
  have e : beta (a + (0 : ℕ)) (b + (1 : ℕ)) / beta a b = b / (a + b) := by
    unfold beta
    rw [show a + ((0 : ℕ) : ℝ) = a by simp, show b + ((1 : ℕ) : ℝ) = b + 1 by simp, ← add_assoc, Real.Gamma_add_one hb.ne', Real.Gamma_add_one (by linarith)]
    have := (Real.Gamma_pos_of_pos ha).ne'
    have := (Real.Gamma_pos_of_pos hb).ne'
    have := (Real.Gamma_pos_of_pos (add_pos ha hb)).ne'
    field_simp
  rw [← e, ← ENNReal.ofReal_le_ofReal_iff (betaRatio_pos ha hb 0 1).le, ← beta_moment ha hb, ← beta_moment ha hb]
  refine lintegral_mono_ae ?_
  have h01 : ∀ᵐ x ∂(betaMeasure a b), x ∈ Set.Ioo (0 : ℝ) 1 := betaMeasure_ae
  filter_upwards [h01] with x hx
  rw [pow_zero, one_mul, one_mul]
  refine pow_le_pow_right_of_le_one' ?_ hn
  rw [← ENNReal.ofReal_one]
  exact ENNReal.ofReal_le_ofReal (by linarith [hx.1])

/-- **The partition of the Pitman-Yor sticks** in closed form. -/
theorem blockProb_py {σ : ℝ} (h0 : 0 ≤ σ) (h1 : σ < 1) {sz : B → ℕ} (S : Finset B) : ∀ {α : ℝ} (ha : 0 < α), (∀ c ∈ S, 1 ≤ sz c) →
    blockProb (pySticks σ α h0 h1 ha) sz S = ENNReal.ofReal (gammaEppf σ α sz S) := by
  induction S using Finset.strongInduction with
  | H S ih =>
    intro α ha hsz
    by_cases hS : S = ∅
    · subst hS
      rw [blockProb_empty, gammaEppf, if_pos rfl, ENNReal.ofReal_one]
    have hSn := Finset.nonempty_iff_ne_empty.2 hS
    have hN : 1 ≤ ∑ c ∈ S, sz c := by
      obtain ⟨c0, hc0⟩ := hSn
      exact (hsz c0 hc0).trans (Finset.single_le_sum (f := sz) (fun _ _ => Nat.zero_le _) hc0)
    have hfin : ∀ {α : ℝ} (ha : 0 < α), blockProb (pySticks σ α h0 h1 ha) sz S ≠ ∞ := fun ha => ne_top_of_le_ne_top ENNReal.one_ne_top (blockProb_le_one _ (pySticks_exhausts h0 h1 ha) hsz)
    set N := ∑ c ∈ S, sz c with hNdef
    -- the difference of the two sides
    let u : ℕ → ℝ := fun L => if h : 0 < α + L * σ then (blockProb (pySticks σ (α + L * σ) h0 h1 h) sz S).toReal - gammaEppf σ (α + L * σ) sz S else 0
    have hpos : ∀ L : ℕ, 0 < α + L * σ := fun L => by positivity
    set r : ℕ → ℝ := fun L => beta (1 - σ + (0 : ℕ)) (α + L * σ + N) / beta (1 - σ) (α + L * σ) with hr
    have hr0 : ∀ L, 0 ≤ r L := fun L => (betaRatio_pos (by linarith) (hpos L) 0 N).le
    have hu : ∀ L, u L = r L * u (L + 1) := by
      intro L
      have hnext : α + ((L + 1 : ℕ) : ℝ) * σ = α + L * σ + σ := by push_cast; ring
      simp only [u, dif_pos (hpos L), dif_pos (hpos (L + 1))]
      simp only [hnext]
      rw [blockProb_rec, pySticks_tail, gammaEppf_rec h0 h1 (hpos L) hSn hsz, firstMoment_py]
      have e : ∑ c ∈ S, firstMoment (pySticks σ (α + L * σ) h0 h1 (hpos L)) (sz c) (∑ c ∈ S.erase c, sz c) * blockProb (pySticks σ (α + L * σ + σ) h0 h1 (by linarith [hpos L])) sz (S.erase c) =
          ENNReal.ofReal (∑ c ∈ S, beta (1 - σ + (sz c : ℕ)) (α + L * σ + (∑ c ∈ S.erase c, sz c : ℕ)) / beta (1 - σ) (α + L * σ) * gammaEppf σ (α + L * σ + σ) sz (S.erase c)) := by
        rw [ENNReal.ofReal_sum_of_nonneg fun c hc => mul_nonneg (betaRatio_pos (by linarith) (hpos L) _ _).le
          (gammaEppf_pos h0 h1 (by linarith [hpos L]) fun c hc => hsz c (Finset.mem_of_mem_erase hc)).le]
        refine Finset.sum_congr rfl fun c hc => ?_
        rw [ih _ (Finset.erase_ssubset hc) _ fun c hc => hsz c (Finset.mem_of_mem_erase hc), firstMoment_py, ← ENNReal.ofReal_mul (betaRatio_pos (by linarith) (hpos L) _ _).le]
      rw [e, ENNReal.toReal_add (ENNReal.mul_ne_top ENNReal.ofReal_ne_top (hfin _)) ENNReal.ofReal_ne_top, ENNReal.toReal_mul, ENNReal.toReal_ofReal (hr0 L), ENNReal.toReal_ofReal]
      · rw [hr]
        ring
      · exact Finset.sum_nonneg fun c hc => mul_nonneg (betaRatio_pos (by linarith) (hpos L) _ _).le (gammaEppf_pos h0 h1 (by linarith [hpos L]) fun c hc => hsz c (Finset.mem_of_mem_erase hc)).le
    have hu' : ∀ L, u 0 = (∏ l ∈ Finset.range L, r l) * u L := by
      intro L
      induction L with
      | zero => simp
      | succ L ihL => rw [ihL, Finset.prod_range_succ, mul_assoc, ← hu]
    have hg : ∀ L, (∏ l ∈ Finset.range L, r l) * gammaEppf σ (α + L * σ) sz S = gammaEppf σ α sz S * ∏ l ∈ Finset.range L, ((α + (S.card - 1) * σ + l * σ) / (α - σ + N + l * σ)) := by
      intro L
      induction L with
      | zero => simp
      | succ L ihL =>
        have hnext : α + ((L + 1 : ℕ) : ℝ) * σ = α + L * σ + σ := by push_cast; ring
        rw [Finset.prod_range_succ, Finset.prod_range_succ, hnext, mul_assoc, hr]
        simp only
        rw [gammaEppf_stay h0 h1 (hpos L) hSn hsz, ← mul_assoc, ← hr, ihL, mul_assoc]
        congr 2
        congr 1 <;> ring
    have hN' : (1 : ℝ) ≤ N := by exact_mod_cast hN
    have hcard : (S.card : ℝ) ≤ N := by
      have : S.card ≤ N := by
        rw [Finset.card_eq_sum_ones]
        exact Finset.sum_le_sum hsz
      exact_mod_cast this
    have hcard1 : (1 : ℝ) ≤ S.card := by exact_mod_cast hSn.card_pos
    have t1 : Tendsto (fun L => (∏ l ∈ Finset.range L, r l) * gammaEppf σ (α + L * σ) sz S) atTop (𝓝 0) := by
      simp_rw [hg]
      have := (ratios_tendsto h0 h1 ha (x := α + (S.card - 1) * σ) (y := α - σ + N) (by nlinarith) (by nlinarith)).const_mul (gammaEppf σ α sz S)
      rwa [mul_zero] at this
    have t2 : Tendsto (fun L => ∏ l ∈ Finset.range L, r l) atTop (𝓝 0) := by
      refine squeeze_zero (fun L => Finset.prod_nonneg fun l _ => hr0 l) (fun L => Finset.prod_le_prod (fun l _ => hr0 l) fun l _ => ?_) (ratios_tendsto h0 h1 ha (x := α) (y := 1 - σ + α) ha.le (by linarith))
      have := betaRatio_le (a := 1 - σ) (by linarith) (hpos l) hN
      rw [add_assoc]
      exact this
    have hbound : ∀ L, |u 0| ≤ (∏ l ∈ Finset.range L, r l) + (∏ l ∈ Finset.range L, r l) * gammaEppf σ (α + L * σ) sz S := by
      intro L
      have hp0 : 0 ≤ ∏ l ∈ Finset.range L, r l := Finset.prod_nonneg fun l _ => hr0 l
      rw [hu' L, abs_mul, abs_of_nonneg hp0, ← mul_one_add]
      refine mul_le_mul_of_nonneg_left ?_ hp0
      simp only [u, dif_pos (hpos L)]
      have b1 : (blockProb (pySticks σ (α + L * σ) h0 h1 (hpos L)) sz S).toReal ≤ 1 := by
        rw [← ENNReal.toReal_one]
        exact ENNReal.toReal_mono ENNReal.one_ne_top (blockProb_le_one _ (pySticks_exhausts h0 h1 _) hsz)
      have b2 : 0 ≤ (blockProb (pySticks σ (α + L * σ) h0 h1 (hpos L)) sz S).toReal := ENNReal.toReal_nonneg
      have b3 := (gammaEppf_pos h0 h1 (hpos L) hsz).le
      rw [abs_le]
      constructor <;> linarith
    have hz : |u 0| ≤ 0 := by
      have := t2.add t1
      rw [add_zero] at this
      exact ge_of_tendsto' this hbound
    have hz' : u 0 = 0 := abs_nonpos_iff.1 hz
    have e0 : α + ((0 : ℕ) : ℝ) * σ = α := by simp
    simp only [u, dif_pos (hpos 0)] at hz'
    simp only [e0] at hz'
    rw [← ENNReal.ofReal_toReal (hfin ha)]
    congr 1
    linarith

end Verif.Mix
