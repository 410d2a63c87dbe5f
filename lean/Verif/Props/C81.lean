import Verif.Props.C80

/-!
# C81: the path of a fitted `BetaBernoulli` is updated with its full conditional law

Given the labels and the rest of the path (the sticks integrated out), position `j` starts a new stick with odds `p m(L) m(R) : (1 - p) m(L ∪ R)`, where `R` are the
positions from `j` up to the next change, `L` those that share the stick of position `j - 1` otherwise, and `m(S) = E[x^A (1-x)^B]` is the marginal
likelihood of the labels at the positions `S` under a `Beta(1, alpha)` stick (`condChange`).

The code does not sample from it.  `C81_code` says what it samples from when `0 < p < 1`: the odds are `p g : (1 - p) alpha B(A', B')`, with `g = alpha B(A'', B'')` for the counts
of the positions after `j` only (`g = 1` if there are none), the counts without the `+ 1` and `+ alpha` of the prior, without the likelihood of `L`, and leaving out the
position where the stick of `j - 1` starts; and the last position keeps its prior draw (`C81_last`).
`C81_refuted`: for `fit([0, 1, 2])`, `alpha = 1` and every `0 < p < 1` the probability used for position 1 is not the conditional one.  `C81_partial`: for `p = 0` it is right.
-/

set_option linter.unusedSectionVars false

namespace Verif
open Spec ProbabilityTheory MeasureTheory
variable {ω : Oracle ℝ}

/-- The marginal likelihood of `A` labels at, and `B` labels beyond, the positions that share a stick. -/
noncomputable def margLik (alpha : ℝ) (A B : ℕ) : ℝ := ∫ x, x ^ A * (1 - x) ^ B * betaPDFReal 1 alpha x

/-- `k` shares the stick of position `j - 1` (`path i = 1` says that position `i` starts a new stick; position 0 always does). -/
def before (path : ℕ → ℤ) (j k : ℕ) : Prop := k < j ∧ ∀ i, k < i → i < j → path i ≠ 1

/-- `k` shares the stick that position `j` would start. -/
def after (path : ℕ → ℤ) (j k : ℕ) : Prop := j ≤ k ∧ ∀ i, j < i → i ≤ k → path i ≠ 1

open Classical in
/-- The conditional probability that position `j` starts a new stick, with labels `0 .. m` in use. -/
noncomputable def condChange (p alpha : ℝ) (path : ℕ → ℤ) (A B : ℕ → ℕ) (m j : ℕ) : ℝ :=
  let L := (Finset.range (m + 1)).filter (before path j)
  let R := (Finset.range (m + 1)).filter (after path j)
  let u := p * (margLik alpha (∑ i ∈ L, A i) (∑ i ∈ L, B i) * margLik alpha (∑ i ∈ R, A i) (∑ i ∈ R, B i))
  let w := (1 - p) * margLik alpha (∑ i ∈ L ∪ R, A i) (∑ i ∈ L ∪ R, B i)
  u / (u + w)

/-- The path values a fitted draw works with at position `j`: those already updated below `j`, the prior draws from `j` on. -/
def midPath (ω : Oracle ℝ) (p : ℝ) (pos : ℕ) (path : List ℤ) (j i : ℕ) : ℤ := if i < j then (path[i]?).getD 0 else ω.binom (pos + i) 1 p

theorem margLik_eq {alpha : ℝ} (ha : 0 < alpha) (A B : ℕ) : margLik alpha A B = alpha * beta (1 + A) (alpha + B) := by
  rw [margLik, integral_beta_moment one_pos ha, beta_one ha]
  field_simp

theorem BBer.betaf_real {a b : ℕ} (ha : 0 < a) (hb : 0 < b) : BBer.betaf (K := ℝ) a b = some (beta a b) := by
  unfold BBer.betaf
  rw [if_neg (by omega), beta]
  congr 1
  obtain ⟨a, rfl⟩ : ∃ k, a = k + 1 := ⟨a - 1, by omega⟩
  obtain ⟨b, rfl⟩ : ∃ k, b = k + 1 := ⟨b - 1, by omega⟩
  have h3 : ((a + 1 : ℕ) : ℝ) + ((b + 1 : ℕ) : ℝ) = ((a + b + 1 : ℕ) : ℝ) + 1 := by push_cast; ring
  rw [h3, Real.Gamma_nat_eq_factorial]
  push_cast
  rw [Real.Gamma_nat_eq_factorial, Real.Gamma_nat_eq_factorial]
  rw [show a + 1 + (b + 1) - 1 = a + b + 1 by omega]

section
variable (log : ℝ → ℝ) (pos : ℕ) (ops : List (WOp ℝ)) {p alpha : ℝ}

theorem midList {m j : ℕ} (h1 : 1 ≤ j) (hj : j ≤ m) {path : List ℤ} (hl : path.length = m + 1) :
    path.take j ++ (BBer.bern0 ω p pos m).drop j = (List.range (m + 1)).map (midPath ω p pos path j) := by
  apply List.ext_getElem?
  intro i
  by_cases hi : i < j
  · rw [List.getElem?_append_left (by simp; omega), List.getElem?_take, if_pos hi, List.getElem?_map, List.getElem?_range (by omega)]
    simp [midPath, hi, List.getElem?_eq_getElem (show i < path.length by omega)]
  · rw [List.getElem?_append_right (by simp; omega), List.length_take, Nat.min_eq_left (by omega), List.getElem?_drop, show j + (i - j) = i by omega,
      BBer.bern0, List.getElem?_set_ne (by omega), List.getElem?_map, List.getElem?_map]
    by_cases hi' : i < m + 1
    · rw [List.getElem?_range hi']
      simp [midPath, hi]
    · rw [List.getElem?_eq_none (by simp; omega)]; rfl

/-- What the code samples position `j` from. -/
theorem C81_code (hω : ω.Legal) (hp0 : 0 < p) (hp1 : p < 1) (ha : 0 < alpha) {s : BBer ℝ × ℕ}
    (hs : BBer.cls.run log ω (BBer.init p alpha, pos) ops = s) {m : ℕ} (hm : IsMaxLabel s.1.d m)
    {size : PySize} {r : List ℝ} {t : BBer ℝ × ℕ} (h : BBer.random size ω s = (.ok r, t)) {j : ℕ} (h1 : 1 ≤ j) (hj : j < m) :
    let z := midPath ω p s.2 t.1.bernoullis j
    let up := j + 1 + BBer.runUp z (j + 1) (m - j)
    let lo := j - BBer.runDown z j
    let A := nEq s.1.d
    let B := nGt s.1.d
    ∃ q g, t.1.bernoullis[j]? = some (ω.binom (s.2 + (m + 1) + (j - 1)) 1 q) ∧
      (g = if up = j + 1 then 1 else alpha * beta (∑ i ∈ Finset.Ico (j + 1) up, A i : ℕ) (∑ i ∈ Finset.Ico (j + 1) up, B i : ℕ)) ∧
      (0 < (∑ i ∈ Finset.Ico lo up, A i) → q = p * g / (p * g + (1 - p) * (alpha * beta (∑ i ∈ Finset.Ico lo up, A i : ℕ) (∑ i ∈ Finset.Ico lo up, B i : ℕ)))) := by
  intro z up lo A B
  have hh := BBer.reach_hyper (ω := ω) log pos ops p alpha
  rw [hs] at hh
  obtain ⟨bern, a, q0, hb, hP, ⟨rest, hpre⟩, -⟩ := wp_of_ok h (BBer.random_fitted_draw hω s hm)
  rw [hh.1, hh.2] at hP
  have hB := IsBincount.of_ok hb
  have hal : a.length = m + 1 := by have := hB.length_eq hm; omega
  have hbt : ∀ i < m + 1, t.1.bernoullis[i]? = bern[i]? := by
    intro i hi
    rw [← hpre, List.getElem?_append_left (by rw [hP.len]; omega)]
  obtain ⟨q, hq, hr⟩ := hP.mid j h1 hj
  have hz : midPath ω p s.2 bern j = z := by
    funext i
    show midPath ω p s.2 bern j i = midPath ω p s.2 t.1.bernoullis j i
    unfold midPath
    split_ifs with hi
    · rw [hbt i (by omega)]
    · rfl
  rw [midList s.2 h1 hj.le hP.len, hz] at hq
  have hea : a = (List.range (m + 1)).map A := by rw [← hal]; exact hB.eq_map
  have heb : revTails a = (List.range (m + 1)).map B := by rw [← hal]; exact hB.revTails_eq_map (hB.ne_nil (List.ne_nil_of_mem hm.1))
  rw [heb, hea, BBer.condProb_run p alpha z A B hj.le] at hq
  have hupe : (up = j + 1) ↔ BBer.runUp z (j + 1) (m - j) = 0 := by
    show j + 1 + BBer.runUp z (j + 1) (m - j) = j + 1 ↔ _
    omega
  rw [show j + 1 + BBer.runUp z (j + 1) (m - j) = up from rfl, show j - BBer.runDown z j = lo from rfl] at hq
  refine ⟨q, _, by rw [hbt j (by omega)]; exact hr, rfl, fun hpos => ?_⟩
  have hjm : 1 ≤ B j := by
    show 1 ≤ nGt s.1.d j
    unfold nGt
    exact List.countP_pos_iff.2 ⟨(m : ℤ), hm.1, by simpa using hj⟩
  have hBpos : 0 < ∑ i ∈ Finset.Ico lo up, B i := by
    refine lt_of_lt_of_le hjm (Finset.single_le_sum (f := B) (fun _ _ => Nat.zero_le _) (Finset.mem_Ico.2 ⟨?_, ?_⟩))
    · show j - BBer.runDown z j ≤ j; omega
    · show j < j + 1 + BBer.runUp z (j + 1) (m - j); omega
  have hgm := BBer.betaf_real (a := ∑ i ∈ Finset.Ico lo up, A i) (b := ∑ i ∈ Finset.Ico lo up, B i) hpos hBpos
  have hbm := beta_pos (α := ((∑ i ∈ Finset.Ico lo up, A i : ℕ) : ℝ)) (β := ((∑ i ∈ Finset.Ico lo up, B i : ℕ) : ℝ)) (by exact_mod_cast hpos) (by exact_mod_cast hBpos)
  rw [hgm] at hq
  have hmin : 0 < (1 - p) * (alpha * beta ((∑ i ∈ Finset.Ico lo up, A i : ℕ) : ℝ) ((∑ i ∈ Finset.Ico lo up, B i : ℕ) : ℝ)) :=
    mul_pos (by linarith) (mul_pos ha hbm)
  by_cases hu : up = j + 1
  · rw [if_pos (hupe.1 hu)] at hq
    rw [if_pos hu]
    simp only [BBer.ratio, BBer.scaleExt, Option.map_some, hp0, hp1, if_true] at hq
    rw [if_neg (by linarith)] at hq
    exact (Option.some.inj hq).symm
  · rw [if_neg (fun h => hu (hupe.2 h))] at hq
    rw [if_neg hu]
    by_cases h2 : 0 < ∑ i ∈ Finset.Ico (j + 1) up, A i ∧ 0 < ∑ i ∈ Finset.Ico (j + 1) up, B i
    · have hg := beta_pos (α := ((∑ i ∈ Finset.Ico (j + 1) up, A i : ℕ) : ℝ)) (β := ((∑ i ∈ Finset.Ico (j + 1) up, B i : ℕ) : ℝ)) (by exact_mod_cast h2.1) (by exact_mod_cast h2.2)
      have hpl := mul_pos hp0 (mul_pos ha hg)
      rw [BBer.betaf_real h2.1 h2.2] at hq
      simp only [BBer.ratio, BBer.scaleExt, Option.map_some, hp0, hp1, if_true] at hq
      rw [if_neg (by linarith)] at hq
      exact (Option.some.inj hq).symm
    · have : BBer.betaf (K := ℝ) (∑ i ∈ Finset.Ico (j + 1) up, A i) (∑ i ∈ Finset.Ico (j + 1) up, B i) = none := by
        unfold BBer.betaf
        rw [if_pos (by omega)]
      rw [this] at hq
      simp [BBer.ratio, BBer.scaleExt, hp0] at hq

/-- The last position keeps its prior draw: its value does not depend on the labels. -/
theorem C81_last (hω : ω.Legal) {s : BBer ℝ × ℕ} (hs : BBer.cls.run log ω (BBer.init p alpha, pos) ops = s) {m : ℕ} (hm : IsMaxLabel s.1.d m) (h1 : 1 ≤ m)
    {size : PySize} {r : List ℝ} {t : BBer ℝ × ℕ} (h : BBer.random size ω s = (.ok r, t)) : t.1.bernoullis[m]? = some (ω.binom (s.2 + m) 1 p) := by
  have hh := BBer.reach_hyper (ω := ω) log pos ops p alpha
  rw [hs] at hh
  obtain ⟨bern, a, q0, hb, hP, ⟨rest, hpre⟩, -⟩ := wp_of_ok h (BBer.random_fitted_draw hω s hm)
  rw [hh.1, hh.2] at hP
  rw [← hpre, List.getElem?_append_left (by rw [hP.len]; omega), hP.last h1]
end

theorem margLik_pos {alpha : ℝ} (ha : 0 < alpha) (A B : ℕ) : 0 < margLik alpha A B := by
  rw [margLik_eq ha]
  exact mul_pos ha (beta_pos (by positivity) (by positivity))

/-- Missing: `p > 0`. -/
theorem C81_partial (log : ℝ → ℝ) (pos : ℕ) (ops : List (WOp ℝ)) {alpha : ℝ} (hω : ω.Legal) (ha : 0 < alpha) {s : BBer ℝ × ℕ} (hs : BBer.cls.run log ω (BBer.init 0 alpha, pos) ops = s)
    {m : ℕ} (hm : IsMaxLabel s.1.d m) {size : PySize} {r : List ℝ} {t : BBer ℝ × ℕ} (h : BBer.random size ω s = (.ok r, t)) {j : ℕ} (h1 : 1 ≤ j) (hj : j < m) :
    t.1.bernoullis[j]? = some (ω.binom (s.2 + (m + 1) + (j - 1)) 1 (condChange 0 alpha (midPath ω 0 s.2 t.1.bernoullis j) (nEq s.1.d) (nGt s.1.d) m j)) := by
  have hh := BBer.reach_hyper (ω := ω) log pos ops 0 alpha
  rw [hs] at hh
  obtain ⟨bern, a, q0, hb, hP, ⟨rest, hpre⟩, -⟩ := wp_of_ok h (BBer.random_fitted_draw hω s hm)
  rw [hh.1, hh.2] at hP
  obtain ⟨q, hq, hr⟩ := hP.mid j h1 hj
  rw [BBer.condProb_zero ha] at hq
  cases hq
  rw [← hpre, List.getElem?_append_left (by rw [hP.len]; omega), hr]
  simp [condChange]

open Classical in
/-- `fit([0, 1, 2])`, `alpha = 1`: whenever the generator answers 1 for the last position, `random()` succeeds and position 1 is drawn with probability
`12 p / (11 p + 1)`; the conditional probability is `5 p / (6 - p)`. -/
theorem C81_refuted (hω : ω.Legal) {p : ℝ} (hp0 : 0 < p) (hp1 : p < 1) (pos : ℕ) (hlast : ω.binom (pos + 2) 1 p = 1) :
    let s := BBer.cls.run id ω (BBer.init p 1, pos) [.fit [0, 1, 2]]
    ∃ r t q, BBer.random .none ω s = (.ok r, t) ∧ t.1.bernoullis[1]? = some (ω.binom (pos + 3) 1 q) ∧ q = 12 * p / (11 * p + 1) ∧
      condChange p 1 (midPath ω p pos t.1.bernoullis 1) (nEq [0, 1, 2]) (nGt [0, 1, 2]) 2 1 = 5 * p / (6 - p) ∧
      q ≠ condChange p 1 (midPath ω p pos t.1.bernoullis 1) (nEq [0, 1, 2]) (nGt [0, 1, 2]) 2 1 := by
  intro s
  have hs : BBer.cls.run id ω (BBer.init p 1, pos) [.fit [0, 1, 2]] = s := rfl
  have hsd : s.1.d = [0, 1, 2] := rfl
  have hs2 : s.2 = pos := rfl
  have hm : IsMaxLabel s.1.d ((2 : ℕ) : ℤ) := by rw [hsd]; simp [IsMaxLabel]
  obtain ⟨r, t, h⟩ := C19_occupied_partial id pos [.fit [0, 1, 2]] hω (by simp [WOp.notRandomZero]) hp0 hp1 one_pos hs (by rw [hsd]; simp [NonNegLabels]) hm
    (by rw [hsd]; intro j hj; interval_cases j <;> simp) (by rw [hs2]; exact hlast) (size := .none) (.inl rfl)
  obtain ⟨q, g, hb, hg, hq⟩ := C81_code id pos [.fit [0, 1, 2]] hω hp0 hp1 one_pos hs hm h (j := 1) le_rfl (by norm_num)
  rw [hs2] at hb hg hq
  have hpath0 : t.1.bernoullis[0]? = some 0 := by
    obtain ⟨path, -, ⟨rest, hpre⟩, hl, -, h0, -⟩ := C80_fitted id pos [.fit [0, 1, 2]] hω hs hm h
    rw [← hpre, List.getElem?_append_left (by omega), h0]
  have hz2 : midPath ω p pos t.1.bernoullis 1 2 = 1 := by simp [midPath, hlast]
  have hz0 : midPath ω p pos t.1.bernoullis 1 0 = 0 := by simp [midPath, hpath0]
  refine ⟨r, t, q, h, hb, ?_⟩
  generalize midPath ω p pos t.1.bernoullis 1 = z at hz2 hz0 hg hq ⊢
  have hup : BBer.runUp z (1 + 1) (2 - 1) = 0 := by simp [BBer.runUp, hz2]
  have hdown : BBer.runDown z 1 = 1 := by simp [BBer.runDown, hz0]
  rw [hup] at hg hq
  rw [hdown] at hq
  rw [hsd] at hq
  have hA : ∑ i ∈ Finset.Ico (1 - 1) (1 + 1 + 0), nEq [0, 1, 2] i = 2 := by decide
  have hB : ∑ i ∈ Finset.Ico (1 - 1) (1 + 1 + 0), nGt [0, 1, 2] i = 3 := by decide
  rw [if_pos rfl] at hg
  rw [hA, hB, hg] at hq
  have hb23 : beta ((2 : ℕ) : ℝ) ((3 : ℕ) : ℝ) = 1 / 12 := by
    have := BBer.betaf_real (a := 2) (b := 3) (by norm_num) (by norm_num)
    rw [← Option.some_inj, ← this]
    norm_num [BBer.betaf, Nat.factorial]
  have hq1 : q = 12 * p / (11 * p + 1) := by
    rw [hq (by norm_num), hb23, div_eq_div_iff (by nlinarith) (by nlinarith)]
    ring
  have hbr : ∀ a b : ℕ, margLik 1 a b = (a.factorial * b.factorial : ℕ) / ((a + b + 1).factorial : ℕ) := by
    intro a b
    rw [margLik_eq one_pos, one_mul, show (1 : ℝ) + a = ((a + 1 : ℕ) : ℝ) by push_cast; ring, show (1 : ℝ) + b = ((b + 1 : ℕ) : ℝ) by push_cast; ring]
    have := BBer.betaf_real (a := a + 1) (b := b + 1) (by omega) (by omega)
    rw [← Option.some_inj, ← this]
    unfold BBer.betaf
    rw [if_neg (by omega)]
    simp only [Nat.add_sub_cancel]
    rw [show a + 1 + (b + 1) - 1 = a + b + 1 by omega]
  have hL : ((Finset.range (2 + 1)).filter (before z 1)) = {0} := by
    ext k
    simp only [Finset.mem_filter, Finset.mem_range, Finset.mem_singleton, before]
    constructor
    · rintro ⟨-, h, -⟩; omega
    · rintro rfl; exact ⟨by norm_num, by norm_num, fun i h1 h2 => by omega⟩
  have hR : ((Finset.range (2 + 1)).filter (after z 1)) = {1} := by
    ext k
    simp only [Finset.mem_filter, Finset.mem_range, Finset.mem_singleton, after]
    constructor
    · rintro ⟨h1, h2, h3⟩
      by_contra hk
      have : k = 2 := by omega
      exact h3 2 (by norm_num) (by omega) hz2
    · rintro rfl; exact ⟨by norm_num, by norm_num, fun i h1 h2 => by omega⟩
  have hc : condChange p 1 z (nEq [0, 1, 2]) (nGt [0, 1, 2]) 2 1 = 5 * p / (6 - p) := by
    unfold condChange
    simp only
    have hLR : ((Finset.range (2 + 1)).filter (before z 1)) ∪ ((Finset.range (2 + 1)).filter (after z 1)) = {0, 1} := by rw [hL, hR]; rfl
    have e1 : ∀ f : ℕ → ℕ, ∑ i ∈ ((Finset.range (2 + 1)).filter (before z 1)), f i = f 0 := by intro f; rw [hL]; simp
    have e2 : ∀ f : ℕ → ℕ, ∑ i ∈ ((Finset.range (2 + 1)).filter (after z 1)), f i = f 1 := by intro f; rw [hR]; simp
    have e3 : ∀ f : ℕ → ℕ, ∑ i ∈ ((Finset.range (2 + 1)).filter (before z 1)) ∪ ((Finset.range (2 + 1)).filter (after z 1)), f i = f 0 + f 1 := by intro f; rw [hLR]; simp
    have n0 : nEq [0, 1, 2] 0 = 1 := by decide
    have n1 : nEq [0, 1, 2] 1 = 1 := by decide
    have g0 : nGt [0, 1, 2] 0 = 2 := by decide
    have g1 : nGt [0, 1, 2] 1 = 1 := by decide
    simp only [e1, e2, e3, n0, n1, g0, g1, hbr]
    norm_num [Nat.factorial]
    rw [div_eq_div_iff (by nlinarith) (by nlinarith)]
    ring
  refine ⟨hq1, hc, ?_⟩
  rw [hc, hq1]
  intro he
  rw [div_eq_div_iff (by nlinarith) (by nlinarith)] at he
  nlinarith

/-- A generator with these answers exists. -/
example : ∃ ω : Oracle ℝ, ω.Legal ∧ ω.binom (0 + 2) 1 (1 / 2) = 1 :=
  ⟨{ (meanO : Oracle ℝ) with binom := fun _ n p => if p = 0 then 0 else max n 0 }, { (meanO_legal : (meanO : Oracle ℝ).Legal) with
    binom_nonneg := fun _ _ p _ => by dsimp only; split_ifs <;> simp
    binom_le := fun _ n p h => by dsimp only; split_ifs <;> simp [h]
    binom_zero := fun _ _ _ => by simp
    binom_one := fun _ n h => by simp [h] }, by norm_num⟩

end Verif
