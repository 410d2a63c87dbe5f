import Verif.Lemmas.VarReal
import Verif.Model.Likelihood
import Verif.Lemmas.FlMonoid

/-!
# C71: `dirichlet_log_eppf` is the law of the Chinese restaurant process

`Seating` is the specification: observations arrive one by one, observation `n + 1` joins block `j` with probability `n_j / (alpha + n)` and opens a new
block with probability `alpha / (alpha + n)`.  Over the real numbers, for every `alpha > 0`: the probability of every sequence of choices is the
exponential of `dirichlet_log_eppf` of the final block sizes (`C71_sequence`); hence the addition rule (`C71_addition`) and the total mass one over
all partitions of `n` observations (`C71_total`).  The value does not depend on the order of the blocks (`C71_symmetric`).
-/

namespace Verif
open Mix

namespace Crp
/-- The blocks after one more observation has chosen number `j`: an existing block, or else a new one. -/
def seat (c : List ℕ) (j : ℕ) : List ℕ := if j < c.length then c.modify j (· + 1) else c ++ [1]

/-- The probability of choice `j` given the block sizes. -/
noncomputable def prob (alpha : ℝ) (c : List ℕ) (j : ℕ) : ℝ :=
  (if j < c.length then (((c[j]?).getD 0 : ℕ) : ℝ) else alpha) / (alpha + ((c.sum : ℕ) : ℝ))

/-- The final block sizes of a sequence of choices. -/
def blocks : List ℕ → List ℕ → List ℕ
  | c, [] => c
  | c, j :: js => blocks (seat c j) js

/-- The probability of a sequence of choices. -/
noncomputable def seqProb (alpha : ℝ) : List ℕ → List ℕ → ℝ
  | _, [] => 1
  | c, j :: js => prob alpha c j * seqProb alpha (seat c j) js

/-- All sequences of `n` choices: choice `j` may be any existing block or the next new one.  They are the partitions of `n` observations. -/
def all : ℕ → List ℕ → List (List ℕ)
  | 0, _ => [[]]
  | n + 1, c => (List.range (c.length + 1)).flatMap (fun j => (all n (seat c j)).map (j :: ·))
end Crp
open Crp

/-- `np.exp(dirichlet_log_eppf(alpha, c))`. -/
noncomputable def codeEppf (alpha : ℝ) (c : List ℕ) : Fl ℝ := Fl.exp Real.exp (dirichletLogEppf realFun.toVarFun alpha c)

/-- The order of the blocks is irrelevant. -/
theorem C71_symmetric {K : Type} [Field K] [LinearOrder K] (F : VarFun K) (alpha : K) {c c' : List ℕ} (h : c.Perm c') :
    dirichletLogEppf F alpha c = dirichletLogEppf F alpha c' := by
  unfold dirichletLogEppf
  rw [h.sum_eq, h.length_eq, Fl.sum_perm (h.map _)]

/-- The value of the code as a formula over the reals. -/
noncomputable def logEppf (alpha : ℝ) (c : List ℕ) : ℝ :=
  realFun.lgamma alpha - realFun.lgamma (alpha + ((c.sum : ℕ) : ℝ)) + (c.length : ℝ) * realFun.log alpha +
    (c.map (fun c : ℕ => realFun.lgamma (c : ℝ))).sum

/-- For a positive parameter and non-empty blocks the value is a number. -/
theorem eppf_finite {alpha : ℝ} (ha : 0 < alpha) {c : List ℕ} (hc : ∀ x ∈ c, 1 ≤ x) :
    dirichletLogEppf realFun.toVarFun alpha c = .fin (logEppf alpha c) := by
  have h1 : ∀ x : ℝ, 0 < x → lgammaFl realFun.lgamma x = .fin (realFun.lgamma x) := fun x hx => by
    rw [lgammaFl, if_neg hx.le.not_gt, if_neg hx.ne']
  have hn : (0 : ℝ) ≤ ((c.sum : ℕ) : ℝ) := Nat.cast_nonneg _
  have h2 : c.map (fun c : ℕ => lgammaFl realFun.lgamma (c : ℝ)) = (c.map (fun c : ℕ => realFun.lgamma (c : ℝ))).map Fl.fin := by
    rw [List.map_map]
    exact List.map_congr_left fun x hx => h1 _ (by exact_mod_cast hc x hx)
  unfold dirichletLogEppf logEppf
  rw [h1 _ ha, h1 _ (by linarith), h2, Fl.sum_fin]
  simp only [Fl.log, if_neg ha.le.not_gt, if_neg ha.ne', Fl.scale, Fl.sub, Fl.neg, Fl.add, sub_eq_add_neg]

/-- The exponential of the formula. -/
noncomputable def eppf (alpha : ℝ) (c : List ℕ) : ℝ := Real.exp (logEppf alpha c)

theorem codeEppf_eq {alpha : ℝ} (ha : 0 < alpha) {c : List ℕ} (hc : ∀ x ∈ c, 1 ≤ x) : codeEppf alpha c = .fin (eppf alpha c) := by
  rw [codeEppf, eppf_finite ha hc]; rfl

theorem seat_pos {c : List ℕ} (h : ∀ x ∈ c, 1 ≤ x) (j : ℕ) : ∀ x ∈ seat c j, 1 ≤ x := by
  unfold seat
  split
  · intro x hx
    obtain ⟨i, hi, rfl⟩ := List.mem_iff_getElem.1 hx
    rw [List.getElem_modify]
    split
    · omega
    · exact h _ (List.getElem_mem _)
  · intro x hx
    rcases List.mem_append.1 hx with hx | hx
    · exact h x hx
    · simp at hx; omega

theorem modify_split {c : List ℕ} {j : ℕ} (hj : j < c.length) :
    ∃ l r, c = l ++ c[j] :: r ∧ c.modify j (· + 1) = l ++ (c[j] + 1) :: r := by
  refine ⟨c.take j, c.drop (j + 1), ?_, ?_⟩
  · rw [List.getElem_cons_drop, List.take_append_drop]
  · rw [List.modify_eq_take_cons_drop hj]

/-- One step: the ratio of two values of the code is the predictive probability. -/
theorem eppf_seat {alpha : ℝ} (ha : 0 < alpha) {c : List ℕ} (hc : ∀ x ∈ c, 1 ≤ x) (j : ℕ) : eppf alpha (seat c j) = eppf alpha c * prob alpha c j := by
  have hn : (0 : ℝ) ≤ ((c.sum : ℕ) : ℝ) := Nat.cast_nonneg _
  have hpos : 0 < alpha + ((c.sum : ℕ) : ℝ) := by linarith
  have hG : Real.log (Real.Gamma (alpha + ((c.sum : ℕ) : ℝ) + 1)) = Real.log (alpha + ((c.sum : ℕ) : ℝ)) + Real.log (Real.Gamma (alpha + ((c.sum : ℕ) : ℝ))) := by
    rw [Real.Gamma_add_one hpos.ne', Real.log_mul hpos.ne' (Real.Gamma_pos_of_pos hpos).ne']
  unfold seat
  split
  case isTrue hj =>
    obtain ⟨l, r, e1, e2⟩ := modify_split hj
    have hx : 1 ≤ c[j] := hc _ (List.getElem_mem _)
    have hx' : (0 : ℝ) < (c[j] : ℝ) := by exact_mod_cast hx
    have hl : Real.log (Real.Gamma ((c[j] : ℝ) + 1)) = Real.log (c[j] : ℝ) + Real.log (Real.Gamma (c[j] : ℝ)) := by
      rw [Real.Gamma_add_one hx'.ne', Real.log_mul hx'.ne' (Real.Gamma_pos_of_pos hx').ne']
    have hs : (c.modify j (· + 1)).sum = c.sum + 1 := by rw [e2]; conv_rhs => rw [e1]
                                                         simp; omega
    have hlen : (c.modify j (· + 1)).length = c.length := by simp
    have hm : ((c.modify j (· + 1)).map (fun c : ℕ => realFun.lgamma (c : ℝ))).sum =
        (c.map (fun c : ℕ => realFun.lgamma (c : ℝ))).sum + Real.log (c[j] : ℝ) := by
      have e3 := congrArg (fun l => (l.map (fun c : ℕ => realFun.lgamma (c : ℝ))).sum) e1
      rw [e2, e3]
      simp only [List.map_append, List.map_cons, List.sum_append, List.sum_cons, Nat.cast_add, Nat.cast_one, realFun, hl]
      ring
    have hp : prob alpha c j = Real.exp (Real.log (c[j] : ℝ) - Real.log (alpha + ((c.sum : ℕ) : ℝ))) := by
      rw [Real.exp_sub, Real.exp_log hx', Real.exp_log hpos, prob, if_pos hj, List.getElem?_eq_getElem hj]; rfl
    unfold eppf
    rw [hp, ← Real.exp_add]
    congr 1
    unfold logEppf
    rw [hs, hlen, hm]
    simp only [realFun, Nat.cast_add, Nat.cast_one, ← add_assoc, hG]
    ring
  case isFalse hj =>
    have hp : prob alpha c j = Real.exp (Real.log alpha - Real.log (alpha + ((c.sum : ℕ) : ℝ))) := by
      rw [Real.exp_sub, Real.exp_log ha, Real.exp_log hpos, prob, if_neg hj]
    unfold eppf
    rw [hp, ← Real.exp_add]
    congr 1
    unfold logEppf
    simp only [realFun, List.sum_append, List.sum_cons, List.sum_nil, List.length_append, List.length_cons, List.length_nil, List.map_append, List.map_cons,
      List.map_nil, Nat.cast_add, Nat.cast_one, zero_add, add_zero, ← add_assoc, hG, Real.Gamma_one, Real.log_one]
    ring

theorem eppf_blocks {alpha : ℝ} (ha : 0 < alpha) : ∀ (js c : List ℕ), (∀ x ∈ c, 1 ≤ x) → eppf alpha (blocks c js) = eppf alpha c * seqProb alpha c js
  | [], c, _ => by simp [blocks, seqProb]
  | j :: js, c, hc => by
    rw [blocks, eppf_blocks ha js _ (seat_pos hc j), eppf_seat ha hc j, seqProb, mul_assoc]

theorem eppf_nil (alpha : ℝ) : eppf alpha [] = 1 := by
  unfold eppf logEppf
  simp

theorem blocks_pos : ∀ (js c : List ℕ), (∀ x ∈ c, 1 ≤ x) → ∀ x ∈ blocks c js, 1 ≤ x
  | [], _, h => h
  | j :: js, _, h => blocks_pos js _ (seat_pos h j)

/-- The probability of any sequence of choices, from the first observation on. -/
theorem C71_sequence {alpha : ℝ} (ha : 0 < alpha) (js : List ℕ) : codeEppf alpha (blocks [] js) = .fin (seqProb alpha [] js) := by
  rw [codeEppf_eq ha (blocks_pos js [] (by simp)), eppf_blocks ha js [] (by simp), eppf_nil, one_mul]

theorem prob_sum {alpha : ℝ} (ha : 0 < alpha) (c : List ℕ) : ((List.range (c.length + 1)).map (prob alpha c)).sum = 1 := by
  have hn : (0 : ℝ) ≤ ((c.sum : ℕ) : ℝ) := Nat.cast_nonneg _
  have hpos : alpha + ((c.sum : ℕ) : ℝ) ≠ 0 := by linarith
  have h1 : (List.range c.length).map (prob alpha c) = c.map (fun x : ℕ => (x : ℝ) / (alpha + ((c.sum : ℕ) : ℝ))) := by
    apply List.ext_getElem
    · simp
    · intro i h1 h2
      simp only [List.length_map, List.length_range] at h1
      simp only [List.getElem_map, List.getElem_range, prob, if_pos h1, List.getElem?_eq_getElem h1, Option.getD_some]
  rw [List.range_succ, List.map_append, List.sum_append, h1]
  have h2 : (c.map (fun x : ℕ => (x : ℝ) / (alpha + ((c.sum : ℕ) : ℝ)))).sum = ((c.sum : ℕ) : ℝ) / (alpha + ((c.sum : ℕ) : ℝ)) := by
    generalize alpha + ((c.sum : ℕ) : ℝ) = z
    clear h1 hpos hn
    induction c with
    | nil => simp
    | cons x xs ih => simp only [List.map_cons, List.sum_cons, ih, Nat.cast_add]; ring
  simp only [List.map_cons, List.map_nil, List.sum_cons, List.sum_nil, prob, lt_irrefl, if_false]
  rw [h2, add_zero, ← add_div, add_comm, div_self hpos]

theorem eppf_addition {alpha : ℝ} (ha : 0 < alpha) {c : List ℕ} (hc : ∀ x ∈ c, 1 ≤ x) :
    eppf alpha c = ((List.range (c.length + 1)).map (fun j => eppf alpha (seat c j))).sum := by
  have : (List.range (c.length + 1)).map (fun j => eppf alpha (seat c j)) = (List.range (c.length + 1)).map (fun j => eppf alpha c * prob alpha c j) :=
    List.map_congr_left fun j _ => eppf_seat ha hc j
  rw [this, List.sum_map_mul_left, prob_sum ha, mul_one]

/-- A partition of `n` observations is extended by one observation in all possible ways without losing or creating mass. -/
theorem C71_addition {alpha : ℝ} (ha : 0 < alpha) {c : List ℕ} (hc : ∀ x ∈ c, 1 ≤ x) :
    codeEppf alpha c = Fl.sum ((List.range (c.length + 1)).map (fun j => codeEppf alpha (seat c j))) := by
  have : (List.range (c.length + 1)).map (fun j => codeEppf alpha (seat c j)) =
      ((List.range (c.length + 1)).map (fun j => eppf alpha (seat c j))).map Fl.fin := by
    rw [List.map_map]
    exact List.map_congr_left fun j _ => codeEppf_eq ha (seat_pos hc j)
  rw [this, Fl.sum_fin, ← eppf_addition ha hc, codeEppf_eq ha hc]

theorem sum_flatMap_map {α : Type} (l : List α) (f : α → List (List ℕ)) (g : List ℕ → ℝ) :
    ((l.flatMap f).map g).sum = (l.map (fun a => ((f a).map g).sum)).sum := by
  induction l with
  | nil => simp
  | cons a l ih => simp [List.flatMap_cons, ih]

theorem eppf_all {alpha : ℝ} (ha : 0 < alpha) : ∀ (n : ℕ) (c : List ℕ), (∀ x ∈ c, 1 ≤ x) →
    ((all n c).map (fun js => eppf alpha (blocks c js))).sum = eppf alpha c
  | 0, c, _ => by simp [all, blocks]
  | n + 1, c, hc => by
    rw [all, sum_flatMap_map, eppf_addition ha hc]
    congr 1
    refine List.map_congr_left fun j _ => ?_
    rw [List.map_map]
    exact eppf_all ha n (seat c j) (seat_pos hc j)

/-- The values of the code over all partitions of `n` observations sum to one. -/
theorem C71_total {alpha : ℝ} (ha : 0 < alpha) (n : ℕ) : Fl.sum ((all n []).map (fun js => codeEppf alpha (blocks [] js))) = .fin 1 := by
  have : (all n []).map (fun js => codeEppf alpha (blocks [] js)) = ((all n []).map (fun js => eppf alpha (blocks [] js))).map Fl.fin := by
    rw [List.map_map]
    exact List.map_congr_left fun js _ => codeEppf_eq ha (blocks_pos js [] (by simp))
  rw [this, Fl.sum_fin, eppf_all ha n [] (by simp), eppf_nil]

/-- The code gives no number for `alpha = 0`, the limit in which all observations share one block. -/
theorem C71_zero {c : List ℕ} (hc : ∀ x ∈ c, 1 ≤ x) : dirichletLogEppf realFun.toVarFun 0 c = .nan := by
  unfold dirichletLogEppf
  cases c with
  | nil => simp [lgammaFl, Fl.log, Fl.scale, Fl.sub, Fl.neg, Fl.add]
  | cons x xs =>
    have h1 := hc x (by simp)
    have h2 : (0 : ℝ) < (((x :: xs).sum : ℕ) : ℝ) := by
      rw [List.sum_cons]; exact_mod_cast (by omega : 0 < x + xs.sum)
    have h3 : (0 : ℝ) < (((x :: xs).length : ℕ) : ℝ) := by
      rw [List.length_cons]; exact_mod_cast (by omega : 0 < xs.length + 1)
    rw [zero_add, lgammaFl, if_neg (lt_irrefl _), if_pos rfl, lgammaFl, if_neg h2.le.not_gt, if_neg h2.ne', Fl.log, if_neg (lt_irrefl _), if_pos rfl,
      Fl.scale, if_neg h3.ne', if_pos h3]
    rfl

/-- Three observations have five partitions; the fourth sequence has blocks of sizes 1 and 2. -/
example : all 3 [] = [[0, 0, 0], [0, 0, 1], [0, 1, 0], [0, 1, 1], [0, 1, 2]] ∧ blocks [] [0, 1, 1] = [1, 2] := by decide
example : seqProb 1 [] [0, 1, 1] = 1 / 6 := by norm_num [seqProb, prob, seat]
example : (∀ x ∈ [2, 1], 1 ≤ x) ∧ (0 : ℝ) < 1 := by simp

end Verif
