import Verif.Lemmas.VarOptimum
import Verif.Props.C37

/-!
# C90: `fit_variational` finds the best distribution of the weights

The documentation of `fit_variational` says that it minimises the Kullback-Leibler divergence to the posterior given labels of which only probabilities are known.
This is the maximisation of the evidence lower bound `E log p(d | w) - KL(q(w) || p(w))`.  For `DirichletProcess`, `PitmanYorProcess` and `DirichletDistribution` the
fitted law is the maximiser, among all probability measures, and the only one.  For `GeometricProcess` it is not: the first Beta parameter is too small by one,
whatever the labels; with this corrected it is.
-/

set_option linter.unusedSectionVars false

namespace Verif
open MeasureTheory ProbabilityTheory Spec InformationTheory
open scoped ENNReal

/-- `E log p(d | w)`, if observation `i` has label `j` with probability `q[j][i]`. -/
noncomputable def softLogLik (q : List (List ℝ)) {N : ℕ} (w : Fin N → ℝ) : ℝ := ∑ j : Fin N, ((q[(j : ℕ)]?).getD []).sum * Real.log (w j)

/-- Independent sticks, of which the last takes what is left over. -/
noncomputable def truncatedPrior (N : ℕ) (p : ℕ → ℝ × ℝ) : Measure (Fin N → ℝ) :=
  (Measure.pi (fun j : Fin N => if (j : ℕ) + 1 = N then Measure.dirac 1 else betaMeasure (p j).1 (p j).2)).map breakStick

/-- The Dirichlet law, for vectors of a given length. -/
noncomputable def dirichletPrior (N : ℕ) (l : List ℝ) : Measure (Fin N → ℝ) := (Measure.pi (fun j : Fin N => dirichletStick l j)).map breakStick

theorem rowSums_get (q : List (List ℝ)) (j : ℕ) : ((rowSums q)[j]?).getD 0 = ((q[j]?).getD []).sum := by
  rw [rowSums, List.getElem?_map]
  cases q[j]? <;> simp

theorem softLogLik_eq (q : List (List ℝ)) {N : ℕ} : (softLogLik q : (Fin N → ℝ) → ℝ) = countLogLik (fun j : Fin N => ((rowSums q)[(j : ℕ)]?).getD 0) := by
  funext w
  unfold softLogLik countLogLik
  exact Finset.sum_congr rfl fun j _ => by simp only [rowSums_get]

theorem sum_after (l : List ℝ) {N : ℕ} (hN : l.length = N) (j : Fin N) : ∑ i ∈ Finset.univ.filter (j < ·), (l[(i : ℕ)]?).getD 0 = (l.drop ((j : ℕ) + 1)).sum := by
  subst hN
  have h1 : ∀ m, m ≤ l.length → ∑ i ∈ (Finset.range l.length).filter (m ≤ ·), (l[i]?).getD 0 = (l.drop m).sum := by
    intro m hm
    induction hd : l.length - m generalizing m with
    | zero =>
      rw [List.drop_eq_nil_of_le (by omega), Finset.filter_false_of_mem, Finset.sum_empty, List.sum_nil]
      intro i hi
      have := Finset.mem_range.1 hi
      omega
    | succ d ih =>
      rw [List.drop_eq_getElem_cons (by omega), List.sum_cons, ← ih (m + 1) (by omega) (by omega)]
      have : (Finset.range l.length).filter (m ≤ ·) = insert m ((Finset.range l.length).filter (m + 1 ≤ ·)) := by
        ext i
        simp only [Finset.mem_filter, Finset.mem_range, Finset.mem_insert]
        omega
      rw [this, Finset.sum_insert (by simp), List.getElem?_eq_getElem (by omega), Option.getD_some]
  rw [← h1 _ (by have := j.2; omega), Finset.sum_filter, Finset.sum_filter,
    ← Fin.sum_univ_eq_sum_range (fun i => if (j : ℕ) + 1 ≤ i then (l[i]?).getD 0 else 0)]
  exact Finset.sum_congr rfl fun i _ => rfl

theorem counts_nonneg {q : List (List ℝ)} (hq : NonNegMatrix q) (j : ℕ) : 0 ≤ ((rowSums q)[j]?).getD 0 := by
  cases h : (rowSums q)[j]? with
  | none => simp
  | some x => exact rowSums_nonneg hq x (List.mem_of_getElem? h)

theorem counts_after {q : List (List ℝ)} (hq : NonNegMatrix q) (j : ℕ) : 0 ≤ ((rowSums q).drop j).sum :=
  List.sum_nonneg fun x hx => rowSums_nonneg hq x (List.mem_of_mem_drop hx)

/-- `DirichletProcess`: the prior is the law of the weights, truncated after as many weights as the matrix has rows. -/
theorem C90_dirichletProcess {alpha : ℝ} (ha : 0 < alpha) {q : List (List ℝ)} (hq : NonNegMatrix q) :
    Optimal (truncatedPrior (DP.fitVariational alpha q).params.length fun _ => (1, alpha)) (softLogLik q) (truncatedLaw (DP.fitVariational alpha q).params) := by
  have hl := DP.fit_length alpha q
  rw [softLogLik_eq]
  have hp : ∀ j : Fin (DP.fitVariational alpha q).params.length,
      IsProbabilityMeasure (if (j : ℕ) + 1 = (DP.fitVariational alpha q).params.length then Measure.dirac 1 else betaMeasure 1 alpha) := by
    intro j
    split
    · infer_instance
    · exact isProbabilityMeasureBeta one_pos ha
  refine sticks_optimal (fun j => counts_nonneg hq j) ?_ ?_ ?_ fun j => (truncatedLaw_log (DP.fit_pos ha hq) j).1
  · intro j
    split
    · rw [ae_dirac_iff (measurableSet_Ioc (a := (0 : ℝ)) (b := 1))]
      exact ⟨one_pos, le_rfl⟩
    · exact betaMeasure_ae.mono fun x hx => ⟨hx.1, hx.2.le⟩
  · intro j l h
    have h1 : (l : ℕ) < j := h
    have h2 := j.2
    rw [if_neg (by omega)]
    exact betaMeasure_ae.mono fun x hx => hx.2
  · intro j
    have hj : (j : ℕ) < q.length := hl ▸ j.2
    rw [sum_after (rowSums q) (by rw [rowSums_length, hl]) j]
    unfold truncatedSticks
    split
    · rw [List.drop_eq_nil_of_le (by rw [rowSums_length]; omega), List.sum_nil]
      exact dirac_one_tilt _
    · have hg := DP.fit_get alpha q j hj
      rw [List.getElem?_eq_getElem j.2, Option.some.injEq] at hg
      rw [Fin.getElem_fin, hg, List.getElem?_eq_getElem (by rw [rowSums_length]; exact hj), Option.getD_some]
      exact betaMeasure_tilt one_pos ha (by have := rowSums_nonneg hq _ (List.getElem_mem (l := rowSums q) (n := j) (by rw [rowSums_length]; exact hj)); positivity)
        (by have := counts_after hq ((j : ℕ) + 1); positivity)

/-- `PitmanYorProcess`: the sticks of the prior are those of the Pitman-Yor process. -/
theorem C90_pitmanYor {pyd alpha : ℝ} (hp : 0 ≤ pyd ∧ pyd < 1) (ha : -pyd < alpha) {q : List (List ℝ)} (hq : NonNegMatrix q) :
    Optimal ((betaSticks fun j : Fin (PY.fitVariational pyd alpha q).params.length => (1 - pyd, alpha + ((j : ℕ) + 1 : ℝ) * pyd)).map breakStick) (softLogLik q)
      (fittedLaw (PY.fitVariational pyd alpha q).params) := by
  have hl := PY.fit_length pyd alpha q
  rw [softLogLik_eq]
  have h1 : 0 < 1 - pyd := sub_pos.2 hp.2
  have h2 : ∀ j : ℕ, 0 < alpha + ((j : ℕ) + 1 : ℝ) * pyd := fun j => by
    have : 0 ≤ (j : ℝ) * pyd := mul_nonneg (Nat.cast_nonneg _) hp.1
    linarith
  have hpr : ∀ j : Fin (PY.fitVariational pyd alpha q).params.length, IsProbabilityMeasure (betaMeasure (1 - pyd) (alpha + ((j : ℕ) + 1 : ℝ) * pyd)) :=
    fun j => isProbabilityMeasureBeta h1 (h2 j)
  refine sticks_optimal (μ := fun j : Fin (PY.fitVariational pyd alpha q).params.length => betaMeasure (1 - pyd) (alpha + ((j : ℕ) + 1 : ℝ) * pyd))
    (fun j => counts_nonneg hq j) (fun j => betaMeasure_ae.mono fun x hx => ⟨hx.1, hx.2.le⟩)
    (fun j l _ => betaMeasure_ae.mono fun x hx => hx.2) ?_ fun j => (fittedLaw_log (PY.fit_pos hp ha hq) j).1
  intro j
  have hj : (j : ℕ) < q.length := hl ▸ j.2
  rw [sum_after (rowSums q) (by rw [rowSums_length, hl]) j]
  have hg := PY.fit_get pyd alpha q j hj
  rw [List.getElem?_eq_getElem j.2, Option.some.injEq] at hg
  have hn := rowSums_nonneg hq _ (List.getElem_mem (l := rowSums q) (n := j) (by rw [rowSums_length]; exact hj))
  have hr := counts_after hq ((j : ℕ) + 1)
  unfold fittedSticks
  rw [Fin.getElem_fin, hg, List.getElem?_eq_getElem (by rw [rowSums_length]; exact hj), Option.getD_some]
  simp only []
  rw [add_comm (1 : ℝ) (j : ℝ)]
  exact betaMeasure_tilt h1 (h2 j) (by linarith) (by have := h2 j; linarith)

theorem dirichletPrior_log {l : List ℝ} (h : ∀ x ∈ l, 0 < x) {N : ℕ} (hN : l.length = N) (j : Fin N) : Integrable (fun w => Real.log (w j)) (dirichletPrior N l) := by
  subst hN
  exact (dirichletLaw_log h j).1

/-- `DirichletDistribution`. -/
theorem C90_dirichletDistribution {alpha : List ℝ} (ha : ∀ x ∈ alpha, 0 < x) {q : List (List ℝ)} (hq : NonNegMatrix q) {v : DVar ℝ}
    (h : DirDist.fitVariational alpha.length alpha q = .ok v) :
    Optimal (dirichletLaw alpha) (softLogLik q) (dirichletPrior alpha.length v.params) := by
  obtain ⟨hl, rfl⟩ := DirDist.fit_eq h
  have hlr : (rowSums q).length = alpha.length := by rw [rowSums_length, hl]
  have hlen : (List.zipWith (· + ·) alpha (rowSums q)).length = alpha.length := by simp [hlr]
  have hpos := DirDist.fit_pos ha hq
  have hprob := dirichletStick_prob ha
  rw [softLogLik_eq]
  refine sticks_optimal (μ := fun j : Fin alpha.length => dirichletStick alpha j) (fun j => counts_nonneg hq j) ?_ ?_ ?_ (dirichletPrior_log hpos hlen)
  · intro j
    unfold dirichletStick
    split
    · rw [ae_dirac_iff (measurableSet_Ioc (a := (0 : ℝ)) (b := 1))]
      exact ⟨one_pos, le_rfl⟩
    · exact betaMeasure_ae.mono fun x hx => ⟨hx.1, hx.2.le⟩
  · intro j l h
    have h1 : (l : ℕ) < j := h
    have h2 := j.2
    rw [dirichletStick, if_neg (by omega)]
    exact betaMeasure_ae.mono fun x hx => hx.2
  · intro j
    have hj := j.2
    rw [sum_after (rowSums q) hlr j]
    unfold dirichletStick
    rw [hlen]
    split
    · rw [List.drop_eq_nil_of_le (by omega), List.sum_nil]
      exact dirac_one_tilt _
    · have hz : ∀ (a b : List ℝ), a.length = b.length → (List.zipWith (· + ·) a b).sum = a.sum + b.sum := by
        intro a
        induction a with
        | nil => intro b hb; cases b <;> simp at hb ⊢
        | cons x a ih =>
          intro b hb
          cases b with
          | nil => simp at hb
          | cons y b =>
            simp only [List.zipWith_cons_cons, List.sum_cons]
            rw [ih b (by simpa using hb)]
            ring
      rw [List.drop_zipWith, hz _ _ (by simp [hlr]), List.getElem?_zipWith, List.getElem?_eq_getElem hj, List.getElem?_eq_getElem (hlr.symm ▸ hj)]
      simp only [Option.getD_some]
      have p1 := ha _ (List.getElem_mem hj)
      have p2 := rowSums_nonneg hq _ (List.getElem_mem (l := rowSums q) (n := j) (hlr.symm ▸ hj))
      have p3 := drop_sum_pos ha (show (j : ℕ) + 1 < alpha.length by omega)
      have p4 := counts_after hq ((j : ℕ) + 1)
      exact betaMeasure_tilt p1 p3 (by linarith) (by linarith)

/-- `E log p(d | p)` for the weights `p (1 - p)^j`. -/
noncomputable def geoLogLik (q : List (List ℝ)) (p : ℝ) : ℝ := (q.mapIdx (fun j r => r.sum * Real.log (p * (1 - p) ^ j))).sum

theorem geoLogLik_eq (q : List (List ℝ)) {p : ℝ} (hp : 0 < p ∧ p < 1) : geoLogLik q p = betaTilt (rowSums q).sum (weightedRows q) p := by
  have h : ∀ i, (q.mapIdx (fun j r => r.sum * Real.log (p * (1 - p) ^ (j + i)))).sum =
      (rowSums q).sum * Real.log p + (q.mapIdx (fun j r => r.sum * ((j + i : ℕ) : ℝ))).sum * Real.log (1 - p) := by
    induction q with
    | nil => intro i; simp [rowSums]
    | cons r q ih =>
      intro i
      have e := ih (i + 1)
      simp only [rowSums, List.mapIdx_cons, List.map_cons, List.sum_cons, add_assoc, add_comm 1 i, zero_add] at e ⊢
      rw [e, Real.log_mul hp.1.ne' (pow_ne_zero _ (sub_pos.2 hp.2).ne'), Real.log_pow]
      ring
  have := h 0
  simp only [add_zero] at this
  exact this

theorem weightedRows_nonneg {q : List (List ℝ)} (hq : NonNegMatrix q) : 0 ≤ weightedRows q := by
  unfold weightedRows
  refine List.sum_nonneg fun x hx => ?_
  obtain ⟨j, hj, rfl⟩ := List.mem_mapIdx.1 hx
  exact mul_nonneg (List.sum_nonneg (hq _ (List.getElem_mem hj))) (Nat.cast_nonneg _)

theorem geo_optimal {a b : ℝ} (ha : 0 < a) (hb : 0 < b) {q : List (List ℝ)} (hq : NonNegMatrix q) :
    Optimal (betaMeasure a b) (geoLogLik q) (betaMeasure (a + (rowSums q).sum) (b + weightedRows q)) := by
  have hpr := isProbabilityMeasureBeta ha hb
  have h1 : 0 ≤ (rowSums q).sum := List.sum_nonneg (rowSums_nonneg hq)
  have h2 := weightedRows_nonneg hq
  have e : ∀ {c d : ℝ}, geoLogLik q =ᵐ[betaMeasure c d] betaTilt (rowSums q).sum (weightedRows q) := betaMeasure_ae.mono fun x hx => geoLogLik_eq q hx
  have ht := betaMeasure_tilt ha hb (m := (rowSums q).sum) (n := weightedRows q) (by linarith) (by linarith)
  refine varCost_min ?_ ?_ ?_ ?_
  · unfold geoLogLik
    have : ∀ i, Measurable fun p : ℝ => (q.mapIdx (fun j r => r.sum * Real.log (p * (1 - p) ^ (j + i)))).sum := by
      clear hq h1 h2 e ht
      induction q with
      | nil => intro i; simp
      | cons r q ih =>
        intro i
        have := ih (i + 1)
        simp only [List.mapIdx_cons, List.sum_cons, add_assoc, add_comm 1 i, zero_add] at this ⊢
        refine Measurable.add ?_ this
        fun_prop
    simpa using this 0
  · filter_upwards [e, betaMeasure_ae] with x hx h01
    rw [hx, betaTilt]
    exact add_nonpos (mul_nonpos_of_nonneg_of_nonpos h1 (Real.log_nonpos h01.1.le h01.2.le))
      (mul_nonpos_of_nonneg_of_nonpos h2 (Real.log_nonpos (sub_pos.2 h01.2).le (by linarith [h01.1])))
  · rw [tilted_congr e, ht.2]
  · refine Integrable.congr ?_ e.symm
    exact ((beta_log (by linarith) (by linarith)).1.const_mul _).add ((beta_log_one_sub (by linarith) (by linarith)).1.const_mul _)

/-- The matrix has a column for every observation, of probabilities. -/
def ProbMatrix (q : List (List ℝ)) (n : ℕ) : Prop := NonNegMatrix q ∧ (∀ r ∈ q, r.length = n) ∧ ∀ i < n, (q.map (fun r => (r[i]?).getD 0)).sum = 1

theorem ProbMatrix.total {q : List (List ℝ)} {n : ℕ} (h : ProbMatrix q n) : (rowSums q).sum = n := by
  have hs : ∀ r ∈ q, r.sum = ∑ i ∈ Finset.range n, (r[i]?).getD 0 := by
    intro r hr
    have hl := h.2.1 r hr
    have key : ∀ (r : List ℝ), r.sum = ∑ i ∈ Finset.range r.length, (r[i]?).getD 0 := by
      intro r
      induction r with
      | nil => simp
      | cons x r ih => rw [List.length_cons, Finset.sum_range_succ', List.sum_cons, ih]; simp [add_comm]
    rw [key, hl]
  have hc : ∀ q : List (List ℝ), (q.map fun r => ∑ i ∈ Finset.range n, (r[i]?).getD 0).sum = ∑ i ∈ Finset.range n, (q.map (fun r => (r[i]?).getD 0)).sum := by
    intro q
    induction q with
    | nil => simp
    | cons r q ih => simp only [List.map_cons, List.sum_cons]; rw [ih, Finset.sum_add_distrib]
  rw [rowSums, List.map_congr_left hs, hc, Finset.sum_congr rfl fun i hi => h.2.2 i (Finset.mem_range.1 hi)]
  simp

/-- `GeometricProcess`: the best law has first parameter one larger than the fitted one. -/
theorem C90_geometric_partial {a b : ℝ} (ha : 0 < a) (hb : 0 < b) {q : List (List ℝ)} {n : ℕ} (hn : 1 ≤ n) (hq : ProbMatrix q n) {v : GVar ℝ}
    (h : Geo.fitVariational a b q = .ok v) : Optimal (betaMeasure a b) (geoLogLik q) (betaMeasure (v.a + 1) v.b) := by
  have ho := geo_optimal ha hb hq.1
  rw [hq.total] at ho
  cases q with
  | nil => cases h
  | cons r0 rows =>
    rw [Geo.fit_b] at h
    cases h
    have hl : r0.length = n := hq.2.1 r0 (List.mem_cons_self ..)
    simp only [hl, max_eq_left hn, sub_add_cancel]
    exact ho

/-- `GeometricProcess`: the fitted law is never optimal. -/
theorem C90_geometric_refuted {a b : ℝ} (ha : 0 < a) (hb : 0 < b) {q : List (List ℝ)} {n : ℕ} (hn : 1 ≤ n) (hq : ProbMatrix q n) {v : GVar ℝ}
    (h : Geo.fitVariational a b q = .ok v) :
    ∃ Q : Measure ℝ, IsProbabilityMeasure Q ∧ varCost (betaMeasure a b) (geoLogLik q) Q < varCost (betaMeasure a b) (geoLogLik q) (betaMeasure v.a v.b) := by
  obtain ⟨h1, h2, _⟩ := Geo.fit_pos ha hb hq.1 h
  obtain ⟨_, ho⟩ := C90_geometric_partial ha hb hn hq h
  have hp := isProbabilityMeasureBeta h1 h2
  obtain ⟨h3, h4⟩ := ho _ hp
  refine ⟨_, isProbabilityMeasureBeta (by linarith : 0 < v.a + 1) h2, lt_of_le_of_ne h3 fun he => ?_⟩
  have e := congrArg (fun μ : Measure ℝ => ∫ x, x ∂μ) (h4.1 he.symm)
  beta_reduce at e
  rw [betaMeasure_mean h1 h2, betaMeasure_mean (by linarith) h2, div_eq_div_iff (by linarith) (by linarith)] at e
  linarith

/-! ### The hypotheses are met -/

example : ProbMatrix [[1/2, 1], [1/2, 0]] 2 := by
  refine ⟨?_, ?_, ?_⟩
  · intro r hr x hx
    simp only [List.mem_cons, List.not_mem_nil, or_false] at hr
    rcases hr with rfl | rfl <;> simp only [List.mem_cons, List.not_mem_nil, or_false] at hx <;> rcases hx with rfl | rfl <;> norm_num
  · simp
  · intro i hi
    rcases i with _ | _ | i
    · norm_num
    · norm_num
    · omega

example : ∃ v, Geo.fitVariational (1 : ℝ) 1 [[1/2, 1], [1/2, 0]] = .ok v := ⟨_, rfl⟩

example : ∃ v, DirDist.fitVariational (([1, 2] : List ℝ).length : ℤ) ([1, 2] : List ℝ) [[1/2, 1], [1/2, 0]] = .ok v := (C35_accepts _ _).2 rfl

end Verif
