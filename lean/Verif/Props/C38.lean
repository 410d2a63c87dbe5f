import Verif.Lemmas.Variational
import Verif.Props.C37
import Verif.Props.C39

/-!
# C38: `variational_mean_log_p_d__w(q) = Σ_j (Σ_i q[j,i]) * variational_mean_log_w_j(j)`

Proved for `DirichletProcess`, `PitmanYorProcess` and `DirichletDistribution`, for every fitted object and every matrix with at most as many
rows as components.  `GeometricProcess` drops the factor `j`: the values differ by `E log(1-v) * (N - Σ_j j n_j)` (`C38_geometric_difference`,
`C38_geometric_refuted`).  `EqualWeighting` has the wrong sign (`C38_equalWeighting_refuted`, equality only for one component).
`FrequencyWeighting`'s `variational_mean_log_w_j` is the frequency, not its logarithm (`C38_frequencyWeighting_refuted`, never equal).
-/

set_option linter.unusedSectionVars false

namespace Verif
open Spec
variable {K : Type} [Field K] [LinearOrder K] [IsStrictOrderedRing K]

/-- `Σ_j (Σ_i q[j,i]) * e_j`. -/
def weightedSum (q : List (List K)) (e : ℕ → K) : K := (q.mapIdx (fun j r => r.sum * e j)).sum

theorem meanLogPdLoop_ok (f : ℕ → Except PyErr (Option K)) (e : ℕ → K) (q : List (List K)) (j : ℕ) (c : K)
    (h : ∀ i, i < q.length → f (j + i) = .ok (some (e (j + i)))) :
    meanLogPdLoop f j (some c) (rowSums q) = .ok (some (c + weightedSum q (fun i => e (j + i)))) := by
  induction q generalizing j c with
  | nil => simp [rowSums, meanLogPdLoop, weightedSum]
  | cons r rows ih =>
    have h0 := h 0 (by simp)
    rw [show rowSums (r :: rows) = r.sum :: rowSums rows from rfl, meanLogPdLoop]
    simp only [add_zero] at h0
    rw [h0]
    simp only []
    rw [ih (j + 1) (c + r.sum * e j) (fun i hi => by
      have := h (i + 1) (by simpa using hi)
      rwa [show j + (i + 1) = j + 1 + i by omega] at this)]
    congr 2
    unfold weightedSum
    rw [List.mapIdx_cons, List.sum_cons]
    simp only [add_zero]
    rw [add_assoc]
    congr 3
    exact List.mapIdx_eq_mapIdx_iff.2 fun i _ => by rw [show j + 1 + i = j + (i + 1) by omega]

/-- What the property asks of one fitted object: on matrices with at most `k` rows the expected log-likelihood is the weighted sum of the values
`logW 0, logW 1, …`, and without an argument the fitted matrix is used. -/
def ExpectedAssign (logW : ℕ → Except PyErr (Option K)) (pd : Option (List (List K)) → Except PyErr (Option K)) (own : List (List K)) : Prop :=
  (∃ e : ℕ → K, (∀ j < own.length, logW j = .ok (some (e j))) ∧
    ∀ q : List (List K), q.length ≤ own.length → pd (some q) = .ok (some (weightedSum q e))) ∧
  pd none = pd (some own)

theorem expectedAssign_of (logW : ℕ → Except PyErr (Option K)) (own : List (List K)) (h : ∀ j < own.length, ∃ x, logW j = .ok (some x)) :
    ExpectedAssign logW (fun arg => match pickMatrix (some own) arg with
      | .error e => .error e
      | .ok q => meanLogPdLoop logW 0 (some 0) (rowSums q)) own := by
  choose! e he using h
  refine ⟨⟨e, he, fun q hq => ?_⟩, rfl⟩
  simp only [pickMatrix]
  rw [meanLogPdLoop_ok logW e q 0 0 (fun i hi => by rw [zero_add]; exact he i (by omega))]
  simp

theorem C38_dirichletProcess (F : VarFun K) (alpha : K) (q : List (List K)) :
    ExpectedAssign (DP.meanLogWj F (some (DP.fitVariational alpha q))) (DP.meanLogPd F (some (DP.fitVariational alpha q))) q := by
  refine expectedAssign_of _ _ fun j hj => ?_
  change j < q.length at hj
  obtain ⟨h1, h2, _⟩ := C39_dirichletProcess F alpha q j
  rcases Nat.lt_or_ge (j + 1) q.length with h | h
  · exact ⟨_, h1 (by rw [DP.fit_length]; omega) h⟩
  · exact ⟨_, h2 (by omega)⟩

theorem C38_pitmanYor (F : VarFun K) (pyd alpha : K) (q : List (List K)) :
    ExpectedAssign (PY.meanLogWj F (some (PY.fitVariational pyd alpha q))) (PY.meanLogPd F (some (PY.fitVariational pyd alpha q))) q := by
  refine expectedAssign_of _ _ fun j hj => ?_
  change j < q.length at hj
  exact ⟨_, (C39_pitmanYor F pyd alpha q j).1 (by rw [PY.fit_length]; omega)⟩

theorem C38_dirichletDistribution (F : VarFun K) {alpha : List K} {q : List (List K)} {v : DVar K}
    (h : DirDist.fitVariational alpha.length alpha q = .ok v) :
    ExpectedAssign (DirDist.meanLogWj F (some v)) (DirDist.meanLogPd F (some v)) q := by
  obtain ⟨hl, rfl⟩ := DirDist.fit_eq h
  refine expectedAssign_of _ _ fun j hj => ?_
  change j < q.length at hj
  have : j < (List.zipWith (· + ·) alpha (rowSums q)).length := by simp [rowSums_length]; omega
  simp only [DirDist.meanLogWj, List.getElem?_eq_getElem this]
  exact ⟨_, rfl⟩

/-- Before any fit, without an argument: `NotFittedError`. -/
theorem C38_not_fitted (F : VarFun K) :
    DP.meanLogPd F none none = .error .notFittedError ∧ PY.meanLogPd F none none = .error .notFittedError ∧
    DirDist.meanLogPd F none none = .error .notFittedError ∧ Geo.meanLogPd F none none = .error .notFittedError := ⟨rfl, rfl, rfl, rfl⟩

theorem weightedSum_add (q : List (List K)) (f g : ℕ → K) : weightedSum q (fun j => f j + g j) = weightedSum q f + weightedSum q g := by
  unfold weightedSum
  induction q generalizing f g with
  | nil => simp
  | cons r rows ih =>
    simp only [List.mapIdx_cons, List.sum_cons]
    have := ih (fun j => f (j + 1)) (fun j => g (j + 1))
    rw [this]; ring

theorem weightedSum_mul (q : List (List K)) (f : ℕ → K) (c : K) : weightedSum q (fun j => f j * c) = weightedSum q f * c := by
  unfold weightedSum
  induction q generalizing f with
  | nil => simp
  | cons r rows ih =>
    simp only [List.mapIdx_cons, List.sum_cons]
    have := ih (fun j => f (j + 1))
    rw [this]; ring

theorem weightedSum_const (q : List (List K)) (c : K) : weightedSum q (fun _ => c) = (rowSums q).sum * c := by
  unfold weightedSum rowSums
  induction q with
  | nil => simp
  | cons r rows ih =>
    simp only [List.mapIdx_cons, List.sum_cons, List.map_cons]
    rw [ih]; ring

/-- The error of `GeometricProcess`, for a matrix whose entries sum to the number `N ≥ 0` of observations. -/
theorem C38_geometric_difference (F : VarFun K) (v : GVar K) {r0 : List K} {rows : List (List K)}
    (hsum : (rowSums (r0 :: rows)).sum = (r0.length : K)) :
    ∃ e : ℕ → K, (∀ j, Geo.meanLogWj F (some v) j = .ok (some (e j))) ∧
      Geo.meanLogPd F (some v) (some (r0 :: rows)) =
        .ok (some (weightedSum (r0 :: rows) e + expLogOneSub F.digamma v.a v.b * ((r0.length : K) - weightedRows (r0 :: rows)))) := by
  refine ⟨_, fun j => C39_geometric F v j, ?_⟩
  have hsw := meanLogBeta_swap F (v.a, v.b)
  simp only at hsw
  have e1 : weightedSum (r0 :: rows) (fun j => (j : K)) = weightedRows (r0 :: rows) := rfl
  rw [weightedSum_add, weightedSum_const, weightedSum_mul, e1, hsum]
  unfold Geo.meanLogPd
  simp only [pickMatrix]
  rw [List.sum_map_mul_right, List.map_id', hsum, hsw]
  simp only [meanLogBeta, expLogBeta]
  congr 2; ring

/-- Whenever the expected sum of labels is not the number of observations, the value is wrong (digamma strictly increasing). -/
theorem C38_geometric_refuted (F : VarFun K) (hF : ∀ x y, 0 < x → x < y → F.digamma x < F.digamma y) {v : GVar K} (hv : 0 < v.a ∧ 0 < v.b)
    {r0 : List K} {rows : List (List K)} (hsum : (rowSums (r0 :: rows)).sum = (r0.length : K))
    (hne : weightedRows (r0 :: rows) ≠ (r0.length : K)) :
    ∃ (e : ℕ → K) (x : K), (∀ j, Geo.meanLogWj F (some v) j = .ok (some (e j))) ∧
      Geo.meanLogPd F (some v) (some (r0 :: rows)) = .ok (some x) ∧ x ≠ weightedSum (r0 :: rows) e := by
  obtain ⟨e, h1, h2⟩ := C38_geometric_difference F v hsum
  refine ⟨e, _, h1, h2, fun h => ?_⟩
  have h3 : expLogOneSub F.digamma v.a v.b * ((r0.length : K) - weightedRows (r0 :: rows)) = 0 := by linarith
  rcases mul_eq_zero.1 h3 with h4 | h4
  · have := hF v.b (v.a + v.b) hv.2 (by linarith [hv.1])
    unfold expLogOneSub at h4; linarith
  · exact hne (by linarith)

/-- Missing: the matrices for which the expected sum of labels differs from the number of observations. -/
theorem C38_geometric_partial (F : VarFun K) (v : GVar K) {r0 : List K} {rows : List (List K)}
    (hsum : (rowSums (r0 :: rows)).sum = (r0.length : K)) (he : weightedRows (r0 :: rows) = (r0.length : K)) :
    ∃ e : ℕ → K, (∀ j, Geo.meanLogWj F (some v) j = .ok (some (e j))) ∧
      Geo.meanLogPd F (some v) (some (r0 :: rows)) = .ok (some (weightedSum (r0 :: rows) e)) := by
  obtain ⟨e, h1, h2⟩ := C38_geometric_difference F v hsum
  exact ⟨e, h1, by rw [h2, he]; simp⟩

theorem weightedSum_congr {q : List (List K)} {f g : ℕ → K} (h : ∀ j < q.length, f j = g j) : weightedSum q f = weightedSum q g := by
  unfold weightedSum
  congr 1
  exact List.mapIdx_eq_mapIdx_iff.2 fun j hj => by rw [h j hj]

/-- The sign is wrong: the value is minus the weighted sum. -/
theorem C38_equalWeighting_sign (F : VarFun K) {r0 : List K} {rows : List (List K)}
    (hlog : ∀ x : K, 0 < x → F.log (1 / x) = - F.log x) (hsum : (rowSums (r0 :: rows)).sum = (r0.length : K)) :
    Equal.meanLogPd F (Equal.fitVariational (r0 :: rows)) (r0 :: rows) =
      - weightedSum (r0 :: rows) (Equal.meanLogWj F (Equal.fitVariational (r0 :: rows))) := by
  have h : ∀ j < (r0 :: rows).length, Equal.meanLogWj F (Equal.fitVariational (r0 :: rows)) j = - F.log (((r0 :: rows).length : ℕ) : K) := by
    intro j hj
    unfold Equal.meanLogWj Equal.fitVariational
    rw [if_pos hj, hlog _ (by exact_mod_cast (show 0 < (r0 :: rows).length by simp))]
  rw [weightedSum_congr h, weightedSum_const, hsum]
  simp only [Equal.meanLogPd, Equal.fitVariational, List.head?_cons, Option.map_some, Option.getD_some]
  ring

/-- At least two components and one observation: the value is wrong. -/
theorem C38_equalWeighting_refuted (F : VarFun K) {r0 r1 : List K} {rows : List (List K)}
    (hlog : ∀ x : K, 0 < x → F.log (1 / x) = - F.log x) (hlog1 : ∀ x : K, 1 < x → 0 < F.log x)
    (hsum : (rowSums (r0 :: r1 :: rows)).sum = (r0.length : K)) (hr : r0 ≠ []) :
    Equal.meanLogPd F (Equal.fitVariational (r0 :: r1 :: rows)) (r0 :: r1 :: rows) ≠
      weightedSum (r0 :: r1 :: rows) (Equal.meanLogWj F (Equal.fitVariational (r0 :: r1 :: rows))) := by
  have h := C38_equalWeighting_sign F hlog hsum
  have hpos : 0 < Equal.meanLogPd F (Equal.fitVariational (r0 :: r1 :: rows)) (r0 :: r1 :: rows) := by
    simp only [Equal.meanLogPd, Equal.fitVariational, List.head?_cons, Option.map_some, Option.getD_some]
    refine mul_pos (by exact_mod_cast List.length_pos_iff.2 hr) (hlog1 _ ?_)
    have : 1 < (r0 :: r1 :: rows).length := by simp
    exact_mod_cast this
  intro hc
  rw [← hc] at h
  linarith

/-- Missing: more than one component. -/
theorem C38_equalWeighting_partial (F : VarFun K) (hlog : F.log 1 = 0) (r0 : List K) :
    Equal.meanLogPd F (Equal.fitVariational [r0]) [r0] = weightedSum [r0] (Equal.meanLogWj F (Equal.fitVariational [r0])) := by
  simp [Equal.meanLogPd, Equal.fitVariational, weightedSum, Equal.meanLogWj, hlog]

theorem weightedSum_rowSums (q : List (List K)) (f : K → K) (e : ℕ → K) (h : ∀ j r, (rowSums q)[j]? = some r → e j = f r) :
    weightedSum q e = ((rowSums q).map (fun r => r * f r)).sum := by
  unfold weightedSum rowSums at *
  rw [List.map_map]
  congr 1
  refine List.ext_getElem? fun j => ?_
  rw [List.getElem?_mapIdx, List.getElem?_map]
  cases hj : q[j]? with
  | none => rfl
  | some r =>
    simp only [Option.map_some, Function.comp_apply]
    rw [h j r.sum (by rw [List.getElem?_map, hj]; rfl)]

/-- For every matrix with positive row sums and at least as many observations as components the value is strictly smaller than the weighted sum
(`log x < x`). -/
theorem C38_frequencyWeighting_refuted (F : VarFun K) (hlog : ∀ x : K, 0 < x → F.log x < x) (n : ℕ) {q : List (List K)} (hne : q ≠ [])
    (hpos : ∀ r ∈ rowSums q, 0 < r) (hcols : q.length ≤ (q.head?.map List.length).getD 0) :
    ∃ e : ℕ → K, (∀ j < q.length, Freq.meanLogWj F n q j = .ok (some (e j))) ∧ Freq.meanLogPd F q < weightedSum q e := by
  have hlen : 0 < q.length := List.length_pos_iff.2 hne
  have hS : 0 < (rowSums q).sum := list_sum_pos hpos (by simp [rowSums, hne])
  refine ⟨fun j => ((rowSums q)[j]?.getD 0) / (rowSums q).sum, fun j hj => ?_, ?_⟩
  · have hj' : j < (rowSums q).length := by simpa [rowSums] using hj
    unfold Freq.meanLogWj Freq.variationalK Freq.share
    rw [if_neg (by omega : ¬ (q.head?.map List.length).getD 0 = 0), if_neg (by omega), if_pos (by omega)]
    simp only [List.getElem?_eq_getElem hj', Option.getD_some]
  · rw [weightedSum_rowSums q (fun r => r / (rowSums q).sum) _ (fun j r h => by rw [h]; rfl)]
    unfold Freq.meanLogPd
    generalize (rowSums q).sum = S at hS
    have hne' : rowSums q ≠ [] := by simp [rowSums, hne]
    generalize rowSums q = rs at hpos hne'
    cases rs with
    | nil => exact absurd rfl hne'
    | cons r rs =>
      simp only [List.map_cons, List.sum_cons]
      have h1 : ∀ r, 0 < r → r * F.log (r / S) < r * (r / S) := fun r hr => mul_lt_mul_of_pos_left (hlog _ (div_pos hr hS)) hr
      refine add_lt_add_of_lt_of_le (h1 r (hpos r (by simp))) ?_
      exact List.sum_le_sum fun x hx => (h1 x (hpos x (by simp [hx]))).le

/-! ### The hypotheses are met -/

example : (rowSums [[(1 : ℚ), 1], [0, 0]]).sum = 2 ∧ weightedRows [[(1 : ℚ), 1], [0, 0]] ≠ 2 := by decide +kernel
example : (rowSums [[(1 : ℚ), 0], [0, 1]]).sum = 2 ∧ weightedRows [[(1/2 : ℚ), 0], [0, 1], [1/2, 0]] = 2 := by decide +kernel
example : (∀ r ∈ rowSums [[(1 : ℚ), 0], [0, 1]], 0 < r) ∧ 2 ≤ ([[(1 : ℚ), 0], [0, 1]].head?.map List.length).getD 0 := by decide +kernel
example : ∃ w, DP.meanLogPd ⟨fun x : ℚ => x, id, id⟩ (some (DP.fitVariational 2 [[1/2, 1/2], [1/2, 1/2]])) none = .ok (some w) ∧ w ≠ 0 :=
  ⟨_, rfl, by decide +kernel⟩
end Verif
