import Verif.Lemmas.Variational
import Verif.Props.C08
import Verif.Props.C09
import Verif.Props.C10
import Verif.Props.C11
import Verif.Props.C35

/-!
# C37: on hard assignments the variational update is the exact posterior

If the variational matrix is the indicator matrix of the labels `d` (with at least one row per label), the fitted parameters are those `random`
uses after `fit(d)`: proved for `DirichletProcess` and `DirichletDistribution`.  For `PitmanYorProcess` the two differ for every `pyd ≠ 0`: the
variational update uses the Pitman-Yor posterior, `random` one with the discount shifted (`C37_pitmanYor_refuted`, `_partial`).  For
`GeometricProcess` the first parameter is `a + N - 1` instead of `a + N` (`C37_geometric_refuted`); the second agrees (`_partial`).
-/

set_option linter.unusedSectionVars false

namespace Verif
open Spec
variable {K : Type} [Field K] [LinearOrder K] [IsStrictOrderedRing K]

theorem DP.fit_indicator {d : List ℤ} {k : ℕ} (hd : LabelsBelow d k) (alpha : K) :
    (DP.fitVariational alpha (indicator d k)).params = (List.range k).map (fun j => (1 + (nEq d j : K), alpha + (nGt d j : K))) := by
  refine List.ext_getElem? fun j => ?_
  rcases Nat.lt_or_ge j k with hj | hj
  · rw [DP.fit_get _ _ _ (by simpa [indicator] using hj)]
    have h1 := nGt_eq_sum (K := K) (d := d) (k := k) (fun x hx => (hd x hx).2) j hj
    simp only [indicator_rowSums, h1]
    simp [hj]
  · rw [List.getElem?_eq_none (by rw [DP.fit_length, indicator_length]; exact hj), List.getElem?_eq_none (by simpa using hj)]

theorem C37_dirichletProcess (log : K → K) {ω : Oracle K} (pos : ℕ) (ops : List (WOp K)) {alpha : K} (ha : 0 < alpha) {s : DP K × ℕ}
    (hs : DP.cls.run log ω (DP.init alpha, pos) ops = s) {k : ℕ} (hk : 1 ≤ k) (hd : LabelsBelow s.1.d k) :
    ∃ r t, DP.random (.int k) ω s = (.ok r, t) ∧ (DP.fitVariational alpha (indicator s.1.d k)).params.length = k ∧
      SticksDrawn ω s.2 k (fun j => ((DP.fitVariational alpha (indicator s.1.d k)).params[j]?).getD (0, 0)) t.1.v := by
  obtain ⟨r, t, h1, _, _, h4⟩ := C08_random log pos ops ha hs (fun x hx => (hd x hx).1) (size := .int k) (N := k) (.inl ⟨rfl, hk⟩)
  refine ⟨r, t, h1, by rw [DP.fit_length, indicator_length], h4.length, fun j hj => ?_⟩
  rw [h4.draw j hj, DP.fit_indicator hd]
  simp [hj]

theorem PY.fit_indicator {d : List ℤ} {k : ℕ} (hd : LabelsBelow d k) (pyd alpha : K) :
    (PY.fitVariational pyd alpha (indicator d k)).params = (List.range k).map (pitmanYorLaw pyd alpha d) := by
  refine List.ext_getElem? fun j => ?_
  rcases Nat.lt_or_ge j k with hj | hj
  · rw [PY.fit_get _ _ _ _ (by simpa [indicator] using hj)]
    have h1 := nGt_eq_sum (K := K) (d := d) (k := k) (fun x hx => (hd x hx).2) j hj
    simp only [indicator_rowSums, h1]
    simp [hj, pitmanYorLaw, add_comm]
  · rw [List.getElem?_eq_none (by rw [PY.fit_length, indicator_length]; exact hj), List.getElem?_eq_none (by simpa using hj)]

/-- Missing: the fitted parameters are those of the Pitman-Yor posterior with concentration `alpha`, `random` uses concentration `alpha - pyd`;
they agree exactly for `pyd = 0`. -/
theorem C37_pitmanYor_partial (log : K → K) {ω : Oracle K} (pos : ℕ) (ops : List (WOp K)) {pyd alpha : K} {s0 : PY K}
    (h0 : PY.init pyd alpha = .ok s0) (hp : 0 ≤ pyd ∧ pyd < 1) (ha : 0 < alpha) {s : PY K × ℕ}
    (hs : PY.cls.run log ω (s0, pos) ops = s) {k : ℕ} (hk : 1 ≤ k) (hd : LabelsBelow s.1.d k) :
    (PY.fitVariational pyd alpha (indicator s.1.d k)).params = (List.range k).map (pitmanYorLaw pyd alpha s.1.d) ∧
    ∃ r t, PY.random (.int k) ω s = (.ok r, t) ∧ SticksDrawn ω s.2 k (pitmanYorLaw pyd (alpha - pyd) s.1.d) t.1.v ∧
      (pyd = 0 → SticksDrawn ω s.2 k (fun j => ((PY.fitVariational pyd alpha (indicator s.1.d k)).params[j]?).getD (0, 0)) t.1.v) := by
  obtain ⟨r, t, h1, _, _, h4⟩ := C09_partial log pos ops h0 hp ha hs (fun x hx => (hd x hx).1) (size := .int k) (N := k) (.inl ⟨rfl, hk⟩)
  refine ⟨PY.fit_indicator hd pyd alpha, r, t, h1, h4, fun hz => ⟨h4.length, fun j hj => ?_⟩⟩
  rw [h4.draw j hj, PY.fit_indicator hd]
  simp [hj, hz]

/-- For every discount other than zero, every label vector and every component the two parameters differ. -/
theorem C37_pitmanYor_refuted {pyd alpha : K} (hp : pyd ≠ 0) {d : List ℤ} {k : ℕ} (hd : LabelsBelow d k) {j : ℕ} (hj : j < k) :
    (PY.fitVariational pyd alpha (indicator d k)).params[j]? ≠ some (pitmanYorLaw pyd (alpha - pyd) d j) := by
  rw [PY.fit_indicator hd]
  intro h
  simp only [List.getElem?_map, List.getElem?_range hj, Option.map_some, Option.some.injEq, pitmanYorLaw, Prod.mk.injEq] at h
  apply hp
  linarith [h.2]

theorem dirichlet_fit_indicator {alpha : List K} {d : List ℤ} :
    List.zipWith (· + ·) alpha (rowSums (indicator d alpha.length)) = dirichletPosterior alpha d := by
  rw [indicator_rowSums]
  refine List.ext_getElem? fun j => ?_
  rcases Nat.lt_or_ge j alpha.length with hj | hj
  · simp [dirichletPosterior, List.getElem?_zipWith, hj]
  · rw [List.getElem?_eq_none (by simpa using hj), List.getElem?_eq_none (by simpa [dirichletPosterior] using hj)]

theorem C37_dirichletDistribution (log : K → K) {ω : Oracle K} (pos : ℕ) (ops : List (WOp K)) {alpha : List K} (ha : ∀ x ∈ alpha, 0 < x)
    {s : DirDist K × ℕ} (hs : DirDist.cls.run log ω (DirDist.initList alpha.length alpha, pos) ops = s) (size : PySize)
    (hd : LabelsBelow s.1.d alpha.length) :
    ∃ v t, DirDist.fitVariational alpha.length alpha (indicator s.1.d alpha.length) = .ok v ∧
      DirDist.random size ω s = (.ok (ω.dirichlet s.2 v.params), t) := by
  obtain ⟨v, hv⟩ := (C35_accepts alpha (indicator s.1.d alpha.length)).2 (indicator_length _ _)
  obtain ⟨t, h1, _⟩ := C11_draw log pos ops alpha.length ha hs size hd
  refine ⟨v, t, hv, ?_⟩
  obtain ⟨_, rfl⟩ := DirDist.fit_eq hv
  rw [h1]
  simp only [dirichlet_fit_indicator]

theorem sum_range_ite (k m : ℕ) (c : K) : ((List.range k).map (fun j => if j = m then c else 0)).sum = if m < k then c else 0 := by
  induction k with
  | zero => simp
  | succ k ih =>
    rw [List.range_succ, List.map_append, List.sum_append, ih]
    rcases Nat.lt_trichotomy m k with h | h | h
    · simp [h, show m < k + 1 by omega, show ¬ k = m by omega]
    · simp [h]
    · simp [show ¬ m < k by omega, show ¬ m < k + 1 by omega, show ¬ k = m by omega]

theorem sum_label_weights {d : List ℤ} {k : ℕ} (hd : LabelsBelow d k) :
    (((List.range k).map (fun j => (nEq d j : K) * (j : K))).sum) = ((d.sum : ℤ) : K) := by
  induction d with
  | nil =>
    simp only [nEq, List.countP_nil, Nat.cast_zero, zero_mul, List.sum_nil, Int.cast_zero]
    exact List.sum_eq_zero (by simp)
  | cons x xs ih =>
    have hx := hd x (by simp)
    obtain ⟨m, rfl⟩ : ∃ m : ℕ, x = (m : ℤ) := ⟨x.toNat, by omega⟩
    have ih := ih (fun y hy => hd y (by simp [hy]))
    have e : (fun j : ℕ => (nEq ((m : ℤ) :: xs) j : K) * (j : K)) =
        fun j => (nEq xs j : K) * (j : K) + (if j = m then (m : K) else 0) := by
      funext j
      by_cases hj : j = m
      · subst hj; simp [nEq]; ring
      · have : ¬ ((m : ℤ) = (j : ℤ)) := fun hc => hj (by exact_mod_cast hc.symm)
        simp [nEq, this, hj]
    rw [e, List.sum_map_add, ih]
    have hm : m < k := by exact_mod_cast hx.2
    have : ((List.range k).map (fun j => if j = m then (m : K) else 0)).sum = (m : K) := by
      rw [sum_range_ite, if_pos hm]
    rw [this]; push_cast [List.sum_cons]; ring

/-- `Σ_j j * (row sum of row j)`. -/
def weightedRows (q : List (List K)) : K := (q.mapIdx (fun j r => r.sum * (j : K))).sum

theorem Geo.fit_b (a b : K) (r0 : List K) (rows : List (List K)) :
    Geo.fitVariational a b (r0 :: rows) = .ok { d := r0 :: rows, a := a + ((max r0.length 1 : ℕ) : K) - 1, b := b + weightedRows (r0 :: rows) } := by
  unfold Geo.fitVariational weightedRows
  simp only [List.drop_succ_cons, List.drop_zero, List.mapIdx_cons, List.sum_cons, Nat.cast_zero, mul_zero, zero_add]
  congr 4
  refine List.mapIdx_eq_mapIdx_iff.2 fun j hj => ?_
  rw [List.sum_map_mul_right]
  simp

theorem weightedRows_indicator {d : List ℤ} {k : ℕ} (hd : LabelsBelow d k) : weightedRows (indicator d k : List (List K)) = ((d.sum : ℤ) : K) := by
  rw [← sum_label_weights hd]
  unfold weightedRows
  congr 1
  have h := indicator_rowSums (K := K) d k
  refine List.ext_getElem? fun j => ?_
  have hj := congrArg (fun l => l[j]?) h
  simp only [rowSums, List.getElem?_map] at hj
  rw [List.getElem?_mapIdx, List.getElem?_map]
  cases h1 : (indicator d k : List (List K))[j]? with
  | none =>
    rw [h1] at hj
    cases h2 : (List.range k)[j]? with
    | none => rfl
    | some i => rw [h2] at hj; cases hj
  | some r =>
    rw [h1] at hj
    cases h2 : (List.range k)[j]? with
    | none => rw [h2] at hj; cases hj
    | some i =>
      rw [h2] at hj
      have hij : i = j := by
        have := List.getElem?_eq_some_iff.1 h2
        obtain ⟨_, e⟩ := this; simpa using e.symm
      have := Option.some.inj hj
      simp only [Option.map_some]
      rw [this, hij]

/-- Missing: the first parameter is `a + N - 1` (for `N ≥ 1` labels), `random` draws from `Beta(a + N, b + Σ d)`. -/
theorem C37_geometric_partial (log : ℝ → ℝ) {ω : Oracle ℝ} (pos : ℕ) (ops : List (WOp ℝ)) {a b p0 : ℝ} (ha : 0 < a) (hb : 0 < b)
    {s : Geo ℝ × ℕ} (hs : Geo.cls.run log ω (Geo.init a b p0, pos) ops = s) {k : ℕ} (hk : 1 ≤ k) (hd : LabelsBelow s.1.d k) :
    ∃ v r t, Geo.fitVariational a b (indicator s.1.d k) = .ok v ∧ Geo.random (.int k) ω s = (.ok r, t) ∧
      t.1.p = ω.beta s.2 (a + (s.1.d.length : ℝ)) v.b ∧ v.a = a + ((s.1.d.length - 1 : ℕ) : ℝ) := by
  obtain ⟨r, t, h1, _, _, h4, _⟩ := C10_random log pos ops ha hb hs (fun x hx => (hd x hx).1) (size := .int k) (N := k) (.inl ⟨rfl, hk⟩)
  obtain ⟨k, rfl⟩ : ∃ n, k = n + 1 := ⟨k - 1, by omega⟩
  have hw := weightedRows_indicator (K := ℝ) hd
  have hi : ∃ r0 rows, (indicator s.1.d (k + 1) : List (List ℝ)) = r0 :: rows ∧ r0.length = s.1.d.length := by
    unfold indicator
    rw [List.range_succ_eq_map]
    exact ⟨_, _, rfl, by simp⟩
  obtain ⟨r0, rows, hi, hl⟩ := hi
  rw [hi] at hw ⊢
  rw [Geo.fit_b]
  refine ⟨_, r, t, rfl, h1, ?_, ?_⟩
  · rw [h4, hw]
  · simp only [hl]
    rcases Nat.eq_zero_or_pos s.1.d.length with h | h
    · simp [h]
    · rw [max_eq_left (by omega), Nat.cast_sub (by omega)]; push_cast; ring

/-- For every non-empty label vector the first fitted parameter is not the one `random` uses. -/
theorem C37_geometric_refuted {a b : K} {d : List ℤ} (hne : d ≠ []) {k : ℕ} {v : GVar K}
    (h : Geo.fitVariational a b (indicator d k) = .ok v) : v.a ≠ a + (d.length : K) := by
  cases k with
  | zero => cases h
  | succ k =>
    have hi : ∃ r0 rows, (indicator d (k + 1) : List (List K)) = r0 :: rows ∧ r0.length = d.length := by
      unfold indicator
      rw [List.range_succ_eq_map]
      exact ⟨_, _, rfl, by simp⟩
    obtain ⟨r0, rows, hi, hl⟩ := hi
    rw [hi, Geo.fit_b] at h
    cases h
    have h1 : 1 ≤ d.length := List.length_pos_iff.2 hne
    simp only [hl, max_eq_left h1]
    intro hc
    have : (-1 : K) = 0 := by linarith
    simp at this

/-! ### The hypotheses are met -/

example : LabelsBelow [0, 2, 2] 4 ∧ (DP.fitVariational (3 : ℚ) (indicator [0, 2, 2] 4)).params = [(2, 5), (1, 5), (3, 3), (1, 3)] := by
  refine ⟨by unfold LabelsBelow; decide, by decide +kernel⟩

example : ∃ v, Geo.fitVariational (1 : ℚ) 1 (indicator [0, 2, 2] 3) = .ok v ∧ v.a = 3 ∧ v.b = 5 :=
  ⟨_, rfl, by decide +kernel, by decide +kernel⟩
end Verif
