import Verif.Model.NegIndex
import Verif.Props.C35
import Verif.Props.C36
import Verif.Props.C114
import Verif.Props.C123

/-!
# C145: negative components

`component=-i` names, as Python indices do, the `i`-th group from the end.  After `fit_gibbs` it always raises `KeyError` (`C145_gibbs`, `C145_gibbs_map`).  After
`fit_variational` with `k` groups `var_eap_density(component=-i)` raises `IndexError` for `i > k` (`C145_low`); for `1 ≤ i ≤ k` it is the density of group `k - i` times
`variational_mean_w_j(-i)` (`C145_density`).  For `DirichletDistribution` and `EqualWeighting` this is the answer for `component=k-i` (`C145_dirichlet`, `C145_equal`), for
`FrequencyWeighting` if there are at least `k` columns (`C145_frequency`).  For the Dirichlet process, the Pitman-Yor process and the geometric process the weight is another one: the mean of
the stick instead of the mean of the weight, or the weight divided by `(1 - p)^k`, so the density returned is too large at every point (`C145_dirichletProcess_refuted`,
`C145_pitmanYor_refuted`, `C145_geometric_refuted`).  For components that are not negative the model of this file is that of the others (`C145_nonneg`, `C145_gibbs_nonneg`).
-/

set_option linter.unusedSectionVars false

namespace Verif

section weights
variable {K : Type} [Field K] [LinearOrder K] [IsStrictOrderedRing K]

theorem index_nat {α : Type} (l : List α) (j : ℕ) : Py.index l (j : ℤ) = match l[j]? with
    | some x => .ok x
    | none => .error .indexError := by
  unfold Py.index
  simp only [Int.natCast_nonneg, if_true, Int.toNat_natCast]
  rw [if_neg (by omega)]
  rfl

theorem index_neg {α : Type} (l : List α) {i : ℕ} (h1 : 1 ≤ i) (h2 : i ≤ l.length) : Py.index l (-(i : ℤ)) = .ok (l[l.length - i]'(by omega)) := by
  unfold Py.index
  have e : ((l.length : ℤ) + -(i : ℤ)).toNat = l.length - i := by omega
  simp only []
  rw [if_neg (show ¬ (0 : ℤ) ≤ -(i : ℤ) by omega), if_neg (by omega), e, List.getElem?_eq_getElem (by omega)]

theorem index_low {α : Type} (l : List α) {i : ℕ} (h : l.length < i) : Py.index l (-(i : ℤ)) = .error .indexError := by
  unfold Py.index
  simp only []
  rw [if_neg (show ¬ (0 : ℤ) ≤ -(i : ℤ) by omega), if_pos (by omega)]

theorem DP.meanWAt_nat (v : Var K) (j : ℕ) : DP.meanWAt v j = DP.meanWj v j := by
  unfold DP.meanWAt DP.meanWj
  rw [index_nat, Int.toNat_natCast]
  by_cases h : v.k ≤ j
  · rw [if_pos (by exact_mod_cast h), if_pos h]
  · rw [if_neg (by exact_mod_cast h), if_neg h]
    cases foldTo (fun (r : K) (p : K × K) => r * (p.2 / (p.1 + p.2))) 1 v.params j with
    | error e => rfl
    | ok r =>
      by_cases h2 : j + 1 < v.k
      · simp only [if_pos h2, if_pos (show (j : ℤ) < (v.k : ℤ) - 1 by omega)]
        cases v.params[j]? <;> rfl
      · simp only [if_neg h2, if_neg (show ¬ (j : ℤ) < (v.k : ℤ) - 1 by omega)]

theorem PY.meanWAt_nat (v : Var K) (j : ℕ) : PY.meanWAt v j = PY.meanWj v j := by
  unfold PY.meanWAt PY.meanWj
  rw [index_nat, Int.toNat_natCast]
  by_cases h : v.k < j
  · rw [if_pos (by exact_mod_cast h), if_pos h]
  · rw [if_neg (by exact_mod_cast h), if_neg h]
    cases foldTo (fun (r : K) (p : K × K) => r * (p.2 / (p.1 + p.2))) 1 v.params j with
    | error e => rfl
    | ok r => cases v.params[j]? <;> rfl

theorem Geo.meanWAt_nat (v : GVar K) (j : ℕ) : Geo.meanWAt v j = Geo.meanWj v j := by
  unfold Geo.meanWAt Geo.meanWj
  rw [zpow_natCast]
  by_cases h : v.d.length ≤ j
  · rw [if_pos (by exact_mod_cast h), if_pos h]
  · rw [if_neg (by exact_mod_cast h), if_neg h]

theorem DirDist.meanWAt_nat (v : DVar K) (j : ℕ) : DirDist.meanWAt v j = DirDist.meanWj v j := by
  unfold DirDist.meanWAt DirDist.meanWj
  rw [index_nat]
  split
  · rfl
  · cases v.params[j]? <;> rfl

theorem Equal.meanWAt_nat (n j : ℕ) : (Equal.meanWAt n j : K) = Equal.meanWj n j := by
  unfold Equal.meanWAt Equal.meanWj
  by_cases h : j < n
  · rw [if_pos (by exact_mod_cast h), if_pos h]
  · rw [if_neg (by exact_mod_cast h), if_neg h]

theorem Freq.shareAt_nat (q : List (List K)) (j : ℕ) : Freq.shareAt q j = Freq.share q j := by
  unfold Freq.shareAt Freq.share
  rw [index_nat]
  cases (rowSums q)[j]? <;> rfl

/-- A product of at least one factor between zero and one. -/
theorem prod_lt_one {l : List K} (h : ∀ x ∈ l, 0 < x ∧ x < 1) : 0 < l.prod ∧ (l ≠ [] → l.prod < 1) := by
  induction l with
  | nil => simp
  | cons x l ih =>
    obtain ⟨h1, h2⟩ := ih fun y hy => h y (by simp [hy])
    have hx := h x (by simp)
    rw [List.prod_cons]
    refine ⟨mul_pos hx.1 h1, fun _ => ?_⟩
    have : l.prod ≤ 1 := by
      by_cases hl : l = []
      · subst hl; simp
      · exact (h2 hl).le
    calc x * l.prod ≤ x * 1 := mul_le_mul_of_nonneg_left this hx.1.le
      _ < 1 := by rw [mul_one]; exact hx.2

/-- The mass left by the sticks. -/
theorem left_lt_one {ps : List (K × K)} (h : ∀ p ∈ ps, 0 < p.1 ∧ 0 < p.2) {j : ℕ} (hj : 0 < j) (hl : j ≤ ps.length) :
    0 < ((ps.take j).map fun p => p.2 / (p.1 + p.2)).prod ∧ ((ps.take j).map fun p => p.2 / (p.1 + p.2)).prod < 1 := by
  have := prod_lt_one (l := (ps.take j).map fun p => p.2 / (p.1 + p.2)) (by
    intro x hx
    obtain ⟨p, hp, rfl⟩ := List.mem_map.1 hx
    obtain ⟨h1, h2⟩ := h p (List.mem_of_mem_take hp)
    exact ⟨div_pos h2 (by linarith), by rw [div_lt_one (by linarith)]; linarith⟩)
  refine ⟨this.1, this.2 fun h0 => ?_⟩
  have := congrArg List.length h0
  simp only [List.length_map, List.length_take, List.length_nil] at this
  omega

/-- **Dirichlet process, weights**: `-i` gives the mean of stick `k - i`, not of the weight; it is too large for all but the first and the last group. -/
theorem C145_dp_weight {alpha : K} (ha : 0 < alpha) {q : List (List K)} (hq : NonNegMatrix q) {i : ℕ} (h1 : 2 ≤ i) (h2 : i < q.length) :
    ∃ w w' : K, DP.meanWj (DP.fitVariational alpha q) (q.length - i) = .ok w ∧ DP.meanWAt (DP.fitVariational alpha q) (-(i : ℤ)) = .ok w' ∧ 0 < w ∧ w < w' := by
  have hpos := DP.fit_pos ha hq
  have hl := DP.fit_length alpha q
  have hk : (DP.fitVariational alpha q).k = q.length := rfl
  generalize DP.fitVariational alpha q = v at *
  have hj : q.length - i < v.params.length := by omega
  obtain ⟨l1, l2⟩ := left_lt_one hpos (j := q.length - i) (by omega) (by omega)
  obtain ⟨p1, p2⟩ := hpos v.params[q.length - i] (List.getElem_mem hj)
  set p := v.params[q.length - i]
  have hs : 0 < p.1 / (p.1 + p.2) := div_pos p1 (by linarith)
  refine ⟨_, p.1 / (p.1 + p.2), ?_, ?_, mul_pos l1 hs, by
    calc _ < 1 * (p.1 / (p.1 + p.2)) := mul_lt_mul_of_pos_right l2 hs
      _ = _ := one_mul _⟩
  · unfold DP.meanWj
    rw [if_neg (by omega), foldTo_ok _ _ _ _ (by omega), foldl_mul_map, one_mul]
    simp only []
    rw [if_pos (by omega), List.getElem?_eq_getElem hj]
  · unfold DP.meanWAt
    rw [if_neg (by omega), show (-(i : ℤ)).toNat = 0 by omega]
    simp only [foldTo]
    rw [if_pos (by omega), index_neg _ (by omega) (by omega)]
    simp only [hl, one_mul]
    rfl

/-- **Dirichlet process, the last group**: `-1` gives the mean of a stick that the fitted law does not use (its last stick is one); it is less than one whatever the weight. -/
theorem C145_dp_last {alpha : K} {q : List (List K)} (hq : q ≠ []) :
    DP.meanWAt (DP.fitVariational alpha q) (-1) = .ok ((1 + (q.getLast hq).sum) / (1 + (q.getLast hq).sum + alpha)) := by
  have hl := DP.fit_length alpha q
  have hk : (DP.fitVariational alpha q).k = q.length := rfl
  have hn : 0 < q.length := List.length_pos_of_ne_nil hq
  have hg := DP.fit_get alpha q (q.length - 1) (by omega)
  unfold DP.meanWAt
  rw [if_neg (by omega), show (-1 : ℤ).toNat = 0 by omega]
  simp only [foldTo]
  rw [if_pos (by omega), show (-1 : ℤ) = -((1 : ℕ) : ℤ) by norm_num, index_neg _ le_rfl (by omega)]
  have e : (DP.fitVariational alpha q).params[(DP.fitVariational alpha q).params.length - 1]'(by omega) = (1 + (q.getLast hq).sum, alpha) := by
    rw [List.getElem?_eq_getElem (by omega)] at hg
    have h0 : ((rowSums q).drop (q.length - 1 + 1)).sum = 0 := by
      rw [List.drop_eq_nil_of_le (by rw [rowSums_length]; omega)]; rfl
    rw [h0, add_zero] at hg
    simp only [hl]
    rw [Option.some.inj hg]
    simp [rowSums, List.getLast_eq_getElem]
  rw [e]
  simp only [one_mul]

/-- **Pitman-Yor process, weights**: the same for all but the first group. -/
theorem C145_py_weight {pyd alpha : K} (hp : 0 ≤ pyd ∧ pyd < 1) (ha : -pyd < alpha) {q : List (List K)} (hq : NonNegMatrix q) {i : ℕ} (h1 : 1 ≤ i) (h2 : i < q.length) :
    ∃ w w' : K, PY.meanWj (PY.fitVariational pyd alpha q) (q.length - i) = .ok w ∧ PY.meanWAt (PY.fitVariational pyd alpha q) (-(i : ℤ)) = .ok w' ∧ 0 < w ∧ w < w' := by
  have hpos := PY.fit_pos hp ha hq
  have hl := PY.fit_length pyd alpha q
  have hk : (PY.fitVariational pyd alpha q).k = q.length := rfl
  generalize PY.fitVariational pyd alpha q = v at *
  have hj : q.length - i < v.params.length := by omega
  obtain ⟨l1, l2⟩ := left_lt_one hpos (j := q.length - i) (by omega) (by omega)
  obtain ⟨p1, p2⟩ := hpos v.params[q.length - i] (List.getElem_mem hj)
  set p := v.params[q.length - i]
  have hs : 0 < p.1 / (p.1 + p.2) := div_pos p1 (by linarith)
  refine ⟨_, p.1 / (p.1 + p.2), ?_, ?_, mul_pos l1 hs, by
    calc _ < 1 * (p.1 / (p.1 + p.2)) := mul_lt_mul_of_pos_right l2 hs
      _ = _ := one_mul _⟩
  · unfold PY.meanWj
    rw [if_neg (by omega), foldTo_ok _ _ _ _ (by omega), foldl_mul_map, one_mul]
    simp only []
    rw [List.getElem?_eq_getElem hj]
  · unfold PY.meanWAt
    rw [if_neg (by omega), show (-(i : ℤ)).toNat = 0 by omega]
    simp only [foldTo]
    rw [index_neg _ (by omega) (by omega)]
    simp only [hl, one_mul]
    rfl

/-- **Geometric process, weights**: `-i` gives the weight of group `k - i` divided by `(1 - p)^k`. -/
theorem C145_geo_weight {a b : K} (ha : 0 < a) (hb : 0 < b) {q : List (List K)} (hq : NonNegMatrix q) {v : GVar K} (h : Geo.fitVariational a b q = .ok v) {i : ℕ} (h1 : 1 ≤ i)
    (h2 : i ≤ q.length) : 0 < Geo.meanWj v (q.length - i) ∧ Geo.meanWAt v (-(i : ℤ)) = Geo.meanWj v (q.length - i) / (1 - v.a / (v.a + v.b)) ^ q.length ∧
      Geo.meanWj v (q.length - i) < Geo.meanWAt v (-(i : ℤ)) := by
  obtain ⟨pa, pb, hd⟩ := Geo.fit_pos ha hb hq h
  have hp : 0 < v.a / (v.a + v.b) := div_pos pa (by linarith)
  have hp1 : v.a / (v.a + v.b) < 1 := by rw [div_lt_one (by linarith)]; linarith
  unfold Geo.meanWAt Geo.meanWj
  rw [hd, if_neg (by omega), if_neg (by omega)]
  set p := v.a / (v.a + v.b)
  have hr : 0 < 1 - p := by linarith
  have e : p * (1 - p) ^ (-(i : ℤ)) = p * (1 - p) ^ (q.length - i) / (1 - p) ^ q.length := by
    rw [mul_div_assoc, ← zpow_natCast (1 - p) (q.length - i), ← zpow_natCast (1 - p) q.length, ← zpow_sub₀ hr.ne']
    congr 2
    omega
  have hw : 0 < p * (1 - p) ^ (q.length - i) := mul_pos hp (pow_pos hr _)
  refine ⟨hw, e, ?_⟩
  rw [e, lt_div_iff₀ (pow_pos hr _)]
  calc _ < p * (1 - p) ^ (q.length - i) * 1 := mul_lt_mul_of_pos_left (pow_lt_one₀ hr.le (by linarith) (by omega)) hw
    _ = _ := mul_one _

/-- **Dirichlet distribution, weights**. -/
theorem C145_dirichlet_weight {alpha : List K} {q : List (List K)} {v : DVar K} (h : DirDist.fitVariational alpha.length alpha q = .ok v) {i : ℕ} (h1 : 1 ≤ i) (h2 : i ≤ q.length) :
    DirDist.meanWAt v (-(i : ℤ)) = DirDist.meanWj v (q.length - i) ∧ ∃ w, DirDist.meanWj v (q.length - i) = .ok w := by
  obtain ⟨hl, rfl⟩ := DirDist.fit_eq h
  have hlen : (List.zipWith (· + ·) alpha (rowSums q)).length = q.length := by simp [rowSums_length, hl]
  unfold DirDist.meanWAt DirDist.meanWj
  simp only []
  rw [if_neg (by omega), if_neg (by omega), index_neg _ h1 (by omega), List.getElem?_eq_getElem (by omega)]
  simp only [hlen]
  exact ⟨trivial, _, rfl⟩

/-- **Equal weights**. -/
theorem C145_equal_weight {n i : ℕ} (h1 : 1 ≤ i) (h2 : i ≤ n) : (Equal.meanWAt n (-(i : ℤ)) : K) = Equal.meanWj n (n - i) := by
  unfold Equal.meanWAt Equal.meanWj
  rw [if_pos (by omega), if_pos (by omega)]
end weights

namespace Mix
section freq
open Verif.Fl (fin)
variable {K : Type} [Field K] [LinearOrder K] [IsStrictOrderedRing K]

/-- **Frequencies**: `-i` gives the share of group `k - i`; the method gives the same for `k - i` as long as `k - i` is less than the number of columns, and `0` otherwise. -/
theorem C145_frequency (F : MathFun K) (c : (Freq.cls : WeightClass K).State) {q : List (List K)} {r : List K} {rs : List (List K)} (hq : q = r :: rs) (hr : r ≠ []) {i : ℕ} (h1 : 1 ≤ i)
    (h2 : i ≤ q.length) :
    ∃ w : K, atFreq F c (some (q.map fun r => r.map fin)) (-(i : ℤ)) = .ok (fin w) ∧
      (varFreq F).meanW c (some (q.map fun r => r.map fin)) (q.length - i) = .ok (fin (if q.length - i < r.length then w else 0)) := by
  have hk : freqK (show Freq K from c).n (q.map fun r => r.map fin) = r.length := by
    unfold freqK
    rw [hq]
    have : r.length ≠ 0 := fun h => hr (List.length_eq_zero_iff.1 h)
    simp [this]
  have hl : (rowSums q).length = q.length := rowSums_length q
  refine ⟨(rowSums q)[q.length - i]'(by omega) / (rowSums q).sum, ?_, ?_⟩
  · unfold atFreq
    simp only []
    rw [if_neg (by rw [hk]; omega), Fl.matrix_fin]
    simp only [Freq.shareAt]
    rw [index_neg _ h1 (by omega)]
    simp only [hl]
    rfl
  · simp only [varFreq, hk]
    by_cases h : q.length - i < r.length
    · rw [if_neg (by omega), if_pos h]
      simp only [freqShare, Fl.matrix_fin, Freq.share]
      rw [List.getElem?_eq_getElem (by omega)]
      rfl
    · rw [if_pos (by omega), if_neg h]
end freq

namespace VM
open Verif.Fl (fin)
open Matrix

section general
variable {K : Type} [Field K] [LinearOrder K] [IsStrictOrderedRing K] {C : WeightClass K} {V : VarClass C} {m : ℕ} {Atom : Type}

theorem densityLoop_one {c : ℕ} (dm : Except PyErr (Fin c → Fin m)) (f : (Fin c → Fin m) → VAtom K m → (Fin c → K) → K) (w : ℕ → Except PyErr (Fl K)) (xs : List (Fin c → K)) (j : ℕ)
    (a : Option (VAtom K m)) (acc : List (Fl K)) : densityLoop dm f (fun _ => w j) xs [(0, a)] acc = densityLoop dm f w xs [(j, a)] acc := rfl

/-- Components that are not negative: the same as in the other files. -/
theorem C145_nonneg {Z : MeanAt V} {s : VM V m Atom} {j : ℕ} (hZ : Z s.gm.wst.1 s.vst j = V.meanW s.gm.wst.1 s.vst j) (F : MathFun K) (y : Points K) (dim : Dim) :
    varEapAt Z F s y dim j = varEapDensity F s y dim (some j) := by
  unfold varEapAt varEapDensity
  split
  · rfl
  · cases points s y with
    | error e => rfl
    | ok p =>
      obtain ⟨c, xs⟩ := p
      simp only []
      split
      · rfl
      · rw [index_nat]
        unfold components
        simp only []
        cases s.varTheta[j]? with
        | none => rfl
        | some a =>
          simp only [hZ]
          exact densityLoop_one _ _ (V.meanW s.gm.wst.1 s.vst) xs j a _

/-- The six classes meet the condition of `C145_nonneg`. -/
theorem C145_classes (F : MathFun K) (G : MathFun ℝ) (j : ℕ) : (∀ c v, atDP F c v j = (varDP F).meanW c v j) ∧ (∀ c v, atPY F c v j = (varPY F).meanW c v j) ∧
    (∀ c v, atGeo G c v j = (varGeo G).meanW c v j) ∧ (∀ c v, atDirDist F c v j = (varDirDist F).meanW c v j) ∧ (∀ c v, atEqual F c v j = (varEqual F).meanW c v j) ∧
    (∀ c v, atFreq F c v j = (varFreq F).meanW c v j) := by
  refine ⟨fun c v => ?_, fun c v => ?_, fun c v => ?_, fun c v => ?_, fun c v => ?_, fun c v => ?_⟩
  · simp only [atDP, varDP, DP.meanWAt_nat]; rfl
  · simp only [atPY, varPY, PY.meanWAt_nat]; rfl
  · simp only [atGeo, varGeo, Geo.meanWAt_nat]; rfl
  · simp only [atDirDist, varDirDist, DirDist.meanWAt_nat]; rfl
  · simp only [atEqual, varEqual, Equal.meanWAt_nat]
  · cases v with
    | none => rfl
    | some q =>
      simp only [atFreq, varFreq, Freq.shareAt_nat, freqShare, index_nat]
      by_cases h : freqK (show Freq K from c).n q ≤ j
      · rw [if_pos (by exact_mod_cast h), if_pos h]
      · rw [if_neg (by exact_mod_cast h), if_neg h]
        cases Fl.matrix q with
        | some q => rfl
        | none =>
          by_cases hj : j < q.length
          · simp [hj, Except.map]
          · simp [hj, Except.map]

/-- **Too far from the end**. -/
theorem C145_low (Z : MeanAt V) (F : MathFun K) {s : VM V m Atom} (hs : s.varFitted = true) {y : Points K} (hy : y ≠ .invalid) {dim : Dim} (hd : dim ≠ .other) {i : ℕ}
    (hi : s.varTheta.length < i) : varEapAt Z F s y dim (-(i : ℤ)) = .error .indexError := by
  unfold varEapAt
  rw [if_neg (by rw [hs]; simp)]
  cases y with
  | invalid => exact absurd rfl hy
  | own => simp [points, hd, index_low _ hi]
  | given c xs => simp [points, hd, index_low _ hi]

/-- **Equal weights of `-i` and `k - i`** give equal answers, for all points and dimensions. -/
theorem C145_density {Z : MeanAt V} {s : VM V m Atom} {i : ℕ} (h1 : 1 ≤ i) (h2 : i ≤ s.varTheta.length)
    (hZ : Z s.gm.wst.1 s.vst (-(i : ℤ)) = V.meanW s.gm.wst.1 s.vst (s.varTheta.length - i)) (F : MathFun K) (y : Points K) (dim : Dim) :
    varEapAt Z F s y dim (-(i : ℤ)) = varEapDensity F s y dim (some (s.varTheta.length - i)) := by
  unfold varEapAt varEapDensity
  split
  · rfl
  · cases points s y with
    | error e => rfl
    | ok p =>
      obtain ⟨c, xs⟩ := p
      simp only []
      split
      · rfl
      · rw [index_neg _ h1 h2]
        unfold components
        simp only []
        rw [List.getElem?_eq_getElem (by omega)]
        simp only [hZ]
        exact densityLoop_one _ _ (V.meanW s.gm.wst.1 s.vst) xs _ _ _
end general

variable {m : ℕ} {C : WeightClass ℝ} {V : VarClass C} {Atom : Type}

/-- The two answers at given points: the same positive density times the two weights. -/
theorem two_answers {Z : MeanAt V} {s : VM V m Atom} (hs : s.varFitted = true) (hm : 0 < m) {as : List (VAtom ℝ m)} (hth : s.varTheta = as.map some) (ha : ∀ a ∈ as, ProperAtom a)
    {i : ℕ} (h1 : 1 ≤ i) (h2 : i ≤ as.length) {w w' : ℝ} (hw : V.meanW s.gm.wst.1 s.vst (as.length - i) = .ok (fin w)) (hw' : Z s.gm.wst.1 s.vst (-(i : ℤ)) = .ok (fin w')) :
    ∃ f : (Fin m → ℝ) → ℝ, (∀ x, 0 < f x) ∧ ∀ (y : Points ℝ) (xs : List (Fin m → ℝ)), points s y = .ok ⟨m, xs⟩ →
      varEapDensity realFun s y .none (some (as.length - i)) = .ok (xs.map fun x => fin (w * f x)) ∧
      varEapAt Z realFun s y .none (-(i : ℤ)) = .ok (xs.map fun x => fin (w' * f x)) := by
  have hj : as.length - i < as.length := by omega
  have hpa := ha _ (List.getElem_mem hj)
  obtain ⟨L, hL⟩ := exists_factor hpa.prec
  refine ⟨fun x => normFactor as[as.length - i] * expectedPdf as[as.length - i] L x, fun x => mul_pos (normFactor_pos hm hpa) (expectedPdf_pos hpa hL x), fun y xs hy => ⟨?_, ?_⟩⟩
  · exact C114_component hs hth ha ⟨as.length - i, hj⟩ hL hw hy
  · have hlen : s.varTheta.length = as.length := by rw [hth, List.length_map]
    have e : s.varTheta[s.varTheta.length - i]'(by omega) = some as[as.length - i] := by
      simp [hth]
    unfold varEapAt
    rw [if_neg (by rw [hs]; simp), hy]
    simp only [dimMap, le_refl, dite_true, Fin.castLE_rfl]
    rw [if_neg (by simp), index_neg _ h1 (by omega)]
    simp only [e]
    rw [densityLoop_ok (wf := fun _ => w') _ (fun _ => 0) (fun p hp => by
      rw [List.mem_singleton] at hp
      subst hp
      exact ⟨⟨_, rfl⟩, hw'⟩)]
    congr 1
    apply List.map_congr_left
    intro x _
    rw [zero_add]
    refine congrArg fin ?_
    rw [List.map_cons, List.map_nil, List.sum_singleton, mul_comm w']
    exact congrArg (· * w') (group_value hpa hL x)

variable {ω : Oracle ℝ} {W : World ℝ m Atom}

/-- **Dirichlet process**: after a fit with `k` groups, for `2 ≤ i < k`, `var_eap_density(component=-i)` is larger than `var_eap_density(component=k-i)` at every point. -/
theorem C145_dirichletProcess_refuted {G : MathFun ℝ} {F : VWorld ℝ m} (hF : Sane F.toMathFun) (he : 0 < W.eps) (hm : 0 < m) {ys : List (Fin m → ℝ)} (hy : ys ≠ []) (nG : Option ℤ) (tol : ℝ)
    {s u : VM (varDP G) m Atom × ℕ} (hI : LegalDP s.1.gm.wst.1) (hT : 0 < s.1.gm.totalIter) (hp : ProperPrior (GM.prior (begun ys s.1).gm))
    (h : fitVariational F W (.rows ys) nG false (.fin tol) .random ω s = (.ok (), u)) {i : ℕ} (h1 : 2 ≤ i) (h2 : i < u.1.varTheta.length) :
    ∃ f f' : (Fin m → ℝ) → ℝ, (∀ x, f x < f' x) ∧ ∀ (y : Points ℝ) (xs : List (Fin m → ℝ)), points u.1 y = .ok ⟨m, xs⟩ →
      varEapDensity realFun u.1 y .none (some (u.1.varTheta.length - i)) = .ok (xs.map fun x => fin (f x)) ∧
      varEapAt (atDP G) realFun u.1 y .none (-(i : ℤ)) = .ok (xs.map fun x => fin (f' x)) := by
  obtain ⟨hu, ⟨as, hth, ha⟩, c0, q, hc0, hq1, hq2, hq3, _⟩ := C114_fit hF he (C123_classes G one_pos).1.1 hm hy nG tol hI hT hp h
  have hq : NonNegMatrix q := fun r hr x hx => (hq2 r hr x hx).le
  have hlen : u.1.varTheta.length = as.length := by rw [hth, List.length_map]
  have hv : u.1.vst = VFit.fitted (DP.fitVariational (show DP ℝ from c0).alpha q) := by
    simp only [varDP, Fl.matrix_fin] at hq3
    injection hq3 with hq3
    exact (Prod.mk.inj hq3).2.symm
  obtain ⟨w, w', e1, e2, _, hlt⟩ := C145_dp_weight hc0 hq (i := i) h1 (by omega)
  obtain ⟨f, hf, H⟩ := two_answers (Z := atDP G) hu hm hth ha (i := i) (by omega) (by omega) (w := w) (w' := w')
    (by rw [hv, ← hlen, ← hq1]; show flOk (DP.meanWj _ _) = _; rw [e1]; rfl) (by rw [hv]; show flOk (DP.meanWAt _ _) = _; rw [e2]; rfl)
  exact ⟨fun x => w * f x, fun x => w' * f x, fun x => mul_lt_mul_of_pos_right hlt (hf x), fun y xs hy => by rw [hlen]; exact H y xs hy⟩

/-- **Pitman-Yor process**: the same for `1 ≤ i < k`. -/
theorem C145_pitmanYor_refuted {G : MathFun ℝ} {F : VWorld ℝ m} (hF : Sane F.toMathFun) (he : 0 < W.eps) (hm : 0 < m) {ys : List (Fin m → ℝ)} (hy : ys ≠ []) (nG : Option ℤ) (tol : ℝ)
    {s u : VM (varPY G) m Atom × ℕ} (hI : LegalPY s.1.gm.wst.1) (hT : 0 < s.1.gm.totalIter) (hp : ProperPrior (GM.prior (begun ys s.1).gm))
    (h : fitVariational F W (.rows ys) nG false (.fin tol) .random ω s = (.ok (), u)) {i : ℕ} (h1 : 1 ≤ i) (h2 : i < u.1.varTheta.length) :
    ∃ f f' : (Fin m → ℝ) → ℝ, (∀ x, f x < f' x) ∧ ∀ (y : Points ℝ) (xs : List (Fin m → ℝ)), points u.1 y = .ok ⟨m, xs⟩ →
      varEapDensity realFun u.1 y .none (some (u.1.varTheta.length - i)) = .ok (xs.map fun x => fin (f x)) ∧
      varEapAt (atPY G) realFun u.1 y .none (-(i : ℤ)) = .ok (xs.map fun x => fin (f' x)) := by
  obtain ⟨hu, ⟨as, hth, ha⟩, c0, q, hc0, hq1, hq2, hq3, _⟩ := C114_fit hF he (C123_classes G one_pos).2.1.1 hm hy nG tol hI hT hp h
  have hq : NonNegMatrix q := fun r hr x hx => (hq2 r hr x hx).le
  have hlen : u.1.varTheta.length = as.length := by rw [hth, List.length_map]
  have hv : u.1.vst = VFit.fitted (PY.fitVariational (show PY ℝ from c0).pyd (show PY ℝ from c0).alpha q) := by
    simp only [varPY, Fl.matrix_fin] at hq3
    injection hq3 with hq3
    exact (Prod.mk.inj hq3).2.symm
  obtain ⟨w, w', e1, e2, _, hlt⟩ := C145_py_weight ⟨hc0.1, hc0.2.1⟩ hc0.2.2 hq (i := i) h1 (by omega)
  obtain ⟨f, hf, H⟩ := two_answers (Z := atPY G) hu hm hth ha (i := i) (by omega) (by omega) (w := w) (w' := w')
    (by rw [hv, ← hlen, ← hq1]; show flOk (PY.meanWj _ _) = _; rw [e1]; rfl) (by rw [hv]; show flOk (PY.meanWAt _ _) = _; rw [e2]; rfl)
  exact ⟨fun x => w * f x, fun x => w' * f x, fun x => mul_lt_mul_of_pos_right hlt (hf x), fun y xs hy => by rw [hlen]; exact H y xs hy⟩

/-- **Geometric process**: the same for `1 ≤ i ≤ k`. -/
theorem C145_geometric_refuted {G : MathFun ℝ} {F : VWorld ℝ m} (hF : Sane F.toMathFun) (he : 0 < W.eps) (hm : 0 < m) {ys : List (Fin m → ℝ)} (hy : ys ≠ []) (nG : Option ℤ) (tol : ℝ)
    {s u : VM (varGeo G) m Atom × ℕ} (hI : LegalGeo s.1.gm.wst.1) (hT : 0 < s.1.gm.totalIter) (hp : ProperPrior (GM.prior (begun ys s.1).gm))
    (h : fitVariational F W (.rows ys) nG false (.fin tol) .random ω s = (.ok (), u)) {i : ℕ} (h1 : 1 ≤ i) (h2 : i ≤ u.1.varTheta.length) :
    ∃ f f' : (Fin m → ℝ) → ℝ, (∀ x, f x < f' x) ∧ ∀ (y : Points ℝ) (xs : List (Fin m → ℝ)), points u.1 y = .ok ⟨m, xs⟩ →
      varEapDensity realFun u.1 y .none (some (u.1.varTheta.length - i)) = .ok (xs.map fun x => fin (f x)) ∧
      varEapAt (atGeo G) realFun u.1 y .none (-(i : ℤ)) = .ok (xs.map fun x => fin (f' x)) := by
  obtain ⟨hu, ⟨as, hth, ha⟩, c0, q, hc0, hq1, hq2, hq3, _⟩ := C114_fit hF he (C123_classes G one_pos).2.2.1.1 hm hy nG tol hI hT hp h
  have hq : NonNegMatrix q := fun r hr x hx => (hq2 r hr x hx).le
  have hlen : u.1.varTheta.length = as.length := by rw [hth, List.length_map]
  simp only [varGeo, Fl.matrix_fin] at hq3
  cases hg : Geo.fitVariational (show Geo ℝ from c0).a (show Geo ℝ from c0).b q with
  | error e => rw [hg] at hq3; cases hq3
  | ok v =>
    rw [hg] at hq3
    have hv : u.1.vst = VFit.fitted v := by
      injection hq3 with hq3
      exact (Prod.mk.inj hq3).2.symm
    obtain ⟨_, _, hlt⟩ := C145_geo_weight hc0.1 hc0.2 hq hg (i := i) h1 (by omega)
    obtain ⟨f, hf, H⟩ := two_answers (Z := atGeo G) hu hm hth ha (i := i) (by omega) (by omega) (w := Geo.meanWj v (q.length - i)) (w' := Geo.meanWAt v (-(i : ℤ)))
      (by rw [hv, ← hlen, ← hq1]; rfl) (by rw [hv]; rfl)
    exact ⟨fun x => Geo.meanWj v (q.length - i) * f x, fun x => Geo.meanWAt v (-(i : ℤ)) * f x, fun x => mul_lt_mul_of_pos_right hlt (hf x), fun y xs hy => by rw [hlen]; exact H y xs hy⟩

/-- **Dirichlet distribution**: the answers agree after every fit. -/
theorem C145_dirichlet {G : MathFun ℝ} {F : VWorld ℝ m} (hF : Sane F.toMathFun) (he : 0 < W.eps) (hm : 0 < m) {ys : List (Fin m → ℝ)} (hy : ys ≠ []) (nG : Option ℤ) (tol : ℝ)
    {s u : VM (varDirDist G) m Atom × ℕ} {k : ℕ} (hk : 0 < k) (hI : LegalDirDist k s.1.gm.wst.1) (hT : 0 < s.1.gm.totalIter) (hp : ProperPrior (GM.prior (begun ys s.1).gm))
    (h : fitVariational F W (.rows ys) nG false (.fin tol) .random ω s = (.ok (), u)) {i : ℕ} (h1 : 1 ≤ i) (h2 : i ≤ u.1.varTheta.length) (y : Points ℝ) (dim : Dim) :
    varEapAt (atDirDist G) realFun u.1 y dim (-(i : ℤ)) = varEapDensity realFun u.1 y dim (some (u.1.varTheta.length - i)) := by
  obtain ⟨hu, ⟨as, hth, ha⟩, c0, q, hc0, hq1, hq2, hq3, _⟩ := C114_fit hF he (C123_classes G hk).2.2.2.1.1 hm hy nG tol hI hT hp h
  refine C145_density h1 h2 ?_ realFun y dim
  simp only [varDirDist, Fl.matrix_fin] at hq3
  have hn : (show DirDist ℝ from c0).n = ((show DirDist ℝ from c0).alpha.length : ℤ) := by rw [hc0.1.1, hc0.1.2]
  rw [hn] at hq3
  cases hg : DirDist.fitVariational ((show DirDist ℝ from c0).alpha.length : ℤ) (show DirDist ℝ from c0).alpha q with
  | error e => rw [hg] at hq3; cases hq3
  | ok v =>
    rw [hg] at hq3
    have hv : u.1.vst = VFit.fitted v := by
      injection hq3 with hq3
      exact (Prod.mk.inj hq3).2.symm
    rw [hv, ← hq1]
    show flOk (DirDist.meanWAt v _) = flOk (DirDist.meanWj v _)
    rw [(C145_dirichlet_weight hg h1 (by omega)).1]

/-- **Equal weights**: the answers agree after every fit. -/
theorem C145_equal {G : MathFun ℝ} {F : VWorld ℝ m} (hF : Sane F.toMathFun) (he : 0 < W.eps) (hm : 0 < m) {ys : List (Fin m → ℝ)} (hy : ys ≠ []) (nG : Option ℤ) (tol : ℝ)
    {s u : VM (varEqual G) m Atom × ℕ} (hT : 0 < s.1.gm.totalIter) (hp : ProperPrior (GM.prior (begun ys s.1).gm))
    (h : fitVariational F W (.rows ys) nG false (.fin tol) .random ω s = (.ok (), u)) {i : ℕ} (h1 : 1 ≤ i) (h2 : i ≤ u.1.varTheta.length) (y : Points ℝ) (dim : Dim) :
    varEapAt (atEqual G) realFun u.1 y dim (-(i : ℤ)) = varEapDensity realFun u.1 y dim (some (u.1.varTheta.length - i)) := by
  obtain ⟨hu, ⟨as, hth, ha⟩, c0, q, hc0, hq1, hq2, hq3, _⟩ := C114_fit hF he (C123_classes G one_pos).2.2.2.2.1.1 hm hy nG tol trivial hT hp h
  refine C145_density h1 h2 ?_ realFun y dim
  have hn : (show Equal ℝ from u.1.gm.wst.1).n = (q.length : ℤ) := by
    simp only [varEqual] at hq3
    injection hq3 with hq3
    rw [← (Prod.mk.inj hq3).1]
    simp
  show Except.ok (fin (Equal.meanWAt (show Equal ℝ from u.1.gm.wst.1).n.toNat _)) = Except.ok (fin (Equal.meanWj (show Equal ℝ from u.1.gm.wst.1).n.toNat _))
  rw [hn, Int.toNat_natCast, ← hq1, C145_equal_weight h1 (by omega)]
end VM

section gibbs
open GM
variable {K : Type} [Field K] [LinearOrder K] [IsStrictOrderedRing K] {C : WeightClass K} {m : ℕ} {Atom : Type}

theorem mixtureAt_nat {Obs : Type} (pdf : Dim → Obs → Atom → K) (xs : List Obs) (w : List K) (theta : List (ℕ × Atom)) (dim : Dim) (j : ℕ) :
    mixtureAt pdf xs w theta dim j = mixtureDensity pdf xs w theta dim (some j) := by
  unfold mixtureAt mixtureDensity
  split
  · rfl
  · rw [if_pos (by omega), Int.toNat_natCast, index_nat]
    simp only [componentRows]
    cases theta.lookup j with
    | none => rfl
    | some a => cases w[j]? <;> rfl

/-- Components that are not negative: the same as in the other files. -/
theorem C145_gibbs_nonneg (W : World K m Atom) (s : GM C m Atom) (y : Option (YArg K m)) (dim : Dim) (j : ℕ) (periods : Option ℤ) :
    gibbsEapAt W s y dim j periods = eapDensity W s y dim (some j) periods ∧ gibbsMapAt W s y dim j = mapDensity W s y dim (some j) := by
  have h : ∀ (xs : List (Fin m → K)) ps, statesAt W xs dim j ps = stateDensities W xs dim (some j) ps := by
    intro xs ps
    induction ps with
    | nil => rfl
    | cons p ps ih => unfold statesAt stateDensities; rw [mixtureAt_nat, ih]; rfl
  unfold gibbsEapAt eapDensity gibbsMapAt mapDensity
  simp only [h, mixtureAt_nat]
  exact ⟨rfl, rfl⟩

/-- **After `fit_gibbs`** a negative component raises `KeyError`, if there is a state to average. -/
theorem C145_gibbs (W : World K m Atom) {s : GM C m Atom} (hf : s.gibbsFitted = true) {y : Option (YArg K m)} {xs : List (Fin m → K)} (hy : queryRows s y = .ok xs) {dim : Dim}
    (hd : dim ≠ .other) {periods : Option ℤ} (hp : usedStates s.saved periods ≠ []) {j : ℤ} (hj : j < 0) : gibbsEapAt W s y dim j periods = .error .keyError := by
  unfold gibbsEapAt
  rw [if_neg (by rw [hf]; simp), hy]
  simp only []
  cases h : usedStates s.saved periods with
  | nil => exact absurd h hp
  | cons p ps => simp [statesAt, mixtureAt, hd, not_le.2 hj]

/-- The same for `gibbs_map_density`. -/
theorem C145_gibbs_map (W : World K m Atom) {s : GM C m Atom} (hf : s.gibbsFitted = true) {y : Option (YArg K m)} {xs : List (Fin m → K)} (hy : queryRows s y = .ok xs) {dim : Dim}
    (hd : dim ≠ .other) {p : RunParams K Atom} (hp : s.mapParams = some p) {j : ℤ} (hj : j < 0) : gibbsMapAt W s y dim j = .error .keyError := by
  unfold gibbsMapAt
  rw [if_neg (by rw [hf]; simp), hy, hp]
  simp [mixtureAt, hd, not_le.2 hj]
end gibbs
end Mix

/-! ### Concrete cases -/

open Mix Mix.VM in
/-- The theorem for the Dirichlet process applies to a fit of four observations with three groups, at component `-2`. -/
example {ω : Oracle ℝ} {s : VM (varDP realFun) 1 Unit × ℕ} (h1 : s.1.gm.lam = 1) (h2 : s.1.gm.psiPrior = some 1) (h3 : s.1.gm.nuPrior = none) (h4 : (show DP ℝ from s.1.gm.wst.1).alpha = 2)
    (h5 : s.1.gm.totalIter = 100) (tol : ℝ) :
    ∃ u, fitVariational turnFun turnWorld (.rows [![0], ![1], ![5], ![7]]) (some 3) false (.fin tol) .random ω s = (.ok (), u) ∧
      ∃ a b : ℝ, a < b ∧ varEapDensity realFun u.1 (.given 1 [![4]]) .none (some 1) = .ok [.fin a] ∧ varEapAt (atDP realFun) realFun u.1 (.given 1 [![4]]) .none (-2) = .ok [.fin b] := by
  have hp : ProperPrior (GM.prior (begun [![0], ![1], ![5], ![7]] s.1).gm) := by
    refine ⟨?_, ?_, ?_⟩
    · show 0 < s.1.gm.lam
      rw [h1]; exact one_pos
    · show ((1 : ℕ) : ℝ) - 1 < s.1.gm.nuPrior.getD _
      rw [h3]; norm_num
    · show (Matrix.of (s.1.gm.psiPrior.getD _)).PosDef
      rw [h2]
      have : (Matrix.of (fun _ _ : Fin 1 => (1 : ℝ)) : Matrix (Fin 1) (Fin 1) ℝ) = 1 := by
        ext i j
        fin_cases i; fin_cases j; rfl
      show (Matrix.of (fun _ _ : Fin 1 => (1 : ℝ)) : Matrix (Fin 1) (Fin 1) ℝ).PosDef
      rw [this]
      exact Matrix.PosDef.one
  have he : 0 < turnWorld.eps := by show (0 : ℝ) < 1 / 4503599627370496; norm_num
  have hJ : LegalDP s.1.gm.wst.1 := by show 0 < (show DP ℝ from s.1.gm.wst.1).alpha; rw [h4]; exact two_pos
  have hA := (C123_classes realFun (k := 3) three_pos).1
  have hT : 0 < s.1.gm.totalIter := by rw [h5]; norm_num
  obtain ⟨u, hu, hg, _⟩ := C123_fit (ω := ω) (W := turnWorld) he world_argsort hA.1 one_pos (F := turnFun) rfl hA.2 (by simp) hp (nG := some 3) tol hT (.random rfl three_pos hJ fun p => by
    show (Matrix.of (fun _ _ : Fin 1 => (p : ℝ) + 1)).det ≠ 0
    rw [Matrix.det_fin_one]
    show (p : ℝ) + 1 ≠ 0
    positivity)
  have hl := hg.ready.theta
  obtain ⟨f, f', hlt, H⟩ := C145_dirichletProcess_refuted (F := turnFun) realFun_sane he one_pos (by simp) (some 3) tol hJ hT hp hu (i := 2) le_rfl (by omega)
  obtain ⟨e1, e2⟩ := H (.given 1 [![4]]) [![4]] rfl
  rw [hl] at e1
  exact ⟨u, hu, f ![4], f' ![4], hlt _, e1, e2⟩

example : DP.meanWj (DP.fitVariational (1 : ℚ) [[1, 0], [0, 1], [0, 0]]) 1 = .ok (1/3) ∧ DP.meanWAt (DP.fitVariational (1 : ℚ) [[1, 0], [0, 1], [0, 0]]) (-2) = .ok (2/3) ∧
    DP.meanWAt (DP.fitVariational (1 : ℚ) [[1, 0], [0, 1], [0, 0]]) (-1) = .ok (1/2) ∧ DP.meanWj (DP.fitVariational (1 : ℚ) [[1, 0], [0, 1], [0, 0]]) 2 = .ok (1/6) := by decide +kernel
end Verif
