import Verif.Model.NegMode
import Verif.Props.C40
import Verif.Props.C115
import Verif.Props.C145

/-!
# C146: negative components of `var_map_density`

As C145, for `var_map_density` and the modes of the weights.  `C146_low`: `IndexError` for `i > k`.  `C146_two`: for `1 ≤ i ≤ k` the answers for `-i` and for `k - i` are the same normal density
times two weights.  They agree for `DirichletDistribution` and `EqualWeighting` (`C146_dirichlet`, `C146_equal`), and for `FrequencyWeighting` if `k - i` is at most the number of
observations (`C146_frequency`).  For the Dirichlet process the weight of `-i` is larger for `2 ≤ i < k` (`C146_dirichletProcess_refuted`).  For the Pitman-Yor process it is larger if
all sticks have a positive mode (`C146_py_weight`, `C146_pitmanYor_refuted`), and at least as large whenever both return (`C146_py_le`).  For the geometric process it is larger, possibly more than one
(`C146_geo_weight`, `C146_geo_above_one`, `C146_geometric_refuted`), and if the second parameter is at most one it is zero where the first group has weight one (`C146_geo_zero`).
-/

set_option linter.unusedSectionVars false

namespace Verif

section weights
variable {K : Type} [Field K] [LinearOrder K] [IsStrictOrderedRing K]

theorem DP.modeWAt_nat (v : Var K) (j : ℕ) : DP.modeWAt v j = DP.modeWj v j := by
  unfold DP.modeWAt DP.modeWj
  rw [index_nat, Int.toNat_natCast]
  by_cases h : v.k ≤ j
  · rw [if_pos (by exact_mod_cast h), if_pos h]
  · rw [if_neg (by exact_mod_cast h), if_neg h]
    cases DP.modeLoop 1 (v.params.take j) with
    | error e => rfl
    | ok r => cases r with
      | none => rfl
      | some r =>
        by_cases h2 : j + 1 = v.k
        · simp only [if_pos h2, if_pos (show (j : ℤ) = (v.k : ℤ) - 1 by omega)]
        · simp only [if_neg h2, if_neg (show ¬ (j : ℤ) = (v.k : ℤ) - 1 by omega)]
          cases v.params[j]? <;> rfl

theorem PY.modeWAt_nat (v : Var K) (j : ℕ) : PY.modeWAt v j = PY.modeWj v j := by
  unfold PY.modeWAt PY.modeWj
  rw [index_nat, Int.toNat_natCast]
  by_cases h : v.k < j
  · rw [if_pos (by exact_mod_cast h), if_pos h]
  · rw [if_neg (by exact_mod_cast h), if_neg h]
    cases DP.modeLoop 1 (v.params.take j) with
    | error e => rfl
    | ok r => cases r with
      | none => rfl
      | some r => cases v.params[j]? <;> rfl

theorem Geo.modeWAt_nat (v : GVar K) (j : ℕ) : Geo.modeWAt v j = Geo.modeWj v j := by
  unfold Geo.modeWAt Geo.modeWj
  simp only [zpow_natCast, Nat.cast_eq_zero, Nat.cast_lt]

theorem DirDist.modeWAt_nat (v : DVar K) (j : ℕ) : DirDist.modeWAt v j = DirDist.modeWj v j := by
  unfold DirDist.modeWAt DirDist.modeWj
  rw [index_nat]
  split
  · rfl
  · cases v.params[j]? <;> rfl

/-- The loop with factors between zero and one. -/
theorem modeLoop_le : ∀ (ps : List (K × K)) {c x : K}, 0 ≤ c → DP.modeLoop c ps = .ok (some x) → 0 ≤ x ∧ x ≤ c
  | [], c, x, hc, h => by
    rw [DP.modeLoop] at h
    cases h
    exact ⟨hc, le_rfl⟩
  | p :: ps, c, x, hc, h => by
    rw [DP.modeLoop] at h
    split at h
    · split at h <;> cases h
    · rename_i h2
      split at h
      · exact modeLoop_le ps hc h
      · rename_i h1
        push Not at h1 h2
        have h3 : 0 < p.1 + p.2 - 2 := by linarith
        have h4 : (p.2 - 1) / (p.1 + p.2 - 2) ≤ 1 := by rw [div_le_one h3]; linarith
        have h5 : 0 ≤ (p.2 - 1) / (p.1 + p.2 - 2) := div_nonneg (by linarith) h3.le
        obtain ⟨a, b⟩ := modeLoop_le ps (mul_nonneg hc h5) h
        exact ⟨a, b.trans (mul_le_of_le_one_right hc h4)⟩

/-- Sticks with positive modes: something is lost. -/
theorem modeLoop_lt {ps : List (K × K)} (hps : ∀ p ∈ ps, 1 < p.1) (hne : ps ≠ []) : DP.modeLoop 1 ps = .ok none ∨ ∃ x, DP.modeLoop 1 ps = .ok (some x) ∧ 0 ≤ x ∧ x < (1 : K) := by
  have ok : ∀ (l : List (K × K)) (c : K), (∀ p ∈ l, 1 < p.1) → DP.modeLoop c l = .ok none ∨ ∃ x, DP.modeLoop c l = .ok (some x) := by
    intro l
    induction l with
    | nil => intro c _; exact .inr ⟨c, rfl⟩
    | cons p l ih =>
      intro c h
      have h1 := h p (by simp)
      rw [DP.modeLoop]
      split
      · rw [if_neg (by linarith)]; exact .inl rfl
      · rw [if_neg (by linarith)]
        exact ih _ fun q hq => h q (by simp [hq])
  rcases ok ps 1 hps with h | ⟨x, h⟩
  · exact .inl h
  · refine .inr ⟨x, h, (modeLoop_le ps zero_le_one h).1, ?_⟩
    cases ps with
    | nil => exact absurd rfl hne
    | cons p ps =>
      have h1 := hps p (by simp)
      rw [DP.modeLoop] at h
      split at h
      · rw [if_neg (by linarith)] at h; cases h
      · rename_i h2
        rw [if_neg (by linarith)] at h
        push Not at h2
        have h3 : 0 < p.1 + p.2 - 2 := by linarith
        have h4 : (p.2 - 1) / (p.1 + p.2 - 2) < 1 := by rw [div_lt_one h3]; linarith
        have h5 : 0 ≤ (p.2 - 1) / (p.1 + p.2 - 2) := div_nonneg (by linarith) h3.le
        have := (modeLoop_le ps (mul_nonneg zero_le_one h5) h).2
        linarith

/-- The factor is the mode. -/
theorem modeFactor_mode (c : K) {p : K × K} (h : 1 < p.1) : ∃ m, IsBetaMode p m ∧ 0 < m ∧ DP.modeFactor c p = .ok (c * m) := by
  unfold DP.modeFactor
  rw [if_neg (by linarith)]
  split
  · rename_i h2
    exact ⟨1, .inr (.inr (.inl ⟨h, h2, rfl⟩)), one_pos, by rw [mul_one]⟩
  · rename_i h2
    push Not at h2
    exact ⟨_, .inl ⟨h, h2, rfl⟩, div_pos (by linarith) (by linarith), rfl⟩

/-- **Dirichlet process, weights**: `-i` gives the mode of stick `k - i`, not of the weight; it is too large for all but the first and the last group. -/
theorem C146_dp_weight {v : Var K} (hl : v.params.length = v.k) (hb : ∀ p ∈ v.params, 1 < p.1) {i : ℕ} (h1 : 2 ≤ i) (h2 : i < v.k) :
    ∃ w w' : K, DP.modeWj v (v.k - i) = .ok w ∧ DP.modeWAt v (-(i : ℤ)) = .ok w' ∧ IsBetaMode (v.params[v.k - i]'(by omega)) w' ∧ 0 ≤ w ∧ w < w' := by
  have hj : v.k - i < v.params.length := by omega
  have hne : v.params.take (v.k - i) ≠ [] := fun h => by
    have := congrArg List.length h
    simp only [List.length_take, List.length_nil] at this
    omega
  obtain ⟨m, hm, m0, _⟩ := modeFactor_mode (1 : K) (hb _ (List.getElem_mem hj))
  have hf : ∀ c, DP.modeFactor c (v.params[v.k - i]'hj) = .ok (c * m) := fun c => by
    obtain ⟨m', hm', _, e⟩ := modeFactor_mode c (hb _ (List.getElem_mem hj))
    have hb' := hb _ (List.getElem_mem hj)
    rw [e]
    rcases hm with ⟨_, x2, rfl⟩ | ⟨x, _⟩ | ⟨_, x2, rfl⟩ | ⟨x, _⟩ <;> rcases hm' with ⟨_, y2, rfl⟩ | ⟨y, _⟩ | ⟨_, y2, rfl⟩ | ⟨y, _⟩ <;> first | rfl | (exfalso; linarith)
  have e2 : DP.modeWAt v (-(i : ℤ)) = .ok m := by
    unfold DP.modeWAt
    have : (-(i : ℤ)).toNat = 0 := by omega
    rw [if_neg (by omega), this, List.take_zero]
    simp only [DP.modeLoop]
    rw [if_neg (by omega), index_neg _ (by omega) (by omega)]
    simp only [hl, hf, one_mul]
  rcases modeLoop_lt (fun p hp => hb p (List.mem_of_mem_take hp)) hne with e | ⟨x, e, x0, x1⟩
  · refine ⟨0, m, ?_, e2, hm, le_rfl, m0⟩
    unfold DP.modeWj
    rw [if_neg (by omega), e]
  · refine ⟨x * m, m, ?_, e2, hm, mul_nonneg x0 m0.le, by nlinarith⟩
    unfold DP.modeWj
    rw [if_neg (by omega), e]
    simp only []
    rw [if_neg (by omega), List.getElem?_eq_getElem hj]
    exact hf x

/-- **Pitman-Yor process, weights**: the same, also for the last group. -/
theorem C146_py_weight {v : Var K} (hl : v.params.length = v.k) (hb : ∀ p ∈ v.params, 1 < p.1) {i : ℕ} (h1 : 1 ≤ i) (h2 : i < v.k) :
    ∃ w w' : K, PY.modeWj v (v.k - i) = .ok w ∧ PY.modeWAt v (-(i : ℤ)) = .ok w' ∧ IsBetaMode (v.params[v.k - i]'(by omega)) w' ∧ 0 ≤ w ∧ w < w' := by
  have hj : v.k - i < v.params.length := by omega
  have hne : v.params.take (v.k - i) ≠ [] := fun h => by
    have := congrArg List.length h
    simp only [List.length_take, List.length_nil] at this
    omega
  obtain ⟨m, hm, m0, _⟩ := modeFactor_mode (1 : K) (hb _ (List.getElem_mem hj))
  have hf : ∀ c, DP.modeFactor c (v.params[v.k - i]'hj) = .ok (c * m) := fun c => by
    obtain ⟨m', hm', _, e⟩ := modeFactor_mode c (hb _ (List.getElem_mem hj))
    have hb' := hb _ (List.getElem_mem hj)
    rw [e]
    rcases hm with ⟨_, x2, rfl⟩ | ⟨x, _⟩ | ⟨_, x2, rfl⟩ | ⟨x, _⟩ <;> rcases hm' with ⟨_, y2, rfl⟩ | ⟨y, _⟩ | ⟨_, y2, rfl⟩ | ⟨y, _⟩ <;> first | rfl | (exfalso; linarith)
  have e2 : PY.modeWAt v (-(i : ℤ)) = .ok m := by
    unfold PY.modeWAt
    have : (-(i : ℤ)).toNat = 0 := by omega
    rw [if_neg (by omega), this, List.take_zero]
    simp only [DP.modeLoop]
    rw [index_neg _ (by omega) (by omega)]
    simp only [hl, hf, one_mul]
  rcases modeLoop_lt (fun p hp => hb p (List.mem_of_mem_take hp)) hne with e | ⟨x, e, x0, x1⟩
  · refine ⟨0, m, ?_, e2, hm, le_rfl, m0⟩
    unfold PY.modeWj
    rw [if_neg (by omega), e]
  · refine ⟨x * m, m, ?_, e2, hm, mul_nonneg x0 m0.le, by nlinarith⟩
    unfold PY.modeWj
    rw [if_neg (by omega), e]
    simp only []
    rw [List.getElem?_eq_getElem hj]
    exact hf x

/-- **Pitman-Yor process, all parameters**: whenever both return, `-i` gives at least as much. -/
theorem C146_py_le {v : Var K} (hl : v.params.length = v.k) {i : ℕ} (h1 : 1 ≤ i) (h2 : i ≤ v.k) {w w' : K} (hw : PY.modeWj v (v.k - i) = .ok w)
    (hw' : PY.modeWAt v (-(i : ℤ)) = .ok w') : w ≤ w' := by
  have hj : v.k - i < v.params.length := by omega
  have e2 : DP.modeFactor 1 (v.params[v.k - i]'hj) = .ok w' := by
    rw [← hw']
    unfold PY.modeWAt
    have : (-(i : ℤ)).toNat = 0 := by omega
    rw [if_neg (by omega), this, List.take_zero]
    simp only [DP.modeLoop]
    rw [index_neg _ (by omega) (by omega)]
    simp only [hl]
  unfold PY.modeWj at hw
  rw [if_neg (by omega)] at hw
  set p := v.params[v.k - i]'hj with hp
  have hn : 0 ≤ w' := by
    unfold DP.modeFactor at e2
    split at e2
    · split at e2 <;> cases e2
      exact le_rfl
    · split at e2
      · cases e2; exact zero_le_one
      · cases e2
        rw [one_mul]
        exact div_nonneg (by linarith) (by linarith)
  cases e : DP.modeLoop 1 (v.params.take (v.k - i)) with
  | error e' => rw [e] at hw; cases hw
  | ok r =>
    cases r with
    | none => rw [e] at hw; cases hw; exact hn
    | some x =>
      rw [e, List.getElem?_eq_getElem hj] at hw
      have hx := modeLoop_le _ zero_le_one e
      change DP.modeFactor x p = .ok w at hw
      unfold DP.modeFactor at hw e2
      split at e2
      · rename_i a
        rw [if_pos a] at hw
        split at e2
        · cases e2
        · rename_i b
          rw [if_neg b] at hw
          cases hw; cases e2; exact le_rfl
      · rename_i a
        rw [if_neg a] at hw
        split at e2
        · rename_i b
          rw [if_pos b] at hw
          cases hw; cases e2; exact hx.2
        · rename_i b
          rw [if_neg b] at hw
          cases hw; cases e2
          exact mul_le_mul_of_nonneg_right hx.2 (div_nonneg (by linarith) (by linarith))

/-- **Geometric process, weights**: the weight of `-i` is that of `k - i` divided by `(1 - p)^k`. -/
theorem C146_geo_weight {v : GVar K} (ha : 1 < v.a) (hb : 1 < v.b) {i : ℕ} (h1 : 1 ≤ i) (h2 : i ≤ v.d.length) :
    ∃ m w w' : K, IsBetaMode (v.a, v.b) m ∧ Geo.modeWj v (v.d.length - i) = .ok (some w) ∧ Geo.modeWAt v (-(i : ℤ)) = .ok (some w') ∧ w' * (1 - m) ^ v.d.length = w ∧ 0 < w ∧ w < w' := by
  have h3 : 0 < v.a + v.b - 2 := by linarith
  have m0 : 0 < (v.a - 1) / (v.a + v.b - 2) := div_pos (by linarith) h3
  have m1 : (v.a - 1) / (v.a + v.b - 2) < 1 := by rw [div_lt_one h3]; linarith
  set m := (v.a - 1) / (v.a + v.b - 2) with hm
  have r0 : 0 < 1 - m := by linarith
  have e : (1 - m) ^ (-(i : ℤ)) * (1 - m) ^ v.d.length = (1 - m) ^ (v.d.length - i) := by
    rw [← zpow_natCast, ← zpow_natCast, ← zpow_add₀ r0.ne']
    congr 1
    omega
  have hw' : 0 < (1 - m) ^ (-(i : ℤ)) * m := mul_pos (zpow_pos r0 _) m0
  have hlt : (1 - m) ^ v.d.length < 1 := pow_lt_one₀ r0.le (by linarith) (by omega)
  have e' : (1 - m) ^ (-(i : ℤ)) * m * (1 - m) ^ v.d.length = (1 - m) ^ (v.d.length - i) * m := by rw [← e]; ring
  refine ⟨m, (1 - m) ^ (v.d.length - i) * m, (1 - m) ^ (-(i : ℤ)) * m, .inl ⟨ha, hb, rfl⟩, ?_, ?_, e', mul_pos (pow_pos r0 _) m0, ?_⟩
  · unfold Geo.modeWj
    rw [if_neg (by omega), if_neg (by linarith), if_neg (by linarith)]
  · unfold Geo.modeWAt
    rw [if_neg (by omega), if_neg (by linarith), if_neg (by linarith)]
  · rw [← e']
    nlinarith

/-- It is more than one if the first group has at least half of the mass: no weight at all. -/
theorem C146_geo_above_one {v : GVar K} (hb : 1 < v.b) (hab : v.b < v.a) {i : ℕ} (h1 : 1 ≤ i) : ∃ w, Geo.modeWAt v (-(i : ℤ)) = .ok (some w) ∧ 1 < w := by
  have h3 : 0 < v.a + v.b - 2 := by linarith
  unfold Geo.modeWAt
  rw [if_neg (by omega), if_neg (by linarith), if_neg (by linarith)]
  refine ⟨_, rfl, ?_⟩
  have m1 : (v.a - 1) / (v.a + v.b - 2) < 1 := by rw [div_lt_one h3]; linarith
  have m2 : 1 - (v.a - 1) / (v.a + v.b - 2) < (v.a - 1) / (v.a + v.b - 2) := by
    rw [one_sub_div h3.ne']
    exact div_lt_div_of_pos_right (by linarith) h3
  set m := (v.a - 1) / (v.a + v.b - 2)
  have r0 : 0 < 1 - m := by linarith
  rw [zpow_neg, zpow_natCast, inv_mul_eq_div, one_lt_div (pow_pos r0 _)]
  exact (pow_le_of_le_one r0.le (by linarith) (by omega)).trans_lt m2

/-- If the second parameter is at most one, `-k` gives zero, although the first group has weight one. -/
theorem C146_geo_zero {v : GVar K} (ha : 1 < v.a) (hb : v.b ≤ 1) (hd : 0 < v.d.length) :
    Geo.modeWAt v (-(v.d.length : ℤ)) = .ok (some 0) ∧ Geo.modeWj v 0 = .ok (some 1) := by
  have h0 : ¬ (v.d.length : ℤ) < -(v.d.length : ℤ) := by omega
  have h1 : ¬ (-(v.d.length : ℤ)) = 0 := by omega
  have h2 : ¬ v.a ≤ 1 := not_le.2 ha
  unfold Geo.modeWAt Geo.modeWj
  simp only [if_neg h0, if_neg h1, if_neg h2, if_pos hb, Nat.not_lt_zero, if_false, if_true]
  exact ⟨trivial, trivial⟩

/-- **Dirichlet distribution**: the same, or both raise. -/
theorem C146_dirichlet_weight {v : DVar K} (hl : (v.params.length : ℤ) = v.k) {i : ℕ} (h1 : 1 ≤ i) (h2 : i ≤ v.params.length) :
    DirDist.modeWAt v (-(i : ℤ)) = DirDist.modeWj v (v.params.length - i) := by
  unfold DirDist.modeWAt DirDist.modeWj
  rw [if_neg (by omega), if_neg (by omega), index_neg _ h1 h2, List.getElem?_eq_getElem (by omega)]
end weights

namespace Mix
open Verif.Fl (fin)

section freq
variable {K : Type} [Field K] [LinearOrder K] [IsStrictOrderedRing K]

/-- **Frequencies**: `-i` gives the share of group `k - i`; the method gives the same for `k - i` as long as `k - i` is at most the number of columns, and `0` otherwise. -/
theorem C146_frequency (F : MathFun K) (c : (Freq.cls : WeightClass K).State) {q : List (List K)} {r : List K} {rs : List (List K)} (hq : q = r :: rs) (hr : r ≠ []) {i : ℕ} (h1 : 1 ≤ i)
    (h2 : i ≤ q.length) :
    ∃ w : K, modeAtFreq F c (some (q.map fun r => r.map fin)) (-(i : ℤ)) = .ok (some (fin w)) ∧
      (varFreq F).modeW c (some (q.map fun r => r.map fin)) (q.length - i) = .ok (some (fin (if q.length - i ≤ r.length then w else 0))) := by
  have hk : freqK (show Freq K from c).n (q.map fun r => r.map fin) = r.length := by
    unfold freqK
    rw [hq]
    have : r.length ≠ 0 := fun h => hr (List.length_eq_zero_iff.1 h)
    simp [this]
  have hl : (rowSums q).length = q.length := rowSums_length q
  refine ⟨(rowSums q)[q.length - i]'(by omega) / (rowSums q).sum, ?_, ?_⟩
  · unfold modeAtFreq
    simp only []
    rw [if_neg (by omega), Fl.matrix_fin]
    simp only [Freq.shareAt]
    rw [index_neg _ h1 (by omega)]
    simp only [hl]
    rfl
  · simp only [varFreq]
    rw [hk]
    by_cases h : q.length - i ≤ r.length
    · rw [if_neg (by omega), if_pos h, freqShare, Fl.matrix_fin]
      simp only [Freq.share]
      rw [List.getElem?_eq_getElem (by omega)]
      rfl
    · rw [if_pos (by omega), if_neg h]
end freq

namespace VM
section general
variable {K : Type} [Field K] [LinearOrder K] [IsStrictOrderedRing K] {C : WeightClass K} {V : VarClass C} {m : ℕ} {Atom : Type}

theorem varMapAt_eq (Z : ModeAt V) (F : MathFun K) {s : VM V m Atom} (i : ℕ) (j : ℤ) (hi : Py.index s.varTheta j = match s.varTheta[i]? with
      | some x => .ok x
      | none => .error .indexError)
    (hZ : Z s.gm.wst.1 s.vst j = V.modeW s.gm.wst.1 s.vst i) (y : Points K) (dim : Dim) : varMapAt Z F s y dim j = varMapDensity F s y dim (some i) := by
  unfold varMapAt varMapDensity
  split
  · rfl
  · cases points s y with
    | error e => rfl
    | ok p =>
      obtain ⟨c, xs⟩ := p
      simp only []
      split
      · rfl
      · rw [hi]
        unfold components
        simp only []
        cases s.varTheta[i]? with
        | none => rfl
        | some a =>
          simp only [hZ]
          rfl

/-- Components that are not negative: the same as in the other files. -/
theorem C146_nonneg {Z : ModeAt V} {s : VM V m Atom} {j : ℕ} (hZ : Z s.gm.wst.1 s.vst j = V.modeW s.gm.wst.1 s.vst j) (F : MathFun K) (y : Points K) (dim : Dim) :
    varMapAt Z F s y dim j = varMapDensity F s y dim (some j) := varMapAt_eq Z F j j (by rw [index_nat]; cases s.varTheta[j]? <;> rfl) hZ y dim

/-- The six classes meet the condition of `C146_nonneg`. -/
theorem C146_classes (F : MathFun K) (G : MathFun ℝ) (j : ℕ) : (∀ c v, modeAtDP F c v j = (varDP F).modeW c v j) ∧ (∀ c v, modeAtPY F c v j = (varPY F).modeW c v j) ∧
    (∀ c v, modeAtGeo G c v j = (varGeo G).modeW c v j) ∧ (∀ c v, modeAtDirDist F c v j = (varDirDist F).modeW c v j) ∧ (∀ c v, modeAtEqual F c v j = (varEqual F).modeW c v j) ∧
    (∀ c v, modeAtFreq F c v j = (varFreq F).modeW c v j) := by
  refine ⟨fun c v => ?_, fun c v => ?_, fun c v => ?_, fun c v => ?_, fun c v => ?_, fun c v => ?_⟩
  · simp only [modeAtDP, varDP, DP.modeWAt_nat]; rfl
  · simp only [modeAtPY, varPY, PY.modeWAt_nat]; rfl
  · simp only [modeAtGeo, varGeo, Geo.modeWAt_nat]
    cases v <;> rfl
  · simp only [modeAtDirDist, varDirDist, DirDist.modeWAt_nat]; rfl
  · simp only [modeAtEqual, varEqual, Equal.meanWAt_nat]
  · cases v with
    | none => rfl
    | some q =>
      simp only [modeAtFreq, varFreq, Freq.shareAt_nat, freqShare, index_nat]
      by_cases h : freqK (show Freq K from c).n q < j
      · rw [if_pos (by exact_mod_cast h), if_pos h]
      · rw [if_neg (by exact_mod_cast h), if_neg h]
        cases Fl.matrix q with
        | some q => rfl
        | none =>
          by_cases hj : j < q.length
          · simp [hj, Except.map]
          · simp [hj, Except.map]

/-- **Too far from the end**. -/
theorem C146_low (Z : ModeAt V) (F : MathFun K) {s : VM V m Atom} (hs : s.varFitted = true) {y : Points K} (hy : y ≠ .invalid) {dim : Dim} (hd : dim ≠ .none) (hd' : dim ≠ .other) {i : ℕ}
    (hi : s.varTheta.length < i) : varMapAt Z F s y dim (-(i : ℤ)) = .error .indexError := by
  unfold varMapAt
  rw [if_neg (by rw [hs]; simp)]
  cases y with
  | invalid => exact absurd rfl hy
  | own => simp [points, hd, hd', index_low _ hi]
  | given c xs => simp [points, hd, hd', index_low _ hi]

/-- **Equal weights of `-i` and `k - i`** give equal answers, for all points and dimensions. -/
theorem C146_density {Z : ModeAt V} {s : VM V m Atom} {i : ℕ} (h1 : 1 ≤ i) (h2 : i ≤ s.varTheta.length)
    (hZ : Z s.gm.wst.1 s.vst (-(i : ℤ)) = V.modeW s.gm.wst.1 s.vst (s.varTheta.length - i)) (F : MathFun K) (y : Points K) (dim : Dim) :
    varMapAt Z F s y dim (-(i : ℤ)) = varMapDensity F s y dim (some (s.varTheta.length - i)) :=
  varMapAt_eq Z F _ _ (by rw [index_neg _ h1 h2, List.getElem?_eq_getElem (by omega)]) hZ y dim

/-- **Two weights**: the answers are the same normal density times the two weights. -/
theorem C146_two {Z : ModeAt V} {s : VM V m Atom} (hs : s.varFitted = true) {as : List (VAtom K m)} (hth : s.varTheta = as.map some) {i : ℕ} (h1 : 1 ≤ i) (h2 : i ≤ as.length) {w w' : K}
    (hw : V.modeW s.gm.wst.1 s.vst (as.length - i) = .ok (some (fin w))) (hw' : Z s.gm.wst.1 s.vst (-(i : ℤ)) = .ok (some (fin w'))) (F : MathFun K) {y : Points K} {c : ℕ}
    {xs : List (Fin c → K)} (hy : points s y = .ok ⟨c, xs⟩) {dim : Dim} (hd : ¬ (dim = .none ∨ dim = .other)) {g : Fin c → Fin m} (hg : dimMap m c dim = .ok g) {a : VAtom K m}
    (ha : as[as.length - i]? = some a) :
    varMapDensity F s y dim (some (as.length - i)) =
      .ok (xs.map fun x => fin (normalDensity F x (fun i => a.mu (g i)) (fun i j => (a.scale - c) * a.prec (g i) (g j)) * w)) ∧
    varMapAt Z F s y dim (-(i : ℤ)) = .ok (xs.map fun x => fin (normalDensity F x (fun i => a.mu (g i)) (fun i j => (a.scale - c) * a.prec (g i) (g j)) * w')) := by
  have hlen : s.varTheta.length = as.length := by rw [hth, List.length_map]
  have e : s.varTheta[as.length - i]? = some (some a) := by rw [hth, List.getElem?_map, ha]; rfl
  constructor
  · unfold varMapDensity
    rw [if_neg (by rw [hs]; simp), hy]
    simp only [if_neg hd, components, e, hg]
    rw [densityLoop_ok (wf := fun _ => w) _ (fun _ => 0) (fun p hp => by
      rw [List.mem_singleton] at hp
      subst hp
      exact ⟨⟨_, rfl⟩, by simp only [hw]⟩)]
    simp
  · have e' : Py.index s.varTheta (-(i : ℤ)) = .ok (some a) := by
      rw [index_neg _ h1 (by omega)]
      rw [List.getElem?_eq_getElem (by omega)] at e
      simp only [hlen]
      rw [Option.some.inj e]
    unfold varMapAt
    rw [if_neg (by rw [hs]; simp), hy]
    simp only [if_neg hd, e', hg]
    rw [densityLoop_ok (wf := fun _ => w') _ (fun _ => 0) (fun p hp => by
      rw [List.mem_singleton] at hp
      subst hp
      exact ⟨⟨_, rfl⟩, by simp only [hw']⟩)]
    simp
end general

variable {m : ℕ} {Atom : Type} {ω : Oracle ℝ} {W : World ℝ m Atom}

/-- **Dirichlet process**: after a fit with `k` groups, for `2 ≤ i < k`, `component=-i` multiplies the density of group `k - i` by the mode of its stick, which is larger than the weight
`component=k-i` multiplies it with. -/
theorem C146_dirichletProcess_refuted {G : MathFun ℝ} {F : VWorld ℝ m} (hF : Sane F.toMathFun) (he : 0 < W.eps) (hm : 0 < m) {ys : List (Fin m → ℝ)} (hy : ys ≠ []) (nG : Option ℤ) (tol : ℝ)
    {s u : VM (varDP G) m Atom × ℕ} (hI : LegalDP s.1.gm.wst.1) (hT : 0 < s.1.gm.totalIter) (hp : ProperPrior (GM.prior (begun ys s.1).gm))
    (h : fitVariational F W (.rows ys) nG false (.fin tol) .random ω s = (.ok (), u)) {i : ℕ} (h1 : 2 ≤ i) (h2 : i < u.1.varTheta.length) :
    ∃ (a : VAtom ℝ m) (w w' : ℝ), u.1.varTheta[u.1.varTheta.length - i]? = some (some a) ∧ 0 ≤ w ∧ w < w' ∧
      ∀ (y : Points ℝ) (c : ℕ) (xs : List (Fin c → ℝ)) (dim : Dim) (g : Fin c → Fin m), points u.1 y = .ok ⟨c, xs⟩ → ¬ (dim = .none ∨ dim = .other) → dimMap m c dim = .ok g →
        varMapDensity realFun u.1 y dim (some (u.1.varTheta.length - i)) =
          .ok (xs.map fun x => fin (normalDensity realFun x (fun i => a.mu (g i)) (fun i j => (a.scale - c) * a.prec (g i) (g j)) * w)) ∧
        varMapAt (modeAtDP G) realFun u.1 y dim (-(i : ℤ)) =
          .ok (xs.map fun x => fin (normalDensity realFun x (fun i => a.mu (g i)) (fun i j => (a.scale - c) * a.prec (g i) (g j)) * w')) := by
  obtain ⟨hu, ⟨as, hth, ha⟩, c0, q, hc0, hq1, hq2, hq3, hq4⟩ := C114_fit hF he (C123_classes G one_pos).1.1 hm hy nG tol hI hT hp h
  have hlen : u.1.varTheta.length = as.length := by rw [hth, List.length_map]
  set al := (show DP ℝ from c0).alpha with hal
  have hv : u.1.vst = VFit.fitted (DP.fitVariational al q) := by
    simp only [varDP, Fl.matrix_fin] at hq3
    injection hq3 with hq3
    exact (Prod.mk.inj hq3).2.symm
  have hk : (DP.fitVariational al q).k = as.length := by rw [← hlen, ← hq1]; rfl
  have hbig : ∀ p ∈ (DP.fitVariational al q).params, 1 < p.1 := by
    intro p hp
    obtain ⟨j, hj, rfl⟩ := List.mem_iff_getElem.1 hp
    have hj' : j < q.length := by rwa [DP.fit_length] at hj
    have := DP.fit_get al q j hj'
    rw [List.getElem?_eq_getElem hj] at this
    rw [Option.some.inj this]
    have hr : 0 < (rowSums q)[j]'(by simpa [rowSums] using hj') := by
      simp only [rowSums, List.getElem_map]
      exact sum_pos_of_pos (hq4 _ (List.getElem_mem hj')) (hq2 _ (List.getElem_mem hj'))
    show 1 < 1 + _
    linarith
  obtain ⟨w, w', e1, e2, _, w0, hlt⟩ := C146_dp_weight (v := DP.fitVariational al q) (DP.fit_length al q) hbig h1 (by omega)
  rw [hk] at e1
  rw [hlen]
  refine ⟨as[as.length - i]'(by omega), w, w', ?_, w0, hlt, fun y c xs dim g hy hd hg => C146_two hu hth (by omega) (by omega) ?_ ?_ realFun hy hd hg (List.getElem?_eq_getElem _)⟩
  · rw [hth, List.getElem?_map, List.getElem?_eq_getElem (by omega)]; rfl
  · rw [hv]; show (flOk (DP.modeWj _ _)).map some = _; rw [e1]; rfl
  · rw [hv]; show (flOk (DP.modeWAt _ _)).map some = _; rw [e2]; rfl

/-- **Pitman-Yor process** after a fit: as for the Dirichlet process, also for the last group, if the first parameter of every stick exceeds one (as it does for `pyd = 0`). -/
theorem C146_pitmanYor_refuted {G : MathFun ℝ} {F : VWorld ℝ m} (hF : Sane F.toMathFun) (he : 0 < W.eps) (hm : 0 < m) {ys : List (Fin m → ℝ)} (hy : ys ≠ []) (nG : Option ℤ) (tol : ℝ)
    {s u : VM (varPY G) m Atom × ℕ} (hI : LegalPY s.1.gm.wst.1) (hT : 0 < s.1.gm.totalIter) (hp : ProperPrior (GM.prior (begun ys s.1).gm))
    (h : fitVariational F W (.rows ys) nG false (.fin tol) .random ω s = (.ok (), u)) {i : ℕ} (h1 : 1 ≤ i) (h2 : i < u.1.varTheta.length) :
    ∃ v : Var ℝ, u.1.vst = VFit.fitted v ∧ ((∀ p ∈ v.params, 1 < p.1) →
      ∃ (a : VAtom ℝ m) (w w' : ℝ), u.1.varTheta[u.1.varTheta.length - i]? = some (some a) ∧ 0 ≤ w ∧ w < w' ∧
      ∀ (y : Points ℝ) (c : ℕ) (xs : List (Fin c → ℝ)) (dim : Dim) (g : Fin c → Fin m), points u.1 y = .ok ⟨c, xs⟩ → ¬ (dim = .none ∨ dim = .other) → dimMap m c dim = .ok g →
        varMapDensity realFun u.1 y dim (some (u.1.varTheta.length - i)) =
          .ok (xs.map fun x => fin (normalDensity realFun x (fun i => a.mu (g i)) (fun i j => (a.scale - c) * a.prec (g i) (g j)) * w)) ∧
        varMapAt (modeAtPY G) realFun u.1 y dim (-(i : ℤ)) =
          .ok (xs.map fun x => fin (normalDensity realFun x (fun i => a.mu (g i)) (fun i j => (a.scale - c) * a.prec (g i) (g j)) * w'))) := by
  obtain ⟨hu, ⟨as, hth, ha⟩, c0, q, hc0, hq1, hq2, hq3, hq4⟩ := C114_fit hF he (C123_classes G one_pos).2.1.1 hm hy nG tol hI hT hp h
  have hlen : u.1.varTheta.length = as.length := by rw [hth, List.length_map]
  set al := (show PY ℝ from c0).alpha with hal
  set pyd := (show PY ℝ from c0).pyd with hpyd
  have hv : u.1.vst = VFit.fitted (PY.fitVariational pyd al q) := by
    simp only [varPY, Fl.matrix_fin] at hq3
    injection hq3 with hq3
    exact (Prod.mk.inj hq3).2.symm
  have hk : (PY.fitVariational pyd al q).k = as.length := by rw [← hlen, ← hq1]; rfl
  refine ⟨_, hv, fun hbig => ?_⟩
  obtain ⟨w, w', e1, e2, _, w0, hlt⟩ := C146_py_weight (v := PY.fitVariational pyd al q) (PY.fit_length pyd al q) hbig h1 (by omega)
  rw [hk] at e1
  rw [hlen]
  refine ⟨as[as.length - i]'(by omega), w, w', ?_, w0, hlt, fun y c xs dim g hy hd hg => C146_two hu hth (by omega) (by omega) ?_ ?_ realFun hy hd hg (List.getElem?_eq_getElem _)⟩
  · rw [hth, List.getElem?_map, List.getElem?_eq_getElem (by omega)]; rfl
  · rw [hv]; show (flOk (PY.modeWj _ _)).map some = _; rw [e1]; rfl
  · rw [hv]; show (flOk (PY.modeWAt _ _)).map some = _; rw [e2]; rfl

/-- **Geometric process** after a fit: the same for `1 ≤ i ≤ k`, if both parameters exceed one. -/
theorem C146_geometric_refuted {G : MathFun ℝ} {F : VWorld ℝ m} (hF : Sane F.toMathFun) (he : 0 < W.eps) (hm : 0 < m) {ys : List (Fin m → ℝ)} (hy : ys ≠ []) (nG : Option ℤ) (tol : ℝ)
    {s u : VM (varGeo G) m Atom × ℕ} (hI : LegalGeo s.1.gm.wst.1) (hT : 0 < s.1.gm.totalIter) (hp : ProperPrior (GM.prior (begun ys s.1).gm))
    (h : fitVariational F W (.rows ys) nG false (.fin tol) .random ω s = (.ok (), u)) {i : ℕ} (h1 : 1 ≤ i) (h2 : i ≤ u.1.varTheta.length) :
    ∃ v : GVar ℝ, u.1.vst = VFit.fitted v ∧ (1 < v.a → 1 < v.b →
      ∃ (a : VAtom ℝ m) (w w' : ℝ), u.1.varTheta[u.1.varTheta.length - i]? = some (some a) ∧ 0 < w ∧ w < w' ∧ (v.b < v.a → 1 < w') ∧
      ∀ (y : Points ℝ) (c : ℕ) (xs : List (Fin c → ℝ)) (dim : Dim) (g : Fin c → Fin m), points u.1 y = .ok ⟨c, xs⟩ → ¬ (dim = .none ∨ dim = .other) → dimMap m c dim = .ok g →
        varMapDensity realFun u.1 y dim (some (u.1.varTheta.length - i)) =
          .ok (xs.map fun x => fin (normalDensity realFun x (fun i => a.mu (g i)) (fun i j => (a.scale - c) * a.prec (g i) (g j)) * w)) ∧
        varMapAt (modeAtGeo G) realFun u.1 y dim (-(i : ℤ)) =
          .ok (xs.map fun x => fin (normalDensity realFun x (fun i => a.mu (g i)) (fun i j => (a.scale - c) * a.prec (g i) (g j)) * w'))) := by
  obtain ⟨hu, ⟨as, hth, ha⟩, c0, q, hc0, hq1, hq2, hq3, _⟩ := C114_fit hF he (C123_classes G one_pos).2.2.1.1 hm hy nG tol hI hT hp h
  have hq : NonNegMatrix q := fun r hr x hx => (hq2 r hr x hx).le
  have hlen : u.1.varTheta.length = as.length := by rw [hth, List.length_map]
  simp only [varGeo, Fl.matrix_fin] at hq3
  cases hg : Geo.fitVariational (show Geo ℝ from c0).a (show Geo ℝ from c0).b q with
  | error e => rw [hg] at hq3; cases hq3
  | ok v =>
    rw [hg] at hq3
    have hv : u.1.vst = VFit.fitted v := by
      injection hq3 with hq3
      exact (Prod.mk.inj hq3).2.symm
    obtain ⟨_, _, hd⟩ := Geo.fit_pos hc0.1 hc0.2 hq hg
    have hk : v.d.length = as.length := by rw [hd, hq1, hlen]
    refine ⟨v, hv, fun ha1 hb1 => ?_⟩
    obtain ⟨_, w, w', _, e1, e2, _, w0, hlt⟩ := C146_geo_weight ha1 hb1 h1 (by omega)
    rw [hk] at e1
    rw [hlen]
    refine ⟨as[as.length - i]'(by omega), w, w', ?_, w0, hlt, fun hab => ?_,
      fun y c xs dim g hy hd hg => C146_two hu hth (by omega) (by omega) ?_ ?_ realFun hy hd hg (List.getElem?_eq_getElem _)⟩
    · rw [hth, List.getElem?_map, List.getElem?_eq_getElem (by omega)]; rfl
    · obtain ⟨x, ex, hx⟩ := C146_geo_above_one hb1 hab h1
      rw [e2] at ex
      cases ex
      exact hx
    · rw [hv]; show (Geo.modeWj v _).map _ = _; rw [e1]; rfl
    · rw [hv]; show (Geo.modeWAt v _).map _ = _; rw [e2]; rfl

/-- **Dirichlet distribution**: the answers agree after every fit. -/
theorem C146_dirichlet {G : MathFun ℝ} {F : VWorld ℝ m} (hF : Sane F.toMathFun) (he : 0 < W.eps) (hm : 0 < m) {ys : List (Fin m → ℝ)} (hy : ys ≠ []) (nG : Option ℤ) (tol : ℝ)
    {s u : VM (varDirDist G) m Atom × ℕ} {k : ℕ} (hk : 0 < k) (hI : LegalDirDist k s.1.gm.wst.1) (hT : 0 < s.1.gm.totalIter) (hp : ProperPrior (GM.prior (begun ys s.1).gm))
    (h : fitVariational F W (.rows ys) nG false (.fin tol) .random ω s = (.ok (), u)) {i : ℕ} (h1 : 1 ≤ i) (h2 : i ≤ u.1.varTheta.length) (y : Points ℝ) (dim : Dim) :
    varMapAt (modeAtDirDist G) realFun u.1 y dim (-(i : ℤ)) = varMapDensity realFun u.1 y dim (some (u.1.varTheta.length - i)) := by
  obtain ⟨hu, ⟨as, hth, ha⟩, c0, q, hc0, hq1, hq2, hq3, _⟩ := C114_fit hF he (C123_classes G hk).2.2.2.1.1 hm hy nG tol hI hT hp h
  refine C146_density h1 h2 ?_ realFun y dim
  simp only [varDirDist, Fl.matrix_fin] at hq3
  have hn : (show DirDist ℝ from c0).n = ((show DirDist ℝ from c0).alpha.length : ℤ) := by rw [hc0.1.1, hc0.1.2]
  rw [hn] at hq3
  cases hg : DirDist.fitVariational ((show DirDist ℝ from c0).alpha.length : ℤ) (show DirDist ℝ from c0).alpha q with
  | error e => rw [hg] at hq3; cases hq3
  | ok v =>
    rw [hg] at hq3
    have hv : u.1.vst = VFit.fitted v := by
      injection hq3 with hq3
      exact (Prod.mk.inj hq3).2.symm
    obtain ⟨hql, hve⟩ := DirDist.fit_eq hg
    have hvl : v.params.length = q.length := by rw [hve]; simp [rowSums_length, hql]
    have hvk : (v.params.length : ℤ) = v.k := by
      rw [hvl, hql, hve]
    rw [hv, ← hq1, ← hvl]
    show (flOk (DirDist.modeWAt v _)).map some = (flOk (DirDist.modeWj v _)).map some
    rw [C146_dirichlet_weight hvk h1 (by omega)]

/-- **Equal weights**: the answers agree after every fit. -/
theorem C146_equal {G : MathFun ℝ} {F : VWorld ℝ m} (hF : Sane F.toMathFun) (he : 0 < W.eps) (hm : 0 < m) {ys : List (Fin m → ℝ)} (hy : ys ≠ []) (nG : Option ℤ) (tol : ℝ)
    {s u : VM (varEqual G) m Atom × ℕ} (hT : 0 < s.1.gm.totalIter) (hp : ProperPrior (GM.prior (begun ys s.1).gm))
    (h : fitVariational F W (.rows ys) nG false (.fin tol) .random ω s = (.ok (), u)) {i : ℕ} (h1 : 1 ≤ i) (h2 : i ≤ u.1.varTheta.length) (y : Points ℝ) (dim : Dim) :
    varMapAt (modeAtEqual G) realFun u.1 y dim (-(i : ℤ)) = varMapDensity realFun u.1 y dim (some (u.1.varTheta.length - i)) := by
  obtain ⟨hu, ⟨as, hth, ha⟩, c0, q, hc0, hq1, hq2, hq3, _⟩ := C114_fit hF he (C123_classes G one_pos).2.2.2.2.1.1 hm hy nG tol trivial hT hp h
  refine C146_density h1 h2 ?_ realFun y dim
  have hn : (show Equal ℝ from u.1.gm.wst.1).n = (q.length : ℤ) := by
    simp only [varEqual] at hq3
    injection hq3 with hq3
    rw [← (Prod.mk.inj hq3).1]
    simp
  show Except.ok (some (fin (Equal.meanWAt (show Equal ℝ from u.1.gm.wst.1).n.toNat _))) = Except.ok (some (fin (Equal.meanWj (show Equal ℝ from u.1.gm.wst.1).n.toNat _)))
  rw [hn, Int.toNat_natCast, ← hq1, C145_equal_weight h1 (by omega)]
end VM

/-! ### The hypotheses can be met -/

/-- Three sticks: `-2` gives `3/4`, the second group has `3/16`. -/
example : DP.modeWAt ({ d := [[1], [1], [1]], params := [(4, 2), (4, 2), (4, 2)] } : Var ℚ) (-2) = .ok (3 / 4) ∧
    DP.modeWj ({ d := [[1], [1], [1]], params := [(4, 2), (4, 2), (4, 2)] } : Var ℚ) 1 = .ok (3 / 16) := by decide +kernel

/-- `C146_dp_weight` applies to it. -/
example : ∃ w w' : ℚ, DP.modeWj ({ d := [[1], [1], [1]], params := [(4, 2), (4, 2), (4, 2)] } : Var ℚ) (3 - 2) = .ok w ∧
    DP.modeWAt ({ d := [[1], [1], [1]], params := [(4, 2), (4, 2), (4, 2)] } : Var ℚ) (-((2 : ℕ) : ℤ)) = .ok w' ∧ w < w' := by
  obtain ⟨w, w', a, b, _, _, c⟩ := C146_dp_weight (v := ({ d := [[1], [1], [1]], params := [(4, 2), (4, 2), (4, 2)] } : Var ℚ)) rfl (by simp) (i := 2) le_rfl (by decide)
  exact ⟨w, w', a, b, c⟩

/-- `C146_geo_above_one`: the weight is 3. -/
example : Geo.modeWAt ({ d := [[1], [1]], a := 4, b := 2 } : GVar ℚ) (-1) = .ok (some 3) := by decide +kernel
example : ∃ w, Geo.modeWAt ({ d := [[1], [1]], a := 4, b := 2 } : GVar ℚ) (-((1 : ℕ) : ℤ)) = .ok (some w) ∧ 1 < w := C146_geo_above_one (by norm_num) (by norm_num) le_rfl
end Mix
end Verif
