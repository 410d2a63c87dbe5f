import Verif.Lemmas.BIDOk
import Verif.Lemmas.BetaLaw

/-!
# C78: the inner labels of `BetaInDirichlet` are updated with their full conditional law

After `fit`, `random()` updates the inner label of every position `j` in turn.  Given the other labels and the inner sticks, label `c` in use by `n_c` other
positions should have probability proportional to `n_c x_c^{a_j} (1 - x_c)^{b_j}`, and a new label probability proportional to the total mass `a` times
the marginal likelihood `E[x^{a_j} (1 - x)^{b_j}]` under the `Beta(1, alpha)` law of a new stick (`innerWeight`, stated with the integral).

For every state the log-probabilities handed to `gumbel_max_sampling` are the logarithms of these weights, except that the weight of the new label lacks
the factor `alpha` (`C78_weights`).  They are right for `alpha = 1` (`C78_partial`) and wrong for every other `alpha`, every position and every state
(`C78_refuted`).
-/

set_option linter.unusedSectionVars false

namespace Verif
open MeasureTheory ProbabilityTheory

/-- The functions of numpy and scipy over the real numbers. -/
noncomputable def realSpec : SpecFun ℝ := ⟨Real.log, fun x => Real.log (Real.Gamma x)⟩

/-- A label below `c` is free. -/
def Hole (red : List ℕ) (c : ℕ) : Prop := ∃ b < c, red.count b = 0

instance (red : List ℕ) (c : ℕ) : Decidable (Hole red c) := by unfold Hole; infer_instance

/-- The unnormalised full conditional probability of label `c`: `red` are the labels of the other positions, `x` the sticks, `A` and `B` the numbers of
observations at and beyond the position.  The new label is the first free one. -/
noncomputable def innerWeight (a alpha : ℝ) (x : List ℝ) (red : List ℕ) (A B c : ℕ) : ℝ :=
  if 0 < red.count c then (red.count c : ℝ) * ((x[c]?).getD 0 ^ A * (1 - (x[c]?).getD 0) ^ B)
  else if Hole red c then 0
  else a * ∫ y, y ^ A * (1 - y) ^ B * betaPDFReal 1 alpha y

/-- The weight that an entry of a list of log-probabilities stands for. -/
noncomputable def expEntry (lp : List (Option ℝ)) (c : ℕ) : ℝ := match lp[c]? with
  | some (some y) => Real.exp y
  | _ => 0

/-- What the loop of lines 66-87 computes for label `c`. -/
noncomputable def codeEntry (s : BID ℝ) (A B : ℕ) (red : List ℕ) (c : ℕ) : Option ℝ :=
  if red.count c = 0 then
    if Hole red c then none
    else some (Real.log s.a + Real.log (Real.Gamma (1 + (A : ℝ))) + Real.log (Real.Gamma (s.alpha + (B : ℝ))) - Real.log (Real.Gamma (1 + s.alpha + (A : ℝ) + (B : ℝ))))
  else some (Real.log (red.count c) + A * Real.log ((s.vBase[c]?).getD 0) + B * Real.log (1 - (s.vBase[c]?).getD 0))

theorem logProb_entries (s : BID ℝ) (A B : ℕ) (red : List ℕ) (k : ℕ) (hk : ∀ x ∈ red, x ≤ k) (hr : ∀ x ∈ red, x < s.vBase.length) (h01 : ∀ x ∈ s.vBase, 0 < x ∧ x < 1) :
    ∀ (fuel dd : ℕ), dd + fuel = k + 2 → ∃ l, BID.logProb realSpec s A B red k fuel dd (decide (Hole red dd)) = .ok l ∧
      ∀ i, l[i]? = if dd + i < k + 1 ∨ (dd + i = k + 1 ∧ ¬ Hole red (k + 1)) then some (codeEntry s A B red (dd + i)) else none := by
  intro fuel
  induction fuel with
  | zero =>
    intro dd h
    exact ⟨[], rfl, fun i => by rw [if_neg (by omega)]; simp⟩
  | succ f ih =>
    intro dd h
    obtain ⟨l, hl, hi⟩ := ih (dd + 1) (by omega)
    unfold BID.logProb
    by_cases h0 : red.count dd = 0
    · have hH : Hole red (dd + 1) := ⟨dd, by omega, h0⟩
      rw [decide_eq_true hH] at hl
      by_cases hh : Hole red dd
      · rw [decide_eq_true hh, if_neg (fun h => by simp at h), if_pos h0]
        by_cases hd : dd < k + 1
        · rw [if_pos hd]
          simp only [hl]
          refine ⟨_, rfl, fun i => ?_⟩
          cases i with
          | zero => rw [if_pos (by omega), codeEntry, if_pos (by simpa using h0), if_pos (by simpa using hh)]; rfl
          | succ i => rw [List.getElem?_cons_succ, hi, show dd + 1 + i = dd + (i + 1) by omega]
        · rw [if_neg hd]
          have hdk : dd = k + 1 := by omega
          refine ⟨l, hl, fun i => ?_⟩
          rw [hi, if_neg (by omega), if_neg]
          rintro (h | ⟨h, h'⟩)
          · omega
          · rw [← hdk] at h'; exact h' hh
      · rw [decide_eq_false hh, if_pos ⟨h0, rfl⟩]
        simp only [hl]
        refine ⟨_, rfl, fun i => ?_⟩
        cases i with
        | zero =>
          rw [if_pos, codeEntry, if_pos (by simpa using h0), if_neg (by simpa using hh)]
          · rfl
          · by_cases hd : dd < k + 1
            · exact .inl (by omega)
            · exact .inr ⟨by omega, by rw [show k + 1 = dd by omega]; exact hh⟩
        | succ i => rw [List.getElem?_cons_succ, hi, show dd + 1 + i = dd + (i + 1) by omega]
    · have hmem : dd ∈ red := List.count_pos_iff.1 (by omega)
      have hH : Hole red (dd + 1) ↔ Hole red dd := by
        constructor
        · rintro ⟨b, hb, h⟩
          refine ⟨b, ?_, h⟩
          rcases Nat.lt_succ_iff_lt_or_eq.1 hb with h' | h'
          · exact h'
          · exact absurd (h' ▸ h) h0
        · rintro ⟨b, hb, h⟩; exact ⟨b, by omega, h⟩
      have hH' : decide (Hole red (dd + 1)) = decide (Hole red dd) := decide_eq_decide.2 hH
      rw [hH'] at hl
      rw [if_neg (fun h => h0 h.1), if_neg h0, BID.index_ok (hr dd hmem)]
      simp only [hl]
      refine ⟨_, rfl, fun i => ?_⟩
      cases i with
      | zero =>
        have hv := hr dd hmem
        have hx := h01 s.vBase[dd] (List.getElem_mem _)
        have hkd := hk dd hmem
        rw [List.getElem?_cons_zero, if_neg, if_pos (.inl (by omega)), codeEntry, if_neg (by simpa using h0)]
        · simp only [Nat.add_zero, List.getElem?_eq_getElem (hr dd hmem), Option.getD_some]
          rfl
        · rintro (⟨h, -⟩ | ⟨h, -⟩)
          · exact hx.1.ne' h
          · exact hx.2.ne h
      | succ i => rw [List.getElem?_cons_succ, hi, show dd + 1 + i = dd + (i + 1) by omega]

theorem newWeight_eq {a alpha : ℝ} (hal : 0 < alpha) (A B : ℕ) :
    a * ∫ y, y ^ A * (1 - y) ^ B * betaPDFReal 1 alpha y = alpha * (a * (Real.Gamma (1 + (A : ℝ)) * Real.Gamma (alpha + (B : ℝ)) / Real.Gamma (1 + alpha + (A : ℝ) + (B : ℝ)))) := by
  rw [integral_beta_moment one_pos hal, beta_one hal, beta, show 1 + (A : ℝ) + (alpha + B) = 1 + alpha + A + B by ring]
  field_simp

theorem codeEntry_exp (s : BID ℝ) (A B : ℕ) (red : List ℕ) (c : ℕ) (hal : 0 < s.alpha) (ha : 0 < s.a) (hr : ∀ x ∈ red, x < s.vBase.length) (h01 : ∀ x ∈ s.vBase, 0 < x ∧ x < 1) :
    (match codeEntry s A B red c with | some y => Real.exp y | none => 0) =
      (if red.count c = 0 then 1 / s.alpha else 1) * innerWeight s.a s.alpha s.vBase red A B c := by
  unfold codeEntry innerWeight
  by_cases h0 : red.count c = 0
  · rw [if_pos h0, if_pos h0, if_neg (show ¬ 0 < red.count c by omega)]
    by_cases hh : Hole red c
    · rw [if_pos hh, if_pos hh, mul_zero]
    · rw [if_neg hh, if_neg hh, newWeight_eq hal]
      dsimp only
      have h1 := Real.Gamma_pos_of_pos (by positivity : 0 < 1 + (A : ℝ))
      have h2 := Real.Gamma_pos_of_pos (by positivity : 0 < s.alpha + (B : ℝ))
      have h3 := Real.Gamma_pos_of_pos (by positivity : 0 < 1 + s.alpha + (A : ℝ) + (B : ℝ))
      rw [Real.exp_sub, Real.exp_add, Real.exp_add, Real.exp_log ha, Real.exp_log h1, Real.exp_log h2, Real.exp_log h3]
      field_simp
  · rw [if_neg h0, if_neg h0, if_pos (show 0 < red.count c by omega), one_mul]
    have hmem : c ∈ red := List.count_pos_iff.1 (by omega)
    have hv := hr c hmem
    have hx := h01 s.vBase[c] (List.getElem_mem _)
    dsimp only
    rw [List.getElem?_eq_getElem (hr c hmem), Option.getD_some]
    have hc : (0 : ℝ) < (red.count c : ℝ) := by exact_mod_cast (by omega : 0 < red.count c)
    rw [Real.exp_add, Real.exp_add, Real.exp_log hc, ← Real.log_pow, ← Real.log_pow, Real.exp_log (pow_pos hx.1 _), Real.exp_log (pow_pos (by linarith [hx.2]) _), mul_assoc]

variable {ω : Oracle ℝ}

/-- One update: the label of position `j` becomes the answer of `gumbel_max_sampling` to a list `lp` of log-probabilities, whose weights are the full conditional
ones, except for the factor `1 / alpha` of the new label. -/
theorem C78_weights (hω : ω.Legal) {a_c b_c : List ℕ} {j A B : ℕ} (s : BID ℝ × ℕ) (hal : 0 < s.1.alpha) (ha : 0 < s.1.a) (hj : j < s.1.dBase.length)
    (h2 : 2 ≤ s.1.dBase.length) (hA : a_c[j]? = some A) (hB : b_c[j]? = some B) (hlt : ∀ x ∈ s.1.dBase, x < s.1.vBase.length) (h01 : ∀ x ∈ s.1.vBase, 0 < x ∧ x < 1) :
    ∃ lp t, BID.updateOne realSpec a_c b_c j ω s = (.ok (), t) ∧ t.1.dBase = s.1.dBase.set j (ω.gumbelMax s.2 lp) ∧
      ∀ c, expEntry lp c = (if (s.1.dBase.eraseIdx j).count c = 0 then 1 / s.1.alpha else 1) * innerWeight s.1.a s.1.alpha s.1.vBase (s.1.dBase.eraseIdx j) A B c := by
  have hredlen : (s.1.dBase.eraseIdx j).length = s.1.dBase.length - 1 := by
    simp only [List.length_eraseIdx, hj, if_true]
  have hredne : s.1.dBase.eraseIdx j ≠ [] := by
    intro h; rw [h] at hredlen; simp at hredlen; omega
  have hredlt : ∀ x ∈ s.1.dBase.eraseIdx j, x < s.1.vBase.length := fun x hx => hlt x (List.mem_of_mem_eraseIdx hx)
  obtain ⟨k, hk, hkm, hkl⟩ := BID.maxNat_ok hredne
  obtain ⟨lp, hlp, hent⟩ := logProb_entries s.1 A B _ k hkl hredlt h01 (k + 2) 0 (by omega)
  have hno : ¬ Hole (s.1.dBase.eraseIdx j) 0 := fun ⟨b, hb, _⟩ => by omega
  rw [decide_eq_false hno] at hlp
  have hne : lp ≠ [] := by
    intro e
    have := hent 0
    rw [e, if_pos (by omega)] at this
    simp at this
  obtain ⟨hAl, eA⟩ := List.getElem?_eq_some_iff.1 hA
  obtain ⟨hBl, eB⟩ := List.getElem?_eq_some_iff.1 hB
  have hz : ω.gumbelMax s.2 lp < lp.length := hω.gumbel_lt s.2 lp hne
  have hlen : lp.length ≤ k + 2 := by
    by_contra hc
    have := hent (k + 2)
    rw [if_neg (by omega), List.getElem?_eq_getElem (by omega)] at this
    cases this
  have hkv := hredlt k hkm
  suffices hw : wp ω (BID.updateOne realSpec a_c b_c j) (fun _ t => t.1.dBase = s.1.dBase.set j (ω.gumbelMax s.2 lp)) (fun _ _ => False) s by
    obtain ⟨r, t, h1, h3⟩ := wp_total hw
    refine ⟨lp, t, h1, h3, fun c => ?_⟩
    rw [← codeEntry_exp s.1 A B _ c hal ha hredlt h01]
    unfold expEntry
    have := hent c
    rw [Nat.zero_add] at this
    rw [this]
    split_ifs with hc
    · cases codeEntry s.1 A B (s.1.dBase.eraseIdx j) c <;> rfl
    · have h0 : (s.1.dBase.eraseIdx j).count c = 0 := by
        rw [List.count_eq_zero]
        intro hm
        have := hkl c hm
        omega
      have hH : Hole (s.1.dBase.eraseIdx j) c := by
        by_cases hck : c = k + 1
        · rw [hck] at hc ⊢
          by_contra h'
          exact hc (.inr ⟨rfl, h'⟩)
        · refine ⟨k + 1, by omega, ?_⟩
          rw [List.count_eq_zero]
          intro hm
          have := hkl _ hm
          omega
      rw [codeEntry, if_pos h0, if_pos hH]
  unfold BID.updateOne
  rw [wp_bind, wp_self, if_neg ha.ne', wp_bind]
  show wp ω (M.lift (BID.maxNat (Py.delete s.1.dBase j))) _ _ s
  have hdel : Py.delete s.1.dBase j = s.1.dBase.eraseIdx j := rfl
  rw [hdel, hk, wp_lift]
  refine ⟨?_, nofun⟩
  rintro _ ⟨⟩
  rw [BID.index_ok hAl, BID.index_ok hBl, eA, eB, wp_bind, wp_lift]
  refine ⟨?_, nofun⟩
  rintro _ ⟨⟩
  rw [wp_bind, wp_lift]
  refine ⟨?_, nofun⟩
  rintro _ ⟨⟩
  rw [hlp, wp_bind, wp_lift]
  refine ⟨?_, nofun⟩
  rintro _ ⟨⟩
  rw [wp_bind, wp_gumbelMax]
  refine ⟨fun h => absurd h hne, fun _ => ?_⟩
  rw [wp_bind, wp_assign, BID.setBase_len hj, wp_bind, wp_self]
  obtain ⟨m, hm, -, -⟩ := BID.maxNat_ok (l := s.1.dBase.set j (ω.gumbelMax s.2 lp)) (by
    intro h
    have := congrArg List.length h
    simp at this; rw [this] at hj; simp at hj)
  rw [hm, wp_bind, wp_lift]
  refine ⟨?_, nofun⟩
  rintro _ ⟨⟩
  rw [wp_whenM, wp_bind, wp_beta]
  refine ⟨fun _ => ⟨fun h => ?_, fun _ _ => ?_⟩, fun _ => rfl⟩
  · rcases h with h | h
    · exact absurd h (not_le.2 zero_lt_one)
    · exact absurd hal (not_lt.2 h)
  · rw [wp_assign]

/-- The weights are proportional to the full conditional law. -/
def Proportional (f g : ℕ → ℝ) : Prop := ∃ c > 0, ∀ i, f i = c * g i

/-- Missing: `alpha ≠ 1`. -/
theorem C78_partial (hω : ω.Legal) {a_c b_c : List ℕ} {j A B : ℕ} (s : BID ℝ × ℕ) (hal : s.1.alpha = 1) (ha : 0 < s.1.a) (hj : j < s.1.dBase.length)
    (h2 : 2 ≤ s.1.dBase.length) (hA : a_c[j]? = some A) (hB : b_c[j]? = some B) (hlt : ∀ x ∈ s.1.dBase, x < s.1.vBase.length) (h01 : ∀ x ∈ s.1.vBase, 0 < x ∧ x < 1) :
    ∃ lp t, BID.updateOne realSpec a_c b_c j ω s = (.ok (), t) ∧ t.1.dBase = s.1.dBase.set j (ω.gumbelMax s.2 lp) ∧
      Proportional (expEntry lp) (innerWeight s.1.a s.1.alpha s.1.vBase (s.1.dBase.eraseIdx j) A B) := by
  obtain ⟨lp, t, h1, h3, h4⟩ := C78_weights hω s (by rw [hal]; exact one_pos) ha hj h2 hA hB hlt h01
  refine ⟨lp, t, h1, h3, 1, one_pos, fun c => ?_⟩
  rw [h4, hal]
  simp

/-- The first free label exists. -/
theorem exists_free (red : List ℕ) : ∃ c, red.count c = 0 ∧ ¬ Hole red c := by
  have : ∃ c, red.count c = 0 := by
    obtain ⟨c, hc⟩ := (red.toFinset).exists_notMem
    exact ⟨c, List.count_eq_zero.2 (fun h => hc (List.mem_toFinset.2 h))⟩
  refine ⟨Nat.find this, Nat.find_spec this, ?_⟩
  rintro ⟨b, hb, h⟩
  exact Nat.find_min this hb h

/-- For every other `alpha` and every state and position the law is a different one. -/
theorem C78_refuted (hω : ω.Legal) {a_c b_c : List ℕ} {j A B : ℕ} (s : BID ℝ × ℕ) (hal : 0 < s.1.alpha) (hal1 : s.1.alpha ≠ 1) (ha : 0 < s.1.a) (hj : j < s.1.dBase.length)
    (h2 : 2 ≤ s.1.dBase.length) (hA : a_c[j]? = some A) (hB : b_c[j]? = some B) (hlt : ∀ x ∈ s.1.dBase, x < s.1.vBase.length) (h01 : ∀ x ∈ s.1.vBase, 0 < x ∧ x < 1) :
    ∃ lp t, BID.updateOne realSpec a_c b_c j ω s = (.ok (), t) ∧ t.1.dBase = s.1.dBase.set j (ω.gumbelMax s.2 lp) ∧
      ¬ Proportional (expEntry lp) (innerWeight s.1.a s.1.alpha s.1.vBase (s.1.dBase.eraseIdx j) A B) := by
  obtain ⟨lp, t, h1, h3, h4⟩ := C78_weights hω s hal ha hj h2 hA hB hlt h01
  refine ⟨lp, t, h1, h3, ?_⟩
  rintro ⟨r, -, hp⟩
  have hne : s.1.dBase.eraseIdx j ≠ [] := by
    intro h
    have := congrArg List.length h
    simp only [List.length_eraseIdx, hj, if_true, List.length_nil] at this
    omega
  obtain ⟨x, hx⟩ := List.exists_mem_of_ne_nil _ hne
  have hxv := hlt x (List.mem_of_mem_eraseIdx hx)
  have hcx : 0 < (s.1.dBase.eraseIdx j).count x := List.count_pos_iff.2 hx
  have e1 := hp x
  rw [h4, if_neg (by omega), one_mul] at e1
  have p1 : 0 < innerWeight s.1.a s.1.alpha s.1.vBase (s.1.dBase.eraseIdx j) A B x := by
    rw [innerWeight, if_pos hcx, List.getElem?_eq_getElem hxv, Option.getD_some]
    have := h01 s.1.vBase[x] (List.getElem_mem _)
    have h3 : 0 < 1 - s.1.vBase[x] := by linarith [this.2]
    have h4 := this.1
    positivity
  have hr : r = 1 := by
    have := mul_right_cancel₀ p1.ne' (e1.symm.trans (one_mul _).symm)
    exact this
  obtain ⟨c, hc, hh⟩ := exists_free (s.1.dBase.eraseIdx j)
  have e2 := hp c
  rw [h4, if_pos hc, hr] at e2
  have p2 : 0 < innerWeight s.1.a s.1.alpha s.1.vBase (s.1.dBase.eraseIdx j) A B c := by
    rw [innerWeight, if_neg (by omega), if_neg hh, newWeight_eq hal]
    have h1 := Real.Gamma_pos_of_pos (by positivity : 0 < 1 + (A : ℝ))
    have h2 := Real.Gamma_pos_of_pos (by positivity : 0 < s.1.alpha + (B : ℝ))
    have h3 := Real.Gamma_pos_of_pos (by positivity : 0 < 1 + s.1.alpha + (A : ℝ) + (B : ℝ))
    positivity
  have := mul_right_cancel₀ p2.ne' e2
  rw [div_eq_one_iff_eq hal.ne'] at this
  exact hal1 this.symm

/-- The hypotheses are met by an object with two positions, labels `0, 1` and two sticks. -/
example : let s : BID ℝ := ⟨2, 1, [], [1/2, 1/3], [0, 1], [], [], [0, 1, 1]⟩
    0 < s.alpha ∧ s.alpha ≠ 1 ∧ 0 < s.a ∧ 0 < s.dBase.length ∧ 2 ≤ s.dBase.length ∧ ([1, 2] : List ℕ)[0]? = some 1 ∧ (∀ x ∈ s.dBase, x < s.vBase.length) ∧
      ∀ x ∈ s.vBase, 0 < x ∧ x < 1 := by
  norm_num
end Verif
