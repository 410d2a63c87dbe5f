import Verif.Lemmas.BBerOk
import Verif.Lemmas.RandomPost

/-! # `BetaBernoulli`: the Bernoulli path drawn with data -/

set_option linter.unusedSectionVars false
set_option linter.unusedSimpArgs false

namespace Verif
open Spec
variable {K : Type} [Field K] [LinearOrder K] [IsStrictOrderedRing K] {ω : Oracle K}

/-- A predicate kept by every single call of a history. -/
theorem WeightClass.run_induct {C : WeightClass K} {I : C.State → Prop} (log : K → K) (ops : List (WOp K))
    (h : ∀ op ∈ ops, ∀ s : C.State × ℕ, I s.1 → I (C.step log ω s op).1) (s : C.State × ℕ) (hs : I s.1) : I (C.run log ω s ops).1 := by
  induction ops generalizing s with
  | nil => exact hs
  | cons op ops ih => exact ih (fun o ho => h o (by simp [ho])) _ (h op (by simp) s hs)

namespace BBer

theorem betaf_pos {a b : ℕ} (ha : 1 ≤ a) (hb : 1 ≤ b) : ∃ y : K, betaf a b = some y ∧ 0 < y := by
  unfold betaf
  rw [if_neg (by omega)]
  refine ⟨_, rfl, ?_⟩
  have h1 : (0 : K) < ((a - 1).factorial * (b - 1).factorial : ℕ) := by
    exact_mod_cast Nat.mul_pos (Nat.factorial_pos _) (Nat.factorial_pos _)
  have h2 : (0 : K) < ((a + b - 1).factorial : ℕ) := by exact_mod_cast Nat.factorial_pos _
  exact div_pos h1 h2

theorem betaf_nonneg {a b : ℕ} {y : K} (h : betaf a b = some y) : 0 < y := by
  by_cases hab : a = 0 ∨ b = 0
  · simp [betaf, hab] at h
  · obtain ⟨z, hz, hz0⟩ := betaf_pos (K := K) (a := a) (b := b) (by omega) (by omega)
    rw [hz] at h; cases h; exact hz0

theorem forward_pos {alpha : K} (ha : 0 < alpha) {cells : List (ℤ × ℕ × ℕ)} (hc : ∀ c ∈ cells, c.1 ≠ 1 → 1 ≤ c.2.1 ∧ 1 ≤ c.2.2)
    (a b : ℕ) {g : Option K} {y : K} (hg : g = some y) (hy : 0 < y) : ∃ y', (forward alpha a b g cells).2.2 = some y' ∧ 0 < y' := by
  induction cells generalizing a b g y with
  | nil => exact ⟨y, hg, hy⟩
  | cons c rest ih =>
    obtain ⟨z, ac, bc⟩ := c
    unfold forward
    split
    · exact ⟨y, hg, hy⟩
    · rename_i hz
      have := hc (z, ac, bc) (by simp) hz
      obtain ⟨u, hu, hu0⟩ := betaf_pos (K := K) (a := a + ac) (b := b + bc) (by simp at this; omega) (by simp at this; omega)
      exact ih (fun c hc' => hc c (by simp [hc'])) _ _ (g := scaleExt alpha (betaf (a + ac) (b + bc))) (y := alpha * u)
        (by rw [hu]; rfl) (mul_pos ha hu0)

theorem backward_le (a b : ℕ) (cells : List (ℤ × ℕ × ℕ)) : a ≤ (backward a b cells).1 ∧ b ≤ (backward a b cells).2 := by
  induction cells generalizing a b with
  | nil => exact ⟨le_rfl, le_rfl⟩
  | cons c rest ih =>
    obtain ⟨z, ac, bc⟩ := c
    unfold backward
    split
    · exact ⟨le_rfl, le_rfl⟩
    · have := ih (a + ac) (b + bc); omega

/-- With `p = 0` a later position never starts a new stick. -/
theorem condProb_zero {alpha : K} (ha : 0 < alpha) (bern : List ℤ) (a_c b_c : List ℕ) (j : ℕ) : condProb 0 alpha bern a_c b_c j = some 0 := by
  unfold condProb ratio
  simp only [lt_irrefl, if_false, zero_lt_one, if_true, sub_zero]
  cases hg : betaf (K := K) (backward ((forward alpha 0 0 (some 1) ((bern.zip (a_c.zip b_c)).drop (j + 1))).1 + (a_c[j]?).getD 0)
    ((forward alpha 0 0 (some 1) ((bern.zip (a_c.zip b_c)).drop (j + 1))).2.1 + (b_c[j]?).getD 0) (((bern.zip (a_c.zip b_c)).take j).reverse)).1
    (backward ((forward alpha 0 0 (some 1) ((bern.zip (a_c.zip b_c)).drop (j + 1))).1 + (a_c[j]?).getD 0)
    ((forward alpha 0 0 (some 1) ((bern.zip (a_c.zip b_c)).drop (j + 1))).2.1 + (b_c[j]?).getD 0) (((bern.zip (a_c.zip b_c)).take j).reverse)).2 with
  | none => simp [scaleExt]
  | some y =>
    have hy := betaf_nonneg hg
    simp [scaleExt, (mul_pos ha hy).ne']

/-- With `p = 1`, when the next position starts a new stick. -/
theorem condProb_one {alpha : K} (bern : List ℤ) (a_c b_c : List ℕ) (j : ℕ) (h1 : bern[j + 1]? = some 1) (h2 : j + 1 < a_c.length)
    (h3 : j + 1 < b_c.length) : condProb 1 alpha bern a_c b_c j = some 1 := by
  have hlt : j + 1 < bern.length := by
    by_contra hc; rw [List.getElem?_eq_none (by omega)] at h1; cases h1
  have hcell : (bern.zip (a_c.zip b_c)).drop (j + 1) = (1, a_c[j + 1], b_c[j + 1]) :: (bern.zip (a_c.zip b_c)).drop (j + 2) := by
    have hb : bern[j + 1] = 1 := by rw [List.getElem?_eq_getElem hlt] at h1; exact Option.some.inj h1
    rw [List.drop_eq_getElem_cons (by simp; omega)]
    simp [hb]
  unfold condProb ratio
  dsimp only
  rw [hcell]
  simp [forward, scaleExt]

theorem condProb_mid {p alpha : K} (hp0 : 0 < p) (hp1 : p < 1) (ha : 0 < alpha) (bern : List ℤ) (a_c b_c : List ℕ) (j : ℕ)
    (hc : ∀ c ∈ (bern.zip (a_c.zip b_c)).drop (j + 1), c.1 ≠ 1 → 1 ≤ c.2.1 ∧ 1 ≤ c.2.2)
    (haj : 1 ≤ (a_c[j]?).getD 0) (hbj : 1 ≤ (b_c[j]?).getD 0) :
    ∃ q, condProb p alpha bern a_c b_c j = some q ∧ 0 ≤ q ∧ q ≤ 1 := by
  obtain ⟨g, hg, hg0⟩ := forward_pos ha hc 0 0 (g := some 1) rfl one_pos
  set f := forward alpha 0 0 (some 1) ((bern.zip (a_c.zip b_c)).drop (j + 1)) with hf
  have hle := backward_le (f.1 + (a_c[j]?).getD 0) (f.2.1 + (b_c[j]?).getD 0) (((bern.zip (a_c.zip b_c)).take j).reverse)
  obtain ⟨y, hy, hy0⟩ := betaf_pos (K := K) (a := (backward (f.1 + (a_c[j]?).getD 0) (f.2.1 + (b_c[j]?).getD 0)
    (((bern.zip (a_c.zip b_c)).take j).reverse)).1) (b := (backward (f.1 + (a_c[j]?).getD 0) (f.2.1 + (b_c[j]?).getD 0)
    (((bern.zip (a_c.zip b_c)).take j).reverse)).2) (by omega) (by omega)
  have h1 : 0 < p * g := mul_pos hp0 hg0
  have h2 : 0 < (1 - p) * (alpha * y) := mul_pos (by linarith) (mul_pos ha hy0)
  refine ⟨p * g / (p * g + (1 - p) * (alpha * y)), ?_, div_nonneg h1.le (by linarith), (div_le_one (by linarith)).2 (by linarith)⟩
  unfold condProb ratio
  simp only [← hf, hg, hy, scaleExt, Option.map_some, hp0, hp1, if_true]
  rw [if_neg (by linarith)]

/-- When the last path value is 0, the conditional probability of the position before it is nan (`inf / inf`). -/
theorem condProb_nan {p alpha : K} (hp0 : 0 < p) (bern : List ℤ) (a_c b_c : List ℕ) (j : ℕ) (z : ℤ) (hz : z ≠ 1)
    (ac : ℕ) (hc : (bern.zip (a_c.zip b_c)).drop (j + 1) = [(z, ac, 0)]) : condProb p alpha bern a_c b_c j = none := by
  unfold condProb ratio
  dsimp only
  rw [hc]
  simp [forward, hz, betaf, scaleExt, hp0]

theorem bernLoop_ok {G : List ℤ → Prop} {a_c b_c : List ℕ} {m : ℕ} {s0 : BBer K}
    (hstep : ∀ bern j, 1 ≤ j → j < m → G bern → ∃ q, condProb s0.p s0.alpha bern a_c b_c j = some q ∧ 0 ≤ q ∧ q ≤ 1 ∧
      ∀ pos, G (bern.set j (ω.binom pos 1 q)))
    (js : List ℕ) (hjs : ∀ j ∈ js, 1 ≤ j ∧ j < m) (bern : List ℤ) (hG : G bern) (s : BBer K × ℕ) (hs : s.1 = s0) :
    wp ω (bernLoop a_c b_c bern js) (fun r t => G r ∧ t.1 = s0) (fun _ _ => False) s := by
  induction js generalizing bern s with
  | nil => exact ⟨hG, hs⟩
  | cons j js ih =>
    have hj := hjs j (by simp)
    obtain ⟨q, hq, hq0, hq1, hG'⟩ := hstep bern j hj.1 hj.2 hG
    unfold bernLoop
    rw [wp_bind, wp_self, hs, hq]
    dsimp only
    rw [wp_bind, wp_binom]
    refine ⟨fun h => ?_, fun _ _ _ => ih (fun j hj => hjs j (by simp [hj])) _ (hG' _) _ hs⟩
    rcases h with h | h | h
    · omega
    · exact absurd hq0 (not_le.2 h)
    · exact absurd hq1 (not_le.2 h)

theorem groupSums_ok {mask : List ℤ} (hne : mask ≠ []) (h0 : ∀ z ∈ mask, 0 ≤ z) {m : ℤ} (hm : IsMaxLabel mask m) (ws : List ℕ) :
    ∃ g, groupSums mask ws = .ok g ∧ (g.length : ℤ) = m + 1 := by
  unfold groupSums
  rw [if_neg (by simpa using h0), maxInt_eq_ok_iff.2 hm]
  refine ⟨_, rfl, ?_⟩
  have := h0 m hm.1
  simp; omega

/-- What is known of a path drawn with data. -/
structure Path (m : ℕ) (bern : List ℤ) : Prop where
  len : bern.length = m + 1
  bits : Bits bern

theorem Path.set {m : ℕ} {bern : List ℤ} (h : Path m bern) (j : ℕ) {z : ℤ} (hz : 0 ≤ z ∧ z ≤ 1) : Path m (bern.set j z) := by
  refine ⟨by rw [List.length_set]; exact h.len, fun y hy => ?_⟩
  rcases List.mem_or_eq_of_mem_set hy with h' | h'
  · exact h.bits y h'
  · rw [h']; exact hz

/-- Everything after the Bernoulli path, for a fitted object. -/
theorem random_fitted_ok (hω : ω.Legal) (s : BBer K × ℕ) (hp : 0 ≤ s.1.p ∧ s.1.p ≤ 1) (ha : 0 < s.1.alpha) (hd : NonNegLabels s.1.d)
    (hne : s.1.bernoullis ≠ []) {m : ℕ} (hm : IsMaxLabel s.1.d m) {size : PySize} (hsz : size = .none ∨ ∃ k, size.toInt? = some k)
    {G : List ℤ → Prop} (hG0 : G (((List.range (m + 1)).map (fun i => ω.binom (s.2 + i) 1 s.1.p)).set 0 0))
    (hstep : ∀ a_c, IsBincount s.1.d a_c → ∀ bern j, 1 ≤ j → j < m → Path m bern ∧ G bern →
      ∃ q, condProb s.1.p s.1.alpha bern a_c (revTails a_c) j = some q ∧ 0 ≤ q ∧ q ≤ 1 ∧ ∀ pos, G (bern.set j (ω.binom pos 1 q))) :
    wp ω (random size) (fun _ _ => True) (fun _ _ => False) s := by
  have hdne : s.1.d ≠ [] := List.ne_nil_of_mem hm.1
  have hl : ¬ s.1.d.length = 0 := fun h => hdne (List.length_eq_zero_iff.1 h)
  obtain ⟨a_c, hb, hA⟩ := bincount_ok hd
  unfold random randomSized
  rw [wp_bind, wp_self, wp_ite]
  refine ⟨fun h => absurd h.2 hl, fun _ => ?_⟩
  rw [wp_bind, wp_assign, wp_bind, wp_self, if_neg hl, maxInt_eq_ok_iff.2 hm, wp_bind, wp_lift]
  refine ⟨?_, nofun⟩
  rintro _ ⟨⟩
  rw [wp_bind]
  -- the path
  have hpath : wp ω (randomBernoullis (some ((m : ℤ) + 1))) (fun _ t => ∃ bern, t.1 = { s.1 with v := [], bernoullis := bern } ∧ Path m bern)
      (fun _ _ => False) ({ s.1 with v := [] }, s.2) := by
    unfold randomBernoullis
    rw [wp_bind, wp_self]
    dsimp only
    rw [wp_bind, wp_binomRep]
    refine ⟨fun h => ?_, fun _ _ _ _ => ?_⟩
    · rcases h with h | h | h | h
      · omega
      · exact absurd hp.1 (not_le.2 h)
      · exact absurd hp.2 (not_le.2 h)
      · omega
    rw [if_neg (fun h => hne (List.length_eq_zero_iff.1 h)), wp_bind, wp_assign, if_pos (by omega), maxInt_eq_ok_iff.2 hm, wp_bind, wp_lift]
    refine ⟨?_, nofun⟩
    rintro _ ⟨⟩
    rw [hb, wp_bind, wp_lift]
    refine ⟨?_, nofun⟩
    rintro _ ⟨⟩
    rw [if_neg (by simp), wp_bind]
    rw [show ((m : ℤ) + 1).toNat = m + 1 by omega, show (m : ℤ).toNat = m by omega]
    have h0 : Path m (((List.range (m + 1)).map (fun i => ω.binom (s.2 + i) 1 s.1.p)).set 0 0) :=
      Path.set ⟨by simp, binomRep_bits hω s.2 (m + 1) s.1.p⟩ 0 ⟨le_rfl, zero_le_one⟩
    refine wp_mono (bernLoop_ok (G := fun b => Path m b ∧ G b) (m := m) (s0 := { s.1 with v := [], bernoullis := s.1.bernoullis.set 0 1 })
      ?_ _ ?_ _ ⟨h0, hG0⟩ _ rfl) ?_ (fun _ _ h => h)
    · intro bern j h1 h2 h3
      obtain ⟨q, hq, hq0, hq1, hq2⟩ := hstep a_c hA bern j h1 h2 h3
      exact ⟨q, hq, hq0, hq1, fun pos => ⟨h3.1.set j ⟨hω.binom_nonneg _ _ _ (by omega), hω.binom_le _ _ _ (by omega)⟩, hq2 pos⟩⟩
    · intro j hj
      have := List.mem_of_mem_drop hj
      rw [List.mem_range] at this
      refine ⟨?_, this⟩
      rcases j with _ | j
      · exfalso
        obtain ⟨i, hi, he⟩ := List.mem_iff_getElem.1 hj
        simp at he
      · omega
    · rintro bern t ⟨⟨h1, _⟩, h2⟩
      rw [wp_assign]
      exact ⟨bern, by rw [h2], h1⟩
  refine wp_mono hpath ?_ (fun _ _ h => h)
  rintro _ ⟨t, q⟩ ⟨bern, hbern, hP⟩
  dsimp only at hbern
  subst hbern
  rw [wp_bind, wp_self, hb, wp_bind, wp_lift]
  refine ⟨?_, nofun⟩
  rintro _ ⟨⟩
  dsimp only
  have hmne : Py.cumsum bern ≠ [] := by
    apply List.ne_nil_of_length_pos; rw [cumsum_length, hP.len]; omega
  have hmask := cumsum_bits hP.bits
  obtain ⟨mx, hM, hMax⟩ := maxInt_ok hmne
  obtain ⟨ga, hga, hgal⟩ := groupSums_ok hmne (fun z hz => (hmask z hz).1) hMax a_c
  obtain ⟨gb, hgb, hgbl⟩ := groupSums_ok hmne (fun z hz => (hmask z hz).1) hMax (revTails a_c)
  rw [hga, wp_bind, wp_lift]
  refine ⟨?_, nofun⟩
  rintro _ ⟨⟩
  rw [hgb, wp_bind, wp_lift]
  refine ⟨?_, nofun⟩
  rintro _ ⟨⟩
  rw [wp_bind, wp_betaVec]
  refine ⟨?_, fun _ => ?_⟩
  · rintro ⟨x, hx, h⟩
    obtain ⟨i, hi⟩ := List.mem_iff_getElem?.1 hx
    rw [List.getElem?_zipWith] at hi
    split at hi
    · rename_i u v _ _
      cases hi
      have h1 : (0 : K) ≤ u := Nat.cast_nonneg _
      have h2 : (0 : K) ≤ v := Nat.cast_nonneg _
      rcases h with h | h
      · dsimp only at h; linarith
      · dsimp only at h; linarith
    · cases hi
  · rw [wp_bind, wp_assign, wp_bind, wp_lift]
    obtain ⟨xs, hxs⟩ := gather_ok (l := M.betaValues ω q (List.zipWith (fun (a b : ℕ) => (1 + (a : K), s.1.alpha + (b : K))) ga gb))
      (is := Py.cumsum bern) (by
        intro i hi
        refine ⟨(hmask i hi).1, ?_⟩
        have := hMax.2 i hi
        rw [M.betaValues_length, List.length_zipWith]
        omega)
    refine ⟨fun v hv => ?_, fun e he => ?_⟩
    · rw [wp_bind, wp_assign]
      have hvl := gather_length hv
      rw [cumsum_length, hP.len] at hvl
      have hvne : v ≠ [] := by apply List.ne_nil_of_length_pos; omega
      obtain ⟨k, hk⟩ : ∃ k, (if size = .none then PySize.int 1 else size).toInt? = some k := by
        rcases hsz with rfl | ⟨k, hk⟩
        · exact ⟨1, rfl⟩
        · exact ⟨k, by rw [if_neg (by rintro rfl; cases hk)]; exact hk⟩
      exact complete_ok hω (s := ({ s.1 with v := v, bernoullis := bern, w := stickWeights v }, _)) hp.1 hp.2 ha hk (.inl hvne)
    · rw [hxs] at he; cases he

end BBer
end Verif
