import Verif.Lemmas.BBerPath

/-! # The draws of a fitted `BetaBernoulli`, one by one -/

set_option linter.unusedSectionVars false

namespace Verif
open Spec
variable {K : Type} [Field K] [LinearOrder K] [IsStrictOrderedRing K] {ω : Oracle K}

namespace BBer

theorem bernLoop_trace (a b : List ℕ) (k j0 : ℕ) (bern : List ℤ) (s : BBer K × ℕ) (hlen : j0 + k ≤ bern.length) :
    wp ω (bernLoop a b bern ((List.range k).map (fun i => j0 + i))) (fun r t => t.1 = s.1 ∧ r.length = bern.length ∧
      (∀ i, i < j0 ∨ j0 + k ≤ i → r[i]? = bern[i]?) ∧
      ∀ i < k, ∃ q, condProb s.1.p s.1.alpha (r.take (j0 + i) ++ bern.drop (j0 + i)) a b (j0 + i) = some q ∧ r[j0 + i]? = some (ω.binom (s.2 + i) 1 q))
      (fun _ _ => True) s := by
  induction k generalizing j0 bern s with
  | zero => exact ⟨rfl, rfl, fun _ _ => rfl, nofun⟩
  | succ k ih =>
    rw [List.range_succ_eq_map, List.map_cons, List.map_map]
    have e : (fun i => j0 + i) ∘ Nat.succ = fun i => (j0 + 1) + i := by funext i; simp; omega
    rw [e]
    unfold bernLoop
    rw [wp_bind, wp_self]
    cases hq : condProb s.1.p s.1.alpha bern a b (j0 + 0) with
    | none => trivial
    | some q =>
      dsimp only
      rw [wp_bind, wp_binom]
      refine ⟨fun _ => trivial, fun _ _ _ => ?_⟩
      refine wp_mono (ih (j0 + 1) _ _ (by rw [List.length_set]; omega)) ?_ (fun _ _ _ => trivial)
      rintro r t ⟨h1, h2, h3, h4⟩
      rw [List.length_set] at h2
      have hpre : ∀ i < j0, r[i]? = bern[i]? := fun i hi => by
        rw [h3 i (by omega), Nat.add_zero, List.getElem?_set_ne (by omega)]
      refine ⟨h1, h2, fun i hi => ?_, fun i hi => ?_⟩
      · rcases hi with hi | hi
        · exact hpre i hi
        · rw [h3 i (by omega), Nat.add_zero, List.getElem?_set_ne (by omega)]
      · cases i with
        | zero =>
          refine ⟨q, ?_, ?_⟩
          · rw [Nat.add_zero] at hq ⊢
            have : r.take j0 = bern.take j0 := by
              apply List.ext_getElem?
              intro i
              simp only [List.getElem?_take]
              split_ifs with h
              · exact hpre i h
              · rfl
            rw [this, List.take_append_drop]
            exact hq
          · rw [h3 _ (by omega), List.getElem?_set_self (by omega)]
            rfl
        | succ i =>
          obtain ⟨q', hq', hr⟩ := h4 i (by omega)
          refine ⟨q', ?_, ?_⟩
          · rw [Nat.add_zero, List.drop_set, if_pos (by omega), show j0 + 1 + i = j0 + (i + 1) by omega] at hq'
            exact hq'
          · rw [show j0 + (i + 1) = j0 + 1 + i by omega, hr, show s.2 + (i + 1) = s.2 + 1 + i by omega]

/-- The path drawn by a fitted object before it is updated. -/
def bern0 (ω : Oracle K) (p : K) (pos m : ℕ) : List ℤ := ((List.range (m + 1)).map (fun i => ω.binom (pos + i) 1 p)).set 0 0

theorem bern0_length (p : K) (pos m : ℕ) : (bern0 ω p pos m).length = m + 1 := by simp [bern0]

/-- What is known of the path drawn by a fitted object: position 0 starts no new stick, the last position keeps its prior draw, and the positions between are updated in
turn, each given the new values before it and the prior draws after it. -/
structure PathDrawn (ω : Oracle K) (p alpha : K) (a b : List ℕ) (pos m : ℕ) (bern : List ℤ) : Prop where
  len : bern.length = m + 1
  zero : bern[0]? = some 0
  last : 1 ≤ m → bern[m]? = some (ω.binom (pos + m) 1 p)
  mid : ∀ j, 1 ≤ j → j < m → ∃ q, condProb p alpha (bern.take j ++ (bern0 ω p pos m).drop j) a b j = some q ∧
    bern[j]? = some (ω.binom (pos + (m + 1) + (j - 1)) 1 q)

theorem range_drop_one (m : ℕ) : (List.range m).drop 1 = (List.range (m - 1)).map (fun i => 1 + i) := by
  cases m with
  | zero => rfl
  | succ m => rw [List.range_succ_eq_map]; simp [Nat.add_comm]

theorem randomBernoullis_trace (s : BBer K × ℕ) {m : ℕ} (hm : IsMaxLabel s.1.d m) {a : List ℕ} (hb : Py.bincount s.1.d = .ok a) :
    wp ω (randomBernoullis (some ((m : ℤ) + 1))) (fun _ t => ∃ bern, t.1 = { s.1 with bernoullis := bern } ∧
      PathDrawn ω s.1.p s.1.alpha a (revTails a) s.2 m bern) (fun _ _ => True) s := by
  have hd : s.1.d ≠ [] := List.ne_nil_of_mem hm.1
  have hl : ¬ s.1.d.length = 0 := fun h => hd (List.length_eq_zero_iff.1 h)
  unfold randomBernoullis
  rw [wp_bind, wp_self]
  dsimp only
  rw [wp_bind, wp_binomRep]
  refine ⟨fun _ => trivial, fun _ _ _ _ => ?_⟩
  rw [wp_ite]
  refine ⟨fun _ => trivial, fun _ => ?_⟩
  rw [wp_bind, wp_assign, if_pos (by omega), maxInt_eq_ok_iff.2 hm, wp_bind, wp_lift]
  refine ⟨?_, nofun⟩
  rintro _ ⟨⟩
  rw [hb, wp_bind, wp_lift]
  refine ⟨?_, nofun⟩
  rintro _ ⟨⟩
  rw [if_neg (by simp), wp_bind]
  rw [show ((m : ℤ) + 1).toNat = m + 1 by omega, show (m : ℤ).toNat = m by omega, range_drop_one]
  have hl0 : (bern0 ω s.1.p s.2 m).length = m + 1 := bern0_length _ _ _
  refine wp_mono (bernLoop_trace a (revTails a) (m - 1) 1 (bern0 ω s.1.p s.2 m) _ (by omega)) ?_ (fun _ _ _ => trivial)
  rintro r t ⟨h1, h2, h3, h4⟩
  rw [wp_assign]
  refine ⟨r, by rw [h1], by omega, ?_, fun hm1 => ?_, fun j hj1 hjm => ?_⟩
  · rw [h3 0 (by omega)]; simp [bern0]
  · rw [h3 m (by omega), bern0, List.getElem?_set_ne (by omega)]; simp
  · obtain ⟨q, hq, hr⟩ := h4 (j - 1) (by omega)
    rw [show 1 + (j - 1) = j by omega] at hq hr
    exact ⟨q, hq, hr⟩

/-- The number of the stick that position `j` uses. -/
def group (bern : List ℤ) (j : ℕ) : ℕ := (bern.take (j + 1)).sum.toNat

/-- The sum of `f` over the positions `0 .. m` that use the same stick as position `j`. -/
def groupSum (bern : List ℤ) (m : ℕ) (f : ℕ → ℕ) (j : ℕ) : ℕ := ∑ i ∈ (Finset.range (m + 1)).filter (fun i => group bern i = group bern j), f i

theorem groupSums_get {bern : List ℤ} (hbits : Bits bern) {m : ℕ} (hlen : bern.length = m + 1) (f : ℕ → ℕ) {g : List ℕ}
    (h : groupSums (Py.cumsum bern) ((List.range (m + 1)).map f) = .ok g) {j : ℕ} (hj : j < m + 1) : g[group bern j]? = some (groupSum bern m f j) := by
  have hmne : Py.cumsum bern ≠ [] := by
    apply List.ne_nil_of_length_pos; rw [cumsum_length, hlen]; omega
  have hmask := cumsum_bits hbits
  obtain ⟨mx, hM, hMax⟩ := maxInt_ok hmne
  unfold groupSums at h
  rw [if_neg (by simpa using fun z hz => (hmask z hz).1), hM] at h
  cases h
  have hcs : ∀ i < m + 1, (Py.cumsum bern)[i]? = some ((bern.take (i + 1)).sum) := fun i hi => cumsum_getElem? bern i (by omega)
  have h0 : ∀ i < m + 1, 0 ≤ (bern.take (i + 1)).sum := fun i hi => (hmask _ (List.mem_of_getElem? (hcs i hi))).1
  have hle : (bern.take (j + 1)).sum ≤ mx := hMax.2 _ (List.mem_of_getElem? (hcs j hj))
  have hgj : group bern j < mx.toNat + 1 := by
    have := h0 j hj
    unfold group; omega
  rw [List.getElem?_map, List.getElem?_range hgj, Option.map_some]
  congr 1
  have hzip : List.zip (Py.cumsum bern) ((List.range (m + 1)).map f) = (List.range (m + 1)).map (fun i => ((bern.take (i + 1)).sum, f i)) := by
    refine list_ext_range (by simp [hlen]) fun i hi => ?_
    have hi' : i < m + 1 := by simpa [hlen] using hi
    exact List.getElem?_zip_eq_some.2 ⟨hcs i hi', by simp [hi']⟩
  rw [hzip, List.filter_map, List.map_map, groupSum, Finset.sum_filter, Finset.sum_range]
  have : ∀ n ≤ m + 1, (((List.range n).filter ((fun x : ℤ × ℕ => decide (x.1 = ((group bern j : ℕ) : ℤ))) ∘ fun i => ((bern.take (i + 1)).sum, f i))).map
      (Prod.snd ∘ fun i => ((bern.take (i + 1)).sum, f i))).sum = ∑ i ∈ Finset.range n, if group bern i = group bern j then f i else 0 := by
    intro n
    induction n with
    | zero => intro _; rfl
    | succ n ih =>
      intro hn
      rw [List.range_succ, List.filter_append, List.map_append, List.sum_append, ih (by omega), Finset.sum_range_succ]
      congr 1
      have hn0 := h0 n (by omega)
      have : ((bern.take (n + 1)).sum = ((group bern j : ℕ) : ℤ)) ↔ group bern n = group bern j := by
        unfold group
        have := h0 j hj
        omega
      by_cases hc : group bern n = group bern j
      · rw [if_pos hc, List.filter_cons_of_pos (by simpa using this.2 hc)]; simp
      · rw [if_neg hc, List.filter_cons_of_neg (by simpa using fun h => hc (this.1 h))]; simp
  rw [this (m + 1) le_rfl, Finset.sum_range]

theorem sum_bits {bern : List ℤ} (h : Bits bern) : 0 ≤ bern.sum := List.sum_nonneg fun x hx => (h x hx).1

/-- `complete` of an object with sticks. -/
theorem complete_draw (size : PySize) {n : ℤ} (hn : size.toInt? = some n) (s : BBer K × ℕ) {x : K} (hx : s.1.v.getLast? = some x) :
    wp ω (complete size) (fun _ t => ∃ cs vs, cs.length = (n - s.1.v.length).toNat ∧ vs.length = cs.length ∧ t.1.bernoullis = s.1.bernoullis ++ cs ∧ t.1.v = s.1.v ++ vs ∧
      (∀ i < cs.length, cs[i]? = some (ω.binom (s.2 + i) 1 s.1.p)) ∧
      (Bits cs → ∀ i < cs.length, vs[i]? = some (if group cs i = 0 then x else ω.beta (s.2 + cs.length + (group cs i - 1)) 1 s.1.alpha))) (fun _ _ => True) s := by
  have hne : s.1.v ≠ [] := by rintro h; rw [h] at hx; cases hx
  have hl : ¬ s.1.v.length = 0 := fun h => hne (List.length_eq_zero_iff.1 h)
  obtain ⟨y, hy, hy'⟩ := index_last hne
  have hyx : y = x := by rw [List.getLast?_eq_getElem?, hy'] at hx; exact Option.some.inj hx
  subst hyx
  unfold complete
  rw [wp_bind, wp_lift]
  refine ⟨fun _ _ => ?_, fun _ _ => trivial⟩
  rw [hn]
  dsimp only
  rw [wp_bind, wp_self, wp_bind, wp_whenM]
  refine ⟨fun hlt => ?_, fun hge => ?_⟩
  · rw [wp_bind, wp_whenM]
    refine ⟨fun h => absurd h hl, fun _ => ?_⟩
    rw [wp_bind, wp_self, wp_bind, wp_binomRep]
    refine ⟨fun _ => trivial, fun _ _ _ _ => ?_⟩
    generalize hcs : (List.range (n - (s.1.v.length : ℤ)).toNat).map (fun i => ω.binom (s.2 + i) 1 s.1.p) = cs
    have hcl : cs.length = (n - (s.1.v.length : ℤ)).toNat := by rw [← hcs]; simp
    have hcne : cs ≠ [] := by apply List.ne_nil_of_length_pos; omega
    rw [wp_bind, wp_assign, hy, wp_bind, wp_lift]
    refine ⟨?_, nofun⟩
    rintro _ ⟨⟩
    rw [cumsum_last hcne, wp_bind, wp_lift]
    refine ⟨?_, nofun⟩
    rintro _ ⟨⟩
    rw [wp_bind, wp_betaRep]
    refine ⟨fun _ => trivial, fun _ _ _ => ?_⟩
    rw [wp_bind, wp_lift]
    refine ⟨fun vs hvs => ?_, fun _ _ => trivial⟩
    rw [wp_bind, wp_assign, wp_assign, wp_bind, wp_self, wp_pure]
    have hvl := gather_length hvs
    rw [cumsum_length] at hvl
    refine ⟨cs, vs, hcl, hvl, rfl, rfl, fun i hi => by rw [← hcs, List.getElem?_map, List.getElem?_range (by omega)]; rfl, fun hbits i hi => ?_⟩
    have hmask := cumsum_bits hbits
    have h1 := cumsum_getElem? cs i hi
    have h2 := hmask _ (List.mem_of_getElem? h1)
    rw [gather_get hvs i h1 h2.1]
    have hg : (cs.take (i + 1)).sum.toNat = group cs i := rfl
    rw [hg]
    have hgs : group cs i ≤ cs.sum.toNat := by unfold group; omega
    rw [← hcl]
    cases hgi : group cs i with
    | zero => simp
    | succ g =>
      rw [List.getElem?_cons_succ, M.betaValues_getElem?, List.getElem?_replicate, if_pos (by omega)]
      simp
  · rw [wp_bind, wp_self, wp_pure]
    have h0 : (n - (s.1.v.length : ℤ)).toNat = 0 := by omega
    exact ⟨[], [], by simp [h0], rfl, by simp, by simp, nofun, nofun⟩

theorem random_fitted_draw (hω : ω.Legal) {size : PySize} (s : BBer K × ℕ) {m : ℕ} (hm : IsMaxLabel s.1.d m) :
    wp ω (random size) (fun _ t => ∃ bern a q, Py.bincount s.1.d = .ok a ∧ PathDrawn ω s.1.p s.1.alpha a (revTails a) s.2 m bern ∧ bern <+: t.1.bernoullis ∧
      ∀ j ≤ m, t.1.v[j]? = some (ω.beta (q + group bern j) (1 + (groupSum bern m (nEq s.1.d) j : K)) (s.1.alpha + (groupSum bern m (nGt s.1.d) j : K))))
      (fun _ _ => True) s := by
  have hd : s.1.d ≠ [] := List.ne_nil_of_mem hm.1
  have hl : ¬ s.1.d.length = 0 := fun h => hd (List.length_eq_zero_iff.1 h)
  unfold random randomSized
  rw [wp_bind, wp_self, wp_ite]
  refine ⟨fun h => absurd h.2 hl, fun _ => ?_⟩
  rw [wp_bind, wp_assign, wp_bind, wp_self, if_neg hl, maxInt_eq_ok_iff.2 hm, wp_bind, wp_lift]
  refine ⟨?_, nofun⟩
  rintro _ ⟨⟩
  rw [wp_bind]
  rcases bincount_cases s.1.d with ⟨_, hb⟩ | ⟨a, hb, hB⟩
  · refine wp_mono (randomBernoullis_post _ _) ?_ (fun _ _ _ => trivial)
    rintro _ t ⟨h1, -⟩
    rw [wp_bind, wp_self, wp_bind, wp_lift]
    have : t.1.d = s.1.d := by rw [h1]
    rw [this, hb]
    exact ⟨nofun, fun _ _ => trivial⟩
  refine wp_mono (randomBernoullis_trace ({ s.1 with v := [] }, s.2) hm hb) ?_ (fun _ _ _ => trivial)
  rintro _ ⟨t, q⟩ ⟨bern, hbern, hP⟩
  dsimp only at hbern hP
  subst hbern
  have hbits : Bits bern := by
    intro z hz
    obtain ⟨i, hi⟩ := List.mem_iff_getElem?.1 hz
    have hil : i < m + 1 := by
      by_contra hc
      rw [List.getElem?_eq_none (by rw [hP.len]; omega)] at hi
      cases hi
    rcases Nat.eq_zero_or_pos i with h0 | h0
    · rw [h0, hP.zero] at hi; cases hi; exact ⟨le_rfl, zero_le_one⟩
    · by_cases him : i = m
      · rw [him, hP.last (by omega)] at hi; cases hi
        exact ⟨hω.binom_nonneg _ _ _ (by omega), hω.binom_le _ _ _ (by omega)⟩
      · obtain ⟨q, -, hr⟩ := hP.mid i h0 (by omega)
        rw [hr] at hi; cases hi
        exact ⟨hω.binom_nonneg _ _ _ (by omega), hω.binom_le _ _ _ (by omega)⟩
  have hal : a.length = m + 1 := by have := hB.length_eq hm; omega
  rw [wp_bind, wp_self, hb, wp_bind, wp_lift]
  refine ⟨?_, nofun⟩
  rintro _ ⟨⟩
  dsimp only
  rw [wp_bind, wp_lift]
  refine ⟨fun ga hga => ?_, fun _ _ => trivial⟩
  rw [wp_bind, wp_lift]
  refine ⟨fun gb hgb => ?_, fun _ _ => trivial⟩
  have hea := hB.eq_map
  have heb := hB.revTails_eq_map (hB.ne_nil hd)
  rw [hal] at hea heb
  rw [hea] at hga
  rw [heb] at hgb
  rw [wp_bind, wp_betaVec]
  refine ⟨fun _ => trivial, fun _ => ?_⟩
  rw [wp_bind, wp_assign, wp_bind, wp_lift]
  refine ⟨fun v hv => ?_, fun _ _ => trivial⟩
  rw [wp_bind, wp_assign]
  have hvl := gather_length hv
  rw [cumsum_length, hP.len] at hvl
  have hval : ∀ j ≤ m, v[j]? = some (ω.beta (q + group bern j) (1 + (groupSum bern m (nEq s.1.d) j : K)) (s.1.alpha + (groupSum bern m (nGt s.1.d) j : K))) := by
    intro j hj
    have h1 := cumsum_getElem? bern j (by rw [hP.len]; omega)
    have h2 := cumsum_bits hbits _ (List.mem_of_getElem? h1)
    rw [gather_get hv j h1 h2.1]
    have hg : (bern.take (j + 1)).sum.toNat = group bern j := rfl
    rw [hg, M.betaValues_getElem?, List.getElem?_zipWith, groupSums_get hbits hP.len _ hga (by omega), groupSums_get hbits hP.len _ hgb (by omega)]
    rfl
  have hvne : v ≠ [] := by apply List.ne_nil_of_length_pos; omega
  cases hk : (if size = .none then PySize.int 1 else size).toInt? with
  | none =>
    unfold complete
    rw [wp_bind, wp_lift]
    refine ⟨fun _ _ => ?_, fun _ _ => trivial⟩
    rw [hk]
    trivial
  | some k =>
    refine wp_mono (complete_draw _ hk _ (List.getLast?_eq_getLast_of_ne_nil hvne)) ?_ (fun _ _ _ => trivial)
    rintro r t ⟨cs, vs, -, -, h3, h4, -, -⟩
    dsimp only at h3 h4
    refine ⟨bern, a, q, rfl, hP, by rw [h3]; exact List.prefix_append _ _, fun j hj => ?_⟩
    rw [h4, List.getElem?_append_left (by omega), hval j hj]

end BBer
end Verif

namespace Verif
variable {K : Type} [Field K] [LinearOrder K] [IsStrictOrderedRing K] {ω : Oracle K}
namespace BBer

/-- The number of positions from `o` on, of `n`, before the first change of stick. -/
def runUp (z : ℕ → ℤ) (o : ℕ) : ℕ → ℕ
  | 0 => 0
  | n + 1 => if z o = 1 then 0 else runUp z (o + 1) n + 1

/-- The number of positions below `j` down to the last change of stick, that one not counted. -/
def runDown (z : ℕ → ℤ) : ℕ → ℕ
  | 0 => 0
  | j + 1 => if z j = 1 then 0 else runDown z j + 1

theorem runDown_le (z : ℕ → ℤ) (j : ℕ) : runDown z j ≤ j := by
  induction j with
  | zero => exact le_rfl
  | succ j ih => rw [runDown]; split_ifs <;> omega

theorem forward_run (alpha : K) (z : ℕ → ℤ) (A B : ℕ → ℕ) (n o a b : ℕ) (g : Option K) :
    forward alpha a b g ((List.range n).map (fun i => (z (o + i), A (o + i), B (o + i)))) =
      (a + ∑ i ∈ Finset.Ico o (o + runUp z o n), A i, b + ∑ i ∈ Finset.Ico o (o + runUp z o n), B i,
        if runUp z o n = 0 then g else scaleExt alpha (betaf (a + ∑ i ∈ Finset.Ico o (o + runUp z o n), A i) (b + ∑ i ∈ Finset.Ico o (o + runUp z o n), B i))) := by
  induction n generalizing o a b g with
  | zero => simp [forward, runUp]
  | succ n ih =>
    rw [List.range_succ_eq_map, List.map_cons, List.map_map]
    have e : ((fun i => (z (o + i), A (o + i), B (o + i))) ∘ Nat.succ) = fun i => (z (o + 1 + i), A (o + 1 + i), B (o + 1 + i)) := by
      funext i; simp only [Function.comp, Nat.succ_eq_add_one, show o + (i + 1) = o + 1 + i by omega]
    rw [e, forward, runUp, Nat.add_zero]
    by_cases hz : z o = 1
    · simp [hz]
    · rw [if_neg hz, if_neg hz, ih]
      have hs : ∀ f : ℕ → ℕ, ∑ i ∈ Finset.Ico o (o + (runUp z (o + 1) n + 1)), f i = f o + ∑ i ∈ Finset.Ico (o + 1) (o + 1 + runUp z (o + 1) n), f i := by
        intro f
        rw [Finset.sum_eq_sum_Ico_succ_bot (by omega), show o + (runUp z (o + 1) n + 1) = o + 1 + runUp z (o + 1) n by omega]
      rw [hs, hs, ← add_assoc, ← add_assoc, if_neg (Nat.succ_ne_zero (runUp z (o + 1) n))]
      by_cases h0 : runUp z (o + 1) n = 0
      · simp [h0]
      · rw [if_neg h0]

theorem backward_run (z : ℕ → ℤ) (A B : ℕ → ℕ) (j a b : ℕ) :
    backward a b (((List.range j).map (fun i => (z i, A i, B i))).reverse) =
      (a + ∑ i ∈ Finset.Ico (j - runDown z j) j, A i, b + ∑ i ∈ Finset.Ico (j - runDown z j) j, B i) := by
  induction j generalizing a b with
  | zero => simp [backward]
  | succ j ih =>
    rw [List.range_succ, List.map_append, List.reverse_append]
    simp only [List.map_cons, List.map_nil, List.reverse_cons, List.reverse_nil, List.nil_append, List.cons_append]
    rw [backward, runDown]
    by_cases hz : z j = 1
    · simp [hz]
    · rw [if_neg hz, if_neg hz, ih, show j + 1 - (runDown z j + 1) = j - runDown z j by omega, Finset.sum_Ico_succ_top (by omega), Finset.sum_Ico_succ_top (by omega)]
      ext <;> simp only <;> ring

/-- What `condProb` computes, in terms of the runs of the path around position `j`. -/
theorem condProb_run (p alpha : K) (z : ℕ → ℤ) (A B : ℕ → ℕ) {m j : ℕ} (hj : j ≤ m) :
    condProb p alpha ((List.range (m + 1)).map z) ((List.range (m + 1)).map A) ((List.range (m + 1)).map B) j =
      ratio p (if runUp z (j + 1) (m - j) = 0 then some 1 else scaleExt alpha (betaf (∑ i ∈ Finset.Ico (j + 1) (j + 1 + runUp z (j + 1) (m - j)), A i)
          (∑ i ∈ Finset.Ico (j + 1) (j + 1 + runUp z (j + 1) (m - j)), B i)))
        (scaleExt alpha (betaf (∑ i ∈ Finset.Ico (j - runDown z j) (j + 1 + runUp z (j + 1) (m - j)), A i)
          (∑ i ∈ Finset.Ico (j - runDown z j) (j + 1 + runUp z (j + 1) (m - j)), B i))) := by
  have hcells : List.zip ((List.range (m + 1)).map z) (List.zip ((List.range (m + 1)).map A) ((List.range (m + 1)).map B)) =
      (List.range (m + 1)).map (fun i => (z i, A i, B i)) := by
    rw [List.zip_map', List.zip_map']
  have hdrop : ((List.range (m + 1)).map (fun i => (z i, A i, B i))).drop (j + 1) = (List.range (m - j)).map (fun i => (z (j + 1 + i), A (j + 1 + i), B (j + 1 + i))) := by
    rw [← List.map_drop]
    apply List.ext_getElem?
    intro i
    simp only [List.getElem?_map, List.getElem?_drop]
    by_cases hi : i < m - j
    · rw [List.getElem?_range (by omega), List.getElem?_range hi]; rfl
    · rw [List.getElem?_eq_none (by simp; omega), List.getElem?_eq_none (by simp; omega)]; rfl
  have htake : ((List.range (m + 1)).map (fun i => (z i, A i, B i))).take j = (List.range j).map (fun i => (z i, A i, B i)) := by
    rw [← List.map_take, List.take_range, Nat.min_eq_left (by omega)]
  have hget : ∀ f : ℕ → ℕ, (((List.range (m + 1)).map f)[j]?).getD 0 = f j := by
    intro f; simp [show j < m + 1 by omega]
  unfold condProb
  dsimp only
  rw [hcells, hdrop, htake, forward_run, hget, hget, backward_run]
  have hs : ∀ f : ℕ → ℕ, 0 + ∑ i ∈ Finset.Ico (j + 1) (j + 1 + runUp z (j + 1) (m - j)), f i + f j + ∑ i ∈ Finset.Ico (j - runDown z j) j, f i =
      ∑ i ∈ Finset.Ico (j - runDown z j) (j + 1 + runUp z (j + 1) (m - j)), f i := by
    intro f
    rw [← Finset.sum_Ico_consecutive f (by omega : j - runDown z j ≤ j) (by omega : j ≤ j + 1 + runUp z (j + 1) (m - j)),
      Finset.sum_eq_sum_Ico_succ_bot (by omega : j < j + 1 + runUp z (j + 1) (m - j))]
    ring
  dsimp only
  rw [hs, hs, zero_add, zero_add]

end BBer
end Verif
