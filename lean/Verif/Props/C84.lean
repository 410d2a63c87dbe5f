import Verif.Lemmas.UrnPath
import Verif.Lemmas.ChainLaw
import Verif.Lemmas.RandGenExists
import Verif.Props.C79
import Verif.Props.C80

/-!
# C84: the law of the sticks of an unfitted nested weight model

For a generator with the documented laws (`RandGen`), from every state without labels that a history of calls reaches.  Each stick of `random(n)` has the law
`Beta(1, alpha)`, whatever the dependence parameter: `n` of `BetaBinomial` (`C84_betaBinomial`), `p` of `BetaBernoulli` (`C84_betaBernoulli_partial`), `a` of
`BetaInDirichlet` (`C84_betaInDirichlet`).  The joint law of the sticks of `BetaInDirichlet`: the pattern of ties is a Chinese restaurant process with parameter `a`, and the
distinct values are independent `Beta(1, alpha)` given it (`C84_betaInDirichlet_joint`).  The joint law for `BetaBernoulli`: each stick after the first is new with
probability `p`, independently, and repeats the one before otherwise; the distinct values are independent `Beta(1, alpha)` given that
(`C84_betaBernoulli_joint_partial`).
-/

set_option linter.unusedSectionVars false

namespace Verif
open Crp Spec MeasureTheory ProbabilityTheory
variable (G : RandGen) {ω : Oracle ℝ} (log : ℝ → ℝ) (pos : ℕ) (ops : List (WOp ℝ)) {alpha : ℝ}

/-- The law of an attribute after a call. -/
noncomputable def RandGen.attrLaw {σ α X : Type} [MeasurableSpace X] (m : M ℝ σ α) (s : σ × ℕ) (f : σ → X) : Measure X := G.P.map (fun u => f (m (G.oracle u) s).2.1)

/-- Entry `j` of a list. -/
def entryOf (j : ℕ) (l : List ℝ) : ℝ := (l[j]?).getD 0

section betaBinomial

/-- The chain of the Beta-Binomial structure. -/
noncomputable def chainStick (n : ℕ) (alpha : ℝ) (q : ℕ) : ℕ → (ℕ → G.Seed) → ℝ
  | 0, u => G.beta 1 alpha (u q)
  | j + 1, u => G.beta (1 + (G.binom n (chainStick n alpha q j u) (u (q + 1 + 2 * j)) : ℝ)) (alpha + n - (G.binom n (chainStick n alpha q j u) (u (q + 1 + 2 * j)) : ℝ))
      (u (q + 1 + 2 * j + 1))

theorem chainStick_law (ha : 0 < alpha) (n q : ℕ) : ∀ j, Measurable (chainStick G n alpha q j) ∧ G.Before (q + 1 + 2 * j) (chainStick G n alpha q j) ∧
    (∀ u, 0 ≤ chainStick G n alpha q j u ∧ chainStick G n alpha q j u ≤ 1) ∧ G.P.map (chainStick G n alpha q j) = betaMeasure 1 alpha
  | 0 => by
    refine ⟨(G.measurable_beta _ _).comp (measurable_pi_apply q), fun u u' h => ?_, fun u => G.beta_unit _ _ _, ?_⟩
    · rw [chainStick, chainStick, h q (by omega)]
    · rw [← G.beta_law 1 alpha one_pos ha, ← G.map_seed q, Measure.map_map (G.measurable_beta _ _) (measurable_pi_apply q)]
      rfl
  | j + 1 => by
    obtain ⟨h1, h2, h3, h4⟩ := chainStick_law ha n q j
    have h5 : Measurable (fun z : ℤ => (z : ℝ)) := measurable_from_top
    have hZ : Measurable (fun u : ℕ → G.Seed => G.binom n (chainStick G n alpha q j u) (u (q + 1 + 2 * j))) :=
      (G.binom_meas n).comp (h1.prodMk (measurable_pi_apply (q + 1 + 2 * j)))
    refine ⟨G.beta_meas.comp (((measurable_const.add (h5.comp hZ)).prodMk (measurable_const.sub (h5.comp hZ))).prodMk (measurable_pi_apply (q + 1 + 2 * j + 1))), fun u u' h => ?_,
      fun u => G.beta_unit _ _ _, G.law_step one_pos ha (n := n) (i := q + 1 + 2 * j) (j := q + 1 + 2 * j + 1) (by omega) h1 h2 h4 h3⟩
    rw [chainStick, chainStick, h2 u u' fun k hk => h k (by omega), h (q + 1 + 2 * j) (by omega), h (q + 1 + 2 * j + 1) (by omega)]

theorem C84_betaBinomial (hω : ω.Legal) {n : ℕ} (ha : 0 < alpha) {s : BBin ℝ × ℕ} (hs : BBin.cls.run log ω (BBin.init n alpha, pos) ops = s) (hd : s.1.d = [])
    {k j : ℕ} (hj : j < k) : G.attrLaw (BBin.random (.int k)) s (fun t => entryOf j t.v) = betaMeasure 1 alpha := by
  have e1 := BBin.reach_hyper (ω := ω) log pos ops (n := n) (alpha := alpha)
  have b1 := BBin.reach (ω := ω) log pos ops hω (Int.natCast_nonneg n) ha
  rw [hs] at e1 b1
  rw [← (chainStick_law G ha n s.2 (j + 1)).2.2.2]
  unfold RandGen.attrLaw
  congr 1
  funext u
  obtain ⟨r, t, hr, h1, h2, h3⟩ := BBin.prior_draw (G.oracle_legal u) b1 e1.1 e1.2 hd (size := .int k) rfl
  rw [hr]
  have hlen : t.1.v.length = k := by rw [h2]; simp; omega
  have : ∀ i, i ≤ k → ((G.oracle u).beta s.2 1 alpha :: t.1.v)[i]? = some (chainStick G n alpha s.2 i u) := by
    intro i
    induction i with
    | zero => intro _; rfl
    | succ i ih =>
      intro hi
      obtain ⟨y, z, v', h4, h5, h6, h7, h8⟩ := h3.step i (by omega)
      rw [ih (by omega)] at h4
      injection h4 with h4
      rw [List.getElem?_cons_succ, h6, h8, h7, ← h4]
      rfl
  have := this (j + 1) hj
  rw [List.getElem?_cons_succ] at this
  simp only [entryOf, this, Option.getD_some]

end betaBinomial

section betaInDirichlet
variable (F : SpecFun ℝ) {a : ℝ}

theorem BID.sticks {s : BID ℝ × ℕ} (hd : s.1.d = []) (ha : 0 ≤ s.1.a) (hal : 0 < s.1.alpha) (n : ℕ) (u : ℕ → G.Seed) :
    (BID.random F (.int n) (G.oracle u) s).2.1.v = (urnPath (G.oracle u) s.1.a [1] (s.2 + 1) n).map (fun j =>
      G.beta 1 s.1.alpha (u (((s.2 :: births [1] (s.2 + 1) (urnPath (G.oracle u) s.1.a [1] (s.2 + 1) n))[j]?).getD s.2))) := by
  obtain ⟨w, t, h1, h2, h3⟩ := BID.random_path F (G.oracle_legal u) s hd ha hal n
  rw [h1]
  exact h3

theorem births_safe (q : ℕ) (js : List ℕ) : ∀ i ∈ q :: births [1] (q + 1) js, i ∉ (choicePos [1] (q + 1) js).toFinset := by
  intro i hi
  rw [List.mem_toFinset]
  rcases List.mem_cons.1 hi with rfl | hi
  · intro h
    have := le_choicePos _ _ _ _ h
    omega
  · exact births_choicePos _ _ _ i hi

theorem urnPath_meas (a : ℝ) (q n : ℕ) (x : List ℕ) : MeasurableSet {u : ℕ → G.Seed | urnPath (G.oracle u) a [1] q n = x} := by
  by_cases h : x.length = n
  · rw [← h]; exact RandGen.measurableSet_urnPath x [1] q
  · have : {u : ℕ → G.Seed | urnPath (G.oracle u) a [1] q n = x} = ∅ := by
      ext u
      simp only [Set.mem_ofPred_eq, Set.mem_empty_iff_false, iff_false]
      rintro rfl
      exact h (urnPath_length _ _ _ _ _)
    rw [this]; exact MeasurableSet.empty

theorem urnPath_on' (a : ℝ) (q n : ℕ) (x : List ℕ) : G.On (choicePos [1] q x).toFinset (fun u => urnPath (G.oracle u) a [1] q n = x) := by
  by_cases h : x.length = n
  · rw [← h]; exact RandGen.urnPath_on x [1] q
  · intro u u' _
    have : ∀ u : ℕ → G.Seed, ¬ urnPath (G.oracle u) a [1] q n = x := by
      rintro u rfl
      exact h (urnPath_length _ _ _ _ _)
    simp [this]

theorem C84_betaInDirichlet (ha : 0 ≤ a) (hal : 0 < alpha) {s : BID ℝ × ℕ} (hs : (BID.cls F).run log ω (BID.init alpha a, pos) ops = s) (hd : s.1.d = [])
    {n j : ℕ} (hj : j < n) : G.attrLaw (BID.random F (.int n)) s (fun t => entryOf j t.v) = betaMeasure 1 alpha := by
  have e1 := BID.reach_hyper (ω := ω) log pos ops F alpha a
  rw [hs] at e1
  rw [← G.beta_law 1 alpha one_pos hal]
  refine (RandGen.law_path (G := G) (X := fun u => urnPath (G.oracle u) a [1] (s.2 + 1) n) (urnPath_meas G a (s.2 + 1) n) (urnPath_on' G a (s.2 + 1) n) (G.measurable_beta 1 alpha)
    (e := fun x => ((s.2 :: births [1] (s.2 + 1) x)[(x[j]?).getD 0]?).getD s.2) (fun x => ?_) fun u => ?_).2
  · refine births_safe s.2 x _ ?_
    cases h : (s.2 :: births [1] (s.2 + 1) x)[(x[j]?).getD 0]? with
    | none => simp
    | some y => rw [Option.getD_some]; exact List.mem_of_getElem? h
  · have h := BID.sticks G F hd (by rw [e1.2]; exact ha) (by rw [e1.1]; exact hal) n u
    rw [e1.1, e1.2] at h
    have hl : j < (urnPath (G.oracle u) a [1] (s.2 + 1) n).length := by rw [urnPath_length]; exact hj
    simp only [entryOf, h, List.getElem?_map, List.getElem?_eq_getElem hl]
    rfl

theorem C84_betaInDirichlet_joint (ha : 0 < a) (hal : 0 < alpha) {s : BID ℝ × ℕ} (hs : (BID.cls F).run log ω (BID.init alpha a, pos) ops = s) (hd : s.1.d = [])
    {n : ℕ} {js : List ℕ} (hjs : js ∈ all n []) {B : Set (Fin (blocks [] js).length → ℝ)} (hB : MeasurableSet B) :
    G.P.real {u | ties [] (BID.random F (.int n) (G.oracle u) s).2.1.v = js ∧ vec (blocks [] js).length (appear [] (BID.random F (.int n) (G.oracle u) s).2.1.v) ∈ B} =
      seqProb a [] js * (Measure.pi (fun _ : Fin (blocks [] js).length => betaMeasure 1 alpha)).real B := by
  have e1 := BID.reach_hyper (ω := ω) log pos ops F alpha a
  rw [hs] at e1
  have hlen : js.length = n := by
    clear hB B
    generalize ([] : List ℕ) = c at hjs
    induction n generalizing c js with
    | zero => simp [all] at hjs; subst hjs; rfl
    | succ n ih =>
      cases js with
      | nil => simp [all] at hjs
      | cons j js => rw [mem_all_cons] at hjs; simp [ih _ hjs.2]
  subst hlen
  have h := RandGen.prob_ties (G := G) hal (X := fun u => urnPath (G.oracle u) a [1] (s.2 + 1) js.length) (urnPath_meas G a (s.2 + 1) js.length) (urnPath_on' G a (s.2 + 1) js.length)
    (A := {x | x ∈ all js.length [1]}) (fun u => urnPath_mem_all (G.oracle_legal u) ha.le _ _ _ (by simp)) (L := fun x => s.2 :: births [1] (s.2 + 1) x)
    (fun x hx j hj => by
      have := mem_all_lt _ x [1] hx j hj
      rw [← births_length x [1] (s.2 + 1)] at this
      simpa [add_comm] using this)
    (fun x => List.nodup_cons.2 ⟨fun h => by have := le_births _ _ _ _ h; omega, nodup_births _ _ _⟩) (fun x => births_safe s.2 x) (q := s.2)
    (V := fun u => (BID.random F (.int js.length) (G.oracle u) s).2.1.v) (fun u => by
      have h := BID.sticks G F hd (by rw [e1.2]; exact ha.le) (by rw [e1.1]; exact hal) js.length u
      rw [e1.1, e1.2] at h
      exact h) js rfl hB
  rw [h]
  congr 1
  rw [← C73_law ha js hjs]
  have hset : {u : ℕ → G.Seed | ties [] (urnPath (G.oracle u) a [1] (s.2 + 1) js.length) = js} =
      ⋃ x ∈ ((all js.length [1]).filter (fun x => decide (ties [] x = js))).toFinset, {u | urnPath (G.oracle u) a [1] (s.2 + 1) js.length = x} := by
    ext u
    simp only [Set.mem_ofPred_eq, Set.mem_iUnion, List.mem_toFinset, List.mem_filter, decide_eq_true_eq, exists_prop]
    constructor
    · intro h
      exact ⟨_, ⟨urnPath_mem_all (G.oracle_legal u) ha.le _ _ _ (by simp), h⟩, rfl⟩
    · rintro ⟨x, ⟨_, h1⟩, h2⟩
      rw [h2, h1]
  rw [hset, measureReal_biUnion_finset]
  · rw [← List.sum_toFinset _ ((nodup_all _ _).filter _)]
    refine Finset.sum_congr rfl fun x hx => ?_
    rw [List.mem_toFinset, List.mem_filter] at hx
    have hxl : x.length = js.length := by
      have := hx.2
      rw [decide_eq_true_eq] at this
      rw [← this]
      clear this hx
      generalize ([] : List ℕ) = seen
      induction x generalizing seen with
      | nil => rfl
      | cons y x ih => rw [ties, List.length_cons, List.length_cons, ← ih]
    rw [← hxl]
    exact RandGen.prob_urnPath ha.le x [1] (s.2 + 1) (by simp) (hxl ▸ hx.1)
  · intro x _ y _ hxy
    rw [Function.onFun, Set.disjoint_left]
    intro u h1 h2
    exact hxy (h1.symm.trans h2)
  · exact fun x _ => urnPath_meas G a (s.2 + 1) js.length x

end betaInDirichlet

section betaBernoulli

/-- The running sums of a list, from `k` on. -/
def sumsFrom : ℕ → List ℕ → List ℕ
  | _, [] => []
  | k, c :: cs => (k + c) :: sumsFrom (k + c) cs

/-- The probability of independent `Bernoulli(p)` answers. -/
noncomputable def bitProb (p : ℝ) (cs : List ℕ) : ℝ := (cs.map (fun c => if c = 1 then p else 1 - p)).prod

/-- The answers of the generator to requests for a Bernoulli draw at the positions `q, q + 1, ...`. -/
def bitsFrom (p : ℝ) (u : ℕ → G.Seed) : ℕ → ℕ → List ℕ
  | _, 0 => []
  | q, k + 1 => (G.binom 1 p (u q)).toNat :: bitsFrom p u (q + 1) k

variable {G} {p : ℝ}

theorem sumsFrom_length : ∀ (cs : List ℕ) (k : ℕ), (sumsFrom k cs).length = cs.length
  | [], _ => rfl
  | c :: cs, k => by rw [sumsFrom, List.length_cons, sumsFrom_length, List.length_cons]

theorem sumsFrom_get : ∀ (cs : List ℕ) (k j : ℕ), j < cs.length → (sumsFrom k cs)[j]? = some (k + (cs.take (j + 1)).sum)
  | [], _, _, h => nomatch h
  | c :: cs, k, 0, _ => by simp [sumsFrom]
  | c :: cs, k, j + 1, h => by
    rw [sumsFrom, List.getElem?_cons_succ, sumsFrom_get cs _ _ (by simpa using h)]
    simp [add_assoc]

theorem sumsFrom_inj : ∀ (cs ds : List ℕ) (k : ℕ), sumsFrom k cs = sumsFrom k ds → cs = ds
  | [], [], _, _ => rfl
  | [], _ :: _, _, h => nomatch h
  | _ :: _, [], _, h => nomatch h
  | c :: cs, d :: ds, k, h => by
    rw [sumsFrom, sumsFrom] at h
    injection h with h1 h2
    have : c = d := by omega
    subst this
    rw [sumsFrom_inj cs ds _ h2]

theorem ties_sumsFrom (b : ℕ) : ∀ (cs : List ℕ) (k : ℕ), (∀ c ∈ cs, c ≤ 1) → ties (List.range' b (k + 1)) (sumsFrom (b + k) cs) = sumsFrom k cs
  | [], _, _ => rfl
  | c :: cs, k, h => by
    have hc := h c (by simp)
    have ih := ties_sumsFrom b cs (k + c) (fun x hx => h x (by simp [hx]))
    rw [sumsFrom, sumsFrom, ties]
    have hidx : (List.range' b (k + 1)).idxOf (b + k + c) = k + c := by
      have : c = 0 ∨ c = 1 := by omega
      rcases this with rfl | rfl
      · have h1 : k < (List.range' b (k + 1)).length := by simp
        have h2 : (List.range' b (k + 1))[k] = b + k + 0 := by simp
        rw [← h2, List.Nodup.idxOf_getElem List.nodup_range', add_zero]
      · rw [List.idxOf_eq_length (by rw [List.mem_range'_1]; omega)]
        simp
    have hseen : (if b + k + c ∈ List.range' b (k + 1) then List.range' b (k + 1) else List.range' b (k + 1) ++ [b + k + c]) = List.range' b (k + c + 1) := by
      have : c = 0 ∨ c = 1 := by omega
      rcases this with rfl | rfl
      · rw [if_pos (by rw [List.mem_range'_1]; omega)]
      · rw [if_neg (by rw [List.mem_range'_1]; omega), List.range'_1_concat (n := k + 1)]; congr 2
    rw [hidx, hseen, show b + k + c = b + (k + c) by omega, ih]

theorem bitsFrom_length (p : ℝ) (u : ℕ → G.Seed) : ∀ (k q : ℕ), (bitsFrom G p u q k).length = k
  | 0, _ => rfl
  | k + 1, q => by rw [bitsFrom, List.length_cons, bitsFrom_length]

theorem bitsFrom_get (p : ℝ) (u : ℕ → G.Seed) : ∀ (k q j : ℕ), j < k → (bitsFrom G p u q k)[j]? = some (G.binom 1 p (u (q + j))).toNat
  | 0, _, _, h => nomatch h
  | k + 1, q, 0, _ => rfl
  | k + 1, q, j + 1, h => by
    rw [bitsFrom, List.getElem?_cons_succ, bitsFrom_get p u k (q + 1) j (by omega)]
    congr 4; omega

theorem bitsFrom_le (p : ℝ) (u : ℕ → G.Seed) : ∀ (k q : ℕ), ∀ c ∈ bitsFrom G p u q k, c ≤ 1
  | 0, _, _, h => nomatch h
  | k + 1, q, c, h => by
    rcases List.mem_cons.1 h with rfl | h
    · have := (G.oracle_legal u).binom_le q 1 p (by omega)
      have : G.binom 1 p (u q) ≤ 1 := this
      omega
    · exact bitsFrom_le p u k _ c h

theorem bitsFrom_on : ∀ (cs : List ℕ) (q k : ℕ), G.On (Finset.Ico q (q + k)) (fun u => bitsFrom G p u q k = cs) := by
  intro cs q k u u' h
  have : ∀ k q, (∀ i ∈ Finset.Ico q (q + k), u i = u' i) → bitsFrom G p u q k = bitsFrom G p u' q k := by
    intro k
    induction k with
    | zero => intro q _; rfl
    | succ k ih =>
      intro q h
      rw [bitsFrom, bitsFrom, h q (by simp), ih (q + 1) fun i hi => h i (by simp at hi ⊢; omega)]
  dsimp only
  rw [this k q h]

theorem bitsFrom_set (c : ℕ) (cs : List ℕ) (q k : ℕ) : {u : ℕ → G.Seed | bitsFrom G p u q (k + 1) = c :: cs} =
    {u | u q ∈ (fun s => (G.binom 1 p s).toNat) ⁻¹' {c} ∧ bitsFrom G p u (q + 1) k = cs} := by
  ext u
  simp only [bitsFrom, List.cons.injEq, Set.mem_ofPred_eq, Set.mem_preimage, Set.mem_singleton_iff]

theorem measurable_bit : Measurable (fun s => (G.binom 1 p s).toNat) :=
  (measurable_from_top (f := Int.toNat)).comp (G.measurable_binom 1 p)

theorem measurableSet_bits : ∀ (cs : List ℕ) (q k : ℕ), MeasurableSet {u : ℕ → G.Seed | bitsFrom G p u q k = cs}
  | [], q, 0 => by simp [bitsFrom]
  | [], q, k + 1 => by simp [bitsFrom]
  | _ :: _, q, 0 => by simp [bitsFrom]
  | c :: cs, q, k + 1 => by
    rw [bitsFrom_set]
    exact MeasurableSet.inter (show MeasurableSet ((fun u : ℕ → G.Seed => u q) ⁻¹' ((fun s => (G.binom 1 p s).toNat) ⁻¹' {c})) from
      (measurable_pi_apply q) (measurable_bit (MeasurableSet.singleton c))) (measurableSet_bits cs _ _)

theorem prob_bit (hp : 0 ≤ p ∧ p ≤ 1) {c : ℕ} (hc : c ≤ 1) : G.ν.real ((fun s => (G.binom 1 p s).toNat) ⁻¹' {c}) = if c = 1 then p else 1 - p := by
  have h := G.binom_law 1 c p hp.1 hp.2
  have hset : {s | G.binom ((1 : ℕ) : ℤ) p s = (c : ℤ)} = (fun s => (G.binom 1 p s).toNat) ⁻¹' {c} := by
    ext s
    have h1 := (G.oracle_legal (fun _ => s)).binom_nonneg 0 1 p (by omega)
    have h1 : 0 ≤ G.binom 1 p s := h1
    simp only [Nat.cast_one, Set.mem_ofPred_eq, Set.mem_preimage, Set.mem_singleton_iff]
    omega
  rw [hset] at h
  rw [h]
  have : c = 0 ∨ c = 1 := by omega
  rcases this with rfl | rfl <;> simp

theorem prob_bits (hp : 0 ≤ p ∧ p ≤ 1) : ∀ (cs : List ℕ) (q : ℕ), (∀ c ∈ cs, c ≤ 1) → G.P.real {u : ℕ → G.Seed | bitsFrom G p u q cs.length = cs} = bitProb p cs
  | [], q, _ => by simp [bitsFrom, bitProb]
  | c :: cs, q, h => by
    rw [List.length_cons, bitsFrom_set, measureReal_def, RandGen.prob_on (S := {q}) (T := Finset.Ico (q + 1) (q + 1 + cs.length)) _
      ((measurable_pi_apply q) (measurable_bit (MeasurableSet.singleton c))) (measurableSet_bits cs _ _) _ (bitsFrom_on cs _ _), ENNReal.toReal_mul,
      ← measureReal_def, ← measureReal_def, prob_bits hp cs _ fun x hx => h x (by simp [hx]), bitProb, bitProb, List.map_cons, List.prod_cons]
    · congr 1
      rw [measureReal_def, RandGen.prob_seed q (measurable_bit (MeasurableSet.singleton c)), ← measureReal_def]
      exact prob_bit hp (h c (by simp))
    · simp
    · intro u u' h
      dsimp only
      rw [h q (by simp)]

theorem BBer.sticks {s : BBer ℝ × ℕ} (hp : 0 ≤ s.1.p ∧ s.1.p ≤ 1) (ha : 0 < s.1.alpha) (hd : s.1.d = []) (hne : s.1.bernoullis ≠ []) {n : ℕ} (hn : 1 ≤ n) (u : ℕ → G.Seed) :
    (BBer.random (.int n) (G.oracle u) s).2.1.v = (sumsFrom 0 (bitsFrom G s.1.p u s.2 n)).map (fun j => G.beta 1 s.1.alpha (u (s.2 + n + j))) := by
  obtain ⟨r, t, h1, ⟨h2, h3, h4, h5, h6, h7, -⟩, h8⟩ := wp_total (wp_mono (wp_and (BBer.random_unfitted_ok (G.oracle_legal u) s hp ha hd hne hn (size := .int n) rfl)
    (BBer.random_path (ω := G.oracle u) s hd (n := n) (size := .int n) rfl)) (fun _ _ h => h) (fun _ _ h => h.1))
  rw [h1]
  have hl : t.1.v.length = n := by rw [← h4, h2.1]
  apply List.ext_getElem?
  intro j
  by_cases hj : j < n
  · rw [h7 j hj, List.getElem?_map, sumsFrom_get _ _ _ (by rw [bitsFrom_length]; exact hj)]
    have : (t.1.bernoullis.take (j + 1)).sum.toNat = 0 + ((bitsFrom G s.1.p u s.2 n).take (j + 1)).sum := by
      have hb : bitsFrom G s.1.p u s.2 n = t.1.bernoullis.map Int.toNat := by
        apply List.ext_getElem?
        intro i
        by_cases hi : i < n
        · rw [bitsFrom_get _ _ _ _ _ hi, List.getElem?_map, h8 i hi]; rfl
        · rw [List.getElem?_eq_none (by rw [bitsFrom_length]; omega), List.getElem?_eq_none (by rw [List.length_map]; omega)]
      rw [hb, zero_add, ← List.map_take]
      have hb' : Bits (t.1.bernoullis.take (j + 1)) := fun z hz => h6 z (List.mem_of_mem_take hz)
      generalize t.1.bernoullis.take (j + 1) = l at hb'
      have : l.sum = ((l.map Int.toNat).sum : ℕ) := by
        induction l with
        | nil => rfl
        | cons x l ih =>
          have := hb' x (by simp)
          rw [List.sum_cons, List.map_cons, List.sum_cons, ih fun z hz => hb' z (by simp [hz])]
          push_cast
          omega
      omega
    rw [this]
    rfl
  · dsimp only
    rw [List.getElem?_eq_none (by omega), List.getElem?_eq_none (by rw [List.length_map, sumsFrom_length, bitsFrom_length]; omega)]

theorem sums_on (q n : ℕ) (x : List ℕ) : G.On (Finset.Ico q (q + n)) (fun u => sumsFrom 0 (bitsFrom G p u q n) = x) := by
  intro u u' h
  have := bitsFrom_on (G := G) (p := p) (bitsFrom G p u' q n) q n u u' h
  simp only [eq_iff_iff, iff_true] at this
  dsimp only
  rw [this]

theorem sums_meas (q n : ℕ) (x : List ℕ) : MeasurableSet {u : ℕ → G.Seed | sumsFrom 0 (bitsFrom G p u q n) = x} := by
  have : {u : ℕ → G.Seed | sumsFrom 0 (bitsFrom G p u q n) = x} = ⋃ cs : {cs // sumsFrom 0 cs = x}, {u | bitsFrom G p u q n = cs} := by
    ext u
    simp
  rw [this]
  exact MeasurableSet.iUnion fun cs => measurableSet_bits _ _ _

variable (G)

/-- Missing: histories with a call `random(0)`, after which the call fails (C18). -/
theorem C84_betaBernoulli_partial (hops : ∀ op ∈ ops, op.notRandomZero) (hp : 0 ≤ p ∧ p ≤ 1) (ha : 0 < alpha) {s : BBer ℝ × ℕ}
    (hs : BBer.cls.run log ω (BBer.init p alpha, pos) ops = s) (hd : s.1.d = []) {n j : ℕ} (hj : j < n) :
    G.attrLaw (BBer.random (.int n)) s (fun t => entryOf j t.v) = betaMeasure 1 alpha := by
  have e1 := BBer.reach_hyper (ω := ω) log pos ops p alpha
  have hb := BBer.reach_bern (ω := ω) log pos p alpha ops hops
  rw [hs] at e1 hb
  rw [← G.beta_law 1 alpha one_pos ha]
  refine (RandGen.law_path (G := G) (X := fun u => sumsFrom 0 (bitsFrom G p u s.2 n)) (sums_meas s.2 n) (sums_on s.2 n) (G.measurable_beta 1 alpha)
    (e := fun x => s.2 + n + (x[j]?).getD 0) (fun x => by simp) fun u => ?_).2
  have h := BBer.sticks (G := G) (by rw [e1.1]; exact hp) (by rw [e1.2]; exact ha) hd hb (show 1 ≤ n by omega) u
  rw [e1.1, e1.2] at h
  have hl : j < (sumsFrom 0 (bitsFrom G p u s.2 n)).length := by rw [sumsFrom_length, bitsFrom_length]; exact hj
  simp only [entryOf, h, List.getElem?_map, List.getElem?_eq_getElem hl]
  rfl

theorem sumsFrom_le : ∀ (cs : List ℕ) (k : ℕ), (∀ c ∈ cs, c ≤ 1) → ∀ x ∈ sumsFrom k cs, x ≤ k + cs.length
  | [], _, _, x, h => nomatch h
  | c :: cs, k, hc, x, h => by
    have h1 := hc c (by simp)
    rw [List.length_cons]
    rcases List.mem_cons.1 h with rfl | h
    · omega
    · have := sumsFrom_le cs (k + c) (fun y hy => hc y (by simp [hy])) x h
      omega

theorem blocks_sumsFrom : ∀ (cs : List ℕ) (k : ℕ) (c : List ℕ), c.length = k + 1 → (∀ x ∈ cs, x ≤ 1) → (blocks c (sumsFrom k cs)).length = k + 1 + cs.sum
  | [], k, c, h, _ => by simp [blocks, sumsFrom, h]
  | x :: cs, k, c, h, hx => by
    have h1 := hx x (by simp)
    rw [sumsFrom, blocks, blocks_sumsFrom cs (k + x) _ _ fun y hy => hx y (by simp [hy]), List.sum_cons]
    · omega
    · rw [length_seat]; split <;> omega

/-- The changes after the first stick are `cs`; the number of values is one more than the number of changes.  Missing: histories with a call `random(0)`. -/
theorem C84_betaBernoulli_joint_partial (hops : ∀ op ∈ ops, op.notRandomZero) (hp : 0 ≤ p ∧ p ≤ 1) (ha : 0 < alpha) {s : BBer ℝ × ℕ}
    (hs : BBer.cls.run log ω (BBer.init p alpha, pos) ops = s) (hd : s.1.d = []) {cs : List ℕ} (hcs : ∀ c ∈ cs, c ≤ 1) 
    {B : Set (Fin (cs.sum + 1) → ℝ)} (hB : MeasurableSet B) :
    G.P.real {u | ties [] (BBer.random (.int (cs.length + 1 : ℕ)) (G.oracle u) s).2.1.v = 0 :: sumsFrom 0 cs ∧
        vec (cs.sum + 1) (appear [] (BBer.random (.int (cs.length + 1 : ℕ)) (G.oracle u) s).2.1.v) ∈ B} =
      bitProb p cs * (Measure.pi (fun _ : Fin (cs.sum + 1) => betaMeasure 1 alpha)).real B := by
  have e1 := BBer.reach_hyper (ω := ω) log pos ops p alpha
  have hb := BBer.reach_bern (ω := ω) log pos p alpha ops hops
  rw [hs] at e1 hb
  set n := cs.length + 1 with hn
  have h := RandGen.prob_ties (G := G) ha (X := fun u => sumsFrom 0 (bitsFrom G p u s.2 n)) (sums_meas s.2 n) (sums_on s.2 n)
    (A := {x | ∀ j ∈ x, j ≤ n}) (fun u j hj => by
      have := sumsFrom_le _ 0 (bitsFrom_le p u n s.2) j hj
      rw [bitsFrom_length] at this
      omega) (L := fun x => List.range' (s.2 + n) (n + 1))
    (fun x hx j hj => by
      have := hx j hj
      rw [List.length_range']
      omega)
    (fun x => List.nodup_range') (fun x i hi => by
      rw [List.mem_range'_1] at hi
      rw [Finset.mem_Ico]
      omega) (q := s.2)
    (V := fun u => (BBer.random (.int n) (G.oracle u) s).2.1.v) (fun u => by
      have h := BBer.sticks (G := G) (by rw [e1.1]; exact hp) (by rw [e1.2]; exact ha) hd hb (show 1 ≤ n by omega) u
      rw [e1.1, e1.2] at h
      rw [h]
      refine List.map_congr_left fun j hj => ?_
      have := sumsFrom_le _ 0 (bitsFrom_le p u n s.2) j hj
      rw [bitsFrom_length] at this
      have h2 : j < (List.range' (s.2 + n) (n + 1)).length := by rw [List.length_range']; omega
      rw [List.getElem?_eq_getElem h2, Option.getD_some]
      simp) (0 :: sumsFrom 0 cs) (by rw [blocks, blocks_sumsFrom cs 0 _ rfl hcs]; omega) hB
  rw [h]
  congr 1
  rw [← prob_bits (G := G) hp cs (s.2 + 1) hcs]
  congr 1
  ext u
  simp only [Set.mem_ofPred_eq]
  rw [hn, bitsFrom, sumsFrom, ties]
  have hle := bitsFrom_le p u cs.length (s.2 + 1)
  have ht := ties_sumsFrom (0 + (G.binom 1 p (u s.2)).toNat) (bitsFrom G p u (s.2 + 1) cs.length) 0 hle
  rw [add_zero] at ht
  rw [if_neg (by simp), List.nil_append, show ([0 + (G.binom 1 p (u s.2)).toNat] : List ℕ) = List.range' (0 + (G.binom 1 p (u s.2)).toNat) (0 + 1) from rfl, ht]
  simp only [List.idxOf_nil, List.cons.injEq, true_and]
  exact ⟨fun h => sumsFrom_inj _ _ _ h, fun h => by rw [h]⟩

end betaBernoulli

/-! Non-vacuity: there is such a generator, and fresh objects meet the hypotheses; `0, 1, 0` is a pattern of ties of three sticks. -/
example : Nonempty RandGen := RandGen.nonempty
example : (BID.init (1 : ℝ) 2).d = [] ∧ (BBer.init (1/2 : ℝ) 1).d = [] ∧ (BBin.init 3 (1 : ℝ)).d = [] := ⟨rfl, rfl, rfl⟩
example : [0, 1, 0] ∈ all 3 [] := by decide
example : 0 :: sumsFrom 0 [0, 1, 0] = [0, 0, 1, 1] := by decide
/-- Two sticks of `BetaInDirichlet` agree with probability `1 / (1 + a)`. -/
example (a : ℝ) : seqProb a [] [0, 0] = a / a * (1 / (a + 1)) := by simp [seqProb, prob, seat]

end Verif
