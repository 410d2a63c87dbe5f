import Verif.Props.C73
import Verif.Lemmas.PathLaw
import Verif.Lemmas.Law

/-! # The stream positions used by a draw of an unfitted `BetaInDirichlet`, and the law of its choices -/

set_option linter.unusedSectionVars false
set_option linter.unnecessarySeqFocus false

namespace Verif
open Crp Spec MeasureTheory ProbabilityTheory

/-- The stream position after a choice: a new inner stick uses one more answer. -/
def nextPos (c : List ℕ) (q j : ℕ) : ℕ := if j < c.length then q + 1 else q + 2

/-- The choices of the urn with counts `c` that starts at stream position `q`. -/
noncomputable def urnPath (ω : Oracle ℝ) (a : ℝ) : List ℕ → ℕ → ℕ → List ℕ
  | _, _, 0 => []
  | c, q, k + 1 => ω.choice q (BID.urn c a) :: urnPath ω a (seat c (ω.choice q (BID.urn c a))) (nextPos c q (ω.choice q (BID.urn c a))) k

/-- The stream positions of the new inner sticks for given choices. -/
def births : List ℕ → ℕ → List ℕ → List ℕ
  | _, _, [] => []
  | c, q, j :: js => (if j < c.length then [] else [q + 1]) ++ births (seat c j) (nextPos c q j) js

/-- The stream positions of the choices. -/
def choicePos : List ℕ → ℕ → List ℕ → List ℕ
  | _, _, [] => []
  | c, q, j :: js => q :: choicePos (seat c j) (nextPos c q j) js

theorem urnPath_length (ω : Oracle ℝ) (a : ℝ) : ∀ (k : ℕ) (c : List ℕ) (q : ℕ), (urnPath ω a c q k).length = k
  | 0, _, _ => rfl
  | k + 1, c, q => by rw [urnPath, List.length_cons, urnPath_length]

theorem lt_nextPos (c : List ℕ) (q j : ℕ) : q < nextPos c q j := by unfold nextPos; split <;> omega

theorem le_choicePos : ∀ (js c : List ℕ) (q : ℕ), ∀ x ∈ choicePos c q js, q ≤ x
  | [], _, _, x, h => nomatch h
  | j :: js, c, q, x, h => by
    rcases List.mem_cons.1 h with rfl | h
    · exact le_rfl
    · exact (lt_nextPos c q j).le.trans (le_choicePos js _ _ x h)

theorem le_births : ∀ (js c : List ℕ) (q : ℕ), ∀ x ∈ births c q js, q < x
  | [], _, _, x, h => nomatch h
  | j :: js, c, q, x, h => by
    rcases List.mem_append.1 h with h | h
    · split at h
      · nomatch h
      · rw [List.mem_singleton] at h; omega
    · exact (lt_nextPos c q j).trans (le_births js _ _ x h)

theorem births_lt_next {c : List ℕ} {q j x : ℕ} (h : x ∈ (if j < c.length then [] else [q + 1])) : x < nextPos c q j := by
  unfold nextPos
  split at h
  · nomatch h
  · rename_i hc; rw [List.mem_singleton] at h; rw [if_neg hc]; omega

theorem births_choicePos : ∀ (js c : List ℕ) (q : ℕ), ∀ x ∈ births c q js, x ∉ choicePos c q js
  | [], _, _, x, h => nomatch h
  | j :: js, c, q, x, h => by
    have hq := le_births _ _ _ x h
    rw [choicePos, List.mem_cons, not_or]
    refine ⟨by omega, ?_⟩
    rcases List.mem_append.1 h with h | h
    · intro hm
      exact absurd (births_lt_next h) (not_lt.2 (le_choicePos _ _ _ x hm))
    · exact births_choicePos js _ _ x h

theorem nodup_births : ∀ (js c : List ℕ) (q : ℕ), (births c q js).Nodup
  | [], _, _ => List.nodup_nil
  | j :: js, c, q => by
    refine List.Nodup.append (by split <;> simp) (nodup_births js _ _) fun x h1 h2 => ?_
    have := births_lt_next h1
    have := le_births _ _ _ x h2
    omega

theorem births_length : ∀ (js c : List ℕ) (q : ℕ), c.length + (births c q js).length = (blocks c js).length
  | [], _, _ => rfl
  | j :: js, c, q => by
    rw [births, blocks, ← births_length js (seat c j) (nextPos c q j), length_seat, List.length_append]
    split <;> simp; omega

section
variable {ω : Oracle ℝ}

theorem growOne_path {a alpha : ℝ} {c : List ℕ} (s : BID ℝ × ℕ) (h : Urn ω a alpha c s.1) :
    wp ω BID.growOne (fun _ t => t.2 = nextPos c s.2 (ω.choice s.2 (BID.urn c a)) ∧ t.1.dBase = s.1.dBase ++ [ω.choice s.2 (BID.urn c a)] ∧
      t.1.vBase = s.1.vBase ++ (if ω.choice s.2 (BID.urn c a) < c.length then [] else [s.2 + 1]).map (fun i => ω.beta i 1 alpha)) (fun _ _ => True) s := by
  unfold BID.growOne
  rw [wp_bind, wp_self, wp_ite, h.ha, h.count]
  refine ⟨fun _ => trivial, fun _ => ?_⟩
  rw [wp_bind, wp_choice]
  refine ⟨fun _ => trivial, fun _ => ?_⟩
  generalize ω.choice s.2 (BID.urn c a) = j
  rw [wp_bind]
  unfold BID.useStick nextPos
  rw [wp_bind, wp_self, wp_ite]
  refine ⟨fun hlt => ?_, fun hlt => ?_⟩
  · dsimp only at hlt
    rw [h.len] at hlt
    rw [wp_bind, wp_lift]
    refine ⟨fun _ _ => ?_, fun _ _ => trivial⟩
    rw [wp_bind, wp_assign, wp_assign, wp_assign]
    simp [hlt]
  · dsimp only at hlt
    rw [h.len] at hlt
    rw [wp_bind, wp_beta, h.hal]
    refine ⟨fun _ => trivial, fun _ _ => ?_⟩
    rw [wp_bind, wp_assign, wp_bind, wp_assign, wp_assign, wp_assign]
    simp [hlt]

theorem grow_path (hω : ω.Legal) {a alpha : ℝ} (ha : 0 ≤ a) (hal : 0 < alpha) : ∀ (k : ℕ) (c : List ℕ) (s : BID ℝ × ℕ), Urn ω a alpha c s.1 →
    wp ω (BID.grow k) (fun _ t => t.1.dBase = s.1.dBase ++ urnPath ω a c s.2 k ∧
      t.1.vBase = s.1.vBase ++ (births c s.2 (urnPath ω a c s.2 k)).map (fun i => ω.beta i 1 alpha)) (fun _ _ => True) s
  | 0, c, s, h => by rw [BID.grow, wp_pure]; simp [urnPath, births]
  | k + 1, c, s, h => by
    rw [BID.grow, wp_bind]
    refine wp_mono (wp_and (growOne_urn hω ha hal s h) (growOne_path s h)) ?_ (fun _ _ h => trivial)
    rintro _ s1 ⟨⟨j, _, _, h1, _, _, hd1⟩, h2, h3, h4⟩
    have hj : j = ω.choice s.2 (BID.urn c a) := by
      rw [h3] at hd1
      have := List.append_cancel_left hd1
      injection this with this
      exact this.symm
    refine wp_mono (grow_path hω ha hal k _ s1 h1) ?_ (fun _ _ h => h)
    rintro _ s2 ⟨h5, h6⟩
    rw [urnPath, births, h5, h6, h3, h4, h2, hj]
    simp
/-- A draw without data, from any state: the sticks are the inner sticks chosen by the urn. -/
theorem BID.random_path (F : SpecFun ℝ) (hω : ω.Legal) (s : BID ℝ × ℕ) (hd : s.1.d = []) (ha : 0 ≤ s.1.a) (hal : 0 < s.1.alpha) (n : ℕ) :
    ∃ w t, BID.random F (.int n) ω s = (.ok w, t) ∧ IsStick t.1.v w ∧
      t.1.v = (urnPath ω s.1.a [1] (s.2 + 1) n).map (fun j => ω.beta (((s.2 :: births [1] (s.2 + 1) (urnPath ω s.1.a [1] (s.2 + 1) n))[j]?).getD s.2) 1 s.1.alpha) := by
  suffices h : wp ω (BID.random F (.int n)) (fun w t => IsStick t.1.v w ∧
      t.1.v = (urnPath ω s.1.a [1] (s.2 + 1) n).map (fun j => ω.beta (((s.2 :: births [1] (s.2 + 1) (urnPath ω s.1.a [1] (s.2 + 1) n))[j]?).getD s.2) 1 s.1.alpha))
      (fun _ _ => False) s from wp_total h
  unfold BID.random
  rw [wp_bind, wp_self, wp_ite]
  refine ⟨fun h => (nomatch h.1), fun _ => ?_⟩
  dsimp only
  rw [wp_bind, wp_assign, wp_ite]
  refine ⟨fun _ => ?_, fun h => absurd (by rw [hd]; rfl) h⟩
  rw [wp_bind]
  unfold BID.complete
  rw [wp_bind, wp_self, wp_bind, wp_whenM]
  refine ⟨fun _ => ?_, fun h => absurd rfl h⟩
  rw [wp_bind, wp_betaRep]
  refine ⟨fun h => ?_, fun _ _ _ => ?_⟩
  · rcases h with h | h | h
    · linarith
    · exact absurd hal (not_lt.2 h)
    · omega
  rw [wp_bind, wp_assign, wp_assign]
  simp only [PySize.toInt?]
  rw [wp_bind, wp_self, wp_bind]
  have hu : Urn ω s.1.a s.1.alpha [1] (({ { s.1 with v := [], vBase := M.betaValues ω s.2 (List.replicate (1 : ℤ).toNat (1, s.1.alpha)) } with countBase := [1] } : BID ℝ)) :=
    ⟨rfl, rfl, rfl, by simp [M.betaValues], by simp, by
      intro x hx
      simp [M.betaValues] at hx
      exact ⟨_, hx⟩⟩
  refine wp_mono (wp_and (grow_urn hω ha hal _ [1] _ hu) (grow_path hω ha hal _ [1] _ hu)) ?_ (fun _ _ h => h.1)
  rintro _ t ⟨⟨js, hlen, _, _, _, ⟨xs, hv, hm⟩, hd1⟩, hd2, hvb⟩
  rw [wp_assign, wp_bind, wp_self, wp_pure]
  refine ⟨stickWeights_isStick _, ?_⟩
  have hjs : js = urnPath ω s.1.a [1] (s.2 + 1) n := by
    rw [hd1] at hd2
    simpa using List.append_cancel_left hd2
  dsimp only at hv hm hvb ⊢
  rw [← hjs, hv, List.nil_append]
  have hx : xs = (js.map (fun j => t.1.vBase[j]?)).map (fun o => o.getD 0) := by rw [hm]; simp
  have hb : t.1.vBase = (s.2 :: births [1] (s.2 + 1) js).map (fun i => ω.beta i 1 s.1.alpha) := by
    rw [hvb, hjs]
    simp [M.betaValues]
  have hlt : ∀ j ∈ js, j < t.1.vBase.length := by
    intro j hj
    by_contra hc
    have : (none : Option ℝ) ∈ js.map (fun j => t.1.vBase[j]?) := List.mem_map.2 ⟨j, hj, List.getElem?_eq_none (not_lt.1 hc)⟩
    rw [hm] at this
    simp at this
  rw [hx, List.map_map]
  refine List.map_congr_left fun j hj => ?_
  have := hlt j hj
  rw [hb, List.length_map] at this
  simp only [Function.comp, hb, List.getElem?_map, List.getElem?_eq_getElem this]
  rfl
end

theorem mem_all_cons {n : ℕ} {c js : List ℕ} {j : ℕ} : j :: js ∈ all (n + 1) c ↔ j ≤ c.length ∧ js ∈ all n (seat c j) := by
  simp only [all, List.mem_flatMap, List.mem_range, List.mem_map]
  constructor
  · rintro ⟨i, hi, ks, hk, h⟩
    injection h with h1 h2
    subst h1; subst h2
    exact ⟨by omega, hk⟩
  · rintro ⟨h1, h2⟩
    exact ⟨j, by omega, js, h2, rfl⟩

theorem nodup_all : ∀ (n : ℕ) (c : List ℕ), (all n c).Nodup
  | 0, _ => by simp [all]
  | n + 1, c => by
    rw [all, List.nodup_flatMap]
    refine ⟨fun j _ => (nodup_all n _).map (List.cons_injective), ?_⟩
    refine List.Pairwise.imp ?_ List.nodup_range
    intro i j hij l h1 h2
    obtain ⟨x, _, rfl⟩ := List.mem_map.1 h1
    obtain ⟨y, _, h⟩ := List.mem_map.1 h2
    injection h with h
    exact hij h.symm

theorem urnPath_mem_all {ω : Oracle ℝ} (hω : ω.Legal) {a : ℝ} (ha : 0 ≤ a) : ∀ (k : ℕ) (c : List ℕ) (q : ℕ), 0 < c.sum → urnPath ω a c q k ∈ all k c
  | 0, _, _, _ => by simp [urnPath, all]
  | k + 1, c, q, hc => by
    obtain ⟨x0, hx0, _⟩ := hω.choice_pos q (BID.urn c a) (urn_nonneg ha) (urn_sum_pos ha hc)
    have := (List.getElem?_eq_some_iff.1 hx0).1
    rw [urn_length] at this
    rw [urnPath, mem_all_cons]
    exact ⟨by omega, urnPath_mem_all hω ha k _ _ (by rw [sum_seat]; omega)⟩

theorem blocks_length_le : ∀ (js c : List ℕ), c.length ≤ (blocks c js).length
  | [], _ => le_rfl
  | j :: js, c => by
    rw [blocks]
    refine le_trans ?_ (blocks_length_le js _)
    rw [length_seat]; split <;> omega

theorem mem_all_lt : ∀ (n : ℕ) (js c : List ℕ), js ∈ all n c → ∀ j ∈ js, j < (blocks c js).length
  | 0, js, c, h, j, hj => by simp [all] at h; subst h; nomatch hj
  | n + 1, [], c, h, j, hj => nomatch hj
  | n + 1, i :: js, c, h, j, hj => by
    rw [mem_all_cons] at h
    rw [blocks]
    rcases List.mem_cons.1 hj with rfl | hj
    · refine lt_of_lt_of_le ?_ (blocks_length_le js _)
      rw [length_seat]; split <;> omega
    · exact mem_all_lt n js _ h.2 j hj

theorem ties_map {K L : Type} [DecidableEq K] [DecidableEq L] (f : K → L) : ∀ (xs seen : List K), (∀ x ∈ seen ++ xs, ∀ y ∈ seen ++ xs, f x = f y → x = y) →
    ties (seen.map f) (xs.map f) = ties seen xs ∧ appear (seen.map f) (xs.map f) = (appear seen xs).map f
  | [], seen, _ => ⟨rfl, rfl⟩
  | x :: xs, seen, h => by
    have hmem : f x ∈ seen.map f ↔ x ∈ seen := by
      rw [List.mem_map]
      constructor
      · rintro ⟨y, hy, he⟩
        rwa [← h y (by simp [hy]) x (by simp) he]
      · exact fun hx => ⟨x, hx, rfl⟩
    have hidx : (seen.map f).idxOf (f x) = seen.idxOf x := by
      clear hmem
      induction seen with
      | nil => rfl
      | cons y seen ih =>
        rw [List.map_cons, List.idxOf_cons, List.idxOf_cons, ih fun a ha b hb => h a (by simp at ha ⊢; tauto) b (by simp at hb ⊢; tauto)]
        by_cases hy : y = x
        · simp [hy]
        · have : ¬ f y = f x := fun e => hy (h y (by simp) x (by simp) e)
          rw [beq_false_of_ne hy, beq_false_of_ne this]
    have hs : (if f x ∈ seen.map f then seen.map f else seen.map f ++ [f x]) = (if x ∈ seen then seen else seen ++ [x]).map f := by
      by_cases hx : x ∈ seen
      · rw [if_pos hx, if_pos (hmem.2 hx)]
      · rw [if_neg hx, if_neg (fun e => hx (hmem.1 e))]; simp
    have ih := ties_map f xs (if x ∈ seen then seen else seen ++ [x]) fun a ha b hb => by
      refine h a ?_ b ?_
      · revert ha; split <;> simp <;> tauto
      · revert hb; split <;> simp <;> tauto
    rw [List.map_cons, ties, ties, appear, appear, hs, hidx, ih.1, ih.2]
    exact ⟨rfl, rfl⟩

namespace RandGen
variable {G : RandGen} {a : ℝ}

theorem urnPath_on : ∀ (js c : List ℕ) (q : ℕ), G.On (choicePos c q js).toFinset (fun u => urnPath (G.oracle u) a c q js.length = js)
  | [], c, q => fun u u' _ => by simp [urnPath]
  | j :: js, c, q => fun u u' h => by
    have hq : u q = u' q := h q (by simp [choicePos])
    have e : ∀ u : ℕ → G.Seed, (G.oracle u).choice q (BID.urn c a) = G.choice (BID.urn c a) (u q) := fun _ => rfl
    simp only [List.length_cons, urnPath, List.cons.injEq, e, hq, eq_iff_iff]
    refine and_congr_right fun hj => ?_
    rw [hj]
    have := urnPath_on js (seat c j) (nextPos c q j) u u' fun k hk => h k (by simp only [choicePos, List.mem_toFinset, List.mem_cons] at hk ⊢; exact .inr hk)
    exact iff_of_eq this

theorem urnPath_set (j : ℕ) (js c : List ℕ) (q : ℕ) : {u : ℕ → G.Seed | urnPath (G.oracle u) a c q (j :: js).length = j :: js} =
    {u | u q ∈ G.choice (BID.urn c a) ⁻¹' {j} ∧ urnPath (G.oracle u) a (seat c j) (nextPos c q j) js.length = js} := by
  ext u
  have e : (G.oracle u).choice q (BID.urn c a) = G.choice (BID.urn c a) (u q) := rfl
  simp only [List.length_cons, urnPath, List.cons.injEq, e, Set.mem_ofPred_eq, Set.mem_preimage, Set.mem_singleton_iff]
  refine and_congr_right fun hj => ?_
  rw [hj]

theorem measurableSet_urnPath : ∀ (js c : List ℕ) (q : ℕ), MeasurableSet {u : ℕ → G.Seed | urnPath (G.oracle u) a c q js.length = js}
  | [], c, q => by simp [urnPath]
  | j :: js, c, q => by
    rw [urnPath_set]
    exact MeasurableSet.inter (show MeasurableSet ((fun u : ℕ → G.Seed => u q) ⁻¹' (G.choice (BID.urn c a) ⁻¹' {j})) from
      (measurable_pi_apply q) (G.choice_meas _ (MeasurableSet.singleton j))) (measurableSet_urnPath js _ _)

theorem choiceProb_urn {c : List ℕ} (ha : 0 ≤ a) (hc : 0 < c.sum) {j : ℕ} (hj : j ≤ c.length) : choiceProb (BID.urn c a) j = Crp.prob a c j := by
  have hpos : 0 < a + ((c.sum : ℕ) : ℝ) := by
    have : (0 : ℝ) < ((c.sum : ℕ) : ℝ) := by exact_mod_cast hc
    linarith
  have : (BID.urn c a).sum = 1 := by
    unfold BID.urn
    have hs : (c.map (fun (c : ℕ) => (c : ℝ)) ++ [a]).sum = a + ((c.sum : ℕ) : ℝ) := by
      rw [List.sum_append, ← Nat.cast_list_sum]; simp [add_comm]
    simp only [hs, div_eq_mul_inv]
    rw [List.sum_map_mul_right, List.map_id', hs, mul_inv_cancel₀ hpos.ne']
  rw [choiceProb, this, urn_get hj]
  simp

/-- The choices have the law of the urn. -/
theorem prob_urnPath (ha : 0 ≤ a) : ∀ (js c : List ℕ) (q : ℕ), 0 < c.sum → js ∈ all js.length c →
    G.P.real {u : ℕ → G.Seed | urnPath (G.oracle u) a c q js.length = js} = seqProb a c js
  | [], c, q, _, _ => by simp [urnPath, seqProb]
  | j :: js, c, q, hc, h => by
    rw [List.length_cons, mem_all_cons] at h
    rw [urnPath_set, measureReal_def, prob_on (S := {q}) (T := (choicePos (seat c j) (nextPos c q j) js).toFinset) _
      ((measurable_pi_apply q) (G.choice_meas _ (MeasurableSet.singleton j))) (measurableSet_urnPath js _ _) _ (urnPath_on js _ _), ENNReal.toReal_mul,
      ← measureReal_def, ← measureReal_def, prob_urnPath ha js _ _ (by rw [sum_seat]; omega) h.2, seqProb]
    · congr 1
      rw [measureReal_def, prob_seed q (G.choice_meas _ (MeasurableSet.singleton j)), ← measureReal_def]
      exact (G.choice_law _ j (urn_nonneg ha) (urn_sum_pos ha hc)).trans (choiceProb_urn ha hc h.1)
    · rw [Finset.disjoint_singleton_left, List.mem_toFinset]
      intro hm
      have := le_choicePos _ _ _ _ hm
      have := lt_nextPos c q j
      omega
    · intro u u' h
      dsimp only
      rw [h q (by simp)]

/-- The law of sticks that share values: `X` says which value each stick has, and the values are Beta draws at the stream positions `L`. -/
theorem prob_ties {alpha : ℝ} (hal : 0 < alpha) {X : (ℕ → G.Seed) → List ℕ} {S : List ℕ → Finset ℕ} (hX : ∀ x, MeasurableSet {u | X u = x})
    (hS : ∀ x, G.On (S x) (fun u => X u = x)) {A : Set (List ℕ)} (hA : ∀ u, X u ∈ A) {L : List ℕ → List ℕ} (hL : ∀ x ∈ A, ∀ j ∈ x, j < (L x).length)
    (hnd : ∀ x, (L x).Nodup) (hdis : ∀ x, ∀ i ∈ L x, i ∉ S x) {q : ℕ} {V : (ℕ → G.Seed) → List ℝ}
    (hV : ∀ u, V u = (X u).map (fun j => G.beta 1 alpha (u (((L (X u))[j]?).getD q)))) (js : List ℕ) {m : ℕ} (hm : m = (blocks [] js).length)
    {B : Set (Fin m → ℝ)} (hB : MeasurableSet B) :
    G.P.real {u | ties [] (V u) = js ∧ vec m (appear [] (V u)) ∈ B} =
      G.P.real {u | ties [] (X u) = js} * (betaSticks (fun _ : Fin m => (1, alpha))).real B := by
  set T : Set (List ℕ) := {x | x ∈ A ∧ ties [] x = js} with hT
  have hlen : ∀ x : List ℕ, ties [] x = js → (appear [] x).length = m := by
    intro x hx
    have h := blocks_ties x [] (fun _ => 0) List.nodup_nil (fun _ _ => rfl)
    rw [List.map_nil, hx] at h
    rw [hm, h, List.length_map]
  have happ : ∀ x ∈ A, ∀ j ∈ appear [] x, j < (L x).length := fun x hx j hj => hL x hx j (by simpa [mem_appear] using hj)
  let e : List ℕ → Fin m → ℕ := fun x i => ((L x)[((appear [] x)[(i : ℕ)]?).getD 0]?).getD q
  have hget : ∀ x ∈ T, ∀ i : Fin m, ∃ j, (appear [] x)[(i : ℕ)]? = some j ∧ ∃ h : j < (L x).length, e x i = (L x)[j] := by
    intro x hx i
    have h1 : (i : ℕ) < (appear [] x).length := by rw [hlen x hx.2]; exact i.2
    have h2 := happ x hx.1 _ (List.getElem_mem h1)
    refine ⟨_, List.getElem?_eq_getElem h1, h2, ?_⟩
    simp only [e, List.getElem?_eq_getElem h1, Option.getD_some, List.getElem?_eq_getElem h2]
  have hinj : ∀ x ∈ T, Function.Injective (e x) := by
    intro x hx i k hik
    obtain ⟨j1, h1, h2, h3⟩ := hget x hx i
    obtain ⟨j2, h4, h5, h6⟩ := hget x hx k
    rw [h3, h6] at hik
    have := (hnd x).getElem_inj_iff.1 hik
    rw [← this, ← h1] at h4
    have hnd' := nodup_appear x ([] : List ℕ) List.nodup_nil
    have hi : (i : ℕ) < (appear [] x).length := by rw [hlen x hx.2]; exact i.2
    have hk : (k : ℕ) < (appear [] x).length := by rw [hlen x hx.2]; exact k.2
    rw [List.getElem?_eq_getElem hk, List.getElem?_eq_getElem hi] at h4
    injection h4 with h4
    exact Fin.ext (hnd'.getElem_inj_iff.1 h4).symm
  have hdisj : ∀ x ∈ T, ∀ i, e x i ∉ S x := by
    intro x hx i
    obtain ⟨j, _, h2, h3⟩ := hget x hx i
    rw [h3]
    exact hdis x _ (List.getElem_mem h2)
  have hmb : Measurable (fun (g : Fin m → G.Seed) i => G.beta 1 alpha (g i)) := measurable_pi_lambda _ fun i => (G.measurable_beta _ _).comp (measurable_pi_apply i)
  have hp := (prob_path (G := G) hX hS T hinj hdisj (hmb hB)).2
  have hpi : Measure.pi (fun _ : Fin m => G.ν) ((fun (g : Fin m → G.Seed) i => G.beta 1 alpha (g i)) ⁻¹' B) = betaSticks (fun _ : Fin m => (1, alpha)) B := by
    rw [← G.law_sticks (e := id) Function.injective_id (f := fun _ : Fin m => (1, alpha)) (fun _ => ⟨one_pos, hal⟩), ← map_seeds (e := fun i : Fin m => (i : ℕ)) Fin.val_injective,
      Measure.map_apply (measurable_pi_lambda _ fun i : Fin m => measurable_pi_apply (i : ℕ)) (hmb hB), Measure.map_apply _ hB]
    · rfl
    · exact measurable_pi_lambda _ fun j => (G.measurable_beta _ _).comp (measurable_pi_apply _)
  rw [hpi] at hp
  have h1 : {u : ℕ → G.Seed | X u ∈ T} = {u | ties [] (X u) = js} := by
    ext u
    exact ⟨fun h => h.2, fun h => ⟨hA u, h⟩⟩
  rw [h1] at hp
  rw [measureReal_def, measureReal_def, measureReal_def, ← ENNReal.toReal_mul, ← hp]
  congr 1
  refine measure_congr ?_
  filter_upwards [beta_ne (G := G) one_pos hal] with u hu
  have hf : ∀ x ∈ X u, ∀ y ∈ X u, G.beta 1 alpha (u (((L (X u))[x]?).getD q)) = G.beta 1 alpha (u (((L (X u))[y]?).getD q)) → x = y := by
    intro x hx y hy hxy
    have h2 := hL _ (hA u) x hx
    have h3 := hL _ (hA u) y hy
    rw [List.getElem?_eq_getElem h2, List.getElem?_eq_getElem h3] at hxy
    by_contra hne
    exact hu _ _ (fun h => hne ((hnd (X u)).getElem_inj_iff.1 h)) hxy
  have ht := ties_map (fun j => G.beta 1 alpha (u (((L (X u))[j]?).getD q))) (X u) [] (by simpa using hf)
  rw [List.map_nil, ← hV u] at ht
  rw [eq_iff_iff]
  change (ties [] (V u) = js ∧ vec m (appear [] (V u)) ∈ B) ↔ (X u ∈ T ∧ _ ∈ B)
  rw [ht.1, ht.2]
  constructor
  · rintro ⟨h4, h5⟩
    refine ⟨⟨hA u, h4⟩, ?_⟩
    convert h5 using 1
    funext i
    obtain ⟨j, h6, _⟩ := hget (X u) ⟨hA u, h4⟩ i
    simp only [vec, List.getElem?_map, h6, e]
    rfl
  · rintro ⟨⟨_, h4⟩, h5⟩
    refine ⟨h4, ?_⟩
    convert h5 using 1
    funext i
    obtain ⟨j, h6, _⟩ := hget (X u) ⟨hA u, h4⟩ i
    simp only [vec, List.getElem?_map, h6, e]
    rfl

end RandGen
end Verif
