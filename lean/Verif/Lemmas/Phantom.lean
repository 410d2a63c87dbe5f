import Verif.Props.C72
import Mathlib.Tactic.FieldSimp
import Mathlib.Algebra.BigOperators.Ring.Finset

/-!
# A Chinese restaurant with one customer too many

`tieMass a c seen js`: the probability, from block sizes `c`, of all sequences of choices whose pattern of ties (given the blocks `seen` in order of
appearance) is `js`.  A restaurant started with one block of size one that is not an observation gives the same law of ties as an empty one.
-/

namespace Verif
open Crp

namespace Crp
/-- A sequence of choices names existing blocks or the next new one; `k` blocks exist. -/
def legal : ℕ → List ℕ → Prop
  | _, [] => True
  | k, j :: js => j ≤ k ∧ legal (if j < k then k else k + 1) js

/-- The probability of the sequences with a given pattern of ties. -/
noncomputable def tieMass (a : ℝ) (c seen js : List ℕ) : ℝ :=
  (((all js.length c).filter (fun s => decide (ties seen s = js))).map (seqProb a c)).sum
end Crp

theorem list_range_sum (f : ℕ → ℝ) (n : ℕ) : ((List.range n).map f).sum = ∑ i ∈ Finset.range n, f i := rfl

theorem tieMass_nil (a : ℝ) (c seen : List ℕ) : tieMass a c seen [] = 1 := by simp [tieMass, all, ties, seqProb]

theorem tieMass_cons (a : ℝ) (c seen : List ℕ) (j : ℕ) (js : List ℕ) :
    tieMass a c seen (j :: js) = ∑ b ∈ Finset.range (c.length + 1),
      if seen.idxOf b = j then prob a c b * tieMass a (seat c b) (if b ∈ seen then seen else seen ++ [b]) js else 0 := by
  rw [tieMass, List.length_cons, all, List.filter_flatMap, sum_flatMap_map, ← list_range_sum]
  congr 1
  refine List.map_congr_left fun b _ => ?_
  rw [List.filter_map]
  split
  case isTrue h =>
    rw [tieMass, ← List.sum_map_mul_left, List.map_map]
    have : ((fun s => decide (ties seen s = j :: js)) ∘ fun x => b :: x) = fun s => decide (ties (if b ∈ seen then seen else seen ++ [b]) s = js) := by
      funext s
      simp [ties, h]
    rw [this]
    rfl
  case isFalse h =>
    have : ((fun s => decide (ties seen s = j :: js)) ∘ fun x => b :: x) = fun _ => false := by
      funext s
      simp [ties, h]
    rw [this]
    simp

theorem length_seat (c : List ℕ) (j : ℕ) : (seat c j).length = if j < c.length then c.length else c.length + 1 := by
  unfold seat
  split <;> simp

theorem seat_getD {c : List ℕ} {b : ℕ} (hb : b ≤ c.length) (i : ℕ) : ((seat c b)[i]?).getD 0 = (c[i]?).getD 0 + if i = b then 1 else 0 := by
  unfold seat
  split
  · rename_i h
    rw [List.getElem?_modify]
    by_cases e : b = i
    · subst e
      simp [h]
    · rw [if_neg (Ne.symm e), add_zero]
      simp only [if_neg e]
      cases c[i]? <;> rfl
  · rename_i h
    have hb' : b = c.length := by omega
    subst hb'
    rw [List.getElem?_append]
    split
    · rename_i h1; rw [if_neg (by omega), add_zero]
    · rename_i h1
      rw [List.getElem?_eq_none (l := c) (by omega)]
      by_cases e : i = c.length
      · simp [e]
      · rw [if_neg e, List.getElem?_eq_none (by simp; omega)]; rfl

/-- Once every block has appeared, relabelling the blocks does not change probabilities. -/
theorem tieMass_seen (a : ℝ) : ∀ (js c seen : List ℕ), seen.Nodup → (∀ b, b ∈ seen ↔ b < c.length) → legal c.length js →
    tieMass a c seen js = seqProb a (seen.map (fun b => (c[b]?).getD 0)) js
  | [], c, seen, _, _, _ => by rw [tieMass_nil]; rfl
  | j :: js, c, seen, hn, hm, hl => by
    have hperm : seen.Perm (List.range c.length) := (List.perm_ext_iff_of_nodup hn List.nodup_range).2 fun b => by rw [hm, List.mem_range]
    have hlen : seen.length = c.length := by rw [hperm.length_eq, List.length_range]
    have hc : (List.range c.length).map (fun b => (c[b]?).getD 0) = c := by
      apply List.ext_getElem
      · simp
      · intro i h1 h2; simp [h2]
    have hsum : (seen.map (fun b => (c[b]?).getD 0)).sum = c.sum := by
      rw [(hperm.map _).sum_eq, hc]
    rw [tieMass_cons]
    -- the block that choice `j` names
    obtain ⟨b, hb, hbj, huniq⟩ : ∃ b, b ≤ c.length ∧ seen.idxOf b = j ∧ ∀ b', b' ≤ c.length → seen.idxOf b' = j → b' = b := by
      by_cases h : j < seen.length
      · refine ⟨seen[j], ((hm _).1 (List.getElem_mem h)).le, List.Nodup.idxOf_getElem hn j h, ?_⟩
        intro b' _ e
        subst e
        exact (List.getElem_idxOf h).symm
      · have hj : j = c.length := by have := hl.1; omega
        refine ⟨c.length, le_rfl, ?_, ?_⟩
        · rw [List.idxOf_eq_length (fun h => by have := (hm _).1 h; omega), hlen, hj]
        · intro b' hb' e
          by_contra hne
          have hlt := List.idxOf_lt_length_of_mem ((hm b').2 (by omega))
          omega
    rw [Finset.sum_eq_single b]
    · rw [if_pos hbj]
      have hprob : prob a c b = prob a (seen.map (fun b => (c[b]?).getD 0)) j := by
        unfold prob
        rw [hsum, List.length_map, hlen]
        by_cases h : b < c.length
        · have hj : j < seen.length := by rw [← hbj]; exact List.idxOf_lt_length_of_mem ((hm b).2 h)
          rw [if_pos h, if_pos (hlen ▸ hj), List.getElem?_map, List.getElem?_eq_getElem hj]
          have : seen[j] = b := by subst hbj; exact List.getElem_idxOf hj
          rw [this]; rfl
        · have hj : ¬ j < c.length := by
            rw [← hbj, List.idxOf_eq_length (fun h' => h ((hm b).1 h'))]; omega
          rw [if_neg h, if_neg hj]
      have hlens : (seat c b).length = if j < c.length then c.length else c.length + 1 := by
        rw [length_seat]
        have : b < c.length ↔ j < c.length := by
          rw [← hm, ← hlen, ← hbj, List.idxOf_lt_length_iff]
        simp only [this]
      rw [seqProb, hprob, tieMass_seen a js]
      · congr 2
        rw [← hbj, seat_map hn (fun b => (c[b]?).getD 0) (fun y hy => by
          rw [List.getElem?_eq_none]; · rfl
          · have := (hm y).not.1 hy; omega) b]
        refine List.map_congr_left fun i _ => ?_
        rw [seat_getD hb]
      · split
        · exact hn
        · rename_i hx
          exact List.Nodup.append hn (List.nodup_singleton b) (by simpa using hx)
      · intro i
        rw [length_seat]
        by_cases h : b < c.length
        · rw [if_pos ((hm b).2 h), if_pos h, hm]
        · rw [if_neg (fun h' => h ((hm b).1 h')), if_neg h, List.mem_append, hm, List.mem_singleton]
          omega
      · rw [hlens]; exact hl.2
    · intro b' hb' hne
      rw [Finset.mem_range] at hb'
      rw [if_neg (fun e => hne (huniq b' (by omega) e))]
    · intro h
      rw [Finset.mem_range] at h
      omega

/-- The probability of the pattern `js` when block 0 is not an observation and has not been joined; `c` holds the other blocks. -/
theorem tieMass_phantom_cons (a : ℝ) (c : List ℕ) (j : ℕ) (js : List ℕ) (hl : legal c.length (j :: js)) :
    tieMass a (1 :: c) (List.range' 1 c.length) (j :: js) =
      prob a (1 :: c) (j + 1) * tieMass a (1 :: seat c j) (List.range' 1 (seat c j).length) js +
      if j < c.length then 0 else prob a (1 :: c) 0 * seqProb a (c ++ [2]) js := by
  have hidx : ∀ b, b < c.length → (List.range' 1 c.length).idxOf (b + 1) = b := by
    intro b hb
    have := List.Nodup.idxOf_getElem (List.nodup_range' (s := 1) (n := c.length)) b (by simpa using hb)
    simpa [Nat.add_comm] using this
  have hseat : seat (1 :: c) (j + 1) = 1 :: seat c j := by
    unfold seat
    simp only [List.length_cons, Nat.add_lt_add_iff_right]
    split <;> simp
  have hmem : j + 1 ∈ List.range' 1 c.length ↔ j < c.length := by
    rw [List.mem_range'_1]; omega
  have hseen : (if j + 1 ∈ List.range' 1 c.length then List.range' 1 c.length else List.range' 1 c.length ++ [j + 1]) =
      List.range' 1 (seat c j).length := by
    rw [length_seat]
    by_cases h : j < c.length
    · rw [if_pos (hmem.2 h), if_pos h]
    · have hj : j = c.length := by have := hl.1; omega
      rw [if_neg (fun h' => h (hmem.1 h')), if_neg h, List.range'_1_concat, hj, Nat.add_comm]
  have hnew : (List.range' 1 c.length).idxOf (c.length + 1) = c.length := by
    rw [List.idxOf_eq_length (by rw [List.mem_range'_1]; omega), List.length_range']
  have hzero : (List.range' 1 c.length).idxOf 0 = c.length := by
    rw [List.idxOf_eq_length (by rw [List.mem_range'_1]; omega), List.length_range']
  rw [tieMass_cons, List.length_cons, Finset.sum_range_succ']
  congr 1
  · rw [Finset.sum_eq_single j]
    · have : (List.range' 1 c.length).idxOf (j + 1) = j := by
        by_cases h : j < c.length
        · exact hidx j h
        · have hj : j = c.length := by have := hl.1; omega
          rw [hj, hnew]
      rw [if_pos this, hseat, hseen]
    · intro b hb hne
      rw [Finset.mem_range] at hb
      rw [if_neg]
      intro e
      by_cases h : b < c.length
      · exact hne ((hidx b h).symm.trans e)
      · have hb' : b = c.length := by omega
        rw [hb', hnew] at e
        omega
    · intro h
      rw [Finset.mem_range] at h
      have := hl.1
      omega
  · rw [hzero]
    by_cases h : j < c.length
    · rw [if_neg (by omega), if_pos h]
    · have hj : j = c.length := by have := hl.1; omega
      rw [if_pos hj.symm, if_neg h, if_neg (by rw [List.mem_range'_1]; omega)]
      congr 1
      have hs0 : seat (1 :: c) 0 = 2 :: c := by simp [seat]
      rw [hs0, tieMass_seen]
      · congr 1
        rw [List.map_append]
        congr 1
        apply List.ext_getElem
        · simp
        · intro i h1 h2
          simp [Nat.add_comm 1 i, h2]
      · exact List.Nodup.append List.nodup_range' (List.nodup_singleton 0) (by simp)
      · intro b
        rw [List.mem_append, List.mem_range'_1, List.mem_singleton, List.length_cons]
        omega
      · have := hl.2
        rw [if_neg h] at this
        exact this

theorem seat_comm {c : List ℕ} {i j : ℕ} (hi : i < c.length) (hj : j < c.length) : seat (seat c i) j = seat (seat c j) i := by
  have h : ∀ b, b < c.length → seat c b = c.modify b (· + 1) := fun b hb => by rw [seat, if_pos hb]
  rw [h i hi, h j hj, seat, if_pos (by simpa), seat, if_pos (by simpa)]
  apply List.ext_getElem
  · simp
  · intro k h1 h2
    simp only [List.getElem_modify]
    split <;> split <;> rfl

theorem seat_append {c : List ℕ} {i : ℕ} (hi : i < c.length) (x : ℕ) : seat (c ++ [x]) i = seat c i ++ [x] := by
  rw [seat, if_pos (by simp; omega), seat, if_pos hi]
  apply List.ext_getElem
  · simp
  · intro k h1 h2
    simp only [List.getElem_modify, List.getElem_append]
    have : (c.modify i (· + 1)).length = c.length := by simp
    simp only [this]
    by_cases h : k < c.length
    · simp only [h, dif_pos]
    · simp only [h, dif_neg, not_false_eq_true]
      rw [if_neg (by omega)]

theorem sum_seat (c : List ℕ) (j : ℕ) : (seat c j).sum = c.sum + 1 := by
  unfold seat
  split
  · rename_i h
    obtain ⟨l, r, e1, e2⟩ := modify_split h
    rw [e2]
    conv_rhs => rw [e1]
    simp
    omega
  · simp

/-- The mass of a pattern is the same with and without the extra customer: it sits at a new block, or at one of the existing ones. -/
theorem phantom_mass {a : ℝ} (ha : 0 < a) : ∀ (js c : List ℕ), legal c.length js →
    a * tieMass a (1 :: c) (List.range' 1 c.length) js + ∑ b ∈ Finset.range c.length, (((c[b]?).getD 0 : ℕ) : ℝ) * seqProb a (seat c b) js =
      (a + ((c.sum : ℕ) : ℝ)) * seqProb a c js
  | [], c, _ => by
    simp only [tieMass_nil, seqProb, mul_one]
    congr 1
    rw [← list_range_sum]
    have hc : (List.range c.length).map (fun b => (((c[b]?).getD 0 : ℕ) : ℝ)) = c.map (fun x : ℕ => (x : ℝ)) := by
      apply List.ext_getElem
      · simp
      · intro i h1 h2
        have h3 : i < c.length := by simpa using h2
        simp [h3]
    rw [hc, ← Nat.cast_list_sum]
  | j :: js, c, hl => by
    have hn : (0 : ℝ) ≤ ((c.sum : ℕ) : ℝ) := Nat.cast_nonneg _
    have h0 : a + ((c.sum : ℕ) : ℝ) ≠ 0 := by linarith
    have h1 : a + (((c.sum : ℕ) : ℝ) + 1) ≠ 0 := by linarith
    have h1' : a + (1 + ((c.sum : ℕ) : ℝ)) ≠ 0 := by linarith
    have ih := phantom_mass ha js (seat c j) (by rw [length_seat]; exact hl.2)
    rw [tieMass_phantom_cons a c j js hl]
    simp only [seqProb]
    rw [sum_seat, Nat.cast_add, Nat.cast_one] at ih
    by_cases h : j < c.length
    · rw [if_pos h, add_zero]
      rw [length_seat, if_pos h] at ih
      have hsj : seqProb a (seat c j) js = (a * tieMass a (1 :: seat c j) (List.range' 1 c.length) js +
          ∑ b ∈ Finset.range c.length, ((((seat c j)[b]?).getD 0 : ℕ) : ℝ) * seqProb a (seat (seat c j) b) js) / (a + (((c.sum : ℕ) : ℝ) + 1)) := by
        rw [ih, mul_div_cancel_left₀ _ h1]
      have hp : prob a c j = (((c[j]?).getD 0 : ℕ) : ℝ) / (a + ((c.sum : ℕ) : ℝ)) := by rw [prob, if_pos h]
      have hp1 : prob a (1 :: c) (j + 1) = (((c[j]?).getD 0 : ℕ) : ℝ) / (a + (((c.sum : ℕ) : ℝ) + 1)) := by
        rw [prob, if_pos (by simpa using h), List.getElem?_cons_succ, List.sum_cons, Nat.cast_add, Nat.cast_one, add_comm (1 : ℝ)]
      have hterm : ∀ b ∈ Finset.range c.length, (((c[b]?).getD 0 : ℕ) : ℝ) * (prob a (seat c b) j * seqProb a (seat (seat c b) j) js) =
          (((c[j]?).getD 0 : ℕ) : ℝ) / (a + (((c.sum : ℕ) : ℝ) + 1)) * (((((seat c j)[b]?).getD 0 : ℕ) : ℝ) * seqProb a (seat (seat c j) b) js) := by
        intro b hb
        rw [Finset.mem_range] at hb
        rw [seat_comm hb h, prob, length_seat, if_pos hb, if_pos h, seat_getD hb.le, seat_getD h.le, sum_seat]
        by_cases e : j = b
        · subst e; simp only [if_true]; push_cast; ring
        · rw [if_neg e, if_neg (Ne.symm e)]; push_cast; ring
      rw [Finset.sum_congr rfl hterm, ← Finset.mul_sum, hp1, hp, length_seat, if_pos h, hsj]
      field_simp
    · have hj : j = c.length := by have := hl.1; omega
      subst hj
      have hs : seat c c.length = c ++ [1] := by rw [seat, if_neg (lt_irrefl _)]
      rw [if_neg h]
      rw [hs] at ih ⊢
      have hsj : seqProb a (c ++ [1]) js = (a * tieMass a (1 :: (c ++ [1])) (List.range' 1 (c ++ [1]).length) js +
          ∑ b ∈ Finset.range (c ++ [1]).length, ((((c ++ [1])[b]?).getD 0 : ℕ) : ℝ) * seqProb a (seat (c ++ [1]) b) js) / (a + (((c.sum : ℕ) : ℝ) + 1)) := by
        rw [ih, mul_div_cancel_left₀ _ h1]
      have hp : prob a c c.length = a / (a + ((c.sum : ℕ) : ℝ)) := by rw [prob, if_neg (lt_irrefl _)]
      have hp1 : prob a (1 :: c) (c.length + 1) = a / (a + (((c.sum : ℕ) : ℝ) + 1)) := by
        rw [prob, if_neg (by simp), List.sum_cons, Nat.cast_add, Nat.cast_one, add_comm (1 : ℝ)]
      have hp0 : prob a (1 :: c) 0 = 1 / (a + (((c.sum : ℕ) : ℝ) + 1)) := by
        rw [prob, if_pos (by simp), List.sum_cons, Nat.cast_add, Nat.cast_one, add_comm (1 : ℝ)]; simp
      have hlast : seat (c ++ [1]) c.length = c ++ [2] := by
        rw [seat, if_pos (by simp), List.modify_eq_take_cons_drop (by simp)]
        simp
      have hterm : ∀ b ∈ Finset.range c.length, (((c[b]?).getD 0 : ℕ) : ℝ) * (prob a (seat c b) c.length * seqProb a (seat (seat c b) c.length) js) =
          a / (a + (((c.sum : ℕ) : ℝ) + 1)) * (((((c ++ [1])[b]?).getD 0 : ℕ) : ℝ) * seqProb a (seat (c ++ [1]) b) js) := by
        intro b hb
        rw [Finset.mem_range] at hb
        have e1 : seat (seat c b) c.length = seat c b ++ [1] := by
          rw [seat, if_neg]
          rw [length_seat, if_pos hb]
          exact lt_irrefl _
        rw [e1, prob, length_seat, if_pos hb, if_neg (lt_irrefl _), sum_seat, Nat.cast_add, Nat.cast_one, seat_append hb,
          List.getElem?_append_left hb]
        ring
      have hfin : ((((c ++ [1])[c.length]?).getD 0 : ℕ) : ℝ) = 1 := by simp
      rw [Finset.sum_congr rfl hterm, ← Finset.mul_sum, hp1, hp0, hp, hsj]
      have hle : (c ++ [1]).length = c.length + 1 := by simp
      rw [hle, Finset.sum_range_succ, hlast, hfin]
      field_simp
      ring

/-- The law of the ties is that of a restaurant that starts empty. -/
theorem phantom_law {a : ℝ} (ha : 0 < a) (js : List ℕ) (hl : legal 0 js) : tieMass a [1] [] js = seqProb a [] js := by
  have := phantom_mass ha js [] hl
  simp only [List.length_nil, Finset.range_zero, Finset.sum_empty, add_zero, List.sum_nil, Nat.cast_zero, List.range'_zero] at this
  exact mul_left_cancel₀ ha.ne' this
end Verif
