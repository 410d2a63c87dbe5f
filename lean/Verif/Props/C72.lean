import Verif.Props.C71
import Verif.Lemmas.Demo
import Mathlib.Data.List.Dedup

/-!
# C72: `BetaInDirichlet.weighting_log_likelihood` is the log-density of the sticks

The law of the sticks: the pattern of ties is a Chinese restaurant process with parameter `a`, the distinct values are independent `Beta(1, alpha)`.
For every `a > 0` and every vector of sticks `weighting_log_likelihood()` is the log-probability of the pattern of ties plus the log-densities of the
distinct values (`C72_partial`).  With the default `a = 0`, where all sticks are equal, the result is nan for every vector of sticks (`C72_refuted`).
-/

namespace Verif
open Mix Crp

namespace Crp
/-- The pattern of ties: each stick chooses the number of its value in order of appearance. -/
def ties {K : Type} [DecidableEq K] (seen : List K) : List K → List ℕ
  | [] => []
  | x :: xs => seen.idxOf x :: ties (if x ∈ seen then seen else seen ++ [x]) xs

/-- The distinct values in order of appearance. -/
def appear {K : Type} [DecidableEq K] (seen : List K) : List K → List K
  | [] => seen
  | x :: xs => appear (if x ∈ seen then seen else seen ++ [x]) xs
end Crp

section
variable {K : Type} [DecidableEq K]

theorem nodup_appear : ∀ (v seen : List K), seen.Nodup → (appear seen v).Nodup
  | [], _, h => h
  | x :: xs, seen, h => by
    rw [appear]
    refine nodup_appear xs _ ?_
    split
    · exact h
    · rename_i hx
      exact List.Nodup.append h (List.nodup_singleton x) (by simpa using hx)

theorem mem_appear : ∀ (v seen : List K) (y : K), y ∈ appear seen v ↔ y ∈ seen ∨ y ∈ v
  | [], _, _ => by simp [appear]
  | x :: xs, seen, y => by
    rw [appear, mem_appear]
    split
    · rename_i hx
      simp only [List.mem_cons]
      constructor
      · rintro (h | h) <;> simp [h]
      · rintro (h | rfl | h)
        · exact .inl h
        · exact .inl hx
        · exact .inr h
    · simp only [List.mem_append, List.mem_cons, List.not_mem_nil, or_false]
      tauto

theorem seat_map {seen : List K} (hn : seen.Nodup) (f : K → ℕ) (hf : ∀ y, y ∉ seen → f y = 0) (x : K) :
    seat (seen.map f) (seen.idxOf x) = (if x ∈ seen then seen else seen ++ [x]).map (fun y => f y + if y = x then 1 else 0) := by
  unfold seat
  rw [List.length_map]
  split
  · rename_i h
    have hx := List.idxOf_lt_length_iff.1 h
    rw [if_pos hx]
    apply List.ext_getElem
    · simp
    · intro i h1 h2
      have h3 : i < seen.length := by simpa using h2
      rw [List.getElem_modify]
      simp only [List.getElem_map]
      have : (seen.idxOf x = i) ↔ seen[i] = x := by
        constructor
        · rintro rfl; exact List.getElem_idxOf h
        · intro e; rw [← e]; exact List.Nodup.idxOf_getElem hn i h3
      by_cases hi : seen.idxOf x = i
      · rw [if_pos hi, if_pos (this.1 hi)]
      · rw [if_neg hi, if_neg (fun h => hi (this.2 h)), add_zero]
  · rename_i h
    have hx : x ∉ seen := fun hx => h (List.idxOf_lt_length_iff.2 hx)
    rw [if_neg hx, List.map_append]
    congr 1
    · refine List.map_congr_left fun y hy => ?_
      rw [if_neg (by rintro rfl; exact hx hy), add_zero]
    · simp [hf x hx]

theorem blocks_ties : ∀ (v seen : List K) (f : K → ℕ), seen.Nodup → (∀ y, y ∉ seen → f y = 0) →
    blocks (seen.map f) (ties seen v) = (appear seen v).map (fun y => f y + v.count y)
  | [], seen, f, _, _ => by simp [ties, blocks, appear]
  | x :: xs, seen, f, hn, hf => by
    rw [ties, blocks, seat_map hn f hf x, blocks_ties, appear]
    · refine List.map_congr_left fun y _ => ?_
      rw [List.count_cons]
      by_cases h : x = y
      · simp only [h, beq_self_eq_true, if_true]; omega
      · rw [if_neg (fun e => h e.symm), if_neg (by simpa using h), add_zero, add_zero]
    · split
      · exact hn
      · rename_i hx
        exact List.Nodup.append hn (List.nodup_singleton x) (by simpa using hx)
    · intro y hy
      split at hy
      · rename_i hx
        rw [hf y hy, if_neg (by rintro rfl; exact hy hx)]
      · simp only [List.mem_append, List.mem_singleton, not_or] at hy
        rw [hf y hy.1, if_neg hy.2]
end

theorem mergeSort_dedup_perm {K : Type} [LinearOrder K] (v : List K) : (v.dedup.mergeSort (fun x y => decide (x ≤ y))).Perm (appear [] v) := by
  refine (List.mergeSort_perm _ _).trans ((List.perm_ext_iff_of_nodup (List.nodup_dedup v) (nodup_appear v [] List.nodup_nil)).2 fun y => ?_)
  rw [List.mem_dedup, mem_appear]
  simp

theorem foldl_map_add {K : Type} [Field K] {α : Type} (l : List α) (g : α → Fl K) :
    l.foldl (fun (ret : Fl K) x => ret.add (g x)) (Fl.fin 0) = Fl.sum (l.map g) := by
  rw [Fl.sum, List.foldl_map]

theorem counts_perm (v : List ℝ) : ((uniqueCounts v).map Prod.snd).Perm (blocks [] (ties [] v)) := by
  have h := blocks_ties v [] (fun _ => 0) List.nodup_nil (fun _ _ => rfl)
  rw [List.map_nil] at h
  rw [h, uniqueCounts, List.map_map]
  simpa [Function.comp_def] using (mergeSort_dedup_perm v).map (fun y => v.count y)

theorem C72_partial (beta : ℝ → ℝ → ℝ → Fl ℝ) (s : BID ℝ) (ha : 0 < s.a) :
    s.weightingLogLikelihood beta realFun.toVarFun =
      (Fl.sum (s.v.dedup.map (fun x => beta x 1 s.alpha))).add (.fin (Real.log (seqProb s.a [] (ties [] s.v)))) := by
  unfold BID.weightingLogLikelihood
  congr 1
  · rw [foldl_map_add]
    refine Fl.sum_perm ?_
    rw [uniqueCounts, List.map_map]
    exact (List.mergeSort_perm _ _).map _
  · rw [C71_symmetric _ _ (counts_perm s.v)]
    have hp := blocks_pos (ties [] s.v) [] (by simp)
    rw [eppf_finite ha hp]
    have := C71_sequence ha (ties [] s.v)
    rw [codeEppf_eq ha hp] at this
    injection this with this
    rw [← this, eppf, Real.log_exp]

theorem C72_refuted (beta : ℝ → ℝ → ℝ → Fl ℝ) (s : BID ℝ) (ha : s.a = 0) : s.weightingLogLikelihood beta realFun.toVarFun = .nan := by
  unfold BID.weightingLogLikelihood
  rw [ha, C71_symmetric _ _ (counts_perm s.v), C71_zero (blocks_pos _ [] (by simp)), Fl.add_comm']
  rfl

/-- The default object has `a = 0`: its log-likelihood is nan. -/
example (beta : ℝ → ℝ → ℝ → Fl ℝ) : (BID.init (K := ℝ) 1 0).weightingLogLikelihood beta realFun.toVarFun = .nan := C72_refuted beta _ rfl

/-- Sticks `1/2, 1/3, 1/2` with `a = 1`: blocks of sizes 2 and 1, pattern `0, 1, 0` of probability `1/2 * 1/3`. -/
example : ties [] [(1 / 2 : ℚ), 1 / 3, 1 / 2] = [0, 1, 0] := by decide +kernel
example : seqProb 1 [] [0, 1, 0] = 1 / 6 := by norm_num [seqProb, prob, seat]
example : (0 : ℝ) < ({ BID.init (K := ℝ) 1 1 with v := [1 / 2, 1 / 3, 1 / 2] } : BID ℝ).a := by norm_num [BID.init]

end Verif
