import Verif.Lemmas.VarFit
import Verif.Lemmas.Variational

/-! # The weight classes give usable log weights after a variational fit -/

set_option linter.unusedSectionVars false

namespace Verif.Mix.VM
open Verif.Fl
variable {K : Type} [Field K] [LinearOrder K] [IsStrictOrderedRing K] {F : MathFun K}

/-- Log weights that are all numbers. -/
theorem regular_of {C : WeightClass K} {V : VarClass C} {I : C.State → Prop}
    (h : ∀ (c : C.State) (q : List (List K)) (c' : C.State) (v : V.State), I c → q ≠ [] → V.fit c (q.map (fun r => r.map fin)) = .ok (c', v) →
      I c' ∧ ∀ j < q.length, ∃ x : K, V.meanLogW c' v j = .ok (fin x)) : Regular V I := by
  intro c q c' v hc hq hf
  obtain ⟨h1, h2⟩ := h c q c' v hc hq hf
  have h3 : ∀ j, ∃ x : K, j < q.length → V.meanLogW c' v j = .ok (fin x) := fun j => by
    by_cases hj : j < q.length
    · obtain ⟨x, hx⟩ := h2 j hj
      exact ⟨x, fun _ => hx⟩
    · exact ⟨0, fun h => absurd h hj⟩
  choose g hg using h3
  exact ⟨h1, fun j => (g j : WithBot K), hg, g 0, rfl⟩

theorem DP_number (alpha : K) (q : List (List K)) {j : ℕ} (hj : j < q.length) :
    ∃ x : K, DP.meanLogWj F.toVarFun (some (DP.fitVariational alpha q)) j = .ok (some x) := by
  unfold DP.meanLogWj
  have hk : (DP.fitVariational alpha q).k = q.length := rfl
  have hl := DP.fit_length alpha q
  simp only []
  rw [hk, if_neg (not_le.2 hj), foldTo_ok _ _ _ _ (by omega)]
  simp only []
  by_cases h : j + 1 < q.length
  · rw [if_pos h, List.getElem?_eq_getElem (by omega)]
    exact ⟨_, rfl⟩
  · rw [if_neg h]
    exact ⟨_, rfl⟩

theorem regular_DP : Regular (varDP F) (fun _ => True) := by
  apply regular_of
  intro c q c' v _ _ hf
  simp only [varDP, matrix_fin] at hf
  cases hf
  refine ⟨trivial, fun j hj => ?_⟩
  obtain ⟨x, hx⟩ := DP_number (F := F) (DP.alpha (show DP K from c)) q hj
  refine ⟨x, ?_⟩
  show (DP.meanLogWj F.toVarFun (some _) j).map flOfOption = _
  rw [hx]; rfl

theorem PY_number (pyd alpha : K) (q : List (List K)) {j : ℕ} (hj : j < q.length) :
    ∃ x : K, PY.meanLogWj F.toVarFun (some (PY.fitVariational pyd alpha q)) j = .ok (some x) := by
  unfold PY.meanLogWj
  have hl := PY.fit_length pyd alpha q
  simp only []
  rw [foldTo_ok _ _ _ _ (by omega)]
  simp only []
  rw [List.getElem?_eq_getElem (by omega)]
  exact ⟨_, rfl⟩

theorem regular_PY : Regular (varPY F) (fun _ => True) := by
  apply regular_of
  intro c q c' v _ _ hf
  simp only [varPY, matrix_fin] at hf
  cases hf
  refine ⟨trivial, fun j hj => ?_⟩
  obtain ⟨x, hx⟩ := PY_number (F := F) (PY.pyd (show PY K from c)) (PY.alpha (show PY K from c)) q hj
  refine ⟨x, ?_⟩
  show (PY.meanLogWj F.toVarFun (some _) j).map flOfOption = _
  rw [hx]; rfl

theorem regular_Geo {F : MathFun ℝ} : Regular (varGeo F) (fun _ => True) := by
  apply regular_of
  intro c q c' v _ _ hf
  simp only [varGeo, matrix_fin] at hf
  cases hg : Geo.fitVariational (show Geo ℝ from c).a (show Geo ℝ from c).b q with
  | error e => rw [hg] at hf; cases hf
  | ok g =>
    rw [hg] at hf
    cases hf
    exact ⟨trivial, fun j hj => ⟨_, rfl⟩⟩

theorem broadcast_length {xs ys zs : List K} (hy : ys ≠ []) (h : DirDist.broadcastAdd xs ys = .ok zs) : ys.length ≤ zs.length ∨ xs = [] := by
  unfold DirDist.broadcastAdd at h
  split at h
  · rename_i hl; cases h; left; simp [hl]
  · rename_i hl
    split at h
    · cases h; left; simp
    · rename_i x y _ _ _
      cases h
      rcases xs with _ | ⟨x, xs⟩
      · exact .inr rfl
      · left; simp
    · cases h

theorem regular_DirDist : Regular (varDirDist F) (fun c => (show DirDist K from c).alpha ≠ []) := by
  apply regular_of
  intro c q c' v hc hq hf
  simp only [varDirDist, matrix_fin] at hf
  cases hg : DirDist.fitVariational (show DirDist K from c).n (show DirDist K from c).alpha q with
  | error e => rw [hg] at hf; cases hf
  | ok g =>
    rw [hg] at hf
    cases hf
    refine ⟨hc, fun j hj => ?_⟩
    unfold DirDist.fitVariational at hg
    split at hg
    · cases hg
    · split at hg
      · cases hg
      · rename_i ps hps
        cases hg
        have h1 := broadcast_length (by
          intro h0
          have := congrArg List.length h0
          rw [rowSums_length] at this
          exact hq (List.length_eq_zero_iff.1 this)) hps
        rw [rowSums_length] at h1
        have h2 : q.length ≤ ps.length := h1.resolve_right hc
        refine ⟨?_, ?_⟩
        rotate_left
        · show (DirDist.meanLogWj F.toVarFun (some _) j).map flOfOption = _
          unfold DirDist.meanLogWj
          simp only []
          rw [List.getElem?_eq_getElem (by omega)]
          rfl

theorem regular_Equal : Regular (varEqual F) (fun _ => True) := by
  apply regular_of
  intro c q c' v _ _ hf
  cases hf
  exact ⟨trivial, fun j hj => ⟨_, rfl⟩⟩

theorem freq_share {q : List (List K)} {j : ℕ} (hj : j < q.length) : ∃ x : K, freqShare (q.map (fun r => r.map fin)) j = .ok (fin x) := by
  unfold freqShare
  rw [matrix_fin]
  unfold Freq.share
  simp only []
  rw [List.getElem?_eq_getElem (by rw [rowSums_length]; exact hj)]
  exact ⟨_, rfl⟩

theorem regular_Freq : Regular (varFreq F) (fun c => 1 ≤ (show Freq K from c).n) := by
  intro c q c' v hc hq hf
  cases hf
  refine ⟨hc, ?_⟩
  set q' := q.map (fun r => r.map fin) with hq'
  have hlen : ∀ j < q.length, ∃ x : WithBot K, (varFreq F).meanLogW c (some q') j = .ok (ofBot x) ∧ (j = 0 → ∃ y : K, x = (y : WithBot K)) := by
    intro j hj
    show ∃ x : WithBot K, (if freqK (show Freq K from c).n q' ≤ j then _ else _) = _ ∧ _
    by_cases h1 : freqK (show Freq K from c).n q' ≤ j
    · refine ⟨⊥, by rw [if_pos h1]; rfl, ?_⟩
      intro h0
      exfalso
      unfold freqK at h1
      split at h1 <;> omega
    · rw [if_neg h1]
      by_cases h2 : (q'.head?.map List.length).getD 0 ≠ 0
      · rw [if_pos h2]
        obtain ⟨x, hx⟩ := freq_share (K := K) hj
        exact ⟨(x : WithBot K), hx, fun _ => ⟨x, rfl⟩⟩
      · rw [if_neg h2]
        exact ⟨((_ : K) : WithBot K), rfl, fun _ => ⟨_, rfl⟩⟩
  have h3 : ∀ j, ∃ x : WithBot K, j < q.length → (varFreq F).meanLogW c (some q') j = .ok (ofBot x) ∧ (j = 0 → ∃ y : K, x = (y : WithBot K)) := fun j => by
    by_cases hj : j < q.length
    · obtain ⟨x, hx⟩ := hlen j hj
      exact ⟨x, fun _ => hx⟩
    · exact ⟨⊥, fun h => absurd h hj⟩
  choose g hg using h3
  exact ⟨g, fun j hj => (hg j hj).1, (hg 0 (List.length_pos_iff.2 hq)).2 rfl⟩
end Verif.Mix.VM
