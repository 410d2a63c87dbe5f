import Verif.Props.C55
import Verif.Props.C56

/-!
# C57 — `var_map_cluster(full=True)`

For the fitted data the second value is `1 - probability of the label`, one number in `[0, 1)` per observation, and no other group is more probable
(`C57_fitted_partial`).  For new data it is a square matrix of probabilities instead (`C57_new_refuted`).
-/

set_option linter.unusedSectionVars false

namespace Verif.Mix.VM
open Verif.Fl
variable {K : Type} [Field K] [LinearOrder K] [IsStrictOrderedRing K] {m : ℕ} {C : WeightClass K} {V : VarClass C} {Atom : Type}
variable {F : MathFun K} {W : World K m Atom}

/-- The labels and uncertainties are right for the columns of probabilities `cols`. -/
structure Uncertain (k : ℕ) (cols : List (List (Fl K))) (d : List ℕ) (u : List (Fl K)) : Prop where
  labels : d.length = cols.length
  values : u.length = cols.length
  right : ∀ (i : ℕ) (c : List (Fl K)) (j : ℕ), cols[i]? = some c → d[i]? = some j →
    j < k ∧ (∀ l < k, prob c l ≤ prob c j) ∧ (∀ l < j, prob c l < prob c j) ∧ u[i]? = some (.fin (1 - prob c j)) ∧ 0 ≤ 1 - prob c j ∧ 1 - prob c j < 1

/-- The label of a column of probabilities. -/
theorem column_label {k : ℕ} (hk : 0 < k) {c : List (Fl K)} (h : ProbColumn k c) : ∃ j, Fl.argmax c = .ok j ∧ j < k ∧ (∀ l < k, prob c l ≤ prob c j) ∧
    (∀ l < j, prob c l < prob c j) ∧ c[j]? = some (.fin (prob c j)) ∧ 0 < prob c j ∧ prob c j ≤ 1 := by
  obtain ⟨r, rfl, hr, hp, hs⟩ := h
  obtain ⟨j, h1, h2⟩ := argmax_spec (l := r) (by rintro rfl; simp at hr; omega)
  have hj : j < k := by rw [← hr]; exact h2.lt
  have hv : ∀ l (hl : l < r.length), prob (r.map fin) l = r[l] := fun l hl => by rw [prob_fin, List.getElem?_eq_getElem hl]; rfl
  refine ⟨j, by rw [argmax_fin, argmax_eq_iff]; exact (IsArgmax.map_iff (fun x y => WithBot.coe_lt_coe)).2 h2, hj, ?_, ?_, ?_, ?_, ?_⟩
  · intro l hl
    rw [hv l (by omega), hv j h2.lt]
    exact h2.max l (by omega)
  · intro l hl
    rw [hv l (by have := h2.lt; omega), hv j h2.lt]
    exact h2.first l hl
  · rw [hv j h2.lt, List.getElem?_map, List.getElem?_eq_getElem h2.lt]; rfl
  · rw [hv j h2.lt]; exact hp _ (List.getElem_mem _)
  · rw [hv j h2.lt, ← hs]
    exact List.single_le_sum (fun x hx => (hp x hx).le) _ (List.getElem_mem _)

/-- **C57** for the fitted data. -/
theorem C57_fitted_partial {k : ℕ} (hk : 0 < k) {s : VM V m Atom} (hs : s.varFitted = true) (h : ∀ c ∈ s.varD, ProbColumn k c) :
    ∃ d u, varMapCluster F W s .none true = .ok (.withVector d u) ∧ varMapCluster F W s .none false = .ok (.labels d) ∧ Uncertain k s.varD d u := by
  have hl : ∀ c, ∃ j, c ∈ s.varD → Fl.argmax c = .ok j ∧ j < k ∧ (∀ l < k, prob c l ≤ prob c j) ∧
      (∀ l < j, prob c l < prob c j) ∧ c[j]? = some (.fin (prob c j)) ∧ 0 < prob c j ∧ prob c j ≤ 1 := by
    intro c
    by_cases hc : c ∈ s.varD
    · obtain ⟨j, hj⟩ := column_label hk (h c hc)
      exact ⟨j, fun _ => hj⟩
    · exact ⟨0, fun h => absurd h hc⟩
  choose f hf using hl
  have harg : argmaxes s.varD = .ok (s.varD.map f) := by
    have gen : ∀ cols : List (List (Fl K)), (∀ c ∈ cols, Fl.argmax c = .ok (f c)) → argmaxes cols = .ok (cols.map f) := by
      intro cols
      induction cols with
      | nil => intro _; rfl
      | cons c cols ih =>
        intro h
        rw [argmaxes, h c (by simp), ih (fun c hc => h c (by simp [hc]))]
        rfl
    exact gen _ (fun c hc => (hf c hc).1)
  refine ⟨s.varD.map f, List.zipWith (fun c j => .fin 1 - (c[j]?).getD .nan) s.varD (s.varD.map f), ?_, ?_, ?_⟩
  · unfold varMapCluster
    rw [if_neg (by rw [hs]; simp)]
    simp only [harg]
    rfl
  · unfold varMapCluster
    rw [if_neg (by rw [hs]; simp)]
    simp only [harg]
    rfl
  · refine ⟨by simp, by simp, ?_⟩
    intro i c j hc hj
    have hmem := List.mem_of_getElem? hc
    obtain ⟨_, h2, h3, h4, h5, h6, h7⟩ := hf c hmem
    rw [List.getElem?_map, hc] at hj
    cases hj
    refine ⟨h2, h3, h4, ?_, by linarith, by linarith⟩
    rw [List.getElem?_zipWith, List.getElem?_map, hc]
    simp only [Option.map_some]
    rw [h5, Option.getD_some, fin_sub]

/-- **C57 fails** for new data: for every fitted object with usable weights and any `n` points the second value is a matrix with `n` rows and `n` columns, not a vector;
its entry `(i, l)` is the probability that point `l` has the label of point `i`, so the diagonal has the probability of the label, not one minus it. -/
theorem C57_new_refuted (hF : Sane F) (he : 0 < W.eps) {I : C.State → Prop} {k : ℕ} {s : VM V m Atom} (hs : s.varFitted = true)
    (h : Ready I k s) {w : ℕ → K} (hw : ∀ j < k, V.meanLogW s.gm.wst.1 s.vst j = .ok (fin (w j))) (ys : List (Fin m → K)) :
    ∃ d q, varMapCluster F W s (.array ys) true = .ok (.withMatrix d q) ∧ d.length = ys.length ∧ q.length = ys.length ∧ (∀ r ∈ q, r.length = ys.length) ∧
      ∃ cols : List (List (Fl K)), cols.length = ys.length ∧ (∀ c ∈ cols, ProbColumn k c) ∧
        ∀ i l c j, d[i]? = some j → cols[l]? = some c → entry q i l = some (.fin (prob c j)) := by
  obtain ⟨r, hr, hright⟩ := (C56_new_partial hF he hs h hw ys true).1
  obtain ⟨lw, h1, h2⟩ := mapColumn_fin hF h hw
  have hk : (s.varK.getD 0).toNat = k := by rw [h.varK]; simp
  unfold varMapCluster at hr ⊢
  rw [if_neg (by rw [hs]; simp)] at hr ⊢
  simp only [h1, hk] at hr ⊢
  rw [if_neg (by rw [h.theta]; simp)] at hr ⊢
  cases harg : argmaxes (ys.map (fun x => normMean F W.eps (mapColumn F k lw s.varTheta x))) with
  | error e => rw [harg] at hr; cases hr
  | ok d =>
    rw [harg] at hr
    cases hr
    obtain ⟨h3, h4⟩ := hright
    have h3' : d.length = ys.length := h3
    have hcols : ∀ c ∈ ys.map (fun x => normMean F W.eps (mapColumn F k lw s.varTheta x)), ProbColumn k c := by
      intro c hc
      obtain ⟨x, _, rfl⟩ := List.mem_map.1 hc
      rw [h2]
      have hne : (List.range k).map (score F s w x) ≠ [] := by
        intro h0
        have := congrArg List.length h0
        simp at this
        have := h.pos
        omega
      unfold normMean
      rw [mean_fin hne]
      have e1 : ((List.range k).map (score F s w x)).map fin = (((List.range k).map (score F s w x)).map (fun x : K => (x : WithBot K))).map ofBot := by
        rw [List.map_map (g := ofBot)]; rfl
      rw [e1, soft_eq hF he]
      have := soft_prob hF he (((List.range k).map (score F s w x)).sum / (((List.range k).map (score F s w x)).length : K))
        (l := ((List.range k).map (score F s w x)).map (fun x : K => (x : WithBot K))) (by simpa using h.pos.ne')
      simpa using this
    refine ⟨d, _, rfl, h3', by simp [h3'], ?_, _, by simp, hcols, ?_⟩
    · intro r hr
      obtain ⟨j, _, rfl⟩ := List.mem_map.1 hr
      simp
    · intro i l c j hi hl
      unfold entry
      rw [List.getElem?_map, hi]
      simp only [Option.map_some, Option.bind_some]
      rw [List.getElem?_map, hl]
      simp only [Option.map_some]
      have hi' : i < ys.length := by
        have := (List.getElem?_eq_some_iff.1 hi).1
        omega
      have hj := (h4 i _ j (List.getElem?_eq_getElem hi') hi).1
      obtain ⟨r, rfl, hr, _⟩ := hcols c (List.mem_of_getElem? hl)
      rw [prob_fin, List.getElem?_map, List.getElem?_eq_getElem (by omega)]
      rfl

/-! ### Concrete cases -/

example : (match varMapCluster demoFun world dpFit .none true with
    | .ok (.withVector d [.fin p, .fin q]) => decide (d = [0, 1] ∧ 0 < p ∧ p < 1 / 2 ∧ 0 < q ∧ q < 1 / 2)
    | _ => false) = true := by decide +kernel

/-- One new point: a `1 × 1` matrix. -/
example : (match varMapCluster demoFun world dpFit (.array [fun _ => 7]) true with
    | .ok (.withMatrix d [[.fin p]]) => decide (d = [1] ∧ 1 / 2 < p)
    | _ => false) = true := by decide +kernel
end Verif.Mix.VM
