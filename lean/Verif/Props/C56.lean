import Verif.Lemmas.VarFit
import Verif.Lemmas.VarRegular
import Verif.Lemmas.VarDemo
import Verif.Props.C53

/-!
# C56 — variational MAP labels do not depend on the normalisation

`score F s w x j` is the log responsibility of group `j` for the point `x` up to a constant: expected log weight plus expected Gaussian log density.

* `C56_normalisation`: subtracting any number, exponentiating, adding `eps` and normalising keeps the first index of the largest score; hence
  subtracting the maximum (`_update_var_d`) and subtracting the mean (`var_map_cluster`) give the same label.
* `C56_new_partial`: `var_map_cluster(y)` returns, for each point, the first index of the largest score, below `var_k` — for arrays and lists, with and
  without `full` — when the expected log weights are numbers.  This covers every class except frequency weighting with more groups than observations.
* `C56_frequency_refuted`: with one weight that is minus infinity the mean is minus infinity, every column becomes nan, and every point gets label `0`.
-/

set_option linter.unusedSectionVars false

namespace Verif

theorem IsArgmax.map_iff {α β : Type} [LinearOrder α] [LinearOrder β] {f : α → β} (hf : ∀ x y, f x < f y ↔ x < y) {l : List α} {i : ℕ} :
    IsArgmax (l.map f) i ↔ IsArgmax l i := by
  have hle : ∀ x y, f x ≤ f y ↔ x ≤ y := fun x y => by rw [← not_lt, ← not_lt, hf]
  constructor
  · intro h
    have hi : i < l.length := by simpa using h.lt
    refine ⟨hi, fun j hj => ?_, fun j hj => ?_⟩
    · have := h.max j (by simpa using hj)
      simpa [hle] using this
    · have := h.first j hj
      simpa [hf] using this
  · intro h
    refine ⟨by simpa using h.lt, fun j hj => ?_, fun j hj => ?_⟩
    · have := h.max j (by simpa using hj)
      simpa [hle] using this
    · have := h.first j hj
      simpa [hf] using this

namespace Mix.VM
open Verif.Fl
variable {K : Type} [Field K] [LinearOrder K] [IsStrictOrderedRing K] {m : ℕ} {C : WeightClass K} {V : VarClass C} {Atom : Type}
variable {F : MathFun K} {eps : K}

/-- **Normalisation does not matter**: for scores that are numbers or minus infinity, and any shift. -/
theorem C56_normalisation (hF : Sane F) (he : 0 < eps) (c : K) (l : List (WithBot K)) (i : ℕ) :
    Fl.argmax (((l.map ofBot).map (fun x => Fl.exp F.exp (x - fin c) + fin eps)).map
      (fun x => Fl.div x (Fl.sum ((l.map ofBot).map (fun x => Fl.exp F.exp (x - fin c) + fin eps))))) = .ok i ↔ IsArgmax l i := by
  rw [soft_eq hF he, argmax_fin, argmax_eq_iff, soft, List.map_map]
  by_cases hl : l = []
  · subst hl
    constructor <;> intro h <;> exact absurd h.lt (by simp)
  · have hS := soft_sum_pos hF he c hl
    apply IsArgmax.map_iff
    intro x y
    simp only [Function.comp_apply]
    rw [WithBot.coe_lt_coe, div_lt_div_iff_of_pos_right hS, add_lt_add_iff_right, bexp_lt_iff hF]

/-- The responsibilities of the fit itself: the label of an observation is the first largest score, also when some of them are minus infinity. -/
theorem C56_max (hF : Sane F) (he : 0 < eps) {l : List (WithBot K)} {x : K} (h : (x : WithBot K) ∈ l) (i : ℕ) :
    Fl.argmax (normMax F eps (l.map ofBot)) = .ok i ↔ IsArgmax l i := by
  obtain ⟨c, hc, _⟩ := normMax_eq hF he h
  unfold normMax
  rw [maximum_ofBot, hc]
  exact C56_normalisation hF he c l i

theorem mean_fin {l : List K} (hl : l ≠ []) : Fl.mean (l.map fin) = fin (l.sum / l.length) := by
  unfold Fl.mean
  rw [sum_fin, List.length_map, Fl.div, if_neg]
  have := List.length_pos_iff.2 hl
  positivity

/-- Subtracting the mean, for scores that are numbers. -/
theorem C56_mean (hF : Sane F) (he : 0 < eps) {l : List K} (hl : l ≠ []) (i : ℕ) : Fl.argmax (normMean F eps (l.map fin)) = .ok i ↔ IsArgmax l i := by
  have h1 : l.map fin = (l.map (fun x : K => (x : WithBot K))).map ofBot := by rw [List.map_map]; rfl
  unfold normMean
  rw [mean_fin hl, h1, C56_normalisation hF he]
  exact IsArgmax.map_iff (fun x y => WithBot.coe_lt_coe)

/-- The log responsibility of group `j` up to a constant common to all groups, `w` being its expected log weight: expected log weight, half the expected log "determinant",
minus `dim / (2 lambda)`, minus half the expected squared distance. -/
def score (F : MathFun K) (s : VM V m Atom) (w : ℕ → K) (x : Fin m → K) (j : ℕ) : K := match s.varTheta[j]? with
  | some (some a) => w j + ((F.log (frob F a.prec) + ((m : K) * F.log 2 + ((List.range m).map (fun i : ℕ => F.digamma ((a.scale - (i : ℕ)) / 2))).sum)) / 2
      - (m : K) / (2 * a.lam) - a.scale * quad a.prec x a.mu / 2)
  | _ => 0

theorem mapScore_fin (hF : Sane F) (x : Fin m → K) {a : VAtom K m} (h : a.prec ≠ 0) : mapScore F x (some a) = fin
    ((F.log (frob F a.prec) + ((m : K) * F.log 2 + ((List.range m).map (fun i : ℕ => F.digamma ((a.scale - (i : ℕ)) / 2))).sum)) / 2
      - (m : K) / (2 * a.lam) - a.scale * quad a.prec x a.mu / 2) := by
  simp only [mapScore]
  rw [eLogNormWishart_fin hF h]
  show fin (1 / 2 * _ + _) = fin _
  congr 1
  ring

theorem mapColumn_fin (hF : Sane F) {I : C.State → Prop} {k : ℕ} {s : VM V m Atom} (h : Ready I k s) {w : ℕ → K}
    (hw : ∀ j < k, V.meanLogW s.gm.wst.1 s.vst j = .ok (fin (w j))) :
    ∃ lw, logWeights V s.gm.wst.1 s.vst (List.range s.varTheta.length) = .ok lw ∧
      ∀ x, mapColumn F k lw s.varTheta x = ((List.range k).map (score F s w x)).map fin := by
  refine ⟨_, logWeights_ok (f := fun j => (w j : WithBot K)) (fun j hj => hw j ?_), ?_⟩
  · rw [h.theta] at hj; exact List.mem_range.1 hj
  · intro x
    unfold mapColumn
    rw [h.theta, Nat.sub_self, List.replicate_zero, List.append_nil]
    apply List.ext_getElem
    · simp [h.theta]
    · intro j h1 h2
      have hj : j < k := by simpa using h2
      have hj' : j < s.varTheta.length := by rw [h.theta]; exact hj
      obtain ⟨b, hb, hb'⟩ := h.atoms s.varTheta[j] (List.getElem_mem _)
      simp only [List.getElem_zipWith, List.getElem_map, List.getElem_range, ofBot_coe]
      rw [hb, mapScore_fin hF x hb', fin_add]
      unfold score
      rw [List.getElem?_eq_getElem hj', hb]

theorem argmaxes_ok {cols : List (List (Fl K))} {f : ℕ → ℕ} (h : ∀ i (hi : i < cols.length), Fl.argmax cols[i] = .ok (f i)) :
    argmaxes cols = .ok ((List.range cols.length).map f) := by
  induction cols generalizing f with
  | nil => rfl
  | cons c cols ih =>
    rw [argmaxes]
    have h0 := h 0 (by simp)
    rw [List.getElem_cons_zero] at h0
    rw [h0, ih (f := fun i => f (i + 1)) (fun i hi => by
      have := h (i + 1) (by simpa using hi)
      rwa [List.getElem_cons_succ] at this)]
    show Except.ok _ = Except.ok _
    rw [List.length_cons, List.range_succ_eq_map, List.map_cons, List.map_map]
    rfl

/-- The labels `d` are right for the points `ys`: first index of the largest score. -/
def RightLabels (F : MathFun K) (s : VM V m Atom) (w : ℕ → K) (k : ℕ) (ys : List (Fin m → K)) (d : List ℕ) : Prop :=
  d.length = ys.length ∧ ∀ (i : ℕ) (x : Fin m → K) (j : ℕ), ys[i]? = some x → d[i]? = some j → j < k ∧ IsArgmax ((List.range k).map (score F s w x)) j

/-- What the labels of a call are. -/
def VarClusters.theLabels : VarClusters K → List ℕ
  | .labels d => d
  | .withVector d _ => d
  | .withMatrix d _ => d

/-- **C56** for new points, when the expected log weights are numbers. -/
theorem C56_new_partial (hF : Sane F) {W : World K m Atom} (he : 0 < W.eps) {I : C.State → Prop} {k : ℕ} {s : VM V m Atom} (hs : s.varFitted = true)
    (h : Ready I k s) {w : ℕ → K} (hw : ∀ j < k, V.meanLogW s.gm.wst.1 s.vst j = .ok (fin (w j))) (ys : List (Fin m → K)) (full : Bool) :
    (∃ r, varMapCluster F W s (.array ys) full = .ok r ∧ RightLabels F s w k ys r.theLabels) ∧
    (∃ r, varMapCluster F W s (.list ys) full = .ok r ∧ RightLabels F s w k ys r.theLabels) := by
  obtain ⟨lw, h1, h2⟩ := mapColumn_fin hF h hw
  have hne : ∀ x, (List.range k).map (score F s w x) ≠ [] := fun x h0 => by
    have := congrArg List.length h0
    simp at this
    have := h.pos
    omega
  have hlab : ∀ x, ∃ j, Fl.argmax (normMean F W.eps (mapColumn F k lw s.varTheta x)) = .ok j ∧ IsArgmax ((List.range k).map (score F s w x)) j := by
    intro x
    obtain ⟨j, _, hj⟩ := argmax_spec (hne x)
    refine ⟨j, ?_, hj⟩
    rw [h2]
    exact (C56_mean hF he (hne x) j).2 hj
  choose f hf1 hf2 using hlab
  have hk : (s.varK.getD 0).toNat = k := by rw [h.varK]; simp
  have harg : argmaxes (ys.map (fun x => normMean F W.eps (mapColumn F k lw s.varTheta x))) = .ok (ys.map f) := by
    have := argmaxes_ok (cols := ys.map (fun x => normMean F W.eps (mapColumn F k lw s.varTheta x))) (f := fun i => ((ys.map f)[i]?).getD 0) (by
      intro i hi
      have hi' : i < ys.length := by simpa using hi
      rw [List.getElem_map, hf1, List.getElem?_eq_getElem (by simpa using hi')]
      simp)
    rw [this]
    congr 1
    apply List.ext_getElem
    · simp
    · intro i h3 h4
      simp only [List.getElem_map, List.getElem_range]
      rw [List.getElem?_eq_getElem h4]
      simp
  have hright : RightLabels F s w k ys (ys.map f) := by
    refine ⟨by simp, ?_⟩
    intro i x j hx hj
    rw [List.getElem?_map, hx] at hj
    cases hj
    refine ⟨?_, hf2 x⟩
    have := (hf2 x).lt
    simpa using this
  have both : ∀ q : YQuery K m, q = .array ys ∨ q = .list ys → ∃ r, varMapCluster F W s q full = .ok r ∧ RightLabels F s w k ys r.theLabels := by
    intro q hq
    have hval : ∃ r, (match logWeights V s.gm.wst.1 s.vst (List.range s.varTheta.length) with
      | .error e => .error e
      | .ok lw =>
        if (s.varK.getD 0).toNat < s.varTheta.length then .error .indexError
        else
          let cols := ys.map (fun x => normMean F W.eps (mapColumn F (s.varK.getD 0).toNat lw s.varTheta x))
          match argmaxes cols with
          | .error e => .error e
          | .ok d =>
            if full = false then .ok (.labels d)
            else .ok (.withMatrix d (d.map (fun j => cols.map (fun c => (c[j]?).getD .nan)))) : Except PyErr (VarClusters K)) = .ok r ∧
          RightLabels F s w k ys r.theLabels := by
      rw [h1]
      simp only []
      rw [hk, if_neg (by rw [h.theta]; simp), harg]
      simp only []
      cases full with
      | false => exact ⟨_, rfl, hright⟩
      | true => exact ⟨_, rfl, hright⟩
    rcases hq with rfl | rfl
    · unfold varMapCluster
      rw [if_neg (by rw [hs]; simp)]
      exact hval
    · unfold varMapCluster
      rw [if_neg (by rw [hs]; simp)]
      exact hval
  exact ⟨both _ (.inl rfl), both _ (.inr rfl)⟩

/-! ### Minus infinity -/

theorem foldl_add_ninf (l : List (WithBot K)) : (l.map ofBot).foldl Fl.add Fl.ninf = .ninf := by
  induction l with
  | nil => rfl
  | cons x l ih =>
    rw [List.map_cons, List.foldl_cons]
    cases x using WithBot.recBotCoe <;> exact ih

theorem sum_ninf {l : List (WithBot K)} (h : ⊥ ∈ l) : Fl.sum (l.map ofBot) = .ninf := by
  have : ∀ a : K, (l.map ofBot).foldl Fl.add (fin a) = .ninf := by
    induction l with
    | nil => cases h
    | cons x l ih =>
      intro a
      rw [List.map_cons, List.foldl_cons]
      cases x using WithBot.recBotCoe with
      | bot => exact foldl_add_ninf l
      | coe x =>
        refine ih ?_ (a + x)
        rcases List.mem_cons.1 h with h | h
        · exact absurd h (WithBot.bot_ne_coe)
        · exact h
  exact this 0

/-- One score that is minus infinity makes the whole column nan after subtracting the mean. -/
theorem normMean_ninf {l : List (WithBot K)} (h : ⊥ ∈ l) : normMean F eps (l.map ofBot) = List.replicate l.length .nan := by
  have hpos : (0 : K) < ((l.map ofBot).length : K) := by
    rw [List.length_map]
    have : 0 < l.length := List.length_pos_of_mem h
    positivity
  have hm : Fl.mean (l.map ofBot) = .ninf := by
    unfold Fl.mean
    rw [sum_ninf h, Fl.div, if_neg (not_lt.2 hpos.le)]
  unfold normMean
  rw [hm]
  have hn : Fl.nan ∈ (l.map ofBot).map (fun x => Fl.exp F.exp (x - .ninf) + .fin eps) := by
    rw [List.map_map]
    exact List.mem_map.2 ⟨⊥, h, rfl⟩
  simp only []
  rw [sum_nan hn]
  apply List.eq_replicate_iff.2
  refine ⟨by simp, ?_⟩
  intro b hb
  obtain ⟨x, _, rfl⟩ := List.mem_map.1 hb
  cases x <;> rfl

theorem argmax_nans {n : ℕ} (hn : 0 < n) : Fl.argmax (List.replicate n (Fl.nan : Fl K)) = .ok 0 := by
  obtain ⟨n, rfl⟩ := Nat.exists_eq_succ_of_ne_zero hn.ne'
  rw [List.replicate_succ, Fl.argmax]
  cases n with
  | zero => rfl
  | succ n => rfl

/-- **C56 fails** when one expected log weight is minus infinity, as in frequency weighting with more groups than observations: all points get label `0`,
whatever the scores. -/
theorem C56_frequency_refuted (hF : Sane F) {W : World K m Atom} {I : C.State → Prop} {k : ℕ} {s : VM V m Atom} (hs : s.varFitted = true) (h : Ready I k s)
    {j : ℕ} (hj : j < k) (hw : V.meanLogW s.gm.wst.1 s.vst j = .ok .ninf) (ys : List (Fin m → K)) :
    varMapCluster F W s (.array ys) false = .ok (.labels (List.replicate ys.length 0)) := by
  obtain ⟨f, hf, _⟩ := h.weights
  have h1 : logWeights V s.gm.wst.1 s.vst (List.range s.varTheta.length) = .ok (((List.range s.varTheta.length).map f).map ofBot) :=
    logWeights_ok (fun j hj => hf j (by rw [h.theta] at hj; exact List.mem_range.1 hj))
  have hfj : f j = ⊥ := by
    have := hf j hj
    rw [hw] at this
    injection this with this
    exact ofBot_inj this.symm
  have hcol : ∀ x, ∃ l : List (WithBot K), l.length = k ∧ ⊥ ∈ l ∧ mapColumn F k (((List.range s.varTheta.length).map f).map ofBot) s.varTheta x = l.map ofBot := by
    intro x
    refine ⟨(List.range k).map (fun j => f j + ((score F s (fun _ => 0) x j : K) : WithBot K)), by simp, ?_, ?_⟩
    · refine List.mem_map.2 ⟨j, List.mem_range.2 hj, ?_⟩
      rw [hfj]
      exact WithBot.bot_add _
    · unfold mapColumn
      rw [h.theta, Nat.sub_self, List.replicate_zero, List.append_nil]
      apply List.ext_getElem
      · simp [h.theta]
      · intro i h3 h4
        have hi : i < k := by simpa using h4
        have hi' : i < s.varTheta.length := by rw [h.theta]; exact hi
        obtain ⟨b, hb, hb'⟩ := h.atoms s.varTheta[i] (List.getElem_mem _)
        simp only [List.getElem_zipWith, List.getElem_map, List.getElem_range]
        rw [hb, mapScore_fin hF x hb', ← ofBot_coe, ofBot_add]
        unfold score
        rw [List.getElem?_eq_getElem hi', hb]
        simp only [zero_add]
  have hk : (s.varK.getD 0).toNat = k := by rw [h.varK]; simp
  have harg : argmaxes (ys.map (fun x => normMean F W.eps (mapColumn F k (((List.range s.varTheta.length).map f).map ofBot) s.varTheta x)))
      = .ok (List.replicate ys.length 0) := by
    have := argmaxes_ok (cols := ys.map (fun x => normMean F W.eps (mapColumn F k (((List.range s.varTheta.length).map f).map ofBot) s.varTheta x))) (f := fun _ => 0) (by
      intro i hi
      rw [List.getElem_map]
      obtain ⟨l, hl1, hl2, hl3⟩ := hcol (ys[i]'(by simpa using hi))
      rw [hl3, normMean_ninf hl2, hl1]
      exact argmax_nans h.pos)
    rw [this]
    congr 1
    rw [List.map_const', List.length_range, List.length_map]
  unfold varMapCluster
  rw [if_neg (by rw [hs]; simp)]
  simp only []
  rw [h1]
  simp only []
  rw [hk, if_neg (by rw [h.theta]; simp), harg]
  rfl

/-! ### Concrete cases -/

/-- A Dirichlet process mixture after a fit. -/
def dpFit : VM (varDP demoFun) 1 ℚ :=
  (fitVariational vworld world (rows1 [0, 7]) (some 2) false (.fin 0) .random demo
    ({ dpVM 1 with gm := { (dpVM 1).gm with psiPrior := some (fun _ _ => 1) } }, 0)).2.1

/-- A fresh mixture with frequency weights. -/
def freqVM (T : ℤ) : VM (varFreq demoFun) 1 ℚ := VM.init _
  { totalIter := T, burnIn := 0, subsample := 1, nAttr := none, muPrior := none, lam := 1, psiPrior := some (fun _ _ => 1), nuPrior := none, y := [], d := [],
    theta := [], thetaDefault := false, u := [], affinity := [], mapParams := none, mapLL := ⊥, saved := [], nGroups := [], nAtoms := [],
    totalSaved := 0, gibbsFitted := false, wst := ((Freq.init 1 : Freq ℚ), 0) }

/-- Two observations, three groups. -/
def freqFit : VM (varFreq demoFun) 1 ℚ :=
  (fitVariational vworld world (rows1 [0, 7]) (some 3) false (.fin 0) .random demo (freqVM 1, 0)).2.1

/-- Three new points: the labels follow the scores. -/
example : varMapCluster demoFun world dpFit (.array [fun _ => 0, fun _ => 2, fun _ => 7]) false = .ok (.labels [0, 0, 1]) ∧ dpFit.varFitted = true := by
  decide +kernel

/-- In the column of the point `7` the largest score is that of group `1`, the third one is minus infinity, and the label is `0`. -/
example : varMapCluster demoFun world freqFit (.array [fun _ => 7]) false = .ok (.labels [0]) ∧ freqFit.varFitted = true ∧
    (logWeights (varFreq demoFun) freqFit.gm.wst.1 freqFit.vst [0, 1, 2] >>= fun lw => Fl.argmax (mapColumn demoFun 3 lw freqFit.varTheta (fun _ => 7))) = .ok 1 := by
  decide +kernel
end Mix.VM
end Verif
