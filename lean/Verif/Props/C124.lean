import Verif.Props.C123
import Verif.Props.C68
import Verif.Props.C88
import Verif.Props.C90
import Verif.Props.C91

/-!
# C124 — iterations do not lower the evidence lower bound

Coordinate ascent changes one factor of the variational law at a time to the best one, so the bound never falls.  Here:

* `C124_labels`: the responsibilities the code computes are the best ones up to the constant `eps` that is added for numerical reasons, whose cost is at most
  `epsLoss`, for any scores.
* `C124_ascent`: from this, and if the law of the weights is then replaced by the best one, the part of the textbook bound with labels and weights falls by
  at most `epsLoss` of the observations.
* `C124_dirichletProcess_partial`, `C124_pitmanYor_partial`: so do the two updates on a mixture object, from any state in which the weights come from a fit
  (every state that an iteration leaves, C123); they never raise.
* Missing for the full property: the third update and the bound itself.  `C124_groups_refuted`: the new law of a group is not the best one (it is not for
  univariate data unless the observations agree or their responsibilities sum to one).  `C124_bound_refuted`: the bound the code computes, and uses to
  stop, is lower after the second iteration than after the first, in fits with two groups of equal weight.  The geometric process and the Dirichlet
  distribution do not fit the best law of the weights (C88, C90).
-/

set_option linter.unusedSectionVars false

namespace Verif.Mix.VM
open MeasureTheory Matrix
open Verif.Fl (fin matrix_fin ofBot ofBot_coe)

/-! ### The labels -/

/-- What the constant `eps` costs at most, for one observation with the given scores: the distance of every score from the largest counts. -/
noncomputable def epsLoss (eps : ℝ) {k : ℕ} (s : Fin k → ℝ) : ℝ := eps * ∑ j, (1 + eps + ((⨆ i, s i) - s j))

/-- The new responsibilities of one observation. -/
structure NewColumn (eps : ℝ) {k : ℕ} (s r : Fin k → ℝ) : Prop where
  column : normMax realFun eps ((List.ofFn s).map fin) = (List.ofFn r).map fin
  pos : ∀ j, 0 < r j
  one : ∑ j, r j = 1

/-- The constant `eps` costs at most `epsLoss`. -/
theorem C124_labels {eps : ℝ} (he : 0 < eps) {k : ℕ} (hk : 0 < k) (s : Fin k → ℝ) :
    ∃ r, NewColumn eps s r ∧ ∀ r' : Fin k → ℝ, (∀ j, 0 ≤ r' j) → ∑ j, r' j = 1 → respBound s r' ≤ respBound s r + epsLoss eps s := by
  have : Nonempty (Fin k) := ⟨⟨0, hk⟩⟩
  let l : List (WithBot ℝ) := List.ofFn fun j => ((s j : ℝ) : WithBot ℝ)
  have hl : (List.ofFn s).map fin = l.map ofBot := by
    simp only [l, List.map_ofFn]
    rfl
  obtain ⟨c, hc, h1⟩ := normMax_eq realFun_sane he (l := l) (x := s ⟨0, hk⟩) (List.mem_ofFn.2 ⟨_, rfl⟩)
  have hmax : ∀ (l : List (WithBot ℝ)) (a : WithBot ℝ), a ≤ l.foldl Max.max a ∧ (∀ y ∈ l, y ≤ l.foldl Max.max a) ∧ (l.foldl Max.max a = a ∨ l.foldl Max.max a ∈ l) := by
    intro l
    induction l with
    | nil => intro a; exact ⟨le_rfl, fun y hy => (by cases hy), .inl rfl⟩
    | cons y l ih =>
      intro a
      obtain ⟨i1, i2, i3⟩ := ih (Max.max a y)
      rw [List.foldl_cons]
      refine ⟨le_trans (le_max_left _ _) i1, fun z hz => ?_, ?_⟩
      · rcases List.mem_cons.1 hz with rfl | hz
        · exact le_trans (le_max_right _ _) i1
        · exact i2 z hz
      · rcases i3 with h | h
        · rw [h]
          rcases max_choice a y with h' | h'
          · exact .inl h'
          · rw [h']; exact .inr (List.mem_cons_self ..)
        · exact .inr (List.mem_cons_of_mem _ h)
  have htop : ∀ j, s j ≤ c := fun j => by
    have := (hmax l ⊥).2.1 _ (List.mem_ofFn.2 ⟨j, rfl⟩)
    rw [hc] at this
    exact WithBot.coe_le_coe.1 this
  have hatt : ∃ j, s j = c := by
    rcases (hmax l ⊥).2.2 with h | h
    · rw [hc] at h; exact absurd h (by simp)
    · rw [hc] at h
      obtain ⟨j, hj⟩ := List.mem_ofFn.1 h
      exact ⟨j, WithBot.coe_injective hj⟩
  have hS : (l.map (fun x => bexp realFun c x + eps)).sum = ∑ j, (Real.exp (s j - c) + eps) := by
    simp only [l, List.map_ofFn, List.sum_ofFn, Function.comp_def, bexp_coe]
    rfl
  have hpos : 0 < ∑ j, (Real.exp (s j - c) + eps) := Finset.sum_pos (fun j _ => add_pos (Real.exp_pos _) he) Finset.univ_nonempty
  set S := ∑ j, (Real.exp (s j - c) + eps) with hSd
  have hS1 : 1 ≤ S := by
    obtain ⟨j, hj⟩ := hatt
    have : Real.exp (s j - c) + eps ≤ S := Finset.single_le_sum (f := fun j => Real.exp (s j - c) + eps) (fun j _ => (add_pos (Real.exp_pos _) he).le) (Finset.mem_univ j)
    rw [hj, sub_self, Real.exp_zero] at this
    linarith
  have hr1 : ∑ j, (Real.exp (s j - c) + eps) / S = 1 := by
    simp_rw [div_eq_mul_inv]
    rw [← Finset.sum_mul, mul_inv_cancel₀ hpos.ne']
  have hsup : (⨆ i, s i) = c := by
    obtain ⟨j, hj⟩ := hatt
    exact le_antisymm (ciSup_le htop) (hj ▸ le_ciSup (Set.finite_range s).bddAbove j)
  refine ⟨fun j => (Real.exp (s j - c) + eps) / S, ⟨?_, fun j => div_pos (add_pos (Real.exp_pos _) he) hpos, hr1⟩, ?_⟩
  · rw [hl, h1]
    congr 1
    unfold soft
    rw [hS]
    simp only [l, List.map_ofFn, Function.comp_def, bexp_coe]
    rfl
  · intro r' hr' h1'
    refine le_trans (C91_softmax_best hk s r' hr' h1').1 ?_
    have hT : 0 < ∑ j, Real.exp (s j - c) := Finset.sum_pos (fun j _ => Real.exp_pos _) Finset.univ_nonempty
    have eZ : Real.log (∑ j, Real.exp (s j)) = c + Real.log (∑ j, Real.exp (s j - c)) := by
      simp_rw [Real.exp_sub, div_eq_mul_inv]
      rw [← Finset.sum_mul, Real.log_mul (Finset.sum_pos (fun j _ => Real.exp_pos _) Finset.univ_nonempty).ne' (inv_pos.2 (Real.exp_pos _)).ne', Real.log_inv, Real.log_exp]
      ring
    have hTS : ∑ j, Real.exp (s j - c) ≤ S := Finset.sum_le_sum fun j _ => by linarith
    have hlogTS := Real.log_le_log hT hTS
    have key : ∀ j ∈ Finset.univ, (Real.exp (s j - c) + eps) / S * (s j - c) - (Real.exp (s j - c) + eps) / S * Real.log ((Real.exp (s j - c) + eps) / S)
        ≥ (Real.exp (s j - c) + eps) / S * Real.log S - eps * (1 + eps + (c - s j)) := by
      intro j _
      have hg : 0 ≤ c - s j := sub_nonneg.2 (htop j)
      set e := Real.exp (s j - c) with hed
      have he0 : 0 < e := Real.exp_pos _
      have heps : 0 < e + eps := add_pos he0 he
      rw [Real.log_div heps.ne' hpos.ne']
      have e1 : Real.log (e + eps) - (s j - c) ≤ eps / e := by
        have : Real.log (e + eps) - (s j - c) = Real.log ((e + eps) / e) := by rw [Real.log_div heps.ne' he0.ne', hed, Real.log_exp]
        rw [this]
        have := Real.log_le_sub_one_of_pos (div_pos heps he0)
        have e2 : (e + eps) / e - 1 = eps / e := by field_simp; ring
        linarith
      have e3 : Real.log (e + eps) - (s j - c) ≤ eps + (c - s j) := by
        have he1 : e ≤ 1 := Real.exp_le_one_iff.2 (by linarith)
        have := Real.log_le_sub_one_of_pos heps
        linarith
      have h0 : 0 ≤ Real.log (e + eps) - (s j - c) := by
        have := Real.log_le_log he0 (by linarith : e ≤ e + eps)
        rw [hed, Real.log_exp] at this
        linarith
      have h5 : (e + eps) * (Real.log (e + eps) - (s j - c)) ≤ eps * (1 + eps + (c - s j)) := by
        have a1 : e * (Real.log (e + eps) - (s j - c)) ≤ eps := by
          calc _ ≤ e * (eps / e) := by gcongr
            _ = eps := by field_simp
        have a2 : eps * (Real.log (e + eps) - (s j - c)) ≤ eps * (eps + (c - s j)) := by gcongr
        nlinarith
      have h6 : (e + eps) / S * (Real.log (e + eps) - (s j - c)) ≤ eps * (1 + eps + (c - s j)) := by
        refine le_trans ?_ h5
        rw [div_mul_eq_mul_div]
        exact div_le_self (mul_nonneg heps.le h0) hS1
      nlinarith
    have hsum := Finset.sum_le_sum fun j hj => (ge_iff_le.1 (key j hj))
    rw [Finset.sum_sub_distrib, ← Finset.sum_mul, hr1, one_mul, ← Finset.mul_sum, Finset.sum_sub_distrib] at hsum
    have hc1 : ∑ j, (Real.exp (s j - c) + eps) / S * (s j - c) = ∑ j, (Real.exp (s j - c) + eps) / S * s j - c := by
      simp_rw [mul_sub]
      rw [Finset.sum_sub_distrib, ← Finset.sum_mul, hr1, one_mul]
    rw [hc1] at hsum
    unfold respBound epsLoss
    rw [eZ, hsup]
    linarith

/-! ### Labels and weights -/

/-- The part of the evidence lower bound that depends on the responsibilities `r` (of observations for groups) and the law `Q` of the weights, for the prior `P` of the weights and the
expected log-densities `g` of the observations in the groups.  It is minus infinity if the divergence from the prior is infinite. -/
noncomputable def jointBound {n k : ℕ} (g r : Fin n → Fin k → ℝ) (P Q : Measure (Fin k → ℝ)) : EReal :=
  ((∑ i, (∑ j, r i j * g i j - ∑ j, r i j * Real.log (r i j)) : ℝ) : EReal) - (varCost P (countLogLik fun j => ∑ i, r i j) Q : EReal)

theorem varCost_labels {k : ℕ} {P Q : Measure (Fin k → ℝ)} {c : Fin k → ℝ} (hc : ∀ j, 0 ≤ c j) (h01 : ∀ᵐ w ∂P, ∀ j, 0 ≤ w j ∧ w j ≤ 1)
    (hi : ∀ j, Integrable (fun w => Real.log (w j)) Q) (hk : InformationTheory.klDiv Q P ≠ ⊤) :
    ∑ j, c j * ∫ w, Real.log (w j) ∂Q ≤ 0 ∧ varCost P (countLogLik c) Q = ENNReal.ofReal (-∑ j, c j * ∫ w, Real.log (w j) ∂Q) + InformationTheory.klDiv Q P := by
  obtain ⟨hac, _⟩ := InformationTheory.klDiv_ne_top_iff.1 hk
  have e : ∫ w, countLogLik c w ∂Q = ∑ j, c j * ∫ w, Real.log (w j) ∂Q := by
    unfold countLogLik
    rw [integral_finsetSum _ fun j _ => (hi j).const_mul _]
    simp_rw [integral_const_mul]
  have hI : Integrable (countLogLik c) Q := integrable_finsetSum _ fun j _ => (hi j).const_mul _
  have h0 : ∀ᵐ w ∂Q, 0 ≤ -countLogLik c w := by
    filter_upwards [hac.ae_le h01] with w hw
    exact neg_nonneg.2 (Finset.sum_nonpos fun j _ => mul_nonpos_of_nonneg_of_nonpos (hc j) (Real.log_nonpos (hw j).1 (hw j).2))
  refine ⟨?_, ?_⟩
  · rw [← e]
    exact integral_nonpos_of_ae (h0.mono fun w hw => neg_nonneg.1 hw)
  · have hn : Integrable (fun w => -countLogLik c w) Q := hI.neg
    rw [varCost, ← ofReal_integral_eq_lintegral_ofReal hn h0, integral_neg, e]

theorem jointBound_eq {n k : ℕ} {g r : Fin n → Fin k → ℝ} {P Q : Measure (Fin k → ℝ)} (hr : ∀ i j, 0 ≤ r i j) (h01 : ∀ᵐ w ∂P, ∀ j, 0 ≤ w j ∧ w j ≤ 1)
    (hi : ∀ j, Integrable (fun w => Real.log (w j)) Q) (hk : InformationTheory.klDiv Q P ≠ ⊤) :
    jointBound g r P Q = ((∑ i, respBound (fun j => ∫ w, Real.log (w j) ∂Q + g i j) (r i) - (InformationTheory.klDiv Q P).toReal : ℝ) : EReal) := by
  obtain ⟨h0, h1⟩ := varCost_labels (c := fun j => ∑ i, r i j) (fun j => Finset.sum_nonneg fun i _ => hr i j) h01 hi hk
  unfold jointBound
  rw [h1, ← ENNReal.ofReal_toReal hk, ← ENNReal.ofReal_add (neg_nonneg.2 h0) ENNReal.toReal_nonneg, EReal.coe_ennreal_ofReal,
    max_eq_left (add_nonneg (neg_nonneg.2 h0) ENNReal.toReal_nonneg), ← EReal.coe_sub, ENNReal.toReal_ofReal ENNReal.toReal_nonneg]
  congr 1
  have e : ∑ j, (∑ i, r i j) * ∫ w, Real.log (w j) ∂Q = ∑ i, ∑ j, r i j * ∫ w, Real.log (w j) ∂Q := by
    simp_rw [Finset.sum_mul]
    exact Finset.sum_comm
  rw [e]
  unfold respBound
  simp_rw [mul_add, Finset.sum_add_distrib, Finset.sum_sub_distrib, Finset.sum_add_distrib]
  ring

/-- The responsibilities are a probability vector for every observation. -/
def Responsibilities {n k : ℕ} (r : Fin n → Fin k → ℝ) : Prop := (∀ i j, 0 ≤ r i j) ∧ ∀ i, ∑ j, r i j = 1

/-- Changing first the responsibilities as the code does, then the law of the weights to the best one, lowers the bound by at most `epsLoss` of the observations. -/
theorem C124_ascent {n k : ℕ} {g r0 r1 : Fin n → Fin k → ℝ} {P Q0 Q1 : Measure (Fin k → ℝ)} {eps : ℝ} (he : 0 < eps) (hk : 0 < k) (h01 : ∀ᵐ w ∂P, ∀ j, 0 ≤ w j ∧ w j ≤ 1)
    (hQ0 : IsProbabilityMeasure Q0) (hi : ∀ j, Integrable (fun w => Real.log (w j)) Q0) (h0 : Responsibilities r0)
    (h1 : ∀ i, normMax realFun eps ((List.ofFn fun j => ∫ w, Real.log (w j) ∂Q0 + g i j).map fin) = (List.ofFn (r1 i)).map fin)
    (hopt : Optimal P (countLogLik fun j => ∑ i, r1 i j) Q1) :
    jointBound g r0 P Q0 ≤ jointBound g r1 P Q1 + ((∑ i, epsLoss eps fun j => ∫ w, Real.log (w j) ∂Q0 + g i j : ℝ) : EReal) := by
  by_cases hkl : InformationTheory.klDiv Q0 P = ⊤
  · have : jointBound g r0 P Q0 = ⊥ := by
      unfold jointBound varCost
      rw [hkl, add_top]
      rfl
    rw [this]
    exact bot_le
  have hr1 : Responsibilities r1 ∧ ∀ i, respBound (fun j => ∫ w, Real.log (w j) ∂Q0 + g i j) (r0 i) ≤
      respBound (fun j => ∫ w, Real.log (w j) ∂Q0 + g i j) (r1 i) + epsLoss eps fun j => ∫ w, Real.log (w j) ∂Q0 + g i j := by
    have : ∀ i, ((∀ j, 0 ≤ r1 i j) ∧ ∑ j, r1 i j = 1) ∧ respBound (fun j => ∫ w, Real.log (w j) ∂Q0 + g i j) (r0 i) ≤
        respBound (fun j => ∫ w, Real.log (w j) ∂Q0 + g i j) (r1 i) + epsLoss eps fun j => ∫ w, Real.log (w j) ∂Q0 + g i j := by
      intro i
      obtain ⟨r, hr, hb⟩ := C124_labels he hk (fun j => ∫ w, Real.log (w j) ∂Q0 + g i j)
      have hinj : Function.Injective (fin : ℝ → Fl ℝ) := fun a b h => by cases h; rfl
      have e : r1 i = r := List.ofFn_injective (List.map_injective_iff.2 hinj ((h1 i).symm.trans hr.column))
      rw [e]
      exact ⟨⟨fun j => (hr.pos j).le, hr.one⟩, hb _ (h0.1 i) (h0.2 i)⟩
    exact ⟨⟨fun i => (this i).1.1, fun i => (this i).1.2⟩, fun i => (this i).2⟩
  have e0 := jointBound_eq (g := g) h0.1 h01 hi hkl
  have e1 := jointBound_eq (g := g) hr1.1.1 h01 hi hkl
  have s1 : jointBound g r0 P Q0 ≤ jointBound g r1 P Q0 + ((∑ i, epsLoss eps fun j => ∫ w, Real.log (w j) ∂Q0 + g i j : ℝ) : EReal) := by
    rw [e0, e1, ← EReal.coe_add, EReal.coe_le_coe_iff]
    have := Finset.sum_le_sum fun i (_ : i ∈ Finset.univ) => hr1.2 i
    rw [Finset.sum_add_distrib] at this
    linarith
  refine le_trans s1 (add_le_add_left ?_ _)
  unfold jointBound
  exact EReal.sub_le_sub le_rfl (EReal.coe_ennreal_le_coe_ennreal_iff.2 ((hopt.2 Q0 hQ0).1))

/-! ### Mixtures -/

variable {m : ℕ} {C : WeightClass ℝ} {V : VarClass C} {Atom : Type} {ω : Oracle ℝ} {W : World ℝ m Atom} {J : C.State → Prop}

/-- The weight class fits the best law of `k` weights, and its expected log weights are expectations under the law fitted. -/
structure FitsLaw (V : VarClass C) (J : C.State → Prop) (k : ℕ) (prior : C.State → Measure (Fin k → ℝ)) (law : V.State → Measure (Fin k → ℝ)) : Prop where
  range : ∀ c, J c → ∀ᵐ w ∂prior c, ∀ j, 0 ≤ w j ∧ w j ≤ 1
  fit : ∀ (c : C.State) (q : List (List ℝ)), J c → q.length = k → NonNegMatrix q → ∃ v, V.fit c (q.map (fun r => r.map fin)) = .ok (c, v) ∧
    IsProbabilityMeasure (law v) ∧ (∀ j, Integrable (fun w => Real.log (w j)) (law v)) ∧ (∀ j : Fin k, V.meanLogW c v j = .ok (fin (∫ w, Real.log (w j) ∂law v))) ∧
    Optimal (prior c) (countLogLik fun j : Fin k => ((q[(j : ℕ)]?).getD []).sum) (law v)

/-- The weights of the object come from a fit with `k` rows of responsibilities. -/
def WeightsFitted (V : VarClass C) (J : C.State → Prop) (k : ℕ) (s : VM V m Atom) : Prop :=
  ∃ q : List (List ℝ), J s.gm.wst.1 ∧ q.length = k ∧ NonNegMatrix q ∧ V.fit s.gm.wst.1 (q.map (fun r => r.map fin)) = .ok (s.gm.wst.1, s.vst)

/-- The expected log-densities of the observations in the groups, as the code computes them. -/
noncomputable def scores (ys : List (Fin m → ℝ)) {k : ℕ} (as : Fin k → VAtom ℝ m) (i : Fin ys.length) (j : Fin k) : ℝ := numScore realFun ys[i] (as j)

theorem rowsStored {ys : List (Fin m → ℝ)} {s : VM V m Atom} {k : ℕ} (hK : s.varK = some (k : ℤ)) {r : Fin ys.length → Fin k → ℝ} (h : s.varD = List.ofFn fun i => (List.ofFn (r i)).map fin) :
    varRows s = (List.ofFn fun j => List.ofFn fun i => r i j).map (fun r => r.map fin) := by
  unfold varRows
  rw [hK, h]
  simp only [Option.getD_some, Int.toNat_natCast]
  refine List.ext_getElem (by simp) fun j h1 h2 => ?_
  have hj : j < k := by simpa using h1
  simp only [List.getElem_map, List.getElem_range, List.getElem_ofFn, List.map_ofFn, Function.comp_apply]
  refine congrArg List.ofFn (funext fun i => ?_)
  simp [hj]

/-- **One update of labels and weights** never raises, and lowers the bound by at most `epsLoss` of the observations, compared with any responsibilities and the law of the weights before. -/
theorem labels_weights_step {k : ℕ} {prior : C.State → Measure (Fin k → ℝ)} {law : V.State → Measure (Fin k → ℝ)} (hV : FitsLaw V J k prior law) (he : 0 < W.eps) (hk : 0 < k)
    {s : VM V m Atom × ℕ} (hK : s.1.varK = some (k : ℤ)) {as : Fin k → VAtom ℝ m} (hth : s.1.varTheta = List.ofFn fun j => some (as j)) (hP : ∀ j, (as j).prec ≠ 0)
    (hw : WeightsFitted V J k s.1) :
    ∃ u r1, (do updateVarD realFun W; updateVarW : M ℝ (VM V m Atom) Unit) ω s = (.ok (), u) ∧ WeightsFitted V J k u.1 ∧ u.1.varTheta = s.1.varTheta ∧
      u.1.gm = s.1.gm ∧ u.1.varD = (List.ofFn fun i : Fin s.1.gm.y.length => (List.ofFn (r1 i)).map fin) ∧ Responsibilities r1 ∧
      ∀ r0, Responsibilities r0 → jointBound (scores s.1.gm.y as) r0 (prior s.1.gm.wst.1) (law s.1.vst) ≤
        jointBound (scores s.1.gm.y as) r1 (prior s.1.gm.wst.1) (law u.1.vst) +
          ((∑ i, epsLoss W.eps fun j => ∫ w, Real.log (w j) ∂law s.1.vst + scores s.1.gm.y as i j : ℝ) : EReal) := by
  obtain ⟨q, hJ, hq, hn, hf⟩ := hw
  obtain ⟨v, f1, f2, f3, f4, _⟩ := hV.fit _ q hJ hq hn
  have hv : v = s.1.vst := by
    rw [hf] at f1
    cases f1
    rfl
  subst hv
  have hlw : logWeights V s.1.gm.wst.1 s.1.vst (List.range k) = .ok ((List.ofFn fun j : Fin k => ∫ w, Real.log (w j) ∂law s.1.vst).map fin) := by
    have := logWeights_ok (V := V) (c := s.1.gm.wst.1) (v := s.1.vst) (js := List.range k)
      (f := fun j => ((if h : j < k then ∫ w, Real.log (w ⟨j, h⟩) ∂law s.1.vst else 0 : ℝ) : WithBot ℝ)) (fun j hj => by
        rw [dif_pos (List.mem_range.1 hj)]
        exact f4 ⟨j, List.mem_range.1 hj⟩)
    rw [this]
    congr 1
    refine List.ext_getElem (by simp) fun j h1 h2 => ?_
    have hj : j < k := by simpa using h1
    simp [hj]
  choose r1 hr1 hb using fun i : Fin s.1.gm.y.length => C124_labels he hk (fun j => ∫ w, Real.log (w j) ∂law s.1.vst + scores s.1.gm.y as i j)
  have hcol : ∀ i : Fin s.1.gm.y.length, scoreColumn realFun k ((List.ofFn fun j : Fin k => ∫ w, Real.log (w j) ∂law s.1.vst).map fin) s.1.varTheta s.1.gm.y[i]
      = (List.ofFn fun j => ∫ w, Real.log (w j) ∂law s.1.vst + scores s.1.gm.y as i j).map fin := by
    intro i
    unfold scoreColumn
    rw [hth, List.length_ofFn, Nat.sub_self, List.replicate_zero, List.append_nil]
    refine List.ext_getElem (by simp) fun j h1 h2 => ?_
    have hj : j < k := by simpa using h2
    simp only [List.getElem_zipWith, List.getElem_map, List.getElem_ofFn]
    rw [atomScore_fin realFun_sane _ (hP _)]
    rfl
  let d : List (List (Fl ℝ)) := List.ofFn fun i : Fin s.1.gm.y.length => (List.ofFn (r1 i)).map fin
  have hD : s.1.gm.y.map (fun x => normMax realFun W.eps (scoreColumn realFun k ((List.ofFn fun j : Fin k => ∫ w, Real.log (w j) ∂law s.1.vst).map fin) s.1.varTheta x)) = d := by
    refine List.ext_getElem (by simp [d]) fun i h1 h2 => ?_
    have hi : i < s.1.gm.y.length := by simpa using h1
    simp only [List.getElem_map, d, List.getElem_ofFn]
    rw [← (hr1 ⟨i, hi⟩).column, ← hcol ⟨i, hi⟩]
    rfl
  have hrun1 : updateVarD realFun W ω s = (.ok (), ({ s.1 with varD := d }, s.2)) := by
    have hw : wp ω (updateVarD realFun W) (fun _ t => t = ({ s.1 with varD := d }, s.2)) (fun _ _ => False) s := by
      unfold updateVarD
      rw [wp_bind, wp_self, hK]
      simp only []
      rw [if_neg (by omega), wp_bind, wp_lift]
      have hl : s.1.varTheta.length = k := by rw [hth, List.length_ofFn]
      rw [hl, hlw]
      refine ⟨?_, fun e he => by cases he⟩
      intro lw' h
      cases h
      rw [if_neg (by simp), wp_assign, ← hD]
      rfl
    obtain ⟨_, t, h4, h5⟩ := wp_total hw
    rw [h4, h5]
  let q1 : List (List ℝ) := List.ofFn fun j => List.ofFn fun i => r1 i j
  have hrows : varRows ({ s.1 with varD := d } : VM V m Atom) = q1.map (fun r => r.map fin) := rowsStored (s := { s.1 with varD := d }) (r := r1) hK rfl
  have hq1 : q1.length = k := by simp [q1]
  have hn1 : NonNegMatrix q1 := by
    intro r hr x hx
    obtain ⟨j, rfl⟩ := List.mem_ofFn.1 hr
    obtain ⟨i, rfl⟩ := List.mem_ofFn.1 hx
    exact ((hr1 i).pos j).le
  obtain ⟨v1, g1, g2, g3, g4, g5⟩ := hV.fit _ q1 hJ hq1 hn1
  have hrun2 : (updateVarW : M ℝ (VM V m Atom) Unit) ω ({ s.1 with varD := d }, s.2) = (.ok (), ({ s.1 with varD := d, vst := v1 }, s.2)) := by
    have hw : wp ω (updateVarW : M ℝ (VM V m Atom) Unit) (fun _ t => t = ({ s.1 with varD := d, vst := v1 }, s.2)) (fun _ _ => False) ({ s.1 with varD := d }, s.2) := by
      unfold updateVarW fitWeights
      rw [wp_bind, wp_self, wp_bind, wp_self, wp_bind, wp_lift]
      refine ⟨fun r hr => ?_, fun e hr => ?_⟩
      · rw [hrows] at hr
        have hr : Except.ok (s.1.gm.wst.1, v1) = Except.ok r := g1.symm.trans hr
        cases hr
        rw [wp_assign]
      · rw [hrows] at hr
        have := g1.symm.trans hr
        cases this
    obtain ⟨_, t, h4, h5⟩ := wp_total hw
    rw [h4, h5]
  have hcount : (fun j : Fin k => ((q1[(j : ℕ)]?).getD []).sum) = fun j => ∑ i, r1 i j := by
    funext j
    simp [q1, List.sum_ofFn]
  have hrun : (do updateVarD realFun W; updateVarW : M ℝ (VM V m Atom) Unit) ω s = (.ok (), ({ s.1 with varD := d, vst := v1 }, s.2)) := by
    show M.andThen _ _ ω s = _
    unfold M.andThen
    rw [hrun1]
    exact hrun2
  refine ⟨({ s.1 with varD := d, vst := v1 }, s.2), r1, hrun, ⟨q1, hJ, hq1, hn1, g1⟩, rfl, rfl, rfl, ⟨fun i j => ((hr1 i).pos j).le, fun i => (hr1 i).one⟩, fun r0 h0 => ?_⟩
  exact C124_ascent he hk (hV.range _ hJ) f2 f3 h0 (fun i => (hr1 i).column) (hcount ▸ g5)

/-! ### The classes that fit the best law -/

/-- A law of as many weights as there are parameters, as a law of `k` weights. -/
noncomputable def lawOn (k : ℕ) {N : ℕ} (Q : Measure (Fin N → ℝ)) : Measure (Fin k → ℝ) := Q.map fun w j => if h : (j : ℕ) < N then w ⟨j, h⟩ else 0

theorem lawOn_self {N : ℕ} (Q : Measure (Fin N → ℝ)) : lawOn N Q = Q := by
  unfold lawOn
  have : (fun (w : Fin N → ℝ) (j : Fin N) => if h : (j : ℕ) < N then w ⟨j, h⟩ else 0) = id := by
    funext w j
    simp
  rw [this, Measure.map_id]

/-- The law fitted by the Dirichlet process. -/
noncomputable def lawDP (k : ℕ) : VFit (Var ℝ) → Measure (Fin k → ℝ)
  | .fitted v => lawOn k (truncatedLaw v.params)
  | _ => 0

/-- The law fitted by the Pitman-Yor process. -/
noncomputable def lawPY (k : ℕ) : VFit (Var ℝ) → Measure (Fin k → ℝ)
  | .fitted v => lawOn k (fittedLaw v.params)
  | _ => 0

theorem breakStick_range {N : ℕ} {μ : Fin N → Measure ℝ} [∀ j, IsProbabilityMeasure (μ j)] (h01 : ∀ j, ∀ᵐ x ∂μ j, 0 ≤ x ∧ x ≤ 1) :
    ∀ᵐ w ∂(Measure.pi μ).map breakStick, ∀ j, 0 ≤ w j ∧ w j ≤ 1 := by
  have hm : MeasurableSet {w : Fin N → ℝ | ∀ j, 0 ≤ w j ∧ w j ≤ 1} := by
    simp only [Set.ofPred_forall]
    exact MeasurableSet.iInter fun j => (measurableSet_le measurable_const (measurable_pi_apply j)).inter (measurableSet_le (measurable_pi_apply j) measurable_const)
  rw [ae_map_iff measurable_breakStick.aemeasurable hm]
  have a1 : ∀ᵐ v ∂Measure.pi μ, ∀ j, 0 ≤ v j ∧ v j ≤ 1 := by
    rw [ae_all_iff]
    exact fun j => (Measure.quasiMeasurePreserving_eval μ j).ae (h01 j)
  filter_upwards [a1] with v hv j
  refine ⟨mul_nonneg (hv j).1 (Finset.prod_nonneg fun l _ => sub_nonneg.2 (hv l).2), ?_⟩
  exact mul_le_one₀ (hv j).2 (Finset.prod_nonneg fun l _ => sub_nonneg.2 (hv l).2) (Finset.prod_le_one (fun l _ => sub_nonneg.2 (hv l).2) fun l _ => by linarith [(hv l).1])

/-- `DirichletProcess`: the prior is the law of the weights, truncated after `k` of them. -/
theorem fitsLaw_DP (k : ℕ) : FitsLaw (varDP realFun) LegalDP k (fun c => truncatedPrior k fun _ => (1, (show DP ℝ from c).alpha)) (lawDP k) where
  range c hc := by
    have ha : 0 < (show DP ℝ from c).alpha := hc
    have hp : ∀ j : Fin k, IsProbabilityMeasure (if (j : ℕ) + 1 = k then Measure.dirac 1 else ProbabilityTheory.betaMeasure 1 (show DP ℝ from c).alpha) := by
      intro j
      split
      · infer_instance
      · exact ProbabilityTheory.isProbabilityMeasureBeta one_pos ha
    refine breakStick_range fun j => ?_
    simp only []
    split
    · rw [ae_dirac_iff (measurableSet_Icc (a := (0 : ℝ)) (b := 1))]
      exact ⟨zero_le_one, le_rfl⟩
    · exact betaMeasure_ae.mono fun x hx => ⟨hx.1.le, hx.2.le⟩
  fit c q hc hq hn := by
    have ha : 0 < (show DP ℝ from c).alpha := hc
    refine ⟨.fitted (DP.fitVariational (show DP ℝ from c).alpha q), by simp only [varDP, matrix_fin], ?_⟩
    have hl := DP.fit_length (show DP ℝ from c).alpha q
    rw [hq] at hl
    subst hl
    simp only [lawDP, lawOn_self]
    have := truncatedSticks_prob (DP.fit_pos ha hn)
    refine ⟨Measure.isProbabilityMeasure_map measurable_breakStick.aemeasurable, fun j => (C88_dirichletProcess ha hn j).1, fun j => ?_, ?_⟩
    · exact congrArg (Except.map flOfOption) (C88_dirichletProcess ha hn j).2
    · have := C90_dirichletProcess ha hn
      rw [softLogLik_eq] at this
      simp only [rowSums_get] at this
      exact this

/-- `PitmanYorProcess`. -/
theorem fitsLaw_PY (k : ℕ) : FitsLaw (varPY realFun) LegalPY k
    (fun c => (betaSticks fun j : Fin k => (1 - (show PY ℝ from c).pyd, (show PY ℝ from c).alpha + ((j : ℕ) + 1 : ℝ) * (show PY ℝ from c).pyd)).map breakStick) (lawPY k) where
  range c hc := by
    have hp : 0 ≤ (show PY ℝ from c).pyd ∧ (show PY ℝ from c).pyd < 1 := ⟨hc.1, hc.2.1⟩
    have ha : -(show PY ℝ from c).pyd < (show PY ℝ from c).alpha := hc.2.2
    have h2 : ∀ j : ℕ, 0 < (show PY ℝ from c).alpha + ((j : ℕ) + 1 : ℝ) * (show PY ℝ from c).pyd := fun j => by
      have : 0 ≤ (j : ℝ) * (show PY ℝ from c).pyd := mul_nonneg (Nat.cast_nonneg _) hp.1
      linarith
    have hpr : ∀ j : Fin k, IsProbabilityMeasure (ProbabilityTheory.betaMeasure (1 - (show PY ℝ from c).pyd) ((show PY ℝ from c).alpha + ((j : ℕ) + 1 : ℝ) * (show PY ℝ from c).pyd)) :=
      fun j => ProbabilityTheory.isProbabilityMeasureBeta (sub_pos.2 hp.2) (h2 j)
    exact breakStick_range fun j => betaMeasure_ae.mono fun x hx => ⟨hx.1.le, hx.2.le⟩
  fit c q hc hq hn := by
    have hp : 0 ≤ (show PY ℝ from c).pyd ∧ (show PY ℝ from c).pyd < 1 := ⟨hc.1, hc.2.1⟩
    have ha : -(show PY ℝ from c).pyd < (show PY ℝ from c).alpha := hc.2.2
    refine ⟨.fitted (PY.fitVariational (show PY ℝ from c).pyd (show PY ℝ from c).alpha q), by simp only [varPY, matrix_fin], ?_⟩
    have hl := PY.fit_length (show PY ℝ from c).pyd (show PY ℝ from c).alpha q
    rw [hq] at hl
    subst hl
    simp only [lawPY, lawOn_self]
    have := fittedSticks_prob (PY.fit_pos hp ha hn)
    refine ⟨Measure.isProbabilityMeasure_map measurable_breakStick.aemeasurable, fun j => (C88_pitmanYor hp ha hn j).1, fun j => ?_, ?_⟩
    · exact congrArg (Except.map flOfOption) (C88_pitmanYor hp ha hn j).2
    · have := C90_pitmanYor hp ha hn
      rw [softLogLik_eq] at this
      simp only [rowSums_get] at this
      exact this

/-- **Dirichlet process mixtures**: updating labels and weights lowers the bound by at most the cost of `eps`. -/
theorem C124_dirichletProcess_partial {k : ℕ} (he : 0 < W.eps) (hk : 0 < k) {s : VM (varDP realFun) m Atom × ℕ} (hK : s.1.varK = some (k : ℤ)) {as : Fin k → VAtom ℝ m}
    (hth : s.1.varTheta = List.ofFn fun j => some (as j)) (hP : ∀ j, (as j).prec ≠ 0) (hw : WeightsFitted (varDP realFun) LegalDP k s.1) :
    ∃ u r1, (do updateVarD realFun W; updateVarW : M ℝ (VM (varDP realFun) m Atom) Unit) ω s = (.ok (), u) ∧ WeightsFitted (varDP realFun) LegalDP k u.1 ∧
      u.1.varTheta = s.1.varTheta ∧ u.1.gm = s.1.gm ∧ u.1.varD = (List.ofFn fun i : Fin s.1.gm.y.length => (List.ofFn (r1 i)).map fin) ∧ Responsibilities r1 ∧
      ∀ r0, Responsibilities r0 →
        jointBound (scores s.1.gm.y as) r0 (truncatedPrior k fun _ => (1, (show DP ℝ from s.1.gm.wst.1).alpha)) (lawDP k s.1.vst) ≤
        jointBound (scores s.1.gm.y as) r1 (truncatedPrior k fun _ => (1, (show DP ℝ from s.1.gm.wst.1).alpha)) (lawDP k u.1.vst) +
          ((∑ i, epsLoss W.eps fun j => ∫ w, Real.log (w j) ∂lawDP k s.1.vst + scores s.1.gm.y as i j : ℝ) : EReal) :=
  labels_weights_step (fitsLaw_DP k) he hk hK hth hP hw

/-- **Pitman-Yor process mixtures**. -/
theorem C124_pitmanYor_partial {k : ℕ} (he : 0 < W.eps) (hk : 0 < k) {s : VM (varPY realFun) m Atom × ℕ} (hK : s.1.varK = some (k : ℤ)) {as : Fin k → VAtom ℝ m}
    (hth : s.1.varTheta = List.ofFn fun j => some (as j)) (hP : ∀ j, (as j).prec ≠ 0) (hw : WeightsFitted (varPY realFun) LegalPY k s.1) :
    ∃ u r1, (do updateVarD realFun W; updateVarW : M ℝ (VM (varPY realFun) m Atom) Unit) ω s = (.ok (), u) ∧ WeightsFitted (varPY realFun) LegalPY k u.1 ∧
      u.1.varTheta = s.1.varTheta ∧ u.1.gm = s.1.gm ∧ u.1.varD = (List.ofFn fun i : Fin s.1.gm.y.length => (List.ofFn (r1 i)).map fin) ∧ Responsibilities r1 ∧
      ∀ r0, Responsibilities r0 →
        jointBound (scores s.1.gm.y as) r0 ((betaSticks fun j : Fin k => (1 - (show PY ℝ from s.1.gm.wst.1).pyd,
          (show PY ℝ from s.1.gm.wst.1).alpha + ((j : ℕ) + 1 : ℝ) * (show PY ℝ from s.1.gm.wst.1).pyd)).map breakStick) (lawPY k s.1.vst) ≤
        jointBound (scores s.1.gm.y as) r1 ((betaSticks fun j : Fin k => (1 - (show PY ℝ from s.1.gm.wst.1).pyd,
          (show PY ℝ from s.1.gm.wst.1).alpha + ((j : ℕ) + 1 : ℝ) * (show PY ℝ from s.1.gm.wst.1).pyd)).map breakStick) (lawPY k u.1.vst) +
          ((∑ i, epsLoss W.eps fun j => ∫ w, Real.log (w j) ∂lawPY k s.1.vst + scores s.1.gm.y as i j : ℝ) : EReal) :=
  labels_weights_step (fitsLaw_PY k) he hk hK hth hP hw

/-! ### The groups -/

/-- The part of the evidence lower bound that depends on the law of one group. -/
noncomputable def groupBound (r : List ℝ) (ys : List (Fin m → ℝ)) (p : NIW ℝ m) (a : VAtom ℝ m) (L : Matrix (Fin m) (Fin m) ℝ) : ℝ := dataTerm r ys a L + priorTerm p a L - posteriorTerm a L

/-- For univariate data, with everything but the precision fixed. -/
theorem groupBound_prec {r : List ℝ} {ys : List (Fin 1 → ℝ)} (hl : r.length = ys.length) (hs : r.sum ≠ 0) {p : NIW ℝ 1} (hp : ProperPrior p) {a : VAtom ℝ 1} (ha : ProperAtom a)
    (hsc : a.scale = p.nu + r.sum) {L : Matrix (Fin 1) (Fin 1) ℝ} (hL : FactorOf L a) :
    ∃ c : ℝ, ∀ (b : VAtom ℝ 1), ProperAtom b → b.mu = a.mu → b.lam = a.lam → b.scale = a.scale → ∀ L', FactorOf L' b →
      groupBound r ys p b L' = c + a.scale / 2 * (Real.log (b.prec 0 0) - b.prec 0 0 *
        (p.psi 0 0 + r.sum * wCov ys r 0 0 + r.sum * (wMean ys r 0 - a.mu 0) ^ 2 + p.lam * (p.mu 0 - a.mu 0) ^ 2)) := by
  refine ⟨groupBound r ys p a L - a.scale / 2 * (Real.log (a.prec 0 0) - a.prec 0 0 *
        (p.psi 0 0 + r.sum * wCov ys r 0 0 + r.sum * (wMean ys r 0 - a.mu 0) ^ 2 + p.lam * (p.mu 0 - a.mu 0) ^ 2)), ?_⟩
  intro b hb hmu hlam hscb L' hL'
  have val : ∀ (b : VAtom ℝ 1), ProperAtom b → ∀ L', FactorOf L' b → groupBound r ys p b L' =
      r.sum * ((wishartLogDet b.prec b.scale - Real.log (2 * Real.pi) - 1 / b.lam - b.scale * (wCov ys r 0 0 * b.prec 0 0) - b.scale * (b.prec 0 0 * (wMean ys r 0 - b.mu 0) ^ 2)) / 2)
      + ((Real.log (p.lam / (2 * Real.pi)) + (p.nu - 1) * wishartLogDet b.prec b.scale - p.lam * (b.scale * (b.prec 0 0 * (p.mu 0 - b.mu 0) ^ 2) + 1 / b.lam)
        - b.scale * (p.psi 0 0 * b.prec 0 0)) / 2 - wishartConst (Matrix.of p.psi)⁻¹ p.nu)
      - ((Real.log (b.lam / (2 * Real.pi)) + wishartLogDet b.prec b.scale - 1) / 2
        - (wishartConst (Matrix.of b.prec) b.scale - (b.scale - 1 - 1) / 2 * wishartLogDet b.prec b.scale + b.scale / 2)) := by
    intro b hb L' hL'
    have hu : IsUnit (Matrix.of p.psi).det := hp.psi.det_pos.ne'.isUnit
    unfold groupBound priorTerm
    rw [dataTerm_value hl hs hb hL', (expected_normalWishart hb hL' hp.psi.inv.det_pos hp.nu hp.lam p.mu).2, (posteriorTerm_value hb hL').2, (posteriorTerm_value hb hL').1,
      nonsing_inv_nonsing_inv _ hu, ← quad_eq]
    have t1 : traceMul (wCov ys r) b.prec = wCov ys r 0 0 * b.prec 0 0 := by simp [traceMul]
    have t2 : ∀ x mu : Fin 1 → ℝ, quad b.prec x mu = b.prec 0 0 * (x 0 - mu 0) ^ 2 := fun x mu => by simp [quad]; ring
    have t3 : (Matrix.of p.psi * Matrix.of b.prec).trace = p.psi 0 0 * b.prec 0 0 := by simp [Matrix.trace, Matrix.mul_apply]
    rw [t1, t2, t2, t3]
    simp only [Nat.cast_one, one_mul, mul_one]
  have logdet : ∀ (b : VAtom ℝ 1), ProperAtom b → b.scale = a.scale → ∃ x, wishartLogDet b.prec b.scale = Real.log (b.prec 0 0) + (wishartLogDet a.prec a.scale - Real.log (a.prec 0 0)) ∧
      wishartConst (Matrix.of b.prec) b.scale = x + a.scale / 2 * Real.log (b.prec 0 0) ∧ wishartConst (Matrix.of a.prec) a.scale = x + a.scale / 2 * Real.log (a.prec 0 0) := by
    intro b hb hsc
    refine ⟨wishartConst (Matrix.of a.prec) a.scale - a.scale / 2 * Real.log (a.prec 0 0), ?_, ?_, by ring⟩
    · unfold wishartLogDet
      rw [hsc]
      simp only [det_unique, Fin.default_eq_zero, of_apply]
      ring
    · unfold wishartConst
      rw [hsc]
      simp only [det_unique, Fin.default_eq_zero, of_apply]
      ring
  obtain ⟨x, e1, e2, e3⟩ := logdet b hb hscb
  rw [val b hb L' hL', val a ha L hL, e1, e2, e3, hmu, hlam, hscb, hsc]
  ring

/-- **The groups** of a univariate fit are not the best ones: given the responsibilities, another law of the group has a strictly larger bound, unless the observations of the group agree or its
responsibilities add up to one. -/
theorem C124_groups_refuted {r : List ℝ} {ys : List (Fin 1 → ℝ)} (hl : r.length = ys.length) (hr : ∀ v ∈ r, 0 ≤ v) (hs : 0 < r.sum) (hs1 : r.sum ≠ 1) (hS : wCov ys r 0 0 ≠ 0)
    {p : NIW ℝ 1} (hp : ProperPrior p) {a : VAtom ℝ 1} (h : varAtom ys p (r.map fin) = .ok (some a)) :
    ProperAtom a ∧ ∃ b, ProperAtom b ∧ b.mu = a.mu ∧ b.lam = a.lam ∧ b.scale = a.scale ∧
      ∀ L L', FactorOf L a → FactorOf L' b → groupBound r ys p a L < groupBound r ys p b L' := by
  obtain ⟨a', h1, ha⟩ := C109_atoms (ys := ys) hp hr hs
  rw [h1] at h
  cases h
  refine ⟨ha, ?_⟩
  have hpsi : 0 < p.psi 0 0 := by simpa using hp.psi.diag_pos (i := 0)
  have hPa : 0 < a.prec 0 0 := by simpa using ha.prec.diag_pos (i := 0)
  have hS0 : 0 ≤ wCov ys r 0 0 := by
    have := (zip_outer_posSemidef (wMean ys r) r ys hr).diag_nonneg (i := 0)
    exact div_nonneg (by simpa using this) hs.le
  have hlam := hp.lam
  unfold varAtom at h1
  rw [Fl.numbers_fin] at h1
  simp only [] at h1
  rw [if_neg hs.ne'] at h1
  cases hi : matInv (varPsi ys p r) with
  | error e => rw [hi] at h1; cases h1
  | ok P =>
  rw [hi] at h1
  simp only [Except.ok.injEq, Option.some.injEq] at h1
  have hPP := matInv_one hi
  set T := p.psi 0 0 + r.sum * wCov ys r 0 0 + r.sum * (wMean ys r 0 - a.mu 0) ^ 2 + p.lam * (p.mu 0 - a.mu 0) ^ 2 with hT
  have hT0 : 0 < T := by positivity
  have hsc : a.scale = p.nu + r.sum := by rw [← h1]
  have hnu : 0 < a.scale := by have := ha.scale; simpa using this
  have hmu : a.mu 0 = (p.lam * p.mu 0 + r.sum * wMean ys r 0) / (p.lam + r.sum) := by rw [← h1]
  have hprec : a.prec 0 0 = P 0 0 := by rw [← h1]
  have hps : varPsi ys p r 0 0 = T + (1 - r.sum) * wCov ys r 0 0 := by
    have hls : 0 < p.lam + r.sum := by positivity
    unfold varPsi
    rw [hT, hmu, Fin.sum_univ_one]
    field_simp
    ring
  have hx1 : a.prec 0 0 * T ≠ 1 := by
    intro hx
    rw [← hprec, hps] at hPP
    have h2 : a.prec 0 0 * ((1 - r.sum) * wCov ys r 0 0) = 0 := by nlinarith
    rcases mul_eq_zero.1 h2 with h | h
    · exact hPa.ne' h
    · rcases mul_eq_zero.1 h with h | h
      · exact hs1 (by linarith)
      · exact hS h
  have hb : ProperAtom ({ a with prec := fun _ _ => 1 / T } : VAtom ℝ 1) := by
    refine ⟨ha.lam, ha.scale, ?_⟩
    have : (Matrix.of (fun _ _ : Fin 1 => 1 / T) : Matrix (Fin 1) (Fin 1) ℝ) = (1 / T) • (1 : Matrix (Fin 1) (Fin 1) ℝ) := by
      ext i j
      fin_cases i; fin_cases j
      simp
    show (Matrix.of (fun _ _ : Fin 1 => 1 / T) : Matrix (Fin 1) (Fin 1) ℝ).PosDef
    rw [this]
    exact Matrix.PosDef.one.smul (by positivity)
  refine ⟨_, hb, rfl, rfl, rfl, fun L L' hL hL' => ?_⟩
  obtain ⟨c, hc⟩ := groupBound_prec hl hs.ne' hp ha hsc hL
  rw [hc a ha rfl rfl rfl L hL, hc _ hb rfl rfl rfl L' hL', ← hT]
  have hx0 : 0 < a.prec 0 0 * T := mul_pos hPa hT0
  have := Real.log_lt_sub_one_of_pos hx0 hx1
  rw [Real.log_mul hPa.ne' hT0.ne'] at this
  have e : 1 / T * T = 1 := by field_simp
  show c + a.scale / 2 * (Real.log (a.prec 0 0) - a.prec 0 0 * T) < c + a.scale / 2 * (Real.log (1 / T) - 1 / T * T)
  rw [e, Real.log_div one_ne_zero hT0.ne', Real.log_one]
  have h2 : Real.log (a.prec 0 0) - a.prec 0 0 * T < 0 - Real.log T - 1 := by linarith
  have := mul_lt_mul_of_pos_left h2 (half_pos hnu)
  linarith

/-! ### The bound that the code computes -/

theorem normMax_pair {eps a b : ℝ} (he : 0 < eps) (h : b ≤ a) :
    normMax realFun eps [fin a, fin b] = [fin ((1 + eps) / (1 + Real.exp (b - a) + 2 * eps)), fin ((Real.exp (b - a) + eps) / (1 + Real.exp (b - a) + 2 * eps))] ∧
    normMax realFun eps [fin b, fin a] = [fin ((Real.exp (b - a) + eps) / (1 + Real.exp (b - a) + 2 * eps)), fin ((1 + eps) / (1 + Real.exp (b - a) + 2 * eps))] := by
  have h1 : Fl.maximum [fin a, fin b] = fin a := by
    have := Fl.maximum_ofBot (K := ℝ) [(a : WithBot ℝ), (b : WithBot ℝ)]
    simp only [List.map_cons, List.map_nil, ofBot_coe] at this
    rw [this]
    simp [h]
  have h2 : Fl.maximum [fin b, fin a] = fin a := by
    have := Fl.maximum_ofBot (K := ℝ) [(b : WithBot ℝ), (a : WithBot ℝ)]
    simp only [List.map_cons, List.map_nil, ofBot_coe] at this
    rw [this]
    simp [h]
  have hx := Real.exp_pos (b - a)
  have e : ∀ x : ℝ, Fl.exp realFun.exp (fin x - fin a) + fin eps = fin (Real.exp (x - a) + eps) := fun x => rfl
  have hs1 : Fl.sum [fin (Real.exp (a - a) + eps), fin (Real.exp (b - a) + eps)] = fin (1 + Real.exp (b - a) + 2 * eps) := by
    have := Fl.sum_fin [Real.exp (a - a) + eps, Real.exp (b - a) + eps]
    simp only [List.map_cons, List.map_nil] at this
    rw [this]
    congr 1
    simp
    ring
  have hs2 : Fl.sum [fin (Real.exp (b - a) + eps), fin (Real.exp (a - a) + eps)] = fin (1 + Real.exp (b - a) + 2 * eps) := by
    have := Fl.sum_fin [Real.exp (b - a) + eps, Real.exp (a - a) + eps]
    simp only [List.map_cons, List.map_nil] at this
    rw [this]
    congr 1
    simp
    ring
  have hd : 1 + Real.exp (b - a) + 2 * eps ≠ 0 := by positivity
  unfold normMax
  rw [h1, h2]
  simp only [List.map_cons, List.map_nil, e, hs1, hs2]
  simp only [Fl.div, hd, if_false, sub_self, Real.exp_zero]
  exact ⟨trivial, trivial⟩

/-- Two observations at `1` and two at `-1`. -/
def pairData : List (Fin 1 → ℝ) := [fun _ => 1, fun _ => 1, fun _ => -1, fun _ => -1]

noncomputable def pairPrior : NIW ℝ 1 := ⟨fun _ => 0, 2, fun _ _ => 1 / 8, 1⟩

def pairAtom (mu lam P nu : ℝ) : VAtom ℝ 1 := ⟨fun _ => mu, lam, fun _ _ => P, nu⟩

/-- The responsibilities of the nearer group. -/
noncomputable def near (eps x : ℝ) : ℝ := (1 + eps) / (1 + Real.exp (-x) + 2 * eps)

theorem near_bounds {eps x : ℝ} (he : 0 < eps) (hx : 0 ≤ x) : 1 / 2 ≤ near eps x ∧ near eps x < 1 := by
  have h1 := Real.exp_pos (-x)
  have h2 : Real.exp (-x) ≤ 1 := Real.exp_le_one_iff.2 (by linarith)
  unfold near
  constructor
  · rw [div_le_div_iff₀ (by norm_num) (by positivity)]; linarith
  · rw [div_lt_one (by positivity)]; linarith

/-- Two groups that mirror each other. -/
structure PairState (s : VM (varEqual realFun) 1 Atom) (mu lam P nu : ℝ) : Prop where
  varK : s.varK = some 2
  y : s.gm.y = pairData
  prior : GM.prior s.gm = pairPrior
  n : (show Equal ℝ from s.gm.wst.1).n = 2
  theta : s.varTheta = [some (pairAtom mu lam P nu), some (pairAtom (-mu) lam P nu)]

def pairD (p : ℝ) : List (List (Fl ℝ)) := [[fin p, fin (1 - p)], [fin p, fin (1 - p)], [fin (1 - p), fin p], [fin (1 - p), fin p]]

theorem pair_scores (lam P nu l : ℝ) (hP : P ≠ 0) : ∃ c, ∀ mu x : ℝ, fin l + atomScore realFun (fun _ => x) (some (pairAtom mu lam P nu)) = fin (c - nu * P * (x - mu) ^ 2 / 2) := by
  refine ⟨l + numScore realFun (fun _ => 0) (pairAtom 0 lam P nu), fun mu x => ?_⟩
  rw [atomScore_fin realFun_sane _ (by intro h; exact hP (congrFun (congrFun h 0) 0))]
  show fin _ = fin _
  congr 1
  unfold numScore pairAtom quad
  simp only [Fin.sum_univ_one]
  ring

theorem pair_labels {W : World ℝ 1 Atom} (he : 0 < W.eps) {s : VM (varEqual realFun) 1 Atom × ℕ} {mu lam P nu : ℝ} (h : PairState s.1 mu lam P nu) (hP : P ≠ 0) (hpos : 0 ≤ 2 * nu * P * mu) :
    updateVarD realFun W ω s = (.ok (), ({ s.1 with varD := pairD (near W.eps (2 * nu * P * mu)) }, s.2)) := by
  have hl : s.1.varTheta.length = 2 := by rw [h.theta]; rfl
  obtain ⟨c, hc⟩ := pair_scores lam P nu (Real.log (1 / 2)) hP
  have hlw : logWeights (varEqual realFun) s.1.gm.wst.1 s.1.vst (List.range 2) = .ok [fin (Real.log (1 / 2)), fin (Real.log (1 / 2))] := by
    have hm : ∀ j < 2, (varEqual realFun).meanLogW s.1.gm.wst.1 s.1.vst j = .ok (fin (Real.log (1 / 2))) := by
      intro j hj
      show Except.ok (fin (Equal.meanLogWj realFun.toVarFun (show Equal ℝ from s.1.gm.wst.1).n.toNat j)) = _
      rw [h.n]
      unfold Equal.meanLogWj
      rw [if_pos (by simpa using hj)]
      show Except.ok (fin (Real.log (1 / ((2 : ℕ) : ℝ)))) = _
      norm_num
    show logWeights _ _ _ [0, 1] = _
    unfold logWeights
    rw [hm 0 (by norm_num)]
    simp only [logWeights]
    rw [hm 1 (by norm_num)]
  have hD : s.1.gm.y.map (fun x => normMax realFun W.eps (scoreColumn realFun 2 [fin (Real.log (1 / 2)), fin (Real.log (1 / 2))] s.1.varTheta x)) = pairD (near W.eps (2 * nu * P * mu)) := by
    rw [h.y, h.theta]
    have e0 : c - nu * P * (1 - -mu) ^ 2 / 2 - (c - nu * P * (1 - mu) ^ 2 / 2) = -(2 * nu * P * mu) := by ring
    have e1 : c - nu * P * (-1 - mu) ^ 2 / 2 - (c - nu * P * (-1 - -mu) ^ 2 / 2) = -(2 * nu * P * mu) := by ring
    have n1 := (normMax_pair (eps := W.eps) (a := c - nu * P * (1 - mu) ^ 2 / 2) (b := c - nu * P * (1 - -mu) ^ 2 / 2) he (by linarith)).1
    have n2 := (normMax_pair (eps := W.eps) (b := c - nu * P * (-1 - mu) ^ 2 / 2) (a := c - nu * P * (-1 - -mu) ^ 2 / 2) he (by linarith)).2
    rw [e0] at n1
    rw [e1] at n2
    have hx := Real.exp_pos (-(2 * nu * P * mu))
    have e2 : (Real.exp (-(2 * nu * P * mu)) + W.eps) / (1 + Real.exp (-(2 * nu * P * mu)) + 2 * W.eps) = 1 - near W.eps (2 * nu * P * mu) := by
      unfold near
      have : 1 + Real.exp (-(2 * nu * P * mu)) + 2 * W.eps ≠ 0 := by positivity
      field_simp
      ring
    rw [e2] at n1 n2
    simp only [pairData, pairD, List.map_cons, List.map_nil, scoreColumn, List.zipWith_cons_cons, List.zipWith_nil_right, List.length_cons, List.length_nil,
      List.replicate_zero, List.append_nil, hc, n1, n2, Nat.reduceAdd, Nat.sub_self]
    rfl
  have hw : wp ω (updateVarD realFun W) (fun _ t => t = ({ s.1 with varD := pairD (near W.eps (2 * nu * P * mu)) }, s.2)) (fun _ _ => False) s := by
    unfold updateVarD
    rw [wp_bind, wp_self, h.varK]
    simp only []
    rw [if_neg (by omega), wp_bind, wp_lift, hl, hlw]
    refine ⟨?_, fun e he => by cases he⟩
    intro lw' hh
    cases hh
    rw [if_neg (by decide), wp_assign, ← hD]
    rfl
  obtain ⟨_, t, h4, h5⟩ := wp_total hw
  rw [h4, h5]

theorem pair_rows {s : VM (varEqual realFun) 1 Atom} (hK : s.varK = some 2) {p : ℝ} (hd : s.varD = pairD p) :
    varRows s = [[p, p, 1 - p, 1 - p].map fin, [1 - p, 1 - p, p, p].map fin] := by
  unfold varRows
  rw [hK, hd]
  rfl

theorem pair_weights {p : ℝ} : wMean pairData [p, p, 1 - p, 1 - p] = (fun _ => 2 * p - 1) ∧ wMean pairData [1 - p, 1 - p, p, p] = (fun _ => -(2 * p - 1)) ∧
    wCov pairData [p, p, 1 - p, 1 - p] = (fun _ _ => 1 - (2 * p - 1) ^ 2) ∧ wCov pairData [1 - p, 1 - p, p, p] = (fun _ _ => 1 - (2 * p - 1) ^ 2) ∧
    [p, p, 1 - p, 1 - p].sum = 2 ∧ [1 - p, 1 - p, p, p].sum = 2 := by
  have s1 : [p, p, 1 - p, 1 - p].sum = 2 := by simp; ring
  have s2 : [1 - p, 1 - p, p, p].sum = 2 := by simp; ring
  have m1 : wMean pairData [p, p, 1 - p, 1 - p] = (fun _ => 2 * p - 1) := by
    funext i
    unfold wMean
    rw [s1]
    simp [pairData]
    ring
  have m2 : wMean pairData [1 - p, 1 - p, p, p] = (fun _ => -(2 * p - 1)) := by
    funext i
    unfold wMean
    rw [s2]
    simp [pairData]
    ring
  refine ⟨m1, m2, ?_, ?_, s1, s2⟩
  · funext i j
    unfold wCov
    rw [s1, m1]
    simp [pairData]
    ring
  · funext i j
    unfold wCov
    rw [s2, m2]
    simp [pairData]
    ring

theorem pair_inv : matInv (fun _ _ : Fin 1 => (9 / 8 : ℝ)) = .ok (fun _ _ => 8 / 9) := by
  unfold matInv
  have hd : (Matrix.of (fun _ _ : Fin 1 => (9 / 8 : ℝ))).det = 9 / 8 := by rw [det_fin_one]; rfl
  rw [hd, if_neg (by norm_num)]
  congr 1
  funext i j
  have hi := Subsingleton.elim i 0
  have hj := Subsingleton.elim j 0
  subst hi hj
  rw [Matrix.adjugate_subsingleton]
  norm_num

theorem pair_atoms (p : ℝ) : varAtoms pairData pairPrior [[p, p, 1 - p, 1 - p].map fin, [1 - p, 1 - p, p, p].map fin] =
    .ok [some (pairAtom ((2 * p - 1) / 2) 4 (8 / 9) 3), some (pairAtom (-((2 * p - 1) / 2)) 4 (8 / 9) 3)] := by
  obtain ⟨m1, m2, c1, c2, s1, s2⟩ := pair_weights (p := p)
  have p1 : varPsi pairData pairPrior [p, p, 1 - p, 1 - p] = fun _ _ => 9 / 8 := by
    funext i j
    unfold varPsi
    rw [c1, s1, m1]
    simp [pairPrior]
    ring
  have p2 : varPsi pairData pairPrior [1 - p, 1 - p, p, p] = fun _ _ => 9 / 8 := by
    funext i j
    unfold varPsi
    rw [c2, s2, m2]
    simp [pairPrior]
    ring
  have a1 : varAtom pairData pairPrior ([p, p, 1 - p, 1 - p].map fin) = .ok (some (pairAtom ((2 * p - 1) / 2) 4 (8 / 9) 3)) := by
    unfold varAtom
    rw [Fl.numbers_fin]
    simp only []
    rw [s1, if_neg two_ne_zero, p1, pair_inv, m1]
    simp only [pairPrior, pairAtom]
    norm_num
    funext
    ring
  have a2 : varAtom pairData pairPrior ([1 - p, 1 - p, p, p].map fin) = .ok (some (pairAtom (-((2 * p - 1) / 2)) 4 (8 / 9) 3)) := by
    unfold varAtom
    rw [Fl.numbers_fin]
    simp only []
    rw [s2, if_neg two_ne_zero, p2, pair_inv, m2]
    simp only [pairPrior, pairAtom]
    norm_num
    funext
    ring
  unfold varAtoms
  rw [a1]
  simp only [varAtoms]
  rw [a2]

/-- One iteration: the groups stay mirrored. -/
theorem pair_iteration {W : World ℝ 1 Atom} (he : 0 < W.eps) {s : VM (varEqual realFun) 1 Atom × ℕ} {mu lam P nu : ℝ} (h : PairState s.1 mu lam P nu) (hP : P ≠ 0)
    (hpos : 0 ≤ 2 * nu * P * mu) : ∃ t, maximize realFun W ω s = (.ok (), t) ∧ t.2 = s.2 ∧ t.1.varD = pairD (near W.eps (2 * nu * P * mu)) ∧
      PairState t.1 ((2 * near W.eps (2 * nu * P * mu) - 1) / 2) 4 (8 / 9) 3 := by
  have hl := pair_labels (ω := ω) he h hP hpos
  set p := near W.eps (2 * nu * P * mu) with hp
  have hw : wp ω (maximize realFun W) (fun _ t => t.2 = s.2 ∧ t.1.varD = pairD p ∧ PairState t.1 ((2 * p - 1) / 2) 4 (8 / 9) 3) (fun _ _ => False) s := by
    unfold maximize
    rw [wp_bind]
    unfold wp
    rw [hl]
    show wp ω _ _ _ _
    unfold updateVarW fitWeights updateVarTheta
    rw [wp_bind, wp_bind, wp_self, wp_bind, wp_self, wp_bind, wp_lift]
    refine ⟨?_, fun e he => by cases he⟩
    intro r hr
    cases hr
    rw [wp_assign, wp_bind, wp_self, wp_bind, wp_lift]
    have hr := pair_rows (s := { s.1 with varD := pairD p }) (p := p) h.varK rfl
    have ha : varAtoms s.1.gm.y (GM.prior s.1.gm) (varRows { s.1 with varD := pairD p }) =
        .ok [some (pairAtom ((2 * p - 1) / 2) 4 (8 / 9) 3), some (pairAtom (-((2 * p - 1) / 2)) 4 (8 / 9) 3)] := by
      rw [h.y, h.prior, hr]; exact pair_atoms p
    constructor
    · intro as has
      have := has.symm.trans ha
      cases this
      rw [wp_assign]
      refine ⟨rfl, rfl, h.varK, h.y, h.prior, ?_, rfl⟩
      show ((varRows { s.1 with varD := pairD p }).length : ℤ) = 2
      rw [hr]
      rfl
    · intro e he
      have := he.symm.trans ha
      cases this
  obtain ⟨_, t, h4, h5⟩ := wp_total hw
  exact ⟨t, h4, h5⟩

/-- The part of the bound that changes. -/
noncomputable def pairBound (u : ℝ) : ℝ := 2 / 3 * u ^ 2 + 4 * (Real.negMulLog ((1 + u) / 2) + Real.negMulLog ((1 - u) / 2))

theorem pair_inv8 : matInv (fun _ _ : Fin 1 => (1 / 8 : ℝ)) = .ok (fun _ _ => 8) := by
  unfold matInv
  have hd : (Matrix.of (fun _ _ : Fin 1 => (1 / 8 : ℝ))).det = 1 / 8 := by rw [det_fin_one]; rfl
  rw [hd, if_neg (by norm_num)]
  congr 1
  funext i j
  have hi := Subsingleton.elim i 0
  have hj := Subsingleton.elim j 0
  subst hi hj
  rw [Matrix.adjugate_subsingleton]
  norm_num

theorem pair_norms : ∃ a b c : ℝ, eLogNormWishart realFun (fun _ _ : Fin 1 => (8 / 9 : ℝ)) 3 = fin a ∧ logWishartNorm realFun (fun _ _ : Fin 1 => (8 : ℝ)) 1 = fin b ∧
    entropyWishart realFun (fun _ _ : Fin 1 => (8 / 9 : ℝ)) 3 = fin c := by
  have h0 : ∀ (q : ℝ), q ≠ 0 → ∃ l, Fl.log realFun.log (fin (frob realFun (fun _ _ : Fin 1 => q))) = fin l := by
    intro q hq
    have hf := frob_pos (m := 1) realFun_sane (P := fun _ _ => q) (fun h => hq (congrFun (congrFun h 0) 0))
    exact ⟨_, by rw [Fl.log, if_neg (not_lt.2 hf.le), if_neg hf.ne']⟩
  obtain ⟨l1, e1⟩ := h0 (8 / 9) (by norm_num)
  obtain ⟨l2, e2⟩ := h0 8 (by norm_num)
  unfold entropyWishart eLogNormWishart logWishartNorm
  rw [e1, e2]
  exact ⟨_, _, _, rfl, rfl, rfl⟩

theorem pair_elbo : ∃ A : ℝ, ∀ (s : VM (varEqual realFun) 1 Atom) (u : ℝ), |u| < 1 → PairState s (u / 2) 4 (8 / 9) 3 → s.varD = pairD ((1 + u) / 2) →
    calcElbo realFun s = .ok (fin (A + pairBound u)) := by
  obtain ⟨a, b, c, ha, hb, hc⟩ := pair_norms
  have hqt : ∀ (s : VM (varEqual realFun) 1 Atom) (u : ℝ), PairState s (u / 2) 4 (8 / 9) 3 → eLogQTheta realFun s = fin (1 / 2 * (2 * (a + Real.log (4 / (2 * Real.pi)) - c) + 2)) := by
    intro s u h
    have h1 : ∀ mu, qThetaTerm realFun (some (pairAtom mu 4 (8 / 9) 3)) = fin (a + Real.log (4 / (2 * Real.pi)) - c) := by
      intro mu
      show (eLogNormWishart realFun (fun _ _ : Fin 1 => (8 / 9 : ℝ)) 3 + fin _) - entropyWishart realFun (fun _ _ : Fin 1 => (8 / 9 : ℝ)) 3 = _
      rw [ha, hc]
      show fin _ = fin _
      congr 1
      show a + ((1 : ℕ) : ℝ) * Real.log (4 / (2 * Real.pi)) - c = _
      simp
    unfold eLogQTheta
    rw [h.theta, h.varK]
    simp only [List.map_cons, List.map_nil, h1]
    show fin _ = fin _
    congr 1
    simp
    ring
  have hpt : ∀ (s : VM (varEqual realFun) 1 Atom) (u : ℝ), PairState s (u / 2) 4 (8 / 9) 3 →
      eLogPTheta realFun s = .ok (fin (Real.log (2 / (2 * Real.pi)) + 2 * b - 5 / 6 - 4 / 3 * u ^ 2)) := by
    intro s u h
    have h1 : ∀ mu, pThetaTerm realFun pairPrior (some (pairAtom mu 4 (8 / 9) 3)) = fin (-5 / 6 - 16 / 3 * mu ^ 2) := by
      intro mu
      show Fl.scale _ (eLogNormWishart realFun (fun _ _ : Fin 1 => (8 / 9 : ℝ)) 3) + fin _ = _
      rw [ha]
      show fin _ = fin _
      congr 1
      simp [pairPrior, pairAtom, traceMul, quad]
      ring
    have hlam : s.gm.lam = 2 := congrArg NIW.lam h.prior
    unfold eLogPTheta
    rw [h.theta, h.varK, h.prior, hlam]
    rw [show matInv pairPrior.psi = _ from pair_inv8]
    simp only [List.map_cons, List.map_nil, h1]
    show Except.ok (_ + Fl.scale _ (logWishartNorm realFun (fun _ _ : Fin 1 => (8 : ℝ)) 1)) = _
    rw [hb]
    show Except.ok (fin _) = Except.ok (fin _)
    congr 2
    simp [realFun]
    ring
  have hpx : ∀ (s : VM (varEqual realFun) 1 Atom) (u : ℝ), PairState s (u / 2) 4 (8 / 9) 3 → s.varD = pairD ((1 + u) / 2) →
      eLogPx realFun s = fin (a - 1 / 4 - 8 / 3 - Real.log (2 * Real.pi) + 2 * u ^ 2) := by
    intro s u h hd
    obtain ⟨m1, m2, c1, c2, s1, s2⟩ := pair_weights (p := (1 + u) / 2)
    unfold eLogPx
    rw [pair_rows h.varK hd, h.theta, h.y, h.varK]
    have t1 : pxTerm realFun pairData ([(1 + u) / 2, (1 + u) / 2, 1 - (1 + u) / 2, 1 - (1 + u) / 2].map fin) (some (pairAtom (u / 2) 4 (8 / 9) 3)) = fin (a - 1 / 4 - 8 / 3 + 2 * u ^ 2) := by
      unfold pxTerm
      rw [Fl.numbers_fin]
      simp only []
      rw [s1, if_neg two_ne_zero]
      show eLogNormWishart realFun (fun _ _ : Fin 1 => (8 / 9 : ℝ)) 3 + fin _ = _
      rw [ha, c1, m1]
      show fin _ = fin _
      congr 1
      simp [pairAtom, traceMul, quad]
      ring
    have t2 : pxTerm realFun pairData ([1 - (1 + u) / 2, 1 - (1 + u) / 2, (1 + u) / 2, (1 + u) / 2].map fin) (some (pairAtom (-(u / 2)) 4 (8 / 9) 3)) = fin (a - 1 / 4 - 8 / 3 + 2 * u ^ 2) := by
      unfold pxTerm
      rw [Fl.numbers_fin]
      simp only []
      rw [s2, if_neg two_ne_zero]
      show eLogNormWishart realFun (fun _ _ : Fin 1 => (8 / 9 : ℝ)) 3 + fin _ = _
      rw [ha, c2, m2]
      show fin _ = fin _
      congr 1
      simp [pairAtom, traceMul, quad]
      ring
    simp only [List.zipWith_cons_cons, List.zipWith_nil_right, t1, t2]
    show fin _ = fin _
    congr 1
    simp [realFun]
    ring
  have hqd : ∀ (s : VM (varEqual realFun) 1 Atom) (u : ℝ), |u| < 1 → s.varD = pairD ((1 + u) / 2) →
      eLogQd realFun s = fin (-(4 * (Real.negMulLog ((1 + u) / 2) + Real.negMulLog ((1 - u) / 2)))) := by
    intro s u hu hd
    obtain ⟨hu1, hu2⟩ := abs_lt.1 hu
    have hm : ∀ x : ℝ, 0 < x → Fl.mul (fin x) (Fl.log realFun.log (fin x)) = fin (x * Real.log x) := by
      intro x hx
      rw [Fl.log, if_neg (not_lt.2 hx.le), if_neg hx.ne']
      rfl
    unfold eLogQd
    rw [hd]
    simp only [pairD, List.map_cons, List.map_nil]
    rw [hm _ (by linarith), hm _ (by linarith), show 1 - (1 + u) / 2 = (1 - u) / 2 by ring]
    show fin _ = fin _
    congr 1
    simp [Real.negMulLog]
    ring
  refine ⟨a - 1 / 4 - 8 / 3 - Real.log (2 * Real.pi) + 4 * Real.log 2 + (Real.log (2 / (2 * Real.pi)) + 2 * b - 5 / 6) - 1 / 2 * (2 * (a + Real.log (4 / (2 * Real.pi)) - c) + 2), ?_⟩
  intro s u hu h hd
  have hpd : (varEqual realFun).meanLogPd s.gm.wst.1 s.vst (varRows s) = .ok (fin (4 * Real.log 2)) := by
    show Except.ok (fin ((((varRows s).head?.map List.length).getD 0 : ℕ) * Real.log ((show Equal ℝ from s.gm.wst.1).n : ℝ))) = _
    rw [h.n, pair_rows h.varK hd]
    simp
  unfold calcElbo
  rw [hpd, hpt s u h, hpx s u h hd, hqd s u hu hd, hqt s u h]
  show Except.ok (fin _) = Except.ok (fin _)
  congr 2
  unfold pairBound
  ring

theorem pairBound_anti : StrictAntiOn pairBound (Set.Ico 0 1) := by
  have hder : ∀ u ∈ Set.Ioo (0 : ℝ) 1, HasDerivAt pairBound (4 / 3 * u + 2 * (Real.log ((1 - u) / 2) - Real.log ((1 + u) / 2))) u := by
    intro u hu
    have h1 : HasDerivAt (fun u : ℝ => (1 + u) / 2) (1 / 2) u := ((hasDerivAt_id u).const_add 1).div_const 2
    have h2 : HasDerivAt (fun u : ℝ => (1 - u) / 2) (-1 / 2) u := ((hasDerivAt_id u).const_sub 1).div_const 2
    have p1 : (1 + u) / 2 ≠ 0 := by have := hu.1; positivity
    have p2 : (1 - u) / 2 ≠ 0 := by have := hu.2; intro h; linarith
    have h3 := (Real.hasDerivAt_negMulLog p1).comp u h1
    have h4 := (Real.hasDerivAt_negMulLog p2).comp u h2
    have h5 := ((hasDerivAt_pow 2 u).const_mul (2 / 3 : ℝ)).add ((h3.add h4).const_mul 4)
    refine h5.congr_deriv ?_
    simp
    ring
  apply strictAntiOn_of_deriv_neg (convex_Ico 0 1)
  · unfold pairBound
    fun_prop
  · intro u hu
    rw [interior_Ico] at hu
    rw [(hder u hu).deriv]
    obtain ⟨h0, h1⟩ := hu
    rw [← Real.log_div (by linarith) (by linarith)]
    have hq : 0 < (1 - u) / 2 / ((1 + u) / 2) := by
      have : 0 < 1 - u := by linarith
      positivity
    have := Real.log_le_sub_one_of_pos hq
    have e : (1 - u) / 2 / ((1 + u) / 2) - 1 = -(2 * u) / (1 + u) := by field_simp; ring
    rw [e] at this
    have h2 : -(2 * u) / (1 + u) < -u := by
      rw [div_lt_iff₀ (by linarith)]
      nlinarith
    linarith

/-- The stages of a fit whose second bound is below its first. -/
theorem pair_fall {W : World ℝ 1 Atom} (he : 0 < W.eps) (he1 : W.eps ≤ 1 / 100) {s : VM (varEqual realFun) 1 Atom × ℕ} {lam : ℝ}
    (h : PairState s.1 1 lam (Real.log 2 / 2) 1) : ∃ e₁ e₂ u, Iter realFun W ω s [fin e₁, fin e₂] u ∧ e₂ < e₁ := by
  have hl2 := Real.log_pos (show (1 : ℝ) < 2 by norm_num)
  obtain ⟨A, hA⟩ := pair_elbo (Atom := Atom)
  obtain ⟨t, ht, -, htd, htp⟩ := pair_iteration (ω := ω) he h (by positivity) (by positivity)
  set x₁ := 2 * 1 * (Real.log 2 / 2) * 1 with hx1
  have hx1' : x₁ = Real.log 2 := by rw [hx1]; ring
  set u₁ := 2 * near W.eps x₁ - 1 with hu1
  have hv1 : u₁ = (1 / 2) / (3 / 2 + 2 * W.eps) := by
    rw [hu1, hx1', near, Real.exp_neg, Real.exp_log two_pos]
    have : (0 : ℝ) < 1 + 2⁻¹ + 2 * W.eps := by positivity
    field_simp
    ring
  have hlo : 32 / 100 ≤ u₁ := by rw [hv1, le_div_iff₀ (by positivity)]; linarith
  have hhi : u₁ ≤ 1 / 3 := by rw [hv1, div_le_iff₀ (by positivity)]; linarith
  have hE1 : 0 ≤ 2 * 3 * (8 / 9) * (u₁ / 2) := by positivity
  obtain ⟨v, hv, -, hvd, hvp⟩ := pair_iteration (ω := ω) he htp (by norm_num) hE1
  set u₂ := 2 * near W.eps (2 * 3 * (8 / 9) * (u₁ / 2)) - 1 with hu2
  have hx2 : Real.exp (-(2 * 3 * (8 / 9) * (u₁ / 2))) ≤ 47 / 100 := by
    rw [Real.exp_neg]
    have h1 := Real.quadratic_le_exp_of_nonneg hE1
    have h2 : (100 / 47 : ℝ) ≤ Real.exp (2 * 3 * (8 / 9) * (u₁ / 2)) := by nlinarith
    rw [inv_le_comm₀ (Real.exp_pos _) (by norm_num)]
    linarith
  have hb := near_bounds he hE1
  have hlt : u₁ < u₂ := by
    have e : u₂ = (1 - Real.exp (-(2 * 3 * (8 / 9) * (u₁ / 2)))) / (1 + Real.exp (-(2 * 3 * (8 / 9) * (u₁ / 2))) + 2 * W.eps) := by
      rw [hu2, near]
      have := Real.exp_pos (-(2 * 3 * (8 / 9) * (u₁ / 2)))
      have : 1 + Real.exp (-(2 * 3 * (8 / 9) * (u₁ / 2))) + 2 * W.eps ≠ 0 := by positivity
      field_simp
      ring
    refine lt_of_le_of_lt hhi ?_
    rw [e, lt_div_iff₀ (by positivity)]
    linarith
  refine ⟨_, _, v, .cons ht (hA t.1 u₁ ?_ htp ?_) (.cons hv (hA v.1 u₂ ?_ hvp ?_) (.nil v)), ?_⟩
  · rw [abs_lt]; constructor <;> linarith
  · rw [htd, hu1]; congr 1; ring
  · rw [abs_lt]; constructor <;> linarith
  · rw [hvd, hu2]; congr 1; ring
  · have := pairBound_anti (a := u₁) (b := u₂) ⟨by linarith, by linarith⟩ ⟨by linarith, by linarith⟩ hlt
    linarith

theorem wp_drawAtom {F : VWorld ℝ m} {k : ℕ} {s : VM V m Atom × ℕ} {a : (Fin m → ℝ) × (Fin m → Fin m → ℝ)} {P : Fin m → Fin m → ℝ} {Q : Unit → VM V m Atom × ℕ → Prop}
    {E : PyErr → VM V m Atom × ℕ → Prop} (h1 : F.niw s.2 (GM.prior s.1.gm) = a) (h2 : matInv a.2 = .ok P)
    (h : wp ω (drawAtoms F k) Q E ({ s.1 with varTheta := s.1.varTheta ++ [some { mu := a.1, lam := s.1.gm.lam, prec := P, scale := (GM.prior s.1.gm).nu }] }, s.2 + 1)) :
    wp ω (drawAtoms F (k + 1)) Q E s := by
  unfold drawAtoms
  simp only [wp_bind, wp_self, wp_draw, wp_lift, wp_assign, h1]
  refine ⟨fun P' hP => ?_, fun e he => ?_⟩
  · rw [h2] at hP
    cases hP
    exact h
  · rw [h2] at he
    cases he

/-- **The bound of the code falls**: in a fit of two groups with equal weights the second bound is below the first, for every object and tolerance, when the
random start draws the means `1` and `-1`. -/
theorem C124_bound_refuted {F : VWorld ℝ 1} (hF : F.toMathFun = realFun) {W : World ℝ 1 Atom} (he : 0 < W.eps) (he1 : W.eps ≤ 1 / 100)
    (h0 : F.niw 0 pairPrior = (fun _ => 1, fun _ _ => 2 / Real.log 2)) (h1 : F.niw 1 pairPrior = (fun _ => -1, fun _ _ => 2 / Real.log 2))
    {s : VM (varEqual realFun) 1 Atom} (hp : GM.prior (begun pairData s).gm = pairPrior) :
    ∃ t e₁ e₂ u, Started F W ω pairData (some 2) false .random (s, 0) t ∧ Iter F.toMathFun W ω t [fin e₁, fin e₂] u ∧ e₂ < e₁ := by
  rw [hF]
  have hl2 := Real.log_pos (show (1 : ℝ) < 2 by norm_num)
  have hinv : matInv (fun _ _ : Fin 1 => 2 / Real.log 2) = .ok (fun _ _ => Real.log 2 / 2) := by
    unfold matInv
    have hd : (Matrix.of (fun _ _ : Fin 1 => (2 / Real.log 2 : ℝ))).det = 2 / Real.log 2 := by rw [det_fin_one]; rfl
    rw [hd, if_neg (by positivity)]
    congr 1
    funext i j
    have hi := Subsingleton.elim i 0
    have hj := Subsingleton.elim j 0
    subst hi hj
    rw [Matrix.adjugate_subsingleton]
    simp
  have hw : wp ω (initVar F W 2 .random) (fun _ t => PairState t.1 1 2 (Real.log 2 / 2) 1) (fun _ _ => False) (begun pairData s, 0) := by
    have hlam : s.gm.lam = 2 := congrArg NIW.lam hp
    have hnu : (GM.prior (begun pairData s).gm).nu = 1 := congrArg NIW.nu hp
    unfold initVar
    rw [wp_bind, wp_assign]
    rw [wp_bind]
    apply wp_drawAtom (a := (fun _ => 1, fun _ _ => 2 / Real.log 2)) ((congrArg (F.niw 0) hp).trans h0) hinv
    apply wp_drawAtom (a := (fun _ => -1, fun _ _ => 2 / Real.log 2)) ((congrArg (F.niw 1) hp).trans h1) hinv
    rw [if_neg (by decide), if_neg (by decide)]
    unfold drawAtoms
    rw [wp_pure, wp_bind, wp_assign]
    unfold updateVarW fitWeights
    rw [wp_bind, wp_self, wp_bind, wp_self, wp_bind, wp_lift]
    refine ⟨?_, fun e he => by cases he⟩
    intro r hr
    cases hr
    rw [wp_assign]
    refine ⟨rfl, rfl, hp, ?_, ?_⟩
    · show ((varRows (V := varEqual realFun) _).length : ℤ) = 2
      unfold varRows
      simp
    · show [some (VAtom.mk _ s.gm.lam _ (GM.prior (begun pairData s).gm).nu), some (VAtom.mk _ s.gm.lam _ (GM.prior (begun pairData s).gm).nu)] = _
      rw [hlam, hnu]
      rfl
  obtain ⟨_, t, h4, h5⟩ := wp_total hw
  obtain ⟨e₁, e₂, u, hi, hlt⟩ := pair_fall (ω := ω) he he1 h5
  exact ⟨t, e₁, e₂, u, .inr ⟨rfl, 2, rfl, h4⟩, hi, hlt⟩

/-! ### Concrete cases -/

/-- The responsibilities of `eps = 1/2` for two groups with equal scores. -/
example : ∃ r : Fin 2 → ℝ, NewColumn (1 / 2) (fun _ => 3) r := (C124_labels (by norm_num) two_pos (fun _ => (3 : ℝ))).imp fun _ h => h.1

/-- A mixture with a weighting structure just fitted. -/
example {s : VM (varDP realFun) m Atom} (h : (show DP ℝ from s.gm.wst.1).alpha = 2) :
    WeightsFitted (varDP realFun) LegalDP 2 { s with vst := .fitted (DP.fitVariational 2 [[1, 1 / 3], [0, 2 / 3]]) } := by
  refine ⟨[[1, 1 / 3], [0, 2 / 3]], ?_, rfl, ?_, ?_⟩
  · show 0 < (show DP ℝ from s.gm.wst.1).alpha
    rw [h]; exact two_pos
  · intro r hr x hx
    simp only [List.mem_cons, List.not_mem_nil, or_false] at hr
    rcases hr with rfl | rfl <;> simp only [List.mem_cons, List.not_mem_nil, or_false] at hx <;> rcases hx with rfl | rfl <;> norm_num
  · simp only [varDP, matrix_fin]
    rw [h]

/-- A group with two observations at `1` and two at `-1`. -/
example : [1, 1, 1, 1].sum ≠ (1 : ℝ) ∧ wCov pairData [1, 1, 1, 1] 0 0 ≠ 0 := by
  constructor
  · norm_num
  · norm_num [wCov, wMean, pairData]

/-- The draws of `C124_bound_refuted`. -/
noncomputable def pairFun : VWorld ℝ 1 := { realFun with
  niw := fun p _ => (fun _ => if p = 0 then 1 else -1, fun _ _ => 2 / Real.log 2)
  tol := 1 / 100000000 }

example {s : VM (varEqual realFun) 1 Unit} : ∃ t e₁ e₂ u, Started pairFun turnWorld ω pairData (some 2) false .random
      ({ s with gm := { s.gm with muPrior := some (fun _ => 0), lam := 2, psiPrior := some (fun _ _ => 1 / 8), nuPrior := some 1 } }, 0) t ∧
      Iter realFun turnWorld ω t [fin e₁, fin e₂] u ∧ e₂ < e₁ :=
  C124_bound_refuted (F := pairFun) rfl (by show (0 : ℝ) < 1 / 4503599627370496; norm_num) (by show (1 : ℝ) / 4503599627370496 ≤ 1 / 100; norm_num) rfl rfl rfl
end Verif.Mix.VM
