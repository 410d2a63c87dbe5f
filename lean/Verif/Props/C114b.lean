import Verif.Props.C114
import Verif.Props.C123
import Verif.Props.C145
import Verif.Props.C87b

/-!
# C114, further classes

`C114_pitmanYor_partial`, `C114_dirichlet_partial`, `C114_equal_partial`: after a fit of univariate data `var_eap_density` is the expected density under the fitted law also for Pitman-Yor weights (independent
Beta sticks), for the Dirichlet distribution and for equal weights.  `C114_dirichlet_partial` adds that the total mass is one.  `C114_pitmanYor_mass_partial`: for Pitman-Yor weights the function returned is not
a density, its mass is one minus the mean of what the `k` sticks leave over, which no group takes.  `C114_geometric_refuted`: for geometric weights it is not the expected density.
-/

set_option linter.unusedSectionVars false

namespace Verif.Mix.VM
open MeasureTheory ProbabilityTheory Real Matrix
open Verif.Fl (fin)
variable {C : WeightClass ℝ} {V : VarClass C} {Atom : Type} {ω : Oracle ℝ}

/-- A law of `k` weights as a law of `n = k` weights. -/
noncomputable def relabel {n k : ℕ} (h : n = k) (Q : Measure (Fin k → ℝ)) : Measure (Fin n → ℝ) := Q.map fun w j => w (Fin.cast h j)

theorem relabel_rfl {n : ℕ} (Q : Measure (Fin n → ℝ)) : relabel rfl Q = Q := by
  unfold relabel
  exact Measure.map_id

/-- The value when the weights are means of a law. -/
theorem C114_law_partial {s : VM V 1 Atom} (hs : s.varFitted = true) {as : List (VAtom ℝ 1)} (hth : s.varTheta = as.map some) (ha : ∀ a ∈ as, ProperAtom a)
    (L : Fin as.length → Matrix (Fin 1) (Fin 1) ℝ) (hL : ∀ j, FactorOf (L j) as[j]) {k : ℕ} (hk : as.length = k) (Q : Measure (Fin k → ℝ)) [IsProbabilityMeasure Q]
    (hQ : ∀ j, 0 < ∫ w, w j ∂Q) (hw : ∀ j : Fin k, V.meanW s.gm.wst.1 s.vst j = .ok (fin (∫ w, w j ∂Q))) {y : Points ℝ} {xs : List (Fin 1 → ℝ)} (hy : points s y = .ok ⟨1, xs⟩) :
    varEapDensity realFun s y .none none = .ok (xs.map fun x => fin (∫ p, mixturePdf as L x p ∂((relabel hk Q).prod (groupLaw as)))) := by
  subst hk
  rw [relabel_rfl]
  refine C114_one_partial hs hth ha L hL Q (fun j => ?_) hw hy
  by_contra hni
  have := hQ j
  rw [integral_undef hni] at this
  exact lt_irrefl _ this

/-- **Pitman-Yor weights**, univariate data.  What is missing: more coordinates (`C114_refuted`). -/
theorem C114_pitmanYor_partial {G : MathFun ℝ} {F : VWorld ℝ 1} (hF : Sane F.toMathFun) {W : World ℝ 1 Atom} (he : 0 < W.eps) {ys : List (Fin 1 → ℝ)} (hy : ys ≠ []) (nG : Option ℤ)
    (tol : ℝ) {s u : VM (varPY G) 1 Atom × ℕ} (hI : LegalPY s.1.gm.wst.1) (hT : 0 < s.1.gm.totalIter) (hp : ProperPrior (GM.prior (begun ys s.1).gm))
    (h : fitVariational F W (.rows ys) nG false (.fin tol) .random ω s = (.ok (), u)) :
    ∃ (as : List (VAtom ℝ 1)) (L : Fin as.length → Matrix (Fin 1) (Fin 1) ℝ) (ps : List (ℝ × ℝ)) (hl : as.length = ps.length), u.1.varTheta = as.map some ∧ (∀ j, FactorOf (L j) as[j]) ∧
      PosParams ps ∧ (∃ v : Var ℝ, u.1.vst = VFit.fitted v ∧ v.params = ps) ∧ IsProbabilityMeasure (fittedLaw ps) ∧
      (∀ (y : Points ℝ) (xs : List (Fin 1 → ℝ)), points u.1 y = .ok ⟨1, xs⟩ →
        varEapDensity realFun u.1 y .none none = .ok (xs.map fun x => fin (∫ p, mixturePdf as L x p ∂((relabel hl (fittedLaw ps)).prod (groupLaw as))))) := by
  obtain ⟨h1, ⟨as, h2, h3⟩, c0, q, hc0, hq1, hq2, hq3, _⟩ := C114_fit hF he (C123_classes G one_pos).2.1.1 one_pos hy nG tol hI hT hp h
  have hq : NonNegMatrix q := fun r hr x hx => (hq2 r hr x hx).le
  set pyd := (show PY ℝ from c0).pyd with hpyd
  set al := (show PY ℝ from c0).alpha with hal
  have hv : u.1.vst = VFit.fitted (PY.fitVariational pyd al q) := by
    simp only [varPY, Fl.matrix_fin] at hq3
    injection hq3 with hq3
    exact (Prod.mk.inj hq3).2.symm
  have hlen : as.length = (PY.fitVariational pyd al q).params.length := by rw [PY.fit_length, hq1, h2, List.length_map]
  have hps : PosParams (PY.fitVariational pyd al q).params := PY.fit_pos ⟨hc0.1, hc0.2.1⟩ hc0.2.2 hq
  have hsp := fittedSticks_prob hps
  have hlaw : IsProbabilityMeasure (fittedLaw (PY.fitVariational pyd al q).params) := Measure.isProbabilityMeasure_map measurable_breakStick.aemeasurable
  choose L hL using fun j : Fin as.length => exists_factor (h3 _ (List.getElem_mem j.2)).prec
  refine ⟨as, L, _, hlen, h2, hL, hps, ⟨_, hv, rfl⟩, hlaw, fun y xs hyx => C114_law_partial h1 h2 h3 L hL hlen _ (fun j => ?_) (fun j => ?_) hyx⟩
  · rw [fittedLaw_mean hps]
    have := hps.get j
    refine mul_pos (div_pos this.1 (add_pos this.1 this.2)) (List.prod_pos fun x hx => ?_)
    obtain ⟨p, hp, rfl⟩ := List.mem_map.1 hx
    have := hps p (List.mem_of_mem_take hp)
    exact div_pos this.2 (add_pos this.1 this.2)
  · rw [hv]
    show flOk (PY.meanWj (PY.fitVariational pyd al q) j) = _
    rw [C87_pitmanYor ⟨hc0.1, hc0.2.1⟩ hc0.2.2 hq j]
    rfl

/-- The weights broken off by `n` sticks. -/
theorem broken_total {ps : List (ℝ × ℝ)} (h : PosParams ps) {w : ℕ → ℝ} (hw : ∀ j (hj : j < ps.length), w j = ((ps.take j).map fun p => p.2 / (p.1 + p.2)).prod * (ps[j].1 / (ps[j].1 + ps[j].2))) :
    ∀ n ≤ ps.length, ∑ j ∈ Finset.range n, w j = 1 - ((ps.take n).map fun p => p.2 / (p.1 + p.2)).prod := by
  intro n
  induction n with
  | zero => intro _; simp
  | succ n ih =>
    intro hn
    obtain ⟨p1, p2⟩ := h ps[n] (List.getElem_mem (by omega))
    rw [Finset.sum_range_succ, ih (by omega), hw n (by omega), List.take_succ_eq_append_getElem (by omega), List.map_append, List.prod_append]
    simp only [List.map_cons, List.map_nil, List.prod_singleton]
    have : ps[n].1 + ps[n].2 ≠ 0 := by linarith
    field_simp
    ring

/-- **Pitman-Yor weights do not give a density**: the mass of `var_eap_density` is positive and less than one after every fit.  What is missing: more coordinates. -/
theorem C114_pitmanYor_mass_partial {G : MathFun ℝ} {F : VWorld ℝ 1} (hF : Sane F.toMathFun) {W : World ℝ 1 Atom} (he : 0 < W.eps) {ys : List (Fin 1 → ℝ)} (hy : ys ≠ []) (nG : Option ℤ)
    (tol : ℝ) {s u : VM (varPY G) 1 Atom × ℕ} (hI : LegalPY s.1.gm.wst.1) (hT : 0 < s.1.gm.totalIter) (hp : ProperPrior (GM.prior (begun ys s.1).gm))
    (h : fitVariational F W (.rows ys) nG false (.fin tol) .random ω s = (.ok (), u)) :
    ∃ ps : List (ℝ × ℝ), PosParams ps ∧ (∃ v : Var ℝ, u.1.vst = VFit.fitted v ∧ v.params = ps) ∧ ∫ x, eapAt u.1 x = 1 - (ps.map fun p => p.2 / (p.1 + p.2)).prod ∧
      0 < ∫ x, eapAt u.1 x ∧ ∫ x, eapAt u.1 x < 1 := by
  obtain ⟨h1, ⟨as, h2, h3⟩, c0, q, hc0, hq1, hq2, hq3, _⟩ := C114_fit hF he (C123_classes G one_pos).2.1.1 one_pos hy nG tol hI hT hp h
  obtain ⟨k, _, _, hready, _⟩ := C52_random hF he (C123_classes G one_pos).2.1.1 one_pos hy nG (.fin tol) hI h
  have hq : NonNegMatrix q := fun r hr x hx => (hq2 r hr x hx).le
  set pyd := (show PY ℝ from c0).pyd with hpyd
  set al := (show PY ℝ from c0).alpha with hal
  have hv : u.1.vst = VFit.fitted (PY.fitVariational pyd al q) := by
    simp only [varPY, Fl.matrix_fin] at hq3
    injection hq3 with hq3
    exact (Prod.mk.inj hq3).2.symm
  have hl := PY.fit_length pyd al q
  have hk : (PY.fitVariational pyd al q).k = q.length := rfl
  have hps : PosParams (PY.fitVariational pyd al q).params := PY.fit_pos ⟨hc0.1, hc0.2.1⟩ hc0.2.2 hq
  have hlen : as.length = (PY.fitVariational pyd al q).params.length := by rw [hl, hq1, h2, List.length_map]
  have h0 : 0 < (PY.fitVariational pyd al q).params.length := by
    have := hready.pos
    rw [← hready.theta, h2, List.length_map, hlen] at this
    exact this
  refine ⟨_, hps, ⟨_, hv, rfl⟩, ?_⟩
  generalize PY.fitVariational pyd al q = v at *
  set w : ℕ → ℝ := fun j => if hj : j < v.params.length then ((v.params.take j).map fun p => p.2 / (p.1 + p.2)).prod * (v.params[j].1 / (v.params[j].1 + v.params[j].2)) else 0 with hw
  have hwj : ∀ j (hj : j < v.params.length), w j = ((v.params.take j).map fun p => p.2 / (p.1 + p.2)).prod * (v.params[j].1 / (v.params[j].1 + v.params[j].2)) := fun j hj => by
    rw [hw]; simp only [dif_pos hj]
  have e : ∫ x, eapAt u.1 x = 1 - (v.params.map fun p => p.2 / (p.1 + p.2)).prod := by
    rw [C114_total_one_partial h1 h2 h3 (w := w) (fun j hj => by
      have hj' : j < v.params.length := by omega
      rw [hv, hwj j hj']
      show flOk (PY.meanWj v j) = _
      unfold PY.meanWj
      rw [if_neg (by omega), foldTo_ok _ _ _ _ (by omega), foldl_mul_map, one_mul, List.getElem?_eq_getElem hj']
      rfl), hlen, broken_total hps hwj _ le_rfl, List.take_length]
  obtain ⟨l1, l2⟩ := left_lt_one (ps := v.params) hps h0 le_rfl
  rw [List.take_length] at l1 l2
  rw [e]
  exact ⟨rfl, by linarith, by linarith⟩

/-- **Dirichlet weights**, univariate data; the total mass is one.  What is missing: more coordinates (`C114_refuted`). -/
theorem C114_dirichlet_partial {G : MathFun ℝ} {F : VWorld ℝ 1} (hF : Sane F.toMathFun) {W : World ℝ 1 Atom} (he : 0 < W.eps) {ys : List (Fin 1 → ℝ)} (hy : ys ≠ []) (nG : Option ℤ)
    (tol : ℝ) {k : ℕ} (hk : 0 < k) {s u : VM (varDirDist G) 1 Atom × ℕ} (hI : LegalDirDist k s.1.gm.wst.1) (hT : 0 < s.1.gm.totalIter) (hp : ProperPrior (GM.prior (begun ys s.1).gm))
    (h : fitVariational F W (.rows ys) nG false (.fin tol) .random ω s = (.ok (), u)) :
    ∃ (as : List (VAtom ℝ 1)) (L : Fin as.length → Matrix (Fin 1) (Fin 1) ℝ) (al : List ℝ) (hl : as.length = al.length), u.1.varTheta = as.map some ∧ (∀ j, FactorOf (L j) as[j]) ∧
      (∀ x ∈ al, 0 < x) ∧ al.length = k ∧ (∃ v : DVar ℝ, u.1.vst = VFit.fitted v ∧ v.params = al) ∧ IsProbabilityMeasure (dirichletLaw al) ∧
      (∀ (y : Points ℝ) (xs : List (Fin 1 → ℝ)), points u.1 y = .ok ⟨1, xs⟩ →
        varEapDensity realFun u.1 y .none none = .ok (xs.map fun x => fin (∫ p, mixturePdf as L x p ∂((relabel hl (dirichletLaw al)).prod (groupLaw as))))) ∧
      ∫ x, eapAt u.1 x = 1 := by
  obtain ⟨h1, ⟨as, h2, h3⟩, c0, q, hc0, hq1, hq2, hq3, _⟩ := C114_fit hF he (C123_classes G hk).2.2.2.1.1 one_pos hy nG tol hI hT hp h
  have hq : NonNegMatrix q := fun r hr x hx => (hq2 r hr x hx).le
  simp only [varDirDist, Fl.matrix_fin] at hq3
  have hn : (show DirDist ℝ from c0).n = ((show DirDist ℝ from c0).alpha.length : ℤ) := by rw [hc0.1.1, hc0.1.2]
  rw [hn] at hq3
  cases hg : DirDist.fitVariational ((show DirDist ℝ from c0).alpha.length : ℤ) (show DirDist ℝ from c0).alpha q with
  | error e => rw [hg] at hq3; cases hq3
  | ok v =>
    rw [hg] at hq3
    have hv : u.1.vst = VFit.fitted v := by
      injection hq3 with hq3
      exact (Prod.mk.inj hq3).2.symm
    obtain ⟨hql, hve⟩ := DirDist.fit_eq hg
    have hps : ∀ x ∈ v.params, 0 < x := by rw [hve]; exact DirDist.fit_pos hc0.2 hq
    have hvl : v.params.length = k := by
      rw [hve]
      simp only [List.length_zipWith, rowSums_length, hql, min_self]
      exact hc0.1.2
    have hvk : v.k = k := by
      rw [hve]
      show (((show DirDist ℝ from c0).alpha.length : ℕ) : ℤ) = k
      exact congrArg _ hc0.1.2
    have hlen : as.length = v.params.length := by rw [hvl, ← hc0.1.2, ← hql, hq1, h2, List.length_map]
    have hsp := dirichletStick_prob hps
    have hlaw : IsProbabilityMeasure (dirichletLaw v.params) := Measure.isProbabilityMeasure_map measurable_breakStick.aemeasurable
    have hsum : 0 < v.params.sum := List.sum_pos _ hps (by rintro h0; rw [h0] at hvl; simp at hvl; omega)
    have hm : ∀ j (hj : j < v.params.length), (varDirDist G).meanW u.1.gm.wst.1 u.1.vst j = .ok (fin (v.params[j] / v.params.sum)) := by
      intro j hj
      rw [hv]
      show flOk (DirDist.meanWj v j) = _
      unfold DirDist.meanWj
      rw [if_neg (by omega), List.getElem?_eq_getElem hj]
      rfl
    choose L hL using fun j : Fin as.length => exists_factor (h3 _ (List.getElem_mem j.2)).prec
    refine ⟨as, L, _, hlen, h2, hL, hps, hvl, ⟨_, hv, rfl⟩, hlaw, fun y xs hyx => C114_law_partial h1 h2 h3 L hL hlen _ (fun j => ?_) (fun j => ?_) hyx, ?_⟩
    · rw [dirichletLaw_mean hps]
      exact div_pos (hps _ (List.getElem_mem j.2)) hsum
    · rw [dirichletLaw_mean hps]
      exact hm j j.2
    · rw [C114_total_one_partial h1 h2 h3 (w := fun j => (v.params[j]?).getD 0 / v.params.sum) (fun j hj => by
        rw [hm j (by omega), List.getElem?_eq_getElem (by omega)]; rfl), ← Finset.sum_div, hlen, div_eq_one_iff_eq hsum.ne', Finset.sum_range]
      have : ∀ j : Fin v.params.length, (v.params[(j : ℕ)]?).getD 0 = v.params[j] := fun j => by rw [List.getElem?_eq_getElem j.2]; rfl
      simp only [this]
      exact Fin.sum_univ_getElem v.params

/-- **Equal weights**, univariate data: the weights are the numbers `1/k`; the total mass is one.  What is missing: more coordinates (`C114_refuted`). -/
theorem C114_equal_partial {G : MathFun ℝ} {F : VWorld ℝ 1} (hF : Sane F.toMathFun) {W : World ℝ 1 Atom} (he : 0 < W.eps) {ys : List (Fin 1 → ℝ)} (hy : ys ≠ []) (nG : Option ℤ)
    (tol : ℝ) {s u : VM (varEqual G) 1 Atom × ℕ} (hT : 0 < s.1.gm.totalIter) (hp : ProperPrior (GM.prior (begun ys s.1).gm))
    (h : fitVariational F W (.rows ys) nG false (.fin tol) .random ω s = (.ok (), u)) :
    ∃ (as : List (VAtom ℝ 1)) (L : Fin as.length → Matrix (Fin 1) (Fin 1) ℝ), u.1.varTheta = as.map some ∧ (∀ j, FactorOf (L j) as[j]) ∧ 0 < as.length ∧
      (∀ (y : Points ℝ) (xs : List (Fin 1 → ℝ)), points u.1 y = .ok ⟨1, xs⟩ →
        varEapDensity realFun u.1 y .none none = .ok (xs.map fun x => fin (∫ p, mixturePdf as L x p ∂((Measure.dirac fun _ => 1 / (as.length : ℝ)).prod (groupLaw as))))) ∧
      ∫ x, eapAt u.1 x = 1 := by
  obtain ⟨h1, ⟨as, h2, h3⟩, c0, q, hc0, hq1, hq2, hq3, _⟩ := C114_fit hF he (C123_classes G one_pos).2.2.2.2.1.1 one_pos hy nG tol trivial hT hp h
  obtain ⟨k, _, _, hready, _⟩ := C52_random hF he (C123_classes G one_pos).2.2.2.2.1.1 one_pos hy nG (.fin tol) trivial h
  have hpos : 0 < as.length := by
    have := hready.pos
    rw [← hready.theta, h2, List.length_map] at this
    exact this
  have hn : (show Equal ℝ from u.1.gm.wst.1).n = (as.length : ℤ) := by
    simp only [varEqual] at hq3
    injection hq3 with hq3
    rw [← (Prod.mk.inj hq3).1]
    simp [hq1, h2]
  have hm : ∀ j < as.length, (varEqual G).meanW u.1.gm.wst.1 u.1.vst j = .ok (fin (1 / (as.length : ℝ))) := by
    intro j hj
    show Except.ok (fin (Equal.meanWj (show Equal ℝ from u.1.gm.wst.1).n.toNat j)) = _
    rw [hn, Int.toNat_natCast, Equal.meanWj, if_pos hj]
  choose L hL using fun j : Fin as.length => exists_factor (h3 _ (List.getElem_mem j.2)).prec
  refine ⟨as, L, h2, hL, hpos, fun y xs hyx => ?_, ?_⟩
  · have e := C114_law_partial h1 h2 h3 L hL rfl (Measure.dirac fun _ : Fin as.length => 1 / (as.length : ℝ)) (fun j => by rw [integral_dirac]; positivity)
      (fun j => by rw [integral_dirac]; exact hm j j.2) hyx
    rwa [relabel_rfl] at e
  · rw [C114_total_one_partial h1 h2 h3 (w := fun _ => 1 / (as.length : ℝ)) hm, Finset.sum_const, Finset.card_range, nsmul_eq_mul]
    have : (as.length : ℝ) ≠ 0 := by positivity
    field_simp

/-- **Geometric weights are refuted already for one coordinate**: after every fit with at least two groups the answer for the second group is, at every point, strictly larger than the
expectation of its contribution, `w_1 = p (1 - p)` with `p` from the fitted Beta law: the code multiplies means of factors which are not independent. -/
theorem C114_geometric_refuted {G : MathFun ℝ} {F : VWorld ℝ 1} (hF : Sane F.toMathFun) {W : World ℝ 1 Atom} (he : 0 < W.eps) {ys : List (Fin 1 → ℝ)} (hy : ys ≠ []) (nG : Option ℤ)
    (tol : ℝ) {s u : VM (varGeo G) 1 Atom × ℕ} (hI : LegalGeo s.1.gm.wst.1) (hT : 0 < s.1.gm.totalIter) (hp : ProperPrior (GM.prior (begun ys s.1).gm))
    (h : fitVariational F W (.rows ys) nG false (.fin tol) .random ω s = (.ok (), u)) (hk : 2 ≤ u.1.varTheta.length) :
    ∃ (a : VAtom ℝ 1) (L : Matrix (Fin 1) (Fin 1) ℝ) (v : GVar ℝ) (f : (Fin 1 → ℝ) → ℝ), u.1.varTheta[1]? = some (some a) ∧ ProperAtom a ∧ FactorOf L a ∧ 0 < v.a ∧ 0 < v.b ∧
      u.1.vst = VFit.fitted v ∧
      (∀ x, (∫ p, p * (1 - p) ^ 1 ∂betaMeasure v.a v.b) * expectedPdf a L x < f x) ∧
      ∀ (y : Points ℝ) (xs : List (Fin 1 → ℝ)), points u.1 y = .ok ⟨1, xs⟩ → varEapDensity realFun u.1 y .none (some 1) = .ok (xs.map fun x => fin (f x)) := by
  obtain ⟨h1, ⟨as, h2, h3⟩, c0, q, hc0, hq1, hq2, hq3, _⟩ := C114_fit hF he (C123_classes G one_pos).2.2.1.1 one_pos hy nG tol hI hT hp h
  have hq : NonNegMatrix q := fun r hr x hx => (hq2 r hr x hx).le
  have hlen : u.1.varTheta.length = as.length := by rw [h2, List.length_map]
  simp only [varGeo, Fl.matrix_fin] at hq3
  cases hg : Geo.fitVariational (show Geo ℝ from c0).a (show Geo ℝ from c0).b q with
  | error e => rw [hg] at hq3; cases hq3
  | ok v =>
    rw [hg] at hq3
    have hv : u.1.vst = VFit.fitted v := by
      injection hq3 with hq3
      exact (Prod.mk.inj hq3).2.symm
    have hj : 1 < as.length := by omega
    have ha := h3 _ (List.getElem_mem hj)
    obtain ⟨L, hL⟩ := exists_factor ha.prec
    have hlt := C87_geometric_refuted hc0.1 hc0.2 hq hg (by omega)
    obtain ⟨p1, p2, _⟩ := Geo.fit_pos hc0.1 hc0.2 hq hg
    refine ⟨as[1], L, v, fun x => Geo.meanWj v 1 * expectedPdf as[1] L x, ?_, ha, hL, p1, p2, hv, fun x => mul_lt_mul_of_pos_right hlt (expectedPdf_pos ha hL x), fun y xs hyx => ?_⟩
    · rw [h2, List.getElem?_map, List.getElem?_eq_getElem hj]
      rfl
    · have e := C114_component h1 h2 h3 (⟨1, hj⟩ : Fin as.length) hL (w := Geo.meanWj v 1) (by rw [hv]; rfl) hyx
      rw [e]
      have n1 : normFactor as[(⟨1, hj⟩ : Fin as.length)] = 1 := normFactor_one ha
      simp only [n1, one_mul]
      rfl

/-- **The mass with geometric weights**: `1 - (1 - m)^k` with the mean `m` of the fitted Beta law, less than one, and more than the expected total of the weights if there are two or more
groups.  What is missing: more coordinates. -/
theorem C114_geometric_mass_partial {G : MathFun ℝ} {F : VWorld ℝ 1} (hF : Sane F.toMathFun) {W : World ℝ 1 Atom} (he : 0 < W.eps) {ys : List (Fin 1 → ℝ)} (hy : ys ≠ []) (nG : Option ℤ)
    (tol : ℝ) {s u : VM (varGeo G) 1 Atom × ℕ} (hI : LegalGeo s.1.gm.wst.1) (hT : 0 < s.1.gm.totalIter) (hp : ProperPrior (GM.prior (begun ys s.1).gm))
    (h : fitVariational F W (.rows ys) nG false (.fin tol) .random ω s = (.ok (), u)) :
    ∃ v : GVar ℝ, u.1.vst = VFit.fitted v ∧ 0 < v.a ∧ 0 < v.b ∧ ∫ x, eapAt u.1 x = 1 - (v.b / (v.a + v.b)) ^ u.1.varTheta.length ∧ ∫ x, eapAt u.1 x < 1 ∧
      (2 ≤ u.1.varTheta.length → ∫ p, ∑ j ∈ Finset.range u.1.varTheta.length, p * (1 - p) ^ j ∂betaMeasure v.a v.b < ∫ x, eapAt u.1 x) := by
  obtain ⟨h1, ⟨as, h2, h3⟩, c0, q, hc0, hq1, hq2, hq3, _⟩ := C114_fit hF he (C123_classes G one_pos).2.2.1.1 one_pos hy nG tol hI hT hp h
  have hq : NonNegMatrix q := fun r hr x hx => (hq2 r hr x hx).le
  have hlen : as.length = q.length := by rw [hq1, h2, List.length_map]
  simp only [varGeo, Fl.matrix_fin] at hq3
  cases hg : Geo.fitVariational (show Geo ℝ from c0).a (show Geo ℝ from c0).b q with
  | error e => rw [hg] at hq3; cases hq3
  | ok v =>
    rw [hg] at hq3
    have hv : u.1.vst = VFit.fitted v := by
      injection hq3 with hq3
      exact (Prod.mk.inj hq3).2.symm
    obtain ⟨p1, p2, t, lt⟩ := C87_geometric_total hc0.1 hc0.2 hq hg
    have e : ∫ x, eapAt u.1 x = ∑ j ∈ Finset.range q.length, Geo.meanWj v j := by
      rw [C114_total_one_partial h1 h2 h3 (w := Geo.meanWj v) (fun j _ => by rw [hv]; rfl), hlen]
    rw [← hq1, e]
    refine ⟨v, hv, p1, p2, t, ?_, lt⟩
    rw [t]
    have : 0 < (v.b / (v.a + v.b)) ^ q.length := pow_pos (div_pos p2 (by linarith)) _
    linarith

/-- The prior of the examples is proper. -/
theorem turn_prior {C : WeightClass ℝ} {V : VarClass C} {s : VM V 1 Unit × ℕ} (h1 : s.1.gm.lam = 1) (h2 : s.1.gm.psiPrior = some 1) (h3 : s.1.gm.nuPrior = none) :
    ProperPrior (GM.prior (begun [![0], ![1], ![5], ![7]] s.1).gm) := by
  refine ⟨?_, ?_, ?_⟩
  · show 0 < s.1.gm.lam
    rw [h1]; exact one_pos
  · show ((1 : ℕ) : ℝ) - 1 < s.1.gm.nuPrior.getD _
    rw [h3]; norm_num
  · show (Matrix.of (s.1.gm.psiPrior.getD _)).PosDef
    rw [h2]
    have : (Matrix.of (fun _ _ : Fin 1 => (1 : ℝ)) : Matrix (Fin 1) (Fin 1) ℝ) = 1 := by
      ext i j
      fin_cases i; fin_cases j; rfl
    show (Matrix.of (fun _ _ : Fin 1 => (1 : ℝ)) : Matrix (Fin 1) (Fin 1) ℝ).PosDef
    rw [this]
    exact Matrix.PosDef.one

theorem turn_start (p : ℕ) : (Matrix.of (fun _ _ : Fin 1 => (p : ℝ) + 1)).det ≠ 0 := by
  rw [Matrix.det_fin_one]
  show (p : ℝ) + 1 ≠ 0
  positivity

/-- Four observations, two groups, Pitman-Yor weights: the fit returns, and its mass is less than one. -/
example {s : VM (varPY realFun) 1 Unit × ℕ} (h1 : s.1.gm.lam = 1) (h2 : s.1.gm.psiPrior = some 1) (h3 : s.1.gm.nuPrior = none) (h4 : (show PY ℝ from s.1.gm.wst.1).alpha = 2)
    (h4' : (show PY ℝ from s.1.gm.wst.1).pyd = 1 / 4) (h5 : s.1.gm.totalIter = 100) (tol : ℝ) :
    ∃ u, fitVariational turnFun turnWorld (.rows [![0], ![1], ![5], ![7]]) (some 2) false (.fin tol) .random ω s = (.ok (), u) ∧ 0 < ∫ x, eapAt u.1 x ∧ ∫ x, eapAt u.1 x < 1 := by
  have he : 0 < turnWorld.eps := by show (0 : ℝ) < 1 / 4503599627370496; norm_num
  have hJ : LegalPY s.1.gm.wst.1 := by
    unfold LegalPY
    rw [h4, h4']
    norm_num
  have hA := (C123_classes realFun (k := 2) two_pos).2.1
  have hT : 0 < s.1.gm.totalIter := by rw [h5]; norm_num
  obtain ⟨u, hu, _⟩ := C123_fit (ω := ω) (F := turnFun) (W := turnWorld) (nG := some 2) he world_argsort hA.1 one_pos rfl hA.2 (by simp) (turn_prior h1 h2 h3) tol hT (.random rfl two_pos hJ turn_start)
  obtain ⟨_, _, _, _, b, c⟩ := C114_pitmanYor_mass_partial realFun_sane he (by simp) (some 2) tol hJ hT (turn_prior h1 h2 h3) hu
  exact ⟨u, hu, b, c⟩

/-- Four observations, two groups, Dirichlet weights: the fit returns, and its mass is one. -/
example {s : VM (varDirDist realFun) 1 Unit × ℕ} (h1 : s.1.gm.lam = 1) (h2 : s.1.gm.psiPrior = some 1) (h3 : s.1.gm.nuPrior = none) (h4 : LegalDirDist 2 s.1.gm.wst.1)
    (h5 : s.1.gm.totalIter = 100) (tol : ℝ) :
    ∃ u, fitVariational turnFun turnWorld (.rows [![0], ![1], ![5], ![7]]) (some 2) false (.fin tol) .random ω s = (.ok (), u) ∧ ∫ x, eapAt u.1 x = 1 := by
  have he : 0 < turnWorld.eps := by show (0 : ℝ) < 1 / 4503599627370496; norm_num
  have hA := (C123_classes realFun (k := 2) two_pos).2.2.2.1
  have hT : 0 < s.1.gm.totalIter := by rw [h5]; norm_num
  obtain ⟨u, hu, _⟩ := C123_fit (ω := ω) (F := turnFun) (W := turnWorld) (nG := some 2) he world_argsort hA.1 one_pos rfl hA.2 (by simp) (turn_prior h1 h2 h3) tol hT (.random rfl two_pos h4 turn_start)
  obtain ⟨_, _, _, _, _, _, _, _, _, _, _, b⟩ := C114_dirichlet_partial realFun_sane he (by simp) (some 2) tol two_pos h4 hT (turn_prior h1 h2 h3) hu
  exact ⟨u, hu, b⟩

/-- Four observations, two groups, geometric weights: the fit returns, and it has a second group. -/
example {s : VM (varGeo realFun) 1 Unit × ℕ} (h1 : s.1.gm.lam = 1) (h2 : s.1.gm.psiPrior = some 1) (h3 : s.1.gm.nuPrior = none) (h4 : LegalGeo s.1.gm.wst.1)
    (h5 : s.1.gm.totalIter = 100) (tol : ℝ) :
    ∃ u, fitVariational turnFun turnWorld (.rows [![0], ![1], ![5], ![7]]) (some 2) false (.fin tol) .random ω s = (.ok (), u) ∧ 2 ≤ u.1.varTheta.length := by
  have he : 0 < turnWorld.eps := by show (0 : ℝ) < 1 / 4503599627370496; norm_num
  have hA := (C123_classes realFun (k := 2) two_pos).2.2.1
  have hT : 0 < s.1.gm.totalIter := by rw [h5]; norm_num
  obtain ⟨u, hu, hg, _⟩ := C123_fit (ω := ω) (F := turnFun) (W := turnWorld) (nG := some 2) he world_argsort hA.1 one_pos rfl hA.2 (by simp) (turn_prior h1 h2 h3) tol hT (.random rfl two_pos h4 turn_start)
  exact ⟨u, hu, hg.ready.theta.ge⟩

/-- Four observations, two groups, equal weights: the fit returns, and its mass is one. -/
example {s : VM (varEqual realFun) 1 Unit × ℕ} (h1 : s.1.gm.lam = 1) (h2 : s.1.gm.psiPrior = some 1) (h3 : s.1.gm.nuPrior = none) (h5 : s.1.gm.totalIter = 100) (tol : ℝ) :
    ∃ u, fitVariational turnFun turnWorld (.rows [![0], ![1], ![5], ![7]]) (some 2) false (.fin tol) .random ω s = (.ok (), u) ∧ ∫ x, eapAt u.1 x = 1 := by
  have he : 0 < turnWorld.eps := by show (0 : ℝ) < 1 / 4503599627370496; norm_num
  have hA := (C123_classes realFun (k := 2) two_pos).2.2.2.2.1
  have hT : 0 < s.1.gm.totalIter := by rw [h5]; norm_num
  obtain ⟨u, hu, _⟩ := C123_fit (ω := ω) (F := turnFun) (W := turnWorld) (nG := some 2) he world_argsort hA.1 one_pos rfl hA.2 (by simp) (turn_prior h1 h2 h3) tol hT
    (.random rfl two_pos trivial turn_start)
  obtain ⟨_, _, _, _, _, _, b⟩ := C114_equal_partial realFun_sane he (by simp) (some 2) tol hT (turn_prior h1 h2 h3) hu
  exact ⟨u, hu, b⟩
end Verif.Mix.VM
