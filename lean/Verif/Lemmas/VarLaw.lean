import Verif.Lemmas.StickMean
import Verif.Props.C34
import Verif.Props.C36
import Verif.Props.C37
import Verif.Props.C39

/-! # The distributions that the variational parameters stand for -/

set_option linter.unusedSectionVars false

namespace Verif
open MeasureTheory ProbabilityTheory Spec
open scoped ENNReal

/-- Independent sticks with the given Beta parameters. -/
noncomputable def fittedSticks (ps : List (ℝ × ℝ)) (j : Fin ps.length) : Measure ℝ := betaMeasure ps[j].1 ps[j].2

/-- The law of the weights broken off by independent sticks with the given Beta parameters. -/
noncomputable def fittedLaw (ps : List (ℝ × ℝ)) : Measure (Fin ps.length → ℝ) := (Measure.pi (fittedSticks ps)).map breakStick

/-- As `fittedSticks`, but the last stick takes what is left over. -/
noncomputable def truncatedSticks (ps : List (ℝ × ℝ)) (j : Fin ps.length) : Measure ℝ :=
  if (j : ℕ) + 1 = ps.length then Measure.dirac 1 else betaMeasure ps[j].1 ps[j].2

/-- The law of the weights of a truncated stick-breaking process. -/
noncomputable def truncatedLaw (ps : List (ℝ × ℝ)) : Measure (Fin ps.length → ℝ) := (Measure.pi (truncatedSticks ps)).map breakStick

/-- Beta parameters. -/
def PosParams (ps : List (ℝ × ℝ)) : Prop := ∀ p ∈ ps, 0 < p.1 ∧ 0 < p.2

section
variable {ps : List (ℝ × ℝ)} (h : PosParams ps)
include h

theorem PosParams.get (j : Fin ps.length) : 0 < ps[j].1 ∧ 0 < ps[j].2 := h _ (List.getElem_mem _)

theorem fittedSticks_prob (j : Fin ps.length) : IsProbabilityMeasure (fittedSticks ps j) := isProbabilityMeasureBeta (h.get j).1 (h.get j).2

theorem truncatedSticks_prob (j : Fin ps.length) : IsProbabilityMeasure (truncatedSticks ps j) := by
  unfold truncatedSticks
  split
  · infer_instance
  · exact isProbabilityMeasureBeta (h.get j).1 (h.get j).2

theorem truncatedSticks_lt {j l : Fin ps.length} (hl : l < j) : truncatedSticks ps l = betaMeasure ps[l].1 ps[l].2 := by
  have h1 : (l : ℕ) < j := hl
  have h2 := j.2
  rw [truncatedSticks, if_neg (by omega)]

theorem fittedLaw_mean (j : Fin ps.length) :
    ∫ w, w j ∂fittedLaw ps = ps[j].1 / (ps[j].1 + ps[j].2) * ((ps.take j).map (fun p => p.2 / (p.1 + p.2))).prod := by
  have := fittedSticks_prob h
  rw [fittedLaw, stick_mean, ← prod_before (fun p : ℝ × ℝ => p.2 / (p.1 + p.2)) ps j]
  congr 1
  · exact betaMeasure_mean (h.get j).1 (h.get j).2
  · exact Finset.prod_congr rfl fun l _ => betaMeasure_one_sub (h.get l).1 (h.get l).2

theorem truncatedLaw_mean (j : Fin ps.length) :
    ∫ w, w j ∂truncatedLaw ps = (if (j : ℕ) + 1 = ps.length then 1 else ps[j].1 / (ps[j].1 + ps[j].2)) * ((ps.take j).map (fun p => p.2 / (p.1 + p.2))).prod := by
  have := truncatedSticks_prob h
  rw [truncatedLaw, stick_mean, ← prod_before (fun p : ℝ × ℝ => p.2 / (p.1 + p.2)) ps j]
  congr 1
  · unfold truncatedSticks
    split
    · rw [integral_dirac]
    · exact betaMeasure_mean (h.get j).1 (h.get j).2
  · refine Finset.prod_congr rfl fun l hl => ?_
    rw [truncatedSticks_lt h (Finset.mem_filter.1 hl).2]
    exact betaMeasure_one_sub (h.get l).1 (h.get l).2

theorem fittedLaw_log (j : Fin ps.length) : Integrable (fun w => Real.log (w j)) (fittedLaw ps) ∧
    ∫ w, Real.log (w j) ∂fittedLaw ps = (psi ps[j].1 - psi (ps[j].1 + ps[j].2)) + ((ps.take j).map (fun p => psi p.2 - psi (p.1 + p.2))).sum := by
  have := fittedSticks_prob h
  obtain ⟨h1, h2⟩ := stick_log (fittedSticks ps) j (betaMeasure_ae.mono fun x hx => hx.1) (fun l _ => betaMeasure_ae.mono fun x hx => hx.2)
    (beta_log (h.get j).1 (h.get j).2).1 (fun l _ => (beta_log_one_sub (h.get l).1 (h.get l).2).1)
  refine ⟨h1, ?_⟩
  rw [fittedLaw, h2, ← sum_before (fun p : ℝ × ℝ => psi p.2 - psi (p.1 + p.2)) ps j]
  congr 1
  · exact (beta_log (h.get j).1 (h.get j).2).2
  · exact Finset.sum_congr rfl fun l _ => (beta_log_one_sub (h.get l).1 (h.get l).2).2

theorem truncatedLaw_log (j : Fin ps.length) : Integrable (fun w => Real.log (w j)) (truncatedLaw ps) ∧
    ∫ w, Real.log (w j) ∂truncatedLaw ps = (if (j : ℕ) + 1 = ps.length then 0 else psi ps[j].1 - psi (ps[j].1 + ps[j].2))
      + ((ps.take j).map (fun p => psi p.2 - psi (p.1 + p.2))).sum := by
  have := truncatedSticks_prob h
  have a1 : ∀ᵐ x ∂truncatedSticks ps j, 0 < x := by
    unfold truncatedSticks
    split
    · rw [ae_dirac_iff (measurableSet_Ioi (a := (0 : ℝ)))]; exact one_pos
    · exact betaMeasure_ae.mono fun x hx => hx.1
  have a2 : Integrable Real.log (truncatedSticks ps j) ∧
      ∫ x, Real.log x ∂truncatedSticks ps j = if (j : ℕ) + 1 = ps.length then 0 else psi ps[j].1 - psi (ps[j].1 + ps[j].2) := by
    unfold truncatedSticks
    split
    · exact ⟨integrable_dirac (by simp), by simp⟩
    · exact beta_log (h.get j).1 (h.get j).2
  obtain ⟨h1, h2⟩ := stick_log (truncatedSticks ps) j a1 (fun l hl => by rw [truncatedSticks_lt h hl]; exact betaMeasure_ae.mono fun x hx => hx.2)
    a2.1 (fun l hl => by rw [truncatedSticks_lt h hl]; exact (beta_log_one_sub (h.get l).1 (h.get l).2).1)
  refine ⟨h1, ?_⟩
  rw [truncatedLaw, h2, ← sum_before (fun p : ℝ × ℝ => psi p.2 - psi (p.1 + p.2)) ps j, a2.2]
  congr 1
  refine Finset.sum_congr rfl fun l hl => ?_
  rw [truncatedSticks_lt h (Finset.mem_filter.1 hl).2]
  exact (beta_log_one_sub (h.get l).1 (h.get l).2).2
end

theorem prod_filter_range {M : Type*} [CommMonoid M] {n : ℕ} (g : ℕ → M) (j : Fin n) : ∏ l ∈ Finset.univ.filter (· < j), g l = ∏ i ∈ Finset.range j, g i := by
  rw [Finset.prod_filter]
  have : ∀ l : Fin n, (if l < j then g l else 1) = (fun i : ℕ => if i < (j : ℕ) then g i else 1) l := fun l => rfl
  rw [Finset.prod_congr rfl (fun l _ => this l), Fin.prod_univ_eq_prod_range (fun i : ℕ => if i < (j : ℕ) then g i else 1) n, ← Finset.prod_filter]
  congr 1
  ext i
  have := j.2
  simp
  omega

theorem sum_filter_range {M : Type*} [AddCommMonoid M] {n : ℕ} (g : ℕ → M) (j : Fin n) : ∑ l ∈ Finset.univ.filter (· < j), g l = ∑ i ∈ Finset.range j, g i := by
  rw [Finset.sum_filter]
  have : ∀ l : Fin n, (if l < j then g l else 0) = (fun i : ℕ => if i < (j : ℕ) then g i else 0) l := fun l => rfl
  rw [Finset.sum_congr rfl (fun l _ => this l), Fin.sum_univ_eq_sum_range (fun i : ℕ => if i < (j : ℕ) then g i else 0) n, ← Finset.sum_filter]
  congr 1
  ext i
  have := j.2
  simp
  omega

section dirichlet
variable {l : List ℝ} (h : ∀ x ∈ l, 0 < x)
include h

theorem drop_sum_pos {j : ℕ} (hj : j < l.length) : 0 < (l.drop j).sum :=
  list_sum_pos (fun x hx => h x (List.mem_of_mem_drop hx)) (by intro he; have := congrArg List.length he; simp at this; omega)

theorem dirichletStick_mean {j : ℕ} (hj : j < l.length) : ∫ x, x ∂dirichletStick l j = l[j] / (l.drop j).sum := by
  have hd : l.drop j = l[j] :: l.drop (j + 1) := List.drop_eq_getElem_cons hj
  unfold dirichletStick
  split
  · rename_i he
    rw [integral_dirac, hd, List.drop_eq_nil_of_le (by omega)]
    simp [(h _ (List.getElem_mem hj)).ne']
  · rw [List.getElem?_eq_getElem hj, Option.getD_some, betaMeasure_mean (h _ (List.getElem_mem hj)) (drop_sum_pos h (by omega)), hd, List.sum_cons]

theorem dirichletStick_rest {j : ℕ} (hj : j < l.length) : ∫ x, (1 - x) ∂dirichletStick l j = (l.drop (j + 1)).sum / (l.drop j).sum := by
  have hd : l.drop j = l[j] :: l.drop (j + 1) := List.drop_eq_getElem_cons hj
  unfold dirichletStick
  split
  · rename_i he
    rw [integral_dirac, List.drop_eq_nil_of_le (i := j + 1) (by omega)]
    simp
  · rw [List.getElem?_eq_getElem hj, Option.getD_some, betaMeasure_one_sub (h _ (List.getElem_mem hj)) (drop_sum_pos h (by omega)), hd, List.sum_cons]

theorem dirichletLaw_mean (j : Fin l.length) : ∫ w, w j ∂dirichletLaw l = l[j] / l.sum := by
  have := dirichletStick_prob h
  rw [dirichletLaw, stick_mean, dirichletStick_mean h j.2, Finset.prod_congr rfl fun i _ => dirichletStick_rest h i.2,
    prod_filter_range (fun i => (l.drop (i + 1)).sum / (l.drop i).sum) j]
  have tele : ∀ m, m < l.length → ∏ i ∈ Finset.range m, (l.drop (i + 1)).sum / (l.drop i).sum = (l.drop m).sum / l.sum := by
    intro m hm
    induction m with
    | zero =>
      have := drop_sum_pos h hm
      simp at this ⊢
      rw [div_self this.ne']
    | succ m ih =>
      rw [Finset.prod_range_succ, ih (by omega)]
      have := (drop_sum_pos h (show m < l.length by omega)).ne'
      field_simp
  rw [tele j j.2]
  have := (drop_sum_pos h j.2).ne'
  rw [Fin.getElem_fin]
  field_simp

theorem dirichletLaw_log (j : Fin l.length) : Integrable (fun w => Real.log (w j)) (dirichletLaw l) ∧ ∫ w, Real.log (w j) ∂dirichletLaw l = psi l[j] - psi l.sum := by
  have := dirichletStick_prob h
  have hb : ∀ i (hi : i + 1 < l.length), dirichletStick l i = betaMeasure l[i] (l.drop (i + 1)).sum := by
    intro i hi
    rw [dirichletStick, if_neg (by omega), List.getElem?_eq_getElem (by omega), Option.getD_some]
  have hlt : ∀ i : Fin l.length, i < j → (i : ℕ) + 1 < l.length := fun i hi => by have : (i : ℕ) < j := hi; have := j.2; omega
  have hdr : ∀ i (hi : i < l.length), (l.drop i).sum = l[i] + (l.drop (i + 1)).sum := fun i hi => by rw [List.drop_eq_getElem_cons hi, List.sum_cons]
  have a1 : ∀ᵐ x ∂dirichletStick l j, 0 < x := by
    unfold dirichletStick
    split
    · rw [ae_dirac_iff (measurableSet_Ioi (a := (0 : ℝ)))]; exact one_pos
    · exact betaMeasure_ae.mono fun x hx => hx.1
  have a2 : Integrable Real.log (dirichletStick l j) ∧ ∫ x, Real.log x ∂dirichletStick l j = psi l[j] - psi (l.drop j).sum := by
    by_cases he : (j : ℕ) + 1 = l.length
    · rw [dirichletStick, if_pos he]
      refine ⟨integrable_dirac (by simp), ?_⟩
      rw [hdr j j.2, List.drop_eq_nil_of_le (by omega)]
      simp
    · have hj := j.2
      rw [hb j (by omega), hdr j hj]
      exact beta_log (h _ (List.getElem_mem _)) (drop_sum_pos h (by omega))
  have a3 : ∀ i < j, Integrable (fun x => Real.log (1 - x)) (dirichletStick l i) ∧
      ∫ x, Real.log (1 - x) ∂dirichletStick l i = psi (l.drop ((i : ℕ) + 1)).sum - psi (l.drop i).sum := by
    intro i hi
    rw [hb i (hlt i hi), hdr i i.2]
    exact beta_log_one_sub (h _ (List.getElem_mem _)) (drop_sum_pos h (hlt i hi))
  obtain ⟨h1, h2⟩ := stick_log (fun i : Fin l.length => dirichletStick l i) j a1 (fun i hi => by rw [hb i (hlt i hi)]; exact betaMeasure_ae.mono fun x hx => hx.2)
    a2.1 (fun i hi => (a3 i hi).1)
  refine ⟨h1, ?_⟩
  rw [dirichletLaw, h2, a2.2, Finset.sum_congr rfl fun i hi => (a3 i (Finset.mem_filter.1 hi).2).2,
    sum_filter_range (fun i => psi (l.drop (i + 1)).sum - psi (l.drop i).sum) j, Finset.sum_range_sub (fun i => psi (l.drop i).sum)]
  simp
end dirichlet
end Verif
