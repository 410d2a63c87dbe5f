import Mathlib.Probability.Distributions.Beta
import Mathlib.Analysis.SpecialFunctions.Pow.Asymptotics
import Mathlib.Analysis.SpecialFunctions.Log.Basic

/-!
# Modes of Beta densities

`v` is a mode of a density on the unit interval if the density close to `v` is higher than at any other inner point.
-/

set_option linter.unusedSectionVars false

namespace Verif.Stick
open Set Filter Topology ProbabilityTheory Real

/-- A point of `[0, 1]` close to which `f` is higher than at any other point of `(0, 1)`. -/
def IsMode (f : ℝ → ℝ) (v : ℝ) : Prop := v ∈ Icc (0 : ℝ) 1 ∧ ∀ x ∈ Ioo (0 : ℝ) 1, x ≠ v → ∀ᶠ y in 𝓝[Ioo 0 1] v, f x < f y

theorem unit_neBot {v : ℝ} (hv : v ∈ Icc (0 : ℝ) 1) : (𝓝[Ioo 0 1] v).NeBot := by
  rw [← mem_closure_iff_nhdsWithin_neBot, closure_Ioo zero_ne_one]
  exact hv

theorem isMode_of_anti {f : ℝ → ℝ} (h : StrictAntiOn f (Ioo 0 1)) (v : ℝ) : IsMode f v ↔ v = 0 := by
  constructor
  · rintro ⟨hv, hm⟩
    by_contra h0
    have hv0 : 0 < v := lt_of_le_of_ne hv.1 (Ne.symm h0)
    have hx : v / 2 ∈ Ioo (0 : ℝ) 1 := ⟨by linarith, by have := hv.2; linarith⟩
    have := unit_neBot hv
    have h1 := hm _ hx (by linarith)
    have h2 : ∀ᶠ y in 𝓝[Ioo 0 1] v, v / 2 < y := nhdsWithin_le_nhds (lt_mem_nhds (by linarith))
    obtain ⟨y, hy1, hy2, hy3⟩ := (h1.and (h2.and self_mem_nhdsWithin)).exists
    exact lt_asymm hy1 (h hx hy3 hy2)
  · rintro rfl
    refine ⟨by simp, fun x hx _ => ?_⟩
    have h2 : ∀ᶠ y in 𝓝[Ioo (0 : ℝ) 1] 0, y < x := nhdsWithin_le_nhds (gt_mem_nhds hx.1)
    filter_upwards [h2, self_mem_nhdsWithin] with y hy hy'
    exact h hy' hx hy

theorem isMode_flip {f : ℝ → ℝ} {v : ℝ} (h : IsMode f v) : IsMode (fun x => f (1 - x)) (1 - v) := by
  refine ⟨⟨by linarith [h.1.2], by linarith [h.1.1]⟩, fun x hx hne => ?_⟩
  have h1 := h.2 (1 - x) ⟨by linarith [hx.2], by linarith [hx.1]⟩ (by intro h'; apply hne; linarith)
  have ht : Tendsto (fun y : ℝ => 1 - y) (𝓝[Ioo 0 1] (1 - v)) (𝓝[Ioo 0 1] v) := by
    refine tendsto_nhdsWithin_iff.2 ⟨?_, ?_⟩
    · have : Tendsto (fun y : ℝ => 1 - y) (𝓝 (1 - v)) (𝓝 (1 - (1 - v))) := (continuous_const.sub continuous_id).tendsto _
      rw [sub_sub_cancel] at this
      exact this.mono_left nhdsWithin_le_nhds
    · filter_upwards [self_mem_nhdsWithin] with y hy
      exact ⟨by linarith [hy.2], by linarith [hy.1]⟩
  exact ht.eventually h1

theorem isMode_flip_iff {f : ℝ → ℝ} {v : ℝ} : IsMode (fun x => f (1 - x)) v ↔ IsMode f (1 - v) := by
  constructor
  · intro h
    have := isMode_flip h
    simpa using this
  · intro h
    have := isMode_flip h
    simpa using this

theorem isMode_of_max {f : ℝ → ℝ} {c : ℝ} (hc : c ∈ Ioo (0 : ℝ) 1) (hf : ContinuousAt f c) (h : ∀ x ∈ Ioo (0 : ℝ) 1, x ≠ c → f x < f c) (v : ℝ) : IsMode f v ↔ v = c := by
  constructor
  · rintro ⟨hv, hm⟩
    by_contra h0
    have := unit_neBot hv
    obtain ⟨y, hy1, hy2⟩ := ((hm c hc (Ne.symm h0)).and self_mem_nhdsWithin).exists
    rcases eq_or_ne y c with rfl | hne
    · exact lt_irrefl _ hy1
    · exact lt_asymm hy1 (h y hy2 hne)
  · rintro rfl
    refine ⟨⟨hc.1.le, hc.2.le⟩, fun x hx hne => ?_⟩
    exact nhdsWithin_le_nhds (hf.eventually (lt_mem_nhds (h x hx hne)))

variable {a b : ℝ}

theorem betaPDF_inner {x : ℝ} (hx : x ∈ Ioo (0 : ℝ) 1) : betaPDFReal a b x = 1 / beta a b * (x ^ (a - 1) * (1 - x) ^ (b - 1)) := by
  unfold betaPDFReal
  rw [if_pos (show 0 < x ∧ x < 1 from hx), mul_assoc]

theorem betaPDF_flip : betaPDFReal a b = fun x => betaPDFReal b a (1 - x) := by
  funext x
  unfold betaPDFReal
  have e : beta a b = beta b a := by unfold beta; rw [mul_comm, add_comm]
  by_cases hx : 0 < x ∧ x < 1
  · rw [if_pos hx, if_pos ⟨by linarith, by linarith⟩, e, sub_sub_cancel]
    ring
  · rw [if_neg hx, if_neg]
    rintro ⟨h1, h2⟩
    exact hx ⟨by linarith, by linarith⟩

theorem betaPDF_anti (ha : 0 < a) (ha1 : a ≤ 1) (hb : 1 ≤ b) (hab : a ≠ 1 ∨ b ≠ 1) : StrictAntiOn (betaPDFReal a b) (Ioo 0 1) := by
  intro x hx y hy hxy
  rw [betaPDF_inner hx, betaPDF_inner hy]
  refine mul_lt_mul_of_pos_left ?_ (one_div_pos.2 (beta_pos ha (by linarith)))
  have x0 := hx.1
  have y1 := hy.2
  have p1 : 0 < x ^ (a - 1) := rpow_pos_of_pos x0 _
  have p2 : 0 < y ^ (a - 1) := rpow_pos_of_pos hy.1 _
  have p3 : 0 < (1 - y) ^ (b - 1) := rpow_pos_of_pos (by linarith) _
  have p4 : 0 < (1 - x) ^ (b - 1) := rpow_pos_of_pos (by linarith) _
  have q1 : y ^ (a - 1) ≤ x ^ (a - 1) := rpow_le_rpow_of_nonpos x0 hxy.le (by linarith)
  have q2 : (1 - y) ^ (b - 1) ≤ (1 - x) ^ (b - 1) := rpow_le_rpow (by linarith) (by linarith) (by linarith)
  rcases hab with h | h
  · have h' : a < 1 := lt_of_le_of_ne ha1 h
    have q3 : y ^ (a - 1) < x ^ (a - 1) := rpow_lt_rpow_of_neg x0 hxy (by linarith)
    exact mul_lt_mul q3 q2 p3 p1.le
  · have h' : 1 < b := lt_of_le_of_ne hb (Ne.symm h)
    have q3 : (1 - y) ^ (b - 1) < (1 - x) ^ (b - 1) := rpow_lt_rpow (by linarith) (by linarith) (by linarith)
    exact mul_lt_mul' q1 q3 p3.le p1

/-- The density decreases: the mode is zero. -/
theorem betaMode_zero (ha : 0 < a) (ha1 : a ≤ 1) (hb : 1 ≤ b) (hab : a ≠ 1 ∨ b ≠ 1) (v : ℝ) : IsMode (betaPDFReal a b) v ↔ v = 0 := isMode_of_anti (betaPDF_anti ha ha1 hb hab) v

/-- The density increases: the mode is one. -/
theorem betaMode_one (hb : 0 < b) (hb1 : b ≤ 1) (ha : 1 ≤ a) (hab : a ≠ 1 ∨ b ≠ 1) (v : ℝ) : IsMode (betaPDFReal a b) v ↔ v = 1 := by
  rw [betaPDF_flip, isMode_flip_iff, betaMode_zero hb hb1 ha hab.symm]
  constructor <;> intro h <;> linarith

theorem betaPDF_max (ha : 1 < a) (hb : 1 < b) {x : ℝ} (hx : x ∈ Ioo (0 : ℝ) 1) (hne : x ≠ (a - 1) / (a + b - 2)) :
    betaPDFReal a b x < betaPDFReal a b ((a - 1) / (a + b - 2)) := by
  have hs : 0 < a + b - 2 := by linarith
  set c := (a - 1) / (a + b - 2) with hc
  have hc0 : 0 < c := div_pos (by linarith) hs
  have hc1 : c < 1 := by rw [hc, div_lt_one hs]; linarith
  have hcs : c * (a + b - 2) = a - 1 := div_mul_cancel₀ _ hs.ne'
  have hcs' : (1 - c) * (a + b - 2) = b - 1 := by rw [sub_mul, hcs]; ring
  rw [betaPDF_inner hx, betaPDF_inner ⟨hc0, hc1⟩]
  refine mul_lt_mul_of_pos_left ?_ (one_div_pos.2 (beta_pos (by linarith) (by linarith)))
  have x0 := hx.1
  have x1 : 0 < 1 - x := by linarith [hx.2]
  have c1 : 0 < 1 - c := by linarith
  have e : ∀ z : ℝ, 0 < z → 0 < 1 - z → z ^ (a - 1) * (1 - z) ^ (b - 1) = exp ((a - 1) * log z + (b - 1) * log (1 - z)) := by
    intro z h1 h2
    rw [exp_add, rpow_def_of_pos h1, rpow_def_of_pos h2, mul_comm (log z), mul_comm (log (1 - z))]
  rw [e x x0 x1, e c hc0 c1]
  refine exp_lt_exp.2 ?_
  have l1 : log x < x / c - 1 + log c := by
    have h := log_lt_sub_one_of_pos (div_pos x0 hc0) (fun h => hne ((div_eq_one_iff_eq hc0.ne').1 h))
    rw [log_div x0.ne' hc0.ne'] at h
    linarith
  have l2 : log (1 - x) ≤ (1 - x) / (1 - c) - 1 + log (1 - c) := by
    have h := log_le_sub_one_of_pos (div_pos x1 c1)
    rw [log_div x1.ne' c1.ne'] at h
    linarith
  have k1 : (a - 1) * (x / c) = x * (a + b - 2) := by rw [← hcs]; field_simp
  have k2 : (b - 1) * ((1 - x) / (1 - c)) = (1 - x) * (a + b - 2) := by rw [← hcs']; field_simp
  have m1 := mul_lt_mul_of_pos_left l1 (show (0 : ℝ) < a - 1 by linarith)
  have m2 := mul_le_mul_of_nonneg_left l2 (show (0 : ℝ) ≤ b - 1 by linarith)
  have e1 : (a - 1) * (x / c - 1 + log c) = x * (a + b - 2) - (a - 1) + (a - 1) * log c := by rw [← k1]; ring
  have e2 : (b - 1) * ((1 - x) / (1 - c) - 1 + log (1 - c)) = (1 - x) * (a + b - 2) - (b - 1) + (b - 1) * log (1 - c) := by rw [← k2]; ring
  rw [e1] at m1
  rw [e2] at m2
  linarith

/-- Both parameters above one: the inner maximum. -/
theorem betaMode_inner (ha : 1 < a) (hb : 1 < b) (v : ℝ) : IsMode (betaPDFReal a b) v ↔ v = (a - 1) / (a + b - 2) := by
  have hs : 0 < a + b - 2 := by linarith
  have hc : (a - 1) / (a + b - 2) ∈ Ioo (0 : ℝ) 1 := ⟨div_pos (by linarith) hs, by rw [div_lt_one hs]; linarith⟩
  refine isMode_of_max (f := betaPDFReal a b) hc ?_ (fun x hx hne => betaPDF_max ha hb hx hne) v
  have h1 : betaPDFReal a b =ᶠ[𝓝 ((a - 1) / (a + b - 2))] fun x => 1 / beta a b * (x ^ (a - 1) * (1 - x) ^ (b - 1)) := by
    filter_upwards [Ioo_mem_nhds hc.1 hc.2] with x hx
    exact betaPDF_inner hx
  refine ContinuousAt.congr ?_ h1.symm
  refine continuousAt_const.mul (ContinuousAt.mul ?_ ?_)
  · exact continuousAt_id.rpow_const (.inl hc.1.ne')
  · exact (continuousAt_const.sub continuousAt_id).rpow_const (.inl (sub_pos.2 hc.2).ne')

theorem betaMode_low (ha : 0 < a) (ha1 : a < 1) (hb : 0 < b) (hb1 : b ≤ 1) : IsMode (betaPDFReal a b) 0 := by
  refine ⟨by simp, fun x hx _ => ?_⟩
  have hB : 0 < 1 / beta a b := one_div_pos.2 (beta_pos ha hb)
  have ht : Tendsto (fun y : ℝ => y ^ (a - 1)) (𝓝[>] 0) atTop := tendsto_rpow_neg_nhdsGT_zero (by linarith)
  have h1 : ∀ᶠ y in 𝓝[Ioo (0 : ℝ) 1] 0, betaPDFReal a b x / (1 / beta a b) < y ^ (a - 1) :=
    (ht.eventually_gt_atTop _).filter_mono (nhdsWithin_mono _ fun y hy => hy.1)
  filter_upwards [h1, self_mem_nhdsWithin] with y hy hy'
  rw [div_lt_iff₀ hB] at hy
  refine hy.trans_le ?_
  rw [betaPDF_inner hy', mul_comm]
  refine mul_le_mul_of_nonneg_left ?_ hB.le
  have h2 : 1 ≤ (1 - y) ^ (b - 1) := one_le_rpow_of_pos_of_le_one_of_nonpos (by linarith [hy'.2]) (by linarith [hy'.1]) (by linarith)
  exact le_mul_of_one_le_right (rpow_nonneg hy'.1.le _) h2

/-- Both parameters below one: both ends are modes. -/
theorem betaMode_both (ha : 0 < a) (ha1 : a < 1) (hb : 0 < b) (hb1 : b < 1) : IsMode (betaPDFReal a b) 0 ∧ IsMode (betaPDFReal a b) 1 := by
  refine ⟨betaMode_low ha ha1 hb hb1.le, ?_⟩
  rw [betaPDF_flip, isMode_flip_iff, sub_self]
  exact betaMode_low hb hb1 ha ha1.le

/-- The uniform density has no mode. -/
theorem betaMode_uniform (v : ℝ) : ¬ IsMode (betaPDFReal 1 1) v := by
  rintro ⟨hv, h⟩
  have := unit_neBot hv
  have he : ∀ x ∈ Ioo (0 : ℝ) 1, betaPDFReal 1 1 x = 1 / beta 1 1 := fun x hx => by rw [betaPDF_inner hx]; simp
  have hx : ∃ x ∈ Ioo (0 : ℝ) 1, x ≠ v := by
    by_cases h : v = 1 / 2
    · exact ⟨1 / 3, by norm_num, by rw [h]; norm_num⟩
    · exact ⟨1 / 2, by norm_num, fun h' => h h'.symm⟩
  obtain ⟨x, hx, hne⟩ := hx
  obtain ⟨y, hy1, hy2⟩ := ((h x hx hne).and self_mem_nhdsWithin).exists
  rw [he x hx, he y hy2] at hy1
  exact lt_irrefl _ hy1
end Verif.Stick
