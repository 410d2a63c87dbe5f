import Verif.Lemmas.Reach
import Verif.Lemmas.Demo
import Verif.Props.C10

/-!
# C14: `BetaInBeta(x=1)` is a geometric process

`C14_fitted_partial`: in every history, `random` on a fitted object returns the geometric sequence of a parameter drawn from
`Beta(a + n, b + sum(d))`.  `C14_unfitted_partial`: on an object without data it returns the geometric sequence of the parameter stored in the
object (which is never drawn: line 77 tests `len(self.v == 0)`).

The two remaining parts of the claim are false for the code.  `C14_unfitted_refuted`: a fresh object with the default `p = 0` returns weights
that are all zero, whatever the generator.  `C14_complete_refuted`: `complete` after `random` draws a second parameter and the
result is not a geometric sequence.
-/

set_option linter.unusedSectionVars false

namespace Verif
open Spec
variable {K : Type} [Field K] [LinearOrder K] [IsStrictOrderedRing K] {ω : Oracle K}

namespace BIB

theorem randomP_one (s : BIB K × ℕ) (hx : s.1.x = 1) (ha : 0 < s.1.a + (s.1.d.length : K)) (hb : 0 < s.1.b + ((s.1.d.sum : ℤ) : K)) :
    randomP ω s = (.ok (), ({ s.1 with p := ω.beta s.2 (s.1.a + (s.1.d.length : K)) (s.1.b + ((s.1.d.sum : ℤ) : K)) }, s.2 + 1)) := by
  have h : wp ω randomP (fun _ t => t = ({ s.1 with p := ω.beta s.2 (s.1.a + (s.1.d.length : K)) (s.1.b + ((s.1.d.sum : ℤ) : K)) }, s.2 + 1))
      (fun _ _ => False) s := by
    unfold randomP drawGeometricP
    rw [wp_bind, wp_self, if_pos hx, wp_bind, wp_self, wp_bind, wp_beta]
    refine ⟨fun h => ?_, fun _ _ => rfl⟩
    rcases h with h | h
    · exact absurd h (not_le.2 ha)
    · exact absurd h (not_le.2 hb)
  obtain ⟨r, t, h1, h2⟩ := wp_total h
  rw [h1, h2]

/-- `complete` on an `x = 1` object that already has enough sticks only redraws `p`. -/
theorem complete_one_keep (hω : ω.Legal) {size : PySize} {n : ℤ} (hn : size.toInt? = some n) (s : BIB K × ℕ) (h : Valid s.1)
    (hlen : n ≤ s.1.v.length) :
    wp ω (complete size) (fun r t => r = s.1.w ∧ t.1 = { s.1 with p := t.1.p }) (fun _ _ => False) s := by
  unfold complete
  rw [checkSize_ok hn, hn, wp_bind, wp_lift]
  refine ⟨fun _ _ => ?_, nofun⟩
  rw [wp_bind, wp_self, wp_bind]
  have hP : wp ω (M.whenM (s.1.v.length ≠ 0) randomP) (fun _ t => t.1 = { s.1 with p := t.1.p }) (fun _ _ => False) s := by
    rw [wp_whenM]
    exact ⟨fun _ => wp_mono (randomP_ok hω h) (fun _ _ h => h.1) (fun _ _ h => h), fun _ => rfl⟩
  refine wp_mono hP ?_ (fun _ _ h => h)
  intro _ t ht
  dsimp only
  rw [wp_bind, wp_self, wp_bind, wp_whenM]
  refine ⟨fun h => ?_, fun _ => ?_⟩
  · rw [ht] at h
    exact absurd h (not_lt.2 hlen)
  · rw [wp_bind, wp_self, wp_pure]
    exact ⟨by rw [ht], ht⟩

theorem random_one_fitted (hω : ω.Legal) (s : BIB K × ℕ) (hx : s.1.x = 1) (h : Valid s.1) (hd : s.1.d ≠ []) {size : PySize} {N : ℕ}
    (hN : size.toInt? = some (N : ℤ) ∨ (size = .none ∧ IsMaxLabel s.1.d ((N : ℤ) - 1))) :
    wp ω (random size) (fun r t => r = t.1.w ∧
      IsGeometric (ω.beta s.2 (s.1.a + (s.1.d.length : K)) (s.1.b + ((s.1.d.sum : ℤ) : K))) N r) (fun _ _ => False) s := by
  have hl : ¬ s.1.d.length = 0 := fun h => hd (List.length_eq_zero_iff.1 h)
  have hg := geoParams_pos h
  obtain ⟨a_c, hb, hA⟩ := bincount_ok h.labels
  set p := ω.beta s.2 (s.1.a + (s.1.d.length : K)) (s.1.b + ((s.1.d.sum : ℤ) : K)) with hp
  unfold random
  rw [wp_bind, wp_self, wp_ite]
  refine ⟨fun h => absurd h.2 hl, fun _ => ?_⟩
  rw [wp_bind, wp_assign, if_neg hl, wp_bind, wp_whenM]
  refine ⟨fun _ => ?_, fun h => absurd (by rw [hx]; exact one_pos) h⟩
  unfold wp
  rw [randomP_one ({ s.1 with v := [] }, s.2) hx hg.1 hg.2]
  dsimp only
  rw [← hp]
  have main : ∀ sz n, sz.toInt? = some ((n : ℕ) : ℤ) → n = N → wp ω (randomFitted a_c (revTails a_c) sz n)
      (fun r t => r = t.1.w ∧ IsGeometric p N r) (fun _ _ => False) ({ s.1 with v := [], p := p }, s.2 + 1) := by
    intro sz n hsz hnN
    rw [hnN] at hsz ⊢
    unfold randomFitted fittedSticks
    rw [wp_bind, wp_self, wp_bind, if_neg (by change ¬ s.1.x < 1; rw [hx]; exact lt_irrefl _), wp_lift]
    refine ⟨fun v hv => ?_, fun e he => by unfold Py.repeatScalar at he; rw [if_neg (by omega)] at he; cases he⟩
    have hv' : v = List.replicate N p := by
      unfold Py.repeatScalar at hv; rw [if_neg (by omega)] at hv; cases hv; simp
    rw [wp_bind, wp_assign]
    have hval : Valid ({ s.1 with v := v, w := stickWeights v, p := p } : BIB K) :=
      { h with p0 := hω.beta_nonneg _ _ _, p1 := hω.beta_le_one _ _ _ }
    refine wp_mono (complete_one_keep hω hsz ({ s.1 with v := v, w := stickWeights v, p := p }, s.2 + 1) hval (by simp [hv'])) ?_ (fun _ _ h => h)
    rintro r t ⟨h1, h2⟩
    refine ⟨by rw [h1, h2], ?_⟩
    have := stickWeights_const (p := p) (v := v) (by rw [hv']; intro x hx; exact List.eq_of_mem_replicate hx)
    rw [h1]
    rwa [show v.length = N by simp [hv']] at this
  have hlift : wp ω (M.lift (Py.bincount s.1.d) : M K (BIB K) _) (fun r t => r = a_c ∧ t = ({ s.1 with v := [], p := p }, s.2 + 1)) (fun _ _ => False)
      ({ s.1 with v := [], p := p }, s.2 + 1) := by
    rw [hb, wp_lift]; exact ⟨fun _ h => ⟨by cases h; rfl, rfl⟩, nofun⟩
  change wp ω _ _ _ _
  rw [wp_bind]
  refine wp_mono hlift ?_ (fun _ _ h => h)
  rintro _ _ ⟨rfl, rfl⟩
  rcases hN with hN | ⟨rfl, hm⟩
  · cases size with
    | none => cases hN
    | other => cases hN
    | int k => cases hN; exact main _ N rfl rfl
    | np k => cases hN; exact main _ N rfl rfl
  · exact main (.int _) _ rfl (by have := hA.length_eq hm; omega)

theorem random_one_unfitted (s : BIB K × ℕ) (hx : s.1.x = 1) (hd : s.1.d = []) {size : PySize} {N : ℕ} (h0 : 1 ≤ N)
    (hN : size.toInt? = some (N : ℤ)) :
    wp ω (random size) (fun r t => r = t.1.w ∧ t.1.p = s.1.p ∧ t.2 = s.2 ∧ IsGeometric s.1.p N r) (fun _ _ => False) s := by
  have hl : s.1.d.length = 0 := by rw [hd]; rfl
  unfold random
  rw [wp_bind, wp_self, wp_ite]
  refine ⟨fun h => (by rw [h.1] at hN; cases hN), fun _ => ?_⟩
  rw [wp_bind, wp_assign, if_pos hl]
  unfold complete
  rw [checkSize_ok hN, hN, wp_bind, wp_lift]
  refine ⟨fun _ _ => ?_, nofun⟩
  rw [wp_bind, wp_self, wp_bind, wp_whenM]
  refine ⟨fun h => absurd rfl h, fun _ => ?_⟩
  dsimp only
  rw [wp_bind, wp_self, wp_bind, wp_whenM]
  refine ⟨fun _ => ?_, fun h => absurd (by simp; omega) h⟩
  unfold newSticks
  rw [wp_bind, if_neg (by change ¬ s.1.x < 1; rw [hx]; exact lt_irrefl _), wp_lift]
  refine ⟨fun v hv => ?_, fun e he => by unfold Py.repeatScalar at he; rw [if_neg (by simp)] at he; cases he⟩
  have hv' : v = List.replicate N s.1.p := by
    unfold Py.repeatScalar at hv; rw [if_neg (by simp)] at hv; cases hv; simp
  rw [wp_bind, wp_assign, wp_assign, wp_bind, wp_self, wp_pure]
  refine ⟨rfl, rfl, rfl, ?_⟩
  have := stickWeights_const (p := s.1.p) (v := v) (by rw [hv']; intro x hx; exact List.eq_of_mem_replicate hx)
  rwa [show v.length = N by simp [hv']] at this

end BIB

section
variable (log : K → K) (pos : ℕ) (ops : List (WOp K)) {alpha a b p : K} {m : PMethod} {s0 : BIB K}

/-- Missing: `complete` after `random`, see `C14_complete_refuted`. -/
theorem C14_fitted_partial (hω : ω.Legal) (hi : BIB.init 1 alpha a b p m = .ok s0) (ha : 0 < alpha) (hab : 0 < a ∧ 0 < b) (hp : 0 ≤ p ∧ p ≤ 1)
    {s : BIB K × ℕ} (hs : BIB.cls.run log ω (s0, pos) ops = s) (hd : NonNegLabels s.1.d) (hne : s.1.d ≠ [])
    {size : PySize} {N : ℕ} (hN : size.toInt? = some (N : ℤ) ∨ (size = .none ∧ IsMaxLabel s.1.d ((N : ℤ) - 1))) :
    ∃ r t, BIB.random size ω s = (.ok r, t) ∧ r = t.1.w ∧
      IsGeometric (ω.beta s.2 (a + (s.1.d.length : K)) (b + ((s.1.d.sum : ℤ) : K))) N r := by
  subst hs
  have hv := BIB.reach_valid log pos ops hω hi ⟨zero_le_one, le_rfl⟩ ha hab hp (.inr (.inr rfl)) hd
  have hh := WeightCore.run_keeps (BIB.hyper_stable (ω := ω) (· = (1, alpha, a, b, m))) log ops (s0, pos) (by
    rw [(BIB.init_eq hi).1]; rfl)
  change ((BIB.cls.run log ω (s0, pos) ops).1.x, (BIB.cls.run log ω (s0, pos) ops).1.alpha,
    (BIB.cls.run log ω (s0, pos) ops).1.a, (BIB.cls.run log ω (s0, pos) ops).1.b, (BIB.cls.run log ω (s0, pos) ops).1.pMethod) = _ at hh
  simp only [Prod.mk.injEq] at hh
  have := wp_total (BIB.random_one_fitted hω (BIB.cls.run log ω (s0, pos) ops) hh.1 hv hne hN)
  rw [hh.2.2.1, hh.2.2.2.1] at this
  exact this

/-- Missing: the parameter is the stored one, not a draw; see `C14_unfitted_refuted`. -/
theorem C14_unfitted_partial (hi : BIB.init 1 alpha a b p m = .ok s0) {s : BIB K × ℕ} (hs : BIB.cls.run log ω (s0, pos) ops = s)
    (hd : s.1.d = []) {size : PySize} {N : ℕ} (h0 : 1 ≤ N) (hN : size.toInt? = some (N : ℤ)) :
    ∃ r t, BIB.random size ω s = (.ok r, t) ∧ r = t.1.w ∧ t.1.p = s.1.p ∧ t.2 = s.2 ∧ IsGeometric s.1.p N r := by
  subst hs
  have hh := WeightCore.run_keeps (BIB.hyper_stable (ω := ω) (· = (1, alpha, a, b, m))) log ops (s0, pos) (by
    rw [(BIB.init_eq hi).1]; rfl)
  change ((BIB.cls.run log ω (s0, pos) ops).1.x, (BIB.cls.run log ω (s0, pos) ops).1.alpha,
    (BIB.cls.run log ω (s0, pos) ops).1.a, (BIB.cls.run log ω (s0, pos) ops).1.b, (BIB.cls.run log ω (s0, pos) ops).1.pMethod) = _ at hh
  simp only [Prod.mk.injEq] at hh
  exact wp_total (BIB.random_one_unfitted (BIB.cls.run log ω (s0, pos) ops) hh.1 hd h0 hN)

/-- A fresh object with the default `p = 0` returns only zeros, for every generator and every size. -/
theorem C14_unfitted_refuted (hi : BIB.init 1 alpha a b 0 m = .ok s0) (n : ℕ) (hn : 1 ≤ n) :
    ∃ t, BIB.random (.int n) ω (s0, pos) = (.ok (List.replicate n 0), t) := by
  obtain ⟨r, t, h, _, _, _, hg⟩ := C14_unfitted_partial (ω := ω) id pos [] hi (s := (s0, pos)) rfl (by rw [(BIB.init_eq hi).1])
    (size := .int n) hn rfl
  refine ⟨t, ?_⟩
  rw [h]
  congr 2
  rw [List.eq_replicate_iff]
  refine ⟨hg.1, fun x hx => ?_⟩
  obtain ⟨j, hj, rfl⟩ := List.mem_iff_getElem.1 hx
  have := hg.2 j (by rw [← hg.1]; exact hj)
  rw [List.getElem?_eq_getElem hj, (BIB.init_eq hi).1] at this
  simpa using this
end

/-- `fit([0]); random(); complete(2)` on an `x = 1` object gives `[1/2, 1/8]`, which is not a geometric sequence `q, q(1-q)`. -/
theorem C14_complete_refuted : ∃ (ω : Oracle ℚ) (s0 : BIB ℚ), ω.Legal ∧ BIB.init 1 1 1 1 0 .static = .ok s0 ∧
    ∀ q, ¬ IsGeometric q 2 (BIB.cls.run id ω (s0, 0) [.fit [0], .random .none, .complete (.int 2)]).1.w := by
  refine ⟨demo, ⟨1, 1, 1, 1, 0, .static, [], [], []⟩, demo_legal, if_neg (by decide), fun q h => ?_⟩
  have e : (BIB.cls.run id (demo : Oracle ℚ) (⟨1, 1, 1, 1, 0, .static, [], [], []⟩, 0) [.fit [0], .random .none, .complete (.int 2)]).1.w
      = [1/2, 1/8] := by decide +kernel
  rw [e] at h
  have h0 := h.2 0 (by omega)
  have h1 := h.2 1 (by omega)
  simp at h0 h1
  rw [← h0] at h1
  norm_num at h1

/-! Non-vacuity: labels `[2, 0]`, `a = b = 1`: the parameter is drawn from `Beta(3, 3)`, its mean is `1/2`. -/
example : (BIB.random .none (meanO : Oracle ℚ) (⟨1, 1, 1, 1, 0, .static, [], [], [2, 0]⟩, 0)).1 = .ok [1/2, 1/4, 1/8] := by
  decide +kernel
example : IsMaxLabel [2, 0] (((3 : ℕ) : ℤ) - 1) ∧ NonNegLabels [2, 0] := by simp [IsMaxLabel, NonNegLabels]

end Verif
