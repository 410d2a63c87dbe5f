import Verif.Lemmas.TailAe
import Verif.Lemmas.BIBDraw
import Verif.Lemmas.BBinDraw
import Verif.Lemmas.BBerOk
import Verif.Lemmas.BIDOk

/-! # The sticks that the loop of `tail` appends, class by class -/

set_option linter.unusedSectionVars false

namespace Verif
open MeasureTheory ProbabilityTheory Filter Spec
open scoped ENNReal Topology
variable {ω : Oracle ℝ}

theorem betaRep_one (ω : Oracle ℝ) (q : ℕ) (a b : ℝ) : M.betaValues ω q (List.replicate (1 : ℤ).toNat (a, b)) = [ω.beta q a b] := by simp [M.betaValues]

theorem wp_true {σ α : Type} (m : M ℝ σ α) (s : σ × ℕ) : wp ω m (fun _ _ => True) (fun _ _ => True) s := by
  unfold wp
  split <;> trivial

/-! ### Dirichlet process -/

theorem DP.feeds {alpha : ℝ} (ha : 0 < alpha) : Feeds (DP.core (K := ℝ)) DP.v ω (fun t => t.1.alpha = alpha ∧ t.1.w = stickWeights t.1.v) (fun t i => ω.beta (t.2 + i) 1 alpha) where
  stick := fun s h => h.2
  next := by
    rintro t ⟨h1, h3⟩
    refine (wp_bind (DP.complete _) _).2 ?_
    unfold wp
    have hl : t.1.w.length = t.1.v.length := by rw [h3, stickWeights_length]
    have hcn := DP.complete_num (size := .int ((t.1.w.length : ℤ) + 1)) (n := (t.1.w.length : ℤ) + 1) rfl ω t
    have hone : ((t.1.w.length : ℤ) + 1 - t.1.v.length).toNat = 1 := by rw [hl]; omega
    rw [if_pos (by rw [hl]; omega), if_neg (by rw [h1]; exact not_le.2 ha), hone] at hcn
    rw [show DP.complete (.int ((DP.core.getW t.1).length + 1)) ω t = _ from hcn]
    refine ⟨⟨h1, rfl⟩, ?_, fun i => ?_⟩
    · show t.1.v ++ [ω.beta (t.2 + 0) 1 t.1.alpha] = _
      rw [h1]
    · show ω.beta (t.2 + 1 + i) 1 alpha = ω.beta (t.2 + (i + 1)) 1 alpha
      rw [Nat.add_assoc, Nat.add_comm 1]

/-! ### Pitman-Yor process -/

theorem PY.feeds {pyd alpha : ℝ} (hp : 0 ≤ pyd ∧ pyd < 1) (ha : 0 < alpha) : Feeds (PY.core (K := ℝ)) PY.v ω (fun t => (t.1.pyd = pyd ∧ t.1.alpha = alpha) ∧ t.1.w = stickWeights t.1.v)
    (fun t i => ω.beta (t.2 + i) (1 - pyd) (alpha + ((t.1.v.length + i : ℕ) : ℝ) * pyd)) where
  stick := fun s h => h.2
  next := by
    rintro t ⟨h1, h3⟩
    refine (wp_bind (PY.complete _) _).2 ?_
    have hl : t.1.w.length = t.1.v.length := by rw [h3, stickWeights_length]
    refine wp_mono (PY.complete_spec t.1 t.2 (n := t.1.w.length + 1) (by rfl) (by rw [h1.1]; exact hp.1) (by rw [h1.1]; exact hp.2)
      (by rw [h1.2]; exact ha) h3) ?_ (fun _ _ h => h)
    rintro _ t' ⟨e, _, hv, hq⟩
    have hone : t.1.w.length + 1 - t.1.v.length = 1 := by omega
    rw [hone] at hv hq
    have hv' : t'.1.v = t.1.v ++ [ω.beta (t.2 + 0) (1 - pyd) (alpha + ((t.1.v.length + 0 : ℕ) : ℝ) * pyd)] := by
      rw [hv, h1.1, h1.2]
      simp [M.betaValues]
    refine ⟨⟨by rw [e]; exact h1, by rw [e]⟩, hv', fun i => ?_⟩
    show ω.beta (t'.2 + i) _ _ = _
    rw [hq, hv', List.length_append, List.length_singleton, Nat.add_assoc t.2, Nat.add_assoc t.1.v.length, Nat.add_comm 1 i]

/-! ### Beta-in-Beta -/

namespace BIB

/-- `complete` to one more stick with `x < 1`, for a given draw of `p`. -/
theorem complete_lt {s : BIB ℝ × ℕ} (hv : s.1.v ≠ []) (hx : s.1.x < 1) {p : ℝ} {q : ℕ} (hr : randomP ω s = (.ok (), ({ s.1 with p := p }, q)))
    (hp : 0 < (priorPar s.1 p).1 ∧ 0 < (priorPar s.1 p).2) : wp ω (complete (.int ((s.1.v.length : ℤ) + 1)))
      (fun _ t => t.2 = q + 1 ∧ t.1 = { s.1 with p := p, v := s.1.v ++ [ω.beta q (priorPar s.1 p).1 (priorPar s.1 p).2], w := stickWeights (s.1.v ++ [ω.beta q (priorPar s.1 p).1 (priorPar s.1 p).2]) })
      (fun _ _ => False) s := by
  unfold complete newSticks
  rw [checkSize_ok rfl, wp_bind, wp_lift]
  refine ⟨fun _ _ => ?_, nofun⟩
  rw [wp_bind, wp_self, wp_bind, wp_whenM]
  refine ⟨fun _ => ?_, fun h => absurd (fun e => hv (List.length_eq_zero_iff.1 e)) h⟩
  refine wp_mono (wp_eq_ok.2 hr) ?_ (fun _ _ h => h)
  rintro _ _ ⟨rfl, rfl⟩
  have e1 : (s.1.v.length : ℤ) + 1 - s.1.v.length = 1 := by omega
  have e2 : ((1 : ℤ)).toNat = 1 := rfl
  simp only [PySize.toInt?]
  rw [wp_bind, wp_self, wp_bind, wp_whenM]
  refine ⟨fun _ => ?_, fun h => absurd (by dsimp only; omega) h⟩
  rw [wp_bind, if_pos hx, wp_betaRep]
  refine ⟨fun h => ?_, fun _ _ _ => ?_⟩
  · rcases h with h | h | h
    · exact absurd hp.1 (not_lt.2 h)
    · exact absurd hp.2 (not_lt.2 h)
    · dsimp only at h; omega
  rw [wp_bind, wp_assign, wp_assign, wp_bind, wp_self, wp_pure]
  dsimp only
  rw [e1, e2]
  exact ⟨rfl, rfl⟩

/-- The same with `x = 1`. -/
theorem complete_one {s : BIB ℝ × ℕ} (hv : s.1.v ≠ []) (hx : s.1.x = 1) {p : ℝ} {q : ℕ} (hr : randomP ω s = (.ok (), ({ s.1 with p := p }, q))) :
    wp ω (complete (.int ((s.1.v.length : ℤ) + 1))) (fun _ t => t.2 = q ∧ t.1 = { s.1 with p := p, v := s.1.v ++ [p], w := stickWeights (s.1.v ++ [p]) }) (fun _ _ => False) s := by
  unfold complete newSticks
  rw [checkSize_ok rfl, wp_bind, wp_lift]
  refine ⟨fun _ _ => ?_, nofun⟩
  rw [wp_bind, wp_self, wp_bind, wp_whenM]
  refine ⟨fun _ => ?_, fun h => absurd (fun e => hv (List.length_eq_zero_iff.1 e)) h⟩
  refine wp_mono (wp_eq_ok.2 hr) ?_ (fun _ _ h => h)
  rintro _ _ ⟨rfl, rfl⟩
  have e1 : (s.1.v.length : ℤ) + 1 - s.1.v.length = 1 := by omega
  simp only [PySize.toInt?]
  rw [wp_bind, wp_self, wp_bind, wp_whenM]
  refine ⟨fun _ => ?_, fun h => absurd (by dsimp only; omega) h⟩
  rw [wp_bind, if_neg (by dsimp only; rw [hx]; exact lt_irrefl _)]
  dsimp only
  rw [e1, wp_lift]
  refine ⟨fun r hr => ?_, fun e he => by simp [Py.repeatScalar] at he⟩
  have : r = [p] := by
    simp [Py.repeatScalar] at hr
    exact hr.symm
  subst this
  rw [wp_bind, wp_assign, wp_assign, wp_bind, wp_self, wp_pure]
  exact ⟨rfl, rfl⟩

theorem randomP_geo {s : BIB ℝ × ℕ} (h : 0 < s.1.a + (s.1.d.length : ℝ) ∧ 0 < s.1.b + ((s.1.d.sum : ℤ) : ℝ)) :
    drawGeometricP ω s = (.ok (), ({ s.1 with p := ω.beta s.2 (s.1.a + (s.1.d.length : ℝ)) (s.1.b + ((s.1.d.sum : ℤ) : ℝ)) }, s.2 + 1)) := by
  rw [← wp_eq_ok]
  unfold drawGeometricP
  wp_simp
  exact ⟨fun hb => by rcases hb with hb | hb <;> linarith [h.1, h.2], fun _ _ => ⟨trivial, trivial⟩⟩

theorem randomP_prior {s : BIB ℝ × ℕ} (h : 0 < s.1.a ∧ 0 < s.1.b) : drawPriorP ω s = (.ok (), ({ s.1 with p := ω.beta s.2 s.1.a s.1.b }, s.2 + 1)) := by
  rw [← wp_eq_ok]
  unfold drawPriorP
  wp_simp
  exact ⟨fun hb => by rcases hb with hb | hb <;> linarith [h.1, h.2], fun _ _ => ⟨trivial, trivial⟩⟩

theorem randomP_onePos {s : BIB ℝ × ℕ} (hx : s.1.x = 1) (h : 0 < s.1.a + (s.1.d.length : ℝ) ∧ 0 < s.1.b + ((s.1.d.sum : ℤ) : ℝ)) :
    randomP ω s = (.ok (), ({ s.1 with p := ω.beta s.2 (s.1.a + (s.1.d.length : ℝ)) (s.1.b + ((s.1.d.sum : ℤ) : ℝ)) }, s.2 + 1)) := by
  rw [← randomP_geo h]
  unfold randomP
  rw [M.bind_apply]
  simp only [M.self]
  rw [if_pos hx]

/-- How the class gets the next `p`, in words of the documentation: it keeps it, or draws it from a Beta law. -/
inductive PLaw (s : BIB ℝ) : Option (ℝ × ℝ) → Prop
  | zero : s.x = 0 → PLaw s none
  | static : s.d ≠ [] → s.pMethod = .static → 0 < s.x → s.x < 1 → PLaw s none
  | free : s.d = [] → 0 < s.x → s.x < 1 → PLaw s (some (s.a, s.b))
  | indep : s.d ≠ [] → s.pMethod = .independent → 0 < s.x → s.x < 1 → PLaw s (some (s.a, s.b))
  | geo : s.d ≠ [] → s.pMethod = .geometric → 0 < s.x → s.x < 1 → PLaw s (some (s.a + (s.d.length : ℝ), s.b + ((s.d.sum : ℤ) : ℝ)))

theorem PLaw.lt {s : BIB ℝ} {o : Option (ℝ × ℝ)} (h : PLaw s o) : s.x < 1 := by cases h <;> first | assumption | linarith

theorem PLaw.run {s : BIB ℝ × ℕ} (hval : Valid s.1) {o : Option (ℝ × ℝ)} (h : PLaw s.1 o) : randomP ω s = (.ok (), ({ s.1 with
    p := o.elim s.1.p (fun ab => ω.beta s.2 ab.1 ab.2) }, s.2 + o.elim 0 (fun _ => 1))) := by
  have hself : randomP ω s = ((if s.1.x = 1 then drawGeometricP else if s.1.x = 0 then pure () else if s.1.d.length = 0 then drawPriorP else match s.1.pMethod with
    | .static => pure ()
    | .independent => drawPriorP
    | .geometric => drawGeometricP
    | .maxLikelihood => do
      let r ← M.optim s.1.v [s.1.x, s.1.alpha, s.1.a, s.1.b, s.1.p]
      M.assign (fun s => { s with p := r.getD s.p })
    | .inverseSampling => do
      let u ← M.unifVec 1
      let r ← M.optim s.1.v ([s.1.x, s.1.alpha, s.1.a, s.1.b] ++ u)
      M.assign (fun s => { s with p := r.getD s.p })
    | .rejectionSampling => M.raise .valueError
    | .unknown => M.raise .valueError) : M ℝ (BIB ℝ) Unit) ω s := rfl
  have hx1 : s.1.x ≠ 1 := h.lt.ne
  rw [hself, if_neg hx1]
  cases h with
  | zero h => rw [if_pos h]; rfl
  | static h1 h2 h3 h4 => rw [if_neg h3.ne', if_neg (fun e => h1 (List.length_eq_zero_iff.1 e)), h2]; rfl
  | free h1 h3 h4 => rw [if_neg h3.ne', if_pos (by rw [h1]; rfl)]; exact randomP_prior ⟨hval.a, hval.b⟩
  | indep h1 h2 h3 h4 => rw [if_neg h3.ne', if_neg (fun e => h1 (List.length_eq_zero_iff.1 e)), h2]; exact randomP_prior ⟨hval.a, hval.b⟩
  | geo h1 h2 h3 h4 => rw [if_neg h3.ne', if_neg (fun e => h1 (List.length_eq_zero_iff.1 e)), h2]; exact randomP_geo (geoParams_pos hval)

/-- The sticks that are not there yet: the next `p` and the next stick. -/
noncomputable def nextStick (ω : Oracle ℝ) (x alpha p : ℝ) (o : Option (ℝ × ℝ)) (q : ℕ) : ℝ :=
  ω.beta (q + o.elim 0 (fun _ => 1)) (1 + x / (1 - x) * o.elim p (fun ab => ω.beta q ab.1 ab.2)) (alpha + x / (1 - x) * (1 - o.elim p (fun ab => ω.beta q ab.1 ab.2)))

theorem feeds_lt (hω : ω.Legal) {x alpha p : ℝ} {o : Option (ℝ × ℝ)} : Feeds (core (K := ℝ)) v ω
    (fun t => Valid t.1 ∧ PLaw t.1 o ∧ (t.1.x = x ∧ t.1.alpha = alpha ∧ (o = none → t.1.p = p)) ∧ t.1.w = stickWeights t.1.v ∧ t.1.v ≠ [])
    (fun t i => nextStick ω x alpha p o (t.2 + (o.elim 1 (fun _ => 2)) * i)) where
  stick := fun s h => h.2.2.2.1
  next := by
    rintro t ⟨hval, ho, ⟨h1, h2, h3⟩, h4, h5⟩
    have hl : t.1.w.length = t.1.v.length := by rw [h4, stickWeights_length]
    refine (wp_bind (complete _) _).2 ?_
    have hp : 0 ≤ o.elim t.1.p (fun ab => ω.beta t.2 ab.1 ab.2) ∧ o.elim t.1.p (fun ab => ω.beta t.2 ab.1 ab.2) ≤ 1 := by
      cases o with
      | none => exact ⟨hval.p0, hval.p1⟩
      | some ab => exact ⟨hω.beta_nonneg _ _ _, hω.beta_le_one _ _ _⟩
    have := complete_lt (ω := ω) (s := t) h5 ho.lt (ho.run hval) (priorPar_pos hval ho.lt hp)
    rw [← hl] at this
    refine wp_mono this ?_ (fun _ _ h => h)
    rintro _ t' ⟨hq, ht⟩
    have he : o.elim t.1.p (fun ab => ω.beta t.2 ab.1 ab.2) = o.elim p (fun ab => ω.beta t.2 ab.1 ab.2) := by
      cases o with
      | none => exact h3 rfl
      | some ab => rfl
    refine ⟨⟨?_, ?_, ⟨?_, ?_, ?_⟩, ?_, ?_⟩, ?_, fun i => ?_⟩
    · rw [ht]; exact { hval with p0 := hp.1, p1 := hp.2 }
    · rw [ht]; cases ho with
      | zero k => exact .zero k
      | static k1 k2 k3 k4 => exact .static k1 k2 k3 k4
      | free k1 k3 k4 => exact .free k1 k3 k4
      | indep k1 k2 k3 k4 => exact .indep k1 k2 k3 k4
      | geo k1 k2 k3 k4 => exact .geo k1 k2 k3 k4
    · rw [ht]; exact h1
    · rw [ht]; exact h2
    · rw [ht]
      rintro rfl
      exact h3 rfl
    · rw [ht]
    · rw [ht]; simp
    · rw [ht]
      simp only [nextStick, priorPar, he, h1, h2, Nat.mul_zero, Nat.add_zero]
    · have e : t'.2 + o.elim 1 (fun _ => 2) * i = t.2 + o.elim 1 (fun _ => 2) * (i + 1) := by
        rw [hq]
        cases o <;> simp only [Option.elim] <;> ring
      rw [e]

theorem feeds_one (hω : ω.Legal) {a b : ℝ} {d : List ℤ} : Feeds (core (K := ℝ)) v ω
    (fun t => Valid t.1 ∧ (t.1.x = 1 ∧ t.1.a = a ∧ t.1.b = b ∧ t.1.d = d) ∧ t.1.w = stickWeights t.1.v ∧ t.1.v ≠ [])
    (fun t i => ω.beta (t.2 + i) (a + (d.length : ℝ)) (b + ((d.sum : ℤ) : ℝ))) where
  stick := fun s h => h.2.2.1
  next := by
    rintro t ⟨hval, ⟨hx, h1, h2, h3⟩, h4, h5⟩
    have hl : t.1.w.length = t.1.v.length := by rw [h4, stickWeights_length]
    refine (wp_bind (complete _) _).2 ?_
    have hr : randomP ω t = (.ok (), ({ t.1 with p := ω.beta t.2 (t.1.a + (t.1.d.length : ℝ)) (t.1.b + ((t.1.d.sum : ℤ) : ℝ)) }, t.2 + 1)) := by
      exact randomP_onePos hx (geoParams_pos hval)
    have := complete_one (ω := ω) (s := t) h5 hx hr
    rw [← hl] at this
    refine wp_mono this ?_ (fun _ _ h => h)
    rintro _ t' ⟨hq, ht⟩
    refine ⟨⟨?_, ⟨?_, ?_, ?_, ?_⟩, ?_, ?_⟩, ?_, fun i => ?_⟩
    · rw [ht]; exact { hval with p0 := hω.beta_nonneg _ _ _, p1 := hω.beta_le_one _ _ _ }
    · rw [ht]; exact hx
    · rw [ht]; exact h1
    · rw [ht]; exact h2
    · rw [ht]; exact h3
    · rw [ht]
    · rw [ht]; simp
    · rw [ht]; simp only [h1, h2, h3, Nat.add_zero]
    · have e : t'.2 + i = t.2 + (i + 1) := by omega
      rw [e]

end BIB

/-! ### Beta-Binomial -/

namespace BBin

/-- The Beta-Binomial chain from stream position `q` and stick `x`. -/
noncomputable def chainStick (ω : Oracle ℝ) (n : ℤ) (alpha : ℝ) : ℕ → ℕ → ℝ → ℝ
  | 0, q, x => ω.beta (q + 1) (1 + ((ω.binom q n x : ℤ) : ℝ)) (alpha + (n : ℝ) - ((ω.binom q n x : ℤ) : ℝ))
  | i + 1, q, x => chainStick ω n alpha i (q + 2) (ω.beta (q + 1) (1 + ((ω.binom q n x : ℤ) : ℝ)) (alpha + (n : ℝ) - ((ω.binom q n x : ℤ) : ℝ)))

theorem complete_one (hω : ω.Legal) {s : BBin ℝ × ℕ} (h : BInv s.1) {x : ℝ} (hx : s.1.v.getLast? = some x) :
    wp ω (complete (.int ((s.1.v.length : ℤ) + 1))) (fun _ t => t.2 = s.2 + 2 ∧ BInv t.1 ∧ t.1.n = s.1.n ∧ t.1.alpha = s.1.alpha ∧
      t.1.v = s.1.v ++ [chainStick ω s.1.n s.1.alpha 0 s.2 x] ∧ t.1.w = stickWeights t.1.v) (fun _ _ => False) s := by
  have h1 := complete_chain (ω := ω) (.int ((s.1.v.length : ℤ) + 1)) rfl s hx
  have h2 := complete_ok (ω := ω) hω h (.int ((s.1.v.length : ℤ) + 1))
  have h3 : wp ω (complete (.int ((s.1.v.length : ℤ) + 1))) (fun r t => r = t.1.w) (fun _ _ => True) s := by
    unfold complete
    rw [wp_bind, wp_lift]
    refine ⟨fun _ _ => ?_, fun _ _ => trivial⟩
    rw [wp_bind, wp_self, wp_bind]
    refine wp_mono (wp_true _ _) (fun _ t _ => ?_) (fun _ _ _ => trivial)
    · simp only [PySize.toInt?]
      rw [wp_bind, wp_self, wp_bind]
      refine wp_mono (wp_true _ _) (fun _ t _ => ?_) (fun _ _ _ => trivial)
      · rw [wp_bind, wp_assign, wp_bind, wp_self, wp_pure]
  refine wp_mono (wp_and h1 (wp_and h2 h3)) ?_ (fun _ _ h => by have := h.2.1.2.2; simp [PySize.toInt?] at this)
  rintro r t ⟨⟨zs, vs, k1, k2, k3, k4, k5, k6, k7⟩, ⟨k8, k9⟩, k10⟩
  have hl : vs.length = 1 := by rw [k1]; omega
  obtain ⟨y, rfl⟩ := List.length_eq_one_iff.1 hl
  obtain ⟨y', z, v', e1, e2, e3, e4, e5⟩ := k6.step 0 (by simp)
  simp only [List.getElem?_cons_zero, Option.some.injEq, Nat.mul_zero, Nat.add_zero] at e1 e3 e4 e5
  subst e1
  subst e3
  refine ⟨by rw [k4]; rfl, k8, k5.n, k5.alpha, ?_, k10 ▸ k7⟩
  rw [k2, e5, e4]
  rfl

theorem feeds (hω : ω.Legal) {n : ℤ} {alpha : ℝ} : Feeds (core (K := ℝ)) v ω
    (fun t => BInv t.1 ∧ (t.1.n = n ∧ t.1.alpha = alpha) ∧ t.1.w = stickWeights t.1.v ∧ t.1.v ≠ [])
    (fun t i => chainStick ω n alpha i t.2 (t.1.v.getLast?.getD 0)) where
  stick := fun s h => h.2.2.1
  next := by
    rintro t ⟨h1, ⟨h2, h3⟩, h4, h5⟩
    have hl : t.1.w.length = t.1.v.length := by rw [h4, stickWeights_length]
    refine (wp_bind (complete _) _).2 ?_
    obtain ⟨x, hx⟩ : ∃ x, t.1.v.getLast? = some x := ⟨_, List.getLast?_eq_getLast_of_ne_nil h5⟩
    have := complete_one (ω := ω) hω (s := t) h1 hx
    rw [← hl] at this
    refine wp_mono this ?_ (fun _ _ h => h)
    rintro _ t' ⟨k1, k2, k3, k4, k5, k6⟩
    refine ⟨⟨k2, ⟨k3.trans h2, k4.trans h3⟩, k6, ?_⟩, ?_, fun i => ?_⟩
    · rw [k5]; simp
    · rw [k5, hx, h2, h3]; rfl
    · have e : t'.1.v.getLast?.getD 0 = chainStick ω n alpha 0 t.2 (t.1.v.getLast?.getD 0) := by
        rw [k5, hx, h2, h3]
        simp
      have e' : chainStick ω n alpha i t'.2 (t'.1.v.getLast?.getD 0) = chainStick ω n alpha (i + 1) t.2 (t.1.v.getLast?.getD 0) := by
        rw [e, k1]
        rfl
      exact e'

end BBin

/-! ### Beta-Bernoulli -/

namespace BBer

/-- The next stick is a new one or the last one again. -/
noncomputable def berNext (ω : Oracle ℝ) (p alpha : ℝ) (q : ℕ) (x : ℝ) : ℝ := if ω.binom q 1 p = 1 then ω.beta (q + 1) 1 alpha else x
/-- The stream position after it. -/
noncomputable def berPos (ω : Oracle ℝ) (p : ℝ) (q : ℕ) : ℕ := if ω.binom q 1 p = 1 then q + 2 else q + 1
/-- The sticks from position `q` and last stick `x` on. -/
noncomputable def berStick (ω : Oracle ℝ) (p alpha : ℝ) : ℕ → ℕ → ℝ → ℝ
  | 0, q, x => berNext ω p alpha q x
  | i + 1, q, x => berStick ω p alpha i (berPos ω p q) (berNext ω p alpha q x)

theorem complete_one (hω : ω.Legal) {s : BBer ℝ × ℕ} (hp : 0 ≤ s.1.p ∧ s.1.p ≤ 1) (ha : 0 < s.1.alpha) {x : ℝ} (hx : s.1.v.getLast? = some x) :
    wp ω (complete (.int ((s.1.v.length : ℤ) + 1))) (fun _ t => t.2 = berPos ω s.1.p s.2 ∧ t.1.p = s.1.p ∧ t.1.alpha = s.1.alpha ∧
      t.1.v = s.1.v ++ [berNext ω s.1.p s.1.alpha s.2 x] ∧ t.1.w = stickWeights t.1.v) (fun _ _ => False) s := by
  have hne : s.1.v ≠ [] := by rintro h; rw [h] at hx; cases hx
  have hl : ¬ s.1.v.length = 0 := fun h => hne (List.length_eq_zero_iff.1 h)
  obtain ⟨y, hy, hy'⟩ := index_last hne
  have hyx : y = x := by rw [List.getLast?_eq_getElem?, hy'] at hx; exact Option.some.inj hx
  subst hyx
  unfold complete
  rw [checkSize_ok rfl, wp_bind, wp_lift]
  refine ⟨fun _ _ => ?_, nofun⟩
  simp only [PySize.toInt?]
  rw [wp_bind, wp_self, wp_bind, wp_whenM]
  refine ⟨fun _ => ?_, fun h => absurd (by omega) h⟩
  rw [wp_bind, wp_whenM]
  refine ⟨fun h => absurd h hl, fun _ => ?_⟩
  have e1 : (s.1.v.length : ℤ) + 1 - s.1.v.length = 1 := by omega
  rw [wp_bind, wp_self, wp_bind, wp_binomRep, e1]
  refine ⟨fun h => ?_, fun _ _ _ _ => ?_⟩
  · rcases h with h | h | h | h
    · omega
    · linarith [hp.1]
    · linarith [hp.2]
    · omega
  have e2 : (List.range (1 : ℤ).toNat).map (fun i => ω.binom (s.2 + i) 1 s.1.p) = [ω.binom s.2 1 s.1.p] := by simp
  rw [e2]
  have hz0 := hω.binom_nonneg s.2 1 s.1.p (by omega)
  have hz1 := hω.binom_le s.2 1 s.1.p (by omega)
  have e3 : Py.cumsum [ω.binom s.2 1 s.1.p] = [ω.binom s.2 1 s.1.p] := by simp [Py.cumsum, Py.cumsumFrom]
  rw [wp_bind, wp_assign, hy, wp_bind, wp_lift]
  refine ⟨?_, nofun⟩
  rintro _ ⟨⟩
  rw [cumsum_last (by simp), wp_bind, wp_lift]
  refine ⟨?_, nofun⟩
  rintro _ ⟨⟩
  rw [wp_bind, wp_betaRep, e3]
  simp only [List.sum_cons, List.sum_nil, add_zero]
  refine ⟨fun h => ?_, fun _ _ _ => ?_⟩
  · rcases h with h | h | h
    · linarith
    · linarith
    · omega
  unfold berPos berNext
  rcases (by omega : ω.binom s.2 1 s.1.p = 0 ∨ ω.binom s.2 1 s.1.p = 1) with hz | hz <;> rw [hz]
  · rw [wp_bind, wp_lift]
    have e4 : Py.gather (y :: M.betaValues ω (s.2 + (1 : ℤ).toNat) (List.replicate (0 : ℤ).toNat (1, s.1.alpha))) [0] = .ok [y] := by
      simp [Py.gather, Py.index]
    rw [e4]
    refine ⟨?_, nofun⟩
    rintro _ ⟨⟩
    rw [wp_bind, wp_assign, wp_assign, wp_bind, wp_self, wp_pure]
    simp
  · rw [wp_bind, wp_lift]
    have e4 : Py.gather (y :: M.betaValues ω (s.2 + (1 : ℤ).toNat) (List.replicate (1 : ℤ).toNat (1, s.1.alpha))) [1] = .ok [ω.beta (s.2 + 1) 1 s.1.alpha] := by
      simp [Py.gather, Py.index, M.betaValues]
    rw [e4]
    refine ⟨?_, nofun⟩
    rintro _ ⟨⟩
    rw [wp_bind, wp_assign, wp_assign, wp_bind, wp_self, wp_pure]
    simp

theorem feeds (hω : ω.Legal) {p alpha : ℝ} (hp : 0 ≤ p ∧ p ≤ 1) (ha : 0 < alpha) : Feeds (core (K := ℝ)) v ω
    (fun t => (t.1.p = p ∧ t.1.alpha = alpha) ∧ t.1.w = stickWeights t.1.v ∧ t.1.v ≠ [])
    (fun t i => berStick ω p alpha i t.2 (t.1.v.getLast?.getD 0)) where
  stick := fun s h => h.2.1
  next := by
    rintro t ⟨⟨h2, h3⟩, h4, h5⟩
    have hl : t.1.w.length = t.1.v.length := by rw [h4, stickWeights_length]
    refine (wp_bind (complete _) _).2 ?_
    obtain ⟨x, hx⟩ : ∃ x, t.1.v.getLast? = some x := ⟨_, List.getLast?_eq_getLast_of_ne_nil h5⟩
    have := complete_one (ω := ω) hω (s := t) (by rw [h2]; exact hp) (by rw [h3]; exact ha) hx
    rw [← hl] at this
    refine wp_mono this ?_ (fun _ _ h => h)
    rintro _ t' ⟨k1, k3, k4, k5, k6⟩
    refine ⟨⟨⟨k3.trans h2, k4.trans h3⟩, k6, ?_⟩, ?_, fun i => ?_⟩
    · rw [k5]; simp
    · rw [k5, hx, h2, h3]; rfl
    · have e : t'.1.v.getLast?.getD 0 = berNext ω p alpha t.2 (t.1.v.getLast?.getD 0) := by
        rw [k5, hx, h2, h3]
        simp
      have e' : berStick ω p alpha i t'.2 (t'.1.v.getLast?.getD 0) = berStick ω p alpha (i + 1) t.2 (t.1.v.getLast?.getD 0) := by
        rw [e, k1, h2]
        rfl
      exact e'

end BBer

/-! ### Beta-in-Dirichlet -/

namespace BID
open Crp

/-- The next stick: an inner stick that is there, or a new one. -/
noncomputable def urnNext (ω : Oracle ℝ) (a alpha : ℝ) (c : List ℕ) (vb : List ℝ) (q : ℕ) : ℝ :=
  (vb[ω.choice q (urn c a)]?).getD (ω.beta (q + 1) 1 alpha)

/-- The sticks from position `q`, counts `c` and inner sticks `vb` on. -/
noncomputable def urnStick (ω : Oracle ℝ) (a alpha : ℝ) : ℕ → List ℕ → List ℝ → ℕ → ℝ
  | 0, c, vb, q => urnNext ω a alpha c vb q
  | i + 1, c, vb, q => urnStick ω a alpha i (seat c (ω.choice q (urn c a))) (if ω.choice q (urn c a) < c.length then vb else vb ++ [ω.beta (q + 1) 1 alpha])
      (nextPos c q (ω.choice q (urn c a)))

theorem growOne_step {s : BID ℝ × ℕ} (hal : 0 < s.1.alpha) (ha : 0 ≤ s.1.a) (hl : s.1.vBase.length = s.1.countBase.length) :
    wp ω growOne (fun _ t => t.2 = nextPos s.1.countBase s.2 (ω.choice s.2 (urn s.1.countBase s.1.a)) ∧ t.1.alpha = s.1.alpha ∧ t.1.a = s.1.a ∧
      t.1.countBase = seat s.1.countBase (ω.choice s.2 (urn s.1.countBase s.1.a)) ∧
      t.1.vBase = (if ω.choice s.2 (urn s.1.countBase s.1.a) < s.1.countBase.length then s.1.vBase else s.1.vBase ++ [ω.beta (s.2 + 1) 1 s.1.alpha]) ∧
      t.1.v = s.1.v ++ [urnNext ω s.1.a s.1.alpha s.1.countBase s.1.vBase s.2]) (fun _ _ => False) s := by
  unfold growOne urnNext
  rw [wp_bind, wp_self, wp_ite]
  refine ⟨fun h => absurd (by rw [urn_length, hl]) h, fun _ => ?_⟩
  rw [wp_bind, wp_choice]
  refine ⟨fun ⟨x, hx, hlt⟩ => absurd (urn_nonneg ha x hx) (not_le.2 hlt), fun _ => ?_⟩
  generalize ω.choice s.2 (urn s.1.countBase s.1.a) = j
  rw [wp_bind]
  unfold useStick nextPos seat
  rw [wp_bind, wp_self, wp_ite]
  refine ⟨fun hlt => ?_, fun hlt => ?_⟩
  · dsimp only at hlt
    have hlt' := hl ▸ hlt
    rw [wp_bind, wp_lift]
    refine ⟨fun x hx => ?_, fun e he => ?_⟩
    · rw [wp_bind, wp_assign, wp_assign, wp_assign]
      rw [index_ok hlt] at hx
      cases hx
      simp [hlt', hlt]
    · rw [index_ok hlt] at he
      cases he
  · dsimp only at hlt
    have hlt' := hl ▸ hlt
    rw [wp_bind, wp_beta]
    refine ⟨fun h => ?_, fun _ _ => ?_⟩
    · rcases h with h | h
      · linarith
      · exact absurd hal (not_lt.2 h)
    rw [wp_bind, wp_assign, wp_bind, wp_assign, wp_assign, wp_assign]
    simp [hlt', hlt]

theorem complete_step {t : BID ℝ × ℕ} {a alpha : ℝ} (h1 : t.1.alpha = alpha) (h2 : t.1.a = a) (ha : 0 ≤ a) (hal : 0 < alpha)
    (h3 : t.1.vBase.length = t.1.countBase.length) (h4 : 0 < t.1.countBase.sum) : wp ω (complete (.int ((t.1.v.length : ℤ) + 1))) (fun _ t' => t'.2 = nextPos t.1.countBase t.2 (ω.choice t.2 (urn t.1.countBase a)) ∧ (t'.1.alpha = alpha ∧ t'.1.a = a) ∧
        t'.1.countBase = seat t.1.countBase (ω.choice t.2 (urn t.1.countBase a)) ∧
        t'.1.vBase = (if ω.choice t.2 (urn t.1.countBase a) < t.1.countBase.length then t.1.vBase else t.1.vBase ++ [ω.beta (t.2 + 1) 1 alpha]) ∧
        t'.1.v = t.1.v ++ [urnNext ω a alpha t.1.countBase t.1.vBase t.2] ∧ t'.1.w = stickWeights t'.1.v) (fun _ _ => False) t := by
  have hb : ¬ t.1.vBase.length = 0 := by
    intro h
    have h6 : t.1.countBase = [] := List.length_eq_zero_iff.1 (by omega)
    rw [h6] at h4
    simp at h4
  have hstep := growOne_step (ω := ω) (s := t) (by rw [h1]; exact hal) (by rw [h2]; exact ha) h3
  unfold complete
  rw [wp_bind, wp_self, wp_bind, wp_whenM]
  refine ⟨fun h => absurd h hb, fun _ => ?_⟩
  simp only [PySize.toInt?]
  have e1 : ((t.1.v.length : ℤ) + 1 - t.1.v.length).toNat = 1 := by omega
  rw [wp_bind, wp_self, e1, wp_bind, grow, grow, wp_bind]
  refine wp_mono hstep ?_ (fun _ _ h => h)
  rintro _ t' ⟨k1, k2, k3, k4, k5, k6⟩
  rw [wp_pure, wp_assign]
  rw [h1] at k2 k5 k6
  rw [h2] at k1 k3 k4 k5 k6
  exact ⟨k1, ⟨k2, k3⟩, k4, k5, k6, rfl⟩

theorem feeds (F : SpecFun ℝ) {a alpha : ℝ} (ha : 0 ≤ a) (hal : 0 < alpha) : Feeds (core F) v ω
    (fun t => (t.1.alpha = alpha ∧ t.1.a = a) ∧ (t.1.vBase.length = t.1.countBase.length ∧ 0 < t.1.countBase.sum) ∧ t.1.w = stickWeights t.1.v)
    (fun t i => urnStick ω a alpha i t.1.countBase t.1.vBase t.2) where
  stick := fun s h => h.2.2
  next := by
    rintro t ⟨⟨h1, h2⟩, ⟨h3, h4⟩, h5⟩
    have hl : t.1.w.length = t.1.v.length := by rw [h5, stickWeights_length]
    suffices h : wp ω (complete (.int ((t.1.v.length : ℤ) + 1))) (fun _ t' => t'.2 = nextPos t.1.countBase t.2 (ω.choice t.2 (urn t.1.countBase a)) ∧ (t'.1.alpha = alpha ∧ t'.1.a = a) ∧
        t'.1.countBase = seat t.1.countBase (ω.choice t.2 (urn t.1.countBase a)) ∧
        t'.1.vBase = (if ω.choice t.2 (urn t.1.countBase a) < t.1.countBase.length then t.1.vBase else t.1.vBase ++ [ω.beta (t.2 + 1) 1 alpha]) ∧
        t'.1.v = t.1.v ++ [urnNext ω a alpha t.1.countBase t.1.vBase t.2] ∧ t'.1.w = stickWeights t'.1.v) (fun _ _ => False) t by
      rw [← hl] at h
      refine (wp_bind (complete _) _).2 (wp_mono h ?_ (fun _ _ h => h))
      rintro _ t' ⟨k1, k2, k3, k4, k5, k6⟩
      refine ⟨⟨k2, ⟨?_, ?_⟩, k6⟩, k5, fun i => ?_⟩
      · rw [k3, k4, length_seat]
        split
        · exact h3
        · rw [List.length_append, h3]; rfl
      · rw [k3, sum_seat]; omega
      · have e : urnStick ω a alpha i t'.1.countBase t'.1.vBase t'.2 = urnStick ω a alpha (i + 1) t.1.countBase t.1.vBase t.2 := by
          rw [k1, k3, k4]
          rfl
        exact e
    exact complete_step h1 h2 ha hal h3 h4

end BID

end Verif
