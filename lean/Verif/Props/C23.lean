import Verif.Lemmas.StickTail
import Verif.Lemmas.DP
import Verif.Lemmas.PYSpec
import Verif.Lemmas.Demo
import Mathlib.Algebra.Order.Archimedean.Basic
import Mathlib.Tactic.Positivity

/-!
# C23: `tail(x)` terminates

False as stated: with a legal generator whose Beta draws are all 0 the loop of `DirichletProcess.tail(1/2)` runs for ever
(`C23_refuted`: no amount of fuel is enough).  `C23_*_partial`: if the generator's Beta draws stay above some `ε > 0`, `tail` returns
for every `x` in `[0, 1)`, from every reachable state whose weights are those of its sticks (or that has no weights).
With probability one, for random generators: C96.
-/

set_option linter.unusedSectionVars false

namespace Verif
open Spec
variable {K : Type} [Field K] [LinearOrder K] [IsStrictOrderedRing K] {ω : Oracle K}

theorem tailLoop_returns {C : WeightCore K} {I : C.State × ℕ → Prop} {ρ x : K} (hρ : 0 ≤ ρ)
    (hc : ∀ s, I s → (C.getW s.1).sum < x → wp ω (C.complete (.int ((C.getW s.1).length + 1)))
      (fun _ t => I t ∧ 1 - (C.getW t.1).sum ≤ ρ * (1 - (C.getW s.1).sum)) (fun _ _ => False) s)
    (n : ℕ) : ∀ fuel s, n ≤ fuel → I s → (1 - (C.getW s.1).sum) * ρ ^ n ≤ 1 - x →
      wp ω (BaseWeight.tailLoop C x fuel) (fun _ _ => True) (fun _ _ => False) s := by
  induction n with
  | zero =>
    intro fuel s _ _ h
    rw [pow_zero, mul_one] at h
    have hx : ¬ (C.getW s.1).sum < x := not_lt.2 (by linarith)
    cases fuel <;> (unfold BaseWeight.tailLoop; rw [wp_bind, wp_self, if_neg hx]; trivial)
  | succ n ih =>
    intro fuel s hf hI h
    obtain ⟨f, rfl⟩ : ∃ f, fuel = f + 1 := ⟨fuel - 1, by omega⟩
    unfold BaseWeight.tailLoop
    rw [wp_bind, wp_self, wp_ite]
    refine ⟨fun hlt => ?_, fun _ => trivial⟩
    rw [wp_bind]
    refine wp_mono (hc s hI hlt) (fun _ t ht => ih f t (by omega) ht.1 ?_) fun _ _ h => h
    refine le_trans ?_ h
    rw [pow_succ', ← mul_assoc, mul_comm _ ρ]
    exact mul_le_mul_of_nonneg_right ht.2 (pow_nonneg hρ n)

theorem tail_returns [Archimedean K] {C : WeightCore K} {I : C.State × ℕ → Prop} {ε x : K} (hε : 0 < ε) (hε1 : ε ≤ 1) (hx : 0 ≤ x ∧ x < 1)
    (hc : ∀ s, I s → (C.getW s.1).sum < x → wp ω (C.complete (.int ((C.getW s.1).length + 1)))
      (fun _ t => I t ∧ 1 - (C.getW t.1).sum ≤ (1 - ε) * (1 - (C.getW s.1).sum)) (fun _ _ => False) s)
    (hn : ∀ s, I s → 0 ≤ (C.getW s.1).sum) {s : C.State × ℕ}
    (h0 : C.getW s.1 = [] → wp ω (C.random (.int 1)) (fun _ t => I t) (fun _ _ => False) s) (hs : C.getW s.1 ≠ [] → I s) :
    ∃ F, ∀ fuel ≥ F, ∃ r t, C.inheritTail.tail fuel x ω s = (.ok r, t) := by
  obtain ⟨n, hpow⟩ := exists_pow_lt_of_lt_one (show (0 : K) < 1 - x by linarith [hx.2]) (show 1 - ε < 1 by linarith)
  have hρ : (0 : K) ≤ 1 - ε := by linarith
  have hb : ∀ t, I t → (1 - (C.getW t.1).sum) * (1 - ε) ^ n ≤ 1 - x := by
    intro t ht
    have h1 := hn t ht
    have h2 := pow_nonneg hρ n
    nlinarith
  refine ⟨n, fun fuel hf => ?_⟩
  have : wp ω (BaseWeight.tail C fuel x) (fun _ _ => True) (fun _ _ => False) s := by
    unfold BaseWeight.tail
    rw [if_neg (by push Not; exact ⟨hx.2, hx.1⟩), wp_bind, wp_self, wp_ite]
    refine ⟨fun h => ?_, fun h => ?_⟩
    · rw [wp_bind]
      exact wp_mono (h0 (List.length_eq_zero_iff.1 h)) (fun _ t ht => tailLoop_returns hρ hc n fuel t hf ht (hb t ht)) (fun _ _ h => h)
    · have hI := hs fun h' => h (List.length_eq_zero_iff.2 h')
      exact tailLoop_returns hρ hc n fuel s hf hI (hb s hI)
  obtain ⟨r, t, h, _⟩ := wp_total this
  exact ⟨r, t, h⟩

/-- The mass left over shrinks by the factor `1 - y` when a stick `y` is appended. -/
theorem left_step {v : List K} (hv : Unit01 v) {y ε : K} (h : ε ≤ y) :
    1 - (stickWeights (v ++ [y])).sum ≤ (1 - ε) * (1 - (stickWeights v).sum) := by
  rw [stickWeights_sum, stickWeights_sum, leftOver_append, leftOver_cons, leftOver_nil]
  have := leftOver_nonneg hv
  nlinarith

theorem sum_nonneg_stick {v : List K} (hv : Unit01 v) : 0 ≤ (stickWeights v).sum := by
  rw [stickWeights_sum]; linarith [leftOver_le_one hv]

theorem betaValues_unit (hω : ω.Legal) (p : ℕ) (ps : List (K × K)) : Unit01 (M.betaValues ω p ps) := by
  intro y hy
  unfold M.betaValues at hy
  obtain ⟨i, hi⟩ := List.mem_iff_getElem?.1 hy
  rw [List.getElem?_mapIdx] at hi
  obtain ⟨q, _, rfl⟩ := Option.map_eq_some_iff.1 hi
  exact ⟨hω.beta_nonneg _ _ _, hω.beta_le_one _ _ _⟩

variable (log : K → K) (pos : ℕ) (ops : List (WOp K))

theorem C23_dirichletProcess_partial [Archimedean K] (hω : ω.Legal) {ε : K} (hε : 0 < ε) (hlow : ∀ i a b, ε ≤ ω.beta i a b) {alpha : K} (ha : 0 < alpha)
    {s : DP K × ℕ} (hs : DP.cls.run log ω (DP.init alpha, pos) ops = s) (hd : NonNegLabels s.1.d) (hst : s.1.w ≠ [] → IsStick s.1.v s.1.w)
    {x : K} (hx : 0 ≤ x ∧ x < 1) : ∃ F, ∀ fuel ≥ F, ∃ r t, DP.cls.tail fuel x ω s = (.ok r, t) := by
  have hA : s.1.alpha = alpha := by rw [← hs]; exact DP.reach_alpha log pos ops alpha
  have hU : Unit01 s.1.v := by
    rw [← hs]; exact (WeightCore.run_keeps (DP.stable hω) log ops (DP.init alpha, pos) ⟨Unit01.nil, SubProb.nil⟩).1
  refine tail_returns (C := DP.core) (I := fun t => t.1.alpha = alpha ∧ Unit01 t.1.v ∧ t.1.w = stickWeights t.1.v) hε
    ((hlow 0 1 1).trans (hω.beta_le_one 0 1 1)) hx ?_ ?_ ?_ (fun h => ⟨hA, hU, IsStick.eq (hst h)⟩)
  · rintro t ⟨h1, h2, h3⟩ _
    refine (wp_bind (DP.complete _) _).2 ?_
    unfold wp
    have hl : t.1.w.length = t.1.v.length := by rw [h3, stickWeights_length]
    have hcn := DP.complete_num (size := .int ((t.1.w.length : ℤ) + 1)) (n := (t.1.w.length : ℤ) + 1) rfl ω t
    have hone : ((t.1.w.length : ℤ) + 1 - t.1.v.length).toNat = 1 := by rw [hl]; omega
    rw [if_pos (by rw [hl]; omega), if_neg (by rw [h1]; exact not_le.2 ha), hone] at hcn
    rw [show DP.complete (.int ((DP.core.getW t.1).length + 1)) ω t = _ from hcn]
    refine ⟨⟨h1, Unit01.append h2 (betaValues_unit hω _ _), rfl⟩, ?_⟩
    show 1 - (stickWeights (t.1.v ++ [ω.beta (t.2 + 0) 1 t.1.alpha])).sum ≤ (1 - ε) * (1 - (t.1.w).sum)
    rw [h3]
    exact left_step h2 (hlow _ _ _)
  · rintro t ⟨_, h2, h3⟩
    show 0 ≤ t.1.w.sum
    rw [h3]; exact sum_nonneg_stick h2
  · intro _
    unfold wp
    rw [show DP.core.random (.int 1) ω s = DP.random (.int 1) ω (s.1, s.2) from rfl,
      DP.random_spec ω s.1 s.2 (.int 1) 1 (by rw [hA]; exact ha) hd (.inl ⟨rfl, le_rfl⟩)]
    exact ⟨hA, betaValues_unit hω _ _, rfl⟩

theorem C23_pitmanYor_partial [Archimedean K] (hω : ω.Legal) {ε : K} (hε : 0 < ε) (hlow : ∀ i a b, ε ≤ ω.beta i a b) {pyd alpha : K} {s0 : PY K}
    (h0 : PY.init pyd alpha = .ok s0) (hp : 0 ≤ pyd ∧ pyd < 1) (ha : 0 < alpha) {s : PY K × ℕ} (hs : PY.cls.run log ω (s0, pos) ops = s)
    (hd : NonNegLabels s.1.d) {x : K} (hx : 0 ≤ x ∧ x < 1) : ∃ F, ∀ fuel ≥ F, ∃ r t, PY.cls.tail fuel x ω s = (.ok r, t) := by
  have hh := PY.reach_hyper (ω := ω) log pos ops h0
  have hS := PY.reach_sinv (ω := ω) log pos ops h0
  have hU := (WeightCore.run_keeps (PY.stable hω) log ops (s0, pos) (by rw [(PY.init_eq h0).1]; exact ⟨Unit01.nil, SubProb.nil⟩)).1
  change Unit01 (PY.cls.run log ω (s0, pos) ops).1.v at hU
  rw [hs] at hh hS hU
  refine tail_returns (C := PY.core) (I := fun t => (t.1.pyd = pyd ∧ t.1.alpha = alpha) ∧ Unit01 t.1.v ∧ t.1.w = stickWeights t.1.v) hε
    ((hlow 0 1 1).trans (hω.beta_le_one 0 1 1)) hx ?_ ?_ ?_ (fun h => ⟨hh, hU, hS⟩)
  · rintro t ⟨h1, h2, h3⟩ _
    refine (wp_bind (PY.complete _) _).2 ?_
    have hl : t.1.w.length = t.1.v.length := by rw [h3, stickWeights_length]
    refine wp_mono (PY.complete_spec t.1 t.2 (n := t.1.w.length + 1) (by rfl) (by rw [h1.1]; exact hp.1) (by rw [h1.1]; exact hp.2)
      (by rw [h1.2]; exact ha) h3) ?_ (fun _ _ h => h)
    rintro _ t' ⟨e, _, hv, _⟩
    have hone : t.1.w.length + 1 - t.1.v.length = 1 := by omega
    rw [hone] at hv
    have hw' : t'.1.w = stickWeights t'.1.v := by rw [e]
    refine ⟨⟨by rw [e]; exact h1, by rw [hv]; exact Unit01.append h2 (betaValues_unit hω _ _), hw'⟩, ?_⟩
    show 1 - t'.1.w.sum ≤ (1 - ε) * (1 - t.1.w.sum)
    rw [hw', h3, hv]
    exact left_step h2 (hlow _ _ _)
  · rintro t ⟨_, h2, h3⟩
    show 0 ≤ t.1.w.sum
    rw [h3]; exact sum_nonneg_stick h2
  · intro _
    have k1 := wp_of_keeps ((PY.hyper_stable (ω := ω) (· = (pyd, alpha))).random (.int 1)) (s := s) (by
      show PY.hyper s.1 = _; unfold PY.hyper; rw [hh.1, hh.2])
    have k2 := wp_of_keeps ((PY.stable hω).random (.int 1)) (s := s) (by
      refine ⟨hU, ?_⟩; rw [hS]; exact stickWeights_subProb hU)
    have k3 := wp_of_keeps ((PY.sinv_stable (ω := ω)).random (.int 1)) (s := s) hS
    have k4 := PY.random_ok (s := s) (ω := ω) (by rw [hh.1]; exact hp.1) (by rw [hh.1]; exact hp.2) (by rw [hh.2]; exact ha) (size := .int 1) hd (.inr ⟨1, rfl, by norm_num⟩)
    refine wp_mono (wp_and (wp_and k1 k2) (wp_and k3 k4)) (fun _ t h => ⟨?_, h.1.2.1, h.2.1⟩) (fun _ _ h => h.2.2.elim)
    exact ⟨congrArg Prod.fst h.1.1, congrArg Prod.snd h.1.1⟩

/-- A generator whose Beta draws are all 0. -/
def zeroO : Oracle ℚ := { (demo : Oracle ℚ) with beta := fun _ _ _ => 0 }

theorem zeroO_legal : zeroO.Legal :=
  { (demo_legal : (demo : Oracle ℚ).Legal) with beta_nonneg := fun _ _ _ => le_rfl, beta_le_one := fun _ _ _ => zero_le_one }

theorem C23_refuted : ∃ ω : Oracle ℚ, ω.Legal ∧ ∀ fuel, (DP.cls.tail fuel (1/2) ω (DP.init 1, 0)).1 = .error .outOfFuel := by
  refine ⟨zeroO, zeroO_legal, fun fuel => ?_⟩
  have hz : ∀ p ps, ∀ y ∈ M.betaValues zeroO p ps, y = 0 := by
    intro p ps y hy
    unfold M.betaValues at hy
    obtain ⟨i, hi⟩ := List.mem_iff_getElem?.1 hy
    rw [List.getElem?_mapIdx] at hi
    obtain ⟨q, _, rfl⟩ := Option.map_eq_some_iff.1 hi
    rfl
  have hsum : ∀ v : List ℚ, (∀ y ∈ v, y = 0) → (stickWeights v).sum = 0 := by
    intro v hv
    rw [stickWeights_sum]
    have : leftOver v = 1 := by
      induction v with
      | nil => rfl
      | cons a v ih => rw [leftOver_cons, hv a (by simp), ih fun y hy => hv y (by simp [hy])]; norm_num
    rw [this]; norm_num
  have h : wp zeroO (DP.cls.tail fuel (1/2)) (fun _ _ => False) (fun e _ => e = .outOfFuel) (DP.init 1, 0) := by
    refine wp_mono (wp_tail (C := DP.core) (I := fun t => t.1.alpha = 1 ∧ (∀ y ∈ t.1.v, y = 0) ∧ t.1.w = stickWeights t.1.v)
      (E := fun e _ => e = .outOfFuel) (by norm_num) ?_ (fun _ _ _ => rfl) fuel (DP.init 1, 0) ?_ (fun h => absurd rfl h)) ?_ (fun _ _ h => h)
    · rintro t ⟨h1, h2, h3⟩ _
      refine (wp_bind (DP.complete _) _).2 ?_
      unfold wp
      have hl : t.1.w.length = t.1.v.length := by rw [h3, stickWeights_length]
      have hcn := DP.complete_num (size := .int ((t.1.w.length : ℤ) + 1)) (n := (t.1.w.length : ℤ) + 1) rfl zeroO t
      rw [if_pos (by rw [hl]; omega), if_neg (by rw [h1]; norm_num)] at hcn
      rw [show DP.complete (.int ((DP.core.getW t.1).length + 1)) zeroO t = _ from hcn]
      refine ⟨h1, ?_, rfl⟩
      intro y hy
      rcases List.mem_append.1 hy with hy | hy
      · exact h2 y hy
      · exact hz _ _ y hy
    · intro _
      unfold wp
      rw [show DP.core.random (.int 1) zeroO (DP.init 1, 0) = DP.random (.int 1) zeroO (DP.init 1, 0) from rfl,
        DP.random_spec zeroO (DP.init 1) 0 (.int 1) 1 (by norm_num [DP.init]) (by intro x hx; simp [DP.init] at hx) (.inl ⟨rfl, le_rfl⟩)]
      exact ⟨rfl, hz _ _, rfl⟩
    · rintro r t ⟨⟨_, h2, h3⟩, hr, hx⟩
      have : r.sum = 0 := by rw [hr]; show t.1.w.sum = 0; rw [h3]; exact hsum _ h2
      rw [this] at hx; norm_num at hx
  unfold wp at h
  rcases hr : DP.cls.tail fuel (1/2) zeroO (DP.init 1, 0) with ⟨e | r, t⟩
  · rw [hr] at h; rw [h]
  · rw [hr] at h; exact h.elim

/-! Non-vacuity: a generator bounded below (all Beta draws 1/2). -/
def halfO : Oracle ℚ := { (demo : Oracle ℚ) with beta := fun _ _ _ => 1/2 }
theorem halfO_legal : halfO.Legal :=
  { (demo_legal : (demo : Oracle ℚ).Legal) with beta_nonneg := fun _ _ _ => by norm_num [halfO], beta_le_one := fun _ _ _ => by norm_num [halfO] }
example : ∃ F, ∀ fuel ≥ F, ∃ r t, DP.cls.tail fuel (99/100) halfO (DP.cls.run id halfO (DP.init 1, 0) [.fit [0, 1]]) = (.ok r, t) :=
  C23_dirichletProcess_partial id 0 [.fit [0, 1]] halfO_legal (ε := 1/2) (by norm_num) (fun _ _ _ => le_rfl) (by norm_num) rfl
    (by intro x hx; simp [WeightClass.run, WeightClass.step, BaseWeight.fit, M.assign, DP.cls, DP.core, WeightCore.inheritTail] at hx; omega)
    (fun h => absurd rfl h) (by norm_num)

end Verif
