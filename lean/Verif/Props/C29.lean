import Verif.Lemmas.StickTail
import Verif.Lemmas.PermRel
import Verif.Lemmas.Demo
import Verif.Props.C04

/-!
# C29: `assignation_log_likelihood` is the sum of the log weights of the labels

* `C29_value` (every class, every state): when the call returns, every label has a weight in `get_weights()`, the value is
  `Σ log w[d_i]`, minus infinity exactly when a label has weight 0, and the object is the one left by `complete(max(d) + 1)`.
* `C29_order` (every class, every state): the outcome (value, exception, object, generator) does not depend on the order of `d`.
* `C29_*_total`: it returns, after every history, for the classes whose `complete` always succeeds.
* `C29_*_keeps`: the weights already drawn are kept.
* The finite classes cannot cover labels beyond their size: `IndexError` (`C29_equalWeighting_refuted`).
-/

set_option linter.unusedSectionVars false

namespace Verif
open Spec
variable {K : Type} [Field K] [LinearOrder K] [IsStrictOrderedRing K] {ω : Oracle K}

/-- The log-likelihood of labels `d` under weights `w`; `none` is minus infinity. -/
def IsLogLik (log : K → K) (w : List K) (d : List ℤ) (o : Option K) : Prop :=
  ∃ ys : List K, ys.length = d.length ∧ (∀ (i : ℕ) l, d[i]? = some l → ys[i]? = w[l.toNat]? ∧ ys[i]? ≠ none) ∧
    ((0 ∈ ys ∧ o = none) ∨ (0 ∉ ys ∧ o = some (ys.map log).sum))

theorem gather_get' {α : Type} {l xs : List α} {is : List ℤ} (h : Py.gather l is = .ok xs) (hnn : ∀ i ∈ is, 0 ≤ i) :
    xs.length = is.length ∧ ∀ (j : ℕ) i, is[j]? = some i → xs[j]? = l[i.toNat]? ∧ xs[j]? ≠ none := by
  induction is generalizing xs with
  | nil => cases h; simp
  | cons a is ih =>
    unfold Py.gather at h
    split at h
    · cases h
    · rename_i x hx
      split at h
      · cases h
      · rename_i xs' hxs
        cases h
        obtain ⟨h1, h2⟩ := ih hxs fun i hi => hnn i (by simp [hi])
        refine ⟨by simp [h1], fun j i hj => ?_⟩
        cases j with
        | zero =>
          simp only [List.getElem?_cons_zero, Option.some.injEq] at hj
          subst hj
          unfold Py.index at hx
          have h0 := hnn a (by simp)
          simp only [if_pos h0, not_lt.2 h0, if_false] at hx
          split at hx
          · rename_i y hy
            cases hx
            simp [hy]
          · cases hx
        | succ j => exact h2 j i (by simpa using hj)

theorem C29_value (C : WeightCore K) (log : K → K) {d : List ℤ} (hd : NonNegLabels d) {s t : C.State × ℕ} {o : Option K}
    (h : BaseWeight.assignationLogLikelihood C log (some d) ω s = (.ok o, t)) :
    IsLogLik log (C.getW t.1) d o ∧ ∃ m, IsMaxLabel d m ∧ t = (C.complete (.int (m + 1)) ω s).2 := by
  refine wp_of_ok h (Q := fun o t => IsLogLik log (C.getW t.1) d o ∧ ∃ m, IsMaxLabel d m ∧ t = (C.complete (.int (m + 1)) ω s).2) (E := fun _ _ => True) ?_
  unfold BaseWeight.assignationLogLikelihood
  rw [wp_bind, wp_self, wp_bind, wp_lift]
  refine ⟨fun m hm => ?_, fun _ _ => trivial⟩
  have hmax : IsMaxLabel d m := maxInt_eq_ok_iff.1 hm
  rw [wp_bind]
  have hcomp : wp ω (C.complete (.int (m + 1))) (fun _ t => t = (C.complete (.int (m + 1)) ω s).2) (fun _ _ => True) s := by
    unfold wp; rcases C.complete (.int (m + 1)) ω s with ⟨e | a, t⟩ <;> trivial
  refine wp_mono hcomp ?_ (fun _ _ _ => trivial)
  rintro _ t ht
  rw [wp_bind, wp_self, wp_bind, wp_lift]
  refine ⟨fun ys hys => ?_, fun _ _ => trivial⟩
  rw [wp_pure]
  obtain ⟨h1, h2⟩ := gather_get' hys hd
  refine ⟨⟨ys, h1, h2, ?_⟩, m, hmax, ht⟩
  unfold BaseWeight.sumLog
  by_cases h0 : (0 : K) ∈ ys
  · left
    refine ⟨h0, if_pos ?_⟩
    rw [List.any_eq_true]; exact ⟨0, h0, by simp⟩
  · right
    refine ⟨h0, if_neg ?_⟩
    rw [List.any_eq_true]; rintro ⟨x, hx, hx0⟩
    exact h0 (of_decide_eq_true hx0 ▸ hx)

theorem index_err {α : Type} {l : List α} {i : ℤ} {e : PyErr} (h : Py.index l i = .error e) : e = .indexError := by
  unfold Py.index at h
  dsimp only at h
  split at h <;> split at h <;> first | (split at h <;> cases h; rfl) | (cases h; rfl)

theorem gather_err {α : Type} {l : List α} {is : List ℤ} {e : PyErr} (h : Py.gather l is = .error e) : e = .indexError := by
  induction is with
  | nil => cases h
  | cons a is ih =>
    unfold Py.gather at h
    split at h
    · rename_i e' he; cases h; exact index_err he
    · split at h
      · rename_i e' he; cases h; exact ih he
      · cases h

/-- Gathering along a reordering: the same exception, or reordered entries. -/
theorem gather_perm {α : Type} (l : List α) {is is' : List ℤ} (h : is.Perm is') :
    (Py.gather l is = .error .indexError ∧ Py.gather l is' = .error .indexError) ∨
    ∃ xs xs', Py.gather l is = .ok xs ∧ Py.gather l is' = .ok xs' ∧ xs.Perm xs' := by
  induction h with
  | nil => exact .inr ⟨[], [], rfl, rfl, .nil⟩
  | cons a _ ih =>
    unfold Py.gather
    cases ha : Py.index l a with
    | error e => left; rw [index_err ha]; exact ⟨rfl, rfl⟩
    | ok x =>
      rcases ih with ⟨h1, h2⟩ | ⟨xs, xs', h1, h2, h3⟩
      · left; rw [h1, h2]; exact ⟨rfl, rfl⟩
      · right; rw [h1, h2]; exact ⟨_, _, rfl, rfl, h3.cons _⟩
  | swap a b is =>
    simp only [Py.gather]
    cases ha : Py.index l a with
    | error e =>
      rw [index_err ha]
      left
      cases hb : Py.index l b with
      | error e => rw [index_err hb]; exact ⟨rfl, rfl⟩
      | ok y => exact ⟨rfl, rfl⟩
    | ok x =>
      cases hb : Py.index l b with
      | error e => rw [index_err hb]; left; exact ⟨rfl, rfl⟩
      | ok y =>
        cases hr : Py.gather l is with
        | error e => rw [gather_err hr]; left; exact ⟨rfl, rfl⟩
        | ok xs => right; exact ⟨_, _, rfl, rfl, .swap _ _ _⟩
  | trans _ _ ih1 ih2 =>
    rcases ih1 with ⟨h1, h2⟩ | ⟨xs, xs', h1, h2, h3⟩
    · rcases ih2 with ⟨h4, h5⟩ | ⟨ys, ys', h4, _⟩
      · exact .inl ⟨h1, h5⟩
      · rw [h2] at h4; cases h4
    · rcases ih2 with ⟨h4, h5⟩ | ⟨ys, ys', h4, h5, h6⟩
      · rw [h2] at h4; cases h4
      · rw [h2] at h4; cases h4; exact .inr ⟨_, _, h1, h5, h3.trans h6⟩

theorem sumLog_perm (log : K → K) {xs ys : List K} (h : xs.Perm ys) : BaseWeight.sumLog log xs = BaseWeight.sumLog log ys := by
  unfold BaseWeight.sumLog
  rw [(h.map log).sum_eq]
  have : xs.any (fun x => decide (x = 0)) = ys.any (fun x => decide (x = 0)) := by
    rw [Bool.eq_iff_iff, List.any_eq_true, List.any_eq_true]
    exact ⟨fun ⟨x, hx, h0⟩ => ⟨x, h.mem_iff.1 hx, h0⟩, fun ⟨x, hx, h0⟩ => ⟨x, h.mem_iff.2 hx, h0⟩⟩
  rw [this]

theorem C29_order (C : WeightCore K) (log : K → K) {d d' : List ℤ} (hp : d.Perm d') (s : C.State × ℕ) :
    BaseWeight.assignationLogLikelihood C log (some d) ω s = BaseWeight.assignationLogLikelihood C log (some d') ω s := by
  unfold BaseWeight.assignationLogLikelihood
  simp only [M.bind_apply, M.self, Option.getD_some]
  rw [maxInt_perm hp]
  cases hm : Py.maxInt d' with
  | error e => rfl
  | ok m =>
    simp only [M.lift]
    rcases C.complete (.int (m + 1)) ω s with ⟨e | a, t⟩
    · rfl
    · simp only []
      rcases gather_perm (C.getW t.1) hp with ⟨h1, h2⟩ | ⟨xs, ys, h1, h2, h3⟩
      · rw [h1, h2]
      · rw [h1, h2]
        simp only []
        rw [sumLog_perm log h3]

theorem ll_total (C : WeightCore K) (log : K → K) {d : List ℤ} (hd : NonNegLabels d) (hne : d ≠ []) {s : C.State × ℕ}
    (h : ∀ m : ℤ, ∃ o t, C.complete (.int m) ω s = (.ok o, t) ∧ m ≤ (C.getW t.1).length) :
    ∃ o t, BaseWeight.assignationLogLikelihood C log (some d) ω s = (.ok o, t) := by
  unfold BaseWeight.assignationLogLikelihood
  simp only [M.bind_apply, M.self, Option.getD_some]
  cases hm : Py.maxInt d with
  | error e => cases d with
    | nil => exact absurd rfl hne
    | cons a d => cases hm
  | ok m =>
    have hmax : IsMaxLabel d m := maxInt_eq_ok_iff.1 hm
    obtain ⟨o, t, hc, hl⟩ := h (m + 1)
    simp only [M.lift]
    rw [hc]
    simp only []
    obtain ⟨xs, hxs⟩ := gather_ok (l := C.getW t.1) (is := d) fun i hi => ⟨hd i hi, by have := hmax.2 i hi; omega⟩
    rw [hxs]
    exact ⟨_, _, rfl⟩

theorem complete_some {σ : Type} {m : M K σ (List K)} {W : σ → List K} {s : σ × ℕ} {n : ℤ}
    (h : ∃ r t, m ω s = (.ok r, t) ∧ n ≤ r.length) (hw : wp ω m (fun r t => r = W t.1) (fun _ _ => True) s) :
    ∃ o t, (do let w ← m; pure (some w) : M K σ (Option (List K))) ω s = (.ok o, t) ∧ n ≤ (W t.1).length := by
  obtain ⟨r, t, h1, h2⟩ := h
  have := wp_of_ok h1 hw
  refine ⟨some r, t, ?_, this ▸ h2⟩
  rw [M.bind_apply, h1]; rfl

section
variable (log : K → K) (pos : ℕ) (ops : List (WOp K)) {d : List ℤ}

theorem C29_dirichletProcess_total (hd : NonNegLabels d) (hne : d ≠ []) {alpha : K} (ha : 0 < alpha) :
    ∃ o t, BaseWeight.assignationLogLikelihood DP.core log (some d) ω (DP.cls.run log ω (DP.init alpha, pos) ops) = (.ok o, t) :=
  ll_total DP.core log hd hne fun m => complete_some (W := DP.w) (C04_dirichletProcess log pos ops m ha)
    (wp_mono (DP.complete_post _ _) (fun _ _ h => h.1) fun _ _ _ => trivial)

theorem C29_pitmanYor_total (hd : NonNegLabels d) (hne : d ≠ []) {pyd alpha : K} {s0 : PY K} (h0 : PY.init pyd alpha = .ok s0)
    (hp : 0 ≤ pyd ∧ pyd < 1) (ha : 0 < alpha) :
    ∃ o t, BaseWeight.assignationLogLikelihood PY.core log (some d) ω (PY.cls.run log ω (s0, pos) ops) = (.ok o, t) :=
  ll_total PY.core log hd hne fun m => complete_some (W := PY.w) (C04_pitmanYor log pos ops m h0 hp ha)
    (wp_mono (PY.complete_post _ _ (by rw [PY.reach_sinv log pos ops h0, stickWeights_length])) (fun _ _ h => h.1) fun _ _ _ => trivial)

theorem C29_betaInBeta_total (hω : ω.Legal) (hd : NonNegLabels d) (hne : d ≠ []) {x alpha a b p : K} {m : PMethod} {s0 : BIB K}
    (h0 : BIB.init x alpha a b p m = .ok s0) (hx : 0 ≤ x ∧ x ≤ 1) (ha : 0 < alpha) (hab : 0 < a ∧ 0 < b)
    (hp : 0 ≤ p ∧ p ≤ 1) (hm : m ≠ .rejectionSampling ∨ x = 0 ∨ x = 1) (hd' : NonNegLabels (BIB.cls.run log ω (s0, pos) ops).1.d) :
    ∃ o t, BaseWeight.assignationLogLikelihood BIB.core log (some d) ω (BIB.cls.run log ω (s0, pos) ops) = (.ok o, t) :=
  ll_total BIB.core log hd hne fun n => complete_some (W := BIB.w) (C04_betaInBeta log pos ops n hω h0 hx ha hab hp hm hd')
    (wp_mono (BIB.complete_post _ _) (fun _ _ h => h.1) fun _ _ _ => trivial)

theorem C29_betaBinomial_total (hω : ω.Legal) (hd : NonNegLabels d) (hne : d ≠ []) {n : ℤ} {alpha : K} (hn : 0 ≤ n) (ha : 0 < alpha) :
    ∃ o t, BaseWeight.assignationLogLikelihood BBin.core log (some d) ω (BBin.cls.run log ω (BBin.init n alpha, pos) ops) = (.ok o, t) :=
  ll_total BBin.core log hd hne fun m => complete_some (W := BBin.w) (C04_betaBinomial log pos ops m hω hn ha)
    (wp_mono (BBin.complete_post _ _) (fun _ _ h => h.1) fun _ _ _ => trivial)
end

theorem C29_geometric_total {ω : Oracle ℝ} (log : ℝ → ℝ) (pos : ℕ) (ops : List (WOp ℝ)) {d : List ℤ} (hd : NonNegLabels d) (hne : d ≠ []) (a b p0 : ℝ) :
    ∃ o t, BaseWeight.assignationLogLikelihood Geo.core log (some d) ω (Geo.cls.run log ω (Geo.init a b p0, pos) ops) = (.ok o, t) :=
  ll_total Geo.core log hd hne fun m => complete_some (W := Geo.w) (C04_geometric log pos ops m a b p0)
    (wp_mono (Geo.complete_post _ _ (Geo.reach_ginv log pos ops a b p0).1) (fun _ _ h => h.1) fun _ _ _ => trivial)

/-- The weights already drawn are kept, whether the call returns or raises `IndexError` on the labels. -/
theorem ll_keeps {C : WeightCore K} {V : C.State → List K} (hC : StickCore C V ω) (log : K → K) {d : List ℤ} {s t : C.State × ℕ} {o : Option K}
    (hs : IsStick (V s.1) (C.getW s.1)) (h : BaseWeight.assignationLogLikelihood C log (some d) ω s = (.ok o, t)) :
    C.getW s.1 <+: C.getW t.1 := by
  refine wp_of_ok h (Q := fun _ t => C.getW s.1 <+: C.getW t.1) (E := fun _ _ => True) ?_
  unfold BaseWeight.assignationLogLikelihood
  rw [wp_bind, wp_self, wp_bind, wp_lift]
  refine ⟨fun m _ => ?_, fun _ _ => trivial⟩
  rw [wp_bind]
  refine wp_mono (hC _ s (IsStick.eq hs)) ?_ (fun _ _ _ => trivial)
  rintro _ t ⟨_, hc⟩
  rw [wp_bind, wp_self, wp_bind, wp_lift]
  refine ⟨fun ys _ => ?_, fun _ _ => trivial⟩
  rw [wp_pure]
  rcases hc.w_eq with ⟨_, h2⟩ | h2
  · rw [h2]
  · rw [h2, IsStick.eq hs]; exact stickWeights_prefix hc.pre

theorem C29_keeps (log : K → K) (d : List ℤ) (F : SpecFun K) :
    (∀ s o t, IsStick s.1.v s.1.w → BaseWeight.assignationLogLikelihood DP.core log (some d) ω s = (.ok o, t) → s.1.w <+: t.1.w) ∧
    (∀ s o t, IsStick s.1.v s.1.w → BaseWeight.assignationLogLikelihood PY.core log (some d) ω s = (.ok o, t) → s.1.w <+: t.1.w) ∧
    (∀ s o t, IsStick s.1.v s.1.w → BaseWeight.assignationLogLikelihood BIB.core log (some d) ω s = (.ok o, t) → s.1.w <+: t.1.w) ∧
    (∀ s o t, IsStick s.1.v s.1.w → BaseWeight.assignationLogLikelihood BBin.core log (some d) ω s = (.ok o, t) → s.1.w <+: t.1.w) ∧
    (∀ s o t, IsStick s.1.v s.1.w → BaseWeight.assignationLogLikelihood BBer.core log (some d) ω s = (.ok o, t) → s.1.w <+: t.1.w) ∧
    (∀ s o t, IsStick s.1.v s.1.w → BaseWeight.assignationLogLikelihood (BID.core F) log (some d) ω s = (.ok o, t) → s.1.w <+: t.1.w) :=
  ⟨fun _ _ _ hs h => ll_keeps DP.stickCore log hs h, fun _ _ _ hs h => ll_keeps PY.stickCore log hs h,
    fun _ _ _ hs h => ll_keeps BIB.stickCore log hs h, fun _ _ _ hs h => ll_keeps BBin.stickCore log hs h,
    fun _ _ _ hs h => ll_keeps BBer.stickCore log hs h, fun _ _ _ hs h => ll_keeps (BID.stickCore F) log hs h⟩

/-- `EqualWeighting(2)` cannot score the label 2. -/
theorem C29_equalWeighting_refuted : ∃ ω : Oracle ℚ, ω.Legal ∧
    (BaseWeight.assignationLogLikelihood Equal.core id (some [0, 2]) ω (Equal.init 2, 0)).1 = .error .indexError :=
  ⟨demo, demo_legal, by decide +kernel⟩

/-! Non-vacuity (with the identity in place of the logarithm) -/
example : (BaseWeight.assignationLogLikelihood DP.core id (some [2, 0, 0]) (demo : Oracle ℚ) (DP.cls.run id demo (DP.init 1, 0) [.random (.int 1)])).1
    = .ok (some (1/2 + 1/2 + 1/12)) := by decide +kernel

end Verif
