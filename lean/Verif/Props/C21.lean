import Verif.Lemmas.StickTail
import Verif.Lemmas.Demo
import Verif.Props.C17
import Verif.Lemmas.DP

/-!
# C21: `tail(x)` rejects `x` outside `[0, 1)` without side effects

`C21_rejects`: for every class with the inherited `tail`, every state: `ValueError`, object and generator unchanged
(`C21_geometric_rejects` for the overriding one).  The converse (no exception for `x` in `[0, 1)`; `outOfFuel` means that the
loop of the model is still running) holds for usable hyper-parameters and labels in the classes below, and fails in general:
`tail` draws weights, and a draw may raise `ValueError` itself.
-/

set_option linter.unusedSectionVars false

namespace Verif
open Spec
section
variable {K : Type} [Field K] [LinearOrder K] [IsStrictOrderedRing K] {ω : Oracle K}

theorem C21_rejects (C : WeightCore K) {x : K} (hx : 1 ≤ x ∨ x < 0) (fuel : ℕ) (s : C.State × ℕ) :
    C.inheritTail.tail fuel x ω s = (.error .valueError, s) := BaseWeight.tail_bad C hx fuel s

variable (log : K → K) (pos : ℕ) (ops : List (WOp K))

/-- Missing: `alpha ≤ 0` and negative labels, for which a draw raises `ValueError`. -/
theorem C21_dirichletProcess_partial {alpha : K} (ha : 0 < alpha) {s : DP K × ℕ} (hs : DP.cls.run log ω (DP.init alpha, pos) ops = s)
    (hd : NonNegLabels s.1.d) {x : K} (hx : 0 ≤ x ∧ x < 1) (fuel : ℕ) {e : PyErr} {t : DP K × ℕ}
    (h : DP.cls.tail fuel x ω s = (.error e, t)) : e = .outOfFuel := by
  have hA : s.1.alpha = alpha := by rw [← hs]; exact DP.reach_alpha log pos ops alpha
  refine wp_of_error (Q := fun _ _ => True) (E := fun e _ => e = .outOfFuel) h
    (wp_mono (wp_tail (C := DP.core) (I := fun t => t.1.alpha = alpha) (E := fun e _ => e = .outOfFuel) (by push Not; exact ⟨hx.2, hx.1⟩) ?_
      (fun _ _ _ => rfl) fuel s ?_ (fun _ => hA)) (fun _ _ _ => trivial) fun _ _ h => h)
  · intro t ht _
    refine (wp_bind (DP.complete _) _).2 ?_
    exact wp_mono (wp_and (DP.complete_ok (by rw [ht]; exact ha) rfl) (DP.complete_post _ t)) (fun _ _ h => h.2.2.2.1.trans ht)
      (fun _ _ h => h.1.elim)
  · intro _
    unfold wp
    rw [show DP.core.random (.int 1) ω s = DP.random (.int 1) ω (s.1, s.2) from rfl,
      DP.random_spec ω s.1 s.2 (.int 1) 1 (by rw [hA]; exact ha) hd (.inl ⟨rfl, le_rfl⟩)]
    exact hA

/-- Missing: `alpha ≤ 0`, `pyd` outside `[0, 1)` and negative labels. -/
theorem C21_pitmanYor_partial {pyd alpha : K} {s0 : PY K} (h0 : PY.init pyd alpha = .ok s0) (hp : 0 ≤ pyd ∧ pyd < 1) (ha : 0 < alpha)
    {s : PY K × ℕ} (hs : PY.cls.run log ω (s0, pos) ops = s)
    (hd : NonNegLabels s.1.d) {x : K} (hx : 0 ≤ x ∧ x < 1) (fuel : ℕ) {e : PyErr} {t : PY K × ℕ}
    (h : PY.cls.tail fuel x ω s = (.error e, t)) : e = .outOfFuel := by
  have hh := PY.reach_hyper (ω := ω) log pos ops h0
  rw [hs] at hh
  have hI : PY.hyper s.1 = (pyd, alpha) := by unfold PY.hyper; rw [hh.1, hh.2]
  have hst := PY.hyper_stable (ω := ω) (· = (pyd, alpha))
  have hyp : ∀ t : PY K × ℕ, PY.hyper t.1 = (pyd, alpha) → t.1.pyd = pyd ∧ t.1.alpha = alpha := fun t ht =>
    ⟨congrArg Prod.fst ht, congrArg Prod.snd ht⟩
  refine wp_of_error (Q := fun _ _ => True) (E := fun e _ => e = .outOfFuel) h
    (wp_mono (wp_tail (C := PY.core) (I := fun t => PY.hyper t.1 = (pyd, alpha)) (E := fun e _ => e = .outOfFuel) (by push Not; exact ⟨hx.2, hx.1⟩) ?_
      (fun _ _ _ => rfl) fuel s ?_ (fun _ => hI)) (fun _ _ _ => trivial) fun _ _ h => h)
  · intro t ht _
    have hy := hyp t ht
    have k2 : wp ω (PY.core.complete (.int ((t.1.w.length : ℤ) + 1))) (fun _ _ => True) (fun _ _ => False) t :=
      (wp_bind (PY.complete _) _).2
        (wp_mono (PY.complete_ok (s := t) (by rw [hy.1]; exact hp.1) (by rw [hy.1]; exact hp.2) (by rw [hy.2]; exact ha) rfl)
          (fun _ _ h => h) (fun _ _ h => h))
    exact wp_mono (wp_and (wp_of_keeps (hst.complete _) ht) k2) (fun _ _ h => h.1) (fun _ _ h => h.2.elim)
  · intro _
    refine wp_mono (wp_and (wp_of_keeps (hst.random _) hI)
      (PY.random_ok (s := s) (by rw [hh.1]; exact hp.1) (by rw [hh.1]; exact hp.2) (by rw [hh.2]; exact ha) hd (.inr ⟨1, rfl, by norm_num⟩)))
      (fun _ _ h => h.1) (fun _ _ h => h.2.elim)

/-- Missing: hyper-parameters outside their ranges, negative labels, and the method `"rejection-sampling"` with `0 < x < 1`. -/
theorem C21_betaInBeta_partial (hω : ω.Legal) {y alpha a b p : K} {m : PMethod} {s0 : BIB K}
    (h0 : BIB.init y alpha a b p m = .ok s0) (hy : 0 ≤ y ∧ y ≤ 1) (ha : 0 < alpha) (hab : 0 < a ∧ 0 < b)
    (hp : 0 ≤ p ∧ p ≤ 1) (hm : m ≠ .rejectionSampling ∨ y = 0 ∨ y = 1) {s : BIB K × ℕ} (hs : BIB.cls.run log ω (s0, pos) ops = s)
    (hd : NonNegLabels s.1.d) {x : K} (hx : 0 ≤ x ∧ x < 1) (fuel : ℕ) {e : PyErr} {t : BIB K × ℕ}
    (h : BIB.cls.tail fuel x ω s = (.error e, t)) : e = .outOfFuel := by
  have hV := BIB.reach_valid log pos ops hω h0 hy ha hab hp hm (by rw [hs]; exact hd)
  have e1 := BIB.init_eq h0
  have hS := WeightCore.run_keeps (BIB.stable hω) log ops (s0, pos) (by
    rw [e1.1]; exact ⟨Unit01.nil, SubProb.nil, hp⟩)
  change BIB.Inv (BIB.cls.run log ω (s0, pos) ops).1 at hS
  rw [hs] at hV hS
  let F : K × K × K × K × PMethod × List ℤ → Prop := (· = BIB.Fixed s.1)
  have hvalid : ∀ t : BIB K × ℕ, F (BIB.Fixed t.1) → 0 ≤ t.1.p → t.1.p ≤ 1 → BIB.Valid t.1 := by
    intro t ht h1 h2
    simp only [F, BIB.Fixed, Prod.mk.injEq] at ht
    obtain ⟨f1, f2, f3, f4, f5, f6⟩ := ht
    exact ⟨by rw [f1]; exact hV.x0, by rw [f1]; exact hV.x1, by rw [f2]; exact hV.alpha, by rw [f3]; exact hV.a, by rw [f4]; exact hV.b, h1, h2,
      by rw [f5, f1]; exact hV.method, by rw [f6]; exact hV.labels⟩
  refine wp_of_error (Q := fun _ _ => True) (E := fun e _ => e = .outOfFuel) h
    (wp_mono (wp_tail (C := BIB.core) (I := fun t => F (BIB.Fixed t.1) ∧ BIB.Inv t.1)
      (E := fun e _ => e = .outOfFuel) (by push Not; exact ⟨hx.2, hx.1⟩) ?_
      (fun _ _ _ => rfl) fuel s ?_ (fun _ => ⟨rfl, hS⟩)) (fun _ _ _ => trivial) fun _ _ h => h)
  · intro t ht _
    have hv := hvalid t ht.1 ht.2.2.2.1 ht.2.2.2.2
    have k1 := wp_of_keeps ((BIB.stable hω).complete (.int ((t.1.w.length : ℤ) + 1))) (s := t) ht.2
    have k2 : wp ω (BIB.core.complete (.int ((t.1.w.length : ℤ) + 1))) (fun _ t => F (BIB.Fixed t.1)) (fun _ _ => False) t :=
      (wp_bind (BIB.complete _) _).2 (wp_mono (wp_and (wp_of_keeps (BIB.complete_fixed F _).keeps ht.1) (BIB.complete_ok hω hv rfl))
        (fun _ _ h => h.1) (fun _ _ h => h.2.elim))
    exact wp_mono (wp_and k1 k2) (fun _ _ h => ⟨h.2, h.1⟩) (fun _ _ h => h.2.elim)
  · intro _
    have k1 := wp_of_keeps ((BIB.stable hω).random (.int 1)) (s := s) hS
    have k2 := wp_and (wp_of_keeps (BIB.random_fixed (ω := ω) F (.int 1)).keeps (s := s) rfl) (BIB.random_ok hω hV (.inr ⟨1, rfl, by norm_num⟩))
    exact wp_mono (wp_and k1 k2) (fun _ _ h => ⟨h.2.1, h.1⟩) (fun _ _ h => h.2.2.elim)

/-- Missing: `n < 0`, `alpha ≤ 0` and negative labels. -/
theorem C21_betaBinomial_partial (hω : ω.Legal) {n : ℤ} {alpha : K} (hn : 0 ≤ n) (ha : 0 < alpha) {s : BBin K × ℕ}
    (hs : BBin.cls.run log ω (BBin.init n alpha, pos) ops = s)
    (hd : NonNegLabels s.1.d) {x : K} (hx : 0 ≤ x ∧ x < 1) (fuel : ℕ) {e : PyErr} {t : BBin K × ℕ}
    (h : BBin.cls.tail fuel x ω s = (.error e, t)) : e = .outOfFuel := C17_tail log pos ops hω hn ha hs hd hx fuel h
end

/-- `GeometricProcess.tail` overrides the inherited one. -/
theorem C21_geometric_rejects {ω : Oracle ℝ} {x : ℝ} (hx : 1 ≤ x ∨ x < 0) (fuel : ℕ) (s : Geo ℝ × ℕ) :
    Geo.cls.tail fuel x ω s = (.error .valueError, s) := by
  show Geo.tail x ω s = _
  unfold Geo.tail
  rw [if_pos hx]; rfl

/-- Missing: `p = 0`, for which numpy divides by zero. -/
theorem C21_geometric_partial {ω : Oracle ℝ} {x : ℝ} (hx : 0 ≤ x ∧ x < 1) (fuel : ℕ) (s : Geo ℝ × ℕ) (hp : s.1.p ≠ 0) :
    ∃ r t, Geo.cls.tail fuel x ω s = (.ok r, t) := by
  obtain ⟨r, t, h, _⟩ := wp_total (ω := ω) (m := Geo.tail x) (s := s) (Q := fun _ _ => True) (by
    unfold Geo.tail
    rw [if_neg (by push Not; exact ⟨hx.2, hx.1⟩), wp_bind, wp_self, wp_bind, wp_lift]
    refine ⟨fun n _ => ?_, fun e he => ?_⟩
    · rw [wp_bind]
      exact wp_mono (Geo.complete_ok rfl) (fun _ _ _ => by wp_simp) fun _ _ h => h
    · unfold Geo.tailSize at he
      rw [if_neg hp] at he
      split at he <;> cases he)
  exact ⟨r, t, h⟩

/-- A legal `x` can be answered with `ValueError`: one fitted group of `BetaInDirichlet(1, 1)`, or `PitmanYorProcess(1/2, -1/4)`. -/
theorem C21_refuted : ∃ ω : Oracle ℚ, ω.Legal ∧
    ((BID.cls ⟨id, id⟩).tail 3 (1/2) ω ((BID.cls ⟨id, id⟩).run id ω (BID.init 1 1, 0) [.fit [0, 0]])).1 = .error .valueError ∧
    ∃ s0, PY.init (1/2) (-1/4 : ℚ) = .ok s0 ∧ (PY.cls.tail 3 (1/2) ω (s0, 0)).1 = .error .valueError :=
  ⟨demo, demo_legal, by decide +kernel, ⟨1/2, -1/4, [], [], []⟩, by unfold PY.init; norm_num, by decide +kernel⟩

/-! Non-vacuity -/
example : (DP.cls.tail 4 (1 : ℚ) demo (DP.init 1, 7)).1 = .error .valueError := by decide +kernel
example : (BIB.cls.tail 9 (1/2 : ℚ) demo (BIB.cls.run id demo (⟨1/2, 1, 1, 1, 0, .geometric, [], [], []⟩, 0) [.random (.int 2)])).1.toOption.isSome = true := by
  decide +kernel

end Verif
