import Verif.Lemmas.StickInv
import Verif.Lemmas.Demo

/-!
# C02: stick-breaking identity and left-over mass

For the seven stick-breaking classes: after any history of calls, a successful `random(size)` (size `None` or at least 1)
returns `get_weights()`, which is the stick-breaking image of the stored sticks, all in `[0,1]`, and `1 - sum(w)` is the
product of all `1 - v_i` (`Spec.StickDraw`).  The `_complete` theorems say the same of `complete(n)` with `n ≥ 1`, for
any history.  For `BetaBernoulli.complete` this fails (`C02_betaBernoulli_complete_refuted`): a failing `complete(1)` on a
fresh object leaves a stick without a weight; it holds for each `complete` that starts from weights belonging to
the sticks (`C02_betaBernoulli_complete_partial`).  For `GeometricProcess` and `BetaInDirichlet` labels must be legal
component numbers (other labels are only rejected by the other classes).
-/

set_option linter.unusedSectionVars false

namespace Verif
open Spec
variable {K : Type} [Field K] [LinearOrder K] [IsStrictOrderedRing K]

theorem stickDraw_of {v w : List K} (hv : Unit01 v) (h : w = stickWeights v) : StickDraw v w := by
  subst h
  refine ⟨stickWeights_isStick v, hv, ?_⟩
  rw [stickWeights_sum]
  simp [leftOver]

theorem CPost.stickDraw {v w v' w' : List K} {size : PySize} {n : ℤ} (h : CPost v w v' w' size) (hs : SInv v w)
    (hn : size.toInt? = some n) (hpos : 1 ≤ n) (hu : Unit01 v') : StickDraw v' w' := by
  refine stickDraw_of hu (h.sinv hs ?_)
  rintro rfl
  have := (h.len n hn).1
  simp at this
  omega

theorem RPost.stickDraw {d : List ℤ} {size : PySize} {v w r : List K} (h : RPost d size v w r) (hu : Unit01 v) :
    r = w ∧ StickDraw v r := ⟨h.ret, stickDraw_of hu (by rw [h.ret, h.stick])⟩

/-- The object after a successful call still satisfies a kept invariant. -/
theorem Keeps.ok {σ α : Type} {I : σ → Prop} {ω : Oracle K} {m : M K σ α} (h : Keeps ω I m) {s t : σ × ℕ} {r : α}
    (hr : m ω s = (.ok r, t)) (hs : I s.1) : I t.1 := by
  have := h s hs
  rw [hr] at this
  exact this

section
variable (log : K → K) {ω : Oracle K} (hω : ω.Legal) (pos : ℕ) (ops : List (WOp K)) {size : PySize}
include hω

/-! ## `random` -/

theorem C02_dirichletProcess (alpha : K) (hreq : ReqPos size) {r : List K} {t : DP K × ℕ}
    (h : DP.random size ω (DP.cls.run log ω (DP.init alpha, pos) ops) = (.ok r, t)) : r = t.1.w ∧ StickDraw t.1.v r := by
  have hI := WeightCore.run_keeps (DP.stable hω) log ops (DP.init alpha, pos) ⟨Unit01.nil, SubProb.nil⟩
  exact (wp_of_ok h (DP.random_post size _) hreq).1.stickDraw (Keeps.ok ((DP.stable hω).random size) h hI).1

theorem C02_pitmanYor (pyd alpha : K) (s0 : PY K) (h0 : PY.init pyd alpha = .ok s0) (hreq : ReqPos size) {r : List K}
    {t : PY K × ℕ} (h : PY.random size ω (PY.cls.run log ω (s0, pos) ops) = (.ok r, t)) :
    r = t.1.w ∧ StickDraw t.1.v r := by
  have hI := WeightCore.run_keeps (PY.stable hω) log ops (s0, pos) (by
    unfold PY.init at h0; split at h0 <;> cases h0; exact ⟨Unit01.nil, SubProb.nil⟩)
  exact (wp_of_ok h (PY.random_post size _) hreq).1.stickDraw (Keeps.ok ((PY.stable hω).random size) h hI).1

theorem C02_betaInBeta (x alpha a b p : K) (m : PMethod) (s0 : BIB K) (hp : 0 ≤ p ∧ p ≤ 1)
    (h0 : BIB.init x alpha a b p m = .ok s0) (hreq : ReqPos size) {r : List K} {t : BIB K × ℕ}
    (h : BIB.random size ω (BIB.cls.run log ω (s0, pos) ops) = (.ok r, t)) : r = t.1.w ∧ StickDraw t.1.v r := by
  have hI := WeightCore.run_keeps (BIB.stable hω) log ops (s0, pos) (by
    unfold BIB.init at h0; split at h0 <;> cases h0; exact ⟨Unit01.nil, SubProb.nil, hp⟩)
  exact (wp_of_ok h (BIB.random_post size _) hreq).1.stickDraw (Keeps.ok ((BIB.stable hω).random size) h hI).1

theorem C02_betaBinomial (n : ℤ) (alpha : K) (hreq : ReqPos size) {r : List K} {t : BBin K × ℕ}
    (h : BBin.random size ω (BBin.cls.run log ω (BBin.init n alpha, pos) ops) = (.ok r, t)) :
    r = t.1.w ∧ StickDraw t.1.v r := by
  have hI := WeightCore.run_keeps (BBin.stable hω) log ops (BBin.init n alpha, pos) ⟨Unit01.nil, SubProb.nil⟩
  exact (wp_of_ok h (BBin.random_post size _) hreq).1.stickDraw (Keeps.ok ((BBin.stable hω).random size) h hI).1

theorem C02_betaBernoulli (p alpha : K) (hreq : ReqPos size) {r : List K} {t : BBer K × ℕ}
    (h : BBer.random size ω (BBer.cls.run log ω (BBer.init p alpha, pos) ops) = (.ok r, t)) :
    r = t.1.w ∧ StickDraw t.1.v r := by
  have hI := WeightCore.run_keeps (BBer.stable hω) log ops (BBer.init p alpha, pos) ⟨Unit01.nil, SubProb.nil⟩
  exact (wp_of_ok h (BBer.random_post size _) hreq).1.stickDraw (Keeps.ok ((BBer.stable hω).random size) h hI).1

theorem C02_betaInDirichlet (F : SpecFun K) (alpha a : K) (hreq : ReqPos size) {r : List K} {t : BID K × ℕ}
    (hd : NonNegLabels ((BID.cls F).run log ω (BID.init alpha a, pos) ops).1.d)
    (h : BID.random F size ω ((BID.cls F).run log ω (BID.init alpha a, pos) ops) = (.ok r, t)) :
    r = t.1.w ∧ StickDraw t.1.v r := by
  have hI := WeightCore.run_keeps (BID.stable hω F) log ops (BID.init alpha a, pos)
    ⟨Unit01.nil, SubProb.nil, Unit01.nil⟩
  exact (wp_of_ok h (BID.random_post F size _ hd) hreq).1.stickDraw (Keeps.ok ((BID.stable hω F).random size) h hI).1

/-! ## `complete` -/

theorem C02_dirichletProcess_complete (alpha : K) {n : ℤ} (hn : 1 ≤ n) {r : List K} {t : DP K × ℕ}
    (h : DP.complete (.int n) ω (DP.cls.run log ω (DP.init alpha, pos) ops) = (.ok r, t)) :
    r = t.1.w ∧ StickDraw t.1.v r := by
  have hI := WeightCore.run_keeps (DP.stable hω) log ops (DP.init alpha, pos) ⟨Unit01.nil, SubProb.nil⟩
  have hS := WeightCore.run_keeps (DP.sinv_stable (ω := ω)) log ops (DP.init alpha, pos) (SInv.nil _)
  obtain ⟨hr, _, _, hc⟩ := wp_of_ok h (DP.complete_post _ _)
  refine ⟨hr, hr ▸ hc.stickDraw hS rfl hn ?_⟩
  exact (Keeps.ok (DP.complete_keeps hω _).keeps h hI).1

theorem C02_pitmanYor_complete (pyd alpha : K) (s0 : PY K) (h0 : PY.init pyd alpha = .ok s0) {n : ℤ} (hn : 1 ≤ n)
    {r : List K} {t : PY K × ℕ} (h : PY.complete (.int n) ω (PY.cls.run log ω (s0, pos) ops) = (.ok r, t)) :
    r = t.1.w ∧ StickDraw t.1.v r := by
  have e : s0.v = [] ∧ s0.w = [] := by
    unfold PY.init at h0; split at h0 <;> cases h0; exact ⟨rfl, rfl⟩
  have hI := WeightCore.run_keeps (PY.stable hω) log ops (s0, pos) ⟨e.1 ▸ Unit01.nil, e.2 ▸ SubProb.nil⟩
  have hS := WeightCore.run_keeps (PY.sinv_stable (ω := ω)) log ops (s0, pos) (by rw [e.1, e.2]; rfl)
  obtain ⟨hr, _, _, _, hc⟩ := wp_of_ok h (PY.complete_post _ _ (by
    have := congrArg List.length hS; rwa [stickWeights_length] at this))
  refine ⟨hr, hr ▸ hc.stickDraw (fun _ => hS) rfl hn ?_⟩
  exact (Keeps.ok (PY.complete_keeps hω _).keeps h hI).1

theorem C02_betaInBeta_complete (x alpha a b p : K) (m : PMethod) (s0 : BIB K) (hp : 0 ≤ p ∧ p ≤ 1)
    (h0 : BIB.init x alpha a b p m = .ok s0) {n : ℤ} (hn : 1 ≤ n) {r : List K} {t : BIB K × ℕ}
    (h : BIB.complete (.int n) ω (BIB.cls.run log ω (s0, pos) ops) = (.ok r, t)) : r = t.1.w ∧ StickDraw t.1.v r := by
  have e : s0.v = [] ∧ s0.w = [] ∧ s0.p = p := by
    unfold BIB.init at h0; split at h0 <;> cases h0; exact ⟨rfl, rfl, rfl⟩
  have hI := WeightCore.run_keeps (BIB.stable hω) log ops (s0, pos)
    ⟨e.1 ▸ Unit01.nil, e.2.1 ▸ SubProb.nil, by rw [e.2.2]; exact hp⟩
  have hS := WeightCore.run_keeps (BIB.sinv_stable (ω := ω)) log ops (s0, pos) (by rw [e.1]; exact SInv.nil _)
  obtain ⟨hr, _, _, _, hc⟩ := wp_of_ok h (BIB.complete_post _ _)
  refine ⟨hr, hr ▸ hc.stickDraw hS rfl hn ?_⟩
  exact (Keeps.ok (BIB.complete_keeps hω _).keeps h hI).1

theorem C02_betaBinomial_complete (n : ℤ) (alpha : K) {r : List K} {t : BBin K × ℕ}
    (h : BBin.complete size ω (BBin.cls.run log ω (BBin.init n alpha, pos) ops) = (.ok r, t)) :
    r = t.1.w ∧ StickDraw t.1.v r := by
  have hI := WeightCore.run_keeps (BBin.stable hω) log ops (BBin.init n alpha, pos) ⟨Unit01.nil, SubProb.nil⟩
  obtain ⟨hr, _, _, _, hw, _⟩ := wp_of_ok h (BBin.complete_post _ _)
  exact ⟨hr, stickDraw_of (Keeps.ok (BBin.complete_keeps hω _).keeps h hI).1 (hr.trans hw)⟩

theorem C02_betaInDirichlet_complete (F : SpecFun K) (alpha a : K) {t : BID K × ℕ}
    (h : BID.complete size ω ((BID.cls F).run log ω (BID.init alpha a, pos) ops) = (.ok (), t)) :
    StickDraw t.1.v t.1.w := by
  have hI := WeightCore.run_keeps (BID.stable hω F) log ops (BID.init alpha a, pos)
    ⟨Unit01.nil, SubProb.nil, Unit01.nil⟩
  obtain ⟨_, _, _, hw, _⟩ := wp_of_ok h (BID.complete_post _ _)
  exact stickDraw_of (Keeps.ok (BID.complete_keeps hω _).keeps h hI).1 hw

/-- Missing: histories in which `complete(1)` failed on the fresh object. -/
theorem C02_betaBernoulli_complete_partial (s : BBer K × ℕ) (hs : StickDraw s.1.v s.1.w) {n : ℤ} (hn : 1 ≤ n)
    {r : List K} {t : BBer K × ℕ} (h : BBer.complete (.int n) ω s = (.ok r, t)) :
    r = t.1.w ∧ StickDraw t.1.v r := by
  have hw : s.1.w = stickWeights s.1.v := by
    apply List.ext_getElem?
    intro j
    rw [stickWeights_getElem?]
    cases hx : s.1.v[j]? with
    | some x => rw [hs.isStick.2 j x hx]; rfl
    | none => simpa [hs.isStick.1] using hx
  have hI : BBer.Inv s.1 := ⟨hs.unit, hw ▸ stickWeights_subProb hs.unit⟩
  obtain ⟨hr, _, _, _, hc⟩ := wp_of_ok h (BBer.complete_post _ _)
  refine ⟨hr, hr ▸ hc.stickDraw (fun _ => hw) rfl hn ?_⟩
  exact (Keeps.ok (BBer.complete_keeps hω _).keeps h hI).1

end

/-- The full statement fails for `BetaBernoulli.complete`: after a failed `complete(1)` on a fresh object, `complete(1)`
succeeds and shows no weight although a stick is stored. -/
theorem C02_betaBernoulli_complete_refuted :
    ∃ (ω : Oracle ℚ) (ops : List (WOp ℚ)) (r : List ℚ) (t : BBer ℚ × ℕ), ω.Legal ∧
      BBer.complete (.int 1) ω (BBer.cls.run id ω (BBer.init (1/2) 1, 0) ops) = (.ok r, t) ∧ ¬ StickDraw t.1.v r :=
  ⟨demo, [.complete (.int 1)], [], (BBer.complete (.int 1) demo (BBer.cls.run id demo (BBer.init (1/2) 1, 0)
      [.complete (.int 1)])).2, demo_legal, Prod.ext (by decide +kernel) rfl,
    fun h => absurd h.isStick.1 (by decide +kernel)⟩

/-! ## Geometric process (real numbers because of its own `tail`) -/

section
variable (log : ℝ → ℝ) {ω : Oracle ℝ} (hω : ω.Legal) (pos : ℕ) (ops : List (WOp ℝ)) (a b p0 : ℝ)
  (hp : 0 ≤ p0 ∧ p0 ≤ 1)
include hω hp

theorem C02_geometric {size : PySize} (hreq : ReqPos size) {r : List ℝ} {t : Geo ℝ × ℕ}
    (hd : NonNegLabels (Geo.cls.run log ω (Geo.init a b p0, pos) ops).1.d)
    (h : Geo.random size ω (Geo.cls.run log ω (Geo.init a b p0, pos) ops) = (.ok r, t)) :
    r = t.1.w ∧ StickDraw t.1.v r := by
  have hI := WeightClass.run_keeps (C := Geo.cls) (Geo.stable hω) (fun _ x => Geo.tail_keeps x) log ops
    (Geo.init a b p0, pos) ⟨Unit01.nil, SubProb.nil, hp⟩
  exact (wp_of_ok h (Geo.random_post size _) hreq (fun m hm => hd m hm.1)).1.stickDraw
    (Keeps.ok ((Geo.stable hω).random size) h hI).1

theorem C02_geometric_complete {n : ℤ} (hn : 1 ≤ n) {r : List ℝ} {t : Geo ℝ × ℕ}
    (h : Geo.complete (.int n) ω (Geo.cls.run log ω (Geo.init a b p0, pos) ops) = (.ok r, t)) :
    r = t.1.w ∧ StickDraw t.1.v r := by
  have hI := WeightClass.run_keeps (C := Geo.cls) (Geo.stable hω) (fun _ x => Geo.tail_keeps x) log ops
    (Geo.init a b p0, pos) ⟨Unit01.nil, SubProb.nil, hp⟩
  have hS := WeightClass.run_keeps (C := Geo.cls) (Geo.sinv_stable (ω := ω)) (fun _ x => (Geo.tail_sinv x).keeps) log ops
    (Geo.init a b p0, pos) ⟨nofun, SInv.nil _⟩
  obtain ⟨hr, _, _, _, _, hc⟩ := wp_of_ok h (Geo.complete_post _ _ hS.1)
  refine ⟨hr, hr ▸ hc.stickDraw hS.2 rfl hn ?_⟩
  exact (Keeps.ok (Geo.complete_keeps _).keeps h hI).1
end

/-! Non-vacuity: successful calls with several sticks exist for each class. -/

example : (DP.random .none demo (DP.cls.run id (demo : Oracle ℚ) (DP.init 1, 0) [.fit [0, 2, 2]])).1
    = .ok [1/2, 1/6, 1/12] := by decide +kernel
example : (PY.complete (.int 3) demo (PY.cls.run id (demo : Oracle ℚ) (⟨1/2, 1, [], [], []⟩, 0) [.random (.int 1)])).1
    = .ok [1/2, 1/6, 1/12] := by decide +kernel
example : (BBin.random .none demo (BBin.cls.run id (demo : Oracle ℚ) (BBin.init 3 1, 0) [.fit [1]])).1.toOption.isSome := by
  decide +kernel
example : (BBer.random (.int 2) demo (BBer.cls.run id (demo : Oracle ℚ) (BBer.init (1/2) 1, 0) [])).1
    = .ok [1/4, 3/16] := by decide +kernel
example : (BID.random ⟨id, id⟩ .none demo ((BID.cls ⟨id, id⟩).run id (demo : Oracle ℚ) (BID.init 1 1, 0)
    [.fit [1, 0]])).1.toOption.isSome := by decide +kernel
example : (BIB.random .none demo (BIB.cls.run id (demo : Oracle ℚ)
    (⟨1/2, 1, 1, 1, 0, .geometric, [], [], []⟩, 0) [.fit [1, 0]])).1.toOption.isSome := by decide +kernel
example : (Geo.random .none demo ((⟨1, 1, 1/2, [], [], [0, 2]⟩, 0) : Geo ℚ × ℕ)).1 = .ok [1/2, 1/4, 1/8] := by
  decide +kernel

end Verif
