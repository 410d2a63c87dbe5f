import Verif.Lemmas.BBerOk

/-! # What holds in every reachable state of each class -/

set_option linter.unusedSectionVars false
set_option linter.unusedSimpArgs false

namespace Verif
open Spec
section
variable {K : Type} [Field K] [LinearOrder K] [IsStrictOrderedRing K] {ω : Oracle K}
variable (log : K → K) (pos : ℕ) (ops : List (WOp K))

theorem DP.reach_alpha (alpha : K) : (DP.cls.run log ω (DP.init alpha, pos) ops).1.alpha = alpha :=
  WeightCore.run_keeps (DP.hyper_stable (ω := ω) (· = alpha)) log ops _ rfl

theorem DP.reach_sinv (alpha : K) : SInv (DP.cls.run log ω (DP.init alpha, pos) ops).1.v
    (DP.cls.run log ω (DP.init alpha, pos) ops).1.w :=
  WeightCore.run_keeps (DP.sinv_stable (ω := ω)) log ops (DP.init alpha, pos) (SInv.nil _)

theorem PY.init_eq {pyd alpha : K} {s0 : PY K} (h : PY.init pyd alpha = .ok s0) :
    s0 = ⟨pyd, alpha, [], [], []⟩ ∧ -pyd < alpha := by
  unfold PY.init at h
  split at h <;> cases h
  exact ⟨rfl, ‹_›⟩

theorem PY.reach_hyper {pyd alpha : K} {s0 : PY K} (h : PY.init pyd alpha = .ok s0) :
    (PY.cls.run log ω (s0, pos) ops).1.pyd = pyd ∧ (PY.cls.run log ω (s0, pos) ops).1.alpha = alpha := by
  have := WeightCore.run_keeps (PY.hyper_stable (ω := ω) (· = (pyd, alpha))) log ops (s0, pos) (by
    rw [(PY.init_eq h).1]; rfl)
  exact ⟨congrArg Prod.fst this, congrArg Prod.snd this⟩

theorem PY.reach_sinv {pyd alpha : K} {s0 : PY K} (h : PY.init pyd alpha = .ok s0) :
    (PY.cls.run log ω (s0, pos) ops).1.w = stickWeights (PY.cls.run log ω (s0, pos) ops).1.v :=
  WeightCore.run_keeps (PY.sinv_stable (ω := ω)) log ops (s0, pos) (by rw [(PY.init_eq h).1]; rfl)

theorem BIB.init_eq {x alpha a b p : K} {m : PMethod} {s0 : BIB K} (h : BIB.init x alpha a b p m = .ok s0) :
    s0 = ⟨x, alpha, a, b, p, m, [], [], []⟩ ∧ m ≠ .unknown := by
  unfold BIB.init at h
  split at h <;> cases h
  exact ⟨rfl, ‹_›⟩

/-- Every reachable state of a `BetaInBeta` with usable parameters and non-negative labels is valid. -/
theorem BIB.reach_valid (hω : ω.Legal) {x alpha a b p : K} {m : PMethod} {s0 : BIB K}
    (h : BIB.init x alpha a b p m = .ok s0) (hx : 0 ≤ x ∧ x ≤ 1) (ha : 0 < alpha) (hab : 0 < a ∧ 0 < b)
    (hp : 0 ≤ p ∧ p ≤ 1) (hm : m ≠ .rejectionSampling ∨ x = 0 ∨ x = 1) (hd : NonNegLabels (BIB.cls.run log ω (s0, pos) ops).1.d) :
    BIB.Valid (BIB.cls.run log ω (s0, pos) ops).1 := by
  have e := BIB.init_eq h
  have h1 := WeightCore.run_keeps (BIB.hyper_stable (ω := ω) (· = (x, alpha, a, b, m))) log ops (s0, pos) (by
    rw [e.1]; rfl)
  have h2 := WeightCore.run_keeps (BIB.stable hω) log ops (s0, pos) (by
    rw [e.1]; exact ⟨Unit01.nil, SubProb.nil, hp⟩)
  change ((BIB.cls.run log ω (s0, pos) ops).1.x, (BIB.cls.run log ω (s0, pos) ops).1.alpha,
    (BIB.cls.run log ω (s0, pos) ops).1.a, (BIB.cls.run log ω (s0, pos) ops).1.b,
    (BIB.cls.run log ω (s0, pos) ops).1.pMethod) = _ at h1
  simp only [Prod.mk.injEq] at h1
  obtain ⟨e1, e2, e3, e4, e5⟩ := h1
  exact ⟨by rw [e1]; exact hx.1, by rw [e1]; exact hx.2, by rw [e2]; exact ha, by rw [e3]; exact hab.1,
    by rw [e4]; exact hab.2, h2.2.2.1, h2.2.2.2, by rw [e5, e1]; exact ⟨hm, e.2⟩, hd⟩

theorem BIB.reach_sinv {x alpha a b p : K} {m : PMethod} {s0 : BIB K} (h : BIB.init x alpha a b p m = .ok s0) :
    SInv (BIB.cls.run log ω (s0, pos) ops).1.v (BIB.cls.run log ω (s0, pos) ops).1.w :=
  WeightCore.run_keeps (BIB.sinv_stable (ω := ω)) log ops (s0, pos) (by rw [(BIB.init_eq h).1]; exact SInv.nil _)

theorem BBin.reach (hω : ω.Legal) {n : ℤ} {alpha : K} (hn : 0 ≤ n) (ha : 0 < alpha) :
    BBin.BInv (BBin.cls.run log ω (BBin.init n alpha, pos) ops).1 :=
  WeightCore.run_keeps (BBin.binv_stable hω) log ops (BBin.init n alpha, pos) ⟨hn, ha, Unit01.nil, .inl rfl⟩

theorem BBer.reach_hyper (p alpha : K) :
    (BBer.cls.run log ω (BBer.init p alpha, pos) ops).1.p = p ∧
    (BBer.cls.run log ω (BBer.init p alpha, pos) ops).1.alpha = alpha := by
  have := WeightCore.run_keeps (BBer.hyper_stable (ω := ω) (· = (p, alpha))) log ops (BBer.init p alpha, pos) rfl
  exact ⟨congrArg Prod.fst this, congrArg Prod.snd this⟩

theorem BID.reach_hyper (F : SpecFun K) (alpha a : K) :
    ((BID.cls F).run log ω (BID.init alpha a, pos) ops).1.alpha = alpha ∧
    ((BID.cls F).run log ω (BID.init alpha a, pos) ops).1.a = a := by
  have := WeightCore.run_keeps (BID.hyper_stable (ω := ω) F (· = (alpha, a))) log ops (BID.init alpha a, pos) rfl
  exact ⟨congrArg Prod.fst this, congrArg Prod.snd this⟩

theorem DirDist.reach_alpha (n : ℤ) (alpha : List K) :
    (DirDist.cls.run log ω (DirDist.initList n alpha, pos) ops).1.alpha = alpha := by
  have := WeightCore.run_keeps (DirDist.hyper_stable (ω := ω) (· = (n, alpha))) log ops (DirDist.initList n alpha, pos) rfl
  exact congrArg Prod.snd this

theorem Equal.reach_n (n : ℤ) : (Equal.cls.run log ω (Equal.init n, pos) ops).1.n = n :=
  WeightCore.run_keeps (Equal.hyper_stable (ω := ω) (· = n)) log ops (Equal.init n, pos) rfl

theorem Freq.reach_n (n : ℤ) : (Freq.cls.run log ω (Freq.init n, pos) ops).1.n = n :=
  WeightCore.run_keeps (Freq.hyper_stable (ω := ω) (· = n)) log ops (Freq.init n, pos) rfl
end

section
variable {ω : Oracle ℝ} (log : ℝ → ℝ) (pos : ℕ) (ops : List (WOp ℝ))

theorem Geo.reach_hyper (a b p0 : ℝ) : (Geo.cls.run log ω (Geo.init a b p0, pos) ops).1.a = a ∧
    (Geo.cls.run log ω (Geo.init a b p0, pos) ops).1.b = b := by
  have := WeightClass.run_keeps (C := Geo.cls) (Geo.hyper_stable (ω := ω) (· = (a, b)))
    (fun _ x => (Geo.tail_hyper (ω := ω) (· = (a, b)) x).keeps) log ops (Geo.init a b p0, pos) rfl
  exact ⟨congrArg Prod.fst this, congrArg Prod.snd this⟩

theorem Geo.reach_ginv (a b p0 : ℝ) : Geo.GInv (Geo.cls.run log ω (Geo.init a b p0, pos) ops).1 :=
  WeightClass.run_keeps (C := Geo.cls) (Geo.sinv_stable (ω := ω)) (fun _ x => (Geo.tail_sinv x).keeps) log ops
    (Geo.init a b p0, pos) ⟨nofun, SInv.nil _⟩
end
end Verif
