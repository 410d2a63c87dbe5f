import Verif.Lemmas.Fresh
import Verif.Lemmas.Hyper
import Verif.Lemmas.Sim
import Verif.Lemmas.Demo
import Verif.Props.C19

/-!
# C30: a draw depends only on the fitted labels, not on the past

`SameAsFresh C ω size s s0`: `random(size)` on the object `s` and on the new object `s0` after `fit` of the same labels, with the generator in the
same state, has the same outcome, uses the generator alike and, when it returns, leaves equal objects (so everything that follows is equal, too).

Proved after every history: `PitmanYorProcess`, `BetaBinomial`, the three finite classes (all sizes, all labels), `DirichletProcess` (size `None`
or at least 1), `GeometricProcess` (same, labels non-negative), `BetaBernoulli` (histories without `random(0)`), `BetaInBeta` with labels when
`p` is redrawn or never used, `BetaInDirichlet` without labels.  `C30_reset` is the case of a `reset()` object.

The claim is false for `BetaInBeta` after `reset` (left-over `p`), `BetaInDirichlet` with labels (left-over `_d_base`), `BetaBernoulli` after
`random(0)` and `DirichletProcess.random(0)` (left-over weights): `C30_*_refuted`.
-/

set_option linter.unusedSectionVars false

namespace Verif
open Spec
variable {K : Type} [Field K] [LinearOrder K]

/-- See above. -/
structure SameAsFresh (C : WeightCore K) (ω : Oracle K) (size : PySize) (s : C.State × ℕ) (s0 : C.State) : Prop where
  outcome : (C.random size ω s).1 = (C.random size ω (C.setD (C.getD s.1) s0, s.2)).1
  stream : (C.random size ω s).2.2 = (C.random size ω (C.setD (C.getD s.1) s0, s.2)).2.2
  object : ∀ r, (C.random size ω s).1 = .ok r → (C.random size ω s).2.1 = (C.random size ω (C.setD (C.getD s.1) s0, s.2)).2.1

theorem sameAsFresh_of {C : WeightCore K} {ω : Oracle K} {size : PySize} {R : C.State → C.State → Prop} {s : C.State × ℕ} {s0 : C.State}
    (h : Rel ω R Eq NoInfo (C.random size) (C.random size)) (hR : R s.1 (C.setD (C.getD s.1) s0)) : SameAsFresh C ω size s s0 := by
  have := h.result s.2 hR
  exact ⟨this.1, this.2.1, this.2.2.1⟩

section
variable (ω : Oracle K) (log : K → K) (pos : ℕ) (ops : List (WOp K))

theorem C30_dirichletProcess_partial (alpha : K) {size : PySize} (hs : ReqPos size ∨ size = .other) :
    SameAsFresh DP.core ω size (DP.cls.run log ω (DP.init alpha, pos) ops) (DP.init alpha) :=
  sameAsFresh_of (R := DP.Same) (DP.random_fresh hs)
    ⟨WeightCore.run_keeps (DP.hyper_stable (fun h => h = alpha)) log ops (DP.init alpha, pos) rfl, rfl⟩

theorem C30_pitmanYor {pyd alpha : K} {s0 : PY K} (h0 : PY.init pyd alpha = .ok s0) (size : PySize) :
    SameAsFresh PY.core ω size (PY.cls.run log ω (s0, pos) ops) s0 := by
  have h := WeightCore.run_keeps (PY.hyper_stable (ω := ω) (fun h => h = s0.hyper)) log ops (s0, pos) rfl
  exact sameAsFresh_of (R := PY.Same) (PY.random_fresh size) ⟨congrArg Prod.fst h, congrArg Prod.snd h, rfl⟩

theorem C30_betaBinomial (n : ℤ) (alpha : K) (size : PySize) :
    SameAsFresh BBin.core ω size (BBin.cls.run log ω (BBin.init n alpha, pos) ops) (BBin.init n alpha) := by
  have h := WeightCore.run_keeps (BBin.hyper_stable (ω := ω) (fun h => h = (n, alpha))) log ops (BBin.init n alpha, pos) rfl
  exact sameAsFresh_of (R := BBin.Same) (BBin.random_fresh size) ⟨congrArg Prod.fst h, congrArg Prod.snd h, rfl⟩

theorem C30_dirichletDistribution (s0 : DirDist K) (size : PySize) :
    SameAsFresh DirDist.core ω size (DirDist.cls.run log ω (s0, pos) ops) s0 := by
  have h := WeightCore.run_keeps (DirDist.hyper_stable (ω := ω) (fun h => h = s0.hyper)) log ops (s0, pos) rfl
  exact sameAsFresh_of (R := DirDist.Same) (DirDist.random_fresh size) ⟨congrArg Prod.fst h, congrArg Prod.snd h, rfl⟩

theorem C30_equalWeighting (n : ℤ) (size : PySize) :
    SameAsFresh Equal.core ω size (Equal.cls.run log ω (Equal.init n, pos) ops) (Equal.init n) :=
  sameAsFresh_of (R := Equal.Same) (Equal.random_fresh size)
    ⟨WeightCore.run_keeps (Equal.hyper_stable (fun h => h = n)) log ops (Equal.init n, pos) rfl, rfl⟩

theorem C30_frequencyWeighting (n : ℤ) (size : PySize) :
    SameAsFresh Freq.core ω size (Freq.cls.run log ω (Freq.init n, pos) ops) (Freq.init n) :=
  sameAsFresh_of (R := Freq.Same) (Freq.random_fresh size)
    ⟨WeightCore.run_keeps (Freq.hyper_stable (fun h => h = n)) log ops (Freq.init n, pos) rfl, rfl⟩
end

theorem C30_geometric_partial (ω : Oracle ℝ) (log : ℝ → ℝ) (pos : ℕ) (ops : List (WOp ℝ)) (a b p0 : ℝ) {size : PySize}
    (hs : ReqPos size ∨ size = .other) (hd : NonNegLabels (Geo.cls.run log ω (Geo.init a b p0, pos) ops).1.d) :
    SameAsFresh Geo.core ω size (Geo.cls.run log ω (Geo.init a b p0, pos) ops) (Geo.init a b p0) := by
  have h : (Geo.cls.run log ω (Geo.init a b p0, pos) ops).1.hyper = (a, b) :=
    WeightClass.run_keeps (C := Geo.cls) (I := fun s : Geo ℝ => s.hyper = (a, b)) (Geo.hyper_stable (fun h => h = (a, b)))
      (fun _ x => (Geo.tail_hyper (fun h => h = (a, b)) x).keeps) log ops (Geo.init a b p0, pos) rfl
  exact sameAsFresh_of (R := fun s t : Geo ℝ => Geo.Same s t ∧ s.d = _) (Geo.random_fresh hs hd) ⟨⟨congrArg Prod.fst h, congrArg Prod.snd h, rfl⟩, rfl⟩

section
variable [IsStrictOrderedRing K] (ω : Oracle K) (log : K → K) (pos : ℕ) (ops : List (WOp K))

/-- Missing: histories with `random(0)`. -/
theorem C30_betaBernoulli_partial (p alpha : K) (size : PySize) (hops : ∀ op ∈ ops, op.notRandomZero) :
    SameAsFresh BBer.core ω size (BBer.cls.run log ω (BBer.init p alpha, pos) ops) (BBer.init p alpha) := by
  have h := WeightCore.run_keeps (BBer.hyper_stable (ω := ω) (fun h => h = (p, alpha))) log ops (BBer.init p alpha, pos) rfl
  exact sameAsFresh_of (R := fun s t : BBer K => BBer.Same s t ∧ s.bernoullis ≠ [] ∧ t.bernoullis ≠ []) (BBer.random_fresh size)
    ⟨⟨congrArg Prod.fst h, congrArg Prod.snd h, rfl⟩, BBer.reach_bern log pos p alpha ops hops, by simp [BBer.core, BBer.init]⟩

namespace BIB
/-- With `x = 0` the parameter `p` is never drawn. -/
theorem p_stable (p0 : K) : (core : WeightCore K).Stable ω (fun s : BIB K => s.x = 0 → s.p = p0) := by
  have hP : KeepsR ω (fun s : BIB K => s.x = 0 → s.p = p0) randomP (fun _ => True) := by
    refine KeepsR.of_keeps fun s hs hx => ?_
    have hx' : s.1.x = 0 := by
      have := (randomP_fixed (ω := ω) (fun f => f.1 = s.1.x)).keeps s rfl
      exact this.symm.trans hx
    rw [BIB.randomP_zero s hx']
    exact hs hx'
  have hC : ∀ n, KeepsR ω (fun s : BIB K => s.x = 0 → s.p = p0) (complete n) (fun _ => True) := by
    intro n
    unfold complete newSticks; repeat' first | use_h hP | hyp_step
  refine ⟨fun _ _ h => h, fun n => KeepsR.keeps (R := fun _ => True) ?_, fun n => KeepsR.keeps (R := fun _ => True) ?_⟩
  · change KeepsR ω (fun s : BIB K => s.x = 0 → s.p = p0) (random n) (fun _ => True)
    unfold random randomFitted fittedSticks; repeat' first | use_h hC | use_h hP | hyp_step
  · exact KeepsR.bind (R' := fun _ => True) (hC n) fun _ _ => KeepsR.pure trivial
end BIB

/-- Missing: objects without labels and `0 < x < 1` with the other methods for `p`. -/
theorem C30_betaInBeta_partial {x alpha a b p : K} {m : PMethod} {s0 : BIB K} (h0 : BIB.init x alpha a b p m = .ok s0) (size : PySize)
    (hx : 0 ≤ x) (hm : x = 0 ∨ x = 1 ∨ m = .independent ∨ m = .geometric) (hd : (BIB.cls.run log ω (s0, pos) ops).1.d ≠ []) :
    SameAsFresh BIB.core ω size (BIB.cls.run log ω (s0, pos) ops) s0 := by
  have hi : s0.hyper = (x, alpha, a, b, m) ∧ s0.p = p := by
    unfold BIB.init at h0; split at h0
    · cases h0
    · cases h0; exact ⟨rfl, rfl⟩
  have h := WeightCore.run_keeps (BIB.hyper_stable (ω := ω) (fun h => h = s0.hyper)) log ops (s0, pos) rfl
  have hp := WeightCore.run_keeps (BIB.p_stable ω s0.p) log ops (s0, pos) (fun _ => rfl)
  have e1 := congrArg (·.1) h
  have e2 := congrArg (·.2.1) h
  have e3 := congrArg (·.2.2.1) h
  have e4 := congrArg (·.2.2.2.1) h
  have e5 := congrArg (·.2.2.2.2) h
  have f1 := congrArg (·.1) hi.1
  have f5 := congrArg (·.2.2.2.2) hi.1
  dsimp only [BIB.hyper] at e1 e2 e3 e4 e5 f1 f5
  refine sameAsFresh_of (R := fun s t : BIB K => BIB.Same s t ∧ s.d.length ≠ 0 ∧ 0 ≤ s.x ∧ (s.x = 0 ∨ BIB.Redraws s)) (BIB.random_fresh size)
    ⟨⟨e1, e2, e3, e4, e5, rfl, hp⟩, by simpa using hd, (e1.trans f1).symm ▸ hx, ?_⟩
  rcases hm with hm | hm | hm | hm
  · exact .inl (e1.trans (f1.trans hm))
  · exact .inr (.inl (e1.trans (f1.trans hm)))
  · exact .inr (.inr (.inl (e5.trans (f5.trans hm))))
  · exact .inr (.inr (.inr (e5.trans (f5.trans hm))))

/-- Missing: objects with labels, for which the claim is false; the left-over `_d_base` is not compared. -/
theorem C30_betaInDirichlet_partial (F : SpecFun K) (alpha a : K) (size : PySize) (hd : ((BID.cls F).run log ω (BID.init alpha a, pos) ops).1.d = []) :
    let s := (BID.cls F).run log ω (BID.init alpha a, pos) ops
    let f : BID K × ℕ := (BID.init alpha a, s.2)
    (BID.random F size ω s).1 = (BID.random F size ω f).1 ∧ (BID.random F size ω s).2.2 = (BID.random F size ω f).2.2 ∧
    ∀ r, (BID.random F size ω s).1 = .ok r → BID.SameW (BID.random F size ω s).2.1 (BID.random F size ω f).2.1 := by
  intro s f
  have h := WeightCore.run_keeps (BID.hyper_stable (ω := ω) F (fun h => h = (alpha, a))) log ops (BID.init alpha a, pos) rfl
  have := (BID.random_fresh F size).result (ω := ω) (s := s.1) (t := BID.init alpha a) s.2
    ⟨⟨congrArg Prod.fst h, congrArg Prod.snd h, hd⟩, hd⟩
  exact ⟨this.1, this.2.1, this.2.2.1⟩

/-- `reset()` restores prior draws: the case without labels, spelled out for the Dirichlet process. -/
theorem C30_reset (alpha : K) {n : ℤ} (hn : 1 ≤ n) :
    let s := DP.cls.run log ω (DP.init alpha, pos) (ops ++ [.reset])
    (DP.random (.int n) ω s).1 = (DP.random (.int n) ω (DP.init alpha, s.2)).1 := by
  intro s
  have h := (C30_dirichletProcess_partial ω log pos (ops ++ [.reset]) alpha (size := .int n) (.inl (.inr ⟨n, rfl, hn⟩))).outcome
  have hd : s.1.d = [] := by
    show (DP.cls.run log ω (DP.init alpha, pos) (ops ++ [.reset])).1.d = []
    unfold WeightClass.run
    rw [List.foldl_append]; rfl
  have e : DP.core.setD (DP.core.getD s.1) (DP.init alpha) = DP.init alpha := by
    show ({ DP.init alpha with d := s.1.d } : DP K) = _; rw [hd]; rfl
  rw [e] at h
  exact h
end

/-! ### Where it fails -/

/-- `BetaInBeta(x=1)`: after `fit`, `random`, `reset`, a draw uses the left-over `p`; a new object has `p = 0` and weight 0. -/
theorem C30_betaInBeta_refuted : ∃ (ω : Oracle ℚ) (s0 : BIB ℚ), ω.Legal ∧ BIB.init 1 1 1 1 0 .static = .ok s0 ∧
    let s := BIB.cls.run id ω (s0, 0) [.fit [0], .random .none, .reset]
    s.1.d = [] ∧ (BIB.random (.int 1) ω s).1 = .ok [1/3] ∧ (BIB.random (.int 1) ω (s0, s.2)).1 = .ok [0] :=
  ⟨demo, ⟨1, 1, 1, 1, 0, .static, [], [], []⟩, demo_legal, rfl, by decide +kernel⟩

/-- `BetaInBeta`, `0 < x < 1`, `p_method = "static"`, fitted: `complete` before the fit has redrawn `p`. -/
theorem C30_betaInBeta_static_refuted : ∃ (ω : Oracle ℚ) (s0 : BIB ℚ), ω.Legal ∧ BIB.init (1/2) 1 1 1 1 .static = .ok s0 ∧
    (BIB.cls.run id ω (s0, 0) [.random (.int 1), .complete (.int 1), .fit [0]]).1.p ≠ s0.p :=
  ⟨demo, ⟨1/2, 1, 1, 1, 1, .static, [], [], []⟩, demo_legal, rfl, by decide +kernel⟩

/-- `BetaBernoulli`: after `random(0)` the next draw raises, on a new object it does not. -/
theorem C30_betaBernoulli_refuted : ∃ ω : Oracle ℚ, ω.Legal ∧
    let s := BBer.cls.run id ω (BBer.init (1/2) 1, 0) [.random (.int 0)]
    s.1.d = [] ∧ (BBer.random (.int 1) ω s).1 = .error .indexError ∧ (BBer.random (.int 1) ω (BBer.init (1/2) 1, s.2)).1 = .ok [1/3] :=
  ⟨demo, demo_legal, by decide +kernel⟩

/-- `DirichletProcess.random(0)` without labels returns the weights of the previous draw. -/
theorem C30_dirichletProcess_refuted : ∃ ω : Oracle ℚ, ω.Legal ∧
    let s := DP.cls.run id ω (DP.init 1, 0) [.random (.int 1)]
    s.1.d = [] ∧ (DP.random (.int 0) ω s).1 = .ok [1/2] ∧ (DP.random (.int 0) ω (DP.init 1, s.2)).1 = .ok [] :=
  ⟨demo, demo_legal, by decide +kernel⟩

/-- A generator that prefers the last possible choice. -/
def lastO : Oracle ℚ := { demo with choice := fun _ p => if 0 < (p.getLast?).getD 0 then p.length - 1 else p.findIdx (fun x => decide (0 < x)) }

theorem lastO_legal : lastO.Legal :=
  { (demo_legal : (demo : Oracle ℚ).Legal) with
    choice_pos := by
      intro i p h0 hs
      have hd := (demo_legal : (demo : Oracle ℚ).Legal).choice_pos i p h0 hs
      by_cases h : 0 < (p.getLast?).getD 0
      · have hne : p ≠ [] := by rintro rfl; simp at h
        rw [List.getLast?_eq_some_getLast hne] at h
        have e : lastO.choice i p = p.length - 1 := by
          show (if 0 < (p.getLast?).getD 0 then _ else _) = _
          rw [List.getLast?_eq_some_getLast hne, if_pos h]
        rw [e, ← List.getLast?_eq_getElem?, List.getLast?_eq_some_getLast hne]
        exact ⟨_, rfl, h⟩
      · have e : lastO.choice i p = (demo : Oracle ℚ).choice i p := by
          show (if 0 < (p.getLast?).getD 0 then _ else _) = _
          rw [if_neg h]; rfl
        rw [e]; exact hd }

/-- `BetaInDirichlet` with labels: the partition of an earlier draw is reused, so even the use of the generator differs. -/
theorem C30_betaInDirichlet_refuted : ∃ (ω : Oracle ℚ) (F : SpecFun ℚ), ω.Legal ∧
    let s := (BID.cls F).run id ω (BID.init 1 1, 0) [.random (.int 2), .fit [0, 1]]
    let f : BID ℚ × ℕ := ({ BID.init 1 1 with d := [0, 1] }, s.2)
    (BID.random F .none ω s).2.2 ≠ (BID.random F .none ω f).2.2 :=
  ⟨lastO, ⟨id, id⟩, lastO_legal, by decide +kernel⟩

/-! ### Non-vacuity -/
example : BIB.init (1/2 : ℚ) 1 1 1 0 .geometric = .ok ⟨1/2, 1, 1, 1, 0, .geometric, [], [], []⟩ ∧
    (BIB.cls.run id (demo : Oracle ℚ) (⟨1/2, 1, 1, 1, 0, .geometric, [], [], []⟩, 0) [.random (.int 2), .fit [0, 2]]).1.d ≠ [] := by
  constructor
  · rfl
  · decide +kernel
example : (DP.random (.int 1) demo (DP.cls.run id (demo : Oracle ℚ) (DP.init 1, 0) [.random (.int 3), .fit [0, 2]])).1 = .ok [1/5] := by decide +kernel

end Verif
