import Verif.Lemmas.Sim
import Verif.Lemmas.Demo
import Verif.Lemmas.Reach

/-!
# C13: nested models agree at their boundary parameters

`PitmanYorProcess(pyd=0, alpha)` and `BetaInBeta(x=0, alpha)` are, call by call, the `DirichletProcess(alpha)`: under any common
history of calls with ordinary arguments (non-negative labels; sizes of `random` absent or ints `≥ 1`; everything else arbitrary) and
the same generator they hold the same weights and labels, are at the same stream position, and any further such `random` or any
`complete` and `tail` call gives the same result, value or exception.
-/

set_option linter.unusedSectionVars false

namespace Verif
open Spec
variable {K : Type} [Field K] [LinearOrder K] [IsStrictOrderedRing K]

/-- What a user can see of a weight object: its weights, its labels and the generator. -/
def SameView {C C' : WeightCore K} (s : C.State × ℕ) (t : C'.State × ℕ) : Prop :=
  C.getW s.1 = C'.getW t.1 ∧ C.getD s.1 = C'.getD t.1 ∧ s.2 = t.2

/-- The two classes, started in the given states, cannot be told apart by ordinary calls. -/
def Indistinguishable (C C' : WeightCore K) (ω : Oracle K) (s : C.State × ℕ) (t : C'.State × ℕ) : Prop :=
  ∀ (log : K → K) (ops : List (WOp K)), (∀ op ∈ ops, op.ordinary) →
    let s' := C.inheritTail.run log ω s ops
    let t' := C'.inheritTail.run log ω t ops
    SameView s' t' ∧ (∀ n, (C.complete n ω s').1 = (C'.complete n ω t').1) ∧
      (C.random .none ω s').1 = (C'.random .none ω t').1 ∧
      (∀ n : ℤ, 1 ≤ n → (C.random (.int n) ω s').1 = (C'.random (.int n) ω t').1) ∧
      (∀ fuel x, (BaseWeight.tail C fuel x ω s').1 = (BaseWeight.tail C' fuel x ω t').1) ∧
      (∀ d, (BaseWeight.assignationLogLikelihood C log d ω s').1 = (BaseWeight.assignationLogLikelihood C' log d ω t').1)

theorem WeightCore.Sim.indistinguishable {C C' : WeightCore K} {ω : Oracle K} {R : C.State → C'.State → Prop}
    (h : C.Sim C' ω R) {s : C.State × ℕ} {t : C'.State × ℕ} (h0 : R s.1 t.1) (hp : s.2 = t.2) :
    Indistinguishable C C' ω s t := by
  intro log ops ho
  have hP := h.run log ops ho (s := s) (t := t) ⟨h0, hp⟩
  exact ⟨⟨h.w _ _ hP.1, h.d _ _ hP.1, hP.2⟩, fun n => (Pair.of_rel (h.complete n) hP).2, (Pair.of_rel h.randomNone hP).2,
    fun n hn => (Pair.of_rel (h.random n hn) hP).2, fun f x => (Pair.of_rel (h.tail x f) hP).2,
    fun d => (Pair.of_rel (h.assignLL log d) hP).2⟩

theorem C13_pitmanYor {alpha : K} (ha : 0 < alpha) {s0 : PY K} (h0 : PY.init 0 alpha = .ok s0) (ω : Oracle K) (pos : ℕ) :
    Indistinguishable (DP.core : WeightCore K) PY.core ω (DP.init alpha, pos) (s0, pos) :=
  (PY.dpSim (ω := ω)).indistinguishable (by
    rw [(PY.init_eq h0).1]
    exact ⟨rfl, ha, rfl, nofun⟩) rfl

/-- For `BetaInBeta(x=0)` with any `a`, `b`, `p`, `p_method` the constructor accepts, and any `alpha`. -/
theorem C13_betaInBeta {alpha a b p : K} {m : PMethod} {s0 : BIB K} (h0 : BIB.init 0 alpha a b p m = .ok s0) (ω : Oracle K)
    (pos : ℕ) : Indistinguishable (DP.core : WeightCore K) BIB.core ω (DP.init alpha, pos) (s0, pos) :=
  (BIB.dpSim (ω := ω) a b p m).indistinguishable (by
    rw [(BIB.init_eq h0).1]
    exact ⟨rfl, nofun⟩) rfl

/-- The restriction on the sizes of `random` is needed: `random(0)` on an object that already has weights leaves them in place
for the Dirichlet process and clears them for the Pitman-Yor process. -/
theorem C13_size_zero_differs : ∃ ω : Oracle ℚ, ω.Legal ∧
    (DP.core.inheritTail.run id ω (DP.init 1, 0) [.random (.int 1), .random (.int 0)]).1.w = [1/2] ∧
    (PY.core.inheritTail.run id ω (⟨0, 1, [], [], []⟩, 0) [.random (.int 1), .random (.int 0)]).1.w = [] :=
  ⟨demo, demo_legal, by decide +kernel, by decide +kernel⟩

/-! Non-vacuity: an ordinary history and the weights all three models end with. -/
example : ∀ op ∈ [WOp.fit [0, 2], .random .none, .complete (.int 4), .tail 3 (1/2 : ℚ), .reset, .random (.int 2)], op.ordinary := by
  intro op hop
  fin_cases hop <;> simp [WOp.ordinary, NonNegLabels]
example : (DP.cls.run id (meanO : Oracle ℚ) (DP.init 2, 0) [.fit [0, 2], .random .none, .complete (.int 4)]).1.w = [2/5, 3/20, 9/40, 3/40]
    ∧ (PY.cls.run id (meanO : Oracle ℚ) (⟨0, 2, [], [], []⟩, 0) [.fit [0, 2], .random .none, .complete (.int 4)]).1.w = [2/5, 3/20, 9/40, 3/40]
    ∧ (BIB.cls.run id (meanO : Oracle ℚ) (⟨0, 2, 1, 1, 0, .static, [], [], []⟩, 0)
        [.fit [0, 2], .random .none, .complete (.int 4)]).1.w = [2/5, 3/20, 9/40, 3/40] := by decide +kernel

end Verif
