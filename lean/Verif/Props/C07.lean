import Verif.Lemmas.PermRel
import Verif.Lemmas.Demo

/-!
# C07: the order of the fitted labels is irrelevant

For every class, every object state, every size argument and every generator: after `fit(d)` and after `fit(d')`, `d'` a
reordering of `d`, `random(size)` has the same outcome (weights or exception), shows the same `get_weights()` and leaves
the generator at the same position.  No assumption on labels, hyper-parameters or generator.
-/

set_option linter.unusedSectionVars false

namespace Verif
variable {K : Type} [Field K] [LinearOrder K]

/-- `random(size)` on the two objects: same outcome, same weights shown afterwards, same use of the generator. -/
structure SameDraw (C : WeightClass K) (ω : Oracle K) (size : PySize) (s t : C.State × ℕ) : Prop where
  outcome : (C.random size ω s).1 = (C.random size ω t).1
  weights : C.getW (C.random size ω s).2.1 = C.getW (C.random size ω t).2.1
  stream : (C.random size ω s).2.2 = (C.random size ω t).2.2

/-- Fitting `d` or `d'` to the same object makes no difference for a draw. -/
def OrderIrrelevant (C : WeightClass K) (ω : Oracle K) (d d' : List ℤ) : Prop :=
  ∀ (size : PySize) (s : C.State × ℕ),
    SameDraw C ω size (BaseWeight.fit C.toWeightCore d ω s).2 (BaseWeight.fit C.toWeightCore d' ω s).2

theorem orderIrrelevant_of {C : WeightClass K} {ω : Oracle K} {R : C.State → C.State → Prop} {d d' : List ℤ}
    (h : ∀ n, RelK ω R (C.random n) (C.random n)) (hR : ∀ s, R (C.setD d s) (C.setD d' s))
    (hW : ∀ s t, R s t → C.getW s = C.getW t) : OrderIrrelevant C ω d d' := by
  intro size s
  have := (h size).result s.2 (hR s.1)
  refine ⟨this.1, ?_, this.2.1⟩
  cases hr : (C.random size ω (C.setD d s.1, s.2)).1 with
  | ok r => exact hW _ _ (this.2.2.1 r hr)
  | error e => exact hW _ _ (this.2.2.2 e hr)

variable {ω : Oracle K} {d d' : List ℤ} (hp : d.Perm d')
include hp

theorem C07_dirichletProcess : OrderIrrelevant DP.cls ω d d' :=
  orderIrrelevant_of (R := DP.PermOf) DP.random_perm (fun _ => ⟨d', hp, rfl⟩) (by rintro s _ ⟨_, _, rfl⟩; rfl)
theorem C07_pitmanYor : OrderIrrelevant PY.cls ω d d' :=
  orderIrrelevant_of (R := PY.PermOf) PY.random_perm (fun _ => ⟨d', hp, rfl⟩) (by rintro s _ ⟨_, _, rfl⟩; rfl)
theorem C07_betaInBeta : OrderIrrelevant BIB.cls ω d d' :=
  orderIrrelevant_of (R := BIB.PermOf) BIB.random_perm (fun _ => ⟨d', hp, rfl⟩) (by rintro s _ ⟨_, _, rfl⟩; rfl)
theorem C07_betaBinomial : OrderIrrelevant BBin.cls ω d d' :=
  orderIrrelevant_of (R := BBin.PermOf) BBin.random_perm (fun _ => ⟨d', hp, rfl⟩) (by rintro s _ ⟨_, _, rfl⟩; rfl)
theorem C07_betaBernoulli : OrderIrrelevant BBer.cls ω d d' :=
  orderIrrelevant_of (R := BBer.PermOf) BBer.random_perm (fun _ => ⟨d', hp, rfl⟩) (by rintro s _ ⟨_, _, rfl⟩; rfl)
theorem C07_betaInDirichlet (F : SpecFun K) : OrderIrrelevant (BID.cls F) ω d d' :=
  orderIrrelevant_of (R := BID.PermOf) (BID.random_perm F) (fun _ => ⟨d', hp, rfl⟩) (by rintro s _ ⟨_, _, rfl⟩; rfl)
theorem C07_dirichletDistribution : OrderIrrelevant DirDist.cls ω d d' :=
  orderIrrelevant_of (R := DirDist.PermOf) DirDist.random_perm (fun _ => ⟨d', hp, rfl⟩) (by rintro s _ ⟨_, _, rfl⟩; rfl)
theorem C07_equalWeighting : OrderIrrelevant Equal.cls ω d d' :=
  orderIrrelevant_of (R := Equal.PermOf) Equal.random_perm (fun _ => ⟨d', hp, rfl⟩) (by rintro s _ ⟨_, _, rfl⟩; rfl)
theorem C07_frequencyWeighting : OrderIrrelevant Freq.cls ω d d' :=
  orderIrrelevant_of (R := Freq.PermOf) Freq.random_perm (fun _ => ⟨d', hp, rfl⟩) (by rintro s _ ⟨_, _, rfl⟩; rfl)
omit hp in
theorem C07_geometric {ω : Oracle ℝ} {d d' : List ℤ} (hp : d.Perm d') : OrderIrrelevant Geo.cls ω d d' :=
  orderIrrelevant_of (R := Geo.PermOf) Geo.random_perm (fun _ => ⟨d', hp, rfl⟩) (by rintro s _ ⟨_, _, rfl⟩; rfl)
omit hp

/-! Non-vacuity: a reordered fit and the common non-trivial draw. -/
example : ([2, 0, 2] : List ℤ).Perm [0, 2, 2] := by decide
example : (BBin.random .none demo (BBin.cls.run id (demo : Oracle ℚ) (BBin.init 1 1, 0) [.fit [2, 0, 2]])).1
    = .ok [1/10, 9/110, 3/44] ∧
    (BBin.random .none demo (BBin.cls.run id (demo : Oracle ℚ) (BBin.init 1 1, 0) [.fit [0, 2, 2]])).1
    = .ok [1/10, 9/110, 3/44] := by decide +kernel

end Verif
