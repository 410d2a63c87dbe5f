import Verif.Lemmas.Rel
import Verif.Model.DirichletProcess
import Verif.Model.PitmanYor
import Verif.Model.Geometric
import Verif.Model.Finite
import Verif.Model.BetaInBeta
import Verif.Model.BetaBinomial
import Verif.Model.BetaBernoulli
import Verif.Model.BetaInDirichlet

/-! # Two objects that differ only in the order of the fitted labels behave alike -/

set_option linter.unusedSectionVars false
set_option linter.unusedSimpArgs false

namespace Verif
open Spec
variable {K : Type} [Field K] [LinearOrder K] {ω : Oracle K}

/-- `t` is `s` with its labels reordered. -/
def DP.PermOf (s t : DP K) : Prop := ∃ d', s.d.Perm d' ∧ t = { s with d := d' }
@[inherit_doc DP.PermOf] def PY.PermOf (s t : PY K) : Prop := ∃ d', s.d.Perm d' ∧ t = { s with d := d' }
@[inherit_doc DP.PermOf] def Geo.PermOf (s t : Geo K) : Prop := ∃ d', s.d.Perm d' ∧ t = { s with d := d' }
@[inherit_doc DP.PermOf] def BIB.PermOf (s t : BIB K) : Prop := ∃ d', s.d.Perm d' ∧ t = { s with d := d' }
@[inherit_doc DP.PermOf] def BBin.PermOf (s t : BBin K) : Prop := ∃ d', s.d.Perm d' ∧ t = { s with d := d' }
@[inherit_doc DP.PermOf] def BBer.PermOf (s t : BBer K) : Prop := ∃ d', s.d.Perm d' ∧ t = { s with d := d' }
@[inherit_doc DP.PermOf] def BID.PermOf (s t : BID K) : Prop := ∃ d', s.d.Perm d' ∧ t = { s with d := d' }
@[inherit_doc DP.PermOf] def DirDist.PermOf (s t : DirDist K) : Prop := ∃ d', s.d.Perm d' ∧ t = { s with d := d' }
@[inherit_doc DP.PermOf] def Equal.PermOf (s t : Equal K) : Prop := ∃ d', s.d.Perm d' ∧ t = { s with d := d' }
@[inherit_doc DP.PermOf] def Freq.PermOf (s t : Freq K) : Prop := ∃ d', s.d.Perm d' ∧ t = { s with d := d' }

/-- Both runs keep the relation. -/
abbrev RelK {σ τ α : Type} (ω : Oracle K) (R : σ → τ → Prop) (m : M K σ α) (m' : M K τ α) : Prop := Rel ω R R R m m'

theorem RelK.bind {σ τ α γ : Type} {R : σ → τ → Prop} {x : M K σ γ} {x' : M K τ γ} {f : γ → M K σ α}
    {f' : γ → M K τ α} (hx : RelK ω R x x') (hf : ∀ a, RelK ω R (f a) (f' a)) : RelK ω R (x >>= f) (x' >>= f') :=
  Rel.bind hx hf

/-- One step of a relational proof in which the relation is kept throughout. -/
macro "rel_step" : tactic => `(tactic| first
  | with_reducible assumption
  | with_reducible exact Rel.pure _
  | with_reducible exact Rel.raise (fun _ _ h => h)
  | exact Rel.lift rfl (fun _ _ h => h)
  | exact Rel.beta (fun _ _ h => h) _ _
  | exact Rel.betaVec (fun _ _ h => h) _
  | exact Rel.betaRep (fun _ _ h => h) _ _ _
  | exact Rel.binom (fun _ _ h => h) _ _
  | exact Rel.binomVec (fun _ _ h => h) _ _
  | exact Rel.binomRep (fun _ _ h => h) _ _ _
  | exact Rel.unifVec (fun _ _ h => h) _
  | exact Rel.dirichlet (fun _ _ h => h) _
  | exact Rel.choice (fun _ _ h => h) _
  | exact Rel.gumbelMax (fun _ _ h => h) _
  | exact Rel.optim (fun _ _ h => h) _ _
  | ((with_reducible refine Rel.assign ?_); rintro s0 t0 ⟨d', hp, he⟩; subst he; exact ⟨d', hp, rfl⟩)
  | ((with_reducible refine Rel.self_bind' ?_); rintro s0 t0 ⟨d', hp, he⟩; subst he
     try simp only [← hp.length_eq, ← bincount_perm hp, ← maxInt_perm hp, ← hp.sum_eq])
  | with_reducible refine RelK.bind ?_ (fun _ => ?_)
  | with_reducible refine Rel.whenM Iff.rfl (fun _ => ?_)
  | with_reducible refine Rel.ite Iff.rfl (fun _ => ?_) (fun _ => ?_))

/-- Repeat `rel_step`. -/
macro "rel_auto" : tactic => `(tactic| repeat' rel_step)

namespace DP
theorem complete_perm (n : PySize) : RelK ω PermOf (complete n : M K (DP K) _) (complete n) := by
  unfold complete
  cases n <;> simp only [PySize.toInt?] <;> rel_auto

theorem random_perm (n : PySize) : RelK ω PermOf (random n : M K (DP K) _) (random n) := by
  have h := complete_perm (ω := ω) (K := K) n
  unfold random randomFitted drawSticks
  cases n <;> simp only [PySize.toInt?] <;> rel_auto
end DP

namespace PY
theorem complete_perm (n : PySize) : RelK ω PermOf (complete n : M K (PY K) _) (complete n) := by
  unfold complete
  cases n <;> simp only [PySize.toInt?] <;> rel_auto

theorem random_perm (n : PySize) : RelK ω PermOf (random n : M K (PY K) _) (random n) := by
  have h := complete_perm (ω := ω) (K := K) n
  unfold random drawSticks
  cases n <;> simp only [PySize.toInt?] <;> rel_auto
end PY

namespace Geo
theorem complete_perm (n : PySize) : RelK ω PermOf (complete n : M K (Geo K) _) (complete n) := by
  unfold complete
  cases n <;> simp only [PySize.toInt?] <;> rel_auto

theorem random_perm (n : PySize) : RelK ω PermOf (random n : M K (Geo K) _) (random n) := by
  have h := complete_perm (ω := ω) (K := K)
  unfold random resolveSize
  cases n <;> rel_auto <;> exact h _
end Geo

namespace DirDist
theorem random_perm (n : PySize) : RelK ω PermOf (random n : M K (DirDist K) _) (random n) := by
  unfold random draw
  rel_auto

theorem complete_perm (n : PySize) : RelK ω PermOf (complete n : M K (DirDist K) _) (complete n) := by
  have h := random_perm (ω := ω) (K := K) .none
  unfold complete
  rel_auto
end DirDist

namespace Equal
theorem random_perm (n : PySize) : RelK ω PermOf (random n : M K (Equal K) _) (random n) := by
  unfold random
  rel_auto
end Equal

namespace Freq
theorem random_perm (n : PySize) : RelK ω PermOf (random n : M K (Freq K) _) (random n) := by
  unfold random draw
  rel_auto
end Freq

namespace BIB
theorem randomP_perm : RelK ω PermOf (randomP : M K (BIB K) _) randomP := by
  unfold randomP drawGeometricP drawPriorP
  rel_step
  rel_step
  · rel_auto
  rel_step
  · rel_auto
  rel_step
  · rel_auto
  rename_i s0 _ _ _ _ _
  cases s0.pMethod <;> rel_auto

theorem complete_perm (n : PySize) : RelK ω PermOf (complete n : M K (BIB K) _) (complete n) := by
  have h := randomP_perm (ω := ω) (K := K)
  unfold complete newSticks
  cases n <;> simp only [PySize.toInt?] <;> rel_auto

theorem random_perm (n : PySize) : RelK ω PermOf (random n : M K (BIB K) _) (random n) := by
  have h := randomP_perm (ω := ω) (K := K)
  have h' := complete_perm (ω := ω) (K := K)
  unfold random randomFitted fittedSticks
  cases n <;> rel_auto <;> exact h' _
end BIB

namespace BBin
theorem growOne_perm : RelK ω PermOf (growOne : M K (BBin K) _) growOne := by
  unfold growOne
  rel_auto

theorem grow_perm (k : ℕ) : RelK ω PermOf (grow k : M K (BBin K) _) (grow k) := by
  induction k with
  | zero => exact Rel.pure _
  | succ k ih =>
    have h := growOne_perm (ω := ω) (K := K)
    unfold grow
    rel_auto

theorem complete_perm (n : PySize) : RelK ω PermOf (complete n : M K (BBin K) _) (complete n) := by
  have h := grow_perm (ω := ω) (K := K)
  unfold complete
  cases n <;> simp only [PySize.toInt?] <;> rel_auto <;> exact h _

theorem random_perm (n : PySize) : RelK ω PermOf (random n : M K (BBin K) _) (random n) := by
  have h := complete_perm (ω := ω) (K := K) (if n = .none then .int 1 else n)
  unfold random randomSized randomBinomials
  rel_auto
end BBin

namespace BBer
theorem bernLoop_perm (a b : List ℕ) (js : List ℕ) (bern : List ℤ) :
    RelK ω PermOf (bernLoop a b bern js : M K (BBer K) _) (bernLoop a b bern js) := by
  induction js generalizing bern with
  | nil => exact Rel.pure _
  | cons j js ih =>
    unfold bernLoop
    rel_step
    rename_i s0 _ _
    cases condProb s0.p s0.alpha bern a b j with
    | none => rel_auto
    | some q => dsimp only; rel_step; · rel_auto
                exact ih _

theorem randomBernoullis_perm (n : Option ℤ) :
    RelK ω PermOf (randomBernoullis n : M K (BBer K) _) (randomBernoullis n) := by
  have h := bernLoop_perm (ω := ω) (K := K)
  unfold randomBernoullis
  cases n <;> rel_auto <;> exact h _ _ _ _

theorem complete_perm (n : PySize) : RelK ω PermOf (complete n : M K (BBer K) _) (complete n) := by
  unfold complete
  cases n <;> simp only [PySize.toInt?] <;> rel_auto

theorem random_perm (n : PySize) : RelK ω PermOf (random n : M K (BBer K) _) (random n) := by
  have h := complete_perm (ω := ω) (K := K) (if n = .none then .int 1 else n)
  have h' := randomBernoullis_perm (ω := ω) (K := K)
  unfold random randomSized
  rel_auto <;> exact h' _
end BBer

namespace BID
theorem useStick_perm (j : ℕ) : RelK ω PermOf (useStick j : M K (BID K) _) (useStick j) := by
  unfold useStick
  rel_auto

theorem growOne_perm : RelK ω PermOf (growOne : M K (BID K) _) growOne := by
  have h := useStick_perm (ω := ω) (K := K)
  unfold growOne
  rel_auto
  exact h _

theorem grow_perm (k : ℕ) : RelK ω PermOf (grow k : M K (BID K) _) (grow k) := by
  induction k with
  | zero => exact Rel.pure _
  | succ k ih =>
    have h := growOne_perm (ω := ω) (K := K)
    unfold grow
    rel_auto

theorem complete_perm (n : PySize) : RelK ω PermOf (complete n : M K (BID K) _) (complete n) := by
  have h := grow_perm (ω := ω) (K := K)
  unfold complete
  cases n <;> simp only [PySize.toInt?] <;> rel_auto <;> exact h _

theorem drawBase_perm (alpha : K) (a b dB js : List ℕ) :
    RelK ω PermOf (drawBase alpha a b dB js : M K (BID K) _) (drawBase alpha a b dB js) := by
  induction js with
  | nil => exact Rel.pure _
  | cons j js ih =>
    unfold drawBase
    rel_auto

theorem assign_setBase_perm (j x : ℕ) : RelK ω PermOf (M.assign (setBase j x) : M K (BID K) _) (M.assign (setBase j x)) := by
  refine Rel.assign ?_
  rintro s t ⟨d', hp, rfl⟩
  unfold setBase
  dsimp only
  split <;> exact ⟨d', hp, rfl⟩

theorem logProb_d (F : SpecFun K) (s : BID K) (d' : List ℤ) (a b : ℕ) (red : List ℕ) (k fuel dd : ℕ) (nb : Bool) :
    logProb F { s with d := d' } a b red k fuel dd nb = logProb F s a b red k fuel dd nb := by
  induction fuel generalizing dd nb with
  | zero => rfl
  | succ f ih => unfold logProb; simp only [ih]

theorem updateOne_perm (F : SpecFun K) (a b : List ℕ) (j : ℕ) :
    RelK ω PermOf (updateOne F a b j : M K (BID K) _) (updateOne F a b j) := by
  have h := assign_setBase_perm (ω := ω) (K := K) j
  unfold updateOne
  rel_step
  simp only [logProb_d]
  rel_auto <;> exact h _

theorem updateAll_perm (F : SpecFun K) (a b js : List ℕ) :
    RelK ω PermOf (updateAll F a b js : M K (BID K) _) (updateAll F a b js) := by
  induction js with
  | nil => exact Rel.pure _
  | cons j js ih =>
    have h := updateOne_perm (ω := ω) F a b j
    unfold updateAll
    rel_auto

theorem randomFitted_perm (F : SpecFun K) :
    RelK ω PermOf (randomFitted F : M K (BID K) _) (randomFitted F) := by
  have h := updateAll_perm (ω := ω) F
  have h' := drawBase_perm (ω := ω) (K := K)
  unfold randomFitted
  rel_step
  rel_step
  · rel_step
  rel_step
  · refine Rel.assign ?_
    rintro s t ⟨d', hp, rfl⟩
    dsimp only
    split
    · exact ⟨d', hp, rfl⟩
    · split <;> exact ⟨d', hp, rfl⟩
  rel_auto
  · exact h' _ _ _ _ _
  · exact h _ _ _

theorem random_perm (F : SpecFun K) (n : PySize) : RelK ω PermOf (random F n : M K (BID K) _) (random F n) := by
  have h := randomFitted_perm (ω := ω) F
  have h' := complete_perm (ω := ω) (K := K) n
  unfold random
  cases n <;> rel_auto
end BID
end Verif
