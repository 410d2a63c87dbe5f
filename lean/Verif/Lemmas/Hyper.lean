import Verif.Lemmas.StickInv

/-! # Hyper-parameters never change, and only `fit` / `reset` change the labels -/

set_option linter.unusedSectionVars false
set_option linter.unusedSimpArgs false

namespace Verif
open Spec
variable {K : Type} [Field K] [LinearOrder K] {ω : Oracle K} {σ α : Type} {I : σ → Prop}

/-- A draw never changes the object. -/
theorem keepsR_of_state {m : M K σ α} (h : ∀ s, (m ω s).2.1 = s.1) : KeepsR ω I m (fun _ => True) :=
  KeepsR.of_keeps fun s hs => by rw [h]; exact hs

theorem beta_any (a b : K) : KeepsR ω I (M.beta a b : M K σ K) (fun _ => True) :=
  keepsR_of_state fun s => by unfold M.beta; split <;> rfl
theorem betaVec_any (ps : List (K × K)) : KeepsR ω I (M.betaVec ps : M K σ _) (fun _ => True) :=
  keepsR_of_state fun s => by unfold M.betaVec; split <;> rfl
theorem betaRep_any (a b : K) (n : ℤ) : KeepsR ω I (M.betaRep a b n : M K σ _) (fun _ => True) :=
  keepsR_of_state fun s => by unfold M.betaRep; split <;> rfl
theorem binom_any (n : ℤ) (p : K) : KeepsR ω I (M.binom n p : M K σ _) (fun _ => True) :=
  keepsR_of_state fun s => by unfold M.binom; split <;> rfl
theorem binomVec_any (n : ℤ) (ps : List K) : KeepsR ω I (M.binomVec n ps : M K σ _) (fun _ => True) :=
  keepsR_of_state fun s => by unfold M.binomVec; split <;> rfl
theorem binomRep_any (n : ℤ) (p : K) (m : ℤ) : KeepsR ω I (M.binomRep n p m : M K σ _) (fun _ => True) :=
  keepsR_of_state fun s => by unfold M.binomRep; split <;> rfl
theorem unifVec_any (n : ℤ) : KeepsR ω I (M.unifVec n : M K σ _) (fun _ => True) :=
  keepsR_of_state fun s => by unfold M.unifVec; split <;> rfl
theorem dirichlet_any (l : List K) : KeepsR ω I (M.dirichlet l : M K σ _) (fun _ => True) :=
  keepsR_of_state fun s => by unfold M.dirichlet; split <;> rfl
theorem choice_any (l : List K) : KeepsR ω I (M.choice l : M K σ _) (fun _ => True) :=
  keepsR_of_state fun s => by unfold M.choice; split <;> rfl
theorem gumbelMax_any (l : List (Option K)) : KeepsR ω I (M.gumbelMax l : M K σ _) (fun _ => True) :=
  keepsR_of_state fun s => by unfold M.gumbelMax; split <;> rfl
theorem optim_any (v ps : List K) : KeepsR ω I (M.optim v ps : M K σ _) (fun _ => True) := keepsR_of_state fun _ => rfl
theorem lift_any (e : Except PyErr α) : KeepsR ω I (M.lift e : M K σ α) (fun _ => True) :=
  (KeepsR.lift e).true_of

/-- One step of "no assignment in this method touches what `I` looks at". -/
macro "hyp_step" : tactic => `(tactic| first
  | with_reducible refine KeepsR.bind (R := fun _ => True) ?_ fun _ _ => ?_
  | with_reducible refine KeepsR.whenM fun _ => ?_
  | with_reducible refine KeepsR.ite (fun _ => ?_) fun _ => ?_
  | with_reducible exact KeepsR.raise _
  | with_reducible exact KeepsR.pure trivial
  | with_reducible exact KeepsR.self.true_of
  | with_reducible exact lift_any _
  | with_reducible exact beta_any _ _ | with_reducible exact betaVec_any _ | with_reducible exact betaRep_any _ _ _
  | with_reducible exact binom_any _ _ | with_reducible exact binomVec_any _ _ | with_reducible exact binomRep_any _ _ _
  | with_reducible exact unifVec_any _ | with_reducible exact dirichlet_any _ | with_reducible exact choice_any _
  | with_reducible exact gumbelMax_any _ | with_reducible exact optim_any _ _
  | with_reducible assumption
  | (with_reducible refine KeepsR.assign ?_); exact fun _ h => h
  | split)

/-- Close the goal with `h`, applied to up to five arguments. -/
macro "use_h " h:ident : tactic => `(tactic| first
  | with_reducible exact $h | with_reducible exact $h _ | with_reducible exact $h _ _ | with_reducible exact $h _ _ _
  | with_reducible exact $h _ _ _ _ | with_reducible exact $h _ _ _ _ _)

namespace DP
/-- what no method but `fit`/`reset` changes -/
def Fixed (s : DP K) : K × List ℤ := (s.alpha, s.d)
variable (P : K × List ℤ → Prop)
theorem complete_fixed (n : PySize) : KeepsR ω (fun s : DP K => P s.Fixed) (complete n) (fun _ => True) := by
  unfold complete; repeat' hyp_step
theorem random_fixed (n : PySize) : KeepsR ω (fun s : DP K => P s.Fixed) (random n) (fun _ => True) := by
  have hcomplete := complete_fixed (ω := ω) P
  unfold random randomFitted drawSticks; repeat' first | use_h hcomplete | hyp_step
/-- the hyper-parameters -/
def hyper (s : DP K) : K := s.alpha
theorem hyper_stable (P : K → Prop) : (core : WeightCore K).Stable ω (fun s : DP K => P s.hyper) where
  setD := fun _ _ h => h
  random := fun n => (random_fixed (fun ⟨a, _⟩ => P a) n).keeps
  complete := fun n => (KeepsR.bind (R' := fun _ => True)
    (complete_fixed (fun ⟨a, _⟩ => P a) n) fun _ _ => KeepsR.pure trivial).keeps
end DP

namespace PY
/-- what no method but `fit`/`reset` changes -/
def Fixed (s : PY K) : K × K × List ℤ := (s.pyd, s.alpha, s.d)
variable (P : K × K × List ℤ → Prop)
theorem complete_fixed (n : PySize) : KeepsR ω (fun s : PY K => P s.Fixed) (complete n) (fun _ => True) := by
  unfold complete; repeat' hyp_step
theorem random_fixed (n : PySize) : KeepsR ω (fun s : PY K => P s.Fixed) (random n) (fun _ => True) := by
  have hcomplete := complete_fixed (ω := ω) P
  unfold random drawSticks; repeat' first | use_h hcomplete | hyp_step
/-- the hyper-parameters -/
def hyper (s : PY K) : K × K := (s.pyd, s.alpha)
theorem hyper_stable (P : K × K → Prop) : (core : WeightCore K).Stable ω (fun s : PY K => P s.hyper) where
  setD := fun _ _ h => h
  random := fun n => (random_fixed (fun ⟨a, b, _⟩ => P (a, b)) n).keeps
  complete := fun n => (KeepsR.bind (R' := fun _ => True)
    (complete_fixed (fun ⟨a, b, _⟩ => P (a, b)) n) fun _ _ => KeepsR.pure trivial).keeps
end PY

namespace Geo
/-- what no method but `fit`/`reset` changes -/
def Fixed (s : Geo K) : K × K × List ℤ := (s.a, s.b, s.d)
variable (P : K × K × List ℤ → Prop)
theorem complete_fixed (n : PySize) : KeepsR ω (fun s : Geo K => P s.Fixed) (complete n) (fun _ => True) := by
  unfold complete; repeat' hyp_step
theorem random_fixed (n : PySize) : KeepsR ω (fun s : Geo K => P s.Fixed) (random n) (fun _ => True) := by
  have hcomplete := complete_fixed (ω := ω) P
  unfold random; repeat' first | use_h hcomplete | hyp_step
/-- the hyper-parameters -/
def hyper (s : Geo K) : K × K := (s.a, s.b)
theorem hyper_stable (P : K × K → Prop) : (core : WeightCore K).Stable ω (fun s : Geo K => P s.hyper) where
  setD := fun _ _ h => h
  random := fun n => (random_fixed (fun ⟨a, b, _⟩ => P (a, b)) n).keeps
  complete := fun n => (KeepsR.bind (R' := fun _ => True)
    (complete_fixed (fun ⟨a, b, _⟩ => P (a, b)) n) fun _ _ => KeepsR.pure trivial).keeps

theorem tail_hyper {ω : Oracle ℝ} (P : ℝ × ℝ → Prop) (x : ℝ) : KeepsR ω (fun s : Geo ℝ => P s.hyper) (tail x) (fun _ => True) := by
  have hcomplete : ∀ n, KeepsR ω (fun s : Geo ℝ => P s.hyper) (complete n) (fun _ => True) :=
    complete_fixed (ω := ω) (fun ⟨a, b, _⟩ => P (a, b))
  unfold tail; repeat' first | use_h hcomplete | hyp_step
end Geo

namespace BIB
/-- what no method but `fit`/`reset` changes -/
def Fixed (s : BIB K) : K × K × K × K × PMethod × List ℤ := (s.x, s.alpha, s.a, s.b, s.pMethod, s.d)
variable (P : K × K × K × K × PMethod × List ℤ → Prop)
theorem randomP_fixed : KeepsR ω (fun s : BIB K => P s.Fixed) randomP (fun _ => True) := by
  unfold randomP drawPriorP drawGeometricP; repeat' hyp_step
theorem complete_fixed (n : PySize) : KeepsR ω (fun s : BIB K => P s.Fixed) (complete n) (fun _ => True) := by
  have hrandomP := randomP_fixed (ω := ω) P
  unfold complete newSticks; repeat' first | use_h hrandomP | hyp_step
theorem random_fixed (n : PySize) : KeepsR ω (fun s : BIB K => P s.Fixed) (random n) (fun _ => True) := by
  have hcomplete := complete_fixed (ω := ω) P
  have hrandomP := randomP_fixed (ω := ω) P
  unfold random randomFitted fittedSticks; repeat' first | use_h hcomplete | use_h hrandomP | hyp_step
/-- the hyper-parameters -/
def hyper (s : BIB K) : K × K × K × K × PMethod := (s.x, s.alpha, s.a, s.b, s.pMethod)
theorem hyper_stable (P : K × K × K × K × PMethod → Prop) : (core : WeightCore K).Stable ω (fun s : BIB K => P s.hyper) where
  setD := fun _ _ h => h
  random := fun n => (random_fixed (fun ⟨a, b, c, d, e, _⟩ => P (a, b, c, d, e)) n).keeps
  complete := fun n => (KeepsR.bind (R' := fun _ => True)
    (complete_fixed (fun ⟨a, b, c, d, e, _⟩ => P (a, b, c, d, e)) n) fun _ _ => KeepsR.pure trivial).keeps
end BIB

namespace BBin
/-- what no method but `fit`/`reset` changes -/
def Fixed (s : BBin K) : ℤ × K × List ℤ := (s.n, s.alpha, s.d)
variable (P : ℤ × K × List ℤ → Prop)
theorem grow_fixed (k : ℕ) : KeepsR ω (fun s : BBin K => P s.Fixed) (grow k) (fun _ => True) := by
  induction k with
  | zero => unfold grow; repeat' hyp_step
  | succ k ih => unfold grow growOne; repeat' first | use_h ih | hyp_step
theorem complete_fixed (n : PySize) : KeepsR ω (fun s : BBin K => P s.Fixed) (complete n) (fun _ => True) := by
  have hgrow := grow_fixed (ω := ω) P
  unfold complete; repeat' first | use_h hgrow | hyp_step
theorem random_fixed (n : PySize) : KeepsR ω (fun s : BBin K => P s.Fixed) (random n) (fun _ => True) := by
  have hcomplete := complete_fixed (ω := ω) P
  unfold random randomSized randomBinomials; repeat' first | use_h hcomplete | hyp_step
/-- the hyper-parameters -/
def hyper (s : BBin K) : ℤ × K := (s.n, s.alpha)
theorem hyper_stable (P : ℤ × K → Prop) : (core : WeightCore K).Stable ω (fun s : BBin K => P s.hyper) where
  setD := fun _ _ h => h
  random := fun n => (random_fixed (fun ⟨a, b, _⟩ => P (a, b)) n).keeps
  complete := fun n => (KeepsR.bind (R' := fun _ => True)
    (complete_fixed (fun ⟨a, b, _⟩ => P (a, b)) n) fun _ _ => KeepsR.pure trivial).keeps
end BBin

namespace BBer
/-- what no method but `fit`/`reset` changes -/
def Fixed (s : BBer K) : K × K × List ℤ := (s.p, s.alpha, s.d)
variable (P : K × K × List ℤ → Prop)
theorem bernLoop_fixed (a b js : List ℕ) (bern : List ℤ) :
    KeepsR ω (fun s : BBer K => P s.Fixed) (bernLoop a b bern js) (fun _ => True) := by
  induction js generalizing bern with
  | nil => unfold bernLoop; repeat' hyp_step
  | cons j js ih => unfold bernLoop; repeat' first | use_h ih | hyp_step
theorem complete_fixed (n : PySize) : KeepsR ω (fun s : BBer K => P s.Fixed) (complete n) (fun _ => True) := by
  unfold complete; repeat' hyp_step
theorem random_fixed (n : PySize) : KeepsR ω (fun s : BBer K => P s.Fixed) (random n) (fun _ => True) := by
  have hcomplete := complete_fixed (ω := ω) P
  have hbernLoop := bernLoop_fixed (ω := ω) P
  unfold random randomSized randomBernoullis; repeat' first | use_h hcomplete | use_h hbernLoop | hyp_step
/-- the hyper-parameters -/
def hyper (s : BBer K) : K × K := (s.p, s.alpha)
theorem hyper_stable (P : K × K → Prop) : (core : WeightCore K).Stable ω (fun s : BBer K => P s.hyper) where
  setD := fun _ _ h => h
  random := fun n => (random_fixed (fun ⟨a, b, _⟩ => P (a, b)) n).keeps
  complete := fun n => (KeepsR.bind (R' := fun _ => True)
    (complete_fixed (fun ⟨a, b, _⟩ => P (a, b)) n) fun _ _ => KeepsR.pure trivial).keeps
end BBer

namespace BID
/-- what no method but `fit`/`reset` changes -/
def Fixed (s : BID K) : K × K × List ℤ := (s.alpha, s.a, s.d)
variable (P : K × K × List ℤ → Prop)
theorem grow_fixed (k : ℕ) : KeepsR ω (fun s : BID K => P s.Fixed) (grow k) (fun _ => True) := by
  induction k with
  | zero => unfold grow; repeat' hyp_step
  | succ k ih => unfold grow growOne useStick; repeat' first | use_h ih | hyp_step
theorem complete_fixed (n : PySize) : KeepsR ω (fun s : BID K => P s.Fixed) (complete n) (fun _ => True) := by
  have hgrow := grow_fixed (ω := ω) P
  unfold complete; repeat' first | use_h hgrow | hyp_step
theorem setBase_fixed (j x : ℕ) : KeepsR ω (fun s : BID K => P s.Fixed) (M.assign (setBase j x)) (fun _ => True) :=
  KeepsR.assign fun s h => by unfold setBase; split <;> exact h
theorem updateAll_fixed (F : SpecFun K) (a b js : List ℕ) :
    KeepsR ω (fun s : BID K => P s.Fixed) (updateAll F a b js) (fun _ => True) := by
  have hsetBase := setBase_fixed (ω := ω) P
  induction js with
  | nil => unfold updateAll; repeat' first | use_h hsetBase | hyp_step
  | cons j js ih => unfold updateAll updateOne; repeat' first | use_h hsetBase | use_h ih | hyp_step
theorem drawBase_fixed (alpha : K) (a b dB js : List ℕ) :
    KeepsR ω (fun s : BID K => P s.Fixed) (drawBase alpha a b dB js) (fun _ => True) := by
  induction js with
  | nil => unfold drawBase; repeat' hyp_step
  | cons j js ih => unfold drawBase; repeat' first | use_h ih | hyp_step
theorem random_fixed (F : SpecFun K) (n : PySize) :
    KeepsR ω (fun s : BID K => P s.Fixed) (random F n) (fun _ => True) := by
  have hcomplete := complete_fixed (ω := ω) P
  have hupdateAll := updateAll_fixed (ω := ω) P F
  have hdrawBase := drawBase_fixed (ω := ω) P
  have hpad : ∀ n : ℤ, KeepsR ω (fun s : BID K => P s.Fixed) (M.assign fun s =>
      if (s.dBase.length : ℤ) < n then
        { s with dBase := s.dBase ++ List.replicate (n - s.dBase.length).toNat 0 }
      else if (s.dBase.length : ℤ) > n then { s with dBase := Py.sliceTo s.dBase n }
      else s) (fun _ => True) := fun n => KeepsR.assign fun s h => by
    split
    · exact h
    · split <;> exact h
  unfold random randomFitted; repeat' first | use_h hcomplete | use_h hupdateAll | use_h hdrawBase | use_h hpad | hyp_step
/-- the hyper-parameters -/
def hyper (s : BID K) : K × K := (s.alpha, s.a)
theorem hyper_stable (F : SpecFun K) (P : K × K → Prop) : (core F : WeightCore K).Stable ω (fun s : BID K => P s.hyper) where
  setD := fun _ _ h => h
  random := fun n => (random_fixed (fun ⟨a, b, _⟩ => P (a, b)) F n).keeps
  complete := fun n => (KeepsR.bind (R' := fun _ => True)
    (complete_fixed (fun ⟨a, b, _⟩ => P (a, b)) n) fun _ _ => KeepsR.pure trivial).keeps
end BID

namespace DirDist
/-- what no method but `fit`/`reset` changes -/
def Fixed (s : DirDist K) : ℤ × List K × List ℤ := (s.n, s.alpha, s.d)
variable (P : ℤ × List K × List ℤ → Prop)
theorem random_fixed (n : PySize) : KeepsR ω (fun s : DirDist K => P s.Fixed) (random n) (fun _ => True) := by
  unfold random draw; repeat' hyp_step
theorem complete_fixed (n : PySize) : KeepsR ω (fun s : DirDist K => P s.Fixed) (complete n) (fun _ => True) := by
  have hrandom := random_fixed (ω := ω) P
  unfold complete; repeat' first | use_h hrandom | hyp_step
/-- the hyper-parameters -/
def hyper (s : DirDist K) : ℤ × List K := (s.n, s.alpha)
theorem hyper_stable (P : ℤ × List K → Prop) : (core : WeightCore K).Stable ω (fun s : DirDist K => P s.hyper) where
  setD := fun _ _ h => h
  random := fun n => (random_fixed (fun ⟨a, b, _⟩ => P (a, b)) n).keeps
  complete := fun n => (KeepsR.bind (R' := fun _ => True)
    (complete_fixed (fun ⟨a, b, _⟩ => P (a, b)) n) fun _ _ => KeepsR.pure trivial).keeps
end DirDist

namespace Equal
/-- what no method but `fit`/`reset` changes -/
def Fixed (s : Equal K) : ℤ × List ℤ := (s.n, s.d)
variable (P : ℤ × List ℤ → Prop)
theorem random_fixed (n : PySize) : KeepsR ω (fun s : Equal K => P s.Fixed) (random n) (fun _ => True) := by
  unfold random; repeat' hyp_step
theorem complete_fixed (n : PySize) : KeepsR ω (fun s : Equal K => P s.Fixed) (complete n) (fun _ => True) :=
  random_fixed P n
/-- the hyper-parameters -/
def hyper (s : Equal K) : ℤ := s.n
theorem hyper_stable (P : ℤ → Prop) : (core : WeightCore K).Stable ω (fun s : Equal K => P s.hyper) where
  setD := fun _ _ h => h
  random := fun n => (random_fixed (fun ⟨a, _⟩ => P a) n).keeps
  complete := fun n => (KeepsR.bind (R' := fun _ => True)
    (complete_fixed (fun ⟨a, _⟩ => P a) n) fun _ _ => KeepsR.pure trivial).keeps
end Equal

namespace Freq
/-- what no method but `fit`/`reset` changes -/
def Fixed (s : Freq K) : ℤ × List ℤ := (s.n, s.d)
variable (P : ℤ × List ℤ → Prop)
theorem random_fixed (n : PySize) : KeepsR ω (fun s : Freq K => P s.Fixed) (random n) (fun _ => True) := by
  unfold random draw; repeat' hyp_step
theorem complete_fixed (n : PySize) : KeepsR ω (fun s : Freq K => P s.Fixed) (complete n) (fun _ => True) :=
  random_fixed P n
/-- the hyper-parameters -/
def hyper (s : Freq K) : ℤ := s.n
theorem hyper_stable (P : ℤ → Prop) : (core : WeightCore K).Stable ω (fun s : Freq K => P s.hyper) where
  setD := fun _ _ h => h
  random := fun n => (random_fixed (fun ⟨a, _⟩ => P a) n).keeps
  complete := fun n => (KeepsR.bind (R' := fun _ => True)
    (complete_fixed (fun ⟨a, _⟩ => P a) n) fun _ _ => KeepsR.pure trivial).keeps
end Freq

end Verif
