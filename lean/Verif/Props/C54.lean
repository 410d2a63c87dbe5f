import Verif.Lemmas.VarDemo
import Verif.Lemmas.Float

/-!
# C54 — the weight terms of the ELBO

`trueElbo` is the ELBO with `E[log p(w)]` added and `E[log q(w)]` subtracted.  The property fails: `_e_loq_q_w` returns `variational_mean_log_p_w()`, so
the two weight terms cancel (`C54_cancel_refuted`), `variational_mean_log_q_w` is never used (`C54_unused_refuted`), and the value used for convergence differs from the
ELBO by exactly `E[log q(w)] - E[log p(w)]` (`C54_gap_refuted`).  It holds for the two classes without parameters, equal and frequency weighting
(`C54_constant_partial`).
-/

set_option linter.unusedSectionVars false

namespace Verif.Mix.VM
open Verif.Fl
variable {K : Type} [Field K] [LinearOrder K] [IsStrictOrderedRing K] {m : ℕ} {C : WeightClass K} {V : VarClass C} {Atom : Type}

/-- The ELBO as it should be. -/
def trueElbo (F : MathFun K) (s : VM V m Atom) : Except PyErr (Fl K) := do
  let pd ← V.meanLogPd s.gm.wst.1 s.vst (varRows s)
  let pw ← V.meanLogPw s.gm.wst.1 s.vst
  let pt ← eLogPTheta F s
  let qw ← V.meanLogQw s.gm.wst.1 s.vst
  pure (eLogPx F s + pd + pw + pt - eLogQd F s - qw - eLogQTheta F s)

variable {F : MathFun K} {s : VM V m Atom}

theorem sub_swap (a b c d : Fl K) (x : K) : a + b + .fin x + c - d - .fin x = a + b + c - d := by
  show (((a + b) + .fin x) + c) + Fl.neg d + Fl.neg (.fin x) = ((a + b) + c) + Fl.neg d
  cases a + b <;> cases c <;> cases d <;> simp only [hadd, Fl.add, Fl.neg]
  congr 1
  ring

/-- **The weight terms cancel**: when `E[log p(w)]` is a number, the value does not contain it. -/
theorem C54_cancel_refuted {x : K} (hp : V.meanLogPw s.gm.wst.1 s.vst = .ok (.fin x)) :
    calcElbo F s = (do
      let pd ← V.meanLogPd s.gm.wst.1 s.vst (varRows s)
      let pt ← eLogPTheta F s
      pure (eLogPx F s + pd + pt - eLogQd F s - eLogQTheta F s)) := by
  unfold calcElbo
  rw [hp]
  cases V.meanLogPd s.gm.wst.1 s.vst (varRows s) with
  | error e => rfl
  | ok pd =>
    cases eLogPTheta F s with
    | error e => rfl
    | ok pt =>
      show Except.ok _ = Except.ok _
      rw [sub_swap]

/-- **`E[log q(w)]` is not used**: replacing it by any other function changes nothing. -/
theorem C54_unused_refuted (g : C.State → V.State → Except PyErr (Fl K)) :
    calcElbo (V := { V with meanLogQw := g }) F
      { gm := s.gm, vst := s.vst, varK := s.varK, varTheta := s.varTheta, varD := s.varD, varFitted := s.varFitted, varConverged := s.varConverged } = calcElbo F s := rfl

/-- **The gap**: when everything is a number, the value used exceeds the ELBO by `E[log q(w)] - E[log p(w)]`. -/
theorem C54_gap_refuted {x y e : K} (hp : V.meanLogPw s.gm.wst.1 s.vst = .ok (.fin x)) (hq : V.meanLogQw s.gm.wst.1 s.vst = .ok (.fin y))
    (he : calcElbo F s = .ok (.fin e)) : trueElbo F s = .ok (.fin (e - (y - x))) := by
  rw [C54_cancel_refuted hp] at he
  unfold trueElbo
  rw [hp, hq]
  revert he
  cases V.meanLogPd s.gm.wst.1 s.vst (varRows s) with
  | error e => intro he; cases he
  | ok pd =>
    cases eLogPTheta F s with
    | error e => intro he; cases he
    | ok pt =>
      intro he
      have he' : eLogPx F s + pd + pt - eLogQd F s - eLogQTheta F s = .fin e := by
        injection he
      show Except.ok (eLogPx F s + pd + .fin x + pt - eLogQd F s - .fin y - eLogQTheta F s) = _
      congr 1
      revert he'
      show (((eLogPx F s + pd) + pt) + Fl.neg (eLogQd F s)) + Fl.neg (eLogQTheta F s) = .fin e →
        ((((eLogPx F s + pd) + .fin x) + pt) + Fl.neg (eLogQd F s)) + Fl.neg (.fin y) + Fl.neg (eLogQTheta F s) = .fin (e - (y - x))
      cases eLogPx F s + pd <;> cases pt <;> cases eLogQd F s <;> cases eLogQTheta F s <;> simp only [hadd, Fl.add, Fl.neg, reduceCtorEq, false_imp_iff]
      intro h
      injection h with h
      subst h
      congr 1
      ring

/-- **C54** for the classes without parameters: both expectations are `0`, and the value is the ELBO. -/
theorem C54_constant_partial :
    (∀ s : VM (varEqual F) m Atom, calcElbo F s = trueElbo F s) ∧ (∀ s : VM (varFreq F) m Atom, calcElbo F s = trueElbo F s) := by
  constructor
  · intro s
    unfold calcElbo trueElbo
    have h : (varEqual F).meanLogPw s.gm.wst.1 s.vst = (varEqual F).meanLogQw s.gm.wst.1 s.vst := rfl
    rw [h]
  · intro s
    unfold calcElbo trueElbo
    have h : (varFreq F).meanLogPw s.gm.wst.1 s.vst = (varFreq F).meanLogQw s.gm.wst.1 s.vst := by
      simp only [varFreq]
    rw [h]

/-! ### A Dirichlet process mixture in which the value is not the ELBO -/

/-- The object after one iteration. -/
def elboState : VM (varDP demoFun) 1 ℚ :=
  (fitVariational vworld world (rows1 [0, 1, 5, 7]) (some 2) false (.fin 0) .random demo
    ({ dpVM 1 with gm := { (dpVM 1).gm with psiPrior := some (fun _ _ => 1) } }, 0)).2.1

/-- A number was returned. -/
def isNumber (x : Except PyErr (Fl ℚ)) : Bool := match x with
  | .ok (.fin _) => true
  | _ => false

example : isNumber (calcElbo demoFun elboState) = true ∧ isNumber (trueElbo demoFun elboState) = true ∧ calcElbo demoFun elboState ≠ trueElbo demoFun elboState := by
  decide +kernel
end Verif.Mix.VM
