import Verif.Model.DirichletProcess
import Verif.Model.PitmanYor
import Verif.Model.Geometric
import Verif.Model.Finite
import Verif.Model.BetaInBeta
import Verif.Model.BetaBinomial
import Verif.Model.BetaBernoulli
import Verif.Model.BetaInDirichlet
import Verif.Lemmas.Misc

/-! # Every weight class keeps "sticks in [0,1], weights a sub-probability vector" -/

set_option linter.unusedSectionVars false

namespace Verif
open Spec
variable {K : Type} [Field K] [LinearOrder K] [IsStrictOrderedRing K] {ω : Oracle K}

theorem index_mem {α : Type} {l : List α} {i : ℤ} {x : α} (h : Py.index l i = .ok x) : x ∈ l := by
  unfold Py.index at h
  generalize (if 0 ≤ i then i else (l.length : ℤ) + i) = k at h
  by_cases hk : k < 0
  · simp [hk] at h
  · simp only [hk, if_false] at h
    split at h
    · rename_i y hy
      cases h
      exact List.mem_of_getElem? hy
    · cases h

theorem gather_mem {α : Type} {l : List α} {is : List ℤ} {xs : List α} (h : Py.gather l is = .ok xs) :
    ∀ x ∈ xs, x ∈ l := by
  induction is generalizing xs with
  | nil => simp only [Py.gather] at h; cases h; simp
  | cons i is ih =>
    simp only [Py.gather] at h
    split at h
    · cases h
    · rename_i y hy
      split at h
      · cases h
      · rename_i ys hys
        cases h
        intro x hx
        rcases List.mem_cons.1 hx with rfl | hx
        · exact index_mem hy
        · exact ih hys x hx

theorem Unit01.of_gather {l xs : List K} {is : List ℤ} (hl : Unit01 l) (h : Py.gather l is = .ok xs) : Unit01 xs :=
  fun x hx => hl x (gather_mem h x hx)

theorem Unit01.of_repeat {p : K} {n : ℤ} {v : List K} (hp : 0 ≤ p ∧ p ≤ 1) (h : Py.repeatScalar p n = .ok v) :
    Unit01 v := by
  unfold Py.repeatScalar at h
  split at h
  · cases h
  · cases h; exact Unit01.replicate hp.1 hp.2 _

namespace DP
/-- Object invariant. -/
def Inv (s : DP K) : Prop := Unit01 s.v ∧ SubProb s.w

theorem inv_init (alpha : K) : Inv (init alpha) := ⟨Unit01.nil, SubProb.nil⟩

theorem complete_keeps (hω : ω.Legal) (n : PySize) : KeepsR ω Inv (complete n : M K (DP K) _) (fun _ => True) := by
  unfold complete
  repeat' keeps_step
  · rename_i h; exact fun s hs => ⟨Unit01.append hs.1 h.1, hs.2⟩
  · exact fun s hs => ⟨hs.1, stickWeights_subProb hs.1⟩

theorem drawSticks_keeps (hω : ω.Legal) (alpha : K) (a b : List ℕ) (n : PySize) :
    KeepsR ω Inv (drawSticks alpha a b n : M K (DP K) _) Unit01 := by
  unfold drawSticks
  split
  · exact KeepsR.ite (fun _ => (KeepsR.betaVec hω _).weaken fun _ h => h.1)
      fun _ => (KeepsR.betaVec hω _).weaken fun _ h => h.1
  · exact (KeepsR.betaVec hω _).weaken fun _ h => h.1

theorem randomFitted_keeps (hω : ω.Legal) (n : PySize) :
    KeepsR ω Inv (randomFitted n : M K (DP K) _) (fun _ => True) := by
  unfold randomFitted
  keeps_step; keeps_step
  refine KeepsR.bind (drawSticks_keeps hω _ _ _ _) fun v hv => ?_
  keeps_step
  · exact fun s hs => ⟨hv, stickWeights_subProb hv⟩
  · exact KeepsR.whenM fun _ => KeepsR.bind (complete_keeps hω _) fun _ _ => KeepsR.pure trivial

theorem random_keeps (hω : ω.Legal) (n : PySize) : KeepsR ω Inv (random n : M K (DP K) _) (fun _ => True) := by
  unfold random
  keeps_step; keeps_step; keeps_step; split
  · keeps_step
  · keeps_step
  · keeps_step
    · exact fun s hs => ⟨Unit01.nil, hs.2⟩
    · keeps_step
      · exact complete_keeps hω _
      · refine KeepsR.bind (randomFitted_keeps hω _) fun _ _ => ?_
        repeat' keeps_step

theorem stable (hω : ω.Legal) : (core : WeightCore K).Stable ω Inv where
  setD := fun _ _ h => h
  random := fun n => (random_keeps hω n).keeps
  complete := fun n => (KeepsR.bind (R' := fun _ => True) (complete_keeps hω n) fun _ _ => KeepsR.pure trivial).keeps
end DP

namespace PY
/-- Object invariant. -/
def Inv (s : PY K) : Prop := Unit01 s.v ∧ SubProb s.w

theorem complete_keeps (hω : ω.Legal) (n : PySize) : KeepsR ω Inv (complete n : M K (PY K) _) (fun _ => True) := by
  unfold complete
  repeat' keeps_step
  · rename_i h; exact fun s hs => ⟨Unit01.append hs.1 h.1, hs.2⟩
  · exact fun s hs => ⟨hs.1, stickWeights_subProb hs.1⟩

theorem drawSticks_keeps (hω : ω.Legal) (s : PY K) (a b : List ℕ) (n : PySize) :
    KeepsR ω Inv (drawSticks s a b n : M K (PY K) _) Unit01 := by
  unfold drawSticks
  split
  · exact KeepsR.raise _
  · exact (KeepsR.betaVec hω _).weaken fun _ h => h.1
  · exact KeepsR.ite (fun _ => (KeepsR.betaVec hω _).weaken fun _ h => h.1)
      fun _ => (KeepsR.betaVec hω _).weaken fun _ h => h.1
  · exact KeepsR.ite (fun _ => (KeepsR.betaVec hω _).weaken fun _ h => h.1)
      fun _ => (KeepsR.betaVec hω _).weaken fun _ h => h.1

theorem random_keeps (hω : ω.Legal) (n : PySize) : KeepsR ω Inv (random n : M K (PY K) _) (fun _ => True) := by
  unfold random
  keeps_step; keeps_step; keeps_step; keeps_step
  · split
    · keeps_step
    · keeps_step; keeps_step; keeps_step; keeps_step
      · rename_i h; exact fun s hs => ⟨h.1, stickWeights_subProb h.1⟩
      · repeat' keeps_step
  · keeps_step
    refine KeepsR.bind (drawSticks_keeps hω _ _ _ _) fun v hv => ?_
    keeps_step
    · exact fun s hs => ⟨hv, stickWeights_subProb hv⟩
    · refine KeepsR.bind (KeepsR.whenM fun _ => KeepsR.bind (complete_keeps hω _) fun _ _ => KeepsR.pure trivial)
        fun _ _ => ?_
      repeat' keeps_step

theorem stable (hω : ω.Legal) : (core : WeightCore K).Stable ω Inv where
  setD := fun _ _ h => h
  random := fun n => (random_keeps hω n).keeps
  complete := fun n => (KeepsR.bind (R' := fun _ => True) (complete_keeps hω n) fun _ _ => KeepsR.pure trivial).keeps
end PY

namespace Geo
/-- Object invariant. -/
def Inv (s : Geo K) : Prop := Unit01 s.v ∧ SubProb s.w ∧ (0 ≤ s.p ∧ s.p ≤ 1)

theorem complete_keeps (n : PySize) : KeepsR ω Inv (complete n : M K (Geo K) _) (fun _ => True) := by
  unfold complete
  repeat' keeps_step
  · rename_i hs _ _ h; exact fun s hs' => ⟨Unit01.of_repeat hs.2.2 h, hs'.2⟩
  · exact fun s hs => ⟨hs.1, stickWeights_subProb hs.1, hs.2.2⟩

theorem random_keeps (hω : ω.Legal) (n : PySize) : KeepsR ω Inv (random n : M K (Geo K) _) (fun _ => True) := by
  unfold random
  keeps_step; keeps_step; keeps_step; keeps_step; keeps_step
  · exact fun s hs => ⟨Unit01.nil, hs.2⟩
  · keeps_step; keeps_step
    · rename_i h; exact fun s hs => ⟨hs.1, hs.2.1, h⟩
    · refine KeepsR.bind (complete_keeps _) fun _ _ => ?_
      repeat' keeps_step

theorem stable (hω : ω.Legal) : (core : WeightCore K).Stable ω Inv where
  setD := fun _ _ h => h
  random := fun n => (random_keeps hω n).keeps
  complete := fun n => (KeepsR.bind (R' := fun _ => True) (complete_keeps n) fun _ _ => KeepsR.pure trivial).keeps

theorem tail_keeps {ω : Oracle ℝ} (x : ℝ) : Keeps ω Inv (tail x) := by
  refine KeepsR.keeps (R := fun _ => True) ?_
  unfold tail
  keeps_step; keeps_step; keeps_step; keeps_step
  refine KeepsR.bind (complete_keeps _) fun _ _ => ?_
  repeat' keeps_step
end Geo

namespace DirDist
/-- Object invariant. -/
def Inv (s : DirDist K) : Prop := SubProb s.w

theorem draw_keeps (hω : ω.Legal) : KeepsR ω Inv (draw : M K (DirDist K) _) (fun _ => True) := by
  unfold draw
  repeat' keeps_step
  · rename_i h; exact fun s hs => h.1
  · rename_i h; exact fun s hs => h.1

theorem random_keeps (hω : ω.Legal) (n : PySize) : KeepsR ω Inv (random n : M K (DirDist K) _) (fun _ => True) := by
  unfold random
  refine KeepsR.bind (draw_keeps hω) fun _ _ => ?_
  repeat' keeps_step

theorem complete_keeps (hω : ω.Legal) (n : PySize) :
    KeepsR ω Inv (complete n : M K (DirDist K) _) (fun _ => True) := by
  unfold complete
  keeps_step; keeps_step; keeps_step
  · exact KeepsR.bind (random_keeps hω _) fun _ _ => KeepsR.pure trivial
  · repeat' keeps_step

theorem stable (hω : ω.Legal) : (core : WeightCore K).Stable ω Inv where
  setD := fun _ _ h => h
  random := fun n => (random_keeps hω n).keeps
  complete := fun n => (KeepsR.bind (R' := fun _ => True) (complete_keeps hω n) fun _ _ => KeepsR.pure trivial).keeps
end DirDist

theorem uniformWeights_subProb {n : ℤ} {w : List K} (h : uniformWeights n = .ok w) : SubProb w := by
  unfold uniformWeights at h
  split at h
  · cases h
  · unfold Py.repeatScalar at h
    split at h
    · cases h
    · rename_i h0 h1
      cases h
      have hpos : (0 : K) < (n : K) := by exact_mod_cast (by omega : (0 : ℤ) < n)
      refine ⟨fun x hx => ?_, ?_⟩
      · rw [List.eq_of_mem_replicate hx]
        exact le_of_lt (by positivity)
      · rw [List.sum_replicate, nsmul_eq_mul]
        have : ((n.toNat : ℕ) : K) = (n : K) := by
          have : ((n.toNat : ℕ) : ℤ) = n := by omega
          exact_mod_cast this
        rw [this, mul_one_div_cancel hpos.ne']

namespace Equal
/-- Object invariant. -/
def Inv (s : Equal K) : Prop := SubProb s.w

theorem random_keeps (n : PySize) : KeepsR ω Inv (random n : M K (Equal K) _) (fun _ => True) := by
  unfold random
  repeat' keeps_step
  rename_i h; exact fun s hs => uniformWeights_subProb h

theorem stable : (core : WeightCore K).Stable ω Inv where
  setD := fun _ _ h => h
  random := fun n => (random_keeps n).keeps
  complete := fun n => (KeepsR.bind (R' := fun _ => True) (random_keeps n) fun _ _ => KeepsR.pure trivial).keeps
end Equal

theorem sum_map_div (l : List ℕ) (c : K) : (l.map (fun (a : ℕ) => (a : K) / c)).sum = ((l.sum : ℕ) : K) / c := by
  induction l with
  | nil => simp
  | cons x xs ih => simp [ih, add_div]

theorem frequencies_subProb (a : List ℕ) : SubProb (Freq.frequencies a : List K) := by
  refine ⟨fun x hx => ?_, ?_⟩
  · obtain ⟨y, _, rfl⟩ := List.mem_map.1 hx
    positivity
  · unfold Freq.frequencies
    rw [sum_map_div]
    exact div_self_le_one _

namespace Freq
/-- Object invariant. -/
def Inv (s : Freq K) : Prop := SubProb s.w

theorem draw_keeps : KeepsR ω Inv (draw : M K (Freq K) _) (fun _ => True) := by
  unfold draw
  repeat' keeps_step
  · rename_i h; exact fun s hs => uniformWeights_subProb h
  · exact fun s hs => frequencies_subProb _

theorem random_keeps (n : PySize) : KeepsR ω Inv (random n : M K (Freq K) _) (fun _ => True) := by
  unfold random
  refine KeepsR.bind draw_keeps fun _ _ => ?_
  repeat' keeps_step

theorem stable : (core : WeightCore K).Stable ω Inv where
  setD := fun _ _ h => h
  random := fun n => (random_keeps n).keeps
  complete := fun n => (KeepsR.bind (R' := fun _ => True) (random_keeps n) fun _ _ => KeepsR.pure trivial).keeps
end Freq

namespace BIB
/-- Object invariant. -/
def Inv (s : BIB K) : Prop := Unit01 s.v ∧ SubProb s.w ∧ (0 ≤ s.p ∧ s.p ≤ 1)

theorem drawGeometricP_keeps (hω : ω.Legal) : KeepsR ω Inv (drawGeometricP : M K (BIB K) _) (fun _ => True) := by
  unfold drawGeometricP
  repeat' keeps_step
  rename_i h; exact fun s hs => ⟨hs.1, hs.2.1, h⟩

theorem drawPriorP_keeps (hω : ω.Legal) : KeepsR ω Inv (drawPriorP : M K (BIB K) _) (fun _ => True) := by
  unfold drawPriorP
  repeat' keeps_step
  rename_i h; exact fun s hs => ⟨hs.1, hs.2.1, h⟩

theorem optim_inv {r : Option K} (h : ∀ p, r = some p → 0 ≤ p ∧ p ≤ 1) (s : BIB K) (hs : Inv s) :
    Inv { s with p := r.getD s.p } := by
  refine ⟨hs.1, hs.2.1, ?_⟩
  cases r with
  | none => exact hs.2.2
  | some p => exact h p rfl

theorem randomP_keeps (hω : ω.Legal) : KeepsR ω Inv (randomP : M K (BIB K) _) (fun _ => True) := by
  unfold randomP
  keeps_step; keeps_step
  · exact drawGeometricP_keeps hω
  · keeps_step
    · keeps_step
    · keeps_step
      · exact drawPriorP_keeps hω
      · split
        · keeps_step
        · exact drawPriorP_keeps hω
        · exact drawGeometricP_keeps hω
        · keeps_step; keeps_step; rename_i h; exact optim_inv h
        · keeps_step; keeps_step; keeps_step; rename_i h; exact optim_inv h
        · keeps_step
        · keeps_step

theorem newSticks_keeps (hω : ω.Legal) (s : BIB K) (hs : Inv s) (k : ℤ) :
    KeepsR ω Inv (newSticks s k : M K (BIB K) _) Unit01 := by
  unfold newSticks
  exact KeepsR.ite (fun _ => (KeepsR.betaRep hω _ _ _).weaken fun _ h => h.1)
    fun _ => (KeepsR.lift _).weaken fun _ h => Unit01.of_repeat hs.2.2 h

theorem complete_keeps (hω : ω.Legal) (n : PySize) :
    KeepsR ω Inv (complete n : M K (BIB K) _) (fun _ => True) := by
  unfold complete
  keeps_step; keeps_step
  refine KeepsR.bind (KeepsR.whenM fun _ => randomP_keeps hω) fun _ _ => ?_
  split
  · keeps_step
  · refine KeepsR.bind KeepsR.self fun s hs => KeepsR.bind (KeepsR.whenM fun _ => ?_) fun _ _ => ?_
    · refine KeepsR.bind (newSticks_keeps hω s hs _) fun nv hnv => ?_
      repeat' keeps_step
      · exact fun s hs => ⟨Unit01.append hs.1 hnv, hs.2⟩
      · exact fun s hs => ⟨hs.1, stickWeights_subProb hs.1, hs.2.2⟩
    · repeat' keeps_step

theorem randomFitted_keeps (hω : ω.Legal) (a b : List ℕ) (size : PySize) (n : ℤ) :
    KeepsR ω Inv (randomFitted a b size n : M K (BIB K) _) (fun _ => True) := by
  unfold randomFitted
  refine KeepsR.bind KeepsR.self fun s hs => ?_
  refine KeepsR.bind (R := Unit01) ?_ fun v hv => ?_
  · unfold fittedSticks
    exact KeepsR.ite (fun _ => (KeepsR.betaVec hω _).weaken fun _ h => h.1)
      fun _ => (KeepsR.lift _).weaken fun _ h => Unit01.of_repeat hs.2.2 h
  · keeps_step
    · exact fun s hs => ⟨hv, stickWeights_subProb hv, hs.2.2⟩
    · exact complete_keeps hω _

theorem random_keeps (hω : ω.Legal) (n : PySize) : KeepsR ω Inv (random n : M K (BIB K) _) (fun _ => True) := by
  unfold random
  keeps_step; keeps_step; keeps_step; keeps_step
  · exact fun s hs => ⟨Unit01.nil, hs.2⟩
  · keeps_step
    · exact complete_keeps hω _
    · refine KeepsR.bind (KeepsR.whenM fun _ => randomP_keeps hω) fun _ _ => ?_
      keeps_step
      split
      · exact randomFitted_keeps hω _ _ _ _
      · keeps_step
      · exact randomFitted_keeps hω _ _ _ _
      · exact randomFitted_keeps hω _ _ _ _

theorem stable (hω : ω.Legal) : (core : WeightCore K).Stable ω Inv where
  setD := fun _ _ h => h
  random := fun n => (random_keeps hω n).keeps
  complete := fun n => (KeepsR.bind (R' := fun _ => True) (complete_keeps hω n) fun _ _ => KeepsR.pure trivial).keeps
end BIB

theorem Unit01.single {x : K} (h : 0 ≤ x ∧ x ≤ 1) : Unit01 [x] := by simpa [Unit01] using h

namespace BBin
/-- Object invariant. -/
def Inv (s : BBin K) : Prop := Unit01 s.v ∧ SubProb s.w

theorem growOne_keeps (hω : ω.Legal) : KeepsR ω Inv (growOne : M K (BBin K) _) (fun _ => True) := by
  unfold growOne
  repeat' keeps_step
  · exact fun s hs => hs
  · rename_i h; exact fun s hs => ⟨Unit01.append hs.1 (Unit01.single h), hs.2⟩

theorem grow_keeps (hω : ω.Legal) (k : ℕ) : KeepsR ω Inv (grow k : M K (BBin K) _) (fun _ => True) := by
  induction k with
  | zero => unfold grow; keeps_step
  | succ k ih => unfold grow; exact KeepsR.bind (growOne_keeps hω) fun _ _ => ih

theorem complete_keeps (hω : ω.Legal) (n : PySize) :
    KeepsR ω Inv (complete n : M K (BBin K) _) (fun _ => True) := by
  unfold complete
  keeps_step; keeps_step; keeps_step
  · repeat' keeps_step
    · exact fun s hs => hs
    · rename_i h; exact fun s hs => ⟨Unit01.single h, hs.2⟩
  · split
    · keeps_step
    · keeps_step
      refine KeepsR.bind (grow_keeps hω _) fun _ _ => ?_
      repeat' keeps_step
      exact fun s hs => ⟨hs.1, stickWeights_subProb hs.1⟩

theorem randomBinomials_keeps (hω : ω.Legal) : KeepsR ω Inv (randomBinomials : M K (BBin K) _) (fun _ => True) := by
  unfold randomBinomials
  repeat' keeps_step
  exact fun s hs => hs

theorem randomSized_keeps (hω : ω.Legal) (n : PySize) :
    KeepsR ω Inv (randomSized n : M K (BBin K) _) (fun _ => True) := by
  unfold randomSized
  keeps_step
  · exact fun s hs => ⟨Unit01.nil, hs.2⟩
  · keeps_step; keeps_step
    · exact complete_keeps hω _
    · refine KeepsR.bind (randomBinomials_keeps hω) fun _ _ => ?_
      keeps_step; keeps_step; keeps_step; keeps_step
      · rename_i h; exact fun s hs => ⟨h.1, stickWeights_subProb h.1⟩
      · exact complete_keeps hω _

theorem random_keeps (hω : ω.Legal) (n : PySize) : KeepsR ω Inv (random n : M K (BBin K) _) (fun _ => True) := by
  unfold random
  keeps_step; keeps_step
  · keeps_step
  · exact randomSized_keeps hω _

theorem stable (hω : ω.Legal) : (core : WeightCore K).Stable ω Inv where
  setD := fun _ _ h => h
  random := fun n => (random_keeps hω n).keeps
  complete := fun n => (KeepsR.bind (R' := fun _ => True) (complete_keeps hω n) fun _ _ => KeepsR.pure trivial).keeps
end BBin

namespace BBer
/-- Object invariant. -/
def Inv (s : BBer K) : Prop := Unit01 s.v ∧ SubProb s.w

theorem complete_keeps (hω : ω.Legal) (n : PySize) :
    KeepsR ω Inv (complete n : M K (BBer K) _) (fun _ => True) := by
  unfold complete
  keeps_step; split
  · keeps_step
  · keeps_step
    refine KeepsR.bind (KeepsR.whenM fun _ => ?_) fun _ _ => ?_
    · refine KeepsR.bind (KeepsR.whenM fun _ => ?_) fun _ _ => ?_
      · repeat' keeps_step
        rename_i h; exact fun s hs => ⟨h.1, hs.2⟩
      · refine KeepsR.bind KeepsR.self fun s hs => ?_
        keeps_step; keeps_step
        · exact fun s hs => hs
        · refine KeepsR.bind (KeepsR.lift _) fun vl hvl => ?_
          keeps_step
          refine KeepsR.bind (KeepsR.betaRep hω _ _ _) fun nv hnv => ?_
          refine KeepsR.bind (KeepsR.lift _) fun ext hext => ?_
          have hvl' : Unit01 (vl :: nv) := Unit01.cons_iff.2 ⟨hs.1 _ (index_mem hvl), hnv.1⟩
          repeat' keeps_step
          · exact fun s hs => ⟨Unit01.append hs.1 (Unit01.of_gather hvl' hext), hs.2⟩
          · exact fun s hs => ⟨hs.1, stickWeights_subProb hs.1⟩
    · repeat' keeps_step

theorem bernLoop_keeps (hω : ω.Legal) (a b : List ℕ) (js : List ℕ) (bern : List ℤ) :
    KeepsR ω Inv (bernLoop a b bern js : M K (BBer K) _) (fun _ => True) := by
  induction js generalizing bern with
  | nil => unfold bernLoop; keeps_step
  | cons j js ih =>
    unfold bernLoop
    keeps_step; split
    · keeps_step
    · keeps_step; exact ih _

theorem randomBernoullis_keeps (hω : ω.Legal) (n : Option ℤ) :
    KeepsR ω Inv (randomBernoullis n : M K (BBer K) _) (fun _ => True) := by
  unfold randomBernoullis
  keeps_step; split
  · keeps_step
  · keeps_step; keeps_step
    · keeps_step
    · keeps_step
      · exact fun s hs => hs
      · keeps_step
        · keeps_step; keeps_step; keeps_step
          · keeps_step
          · refine KeepsR.bind (bernLoop_keeps hω _ _ _ _) fun _ _ => ?_
            keeps_step; exact fun s hs => hs
        · keeps_step; exact fun s hs => hs

theorem randomSized_keeps (hω : ω.Legal) (n : PySize) :
    KeepsR ω Inv (randomSized n : M K (BBer K) _) (fun _ => True) := by
  unfold randomSized
  keeps_step
  · exact fun s hs => ⟨Unit01.nil, hs.2⟩
  · keeps_step; keeps_step
    · refine KeepsR.bind (randomBernoullis_keeps hω _) fun _ _ => ?_
      keeps_step; keeps_step
      refine KeepsR.bind (KeepsR.betaRep hω _ _ _) fun v hv => ?_
      keeps_step
      · exact fun s hs => ⟨hv.1, hs.2⟩
      · refine KeepsR.bind (KeepsR.lift _) fun v' hv' => ?_
        repeat' keeps_step
        exact fun s hs => ⟨Unit01.of_gather hv.1 hv', stickWeights_subProb (Unit01.of_gather hv.1 hv')⟩
    · keeps_step
      refine KeepsR.bind (randomBernoullis_keeps hω _) fun _ _ => ?_
      keeps_step; keeps_step; keeps_step; keeps_step
      refine KeepsR.bind (KeepsR.betaVec hω _) fun v hv => ?_
      keeps_step
      · exact fun s hs => ⟨hv.1, hs.2⟩
      · refine KeepsR.bind (KeepsR.lift _) fun v' hv' => ?_
        keeps_step
        · exact fun s hs => ⟨Unit01.of_gather hv.1 hv', stickWeights_subProb (Unit01.of_gather hv.1 hv')⟩
        · exact complete_keeps hω _

theorem random_keeps (hω : ω.Legal) (n : PySize) : KeepsR ω Inv (random n : M K (BBer K) _) (fun _ => True) := by
  unfold random
  keeps_step; keeps_step
  · keeps_step
  · exact randomSized_keeps hω _

theorem stable (hω : ω.Legal) : (core : WeightCore K).Stable ω Inv where
  setD := fun _ _ h => h
  random := fun n => (random_keeps hω n).keeps
  complete := fun n => (KeepsR.bind (R' := fun _ => True) (complete_keeps hω n) fun _ _ => KeepsR.pure trivial).keeps
end BBer

namespace BID
/-- Object invariant. -/
def Inv (s : BID K) : Prop := Unit01 s.v ∧ SubProb s.w ∧ Unit01 s.vBase

theorem useStick_keeps (hω : ω.Legal) (jj : ℕ) : KeepsR ω Inv (useStick jj : M K (BID K) _) (fun _ => True) := by
  unfold useStick
  refine KeepsR.bind KeepsR.self fun s hs => ?_
  keeps_step
  · refine KeepsR.bind (KeepsR.lift _) fun x hx => ?_
    repeat' keeps_step
    · exact fun t ht => ⟨Unit01.append ht.1 (Unit01.single (hs.2.2 _ (index_mem hx))), ht.2⟩
    · exact fun t ht => ht
  · repeat' keeps_step
    · rename_i h; exact fun t ht => ⟨ht.1, ht.2.1, Unit01.append ht.2.2 (Unit01.single h)⟩
    · exact fun t ht => ht
    · rename_i h _ _ _ _; exact fun t ht => ⟨Unit01.append ht.1 (Unit01.single h), ht.2⟩

theorem growOne_keeps (hω : ω.Legal) : KeepsR ω Inv (growOne : M K (BID K) _) (fun _ => True) := by
  unfold growOne
  keeps_step; keeps_step
  · keeps_step
  · keeps_step
    refine KeepsR.bind (useStick_keeps hω _) fun _ _ => ?_
    keeps_step
    exact fun t ht => ht

theorem grow_keeps (hω : ω.Legal) (k : ℕ) : KeepsR ω Inv (grow k : M K (BID K) _) (fun _ => True) := by
  induction k with
  | zero => unfold grow; keeps_step
  | succ k ih => unfold grow; exact KeepsR.bind (growOne_keeps hω) fun _ _ => ih

theorem complete_keeps (hω : ω.Legal) (n : PySize) :
    KeepsR ω Inv (complete n : M K (BID K) _) (fun _ => True) := by
  unfold complete
  keeps_step; keeps_step
  · repeat' keeps_step
    · rename_i h; exact fun t ht => ⟨ht.1, ht.2.1, h.1⟩
    · exact fun t ht => ht
  · split
    · keeps_step
    · keeps_step
      refine KeepsR.bind (grow_keeps hω _) fun _ _ => ?_
      keeps_step
      exact fun t ht => ⟨ht.1, stickWeights_subProb ht.1, ht.2.2⟩

theorem drawBase_keeps (hω : ω.Legal) (alpha : K) (a b dB : List ℕ) (js : List ℕ) :
    KeepsR ω Inv (drawBase alpha a b dB js : M K (BID K) _) Unit01 := by
  induction js with
  | nil => unfold drawBase; exact KeepsR.pure Unit01.nil
  | cons j js ih =>
    unfold drawBase
    refine KeepsR.bind (KeepsR.beta hω _ _) fun x hx => KeepsR.bind ih fun xs hxs => KeepsR.pure ?_
    exact Unit01.cons_iff.2 ⟨hx, hxs⟩

theorem setBase_inv (j x : ℕ) (s : BID K) (h : Inv s) : Inv (setBase j x s) := by
  unfold setBase
  split <;> exact h

theorem updateOne_keeps (hω : ω.Legal) (F : SpecFun K) (a b : List ℕ) (j : ℕ) :
    KeepsR ω Inv (updateOne F a b j : M K (BID K) _) (fun _ => True) := by
  unfold updateOne
  repeat' keeps_step
  · exact setBase_inv _ _
  · exact setBase_inv _ _
  · rename_i h; exact fun t ht => ⟨ht.1, ht.2.1, Unit01.append ht.2.2 (Unit01.single h)⟩

theorem updateAll_keeps (hω : ω.Legal) (F : SpecFun K) (a b : List ℕ) (js : List ℕ) :
    KeepsR ω Inv (updateAll F a b js : M K (BID K) _) (fun _ => True) := by
  induction js with
  | nil => unfold updateAll; keeps_step
  | cons j js ih => unfold updateAll; exact KeepsR.bind (updateOne_keeps hω F a b j) fun _ _ => ih

theorem randomFitted_keeps (hω : ω.Legal) (F : SpecFun K) :
    KeepsR ω Inv (randomFitted F : M K (BID K) _) (fun _ => True) := by
  unfold randomFitted
  keeps_step; keeps_step; keeps_step
  · intro s hs
    split
    · exact hs
    · split <;> exact hs
  · keeps_step; keeps_step; keeps_step
    refine KeepsR.bind (drawBase_keeps hω _ _ _ _ _) fun vb hvb => ?_
    keeps_step
    · exact fun t ht => ⟨ht.1, ht.2.1, hvb⟩
    · refine KeepsR.bind (updateAll_keeps hω _ _ _ _) fun _ _ => ?_
      keeps_step
      · exact fun t ht => ht
      · refine KeepsR.bind KeepsR.self fun s hs => KeepsR.bind (KeepsR.lift _) fun v hv => ?_
        repeat' keeps_step
        exact fun t ht => ⟨Unit01.of_gather hs.2.2 hv, stickWeights_subProb (Unit01.of_gather hs.2.2 hv), ht.2.2⟩

theorem random_keeps (hω : ω.Legal) (F : SpecFun K) (n : PySize) :
    KeepsR ω Inv (random F n : M K (BID K) _) (fun _ => True) := by
  unfold random
  keeps_step; keeps_step; keeps_step; split
  · keeps_step
  · keeps_step
  · keeps_step
    · exact fun t ht => ⟨Unit01.nil, ht.2.1, Unit01.nil⟩
    · keeps_step
      · refine KeepsR.bind (complete_keeps hω _) fun _ _ => ?_
        repeat' keeps_step
      · exact randomFitted_keeps hω F

theorem stable (hω : ω.Legal) (F : SpecFun K) : (core F : WeightCore K).Stable ω Inv where
  setD := fun _ _ h => h
  random := fun n => (random_keeps hω F n).keeps
  complete := fun n => (KeepsR.bind (R' := fun _ => True) (complete_keeps hω n) fun _ _ => KeepsR.pure trivial).keeps
end BID
end Verif
