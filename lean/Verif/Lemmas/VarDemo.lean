import Verif.Lemmas.VarFit
import Verif.Lemmas.GibbsDemo

/-! # A concrete surrounding for the variational algorithm, used in examples and counterexamples -/

namespace Verif.Mix

/-- Rational functions with the shape of the special functions. -/
def demoFun : MathFun ℚ where
  digamma := fun x => x
  lgamma := fun x => x
  log := fun x => x - 1
  exp := fun x => if x ≤ 0 then 1 / (1 - x) else 1 + x
  sqrt := fun x => x
  pow := fun x _ => x
  pi := 3

theorem demoFun_sane : Sane demoFun where
  exp_pos := by
    intro x
    show 0 < if x ≤ 0 then 1 / (1 - x) else 1 + x
    split
    · apply one_div_pos.2; linarith
    · linarith
  exp_lt := by
    intro x y h
    show (if x ≤ 0 then 1 / (1 - x) else 1 + x) < if y ≤ 0 then 1 / (1 - y) else 1 + y
    by_cases hy : y ≤ 0
    · have hx : x ≤ 0 := by linarith
      rw [if_pos hx, if_pos hy]
      exact one_div_lt_one_div_of_lt (by linarith) (by linarith)
    · rw [if_neg hy]
      by_cases hx : x ≤ 0
      · rw [if_pos hx]
        have : 1 / (1 - x) ≤ 1 := by rw [div_le_one (by linarith)]; linarith
        linarith
      · rw [if_neg hx]; linarith
  sqrt_pos := fun x h => h

/-- Draws of the variational start: the prior mean plus the stream position, the prior matrix. -/
def vworld : VWorld ℚ 1 := { demoFun with
  niw := fun p q => (fun i => q.mu i + (p : ℚ), q.psi)
  tol := 1 / 100 }

/-- k-means that finds one cluster only (all observations equal). -/
def lumpWorld : World ℚ 1 ℚ := { world with kmeans := fun _ ys _ => .ok (ys.map (fun _ => 0)) }

/-- A fresh Dirichlet process mixture with its variational part. -/
def dpVM (T : ℤ) : VM (varDP demoFun) 1 ℚ := VM.init _ (dpObj 1 T 0 1)
end Verif.Mix
