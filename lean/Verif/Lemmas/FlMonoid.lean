import Verif.Lemmas.Float
import Mathlib.Data.List.Perm.Basic

/-! # Addition of floats with special values is commutative and associative (rounding is not modelled) -/

namespace Verif.Fl
variable {K : Type} [Field K]

theorem add_comm' (x y : Fl K) : x.add y = y.add x := by cases x <;> cases y <;> simp [add, add_comm]

theorem add_assoc' (x y z : Fl K) : (x.add y).add z = x.add (y.add z) := by cases x <;> cases y <;> cases z <;> simp [add, add_assoc]

theorem zero_add' (x : Fl K) : (fin 0).add x = x := by cases x <;> simp [add]

theorem foldl_add_shift (l : List (Fl K)) (a : Fl K) : l.foldl add a = a.add (sum l) := by
  unfold sum
  induction l generalizing a with
  | nil => rw [List.foldl_nil, List.foldl_nil, add_comm', zero_add']
  | cons x xs ih => rw [List.foldl_cons, List.foldl_cons, ih, ih (a := (fin 0).add x), zero_add', add_assoc']

theorem sum_cons' (x : Fl K) (l : List (Fl K)) : sum (x :: l) = x.add (sum l) := by
  rw [sum, List.foldl_cons, zero_add', foldl_add_shift]

theorem sum_perm {l l' : List (Fl K)} (h : l.Perm l') : sum l = sum l' := by
  induction h with
  | nil => rfl
  | cons x _ ih => rw [sum_cons', sum_cons', ih]
  | swap x y l => rw [sum_cons', sum_cons', sum_cons', sum_cons', ← add_assoc', add_comm' y x, add_assoc']
  | trans _ _ ih1 ih2 => rw [ih1, ih2]
end Verif.Fl
