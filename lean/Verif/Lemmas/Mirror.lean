import Verif.Lemmas.Gibbs
import Mathlib.Data.Matrix.Mul
import Mathlib.Algebra.BigOperators.Ring.Finset
import Mathlib.Tactic.Ring
import Mathlib.Tactic.FieldSimp

/-! # Runs on transformed data: simulation rules and affine maps -/

set_option linter.unusedSectionVars false

namespace Verif
variable {K σ τ α β γ δ : Type}

/-- `y` run on the image of the state `s` does what `x` does on `s`, up to the maps `T` of states and `f` of results; `x` keeps `I`. -/
def Mir (ω : Oracle K) (T : σ → τ) (I : σ → Prop) (f : α → β) (x : M K σ α) (y : M K τ β) (s : σ × ℕ) : Prop :=
  y ω (T s.1, s.2) = ((x ω s).1.map f, (T (x ω s).2.1, (x ω s).2.2)) ∧ I (x ω s).2.1

namespace Mir
variable {ω : Oracle K} {T : σ → τ} {I : σ → Prop} {s : σ × ℕ}

theorem pure {f : α → β} {a : α} {b : β} (h : b = f a) (hI : I s.1) : Mir ω T I f (Pure.pure a : M K σ α) (Pure.pure b : M K τ β) s := by
  subst h; exact ⟨rfl, hI⟩

theorem raise {f : α → β} (e : PyErr) (hI : I s.1) : Mir ω T I f (M.raise e : M K σ α) (M.raise e : M K τ β) s := ⟨rfl, hI⟩

theorem bind {f : α → β} {g : γ → δ} {x : M K σ α} {y : M K τ β} {k : α → M K σ γ} {k' : β → M K τ δ} (h : Mir ω T I f x y s)
    (hk : ∀ a s', x ω s = (.ok a, s') → I s'.1 → Mir ω T I g (k a) (k' (f a)) s') : Mir ω T I g (x >>= k) (y >>= k') s := by
  obtain ⟨h1, h2⟩ := h
  unfold Mir
  rw [M.bind_apply, M.bind_apply, h1]
  rcases hx : x ω s with ⟨e | a, s'⟩
  · rw [hx] at h2; exact ⟨rfl, h2⟩
  · rw [hx] at h2; exact hk a s' hx h2

theorem self_bind {g : γ → δ} {k : σ → M K σ γ} {k' : τ → M K τ δ} (h : Mir ω T I g (k s.1) (k' (T s.1)) s) :
    Mir ω T I g (M.self >>= k) (M.self >>= k') s := h

theorem assign {h : σ → σ} {h' : τ → τ} (he : h' (T s.1) = T (h s.1)) (hI : I (h s.1)) :
    Mir ω T I (id : Unit → Unit) (M.assign h : M K σ Unit) (M.assign h' : M K τ Unit) s := by
  refine ⟨?_, hI⟩
  rw [M.assign_apply, M.assign_apply, he]; rfl

theorem lift {f : α → β} {e : Except PyErr α} {e' : Except PyErr β} (h : e' = e.map f) (hI : I s.1) :
    Mir ω T I f (M.lift e : M K σ α) (M.lift e' : M K τ β) s := by
  subst h; exact ⟨rfl, hI⟩

theorem ite {c c' : Prop} [Decidable c] [Decidable c'] {f : α → β} {x x' : M K σ α} {y y' : M K τ β} (hc : c ↔ c')
    (h : c → Mir ω T I f x y s) (h' : ¬ c → Mir ω T I f x' y' s) :
    Mir ω T I f (if c then x else x') (if c' then y else y') s := by
  by_cases hcc : c
  · rw [if_pos hcc, if_pos (hc.1 hcc)]; exact h hcc
  · rw [if_neg hcc, if_neg (fun h => hcc (hc.2 h))]; exact h' hcc

theorem whenM {c : Prop} [Decidable c] {x : M K σ Unit} {y : M K τ Unit} (hI : I s.1)
    (h : Mir ω T I (id : Unit → Unit) x y s) : Mir ω T I (id : Unit → Unit) (M.whenM c x) (M.whenM c y) s :=
  ite Iff.rfl (fun _ => h) (fun _ => pure rfl hI)

theorem draw1 {f : α → β} {u : ℕ → α} {v : ℕ → β} (h : ∀ p, v p = f (u p)) (hI : I s.1) :
    Mir ω T I f (Mix.GM.draw1 u : M K σ α) (Mix.GM.draw1 v : M K τ β) s := by
  refine ⟨?_, hI⟩
  unfold Mix.GM.draw1
  rw [h]; rfl

theorem draws {u v : ℕ → α} (h : ∀ p, v p = u p) (n : ℕ) (hI : I s.1) :
    Mir ω T I id (Mix.GM.draws u n : M K σ (List α)) (Mix.GM.draws v n : M K τ (List α)) s := by
  refine ⟨?_, hI⟩
  rw [show v = u from funext h]; rfl
end Mir

theorem except_map_id {ε α : Type} (e : Except ε α) : e.map id = e := by cases e <;> rfl

namespace Mix

/-- An affine map of the space of observations. -/
structure Affine (K : Type) (m : ℕ) where
  B : Fin m → Fin m → K
  c : Fin m → K

namespace Affine
variable [Field K] {m : ℕ} (g : Affine K m)

/-- The linear part. -/
def lin (x : Fin m → K) (i : Fin m) : K := ∑ j, g.B i j * x j

/-- The image of a point. -/
def pt (x : Fin m → K) (i : Fin m) : K := g.lin x i + g.c i

/-- `B P Bᵀ`, the image of a covariance matrix. -/
def conj (P : Fin m → Fin m → K) (i j : Fin m) : K := ∑ k, ∑ l, g.B i k * P k l * g.B j l

/-- The image of a normal - inverse Wishart law. -/
def niw (q : NIW K m) : NIW K m := { mu := g.pt q.mu, lam := q.lam, psi := g.conj q.psi, nu := q.nu }

theorem lin_add (x y : Fin m → K) (i : Fin m) : g.lin (fun j => x j + y j) i = g.lin x i + g.lin y i := by
  unfold lin
  rw [← Finset.sum_add_distrib]
  exact Finset.sum_congr rfl fun j _ => by ring

theorem lin_mul (a : K) (x : Fin m → K) (i : Fin m) : g.lin (fun j => a * x j) i = a * g.lin x i := by
  unfold lin
  rw [Finset.mul_sum]
  exact Finset.sum_congr rfl fun j _ => by ring

theorem lin_sub (x y : Fin m → K) (i : Fin m) : g.pt x i - g.pt y i = g.lin (fun j => x j - y j) i := by
  unfold pt lin
  rw [add_sub_add_right_eq_sub, ← Finset.sum_sub_distrib]
  exact Finset.sum_congr rfl fun j _ => by ring

theorem conj_add (P Q : Fin m → Fin m → K) (i j : Fin m) : g.conj (fun k l => P k l + Q k l) i j = g.conj P i j + g.conj Q i j := by
  unfold conj
  rw [← Finset.sum_add_distrib]
  refine Finset.sum_congr rfl fun k _ => ?_
  rw [← Finset.sum_add_distrib]
  exact Finset.sum_congr rfl fun l _ => by ring

theorem conj_mul (a : K) (P : Fin m → Fin m → K) (i j : Fin m) : g.conj (fun k l => a * P k l) i j = a * g.conj P i j := by
  unfold conj
  rw [Finset.mul_sum]
  refine Finset.sum_congr rfl fun k _ => ?_
  rw [Finset.mul_sum]
  exact Finset.sum_congr rfl fun l _ => by ring

theorem conj_zero (i j : Fin m) : g.conj (fun _ _ => 0) i j = 0 := by simp [conj]

theorem conj_outer (x y : Fin m → K) (i j : Fin m) : g.conj (fun k l => x k * y l) i j = g.lin x i * g.lin y j := by
  unfold conj lin
  rw [Finset.sum_mul_sum]
  refine Finset.sum_congr rfl fun k _ => Finset.sum_congr rfl fun l _ => by ring

/-! ### Sums over data -/

variable {ι : Type}

theorem lin_sum (l : List ι) (v : ι → Fin m → K) (i : Fin m) :
    (l.map fun t => g.lin (v t) i).sum = g.lin (fun j => (l.map fun t => v t j).sum) i := by
  induction l with
  | nil => simp [lin]
  | cons t l ih => simp only [List.map_cons, List.sum_cons, ih]; rw [lin_add]

theorem conj_sum (l : List ι) (P : ι → Fin m → Fin m → K) (i j : Fin m) :
    (l.map fun t => g.conj (P t) i j).sum = g.conj (fun k n => (l.map fun t => P t k n).sum) i j := by
  induction l with
  | nil => simp [conj]
  | cons t l ih => simp only [List.map_cons, List.sum_cons, ih]; rw [conj_add]

/-- An affine combination. -/
theorem pt_sum (l : List ι) (w : ι → K) (hw : (l.map w).sum = 1) (v : ι → Fin m → K) (i : Fin m) :
    (l.map fun t => w t * g.pt (v t) i).sum = g.pt (fun j => (l.map fun t => w t * v t j).sum) i := by
  unfold pt
  rw [← lin_sum]
  have : ∀ l : List ι, (l.map fun t => w t * (g.lin (v t) i + g.c i)).sum = (l.map fun t => g.lin (fun j => w t * v t j) i).sum + (l.map w).sum * g.c i := by
    intro l
    induction l with
    | nil => simp
    | cons t l ih =>
      simp only [List.map_cons, List.sum_cons, ih, lin_mul]
      ring
  rw [this, hw, one_mul]

theorem meanVec_pt [CharZero K] {ys : List (Fin m → K)} (hy : ys ≠ []) : meanVec (ys.map g.pt) = g.pt (meanVec ys) := by
  have hn : (ys.length : K) ≠ 0 := Nat.cast_ne_zero.2 (List.length_pos_of_ne_nil hy).ne'
  funext i
  have h := g.pt_sum ys (fun _ => (ys.length : K)⁻¹) (by simp [hn]) id i
  have e : ∀ (f : (Fin m → K) → K), (ys.map f).sum / (ys.length : K) = (ys.map fun y => (ys.length : K)⁻¹ * f y).sum := by
    intro f
    rw [List.sum_map_mul_left, div_eq_inv_mul]
  unfold meanVec
  rw [List.map_map, List.length_map, e]
  refine h.trans ?_
  congr 1
  funext j
  rw [e]
  rfl

theorem centred_pt [CharZero K] {ys : List (Fin m → K)} (i j : Fin m) :
    ((ys.map g.pt).map fun y => (y i - meanVec (ys.map g.pt) i) * (y j - meanVec (ys.map g.pt) j)).sum =
      g.conj (fun i j => (ys.map fun y => (y i - meanVec ys i) * (y j - meanVec ys j)).sum) i j := by
  rcases eq_or_ne ys [] with rfl | hy
  · simp [conj]
  rw [← conj_sum, List.map_map]
  congr 1
  apply List.map_congr_left
  intro y _
  simp only [Function.comp_apply]
  rw [meanVec_pt g hy, lin_sub, lin_sub, conj_outer]

theorem covBias_pt [CharZero K] (ys : List (Fin m → K)) : covBias (ys.map g.pt) = g.conj (covBias ys) := by
  funext i j
  unfold covBias
  rw [centred_pt, List.length_map, div_eq_inv_mul, ← conj_mul]
  simp only [div_eq_inv_mul]

theorem cov_pt [LinearOrder K] [CharZero K] (ys : List (Fin m → K)) : GM.cov (ys.map g.pt) = g.conj (GM.cov ys) := by
  funext i j
  unfold GM.cov
  rw [centred_pt, List.length_map, div_eq_inv_mul, ← conj_mul]
  simp only [div_eq_inv_mul]

theorem mix_pt {a b : K} (h : a + b ≠ 0) (x y : Fin m → K) :
    (fun i => (a * g.pt x i + b * g.pt y i) / (a + b)) = g.pt (fun i => (a * x i + b * y i) / (a + b)) := by
  funext i
  have e : (fun j => (a * x j + b * y j) / (a + b)) = fun j => (a + b)⁻¹ * (a * x j + b * y j) := by funext j; rw [div_eq_inv_mul]
  unfold pt
  rw [e, lin_mul, lin_add, lin_mul, lin_mul]
  field_simp
  ring

theorem posteriorNIW_pt [LinearOrder K] [IsStrictOrderedRing K] (ys : List (Fin m → K)) (q : NIW K m) (hl : 0 < q.lam) :
    posteriorNIW (ys.map g.pt) (g.niw q) = g.niw (posteriorNIW ys q) := by
  have hd : q.lam + (ys.length : K) ≠ 0 := (add_pos_of_pos_of_nonneg hl (Nat.cast_nonneg _)).ne'
  unfold posteriorNIW niw
  rcases eq_or_ne ys [] with rfl | hy
  · have hl' := hl.ne'
    simp only [List.map_nil, List.length_nil, Nat.cast_zero, zero_mul, add_zero, zero_div, mul_div_assoc, div_self hl', mul_comm q.lam, mul_one]
  · simp only [List.length_map, meanVec_pt g hy, NIW.mk.injEq, true_and, and_true]
    refine ⟨g.mix_pt hd _ _, ?_⟩
    funext i j
    rw [conj_add, conj_add, conj_mul, conj_mul, conj_outer, covBias_pt, lin_sub, lin_sub]
end Affine
end Mix
end Verif
