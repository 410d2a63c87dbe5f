import Verif.Rng
import Verif.Spec
import Mathlib.Tactic.Linarith
import Mathlib.Tactic.Positivity
import Mathlib.Tactic.FieldSimp

/-! # A concrete generator, used in the examples that accompany the theorems -/

namespace Verif
open Spec
variable {K : Type} [Field K] [LinearOrder K] [IsStrictOrderedRing K]

/-- A generator whose `i`-th Beta draw is `1 / (i + 2)` and which answers the other requests in the simplest legal way. -/
def demo : Oracle K where
  beta := fun i _ _ => 1 / ((i : K) + 2)
  binom := fun _ n p => if p = 1 then n else 0
  unif := fun i => 1 / ((i : K) + 2)
  dirichlet := fun _ l => l.map (fun _ => 1 / (l.length : K))
  choice := fun _ p => p.findIdx (fun x => decide (0 < x))
  gumbelMax := fun _ l => if l.any Option.isSome then l.findIdx Option.isSome else 0
  optim := fun i _ _ => some (1 / ((i : K) + 2))

theorem demo_frac (i : ℕ) : 0 < 1 / ((i : K) + 2) ∧ 1 / ((i : K) + 2) < 1 := by
  have h : (0 : K) ≤ (i : K) := Nat.cast_nonneg _
  refine ⟨by positivity, ?_⟩
  rw [div_lt_one (by linarith)]
  linarith

theorem sum_nonpos' {l : List K} (h : ∀ x ∈ l, x ≤ 0) : l.sum ≤ 0 := by
  induction l with
  | nil => simp
  | cons x xs ih =>
    rw [List.sum_cons]
    have := h x (by simp)
    have := ih fun y hy => h y (by simp [hy])
    linarith

theorem demo_legal : (demo : Oracle K).Legal where
  beta_nonneg := fun i _ _ => (demo_frac i).1.le
  beta_le_one := fun i _ _ => (demo_frac i).2.le
  binom_nonneg := by intro i n p h; simp only [demo]; split <;> simp [h]
  binom_le := by intro i n p h; simp only [demo]; split <;> simp [h]
  binom_zero := by intro i n h; simp [demo]
  binom_one := by intro i n h; simp [demo]
  unif_nonneg := fun i => (demo_frac i).1.le
  unif_lt_one := fun i => (demo_frac i).2
  dirichlet_length := by intro i l; simp [demo]
  dirichlet_nonneg := by
    intro i l x hx
    obtain ⟨y, _, rfl⟩ := List.mem_map.1 hx
    positivity
  dirichlet_sum := by
    intro i l hl
    have : (l.length : K) ≠ 0 := by
      have := List.length_pos_iff.2 hl
      exact_mod_cast this.ne'
    simp [demo, this]
  choice_pos := by
    intro i p h0 hs
    have hex : ∃ x ∈ p, 0 < x := by
      by_contra hc
      push Not at hc
      have : p.sum ≤ 0 := sum_nonpos' hc
      exact absurd hs (not_lt.2 this)
    obtain ⟨x, hx, hx0⟩ := hex
    have hlt : p.findIdx (fun x => decide (0 < x)) < p.length :=
      List.findIdx_lt_length_of_exists ⟨x, hx, by simpa using hx0⟩
    refine ⟨p[p.findIdx (fun x => decide (0 < x))], by simp [demo], ?_⟩
    simpa using List.findIdx_getElem (p := fun x => decide (0 < x)) (w := hlt)
  gumbel_lt := by
    intro i l hl
    simp only [demo]
    split
    · rename_i h
      obtain ⟨x, hx, hx'⟩ := List.any_eq_true.1 h
      exact List.findIdx_lt_length_of_exists ⟨x, hx, hx'⟩
    · exact List.length_pos_iff.2 hl
  gumbel_some := by
    rintro i l ⟨x, hx, hne⟩
    have h : l.any Option.isSome = true := List.any_eq_true.2 ⟨x, hx, Option.isSome_iff_ne_none.2 hne⟩
    have hlt : l.findIdx Option.isSome < l.length :=
      List.findIdx_lt_length_of_exists ⟨x, hx, Option.isSome_iff_ne_none.2 hne⟩
    simp only [demo, h, if_true]
    have := List.findIdx_getElem (p := Option.isSome) (w := hlt)
    obtain ⟨y, hy⟩ := Option.isSome_iff_exists.1 this
    exact ⟨y, by rw [List.getElem?_eq_getElem hlt, hy]⟩
  optim_mem := by
    intro i v ps p h
    simp only [demo, Option.some.injEq] at h
    rw [← h]
    exact ⟨(demo_frac i).1.le, (demo_frac i).2.le⟩

/-- As `demo`, but a Beta draw is the mean `a / (a + b)` of its distribution, so it shows which parameters were used. -/
def meanO : Oracle K := { demo with beta := fun _ a b => if 0 < a ∧ 0 < b then a / (a + b) else 0 }

theorem meanO_legal : (meanO : Oracle K).Legal :=
  { (demo_legal : (demo : Oracle K).Legal) with
    beta_nonneg := by
      intro i a b
      simp only [meanO]
      split
      · rename_i h; exact div_nonneg h.1.le (by linarith [h.1, h.2])
      · exact le_rfl
    beta_le_one := by
      intro i a b
      simp only [meanO]
      split
      · rename_i h; rw [div_le_one (by linarith [h.1, h.2])]; linarith [h.2]
      · exact zero_le_one }

end Verif
