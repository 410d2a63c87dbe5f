import Verif.Lemmas.Reach
import Verif.Lemmas.Demo

/-!
# C11: Dirichlet distribution: conjugate parameters, and rejection of impossible labels

After any history of calls on a `DirichletDistribution` with positive `alpha`, `random` answers with the generator's
`Dirichlet(alpha_j + #{i: d_i = j})` when every label is a component number, and raises `ValueError` exactly otherwise; in that case object
and generator are unchanged.
-/

set_option linter.unusedSectionVars false

namespace Verif
open Spec
variable {K : Type} [Field K] [LinearOrder K] [IsStrictOrderedRing K]

/-- The conjugate Dirichlet parameters. -/
def dirichletPosterior (alpha : List K) (d : List ℤ) : List K := alpha.mapIdx (fun j a => a + (nEq d j : K))

/-- Every label is the number of a component. -/
def LabelsBelow (d : List ℤ) (k : ℕ) : Prop := ∀ x ∈ d, 0 ≤ x ∧ x < (k : ℤ)

theorem DirDist.posterior_eq {alpha : List K} {d : List ℤ} {a : List ℕ} (hA : IsBincount d a) :
    DirDist.posterior alpha a = dirichletPosterior alpha d := by
  unfold DirDist.posterior dirichletPosterior
  congr 1
  funext j x
  rw [hA.getElem? j]
  split
  · rfl
  · rename_i h
    have : nEq d j = 0 := by
      simp only [nEq, List.countP_eq_zero, decide_eq_true_eq]
      intro y hy
      have := hA.bound y hy
      omega
    rw [this]; rfl

theorem dirichletPosterior_nonneg {alpha : List K} (ha : ∀ x ∈ alpha, 0 < x) (d : List ℤ) :
    ∀ x ∈ dirichletPosterior alpha d, 0 ≤ x := by
  intro x hx
  obtain ⟨j, hj, rfl⟩ := List.mem_mapIdx.1 hx
  have := ha _ (List.getElem_mem hj)
  have h2 : (0 : K) ≤ (nEq d j : K) := Nat.cast_nonneg _
  linarith

section
variable (log : K → K) {ω : Oracle K} (pos : ℕ) (ops : List (WOp K)) (n : ℤ) {alpha : List K} (ha : ∀ x ∈ alpha, 0 < x)
include ha

theorem DirDist.random_draw {s : DirDist K × ℕ} (hal : s.1.alpha = alpha) (size : PySize)
    (hd : LabelsBelow s.1.d alpha.length) :
    ∃ t, DirDist.random size ω s = (.ok (ω.dirichlet s.2 (dirichletPosterior alpha s.1.d)), t) ∧
      t.1.w = ω.dirichlet s.2 (dirichletPosterior alpha s.1.d) ∧ t.1.d = s.1.d ∧ t.2 = s.2 + 1 := by
  have : wp ω (DirDist.random size) (fun r t => r = ω.dirichlet s.2 (dirichletPosterior alpha s.1.d) ∧
      t.1.w = ω.dirichlet s.2 (dirichletPosterior alpha s.1.d) ∧ t.1.d = s.1.d ∧ t.2 = s.2 + 1) (fun _ _ => False) s := by
    have hnn := dirichletPosterior_nonneg ha s.1.d
    unfold DirDist.random DirDist.draw
    wp_simp
    refine ⟨fun hlen => ⟨fun m hm => ⟨fun hc => ?_, fun _ => ⟨fun a hb => ?_, fun e he => ?_⟩⟩, fun e he => ?_⟩, fun hlen => ?_⟩
    · have := (hd m (maxInt_eq_ok_iff.1 hm).1).2
      rw [hal] at hc; omega
    · rw [hal, DirDist.posterior_eq (IsBincount.of_ok hb)]
      refine ⟨fun ⟨x, hx, h0⟩ => absurd (hnn x hx) (not_le.2 h0), fun _ => ⟨rf, rf, rf, rf⟩⟩
    · obtain ⟨a, hb, _⟩ := bincount_ok (d := s.1.d) fun x hx => (hd x hx).1
      rw [hb] at he; cases he
    · rcases maxInt_cases s.1.d with ⟨h, _⟩ | ⟨m, h, _⟩
      · rw [h] at hlen; simp at hlen
      · rw [h] at he; cases he
    · have h0 : s.1.d = [] := by rw [← List.length_eq_zero_iff]; omega
      have e : dirichletPosterior alpha s.1.d = alpha := by
        rw [h0]; unfold dirichletPosterior
        apply List.ext_getElem? ; intro j
        simp [nEq]
      rw [hal, e]
      exact ⟨fun ⟨x, hx, hlt⟩ => absurd (ha x hx) (not_lt.2 hlt.le), fun _ => ⟨rf, rf, rf, rf⟩⟩
  obtain ⟨r, t, h, rfl, h2⟩ := wp_total this
  exact ⟨t, h, h2⟩

theorem C11_draw {s : DirDist K × ℕ} (hs : DirDist.cls.run log ω (DirDist.initList n alpha, pos) ops = s) (size : PySize)
    (hd : LabelsBelow s.1.d alpha.length) :
    ∃ t, DirDist.random size ω s = (.ok (ω.dirichlet s.2 (dirichletPosterior alpha s.1.d)), t) ∧
      t.1.w = ω.dirichlet s.2 (dirichletPosterior alpha s.1.d) ∧ t.1.d = s.1.d ∧ t.2 = s.2 + 1 := by
  have hal := DirDist.reach_alpha (ω := ω) log pos ops n alpha
  rw [hs] at hal
  exact DirDist.random_draw ha hal size hd

/-- `ValueError`, with nothing changed, exactly when some label is not a component number. -/
theorem C11_reject {s : DirDist K × ℕ} (hs : DirDist.cls.run log ω (DirDist.initList n alpha, pos) ops = s) (size : PySize) :
    (¬ LabelsBelow s.1.d alpha.length → DirDist.random size ω s = (.error .valueError, s)) ∧
    ((DirDist.random size ω s).1 = .error .valueError → ¬ LabelsBelow s.1.d alpha.length) := by
  have hal := DirDist.reach_alpha (ω := ω) log pos ops n alpha
  rw [hs] at hal
  refine ⟨fun hd => ?_, fun he hd => ?_⟩
  · have hne : 0 < s.1.d.length := by
      rw [List.length_pos_iff]; intro h; rw [h] at hd; exact hd nofun
    have h1 : DirDist.draw ω s = (.error .valueError, s) := by
      unfold DirDist.draw
      rcases maxInt_cases s.1.d with ⟨h, _⟩ | ⟨m, hm, hmax⟩
      · rw [h] at hne; simp at hne
      · by_cases hc : (alpha.length : ℤ) ≤ m
        · simp [hne, hm, hal, hc]
        · have hneg : ¬ NonNegLabels s.1.d := fun hnn => hd fun x hx => ⟨hnn x hx, by have := hmax.2 x hx; omega⟩
          simp [hne, hm, hal, hc, bincount_neg hneg]
    unfold DirDist.random
    rw [M.bind_apply, h1]
  · obtain ⟨t, h, _⟩ := C11_draw log pos ops n ha hs size hd
    rw [h] at he; cases he
end

/-- The same constructor with a scalar `alpha` and `n` components. -/
theorem C11_scalar (n : ℤ) (a : K) : DirDist.initScalar n a = DirDist.initList n (List.replicate n.toNat a) := rfl

/-! Non-vacuity: labels `[0, 2, 2]` on three components; label 3 is rejected. -/
example : dirichletPosterior [1, 1, (1/2 : ℚ)] [0, 2, 2] = [2, 1, 5/2] := by decide +kernel
example : LabelsBelow [0, 2, 2] 3 ∧ ¬ LabelsBelow [0, 3] 3 := by
  constructor
  · intro x hx; fin_cases hx <;> simp
  · intro h; have := (h 3 (by simp)).2; omega
example : (DirDist.random .none demo (DirDist.cls.run id (demo : Oracle ℚ) (DirDist.initScalar 3 1, 0) [.fit [0, 3]])).1
    = .error .valueError := by decide +kernel

end Verif
