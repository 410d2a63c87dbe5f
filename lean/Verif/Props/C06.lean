import Verif.Lemmas.Reach
import Verif.Lemmas.DP
import Verif.Lemmas.Demo

/-!
# C06: a draw after `fit` covers every fitted label

Every successful `random()` (no size) returns a vector that has an entry for each label of the fitted data: each
label `x` satisfies `0 ≤ x < len(w)`.  Together with the no-exception theorems this makes `w[d]` safe.  It fails for `EqualWeighting`,
which always returns its own `n` weights (`C06_equalWeighting_refuted`).  BetaBinomial, BetaBernoulli and BetaInDirichlet
cover the labels for every requested size `≥ 1`.
-/

set_option linter.unusedSectionVars false

namespace Verif
open Spec
variable {K : Type} [Field K] [LinearOrder K] [IsStrictOrderedRing K]

/-- Every label indexes an entry of `r`. -/
def CoversLabels {α : Type} (d : List ℤ) (r : List α) : Prop := ∀ x ∈ d, 0 ≤ x ∧ x < r.length

theorem coversLabels_of_max {α : Type} {d : List ℤ} {r : List α} (hd : NonNegLabels d)
    (h : ∀ m, IsMaxLabel d m → m + 1 ≤ r.length) : CoversLabels d r := by
  intro x hx
  obtain ⟨m, hm⟩ : ∃ m, IsMaxLabel d m := by
    cases hb : Py.maxInt d with
    | ok m => exact ⟨m, maxInt_eq_ok_iff.1 hb⟩
    | error e => cases d <;> simp [Py.maxInt] at hb hx
  have := h m hm
  have := hm.2 x hx
  exact ⟨hd x hx, by omega⟩

theorem bincount_ok_nonneg {d : List ℤ} {a : List ℕ} (h : Py.bincount d = .ok a) : NonNegLabels d := by
  by_contra hc
  rw [bincount_neg hc] at h
  cases h

theorem CoversLabels.gather_ok {d : List ℤ} {r : List K} (h : CoversLabels d r) : ∃ ws, Py.gather r d = .ok ws := by
  obtain ⟨ws, hw⟩ := Verif.gather_ok (l := r) (is := d) h
  exact ⟨ws, hw⟩

theorem RPost.covers {d : List ℤ} {v w r : List K} {size : PySize} (h : RPost d size v w r) (hd : NonNegLabels d)
    (hc : ∀ m, IsMaxLabel d m → m + 1 ≤ v.length) : CoversLabels d r :=
  coversLabels_of_max hd (by rw [h.ret, h.stick, stickWeights_length]; exact hc)

section
variable {ω : Oracle K} {r : List K}

theorem C06_dirichletProcess {s t : DP K × ℕ} (hd : NonNegLabels s.1.d) (h : DP.random .none ω s = (.ok r, t)) :
    CoversLabels s.1.d r :=
  have hp := (wp_of_ok h (DP.random_post _ _) (.inl rfl)).1
  hp.covers hd (hp.cover rfl)

theorem C06_pitmanYor {s t : PY K × ℕ} (hd : NonNegLabels s.1.d) (h : PY.random .none ω s = (.ok r, t)) :
    CoversLabels s.1.d r :=
  have hp := (wp_of_ok h (PY.random_post _ _) (.inl rfl)).1
  hp.covers hd (hp.cover rfl)

theorem C06_geometric {s t : Geo K × ℕ} (hd : NonNegLabels s.1.d) (h : Geo.random .none ω s = (.ok r, t)) :
    CoversLabels s.1.d r :=
  have hp := (wp_of_ok h (Geo.random_post _ _) (.inl rfl) (fun m hm => hd m hm.1)).1
  hp.covers hd (hp.cover rfl)

theorem C06_betaInBeta {s t : BIB K × ℕ} (hd : NonNegLabels s.1.d) (h : BIB.random .none ω s = (.ok r, t)) :
    CoversLabels s.1.d r :=
  have hp := (wp_of_ok h (BIB.random_post _ _) (.inl rfl)).1
  hp.covers hd (hp.cover rfl)

theorem C06_betaBinomial {s t : BBin K × ℕ} {size : PySize} (hs : ReqPos size) (hd : NonNegLabels s.1.d)
    (h : BBin.random size ω s = (.ok r, t)) : CoversLabels s.1.d r :=
  have hp := wp_of_ok h (BBin.random_post _ _) hs
  hp.1.covers hd hp.2.2

theorem C06_betaBernoulli {s t : BBer K × ℕ} {size : PySize} (hs : ReqPos size) (hd : NonNegLabels s.1.d)
    (h : BBer.random size ω s = (.ok r, t)) : CoversLabels s.1.d r :=
  have hp := wp_of_ok h (BBer.random_post _ _) hs
  hp.1.covers hd hp.2.2

theorem C06_betaInDirichlet (F : SpecFun K) {s t : BID K × ℕ} {size : PySize} (hs : ReqPos size) (hd : NonNegLabels s.1.d)
    (h : BID.random F size ω s = (.ok r, t)) : CoversLabels s.1.d r :=
  have hp := wp_of_ok h (BID.random_post F _ _ hd) hs
  hp.1.covers hd hp.2.2

/-- For the Dirichlet distribution every successful draw covers the labels: larger labels are rejected. -/
theorem C06_dirichletDistribution (hω : ω.Legal) {s t : DirDist K × ℕ} {size : PySize}
    (h : DirDist.random size ω s = (.ok r, t)) : CoversLabels s.1.d r := by
  refine wp_of_ok h (Q := fun r t => CoversLabels s.1.d r) (E := fun _ _ => True) ?_
  unfold DirDist.random DirDist.draw
  rw [wp_bind, wp_bind, wp_self, wp_ite]
  refine ⟨fun hlen => ?_, fun hlen => ?_⟩
  · wp_simp
    refine ⟨fun m hm => ⟨fun _ => trivial, fun hlt => ⟨fun a ha => ?_, fun _ _ => trivial⟩⟩, fun _ _ => trivial⟩
    have hd := bincount_ok_nonneg ha
    have hm' := maxInt_eq_ok_iff.1 hm
    refine ⟨fun _ => trivial, fun _ => ?_⟩
    intro x hx
    rw [hω.dirichlet_length]
    have := hm'.2 x hx
    simp only [DirDist.posterior, List.length_mapIdx]
    exact ⟨hd x hx, by omega⟩
  · wp_simp
    have : s.1.d = [] := by
      rw [← List.length_eq_zero_iff]; omega
    rw [this]
    exact ⟨fun _ => trivial, fun _ => nofun⟩

/-- `FrequencyWeighting`: negative labels are rejected, all others are covered. -/
theorem C06_frequencyWeighting {s t : Freq K × ℕ} {size : PySize}
    (h : Freq.random size ω s = (.ok r, t)) : CoversLabels s.1.d r := by
  refine wp_of_ok h (Q := fun r t => CoversLabels s.1.d r) (E := fun _ _ => True) ?_
  unfold Freq.random Freq.draw
  rw [wp_bind, wp_bind, wp_self, wp_ite]
  refine ⟨fun hlen => ?_, fun hlen => ?_⟩
  · wp_simp
    rw [List.length_eq_zero_iff.1 hlen]
    exact ⟨fun _ _ => nofun, fun _ _ => trivial⟩
  · wp_simp
    refine ⟨fun a ha => ?_, fun _ _ => trivial⟩
    have hd := bincount_ok_nonneg ha
    refine coversLabels_of_max hd fun m hm => ?_
    simp only [Freq.frequencies, List.length_map]
    exact (IsBincount.of_ok ha).len_max hlen hm
end

/-- `EqualWeighting(2)` after `fit([5])` returns two weights. -/
theorem C06_equalWeighting_refuted : ∃ ω : Oracle ℚ, ω.Legal ∧ ∃ r,
    (Equal.random .none ω (Equal.cls.run id ω (Equal.init 2, 0) [.fit [5]])).1 = .ok r ∧ ¬ CoversLabels [5] r :=
  ⟨demo, demo_legal, [1/2, 1/2], by decide +kernel, by simp [CoversLabels]⟩

/-! Non-vacuity. -/
example : (DP.random .none demo ((⟨1, [], [], [3, 0]⟩, 0) : DP ℚ × ℕ)).1 = .ok [1/2, 1/6, 1/12, 1/20] := by decide +kernel
example : (DirDist.random .none demo ((⟨2, [1, 1], [], [1, 0, 1]⟩, 0) : DirDist ℚ × ℕ)).1 = .ok [1/2, 1/2] := by decide +kernel
example : (Freq.random .none demo ((⟨2, [], [3, 0, 0]⟩, 0) : Freq ℚ × ℕ)).1 = .ok [2/3, 0, 0, 1/3] := by decide +kernel
example : CoversLabels [3, 0] [1/2, 1/6, 1/12, (1/20 : ℚ)] ∧ NonNegLabels [3, 0] := by
  constructor <;> intro x hx <;> fin_cases hx <;> simp

end Verif
