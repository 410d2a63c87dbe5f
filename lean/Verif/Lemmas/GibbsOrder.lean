import Verif.Props.C106
import Verif.Props.C98
import Verif.Props.C51

/-!
# The kernels of a Gibbs iteration do not depend on the order of the observations
-/

set_option linter.unusedSectionVars false

namespace Verif.Mix
open MeasureTheory ProbabilityTheory GM Spec
open scoped ENNReal

variable {m n : ℕ} {Atom : Type} [MeasurableSpace Atom] {C0 : WeightCore ℝ}

theorem rowsWith_ofFn_perm {y : Fin n → Fin m → ℝ} (d : Fin n → ℕ) (σ : Equiv.Perm (Fin n)) (j : ℕ) :
    (rowsWith (List.ofFn (y ∘ σ)) (List.ofFn (d ∘ σ)) j).Perm (rowsWith (List.ofFn y) (List.ofFn d) j) := by
  have e : ∀ (y : Fin n → Fin m → ℝ) (d : Fin n → ℕ), List.zip (List.ofFn y) (List.ofFn d) = List.ofFn fun i => (y i, d i) := fun y d => by
    apply List.ext_getElem <;> simp
  unfold rowsWith
  rw [e, e]
  exact (Equiv.Perm.ofFn_comp_perm σ fun i => (y i, d i)).filterMap _

theorem nEq_perm (d : Fin n → ℕ) (σ : Equiv.Perm (Fin n)) (j : ℕ) : nEq (labels (List.ofFn (d ∘ σ))) j = nEq (labels (List.ofFn d)) j :=
  ((Equiv.Perm.ofFn_comp_perm σ d).map _).countP_eq _

theorem nGt_perm (d : Fin n → ℕ) (σ : Equiv.Perm (Fin n)) (j : ℕ) : nGt (labels (List.ofFn (d ∘ σ))) j = nGt (labels (List.ofFn d)) j :=
  ((Equiv.Perm.ofFn_comp_perm σ d).map _).countP_eq _

theorem mem_ofFn_perm (d : Fin n → ℕ) (σ : Equiv.Perm (Fin n)) (j : ℕ) : j ∈ List.ofFn (d ∘ σ) ↔ j ∈ List.ofFn d := (Equiv.Perm.ofFn_comp_perm σ d).mem_iff

theorem atomNew_perm (A : AtomGen m Atom) (y : Fin n → Fin m → ℝ) (p : NIW ℝ m) (d : Fin n → ℕ) (σ : Equiv.Perm (Fin n)) : atomNew A (y ∘ σ) p (d ∘ σ) [] = atomNew A y p d [] := by
  funext j
  unfold atomNew
  simp only [mem_ofFn_perm, C51_reordering (rowsWith_ofFn_perm d σ j)]

theorem mixSeq_congr {ι X : Type} {O O' : ι → Prop} [DecidablePred O] [DecidablePred O'] (h : ∀ j, O j ↔ O' j) (x x' : ι → X) : mixSeq O x x' = mixSeq O' x x' := by
  funext j
  unfold mixSeq
  by_cases hj : O j
  · rw [if_pos hj, if_pos ((h j).1 hj)]
  · rw [if_neg hj, if_neg fun h' => hj ((h j).2 h')]

theorem postSticks_perm (f : StickParams) (d : Fin n → ℕ) (σ : Equiv.Perm (Fin n)) : f.post (List.ofFn (d ∘ σ)) = f.post (List.ofFn d) := by
  funext j
  unfold StickParams.post
  rw [nEq_perm, nGt_perm]

/-- Label vectors with the entries in another order. -/
def reorder {α : Type} (σ : Equiv.Perm (Fin n)) : (Fin n → α) ≃ (Fin n → α) := Equiv.arrowCongr σ.symm (Equiv.refl α)

theorem reorder_apply {α : Type} (σ : Equiv.Perm (Fin n)) (d : Fin n → α) : reorder σ d = d ∘ σ := rfl

theorem labelStep_perm (lp : (Fin m → ℝ) → Atom → WithBot ℝ) (y : Fin n → Fin m → ℝ) (φ : (Fin n → ℕ) → Params Atom → ℝ≥0∞) (d : Fin n → ℕ) (z : Params Atom) (σ : Equiv.Perm (Fin n)) :
    labelStep lp (y ∘ σ) φ (d ∘ σ) z = labelStep lp y (fun δ z => φ (δ ∘ σ) z) d z := by
  unfold labelStep
  rw [← (reorder σ).tsum_eq]
  refine tsum_congr fun δ => ?_
  rw [reorder_apply]
  congr 1
  unfold labelKer
  exact Equiv.prod_comp σ fun i => ∫⁻ x, sliceKernel (stickSeq z.2) (dens lp z.1 (y i)) (stickSeq z.2 (d i) * x) (δ i) ∂unifLaw

theorem stepKernel_perm (A : AtomGen m Atom) (lp : (Fin m → ℝ) → Atom → WithBot ℝ) (p : NIW ℝ m) (f : StickParams) (y : Fin n → Fin m → ℝ) (φ : (Fin n → ℕ) → Params Atom → ℝ≥0∞) (d : Fin n → ℕ)
    (z : Params Atom) (σ : Equiv.Perm (Fin n)) : stepKernel A lp p f (y ∘ σ) φ (d ∘ σ) z = stepKernel A lp p f y (fun δ z => φ (δ ∘ σ) z) d z := by
  unfold stepKernel
  have e : ∀ θ : ℕ → Atom, mixSeq (fun j => j ∈ List.ofFn (d ∘ σ)) θ z.1 = mixSeq (fun j => j ∈ List.ofFn d) θ z.1 := fun θ => mixSeq_congr (mem_ofFn_perm d σ) _ _
  simp only [labelStep_perm, e]
  rw [atomNew_perm, postSticks_perm]

theorem iterate_perm (A : AtomGen m Atom) (lp : (Fin m → ℝ) → Atom → WithBot ℝ) (p : NIW ℝ m) (f : StickParams) (y : Fin n → Fin m → ℝ) (k : ℕ) (φ : (Fin n → ℕ) → Params Atom → ℝ≥0∞)
    (σ : Equiv.Perm (Fin n)) (d : Fin n → ℕ) (z : Params Atom) : (stepKernel A lp p f (y ∘ σ))^[k] φ (d ∘ σ) z = (stepKernel A lp p f y)^[k] (fun δ z => φ (δ ∘ σ) z) d z := by
  induction k generalizing φ d z with
  | zero => rfl
  | succ k ih =>
    rw [Function.iterate_succ_apply, Function.iterate_succ_apply, ih]
    simp only [stepKernel_perm]

theorem kSaved_perm (A : AtomGen m Atom) (lp : (Fin m → ℝ) → Atom → WithBot ℝ) (p : NIW ℝ m) (f : StickParams) (y : Fin n → Fin m → ℝ) (σ : Equiv.Perm (Fin n)) (gap : ℕ) :
    ∀ (T b : ℕ) (F : List (Fin n → ℕ) → ℝ≥0∞) (d : Fin n → ℕ) (z : Params Atom), kSaved A lp p f (y ∘ σ) gap T b F (d ∘ σ) z = kSaved A lp p f y gap T b (fun l => F (l.map (· ∘ σ))) d z
  | 0, b, F, d, z => rfl
  | T + 1, b, F, d, z => by
    unfold kSaved
    rw [iterate_perm]
    simp only [kSaved_perm A lp p f y σ gap T, List.map_cons]

theorem condLaw_perm (A : AtomGen m Atom) (p : NIW ℝ m) (f : StickParams) (y : Fin n → Fin m → ℝ) (d : Fin n → ℕ) (σ : Equiv.Perm (Fin n)) : condLaw A p f (y ∘ σ) (d ∘ σ) = condLaw A p f y d := by
  unfold condLaw
  simp only [atomNew_perm, postSticks_perm]

namespace FinMix
variable {N : ℕ} [NeZero N]

theorem post_perm (f : FinPrior N) (d : Fin n → Fin N) (σ : Equiv.Perm (Fin n)) : f.post (List.ofFn (nat (d ∘ σ))) = f.post (List.ofFn (nat d)) := by
  obtain ⟨c, h0, h1, hc⟩ := f.conj d
  obtain ⟨c', -, -, hc'⟩ := f.conj (d ∘ σ)
  have hp := f.post_prob (List.ofFn fun i => (d i : ℕ))
  have hp' := f.post_prob (List.ofFn fun i => ((d ∘ σ) i : ℕ))
  have e : (fun w : Fin N → ℝ => ∏ i, ENNReal.ofReal (w ((d ∘ σ) i))) = fun w => ∏ i, ENNReal.ofReal (w (d i)) := funext fun w => Equiv.prod_comp σ fun i => ENNReal.ofReal (w (d i))
  rw [e, hc] at hc'
  have hcc : c = c' := by
    have := congrArg (fun μ => μ Set.univ) hc'
    simpa using this
  subst hcc
  have h := congrArg (fun μ => c⁻¹ • μ) hc'
  simp only [smul_smul, ENNReal.inv_mul_cancel h0 h1, one_smul] at h
  exact h.symm

theorem occupied_perm (d : Fin n → Fin N) (σ : Equiv.Perm (Fin n)) (j : Fin N) : occupied (d ∘ σ) j ↔ occupied d j := by
  rw [← mem_nat_iff, ← mem_nat_iff]
  exact mem_ofFn_perm (nat d) σ j

theorem atomF_perm (A : AtomGen m Atom) (y : Fin n → Fin m → ℝ) (p : NIW ℝ m) (d : Fin n → Fin N) (σ : Equiv.Perm (Fin n)) : atomF A (y ∘ σ) p (d ∘ σ) [] = atomF A y p d [] := by
  funext j
  exact congrFun (atomNew_perm A y p (nat d) σ) j

theorem labelStep_perm (lp : (Fin m → ℝ) → Atom → WithBot ℝ) (y : Fin n → Fin m → ℝ) (φ : (Fin n → Fin N) → FParams N Atom → ℝ≥0∞) (d : Fin n → Fin N) (z : FParams N Atom) (σ : Equiv.Perm (Fin n)) :
    labelStep lp (y ∘ σ) φ (d ∘ σ) z = labelStep lp y (fun δ z => φ (δ ∘ σ) z) d z := by
  unfold labelStep
  rw [← (reorder σ).sum_comp]
  refine Finset.sum_congr rfl fun δ _ => ?_
  rw [reorder_apply]
  congr 1
  unfold labelKer labelKernel
  exact Equiv.prod_comp σ fun i => ∫⁻ x, sliceKernel (wseq z.2) (dens lp (aseq (NeZero.pos N) z.1) (y i)) (z.2 (d i) * x) (δ i) ∂unifLaw

theorem stepKernel_perm (A : AtomGen m Atom) (lp : (Fin m → ℝ) → Atom → WithBot ℝ) (p : NIW ℝ m) (f : FinPrior N) (y : Fin n → Fin m → ℝ) (φ : (Fin n → Fin N) → FParams N Atom → ℝ≥0∞)
    (d : Fin n → Fin N) (z : FParams N Atom) (σ : Equiv.Perm (Fin n)) : stepKernel A lp p f (y ∘ σ) φ (d ∘ σ) z = stepKernel A lp p f y (fun δ z => φ (δ ∘ σ) z) d z := by
  unfold stepKernel
  have e : ∀ θ : Fin N → Atom, mixSeq (occupied (d ∘ σ)) θ z.1 = mixSeq (occupied d) θ z.1 := fun θ => mixSeq_congr (occupied_perm d σ) _ _
  simp only [labelStep_perm, e]
  rw [atomF_perm, post_perm]

theorem iterate_perm (A : AtomGen m Atom) (lp : (Fin m → ℝ) → Atom → WithBot ℝ) (p : NIW ℝ m) (f : FinPrior N) (y : Fin n → Fin m → ℝ) (k : ℕ) (φ : (Fin n → Fin N) → FParams N Atom → ℝ≥0∞)
    (σ : Equiv.Perm (Fin n)) (d : Fin n → Fin N) (z : FParams N Atom) : (stepKernel A lp p f (y ∘ σ))^[k] φ (d ∘ σ) z = (stepKernel A lp p f y)^[k] (fun δ z => φ (δ ∘ σ) z) d z := by
  induction k generalizing φ d z with
  | zero => rfl
  | succ k ih =>
    rw [Function.iterate_succ_apply, Function.iterate_succ_apply, ih]
    simp only [stepKernel_perm]

theorem kSaved_perm (A : AtomGen m Atom) (lp : (Fin m → ℝ) → Atom → WithBot ℝ) (p : NIW ℝ m) (f : FinPrior N) (y : Fin n → Fin m → ℝ) (σ : Equiv.Perm (Fin n)) (gap : ℕ) :
    ∀ (T b : ℕ) (F : List (Fin n → Fin N) → ℝ≥0∞) (d : Fin n → Fin N) (z : FParams N Atom), kSaved A lp p f (y ∘ σ) gap T b F (d ∘ σ) z = kSaved A lp p f y gap T b (fun l => F (l.map (· ∘ σ))) d z
  | 0, b, F, d, z => rfl
  | T + 1, b, F, d, z => by
    unfold kSaved
    rw [iterate_perm]
    simp only [kSaved_perm A lp p f y σ gap T, List.map_cons]

theorem condLaw_perm (A : AtomGen m Atom) (p : NIW ℝ m) (f : FinPrior N) (y : Fin n → Fin m → ℝ) (d : Fin n → Fin N) (σ : Equiv.Perm (Fin n)) : condLaw A p f (y ∘ σ) (d ∘ σ) = condLaw A p f y d := by
  unfold condLaw
  simp only [atomF_perm, post_perm]

end FinMix
end Verif.Mix
