import Verif.Lemmas.Race
import Mathlib.Probability.ProductMeasure
import Mathlib.Probability.Independence.InfinitePi

/-!
# A stream of independent uniform variables, and matrices read from it
-/

namespace Verif
open MeasureTheory ProbabilityTheory

/-- The law of a stream of independent uniform variables. -/
noncomputable def streamLaw : Measure (ℕ → ℝ) := Measure.infinitePi (fun _ => unifLaw)

instance : IsProbabilityMeasure streamLaw := by unfold streamLaw; infer_instance

theorem streamLaw_indep : iIndepFun (fun (i : ℕ) (u : ℕ → ℝ) => u i) streamLaw := by
  rw [iIndepFun_iff_map_fun_eq_infinitePi_map (fun i => measurable_pi_apply i)]
  have : ∀ i : ℕ, streamLaw.map (fun u => u i) = unifLaw := fun i => Measure.infinitePi_map_eval _ i
  simp_rw [this]
  exact Measure.map_id

/-- Different positions are independent. -/
theorem stream_vector {ι : Type*} [Fintype ι] {e : ι → ℕ} (he : Function.Injective e) :
    MeasurePreserving (fun (G : ℕ → ℝ) i => G (e i)) streamLaw (Measure.pi (fun _ : ι => unifLaw)) := by
  refine ⟨measurable_pi_lambda _ fun i => measurable_pi_apply _, ?_⟩
  have h := (iIndepFun_iff_map_fun_eq_pi_map (fun i => (measurable_pi_apply (e i)).aemeasurable)).1 (streamLaw_indep.precomp (g := e) he)
  have h2 : ∀ i : ℕ, streamLaw.map (fun u => u i) = unifLaw := fun i => Measure.infinitePi_map_eval _ i
  simp_rw [h2] at h
  exact h

/-- The same for the rows of a matrix. -/
theorem stream_matrix {n k : ℕ} {e : Fin n → Fin k → ℕ} (he : Function.Injective (Function.uncurry e)) :
    MeasurePreserving (fun (G : ℕ → ℝ) i j => G (e i j)) streamLaw (Measure.pi (fun _ : Fin n => Measure.pi (fun _ : Fin k => unifLaw))) := by
  have h1 := stream_vector he
  have h2 : MeasurePreserving (MeasurableEquiv.curry (Fin n) (Fin k) ℝ) (Measure.pi (fun _ : Fin n × Fin k => unifLaw))
      (Measure.pi (fun _ : Fin n => Measure.pi (fun _ : Fin k => unifLaw))) := by
    refine ⟨MeasurableEquiv.measurable _, ?_⟩
    have := Measure.infinitePi_map_curry (fun (_ : Fin n) (_ : Fin k) => unifLaw)
    simp only [Measure.infinitePi_eq_pi] at this
    exact this
  exact h2.comp h1

end Verif
