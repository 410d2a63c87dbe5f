import Verif.Lemmas.PYPartition
import Verif.Props.C95

/-!
# The posterior law of the partition

Summing the posterior law of labels over all labels that agree with a partition.
-/

set_option linter.unusedSectionVars false

namespace Verif.Mix
open MeasureTheory ProbabilityTheory Finset
open scoped ENNReal

variable {m n : ℕ} {Atom : Type} [MeasurableSpace Atom]

/-- Labels agree with a partition: two labels are equal if and only if the observations are in the same block. -/
def Agree (π : Finpartition (univ : Finset (Fin n))) (δ : Fin n → ℕ) : Prop := ∀ i i', δ i = δ i' ↔ i' ∈ π.part i

/-- The partition of given labels. -/
def partOf (δ : Fin n → ℕ) : Finpartition (univ : Finset (Fin n)) := @Finpartition.ofSetoid _ _ _ (Setoid.ker δ) (fun a b => decEq (δ a) (δ b))

theorem agree_partOf (δ : Fin n → ℕ) : Agree (partOf δ) δ := fun i i' => by
  unfold partOf
  let _ : DecidableRel (Setoid.ker δ).r := fun a b => decEq (δ a) (δ b)
  exact (Finpartition.mem_part_ofSetoid_iff_rel (s := Setoid.ker δ)).symm

theorem part_eq_iff (π : Finpartition (univ : Finset (Fin n))) (i i' : Fin n) : π.part i = π.part i' ↔ i' ∈ π.part i := by
  rw [π.mem_part_iff_part_eq_part (mem_univ _) (mem_univ _), eq_comm]

theorem parts_eq (π : Finpartition (univ : Finset (Fin n))) : π.parts = univ.image π.part := by
  ext c
  rw [mem_image]
  constructor
  · intro hc
    obtain ⟨i, hi, h⟩ := π.part_surjOn hc
    exact ⟨i, mem_univ _, h⟩
  · rintro ⟨i, -, rfl⟩
    exact π.part_mem.2 (mem_univ _)

theorem agree_unique {π π' : Finpartition (univ : Finset (Fin n))} {δ : Fin n → ℕ} (h : Agree π δ) (h' : Agree π' δ) : π = π' := by
  have : π.part = π'.part := funext fun i => Finset.ext fun i' => by rw [← h, ← h']
  exact Finpartition.ext (by rw [parts_eq, parts_eq, this])

/-- Labels that agree with a partition are distinct numbers for its blocks. -/
theorem place_agree_bijective (π : Finpartition (univ : Finset (Fin n))) :
    Function.Bijective (fun j : Place π.parts => (⟨fun i => j.1 (π.part i), fun i i' => by
      rw [← part_eq_iff]
      exact ⟨fun h => j.2.1 (π.part_mem.2 (mem_univ _)) (π.part_mem.2 (mem_univ _)) h, fun h => congrArg j.1 h⟩⟩ : {δ : Fin n → ℕ // Agree π δ})) := by
  constructor
  · intro j j' h
    have h' := congrArg Subtype.val h
    refine Subtype.ext (funext fun c => ?_)
    by_cases hc : c ∈ π.parts
    · obtain ⟨i, hi, rfl⟩ := π.part_surjOn hc
      exact congrFun h' i
    · rw [j.2.2 c hc, j'.2.2 c hc]
  · rintro ⟨δ, hδ⟩
    have hch : ∀ c : π.parts, ∃ i, i ∈ c.1 := fun c => π.nonempty_of_mem_parts c.2
    choose r hr using hch
    have hpr : ∀ c : π.parts, π.part (r c) = c := fun c => π.part_eq_of_mem c.2 (hr c)
    refine ⟨⟨fun c => if h : c ∈ π.parts then δ (r ⟨c, h⟩) else 0, fun a ha b hb h => ?_, fun c hc => dif_neg hc⟩, Subtype.ext (funext fun i => ?_)⟩
    · have ha' : a ∈ π.parts := ha
      have hb' : b ∈ π.parts := hb
      simp only [dif_pos ha', dif_pos hb'] at h
      have h2 := (part_eq_iff π _ _).2 ((hδ _ _).1 h)
      rw [hpr, hpr] at h2
      exact h2
    · have hm : π.part i ∈ π.parts := π.part_mem.2 (mem_univ _)
      simp only [dif_pos hm]
      rw [hδ, hpr ⟨_, hm⟩]
      exact π.mem_part (mem_univ _)

theorem filter_part (π : Finpartition (univ : Finset (Fin n))) {c : Finset (Fin n)} (hc : c ∈ π.parts) : univ.filter (fun i => π.part i = c) = c := by
  ext i
  rw [mem_filter, π.part_eq_iff_mem hc]
  simp

/-- The mass of the observations in a block. -/
noncomputable def blockMass (A : AtomGen m Atom) (lp : (Fin m → ℝ) → Atom → WithBot ℝ) (p : NIW ℝ m) (y : Fin n → Fin m → ℝ) (c : Finset (Fin n)) : ℝ≥0∞ := ∫⁻ a, ∏ i ∈ c, obsDens lp (y i) a ∂(A.law p)

variable {A : AtomGen m Atom} {lp : (Fin m → ℝ) → Atom → WithBot ℝ} {p : NIW ℝ m} {f : StickParams} {y : Fin n → Fin m → ℝ}

theorem atomMass_place (π : Finpartition (univ : Finset (Fin n))) (j : Place π.parts) : atomMass A lp p y (fun i => j.1 (π.part i)) = ∏ c ∈ π.parts, blockMass A lp p y c := by
  unfold atomMass
  have : (univ.image fun i => j.1 (π.part i)) = π.parts.image j.1 := by
    have h := congrArg (fun s => s.image j.1) (parts_eq π)
    simp only [image_image] at h
    exact h.symm
  rw [this, prod_image j.2.1]
  refine prod_congr rfl fun c hc => ?_
  unfold blockMass
  refine lintegral_congr fun a => ?_
  have hiff : ∀ i, j.1 (π.part i) = j.1 c ↔ i ∈ c := fun i => by
    rw [← π.part_eq_iff_mem hc]
    exact ⟨fun h => j.2.1 (π.part_mem.2 (mem_univ _)) hc h, fun h => by rw [h]⟩
  simp_rw [hiff]
  rw [prod_ite, prod_const_one, mul_one]
  congr 1
  ext i
  simp

theorem labelMass_place (π : Finpartition (univ : Finset (Fin n))) (j : Place π.parts) :
    ∫⁻ v, ∏ i, ENNReal.ofReal (stickSeq v (j.1 (π.part i))) ∂(Measure.infinitePi f.prior) = placeProb f Finset.card π.parts j.1 := by
  unfold placeProb
  refine lintegral_congr fun v => ?_
  rw [← prod_fiberwise_of_maps_to (s := univ) (t := π.parts) (g := π.part) (fun i _ => π.part_mem.2 (mem_univ _))]
  refine prod_congr rfl fun c hc => ?_
  rw [prod_congr rfl (g := fun _ => ENNReal.ofReal (stickSeq v (j.1 c))) fun i hi => by rw [(mem_filter.1 hi).2], prod_const, filter_part π hc]

open Classical in
/-- The prior probability of a partition. -/
theorem tsum_agree_prior (π : Finpartition (univ : Finset (Fin n))) :
    ∑' δ : Fin n → ℕ, (if Agree π δ then ∫⁻ v, ∏ i, ENNReal.ofReal (stickSeq v (δ i)) ∂(Measure.infinitePi f.prior) else 0) = blockProb f Finset.card π.parts := by
  have h1 := tsum_subtype {δ : Fin n → ℕ | Agree π δ} fun δ => ∫⁻ v, ∏ i, ENNReal.ofReal (stickSeq v (δ i)) ∂(Measure.infinitePi f.prior)
  have h2 := (Equiv.ofBijective _ (place_agree_bijective π)).tsum_eq (fun δ : {δ : Fin n → ℕ // Agree π δ} => ∫⁻ v, ∏ i, ENNReal.ofReal (stickSeq v (δ.1 i)) ∂(Measure.infinitePi f.prior))
  have h3 : ∑' δ : Fin n → ℕ, (if Agree π δ then ∫⁻ v, ∏ i, ENNReal.ofReal (stickSeq v (δ i)) ∂(Measure.infinitePi f.prior) else 0) =
      ∑' δ : {δ : Fin n → ℕ // Agree π δ}, ∫⁻ v, ∏ i, ENNReal.ofReal (stickSeq v (δ.1 i)) ∂(Measure.infinitePi f.prior) := by
    refine Eq.trans (tsum_congr fun δ => ?_) h1.symm
    rw [Set.indicator_apply]
    rfl
  rw [h3, ← h2]
  exact tsum_congr fun j => labelMass_place π j

section
variable (hlp : ∀ i, Measurable (obsDens lp (y i))) (hcj : Conjugate A lp p)
include hlp hcj

theorem stickJoint_univ (d : Fin n → ℕ) : stickJoint A lp p f y d Set.univ = (∫⁻ v, ∏ i, ENNReal.ofReal (stickSeq v (d i)) ∂(Measure.infinitePi f.prior)) * atomMass A lp p y d := by
  obtain ⟨c, -, -, rfl, hc⟩ := stickJoint_eq (f := f) hlp hcj d
  rw [hc, Measure.smul_apply, measure_univ, smul_eq_mul, mul_one]

open Classical in
/-- The joint mass of a partition and the data. -/
theorem tsum_agree_joint (π : Finpartition (univ : Finset (Fin n))) :
    ∑' δ : Fin n → ℕ, (if Agree π δ then stickJoint A lp p f y δ Set.univ else 0) = blockProb f Finset.card π.parts * ∏ c ∈ π.parts, blockMass A lp p y c := by
  rw [← tsum_agree_prior, ← ENNReal.tsum_mul_right]
  refine tsum_congr fun δ => ?_
  split
  · rename_i h
    obtain ⟨j, hj⟩ := (place_agree_bijective π).2 ⟨δ, h⟩
    have hj' : (fun i => j.1 (π.part i)) = δ := congrArg Subtype.val hj
    rw [stickJoint_univ hlp hcj, ← hj', atomMass_place]
  · simp

open Classical in
/-- The joint mass of a set of partitions and the data. -/
theorem tsum_joint (P : Finpartition (univ : Finset (Fin n)) → Prop) :
    ∑' δ : Fin n → ℕ, (if P (partOf δ) then stickJoint A lp p f y δ Set.univ else 0) = ∑ π, if P π then blockProb f Finset.card π.parts * ∏ c ∈ π.parts, blockMass A lp p y c else 0 := by
  simp_rw [← tsum_agree_joint hlp hcj]
  have h1 : ∀ π : Finpartition (univ : Finset (Fin n)), (if P π then ∑' δ : Fin n → ℕ, (if Agree π δ then stickJoint A lp p f y δ Set.univ else 0) else 0) =
      ∑' δ : Fin n → ℕ, (if P π then (if Agree π δ then stickJoint A lp p f y δ Set.univ else 0) else 0) := fun π => by
    split <;> simp
  simp_rw [h1]
  rw [← Summable.tsum_finsetSum fun _ _ => ENNReal.summable]
  refine tsum_congr fun δ => ?_
  rw [sum_eq_single (partOf δ) (fun π _ hne => ?_) (fun h => absurd (mem_univ _) h), if_pos (agree_partOf δ)]
  split
  · exact if_neg fun h => hne (agree_unique h (agree_partOf δ))
  · rfl

end

end Verif.Mix
