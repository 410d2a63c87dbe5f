import Verif.Lemmas.PartitionPost
import Verif.Props.C133
import Verif.Props.C71

/-!
# C134: the partitions that the process mixtures converge to

`pitmanYorLaw σ θ` is the specification: the two-parameter law of random partitions (Pitman-Yor with discount `σ` and concentration `θ`; the Chinese restaurant process for
`σ = 0`), a product of elementary factors.

* `C134_prior_dirichletProcess`: labels drawn from the weights of `DirichletProcess(alpha)` have a given partition with probability `exp(dirichlet_log_eppf(alpha, sizes))`, for any number of
  observations and every partition.
* `C134_prior_pitmanYor`: labels drawn from the weights of `PitmanYorProcess(pyd, alpha)` have the law with discount `pyd` and concentration `alpha - pyd`; so it is never the law with the
  parameters that the caller passes, unless `pyd = 0` (`C134_standard_refuted`).
* `C134_posterior_*`: the posterior probability of a partition is proportional to its prior probability times `exp evidence` of the rows of every block.
* `C134_average_*`: the average over the saved iterations of `fit_gibbs` of any function of the partition of the labels tends to its mean under this law.  Affinities (`C134_affinity_*`) and numbers
  of groups (`C134_groups_*`) are special cases.
-/

set_option linter.unusedSectionVars false

namespace Verif.Mix
open MeasureTheory ProbabilityTheory Filter
open scoped ENNReal Topology
variable {m n : ℕ}

/-- A partition of the observations. -/
abbrev Parts (n : ℕ) : Type := Finpartition (Finset.univ : Finset (Fin n))

/-- The two-parameter law of random partitions of `n` observations. -/
noncomputable def pitmanYorLaw (σ θ : ℝ) (π : Parts n) : ℝ :=
  (∏ l ∈ Finset.range (π.parts.card - 1), (θ + (l + 1) * σ)) / (∏ i ∈ Finset.range (n - 1), (θ + (i + 1))) * ∏ c ∈ π.parts, ∏ i ∈ Finset.range (c.card - 1), ((i + 1) - σ)

/-- The sizes of the blocks, as the argument of `dirichlet_log_eppf`. -/
noncomputable def sizes (π : Parts n) : List ℕ := π.parts.toList.map Finset.card

/-- The rows of the observations in a block. -/
def rowsIn (y : Fin n → Fin m → ℝ) (c : Finset (Fin n)) : List (Fin m → ℝ) := ((List.finRange n).filter (fun i => i ∈ c)).map y

/-- Prior probability times the densities of the blocks. -/
noncomputable def partWeight (prior : Parts n → ℝ) (p : NIW ℝ m) (y : Fin n → Fin m → ℝ) (π : Parts n) : ℝ := prior π * ∏ c ∈ π.parts, Real.exp (evidence (rowsIn y c) p)

/-- The posterior probability of a partition. -/
noncomputable def partPost (prior : Parts n → ℝ) (p : NIW ℝ m) (y : Fin n → Fin m → ℝ) (π : Parts n) : ℝ := partWeight prior p y π / ∑ π', partWeight prior p y π'

/-! ### The closed form as elementary products -/

theorem prod_gamma {x : ℝ} (hx : 0 < x) (k : ℕ) : ∏ i ∈ Finset.range k, (x + i) = Real.Gamma (x + k) / Real.Gamma x := by
  have hg := (Real.Gamma_pos_of_pos hx).ne'
  induction k with
  | zero => simp [hg]
  | succ k ih =>
    rw [Finset.prod_range_succ, ih, Nat.cast_succ, ← add_assoc, Real.Gamma_add_one (by positivity)]
    ring

theorem parts_sum (π : Parts n) : ∑ c ∈ π.parts, c.card = n := by
  have := π.sum_card_parts
  simpa using this

theorem parts_card_pos (π : Parts n) : ∀ c ∈ π.parts, 1 ≤ c.card := fun _ hc => (π.nonempty_of_mem_parts hc).card_pos

theorem gammaEppf_eq {σ α : ℝ} (_h0 : 0 ≤ σ) (h1 : σ < 1) (ha : 0 < α) (π : Parts n) : gammaEppf σ α Finset.card π.parts = pitmanYorLaw σ (α - σ) π := by
  unfold gammaEppf pitmanYorLaw
  rw [parts_sum]
  split
  · rename_i he
    have hn : n = 0 := by
      have := parts_sum π
      rw [he] at this
      simpa using this.symm
    subst hn
    rw [he]
    simp
  · rename_i he
    obtain ⟨c0, hc0⟩ := Finset.nonempty_iff_ne_empty.2 he
    have hn : 1 ≤ n := by
      have h2 := parts_sum π
      have h3 := Finset.single_le_sum (f := Finset.card) (fun _ _ => Nat.zero_le _) hc0
      have h4 := parts_card_pos π c0 hc0
      omega
    have hden : ∏ i ∈ Finset.range (n - 1), (α - σ + ((i : ℝ) + 1)) = Real.Gamma (α - σ + n) / Real.Gamma (α - σ + 1) := by
      rw [Finset.prod_congr rfl (g := fun i : ℕ => α - σ + 1 + (i : ℝ)) fun i _ => by ring, prod_gamma (by linarith), Nat.cast_sub hn]
      congr 2
      push_cast
      ring
    have hblk : ∏ c ∈ π.parts, (Real.Gamma ((c.card : ℝ) - σ) / Real.Gamma (1 - σ)) = ∏ c ∈ π.parts, ∏ i ∈ Finset.range (c.card - 1), (((i : ℝ) + 1) - σ) := by
      refine Finset.prod_congr rfl fun c hc => ?_
      rw [Finset.prod_congr rfl (g := fun i : ℕ => 1 - σ + (i : ℝ)) fun i _ => by ring, prod_gamma (by linarith), Nat.cast_sub (parts_card_pos π c hc)]
      congr 2
      push_cast
      ring
    have hnum : ∏ l ∈ Finset.range (π.parts.card - 1), (α + (l : ℝ) * σ) = ∏ l ∈ Finset.range (π.parts.card - 1), (α - σ + ((l : ℝ) + 1) * σ) := Finset.prod_congr rfl fun l _ => by ring
    rw [hden, hblk, hnum, div_div_eq_mul_div, mul_div_assoc]

theorem pitmanYorLaw_pos {σ α : ℝ} (h0 : 0 ≤ σ) (h1 : σ < 1) (ha : 0 < α) (π : Parts n) : 0 < pitmanYorLaw σ (α - σ) π := by
  rw [← gammaEppf_eq h0 h1 ha]
  exact gammaEppf_pos h0 h1 ha (parts_card_pos π)

theorem dpSticks_eq {alpha : ℝ} (ha : 0 < alpha) : dpSticks alpha ha = pySticks 0 alpha le_rfl one_pos ha := by
  unfold dpSticks pySticks
  congr 1
  · funext j; simp
  · funext j; simp

/-! ### The prior law of the partition -/

open Classical in
/-- **Pitman-Yor process**: discount `pyd`, concentration `alpha - pyd`. -/
theorem C134_prior_pitmanYor {pyd alpha : ℝ} (h0 : 0 ≤ pyd) (h1 : pyd < 1) (ha : 0 < alpha) (π : Parts n) :
    ∑' δ : Fin n → ℕ, (if Agree π δ then ∫⁻ v, ∏ i, ENNReal.ofReal (stickSeq v (δ i)) ∂(Measure.infinitePi (pySticks pyd alpha h0 h1 ha).prior) else 0) =
      ENNReal.ofReal (pitmanYorLaw pyd (alpha - pyd) π) := by
  rw [tsum_agree_prior, blockProb_py h0 h1 _ ha (parts_card_pos π), gammaEppf_eq h0 h1 ha]

/-- `dirichlet_log_eppf` of the library on the sizes of the blocks. -/
theorem C134_code {alpha : ℝ} (ha : 0 < alpha) (π : Parts n) : codeEppf alpha (sizes π) = .fin (pitmanYorLaw 0 alpha π) := by
  have hs : ∀ x ∈ sizes π, 1 ≤ x := fun x hx => by
    obtain ⟨c, hc, rfl⟩ := List.mem_map.1 hx
    exact parts_card_pos π c (Finset.mem_toList.1 hc)
  rw [codeEppf_eq ha hs]
  congr 1
  have hg := gammaEppf_eq le_rfl one_pos ha π
  rw [sub_zero] at hg
  rw [← hg]
  have hsum : (sizes π).sum = n := by
    rw [sizes, Finset.sum_map_toList, parts_sum]
  have hlen : (sizes π).length = π.parts.card := by simp [sizes]
  have hlg : ((sizes π).map (fun c : ℕ => realFun.lgamma (c : ℝ))).sum = ∑ c ∈ π.parts, Real.log (Real.Gamma (c.card : ℝ)) := by
    rw [sizes, List.map_map, ← Finset.sum_map_toList]
    rfl
  unfold eppf logEppf
  rw [hsum, hlen, hlg]
  simp only [realFun]
  have hga := Real.Gamma_pos_of_pos ha
  have hgn : 0 < Real.Gamma (alpha + n) := Real.Gamma_pos_of_pos (by positivity)
  have hprod : Real.exp (∑ c ∈ π.parts, Real.log (Real.Gamma (c.card : ℝ))) = ∏ c ∈ π.parts, Real.Gamma (c.card : ℝ) := by
    rw [Real.exp_sum]
    refine Finset.prod_congr rfl fun c hc => Real.exp_log (Real.Gamma_pos_of_pos ?_)
    exact_mod_cast parts_card_pos π c hc
  rw [Real.exp_add, Real.exp_add, Real.exp_sub, hprod, Real.exp_log hga, Real.exp_log hgn, mul_comm (π.parts.card : ℝ), ← Real.rpow_def_of_pos ha, Real.rpow_natCast]
  unfold gammaEppf
  rw [parts_sum]
  split
  · rename_i he
    have hn : n = 0 := by
      have := parts_sum π
      rw [he] at this
      simpa using this.symm
    subst hn
    rw [he]
    simp [hga.ne']
  · rename_i he
    obtain ⟨k, hk⟩ : ∃ k, π.parts.card = k + 1 := ⟨π.parts.card - 1, by have := (Finset.nonempty_iff_ne_empty.2 he).card_pos; omega⟩
    rw [hk]
    simp only [sub_zero, mul_zero, add_zero, Finset.prod_const, Finset.card_range, Nat.add_sub_cancel, Real.Gamma_one, div_one]
    rw [Real.Gamma_add_one ha.ne', pow_succ]
    ring

open Classical in
/-- **Dirichlet process**: the exponential of `dirichlet_log_eppf`. -/
theorem C134_prior_dirichletProcess {alpha : ℝ} (ha : 0 < alpha) (π : Parts n) {L : ℝ} (hL : dirichletLogEppf realFun.toVarFun alpha (sizes π) = .fin L) :
    ∑' δ : Fin n → ℕ, (if Agree π δ then ∫⁻ v, ∏ i, ENNReal.ofReal (stickSeq v (δ i)) ∂(Measure.infinitePi (dpSticks alpha ha).prior) else 0) = ENNReal.ofReal (Real.exp L) := by
  have h := C134_code ha π
  rw [codeEppf, hL] at h
  have h' : Real.exp L = pitmanYorLaw 0 alpha π := Fl.fin.inj h
  rw [dpSticks_eq ha, C134_prior_pitmanYor, sub_zero, h']

/-- The partition of two observations with one block. -/
def together : Parts 2 := ⟨{Finset.univ}, by simp, by simp, by decide⟩

open Classical in
/-- Two labels of `PitmanYorProcess(pyd, alpha)` agree with probability (1 - pyd) / (1 + alpha - pyd), not (1 - pyd) / (1 + alpha). -/
theorem C134_standard_refuted {pyd alpha : ℝ} (h0 : 0 < pyd) (h1 : pyd < 1) (ha : 0 < alpha) :
    ∑' δ : Fin 2 → ℕ, (if δ 0 = δ 1 then ∫⁻ v, ∏ i, ENNReal.ofReal (stickSeq v (δ i)) ∂(Measure.infinitePi (pySticks pyd alpha h0.le h1 ha).prior) else 0) =
      ENNReal.ofReal ((1 - pyd) / (1 + alpha - pyd)) ∧
    ∑' δ : Fin 2 → ℕ, (if δ 0 = δ 1 then ∫⁻ v, ∏ i, ENNReal.ofReal (stickSeq v (δ i)) ∂(Measure.infinitePi (pySticks pyd alpha h0.le h1 ha).prior) else 0) ≠
      ENNReal.ofReal (pitmanYorLaw pyd alpha together) := by
  have hpt : ∀ i, together.part i = Finset.univ := fun i => together.part_eq_of_mem (by simp [together]) (Finset.mem_univ _)
  have hag : ∀ δ : Fin 2 → ℕ, Agree together δ ↔ δ 0 = δ 1 := fun δ => by
    unfold Agree
    simp only [hpt, Finset.mem_univ, iff_true, Fin.forall_fin_two, true_and, and_true]
    exact ⟨fun h => h.1, fun h => ⟨h, h.symm⟩⟩
  have hlaw : ∀ θ, pitmanYorLaw pyd θ together = (1 - pyd) / (1 + θ) := fun θ => by
    simp [pitmanYorLaw, together]
    ring
  have h := C134_prior_pitmanYor h0.le h1 ha together
  simp_rw [hag] at h
  rw [h, hlaw, hlaw]
  have e : 1 + (alpha - pyd) = 1 + alpha - pyd := by ring
  rw [e]
  refine ⟨rfl, fun hh => ?_⟩
  rw [ENNReal.ofReal_eq_ofReal_iff (div_nonneg (by linarith) (by linarith)) (div_nonneg (by linarith) (by linarith)), div_eq_div_iff (by linarith) (by linarith)] at hh
  nlinarith

/-! ### The posterior law of the partition -/

theorem rowsIn_prod (g : (Fin m → ℝ) → ℝ≥0∞) (y : Fin n → Fin m → ℝ) (c : Finset (Fin n)) : ((rowsIn y c).map g).prod = ∏ i ∈ c, g (y i) := by
  unfold rowsIn
  rw [List.map_map]
  have hnd : ((List.finRange n).filter (fun i => i ∈ c)).Nodup := (List.nodup_finRange n).filter _
  rw [← List.prod_toFinset (g ∘ y) hnd]
  refine Finset.prod_congr ?_ fun i _ => rfl
  ext i
  simp

theorem rowsIn_ne_nil (y : Fin n → Fin m → ℝ) {c : Finset (Fin n)} (hc : c.Nonempty) : rowsIn y c ≠ [] := by
  obtain ⟨i, hi⟩ := hc
  unfold rowsIn
  rw [Ne, List.map_eq_nil_iff, List.filter_eq_nil_iff]
  intro h
  exact h i (List.mem_finRange i) (by simpa using hi)

/-- The mass of a block. -/
theorem blockMass_evidence {p : NIW ℝ m} (hp : Admissible p) (y : Fin n → Fin m → ℝ) {c : Finset (Fin n)} (hc : c.Nonempty) :
    blockMass (AtomGen.ofLaw niwAtoms) normalLog p y c = ENNReal.ofReal (Real.exp (evidence (rowsIn y c) p)) := by
  unfold blockMass
  rw [AtomGen.ofLaw_law, niwAtoms, if_pos hp, ← (C133_posterior (rowsIn_ne_nil y hc) hp).1]
  refine lintegral_congr fun a => ?_
  rw [← likelihood_prod, rowsIn_prod]

section
variable {p : NIW ℝ m} (hp : Admissible p) (y : Fin n → Fin m → ℝ) {f : StickParams} (hex : f.Exhausts) {prior : Parts n → ℝ} (hpos : ∀ π, 0 < prior π)
  (hprior : ∀ π : Parts n, blockProb f Finset.card π.parts = ENNReal.ofReal (prior π))
include hp hex hpos hprior

open Classical in
theorem posterior_agree (π : Parts n) :
    ∑' δ : Fin n → ℕ, (if Agree π δ then (stickPosterior (AtomGen.ofLaw niwAtoms) normalLog p f y δ) Set.univ else 0) = ENNReal.ofReal (partPost prior p y π) := by
  have hw : ∀ π : Parts n, blockProb f Finset.card π.parts * ∏ c ∈ π.parts, blockMass (AtomGen.ofLaw niwAtoms) normalLog p y c = ENNReal.ofReal (partWeight prior p y π) := fun π => by
    rw [hprior, Finset.prod_congr rfl fun c hc => blockMass_evidence hp y (π.nonempty_of_mem_parts hc), ← ENNReal.ofReal_prod_of_nonneg fun c _ => (Real.exp_pos _).le, ← ENNReal.ofReal_mul (hpos π).le]
    rfl
  have hwpos : ∀ π : Parts n, 0 < partWeight prior p y π := fun π => mul_pos (hpos π) (Finset.prod_pos fun c _ => Real.exp_pos _)
  have htot : ∑' δ : Fin n → ℕ, stickJoint (AtomGen.ofLaw niwAtoms) normalLog p f y δ Set.univ = ENNReal.ofReal (∑ π, partWeight prior p y π) := by
    have h := tsum_joint (f := f) (measurable_obs y) (niw_conjugate hp) (fun _ : Parts n => True)
    simp only [if_true] at h
    rw [h, ENNReal.ofReal_sum_of_nonneg fun π _ => (hwpos π).le]
    exact Finset.sum_congr rfl fun π _ => hw π
  have hsum : 0 < ∑ π, partWeight prior p y π := Finset.sum_pos (fun π _ => hwpos π) ⟨π, Finset.mem_univ _⟩
  have h := tsum_agree_joint (f := f) (measurable_obs y) (niw_conjugate hp) π
  rw [hw] at h
  have e : ∀ δ : Fin n → ℕ, (if Agree π δ then (stickPosterior (AtomGen.ofLaw niwAtoms) normalLog p f y δ) Set.univ else 0) =
      (ENNReal.ofReal (∑ π, partWeight prior p y π))⁻¹ * (if Agree π δ then stickJoint (AtomGen.ofLaw niwAtoms) normalLog p f y δ Set.univ else 0) := fun δ => by
    unfold stickPosterior
    rw [htot, Measure.smul_apply, smul_eq_mul, mul_ite, mul_zero]
  simp_rw [e]
  rw [ENNReal.tsum_mul_left, h, ← ENNReal.ofReal_inv_of_pos hsum, ← ENNReal.ofReal_mul (inv_nonneg.2 hsum.le), partPost, div_eq_inv_mul]

theorem partPost_nonneg (π : Parts n) : 0 ≤ partPost prior p y π :=
  div_nonneg (mul_nonneg (hpos π).le (Finset.prod_nonneg fun _ _ => (Real.exp_pos _).le)) (Finset.sum_nonneg fun π _ => mul_nonneg (hpos π).le (Finset.prod_nonneg fun _ _ => (Real.exp_pos _).le))

open Classical in
theorem posterior_agree_real (π : Parts n) :
    Summable (fun δ : Fin n → ℕ => if Agree π δ then (stickPosterior (AtomGen.ofLaw niwAtoms) normalLog p f y δ).real Set.univ else 0) ∧
    ∑' δ : Fin n → ℕ, (if Agree π δ then (stickPosterior (AtomGen.ofLaw niwAtoms) normalLog p f y δ).real Set.univ else 0) = partPost prior p y π := by
  have h := posterior_agree hp y hex hpos hprior π
  have hne : ∑' δ : Fin n → ℕ, (if Agree π δ then (stickPosterior (AtomGen.ofLaw niwAtoms) normalLog p f y δ) Set.univ else 0) ≠ ∞ := by rw [h]; exact ENNReal.ofReal_ne_top
  have e : ∀ δ : Fin n → ℕ, (if Agree π δ then (stickPosterior (AtomGen.ofLaw niwAtoms) normalLog p f y δ).real Set.univ else 0) =
      (if Agree π δ then (stickPosterior (AtomGen.ofLaw niwAtoms) normalLog p f y δ) Set.univ else 0).toReal := fun δ => by
    split <;> simp [Measure.real]
  simp_rw [e]
  refine ⟨ENNReal.summable_toReal hne, ?_⟩
  rw [← ENNReal.tsum_toReal_eq (fun δ => ENNReal.ne_top_of_tsum_ne_top hne δ), h, ENNReal.toReal_ofReal (partPost_nonneg hp y hex hpos hprior π)]

open Classical in
/-- Posterior means of functions of the partition. -/
theorem posterior_part_mean (g : Parts n → ℝ) :
    ∑' δ : Fin n → ℕ, g (partOf δ) * (stickPosterior (AtomGen.ofLaw niwAtoms) normalLog p f y δ).real Set.univ = ∑ π, g π * partPost prior p y π := by
  have h1 : ∀ δ : Fin n → ℕ, g (partOf δ) * (stickPosterior (AtomGen.ofLaw niwAtoms) normalLog p f y δ).real Set.univ =
      ∑ π, g π * (if Agree π δ then (stickPosterior (AtomGen.ofLaw niwAtoms) normalLog p f y δ).real Set.univ else 0) := fun δ => by
    rw [Finset.sum_eq_single (partOf δ) (fun π _ hne => ?_) (fun h => absurd (Finset.mem_univ _) h), if_pos (agree_partOf δ)]
    rw [if_neg fun h => hne (agree_unique h (agree_partOf δ)), mul_zero]
  simp_rw [h1]
  rw [Summable.tsum_finsetSum fun π _ => ((posterior_agree_real hp y hex hpos hprior π).1).mul_left (g π)]
  refine Finset.sum_congr rfl fun π _ => ?_
  rw [tsum_mul_left, (posterior_agree_real hp y hex hpos hprior π).2]

end

theorem blockProb_dp {alpha : ℝ} (ha : 0 < alpha) (π : Parts n) : blockProb (dpSticks alpha ha) Finset.card π.parts = ENNReal.ofReal (pitmanYorLaw 0 alpha π) := by
  have h := gammaEppf_eq le_rfl one_pos ha π
  rw [sub_zero] at h
  rw [dpSticks_eq ha, blockProb_py le_rfl one_pos _ ha (parts_card_pos π), h]

theorem chinese_pos {alpha : ℝ} (ha : 0 < alpha) (π : Parts n) : 0 < pitmanYorLaw 0 alpha π := by
  have h := pitmanYorLaw_pos le_rfl one_pos ha π
  rwa [sub_zero] at h

section
variable {p : NIW ℝ m} (hp : Admissible p) (y : Fin n → Fin m → ℝ)
include hp

open Classical in
/-- **Dirichlet process mixture**: the posterior probability of a partition. -/
theorem C134_posterior_dirichletProcess {alpha : ℝ} (ha : 0 < alpha) (π : Parts n) :
    ∑' δ : Fin n → ℕ, (if Agree π δ then (stickPosterior (AtomGen.ofLaw niwAtoms) normalLog p (dpSticks alpha ha) y δ).real Set.univ else 0) = partPost (pitmanYorLaw 0 alpha) p y π :=
  (posterior_agree_real hp y (dpSticks_exhausts ha) (chinese_pos ha) (blockProb_dp ha) π).2

open Classical in
/-- **Pitman-Yor process mixture**: the posterior probability of a partition. -/
theorem C134_posterior_pitmanYor {pyd alpha : ℝ} (h0 : 0 ≤ pyd) (h1 : pyd < 1) (ha : 0 < alpha) (π : Parts n) :
    ∑' δ : Fin n → ℕ, (if Agree π δ then (stickPosterior (AtomGen.ofLaw niwAtoms) normalLog p (pySticks pyd alpha h0 h1 ha) y δ).real Set.univ else 0) =
      partPost (pitmanYorLaw pyd (alpha - pyd)) p y π :=
  (posterior_agree_real hp y (pySticks_exhausts h0 h1 ha) (pitmanYorLaw_pos h0 h1 ha) (fun π => by rw [blockProb_py h0 h1 _ ha (parts_card_pos π), gammaEppf_eq h0 h1 ha]) π).2

end

/-! ### Averages over the saved iterations -/

theorem parts_bound (g : Parts n → ℝ) : ∃ C, ∀ π, |g π| ≤ C := by
  refine ⟨∑ π, |g π|, fun π => Finset.single_le_sum (f := fun π => |g π|) (fun _ _ => abs_nonneg _) (Finset.mem_univ π)⟩

open Classical in
theorem countP_part (i i' : Fin n) (l : List (Fin n → ℕ)) : (l.map fun δ => if i' ∈ (partOf δ).part i then (1 : ℝ) else 0).sum = l.countP (fun δ => δ i = δ i') := by
  induction l with
  | nil => simp
  | cons δ l ih =>
    rw [List.map_cons, List.sum_cons, ih, List.countP_cons]
    have := agree_partOf δ i i'
    by_cases h : δ i = δ i'
    · rw [if_pos (this.1 h), if_pos (by simpa using h)]; push_cast; ring
    · rw [if_neg fun h' => h (this.2 h'), if_neg (by simpa using h)]; push_cast; ring

theorem card_partOf (δ : Fin n → ℕ) : (partOf δ).parts.card = (Finset.univ.image δ).card := by
  obtain ⟨j, hj⟩ := (place_agree_bijective (partOf δ)).2 ⟨δ, agree_partOf δ⟩
  have hj' : (fun i => j.1 ((partOf δ).part i)) = δ := congrArg Subtype.val hj
  have h : Finset.univ.image (fun i => j.1 ((partOf δ).part i)) = (partOf δ).parts.image j.1 := by
    have h := congrArg (fun s => s.image j.1) (parts_eq (partOf δ))
    simp only [Finset.image_image] at h
    exact h.symm
  rw [hj'] at h
  rw [h, Finset.card_image_of_injOn j.2.1]

section
variable {nz : ℝ → ℝ} (hnz : IsGumbel nz) {W : World ℝ m (MeanCov m)} (heps : W.eps = 0) (hW : W.logpdf = normalLog) {p : NIW ℝ m} (hp : Admissible p) (hn : 2 ≤ n) (G : RandGen)
  (y : Fin n → Fin m → ℝ) {gap : ℕ} (hgap : 0 < gap) (burn : ℕ) {ε : ℝ} (hε : 0 < ε)
include hnz heps hW hp hn hgap hε

/-- **Dirichlet process mixture**: any function of the partition. -/
theorem C134_average_dirichletProcess {alpha : ℝ} (ha : 0 < alpha) {s : GM (DP.cls : WeightClass ℝ) m (MeanCov m) × ℕ} {d : Fin n → ℕ}
    (h : StickHolds (C0 := DP.core) y p (fun s => s.alpha = alpha) s.1 d) (hfresh : FreshAtoms s.1) (g : Parts n → ℝ) :
    Tendsto (fun T : ℕ => savedMean (C0 := DP.core) nz W (AtomGen.ofLaw niwAtoms) G gap T (burn + 1)
      (fun l : List (Fin n → ℕ) => if ε ≤ |(l.map fun δ => g (partOf δ)).sum / T - ∑ π, g π * partPost (pitmanYorLaw 0 alpha) p y π| then 1 else 0) s) atTop (𝓝 0) := by
  obtain ⟨C, hC⟩ := parts_bound g
  have h1 := C98_average (C0 := DP.core) (measurable_obs y) hnz hW (dp_stickClass ha) heps hn (dpSticks_exhausts ha) (niw_conjugate hp) G (fun _ _ => WithBot.coe_ne_bot) h hfresh
    (g := fun δ => g (partOf δ)) (C := C) (fun δ => hC _) hgap burn hε
  rwa [posterior_part_mean hp y (dpSticks_exhausts ha) (chinese_pos ha) (blockProb_dp ha)] at h1

/-- **Pitman-Yor process mixture**: any function of the partition. -/
theorem C134_average_pitmanYor {pyd alpha : ℝ} (h0 : 0 ≤ pyd) (h1 : pyd < 1) (ha : 0 < alpha) {s : GM (PY.cls : WeightClass ℝ) m (MeanCov m) × ℕ} {d : Fin n → ℕ}
    (h : StickHolds (C0 := PY.core) y p (fun s => s.pyd = pyd ∧ s.alpha = alpha) s.1 d) (hfresh : FreshAtoms s.1) (g : Parts n → ℝ) :
    Tendsto (fun T : ℕ => savedMean (C0 := PY.core) nz W (AtomGen.ofLaw niwAtoms) G gap T (burn + 1)
      (fun l : List (Fin n → ℕ) => if ε ≤ |(l.map fun δ => g (partOf δ)).sum / T - ∑ π, g π * partPost (pitmanYorLaw pyd (alpha - pyd)) p y π| then 1 else 0) s) atTop (𝓝 0) := by
  obtain ⟨C, hC⟩ := parts_bound g
  have h2 := C98_average (C0 := PY.core) (measurable_obs y) hnz hW (py_stickClass h0 h1 ha) heps hn (pySticks_exhausts h0 h1 ha) (niw_conjugate hp) G (fun _ _ => WithBot.coe_ne_bot) h hfresh
    (g := fun δ => g (partOf δ)) (C := C) (fun δ => hC _) hgap burn hε
  rwa [posterior_part_mean hp y (pySticks_exhausts h0 h1 ha) (pitmanYorLaw_pos h0 h1 ha) (fun π => by rw [blockProb_py h0 h1 _ ha (parts_card_pos π), gammaEppf_eq h0 h1 ha])] at h2

open Classical in
/-- **Dirichlet process mixture**: affinities. -/
theorem C134_affinity_dirichletProcess {alpha : ℝ} (ha : 0 < alpha) {s : GM (DP.cls : WeightClass ℝ) m (MeanCov m) × ℕ} {d : Fin n → ℕ}
    (h : StickHolds (C0 := DP.core) y p (fun s => s.alpha = alpha) s.1 d) (hfresh : FreshAtoms s.1) (i i' : Fin n) :
    Tendsto (fun T : ℕ => savedMean (C0 := DP.core) nz W (AtomGen.ofLaw niwAtoms) G gap T (burn + 1)
      (fun l : List (Fin n → ℕ) => if ε ≤ |(l.countP (fun δ => δ i = δ i') : ℝ) / T - ∑ π, if i' ∈ π.part i then partPost (pitmanYorLaw 0 alpha) p y π else 0| then 1 else 0) s) atTop (𝓝 0) := by
  have h1 := C134_average_dirichletProcess hnz heps hW hp hn G y hgap burn hε ha h hfresh (fun π => if i' ∈ π.part i then 1 else 0)
  simp_rw [countP_part, ite_mul, one_mul, zero_mul] at h1
  exact h1

open Classical in
/-- **Pitman-Yor process mixture**: affinities. -/
theorem C134_affinity_pitmanYor {pyd alpha : ℝ} (h0 : 0 ≤ pyd) (h1 : pyd < 1) (ha : 0 < alpha) {s : GM (PY.cls : WeightClass ℝ) m (MeanCov m) × ℕ} {d : Fin n → ℕ}
    (h : StickHolds (C0 := PY.core) y p (fun s => s.pyd = pyd ∧ s.alpha = alpha) s.1 d) (hfresh : FreshAtoms s.1) (i i' : Fin n) :
    Tendsto (fun T : ℕ => savedMean (C0 := PY.core) nz W (AtomGen.ofLaw niwAtoms) G gap T (burn + 1)
      (fun l : List (Fin n → ℕ) => if ε ≤ |(l.countP (fun δ => δ i = δ i') : ℝ) / T - ∑ π, if i' ∈ π.part i then partPost (pitmanYorLaw pyd (alpha - pyd)) p y π else 0| then 1 else 0) s) atTop (𝓝 0) := by
  have h2 := C134_average_pitmanYor hnz heps hW hp hn G y hgap burn hε h0 h1 ha h hfresh (fun π => if i' ∈ π.part i then 1 else 0)
  simp_rw [countP_part, ite_mul, one_mul, zero_mul] at h2
  exact h2

/-- **Dirichlet process mixture**: the mean of `n_groups`. -/
theorem C134_groups_dirichletProcess {alpha : ℝ} (ha : 0 < alpha) {s : GM (DP.cls : WeightClass ℝ) m (MeanCov m) × ℕ} {d : Fin n → ℕ}
    (h : StickHolds (C0 := DP.core) y p (fun s => s.alpha = alpha) s.1 d) (hfresh : FreshAtoms s.1) :
    Tendsto (fun T : ℕ => savedMean (C0 := DP.core) nz W (AtomGen.ofLaw niwAtoms) G gap T (burn + 1)
      (fun l : List (Fin n → ℕ) => if ε ≤ |(l.map fun δ => ((Finset.univ.image δ).card : ℝ)).sum / T - ∑ π : Parts n, (π.parts.card : ℝ) * partPost (pitmanYorLaw 0 alpha) p y π| then 1 else 0) s) atTop (𝓝 0) := by
  have h1 := C134_average_dirichletProcess hnz heps hW hp hn G y hgap burn hε ha h hfresh (fun π => (π.parts.card : ℝ))
  simp_rw [card_partOf] at h1
  exact h1

/-- **Pitman-Yor process mixture**: the mean of `n_groups`. -/
theorem C134_groups_pitmanYor {pyd alpha : ℝ} (h0 : 0 ≤ pyd) (h1 : pyd < 1) (ha : 0 < alpha) {s : GM (PY.cls : WeightClass ℝ) m (MeanCov m) × ℕ} {d : Fin n → ℕ}
    (h : StickHolds (C0 := PY.core) y p (fun s => s.pyd = pyd ∧ s.alpha = alpha) s.1 d) (hfresh : FreshAtoms s.1) :
    Tendsto (fun T : ℕ => savedMean (C0 := PY.core) nz W (AtomGen.ofLaw niwAtoms) G gap T (burn + 1)
      (fun l : List (Fin n → ℕ) => if ε ≤ |(l.map fun δ => ((Finset.univ.image δ).card : ℝ)).sum / T - ∑ π : Parts n, (π.parts.card : ℝ) * partPost (pitmanYorLaw pyd (alpha - pyd)) p y π| then 1 else 0) s)
      atTop (𝓝 0) := by
  have h2 := C134_average_pitmanYor hnz heps hW hp hn G y hgap burn hε h0 h1 ha h hfresh (fun π => (π.parts.card : ℝ))
  simp_rw [card_partOf] at h2
  exact h2

end

/-! ### The hypotheses are met -/

open Classical in
example {nz : ℝ → ℝ} (hnz : IsGumbel nz) {W : World ℝ 2 (MeanCov 2)} (heps : W.eps = 0) (hW : W.logpdf = normalLog) (G : RandGen) (y : Fin 3 → Fin 2 → ℝ) :
    Tendsto (fun T : ℕ => savedMean (C0 := DP.core) nz W (AtomGen.ofLaw niwAtoms) G 2 T 11
      (fun l : List (Fin 3 → ℕ) => if 1 / 100 ≤ |(l.countP (fun δ => δ 0 = δ 1) : ℝ) / T - ∑ π : Parts 3, if 1 ∈ π.part 0 then
        partPost (pitmanYorLaw 0 2) ⟨![0, 0], 1, fun i j => (1 : Matrix (Fin 2) (Fin 2) ℝ) i j, 2⟩ y π else 0| then 1 else 0)
        (dpPlane y 2 fun i => i)) atTop (𝓝 0) :=
  C134_affinity_dirichletProcess hnz heps hW admissible_plane (by norm_num) G y two_pos 10 (by norm_num) two_pos ⟨rfl, rfl, rfl, rfl, rfl⟩ (fun _ _ => rfl) 0 1

/-- Two observations under the Chinese restaurant process. -/
example : pitmanYorLaw 0 2 together = 1 / 3 := by norm_num [pitmanYorLaw, together]

/-- With discount 1/2 and alpha 1 two labels agree with probability 1/3; the two-parameter law with concentration 1 gives 1/4. -/
example : pitmanYorLaw (1 / 2) (1 - 1 / 2) together = 1 / 3 ∧ pitmanYorLaw (1 / 2) 1 together = 1 / 4 := by norm_num [pitmanYorLaw, together]

end Verif.Mix
