import Verif.Lemmas.SliceLaw
import Verif.Lemmas.DP
import Verif.Lemmas.BBerOk
import Verif.Lemmas.Tail
import Verif.Props.C85
import Mathlib.Probability.Independence.Integration

/-!
# C86: the slice and label update leaves the conditional law of the labels invariant

Given weights `w` and atoms `θ`, the conditional law of the labels is `P(d) ∝ ∏ w[d_i] f(y_i | θ[d_i])` (`labelMass`).  A Gibbs step draws slice levels below the weights of the current labels,
completes the weights until their total exceeds one minus the smallest level, and draws new labels among the components above the levels (`assignStep`; `gibbsStep_eq` says that this is the
second half of `_gibbs_step`).  Written with independent uniform numbers for the slice levels and for the Gumbel noise, this step leaves the law invariant (`C86_partial`, for the classes that
inherit `tail` `C86_sequence_partial`, for finitely many weights `C86_finite_partial`, for the Dirichlet process `C86_dirichletProcess_partial`) - if the shift `eps` of the slice levels
is zero.  The code draws the levels from `(eps, w + eps)`; then a level can lie above all weights, and the label becomes 0 whatever the density.  So the claim is false for the code as written
(`C86_refuted`, for every `eps` between 0 and 1/2, by an amount of order `eps`).
-/

namespace Verif.Mix
open MeasureTheory ProbabilityTheory GM
open scoped ENNReal

section
variable {K : Type} [Field K] [LinearOrder K] {C : WeightClass K} {m : ℕ} {Atom : Type}

/-- The part of `_update_weights` after the draw of the weights `w`, `_base.py:888-890`. -/
def sliceTail (W : World K m Atom) (d : List ℕ) (w : List K) : M K (GM C m Atom) Unit := do
  let ws ← M.lift (Py.gather w (labels d))
  let us ← drawSlices W ws
  M.assign (fun s => { s with u := us })
  let u ← M.lift (minK us)
  let _ ← callW (C.tail W.fuel (1 - u))

/-- The slice variables, the completion of the weights, and the labels, `_base.py:888-890, 911-932`. -/
def assignStep (W : World K m Atom) (d : List ℕ) (w : List K) : M K (GM C m Atom) Unit := do
  sliceTail W d w
  updateD W

omit [Field K] [LinearOrder K] in
theorem bind_assoc' {σ α β γ : Type} (x : M K σ α) (f : α → M K σ β) (g : β → M K σ γ) : (x >>= f) >>= g = x >>= fun a => f a >>= g := by
  funext ω s
  simp only [M.bind_apply]
  rcases x ω s with ⟨_ | a, s'⟩ <;> rfl

/-- A Gibbs step updates the atoms, draws the weights given the labels and makes this step. -/
theorem gibbsStep_eq (W : World K m Atom) : (gibbsStep W : M K (GM C m Atom) Unit) = (do
    let s ← M.self
    updateAtoms W (npUnique s.d)
    let s ← M.self
    callW (BaseWeight.fit C.toWeightCore (labels s.d))
    let w ← callW (C.random .none)
    assignStep W s.d w) := by
  unfold gibbsStep updateWeights assignStep sliceTail
  simp only [bind_assoc']
end

variable {C : WeightClass ℝ} {m : ℕ} {Atom : Type} {ω : Oracle ℝ}

/-- The surrounding with uniform variables from a stream, and enough rounds for the loop of `tail` (which has no bound in the code). -/
noncomputable def withSlices (W : World ℝ m Atom) (fuel : (ℕ → ℝ) → ℕ) (U : ℕ → ℝ) : World ℝ m Atom :=
  { W with unif := fun p lo hi => lo + (hi - lo) * U p, fuel := fuel U }

/-- The state after the slice variables: the weights are the first ones of a sequence `w` whose later members lie below all slice levels, the atoms those of `θ`. -/
def Completes (W : World ℝ m Atom) (ω : Oracle ℝ) (w : ℕ → ℝ) (θ : ℕ → Atom) (s : GM C m Atom × ℕ) : Prop :=
  ∃ k s', C.getW s.1.wst.1 = (List.range k).map w ∧ getAtoms W (List.range k) ω s = (.ok ((List.range k).map θ), s') ∧ ∀ j, k ≤ j → ∀ u ∈ s.1.u, w j ≤ u

theorem gather_map {w : List ℝ} {ws : ℕ → ℝ} {d : List ℕ} (h : ∀ j ∈ d, w[j]? = some (ws j)) : Py.gather w (labels d) = .ok (d.map ws) := by
  induction d with
  | nil => rfl
  | cons j d ih =>
    have h1 := h j (by simp)
    have h2 := ih fun k hk => h k (by simp [hk])
    obtain ⟨x, hx, hx'⟩ := index_ok (l := w) (i := (j : ℤ)) (by positivity) (by exact_mod_cast (List.getElem?_eq_some_iff.1 h1).1)
    have : labels (j :: d) = (j : ℤ) :: labels d := rfl
    rw [this, Py.gather, h2, hx]
    rw [Int.toNat_natCast, h1] at hx'
    cases hx'
    rfl

/-- The state of the object after the slice variables. -/
theorem sliceTail_state {W : World ℝ m Atom} {d : List ℕ} {w : List ℝ} {ws : List ℝ} (hg : Py.gather w (labels d) = .ok ws) {s s' : GM C m Atom × ℕ}
    (h : sliceTail W d w ω s = (.ok (), s')) : s'.1.u = ws.mapIdx (fun i x => W.unif (s.2 + i) W.eps (x + W.eps)) ∧ s'.1.y = s.1.y := by
  refine wp_of_ok (Q := fun _ t => t.1.u = ws.mapIdx (fun i x => W.unif (s.2 + i) W.eps (x + W.eps)) ∧ t.1.y = s.1.y) (E := fun _ _ => True) h ?_
  unfold sliceTail
  rw [wp_bind, wp_lift]
  refine ⟨fun ws' hw => ?_, fun _ _ => trivial⟩
  rw [hg] at hw
  cases hw
  rw [wp_bind, wp_drawSlices, wp_bind, wp_assign, wp_bind, wp_lift]
  refine ⟨fun u _ => ?_, fun _ _ => trivial⟩
  rw [wp_bind, wp_callW]
  unfold wp
  rcases C.tail W.fuel (1 - u) ω _ with ⟨_ | _, _⟩
  · trivial
  · exact ⟨rfl, rfl⟩

/-- The density of an observation under component `j`. -/
noncomputable def dens (lp : (Fin m → ℝ) → Atom → WithBot ℝ) (θ : ℕ → Atom) (x : Fin m → ℝ) (j : ℕ) : ℝ≥0∞ := ENNReal.ofReal (botExp (lp x (θ j)))

theorem sliceProb_eq {W : World ℝ m Atom} {w : ℕ → ℝ} {θ : ℕ → Atom} {x : Fin m → ℝ} {u : ℝ} {k : ℕ} (hk : ∀ j, k ≤ j → w j ≤ u) (j : ℕ) :
    choiceProb (sliceWeights W ((List.range k).map w) ((List.range k).map θ) x u) j = (sliceKernel w (dens W.logpdf θ x) u j).toReal := by
  have hnn : ∀ j, 0 ≤ (if u < w j then botExp (W.logpdf x (θ j)) else 0) := fun j => by split; exacts [botExp_nonneg _, le_rfl]
  have hl : sliceWeights W ((List.range k).map w) ((List.range k).map θ) x u = (List.range k).map (fun j => if u < w j then botExp (W.logpdf x (θ j)) else 0) := by
    unfold sliceWeights
    rw [List.zipWith_map, List.zipWith_self]
  have hite : ∀ j, (if u < w j then dens W.logpdf θ x j else 0) = ENNReal.ofReal (if u < w j then botExp (W.logpdf x (θ j)) else 0) := fun j => by
    split
    · rfl
    · simp
  have hmass : sliceMass w (dens W.logpdf θ x) u = ENNReal.ofReal ((List.range k).map (fun j => if u < w j then botExp (W.logpdf x (θ j)) else 0)).sum := by
    unfold sliceMass
    simp_rw [hite]
    rw [tsum_eq_sum (s := Finset.range k), ← ENNReal.ofReal_sum_of_nonneg fun j _ => hnn j]
    · congr 1
    · intro j hj
      rw [if_neg (not_lt.2 (hk j (by simpa using hj)))]
      simp
  unfold choiceProb sliceKernel
  rw [hl, hmass, hite, ENNReal.toReal_div, ENNReal.toReal_ofReal (hnn j), ENNReal.toReal_ofReal (List.sum_nonneg (by
    intro y hy
    obtain ⟨j, _, rfl⟩ := List.mem_map.1 hy
    exact hnn j))]
  congr 1
  rw [List.getElem?_map]
  by_cases hj : j < k
  · rw [List.getElem?_range hj]; rfl
  · rw [List.getElem?_eq_none (by simpa using hj), if_neg (not_lt.2 (hk j (not_lt.1 hj)))]
    rfl

theorem sliceKernel_ne_top {w : ℕ → ℝ} {F : ℕ → ℝ≥0∞} (hF : ∀ j, F j ≠ ∞) {t : ℝ} {d : ℕ} (hd : t < w d) (h0 : F d ≠ 0) (j : ℕ) : sliceKernel w F t j ≠ ∞ := by
  unfold sliceKernel
  refine ENNReal.div_ne_top (by split; exacts [hF j, by simp]) fun h => h0 ?_
  have := ENNReal.tsum_eq_zero.1 h d
  rwa [if_pos hd] at this

theorem getAtoms_withSlices (W : World ℝ m Atom) (fuel : (ℕ → ℝ) → ℕ) (U : ℕ → ℝ) : ∀ js, (GM.getAtoms (C := C) (withSlices W fuel U) js) = GM.getAtoms W js
  | [] => rfl
  | j :: js => by
    rw [GM.getAtoms, GM.getAtoms, getAtoms_withSlices W fuel U js]
    rfl

variable {nz : ℝ → ℝ} (hnz : IsGumbel nz)
include hnz

/-- The law of the labels given the slice variables. -/
theorem step_law {W : World ℝ m Atom} (heps : W.eps = 0) {w : ℕ → ℝ} {θ : ℕ → Atom} {w0 : List ℝ} {s s1 : GM C m Atom × ℕ} {fuel : (ℕ → ℝ) → ℕ} {U : ℕ → ℝ} {n : ℕ}
    (hn : s.1.y.length = n) (hn1 : 2 ≤ n)
    (hU : ∀ p, 0 < U p ∧ U p < 1) {d d' : Fin n → ℕ} (hw0 : ∀ i, w0[d i]? = some (w (d i)))
    (hpos : ∀ i, 0 < w (d i)) (hfin : ∀ i : Fin n, W.logpdf (s.1.y[i]'(by rw [hn]; exact i.2)) (θ (d i)) ≠ ⊥)
    (hs : sliceTail (withSlices W fuel U) (List.ofFn d) w0 ω s = (.ok (), s1)) (hc : Completes W ω w θ s1) :
    streamLaw {g | (assignStep (withNoise (withSlices W fuel U) (fun p => nz (g p))) (List.ofFn d) w0 ω s).1 = .ok () ∧
      (assignStep (withNoise (withSlices W fuel U) (fun p => nz (g p))) (List.ofFn d) w0 ω s).2.1.d = List.ofFn d'} =
      ∏ i : Fin n, sliceKernel w (dens W.logpdf θ (s.1.y[i]'(by rw [hn]; exact i.2))) (w (d i) * U (s.2 + i)) (d' i) := by
  subst hn
  obtain ⟨hu, hy⟩ := sliceTail_state (gather_map (w := w0) (ws := w) (d := List.ofFn d) (by simpa [List.mem_ofFn] using hw0)) hs
  obtain ⟨k, s2, h1, h2, h3⟩ := hc
  have hset : ∀ g : ℕ → ℝ, assignStep (withNoise (withSlices W fuel U) (fun p => nz (g p))) (List.ofFn d) w0 ω s =
      updateD (withNoise (withSlices W fuel U) (fun p => nz (g p))) ω s1 := by
    intro g
    have : sliceTail (C := C) (withNoise (withSlices W fuel U) (fun p => nz (g p))) (List.ofFn d) w0 = sliceTail (withSlices W fuel U) (List.ofFn d) w0 := rfl
    unfold assignStep
    rw [M.bind_apply, this, hs]
  simp_rw [hset]
  have hul : s1.1.u.length = s1.1.y.length := by rw [hu, hy]; simp
  have hug : ∀ i : Fin s.1.y.length, s1.1.u[(i : ℕ)]? = some (w (d i) * U (s.2 + i)) := by
    intro i
    rw [hu]
    simp [withSlices, heps]
  have hcov : ∀ i : Fin s.1.y.length, ∀ j, k ≤ j → w j ≤ w (d i) * U (s.2 + i) := fun i j hj => h3 j hj _ (List.mem_of_getElem? (hug i))
  have hlt : ∀ i : Fin s.1.y.length, w (d i) * U (s.2 + i) < w (d i) := fun i => by
    have := mul_lt_mul_of_pos_left (hU (s.2 + i)).2 (hpos i)
    rwa [mul_one] at this
  have hdk : ∀ i, d i < k := fun i => by
    by_contra h
    exact absurd (hcov i (d i) (not_lt.1 h)) (not_le.2 (hlt i))
  have hg : ∀ i : Fin s.1.y.length, s1.1.y[(i : ℕ)]? = some s.1.y[i] := fun i => by rw [hy]; exact List.getElem?_eq_getElem i.2
  have hk : (C.getW s1.1.wst.1).length = k := by rw [h1]; simp
  have hA : GM.getAtoms (withSlices W fuel U) (List.range (C.getW s1.1.wst.1).length) ω s1 = (.ok ((List.range k).map θ), s2) := by
    rw [getAtoms_withSlices, hk]; exact h2
  have hyl : s1.1.y.length = s.1.y.length := by rw [hy]
  have hn0 : s.1.y.length ≠ 0 := by omega
  have hne : C.getW s1.1.wst.1 ≠ [] := by
    intro h
    rw [h] at hk
    have := hdk ⟨0, Nat.pos_of_ne_zero hn0⟩
    rw [← hk] at this
    exact absurd this (Nat.not_lt_zero _)
  have hp : ∀ (i : ℕ) x ui, s1.1.y[i]? = some x → s1.1.u[i]? = some ui → ∃ (j : ℕ) (a : Atom) (wj : ℝ), ((List.range k).map θ)[j]? = some a ∧
      (C.getW s1.1.wst.1)[j]? = some wj ∧ ui < wj ∧ (withSlices W fuel U).logpdf x a ≠ ⊥ := by
    intro i x ui hx hui
    have hi : i < s.1.y.length := by rw [← hyl]; exact (List.getElem?_eq_some_iff.1 hx).1
    rw [hg ⟨i, hi⟩] at hx
    rw [hug ⟨i, hi⟩] at hui
    cases hx; cases hui
    refine ⟨d ⟨i, hi⟩, θ (d ⟨i, hi⟩), w (d ⟨i, hi⟩), ?_, ?_, hlt ⟨i, hi⟩, hfin ⟨i, hi⟩⟩
    · rw [List.getElem?_map, List.getElem?_range (hdk _)]; rfl
    · rw [h1, List.getElem?_map, List.getElem?_range (hdk _)]; rfl
  have key := C85_update (ω := ω) hnz hA (by omega) hul hne hp (d := List.ofFn d') (by rw [List.length_ofFn, hyl])
  have hterm : ∀ i : Fin s1.1.y.length, choiceProb (sliceWeights (withSlices W fuel U) (C.getW s1.1.wst.1) ((List.range k).map θ) s1.1.y[i] (s1.1.u[i]'(by rw [hul]; exact i.2)))
      ((List.ofFn d')[i]'(by rw [List.length_ofFn, ← hyl]; exact i.2)) =
      (sliceKernel w (dens W.logpdf θ (s.1.y[finCongr hyl i])) (w (d (finCongr hyl i)) * U (s.2 + i)) (d' (finCongr hyl i))).toReal := by
    intro i
    have e1 : s1.1.y[i] = s.1.y[finCongr hyl i] := by
      have h := hg (finCongr hyl i)
      have h' : s1.1.y[((finCongr hyl i : Fin _) : ℕ)]? = some s1.1.y[i] := List.getElem?_eq_getElem i.2
      exact Option.some.inj (h'.symm.trans h)
    have e2 : s1.1.u[i]'(by rw [hul]; exact i.2) = w (d (finCongr hyl i)) * U (s.2 + i) := by
      have := hug (finCongr hyl i)
      rw [finCongr_apply, Fin.val_cast, List.getElem?_eq_getElem (by rw [hul]; exact i.2)] at this
      exact Option.some.inj this
    have e3 : (List.ofFn d')[i]'(by rw [List.length_ofFn, ← hyl]; exact i.2) = d' (finCongr hyl i) := by
      simp only [Fin.getElem_fin, List.getElem_ofFn]
      rfl
    rw [e1, e2, e3, h1]
    exact sliceProb_eq (W := W) (x := s.1.y[finCongr hyl i]) (hcov (finCongr hyl i)) (d' (finCongr hyl i))
  rw [← ENNReal.ofReal_toReal (measure_ne_top streamLaw _), ← measureReal_def, key, ENNReal.ofReal_prod_of_nonneg]
  · refine Fintype.prod_equiv (finCongr hyl) _ _ fun i => ?_
    rw [hterm i, ENNReal.ofReal_toReal]
    · rfl
    · refine sliceKernel_ne_top (fun j => ENNReal.ofReal_ne_top) (hlt (finCongr hyl i)) ?_ _
      exact (ENNReal.ofReal_pos.2 (botExp_pos (hfin (finCongr hyl i)))).ne'
  · intro i _
    rw [hterm i]
    exact ENNReal.toReal_nonneg

/-- The probability of a transition of the labels: integral over the slice variables of the probability over the Gumbel noise. -/
noncomputable def stepProb (nz : ℝ → ℝ) (W : World ℝ m Atom) (fuel : (ℕ → ℝ) → ℕ) (ω : Oracle ℝ) (s : GM C m Atom × ℕ) (w0 : List ℝ) (d d' : List ℕ) : ℝ≥0∞ :=
  ∫⁻ U, streamLaw {g | (assignStep (withNoise (withSlices W fuel U) (fun p => nz (g p))) d w0 ω s).1 = .ok () ∧
      (assignStep (withNoise (withSlices W fuel U) (fun p => nz (g p))) d w0 ω s).2.1.d = d'} ∂streamLaw

/-- The conditional law of the labels (not normalised): weight times density, for every observation. -/
noncomputable def labelMass (lp : (Fin m → ℝ) → Atom → WithBot ℝ) (w : ℕ → ℝ) (θ : ℕ → Atom) {n : ℕ} (y : Fin n → Fin m → ℝ) (d : Fin n → ℕ) : ℝ≥0∞ :=
  ∏ i, ENNReal.ofReal (w (d i)) * dens lp θ (y i) (d i)

omit hnz in
theorem stream_unit : ∀ᵐ U ∂streamLaw, ∀ p, 0 < U p ∧ U p < 1 := by
  rw [ae_all_iff]
  intro p
  exact (Measure.infinitePi_map_eval (fun _ : ℕ => unifLaw) p ▸ (⟨measurable_pi_apply p, rfl⟩ : MeasurePreserving (fun U : ℕ → ℝ => U p) streamLaw (streamLaw.map fun U => U p))
    : MeasurePreserving (fun U : ℕ → ℝ => U p) streamLaw unifLaw).quasiMeasurePreserving.ae unifLaw_Ioo

/-- The kernel of the step is a product over the observations. -/
theorem stepProb_eq {W : World ℝ m Atom} (heps : W.eps = 0) {w : ℕ → ℝ} {θ : ℕ → Atom} {w0 : List ℝ} {s : GM C m Atom × ℕ} {fuel : (ℕ → ℝ) → ℕ} {n : ℕ}
    (hn : s.1.y.length = n) (hn1 : 2 ≤ n) {d d' : Fin n → ℕ} (hw0 : ∀ i, w0[d i]? = some (w (d i)))
    (hpos : ∀ i, 0 < w (d i)) (hfin : ∀ i : Fin n, W.logpdf (s.1.y[i]'(by rw [hn]; exact i.2)) (θ (d i)) ≠ ⊥)
    (hs : ∀ᵐ U ∂streamLaw, ∃ s1, sliceTail (withSlices W fuel U) (List.ofFn d) w0 ω s = (.ok (), s1) ∧ Completes W ω w θ s1) :
    stepProb nz W fuel ω s w0 (List.ofFn d) (List.ofFn d') =
      ∏ i : Fin n, ∫⁻ x, sliceKernel w (dens W.logpdf θ (s.1.y[i]'(by rw [hn]; exact i.2))) (w (d i) * x) (d' i) ∂unifLaw := by
  unfold stepProb
  have h1 : ∀ᵐ U ∂streamLaw, streamLaw {g | (assignStep (withNoise (withSlices W fuel U) (fun p => nz (g p))) (List.ofFn d) w0 ω s).1 = .ok () ∧
      (assignStep (withNoise (withSlices W fuel U) (fun p => nz (g p))) (List.ofFn d) w0 ω s).2.1.d = List.ofFn d'} =
      ∏ i : Fin n, sliceKernel w (dens W.logpdf θ (s.1.y[i]'(by rw [hn]; exact i.2))) (w (d i) * U (s.2 + i)) (d' i) := by
    filter_upwards [stream_unit, hs] with U hU ⟨s1, h1, h2⟩
    exact step_law hnz heps hn hn1 hU hw0 hpos hfin h1 h2
  rw [lintegral_congr_ae h1]
  have hm : ∀ i : Fin n, Measurable (fun x => sliceKernel w (dens W.logpdf θ (s.1.y[i]'(by rw [hn]; exact i.2))) (w (d i) * x) (d' i)) := fun i =>
    (measurable_sliceKernel w _ (d' i)).comp (measurable_const_mul _)
  have hind : iIndepFun (fun (i : Fin n) (U : ℕ → ℝ) => sliceKernel w (dens W.logpdf θ (s.1.y[i]'(by rw [hn]; exact i.2))) (w (d i) * U (s.2 + i)) (d' i)) streamLaw :=
    (streamLaw_indep.precomp (g := fun i : Fin n => s.2 + i) (fun a b h => Fin.ext (by simpa using h))).comp _ hm
  rw [lintegral_prod_eq_prod_lintegral_of_indepFun Finset.univ _ hind fun i => (hm i).comp (measurable_pi_apply _)]
  refine Finset.prod_congr rfl fun i _ => ?_
  rw [← Measure.infinitePi_map_eval (fun _ : ℕ => unifLaw) (s.2 + i), lintegral_map (hm i) (measurable_pi_apply _)]
  rfl

/-- Without the shift `eps` of the slice variables, the step leaves the conditional law of the labels invariant.  For every label vector `d`, `S d` is a state of the object (with its
surrounding and its generator) in which weights `w0 d` covering the labels have been drawn; the weights form one sequence `w`, of which all labels see a part, and so do the atoms. -/
theorem C86_partial (lp : (Fin m → ℝ) → Atom → WithBot ℝ) {w : ℕ → ℝ} (hw : ∀ j, 0 ≤ w j) (hfin : ∀ t, 0 < t → {j | t < w j}.Finite) {θ : ℕ → Atom} {n : ℕ} (hn : 2 ≤ n)
    (y : Fin n → Fin m → ℝ) (W : (Fin n → ℕ) → World ℝ m Atom) (hlp : ∀ d, (W d).logpdf = lp) (heps : ∀ d, (W d).eps = 0) (ω : (Fin n → ℕ) → Oracle ℝ)
    (S : (Fin n → ℕ) → GM C m Atom × ℕ) (w0 : (Fin n → ℕ) → List ℝ) (fuel : (Fin n → ℕ) → (ℕ → ℝ) → ℕ)
    (hS : ∀ d, labelMass lp w θ y d ≠ 0 → (S d).1.y = List.ofFn y ∧ (∀ i, (w0 d)[d i]? = some (w (d i))) ∧
      ∀ᵐ U ∂streamLaw, ∃ s1, sliceTail (withSlices (W d) (fuel d) U) (List.ofFn d) (w0 d) (ω d) (S d) = (.ok (), s1) ∧ Completes (W d) (ω d) w θ s1) (d' : Fin n → ℕ) :
    ∑' d, labelMass lp w θ y d * stepProb nz (W d) (fuel d) (ω d) (S d) (w0 d) (List.ofFn d) (List.ofFn d') = labelMass lp w θ y d' := by
  have h1 : ∀ d, labelMass lp w θ y d * stepProb nz (W d) (fuel d) (ω d) (S d) (w0 d) (List.ofFn d) (List.ofFn d') =
      ∏ i, (ENNReal.ofReal (w (d i)) * dens lp θ (y i) (d i)) * ∫⁻ x, sliceKernel w (dens lp θ (y i)) (w (d i) * x) (d' i) ∂unifLaw := by
    intro d
    by_cases h0 : labelMass lp w θ y d = 0
    · rw [h0, zero_mul, Finset.prod_mul_distrib, show ∏ i, ENNReal.ofReal (w (d i)) * dens lp θ (y i) (d i) = 0 from h0, zero_mul]
    obtain ⟨hy, hw0, hs⟩ := hS d h0
    have hne : ∀ i, ENNReal.ofReal (w (d i)) ≠ 0 ∧ dens lp θ (y i) (d i) ≠ 0 := fun i => by
      have := Finset.prod_ne_zero_iff.1 h0 i (Finset.mem_univ i)
      exact ⟨left_ne_zero_of_mul this, right_ne_zero_of_mul this⟩
    have hyl : (S d).1.y.length = n := by rw [hy]; simp
    have hyi : ∀ i : Fin n, (S d).1.y[i]'(by rw [hyl]; exact i.2) = y i := fun i => by
      simp [hy]
    rw [stepProb_eq hnz (heps d) hyl hn hw0 (fun i => ?_) (fun i => ?_) hs, labelMass, ← Finset.prod_mul_distrib]
    · refine Finset.prod_congr rfl fun i _ => ?_
      rw [hyi, hlp]
    · have := (hne i).1
      rwa [Ne, ENNReal.ofReal_eq_zero, not_le] at this
    · intro hb
      refine (hne i).2 ?_
      unfold dens
      rw [← hyi i, ← hlp d, hb]
      exact ENNReal.ofReal_zero
  simp_rw [h1]
  rw [tsum_pi_prod (fun i j => (ENNReal.ofReal (w j) * dens lp θ (y i) j) * ∫⁻ x, sliceKernel w (dens lp θ (y i)) (w j * x) (d' i) ∂unifLaw)]
  refine Finset.prod_congr rfl fun i _ => ?_
  exact slice_invariant hw (fun j => ENNReal.ofReal_ne_top) hfin (d' i)

/-! ### Classes that inherit `tail` -/

/-- From the state `st k0` on, `complete` reads off the sequence `w`, one weight per call, as long as the total is below one. -/
def Grows (C0 : WeightCore ℝ) (ω : Oracle ℝ) (w : ℕ → ℝ) (st : ℕ → C0.State × ℕ) (k0 : ℕ) : Prop :=
  C0.getW (st k0).1 = (List.range k0).map w ∧ ∀ k, k0 ≤ k → ∑ j ∈ Finset.range k, w j < 1 →
    (∃ r, C0.complete (.int ((k : ℤ) + 1)) ω (st k) = (.ok r, st (k + 1))) ∧ C0.getW (st (k + 1)).1 = (List.range (k + 1)).map w

omit hnz in
theorem tailLoop_grows {C0 : WeightCore ℝ} {w : ℕ → ℝ} {st : ℕ → C0.State × ℕ} {k0 : ℕ} (hg : Grows C0 ω w st k0) (hw : ∀ j, 0 ≤ w j) {x : ℝ} (hx : x < 1) {N : ℕ}
    (hN : x ≤ ∑ j ∈ Finset.range N, w j) : ∀ (fuel k : ℕ), k0 ≤ k → C0.getW (st k).1 = (List.range k).map w → N ≤ k + fuel →
      ∃ k' r, k ≤ k' ∧ BaseWeight.tailLoop C0 x fuel ω (st k) = (.ok r, st k') ∧ C0.getW (st k').1 = (List.range k').map w ∧ x ≤ ∑ j ∈ Finset.range k', w j ∧
        (k' = k ∨ ∑ j ∈ Finset.range (k' - 1), w j < 1)
  | 0, k, _, hk, hf => by
    have hx' : x ≤ ∑ j ∈ Finset.range k, w j := hN.trans (Finset.sum_le_sum_of_subset_of_nonneg (Finset.range_mono (by simpa using hf)) fun j _ _ => hw j)
    refine ⟨k, (List.range k).map w, le_rfl, ?_, hk, hx', .inl rfl⟩
    unfold BaseWeight.tailLoop
    rw [M.bind_apply]
    have : ¬ ((List.range k).map w).sum < x := not_lt.2 hx'
    simp only [M.self, hk, this, if_false, M.pure_apply]
  | fuel + 1, k, h0, hk, hf => by
    unfold BaseWeight.tailLoop
    rw [M.bind_apply]
    by_cases hs : ∑ j ∈ Finset.range k, w j < x
    · have hs' : ((List.range k).map w).sum < x := hs
      obtain ⟨⟨r, hr⟩, hk'⟩ := hg.2 k h0 (hs.trans hx)
      obtain ⟨k', r', h1, h2, h3, h4, h5⟩ := tailLoop_grows hg hw hx hN fuel (k + 1) (by omega) hk' (by omega)
      refine ⟨k', r', by omega, ?_, h3, h4, .inr (h5.elim (fun h => by rw [h]; exact hs.trans hx) id)⟩
      simp only [M.self, hk, hs', if_true, List.length_map, List.length_range]
      rw [M.bind_apply, hr]
      exact h2
    · have hs' : ¬ ((List.range k).map w).sum < x := hs
      refine ⟨k, (List.range k).map w, le_rfl, ?_, hk, not_lt.1 hs, .inl rfl⟩
      simp only [M.self, hk, hs', if_false, M.pure_apply]

omit hnz in
theorem minK_mem {l : List ℝ} (h : l ≠ []) : ∃ x ∈ l, minK l = .ok x ∧ ∀ y ∈ l, x ≤ y := by
  cases l with
  | nil => exact absurd rfl h
  | cons x xs =>
    have key : ∀ (xs : List ℝ) (x : ℝ), xs.foldl min x ∈ x :: xs ∧ ∀ y ∈ x :: xs, xs.foldl min x ≤ y := by
      intro xs
      induction xs with
      | nil => intro x; simp
      | cons z xs ih =>
        intro x
        obtain ⟨h1, h2⟩ := ih (min x z)
        rw [List.foldl_cons]
        refine ⟨?_, fun y hy => ?_⟩
        · rcases List.mem_cons.1 h1 with h | h
          · rw [h]
            rcases min_choice x z with e | e <;> rw [e] <;> simp
          · simp [h]
        · have hm := h2 (min x z) (by simp)
          rcases List.mem_cons.1 hy with rfl | hy
          · exact hm.trans (min_le_left _ _)
          · rcases List.mem_cons.1 hy with rfl | hy
            · exact hm.trans (min_le_right _ _)
            · exact h2 y (by simp [hy])
    exact ⟨_, (key xs x).1, rfl, (key xs x).2⟩

omit hnz in
theorem finite_above {w : ℕ → ℝ} (hsum : HasSum w 1) (t : ℝ) (ht : 0 < t) : {j | t < w j}.Finite := by
  have h := hsum.summable.tendsto_atTop_zero.eventually (gt_mem_nhds ht)
  obtain ⟨N, hN⟩ := Filter.eventually_atTop.1 h
  refine (Set.finite_Iio N).subset fun j hj => ?_
  by_contra hj'
  exact absurd (hN j (not_lt.1 hj')) (not_lt.2 (le_of_lt hj))

/-- The slice levels. -/
noncomputable def slices (w : ℕ → ℝ) {n : ℕ} (d : Fin n → ℕ) (p : ℕ) (U : ℕ → ℝ) : List ℝ := ((List.ofFn d).map w).mapIdx (fun i x => x * U (p + i))

theorem invariant_of_fuel {C0 : WeightCore ℝ} (lp : (Fin m → ℝ) → Atom → WithBot ℝ) {w : ℕ → ℝ} (hw : ∀ j, 0 ≤ w j) (hsum : HasSum w 1) {θ : ℕ → Atom} {n : ℕ} (hn : 2 ≤ n)
    (y : Fin n → Fin m → ℝ) (W : (Fin n → ℕ) → World ℝ m Atom) (hlp : ∀ d, (W d).logpdf = lp) (heps : ∀ d, (W d).eps = 0) (ω : (Fin n → ℕ) → Oracle ℝ)
    (S : (Fin n → ℕ) → GM C0.inheritTail m Atom × ℕ) (st : (Fin n → ℕ) → ℕ → C0.State × ℕ) (k0 : (Fin n → ℕ) → ℕ)
    (hS : ∀ d, labelMass lp w θ y d ≠ 0 → (S d).1.y = List.ofFn y ∧ (∀ i, d i < k0 d) ∧ (S d).1.wst = st d (k0 d) ∧ Grows C0 (ω d) w (st d) (k0 d) ∧
      ∀ us ws k, (k = k0 d ∨ k0 d ≤ k ∧ ∑ j ∈ Finset.range (k - 1), w j < 1) → ∃ s', getAtoms (C := C0.inheritTail) (W d) (List.range k) (ω d) ({ (S d).1 with u := us, wst := ws }, (S d).2 + n) = (.ok ((List.range k).map θ), s'))
    (fuel : (Fin n → ℕ) → (ℕ → ℝ) → ℕ) (hfuel : ∀ d, labelMass lp w θ y d ≠ 0 → ∀ U u, minK (slices w d (S d).2 U) = .ok u → 0 < u → ∃ N, N ≤ k0 d + fuel d U ∧ 1 - u ≤ ∑ j ∈ Finset.range N, w j) (d' : Fin n → ℕ) :
      ∑' d, labelMass lp w θ y d * stepProb nz (W d) (fuel d) (ω d) (S d) ((List.range (k0 d)).map w) (List.ofFn d) (List.ofFn d') = labelMass lp w θ y d' := by
  have hpart : ∀ k, ∑ j ∈ Finset.range k, w j ≤ 1 := fun k => sum_le_hasSum _ (fun j _ => hw j) hsum
  refine C86_partial hnz lp hw (finite_above hsum) hn y W hlp heps ω S (fun d => (List.range (k0 d)).map w) fuel (fun d h0 => ?_) d'
  obtain ⟨hy, hdk, hst, hg, hat⟩ := hS d h0
  have hwpos : ∀ i, 0 < w (d i) := fun i => by
    have := left_ne_zero_of_mul (Finset.prod_ne_zero_iff.1 h0 i (Finset.mem_univ i))
    rwa [Ne, ENNReal.ofReal_eq_zero, not_le] at this
  have hw0 : ∀ i, ((List.range (k0 d)).map w)[d i]? = some (w (d i)) := fun i => by
    rw [List.getElem?_map, List.getElem?_range (hdk i)]; rfl
  refine ⟨hy, hw0, ?_⟩
  filter_upwards [stream_unit] with U hU
  have hgat := gather_map (w := (List.range (k0 d)).map w) (ws := w) (d := List.ofFn d) (by simpa [List.mem_ofFn] using hw0)
  have hus : ((List.ofFn d).map w).mapIdx (fun i x => (withSlices (W d) (fuel d) U).unif ((S d).2 + i) (withSlices (W d) (fuel d) U).eps (x + (withSlices (W d) (fuel d) U).eps)) =
      ((List.ofFn d).map w).mapIdx (fun i x => x * U ((S d).2 + i)) := by
    have : (withSlices (W d) (fuel d) U).eps = 0 := heps d
    simp only [this]
    congr 1
    funext i x
    simp [withSlices]
  have hmem : ∀ u ∈ ((List.ofFn d).map w).mapIdx (fun i x => x * U ((S d).2 + i)), 0 < u ∧ u ≤ 1 := by
    intro u hu
    obtain ⟨i, hi, rfl⟩ := List.mem_iff_getElem.1 hu
    have hi' : i < n := by simpa using hi
    have h1 : (((List.ofFn d).map w).mapIdx (fun i x => x * U ((S d).2 + i)))[i] = w (d ⟨i, hi'⟩) * U ((S d).2 + i) := by simp
    rw [h1]
    have hle : w (d ⟨i, hi'⟩) ≤ 1 := le_hasSum hsum _ fun j _ => hw j
    refine ⟨mul_pos (hwpos _) (hU _).1, ?_⟩
    calc w (d ⟨i, hi'⟩) * U ((S d).2 + i) ≤ 1 * 1 := mul_le_mul hle (hU _).2.le (hU _).1.le zero_le_one
      _ = 1 := one_mul 1
  obtain ⟨u, hu, humin, hule⟩ := minK_mem (l := ((List.ofFn d).map w).mapIdx (fun i x => x * U ((S d).2 + i))) (by
    intro h
    have := congrArg List.length h
    simp only [List.length_mapIdx, List.length_map, List.length_ofFn, List.length_nil] at this
    omega)
  obtain ⟨hu0, hu1⟩ := hmem u hu
  obtain ⟨N, hNf, hN⟩ := hfuel d h0 U u humin hu0
  obtain ⟨k', r, hkk, hl, hgw, hsum', hlast⟩ := tailLoop_grows hg hw (x := 1 - u) (by linarith) hN (fuel d U) (k0 d) le_rfl hg.1 hNf
  have hk0 : 0 < k0 d := lt_of_le_of_lt (Nat.zero_le _) (hdk ⟨0, by omega⟩)
  have htail : BaseWeight.tail C0 (fuel d U) (1 - u) (ω d) (st d (k0 d)) = (.ok r, st d k') := by
    unfold BaseWeight.tail
    rw [if_neg (by rintro (h | h) <;> linarith), M.bind_apply]
    have hlen : (C0.getW (st d (k0 d)).1).length ≠ 0 := by rw [hg.1]; simp; omega
    simp only [M.self, hlen, if_false]
    exact hl
  refine ⟨({ (S d).1 with u := ((List.ofFn d).map w).mapIdx (fun i x => x * U ((S d).2 + i)), wst := st d k' }, (S d).2 + n), ?_, ?_⟩
  · unfold sliceTail
    rw [M.bind_apply, hgat, M.lift_ok]
    simp only
    rw [M.bind_apply, drawSlices, hus]
    simp only
    rw [M.bind_apply, M.assign_apply]
    simp only
    rw [M.bind_apply, humin, M.lift_ok]
    simp only
    rw [M.bind_apply, callW]
    have : ((WeightCore.inheritTail C0).tail (withSlices (W d) (fuel d) U).fuel (1 - u)) (ω d) (S d).1.wst = (.ok r, st d k') := by
      rw [hst]; exact htail
    simp only [this]
    simp
  · obtain ⟨s', hs'⟩ := hat (((List.ofFn d).map w).mapIdx (fun i x => x * U ((S d).2 + i))) (st d k') k' (hlast.imp id fun h => ⟨hkk, h⟩)
    refine ⟨k', s', hgw, hs', fun j hj v hv => ?_⟩
    have h1 : w j ≤ u := by
      have h2 := hpart (j + 1)
      have h3 : ∑ j ∈ Finset.range k', w j ≤ ∑ j ∈ Finset.range j, w j := Finset.sum_le_sum_of_subset_of_nonneg (Finset.range_mono hj) fun j _ _ => hw j
      rw [Finset.sum_range_succ] at h2
      linarith
    exact h1.trans (hule v hv)

/-- For the classes that inherit `tail`, with weights that sum to one: enough rounds make the loop end, and the law of the labels is invariant. -/
theorem C86_sequence_partial {C0 : WeightCore ℝ} (lp : (Fin m → ℝ) → Atom → WithBot ℝ) {w : ℕ → ℝ} (hw : ∀ j, 0 ≤ w j) (hsum : HasSum w 1) {θ : ℕ → Atom} {n : ℕ} (hn : 2 ≤ n)
    (y : Fin n → Fin m → ℝ) (W : (Fin n → ℕ) → World ℝ m Atom) (hlp : ∀ d, (W d).logpdf = lp) (heps : ∀ d, (W d).eps = 0) (ω : (Fin n → ℕ) → Oracle ℝ)
    (S : (Fin n → ℕ) → GM C0.inheritTail m Atom × ℕ) (st : (Fin n → ℕ) → ℕ → C0.State × ℕ) (k0 : (Fin n → ℕ) → ℕ)
    (hS : ∀ d, labelMass lp w θ y d ≠ 0 → (S d).1.y = List.ofFn y ∧ (∀ i, d i < k0 d) ∧ (S d).1.wst = st d (k0 d) ∧ Grows C0 (ω d) w (st d) (k0 d) ∧
      ∀ us ws k, (k = k0 d ∨ k0 d ≤ k ∧ ∑ j ∈ Finset.range (k - 1), w j < 1) → ∃ s', getAtoms (C := C0.inheritTail) (W d) (List.range k) (ω d) ({ (S d).1 with u := us, wst := ws }, (S d).2 + n) = (.ok ((List.range k).map θ), s')) :
    ∃ fuel0 : (Fin n → ℕ) → (ℕ → ℝ) → ℕ, ∀ fuel : (Fin n → ℕ) → (ℕ → ℝ) → ℕ, (∀ d U, fuel0 d U ≤ fuel d U) → ∀ d' : Fin n → ℕ,
      ∑' d, labelMass lp w θ y d * stepProb nz (W d) (fuel d) (ω d) (S d) ((List.range (k0 d)).map w) (List.ofFn d) (List.ofFn d') = labelMass lp w θ y d' := by
  have hlim : ∀ x : ℝ, x < 1 → ∃ N, x ≤ ∑ j ∈ Finset.range N, w j := fun x hx => by
    have := hsum.tendsto_sum_nat.eventually (lt_mem_nhds hx)
    obtain ⟨N, hN⟩ := this.exists
    exact ⟨N, hN.le⟩
  choose! N hN using hlim
  refine ⟨fun d U => N (1 - (match minK (slices w d (S d).2 U) with | .ok u => u | .error _ => 0)), fun fuel hfuel d' => ?_⟩
  refine invariant_of_fuel hnz lp hw hsum hn y W hlp heps ω S st k0 hS fuel (fun d _ U u hu h0 => ⟨N (1 - u), ?_, hN _ (by linarith)⟩) d'
  have := hfuel d U
  simp only [hu] at this
  omega

omit hnz in
theorem getAtoms_found {W : World ℝ m Atom} {θ : ℕ → Atom} {s : GM C m Atom × ℕ} : ∀ (js : List ℕ), (∀ j ∈ js, s.1.theta.lookup j = some (θ j)) →
    getAtoms W js ω s = (.ok (js.map θ), s)
  | [], _ => rfl
  | j :: js, h => by
    have h1 : getAtom W j ω s = (.ok (θ j), s) := by
      unfold getAtom
      rw [M.bind_apply]
      simp only [M.self, h j (by simp)]
      rfl
    unfold getAtoms
    rw [M.bind_apply, h1]
    simp only
    rw [M.bind_apply, getAtoms_found js fun i hi => h i (by simp [hi])]
    rfl

/-- Finitely many weights that sum to one, with all atoms known: Dirichlet distribution, equal and frequency weights (and every other class in a state with total one). -/
theorem C86_finite_partial {C0 : WeightCore ℝ} (W : World ℝ m Atom) (heps : W.eps = 0) (s : GM C0.inheritTail m Atom × ℕ) {wl : List ℝ} (hwl : C0.getW s.1.wst.1 = wl)
    (hnn : ∀ x ∈ wl, 0 ≤ x) (hsum : wl.sum = 1) {θ : ℕ → Atom} (hθ : ∀ j < wl.length, s.1.theta.lookup j = some (θ j)) {n : ℕ} (hn : 2 ≤ n) {y : Fin n → Fin m → ℝ}
    (hy : s.1.y = List.ofFn y) (fuel : (ℕ → ℝ) → ℕ) (d' : Fin n → ℕ) :
    ∑' d, labelMass W.logpdf (fun j : ℕ => (wl[j]?).getD 0) θ y d * stepProb nz W fuel ω s wl (List.ofFn d) (List.ofFn d') = labelMass W.logpdf (fun j => (wl[j]?).getD 0) θ y d' := by
  have hw : ∀ j : ℕ, 0 ≤ (wl[j]?).getD 0 := fun j => by
    cases h : wl[j]? with
    | none => simp
    | some x => exact hnn x (List.mem_of_getElem? h)
  have hmap : (List.range wl.length).map (fun j : ℕ => (wl[j]?).getD 0) = wl := by
    apply List.ext_getElem
    · simp
    · intro i h1 h2; simp [List.getElem?_eq_getElem h2]
  have hfs : ∑ j ∈ Finset.range wl.length, (wl[j]?).getD 0 = 1 := by
    rw [← hsum]
    conv_rhs => rw [← hmap]
    rfl
  have hs1 : HasSum (fun j : ℕ => (wl[j]?).getD 0) 1 := by
    rw [← hfs]
    refine hasSum_sum_of_ne_finset_zero fun j hj => ?_
    rw [List.getElem?_eq_none (by simpa using hj)]
    rfl
  have key := invariant_of_fuel hnz (C0 := C0) W.logpdf hw hs1 hn y (fun _ => W) (fun _ => rfl) (fun _ => heps) (fun _ => ω) (fun _ => s) (fun _ _ => s.1.wst)
    (fun _ => wl.length) (θ := θ) (fun d h0 => ⟨hy, fun i => ?_, rfl, ⟨?_, fun k hk hlt => ?_⟩, fun us ws k hk => ?_⟩) (fun _ => fuel)
    (fun d _ U u _ h0 => ⟨wl.length, Nat.le_add_right _ _, by rw [hfs]; linarith⟩) d'
  · simp only [hmap] at key
    exact key
  · have := left_ne_zero_of_mul (Finset.prod_ne_zero_iff.1 h0 i (Finset.mem_univ i))
    by_contra h
    simp [List.getElem?_eq_none (not_lt.1 h)] at this
  · rw [hmap]; exact hwl
  · exfalso
    have := Finset.sum_le_sum_of_subset_of_nonneg (Finset.range_mono hk) fun j _ _ => hw j
    linarith
  · have hk' : k = wl.length := hk.elim id fun h => by
      by_contra hne
      have h2 := Finset.sum_le_sum_of_subset_of_nonneg (Finset.range_mono (show wl.length ≤ k - 1 by omega)) fun j _ _ => hw j
      linarith [h.2]
    subst hk'
    exact ⟨_, getAtoms_found _ fun j hj => hθ j (by simpa using hj)⟩

/-! ### The Dirichlet process -/

/-- The weights of a sequence of sticks. -/
def stickSeq (v : ℕ → ℝ) (j : ℕ) : ℝ := v j * ∏ l ∈ Finset.range j, (1 - v l)

omit hnz in
theorem stickWeights_seq (v : ℕ → ℝ) (k : ℕ) : stickWeights ((List.range k).map v) = (List.range k).map (stickSeq v) := by
  apply List.ext_getElem?
  intro j
  rw [stickWeights_getElem?, List.getElem?_map, List.getElem?_map]
  by_cases hj : j < k
  · rw [List.getElem?_range hj]
    simp only [Option.map_some, stickSeq, leftOver, ← List.map_take, List.take_range, Nat.min_eq_left hj.le, List.map_map]
    rfl
  · rw [List.getElem?_eq_none (by simpa using hj)]
    rfl

omit hnz in
theorem dp_core_complete {size : PySize} {s s' : DP ℝ × ℕ} {w : List ℝ} (h : DP.complete size ω s = (.ok w, s')) : (DP.core : WeightCore ℝ).complete size ω s = (.ok (some w), s') := by
  simp only [DP.core, M.bind_apply, h, M.pure_apply]

omit hnz in
theorem dp_complete_seq {v : ℕ → ℝ} {k p : ℕ} (s : DP ℝ) (ha : 0 < s.alpha) (hb : ω.beta p 1 s.alpha = v k) :
    DP.complete (.int ((k : ℤ) + 1)) ω ({ s with v := (List.range k).map v, w := (List.range k).map (stickSeq v) }, p) =
      (.ok ((List.range (k + 1)).map (stickSeq v)), ({ s with v := (List.range (k + 1)).map v, w := (List.range (k + 1)).map (stickSeq v) }, p + 1)) := by
  have hv1 : (List.range k).map v ++ [v k] = (List.range (k + 1)).map v := by rw [List.range_succ]; simp
  have h5 : ((List.range k).map v).length = k := by simp
  have h6 : ((k : ℤ) + 1 - (k : ℤ)).toNat = 1 := by simp
  have h7 : ¬ s.alpha ≤ 0 := not_le.2 ha
  rw [DP.complete_num (n := (k : ℤ) + 1) rfl]
  simp only [h5, h6, h7, if_false, M.betaValues, List.replicate_one, List.mapIdx_cons, List.mapIdx_nil, add_zero, hb, hv1, stickWeights_seq]
  rw [if_pos (by omega)]

/-- Dirichlet process: the first `k0 d` sticks are in the state, the generator of the weight model gives the others. -/
theorem C86_dirichletProcess_partial (lp : (Fin m → ℝ) → Atom → WithBot ℝ) {v : ℕ → ℝ} (hv : ∀ j, 0 ≤ v j ∧ v j ≤ 1) (hsum : HasSum (stickSeq v) 1) {θ : ℕ → Atom} {n : ℕ} (hn : 2 ≤ n)
    (y : Fin n → Fin m → ℝ) (W : (Fin n → ℕ) → World ℝ m Atom) (hlp : ∀ d, (W d).logpdf = lp) (heps : ∀ d, (W d).eps = 0) (ω : (Fin n → ℕ) → Oracle ℝ)
    (S : (Fin n → ℕ) → GM (DP.cls : WeightClass ℝ) m Atom × ℕ) (dp : (Fin n → ℕ) → DP ℝ) (p : (Fin n → ℕ) → ℕ) (hwst : ∀ d, (S d).1.wst = (dp d, p d)) (k0 : (Fin n → ℕ) → ℕ)
    (hS : ∀ d, labelMass lp (stickSeq v) θ y d ≠ 0 → (S d).1.y = List.ofFn y ∧ (∀ i, d i < k0 d) ∧ 0 < (dp d).alpha ∧ (dp d).v = (List.range (k0 d)).map v ∧
      (dp d).w = stickWeights (dp d).v ∧ (∀ i, (ω d).beta (p d + i) 1 (dp d).alpha = v (k0 d + i)) ∧
      ∀ us ws k, (k = k0 d ∨ k0 d ≤ k ∧ ∑ j ∈ Finset.range (k - 1), stickSeq v j < 1) →
        ∃ s', getAtoms (C := (DP.cls : WeightClass ℝ)) (W d) (List.range k) (ω d) ({ (S d).1 with u := us, wst := ws }, (S d).2 + n) = (.ok ((List.range k).map θ), s')) :
    ∃ fuel0 : (Fin n → ℕ) → (ℕ → ℝ) → ℕ, ∀ fuel : (Fin n → ℕ) → (ℕ → ℝ) → ℕ, (∀ d U, fuel0 d U ≤ fuel d U) → ∀ d' : Fin n → ℕ,
      ∑' d, labelMass lp (stickSeq v) θ y d * stepProb nz (W d) (fuel d) (ω d) (S d) (dp d).w (List.ofFn d) (List.ofFn d') = labelMass lp (stickSeq v) θ y d' := by
  have hw : ∀ j, 0 ≤ stickSeq v j := fun j => mul_nonneg (hv j).1 (Finset.prod_nonneg fun l _ => by linarith [(hv l).2])
  have key := C86_sequence_partial (C0 := DP.core) hnz lp hw hsum hn y W hlp heps ω S
    (fun d k => (({ dp d with v := (List.range k).map v, w := (List.range k).map (stickSeq v) } : DP ℝ), p d + (k - k0 d))) k0 (θ := θ) (fun d h0 => ?_)
  · obtain ⟨fuel0, h⟩ := key
    refine ⟨fuel0, fun fuel hf d' => ?_⟩
    rw [← h fuel hf d']
    refine tsum_congr fun d => ?_
    by_cases h0 : labelMass lp (stickSeq v) θ y d = 0
    · rw [h0, zero_mul, zero_mul]
    · obtain ⟨-, -, -, h1, h2, -⟩ := hS d h0
      rw [h2, h1, stickWeights_seq]
      rfl
  · obtain ⟨hy, hd, ha, h1, h2, h3, h4⟩ := hS d h0
    refine ⟨hy, hd, ?_, ⟨rfl, fun k hk _ => ⟨⟨some ((List.range (k + 1)).map (stickSeq v)), ?_⟩, rfl⟩⟩, h4⟩
    · rw [hwst]
      refine Prod.ext ?_ (by simp)
      have : (dp d).w = (List.range (k0 d)).map (stickSeq v) := by rw [h2, h1, stickWeights_seq]
      simp only [← h1, ← this]
    · have hb : (ω d).beta (p d + (k - k0 d)) 1 (dp d).alpha = v k := by rw [h3]; congr 1; omega
      have := dp_complete_seq (dp d) ha hb
      rw [show p d + (k - k0 d) + 1 = p d + (k + 1 - k0 d) by omega] at this
      exact dp_core_complete this

/-! ### With the shift -/

/-- Two observations, two equal weights, two equal atoms. -/
noncomputable def twoState : GM (Equal.cls : WeightClass ℝ) 1 ℝ :=
  { totalIter := 5, burnIn := 0, subsample := 1, nAttr := some 2, muPrior := none, lam := 1, psiPrior := none, nuPrior := none,
    y := List.ofFn (fun _ : Fin 2 => fun _ => 0), d := [0, 1], theta := [(0, 0), (1, 0)], thetaDefault := true, u := [], affinity := [],
    mapParams := none, mapLL := ⊥, saved := [], nGroups := [], nAtoms := [], totalSaved := 0, gibbsFitted := false,
    wst := (({ n := 2, w := [1 / 2, 1 / 2], d := [] } : Equal ℝ), 0) }

omit hnz in
theorem tail_enough {C0 : WeightCore ℝ} {s : C0.State × ℕ} {x : ℝ} {f : ℕ} (h0 : 0 ≤ x) (h1 : x < 1) (hl : (C0.getW s.1).length ≠ 0) (hx : x ≤ (C0.getW s.1).sum) :
    BaseWeight.tail C0 f x ω s = (.ok (C0.getW s.1), s) := by
  have h2 : BaseWeight.tailLoop C0 x f ω s = (.ok (C0.getW s.1), s) := by
    cases f <;> (unfold BaseWeight.tailLoop; rw [M.bind_apply]; simp only [M.self, not_lt.2 hx, if_false, M.pure_apply])
  unfold BaseWeight.tail
  rw [if_neg (by rintro (h | h) <;> linarith), M.bind_apply]
  simp only [M.self, hl, if_false]
  exact h2

omit hnz in
theorem two_slice {W : World ℝ 1 ℝ} (h0 : 0 < W.eps) (h1 : W.eps < 1 / 2) {fuel : (ℕ → ℝ) → ℕ} {U : ℕ → ℝ} (hU : ∀ p, 0 < U p ∧ U p < 1) {d : Fin 2 → ℕ} (hd : ∀ i, d i < 2) :
    sliceTail (withSlices W fuel U) (List.ofFn d) [1 / 2, 1 / 2] ω (twoState, 0) =
      (.ok (), ({ twoState with u := [W.eps + 1 / 2 * U 0, W.eps + 1 / 2 * U 1] }, 2)) := by
  have hg : Py.gather [1 / 2, 1 / 2] (labels (List.ofFn d)) = .ok [(1 / 2 : ℝ), 1 / 2] := by
    rw [gather_map (ws := fun _ => 1 / 2)]
    · simp
    · intro j hj
      obtain ⟨i, rfl⟩ := (List.mem_ofFn' _ _).1 hj
      have := hd i
      interval_cases d i <;> rfl
  obtain ⟨u, hu, humin, -⟩ := minK_mem (l := [W.eps + 1 / 2 * U 0, W.eps + 1 / 2 * U 1]) (by simp)
  have hu' : 0 < u ∧ u < 1 := by
    have := hU 0
    have := hU 1
    simp only [List.mem_cons, List.not_mem_nil, or_false] at hu
    rcases hu with rfl | rfl <;> constructor <;> linarith
  have htail : ∀ f, BaseWeight.tail (Equal.core : WeightCore ℝ) f (1 - u) ω twoState.wst = (.ok [1 / 2, 1 / 2], twoState.wst) := by
    intro f
    exact tail_enough (C0 := Equal.core) (s := twoState.wst) (by linarith) (by linarith) (by simp [Equal.core, twoState]) (by
      have : ((Equal.core : WeightCore ℝ).getW twoState.wst.1).sum = 1 / 2 + (1 / 2 + 0) := rfl
      rw [this]
      linarith)
  unfold sliceTail
  rw [M.bind_apply, hg, M.lift_ok]
  simp only
  rw [M.bind_apply, drawSlices]
  have hus : [(1 / 2 : ℝ), 1 / 2].mapIdx (fun i x => (withSlices W fuel U).unif (((twoState, 0) : GM (Equal.cls : WeightClass ℝ) 1 ℝ × ℕ).2 + i) (withSlices W fuel U).eps (x + (withSlices W fuel U).eps)) =
      [W.eps + 1 / 2 * U 0, W.eps + 1 / 2 * U 1] := by
    simp [withSlices]
  rw [hus]
  simp only
  rw [M.bind_apply, M.assign_apply]
  simp only
  rw [M.bind_apply, humin, M.lift_ok]
  simp only
  rw [M.bind_apply, callW]
  have : ((Equal.cls : WeightClass ℝ).tail (withSlices W fuel U).fuel (1 - u)) ω twoState.wst = (.ok [1 / 2, 1 / 2], twoState.wst) := htail _
  simp only [this]
  rfl

omit hnz in
theorem two_column {W : World ℝ 1 ℝ} {x : Fin 1 → ℝ} {u : ℝ} (hu : 1 / 2 ≤ u) (g : List ℝ) (hg : g.length = 2) :
    gumbelColumn (column W [1 / 2, 1 / 2] [0, 0] x u) g = .ok 0 := by
  obtain ⟨a, b, rfl⟩ := List.length_eq_two.1 hg
  have : ¬ u < 2⁻¹ := by norm_num at hu ⊢; linarith
  simp [column, gumbelColumn, this, Py.argmax, Py.argmaxFrom]

theorem two_bound {W : World ℝ 1 ℝ} (hlp : ∀ x a, W.logpdf x a = ((0 : ℝ) : WithBot ℝ)) {s s' : GM C 1 ℝ × ℕ} {x0 x1 : Fin 1 → ℝ} {u0 u1 : ℝ} (hy : s.1.y = [x0, x1])
    (hu : s.1.u = [u0, u1]) (hw : C.getW s.1.wst.1 = [1 / 2, 1 / 2]) (hA : GM.getAtoms W (List.range 2) ω s = (.ok [0, 0], s')) :
    streamLaw {g | (updateD (withNoise W (fun p => nz (g p))) ω s).1 = .ok () ∧ (updateD (withNoise W (fun p => nz (g p))) ω s).2.1.d = [1, 1]} ≤
      if u0 < 1 / 2 then ENNReal.ofReal (1 / 4) else 0 := by
  have hA' : GM.getAtoms W (List.range (C.getW s.1.wst.1).length) ω s = (.ok [0, 0], s') := by rw [hw]; exact hA
  have hyl : s.1.y.length = 2 := by rw [hy]; rfl
  have hul : s.1.u.length = 2 := by rw [hu]; rfl
  have hwl : (C.getW s.1.wst.1).length = 2 := by rw [hw]; rfl
  by_cases h1 : u0 < 1 / 2 ∧ u1 < 1 / 2
  · rw [if_pos h1.1, ← ENNReal.ofReal_toReal (measure_ne_top streamLaw _), ← measureReal_def]
    refine ENNReal.ofReal_le_ofReal ?_
    rw [C85_update (ω := ω) hnz hA' (by rw [hyl]; decide) (by rw [hyl, hul]) (by rw [hw]; simp) (fun i x ui _ hui => ?_) (d := [1, 1]) (by rw [hyl]; rfl)]
    · have hterm : ∀ i : Fin s.1.y.length, choiceProb (sliceWeights W (C.getW s.1.wst.1) [0, 0] s.1.y[i] (s.1.u[i]'(by rw [hul, ← hyl]; exact i.2)))
          ([1, 1][i]'(lt_of_lt_of_eq i.2 hyl)) = 1 / 2 := by
        intro i
        have e1 : ([1, 1] : List ℕ)[i]'(lt_of_lt_of_eq i.2 hyl) = 1 := by
          have : ([1, 1] : List ℕ)[i]'(lt_of_lt_of_eq i.2 hyl) ∈ [1, 1] := List.getElem_mem _
          simp only [List.mem_cons, List.not_mem_nil, or_false, or_self] at this
          exact this
        have e2 : s.1.u[i]'(by rw [hul, ← hyl]; exact i.2) < 2⁻¹ := by
          have : s.1.u[i]'(by rw [hul, ← hyl]; exact i.2) ∈ [u0, u1] := by rw [← hu]; exact List.getElem_mem _
          simp only [List.mem_cons, List.not_mem_nil, or_false] at this
          rcases this with h | h <;> rw [h]
          · simpa using h1.1
          · simpa using h1.2
        have e3 : botExp ((0 : ℝ) : WithBot ℝ) = 1 := by simp [botExp]
        rw [e1, hw]
        simp only [sliceWeights, List.zipWith_cons_cons, List.zipWith_nil_right, one_div, e2, if_true, hlp, e3, choiceProb, List.getElem?_cons_succ, List.getElem?_cons_zero,
          Option.getD_some, List.sum_cons, List.sum_nil]
        norm_num
      rw [Finset.prod_congr rfl fun i _ => hterm i, Finset.prod_const, Finset.card_univ, Fintype.card_fin, hyl]
      norm_num
    · refine ⟨0, 0, 1 / 2, rfl, by rw [hw]; rfl, ?_, ?_⟩
      · have : ui ∈ [u0, u1] := by rw [← hu]; exact List.mem_of_getElem? hui
        simp only [List.mem_cons, List.not_mem_nil, or_false] at this
        rcases this with rfl | rfl
        exacts [h1.1, h1.2]
      · rw [hlp]; exact WithBot.coe_ne_bot
  · refine le_of_eq_of_le (measure_mono_null (t := ∅) ?_ measure_empty) zero_le
    rintro g ⟨hg1, hg2⟩
    rw [updateD_eq hA' (by rw [hw]; simp) (by rw [hyl]; decide) (by rw [hyl, hul])] at hg1 hg2
    have hr : (List.range 2).map (noise (withNoise W (fun p => nz (g p))) s'.2 2 2) = [noise (withNoise W (fun p => nz (g p))) s'.2 2 2 0, noise (withNoise W (fun p => nz (g p))) s'.2 2 2 1] := rfl
    have hnl : ∀ i, (noise (withNoise W (fun p => nz (g p))) s'.2 2 2 i).length = 2 := fun i => by simp [noise]
    simp only [hyl, hwl, hr] at hg1 hg2
    simp only [hw, hy, hu, List.zipWith_cons_cons, List.zipWith_nil_right, gumbelMaxSampling] at hg1 hg2
    rcases not_and_or.1 h1 with h | h
    · rw [two_column (not_lt.1 h) _ (hnl 0)] at hg1 hg2
      rcases hc : gumbelColumn (column W [1 / 2, 1 / 2] [0, 0] x1 u1) (noise (withNoise W (fun p => nz (g p))) s'.2 2 2 1) with e | j <;> rw [hc] at hg1 hg2
      · simp at hg1
      · simp at hg2
    · rw [two_column (not_lt.1 h) _ (hnl 1)] at hg1 hg2
      rcases hc : gumbelColumn (column W [1 / 2, 1 / 2] [0, 0] x0 u0) (noise (withNoise W (fun p => nz (g p))) s'.2 2 2 0) with e | j <;> rw [hc] at hg1 hg2
      · simp at hg1
      · simp at hg2

/-- With the shift `eps` the law is not invariant: two equal weights, two equal densities; the label 1 loses probability to the label 0, because a slice level above all weights gives a column of
minus infinities, whose argmax is 0. -/
theorem C86_refuted {W : World ℝ 1 ℝ} (hlp : ∀ x a, W.logpdf x a = ((0 : ℝ) : WithBot ℝ)) (h0 : 0 < W.eps) (h1 : W.eps < 1 / 2) (fuel : (ℕ → ℝ) → ℕ) :
    ∑' d : Fin 2 → ℕ, labelMass W.logpdf (fun j : ℕ => ([1 / 2, 1 / 2][j]?).getD 0) (fun _ => 0) (fun _ _ => 0) d *
        stepProb nz W fuel ω ((twoState, 0) : GM (Equal.cls : WeightClass ℝ) 1 ℝ × ℕ) [1 / 2, 1 / 2] (List.ofFn d) [1, 1] <
      labelMass W.logpdf (fun j : ℕ => ([1 / 2, 1 / 2][j]?).getD 0) (fun _ => 0) (fun _ _ => 0) (fun _ : Fin 2 => 1) := by
  have e0 : ∀ x j, dens W.logpdf (fun _ : ℕ => (0 : ℝ)) x j = 1 := fun x j => by simp [dens, hlp, botExp]
  have hlt2 : ∀ d : Fin 2 → ℕ, labelMass W.logpdf (fun j : ℕ => ([1 / 2, 1 / 2][j]?).getD 0) (fun _ => 0) (fun _ _ => 0) d ≠ 0 → ∀ i, d i < 2 := fun d hd i => by
    have := left_ne_zero_of_mul (Finset.prod_ne_zero_iff.1 hd i (Finset.mem_univ i))
    by_contra h
    have h2 : ([1 / 2, 1 / 2] : List ℝ)[d i]? = none := List.getElem?_eq_none (not_lt.1 h)
    simp only [h2, Option.getD_none, ENNReal.ofReal_zero, ne_eq, not_true] at this
  have hstep : ∀ d : Fin 2 → ℕ, (∀ i, d i < 2) → stepProb nz W fuel ω ((twoState, 0) : GM (Equal.cls : WeightClass ℝ) 1 ℝ × ℕ) [1 / 2, 1 / 2] (List.ofFn d) [1, 1] ≤
      ENNReal.ofReal (1 / 4) * ENNReal.ofReal (1 - 2 * W.eps) := fun d hd => by
    unfold stepProb
    calc _ ≤ ∫⁻ U, (if W.eps + 1 / 2 * U 0 < 1 / 2 then ENNReal.ofReal (1 / 4) else 0) ∂streamLaw := by
          refine lintegral_mono_ae ?_
          filter_upwards [stream_unit] with U hU
          have hs := two_slice (ω := ω) (fuel := fuel) h0 h1 hU hd
          have hset : ∀ g : ℕ → ℝ, assignStep (withNoise (withSlices W fuel U) (fun p => nz (g p))) (List.ofFn d) [1 / 2, 1 / 2] ω ((twoState, 0) : GM (Equal.cls : WeightClass ℝ) 1 ℝ × ℕ) =
              updateD (withNoise (withSlices W fuel U) (fun p => nz (g p))) ω ({ twoState with u := [W.eps + 1 / 2 * U 0, W.eps + 1 / 2 * U 1] }, 2) := by
            intro g
            have : sliceTail (C := (Equal.cls : WeightClass ℝ)) (withNoise (withSlices W fuel U) (fun p => nz (g p))) (List.ofFn d) [1 / 2, 1 / 2] =
              sliceTail (withSlices W fuel U) (List.ofFn d) [1 / 2, 1 / 2] := rfl
            unfold assignStep
            rw [M.bind_apply, this, hs]
          simp_rw [hset]
          exact two_bound hnz (W := withSlices W fuel U) hlp rfl rfl rfl rfl
      _ = ENNReal.ofReal (1 / 4) * streamLaw {U : ℕ → ℝ | W.eps + 1 / 2 * U 0 < 1 / 2} := by
          rw [← lintegral_indicator_const]
          · rfl
          · exact measurableSet_lt (by fun_prop) measurable_const
      _ ≤ _ := by
          refine mul_le_mul_right ?_ _
          have hset : {U : ℕ → ℝ | W.eps + 1 / 2 * U 0 < 1 / 2} = (fun U : ℕ → ℝ => U 0) ⁻¹' Set.Iio (1 - 2 * W.eps) := by
            ext U
            simp only [Set.mem_ofPred_eq, Set.mem_preimage, Set.mem_Iio]
            constructor <;> intro h <;> linarith
          rw [hset, ← Measure.map_apply (measurable_pi_apply 0) measurableSet_Iio, show streamLaw.map (fun U : ℕ → ℝ => U 0) = unifLaw from Measure.infinitePi_map_eval (fun _ : ℕ => unifLaw) 0,
            unifLaw_Iio (by linarith) (by linarith)]
  calc _ ≤ ∑' d : Fin 2 → ℕ, labelMass W.logpdf (fun j : ℕ => ([1 / 2, 1 / 2][j]?).getD 0) (fun _ => 0) (fun _ _ => 0) d * (ENNReal.ofReal (1 / 4) * ENNReal.ofReal (1 - 2 * W.eps)) := by
        refine ENNReal.tsum_le_tsum fun d => ?_
        by_cases hd : labelMass W.logpdf (fun j : ℕ => ([1 / 2, 1 / 2][j]?).getD 0) (fun _ => 0) (fun _ _ => 0) d = 0
        · rw [hd, zero_mul, zero_mul]
        · exact mul_le_mul_right (hstep d (hlt2 d hd)) _
    _ = ENNReal.ofReal (1 / 4) * ENNReal.ofReal (1 - 2 * W.eps) := by
        rw [ENNReal.tsum_mul_right]
        have : ∑' d : Fin 2 → ℕ, labelMass W.logpdf (fun j : ℕ => ([1 / 2, 1 / 2][j]?).getD 0) (fun _ => 0) (fun _ _ => 0) d = 1 := by
          unfold labelMass
          simp only [e0, mul_one]
          rw [tsum_pi_prod (fun _ j => ENNReal.ofReal (([1 / 2, 1 / 2] : List ℝ)[j]?.getD 0)), Finset.prod_const]
          rw [tsum_eq_sum (s := Finset.range 2)]
          · rw [Finset.sum_range_succ, Finset.sum_range_one]
            simp only [List.getElem?_cons_zero, List.getElem?_cons_succ, Option.getD_some]
            rw [← ENNReal.ofReal_add (by norm_num) (by norm_num)]
            norm_num
          · intro j hj
            have h2 : ([1 / 2, 1 / 2] : List ℝ)[j]? = none := List.getElem?_eq_none (by rw [Finset.mem_range, not_lt] at hj; exact hj)
            rw [h2]
            simp
        rw [this, one_mul]
    _ < ENNReal.ofReal (1 / 4) := by
        rw [← ENNReal.ofReal_mul (by norm_num)]
        exact (ENNReal.ofReal_lt_ofReal_iff (by norm_num)).2 (by linarith)
    _ = _ := by
        unfold labelMass
        simp only [e0, mul_one, List.getElem?_cons_zero, List.getElem?_cons_succ, Option.getD_some]
        rw [Fin.prod_univ_two, ← ENNReal.ofReal_mul (by norm_num)]
        norm_num

omit hnz in
/-- A state that meets the hypotheses of `C86_finite_partial`: the one of the refutation. -/
example (W : World ℝ 1 ℝ) : (Equal.core : WeightCore ℝ).getW twoState.wst.1 = [1 / 2, 1 / 2] ∧ (∀ x ∈ [(1 / 2 : ℝ), 1 / 2], 0 ≤ x) ∧ [(1 / 2 : ℝ), 1 / 2].sum = 1 ∧
    (∀ j < [(1 / 2 : ℝ), 1 / 2].length, twoState.theta.lookup j = some ((fun _ : ℕ => (0 : ℝ)) j)) ∧ twoState.y = List.ofFn (fun _ : Fin 2 => fun _ => 0) ∧
    ({ W with eps := 0 } : World ℝ 1 ℝ).eps = 0 := by
  refine ⟨rfl, by simp, by norm_num, fun j hj => ?_, rfl, rfl⟩
  have : j < 2 := hj
  interval_cases j <;> rfl

omit hnz in
theorem getAtoms_const {W : World ℝ m Atom} {a : Atom} (hW : ∀ p q, W.atom p q = a) : ∀ (js : List ℕ) (s : GM C m Atom × ℕ), s.1.thetaDefault = true → (∀ k b, s.1.theta.lookup k = some b → b = a) →
    ∃ s', getAtoms W js ω s = (.ok (js.map fun _ => a), s')
  | [], s, _, _ => ⟨s, rfl⟩
  | j :: js, s, h1, h2 => by
    unfold getAtoms
    rw [M.bind_apply]
    unfold getAtom
    rw [M.bind_apply]
    simp only [M.self]
    cases hl : s.1.theta.lookup j with
    | some b =>
      have hb : b = a := h2 _ _ hl
      obtain ⟨s', hs'⟩ := getAtoms_const hW js s h1 h2
      refine ⟨s', ?_⟩
      simp only [M.pure_apply]
      rw [M.bind_apply, hs', hb]
      rfl
    | none =>
      obtain ⟨s', hs'⟩ := getAtoms_const hW js ({ s.1 with theta := setAtom s.1.theta j (W.atom s.2 (prior s.1)) }, s.2 + 1) h1 (by
        intro k b hb
        rw [lookup_setAtom] at hb
        split at hb
        · rw [← Option.some.inj hb, hW]
        · exact h2 k b hb)
      refine ⟨s', ?_⟩
      rw [if_pos h1]
      simp only [M.bind_apply, draw1, M.assign_apply, M.pure_apply]
      rw [hs', hW]
      rfl

omit hnz in
/-- States that meet the hypotheses of `C86_dirichletProcess_partial`: all sticks are one half, all atoms equal. -/
example {W : World ℝ 1 ℝ} (hW : ∀ p q, W.atom p q = 0) (hω : ∀ p a b, ω.beta p a b = 1 / 2) (d : Fin 2 → ℕ) : let v : ℕ → ℝ := fun _ => 1 / 2
    let k0 := d 0 + d 1 + 1
    let dp : DP ℝ := { alpha := 1, v := (List.range k0).map v, w := stickWeights ((List.range k0).map v), d := [] }
    let s : GM (DP.cls : WeightClass ℝ) 1 ℝ :=
      { totalIter := 5, burnIn := 0, subsample := 1, nAttr := none, muPrior := none, lam := 1, psiPrior := none, nuPrior := none,
        y := List.ofFn (fun _ : Fin 2 => fun _ => 0), d := List.ofFn d, theta := [(0, 0)], thetaDefault := true, u := [], affinity := [],
        mapParams := none, mapLL := ⊥, saved := [], nGroups := [], nAtoms := [], totalSaved := 0, gibbsFitted := false, wst := (dp, 7) }
    (∀ j, 0 ≤ v j ∧ v j ≤ 1) ∧ HasSum (stickSeq v) 1 ∧ (∀ i, d i < k0) ∧ 0 < dp.alpha ∧ (∀ i, ω.beta (7 + i) 1 dp.alpha = v (k0 + i)) ∧
      ∀ us ws k, ∃ s', getAtoms W (List.range k) ω (({ s with u := us, wst := ws }, 5) : GM (DP.cls : WeightClass ℝ) 1 ℝ × ℕ) = (.ok ((List.range k).map fun _ => 0), s') := by
  refine ⟨fun _ => by norm_num, ?_, fun i => ?_, one_pos, fun i => hω _ _ _, fun us ws k => getAtoms_const hW _ _ rfl (fun k b hb => ?_)⟩
  · have : stickSeq (fun _ => (1 / 2 : ℝ)) = fun j => 1 / 2 * (1 / 2) ^ j := by
      funext j
      simp only [stickSeq, Finset.prod_const, Finset.card_range]
      norm_num
    simp only [this]
    have := (hasSum_geometric_of_lt_one (r := (1 / 2 : ℝ)) (by norm_num) (by norm_num)).mul_left (1 / 2)
    norm_num at this ⊢
    exact this
  · fin_cases i <;> simp
  · simp only [List.lookup] at hb
    split at hb
    · exact (Option.some.inj hb).symm
    · simp at hb

end Verif.Mix
